import Verif.Answer.Props

/-!
# C101: operators of the text and operators on the graph
-/

set_option linter.unusedSectionVars false

namespace Answer

open Whole TextSpec

theorem allSome_iff {α : Type} {l : List (Option α)} {l' : List α} : allSome l = some l' ↔ l = l'.map some := by
  induction l generalizing l' with
  | nil => cases l' <;> simp [allSome]
  | cons o l ih =>
    cases o with
    | none => cases l' <;> simp [allSome]
    | some a =>
      rw [allSome, Option.map_eq_some_iff]
      constructor
      · rintro ⟨l2, h1, rfl⟩
        rw [ih.1 h1]; rfl
      · intro h
        cases l' with
        | nil => simp at h
        | cons b l' =>
          simp only [List.map_cons, List.cons.injEq, Option.some.injEq] at h
          exact ⟨l', ih.2 h.2, by rw [h.1]⟩

theorem allSome_mapIdx {α β : Type} {f : Nat → α → Option β} {l : List α} {l' : List β} (h : allSome (l.mapIdx f) = some l') (n : Nat) :
    l'[n]?.map some = l[n]?.map (f n) := by
  rw [allSome_iff] at h
  rw [← List.getElem?_map, ← h, List.getElem?_mapIdx]

theorem allSome_exists {α β : Type} {f : Nat → α → Option β} {l : List α} (h : ∀ (n : Nat) a, l[n]? = some a → ∃ b, f n a = some b) :
    ∃ l', allSome (l.mapIdx f) = some l' := by
  have key : ∀ m : List (Option β), (∀ o ∈ m, ∃ b, o = some b) → ∃ l', allSome m = some l' := by
    intro m
    induction m with
    | nil => intro _; exact ⟨[], rfl⟩
    | cons o m ih =>
      intro hm
      obtain ⟨b, rfl⟩ := hm o (by simp)
      obtain ⟨l', hl⟩ := ih fun o ho => hm o (by simp [ho])
      exact ⟨b :: l', by simp [allSome, hl]⟩
  refine key _ fun o ho => ?_
  obtain ⟨n, hn, rfl⟩ := List.mem_mapIdx.1 ho
  exact h n _ (List.getElem?_eq_getElem hn)

section
variable {T E : Type} [LinearOrder T] {env : NsEnv Str Str} {g : NsGraph T Str Str} {db : Db T} {th : TokenHelper T} {order : GStore T}
  {r : Rels T Str Str} {De : EdgeStore T Str Str → T → Prop} {Re : EdgeStore T Str Str → Nat → Bnd Nat → Prop}
  {Ec : GStore T → T → T → Prop} {D : T → Prop} {Rg : Nat → Bnd Nat → Prop}

theorem mem_named {comps : List (Str × EdgeStore T Str Str)} {name : Str} {c : EdgeStore T Str Str} :
    c ∈ named comps name ↔ (name, c) ∈ comps := by
  unfold named
  rw [List.mem_map]
  constructor
  · rintro ⟨p, hp, rfl⟩
    rw [List.mem_filter, decide_eq_true_iff] at hp
    rw [← hp.2]; exact hp.1
  · intro h
    exact ⟨(name, c), by rw [List.mem_filter]; exact ⟨h, by simp⟩, rfl⟩

theorem edgeAnno_iff (anno : Option Parse.EdgeSpec) (A : AnnoKey Str → Str → Prop) :
    EdgeAnnoSpec.Holds (anno.map (edgeSpec env)) A ↔ ∀ s, anno = some s → EdgeAnno env A s := by
  cases anno with
  | none => simp [EdgeAnnoSpec.Holds]
  | some s => cases s <;> simp [EdgeAnnoSpec.Holds, edgeSpec, EdgeAnno]

theorem related_iff {gs : List (EdgeStore T Str Str)} {C : EdgeStore T Str Str → Prop} (hC : ∀ c, c ∈ gs ↔ C c) (dist : RangeSpec)
    (anno : Option Parse.EdgeSpec) (a b : T) :
    EdgeOp.Related r.edge r.anno gs dist (anno.map (edgeSpec env)) a b ↔ Path env r C dist anno a b := by
  unfold EdgeOp.Related Path
  refine exists_congr fun c => ?_
  rw [hC, edgeAnno_iff]

theorem kind_exists (dec : Bool × Bool) {neg : Bool} {op : Aql.BinSpec Parse.OpSpec} (h : Supported db neg op)
    (hl : lacks db op = false) : ∃ k, kindOf db env dec op = some k := by
  unfold Supported at h
  split at h <;> first | exact ⟨_, rfl⟩ | exact h.elim | skip
  all_goals
    simp only [lacks, Option.isNone_eq_false_iff] at hl
    obtain ⟨c, hc⟩ := Option.isSome_iff_exists.1 hl
    exact ⟨_, by simp only [kindOf, hc, Option.map_some]; rfl⟩

/-- The relation of an operator on the graph is what the operator of the text means. -/
theorem kind_holds {dec : Bool × Bool} {op : Aql.BinSpec Parse.OpSpec} {k : OpKind T Str Str} (h : kindOf db env dec op = some k) (a b : T) :
    Holds r k a b ↔ Means db env r op a b := by
  unfold kindOf at h
  split at h
  all_goals first | (simp only [Option.some.injEq] at h; subst h) | (simp only [Option.map_eq_some_iff] at h; obtain ⟨c, hc, rfl⟩ := h) | simp at h
  · exact related_iff (fun c => mem_named) _ _ a b
  · exact related_iff (fun c => mem_named) _ _ a b
  · rfl
  · rfl
  · simp only [Means, Holds, hc, Option.some.injEq, exists_eq_left']
  · simp only [Means, Holds, hc, Option.some.injEq, exists_eq_left']
  · exact related_iff (env := env) (anno := none) (fun c' => by rw [hc, List.mem_singleton, Option.some.injEq, eq_comm]) _ a b
  all_goals rfl

theorem kind_binding {dec : Bool × Bool} {op : Aql.BinSpec Parse.OpSpec} {k : OpKind T Str Str} (h : kindOf db env dec op = some k) :
    binding k = true := by
  unfold kindOf at h
  split at h
  all_goals first | (simp only [Option.some.injEq] at h; subst h; rfl) | (simp only [Option.map_eq_some_iff] at h; obtain ⟨c, hc, rfl⟩ := h; rfl) | simp at h

theorem kind_fits (hdb : DbOk db r De Re) {dec : Bool × Bool} {op : Aql.BinSpec Parse.OpSpec} {k : OpKind T Str Str}
    (h : kindOf db env dec op = some k) (hf : OpFits db r th Ec Rg De Re op) (C : T → Prop) : Fits r th Ec Rg De Re C k := by
  unfold kindOf at h
  split at h
  all_goals first | (simp only [Option.some.injEq] at h; subst h) | (simp only [Option.map_eq_some_iff] at h; obtain ⟨c, hc, rfl⟩ := h) | simp at h
  · refine ⟨fun c hc => ⟨hdb.dominance _ c (mem_named.1 hc), (hf c (mem_named.1 hc)).1⟩, ?_⟩
    rcases Nat.lt_or_ge 0 (RangeSpec.minDist _) with h1 | h1
    · exact Or.inl h1
    · exact Or.inr fun c hc n => ((hf c (mem_named.1 hc)).2.resolve_left (by omega)) n
  · refine ⟨fun c hc => ⟨hdb.pointing _ c (mem_named.1 hc), (hf c (mem_named.1 hc)).1⟩, ?_⟩
    rcases Nat.lt_or_ge 0 (RangeSpec.minDist _) with h1 | h1
    · exact Or.inl h1
    · exact Or.inr fun c hc n => ((hf c (mem_named.1 hc)).2.resolve_left (by omega)) n
  · exact hf
  · exact hf
  · exact ⟨hdb.segment _ _ hc, (hf _ hc).range, (hf _ hc).min, (hf _ hc).spans⟩
  · exact ⟨hdb.segment _ _ hc, (hf _ hc).range, (hf _ hc).min, (hf _ hc).spans⟩
  · refine ⟨fun c' hc' => ?_, ?_⟩
    · rw [List.mem_singleton] at hc'; subst hc'
      exact ⟨hdb.partOf _ hc, (hf _ hc).1⟩
    · rcases (hf _ hc).2 with h1 | h1
      · exact Or.inl h1
      · refine Or.inr fun c' hc' => ?_
        rw [List.mem_singleton] at hc'; subst hc'
        exact h1
  · exact ⟨hf.1, hf.2.1, hf.2.2, by simp⟩
  · trivial
  · exact hf
  all_goals trivial

/-! ## Operators on one node -/

theorem decides_of {m : AnnoStore.Spec T Str Str} {op : OpImpl T (AnnoKey Str) E} {H : T → T → Prop}
    (h : ∀ Cl Cr : List (SMatch T (AnnoKey Str)), Decided op H Cl Cr) : NodeSearch.Decides m op H := by
  constructor
  · intro a b
    exact ⟨_, (h [a] [b]).filter a (by simp) b (by simp), bl_iff⟩
  · intro ret hret a
    obtain ⟨l, h1, _, h3⟩ := (h [a] []).retrieve ret hret a (by simp)
    exact ⟨l, h1, fun n _ _ => h3 n⟩

theorem arity_spec (hdb : DbOk db r De Re) (range : RangeSpec) (n : T) :
    ∃ b, arityFilter db.all range n = some b ∧ (b = true ↔ Arity db r range n) := by
  -- the edges of a storage
  let Eg : GStore T → T → T → Prop := fun g a b => ∃ l, g.out a = some l ∧ b ∈ l
  have hcomp : ∀ p ∈ db.dominance ++ db.pointing, EdgeOp.CompOk p.2 (r.edge p.2) (r.anno p.2) (De p.2) (Re p.2) := by
    intro p hp
    rcases List.mem_append.1 hp with h | h
    · exact hdb.dominance p.1 p.2 h
    · exact hdb.pointing p.1 p.2 h
  have hE : ∀ p ∈ db.dominance ++ db.pointing, Eg p.2.g = r.edge p.2 := by
    intro p hp
    funext a b
    obtain ⟨l, h1, _, h3⟩ := (hcomp p hp).g.out a
    refine propext ⟨?_, fun h => ⟨l, h1, (h3 b).2 h⟩⟩
    rintro ⟨l', h1', h2⟩
    rw [h1, Option.some.injEq] at h1'
    subst h1'
    exact (h3 b).1 h2
  have hg : ∀ s ∈ db.all, ∃ D R, s.Is (Eg s) D R := by
    intro s hs
    obtain ⟨p, hp, rfl⟩ := List.mem_map.1 hs
    exact ⟨_, _, by rw [hE p hp]; exact (hcomp p hp).g⟩
  obtain ⟨l, e1, e2⟩ := flatMapOpt_spec (f := fun s : GStore T => s.out n) (P := fun s b => Eg s n b) (l := db.all) (by
    intro s hs
    obtain ⟨D, R, hx⟩ := hg s hs
    obtain ⟨l, e1, _, e3⟩ := hx.out n
    exact ⟨l, e1, e3⟩)
  have hmem : ∀ b, b ∈ l.dedup ↔ ∃ s ∈ db.all, Eg s n b := fun b => by rw [List.mem_dedup]; exact e2 b
  have hmem' : ∀ b, (∃ s ∈ db.all, Eg s n b) ↔ ∃ name c, ((name, c) ∈ db.dominance ∨ (name, c) ∈ db.pointing) ∧ r.edge c n b := by
    intro b
    constructor
    · rintro ⟨s, hs, hb⟩
      obtain ⟨p, hp, rfl⟩ := List.mem_map.1 hs
      rw [hE p hp] at hb
      exact ⟨p.1, p.2, List.mem_append.1 hp, hb⟩
    · rintro ⟨name, c, hp, hb⟩
      have hp' : (name, c) ∈ db.dominance ++ db.pointing := List.mem_append.2 hp
      exact ⟨c.g, List.mem_map.2 ⟨_, hp', rfl⟩, by rw [hE _ hp']; exact hb⟩
  obtain ⟨b, h1, h2⟩ := C56_arity hg range n l.dedup (List.nodup_dedup l) hmem
  refine ⟨b, h1, h2.trans ?_⟩
  unfold Arity
  constructor
  · intro h
    exact ⟨l.dedup, List.nodup_dedup l, fun b => (hmem b).trans (hmem' b), h⟩
  · rintro ⟨ch, c1, c2, c3⟩
    have : ch.length = l.dedup.length := by
      refine List.Perm.length_eq ?_
      rw [List.perm_ext_iff_of_nodup c1 (List.nodup_dedup _)]
      intro b
      rw [c2, hmem, hmem']
    rw [this] at c3
    exact c3

theorem nonExisting_spec {ops : List (AnnoStore.Op T Str Str)} (hco : CorpusOk ops env g r th order Ec D Rg) (hdb : DbOk db r De Re)
    {dec : Bool × Bool} {op : Aql.BinSpec Parse.OpSpec} {k : OpKind T Str Str} (h : kindOf db env dec op = some k)
    (hf : OpFits db r th Ec Rg De Re op) {target : NsSpec Str Str} (left : Bool)
    (hp : ∀ p, NodeSearch.patternOf target = some p → env.compile p ≠ none) (ht : target = .anyToken → g.anyTokens ≠ none)
    (m : SMatch T (AnnoKey Str)) :
    ∃ b, NodeSearch.nonExisting (E := E) env g target left (fwd th order k) (inv th order k) m = .ok b ∧
      (b = true ↔ ¬ ∃ x, Finds env (AnnoStore.spec ops) r target x ∧
        if left then Means db env r op x.node m.node else Means db env r op m.node x.node) := by
  have hfit := kind_fits (env := env) (dec := dec) hdb h hf (fun _ => True)
  obtain ⟨b, h1, h2⟩ := NodeSearch.C68_optional_partial (E := E) ops env g hco.annos hco.coverage hco.exact hco.tokens target left
    (fun p hp' => Option.isSome_iff_ne_none.2 (hp p hp')) (fun h => Option.isSome_iff_ne_none.2 (ht h)) (H := Holds r k) (fwd th order k)
    (decides_of fun Cl Cr => decided_fwd hco.text (C := fun _ => True) (fun _ _ => trivial) k hfit) (inv th order k)
    (fun i hi => decides_of fun Cl Cr => (decided_inv hco.text (C := fun _ => True) (fun _ _ => trivial) k hfit i hi).1) m
  refine ⟨b, h1, h2.trans (not_congr ?_)⟩
  constructor
  · rintro ⟨n, key, hw, hh⟩
    refine ⟨⟨n, _⟩, ⟨key, hw, rfl⟩, ?_⟩
    cases left
    · simpa [kind_holds h] using hh
    · simpa [kind_holds h] using hh
  · rintro ⟨x, ⟨key, hw, _⟩, hh⟩
    refine ⟨x.node, key, hw, ?_⟩
    cases left
    · simpa [kind_holds h] using hh
    · simpa [kind_holds h] using hh

end
end Answer
