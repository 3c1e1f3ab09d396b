import Verif.Answer.Trans
import Verif.Query.Connected

/-!
# C101: the rows of one alternative
-/

set_option linter.unusedSectionVars false

namespace Answer

open Whole

section
variable {T E : Type} [LinearOrder T] {env : NsEnv Str Str} {g : NsGraph T Str Str} {db : Db T} {th : TokenHelper T} {order : GStore T}
  {r : Rels T Str Str} {De : EdgeStore T Str Str → T → Prop} {Re : EdgeStore T Str Str → Nat → Bnd Nat → Prop}
  {Ec : GStore T → T → T → Prop} {D : T → Prop} {Rg : Nat → Bnd Nat → Prop} {ops : List (AnnoStore.Op T Str Str)}
  {offset : Nat} {c : List Parse.QLit} {L : List (Aql.Occ (NsSpec Str Str))} {q : QConj}
  {decU dec : Nat → Bool × Bool} {us : List (Nat × (SMatch T (AnnoKey Str) → Except (Fail E) Bool))} {bins : List (Bin T Str Str)}

/-! ### Operators between two nodes -/

/-- An operator between nodes that are not optional is in the conjunction. -/
theorem lit_entry (ht : Aql.Translated false offset c L q) (hs : L.Pairwise fun a b => a.pos < b.pos) (hn : Aql.NamesDistinct L)
    {lhs rhs : Parse.QOpd} {op : Aql.BinSpec Parse.OpSpec} {neg : Bool}
    (hl : .bin lhs op rhs neg ∈ c) {i j : Nat} (hi : Aql.Denotes offset L lhs i) (hj : Aql.Denotes offset L rhs j)
    (ho : neg = true → ∃ a b, L[i]? = some a ∧ L[j]? = some b ∧ a.optional = false ∧ b.optional = false) :
    (∃ a b, L[i]? = some a ∧ L[j]? = some b ∧ a.optional = false ∧ b.optional = false) ∧
    ∃ x ∈ q.bins, x.left = offset + i ∧ x.right = offset + j ∧ isBinding x.op = !neg ∧
      ∀ d, binOf env db d q.offset x = (kindOf db env d op).map fun k => ⟨if neg then .negated k else k, i, j⟩ := by
  obtain ⟨e, he, hin, _⟩ := bin_effect ht hl
  obtain ⟨i', j', a, b, h1, h2, h3, h4, h⟩ := effect_cases he
  obtain rfl := Aql.denotes_unique hn hs h1 hi
  obtain rfl := Aql.denotes_unique hn hs h2 hj
  rcases h with ⟨rfl, h5, h6, rfl⟩ | ⟨rfl, h5, h6, rfl⟩ | ⟨rfl, h5, h6, rfl⟩ | ⟨rfl, h5, h6, rfl⟩
  · exact ⟨⟨a, b, h3, h4, h5, h6⟩, _, hin _ rfl, rfl, rfl, rfl, fun d => by simp [binOf, ht.offset_eq]⟩
  · exact ⟨⟨a, b, h3, h4, h5, h6⟩, _, hin _ rfl, rfl, rfl, rfl, fun d => by simp [binOf, ht.offset_eq]⟩
  · obtain ⟨a', b', h3', h4', h5', h6'⟩ := ho rfl
    rw [h3, Option.some.injEq] at h3'
    subst h3'
    rw [h5] at h5'; simp at h5'
  · obtain ⟨a', b', h3', h4', h5', h6'⟩ := ho rfl
    rw [h4, Option.some.injEq] at h4'
    subst h4'
    rw [h6] at h6'; simp at h6'

/-- An operator between nodes that are not optional is in the plan. -/
theorem lit_bin (ht : Aql.Translated false offset c L q) (hs : L.Pairwise fun a b => a.pos < b.pos) (hn : Aql.NamesDistinct L)
    (hb : binsOf env db dec q = some bins) {lhs rhs : Parse.QOpd} {op : Aql.BinSpec Parse.OpSpec} {neg : Bool}
    (hl : .bin lhs op rhs neg ∈ c) {i j : Nat} (hi : Aql.Denotes offset L lhs i) (hj : Aql.Denotes offset L rhs j)
    (ho : neg = true → ∃ a b, L[i]? = some a ∧ L[j]? = some b ∧ a.optional = false ∧ b.optional = false) :
    (∃ a b, L[i]? = some a ∧ L[j]? = some b ∧ a.optional = false ∧ b.optional = false) ∧
    ∃ d k, kindOf db env d op = some k ∧ ⟨if neg then .negated k else k, i, j⟩ ∈ bins := by
  obtain ⟨h1, x, hx, _, _, _, hx4⟩ := lit_entry (env := env) (db := db) ht hs hn hl hi hj ho
  refine ⟨h1, ?_⟩
  obtain ⟨n, hxn⟩ := List.mem_iff_getElem?.1 hx
  have hall := allSome_mapIdx hb n
  rw [hxn, Option.map_some, hx4] at hall
  cases hbn : bins[n]? with
  | none => rw [hbn] at hall; simp at hall
  | some bn =>
    rw [hbn, Option.map_some, Option.some.injEq, eq_comm, Option.map_eq_some_iff] at hall
    obtain ⟨k, hk, rfl⟩ := hall
    exact ⟨dec n, k, hk, List.mem_of_getElem? hbn⟩

/-- An operator of the plan is in the text. -/
theorem bin_lit (ht : Aql.Translated false offset c L q) (hb : binsOf env db dec q = some bins) {b : Bin T Str Str} (h : b ∈ bins) :
    ∃ lhs op rhs neg d k, .bin lhs op rhs neg ∈ c ∧ Aql.Denotes offset L lhs b.left ∧ Aql.Denotes offset L rhs b.right ∧
      kindOf db env d op = some k ∧ b.kind = (if neg then .negated k else k) ∧
      ∃ o o', L[b.left]? = some o ∧ L[b.right]? = some o' ∧ o.optional = false ∧ o'.optional = false := by
  obtain ⟨n, x, hx, hbx⟩ := (bins_mem hb).1 h
  obtain ⟨lhs, op, rhs, neg, i, j, a, a', hl, h1, h2, h3, h4, h5, h6, _, _, _, _, e⟩ := bin_kind (env := env) (db := db) ht (List.mem_of_getElem? hx) (dec n)
  rw [e, Option.map_eq_some_iff] at hbx
  obtain ⟨k, hk, rfl⟩ := hbx
  exact ⟨lhs, op, rhs, neg, dec n, k, hl, h1, h2, hk, rfl, a, a', h3, h4, h5, h6⟩

/-! ### The checks -/

theorem mem_shape (ht : Aql.Translated false offset c L q) (n : Nat) :
    n ∈ (shape q).nodes ↔ ∃ (i : Nat) (o : Aql.Occ (NsSpec Str Str)), L[i]? = some o ∧ o.optional = false ∧ n = offset + i := by
  unfold ConjShape.nodes shape
  simp only [List.mem_filterMap, Prod.exists, List.mem_zipIdx_iff_getElem?, ht.nodes, ht.offset_eq, List.getElem?_map, List.getElem?_mapIdx,
    Option.map_map, Option.map_eq_some_iff, Function.comp_apply]
  constructor
  · rintro ⟨b, i, ⟨o, ho, rfl⟩, h⟩
    cases hopt : o.optional with
    | true => simp [hopt] at h
    | false => simp [hopt] at h; exact ⟨i, o, ho, hopt, h.symm⟩
  · rintro ⟨i, o, ho, hopt, rfl⟩
    exact ⟨false, i, ⟨o, ho, hopt⟩, by simp⟩

theorem mem_flat (ht : Aql.Translated false offset c L q) (ops : List (Nat × Nat × Bool)) (n : Nat) :
    n ∈ (⟨(nodesOf us q).map Option.isNone, 0, ops⟩ : ConjShape).nodes ↔ ∃ o, L[n]? = some o ∧ o.optional = false := by
  unfold ConjShape.nodes
  simp only [List.mem_filterMap, Prod.exists, List.mem_zipIdx_iff_getElem?, List.getElem?_map, nodesOf_get ht, Option.map_map,
    Option.map_eq_some_iff, Function.comp_apply]
  constructor
  · rintro ⟨b, i, ⟨o, ho, rfl⟩, h⟩
    cases hopt : o.optional with
    | true => simp [hopt] at h
    | false => simp [hopt] at h; subst h; exact ⟨o, ho, hopt⟩
  · rintro ⟨o, ho, hopt⟩
    exact ⟨false, n, ⟨o, ho, by simp [hopt]⟩, by simp⟩

theorem eqvGen_map {α β : Type} {R : α → α → Prop} {S : β → β → Prop} (f : α → β) (h : ∀ a b, R a b → S (f a) (f b)) {a b : α}
    (hab : Relation.EqvGen R a b) : Relation.EqvGen S (f a) (f b) := by
  induction hab with
  | rel a b hr => exact .rel _ _ (h a b hr)
  | refl a => exact .refl _
  | symm a b _ ih => exact .symm _ _ ih
  | trans a b c _ _ ih1 ih2 => exact .trans _ _ _ ih1 ih2

theorem connected_shape (ht : Aql.Translated false offset c L q) (hs : L.Pairwise fun a b => a.pos < b.pos) (hn : Aql.NamesDistinct L)
    (ha : AltOk db env g r th Ec Rg De Re offset c L) : checkConnected (shape q) = true := by
  rw [C41_connected]
  intro a h1 b h2
  obtain ⟨i, o, hi, hoi, rfl⟩ := (mem_shape ht a).1 h1
  obtain ⟨j, o', hj, hoj, rfl⟩ := (mem_shape ht b).1 h2
  refine eqvGen_map (offset + ·) ?_ (ha.connected i j ⟨o, hi, hoi⟩ ⟨o', hj, hoj⟩)
  rintro i j ⟨lhs, op, rhs, hl, hdi, hdj⟩
  obtain ⟨⟨x, y, h3, h4, h5, h6⟩, e, he, e1, e2, e3, _⟩ := lit_entry (env := env) (db := db) ht hs hn hl hdi hdj (by simp)
  refine ⟨?_, (mem_shape ht _).2 ⟨i, x, h3, h5, rfl⟩, (mem_shape ht _).2 ⟨j, y, h4, h6, rfl⟩⟩
  exact List.mem_map.2 ⟨e, he, by rw [e1, e2, e3]; rfl⟩

theorem unaries_ok (ht : Aql.Translated false offset c L q) (ha : AltOk db env g r th Ec Rg De Re offset c L) : unariesOk q = true := by
  unfold unariesOk
  rw [List.all_eq_true]
  intro u hu
  have key : ∀ {i : Nat} {o : Aql.Occ (NsSpec Str Str)}, L[i]? = some o → o.optional = false →
      ((q.nodes[i]?).any fun n => !n.optional) = true := by
    intro i o h1 h2
    rw [ht.nodes, List.getElem?_mapIdx, h1]
    simp [h2]
  rcases un_origin ht hu with ⟨ref, range, hl, _, hd⟩ | ⟨lhs, op, rhs, neg, hl, he⟩
  · obtain ⟨o, ho, _⟩ := id hd
    exact key ho (ha.arity ref range hl _ o hd ho)
  · obtain ⟨i, j, a, b, _, _, h3, h4, h⟩ := effect_cases he
    rcases h with ⟨_, _, _, h⟩ | ⟨_, _, _, h⟩ | ⟨_, _, h6, h⟩ | ⟨_, h5, _, h⟩
    · simp at h
    · simp at h
    · simp only [Sum.inr.injEq] at h
      subst h
      exact key h4 h6
    · simp only [Sum.inr.injEq] at h
      subst h
      exact key h3 h5

theorem query_ok (hdb : DbOk db r De Re) (ht : Aql.Translated false offset c L q) (hs : L.Pairwise fun a b => a.pos < b.pos)
    (hn : Aql.NamesDistinct L) (ha : AltOk db env g r th Ec Rg De Re offset c L) (hb : binsOf env db dec q = some bins)
    (m : AnnoStore.Spec T Str Str) : QueryOk env m r th Ec Rg De Re (nodesOf us q) bins where
  nonempty := by
    obtain ⟨o, ho, h⟩ := ha.nonempty
    obtain ⟨n, hn⟩ := List.mem_iff_getElem?.1 ho
    exact ⟨n, _, (node_some ht).2 ⟨o, hn, h, rfl⟩⟩
  unambiguous nd h := by
    obtain ⟨n, hn⟩ := List.mem_iff_getElem?.1 h
    obtain ⟨o, h1, h2, rfl⟩ := (node_some ht).1 hn
    exact ha.unambiguous o (List.mem_of_getElem? h1) h2
  operands b h := by
    obtain ⟨_, _, _, _, _, _, _, _, _, _, _, o, o', h1, h2, h3, h4⟩ := bin_lit ht hb h
    exact ⟨⟨_, (node_some ht).2 ⟨o, h1, h3, rfl⟩⟩, _, (node_some ht).2 ⟨o', h2, h4, rfl⟩⟩
  connected := by
    rw [C41_connected]
    intro i h1 j h2
    rw [mem_flat ht] at h1 h2
    refine eqvGen_map (fun n => n) ?_ (ha.connected i j h1 h2)
    rintro i j ⟨lhs, op, rhs, hl, hdi, hdj⟩
    obtain ⟨⟨x, y, h3, h4, h5, h6⟩, d, k, hk, hkb⟩ := lit_bin ht hs hn hb hl hdi hdj (by simp)
    refine ⟨List.mem_map.2 ⟨_, hkb, ?_⟩, (mem_flat ht _ _).2 ⟨x, h3, h5⟩, (mem_flat ht _ _).2 ⟨y, h4, h6⟩⟩
    simp [kind_binding hk]
  fits b h := by
    obtain ⟨lhs, op, rhs, neg, d, k, hl, _, _, hk, e, _⟩ := bin_lit ht hb h
    rw [e]
    cases neg with
    | false => exact kind_fits hdb hk (ha.fits _ _ _ _ hl) _
    | true => exact kind_fits hdb hk (ha.fits _ _ _ _ hl) _

theorem sizes_ok (ht : Aql.Translated false offset c L q) (ha : AltOk db env g r th Ec Rg De Re offset c L) (hb : binsOf env db dec q = some bins)
    (m : AnnoStore.Spec T Str Str) : SizesOk env m r (sizes db q) (nodesOf us q) bins := by
  intro n bn hbn nd hnd est e h1 h2 h3
  have hall := allSome_mapIdx hb n
  cases hx : q.bins[n]? with
  | none => rw [hx, hbn] at hall; simp at hall
  | some x =>
    obtain ⟨lhs, op, rhs, neg, i, j, a, b, hl, g1, g2, g3, g4, g5, g6, _, _, _, g7, g8⟩ :=
      bin_kind (env := env) (db := db) ht (List.mem_of_getElem? hx) (dec n)
    rw [hx, hbn, Option.map_some, Option.map_some, g8, Option.some.injEq] at hall
    obtain ⟨k, hk, rfl⟩ := Option.map_eq_some_iff.1 hall.symm
    obtain ⟨o, h4, h5, rfl⟩ := (node_some ht).1 hnd
    rw [g3, Option.some.injEq] at h4
    subst h4
    have hc : (sizes db q).comps n = db.comps op := by simp only [sizes, hx, g7]
    have he : (sizes db q).est i = db.cost a.spec := by
      simp only [sizes]
      rw [ht.nodes, List.getElem?_mapIdx, g3]
      rfl
    rw [hc] at h2 ⊢
    rw [he] at h1
    obtain ⟨r1, r2, rfl, r4⟩ := ha.replaced _ _ _ _ hl i j a b g1 g2 g3 g4 g5 g6 est e h1 h2 h3
    exact ⟨fun x y _ hh => r4 _ _ ((kind_holds hk _ _).1 hh), r2, r1⟩

theorem path_source {C : EdgeStore T Str Str → Prop} {dist : RangeSpec} {anno : Option Parse.EdgeSpec} (hd : 1 ≤ dist.minDist) {a b : T}
    (h : Path env r C dist anno a b) : ∃ c, C c ∧ ∃ y, r.edge c a y := by
  obtain ⟨c, hc, ⟨k, hp, hw⟩, _⟩ := h
  have hk : 1 ≤ k := le_trans hd hw.1
  obtain ⟨k', rfl⟩ : ∃ k', k = k' + 1 := ⟨k - 1, by omega⟩
  obtain ⟨x, hx, _⟩ := Walk.walkLen_succ.1 hp.walk
  exact ⟨c, hc, x, hx⟩

/-- **C101**: replacing the search for the left operand of a dominance or pointing operator, or of a part-of operator, does no harm if it
shows the annotation that is searched, paths have a length of at least 1, and (for components with the same name) no node is a source node
of two components. -/
theorem C101_replaceable (hdb : DbOk db r De Re) {spec : NsSpec Str Str} (hs : ShowsSearched spec) {dist : RangeSpec} (hd : 1 ≤ dist.minDist) :
    Replaceable db env r spec (.other (.partOf dist)) false ∧
    (∀ name anno, ((named db.dominance name).Pairwise fun c c' => ∀ a ∈ (db.loaded c).sources, a ∉ (db.loaded c').sources) →
      Replaceable db env r spec (.join (.dominance name dist anno)) false) ∧
    ∀ name anno, ((named db.pointing name).Pairwise fun c c' => ∀ a ∈ (db.loaded c).sources, a ∉ (db.loaded c').sources) →
      Replaceable db env r spec (.join (.pointing name dist anno)) false := by
  have key : ∀ {cs : List (Str × EdgeStore T Str Str)} {name : Str} {anno : Option Parse.EdgeSpec},
      (∀ c, (name, c) ∈ cs → (db.loaded c).sources.Nodup ∧ ∀ a b, r.edge c a b → a ∈ (db.loaded c).sources) →
      ((named cs name).Pairwise fun c c' => ∀ a ∈ (db.loaded c).sources, a ∉ (db.loaded c').sources) →
      NodeSearch.SourcesOnce ((named cs name).map fun c => some (db.loaded c)) ∧ ∀ x y, Path env r (fun c => (name, c) ∈ cs) dist anno x y →
        NodeSearch.IsSource ((named cs name).map fun c => some (db.loaded c)) x := by
    intro cs name anno h1 h2
    have hm : ∀ c, c ∈ named cs name ↔ (name, c) ∈ cs := by
      intro c
      unfold named
      rw [List.mem_map]
      constructor
      · rintro ⟨⟨n, c'⟩, hp, rfl⟩
        rw [List.mem_filter] at hp
        have : n = name := by simpa using hp.2
        subst this
        exact hp.1
      · intro hc
        exact ⟨(name, c), List.mem_filter.2 ⟨hc, by simp⟩, rfl⟩
    refine ⟨⟨fun s hs' => ?_, ?_⟩, fun x y hp => ?_⟩
    · obtain ⟨c, hc, he⟩ := List.mem_map.1 hs'
      simp only [Option.some.injEq] at he
      subst he
      exact (h1 c ((hm c).1 hc)).1
    · refine List.pairwise_map.2 (h2.imp ?_)
      intro c c' h s s' e e'
      simp only [Option.some.injEq] at e e'
      subst e e'
      exact h
    · obtain ⟨c, hc, y', hy⟩ := path_source hd hp
      exact ⟨_, List.mem_map.2 ⟨c, (hm c).2 hc, rfl⟩, (h1 c hc).2 _ _ hy⟩
  refine ⟨fun est e _ _ _ => ⟨hs, ⟨?_, by simp [Db.comps]⟩, rfl, fun x y hp => ?_⟩, fun name anno ha est e _ _ _ => ?_, fun name anno ha est e _ _ _ => ?_⟩
  · intro s hs'
    simp only [Db.comps, List.mem_singleton] at hs'
    obtain ⟨c, hc, rfl⟩ := Option.map_eq_some_iff.1 hs'.symm
    exact hdb.once c (.inr hc)
  · obtain ⟨c, hc, y', hy⟩ := path_source hd hp
    exact ⟨db.loaded c, by simp [Db.comps, hc], hdb.sources c (.inr hc) _ _ hy⟩
  · obtain ⟨k1, k2⟩ := key (cs := db.dominance) (anno := anno)
      (fun c hc => ⟨hdb.once c (.inl ⟨name, .inl hc⟩), hdb.sources c (.inl ⟨name, .inl hc⟩)⟩) ha
    exact ⟨hs, k1, rfl, k2⟩
  · obtain ⟨k1, k2⟩ := key (cs := db.pointing) (anno := anno)
      (fun c hc => ⟨hdb.once c (.inl ⟨name, .inr hc⟩), hdb.sources c (.inl ⟨name, .inr hc⟩)⟩) ha
    exact ⟨hs, k1, rfl, k2⟩

/-- **C101**: the operands of the operator `_ident_` are never replaced, it has no components. -/
theorem C101_ident_replaceable (spec : NsSpec Str Str) (neg : Bool) : Replaceable db env r spec (.other .identicalNode) neg := by
  intro est e _ he
  simp [Db.comps, NodeSearch.pocEstimate] at he

/-- An operator that needs a missing component. -/
theorem lacks_of (ht : Aql.Translated false offset c L q) (ha : AltOk db env g r th Ec Rg De Re offset c L) (h : ¬ PartOk db c) :
    lacksAny db q = true ∧ (∀ dec, binsOf env db dec q = none) ∧
    ∀ (m : AnnoStore.Spec T Str Str) (d : SMatch T (AnnoKey Str)) row, ¬ TextAnswer db env m r d offset c L row := by
  unfold PartOk at h
  push Not at h
  obtain ⟨lhs, op, rhs, neg, hl, hop⟩ := h
  have hop : lacks db op = true := by simpa using hop
  have hno : (∀ dec, kindOf db env dec op = none) ∧ ∀ x y, ¬ Means db env r op x y := by
    unfold lacks at hop
    split at hop
    · rw [Option.isNone_iff_eq_none] at hop
      exact ⟨fun dec => by simp [kindOf, hop], fun x y => by simp [Means, Path, hop]⟩
    · rw [Option.isNone_iff_eq_none] at hop
      exact ⟨fun dec => by simp [kindOf, hop], fun x y => by simp [Means, hop]⟩
    · rw [Option.isNone_iff_eq_none] at hop
      exact ⟨fun dec => by simp [kindOf, hop], fun x y => by simp [Means, hop]⟩
    · cases hop
  have hneg : neg = false := by
    cases neg with
    | false => rfl
    | true =>
      have hs := ha.supported _ _ _ _ hl
      unfold lacks at hop
      split at hop
      · exact absurd (Option.isNone_iff_eq_none.1 hop) (hs rfl)
      · exact absurd (Option.isNone_iff_eq_none.1 hop) (hs rfl)
      · exact absurd (Option.isNone_iff_eq_none.1 hop) (hs rfl)
      · cases hop
  subst hneg
  obtain ⟨e, he, hin, _⟩ := bin_effect ht hl
  obtain ⟨i, j, a, b, h1, h2, h3, h4, h5⟩ := effect_cases he
  simp only [true_and, Bool.false_eq_true, false_and, or_false] at h5
  obtain ⟨h5, h6, rfl⟩ := h5
  have hx := hin _ rfl
  refine ⟨?_, ?_, ?_⟩
  · unfold lacksAny
    rw [Bool.or_eq_true, List.any_eq_true]
    exact Or.inl ⟨_, hx, hop⟩
  · intro dec
    cases hb : binsOf env db dec q with
    | none => rfl
    | some bins =>
      obtain ⟨n, hxn⟩ := List.mem_iff_getElem?.1 hx
      have hall := allSome_mapIdx hb n
      rw [hxn] at hall
      cases hbn : bins[n]? <;> simp [hbn, binOf, hno.1] at hall
  · intro m d row hta
    obtain ⟨x, y, _, _, hm⟩ := hta.holds _ _ _ hl i j h1 h2
    exact hno.2 _ _ hm

/-! ### Rows -/

theorem isAnswer_iff (hco : CorpusOk ops env g r th order Ec D Rg) (hdb : DbOk db r De Re) (ht : Aql.Translated false offset c L q)
    (hs : L.Pairwise fun a b => a.pos < b.pos) (hn : Aql.NamesDistinct L) (ha : AltOk db env g r th Ec Rg De Re offset c L)
    (hus : unariesOf (E := E) env g db th order decU q = some us) (hb : binsOf env db dec q = some bins) (d : SMatch T (AnnoKey Str))
    (row : Row T (AnnoKey Str)) :
    IsAnswer env (AnnoStore.spec ops) r d (nodesOf us q) bins row ↔ TextAnswer db env (AnnoStore.spec ops) r d offset c L row := by
  have hlen : ∀ i, (∃ (n : Nat) (nd : Node T Str Str), i ≤ n ∧ (nodesOf us q)[n]? = some (some nd)) ↔
      ∃ (n : Nat) (o : Aql.Occ (NsSpec Str Str)), i ≤ n ∧ L[n]? = some o ∧ o.optional = false := by
    intro i
    constructor
    · rintro ⟨n, nd, h1, h2⟩
      obtain ⟨o, h3, h4, _⟩ := (node_some ht).1 h2
      exact ⟨n, o, h1, h3, h4⟩
    · rintro ⟨n, o, h1, h2, h3⟩
      exact ⟨n, _, h1, (node_some ht).2 ⟨o, h2, h3, rfl⟩⟩
  have hun := fun i m => (C101_unary hco hdb ht hs hn ha hus i m).2
  constructor
  · intro h
    have hf : ∀ (n : Nat) o, L[n]? = some o → o.optional = false → ∃ x, row[n]? = some x ∧ Finds env (AnnoStore.spec ops) r o.spec x ∧
        ∀ u ∈ us, u.1 = n → accepts u.2 x = true := by
      intro n o h1 h2
      obtain ⟨x, hx, h3, h4⟩ := h.found n _ ((node_some (us := us) ht).2 ⟨o, h1, h2, rfl⟩)
      exact ⟨x, hx, h3, (keep_iff n x).1 h4⟩
    refine ⟨fun i => (h.length i).trans (hlen i), ?_, ?_, ?_, ?_, ?_, ?_, ?_⟩
    · intro n o h1 h2
      obtain ⟨x, hx, h3, _⟩ := hf n o h1 h2
      exact ⟨x, hx, h3⟩
    · intro n o x h1 h2 h3
      exact h.default n x ((node_none ht).2 ⟨o, h1, h2⟩) h3
    · intro lhs op rhs hl i j hi hj
      obtain ⟨_, dd, k, hk, hkb⟩ := lit_bin ht hs hn hb hl hi hj (by simp)
      obtain ⟨x, y, hx, hy, hh⟩ := h.holds _ hkb
      exact ⟨x, y, hx, hy, (kind_holds hk _ _).1 hh⟩
    · intro lhs op rhs hl i j a b hi hj h3 h4 h5 h6
      obtain ⟨_, dd, k, hk, hkb⟩ := lit_bin ht hs hn hb hl hi hj fun _ => ⟨a, b, h3, h4, h5, h6⟩
      obtain ⟨x, y, hx, hy, hh⟩ := h.holds _ hkb
      exact ⟨x, y, hx, hy, fun hm => hh ((kind_holds hk _ _).2 hm)⟩
    · intro lhs op rhs hl i j a b hi hj h3 h4 h5 h6
      obtain ⟨x, hx, _, hacc⟩ := hf i a h3 h5
      exact ⟨x, hx, ((hun i x).1 hacc).2.1 lhs op rhs hl j a b hi hj h3 h4 h5 h6⟩
    · intro lhs op rhs hl i j a b hi hj h3 h4 h5 h6
      obtain ⟨y, hy, _, hacc⟩ := hf j b h4 h6
      exact ⟨y, hy, ((hun j y).1 hacc).2.2 lhs op rhs hl i a b hi hj h3 h4 h5 h6⟩
    · intro ref range hl i hd
      obtain ⟨o, ho, _⟩ := id hd
      obtain ⟨x, hx, _, hacc⟩ := hf i o ho (ha.arity ref range hl i o hd ho)
      exact ⟨x, hx, ((hun i x).1 hacc).1 ref range hl hd⟩
  · intro h
    refine ⟨fun i => (h.length i).trans (hlen i).symm, ?_, ?_, ?_⟩
    · intro n nd hnd
      obtain ⟨o, h1, h2, rfl⟩ := (node_some ht).1 hnd
      obtain ⟨x, hx, hfx⟩ := h.found n o h1 h2
      refine ⟨x, hx, hfx, (keep_iff n x).2 ((hun n x).2 ⟨?_, ?_, ?_⟩)⟩
      · intro ref range hl hd
        obtain ⟨x', hx', har⟩ := h.arity ref range hl n hd
        rw [hx, Option.some.injEq] at hx'
        subst hx'
        exact har
      · intro lhs op rhs hl j a b hi hj h3 h4 h5 h6
        obtain ⟨x', hx', har⟩ := h.missingRight lhs op rhs hl n j a b hi hj h3 h4 h5 h6
        rw [hx, Option.some.injEq] at hx'
        subst hx'
        exact har
      · intro lhs op rhs hl j a b hi hj h3 h4 h5 h6
        obtain ⟨x', hx', har⟩ := h.missingLeft lhs op rhs hl j n a b hi hj h3 h4 h5 h6
        rw [hx, Option.some.injEq] at hx'
        subst hx'
        exact har
    · intro n x hnd hx
      obtain ⟨o, h1, h2⟩ := (node_none ht).1 hnd
      exact h.default n o x h1 h2 hx
    · intro b hbm
      obtain ⟨lhs, op, rhs, neg, dd, k, hl, hi, hj, hk, e, o, o', h3, h4, h5, h6⟩ := bin_lit ht hb hbm
      cases neg with
      | false =>
        obtain ⟨x, y, hx, hy, hm⟩ := h.holds lhs op rhs hl _ _ hi hj
        refine ⟨x, y, hx, hy, ?_⟩
        rw [e]
        exact (kind_holds hk _ _).2 hm
      | true =>
        obtain ⟨x, y, hx, hy, hm⟩ := h.negated lhs op rhs hl _ _ o o' hi hj h3 h4 h5 h6
        refine ⟨x, y, hx, hy, ?_⟩
        rw [e]
        exact fun hh => hm ((kind_holds hk _ _).1 hh)

theorem distinct_iff (ht : Aql.Translated false offset c L q) (row : Row T (AnnoKey Str)) : DistinctRow (nodesOf us q) row ↔ Distinct L row := by
  constructor
  · intro h i j x a b hij h1 h2 h3 h4
    exact h i j x _ _ hij ((node_some ht).2 ⟨a, h1, h3, rfl⟩) ((node_some ht).2 ⟨b, h2, h4, rfl⟩)
  · intro h i j x nd nd' hij h1 h2
    obtain ⟨a, h3, h4, _⟩ := (node_some ht).1 h1
    obtain ⟨b, h5, h6, _⟩ := (node_some ht).1 h2
    exact h i j x a b hij h3 h5 h4 h6

/-- A search with a pattern that does not compile finds nothing. -/
theorem finds_compiled {m : AnnoStore.Spec T Str Str} {s : NsSpec Str Str} {x : SMatch T (AnnoKey Str)} (h : Finds env m r s x) {p : Str}
    (hp : NodeSearch.patternOf s = some p) : env.compile p ≠ none := by
  obtain ⟨k, hk, _⟩ := h
  have hit : ∀ {ns : Option Str} {name : Str} {P : (Str → Bool) → Str → Prop} {n : T},
      AnnoStore.Hit m ns name (fun w => ∃ f, env.compile p = some f ∧ P f w) n k → env.compile p ≠ none := by
    rintro ns name P n ⟨_, _, v, _, f, hf, _⟩ h
    rw [h] at hf; simp at hf
  cases s <;> simp only [NodeSearch.patternOf, reduceCtorEq, Option.some.injEq] at hp <;> subst hp
  · exact hit (P := fun f w => f w = true) hk
  · exact hit (P := fun f w => f w = false) hk
  · exact hit (P := fun f w => f w = true) hk.1
  · exact hit (P := fun f w => f w = false) hk.1

end
end Answer
