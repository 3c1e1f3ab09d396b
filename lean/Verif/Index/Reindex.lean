import Verif.Index.Spec
import Verif.Sort.Congr

/-!
# The text coverage index: recomputing the marked nodes
-/

set_option linter.unusedSimpArgs false
set_option linter.unusedSectionVars false
set_option linter.unusedVariables false

theorem Walk.transGen_iff_simple {N : Type} [DecidableEq N] {E : N → N → Prop} {a b : N} (h : a ≠ b) :
    Relation.TransGen E a b ↔ ∃ d, Walk.SimplePath E a b d ∧ 1 ≤ d := by
  constructor
  · intro ht
    obtain ⟨d, hd⟩ := Walk.reach_iff_simple.1 ht.to_reflTransGen
    refine ⟨d, hd, Nat.pos_of_ne_zero ?_⟩
    rintro rfl
    exact h (Walk.walkLen_zero.1 hd.walk)
  · rintro ⟨d, hd, _⟩
    rcases Relation.reflTransGen_iff_eq_or_transGen.1 (Walk.reach_iff_simple.2 ⟨d, hd⟩) with e | e
    · exact absurd e.symm h
    · exact e

theorem Walk.simple_ne {N : Type} {E : N → N → Prop} {a b : N} {d : Nat} (h : Walk.SimplePath E a b d) (hd : 1 ≤ d) : a ≠ b := by
  rintro rfl
  obtain ⟨p, ⟨h1, h2, _⟩, h3, h4⟩ := h
  cases p with
  | nil => simp at h1
  | cons x p =>
    simp only [List.head?_cons, Option.some.injEq] at h1
    subst h1
    cases p with
    | nil => simp at h4; omega
    | cons y p =>
      rw [List.getLast?_cons_cons] at h2
      have := List.mem_of_getLast? h2
      simp only [List.nodup_cons] at h3
      exact h3.1 this

namespace Graph

namespace Index

variable {S V C : Type} [LinearOrder S] [OrderBot S] [LinearOrder V] [LinearOrder C]
variable {sc : Schema C} {nk tk tok : AnnoKey S} {g g' g1 : Graph S V C} {x : IndexState V C}

/-- Only the index components are different. -/
structure Same (sc : Schema C) (g1 g : Graph S V C) : Prop where
  annos : g.annos = g1.annos
  comp : ∀ c, c ≠ sc.left → c ≠ sc.right → c ≠ sc.inh → g.comp c = g1.comp c

/-- Only the index components are different, and they are consistent. -/
structure Frame (sc : Schema C) (g1 g : Graph S V C) : Prop extends Same sc g1 g where
  srt : g.comps.Sorted
  ci : ∀ c, Adj.Inv (g.comp c)
  bound : ∀ c a b, E g c a b → ∃ l, g1.annos.largest = some l ∧ a ≤ l ∧ b ≤ l

theorem Frame.refl (hI : Inv nk g) : Frame sc g g := ⟨⟨rfl, fun _ _ _ _ => rfl⟩, hI.cs, hI.ci, hI.bound⟩

theorem Frame.inv (hI : Inv nk g1) (h : Frame sc g1 g) : Inv nk g := by
  refine ⟨by rw [h.annos]; exact hI.an, h.srt, h.ci, by rw [h.annos]; exact hI.uniq, by rw [h.annos]; exact hI.named, ?_⟩
  rw [h.annos]; exact h.bound

theorem Same.edge (h : Same sc g1 g) {c : C} (h1 : c ≠ sc.left) (h2 : c ≠ sc.right) (h3 : c ≠ sc.inh) (a b : NodeID64) :
    E g c a b ↔ E g1 c a b := by
  unfold E; rw [h.comp c h1 h2 h3]

/-- An index component is replaced. -/
theorem Frame.set (h : Frame sc g1 g) {c : C} (hc : c = sc.left ∨ c = sc.right ∨ c = sc.inh) {a : Adj NodeID64 S V} (ha : Adj.Inv a)
    (hb : ∀ x y, y ∈ a.out x → ∃ l, g1.annos.largest = some l ∧ x ≤ l ∧ y ≤ l) : Frame sc g1 (g.setComp c a) := by
  refine ⟨⟨h.annos, ?_⟩, OMap.sorted_insert h.srt _ _, ?_, ?_⟩
  · intro d h1 h2 h3
    rw [comp_setComp, if_neg, h.comp d h1 h2 h3]
    rintro rfl
    rcases hc with e | e | e
    · exact h1 e
    · exact h2 e
    · exact h3 e
  · intro d
    rw [comp_setComp]
    split
    · exact ha
    · exact h.ci d
  · intro d x y hxy
    unfold E at hxy
    rw [comp_setComp] at hxy
    split at hxy
    · exact hb x y hxy
    · exact h.bound d x y hxy

theorem edge_set (g : Graph S V C) (c : C) (a : Adj NodeID64 S V) (d : C) (x y : NodeID64) :
    E (g.setComp c a) d x y ↔ if d = c then y ∈ a.out x else E g d x y := by
  unfold E
  rw [comp_setComp]
  split <;> rfl

section
variable (hsc : SchemaOk sc)
include hsc

theorem SchemaOk.left_right : sc.left ≠ sc.right := fun e => by
  have := hsc.left; rw [e, hsc.right] at this; cases this

theorem SchemaOk.left_inh : sc.left ≠ sc.inh := fun e => by
  have := hsc.left; rw [e, hsc.inh] at this; cases this

theorem SchemaOk.right_inh : sc.right ≠ sc.inh := fun e => by
  have := hsc.right; rw [e, hsc.inh] at this; cases this

theorem SchemaOk.cov_ne {c : C} (hc : sc.kind c = .coverage ∨ sc.kind c = .dominance ∨ sc.kind c = .ordering) :
    c ≠ sc.left ∧ c ≠ sc.right := by
  constructor <;> rintro rfl
  · rw [hsc.left] at hc; simp at hc
  · rw [hsc.right] at hc; simp at hc

theorem SchemaOk.dom_ne {c : C} (hc : sc.kind c = .dominance ∨ sc.kind c = .ordering) : c ≠ sc.inh := by
  rintro rfl
  rw [hsc.inh] at hc; simp at hc

theorem Same.direct (h : Same sc g1 g) (a b : NodeID64) : Direct sc g a b ↔ Direct sc g1 a b := by
  unfold Direct
  refine exists_congr fun c => and_congr_right fun hc => and_congr_right fun hi => ?_
  obtain ⟨h1, h2⟩ := hsc.cov_ne (Or.inl hc)
  exact h.edge h1 h2 hi a b

theorem Same.below (h : Same sc g1 g) (a b : NodeID64) : Below sc g a b ↔ Below sc g1 a b := by
  unfold Below
  rw [h.direct hsc]
  refine or_congr Iff.rfl (exists_congr fun c => and_congr_right fun hc => ?_)
  obtain ⟨h1, h2⟩ := hsc.cov_ne (Or.inr (Or.inl hc))
  exact h.edge h1 h2 (hsc.dom_ne (Or.inl hc)) a b

theorem Same.isTok (h : Same sc g1 g) (i : NodeID64) : IsTok sc tok g i ↔ IsTok sc tok g1 i := by
  unfold IsTok
  rw [h.annos]
  simp only [h.direct hsc]

theorem Same.covered (h : Same sc g1 g) (a b : NodeID64) : Covered sc tok g a b ↔ Covered sc tok g1 a b := by
  unfold Covered
  rw [h.isTok hsc, show Below sc g = Below sc g1 from funext fun a => funext fun b => propext (h.below hsc a b)]

theorem Same.before (h : Same sc g1 g) (a b : NodeID64) : Before sc g a b ↔ Before sc g1 a b := by
  unfold Before
  obtain ⟨h1, h2⟩ := hsc.cov_ne (Or.inr (Or.inr hsc.order))
  rw [show E g sc.order = E g1 sc.order from
    funext fun a => funext fun b => propext (h.edge h1 h2 (hsc.dom_ne (Or.inr hsc.order)) a b)]

theorem Same.first (h : Same sc g1 g) (a b : NodeID64) : First sc tok g a b ↔ First sc tok g1 a b := by
  unfold First
  simp only [h.covered hsc, h.before hsc]

theorem Same.last (h : Same sc g1 g) (a b : NodeID64) : Last sc tok g a b ↔ Last sc tok g1 a b := by
  unfold Last
  simp only [h.covered hsc, h.before hsc]

theorem Same.orderOk (h : Same sc g1 g) (ho : OrderOk sc tok g) : OrderOk sc tok g1 := by
  refine ⟨fun a => by rw [← h.before hsc]; exact ho.acyclic a, fun x a b => ?_⟩
  rw [← h.before hsc, ← h.before hsc, ← h.covered hsc, ← h.covered hsc]
  exact ho.total x a b

theorem Same.segOk (h : Same sc g1 g) (ho : SegOk sc tok g) : SegOk sc tok g1 := by
  intro i b h1 h2
  rw [← h.below hsc] at h2
  obtain ⟨b', h3⟩ := ho i b (by rw [h.annos]; exact h1) h2
  exact ⟨b', (h.direct hsc _ _).1 h3⟩

end

/-! ## Only the index is changed -/

theorem Same.set (h : Same sc g1 g) {c : C} (hc : c = sc.left ∨ c = sc.right ∨ c = sc.inh) (a : Adj NodeID64 S V) :
    Same sc g1 (g.setComp c a) := by
  refine ⟨h.annos, ?_⟩
  intro d h1 h2 h3
  rw [comp_setComp, if_neg, h.comp d h1 h2 h3]
  rintro rfl
  rcases hc with e | e | e
  · exact h1 e
  · exact h2 e
  · exact h3 e

theorem clearComp_same (h : Same sc g1 g) {c : C} (hc : c = sc.left ∨ c = sc.right ∨ c = sc.inh) : Same sc g1 (clearComp x g c) := by
  unfold clearComp
  split <;> exact h.set hc _

theorem align_same (h : Same sc g1 g) {ch : Choices} {order : Adj NodeID64 S V} {n : NodeID64} {right : Bool} {toks : List NodeID64}
    (ha : align sc tok ch g order n right toks = some g') : Same sc g1 g' := by
  have hc : (if right then sc.right else sc.left) = sc.left ∨ (if right then sc.right else sc.left) = sc.right ∨
      (if right then sc.right else sc.left) = sc.inh := by cases right <;> simp
  unfold align at ha
  simp only at ha
  generalize (if right then sc.right else sc.left) = c at ha hc
  split at ha
  · injection ha with ha; rw [← ha]; exact h
  · split at ha
    · injection ha with ha; rw [← ha]; exact h
    · simp only [Option.bind_eq_bind, Option.bind_eq_some_iff] at ha
      obtain ⟨l, _, ha⟩ := ha
      split at ha
      · injection ha with ha
        rw [← ha]
        exact h.set hc _
      · injection ha with ha; rw [← ha]; exact h

theorem reindex_same {ch : Choices} (h : reindex sc tok ch x g1 = some g') : Same sc g1 g' := by
  unfold reindex at h
  simp only at h
  have h0 : Same sc g1 (clear sc x g1) := by
    unfold clear
    exact clearComp_same (clearComp_same (clearComp_same ⟨rfl, fun _ _ _ _ => rfl⟩ (Or.inl rfl)) (Or.inr (Or.inl rfl))) (Or.inr (Or.inr rfl))
  generalize covComps sc (clear sc x g1) ++ compsOf sc (clear sc x g1) .dominance = text at h
  generalize covComps sc (clear sc x g1) = cov at h
  generalize (clear sc x g1).comp sc.order = order at h
  generalize clear sc x g1 = g at h h0
  generalize x.invalid.keys = ks at h
  induction ks generalizing g with
  | nil =>
    simp only [List.foldlM_nil, Option.pure_def, Option.some.injEq] at h
    subst h; exact h0
  | cons n ks ih =>
    rw [List.foldlM_cons] at h
    obtain ⟨g2, h1, h2⟩ := Option.bind_eq_some_iff.1 h
    refine ih g2 ?_ h2
    unfold reindexNode at h1
    simp only [Option.bind_eq_bind, Option.bind_eq_some_iff] at h1
    obtain ⟨g3, h3, h4⟩ := h1
    exact align_same (align_same (h0.set (Or.inr (Or.inr rfl)) _) h3) h4

/-! ## Removing the old entries -/

theorem adj_deleteNodes (ks : List NodeID64) : ∀ (a : Adj NodeID64 S V), Adj.Inv a →
    Adj.Inv (ks.foldl (fun a n => a.deleteNode n) a) ∧
    ∀ x y, y ∈ (ks.foldl (fun a n => a.deleteNode n) a).out x ↔ y ∈ a.out x ∧ x ∉ ks ∧ y ∉ ks := by
  induction ks with
  | nil => intro a h; exact ⟨h, by simp⟩
  | cons k ks ih =>
    intro a h
    obtain ⟨h1, h2, _⟩ := adj_step h (.deleteNode k)
    obtain ⟨h3, h4⟩ := ih (a.deleteNode k) h1
    refine ⟨h3, fun x y => ?_⟩
    simp only [List.foldl_cons]
    rw [h4]
    have := h2 x y
    simp only [Adj.step, Adj.specStep] at this
    rw [this]
    simp only [List.mem_cons]
    by_cases e : x = k ∨ y = k
    · simp only [e, if_true]
      rcases e with e | e <;> simp [e]
    · rw [if_neg e]
      push Not at e
      simp [e.1, e.2]

/-- The edges that are removed by `clear`. -/
def Dropped (x : IndexState V C) (a b : NodeID64) : Prop := x.empty = true ∨ Bad x a ∨ Bad x b

theorem mem_keys_bad (x : IndexState V C) (a : NodeID64) : a ∈ x.invalid.keys ↔ Bad x a := by
  rw [OMap.mem_keys_iff]
  unfold Bad
  rw [Option.isSome_iff_exists]

theorem clearComp_spec (hI : Inv nk g1) (h : Frame sc g1 g) {c : C} (hc : c = sc.left ∨ c = sc.right ∨ c = sc.inh) :
    Frame sc g1 (clearComp x g c) ∧
    ∀ d a b, E (clearComp x g c) d a b ↔ E g d a b ∧ (d = c → ¬ Dropped x a b) := by
  unfold clearComp
  split
  · rename_i he
    refine ⟨h.set hc (Adj.Inv.clear _) (by intro a b hab; simp [Adj.clear, Adj.out, OMap.get] at hab), fun d a b => ?_⟩
    rw [edge_set]
    split
    · rename_i e
      simp [e, Dropped, he, Adj.clear, Adj.out, OMap.get]
    · rename_i e
      simp [e]
  · rename_i he
    obtain ⟨h1, h2⟩ := adj_deleteNodes x.invalid.keys (g.comp c) (h.ci c)
    refine ⟨h.set hc h1 ?_, fun d a b => ?_⟩
    · intro a b hab
      exact h.bound c a b ((h2 a b).1 hab).1
    · rw [edge_set]
      split
      · rename_i e
        subst e
        rw [h2, mem_keys_bad, mem_keys_bad]
        simp [Dropped, he, E]
      · rename_i e
        simp [e]

theorem clear_spec (hI : Inv nk g1) : Frame sc g1 (clear sc x g1) ∧
    ∀ d a b, E (clear sc x g1) d a b ↔ E g1 d a b ∧ (d = sc.left ∨ d = sc.right ∨ d = sc.inh → ¬ Dropped x a b) := by
  unfold clear
  obtain ⟨f1, e1⟩ := clearComp_spec (x := x) hI (Frame.refl hI : Frame sc g1 g1) (Or.inl rfl)
  obtain ⟨f2, e2⟩ := clearComp_spec (x := x) hI f1 (Or.inr (Or.inl rfl))
  obtain ⟨f3, e3⟩ := clearComp_spec (x := x) hI f2 (Or.inr (Or.inr rfl))
  refine ⟨f3, fun d a b => ?_⟩
  rw [e3, e2, e1]
  tauto

/-! ## Covered tokens -/

/-- A node with the token label and inherited coverage covers something directly. -/
def InhOk (sc : Schema C) (tok : AnnoKey S) (g : Graph S V C) : Prop :=
  ∀ i b, (g.annos.getValue i tok).isSome → E g sc.inh i b → ∃ b', Direct sc g i b'

theorem hasOut_iff (a : Adj NodeID64 S V) (n : NodeID64) : a.hasOut n = true ↔ ∃ b, b ∈ a.out n := by
  unfold Adj.hasOut Adj.out
  cases h : a.edges.get n with
  | none => simp
  | some l => cases l <;> simp

theorem edge_mem_keys {c : C} {a b : NodeID64} (h : E g c a b) : c ∈ g.comps.keys := by
  rw [OMap.mem_keys_iff]
  unfold E comp at h
  cases hc : g.comps.get c with
  | none => rw [hc] at h; simp [Adj.new, Adj.out, OMap.get] at h
  | some a => exact ⟨a, rfl⟩

theorem isToken_iff (hsc : SchemaOk sc) (h : InhOk sc tok g) (i : NodeID64) : isToken sc tok g i = true ↔ IsTok sc tok g i := by
  unfold isToken IsTok compsOf
  simp only [Bool.and_eq_true, Bool.not_eq_true', List.any_eq_false, List.mem_filter, decide_eq_true_eq, hasOut_iff, not_exists]
  refine and_congr_right fun hl => ?_
  constructor
  · rintro h1 b ⟨c, hc, _, hb⟩
    exact h1 c ⟨edge_mem_keys hb, hc⟩ b hb
  · rintro h1 c ⟨_, hc⟩ b hb
    by_cases e : c = sc.inh
    · subst e
      obtain ⟨b', hb'⟩ := h i b hl hb
      exact h1 b' hb'
    · exact h1 b ⟨c, hc, e, hb⟩

theorem mem_covered (hsc : SchemaOk sc) (hci : ∀ c, Adj.Inv (g.comp c)) (h : InhOk sc tok g) {text : List C}
    (ht : ∀ a b, (∃ c ∈ text, E g c a b) ↔ Below sc g a b) (n t : NodeID64) :
    t ∈ covered sc tok g text n ↔ Covered sc tok g n t := by
  have hn : ∀ c ∈ text.map g.container, c.NoError := by
    intro c hc
    obtain ⟨c, _, rfl⟩ := List.mem_map.1 hc
    unfold container Container.NoError
    refine ⟨?_, ?_, ?_⟩ <;> simp
  have hE : ∀ a b, b ∈ Container.oks (UnionContainer.out (text.map g.container) a) ↔ Below sc g a b := by
    intro a b
    rw [mem_oks, ← ht]
    have := ((UnionContainer.C20_union (text.map g.container) hn).2.1 a).2 b
    rw [show (UnionContainer.union (text.map g.container)).out a = UnionContainer.out (text.map g.container) a from rfl] at this
    rw [this]
    simp only [List.mem_map, exists_exists_and_eq_and]
    unfold container E
    simp
  have hV : ∀ a b, b ∈ Container.oks (UnionContainer.out (text.map g.container) a) →
      b ∈ text.flatMap fun c => Adj.targets (g.comp c).edges := by
    intro a b hb
    obtain ⟨c, hc, h⟩ := (ht a b).2 ((hE a b).1 hb)
    exact List.mem_flatMap.2 ⟨c, hc, Adj.covers_out (g.comp c) a b h⟩
  unfold covered Covered
  rw [mem_setExtend]
  simp only [List.not_mem_nil, false_or, List.mem_filter, List.mem_map, Prod.exists, exists_and_right, exists_eq_right,
    isToken_iff hsc h, DfsQuery.mem_steps hV hE]
  constructor
  · rintro ⟨⟨d, h1, h2, _⟩, h3⟩
    have hne := Walk.simple_ne h1 h2
    exact ⟨h3, hne.symm, (Walk.transGen_iff_simple hne).2 ⟨d, h1, h2⟩⟩
  · rintro ⟨h3, hne, h1⟩
    obtain ⟨d, h4, h5⟩ := (Walk.transGen_iff_simple hne.symm).1 h1
    exact ⟨⟨d, h4, h5, Adj.simplePath_le h4⟩, h3⟩

/-- The start of the path from a covering node. -/
theorem covered_head {n t : NodeID64} (h : Covered sc tok g n t) : ∃ b, Below sc g n b := by
  obtain ⟨b, h1, _⟩ := Relation.TransGen.head'_iff.1 h.2.2
  exact ⟨b, h1⟩

theorem adj_addEdges (n : NodeID64) (P : NodeID64 → Prop) [DecidablePred P] (toks : List NodeID64) : ∀ (a : Adj NodeID64 S V), Adj.Inv a →
    Adj.Inv (toks.foldl (fun a t => if P t then a.addEdge n t else a) a) ∧
    ∀ x y, y ∈ (toks.foldl (fun a t => if P t then a.addEdge n t else a) a).out x ↔ y ∈ a.out x ∨ x = n ∧ y ∈ toks ∧ P y ∧ n ≠ y := by
  induction toks with
  | nil => intro a h; exact ⟨h, by simp⟩
  | cons k ks ih =>
    intro a h
    have key : Adj.Inv (if P k then a.addEdge n k else a) ∧
        ∀ x y, y ∈ (if P k then a.addEdge n k else a).out x ↔ y ∈ a.out x ∨ x = n ∧ y = k ∧ P k ∧ n ≠ k := by
      split
      · rename_i hp
        obtain ⟨h1, h2, _⟩ := adj_step h (.addEdge n k)
        refine ⟨h1, fun x y => ?_⟩
        have := h2 x y
        simp only [Adj.step, Adj.specStep] at this
        rw [this]
        split
        · rename_i e; simp [e.1, e.2.1, e.2.2, hp]
        · rename_i e
          simp only [decide_eq_true_eq]
          tauto
      · rename_i hp
        exact ⟨h, fun x y => by simp [hp]⟩
    obtain ⟨h3, h4⟩ := ih _ key.1
    refine ⟨h3, fun x y => ?_⟩
    simp only [List.foldl_cons]
    rw [h4, key.2]
    simp only [List.mem_cons]
    constructor
    · rintro ((h | ⟨h1, rfl, h2, h3⟩) | ⟨h1, h2, h3, h4⟩)
      · exact Or.inl h
      · exact Or.inr ⟨h1, Or.inl rfl, h2, h3⟩
      · exact Or.inr ⟨h1, Or.inr h2, h3, h4⟩
    · rintro (h | ⟨h1, rfl | h2, h3, h4⟩)
      · exact Or.inl (Or.inl h)
      · exact Or.inl (Or.inr ⟨h1, rfl, h3, h4⟩)
      · exact Or.inr ⟨h1, h2, h3, h4⟩

/-- Both ends of a covering pair have an identifier that is in use. -/
theorem covered_bound (hI : Inv nk g1) {n t : NodeID64} (h : Covered sc tok g1 n t) :
    ∃ l, g1.annos.largest = some l ∧ n ≤ l ∧ t ≤ l := by
  obtain ⟨b, hb⟩ := covered_head h
  have hbound : ∃ l, g1.annos.largest = some l ∧ n ≤ l := by
    rcases hb with ⟨c, _, _, hb⟩ | ⟨c, _, hb⟩ <;> obtain ⟨l, h1, h2, _⟩ := hI.bound c n b hb <;> exact ⟨l, h1, h2⟩
  obtain ⟨l, h1, h2⟩ := hbound
  obtain ⟨v, hv⟩ := Option.isSome_iff_exists.1 h.1.1
  obtain ⟨l', h3, h4⟩ := le_largest hI hv
  rw [h1] at h3; injection h3 with h3; subst h3
  exact ⟨l, h1, h2, h4⟩

theorem inherit_spec (hsc : SchemaOk sc) (hI : Inv nk g1) (hseg : SegOk sc tok g1) (hf : Frame sc g1 g) (h : InhOk sc tok g)
    {cov text : List C} (hcov : ∀ a b, (∃ c ∈ cov, E g c a b) ↔ Direct sc g a b)
    (ht : ∀ a b, (∃ c ∈ text, E g c a b) ↔ Below sc g a b) (n : NodeID64) :
    Frame sc g1 (inherit sc tok g cov text n).1 ∧ InhOk sc tok (inherit sc tok g cov text n).1 ∧
    (∀ t, t ∈ (inherit sc tok g cov text n).2 ↔ Covered sc tok g1 n t) ∧
    ∀ d a b, E (inherit sc tok g cov text n).1 d a b ↔
      E g d a b ∨ d = sc.inh ∧ a = n ∧ Covered sc tok g1 n b ∧ ¬ Direct sc g1 n b := by
  have hm : ∀ t, t ∈ (inherit sc tok g cov text n).2 ↔ Covered sc tok g1 n t := by
    intro t
    show t ∈ covered sc tok g text n ↔ _
    rw [mem_covered hsc hf.ci h ht, hf.covered hsc]
  have hd : ∀ t, t ∈ cov.flatMap (fun c => (g.comp c).out n) ↔ Direct sc g1 n t := by
    intro t
    rw [List.mem_flatMap, ← hf.direct hsc, ← hcov]; rfl
  obtain ⟨a1, a2⟩ := adj_addEdges n (fun t => n ≠ t ∧ t ∉ cov.flatMap fun c => (g.comp c).out n) (covered sc tok g text n)
    (g.comp sc.inh) (hf.ci sc.inh)
  have hE : ∀ d a b, E (inherit sc tok g cov text n).1 d a b ↔
      E g d a b ∨ d = sc.inh ∧ a = n ∧ Covered sc tok g1 n b ∧ ¬ Direct sc g1 n b := by
    intro d a b
    unfold inherit
    simp only
    rw [edge_set]
    by_cases e : d = sc.inh
    · subst e
      rw [if_pos rfl, a2]
      have := hm b
      unfold inherit at this
      simp only at this
      rw [this, hd]
      unfold E
      constructor
      · rintro (h | ⟨h1, h2, ⟨h3, h4⟩, _⟩)
        · exact Or.inl h
        · exact Or.inr ⟨rfl, h1, h2, h4⟩
      · rintro (h | ⟨_, h1, h2, h3⟩)
        · exact Or.inl h
        · exact Or.inr ⟨h1, h2, ⟨h2.2.1.symm, h3⟩, h2.2.1.symm⟩
    · simp [e]
  have hF : Frame sc g1 (inherit sc tok g cov text n).1 := by
    unfold inherit
    refine hf.set (Or.inr (Or.inr rfl)) a1 ?_
    intro a b hab
    rcases (a2 a b).1 hab with h' | ⟨rfl, h2, _⟩
    · exact hf.bound sc.inh a b h'
    · exact covered_bound hI ((hm b).1 h2)
  refine ⟨hF, ?_, hm, hE⟩
  intro i b hl hi
  rw [hF.annos] at hl
  rcases (hE _ _ _).1 hi with h' | ⟨_, rfl, h', _⟩
  · obtain ⟨b', hb'⟩ := h i b (by rw [hf.annos]; exact hl) h'
    exact ⟨b', (hF.direct hsc _ _).2 ((hf.direct hsc _ _).1 hb')⟩
  · obtain ⟨b', hb'⟩ := covered_head h'
    obtain ⟨b'', hb''⟩ := hseg i b' hl hb'
    exact ⟨b'', (hF.direct hsc _ _).2 hb''⟩

/-! ## Sorting the tokens -/

theorem isConnected_iff (a : Adj NodeID64 S V) {s t : NodeID64} (hne : s ≠ t) :
    ∃ r, a.isConnected s t 1 .unbounded = some r ∧ (r = true ↔ Relation.TransGen (fun x y => y ∈ a.out x) s t) := by
  refine ⟨_, by unfold Adj.isConnected maxDistance; rfl, ?_⟩
  rw [DfsQuery.any_steps (Adj.covers_out a) (fun _ _ => Iff.rfl) false s t 1 usizeMax .unbounded rfl,
    Walk.transGen_iff_simple hne]
  simp [Within]

theorem sort_tokens (ho : OrderOk sc tok g1) {x : NodeID64} {l l' : List NodeID64} (hl : ∀ t, t ∈ l ↔ Covered sc tok g1 x t)
    {fuel : Nat} {rs : List (Nat × Nat × Nat)} (h : sortAll (orderCmp (g1.comp sc.order)) fuel rs l = some l') :
    l'.Perm l ∧ l'.Pairwise fun a b => a = b ∨ Before sc g1 a b := by
  refine C33_sort_on (fun a b => a = b ∨ Before sc g1 a b) ?_ ?_ ?_ h
  · rintro a _ b _ c _ (rfl | h1) (rfl | h2)
    · exact Or.inl rfl
    · exact Or.inr h2
    · exact Or.inr h1
    · exact Or.inr (h1.trans h2)
  · intro a ha b hb
    rcases ho.total x a b ((hl a).1 ha) ((hl b).1 hb) with h | h | h
    · exact Or.inl (Or.inl h)
    · exact Or.inl (Or.inr h)
    · exact Or.inr (Or.inr h)
  · intro a ha b hb o hcmp
    unfold orderCmp at hcmp
    by_cases e : a = b
    · rw [if_pos e] at hcmp
      injection hcmp with hcmp
      subst hcmp
      simp [e, Ordering.isLE, Ordering.isGE]
    · rw [if_neg e] at hcmp
      obtain ⟨r1, h1, h2⟩ := isConnected_iff (g1.comp sc.order) e
      obtain ⟨r2, h3, h4⟩ := isConnected_iff (g1.comp sc.order) (Ne.symm e)
      have b1 : r1 = true ↔ Before sc g1 a b := h2
      have b2 : r2 = true ↔ Before sc g1 b a := h4
      rw [h1, h3] at hcmp
      have hanti : Before sc g1 a b → Before sc g1 b a → False := fun p q => ho.acyclic a (p.trans q)
      cases r1 with
      | true =>
        simp only [Option.some.injEq] at hcmp
        subst hcmp
        have hab := b1.1 rfl
        simp only [Ordering.isLE, Ordering.isGE, hab, or_true, Bool.false_eq_true, false_iff, true_iff, true_and, not_or]
        exact ⟨Ne.symm e, fun hba => hanti hab hba⟩
      | false =>
        have hab : ¬ Before sc g1 a b := fun h => by cases b1.2 h
        cases r2 with
        | true =>
          simp only [Option.some.injEq] at hcmp
          subst hcmp
          have hba := b2.1 rfl
          simp [Ordering.isLE, Ordering.isGE, hab, hba, e]
        | false =>
          exfalso
          have hba : ¬ Before sc g1 b a := fun h => by cases b2.2 h
          rcases ho.total x a b ((hl a).1 ha) ((hl b).1 hb) with h | h | h
          · exact e h
          · exact hab h
          · exact hba h

theorem head_of_pairwise {α : Type} {le : α → α → Prop} {l : List α} (h : l.Pairwise le) (hr : ∀ a, le a a) {t : α}
    (ht : l.head? = some t) : t ∈ l ∧ ∀ a ∈ l, le t a := by
  cases l with
  | nil => cases ht
  | cons y l =>
    injection ht with ht
    subst ht
    rw [List.pairwise_cons] at h
    refine ⟨by simp, fun a ha => ?_⟩
    rcases List.mem_cons.1 ha with rfl | ha
    · exact hr _
    · exact h.1 a ha

theorem last_of_pairwise {α : Type} {le : α → α → Prop} {l : List α} (h : l.Pairwise le) (hr : ∀ a, le a a) {t : α}
    (ht : l.getLast? = some t) : t ∈ l ∧ ∀ a ∈ l, le a t := by
  have := head_of_pairwise (le := fun a b => le b a) (l := l.reverse) (List.pairwise_reverse.2 h) hr (t := t)
    (by rw [List.head?_reverse]; exact ht)
  simpa using this

/-- `calculate_token_alignment` for a node without an entry. -/
theorem align_spec (hsc : SchemaOk sc) (hI : Inv nk g1) (ho : OrderOk sc tok g1) (hf : Frame sc g1 g) {ch : Choices}
    (hch : ∀ l, (ch.iter l).Perm l) {n : NodeID64} {right : Bool} {toks : List NodeID64}
    (hl : ∀ t, t ∈ toks ↔ Covered sc tok g1 n t)
    (hno : ∀ t, ¬ E g (if right then sc.right else sc.left) n t)
    (h : align sc tok ch g (g1.comp sc.order) n right toks = some g') :
    Frame sc g1 g' ∧ ∀ d a b, E g' d a b ↔ E g d a b ∨ d = (if right then sc.right else sc.left) ∧ a = n ∧
      (if right then Last sc tok g1 n b else First sc tok g1 n b) := by
  have hc : (if right then sc.right else sc.left) = sc.left ∨ (if right then sc.right else sc.left) = sc.right ∨
      (if right then sc.right else sc.left) = sc.inh := by cases right <;> simp
  unfold align at h
  simp only at h
  generalize hcc : (if right then sc.right else sc.left) = c at h hno hc ⊢
  have none_case : toks = [] → ∀ b, ¬ (if right then Last sc tok g1 n b else First sc tok g1 n b) := by
    rintro rfl b hb
    have : Covered sc tok g1 n b := by
      cases right
      · exact hb.1
      · exact hb.1
    have := (hl b).2 this
    cases this
  by_cases h1 : ((g.annos.getValue n tok).isSome && toks.isEmpty) = true
  · rw [if_pos h1] at h
    injection h with h
    subst h
    simp only [Bool.and_eq_true, List.isEmpty_iff] at h1
    refine ⟨hf, fun d a b => ?_⟩
    constructor
    · exact Or.inl
    · rintro (h | ⟨_, _, h⟩)
      · exact h
      · exact absurd h (none_case h1.2 b)
  · rw [if_neg h1] at h
    have h2 : (g.comp c).out n = [] := by
      rw [List.eq_nil_iff_forall_not_mem]; exact hno
    rw [h2] at h
    simp only [List.isEmpty_nil, Bool.not_true, Bool.false_eq_true, if_false, Option.bind_eq_bind, Option.bind_eq_some_iff] at h
    obtain ⟨sorted, h3, h4⟩ := h
    have hperm := hch toks
    obtain ⟨p1, p2⟩ := sort_tokens ho (fun t => by rw [hperm.mem_iff]; exact hl t) h3
    have hmem : ∀ t, t ∈ sorted ↔ Covered sc tok g1 n t := fun t => by rw [p1.mem_iff, hperm.mem_iff]; exact hl t
    generalize hr : (if right = true then sorted.getLast? else sorted.head?) = r at h4
    cases r with
    | none =>
      injection h4 with h4
      subst h4
      have he : sorted = [] := by
        cases right
        · simpa using hr
        · simpa using hr
      subst he
      refine ⟨hf, fun d a b => ?_⟩
      constructor
      · exact Or.inl
      · rintro (h | ⟨_, _, h⟩)
        · exact h
        · exfalso
          have : Covered sc tok g1 n b := by
            cases right
            · exact h.1
            · exact h.1
          have := (hmem b).2 this
          cases this
    | some t =>
      injection h4 with h4
      subst h4
      have hspec : ∀ b, (if right then Last sc tok g1 n b else First sc tok g1 n b) ↔ b = t := by
        intro b
        cases right with
        | true =>
          obtain ⟨q1, q2⟩ := last_of_pairwise p2 (fun _ => Or.inl rfl) hr
          simp only [if_true]
          constructor
          · rintro ⟨k1, k2⟩
            rcases k2 t ((hmem t).1 q1) with e | e
            · exact e.symm
            · rcases q2 b ((hmem b).2 k1) with e' | e'
              · exact e'
              · exact absurd (e.trans e') (ho.acyclic _)
          · rintro rfl
            refine ⟨(hmem b).1 q1, fun t' ht' => ?_⟩
            exact q2 t' ((hmem t').2 ht')
        | false =>
          obtain ⟨q1, q2⟩ := head_of_pairwise p2 (fun _ => Or.inl rfl) hr
          simp only [Bool.false_eq_true, if_false]
          constructor
          · rintro ⟨k1, k2⟩
            rcases k2 t ((hmem t).1 q1) with e | e
            · exact e.symm
            · rcases q2 b ((hmem b).2 k1) with e' | e'
              · exact e'.symm
              · exact absurd (e.trans e') (ho.acyclic _)
          · rintro rfl
            refine ⟨(hmem b).1 q1, fun t' ht' => ?_⟩
            rcases q2 t' ((hmem t').2 ht') with e | e
            · exact Or.inl e.symm
            · exact Or.inr e
      have hcov : Covered sc tok g1 n t := by
        have := (hspec t).2 rfl
        cases right
        · exact this.1
        · exact this.1
      obtain ⟨s1, s2, _⟩ := adj_step (hf.ci c) (.addEdge n t)
      have hE : ∀ a b, b ∈ ((g.comp c).addEdge n t).out a ↔ b ∈ (g.comp c).out a ∨ a = n ∧ b = t := by
        intro a b
        have := s2 a b
        simp only [Adj.step, Adj.specStep] at this
        rw [this]
        split
        · rename_i e; simp [e.1, e.2.1]
        · rename_i e
          simp only [decide_eq_true_eq]
          have : ¬ (a = n ∧ b = t) := fun h => e ⟨h.1, h.2, hcov.2.1.symm⟩
          simp only [this, or_false]
      refine ⟨hf.set hc s1 ?_, fun d a b => ?_⟩
      · intro a b hab
        rcases (hE a b).1 hab with h | ⟨rfl, rfl⟩
        · exact hf.bound c a b h
        · exact covered_bound hI hcov
      · rw [edge_set, hspec]
        by_cases e : d = c
        · subst e
          rw [if_pos rfl, hE]
          simp [E]
        · simp [e]

/-- The loop body of the recomputation. -/
theorem reindexNode_spec (hsc : SchemaOk sc) (hI : Inv nk g1) (hseg : SegOk sc tok g1) (ho : OrderOk sc tok g1)
    {ch : Choices} (hch : ∀ l, (ch.iter l).Perm l) {cov text : List C}
    (hcov : ∀ a b, (∃ c ∈ cov, E g1 c a b) ↔ Direct sc g1 a b) (hcn : ∀ c ∈ cov, sc.kind c = .coverage ∧ c ≠ sc.inh)
    (ht : ∀ a b, (∃ c ∈ text, E g1 c a b) ↔ Below sc g1 a b)
    (htn : ∀ c ∈ text, (sc.kind c = .coverage ∧ c ≠ sc.inh) ∨ sc.kind c = .dominance)
    (hf : Frame sc g1 g) (h : InhOk sc tok g) {n : NodeID64}
    (hno : ∀ c, c = sc.left ∨ c = sc.right ∨ c = sc.inh → ∀ t, ¬ E g c n t)
    (hr : reindexNode sc tok ch cov text (g1.comp sc.order) g n = some g') :
    Frame sc g1 g' ∧ InhOk sc tok g' ∧
    (∀ d a b, a ≠ n → (E g' d a b ↔ E g d a b)) ∧
    (∀ t, (E g' sc.left n t ↔ First sc tok g1 n t) ∧ (E g' sc.right n t ↔ Last sc tok g1 n t) ∧
      (E g' sc.inh n t ↔ Covered sc tok g1 n t ∧ ¬ Direct sc g1 n t)) := by
  have same : ∀ {c : C}, ((sc.kind c = .coverage ∧ c ≠ sc.inh) ∨ sc.kind c = .dominance) → ∀ a b, E g c a b ↔ E g1 c a b := by
    intro c hc a b
    have h1 := hsc.cov_ne (c := c) (by rcases hc with h | h <;> simp [h])
    refine hf.edge h1.1 h1.2 ?_ a b
    rcases hc with h | h
    · exact h.2
    · exact hsc.dom_ne (Or.inl h)
  have hcov' : ∀ a b, (∃ c ∈ cov, E g c a b) ↔ Direct sc g a b := by
    intro a b
    rw [hf.direct hsc, ← hcov]
    exact exists_congr fun c => and_congr_right fun hc => same (Or.inl (hcn c hc)) a b
  have ht' : ∀ a b, (∃ c ∈ text, E g c a b) ↔ Below sc g a b := by
    intro a b
    rw [hf.below hsc, ← ht]
    exact exists_congr fun c => and_congr_right fun hc => same (htn c hc) a b
  obtain ⟨i1, i2, i3, i4⟩ := inherit_spec hsc hI hseg hf h hcov' ht' n
  unfold reindexNode at hr
  simp only [Option.bind_eq_bind, Option.bind_eq_some_iff] at hr
  obtain ⟨g2, h2, h3⟩ := hr
  have lr := hsc.left_right
  have li := hsc.left_inh
  have ri := hsc.right_inh
  obtain ⟨j1, j2⟩ := align_spec (right := false) hsc hI ho i1 hch i3 (by
    intro t
    simp only [Bool.false_eq_true, if_false]
    rw [i4]
    rintro (h | ⟨h, _⟩)
    · exact hno _ (Or.inl rfl) t h
    · exact li h) h2
  simp only [Bool.false_eq_true, if_false] at j2
  obtain ⟨k1, k2⟩ := align_spec (right := true) hsc hI ho j1 hch i3 (by
    intro t
    simp only [if_true]
    rw [j2, i4]
    rintro ((h | ⟨h, _⟩) | ⟨h, _⟩)
    · exact hno _ (Or.inr (Or.inl rfl)) t h
    · exact ri h
    · exact lr h.symm) h3
  simp only [if_true] at k2
  refine ⟨k1, ?_, ?_, ?_⟩
  · intro i b hl hi
    rw [k2, j2] at hi
    rcases hi with (hi | ⟨hi, _⟩) | ⟨hi, _⟩
    · obtain ⟨b', hb'⟩ := i2 i b (by rw [i1.annos, ← k1.annos]; exact hl) hi
      exact ⟨b', (k1.direct hsc _ _).2 ((i1.direct hsc _ _).1 hb')⟩
    · exact absurd hi.symm li
    · exact absurd hi.symm ri
  · intro d a b ha
    rw [k2, j2, i4]
    simp [ha]
  · intro t
    rw [k2, k2, k2, j2, j2, j2, i4, i4, i4]
    have n1 := hno sc.left (Or.inl rfl) t
    have n2 := hno sc.right (Or.inr (Or.inl rfl)) t
    have n3 := hno sc.inh (Or.inr (Or.inr rfl)) t
    refine ⟨?_, ?_, ?_⟩
    · simp [n1, lr, li]
    · simp [n2, ri, lr.symm]
    · simp [n3, li.symm, ri.symm]

theorem reindexFold_spec (hsc : SchemaOk sc) (hI : Inv nk g1) (hseg : SegOk sc tok g1) (ho : OrderOk sc tok g1)
    {ch : Choices} (hch : ∀ l, (ch.iter l).Perm l) {cov text : List C}
    (hcov : ∀ a b, (∃ c ∈ cov, E g1 c a b) ↔ Direct sc g1 a b) (hcn : ∀ c ∈ cov, sc.kind c = .coverage ∧ c ≠ sc.inh)
    (ht : ∀ a b, (∃ c ∈ text, E g1 c a b) ↔ Below sc g1 a b)
    (htn : ∀ c ∈ text, (sc.kind c = .coverage ∧ c ≠ sc.inh) ∨ sc.kind c = .dominance) (ks : List NodeID64) :
    ∀ (g : Graph S V C), ks.Nodup → Frame sc g1 g → InhOk sc tok g →
    (∀ n ∈ ks, ∀ c, c = sc.left ∨ c = sc.right ∨ c = sc.inh → ∀ t, ¬ E g c n t) →
    ks.foldlM (reindexNode sc tok ch cov text (g1.comp sc.order)) g = some g' →
    Frame sc g1 g' ∧ (∀ d a b, a ∉ ks → (E g' d a b ↔ E g d a b)) ∧
    (∀ n ∈ ks, ∀ t, (E g' sc.left n t ↔ First sc tok g1 n t) ∧ (E g' sc.right n t ↔ Last sc tok g1 n t) ∧
      (E g' sc.inh n t ↔ Covered sc tok g1 n t ∧ ¬ Direct sc g1 n t)) := by
  induction ks with
  | nil =>
    intro g _ hf _ _ h
    simp only [List.foldlM_nil, Option.pure_def, Option.some.injEq] at h
    subst h
    exact ⟨hf, fun _ _ _ _ => Iff.rfl, by simp⟩
  | cons n ks ih =>
    intro g hnd hf hio hno h
    rw [List.foldlM_cons] at h
    obtain ⟨g2, h1, h2⟩ := Option.bind_eq_some_iff.1 h
    obtain ⟨r1, r2, r3, r4⟩ := reindexNode_spec hsc hI hseg ho hch hcov hcn ht htn hf hio (hno n (by simp)) h1
    rw [List.nodup_cons] at hnd
    obtain ⟨s1, s2, s3⟩ := ih g2 hnd.2 r1 r2 (by
      intro m hm c hc t
      rw [r3 c m t (fun e => hnd.1 (e ▸ hm))]
      exact hno m (by simp [hm]) c hc t) h2
    refine ⟨s1, ?_, ?_⟩
    · intro d a b ha
      rw [List.mem_cons, not_or] at ha
      rw [s2 d a b ha.2, r3 d a b ha.1]
    · intro m hm t
      rcases List.mem_cons.1 hm with rfl | hm
      · simp only [s2 _ m _ hnd.1]; exact r4 t
      · exact s3 m hm t

/-- The recomputation: unmarked nodes keep their entries, marked nodes get new ones. -/
theorem reindex_spec (hsc : SchemaOk sc) (hI : Inv nk g1) (hs : x.invalid.Sorted) (hseg : SegOk sc tok g1) (ho : OrderOk sc tok g1)
    {ch : Choices} (hch : ∀ l, (ch.iter l).Perm l)
    (hio : ∀ i b, x.empty = false → ¬ Bad x i → (g1.annos.getValue i tok).isSome → E g1 sc.inh i b → ∃ b', Direct sc g1 i b')
    (h : reindex sc tok ch x g1 = some g') :
    Frame sc g1 g' ∧
    (∀ c, c = sc.left ∨ c = sc.right ∨ c = sc.inh → ∀ a b, ¬ Bad x a → (E g' c a b ↔ E g1 c a b ∧ x.empty = false ∧ ¬ Bad x b)) ∧
    (∀ n, Bad x n → NodeOk sc tok g' n) := by
  obtain ⟨f, e⟩ := clear_spec (sc := sc) (x := x) hI
  have same : ∀ {c : C}, ((sc.kind c = .coverage ∧ c ≠ sc.inh) ∨ sc.kind c = .dominance) → ∀ a b, E (clear sc x g1) c a b ↔ E g1 c a b := by
    intro c hc a b
    have h1 := hsc.cov_ne (c := c) (by rcases hc with h | h <;> simp [h])
    refine f.edge h1.1 h1.2 ?_ a b
    rcases hc with h | h
    · exact h.2
    · exact hsc.dom_ne (Or.inl h)
  unfold reindex at h
  simp only at h
  have hcovm : ∀ c, c ∈ covComps sc (clear sc x g1) ↔ c ∈ (clear sc x g1).comps.keys ∧ sc.kind c = .coverage ∧ c ≠ sc.inh := by
    intro c
    unfold covComps compsOf
    simp only [List.mem_filter, decide_eq_true_eq, and_assoc]
  have hdomm : ∀ c, c ∈ compsOf sc (clear sc x g1) .dominance ↔ c ∈ (clear sc x g1).comps.keys ∧ sc.kind c = .dominance := by
    intro c
    unfold compsOf
    simp
  have hcov : ∀ a b, (∃ c ∈ covComps sc (clear sc x g1), E g1 c a b) ↔ Direct sc g1 a b := by
    intro a b
    constructor
    · rintro ⟨c, hc, hab⟩
      rw [hcovm] at hc
      exact ⟨c, hc.2.1, hc.2.2, hab⟩
    · rintro ⟨c, hc, hi, hab⟩
      exact ⟨c, (hcovm c).2 ⟨edge_mem_keys ((same (Or.inl ⟨hc, hi⟩) a b).2 hab), hc, hi⟩, hab⟩
  have hord : (clear sc x g1).comp sc.order = g1.comp sc.order := by
    obtain ⟨h1, h2⟩ := hsc.cov_ne (Or.inr (Or.inr hsc.order))
    exact f.comp _ h1 h2 (hsc.dom_ne (Or.inr hsc.order))
  rw [hord] at h
  obtain ⟨r1, r2, r3⟩ := reindexFold_spec hsc hI hseg ho hch hcov (fun c hc => ((hcovm c).1 hc).2)
    (by
      intro a b
      unfold Below
      rw [← hcov]
      simp only [List.mem_append]
      constructor
      · rintro ⟨c, hc | hc, hab⟩
        · exact Or.inl ⟨c, hc, hab⟩
        · exact Or.inr ⟨c, ((hdomm c).1 hc).2, hab⟩
      · rintro (⟨c, hc, hab⟩ | ⟨c, hc, hab⟩)
        · exact ⟨c, Or.inl hc, hab⟩
        · exact ⟨c, Or.inr ((hdomm c).2 ⟨edge_mem_keys ((same (Or.inr hc) a b).2 hab), hc⟩), hab⟩)
    (by
      intro c hc
      rcases List.mem_append.1 hc with hc | hc
      · exact Or.inl ((hcovm c).1 hc).2
      · exact Or.inr ((hdomm c).1 hc).2)
    x.invalid.keys (clear sc x g1) (OMap.nodup_keys hs) f
    (by
      intro i b hl hi
      rw [e] at hi
      rw [f.annos] at hl
      have hd := hi.2 (Or.inr (Or.inr rfl))
      unfold Dropped at hd
      push Not at hd
      obtain ⟨b', hb'⟩ := hio i b (by simpa using hd.1) hd.2.1 hl hi.1
      exact ⟨b', (f.direct hsc _ _).2 hb'⟩)
    (by
      intro n hn c hc t ht
      rw [e] at ht
      exact ht.2 hc (Or.inr (Or.inl ((mem_keys_bad x n).1 hn))))
    h
  refine ⟨r1, ?_, ?_⟩
  · intro c hc a b ha
    rw [r2 c a b (fun h => ha ((mem_keys_bad x a).1 h)), e]
    simp only [hc, true_implies, Dropped, ha, false_or, not_or, Bool.not_eq_true]
  · intro n hn
    have := r3 n ((mem_keys_bad x n).2 hn)
    refine ⟨fun t => ?_, fun t => ?_, fun t => ?_⟩
    · rw [r1.first hsc]; exact (this t).1
    · rw [r1.last hsc]; exact (this t).2.1
    · rw [r1.covered hsc, r1.direct hsc]; exact (this t).2.2

end Index

end Graph
