import Verif.Index.Props

/-!
# Deciding the conditions of the index for concrete graphs

Used for the examples and counterexamples only.
-/

set_option linter.unusedSimpArgs false
set_option linter.unusedSectionVars false
set_option linter.unusedVariables false

namespace Graph

namespace Index

variable {S V C : Type} [LinearOrder S] [OrderBot S] [LinearOrder V] [LinearOrder C]

/-- Reachability with at least one step. -/
def transB (next : NodeID64 → List NodeID64) (vs : List NodeID64) (a b : NodeID64) : Bool :=
  (next a).any fun c => (Dfs.steps next vs c 0 usizeMax).any fun x => b = x.1

theorem transB_iff {next : NodeID64 → List NodeID64} {vs : List NodeID64} (hv : ∀ a c, c ∈ next a → c ∈ vs)
    {R : NodeID64 → NodeID64 → Prop} (hR : ∀ a b, b ∈ next a ↔ R a b) (a b : NodeID64) :
    transB next vs a b = true ↔ Relation.TransGen R a b := by
  unfold transB
  rw [List.any_eq_true, Relation.TransGen.head'_iff]
  refine exists_congr fun c => and_congr (hR a c) ?_
  rw [DfsQuery.any_steps hv hR false c b 0 usizeMax .unbounded rfl, Walk.reach_iff_simple]
  simp [Within]

/-- All nodes with an edge. -/
def ends (g : Graph S V C) : List NodeID64 :=
  setExtend [] (g.comps.keys.flatMap fun c => (g.comp c).edges.keys ++ Adj.targets (g.comp c).edges)

theorem mem_ends {g : Graph S V C} {c : C} {a b : NodeID64} (h : E g c a b) : a ∈ ends g ∧ b ∈ ends g := by
  unfold ends
  simp only [mem_setExtend, List.not_mem_nil, false_or, List.mem_flatMap, List.mem_append]
  refine ⟨⟨c, edge_mem_keys h, Or.inl ?_⟩, ⟨c, edge_mem_keys h, Or.inr (Adj.covers_out _ a b h)⟩⟩
  rw [OMap.mem_keys_iff]
  unfold E Adj.out at h
  cases hc : (g.comp c).edges.get a with
  | none => rw [hc] at h; simp at h
  | some l => exact ⟨l, rfl⟩

variable (sc : Schema C) (tok : AnnoKey S) (g : Graph S V C)

def directL (a : NodeID64) : List NodeID64 := (g.comps.keys.filter fun c => sc.kind c = .coverage ∧ c ≠ sc.inh).flatMap fun c => (g.comp c).out a

def belowL (a : NodeID64) : List NodeID64 :=
  directL sc g a ++ (g.comps.keys.filter fun c => sc.kind c = .dominance).flatMap fun c => (g.comp c).out a

def tokB (i : NodeID64) : Bool := (g.annos.getValue i tok).isSome && (directL sc g i).isEmpty

def coveredB (x t : NodeID64) : Bool := tokB sc tok g t && (t != x && transB (belowL sc g) (ends g) x t)

def beforeB (a b : NodeID64) : Bool := transB (fun a => (g.comp sc.order).out a) (ends g) a b

def firstB (x t : NodeID64) : Bool := coveredB sc tok g x t && (ends g).all fun t' => !coveredB sc tok g x t' || t' == t || beforeB sc g t t'

def lastB (x t : NodeID64) : Bool := coveredB sc tok g x t && (ends g).all fun t' => !coveredB sc tok g x t' || t' == t || beforeB sc g t' t

def nodeB (x : NodeID64) : Bool := (ends g).all fun t =>
  (decide (t ∈ (g.comp sc.left).out x) == firstB sc tok g x t) && (decide (t ∈ (g.comp sc.right).out x) == lastB sc tok g x t) &&
  (decide (t ∈ (g.comp sc.inh).out x) == (coveredB sc tok g x t && !decide (t ∈ directL sc g x)))

def orderB : Bool := (ends g).all (fun a => !beforeB sc g a a) &&
  (ends g).all fun x => (ends g).all fun a => (ends g).all fun b => !coveredB sc tok g x a || !coveredB sc tok g x b || a == b ||
    beforeB sc g a b || beforeB sc g b a

def segB : Bool := (ends g).all fun i => !(g.annos.getValue i tok).isSome || (belowL sc g i).isEmpty || !(directL sc g i).isEmpty

def namedB : Bool := g.comps.keys.all fun c => sc.kind c != .dominance || (ends g).all fun a => ((g.comp c).out a).all fun b =>
  g.comps.keys.any fun c' => (sc.kind c' == .coverage || sc.kind c' == .dominance && sc.unnamed c') && decide (b ∈ (g.comp c').out a)

def stableB (g g' : Graph S V C) : Bool := (ends g ++ ends g').all fun a => (ends g ++ ends g').all fun b =>
  !tokB sc tok g a || !tokB sc tok g b || !tokB sc tok g' a || !tokB sc tok g' b || (beforeB sc g a b == beforeB sc g' a b)

variable {sc tok g}

theorem mem_directL (a b : NodeID64) : b ∈ directL sc g a ↔ Direct sc g a b := by
  unfold directL Direct
  simp only [List.mem_flatMap, List.mem_filter, decide_eq_true_eq]
  constructor
  · rintro ⟨c, ⟨_, h1, h2⟩, h3⟩; exact ⟨c, h1, h2, h3⟩
  · rintro ⟨c, h1, h2, h3⟩; exact ⟨c, ⟨edge_mem_keys h3, h1, h2⟩, h3⟩

theorem mem_belowL (a b : NodeID64) : b ∈ belowL sc g a ↔ Below sc g a b := by
  unfold belowL Below
  rw [List.mem_append, mem_directL]
  refine or_congr Iff.rfl ?_
  simp only [List.mem_flatMap, List.mem_filter, decide_eq_true_eq]
  constructor
  · rintro ⟨c, ⟨_, h1⟩, h3⟩; exact ⟨c, h1, h3⟩
  · rintro ⟨c, h1, h3⟩; exact ⟨c, ⟨edge_mem_keys h3, h1⟩, h3⟩

theorem below_ends {a b : NodeID64} (h : Below sc g a b) : a ∈ ends g ∧ b ∈ ends g := by
  rcases h with ⟨c, _, _, h⟩ | ⟨c, _, h⟩ <;> exact mem_ends h

theorem tokB_iff (i : NodeID64) : tokB sc tok g i = true ↔ IsTok sc tok g i := by
  unfold tokB IsTok
  rw [Bool.and_eq_true, List.isEmpty_iff, List.eq_nil_iff_forall_not_mem]
  simp only [mem_directL, not_exists]

theorem coveredB_iff (x t : NodeID64) : coveredB sc tok g x t = true ↔ Covered sc tok g x t := by
  unfold coveredB Covered
  rw [Bool.and_eq_true, Bool.and_eq_true, tokB_iff,
    transB_iff (fun a c h => (below_ends ((mem_belowL a c).1 h)).2) mem_belowL, bne_iff_ne]

theorem covered_ends {x t : NodeID64} (h : Covered sc tok g x t) : x ∈ ends g ∧ t ∈ ends g := by
  obtain ⟨b, h1⟩ := covered_head h
  obtain ⟨c, h2⟩ := Relation.TransGen.tail'_iff.1 h.2.2
  exact ⟨(below_ends h1).1, (below_ends h2.2).2⟩

theorem beforeB_iff (a b : NodeID64) : beforeB sc g a b = true ↔ Before sc g a b := by
  unfold beforeB Before
  exact transB_iff (R := E g sc.order) (fun a c h => (mem_ends (c := sc.order) h).2) (fun _ _ => Iff.rfl) a b

theorem before_ends {a b : NodeID64} (h : Before sc g a b) : a ∈ ends g ∧ b ∈ ends g := by
  obtain ⟨c, h1, _⟩ := Relation.TransGen.head'_iff.1 h
  obtain ⟨d, _, h2⟩ := Relation.TransGen.tail'_iff.1 h
  exact ⟨(mem_ends h1).1, (mem_ends h2).2⟩

theorem firstB_iff (x t : NodeID64) : firstB sc tok g x t = true ↔ First sc tok g x t := by
  unfold firstB First
  rw [Bool.and_eq_true, coveredB_iff, List.all_eq_true]
  refine and_congr_right fun _ => ?_
  simp only [Bool.or_eq_true, Bool.not_eq_true', beq_iff_eq, beforeB_iff, ← Bool.not_eq_true, coveredB_iff]
  constructor
  · intro h t' ht'
    rcases h t' (covered_ends ht').2 with (h | h) | h
    · exact absurd ht' h
    · exact Or.inl h
    · exact Or.inr h
  · intro h t' _
    by_cases hc : Covered sc tok g x t'
    · rcases h t' hc with h | h
      · exact Or.inl (Or.inr h)
      · exact Or.inr h
    · exact Or.inl (Or.inl hc)

theorem lastB_iff (x t : NodeID64) : lastB sc tok g x t = true ↔ Last sc tok g x t := by
  unfold lastB Last
  rw [Bool.and_eq_true, coveredB_iff, List.all_eq_true]
  refine and_congr_right fun _ => ?_
  simp only [Bool.or_eq_true, Bool.not_eq_true', beq_iff_eq, beforeB_iff, ← Bool.not_eq_true, coveredB_iff]
  constructor
  · intro h t' ht'
    rcases h t' (covered_ends ht').2 with (h | h) | h
    · exact absurd ht' h
    · exact Or.inl h
    · exact Or.inr h
  · intro h t' _
    by_cases hc : Covered sc tok g x t'
    · rcases h t' hc with h | h
      · exact Or.inl (Or.inr h)
      · exact Or.inr h
    · exact Or.inl (Or.inl hc)

theorem decide_beq (p : Prop) [Decidable p] (b : Bool) : (decide p == b) = true ↔ (p ↔ b = true) := by
  by_cases hp : p <;> cases b <;> simp [hp]

theorem nodeB_of (x : NodeID64) (h : NodeOk sc tok g x) : nodeB sc tok g x = true := by
  unfold nodeB
  rw [List.all_eq_true]
  intro t _
  simp only [Bool.and_eq_true, decide_beq, firstB_iff, lastB_iff, coveredB_iff, Bool.not_eq_true', decide_eq_false_iff_not, mem_directL]
  exact ⟨⟨h.left t, h.right t⟩, h.inh t⟩

theorem orderOk_of (h : orderB sc tok g = true) : OrderOk sc tok g := by
  unfold orderB at h
  simp only [Bool.and_eq_true, List.all_eq_true, Bool.or_eq_true, Bool.not_eq_true', beq_iff_eq, ← Bool.not_eq_true, coveredB_iff,
    beforeB_iff] at h
  refine ⟨fun a ha => h.1 a (before_ends ha).1 ha, fun x a b ha hb => ?_⟩
  have := h.2 x (covered_ends ha).1 a (covered_ends ha).2 b (covered_ends hb).2
  tauto

theorem segOk_of (h : segB sc tok g = true) : SegOk sc tok g := by
  unfold segB at h
  simp only [List.all_eq_true, Bool.or_eq_true, Bool.not_eq_true', ← Bool.not_eq_true, List.isEmpty_iff] at h
  intro i b hl hb
  rcases h i (below_ends hb).1 with (h | h) | h
  · exact absurd hl h
  · have := (mem_belowL (sc := sc) (g := g) i b).2 hb
    rw [h] at this; cases this
  · obtain ⟨b', hb'⟩ := List.exists_mem_of_ne_nil _ h
    exact ⟨b', (mem_directL i b').1 hb'⟩

theorem namedOk_of (h : namedB sc g = true) : NamedOk sc g := by
  unfold namedB at h
  simp only [List.all_eq_true, Bool.or_eq_true, bne_iff_ne, ne_eq, List.any_eq_true, Bool.and_eq_true, beq_iff_eq, decide_eq_true_eq] at h
  intro c a b hc hab
  rcases h c (edge_mem_keys hab) with h | h
  · exact absurd hc h
  · obtain ⟨c', _, h1, h2⟩ := h a (mem_ends hab).1 b hab
    exact ⟨c', h1, h2⟩

theorem stable_of {g' : Graph S V C} (h : stableB sc tok g g' = true) (a b : NodeID64) (h1 : IsTok sc tok g a) (h2 : IsTok sc tok g b)
    (h3 : IsTok sc tok g' a) (h4 : IsTok sc tok g' b) : Before sc g a b ↔ Before sc g' a b := by
  unfold stableB at h
  simp only [List.all_eq_true, Bool.or_eq_true, Bool.not_eq_true', ← Bool.not_eq_true, tokB_iff, beq_iff_eq, List.mem_append] at h
  by_cases hab : (a ∈ ends g ∨ a ∈ ends g') ∧ (b ∈ ends g ∨ b ∈ ends g')
  · rcases h a hab.1 b hab.2 with (((h | h) | h) | h) | h
    · exact absurd h1 h
    · exact absurd h2 h
    · exact absurd h3 h
    · exact absurd h4 h
    · rw [← beforeB_iff, ← beforeB_iff, h]
  · constructor
    · intro hb; exact absurd ⟨Or.inl (before_ends hb).1, Or.inl (before_ends hb).2⟩ hab
    · intro hb; exact absurd ⟨Or.inr (before_ends hb).1, Or.inr (before_ends hb).2⟩ hab

end Index

end Graph
