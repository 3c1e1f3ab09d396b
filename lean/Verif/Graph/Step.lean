import Verif.Graph.Lemmas

/-!
# Applying updates: every event refines the specification
-/

set_option linter.unusedSimpArgs false
set_option linter.unusedSectionVars false

namespace Graph

variable {S V C : Type} [LinearOrder S] [OrderBot S] [LinearOrder V] [LinearOrder C]
variable {nk tk : AnnoKey S} {g : Graph S V C} {m : GSpec S V C}

theorem Inv.empty : Inv nk (Graph.new : Graph S V C) := by
  have hv : ∀ i k, (AnnoStore.new : AnnoStore NodeID64 S V).getValue i k = none := by
    intro i k; simp [AnnoStore.new, AnnoStore.getValue, SymbolTable.new, SymbolTable.getSymbol]
  refine ⟨AnnoStore.Inv.new, OMap.sorted_nil, fun _ => Adj.Inv.new, ?_, ?_, ?_⟩
  · intro i j n h; simp [Graph.new, hv] at h
  · intro i k v h; simp [Graph.new, hv] at h
  · intro c a b h; simp [Graph.new, comp, Adj.new, Adj.out] at h

theorem Rep.empty : Rep nk (Graph.new : Graph S V C) GSpec.empty := by
  have hv : ∀ i k, (AnnoStore.new : AnnoStore NodeID64 S V).getValue i k = none := by
    intro i k; simp [AnnoStore.new, AnnoStore.getValue, SymbolTable.new, SymbolTable.getSymbol]
  constructor <;> simp [Graph.new, hv, GSpec.empty]

/-- The new node ID is larger than all used ones. -/
theorem newId_fresh {i : NodeID64} (h : g.newId = some i) (l : NodeID64) (hl : g.annos.largest = some l) : l < i := by
  unfold newId AnnoStore.largestItem at h
  rw [hl] at h
  simp only at h
  split at h
  · obtain rfl := Option.some.inj h
    show l.val < l.val + 1
    omega
  · cases h

theorem addNode_step (hI : Inv nk g) (hR : Rep nk g m) (hne : nk ≠ tk) (n ty : V) {i : NodeID64}
    (hnew : g.annos.hasNodeName nk n = false) (hi : g.newId = some i) :
    let g' := { g with annos := (g.annos.insert i nk n).insert i tk ty }
    Inv nk g' ∧ Rep nk g' (m.step nk tk (.addNode n ty)) ∧
    (∀ x, g'.annos.nodeIdFromName nk x = if x = n then some i else g.annos.nodeIdFromName nk x) := by
  intro g'
  have hno : ∀ j, g.annos.getValue j nk ≠ some n := by
    intro j hj
    rw [(has_iff hI n).2 ⟨j, hj⟩] at hnew
    cases hnew
  have hun : ∀ k, g.annos.getValue i k = none := by
    intro k
    cases hv : g.annos.getValue i k with
    | none => rfl
    | some v =>
      obtain ⟨l, hl, hle⟩ := le_largest hI hv
      exact absurd (newId_fresh hi l hl) (not_lt.2 hle)
  have hout : ∀ c a b, b ∈ (g.comp c).out a → a ≠ i ∧ b ≠ i := by
    intro c a b hab
    obtain ⟨l, hl, h1, h2⟩ := hI.bound c a b hab
    have := newId_fresh hi l hl
    exact ⟨fun e => absurd this (not_lt.2 (e ▸ h1)), fun e => absurd this (not_lt.2 (e ▸ h2))⟩
  have hA1 := hI.an.insert i nk n
  have hA := hA1.insert i tk ty
  have hv : ∀ j k, g'.annos.getValue j k =
      if j = i then (if k = nk then some n else if k = tk then some ty else none) else g.annos.getValue j k := by
    intro j k
    show ((g.annos.insert i nk n).insert i tk ty).getValue j k = _
    rw [AnnoStore.getValue_insert hA1, AnnoStore.getValue_insert hI.an]
    by_cases e : j = i
    · subst e
      by_cases e1 : k = nk
      · subst e1; simp [hne]
      · by_cases e2 : k = tk
        · subst e2; simp [Ne.symm hne]
        · simp [e1, e2, hun]
    · simp [e]
  have hvn : ∀ j x, g'.annos.getValue j nk = some x ↔ (j = i ∧ x = n) ∨ (j ≠ i ∧ g.annos.getValue j nk = some x) := by
    intro j x
    rw [hv]
    by_cases e : j = i
    · simp [e, eq_comm]
    · simp [e]
  have hlarge : ∀ l, g.annos.largest = some l → ∃ l', g'.annos.largest = some l' ∧ l ≤ l' := by
    intro l hl
    obtain ⟨l1, h1, h2⟩ := (AnnoStore.largest_insert hI.an i nk n).2 l hl
    obtain ⟨l2, h3, h4⟩ := (AnnoStore.largest_insert hA1 i tk ty).2 l1 h1
    exact ⟨l2, h3, le_trans h2 h4⟩
  have hInv : Inv nk g' := by
    refine ⟨hA, hI.cs, hI.ci, ?_, ?_, ?_⟩
    · intro a b x h1 h2
      rw [hvn] at h1 h2
      rcases h1 with ⟨rfl, rfl⟩ | ⟨h1, h1'⟩ <;> rcases h2 with ⟨rfl, h⟩ | ⟨h2, h2'⟩
      · rfl
      · exact absurd h2' (hno b)
      · rw [h] at h1'; exact absurd h1' (hno a)
      · exact hI.uniq a b x h1' h2'
    · intro j k v hj
      by_cases e : j = i
      · exact ⟨n, (hvn j n).2 (Or.inl ⟨e, rfl⟩)⟩
      · rw [hv, if_neg e] at hj
        obtain ⟨x, hx⟩ := hI.named j k v hj
        exact ⟨x, (hvn j x).2 (Or.inr ⟨e, hx⟩)⟩
    · intro c a b hab
      obtain ⟨l, hl, h1, h2⟩ := hI.bound c a b hab
      obtain ⟨l', hl', h3⟩ := hlarge l hl
      exact ⟨l', hl', le_trans h1 h3, le_trans h2 h3⟩
  have hmn : m.node n = false := by
    cases h : m.node n with
    | false => rfl
    | true => obtain ⟨j, hj⟩ := (hR.node n).1 h; exact absurd hj (hno j)
  have hedge : ∀ c x, m.edge c n x = false ∧ m.edge c x n = false := by
    intro c x
    constructor
    · cases h : m.edge c n x with
      | false => rfl
      | true => rw [(hR.edgeN c n x h).1] at hmn; cases hmn
    · cases h : m.edge c x n with
      | false => rfl
      | true => rw [(hR.edgeN c x n h).2] at hmn; cases hmn
  have heanno : ∀ c x k, m.eanno c n x k = none ∧ m.eanno c x n k = none := by
    intro c x k
    constructor
    · cases h : m.eanno c n x k with
      | none => rfl
      | some v => have := hR.eannoN c n x k v h; rw [(hedge c x).1] at this; cases this
    · cases h : m.eanno c x n k with
      | none => rfl
      | some v => have := hR.eannoN c x n k v h; rw [(hedge c x).2] at this; cases this
  have hgv : ∀ c a b k, (a = i ∨ b = i) → (g.comp c).annos.getValue (toLex (a, b)) k = none := by
    intro c a b k hab
    cases h : (g.comp c).annos.getValue (toLex (a, b)) k with
    | none => rfl
    | some v =>
      have h1 := (hI.ci c).edge a b k (by rw [h]; rfl)
      obtain ⟨h2, h3⟩ := hout c a b h1
      rcases hab with e | e <;> contradiction
  have hstep : m.step nk tk (.addNode n ty) = { m with
      node := fun x => if x = n then true else m.node x
      label := fun x k => if x = n then (if k = nk then some n else if k = tk then some ty else none) else m.label x k } := by
    simp [GSpec.step, hmn]
  refine ⟨hInv, ?_, ?_⟩
  · rw [hstep]
    constructor
    · intro x
      simp only
      by_cases e : x = n
      · simp only [e, if_true, true_iff]
        exact ⟨i, (hvn i n).2 (Or.inl ⟨rfl, rfl⟩)⟩
      · rw [if_neg e, hR.node]
        constructor
        · rintro ⟨j, hj⟩
          refine ⟨j, (hvn j x).2 (Or.inr ⟨?_, hj⟩)⟩
          rintro rfl
          rw [hun] at hj; cases hj
        · rintro ⟨j, hj⟩
          rcases (hvn j x).1 hj with ⟨_, h⟩ | ⟨_, h⟩
          · exact absurd h e
          · exact ⟨j, h⟩
    · intro j x hj k
      rw [hv]
      rcases (hvn j x).1 hj with ⟨rfl, rfl⟩ | ⟨h, h'⟩
      · simp
      · have : x ≠ n := fun e => hno j (e ▸ h')
        simp only [h, this, if_false]
        exact hR.label j x h' k
    · intro x k v h
      simp only at h ⊢
      by_cases e : x = n
      · simp [e]
      · rw [if_neg e] at h ⊢
        exact hR.labelN x k v h
    · intro a b x y ha hb c
      show b ∈ (g.comp c).out a ↔ m.edge c x y = true
      rcases (hvn a x).1 ha with ⟨rfl, rfl⟩ | ⟨h, h'⟩
      · rw [(hedge c y).1]
        simp only [Bool.false_eq_true, iff_false]
        exact fun h => (hout c a b h).1 rfl
      · rcases (hvn b y).1 hb with ⟨rfl, rfl⟩ | ⟨h2, h2'⟩
        · rw [(hedge c x).2]
          simp only [Bool.false_eq_true, iff_false]
          exact fun h => (hout c a b h).2 rfl
        · exact hR.edge a b x y h' h2' c
    · intro c x y h
      obtain ⟨h1, h2⟩ := hR.edgeN c x y h
      simp [h1, h2]
    · intro a b x y ha hb c k
      show (g.comp c).annos.getValue (toLex (a, b)) k = m.eanno c x y k
      rcases (hvn a x).1 ha with ⟨rfl, rfl⟩ | ⟨h, h'⟩
      · rw [(heanno c y k).1, hgv c a b k (Or.inl rfl)]
      · rcases (hvn b y).1 hb with ⟨rfl, rfl⟩ | ⟨h2, h2'⟩
        · rw [(heanno c x k).2, hgv c a b k (Or.inr rfl)]
        · exact hR.eanno a b x y h' h2' c k
    · exact hR.eannoN
  · intro x
    by_cases e : x = n
    · rw [if_pos e, idOf_iff hInv, hvn]; exact Or.inl ⟨rfl, e⟩
    · rw [if_neg e]
      apply Option.ext
      intro j
      rw [idOf_iff hInv, idOf_iff hI, hvn]
      constructor
      · rintro (⟨_, h⟩ | ⟨_, h⟩)
        · exact absurd h e
        · exact h
      · intro h
        refine Or.inr ⟨?_, h⟩
        rintro rfl
        rw [hun] at h; cases h

theorem deleteNode_step (hI : Inv nk g) (hR : Rep nk g m) (all : List C) (n : V) {i : NodeID64}
    (hi : g.annos.getValue i nk = some n) :
    let g' := all.foldl (fun g c => g.setComp c ((g.comp c).deleteNode i)) { g with annos := (g.annos.removeItem i).1 }
    Inv nk g' ∧ Rep nk g' (m.step nk tk (.deleteNode n)) ∧
    (∀ x, g'.annos.nodeIdFromName nk x = if x = n then none else g.annos.nodeIdFromName nk x) := by
  obtain ⟨a1, _, a3⟩ := AnnoStore.removeItem_spec hI.an i
  have hl := AnnoStore.largest_removeItem g.annos i
  have hI0 : Inv nk { g with annos := (g.annos.removeItem i).1 } := by
    refine ⟨a1, hI.cs, hI.ci, ?_, ?_, ?_⟩
    · intro a b x h1 h2
      simp only [a3] at h1 h2
      split at h1
      · cases h1
      · split at h2
        · cases h2
        · exact hI.uniq a b x h1 h2
    · intro a k v h
      simp only [a3] at h ⊢
      split at h
      · cases h
      · rename_i e
        obtain ⟨x, hx⟩ := hI.named a k v h
        exact ⟨x, by rw [if_neg e]; exact hx⟩
    · intro c a b h
      show ∃ l, (g.annos.removeItem i).1.largest = some l ∧ _
      rw [hl]
      exact hI.bound c a b h
  obtain ⟨f1, f2, f3, f4, f5, f6⟩ := foldl_deleteNode hI0 i all
  intro g'
  change g'.annos = _ at f1
  have hv : ∀ j k, g'.annos.getValue j k = if j = i then none else g.annos.getValue j k := by
    intro j k; rw [f1]; exact a3 j k
  have hvn : ∀ j x, g'.annos.getValue j nk = some x ↔ x ≠ n ∧ g.annos.getValue j nk = some x := by
    intro j x
    rw [hv]
    by_cases e : j = i
    · subst e
      simp only [if_true, reduceCtorEq, false_iff, not_and]
      intro h1 h2
      rw [hi] at h2
      exact h1 (Option.some.inj h2).symm
    · rw [if_neg e]
      constructor
      · intro h
        refine ⟨?_, h⟩
        rintro rfl
        exact e (hI.uniq j i x h hi)
      · exact fun h => h.2
  have hInv : Inv nk g' := by
    refine ⟨by rw [f1]; exact a1, f3, f4, ?_, ?_, ?_⟩
    · rw [f1]; exact hI0.uniq
    · rw [f1]; exact hI0.named
    · intro c a b h
      rw [f1]
      exact hI0.bound c a b ((f5 c a b).1 h).1
  refine ⟨hInv, ?_, ?_⟩
  · constructor
    · intro x
      simp only [GSpec.step]
      by_cases e : x = n
      · simp [e, hvn]
      · rw [if_neg e, hR.node]
        simp [hvn, e]
    · intro j x hj k
      obtain ⟨h1, h2⟩ := (hvn j x).1 hj
      have e : j ≠ i := by
        rintro rfl
        rw [hi] at h2; exact h1 (Option.some.inj h2).symm
      rw [hv, if_neg e]
      simp only [GSpec.step, h1, if_false]
      exact hR.label j x h2 k
    · intro x k v h
      simp only [GSpec.step] at h ⊢
      split at h
      · cases h
      · rename_i e; rw [if_neg e]; exact hR.labelN x k v h
    · intro a b x y ha hb c
      obtain ⟨h1, h2⟩ := (hvn a x).1 ha
      obtain ⟨h3, h4⟩ := (hvn b y).1 hb
      have ea : a ≠ i := by rintro rfl; rw [hi] at h2; exact h1 (Option.some.inj h2).symm
      have eb : b ≠ i := by rintro rfl; rw [hi] at h4; exact h3 (Option.some.inj h4).symm
      have := f5 c a b
      simp only [ea, eb, or_self, and_false, not_false_eq_true, and_true] at this
      simp only [GSpec.step, h1, h3, or_self, if_false]
      exact this.trans (hR.edge a b x y h2 h4 c)
    · intro c x y h
      simp only [GSpec.step] at h ⊢
      split at h
      · cases h
      · rename_i e
        push Not at e
        simp only [e, if_false]
        exact hR.edgeN c x y h
    · intro a b x y ha hb c k
      obtain ⟨h1, h2⟩ := (hvn a x).1 ha
      obtain ⟨h3, h4⟩ := (hvn b y).1 hb
      have ea : a ≠ i := by rintro rfl; rw [hi] at h2; exact h1 (Option.some.inj h2).symm
      have eb : b ≠ i := by rintro rfl; rw [hi] at h4; exact h3 (Option.some.inj h4).symm
      have := f6 c a b k
      simp only [ea, eb, or_self, and_false, if_false] at this
      simp only [GSpec.step, h1, h3, or_self, if_false]
      exact this.trans (hR.eanno a b x y h2 h4 c k)
    · intro c x y k v h
      simp only [GSpec.step] at h ⊢
      split at h
      · cases h
      · rename_i e; rw [if_neg e]; exact hR.eannoN c x y k v h
  · intro x
    by_cases e : x = n
    · rw [if_pos e, idOf_none hInv]
      intro j hj
      exact ((hvn j x).1 hj).1 e
    · rw [if_neg e]
      apply Option.ext
      intro j
      rw [idOf_iff hInv, idOf_iff hI, hvn]
      simp [e]

/-- Changing a label which is not the name. -/
theorem label_step (hI : Inv nk g) (hR : Rep nk g m) (s' : AnnoStore NodeID64 S V) (hA : s'.Inv) (n : V) (key : AnnoKey S)
    (hk : key ≠ nk) (i : NodeID64) (hi : g.annos.getValue i nk = some n) (o : Option V)
    (hv : ∀ j k, s'.getValue j k = if j = i ∧ k = key then o else g.annos.getValue j k)
    (hl : ∀ l, g.annos.largest = some l → ∃ l', s'.largest = some l' ∧ l ≤ l') :
    Inv nk { g with annos := s' } ∧
    Rep nk { g with annos := s' } { m with label := fun x k => if x = n ∧ k = key then o else m.label x k } ∧
    (∀ x, s'.nodeIdFromName nk x = g.annos.nodeIdFromName nk x) := by
  have hvn : ∀ j, s'.getValue j nk = g.annos.getValue j nk := by
    intro j; rw [hv]; simp [Ne.symm hk]
  have hInv : Inv nk { g with annos := s' } := by
    refine ⟨hA, hI.cs, hI.ci, ?_, ?_, ?_⟩
    · intro a b x h1 h2
      simp only [hvn] at h1 h2
      exact hI.uniq a b x h1 h2
    · intro a k v h
      simp only [hvn]
      simp only [hv] at h
      split at h
      · rename_i e; exact ⟨n, by rw [e.1]; exact hi⟩
      · exact hI.named a k v h
    · intro c a b h
      obtain ⟨l, h1, h2, h3⟩ := hI.bound c a b h
      obtain ⟨l', h4, h5⟩ := hl l h1
      exact ⟨l', h4, le_trans h2 h5, le_trans h3 h5⟩
  refine ⟨hInv, ?_, ?_⟩
  · constructor
    · intro x; simp only [hvn]; exact hR.node x
    · intro j x hj k
      simp only [hvn] at hj
      simp only [hv]
      have : j = i ↔ x = n := by
        constructor
        · rintro rfl; rw [hi] at hj; exact (Option.some.inj hj).symm
        · rintro rfl; exact hI.uniq j i x hj hi
      simp only [this]
      split
      · rfl
      · exact hR.label j x hj k
    · intro x k v h
      simp only at h ⊢
      split at h
      · rename_i e; rw [e.1]; exact (hR.node n).2 ⟨i, hi⟩
      · exact hR.labelN x k v h
    · intro a b x y ha hb c
      simp only [hvn] at ha hb
      exact hR.edge a b x y ha hb c
    · exact hR.edgeN
    · intro a b x y ha hb c k
      simp only [hvn] at ha hb
      exact hR.eanno a b x y ha hb c k
    · exact hR.eannoN
  · intro x
    apply Option.ext
    intro j
    have h1 := idOf_iff hInv x j
    simp only [hvn] at h1
    rw [h1, idOf_iff hI]

end Graph
