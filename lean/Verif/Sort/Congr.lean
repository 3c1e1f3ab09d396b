import Verif.Sort.PermProps

/-!
# Sorting only compares items of the list

So it is enough that the comparison is an order on the items which are sorted.
-/

set_option linter.unusedSimpArgs false

variable {α : Type} {cmp cmp' : α → α → Option Ordering} {P : α → Prop}

/-- The second comparison gives the same answers on the items with the property. -/
def SameOn (P : α → Prop) (cmp cmp' : α → α → Option Ordering) : Prop :=
  ∀ x y o, P x → P y → cmp x y = some o → cmp' x y = some o

theorem mem_of_get? {l : List α} {i : Nat} {x : α} (h : l[i]? = some x) : x ∈ l := List.mem_of_getElem? h

theorem sinkDown_congr (hc : SameOn P cmp cmp') (a : Nat) : ∀ (k : Nat) (l l' : List α), (∀ x ∈ l, P x) →
    sinkDown cmp a k l = some l' → sinkDown cmp' a k l = some l' := by
  intro k
  induction k with
  | zero => intro l l' _ h; exact h
  | succ k ih =>
    intro l l' hP h
    unfold sinkDown at h ⊢
    simp only [Option.bind_eq_bind, Option.bind_eq_some_iff] at h ⊢
    obtain ⟨x, hx, y, hy, o, ho, h⟩ := h
    refine ⟨x, hx, y, hy, o, hc x y o (hP x (mem_of_get? hx)) (hP y (mem_of_get? hy)) ho, ?_⟩
    split at h
    · rename_i hge
      rw [if_pos hge]
      obtain ⟨l1, h1, h2⟩ := Option.bind_eq_some_iff.1 h
      exact Option.bind_eq_some_iff.2 ⟨l1, h1, ih l1 l' (fun x hx => hP x ((swapAt_perm h1).mem_iff.1 hx)) h2⟩
    · rename_i hge
      rw [if_neg hge]; exact h

theorem insertionSort_congr (hc : SameOn P cmp cmp') {a b : Nat} : ∀ {l l' : List α}, (∀ x ∈ l, P x) →
    insertionSort cmp a b l = some l' → insertionSort cmp' a b l = some l' := by
  unfold insertionSort
  induction List.range' a (b - a) with
  | nil => intro l l' _ h; exact h
  | cons i is ih =>
    intro l l' hP h
    rw [List.foldlM_cons] at h ⊢
    obtain ⟨l1, h1, h2⟩ := Option.bind_eq_some_iff.1 h
    refine Option.bind_eq_some_iff.2 ⟨l1, sinkDown_congr hc a _ l l1 hP h1, ih ?_ h2⟩
    exact fun x hx => hP x ((sinkDown_perm a _ l l1 h1).mem_iff.1 hx)

theorem partitionFold_congr (hc : SameOn P cmp cmp') {p : α} (hp : P p) : ∀ (is : List Nat) (s s' : List α × Nat), (∀ x ∈ s.1, P x) →
    is.foldlM (partitionStep cmp p) s = some s' → is.foldlM (partitionStep cmp' p) s = some s' := by
  intro is
  induction is with
  | nil => intro s s' _ h; exact h
  | cons i is ih =>
    intro s s' hP h
    rw [List.foldlM_cons] at h ⊢
    obtain ⟨s1, h1, h2⟩ := Option.bind_eq_some_iff.1 h
    have hperm : s1.1.Perm s.1 := partitionFold_perm (cmp := cmp) p [i] s s1 (by simp [h1])
    refine Option.bind_eq_some_iff.2 ⟨s1, ?_, ih s1 s' (fun x hx => hP x (hperm.mem_iff.1 hx)) h2⟩
    unfold partitionStep at h1 ⊢
    simp only [Option.bind_eq_bind, Option.bind_eq_some_iff] at h1 ⊢
    obtain ⟨x, hx, o, ho, h1⟩ := h1
    exact ⟨x, hx, o, hc x p o (hP x (mem_of_get? hx)) hp ho, h1⟩

theorem partitionRange_congr (hc : SameOn P cmp cmp') {a b : Nat} {l : List α} {r : List α × Nat} (hP : ∀ x ∈ l, P x)
    (h : partitionRange cmp a b l = some r) : partitionRange cmp' a b l = some r := by
  unfold partitionRange at h ⊢
  simp only [Option.bind_eq_bind, Option.bind_eq_some_iff] at h ⊢
  obtain ⟨p, hp, s, h1, h2⟩ := h
  exact ⟨p, hp, s, partitionFold_congr hc (hP p (mem_of_get? hp)) _ _ _ hP h1, h2⟩

theorem medianPos_congr (hc : SameOn P cmp cmp') {v1 v2 v3 : Nat × α} {p : Nat} (h1 : P v1.2) (h2 : P v2.2) (h3 : P v3.2)
    (h : medianPos cmp v1 v2 v3 = some p) : medianPos cmp' v1 v2 v3 = some p := by
  unfold medianPos at h ⊢
  simp only [Option.bind_eq_bind, Option.bind_eq_some_iff] at h ⊢
  obtain ⟨o, ho, h⟩ := h
  refine ⟨o, hc _ _ _ h2 h1 ho, ?_⟩
  split at h <;> rename_i hh
  all_goals
    simp only [Option.bind_eq_some_iff, hh, if_true, Bool.false_eq_true, if_false] at h ⊢
    obtain ⟨o2, ho2, h⟩ := h
    refine ⟨o2, hc _ _ _ h3 (by assumption) ho2, ?_⟩
    split at h <;> rename_i hh2
    all_goals
      simp only [Option.bind_eq_some_iff, hh2, if_true, Bool.false_eq_true, if_false] at h ⊢
      obtain ⟨o3, ho3, h⟩ := h
      exact ⟨o3, hc _ _ _ (by assumption) (by assumption) ho3, h⟩

theorem randomizedPartition_congr (hc : SameOn P cmp cmp') {r : Nat × Nat × Nat} {a b : Nat} {l : List α} {s : List α × Nat}
    (hP : ∀ x ∈ l, P x) (h : randomizedPartition cmp r a b l = some s) : randomizedPartition cmp' r a b l = some s := by
  unfold randomizedPartition at h ⊢
  split at h
  · rename_i hb; rw [if_pos hb]; exact h
  · rename_i hb
    rw [if_neg hb]
    simp only [Option.bind_eq_bind, Option.bind_eq_some_iff] at h ⊢
    obtain ⟨x1, h1, x2, h2, x3, h3, p, hp, l1, h4, h5⟩ := h
    refine ⟨x1, h1, x2, h2, x3, h3, p, medianPos_congr hc (hP _ (mem_of_get? h1)) (hP _ (mem_of_get? h2)) (hP _ (mem_of_get? h3)) hp,
      l1, h4, partitionRange_congr hc (fun x hx => hP x ((swapAt_perm h4).mem_iff.1 hx)) h5⟩

theorem quicksort_congr (hc : SameOn P cmp cmp') (n : Nat) : ∀ (fuel a b : Nat) (l : List α) (rs : List (Nat × Nat × Nat))
    (s : List α × List (Nat × Nat × Nat)), (∀ x ∈ l, P x) → quicksort cmp n fuel a b l rs = some s →
    quicksort cmp' n fuel a b l rs = some s := by
  intro fuel
  induction fuel with
  | zero => intro a b l rs s _ h; simp [quicksort] at h
  | succ fuel ih =>
    intro a b l rs s hP h
    unfold quicksort at h ⊢
    split at h
    · rename_i hb
      rw [if_pos hb]
      split at h
      · rename_i hb2
        rw [if_pos hb2]
        obtain ⟨l1, h1, h2⟩ := Option.map_eq_some_iff.1 h
        exact Option.map_eq_some_iff.2 ⟨l1, insertionSort_congr hc hP h1, h2⟩
      · rename_i hb2
        rw [if_neg hb2]
        split at h
        · cases h
        · rename_i r rs
          simp only [Option.bind_eq_bind, Option.bind_eq_some_iff] at h ⊢
          obtain ⟨⟨l1, q⟩, h1, ⟨l2, rs2⟩, h2, h3⟩ := h
          have hP1 : ∀ x ∈ l1, P x := fun x hx => hP x ((randomizedPartition_perm h1).mem_iff.1 hx)
          have hP2 : ∀ x ∈ l2, P x := fun x hx => hP1 x ((quicksort_perm n _ _ _ _ _ _ h2).mem_iff.1 hx)
          refine ⟨(l1, q), randomizedPartition_congr hc hP h1, (l2, rs2), ih _ _ _ _ _ hP1 h2, ?_⟩
          simp only at h3 ⊢
          split at h3
          · rename_i hq; rw [if_pos hq]; exact ih _ _ _ _ _ hP2 h3
          · rename_i hq; rw [if_neg hq]; exact h3
    · rename_i hb
      rw [if_neg hb]; exact h

/-- Sorting only asks for comparisons of items of the list. -/
theorem sortAll_congr (hc : SameOn P cmp cmp') {fuel : Nat} {rs : List (Nat × Nat × Nat)} {l l' : List α} (hP : ∀ x ∈ l, P x)
    (h : sortAll cmp fuel rs l = some l') : sortAll cmp' fuel rs l = some l' := by
  unfold sortAll sortFirstN at h ⊢
  split at h
  · rename_i hl
    rw [if_pos hl]
    obtain ⟨s, h1, h2⟩ := Option.map_eq_some_iff.1 h
    exact Option.map_eq_some_iff.2 ⟨s, quicksort_congr hc _ _ _ _ _ _ _ hP h1, h2⟩
  · rename_i hl
    rw [if_neg hl]; exact h

theorem sortFirstN_congr (hc : SameOn P cmp cmp') {n fuel : Nat} {rs : List (Nat × Nat × Nat)} {l l' : List α} (hP : ∀ x ∈ l, P x)
    (h : sortFirstN cmp n fuel rs l = some l') : sortFirstN cmp' n fuel rs l = some l' := by
  unfold sortFirstN at h ⊢
  split at h
  · rename_i hl
    rw [if_pos hl]
    obtain ⟨s, h1, h2⟩ := Option.map_eq_some_iff.1 h
    exact Option.map_eq_some_iff.2 ⟨s, quicksort_congr hc _ _ _ _ _ _ _ hP h1, h2⟩
  · rename_i hl
    rw [if_neg hl]; exact h

/-- C33 with an order that is only total on the items: the first `n` items of the result are in order. -/
theorem C33_sort_first_n_on (le : α → α → Prop) {l l' : List α} {n fuel : Nat} {rs : List (Nat × Nat × Nat)}
    (htr : ∀ x ∈ l, ∀ y ∈ l, ∀ z ∈ l, le x y → le y z → le x z) (htot : ∀ x ∈ l, ∀ y ∈ l, le x y ∨ le y x)
    (hag : ∀ x ∈ l, ∀ y ∈ l, ∀ o, cmp x y = some o → (o.isLE = true ↔ le x y) ∧ (o.isGE = true ↔ le y x))
    (h : sortFirstN cmp n fuel rs l = some l') : l'.Perm l ∧ FirstSorted le n l' := by
  classical
  let le' : α → α → Prop := fun a b => b ∉ l ∨ a ∈ l ∧ le a b
  let cmp' : α → α → Option Ordering := fun a b => if a ∈ l ∧ b ∈ l then cmp a b else none
  have hs : SameOn (· ∈ l) cmp cmp' := by
    intro x y o hx hy ho
    simp only [cmp', if_pos (And.intro hx hy)]; exact ho
  have ha : Agrees cmp' le' := by
    intro x y o ho
    simp only [cmp'] at ho
    split at ho
    · rename_i hxy
      simp only [le', hxy.1, hxy.2, not_true_eq_false, true_and, false_or]
      exact hag x hxy.1 y hxy.2 o ho
    · cases ho
  have ht : TotalPre le' := by
    constructor
    · rintro x y z h1 h2
      simp only [le'] at h1 h2 ⊢
      by_cases hz : z ∈ l
      · rcases h2 with h2 | ⟨hy, h2⟩
        · exact absurd hz h2
        · rcases h1 with h1 | ⟨hx, h1⟩
          · exact absurd hy h1
          · exact Or.inr ⟨hx, htr x hx y hy z hz h1 h2⟩
      · exact Or.inl hz
    · intro x y
      simp only [le']
      by_cases hy : y ∈ l
      · by_cases hx : x ∈ l
        · rcases htot x hx y hy with h | h
          · exact Or.inl (Or.inr ⟨hx, h⟩)
          · exact Or.inr (Or.inr ⟨hy, h⟩)
        · exact Or.inr (Or.inl hx)
      · exact Or.inl (Or.inl hy)
  obtain ⟨h1, h2⟩ := C33_sort_first_n ha ht n fuel rs l l' (sortFirstN_congr hs (fun _ h => h) h)
  refine ⟨h1, ?_⟩
  intro i j x y hij hi hx hy
  rcases h2 i j x y hij hi hx hy with h | ⟨_, h⟩
  · exact absurd (h1.mem_iff.1 (List.mem_of_getElem? hy)) h
  · exact h

/-- C33 with an order that is only total on the items: the result is a sorted permutation. -/
theorem C33_sort_on (le : α → α → Prop) {l l' : List α} {fuel : Nat} {rs : List (Nat × Nat × Nat)}
    (htr : ∀ x ∈ l, ∀ y ∈ l, ∀ z ∈ l, le x y → le y z → le x z) (htot : ∀ x ∈ l, ∀ y ∈ l, le x y ∨ le y x)
    (hag : ∀ x ∈ l, ∀ y ∈ l, ∀ o, cmp x y = some o → (o.isLE = true ↔ le x y) ∧ (o.isGE = true ↔ le y x))
    (h : sortAll cmp fuel rs l = some l') : l'.Perm l ∧ l'.Pairwise le := by
  obtain ⟨h1, h2⟩ := C33_sort_first_n_on le htr htot hag h
  refine ⟨h1, ?_⟩
  rw [List.pairwise_iff_getElem]
  intro i j hi hj hij
  exact h2 i j _ _ hij (by rw [← h1.length_eq]; exact hi) (List.getElem?_eq_getElem hi) (List.getElem?_eq_getElem hj)
