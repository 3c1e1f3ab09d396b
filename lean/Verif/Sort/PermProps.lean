import Verif.Sort.Props

/-!
# Sorting keeps all items, whatever the comparison answers (C33)
-/

set_option linter.unusedSimpArgs false

variable {α : Type} {cmp : α → α → Option Ordering}

theorem swapAt_perm {l l' : List α} {i j : Nat} (h : swapAt l i j = some l') : l'.Perm l := by
  obtain ⟨x, y, hx, hy, rfl⟩ := swapAt_some h
  obtain ⟨hi, rfl⟩ := List.getElem?_eq_some_iff.1 hx
  obtain ⟨hj, rfl⟩ := List.getElem?_eq_some_iff.1 hy
  exact List.set_set_perm hi hj

theorem sinkDown_perm (a : Nat) : ∀ (k : Nat) (l l' : List α), sinkDown cmp a k l = some l' → l'.Perm l := by
  intro k
  induction k with
  | zero => intro l l' h; simp only [sinkDown, Option.some.injEq] at h; rw [h]
  | succ k ih =>
    intro l l' h
    unfold sinkDown at h
    simp only [Option.bind_eq_bind, Option.bind_eq_some_iff] at h
    obtain ⟨x, _, y, _, o, _, h⟩ := h
    split at h
    · obtain ⟨l1, h1, h2⟩ := Option.bind_eq_some_iff.1 h
      exact (ih l1 l' h2).trans (swapAt_perm h1)
    · injection h with h; rw [h]

theorem foldlM_perm {ι : Type} {f : List α → ι → Option (List α)} (hf : ∀ l i l', f l i = some l' → l'.Perm l) :
    ∀ (is : List ι) (l l' : List α), is.foldlM f l = some l' → l'.Perm l := by
  intro is
  induction is with
  | nil => intro l l' h; simp at h; rw [h]
  | cons i is ih =>
    intro l l' h
    rw [List.foldlM_cons] at h
    obtain ⟨l1, h1, h2⟩ := Option.bind_eq_some_iff.1 h
    exact (ih l1 l' h2).trans (hf l i l1 h1)

theorem insertionSort_perm {a b : Nat} {l l' : List α} (h : insertionSort cmp a b l = some l') : l'.Perm l :=
  foldlM_perm (fun l i l' h => sinkDown_perm a (i - a) l l' h) _ _ _ h

theorem partitionFold_perm (p : α) : ∀ (is : List Nat) (s s' : List α × Nat), is.foldlM (partitionStep cmp p) s = some s' →
    s'.1.Perm s.1 := by
  intro is
  induction is with
  | nil => intro s s' h; simp at h; rw [h]
  | cons i is ih =>
    intro s s' h
    rw [List.foldlM_cons] at h
    obtain ⟨s1, h1, h2⟩ := Option.bind_eq_some_iff.1 h
    refine (ih s1 s' h2).trans ?_
    unfold partitionStep at h1
    simp only [Option.bind_eq_bind, Option.bind_eq_some_iff] at h1
    obtain ⟨x, _, o, _, h1⟩ := h1
    split at h1
    · obtain ⟨l1, h3, h4⟩ := Option.bind_eq_some_iff.1 h1
      injection h4 with h4
      rw [← h4]; exact swapAt_perm h3
    · injection h1 with h1; rw [h1]

theorem partitionRange_perm {a b q : Nat} {l l' : List α} (h : partitionRange cmp a b l = some (l', q)) : l'.Perm l := by
  unfold partitionRange at h
  simp only [Option.bind_eq_bind, Option.bind_eq_some_iff] at h
  obtain ⟨p, _, s, h1, l1, h2, h3⟩ := h
  injection h3 with h3
  injection h3 with h3 _
  rw [← h3]
  exact (swapAt_perm h2).trans (partitionFold_perm p _ _ _ h1)

theorem randomizedPartition_perm {r : Nat × Nat × Nat} {a b q : Nat} {l l' : List α}
    (h : randomizedPartition cmp r a b l = some (l', q)) : l'.Perm l := by
  unfold randomizedPartition at h
  split at h
  · injection h with h; injection h with h _; rw [h]
  · simp only [Option.bind_eq_bind, Option.bind_eq_some_iff] at h
    obtain ⟨x1, _, x2, _, x3, _, p, _, l1, h1, h2⟩ := h
    exact (partitionRange_perm h2).trans (swapAt_perm h1)

theorem quicksort_perm (n : Nat) : ∀ (fuel a b : Nat) (l : List α) (rs : List (Nat × Nat × Nat)) (s : List α × List (Nat × Nat × Nat)),
    quicksort cmp n fuel a b l rs = some s → s.1.Perm l := by
  intro fuel
  induction fuel with
  | zero => intro a b l rs s h; simp [quicksort] at h
  | succ fuel ih =>
    intro a b l rs s h
    unfold quicksort at h
    split at h
    · split at h
      · obtain ⟨l1, h1, h2⟩ := Option.map_eq_some_iff.1 h
        rw [← h2]; exact insertionSort_perm h1
      · split at h
        · cases h
        · simp only [Option.bind_eq_bind, Option.bind_eq_some_iff] at h
          obtain ⟨⟨l1, q⟩, h1, ⟨l2, rs2⟩, h2, h3⟩ := h
          have p1 := randomizedPartition_perm h1
          have p2 := ih _ _ _ _ _ h2
          simp only at h3 p2
          split at h3
          · exact (ih _ _ _ _ _ h3).trans (p2.trans p1)
          · injection h3 with h3; rw [← h3]; exact p2.trans p1
    · injection h with h; rw [← h]

/-- C33: no match is lost or repeated by sorting, for every comparison, also if it is not an order. -/
theorem C33_keeps_all (n fuel : Nat) (rs : List (Nat × Nat × Nat)) (l l' : List α) (h : sortFirstN cmp n fuel rs l = some l') :
    l'.Perm l := by
  unfold sortFirstN at h
  split at h
  · obtain ⟨s, h1, h2⟩ := Option.map_eq_some_iff.1 h
    rw [← h2]; exact quicksort_perm n _ _ _ _ _ _ h1
  · injection h with h; rw [h]

theorem sortAll_perm {fuel : Nat} {rs : List (Nat × Nat × Nat)} {l l' : List α} (h : sortAll cmp fuel rs l = some l') : l'.Perm l :=
  C33_keeps_all _ _ _ _ _ h

/-- A comparison that is no order: every item is smaller than every other. -/
example : sortFirstN (fun a b : Nat => if a = b then some .eq else some .lt) 3 5 [] [3, 1, 2] = some [3, 1, 2] := by decide
