import Verif.Sort.Model
import Mathlib.Logic.Equiv.Basic
import Mathlib.Order.Defs.LinearOrder
import Mathlib.Data.List.Sort

/-!
# Sorting gives a sorted permutation (C33)
-/

set_option linter.unusedSimpArgs false
set_option linter.unusedSectionVars false

variable {α : Type}

/-- The comparison function agrees with a relation (whenever it gives an answer). -/
def Agrees (cmp : α → α → Option Ordering) (le : α → α → Prop) : Prop :=
  ∀ x y o, cmp x y = some o → (o.isLE = true ↔ le x y) ∧ (o.isGE = true ↔ le y x)

/-- A total preorder. -/
structure TotalPre (le : α → α → Prop) : Prop where
  trans : ∀ x y z, le x y → le y z → le x z
  total : ∀ x y, le x y ∨ le y x

/-- The specification: the entries before position `n` are in order and not larger than anything behind them. -/
def FirstSorted (le : α → α → Prop) (n : Nat) (l : List α) : Prop :=
  ∀ i j x y, i < j → i < n → l[i]? = some x → l[j]? = some y → le x y

/-! ### Permuting a range -/

/-- Only the range `[a, b)` was permuted. -/
structure RangePerm (a b : Nat) (l l' : List α) : Prop where
  perm : l'.Perm l
  idx : ∃ σ : Equiv.Perm Nat, (∀ i, i < a ∨ b ≤ i → σ i = i) ∧ ∀ i, l'[i]? = l[σ i]?

theorem RangePerm.refl (a b : Nat) (l : List α) : RangePerm a b l l := ⟨.refl _, Equiv.refl _, by simp, by simp⟩

theorem RangePerm.trans {a b : Nat} {l l' l'' : List α} (h : RangePerm a b l l') (h' : RangePerm a b l' l'') :
    RangePerm a b l l'' := by
  obtain ⟨p, σ, s1, s2⟩ := h
  obtain ⟨p', σ', s1', s2'⟩ := h'
  refine ⟨p'.trans p, σ'.trans σ, ?_, ?_⟩
  · intro i hi
    simp [s1' i hi, s1 i hi]
  · intro i
    rw [s2', s2]
    rfl

theorem RangePerm.mono {a b a' b' : Nat} {l l' : List α} (h : RangePerm a b l l') (ha : a' ≤ a) (hb : b ≤ b') :
    RangePerm a' b' l l' := by
  obtain ⟨p, σ, s1, s2⟩ := h
  exact ⟨p, σ, fun i hi => s1 i (by omega), s2⟩

theorem RangePerm.length {a b : Nat} {l l' : List α} (h : RangePerm a b l l') : l'.length = l.length := h.perm.length_eq

theorem RangePerm.outside {a b : Nat} {l l' : List α} (h : RangePerm a b l l') {i : Nat} (hi : i < a ∨ b ≤ i) :
    l'[i]? = l[i]? := by
  obtain ⟨p, σ, s1, s2⟩ := h
  rw [s2, s1 i hi]

/-- The entries of the range come from the range. -/
theorem RangePerm.inside {a b : Nat} {l l' : List α} (h : RangePerm a b l l') {i : Nat} (h1 : a ≤ i) (h2 : i < b) :
    ∃ j, a ≤ j ∧ j < b ∧ l'[i]? = l[j]? := by
  obtain ⟨p, σ, s1, s2⟩ := h
  refine ⟨σ i, ?_, ?_, s2 i⟩
  · by_contra hc
    have h3 := s1 (σ i) (Or.inl (by omega))
    have h4 := σ.injective h3
    omega
  · by_contra hc
    have h3 := s1 (σ i) (Or.inr (by omega))
    have h4 := σ.injective h3
    omega

theorem swapAt_some {l l' : List α} {i j : Nat} (h : swapAt l i j = some l') :
    ∃ x y, l[i]? = some x ∧ l[j]? = some y ∧ l' = (l.set i y).set j x := by
  unfold swapAt at h
  cases hi : l[i]? with
  | none => simp [hi] at h
  | some x =>
    cases hj : l[j]? with
    | none => simp [hi, hj] at h
    | some y =>
      simp [hi, hj] at h
      exact ⟨x, y, rfl, rfl, h.symm⟩

theorem swapAt_isSome {l : List α} {i j : Nat} (hi : i < l.length) (hj : j < l.length) : ∃ l', swapAt l i j = some l' := by
  simp [swapAt, List.getElem?_eq_getElem hi, List.getElem?_eq_getElem hj]

theorem swapAt_get {l l' : List α} {i j : Nat} (h : swapAt l i j = some l') (k : Nat) : l'[k]? = l[Equiv.swap i j k]? := by
  obtain ⟨x, y, hx, hy, rfl⟩ := swapAt_some h
  have hi : i < l.length := (List.getElem?_eq_some_iff.1 hx).1
  have hj : j < l.length := (List.getElem?_eq_some_iff.1 hy).1
  by_cases hkj : k = j
  · subst hkj
    rw [Equiv.swap_apply_right, hx]
    simp [hj]
  · rw [List.getElem?_set_ne (Ne.symm hkj)]
    by_cases hki : k = i
    · subst hki
      rw [Equiv.swap_apply_left, hy]
      simp [hi]
    · rw [List.getElem?_set_ne (Ne.symm hki), Equiv.swap_apply_of_ne_of_ne hki hkj]

theorem swapAt_rangePerm {l l' : List α} {i j a b : Nat} (h : swapAt l i j = some l') (h1 : a ≤ i) (h2 : i < b) (h3 : a ≤ j)
    (h4 : j < b) : RangePerm a b l l' := by
  refine ⟨?_, Equiv.swap i j, ?_, swapAt_get h⟩
  · obtain ⟨x, y, hx, hy, rfl⟩ := swapAt_some h
    obtain ⟨hi, rfl⟩ := List.getElem?_eq_some_iff.1 hx
    obtain ⟨hj, rfl⟩ := List.getElem?_eq_some_iff.1 hy
    exact List.set_set_perm hi hj
  · intro k hk
    exact Equiv.swap_apply_of_ne_of_ne (by omega) (by omega)

/-! ### Insertion sort -/

/-- All pairs of the range are in order. -/
def SortedRange (le : α → α → Prop) (a b : Nat) (l : List α) : Prop :=
  ∀ i j x y, a ≤ i → i < j → j < b → l[i]? = some x → l[j]? = some y → le x y

section
variable {cmp : α → α → Option Ordering} {le : α → α → Prop}

theorem sinkDown_spec (hc : Agrees cmp le) (ht : TotalPre le) (a b : Nat) : ∀ (k : Nat) (l l' : List α),
    a + k < b → sinkDown cmp a k l = some l' →
    (∀ i j x y, a ≤ i → i < j → j < b → j ≠ a + k → l[i]? = some x → l[j]? = some y → le x y) →
    RangePerm a (a + k + 1) l l' ∧ SortedRange le a b l' := by
  intro k
  induction k with
  | zero =>
    intro l l' hb h hs
    simp only [sinkDown, Option.some.injEq] at h
    subst h
    exact ⟨.refl _ _ _, fun i j x y h1 h2 h3 => hs i j x y h1 h2 h3 (by omega)⟩
  | succ k ih =>
    intro l l' hb h hs
    unfold sinkDown at h
    cases hx : l[a + k]? with
    | none => simp [hx] at h
    | some x =>
    cases hy : l[a + k + 1]? with
    | none => simp [hx, hy] at h
    | some y =>
    cases ho : cmp x y with
    | none => simp [hx, hy, ho] at h
    | some o =>
    simp only [hx, hy, ho, Option.bind_eq_bind, Option.bind_some] at h
    have hag := hc x y o ho
    split at h
    · rename_i hge
      have hyx : le y x := hag.2.1 hge
      cases hsw : swapAt l (a + k) (a + k + 1) with
      | none => simp [hsw] at h
      | some l1 =>
      simp only [hsw, Option.bind_some] at h
      have hget := swapAt_get hsw
      have e1 : l1[a + k]? = some y := by rw [hget, Equiv.swap_apply_left, hy]
      have e2 : l1[a + k + 1]? = some x := by rw [hget, Equiv.swap_apply_right, hx]
      have e3 : ∀ i, i ≠ a + k → i ≠ a + k + 1 → l1[i]? = l[i]? := by
        intro i h1 h2
        rw [hget, Equiv.swap_apply_of_ne_of_ne h1 h2]
      obtain ⟨r1, r2⟩ := ih l1 l' (by omega) h (by
        intro i j u v h1 h2 h3 h4 hu hv
        by_cases hj : j = a + k + 1
        · subst hj
          rw [e2] at hv
          cases hv
          by_cases hi : i = a + k
          · subst hi
            rw [e1] at hu
            cases hu
            exact hyx
          · rw [e3 i hi (by omega)] at hu
            exact hs i (a + k) u x h1 (by omega) (by omega) (by omega) hu hx
        · rw [e3 j h4 hj] at hv
          by_cases hi : i = a + k
          · subst hi
            rw [e1] at hu
            cases hu
            exact hs (a + k + 1) j y v (by omega) (by omega) h3 (by omega) hy hv
          · by_cases hi2 : i = a + k + 1
            · subst hi2
              rw [e2] at hu
              cases hu
              exact hs (a + k) j x v (by omega) (by omega) h3 (by omega) hx hv
            · rw [e3 i hi hi2] at hu
              exact hs i j u v h1 h2 h3 (by omega) hu hv)
      refine ⟨?_, r2⟩
      have := swapAt_rangePerm (a := a) (b := a + (k + 1) + 1) hsw (by omega) (by omega) (by omega) (by omega)
      exact this.trans (r1.mono (le_refl _) (by omega))
    · rename_i hge
      simp only [Option.some.injEq] at h
      subst h
      refine ⟨.refl _ _ _, ?_⟩
      have hxy : le x y := by
        rcases ht.total x y with h | h
        · exact h
        · exact absurd (hag.2.2 h) hge
      intro i j u v h1 h2 h3 hu hv
      by_cases hj : j = a + (k + 1)
      · subst hj
        rw [show a + (k + 1) = a + k + 1 by omega, hy] at hv
        cases hv
        by_cases hi : i = a + k
        · subst hi
          rw [hx] at hu
          cases hu
          exact hxy
        · exact ht.trans _ _ _ (hs i (a + k) u x h1 (by omega) (by omega) (by omega) hu hx) hxy
      · exact hs i j u v h1 h2 h3 hj hu hv

theorem insertionLoop (hc : Agrees cmp le) (ht : TotalPre le) (a b : Nat) : ∀ (m i : Nat) (l l' : List α), a ≤ i → i + m = b →
    SortedRange le a i l → (List.range' i m).foldlM (fun l i => sinkDown cmp a (i - a) l) l = some l' →
    RangePerm a b l l' ∧ SortedRange le a b l' := by
  intro m
  induction m with
  | zero =>
    intro i l l' _ hb hs h
    simp only [List.range'_zero, List.foldlM_nil, Option.pure_def, Option.some.injEq] at h
    subst h
    have : i = b := by omega
    subst this
    exact ⟨.refl _ _ _, hs⟩
  | succ m ih =>
    intro i l l' hi hb hs h
    rw [List.range'_succ, List.foldlM_cons] at h
    cases h1 : sinkDown cmp a (i - a) l with
    | none => simp [h1] at h
    | some l1 =>
      simp only [h1, Option.bind_eq_bind, Option.bind_some] at h
      obtain ⟨r1, r2⟩ := sinkDown_spec hc ht a (i + 1) (i - a) l l1 (by omega) h1
        (fun p q x y e1 e2 e3 e4 => hs p q x y e1 e2 (by omega))
      obtain ⟨r3, r4⟩ := ih (i + 1) l1 l' (by omega) (by omega) r2 h
      exact ⟨(r1.mono (le_refl _) (by omega)).trans r3, r4⟩

/-- Insertion sort sorts the range. -/
theorem insertionSort_spec (hc : Agrees cmp le) (ht : TotalPre le) {a b : Nat} {l l' : List α} (hab : a ≤ b)
    (h : insertionSort cmp a b l = some l') : RangePerm a b l l' ∧ SortedRange le a b l' :=
  insertionLoop hc ht a b (b - a) a l l' (le_refl _) (by omega) (fun _ _ _ _ _ _ _ => by omega) h

/-! ### Partition -/

/-- What `partition` guarantees. -/
structure Parted (le : α → α → Prop) (a b q : Nat) (l : List α) : Prop where
  qa : a ≤ q
  qb : q < b
  pivot : ∃ p, l[q]? = some p ∧ (∀ i x, a ≤ i → i < q → l[i]? = some x → le x p) ∧
    ∀ i x, q ≤ i → i < b → l[i]? = some x → le p x

theorem partitionLoop (hc : Agrees cmp le) (ht : TotalPre le) (a b : Nat) (p : α) :
    ∀ (m j : Nat) (s s' : List α × Nat), j + m + 1 = b → a ≤ s.2 → s.2 ≤ j → s.1[b - 1]? = some p →
      (∀ i x, a ≤ i → i < s.2 → s.1[i]? = some x → le x p) →
      (∀ i x, s.2 ≤ i → i < j → s.1[i]? = some x → le p x) →
      (List.range' j m).foldlM (partitionStep cmp p) s = some s' →
      RangePerm a b s.1 s'.1 ∧ a ≤ s'.2 ∧ s'.2 ≤ b - 1 ∧ s'.1[b - 1]? = some p ∧
      (∀ i x, a ≤ i → i < s'.2 → s'.1[i]? = some x → le x p) ∧
      (∀ i x, s'.2 ≤ i → i < b - 1 → s'.1[i]? = some x → le p x) := by
  intro m
  induction m with
  | zero =>
    intro j s s' hb h1 h2 h3 h4 h5 h
    simp only [List.range'_zero, List.foldlM_nil, Option.pure_def, Option.some.injEq] at h
    subst h
    have : j = b - 1 := by omega
    subst this
    exact ⟨.refl _ _ _, h1, h2, h3, h4, h5⟩
  | succ m ih =>
    intro j s s' hb h1 h2 h3 h4 h5 h
    rw [List.range'_succ, List.foldlM_cons] at h
    cases hst : partitionStep cmp p s j with
    | none => simp [hst] at h
    | some s1 =>
      simp only [hst, Option.bind_eq_bind, Option.bind_some] at h
      have hstep : RangePerm a b s.1 s1.1 ∧ a ≤ s1.2 ∧ s1.2 ≤ j + 1 ∧ s1.1[b - 1]? = some p ∧
          (∀ i x, a ≤ i → i < s1.2 → s1.1[i]? = some x → le x p) ∧
          (∀ i x, s1.2 ≤ i → i < j + 1 → s1.1[i]? = some x → le p x) := by
        unfold partitionStep at hst
        cases hx : s.1[j]? with
        | none => simp [hx] at hst
        | some x =>
        cases ho : cmp x p with
        | none => simp [hx, ho] at hst
        | some o =>
        simp only [hx, ho, Option.bind_eq_bind, Option.bind_some] at hst
        have hag := hc x p o ho
        split at hst
        · rename_i hle
          have hxp : le x p := hag.1.1 hle
          cases hsw : swapAt s.1 s.2 j with
          | none => simp [hsw] at hst
          | some l1 =>
          simp only [hsw, Option.bind_some, Option.pure_def, Option.some.injEq] at hst
          subst hst
          have hget := swapAt_get hsw
          simp only
          refine ⟨swapAt_rangePerm hsw h1 (by omega) (by omega) (by omega), by omega, by omega, ?_, ?_, ?_⟩
          · rw [hget, Equiv.swap_apply_of_ne_of_ne (by omega) (by omega), h3]
          · intro i y e1 e2 e3
            rw [hget] at e3
            by_cases hi : i = s.2
            · subst hi
              rw [Equiv.swap_apply_left, hx] at e3
              cases e3
              exact hxp
            · rw [Equiv.swap_apply_of_ne_of_ne hi (by omega)] at e3
              exact h4 i y e1 (by omega) e3
          · intro i y e1 e2 e3
            rw [hget] at e3
            by_cases hi : i = j
            · subst hi
              rw [Equiv.swap_apply_right] at e3
              exact h5 s.2 y (le_refl _) (by omega) e3
            · rw [Equiv.swap_apply_of_ne_of_ne (by omega) hi] at e3
              exact h5 i y (by omega) (by omega) e3
        · rename_i hle
          simp only [Option.pure_def, Option.some.injEq] at hst
          subst hst
          refine ⟨.refl _ _ _, h1, by omega, h3, h4, ?_⟩
          intro i y e1 e2 e3
          by_cases hi : i = j
          · subst hi
            rw [hx] at e3
            cases e3
            rcases ht.total p x with h | h
            · exact h
            · exact absurd (hag.1.2 h) hle
          · exact h5 i y e1 (by omega) e3
      obtain ⟨g1, g2, g3, g4, g5, g6⟩ := hstep
      obtain ⟨f1, f2⟩ := ih (j + 1) s1 s' (by omega) g2 g3 g4 g5 g6 h
      exact ⟨g1.trans f1, f2⟩

theorem partition_spec (hc : Agrees cmp le) (ht : TotalPre le) {a b q : Nat} {l l' : List α} (hab : a < b)
    (h : partitionRange cmp a b l = some (l', q)) : RangePerm a b l l' ∧ Parted le a b q l' := by
  unfold partitionRange at h
  cases hp : l[b - 1]? with
  | none => simp [hp] at h
  | some p =>
  simp only [hp, Option.bind_eq_bind, Option.bind_some] at h
  cases hl : (List.range' a (b - 1 - a)).foldlM (partitionStep cmp p) (l, a) with
  | none => simp [hl] at h
  | some s =>
  simp only [hl, Option.bind_some] at h
  cases hsw : swapAt s.1 s.2 (b - 1) with
  | none => simp [hsw] at h
  | some l1 =>
  simp only [hsw, Option.bind_some, Option.pure_def, Option.some.injEq, Prod.mk.injEq] at h
  obtain ⟨rfl, rfl⟩ := h
  obtain ⟨g1, g2, g3, g4, g5, g6⟩ := partitionLoop hc ht a b p (b - 1 - a) a (l, a) s (by omega) (le_refl _) (le_refl _) hp
    (fun i x e1 e2 => absurd e2 (by simp only; omega)) (fun i x e1 e2 => absurd e1 (by simp only; omega)) hl
  have hget := swapAt_get hsw
  refine ⟨g1.trans (swapAt_rangePerm hsw g2 (by omega) (by omega) (by omega)), g2, by omega, p, ?_, ?_, ?_⟩
  · rw [hget, Equiv.swap_apply_left, g4]
  · intro i x e1 e2 e3
    rw [hget, Equiv.swap_apply_of_ne_of_ne (by omega) (by omega)] at e3
    exact g5 i x e1 e2 e3
  · intro i x e1 e2 e3
    rw [hget] at e3
    by_cases hi : i = s.2
    · subst hi
      rw [Equiv.swap_apply_left, g4] at e3
      cases e3
      exact (ht.total _ _).elim id id
    · by_cases hi2 : i = b - 1
      · subst hi2
        rw [Equiv.swap_apply_right] at e3
        exact g6 s.2 x (le_refl _) (by omega) e3
      · rw [Equiv.swap_apply_of_ne_of_ne hi hi2] at e3
        exact g6 i x e1 (by omega) e3

theorem medianPos_mem {v1 v2 v3 : Nat × α} {p : Nat} (h : medianPos cmp v1 v2 v3 = some p) :
    p = v1.1 ∨ p = v2.1 ∨ p = v3.1 := by
  unfold medianPos at h
  cases h1 : cmp v2.2 v1.2 with
  | none => simp [h1] at h
  | some o1 =>
    simp only [h1, Option.bind_eq_bind, Option.bind_some] at h
    by_cases c1 : o1.isLT = true <;> simp only [c1, if_true, if_false, Bool.false_eq_true] at h
    · cases h2 : cmp v3.2 v2.2 with
      | none => simp [h2] at h
      | some o2 =>
        simp only [h2, Option.bind_some] at h
        by_cases c2 : o2.isLT = true <;> simp only [c2, if_true, if_false, Bool.false_eq_true] at h
        · cases h3 : cmp v1.2 v2.2 with
          | none => simp [h3] at h
          | some o3 => simp only [h3, Option.bind_some] at h; split at h <;> simp at h <;> simp [h]
        · cases h3 : cmp v1.2 v3.2 with
          | none => simp [h3] at h
          | some o3 => simp only [h3, Option.bind_some] at h; split at h <;> simp at h <;> simp [h]
    · cases h2 : cmp v3.2 v1.2 with
      | none => simp [h2] at h
      | some o2 =>
        simp only [h2, Option.bind_some] at h
        by_cases c2 : o2.isLT = true <;> simp only [c2, if_true, if_false, Bool.false_eq_true] at h
        · cases h3 : cmp v2.2 v1.2 with
          | none => simp [h3] at h
          | some o3 => simp only [h3, Option.bind_some] at h; split at h <;> simp at h <;> simp [h]
        · cases h3 : cmp v2.2 v3.2 with
          | none => simp [h3] at h
          | some o3 => simp only [h3, Option.bind_some] at h; split at h <;> simp at h <;> simp [h]

theorem randomizedPartition_spec (hc : Agrees cmp le) (ht : TotalPre le) {a b q : Nat} {r : Nat × Nat × Nat} {l l' : List α}
    (hab : a + 1 < b) (h : randomizedPartition cmp r a b l = some (l', q)) :
    RangePerm a b l l' ∧ Parted le a b q l' := by
  unfold randomizedPartition at h
  rw [if_neg (by omega)] at h
  cases h1 : l[a + r.1 % (b - a)]? with
  | none => simp [h1] at h
  | some x1 =>
  cases h2 : l[a + r.2.1 % (b - a)]? with
  | none => simp [h1, h2] at h
  | some x2 =>
  cases h3 : l[a + r.2.2 % (b - a)]? with
  | none => simp [h1, h2, h3] at h
  | some x3 =>
  simp only [h1, h2, h3, Option.bind_eq_bind, Option.bind_some] at h
  cases hm : medianPos cmp (a + r.1 % (b - a), x1) (a + r.2.1 % (b - a), x2) (a + r.2.2 % (b - a), x3) with
  | none => simp [hm] at h
  | some p =>
  simp only [hm, Option.bind_some] at h
  have hlt : ∀ n, n % (b - a) < b - a := fun n => Nat.mod_lt _ (by omega)
  have e1 := hlt r.1
  have e2 := hlt r.2.1
  have e3 := hlt r.2.2
  have hp : a ≤ p ∧ p < b := by
    rcases medianPos_mem hm with rfl | rfl | rfl <;> simp only <;> omega
  cases hsw : swapAt l (b - 1) p with
  | none => simp [hsw] at h
  | some l1 =>
  simp only [hsw, Option.bind_some] at h
  obtain ⟨f1, f2⟩ := partition_spec hc ht (by omega) h
  exact ⟨(swapAt_rangePerm hsw (by omega) (by omega) hp.1 hp.2).trans f1, f2⟩

/-! ### Quicksort -/

theorem quicksort_spec (hc : Agrees cmp le) (ht : TotalPre le) (n : Nat) : ∀ (fuel a b : Nat) (l l' : List α)
    (rs rs' : List (Nat × Nat × Nat)), a ≤ b → quicksort cmp n fuel a b l rs = some (l', rs') →
    RangePerm a b l l' ∧ ∀ i j x y, a ≤ i → i < j → j < b → i < n → l'[i]? = some x → l'[j]? = some y → le x y := by
  intro fuel
  induction fuel with
  | zero => intro a b l l' rs rs' _ h; simp [quicksort] at h
  | succ fuel ih =>
    intro a b l l' rs rs' hab h
    unfold quicksort at h
    split at h
    · rename_i hsz
      split at h
      · cases hs : insertionSort cmp a b l with
        | none => simp [hs] at h
        | some l1 =>
          simp only [hs, Option.map_some, Option.some.injEq, Prod.mk.injEq] at h
          obtain ⟨rfl, rfl⟩ := h
          obtain ⟨r1, r2⟩ := insertionSort_spec hc ht hab hs
          exact ⟨r1, fun i j x y e1 e2 e3 _ => r2 i j x y e1 e2 e3⟩
      · cases rs with
        | nil => simp at h
        | cons r rs =>
          simp only at h
          cases hp : randomizedPartition cmp r a b l with
          | none => simp [hp] at h
          | some s =>
          obtain ⟨l1, q⟩ := s
          simp only [hp, Option.bind_eq_bind, Option.bind_some] at h
          obtain ⟨p1, ⟨qa, qb, pv, pv1, pv2, pv3⟩⟩ := randomizedPartition_spec hc ht (by omega) hp
          cases hq : quicksort cmp n fuel a q l1 rs with
          | none => simp [hq] at h
          | some s2 =>
          obtain ⟨l2, rs2⟩ := s2
          simp only [hq, Option.bind_some] at h
          obtain ⟨s1, s2⟩ := ih a q l1 l2 rs rs2 qa hq
          have low : ∀ i x, a ≤ i → i < q → l2[i]? = some x → le x pv := by
            intro i x e1 e2 e3
            obtain ⟨k, k1, k2, k3⟩ := s1.inside e1 e2
            rw [k3] at e3
            exact pv2 k x k1 k2 e3
          have high : ∀ i x, q ≤ i → i < b → l2[i]? = some x → le pv x := by
            intro i x e1 e2 e3
            rw [s1.outside (Or.inr e1)] at e3
            exact pv3 i x e1 e2 e3
          split at h
          · rename_i hqn
            obtain ⟨t1, t2⟩ := ih q b l2 l' rs2 rs' (by omega) h
            refine ⟨(p1.trans (s1.mono (le_refl _) (by omega))).trans (t1.mono qa (le_refl _)), ?_⟩
            intro i j x y e1 e2 e3 e4 hx hy
            by_cases hj : j < q
            · rw [t1.outside (Or.inl hj)] at hy
              rw [t1.outside (Or.inl (by omega))] at hx
              exact s2 i j x y e1 e2 hj e4 hx hy
            · by_cases hi : i < q
              · rw [t1.outside (Or.inl hi)] at hx
                obtain ⟨k, k1, k2, k3⟩ := t1.inside (i := j) (by omega) e3
                rw [k3] at hy
                exact ht.trans _ _ _ (low i x e1 hi hx) (high k y k1 k2 hy)
              · exact t2 i j x y (by omega) e2 e3 e4 hx hy
          · rename_i hqn
            simp only [Option.some.injEq, Prod.mk.injEq] at h
            obtain ⟨rfl, rfl⟩ := h
            refine ⟨p1.trans (s1.mono (le_refl _) (by omega)), ?_⟩
            intro i j x y e1 e2 e3 e4 hx hy
            by_cases hj : j < q
            · exact s2 i j x y e1 e2 hj e4 hx hy
            · exact ht.trans _ _ _ (low i x e1 (by omega) hx) (high j y (by omega) e3 hy)
    · rename_i hsz
      simp only [Option.some.injEq, Prod.mk.injEq] at h
      obtain ⟨rfl, rfl⟩ := h
      exact ⟨.refl _ _ _, fun i j x y e1 e2 e3 => by omega⟩

/-- C33: whatever the random numbers are, a finished partial sort is a permutation whose first `n` entries are the smallest
entries in order. -/
theorem C33_sort_first_n (hc : Agrees cmp le) (ht : TotalPre le) (n fuel : Nat) (rs : List (Nat × Nat × Nat)) (l l' : List α)
    (h : sortFirstN cmp n fuel rs l = some l') : l'.Perm l ∧ FirstSorted le n l' := by
  unfold sortFirstN at h
  split at h
  · cases hq : quicksort cmp n fuel 0 l.length l rs with
    | none => simp [hq] at h
    | some s =>
      obtain ⟨l1, rs1⟩ := s
      simp only [hq, Option.map_some, Option.some.injEq] at h
      subst h
      obtain ⟨r1, r2⟩ := quicksort_spec hc ht n fuel 0 l.length l l1 rs rs1 (by omega) hq
      refine ⟨r1.perm, ?_⟩
      intro i j x y h1 h2 hx hy
      have hj : j < l1.length := (List.getElem?_eq_some_iff.1 hy).1
      exact r2 i j x y (by omega) h1 (by rw [← r1.length]; exact hj) h2 hx hy
  · rename_i h0
    simp only [Option.some.injEq] at h
    subst h
    refine ⟨.refl _, ?_⟩
    intro i j x y h1 h2 hx hy
    have : i < l.length := (List.getElem?_eq_some_iff.1 hx).1
    omega

/-- C33 for the complete sort. -/
theorem C33_sort (hc : Agrees cmp le) (ht : TotalPre le) (fuel : Nat) (rs : List (Nat × Nat × Nat)) (l l' : List α)
    (h : sortAll cmp fuel rs l = some l') : l'.Perm l ∧ l'.Pairwise le := by
  obtain ⟨h1, h2⟩ := C33_sort_first_n hc ht l.length fuel rs l l' h
  refine ⟨h1, ?_⟩
  rw [List.pairwise_iff_getElem]
  intro i j hi hj hij
  refine h2 i j _ _ hij (by rw [← h1.length_eq]; exact hi) (List.getElem?_eq_getElem hi) (List.getElem?_eq_getElem hj)

/-! ### Termination is possible -/

theorem partitionLoop_max (p : α) (hcmp : ∀ x y, ∃ o, cmp x y = some o) (hc : Agrees cmp le) (a b : Nat) :
    ∀ (m j : Nat) (l : List α), j + m + 1 = b → b ≤ l.length → (∀ i x, j ≤ i → i < b → l[i]? = some x → le x p) →
      ∃ l', (List.range' j m).foldlM (partitionStep cmp p) (l, j) = some (l', b - 1) ∧ l'.length = l.length := by
  intro m
  induction m with
  | zero =>
    intro j l hb hl _
    have : j = b - 1 := by omega
    subst this
    exact ⟨l, rfl, rfl⟩
  | succ m ih =>
    intro j l hb hl hle
    have hj : j < l.length := by omega
    obtain ⟨o, ho⟩ := hcmp l[j] p
    have hag := (hc _ _ _ ho).1.2 (hle j l[j] (le_refl _) (by omega) (List.getElem?_eq_getElem hj))
    obtain ⟨l1, hsw⟩ := swapAt_isSome hj hj
    have hl1 := swapAt_get hsw
    have hlen : l1.length = l.length := (swapAt_rangePerm (a := 0) (b := l.length) hsw (by omega) hj (by omega) hj).length
    obtain ⟨l', h1, h2⟩ := ih (j + 1) l1 (by omega) (by omega) (by
      intro i x e1 e2 e3
      rw [hl1, Equiv.swap_self] at e3
      exact hle i x (by omega) e2 e3)
    refine ⟨l', ?_, by omega⟩
    rw [List.range'_succ, List.foldlM_cons]
    have : partitionStep cmp p (l, j) j = some (l1, j + 1) := by
      simp [partitionStep, List.getElem?_eq_getElem hj, ho, hag, hsw]
    rw [this]
    simpa using h1

/-- A largest entry of a range. -/
theorem exists_max (ht : TotalPre le) (l : List α) (a : Nat) : ∀ m, a + m < l.length →
    ∃ k, a ≤ k ∧ k ≤ a + m ∧ ∃ p, l[k]? = some p ∧ ∀ i x, a ≤ i → i ≤ a + m → l[i]? = some x → le x p := by
  intro m
  induction m with
  | zero =>
    intro h
    refine ⟨a, le_refl _, le_refl _, l[a], List.getElem?_eq_getElem (by omega), ?_⟩
    intro i x h1 h2 h3
    have : i = a := by omega
    subst this
    rw [List.getElem?_eq_getElem (by omega)] at h3
    cases h3
    exact (ht.total _ _).elim id id
  | succ m ih =>
    intro h
    obtain ⟨k, k1, k2, p, k3, k4⟩ := ih (by omega)
    have hlast : l[a + (m + 1)]? = some l[a + (m + 1)] := List.getElem?_eq_getElem h
    rcases ht.total l[a + (m + 1)] p with hp | hp
    · refine ⟨k, k1, by omega, p, k3, ?_⟩
      intro i x h1 h2 h3
      by_cases hi : i = a + (m + 1)
      · subst hi
        rw [hlast] at h3
        cases h3
        exact hp
      · exact k4 i x h1 (by omega) h3
    · refine ⟨a + (m + 1), by omega, le_refl _, _, hlast, ?_⟩
      intro i x h1 h2 h3
      by_cases hi : i = a + (m + 1)
      · subst hi
        rw [hlast] at h3
        cases h3
        exact (ht.total _ _).elim id id
      · exact ht.trans _ _ _ (k4 i x h1 (by omega) h3) hp

theorem sinkDown_isSome (hcmp : ∀ x y, ∃ o, cmp x y = some o) (a : Nat) : ∀ (k : Nat) (l : List α), a + k < l.length →
    ∃ l', sinkDown cmp a k l = some l' ∧ l'.length = l.length := by
  intro k
  induction k with
  | zero => intro l _; exact ⟨l, rfl, rfl⟩
  | succ k ih =>
    intro l h
    have h1 : a + k < l.length := by omega
    have h2 : a + k + 1 < l.length := by omega
    obtain ⟨o, ho⟩ := hcmp l[a + k] l[a + k + 1]
    unfold sinkDown
    simp only [List.getElem?_eq_getElem h1, List.getElem?_eq_getElem h2, ho, Option.bind_eq_bind, Option.bind_some]
    split
    · obtain ⟨l1, hsw⟩ := swapAt_isSome h1 h2
      have hlen : l1.length = l.length := (swapAt_rangePerm (a := 0) (b := l.length) hsw (by omega) h1 (by omega) h2).length
      obtain ⟨l', e1, e2⟩ := ih l1 (by omega)
      exact ⟨l', by rw [hsw]; exact e1, by omega⟩
    · exact ⟨l, rfl, rfl⟩

theorem insertionSort_isSome (hcmp : ∀ x y, ∃ o, cmp x y = some o) (a : Nat) : ∀ (m i : Nat) (l : List α), a ≤ i → i + m ≤ l.length →
    ∃ l', (List.range' i m).foldlM (fun l i => sinkDown cmp a (i - a) l) l = some l' ∧ l'.length = l.length := by
  intro m
  induction m with
  | zero => intro i l _ _; exact ⟨l, rfl, rfl⟩
  | succ m ih =>
    intro i l hi h
    obtain ⟨l1, e1, e2⟩ := sinkDown_isSome hcmp a (i - a) l (by omega)
    obtain ⟨l', f1, f2⟩ := ih (i + 1) l1 (by omega) (by omega)
    refine ⟨l', ?_, by omega⟩
    rw [List.range'_succ, List.foldlM_cons, e1]
    simpa using f1

theorem medianPos_same (hcmp : ∀ x y, ∃ o, cmp x y = some o) (v : Nat × α) : medianPos cmp v v v = some v.1 := by
  obtain ⟨o, ho⟩ := hcmp v.2 v.2
  unfold medianPos
  simp only [ho, Option.bind_eq_bind, Option.bind_some]
  by_cases c : o.isLT = true <;> simp [c, ho]

theorem quicksort_terminates (hc : Agrees cmp le) (ht : TotalPre le) (hcmp : ∀ x y, ∃ o, cmp x y = some o) (n : Nat) :
    ∀ (m a b : Nat) (l : List α), b - a ≤ m → a ≤ b → b ≤ l.length →
      ∃ fuel rs, ∀ f ≥ fuel, ∀ more, ∃ l', quicksort cmp n f a b l (rs ++ more) = some (l', more) ∧ l'.length = l.length := by
  intro m
  induction m with
  | zero =>
    intro a b l hm hab hl
    refine ⟨1, [], fun f hf more => ?_⟩
    obtain ⟨f, rfl⟩ : ∃ g, f = g + 1 := ⟨f - 1, by omega⟩
    refine ⟨l, ?_, rfl⟩
    unfold quicksort
    rw [if_neg (by omega)]
    rfl
  | succ m ih =>
    intro a b l hm hab hl
    by_cases hs : b - a > 1
    · by_cases hs2 : b - a ≤ 20
      · refine ⟨1, [], fun f hf more => ?_⟩
        obtain ⟨f, rfl⟩ : ∃ g, f = g + 1 := ⟨f - 1, by omega⟩
        obtain ⟨l', h1, h2⟩ := insertionSort_isSome hcmp a (b - a) a l (le_refl _) (by omega)
        refine ⟨l', ?_, h2⟩
        unfold quicksort
        rw [if_pos hs, if_pos hs2, show insertionSort cmp a b l = some l' from h1]
        rfl
      · obtain ⟨k, k1, k2, p, k3, k4⟩ := exists_max ht l a (b - 1 - a) (by omega)
        obtain ⟨l0, hsw⟩ := swapAt_isSome (l := l) (i := b - 1) (j := k) (by omega) (by omega)
        have hlen0 : l0.length = l.length :=
          (swapAt_rangePerm (a := 0) (b := l.length) hsw (by omega) (by omega) (by omega) (by omega)).length
        have hget := swapAt_get hsw
        obtain ⟨l1, h1, h2⟩ := partitionLoop_max p hcmp hc a b (b - 1 - a) a l0 (by omega) (by omega) (by
          intro i x e1 e2 e3
          rw [hget] at e3
          by_cases c1 : i = b - 1
          · subst c1
            rw [Equiv.swap_apply_left, k3] at e3
            cases e3
            exact (ht.total _ _).elim id id
          · by_cases c2 : i = k
            · subst c2
              rw [Equiv.swap_apply_right] at e3
              exact k4 (b - 1) x (by omega) (by omega) e3
            · rw [Equiv.swap_apply_of_ne_of_ne c1 c2] at e3
              exact k4 i x e1 (by omega) e3)
        obtain ⟨l2, hsw2⟩ := swapAt_isSome (l := l1) (i := b - 1) (j := b - 1) (by omega) (by omega)
        have hlen2 : l2.length = l1.length :=
          (swapAt_rangePerm (a := 0) (b := l1.length) hsw2 (by omega) (by omega) (by omega) (by omega)).length
        have hpart : randomizedPartition cmp (k - a, k - a, k - a) a b l = some (l2, b - 1) := by
          have hk : a + (k - a) % (b - a) = k := by rw [Nat.mod_eq_of_lt (by omega)]; omega
          have hlast : l0[b - 1]? = some p := by rw [hget, Equiv.swap_apply_left, k3]
          unfold randomizedPartition
          rw [if_neg (by omega)]
          simp only [hk, k3, Option.bind_eq_bind, Option.bind_some, medianPos_same hcmp (k, p), hsw]
          simp only [partitionRange, hlast, Option.bind_eq_bind, Option.bind_some, h1, hsw2]
          rfl
        obtain ⟨fuel, rs, hrec⟩ := ih a (b - 1) l2 (by omega) (by omega) (by omega)
        refine ⟨fuel + 2, (k - a, k - a, k - a) :: rs, fun f hf more => ?_⟩
        obtain ⟨f, rfl⟩ : ∃ g, f = g + 2 := ⟨f - 2, by omega⟩
        obtain ⟨l', r1, r2⟩ := hrec (f + 1) (by omega) more
        refine ⟨l', ?_, by omega⟩
        rw [show f + 2 = (f + 1) + 1 by rfl]
        conv_lhs => unfold quicksort
        rw [if_pos hs, if_neg hs2]
        simp only [List.cons_append, hpart, Option.bind_eq_bind, Option.bind_some, r1]
        split
        · unfold quicksort
          rw [if_neg (by omega)]
        · rfl
    · refine ⟨1, [], fun f hf more => ?_⟩
      obtain ⟨f, rfl⟩ : ∃ g, f = g + 1 := ⟨f - 1, by omega⟩
      refine ⟨l, ?_, rfl⟩
      unfold quicksort
      rw [if_neg hs]
      rfl

/-- C33: every container can be sorted, i.e. there are random numbers for which the sort ends. -/
theorem C33_can_terminate (hc : Agrees cmp le) (ht : TotalPre le) (hcmp : ∀ x y, ∃ o, cmp x y = some o) (n : Nat) (l : List α) :
    ∃ fuel rs l', sortFirstN cmp n fuel rs l = some l' := by
  unfold sortFirstN
  split
  · obtain ⟨fuel, rs, h⟩ := quicksort_terminates hc ht hcmp n (l.length) 0 l.length l (by omega) (by omega) (le_refl _)
    obtain ⟨l', h1, _⟩ := h fuel (le_refl _) []
    rw [List.append_nil] at h1
    exact ⟨fuel, rs, l', by rw [h1]; rfl⟩
  · exact ⟨0, [], l, rfl⟩

end

/-! ### Examples -/

namespace SortEx

def natCmp (a b : Nat) : Option Ordering := some (compare a b)

theorem agrees : Agrees natCmp (· ≤ ·) := by
  intro x y o h
  simp only [natCmp, Option.some.injEq] at h
  subst h
  constructor
  · exact Nat.isLE_compare
  · exact Nat.isGE_compare

theorem totalPre : TotalPre (α := Nat) (· ≤ ·) := ⟨fun _ _ _ => Nat.le_trans, Nat.le_total⟩

/-- One step of the recursion when the smallest of 21 items is the pivot: nothing changes, and the right part is the whole range. -/
theorem step_min : randomizedPartition natCmp (0, 0, 0) 0 21 (List.range 21) = some (List.range 21, 0) := by decide

/-- C33: if the random numbers always select the smallest item the sort never ends, whatever the number of steps. -/
theorem C33_diverges (fuel : Nat) (n : Nat) (hn : 0 < n) (rs : List (Nat × Nat × Nat)) (hrs : ∀ r ∈ rs, r = (0, 0, 0)) :
    quicksort natCmp n fuel 0 21 (List.range 21) rs = none := by
  induction fuel generalizing rs with
  | zero => rfl
  | succ fuel ih =>
    unfold quicksort
    rw [if_pos (by omega), if_neg (by omega)]
    cases rs with
    | nil => rfl
    | cons r rs =>
      have hr := hrs r (by simp)
      subst hr
      simp only [step_min, Option.bind_eq_bind, Option.bind_some]
      cases fuel with
      | zero => rfl
      | succ fuel =>
        have h0 : quicksort natCmp n (fuel + 1) 0 0 (List.range 21) rs = some (List.range 21, rs) := by
          unfold quicksort
          rw [if_neg (by omega)]
        rw [h0]
        simp only [Option.bind_some, hn, if_true]
        exact ih rs fun r hr => hrs r (List.mem_cons_of_mem _ hr)

/-- The hypotheses of C33 are met by a run which partitions 24 items and then stops after the first two. -/
theorem C33_nonvacuous : (sortFirstN natCmp 2 5 [(12, 12, 12), (7, 7, 7)] (List.range 24).reverse).map (List.take 2) = some [0, 1] := by
  decide +kernel

end SortEx
