import Verif.Est.Props

/-! # Examples for the histograms (C88) -/

namespace Est

/-- Exact arithmetic satisfies the assumptions about rounding. -/
def exact : Rounding where
  fl := id
  mono := monotone_id
  nat := fun _ _ => rfl
  err := by
    intro x h _
    have : 0 ≤ x := le_trans (by positivity) h
    simp only [id, sub_self, abs_zero]
    positivity

/-- The value of a completely sampled key, for every rounding. -/
theorem guess_round (R : Rounding) (keys : List (KeyStat Nat)) (lo hi k b u g : Nat) (hk : (keys.map (KeyStat.matches lo hi)).sum = k)
    (hb : (keys.map KeyStat.buckets).sum = b) (hu : (keys.map KeyStat.size).sum = u) (hb0 : 0 < b) (hb1 : b ≤ 250) (hkb : k ≤ b)
    (hu1 : u ≤ 2500) (hg : (g : ℚ) - 2 / 5 ≤ k * u / b ∧ (k * u / b : ℚ) ≤ g + 2 / 5) : guessMaxCount R lo hi keys = g := by
  unfold guessMaxCount
  simp only [hk, hb, hu, if_pos hb0]
  have hc := R.close hb0 hb1 hkb hu1
  rw [abs_le] at hc
  have hle : (g : ℚ) ≤ 2501 := by
    have h1 : (k * u / b : ℚ) ≤ u := by
      rw [div_le_iff₀ (by exact_mod_cast hb0)]
      have : k * u ≤ u * b := by rw [Nat.mul_comm]; exact Nat.mul_le_mul_left _ hkb
      exact_mod_cast this
    have h2 : (u : ℚ) ≤ 2500 := by exact_mod_cast hu1
    linarith
  have hlt : g ≤ 2501 := by exact_mod_cast hle
  unfold roundNat
  have : ⌊R.fl (R.fl (R.fl k / R.fl b) * R.fl u) + 1 / 2⌋₊ = g := by
    rw [Nat.floor_eq_iff]
    · constructor <;> linarith
    · have : (0 : ℚ) ≤ k * u / b := by positivity
      linarith
  rw [this]; omega

/-- C88 non-vacuity: six values with their bounds and guesses. -/
theorem C88_nonvacuous :
    histogram [5, 1, 3, 3, 9, 4] = some [1, 3, 3, 4, 5, 9] ∧
    Spec.Sampled [5, 1, 3, 3, 9, 4] [3, 5, 1, 9, 3, 4] ∧
    Spec.inRange 3 4 [5, 1, 3, 3, 9, 4] = 3 ∧
    (∀ R : Rounding, guessMaxCount R 3 4 [⟨6, some [1, 3, 3, 4, 5, 9]⟩] = 5) ∧
    (∀ R : Rounding, guessMaxCount R 6 8 [⟨6, some [1, 3, 3, 4, 5, 9]⟩] = 1) ∧
    (∀ R : Rounding, guessMaxCount R 10 12 [⟨6, some [1, 3, 3, 4, 5, 9]⟩] = 0) := by
  refine ⟨by decide +kernel, ⟨List.Perm.subperm (by decide), rfl⟩, by decide, ?_, ?_, ?_⟩
  · intro R
    exact guess_round R _ 3 4 4 5 6 5 (by decide) (by decide) (by decide) (by decide) (by decide) (by decide) (by decide)
      (by norm_num)
  · intro R
    exact guess_round R _ 6 8 1 5 6 1 (by decide) (by decide) (by decide) (by decide) (by decide) (by decide) (by decide)
      (by norm_num)
  · intro R
    exact guess_round R _ 10 12 0 5 6 0 (by decide) (by decide) (by decide) (by decide) (by decide) (by decide) (by decide)
      (by norm_num)

/-- 299 different values and then one value twice. -/
def manyValues : List Nat := List.range 299 ++ [300, 300]

/-- The bounds for these values. -/
def manyBounds : List Nat := (List.range 251).map fun i => if i = 250 then 300 else i * 300 / 250

/-- C88 fails: with more than 251 annotations the guess can be smaller than the number of matching annotations: here it is one, but the
value occurs twice. -/
theorem C88_upper_bound_fails :
    histogram manyValues = some manyBounds ∧ Spec.Sampled manyValues manyValues ∧ Spec.inRange 300 300 manyValues = 2 ∧
      ∀ R : Rounding, guessMaxCount R 300 300 [⟨manyValues.length, some manyBounds⟩] = 1 := by
  refine ⟨by decide +kernel, ⟨List.Subperm.refl _, by decide +kernel⟩, by decide +kernel, fun R => ?_⟩
  exact guess_round R _ 300 300 1 250 301 1 (by decide +kernel) (by decide +kernel) (by decide +kernel) (by decide) (by decide)
    (by decide) (by decide) (by norm_num)

/-- C88 fails: a key with only one annotation has no buckets and the guess for its own value is zero. -/
theorem C88_single_fails : histogram [7] = some [] ∧ Spec.Sampled [7] [7] ∧ Spec.inRange 7 7 [7] = 1 ∧
    ∀ R : Rounding, guessMaxCount R 7 7 [⟨1, some ([] : List Nat)⟩] = 0 := by
  refine ⟨by decide, ⟨List.Subperm.refl _, rfl⟩, by decide, fun R => ?_⟩
  unfold guessMaxCount
  simp [KeyStat.buckets]

/-- C88 fails: several keys with the same name share their buckets, so the guess can be too small even when all values are sampled: one key
has the value 1 twice, the other one 100 other values, and only one match is guessed. -/
theorem C88_keys_fails :
    histogram [1, 1] = some [1, 1] ∧ histogram (List.replicate 100 2) = some (List.replicate 100 2) ∧
    Spec.inRange 1 1 ([1, 1] ++ List.replicate 100 2) = 2 ∧
    ∀ R : Rounding, guessMaxCount R 1 1 [⟨2, some [1, 1]⟩, ⟨100, some (List.replicate 100 2)⟩] = 1 := by
  refine ⟨by decide, by decide +kernel, by decide +kernel, fun R => ?_⟩
  exact guess_round R _ 1 1 1 100 102 1 (by decide +kernel) (by decide +kernel) (by decide +kernel) (by decide) (by decide)
    (by decide) (by decide) (by norm_num)

/-- The most frequent value does not depend on the order when there is only one. -/
example : mostFrequent [(1, 2), (3, 5), (4, 1)] = some 3 ∧ mostFrequent [(4, 1), (3, 5), (1, 2)] = some 3 ∧
    mostFrequent [(1, 2), (2, 2)] = some 2 ∧ mostFrequent [(2, 2), (1, 2)] = some 1 := by decide

end Est
