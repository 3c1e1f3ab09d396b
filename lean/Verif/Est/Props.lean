import Verif.Est.Lemmas

/-!
# The guessed number of annotations (C88)

Property theorems are named `C88_…`; failing witnesses contain `_fails`, restricted statements end in `_partial`.
-/

set_option linter.unusedSectionVars false
set_option linter.unusedSimpArgs false

namespace Est

variable {V : Type} [LinearOrder V]

/-! ### Rounding -/

theorem roundNat_mono {x y : ℚ} (h : x ≤ y) : roundNat x ≤ roundNat y := by
  unfold roundNat
  exact min_le_min (Nat.floor_mono (by linarith)) (Nat.le_refl _)

theorem roundNat_nat (n : Nat) (h : n < 2 ^ 53) : roundNat n = n := by
  unfold roundNat
  have h1 : ⌊(n : ℚ) + 1 / 2⌋₊ = n := by
    rw [Nat.floor_eq_iff (by positivity)]
    constructor <;> linarith
  rw [h1]; omega

theorem le_roundNat {x : ℚ} {n : Nat} (hn : n < 2 ^ 53) (h : (n : ℚ) ≤ x + 1 / 2) : n ≤ roundNat x := by
  unfold roundNat
  refine le_min (Nat.le_floor h) (by omega)

theorem roundNat_le {x : ℚ} (hx : 0 ≤ x) : (roundNat x : ℚ) ≤ x + 1 / 2 := by
  unfold roundNat
  exact (Nat.cast_le.2 (Nat.min_le_left _ _)).trans (Nat.floor_le (by linarith))

namespace Rounding

variable (R : Rounding)

theorem zero : R.fl 0 = 0 := by simpa using R.nat 0 (by decide)

theorem one : R.fl 1 = 1 := by simpa using R.nat 1 (by decide)

theorem nonneg {x : ℚ} (h : 0 ≤ x) : 0 ≤ R.fl x := by rw [← R.zero]; exact R.mono h

/-- The quotient is at most one. -/
theorem quot_le_one {m b : Nat} (h : m ≤ b) : R.fl (R.fl m / R.fl b) ≤ 1 := by
  rw [← R.one]
  apply R.mono
  apply div_le_one_of_le₀
  · exact R.mono (Nat.cast_le.2 h)
  · exact R.nonneg (by positivity)

/-- The rounded product is close to the exact one. -/
theorem close {k b u : Nat} (hb : 0 < b) (hb' : b ≤ 250) (hk : k ≤ b) (hu : u ≤ 2500) :
    |R.fl (R.fl (R.fl k / R.fl b) * R.fl u) - k * u / b| ≤ 1 / 1000 := by
  have e1 : R.fl k = k := R.nat k (by omega)
  have e2 : R.fl b = b := R.nat b (by omega)
  have e3 : R.fl u = u := R.nat u (by omega)
  rw [e1, e2, e3]
  rcases Nat.eq_zero_or_pos k with rfl | hk0
  · simp [R.zero]
  rcases Nat.eq_zero_or_pos u with rfl | hu0
  · simp [R.zero]
  have hbq : (0 : ℚ) < b := by exact_mod_cast hb
  have hbq' : (b : ℚ) ≤ 250 := by exact_mod_cast hb'
  have hkq : (1 : ℚ) ≤ k := by exact_mod_cast hk0
  have hkb : (k : ℚ) ≤ b := by exact_mod_cast hk
  have huq : (1 : ℚ) ≤ u := by exact_mod_cast hu0
  have huq' : (u : ℚ) ≤ 2500 := by exact_mod_cast hu
  have s1 : (k : ℚ) / b ≤ 1 := by rw [div_le_one hbq]; exact hkb
  have s0 : 1 / 250 ≤ (k : ℚ) / b := by
    rw [div_le_div_iff₀ (by norm_num) hbq]; linarith
  have p53 : (2 : ℚ) ^ 53 = 9007199254740992 := by norm_num
  have c1 : (1 : ℚ) / 2 ^ 100 ≤ 1 / 1000 := by norm_num
  have c2 : (2500 : ℚ) * 2 ≤ 2 ^ 100 := by norm_num
  set s := (k : ℚ) / b with hs
  have r1 := R.err s (by linarith) (by linarith)
  rw [p53, abs_le] at r1
  set t := R.fl s with ht
  have t0 : 1 / 500 ≤ t := by linarith
  have t1 : t ≤ 2 := by linarith
  have tu0 : 1 / 500 ≤ t * u := by nlinarith
  have tu1 : t * u ≤ 5000 := by nlinarith
  have r2 := R.err (t * u) (by linarith) (by linarith)
  rw [p53, abs_le] at r2
  have hsu : (k : ℚ) * u / b = s * u := by rw [hs]; ring
  rw [hsu, abs_le]
  have d1 : t * u - s * u ≤ 1 / 10000 := by
    have : (t - s) * u ≤ (1 / 9007199254740992) * 2500 := by
      apply mul_le_mul _ huq' (by linarith) (by norm_num)
      linarith
    have e : t * u - s * u = (t - s) * u := by ring
    rw [e]; refine this.trans (by norm_num)
  have d2 : -(1 / 10000) ≤ t * u - s * u := by
    have : (s - t) * u ≤ (1 / 9007199254740992) * 2500 := by
      apply mul_le_mul _ huq' (by linarith) (by norm_num)
      linarith
    have e : t * u - s * u = -((s - t) * u) := by ring
    rw [e]
    have : (1 / 9007199254740992) * 2500 ≤ (1 / 10000 : ℚ) := by norm_num
    linarith
  constructor <;> linarith

end Rounding

/-! ### Any set of keys -/

theorem matches_le_buckets (lo hi : V) (k : KeyStat V) : k.matches lo hi ≤ k.buckets := by
  unfold KeyStat.matches KeyStat.buckets
  cases k.hist with
  | none => exact Nat.le_refl _
  | some h =>
    refine List.countP_le_length.trans ?_
    simp [List.length_zip, List.length_tail]

theorem sum_matches_le (lo hi : V) (keys : List (KeyStat V)) :
    (keys.map (KeyStat.matches lo hi)).sum ≤ (keys.map KeyStat.buckets).sum := by
  induction keys with
  | nil => exact Nat.le_refl _
  | cons k r ih => simp only [List.map_cons, List.sum_cons]; have := matches_le_buckets lo hi k; omega

/-- C88: the guess is never larger than the number of annotations with the key. -/
theorem C88_guess_le_total (R : Rounding) (lo hi : V) (keys : List (KeyStat V)) (hU : (keys.map KeyStat.size).sum < 2 ^ 53) :
    guessMaxCount R lo hi keys ≤ (keys.map KeyStat.size).sum := by
  unfold guessMaxCount
  simp only
  split
  · have hle := sum_matches_le lo hi keys
    generalize (keys.map KeyStat.size).sum = u at *
    have h1 := R.quot_le_one hle
    have h2 : R.fl (R.fl (R.fl (keys.map (KeyStat.matches lo hi)).sum / R.fl (keys.map KeyStat.buckets).sum) * R.fl u) ≤ u := by
      have h3 : R.fl u = u := R.nat u hU
      conv_rhs => rw [← h3]
      apply R.mono
      rw [h3]
      exact mul_le_of_le_one_left (by positivity) h1
    calc _ ≤ roundNat (u : ℚ) := roundNat_mono h2
      _ = u := roundNat_nat u hU
  · exact Nat.zero_le _

/-- C88: also the guess for a regular expression is never larger. -/
theorem C88_regex_le_total (g : Option Nat) (total : Nat) : guessRegex g total ≤ total := by
  cases g with
  | none => exact Nat.zero_le _
  | some g => exact Nat.min_le_right _ _

theorem matches_mono {lo lo' hi hi' : V} (h1 : lo' ≤ lo) (h2 : hi ≤ hi') (k : KeyStat V) :
    k.matches lo hi ≤ k.matches lo' hi' := by
  unfold KeyStat.matches
  cases k.hist with
  | none => exact Nat.le_refl _
  | some h =>
    apply List.countP_mono_left
    intro p _ hp
    simp only [Bool.and_eq_true, decide_eq_true_eq] at hp ⊢
    exact ⟨hp.1.trans h2, h1.trans hp.2⟩

/-- C88: a larger range of values never has a smaller guess. -/
theorem C88_monotone (R : Rounding) {lo lo' hi hi' : V} (h1 : lo' ≤ lo) (h2 : hi ≤ hi') (keys : List (KeyStat V)) :
    guessMaxCount R lo hi keys ≤ guessMaxCount R lo' hi' keys := by
  have hm : (keys.map (KeyStat.matches lo hi)).sum ≤ (keys.map (KeyStat.matches lo' hi')).sum := by
    induction keys with
    | nil => exact Nat.le_refl _
    | cons k r ih => simp only [List.map_cons, List.sum_cons]; have := matches_mono h1 h2 k; omega
  unfold guessMaxCount
  simp only
  split
  · apply roundNat_mono
    apply R.mono
    apply mul_le_mul_of_nonneg_right _ (R.nonneg (by positivity))
    apply R.mono
    apply div_le_div_of_nonneg_right _ (R.nonneg (by positivity))
    exact R.mono (Nat.cast_le.2 hm)
  · exact Nat.le_refl _

/-- C88: when the range contains all bounds the guess is the number of all annotations. -/
theorem C88_full_range (R : Rounding) (lo hi : V) (keys : List (KeyStat V)) (hU : (keys.map KeyStat.size).sum < 2 ^ 53)
    (hall : ∀ k ∈ keys, ∀ h, k.hist = some h → ∀ v ∈ h, lo ≤ v ∧ v ≤ hi) (hb : 0 < (keys.map KeyStat.buckets).sum)
    (hb' : (keys.map KeyStat.buckets).sum < 2 ^ 53) :
    guessMaxCount R lo hi keys = (keys.map KeyStat.size).sum := by
  have hm : (keys.map (KeyStat.matches lo hi)).sum = (keys.map KeyStat.buckets).sum := by
    have : ∀ k ∈ keys, KeyStat.matches lo hi k = KeyStat.buckets k := by
      intro k hk
      unfold KeyStat.matches KeyStat.buckets
      cases hh : k.hist with
      | none => rfl
      | some h =>
        simp only [Option.elim]
        rw [List.countP_eq_length.2]
        · simp [List.length_zip, List.length_tail]
        · intro p hp
          obtain ⟨hp1, hp2⟩ := List.of_mem_zip (show (p.1, p.2) ∈ h.zip h.tail from hp)
          have := hall k hk h hh p.1 hp1
          have := hall k hk h hh p.2 (List.mem_of_mem_tail hp2)
          simp [*]
    rw [List.map_congr_left this]
  unfold guessMaxCount
  simp only [hm, if_pos hb]
  generalize (keys.map KeyStat.size).sum = u at *
  generalize (keys.map KeyStat.buckets).sum = b at *
  have hbq : (b : ℚ) ≠ 0 := by exact_mod_cast hb.ne'
  rw [R.nat b hb', div_self hbq, R.one, R.nat u hU, one_mul, R.nat u hU, roundNat_nat u hU]

/-! ### One key -/

/-- C88: the calculation of the bounds never leaves the list; there are at least two and at most 251 of them, and they are sorted values of
the sample, beginning with the smallest and ending with the largest one. -/
theorem C88_bounds (sample : List V) :
    ∃ h, histogram sample = some h ∧ h.length = (if 2 ≤ sample.length then min sample.length 251 else 0) ∧
      h.Pairwise (· ≤ ·) ∧ (∀ v ∈ h, v ∈ sample) ∧
      (2 ≤ sample.length → ∀ v ∈ sample, ∃ a b, h.head? = some a ∧ h.getLast? = some b ∧ a ≤ v ∧ v ≤ b) := by
  by_cases h2 : 2 ≤ sample.length
  · obtain ⟨h, hh, hlen, hj⟩ := histogram_eq sample h2
    obtain ⟨hsort, hperm⟩ := insertionSort_props sample
    have hsl : (sample.insertionSort (· ≤ ·)).length = sample.length := hperm.length_eq
    generalize hs : sample.insertionSort (· ≤ ·) = s at *
    have hq : 0 < h.length - 1 := by omega
    have hpos : ∀ j, j < h.length → j * (sample.length - 1) / (h.length - 1) < s.length := by
      intro j hjl
      rw [hsl]
      have : j * (sample.length - 1) / (h.length - 1) ≤ sample.length - 1 := by
        apply Nat.div_le_of_le_mul
        exact Nat.mul_le_mul_right _ (by omega)
      omega
    have hget : ∀ j (hjl : j < h.length), h[j] = s[j * (sample.length - 1) / (h.length - 1)]'(hpos j hjl) := by
      intro j hjl
      have := hj j hjl
      rw [List.getElem?_eq_getElem hjl, List.getElem?_eq_getElem (hpos j hjl)] at this
      exact Option.some.inj this
    refine ⟨h, hh, by rw [if_pos h2, hlen], ?_, ?_, ?_⟩
    · rw [List.pairwise_iff_getElem]
      intro i j hi hjl hij
      rw [hget i hi, hget j hjl]
      have hle : i * (sample.length - 1) / (h.length - 1) ≤ j * (sample.length - 1) / (h.length - 1) :=
        mono_pos _ _ (by omega : i ≤ j)
      rcases Nat.lt_or_ge (i * (sample.length - 1) / (h.length - 1)) (j * (sample.length - 1) / (h.length - 1)) with h' | h'
      · exact (List.pairwise_iff_getElem.1 hsort) _ _ _ _ h'
      · have he : i * (sample.length - 1) / (h.length - 1) = j * (sample.length - 1) / (h.length - 1) := by omega
        simp only [he, le_refl]
    · intro v hv
      obtain ⟨j, hjl, rfl⟩ := List.getElem_of_mem hv
      rw [hget j hjl]
      exact hperm.mem_iff.1 (List.getElem_mem _)
    · intro _ v hv
      have h0 : 0 < h.length := by omega
      have hl : h.length - 1 < h.length := by omega
      refine ⟨h[0], h[h.length - 1], ?_, ?_, ?_, ?_⟩
      · rw [List.head?_eq_getElem?, List.getElem?_eq_getElem h0]
      · rw [List.getLast?_eq_getElem?, List.getElem?_eq_getElem hl]
      all_goals
        obtain ⟨i, hi, rfl⟩ := List.getElem_of_mem (hperm.mem_iff.2 hv)
      · rw [hget 0 h0]
        simp only [Nat.zero_mul, Nat.zero_div]
        rcases Nat.eq_zero_or_pos i with rfl | h'
        · exact le_refl _
        · exact (List.pairwise_iff_getElem.1 hsort) _ _ _ _ h'
      · rw [hget _ hl]
        have he : (h.length - 1) * (sample.length - 1) / (h.length - 1) = s.length - 1 := by
          rw [Nat.mul_div_cancel_left _ hq, hsl]
        simp only [he]
        rcases Nat.lt_or_ge i (s.length - 1) with h' | h'
        · exact (List.pairwise_iff_getElem.1 hsort) _ _ _ _ h'
        · have : i = s.length - 1 := by omega
          simp only [this, le_refl]
  · refine ⟨[], ?_, by rw [if_neg h2]; rfl, List.Pairwise.nil, by simp, fun h => absurd h h2⟩
    unfold histogram
    simp only [List.length_insertionSort, maxBuckets]
    rw [if_neg (by omega)]

/-- The number of overlapping buckets for one completely sampled key. -/
theorem matches_bounds (vals sample : List V) (hp : sample.Perm vals) (h2 : 2 ≤ vals.length) (lo hi : V) (hr : lo ≤ hi)
    (h : List V) (hh : histogram sample = some h) (k : Nat) (hk : k = KeyStat.matches lo hi ⟨vals.length, some h⟩) :
    let q := h.length - 1
    let n := vals.length - 1
    let c := Spec.inRange lo hi vals
    h.length = min vals.length 251 ∧ c * q ≤ k * n + q ∧ (q = n → c ≤ k ∨ (k = q ∧ c = n + 1)) ∧ k * n ≤ c * q + 2 * n ∧ k ≤ q ∧
      (0 < c → 0 < k) := by
  have hsv : sample.length = vals.length := hp.length_eq
  obtain ⟨h', hh', hlen, hj⟩ := histogram_eq sample (by omega)
  rw [hh] at hh'
  cases hh'
  obtain ⟨hsort, hperm⟩ := insertionSort_props sample
  have hsl : (sample.insertionSort (· ≤ ·)).length = sample.length := hperm.length_eq
  generalize hs : sample.insertionSort (· ≤ ·) = s at *
  intro q n c
  have hq : 0 < q := by omega
  have hc : c = Spec.inRange lo hi s := ((hperm.trans hp).countP_eq _).symm
  obtain ⟨hc1, hc2⟩ := inRange_eq lo hi hr s
  set e := s.countP (fun v => decide (v ≤ hi)) with he
  set a := s.countP (fun v => decide (v < lo)) with ha
  have hel : e ≤ n + 1 := by
    have : e ≤ s.length := List.countP_le_length
    omega
  have hpos : ∀ j, j ≤ q → j * n / q < s.length := by
    intro j hjl
    have : j * n / q ≤ n := by
      apply Nat.div_le_of_le_mul
      exact Nat.mul_le_mul_right _ hjl
    omega
  have hkq : k = (List.range q).countP fun i => decide (i * n / q < e) && decide (a ≤ (i + 1) * n / q) := by
    rw [hk]
    unfold KeyStat.matches
    simp only [Option.elim]
    have hlq : h.length = q + 1 := by omega
    rw [List.countP_congr (q := fun p : V × V => decide (p.1 ≤ hi) && decide (lo ≤ p.2)) (fun _ _ => Iff.rfl)]
    -- compare position by position
    apply zip_tail_countP h _ _ q hlq
    intro i h1 h2'
    have g1 := hj i h1
    have g2 := hj (i + 1) h2'
    have n' : sample.length - 1 = n := by omega
    rw [n'] at g1 g2
    rw [List.getElem?_eq_getElem h1, List.getElem?_eq_getElem (hpos i (by omega))] at g1
    rw [List.getElem?_eq_getElem h2', List.getElem?_eq_getElem (hpos (i + 1) (by omega))] at g2
    rw [Option.some.inj g1, Option.some.inj g2]
    have s1 := sorted_prefix s hsort (fun v => decide (v ≤ hi))
      (fun x y hxy hy => by simp only [decide_eq_true_eq] at hy ⊢; exact hxy.trans hy) _ (hpos i (by omega))
    have s2 := sorted_prefix s hsort (fun v => decide (v < lo))
      (fun x y hxy hy => by simp only [decide_eq_true_eq] at hy ⊢; exact hxy.trans_lt hy) _ (hpos (i + 1) (by omega))
    simp only [decide_eq_true_eq] at s1 s2
    rw [Bool.eq_iff_iff]
    simp only [Bool.and_eq_true, decide_eq_true_eq]
    rw [s1, ← not_lt, s2, not_lt]
  have hb := buckets_bounds n q e a hq (by omega) hel hc2 k hkq
  rw [← hc1, ← hc] at hb
  refine ⟨by omega, hb.1, hb.2.1, hb.2.2.1, hb.2.2.2.1, fun h0 => hb.2.2.2.2 (by omega)⟩

theorem sampled_perm {vals sample : List V} (hs : Spec.Sampled vals sample) (h : vals.length ≤ 2500) : sample.Perm vals := by
  apply hs.1.perm_of_length_le
  rw [hs.2]
  unfold maxSampled; omega

/-- The guess for one key. -/
theorem guess_single (R : Rounding) (lo hi : V) (u : Nat) (h : List V) (hl : 2 ≤ h.length) (hl' : h.length ≤ 251) (hu : u ≤ 2500) :
    ∃ x : ℚ, guessMaxCount R lo hi [⟨u, some h⟩] = roundNat x ∧
      |x - (KeyStat.matches lo hi ⟨u, some h⟩ : ℚ) * u / ((h.length - 1 : Nat) : ℚ)| ≤ 1 / 1000 ∧ 0 ≤ x := by
  unfold guessMaxCount
  simp only [List.map_cons, List.map_nil, List.sum_cons, List.sum_nil, Nat.add_zero]
  have hb : KeyStat.buckets (⟨u, some h⟩ : KeyStat V) = h.length - 1 := rfl
  have hm := matches_le_buckets lo hi (⟨u, some h⟩ : KeyStat V)
  rw [hb] at hm
  rw [hb, if_pos (by omega)]
  refine ⟨_, rfl, R.close (by omega) (by omega) hm hu, ?_⟩
  apply R.nonneg
  apply mul_nonneg _ (R.nonneg (by positivity))
  apply R.nonneg
  exact div_nonneg (R.nonneg (by positivity)) (R.nonneg (by positivity))

/-- C88 (restricted to one key with 2 to 251 annotations): the guess is an upper bound for the number of annotations with a value in the
range.  With more annotations `C88_upper_bound_fails` shows a guess which is too small. -/
theorem C88_upper_bound_partial (R : Rounding) (vals sample : List V) (hs : Spec.Sampled vals sample) (h2 : 2 ≤ vals.length)
    (h251 : vals.length ≤ 251) (lo hi : V) (h : List V) (hh : histogram sample = some h) :
    Spec.inRange lo hi vals ≤ guessMaxCount R lo hi [⟨vals.length, some h⟩] := by
  rcases le_or_gt lo hi with hr | hr
  · obtain ⟨hlen, -, hc, -, hkq, -⟩ := matches_bounds vals sample (sampled_perm hs (by omega)) h2 lo hi hr h hh _ rfl
    obtain ⟨x, hg, hx, hx0⟩ := guess_single R lo hi vals.length h (by omega) (by omega) (by omega)
    rw [hg]
    have hq : h.length - 1 = vals.length - 1 := by omega
    specialize hc hq
    generalize KeyStat.matches lo hi ⟨vals.length, some h⟩ = k at *
    have hcle : Spec.inRange lo hi vals ≤ vals.length := List.countP_le_length
    apply le_roundNat (by omega)
    rw [abs_le] at hx
    rw [hq] at hx hkq
    have hn0 : (0 : ℚ) < ((vals.length - 1 : Nat) : ℚ) := by
      have : 0 < vals.length - 1 := by omega
      exact_mod_cast this
    have key : ((Spec.inRange lo hi vals : Nat) : ℚ) ≤ (k : ℚ) * vals.length / ((vals.length - 1 : Nat) : ℚ) := by
      rw [le_div_iff₀ hn0]
      have : Spec.inRange lo hi vals * (vals.length - 1) ≤ k * vals.length := by
        rcases hc with hc | ⟨hc1, hc2⟩
        · exact Nat.mul_le_mul hc (by omega)
        · rw [hc1, hc2, hq, Nat.mul_comm]
          exact Nat.mul_le_mul_left _ (by omega)
      exact_mod_cast this
    linarith
  · have : Spec.inRange lo hi vals = 0 := by
      unfold Spec.inRange
      rw [List.countP_eq_zero]
      intro v _ hv
      simp only [Bool.and_eq_true, decide_eq_true_eq] at hv
      exact absurd (hv.1.trans hv.2) (not_le.2 hr)
    rw [this]; exact Nat.zero_le _

/-- C88: for one key with 2 to 2500 annotations (the largest sample) the guess is at most one smaller than the number of annotations with
a value in the range. -/
theorem C88_lower_error (R : Rounding) (vals sample : List V) (hs : Spec.Sampled vals sample) (h2 : 2 ≤ vals.length)
    (h2500 : vals.length ≤ 2500) (lo hi : V) (h : List V) (hh : histogram sample = some h) :
    Spec.inRange lo hi vals ≤ guessMaxCount R lo hi [⟨vals.length, some h⟩] + 1 := by
  rcases le_or_gt lo hi with hr | hr
  · obtain ⟨hlen, hc, -, -, hkq, -⟩ := matches_bounds vals sample (sampled_perm hs h2500) h2 lo hi hr h hh _ rfl
    obtain ⟨x, hg, hx, hx0⟩ := guess_single R lo hi vals.length h (by omega) (by omega) h2500
    rw [hg]
    generalize KeyStat.matches lo hi ⟨vals.length, some h⟩ = k at *
    have hcle : Spec.inRange lo hi vals ≤ vals.length := List.countP_le_length
    generalize Spec.inRange lo hi vals = c at *
    suffices hsuff : c - 1 ≤ roundNat x by omega
    apply le_roundNat (by omega)
    rw [abs_le] at hx
    have hq : 1 ≤ h.length - 1 := by omega
    generalize h.length - 1 = q at *
    have hq0 : (0 : ℚ) < q := by exact_mod_cast hq
    rcases Nat.eq_zero_or_pos c with hc0 | hc0
    · subst hc0
      rw [Nat.zero_sub, Nat.cast_zero]
      linarith
    have key : ((c - 1 : Nat) : ℚ) ≤ (k : ℚ) * vals.length / q := by
      rw [le_div_iff₀ hq0]
      have : (c - 1) * q ≤ k * vals.length := by
        have h3 : k * (vals.length - 1) ≤ k * vals.length := Nat.mul_le_mul_left _ (by omega)
        rw [Nat.sub_mul, Nat.one_mul]; omega
      exact_mod_cast this
    linarith
  · have : Spec.inRange lo hi vals = 0 := by
      unfold Spec.inRange
      rw [List.countP_eq_zero]
      intro v _ hv
      simp only [Bool.and_eq_true, decide_eq_true_eq] at hv
      exact absurd (hv.1.trans hv.2) (not_le.2 hr)
    rw [this]; exact Nat.zero_le _

/-- C88: it is at most about two buckets too large: with `b` the number of buckets and `n` annotations, the guess is at most
`(c / (n - 1) + 2 / b) * n + 1` for `c` annotations in the range. -/
theorem C88_upper_error (R : Rounding) (vals sample : List V) (hs : Spec.Sampled vals sample) (h2 : 2 ≤ vals.length)
    (h2500 : vals.length ≤ 2500) (lo hi : V) (hr : lo ≤ hi) (h : List V) (hh : histogram sample = some h) :
    (guessMaxCount R lo hi [⟨vals.length, some h⟩] : ℚ) ≤
      ((Spec.inRange lo hi vals : ℚ) / ((vals.length - 1 : Nat) : ℚ) + 2 / ((h.length - 1 : Nat) : ℚ)) * vals.length + 1 := by
  obtain ⟨hlen, -, -, hc, hkq, -⟩ := matches_bounds vals sample (sampled_perm hs h2500) h2 lo hi hr h hh _ rfl
  obtain ⟨x, hg, hx, hx0⟩ := guess_single R lo hi vals.length h (by omega) (by omega) h2500
  rw [hg]
  generalize KeyStat.matches lo hi ⟨vals.length, some h⟩ = k at *
  generalize Spec.inRange lo hi vals = c at *
  have hq : 1 ≤ h.length - 1 := by omega
  have hn : 1 ≤ vals.length - 1 := by omega
  generalize h.length - 1 = q at *
  have hq0 : (0 : ℚ) < q := by exact_mod_cast hq
  have hn0 : (0 : ℚ) < ((vals.length - 1 : Nat) : ℚ) := by exact_mod_cast hn
  have h1 := roundNat_le hx0
  rw [abs_le] at hx
  have key : (k : ℚ) / q ≤ (c : ℚ) / ((vals.length - 1 : Nat) : ℚ) + 2 / q := by
    rw [div_add_div _ _ hn0.ne' hq0.ne', div_le_div_iff₀ hq0 (by positivity)]
    have : (k : ℚ) * ((vals.length - 1 : Nat) : ℚ) ≤ (c : ℚ) * q + 2 * ((vals.length - 1 : Nat) : ℚ) := by exact_mod_cast hc
    nlinarith
  have key2 : (k : ℚ) * vals.length / q ≤ ((c : ℚ) / ((vals.length - 1 : Nat) : ℚ) + 2 / q) * vals.length := by
    rw [mul_div_right_comm]
    exact mul_le_mul_of_nonneg_right key (by positivity)
  linarith

/-- C88: a guess of zero for one key with 2 to 2500 annotations is certain. -/
theorem C88_zero_is_certain (R : Rounding) (vals sample : List V) (hs : Spec.Sampled vals sample) (h2 : 2 ≤ vals.length)
    (h2500 : vals.length ≤ 2500) (lo hi : V) (hr : lo ≤ hi) (h : List V) (hh : histogram sample = some h)
    (h0 : guessMaxCount R lo hi [⟨vals.length, some h⟩] = 0) : ∀ v ∈ vals, ¬ (lo ≤ v ∧ v ≤ hi) := by
  obtain ⟨hlen, -, -, -, hkq, hpos⟩ := matches_bounds vals sample (sampled_perm hs h2500) h2 lo hi hr h hh _ rfl
  obtain ⟨x, hg, hx, hx0⟩ := guess_single R lo hi vals.length h (by omega) (by omega) h2500
  rw [hg] at h0
  generalize KeyStat.matches lo hi ⟨vals.length, some h⟩ = k at *
  have hk : k = 0 := by
    by_contra hk
    have hq : 1 ≤ h.length - 1 := by omega
    have hqv : h.length - 1 ≤ vals.length := by omega
    generalize h.length - 1 = q at *
    have hq0 : (0 : ℚ) < q := by exact_mod_cast hq
    have : 1 ≤ roundNat x := by
      apply le_roundNat (by decide)
      rw [abs_le] at hx
      have key : (1 : ℚ) ≤ (k : ℚ) * vals.length / q := by
        rw [le_div_iff₀ hq0, one_mul]
        have : q ≤ k * vals.length := hqv.trans (Nat.le_mul_of_pos_left _ (by omega))
        exact_mod_cast this
      push_cast
      linarith
    omega
  have hc : Spec.inRange lo hi vals = 0 := by omega
  unfold Spec.inRange at hc
  rw [List.countP_eq_zero] at hc
  intro v hv hvr
  exact hc v hv (by simp [hvr])

/-! ### The most frequent value -/

theorem mostFrequent_foldl (r : List (V × Nat)) :
    ∀ p : V × Nat, let m := r.foldl (fun m e => if m.2 ≤ e.2 then e else m) p
      (m = p ∨ m ∈ r) ∧ p.2 ≤ m.2 ∧ ∀ e ∈ r, e.2 ≤ m.2 := by
  induction r with
  | nil => intro p; exact ⟨Or.inl rfl, Nat.le_refl _, by simp⟩
  | cons e r ih =>
    intro p
    simp only [List.foldl_cons]
    by_cases h : p.2 ≤ e.2
    · rw [if_pos h]
      obtain ⟨h1, h2, h3⟩ := ih e
      refine ⟨Or.inr ?_, h.trans h2, ?_⟩
      · rcases h1 with h1 | h1
        · rw [h1]; exact List.mem_cons_self
        · exact List.mem_cons_of_mem _ h1
      · intro x hx
        rcases List.mem_cons.1 hx with rfl | hx
        · exact h2
        · exact h3 x hx
    · rw [if_neg h]
      obtain ⟨h1, h2, h3⟩ := ih p
      refine ⟨h1.imp id (List.mem_cons_of_mem _), h2, ?_⟩
      intro x hx
      rcases List.mem_cons.1 hx with rfl | hx
      · omega
      · exact h3 x hx

/-- C88: whatever the order of the iteration, the most frequent value is one of the values and no other one is more frequent. -/
theorem C88_most_frequent (bounds : List V) (order : List (V × Nat)) (ho : ∀ p, p ∈ order ↔ p.1 ∈ bounds ∧ p.2 = bounds.count p.1) :
    (bounds = [] → mostFrequent order = none) ∧
      (bounds ≠ [] → ∃ v, mostFrequent order = some v ∧ v ∈ bounds ∧ ∀ w, bounds.count w ≤ bounds.count v) := by
  cases order with
  | nil =>
    refine ⟨fun _ => rfl, fun h => ?_⟩
    obtain ⟨v, hv⟩ := List.exists_mem_of_ne_nil _ h
    exact absurd ((ho (v, bounds.count v)).2 ⟨hv, rfl⟩) (by simp)
  | cons p r =>
    have hp := (ho p).1 List.mem_cons_self
    refine ⟨fun h => by rw [h] at hp; exact absurd hp.1 (by simp), fun _ => ?_⟩
    obtain ⟨h1, h2, h3⟩ := mostFrequent_foldl r p
    unfold mostFrequent
    set m := r.foldl (fun m e => if m.2 ≤ e.2 then e else m) p with hm
    have hmem : m ∈ p :: r := by
      rcases h1 with h1 | h1
      · rw [h1]; exact List.mem_cons_self
      · exact List.mem_cons_of_mem _ h1
    have hm' := (ho m).1 hmem
    refine ⟨m.1, rfl, hm'.1, fun w => ?_⟩
    by_cases hw : w ∈ bounds
    · have := (ho (w, bounds.count w)).2 ⟨hw, rfl⟩
      rw [← hm'.2]
      rcases List.mem_cons.1 this with h | h
      · have : bounds.count w = p.2 := by rw [← h]
        omega
      · exact h3 _ h
    · rw [List.count_eq_zero_of_not_mem hw]; exact Nat.zero_le _

end Est
