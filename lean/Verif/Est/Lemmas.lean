import Verif.Est.Model
import Mathlib.Tactic.Ring

/-! # Lemmas about the histograms (C88) -/

set_option linter.unusedSectionVars false
set_option linter.unusedSimpArgs false

namespace Est

variable {V : Type} [LinearOrder V]

/-! ### The positions of the bounds -/

theorem div_mod_of (x q a b : Nat) (h : x = q * a + b) (hb : b < q) : x / q = a ∧ x % q = b := by
  subst h
  refine ⟨?_, ?_⟩
  · rw [Nat.mul_add_div (by omega), Nat.div_eq_of_lt hb, Nat.add_zero]
  · rw [Nat.mul_add_mod, Nat.mod_eq_of_lt hb]

/-- The loop takes the values at the positions `⌊i·n/q⌋`. -/
theorem boundLoop_eq (vals : List V) (n q : Nat) (hq : 0 < q) (hlen : vals.length = n + 1) :
    ∀ (k i pos frac : Nat), i + k ≤ q + 1 → pos = i * n / q → frac = i * n % q →
      ∃ l, boundLoop vals (n / q) (n % q) q k pos frac = some l ∧ l.length = k ∧
        ∀ j, j < k → l[j]? = vals[(i + j) * n / q]? := by
  intro k
  induction k with
  | zero => intro i pos frac _ _ _; exact ⟨[], rfl, rfl, fun j hj => absurd hj (by omega)⟩
  | succ k ih =>
    intro i pos frac hik hpos hfrac
    have hle : i * n / q ≤ n := by
      apply Nat.div_le_of_le_mul
      rw [Nat.mul_comm q n, Nat.mul_comm i n]
      exact Nat.mul_le_mul_left _ (by omega)
    have hlt : pos < vals.length := by omega
    have hfl : i * n % q < q := Nat.mod_lt _ hq
    have hnl : n % q < q := Nat.mod_lt _ hq
    have e1 : q * (i * n / q) + i * n % q = i * n := Nat.div_add_mod _ _
    have e2 : q * (n / q) + n % q = n := Nat.div_add_mod _ _
    have e3 : (i + 1) * n = q * (i * n / q + n / q) + (i * n % q + n % q) := by
      rw [Nat.mul_add, Nat.add_mul, Nat.one_mul]; omega
    simp only [boundLoop, List.getElem?_eq_getElem hlt]
    have finish : ∀ pos' frac', pos' = (i + 1) * n / q → frac' = (i + 1) * n % q →
        ∃ l, (boundLoop vals (n / q) (n % q) q k pos' frac').map (vals[pos] :: ·) = some l ∧ l.length = k + 1 ∧
          ∀ j, j < k + 1 → l[j]? = vals[(i + j) * n / q]? := by
      intro pos' frac' h1 h2
      obtain ⟨l, hl, hll, hj⟩ := ih (i + 1) pos' frac' (by omega) h1 h2
      refine ⟨vals[pos] :: l, by rw [hl]; rfl, by simp [hll], ?_⟩
      intro j hjk
      cases j with
      | zero => simp [hpos]
      | succ j =>
        simp only [List.getElem?_cons_succ]
        rw [hj j (by omega)]
        congr 2
        have : i + 1 + j = i + (j + 1) := by omega
        rw [this]
    rw [← hpos] at e1 e3
    rw [← hfrac] at e1 e3 hfl
    generalize n / q = D at *
    generalize n % q = G at *
    split
    · rename_i hge
      have h3 : (i + 1) * n = q * (pos + D + 1) + (frac + G - q) := by
        rw [e3, Nat.mul_add q (pos + D) 1]; omega
      obtain ⟨h4, h5⟩ := div_mod_of _ _ _ _ h3 (by omega)
      exact finish _ _ h4.symm h5.symm
    · rename_i hlt'
      obtain ⟨h4, h5⟩ := div_mod_of _ _ _ _ e3 (by omega)
      exact finish _ _ h4.symm h5.symm

/-! ### Counting buckets -/

/-- How many buckets are counted: those of an interval. -/
theorem countP_interval (q I J : Nat) (P : Nat → Bool) (hI : I ≤ q) (hJ : J ≤ q)
    (hP : ∀ i, i < q → (P i = true ↔ i < I ∧ J ≤ i)) : (List.range q).countP P = I - J := by
  have h1 : (List.range q).countP P = (List.range q).countP (fun i => decide (J ≤ i ∧ i < I)) := by
    apply List.countP_congr
    intro i hi
    rw [hP i (List.mem_range.1 hi)]
    simp [and_comm]
  rw [h1]
  clear h1 hP
  induction q generalizing I with
  | zero => simp; omega
  | succ q ih =>
    rw [List.range_succ, List.countP_append]
    have hlast : [q].countP (fun i => decide (J ≤ i ∧ i < I)) = if J ≤ q ∧ q < I then 1 else 0 := by
      rw [List.countP_cons, List.countP_nil]; simp only [decide_eq_true_eq, Nat.zero_add]
    have hzero : q ≤ J → (List.range q).countP (fun i => decide (J ≤ i ∧ i < I)) = 0 := by
      intro h
      rw [List.countP_eq_zero]
      intro i hi
      have := List.mem_range.1 hi
      simp only [decide_eq_true_eq]; omega
    have hmin : J < q → (List.range q).countP (fun i => decide (J ≤ i ∧ i < I)) = min I q - J := by
      intro h
      rw [← ih (min I q) (by omega) (by omega)]
      apply List.countP_congr
      intro i hi
      have := List.mem_range.1 hi
      simp only [decide_eq_true_eq]; omega
    rw [hlast]
    rcases Nat.lt_or_ge J q with h | h
    · rw [hmin h]; split <;> omega
    · rw [hzero h]; split <;> omega

/-- In an ascending list the elements which satisfy a downward closed condition are the first ones. -/
theorem sorted_prefix (s : List V) (hs : s.Pairwise (· ≤ ·)) (P : V → Bool) (hP : ∀ a b, a ≤ b → P b = true → P a = true) :
    ∀ j (h : j < s.length), P s[j] = true ↔ j < s.countP P := by
  induction s with
  | nil => intro j h; simp at h
  | cons a r ih =>
    obtain ⟨hmin, hs'⟩ := List.pairwise_cons.1 hs
    intro j h
    by_cases ha : P a = true
    · rw [List.countP_cons_of_pos ha]
      cases j with
      | zero => simp [ha]
      | succ j =>
        have := ih hs' j (by simpa using h)
        simp only [List.getElem_cons_succ]
        rw [this]; omega
    · have hr : r.countP P = 0 := by
        rw [List.countP_eq_zero]
        intro b hb hpb
        exact ha (hP a b (hmin b hb) hpb)
      rw [List.countP_cons_of_neg ha, hr]
      constructor
      · intro hp
        cases j with
        | zero => exact absurd hp ha
        | succ j =>
          simp only [List.getElem_cons_succ] at hp
          exact absurd (hP a _ (hmin _ (List.getElem_mem _)) hp) ha
      · omega

/-- The number of elements in a range is a difference. -/
theorem inRange_eq (lo hi : V) (h : lo ≤ hi) (s : List V) :
    Spec.inRange lo hi s = s.countP (fun v => decide (v ≤ hi)) - s.countP (fun v => decide (v < lo)) ∧
      s.countP (fun v => decide (v < lo)) ≤ s.countP (fun v => decide (v ≤ hi)) := by
  have key : Spec.inRange lo hi s + s.countP (fun v => decide (v < lo)) = s.countP (fun v => decide (v ≤ hi)) := by
    induction s with
    | nil => rfl
    | cons a r ih =>
      unfold Spec.inRange at *
      rw [List.countP_cons, List.countP_cons, List.countP_cons]
      rcases lt_or_ge a lo with h1 | h1
      · have h2 : a ≤ hi := (h1.trans_le h).le
        have h3 : ¬ lo ≤ a := not_le.2 h1
        simp [h1, h2, h3]; omega
      · have h3 : ¬ a < lo := not_lt.2 h1
        simp [h1, h3]; omega
  omega

/-- An initial segment: how many of the first `q` positions are below a limit. -/
theorem initial_segment (q e : Nat) (p : Nat → Nat) (hp : Monotone p) :
    ∃ I, I ≤ q ∧ (∀ i, i < q → (p i < e ↔ i < I)) := by
  induction q with
  | zero => exact ⟨0, Nat.le_refl _, fun i hi => absurd hi (by omega)⟩
  | succ q ih =>
    obtain ⟨I, hI, h⟩ := ih
    by_cases hq : p q < e
    · refine ⟨q + 1, Nat.le_refl _, fun i hi => ⟨fun _ => hi, fun _ => ?_⟩⟩
      exact Nat.lt_of_le_of_lt (hp (by omega : i ≤ q)) hq
    · refine ⟨I, by omega, fun i hi => ?_⟩
      by_cases hiq : i = q
      · subst hiq; exact ⟨fun h' => absurd h' hq, fun h' => absurd h' (by omega)⟩
      · exact h i (by omega)

theorem mono_pos (n q : Nat) : Monotone fun i => i * n / q := by
  intro a b h
  exact Nat.div_le_div_right (Nat.mul_le_mul_right _ h)

/-- What is known about the number of buckets `k` overlapping with a range of `c` of the `n + 1` values. -/
theorem buckets_bounds (n q e a : Nat) (hq : 0 < q) (hqn : q ≤ n) (he : e ≤ n + 1) (hae : a ≤ e) (k : Nat)
    (hk : k = (List.range q).countP fun i => decide (i * n / q < e) && decide (a ≤ (i + 1) * n / q)) :
    (e - a) * q ≤ k * n + q ∧ (q = n → e - a ≤ k ∨ (k = q ∧ e - a = n + 1)) ∧ k * n ≤ (e - a) * q + 2 * n ∧ k ≤ q ∧
      (a < e → 0 < k) := by
  obtain ⟨I, hI, hIp⟩ := initial_segment q e (fun i => i * n / q) (mono_pos n q)
  obtain ⟨J, hJ, hJp⟩ := initial_segment q a (fun i => (i + 1) * n / q) (fun x y h => mono_pos n q (by omega : x + 1 ≤ y + 1))
  have hkIJ : k = I - J := by
    rw [hk]
    apply countP_interval q I J _ hI hJ
    intro i hi
    simp only [Bool.and_eq_true, decide_eq_true_eq]
    rw [hIp i hi]
    have := hJp i hi
    omega
  have div_lo : ∀ i : Nat, q * (i * n / q) ≤ i * n := fun i => Nat.mul_div_le _ _
  have div_hi : ∀ i : Nat, i * n < q * (i * n / q) + q := fun i => by
    have := Nat.div_add_mod (i * n) q
    have := Nat.mod_lt (i * n) hq
    omega
  have pq : q * n / q = n := Nat.mul_div_cancel_left _ hq
  have p0 : 0 * n / q = 0 := by simp
  have pn : q = n → ∀ i : Nat, i * n / q = i := fun h i => by subst h; exact Nat.mul_div_cancel _ hq
  -- the ends of the interval
  have hIlo : 1 ≤ I → (I - 1) * n / q < e := fun h => (hIp (I - 1) (by omega)).2 (by omega)
  have hIhi : I < q → e ≤ I * n / q := fun h => by
    have := (hIp I h).not.2 (by omega); simpa using this
  have hJlo : 1 ≤ J → J * n / q < a := fun h => by
    have := (hJp (J - 1) (by omega)).2 (by omega)
    simpa [Nat.sub_add_cancel h] using this
  have hJhi : J < q → a ≤ (J + 1) * n / q := fun h => by
    have := (hJp J h).not.2 (by omega); simpa using this
  have hIq : I = q → e ≤ q * n / q + 1 := fun _ => by rw [pq]; exact he
  -- there is an overlapping bucket
  have hI1 : a < e → 1 ≤ I := fun h => by
    by_contra hc
    have : I = 0 := by omega
    subst this
    have := hIhi hq
    rw [p0] at this
    omega
  have hJI : a < e → J < I := fun h => by
    have h1 := hI1 h
    by_contra hc
    have hJ1 : 1 ≤ J := by omega
    have h2 := hJlo hJ1
    have h3 : I * n / q ≤ J * n / q := mono_pos n q (by omega : I ≤ J)
    rcases Nat.lt_or_ge I q with h4 | h4
    · have := hIhi h4; omega
    · have h5 : I = q := by omega
      have h6 : J = q := by omega
      rw [h6, pq] at h2
      omega
  refine ⟨?_, ?_, ?_, by omega, fun h => by have := hJI h; omega⟩
  · rcases Nat.eq_or_lt_of_le hae with hae | hae
    · subst hae; simp
    have hji := hJI hae
    have hkn : k * n = I * n - J * n := by rw [hkIJ, Nat.sub_mul]
    have hjn : J * n ≤ I * n := Nat.mul_le_mul_right _ hji.le
    rcases Nat.lt_or_ge I q with h4 | h4
    · have h5 := hIhi h4
      have h6 : q * e ≤ I * n := (Nat.mul_le_mul_left q h5).trans (div_lo I)
      rcases Nat.eq_zero_or_pos J with hJ0 | hJ0
      · subst hJ0
        rw [Nat.sub_mul, Nat.mul_comm e q, Nat.mul_comm a q]
        rw [Nat.zero_mul, Nat.sub_zero] at hkn
        omega
      · have h7 := hJlo hJ0
        have h8 : q * (J * n / q) + q ≤ q * a := by
          have := Nat.mul_le_mul_left q (Nat.succ_le_of_lt h7)
          rw [Nat.mul_succ] at this; exact this
        have := div_hi J
        rw [Nat.sub_mul, Nat.mul_comm e q, Nat.mul_comm a q]
        omega
    · have h5 : I = q := by omega
      subst h5
      have h6 : I * e ≤ I * n + I := by
        have := Nat.mul_le_mul_left I he
        rw [Nat.mul_succ] at this; exact this
      rcases Nat.eq_zero_or_pos J with hJ0 | hJ0
      · subst hJ0
        rw [Nat.sub_mul, Nat.mul_comm e I, Nat.mul_comm a I]
        rw [Nat.zero_mul, Nat.sub_zero] at hkn
        omega
      · have h7 := hJlo hJ0
        have h8 : I * (J * n / I) + I ≤ I * a := by
          have := Nat.mul_le_mul_left I (Nat.succ_le_of_lt h7)
          rw [Nat.mul_succ] at this; exact this
        have := div_hi J
        rw [Nat.sub_mul, Nat.mul_comm e I, Nat.mul_comm a I]
        omega
  · intro hqn'
    rcases Nat.eq_or_lt_of_le hae with hae | hae
    · left; omega
    have hji := hJI hae
    have hp := pn hqn'
    simp only [hp] at hIlo hIhi hJlo hJhi
    rcases Nat.lt_or_ge I q with h4 | h4
    · left
      have := hIhi h4
      rcases Nat.eq_zero_or_pos J with hJ0 | hJ0
      · omega
      · have := hJlo hJ0; omega
    · rcases Nat.eq_zero_or_pos J with hJ0 | hJ0
      · by_cases h : e - a = n + 1
        · right; exact ⟨by omega, h⟩
        · left; omega
      · left; have := hJlo hJ0; omega
  · rcases Nat.lt_or_ge k 3 with hk2 | hk2
    · have : k * n ≤ 2 * n := Nat.mul_le_mul_right _ (by omega)
      omega
    · have h1 := hIlo (by omega)
      have h2 := hJhi (by omega)
      have h3 := div_hi (I - 1)
      have h4 := div_lo (J + 1)
      have h5 : q * ((I - 1) * n / q) + q ≤ q * e := by
        have := Nat.mul_le_mul_left q (Nat.succ_le_of_lt h1)
        rw [Nat.mul_succ] at this; exact this
      have h6 : q * a ≤ q * ((J + 1) * n / q) := Nat.mul_le_mul_left q h2
      have h7 : (I - 1) * n = I * n - n := by rw [Nat.sub_mul, Nat.one_mul]
      have h8 : (J + 1) * n = J * n + n := by rw [Nat.add_mul, Nat.one_mul]
      have h9 : k * n = I * n - J * n := by rw [hkIJ, Nat.sub_mul]
      have h10 : n ≤ I * n := Nat.le_mul_of_pos_left _ (by omega)
      rw [Nat.sub_mul, Nat.mul_comm e q, Nat.mul_comm a q]
      omega

/-! ### The bounds of a histogram -/

/-- The pairs of neighbouring bounds. -/
theorem zip_tail_countP (h : List V) (P : V × V → Bool) (Q : Nat → Bool) (q : Nat) (hl : h.length = q + 1)
    (hPQ : ∀ i (h1 : i < h.length) (h2 : i + 1 < h.length), P (h[i], h[i + 1]) = Q i) :
    (h.zip h.tail).countP P = (List.range q).countP Q := by
  have : (h.zip h.tail).map P = (List.range q).map Q := by
    apply List.ext_getElem
    · simp [hl]
    · intro i h1 h2
      have hi : i < q := by simpa using h2
      simp only [List.getElem_map, List.getElem_range, List.getElem_zip, List.getElem_tail]
      exact hPQ i (by omega) (by omega)
  have h2 : ((h.zip h.tail).map P).countP id = ((List.range q).map Q).countP id := by rw [this]
  simpa [List.countP_map] using h2

theorem insertionSort_props (sample : List V) :
    (sample.insertionSort (· ≤ ·)).Pairwise (· ≤ ·) ∧ (sample.insertionSort (· ≤ ·)).Perm sample :=
  ⟨List.pairwise_insertionSort (· ≤ ·) sample, List.perm_insertionSort (· ≤ ·) sample⟩

/-- The bounds: at least two, at the positions of the sorted sample. -/
theorem histogram_eq (sample : List V) (h2 : 2 ≤ sample.length) :
    ∃ h, histogram sample = some h ∧ h.length = min sample.length 251 ∧
      ∀ j, j < h.length → h[j]? = (sample.insertionSort (· ≤ ·))[j * (sample.length - 1) / (h.length - 1)]? := by
  have hlen : (sample.insertionSort (· ≤ ·)).length = sample.length := List.length_insertionSort _ _
  unfold histogram
  simp only [hlen, maxBuckets]
  rw [if_pos (by omega)]
  obtain ⟨l, hl, hll, hj⟩ := boundLoop_eq (sample.insertionSort (· ≤ ·)) (sample.length - 1) (min sample.length 251 - 1)
    (by omega) (by omega) (min sample.length 251) 0 0 0 (by omega) (by simp) (by simp)
  refine ⟨l, hl, hll, fun j hjl => ?_⟩
  have := hj j (by omega)
  rw [Nat.zero_add] at this
  rw [this, hll]

end Est
