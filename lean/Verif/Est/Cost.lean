import Verif.Est.Examples
import Verif.Est.Stats
import Verif.Op.Edge
import Mathlib.Tactic.Ring

/-!
# Estimated sizes of operators and plans (C90)

The selectivities of the operators (graphannis/src/annis/db/aql/operators/*.rs) and the costs of the nodes of an execution plan
(graphannis/src/annis/db/exec/mod.rs, filter.rs, indexjoin.rs, nestedloop.rs).  All subtractions and sums of machine numbers are
checked: `none` is an overflow, which stops the program when it is built with overflow checks and wraps around otherwise.

Property theorems are named `C90_…`; failing witnesses contain `_fails`, restricted statements end in `_partial`.
-/

set_option linter.unusedSectionVars false
set_option linter.unusedSimpArgs false

namespace Est

/-! ### The reachable distance -/

/-- The larger distance of a range as a number (precedence.rs 175-179, near.rs 169-173, edge_op.rs 376-380). -/
def maxDist (r : RangeSpec) : Option Nat := maxDistance r.maxDist

/-- The number of reachable tokens for `.` (precedence.rs 180-182). -/
def precReach (depth : Nat) (r : RangeSpec) : Option Nat := (maxDist r).map fun m => min m depth - r.minDist + 1

/-- The same for the inverse operator (precedence.rs 319-320): the subtraction is not saturating. -/
def invPrecReach (depth : Nat) (r : RangeSpec) : Option Nat :=
  (maxDist r).bind fun m => if r.minDist ≤ min m depth then some (min m depth - r.minDist + 1) else none

/-- The same for `^` (near.rs 174-175). -/
def nearReach (depth : Nat) (r : RangeSpec) : Option Nat :=
  (maxDist r).bind fun m => if r.minDist ≤ min m depth then some (2 * (min m depth - r.minDist + 1)) else none

/-- The smallest path length of an edge operator: `std::cmp::max(0, min_dist - 1)` (edge_op.rs 391), the subtraction comes first. -/
def edgeMinPath (r : RangeSpec) : Option Nat := if 1 ≤ r.minDist then some (r.minDist - 1) else none

/-- C90: the estimation of `.` never overflows, at least one token is reachable. -/
theorem C90_precedence (depth : Nat) (r : RangeSpec) : ∃ k, precReach depth r = some k ∧ 1 ≤ k ∧ k ≤ depth + 1 := by
  unfold precReach maxDist
  cases r with
  | unbound =>
    refine ⟨_, rfl, Nat.succ_le_succ (Nat.zero_le _), ?_⟩
    show min usizeMax depth - 1 + 1 ≤ depth + 1
    omega
  | bound mi ma =>
    refine ⟨_, rfl, Nat.succ_le_succ (Nat.zero_le _), ?_⟩
    show min ma depth - mi + 1 ≤ depth + 1
    omega

/-- C90: the inverse operator and `^` overflow exactly when the smallest distance of the range is larger than its largest distance or than
the longest text; otherwise the numbers of reachable tokens agree. -/
theorem C90_inverse_iff (depth : Nat) (r : RangeSpec) :
    (invPrecReach depth r = none ↔ (∃ m, maxDist r = some m ∧ (m < r.minDist ∨ depth < r.minDist))) ∧
    (nearReach depth r = none ↔ invPrecReach depth r = none) ∧
    (∀ k, invPrecReach depth r = some k → precReach depth r = some k ∧ nearReach depth r = some (2 * k)) := by
  obtain ⟨m, hm⟩ : ∃ m, maxDist r = some m := by
    unfold maxDist
    cases r with
    | unbound => exact ⟨_, rfl⟩
    | bound mi ma => exact ⟨_, rfl⟩
  unfold invPrecReach nearReach precReach
  simp only [hm, Option.bind_some, Option.map_some, Option.some.injEq, exists_eq_left']
  by_cases h : r.minDist ≤ min m depth
  · simp only [if_pos h]
    refine ⟨?_, by simp, ?_⟩
    · constructor
      · simp
      · intro h'; omega
    · rintro k ⟨⟩
      exact ⟨rfl, rfl⟩
  · simp only [if_neg h]
    refine ⟨?_, by simp, by simp⟩
    simp only [true_iff]
    omega

/-- C90 (restricted to ranges which some text can satisfy): the estimation of the inverse operator and of `^` does not overflow. -/
theorem C90_near_partial (depth : Nat) (r : RangeSpec) (h1 : r.minDist ≤ depth) (h2 : ∀ m, maxDist r = some m → r.minDist ≤ m) :
    (invPrecReach depth r).isSome ∧ (nearReach depth r).isSome := by
  obtain ⟨h3, h4, -⟩ := C90_inverse_iff depth r
  have hne : invPrecReach depth r ≠ none := by
    rw [Ne, h3]
    rintro ⟨m, hm, h5 | h5⟩
    · have := h2 m hm; omega
    · omega
  refine ⟨Option.isSome_iff_ne_none.2 hne, Option.isSome_iff_ne_none.2 fun h => hne (h4.1 h)⟩

/-- C90 fails: the range of `tok ^5,10 tok` in a corpus whose longest text has three tokens, and any range with a smaller second number. -/
theorem C90_near_fails :
    let order : List (Adj.Op NodeID64 Nat Nat) := [.addEdge 1 2, .addEdge 2 3]
    (Adj.run order).stats.maxDepth = 2 ∧ nearReach 2 (.bound 5 10) = none ∧ invPrecReach 2 (.bound 5 10) = none ∧
      precReach 2 (.bound 5 10) = some 1 ∧ nearReach 100 (.bound 10 5) = none := by decide

/-- C90 (restricted to ranges which begin with at least one): the estimation of an edge operator does not overflow. -/
theorem C90_edge_partial (r : RangeSpec) (h : 1 ≤ r.minDist) : edgeMinPath r = some (r.minDist - 1) := if_pos h

/-- C90 fails: `>0,2` is a valid operator. -/
theorem C90_edge_fails : edgeMinPath (.bound 0 2) = none := by decide

/-! ### Costs of plans -/

/-- `EstimationType` (annis/operator.rs 122-130).  A selectivity is a floating-point number: finite, infinite (division by zero nodes) or
not a number (zero divided by zero). -/
inductive EstType
  | sel (s : ℚ)
  | inf
  | nan
  | min

/-- `(num_tuples * selectivity * edge_sel).round() as usize` (exec/mod.rs 42-49, filter.rs 17-24).  The edge selectivity is one for
operators without edge annotations. -/
def applySel (R : Rounding) (n : Nat) (est : EstType) (edge : ℚ) (minimum : Nat) : Nat :=
  match est with
  | .sel s => roundNat (R.fl (R.fl (R.fl n * s) * edge))
  | .inf => if 0 < n ∧ 0 < edge then 2 ^ 64 - 1 else 0
  | .nan => 0
  | .min => minimum

/-- `CostEstimate` (exec/mod.rs 13-21). -/
structure Cost where
  output : Nat
  sum : Nat
  step : Nat
deriving DecidableEq, Repr

/-- A number which fits `usize`. -/
def fits (n : Nat) : Option Nat := if n < 2 ^ 64 then some n else none

/-- `processed_func` of the joins (indexjoin.rs 49-72, nestedloop.rs 41-49). -/
def processed (R : Rounding) (index : Bool) (est : EstType) (l r : Nat) : Option Nat :=
  if index then
    match est with
    | .sel s => some (roundNat (R.fl (R.fl l + R.fl (R.fl (s * R.fl r) * R.fl l))))
    | .inf => some (2 ^ 64 - 1)
    | .nan => some 0
    | .min => some l
  else
    (fits (l * r)).bind fun c => fits (Nat.min l r + c)

/-- The cost of a join (exec/mod.rs 36-55, 114-129). -/
def joinCost (R : Rounding) (index : Bool) (est : EstType) (edge : ℚ) (l r : Cost) : Option Cost :=
  (match est with
    | .min => some (Nat.min l.output r.output)
    | _ => (fits (l.output * r.output)).map fun n => applySel R n est edge 0).bind fun out =>
  (processed R index est l.output r.output).bind fun step =>
  (fits (step + l.sum)).bind fun s => (fits (s + r.sum)).map fun s => ⟨Nat.max out 1, s, step⟩

/-- The cost of a filter (filter.rs 14-40, 50-56, 94-100). -/
def filterCost (R : Rounding) (est : EstType) (edge : ℚ) (c : Cost) : Option Cost :=
  (fits (c.sum + c.step)).map fun s => ⟨Nat.max (applySel R c.output est edge c.output) 1, s, c.step⟩

/-- A plan with the estimated sizes of the searches (at least one, nodesearch.rs 655-657) and the estimations of its operators. -/
inductive Plan
  | leaf (n : Nat)
  | filter (est : EstType) (edge : ℚ) (p : Plan)
  | join (index : Bool) (est : EstType) (edge : ℚ) (l r : Plan)

/-- The cost of a plan. -/
def Plan.cost (R : Rounding) : Plan → Option Cost
  | .leaf n => some ⟨n, 0, 0⟩
  | .filter est edge p => (p.cost R).bind fun c => filterCost R est edge c
  | .join index est edge l r => (l.cost R).bind fun a => (r.cost R).bind fun b => joinCost R index est edge a b

/-! ### Specification -/

/-- The size of the cross product of all searches. -/
def Plan.product : Plan → Nat
  | .leaf n => n
  | .filter _ _ p => p.product
  | .join _ _ _ l r => l.product * r.product

/-- The number of operators. -/
def Plan.operators : Plan → Nat
  | .leaf _ => 0
  | .filter _ _ p => p.operators + 1
  | .join _ _ _ l r => l.operators + r.operators + 1

/-- Every search is estimated to have at least one result. -/
def Plan.Positive : Plan → Prop
  | .leaf n => 1 ≤ n
  | .filter _ _ p => p.Positive
  | .join _ _ _ l r => l.Positive ∧ r.Positive

/-- A selectivity between zero and one. -/
def EstType.Prob : EstType → Prop
  | .sel s => 0 ≤ s ∧ s ≤ 1
  | .inf => False
  | .nan => False
  | .min => True

/-- All selectivities of a plan are between zero and one. -/
def Plan.Prob : Plan → Prop
  | .leaf _ => True
  | .filter est edge p => est.Prob ∧ 0 ≤ edge ∧ edge ≤ 1 ∧ p.Prob
  | .join _ est edge l r => est.Prob ∧ 0 ≤ edge ∧ edge ≤ 1 ∧ l.Prob ∧ r.Prob

theorem roundNat_lt (x : ℚ) : roundNat x < 2 ^ 64 := by
  unfold roundNat
  omega

theorem applySel_lt (R : Rounding) (n : Nat) (est : EstType) (edge : ℚ) (m : Nat) (hm : m < 2 ^ 64) :
    applySel R n est edge m < 2 ^ 64 := by
  unfold applySel
  split
  · exact roundNat_lt _
  · split <;> decide
  · decide
  · exact hm

/-- C90: whatever the selectivities are (also infinite, negative or not a number), every estimated size of a plan is at least one and
fits a machine number. -/
theorem C90_output_positive (R : Rounding) (p : Plan) (hp : p.Positive) (hl : p.product < 2 ^ 64) (c : Cost) (h : p.cost R = some c) :
    1 ≤ c.output ∧ c.output < 2 ^ 64 := by
  induction p generalizing c with
  | leaf n =>
    simp only [Plan.cost, Option.some.injEq] at h
    subst h
    exact ⟨hp, hl⟩
  | filter est edge p ih =>
    simp only [Plan.cost, Option.bind_eq_some_iff] at h
    obtain ⟨c', hc', h⟩ := h
    unfold filterCost at h
    rw [Option.map_eq_some_iff] at h
    obtain ⟨s, _, rfl⟩ := h
    have hi := ih hp hl c' hc'
    have := applySel_lt R c'.output est edge c'.output hi.2
    exact ⟨Nat.le_max_right _ _, Nat.max_lt.2 ⟨this, by decide⟩⟩
  | join index est edge l r ihl ihr =>
    simp only [Plan.cost, Option.bind_eq_some_iff] at h
    obtain ⟨a, ha, b, hb, h⟩ := h
    unfold joinCost at h
    simp only [Option.bind_eq_some_iff, Option.map_eq_some_iff] at h
    obtain ⟨out, hout, step, _, _, _, s, _, rfl⟩ := h
    have hpos : ∀ q : Plan, q.Positive → 1 ≤ q.product := by
      intro q
      induction q with
      | leaf n => exact id
      | filter _ _ q ih => exact ih
      | join _ _ _ x y ihx ihy => rintro ⟨h1, h2⟩; exact Nat.mul_pos (ihx h1) (ihy h2)
    have hll : l.product < 2 ^ 64 := lt_of_le_of_lt (Nat.le_mul_of_pos_right _ (hpos r hp.2)) hl
    refine ⟨Nat.le_max_right _ _, Nat.max_lt.2 ⟨?_, by decide⟩⟩
    cases est with
    | min =>
      simp only [Option.some.injEq] at hout
      rw [← hout]
      exact lt_of_le_of_lt (Nat.min_le_left _ _) (ihl hp.1 hll a ha).2
    | sel s =>
      simp only [Option.map_eq_some_iff] at hout
      obtain ⟨n, _, rfl⟩ := hout
      exact applySel_lt R _ _ _ _ (by decide)
    | inf =>
      simp only [Option.map_eq_some_iff] at hout
      obtain ⟨n, _, rfl⟩ := hout
      exact applySel_lt R _ _ _ _ (by decide)
    | nan =>
      simp only [Option.map_eq_some_iff] at hout
      obtain ⟨n, _, rfl⟩ := hout
      exact applySel_lt R _ _ _ _ (by decide)

theorem applySel_le (R : Rounding) (n : Nat) (hn : n < 2 ^ 53) (est : EstType) (he : est.Prob) (edge : ℚ) (h1 : edge ≤ 1)
    (m : Nat) (hm : m ≤ n) : applySel R n est edge m ≤ n := by
  unfold applySel
  cases est with
  | sel s =>
    simp only
    have e := R.nat n hn
    have a1 : R.fl (R.fl n * s) ≤ n := by
      conv_rhs => rw [← e]
      apply R.mono
      rw [e]
      exact mul_le_of_le_one_right (by positivity) he.2
    have a0 : 0 ≤ R.fl (R.fl n * s) := R.nonneg (mul_nonneg (R.nonneg (by positivity)) he.1)
    have a2 : R.fl (R.fl (R.fl n * s) * edge) ≤ n := by
      conv_rhs => rw [← e]
      apply R.mono
      calc R.fl (R.fl n * s) * edge ≤ R.fl (R.fl n * s) * 1 := mul_le_mul_of_nonneg_left h1 a0
        _ ≤ n := by rw [mul_one]; exact a1
    exact (roundNat_mono a2).trans (roundNat_nat n hn).le
  | inf => exact absurd he (by simp [EstType.Prob])
  | nan => exact absurd he (by simp [EstType.Prob])
  | min => exact hm

theorem processed_le (R : Rounding) (index : Bool) (est : EstType) (he : est.Prob) (l r P : Nat) (hl : 1 ≤ l) (hr : 1 ≤ r)
    (hP : l * r ≤ P) (hP' : P < 2 ^ 52) : ∃ s, processed R index est l r = some s ∧ s ≤ 2 * P := by
  have hlP : l ≤ P := (Nat.le_mul_of_pos_right l hr).trans hP
  have hrP : r ≤ P := (Nat.le_mul_of_pos_left r hl).trans hP
  unfold processed
  cases index with
  | true =>
    simp only [if_true]
    cases est with
    | sel s =>
      refine ⟨_, rfl, ?_⟩
      have el := R.nat l (by omega)
      have er := R.nat r (by omega)
      have eP : R.fl ((2 * P : Nat) : ℚ) = ((2 * P : Nat) : ℚ) := R.nat _ (by omega)
      have a1 : R.fl (s * R.fl r) ≤ r := by
        conv_rhs => rw [← er]
        apply R.mono
        rw [er]
        exact mul_le_of_le_one_left (by positivity) he.2
      have a2 : R.fl (R.fl (s * R.fl r) * R.fl l) ≤ P := by
        have eP' := R.nat P (by omega)
        rw [← eP']
        apply R.mono
        rw [el]
        calc R.fl (s * R.fl r) * l ≤ r * l := mul_le_mul_of_nonneg_right a1 (by positivity)
          _ ≤ P := by
            have : r * l ≤ P := by rw [Nat.mul_comm]; exact hP
            exact_mod_cast this
      have a3 : R.fl (R.fl l + R.fl (R.fl (s * R.fl r) * R.fl l)) ≤ ((2 * P : Nat) : ℚ) := by
        rw [← eP]
        apply R.mono
        have : R.fl l ≤ P := by rw [el]; exact_mod_cast hlP
        push_cast
        linarith
      exact (roundNat_mono a3).trans (roundNat_nat _ (by omega)).le
    | inf => exact absurd he (by simp [EstType.Prob])
    | nan => exact absurd he (by simp [EstType.Prob])
    | min => exact ⟨l, rfl, by omega⟩
  | false =>
    simp only [Bool.false_eq_true, if_false]
    have hm : Nat.min l r ≤ l := Nat.min_le_left _ _
    unfold fits
    rw [if_pos (by omega), Option.bind_some, if_pos (by omega)]
    exact ⟨_, rfl, by omega⟩

theorem product_pos (p : Plan) (hp : p.Positive) : 1 ≤ p.product := by
  induction p with
  | leaf n => exact hp
  | filter _ _ p ih => exact ih hp
  | join _ _ _ l r ihl ihr => exact Nat.mul_pos (ihl hp.1) (ihr hp.2)

/-- C90 (restricted to selectivities between zero and one, and to searches whose cross product is not too large): the costs of a plan never
overflow and no estimated size is larger than the cross product of the searches. -/
theorem C90_plan_partial (R : Rounding) (p : Plan) (hp : p.Positive) (hs : p.Prob) (hP : p.product < 2 ^ 52)
    (hk : 2 * p.product * (p.operators + 1) < 2 ^ 64) :
    ∃ c, p.cost R = some c ∧ 1 ≤ c.output ∧ c.output ≤ p.product ∧ c.step ≤ 2 * p.product ∧ c.sum ≤ 2 * p.product * p.operators := by
  induction p with
  | leaf n => exact ⟨_, rfl, hp, Nat.le_refl _, Nat.zero_le _, Nat.zero_le _⟩
  | filter est edge p ih =>
    obtain ⟨he, h0, h1, hs⟩ := hs
    simp only [Plan.product, Plan.operators] at *
    have hkk : 2 * p.product * (p.operators + 1) ≤ 2 * p.product * (p.operators + 1 + 1) := Nat.mul_le_mul_left _ (by omega)
    obtain ⟨c, hc, h2, h3, h4, h5⟩ := ih hp hs hP (by omega)
    have hsum : c.sum + c.step ≤ 2 * p.product * (p.operators + 1) := by rw [Nat.mul_add, Nat.mul_one]; omega
    refine ⟨⟨Nat.max (applySel R c.output est edge c.output) 1, c.sum + c.step, c.step⟩, ?_, Nat.le_max_right _ _, ?_, h4, hsum⟩
    · simp only [Plan.cost, hc, Option.bind_some, filterCost, fits]
      rw [if_pos (by omega)]; rfl
    · exact Nat.max_le.2 ⟨(applySel_le R c.output (by omega) est he edge h1 _ (Nat.le_refl _)).trans h3, by omega⟩
  | join index est edge l r ihl ihr =>
    obtain ⟨he, h0, h1, hsl, hsr⟩ := hs
    obtain ⟨hpl, hpr⟩ := hp
    simp only [Plan.product, Plan.operators] at *
    have hl1 := product_pos l hpl
    have hr1 := product_pos r hpr
    have hlP : l.product ≤ l.product * r.product := Nat.le_mul_of_pos_right _ hr1
    have hrP : r.product ≤ l.product * r.product := Nat.le_mul_of_pos_left _ hl1
    generalize hPe : l.product * r.product = P at *
    have hkl : 2 * l.product * (l.operators + 1) ≤ 2 * P * (l.operators + r.operators + 1 + 1) :=
      Nat.mul_le_mul (by omega) (by omega)
    have hkr : 2 * r.product * (r.operators + 1) ≤ 2 * P * (l.operators + r.operators + 1 + 1) :=
      Nat.mul_le_mul (by omega) (by omega)
    obtain ⟨a, ha, a1, a2, a3, a4⟩ := ihl hpl hsl (by omega) (by omega)
    obtain ⟨b, hb, b1, b2, b3, b4⟩ := ihr hpr hsr (by omega) (by omega)
    have hab : a.output * b.output ≤ P := by rw [← hPe]; exact Nat.mul_le_mul a2 b2
    obtain ⟨st, hst, hst'⟩ := processed_le R index est he a.output b.output P a1 b1 hab hP
    have al : a.sum ≤ 2 * P * l.operators := a4.trans (Nat.mul_le_mul_right _ (by omega))
    have bl : b.sum ≤ 2 * P * r.operators := b4.trans (Nat.mul_le_mul_right _ (by omega))
    have hexp : 2 * P * (l.operators + r.operators + 1) = 2 * P * l.operators + 2 * P * r.operators + 2 * P := by ring
    have hexp2 : 2 * P * (l.operators + r.operators + 1 + 1) = 2 * P * (l.operators + r.operators + 1) + 2 * P := by ring
    obtain ⟨out, hout, hout'⟩ : ∃ out, (match est with
        | .min => some (Nat.min a.output b.output)
        | _ => (fits (a.output * b.output)).map fun n => applySel R n est edge 0) = some out ∧ out ≤ P := by
      cases est with
      | min =>
        refine ⟨_, rfl, (Nat.min_le_left _ _).trans (a2.trans hlP)⟩
      | inf => exact absurd he (by simp [EstType.Prob])
      | nan => exact absurd he (by simp [EstType.Prob])
      | sel s =>
        refine ⟨applySel R (a.output * b.output) (.sel s) edge 0, ?_, ?_⟩
        · simp only [fits]; rw [if_pos (by omega)]; rfl
        · exact (applySel_le R _ (by omega) (.sel s) he edge h1 _ (Nat.zero_le _)).trans hab
    refine ⟨⟨Nat.max out 1, st + a.sum + b.sum, st⟩, ?_, Nat.le_max_right _ _, Nat.max_le.2 ⟨hout', by omega⟩, hst', by
      show st + a.sum + b.sum ≤ _; omega⟩
    simp only [Plan.cost, ha, hb, Option.bind_some, joinCost, hout, hst]
    simp only [fits]
    rw [if_pos (by omega), Option.bind_some, if_pos (by omega), Option.map_some]

/-- Four searches of the same size and operators which exclude nothing. -/
def fourSearches (n : Nat) : Plan :=
  .join false (.sel 1) 1 (.join false (.sel 1) 1 (.leaf n) (.leaf n)) (.join false (.sel 1) 1 (.leaf n) (.leaf n))

theorem fourSearches_cost (R : Rounding) (n : Nat) (h1 : 1 ≤ n) (hn : n * n < 2 ^ 52) (h : 2 ^ 64 ≤ (n * n) * (n * n)) :
    (fourSearches n).cost R = none := by
  have hj : ∃ x y, joinCost R false (.sel 1) 1 ⟨n, 0, 0⟩ ⟨n, 0, 0⟩ = some ⟨n * n, x, y⟩ := by
    obtain ⟨st, h2, h3⟩ := processed_le R false (.sel 1) (by simp [EstType.Prob]) n n (n * n) h1 h1 (Nat.le_refl _) hn
    have hs : applySel R (n * n) (.sel 1) 1 0 = n * n := by
      have e := R.nat (n * n) (by omega)
      simp only [applySel, mul_one, e]
      exact roundNat_nat (n * n) (by omega)
    refine ⟨st, st, ?_⟩
    unfold joinCost
    have hf : fits (n * n) = some (n * n) := by unfold fits; rw [if_pos (by omega)]
    have hf2 : fits st = some st := by unfold fits; rw [if_pos (by omega)]
    have hm : Nat.max (n * n) 1 = n * n := Nat.max_eq_left (Nat.mul_pos h1 h1)
    simp only [hf, h2, Option.map_some, Option.bind_some, hs, Nat.add_zero, hf2, hm]
  obtain ⟨x, y, hj⟩ := hj
  unfold fourSearches
  simp only [Plan.cost, Option.bind_some, hj]
  have hnone : fits ((n * n) * (n * n)) = none := by unfold fits; rw [if_neg (by omega)]
  simp only [joinCost, hnone, Option.map_none, Option.bind_none]

/-- C90 fails: four searches with 2^17 results each and operators which exclude nothing. -/
theorem C90_plan_fails : (fourSearches (2 ^ 17)).Positive ∧ (fourSearches (2 ^ 17)).Prob ∧
    ∀ R : Rounding, (fourSearches (2 ^ 17)).cost R = none := by
  refine ⟨?_, by simp [fourSearches, Plan.Prob, EstType.Prob], fun R => ?_⟩
  · simp [fourSearches, Plan.Positive]
  · exact fourSearches_cost R _ (by norm_num) (by norm_num) (by norm_num)

/-- C90 fails: the estimated size can be larger than the cross product: the selectivity of `.1,2` in a text with three tokens is 2 / (3 / 2). -/
theorem C90_output_bound_fails :
    precReach 2 (.bound 1 2) = some 2 ∧
    ∃ c, (Plan.join true (.sel (2 / (3 / 2))) 1 (.leaf 3) (.leaf 3)).cost exact = some c ∧
      (Plan.join true (.sel (2 / (3 / 2))) 1 (.leaf 3) (.leaf 3)).product = 9 ∧ c.output = 12 := by
  refine ⟨by decide, ⟨12, 15, 15⟩, by decide +kernel, by decide, rfl⟩

/-- C90 non-vacuity: a plan with a join, a filter and a nested loop. -/
theorem C90_nonvacuous :
    let p : Plan := .filter (.sel (1 / 3)) 1 (.join false .min 1 (.join true (.sel (1 / 10)) (1 / 2) (.leaf 100) (.leaf 20)) (.leaf 7))
    p.Positive ∧ p.Prob ∧ p.product = 14000 ∧ p.operators = 3 ∧ 2 * p.product * (p.operators + 1) < 2 ^ 64 ∧
      p.cost exact = some ⟨2, 1714, 707⟩ := by
  refine ⟨by simp [Plan.Positive], ?_, by decide, by decide, by decide, by decide +kernel⟩
  simp only [Plan.Prob, EstType.Prob]
  norm_num

end Est
