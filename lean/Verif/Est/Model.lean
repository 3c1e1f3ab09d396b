import Mathlib.Data.Rat.Floor
import Mathlib.Algebra.Order.Floor.Defs
import Mathlib.Data.List.Sort
import Mathlib.Tactic.Linarith
import Mathlib.Tactic.Positivity
import Mathlib.Tactic.FieldSimp

/-!
# Estimating the number of annotations with histograms (core/src/annostorage/inmemory.rs, ondisk.rs) (C88)

Values are elements of a linear order (`String` with its byte order).  Random choices are arguments.
-/

set_option linter.unusedSectionVars false
set_option linter.unusedSimpArgs false

namespace Est

variable {V : Type} [LinearOrder V]

/-- Floating-point numbers as rounded rationals: what holds for `f64` with rounding to nearest.  Whole numbers below 2^53 are exact. -/
structure Rounding where
  fl : ℚ → ℚ
  mono : Monotone fl
  nat : ∀ n : Nat, n < 2 ^ 53 → fl n = n
  err : ∀ x : ℚ, 1 / 2 ^ 100 ≤ x → x ≤ 2 ^ 100 → |fl x - x| ≤ x / 2 ^ 53

/-- `f64::round` followed by `as usize` for a number which is not negative; too large numbers become `usize::MAX`. -/
def roundNat (x : ℚ) : Nat := min ⌊x + 1 / 2⌋₊ (2 ^ 64 - 1)

/-- The limits of `calculate_statistics` (inmemory.rs 911-912, ondisk.rs 1061-1062). -/
def maxBuckets : Nat := 250
def maxSampled : Nat := 2500

/-- The loop which fills the bounds of a histogram (inmemory.rs 963-974, ondisk.rs 1097-1109): `k` bounds are missing.  `none`: the
index is out of range. -/
def boundLoop (vals : List V) (delta deltaFraction q : Nat) : Nat → Nat → Nat → Option (List V)
  | 0, _, _ => some []
  | k + 1, pos, frac =>
    match vals[pos]? with
    | none => none
    | some v =>
      (if q ≤ frac + deltaFraction then boundLoop vals delta deltaFraction q k (pos + delta + 1) (frac + deltaFraction - q)
        else boundLoop vals delta deltaFraction q k (pos + delta) (frac + deltaFraction)).map (v :: ·)

/-- The bounds for the sampled values (inmemory.rs 941-976, ondisk.rs 1083-1110). -/
def histogram (sample : List V) : Option (List V) :=
  let s := sample.insertionSort (· ≤ ·)
  let b := min s.length (maxBuckets + 1)
  if 2 ≤ b then boundLoop s ((s.length - 1) / (b - 1)) ((s.length - 1) % (b - 1)) (b - 1) b 0 0
  else some []

/-- What is known about one annotation key: the number of annotations (`anno_key_sizes`) and the bounds (`histogram_bounds`), if the
statistics were calculated after the key was added. -/
structure KeyStat (V : Type) where
  size : Nat
  hist : Option (List V)

/-- The number of buckets of one key (inmemory.rs 719-720). -/
def KeyStat.buckets (k : KeyStat V) : Nat := k.hist.elim 0 fun h => h.length - 1

/-- The number of buckets which overlap a range of values (inmemory.rs 722-731). -/
def KeyStat.matches (lo hi : V) (k : KeyStat V) : Nat :=
  k.hist.elim 0 fun h => (h.zip h.tail).countP fun p => decide (p.1 ≤ hi) && decide (lo ≤ p.2)

/-- `guess_max_count` (inmemory.rs 691-745, ondisk.rs 846-895) for the qualified keys. -/
def guessMaxCount (R : Rounding) (lo hi : V) (keys : List (KeyStat V)) : Nat :=
  let total := (keys.map KeyStat.size).sum
  let buckets := (keys.map KeyStat.buckets).sum
  let ms := (keys.map (KeyStat.matches lo hi)).sum
  if 0 < buckets then roundNat (R.fl (R.fl (R.fl ms / R.fl buckets) * R.fl total)) else 0

/-- The last step of `guess_max_count_regex` (inmemory.rs 811): whatever was guessed is bounded by the number of annotations.  The guess
itself depends on the literals of the regular expression and on random samples, it is an argument. -/
def guessRegex (guess : Option Nat) (total : Nat) : Nat := guess.elim 0 fun g => min g total

/-- `guess_most_frequent_value` (inmemory.rs 817-858): `order` are the sampled values with their numbers in the order of the iteration
over a hash map. -/
def mostFrequent (order : List (V × Nat)) : Option V :=
  match order with
  | [] => none
  | p :: r => some ((r.foldl (fun m e => if m.2 ≤ e.2 then e else m) p).1)

/-! ### Specification -/

namespace Spec

/-- The sample is a part of the values (the same value may occur several times) and as large as possible. -/
def Sampled (vals sample : List V) : Prop := sample.Subperm vals ∧ sample.length = min vals.length maxSampled

/-- The number of values in a range. -/
def inRange (lo hi : V) (vals : List V) : Nat := vals.countP fun v => decide (lo ≤ v) && decide (v ≤ hi)

end Spec

end Est
