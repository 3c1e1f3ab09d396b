import Mathlib.Order.Nat

/-!
# Range bounds
-/

/-- `std::ops::Bound`. -/
inductive Bnd (K : Type)
  | included (k : K)
  | excluded (k : K)
  | unbounded
deriving DecidableEq, Repr

namespace Bnd
variable {K : Type} [LinearOrder K]

/-- `k` respects the lower bound. -/
def aboveB : Bnd K → K → Bool
  | .included s, k => s ≤ k
  | .excluded s, k => s < k
  | .unbounded, _ => true

/-- `k` respects the upper bound. -/
def belowB : Bnd K → K → Bool
  | .included e, k => k ≤ e
  | .excluded e, k => k < e
  | .unbounded, _ => true
end Bnd
