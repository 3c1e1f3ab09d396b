import Verif.Op.GStore
import Mathlib.Data.List.Dedup

/-!
# Operators on the text: precedence, near, inclusion, overlap, alignment, identical coverage

Operators are modelled on node numbers; the annotation key of a match only matters for the reflexive overlap operator.  `none` is a
panic or an error of a graph storage.  Cost estimation is not modelled.
-/

/-- `RangeSpec` (graphannis/src/annis/db/aql/operators/mod.rs 3-7). -/
inductive RangeSpec where
  | bound (min max : Nat)
  | unbound

namespace RangeSpec

/-- `min_dist` (operators/mod.rs 17-22). -/
def minDist : RangeSpec → Nat
  | bound min _ => min
  | unbound => 1

/-- `max_dist` (operators/mod.rs 10-15). -/
def maxDist : RangeSpec → Bnd Nat
  | bound _ max => .included max
  | unbound => .unbounded

end RangeSpec

/-- The lists for all elements, one after the other (`flatten_ok`, `flat_map`, nested loops over fallible iterators). -/
def flatMapOpt {α β : Type} (f : α → Option (List β)) : List α → Option (List β)
  | [] => some []
  | x :: r =>
    match f x, flatMapOpt f r with
    | some a, some b => some (a ++ b)
    | _, _ => none

/-- `TokenHelper` (graphannis/src/annis/db/token_helper.rs 18-23).  `hasTok` is `has_value_for_item(TOKEN_KEY)`. -/
structure TokenHelper (N : Type) where
  hasTok : N → Bool
  left : GStore N
  right : GStore N
  cov : List (GStore N)

namespace TokenHelper

variable {N : Type}

/-- `has_outgoing_coverage_edges` (token_helper.rs 104-111). -/
def hasCov (n : N) : List (GStore N) → Option Bool
  | [] => some false
  | c :: r =>
    match c.hasOut n with
    | none => none
    | some true => some true
    | some false => hasCov n r

/-- `is_token` (token_helper.rs 94-102). -/
def isToken (h : TokenHelper N) (n : N) : Option Bool :=
  if h.hasTok n then (hasCov n h.cov).map fun b => !b else some false

/-- `right_token_for` (token_helper.rs 113-123). -/
def rightTokenFor (h : TokenHelper N) (n : N) : Option (Option N) :=
  match h.isToken n with
  | none => none
  | some true => some (some n)
  | some false => (h.right.out n).map fun l => l.head?

/-- `left_token_for` (token_helper.rs 125-135). -/
def leftTokenFor (h : TokenHelper N) (n : N) : Option (Option N) :=
  match h.isToken n with
  | none => none
  | some true => some (some n)
  | some false => (h.left.out n).map fun l => l.head?

/-- `left_right_token_for` (token_helper.rs 137-153). -/
def leftRightTokenFor (h : TokenHelper N) (n : N) : Option (Option N × Option N) :=
  match h.isToken n with
  | none => none
  | some true => some (some n, some n)
  | some false =>
    match h.left.out n, h.right.out n with
    | some l, some r => some (l.head?, r.head?)
    | _, _ => none

end TokenHelper

namespace TextOp

variable {N : Type}

/-! ## Precedence -/

/-- `Precedence::filter_match` (operators/precedence.rs 150-173). `seg` is `segmentation.is_some()`. -/
def precFilter (th : TokenHelper N) (order : GStore N) (seg : Bool) (spec : RangeSpec) (lhs rhs : N) : Option Bool :=
  if seg then order.isConnected lhs rhs spec.minDist spec.maxDist
  else
    match th.rightTokenFor lhs, th.leftTokenFor rhs with
    | some (some s), some (some e) => order.isConnected s e spec.minDist spec.maxDist
    | some _, some _ => some false
    | _, _ => none

/-- `Precedence::retrieve_matches` (precedence.rs 215-256).  `gs_left` is the LeftToken component of the token helper. -/
def precRetrieve (th : TokenHelper N) (order : GStore N) (seg : Bool) (spec : RangeSpec) (lhs : N) : Option (List N) :=
  match if seg then some (some lhs) else th.rightTokenFor lhs with
  | none => none
  | some none => some []
  | some (some s) =>
    match order.findConnected s spec.minDist spec.maxDist with
    | none => none
    | some ts => flatMapOpt (fun t => (th.left.inn t).map fun l => t :: l) ts

/-- `InversePrecedence::filter_match` (precedence.rs 277-300). -/
def invPrecFilter (th : TokenHelper N) (order : GStore N) (seg : Bool) (spec : RangeSpec) (lhs rhs : N) : Option Bool :=
  if seg then order.isConnected rhs lhs spec.minDist spec.maxDist
  else
    match th.leftTokenFor lhs, th.rightTokenFor rhs with
    | some (some s), some (some e) => order.isConnected e s spec.minDist spec.maxDist
    | some _, some _ => some false
    | _, _ => none

/-- `InversePrecedence::retrieve_matches` (precedence.rs 335-374). -/
def invPrecRetrieve (th : TokenHelper N) (order : GStore N) (seg : Bool) (spec : RangeSpec) (lhs : N) : Option (List N) :=
  match if seg then some (some lhs) else th.leftTokenFor lhs with
  | none => none
  | some none => some []
  | some (some s) =>
    match order.findConnectedInverse s spec.minDist spec.maxDist with
    | none => none
    | some ts => flatMapOpt (fun t => (th.right.inn t).map fun l => t :: l) ts

/-! ## Near -/

/-- `Near::filter_match` (operators/near.rs 126-165). -/
def nearFilter (th : TokenHelper N) (order : GStore N) (seg : Bool) (spec : RangeSpec) (lhs rhs : N) : Option Bool :=
  let check (sf ef sb eb : N) : Option Bool :=
    match order.isConnected sf ef spec.minDist spec.maxDist with
    | none => none
    | some true => some true
    | some false => order.isConnected eb sb spec.minDist spec.maxDist
  if seg then check lhs rhs lhs rhs
  else
    match th.rightTokenFor lhs, th.leftTokenFor rhs with
    | some (some sf), some (some ef) =>
      match th.leftTokenFor lhs, th.rightTokenFor rhs with
      | some (some sb), some (some eb) => check sf ef sb eb
      | some _, some _ => some false
      | _, _ => none
    | some _, some _ => some false
    | _, _ => none

/-- `Near::retrieve_matches` (near.rs 201-275).  The hash set of the code is a list without duplicates. -/
def nearRetrieve [DecidableEq N] (th : TokenHelper N) (order : GStore N) (seg : Bool) (spec : RangeSpec) (lhs : N) :
    Option (List N) :=
  match precRetrieve th order seg spec lhs, invPrecRetrieve th order seg spec lhs with
  | some f, some b => some (f ++ b).dedup
  | _, _ => none

/-! ## Inclusion -/

/-- `Inclusion::filter_match` (operators/inclusion.rs 97-121). -/
def inclFilter (th : TokenHelper N) (order : GStore N) (lhs rhs : N) : Option Bool :=
  match th.leftRightTokenFor lhs, th.leftRightTokenFor rhs with
  | some (some sl, some el), some (some sr, some er) =>
    match order.distance sl el with
    | none => none
    | some none => some false
    | some (some l) =>
      match order.isConnected sl sr 0 (.included l) with
      | none => none
      | some false => some false
      | some true => order.isConnected er el 0 (.included l)
  | some _, some _ => some false
  | _, _ => none

/-- The nodes for one token in `Inclusion::retrieve_matches` (inclusion.rs 177-222): the token and the left aligned nodes whose right
token is not behind the end. -/
def inclCandidates (th : TokenHelper N) (order : GStore N) (el : N) (l : Nat) (t : N) : Option (List N) :=
  match th.left.inn t with
  | none => none
  | some others =>
    (flatMapOpt (fun n =>
      match th.right.out n with
      | none => none
      | some [] => some []
      | some (e :: _) =>
        match order.isConnected e el 0 (.included l) with
        | none => none
        | some true => some [n]
        | some false => some []) others).map fun x => t :: x

/-- `Inclusion::retrieve_matches` (inclusion.rs 165-232). -/
def inclRetrieve (th : TokenHelper N) (order : GStore N) (lhs : N) : Option (List N) :=
  match th.leftRightTokenFor lhs with
  | some (some sl, some el) =>
    match order.distance sl el with
    | none => none
    | some none => some []
    | some (some l) =>
      match order.findConnected sl 0 (.included l) with
      | none => none
      | some ts => flatMapOpt (inclCandidates th order el l) ts
  | some _ => some []
  | none => none

/-! ## Overlap -/

/-- `Overlap::filter_match` (operators/overlap.rs 100-126). `same` is `lhs == rhs` for the matches (node and annotation key). -/
def overlapFilter (th : TokenHelper N) (order : GStore N) (reflexive same : Bool) (lhs rhs : N) : Option Bool :=
  if reflexive && same then some true
  else
    match th.leftTokenFor lhs, th.rightTokenFor lhs, th.leftTokenFor rhs, th.rightTokenFor rhs with
    | some (some sl), some (some el), some (some sr), some (some er) =>
      match order.distance sl er with
      | none => none
      | some none => some false
      | some (some _) => (order.distance sr el).map fun d => d.isSome
    | some _, some _, some _, some _ => some false
    | _, _, _, _ => none

/-- The nodes that are added for one covered token (overlap.rs 206-217). -/
def overlapToken (th : TokenHelper N) (t : N) : Option (List N) :=
  (flatMapOpt (fun c : GStore N => c.inn t) th.cov).map fun l => l ++ [t]

/-- `Overlap::retrieve_matches` (overlap.rs 173-226). The hash set of the code is a list without duplicates. -/
def overlapRetrieve [DecidableEq N] (th : TokenHelper N) (reflexive : Bool) (lhs : N) : Option (List N) :=
  match th.isToken lhs with
  | none => none
  | some tok =>
    (if tok && th.cov.isEmpty then some [lhs]
      else
        flatMapOpt (fun c : GStore N =>
          match if tok then some [lhs] else c.findConnected lhs 1 (.included 1) with
          | none => none
          | some ts => flatMapOpt (overlapToken th) ts) th.cov).map
      fun l => (if reflexive then lhs :: l else l).dedup

/-! ## Alignment and identical coverage -/

/-- `LeftAlignment::filter_match` (operators/leftalignment.rs 65-74). -/
def leftFilter [DecidableEq N] (th : TokenHelper N) (lhs rhs : N) : Option Bool :=
  match th.leftTokenFor lhs, th.leftTokenFor rhs with
  | some (some a), some (some b) => some (decide (a = b))
  | some _, some _ => some false
  | _, _ => none

/-- `LeftAlignment::retrieve_matches` (leftalignment.rs 104-131). -/
def leftRetrieve (th : TokenHelper N) (lhs : N) : Option (List N) :=
  match th.leftTokenFor lhs with
  | none => none
  | some none => some []
  | some (some t) => (th.left.inn t).map fun l => t :: l

/-- `RightAlignment::filter_match` (operators/rightalignment.rs 67-76). -/
def rightFilter [DecidableEq N] (th : TokenHelper N) (lhs rhs : N) : Option Bool :=
  match th.rightTokenFor lhs, th.rightTokenFor rhs with
  | some (some a), some (some b) => some (decide (a = b))
  | some _, some _ => some false
  | _, _ => none

/-- `RightAlignment::retrieve_matches` (rightalignment.rs 104-131). -/
def rightRetrieve (th : TokenHelper N) (lhs : N) : Option (List N) :=
  match th.rightTokenFor lhs with
  | none => none
  | some none => some []
  | some (some t) => (th.right.inn t).map fun l => t :: l

/-- `IdenticalCoverage::filter_match` (operators/identical_cov.rs 106-122). -/
def identFilter [DecidableEq N] (th : TokenHelper N) (lhs rhs : N) : Option Bool :=
  match th.leftTokenFor lhs, th.rightTokenFor lhs, th.leftTokenFor rhs, th.rightTokenFor rhs with
  | some (some sl), some (some el), some (some sr), some (some er) => some (decide (sl = sr) && decide (el = er))
  | some _, some _, some _, some _ => some false
  | _, _, _, _ => none

/-- `IdenticalCoverage::retrieve_matches` (identical_cov.rs 158-199). -/
def identRetrieve [DecidableEq N] (th : TokenHelper N) (lhs : N) : Option (List N) :=
  match th.leftTokenFor lhs, th.rightTokenFor lhs with
  | some (some a), some (some b) =>
    match th.left.inn a with
    | none => none
    | some cs =>
      (flatMapOpt (fun c =>
        match th.rightTokenFor c with
        | none => none
        | some (some e) => if b = e then some [c] else some []
        | some none => some []) cs).map fun l => if a = b then a :: l else l
  | some _, some _ => some []
  | _, _ => none

end TextOp
