import Verif.Op.OverlapProps

/-!
# Model of the operators on edges, values and arity

`graphannis/src/annis/db/aql/operators/{edge_op,equal_value,arity}.rs`.  Matches are node numbers where the annotation key does not
matter.  Cost estimation (edge_op.rs 59-116, 355-475, equal_value.rs 139-163) is not modelled: it only decides which plan is chosen.
-/

/-- `EdgeAnnoSearchSpec` (graphannis/src/annis/operator.rs).  A regular expression is a predicate, `none` if it does not compile. -/
inductive EdgeAnnoSpec (S W : Type) where
  | exact (ns : Option S) (name : S) (val : Option W)
  | notExact (ns : Option S) (name : S) (val : W)
  | regex (ns : Option S) (name : S) (re : Option (W → Bool))
  | notRegex (ns : Option S) (name : S) (re : Option (W → Bool))

/-- A graph storage with the annotations of its edges (`get_anno_storage().get_annotations_for_item`). -/
structure EdgeStore (N S W : Type) where
  g : GStore N
  annos : N → N → Option (List (AnnoKey S × W))

namespace EdgeOp

variable {N S W : Type} [DecidableEq S] [DecidableEq W]

/-- The checks of the name and namespace (edge_op.rs 144-153, repeated in all branches). -/
def keyFits (ns : Option S) (name : S) (k : AnnoKey S) : Bool :=
  decide (name = k.name) && (match ns with | none => true | some n => decide (n = k.ns))

/-- `check_edge_annotation` (edge_op.rs 133-239).  The loops return at the first annotation that passes all checks. -/
def checkAnno (spec : Option (EdgeAnnoSpec S W)) (g : EdgeStore N S W) (s t : N) : Option Bool :=
  match spec with
  | none => some true
  | some (.exact ns name val) =>
    (g.annos s t).map fun l => l.any fun a => keyFits ns name a.1 && (match val with | none => true | some v => decide (v = a.2))
  | some (.notExact ns name val) => (g.annos s t).map fun l => l.any fun a => keyFits ns name a.1 && !decide (val = a.2)
  | some (.regex ns name re) =>
    match re with
    | none => some false
    | some re => (g.annos s t).map fun l => l.any fun a => keyFits ns name a.1 && re a.2
  | some (.notRegex ns name re) =>
    match re with
    | none => some false
    | some re => (g.annos s t).map fun l => l.any fun a => keyFits ns name a.1 && !re a.2

/-- `BaseEdgeOp::filter_match` (edge_op.rs 286-318). -/
def filter (dist : RangeSpec) (spec : Option (EdgeAnnoSpec S W)) (inverse : Bool) (lhs rhs : N) : List (EdgeStore N S W) → Option Bool
  | [] => some false
  | e :: r =>
    let s := if inverse then rhs else lhs
    let t := if inverse then lhs else rhs
    match e.g.isConnected s t dist.minDist dist.maxDist with
    | none => none
    | some false => filter dist spec inverse lhs rhs r
    | some true =>
      match checkAnno spec e s t with
      | none => none
      | some true => some true
      | some false => filter dist spec inverse lhs rhs r

/-- The check of one candidate in `retrieve_matches` (edge_op.rs 487-508). -/
def keepCandidate (spec : Option (EdgeAnnoSpec S W)) (inverse : Bool) (lhs : N) (e : EdgeStore N S W) (c : N) : Option (List N) :=
  match if inverse then checkAnno spec e c lhs else checkAnno spec e lhs c with
  | none => none
  | some true => some [c]
  | some false => some []

/-- The nodes of one component (edge_op.rs 484-533 and 541-597). -/
def candidates (dist : RangeSpec) (spec : Option (EdgeAnnoSpec S W)) (inverse : Bool) (lhs : N) (e : EdgeStore N S W) : Option (List N) :=
  match if inverse then e.g.findConnectedInverse lhs dist.minDist dist.maxDist
    else e.g.findConnected lhs dist.minDist dist.maxDist with
  | none => none
  | some l =>
    flatMapOpt (keepCandidate spec inverse lhs e) l

/-- `Vec::dedup`: removes repeated neighbours. -/
def dedupAdj [DecidableEq N] : List N → List N
  | [] => []
  | x :: r =>
    match dedupAdj r with
    | [] => [x]
    | y :: r' => if x = y then y :: r' else x :: y :: r'

/-- `BaseEdgeOp::retrieve_matches` (edge_op.rs 477-609).  `sort_unstable` of node numbers gives the sorted list (equal numbers cannot be
distinguished). -/
def retrieve [LinearOrder N] (dist : RangeSpec) (spec : Option (EdgeAnnoSpec S W)) (inverse : Bool) (gs : List (EdgeStore N S W)) (lhs : N) :
    Option (List N) :=
  match gs with
  | [e] => candidates dist spec inverse lhs e
  | gs => (flatMapOpt (candidates dist spec inverse lhs) gs).map fun l => dedupAdj (l.mergeSort (fun a b => decide (a ≤ b)))

end EdgeOp

/-! ## Arity -/

/-- `ArityOperator::filter_match` (operators/arity.rs 66-86).  The hash set of the code is a list without duplicates. -/
def arityFilter {N : Type} [DecidableEq N] (gs : List (GStore N)) (range : RangeSpec) (n : N) : Option Bool :=
  (flatMapOpt (fun g : GStore N => g.out n) gs).map fun l =>
    let num := l.dedup.length
    if range.minDist ≤ num then
      match range.maxDist with
      | .unbounded => true
      | .included m => decide (num ≤ m)
      | .excluded m => decide (num < m)
    else false

/-! ## Comparison of values -/

/-- The node search of an operand (`NodeSearchSpec`), as far as `EqualValue` distinguishes it (equal_value.rs 76-119). -/
inductive ValueSpec (S : Type) where
  | anno (ns : Option S) (name : S)
  | token
  | anyNode

namespace EqualValue

variable {T S V : Type} [LinearOrder T] [LinearOrder S] [OrderBot S] [LinearOrder V]

/-- `value_for_match` (equal_value.rs 76-97). -/
def value (s : AnnoStore T S V) (tokKey : AnnoKey S) (spec : ValueSpec S) (m : T × AnnoKey S) : Option V :=
  match spec with
  | .anno _ _ => s.getValue m.1 m.2
  | .token => s.getValue m.1 tokKey
  | .anyNode => none

/-- `anno_def_for_spec` (equal_value.rs 99-119). -/
def annoDef (tokKey : AnnoKey S) : ValueSpec S → Option (Option S × S)
  | .anno ns name => some (ns, name)
  | .token => some (some tokKey.ns, tokKey.name)
  | .anyNode => none

/-- `EqualValue::filter_match` (equal_value.rs 123-137). -/
def filter (s : AnnoStore T S V) (tokKey : AnnoKey S) (left right : ValueSpec S) (negated : Bool) (lhs rhs : T × AnnoKey S) : Bool :=
  match value s tokKey left lhs, value s tokKey right rhs with
  | some a, some b => if negated then !decide (a = b) else decide (a = b)
  | _, _ => false

/-- `EqualValue::retrieve_matches` (equal_value.rs 182-203). -/
def retrieve (s : AnnoStore T S V) (tokKey : AnnoKey S) (left right : ValueSpec S) (negated : Bool) (lhs : T × AnnoKey S) :
    List (T × AnnoKey S) :=
  match value s tokKey left lhs with
  | none => []
  | some v =>
    match annoDef tokKey right with
    | none => []
    | some (ns, name) => s.exactSearch ns name (if negated then .notSome v else .some v)

/-- `EqualValue::get_inverse_operator` (equal_value.rs 165-178): the operands are not exchanged. -/
def inverseSpecs (left right : ValueSpec S) : ValueSpec S × ValueSpec S := (left, right)

end EqualValue
