import Verif.NodeSearch.Optional
import Verif.Op.EdgeProps
import Verif.Query.JoinOrder

/-!
# From node searches and operators of a query to its results

This puts the models of the node searches (C66), of the operators (C45 to C48, C68) and of the plans (C61) together. Operators on a
graph are turned into the operators of a plan, with their inverse operators and the retrieval of index joins.

Node searches are used as they are here; the replacement by `optimize_node_search_by_operator` (C67) is in Verif/Whole/Replace.lean.

Left out: the comparison of values (`C47_equal_value_fails`, `C98_equal_value_fails`).
-/

namespace Whole

/-- The result of a graph storage as the result of an operator; `none` is an error or a panic. -/
def lift {A E : Type} : Option A → Except (Fail E) A
  | some a => .ok a
  | none => .error .panic

/-- The operators between two nodes, with the decisions that depend on statistics: whether there is an inverse operator, and an inverse of
the inverse operator (precedence.rs 193-211, edge_op.rs 324-352). `edge` stands for `BaseEdgeOp` with the storages of its components
(edge_op.rs 30-57), and so for the dominance, pointing and part-of operators. `segPrecedence` and `segNear` are precedence and nearness with
the storage of a segmentation (precedence.rs 103-122, near.rs 80-110). -/
inductive OpKind (T N V : Type)
  | precedence (dist : RangeSpec) (inv : Bool)
  | near (dist : RangeSpec)
  | segPrecedence (c : EdgeStore T N V) (dist : RangeSpec) (inv : Bool)
  | segNear (c : EdgeStore T N V) (dist : RangeSpec)
  | inclusion
  | overlap (reflexive : Bool)
  | leftAlignment
  | rightAlignment
  | identicalCoverage
  | identicalNode
  | edge (gs : List (EdgeStore T N V)) (dist : RangeSpec) (anno : Option (EdgeAnnoSpec N V)) (reflexive inv inv2 : Bool)
  | negated (op : OpKind T N V)

section
variable {T N V E : Type} [LinearOrder T] [LinearOrder N] [OrderBot N] [LinearOrder V]

/-- An operator that works on the nodes of the matches. -/
def nodeOp (filter : T → T → Option Bool) (reflexive : Bool) (retrieve : T → Option (List T)) : OpImpl T (AnnoKey N) E where
  base := ⟨fun a b => lift (filter a.node b.node), reflexive⟩
  retrieve := some fun a => lift (retrieve a.node)

/-- `create_operator` of the operators (`BinaryOperator::Index`, for negated operators `BinaryOperator::Base`). `is_reflexive` is `true`
(operator.rs 133-135) unless the operator says something else (inclusion.rs 120-122, overlap.rs 124-126, leftalignment.rs 77-79,
rightalignment.rs 79-81, identical_cov.rs 125-127, edge_op.rs 320-322, negated_op.rs 72-74). -/
def fwd (th : TokenHelper T) (order : GStore T) : OpKind T N V → OpImpl T (AnnoKey N) E
  | .precedence dist _ => nodeOp (TextOp.precFilter th order false dist) true (TextOp.precRetrieve th order false dist)
  | .near dist => nodeOp (TextOp.nearFilter th order false dist) true (TextOp.nearRetrieve th order false dist)
  | .segPrecedence c dist _ => nodeOp (TextOp.precFilter th c.g true dist) true (TextOp.precRetrieve th c.g true dist)
  | .segNear c dist => nodeOp (TextOp.nearFilter th c.g true dist) true (TextOp.nearRetrieve th c.g true dist)
  | .inclusion => nodeOp (TextOp.inclFilter th order) false (TextOp.inclRetrieve th order)
  | .overlap refl =>
    { base := ⟨fun a b => lift (TextOp.overlapFilter th order refl (decide (a = b)) a.node b.node), refl⟩
      retrieve := some fun a => lift (TextOp.overlapRetrieve th refl a.node) }
  | .leftAlignment => nodeOp (TextOp.leftFilter th) false (TextOp.leftRetrieve th)
  | .rightAlignment => nodeOp (TextOp.rightFilter th) false (TextOp.rightRetrieve th)
  | .identicalCoverage => nodeOp (TextOp.identFilter th) false (TextOp.identRetrieve th)
  | .identicalNode => NodeSearch.identOp (T := T)
  | .edge gs dist anno refl _ _ =>
    nodeOp (fun a b => EdgeOp.filter dist anno false a b gs) refl (EdgeOp.retrieve dist anno false gs)
  | .negated op => NodeSearch.negOp (fwd th order op)

/-- `get_inverse_operator`. The default is that there is none (operator.rs 137-142), which holds for inclusion and negated operators. -/
def inv (th : TokenHelper T) (order : GStore T) : OpKind T N V → Option (OpImpl T (AnnoKey N) E)
  | .precedence dist i =>
    if i then some (nodeOp (TextOp.invPrecFilter th order false dist) true (TextOp.invPrecRetrieve th order false dist)) else none
  | .segPrecedence c dist i =>
    if i then some (nodeOp (TextOp.invPrecFilter th c.g true dist) true (TextOp.invPrecRetrieve th c.g true dist)) else none
  | .edge gs dist anno refl i _ =>
    if i then some (nodeOp (fun a b => EdgeOp.filter dist anno true a b gs) refl (EdgeOp.retrieve dist anno true gs)) else none
  | .inclusion => none
  | .negated _ => none
  | q => some (fwd th order q)

/-- The inverse operator of the inverse operator. -/
def inv2 (th : TokenHelper T) (order : GStore T) : OpKind T N V → Option (OpImpl T (AnnoKey N) E)
  | .precedence dist i => if i then some (fwd (V := V) th order (.precedence dist i)) else none
  | .segPrecedence c dist i => if i then some (fwd th order (.segPrecedence c dist i)) else none
  | .edge gs dist anno refl i i2 => if i && i2 then some (fwd th order (.edge gs dist anno refl i i2)) else none
  | q => inv th order q

/-- An operator with the positions of its operands in the conjunction. -/
structure Bin (T N V : Type) where
  kind : OpKind T N V
  left : Nat
  right : Nat

/-- The operator in the plan (conjunction.rs 46-71, 720-748). -/
def Bin.toQ (th : TokenHelper T) (order : GStore T) (global : Bool) (b : Bin T N V) : QOp T (AnnoKey N) E where
  left := b.left
  right := b.right
  globalReflexivity := global
  fwd := fwd th order b.kind
  inv := inv th order b.kind
  inv2 := inv2 th order b.kind

/-- A node of the query: its search and, if there are operators with only this operand, their combined decision. -/
structure Node (T N V : Type) where
  spec : NsSpec N V
  keep : Option (SMatch T (AnnoKey N) → Bool)

/-- The matches of a node and the description of its search, which is lost with unary operators (conjunction.rs 616-718). -/
def Node.search (env : NsEnv N V) (g : NsGraph T N V) (nd : Node T N V) :
    Except NodeSearch.NsError (List (SMatch T (AnnoKey N)) × Option (NsDesc T (AnnoKey N) E)) :=
  match NodeSearch.fromSpec env g nd.spec with
  | .error e => .error e
  | .ok (rows, d) =>
    match nd.keep with
    | none => .ok (rows, some d)
    | some p => .ok (rows.filter p, none)

/-- The searches for all nodes that are not optional (conjunction.rs 844-851). -/
def searches (env : NsEnv N V) (g : NsGraph T N V) : List (Option (Node T N V)) →
    Except NodeSearch.NsError (List (Option (List (SMatch T (AnnoKey N)) × Option (NsDesc T (AnnoKey N) E))))
  | [] => .ok []
  | none :: r =>
    match searches env g r with
    | .error e => .error e
    | .ok l => .ok (none :: l)
  | some nd :: r =>
    match nd.search env g with
    | .error e => .error e
    | .ok x =>
      match searches env g r with
      | .error e => .error e
      | .ok l => .ok (some x :: l)

end
end Whole
