import Verif.Whole.Replace
import Verif.Parse.Props
import Verif.Query.Reorder
import Verif.Aql.Whole
import Mathlib.Data.List.Lex
import Mathlib.Data.Char

/-!
# From the text of a query to its rows

This puts the parser (C91 to C93), the translation to conjunctions (C69, C70), the node searches and operators (C98) and the execution plan
(C44, C61) together. What is new here is the way from the operators of the text to the operators on the graph and the handling of
alternatives that cannot be planned.

Left out: quirks mode; parentheses and the laws of `boolean_expression` (the theorems are about trees without parentheses); the
comparison of values (`Whole.C98_equal_value_fails`); errors of storages.
-/

namespace Answer

open Whole

/-- The empty string is the least one. -/
instance strBot : OrderBot Str where
  bot := []
  bot_le a := by
    cases a with
    | nil => exact le_refl _
    | cons x r => exact le_of_lt (List.nil_lt_cons x r)

/-- The components that operators look for: those of dominance and pointing with their names, the one for parts of corpora, and the
ones of segmentations by their names, components `Ordering/default_ns/name` (precedence.rs 103-122, near.rs 91-110). The rest is
for the replacement of node searches: source nodes and statistics of a component, the components of operators on tokens, and the estimated
number of matches of a search (nodesearch.rs, `desc.cost`). -/
structure Db (T : Type) where
  dominance : List (Str × EdgeStore T Str Str)
  pointing : List (Str × EdgeStore T Str Str)
  partOf : Option (EdgeStore T Str Str)
  segment : Str → Option (EdgeStore T Str Str)
  loaded : EdgeStore T Str Str → PocStore T
  tokenComps : Aql.BinSpec Parse.OpSpec → List (Option (PocStore T))
  cost : NsSpec Str Str → Option Nat

/-- `get_all_components(ctype, Some(name))` (core/src/graph/mod.rs 1086-1098) with the storages. -/
def named {T : Type} (comps : List (Str × EdgeStore T Str Str)) (name : Str) : List (EdgeStore T Str Str) :=
  (comps.filter fun p => decide (p.1 = name)).map Prod.snd

/-- `necessary_components` (edge_op.rs 625-632, 676-683, 726-737, identical_node.rs 15-20; negated_op.rs 24-29). -/
def Db.comps {T : Type} (db : Db T) : Aql.BinSpec Parse.OpSpec → List (Option (PocStore T))
  | .join (.dominance name _ _) => (named db.dominance name).map fun c => some (db.loaded c)
  | .join (.pointing name _ _) => (named db.pointing name).map fun c => some (db.loaded c)
  | .other (.partOf _) => [db.partOf.map db.loaded]
  | .other .identicalNode => []
  | op => db.tokenComps op

/-- The storages of the arity operator (arity.rs 34-55). -/
def Db.all {T : Type} (db : Db T) : List (GStore T) := (db.dominance ++ db.pointing).map fun p => p.2.g

/-- The annotation of an edge in the text with its compiled pattern (edge_op.rs 185-236). -/
def edgeSpec (env : NsEnv Str Str) : Parse.EdgeSpec → EdgeAnnoSpec Str Str
  | .exact ns name val => .exact ns name val
  | .notExact ns name val => .notExact ns name val
  | .regex ns name val => .regex ns name (env.compile val)
  | .notRegex ns name val => .notRegex ns name (env.compile val)

/-- `make_binary_operator_spec` (aql/mod.rs 560-591) and `create_operator` (edge_op.rs 634-656, 685-705, 739-768; precedence.rs 103-122; near.rs
91-110). `dec` are the decisions about inverse operators. `none`: the component for part-of operators or of a segmentation does not exist (an
error), or the operator is not modelled. -/
def kindOf {T : Type} (db : Db T) (env : NsEnv Str Str) (dec : Bool × Bool) : Aql.BinSpec Parse.OpSpec → Option (OpKind T Str Str)
  | .join (.dominance name dist anno) => some (.edge (named db.dominance name) dist (anno.map (edgeSpec env)) true dec.1 dec.2)
  | .join (.pointing name dist anno) => some (.edge (named db.pointing name) dist (anno.map (edgeSpec env)) true dec.1 dec.2)
  | .dist (.precedence none) range => some (.precedence range dec.1)
  | .dist (.near none) range => some (.near range)
  | .dist (.precedence (some seg)) range => (db.segment seg).map fun c => .segPrecedence c range dec.1
  | .dist (.near (some seg)) range => (db.segment seg).map fun c => .segNear c range
  | .other (.partOf dist) => db.partOf.map fun c => .edge [c] dist none false dec.1 dec.2
  | .other .overlap => some (.overlap false)
  | .other .identicalCoverage => some .identicalCoverage
  | .other .inclusion => some .inclusion
  | .other .leftAlignment => some .leftAlignment
  | .other .rightAlignment => some .rightAlignment
  | .other .identicalNode => some .identicalNode
  | _ => none

/-- All values if there is one at each place. -/
def allSome {α : Type} : List (Option α) → Option (List α)
  | [] => some []
  | none :: _ => none
  | some a :: r => (allSome r).map (a :: ·)

/-- A translated conjunction. -/
abbrev QConj := Aql.Conj (NsSpec Str Str) Parse.OpSpec RangeSpec

section
variable {T E : Type} [LinearOrder T] (env : NsEnv Str Str) (g : NsGraph T Str Str) (db : Db T) (th : TokenHelper T) (order : GStore T)

/-- The operator between two nodes of the conjunction; the offset is subtracted (conjunction.rs 720-752). -/
def binOf (dec : Bool × Bool) (offset : Nat) (b : Aql.BinEntry (NsSpec Str Str) Parse.OpSpec) : Option (Bin T Str Str) :=
  match b.op with
  | .plain m => (kindOf db env dec m.op).map fun k => ⟨k, b.left - offset, b.right - offset⟩
  | .negated m => (kindOf db env dec m.op).map fun k => ⟨.negated k, b.left - offset, b.right - offset⟩
  | .ident => some ⟨.identicalNode, b.left - offset, b.right - offset⟩
  | .partOf => db.partOf.map fun c => ⟨.edge [c] .unbound none false dec.1 dec.2, b.left - offset, b.right - offset⟩

/-- `necessary_components` of the operator. -/
def compsOf (b : Aql.BinEntry (NsSpec Str Str) Parse.OpSpec) : List (Option (PocStore T)) :=
  match b.op with
  | .plain m => db.comps m.op
  | .negated m => db.comps m.op
  | .ident => []
  | .partOf => db.comps (.other (.partOf .unbound))

/-- What `optimize_node_search_by_operator` looks at (conjunction.rs 551-614). -/
def sizes (q : QConj) : Sizes T where
  est n := q.nodes[n]?.bind fun nd => db.cost nd.spec
  comps i := match q.bins[i]? with
    | some b => compsOf db b
    | none => []

/-- All operators between two nodes. -/
def binsOf (dec : Nat → Bool × Bool) (q : QConj) : Option (List (Bin T Str Str)) :=
  allSome (q.bins.mapIdx fun i b => binOf env db (dec i) q.offset b)

/-- The filter of an operator on one node (conjunction.rs 852-870, arity.rs 34-55, non_existing.rs 89-127). -/
def unaryOf (dec : Bool × Bool) (u : Aql.UnEntry (NsSpec Str Str) Parse.OpSpec RangeSpec) :
    Option (Nat × (SMatch T (AnnoKey Str) → Except (Fail E) Bool)) :=
  match u.op with
  | .user range => some (u.idx, fun m => lift (arityFilter db.all range m.node))
  | .nonExisting made target left => (kindOf db env dec made.op).map fun k =>
      (u.idx, NodeSearch.nonExisting env g target left (fwd th order k) (inv th order k))

/-- All operators on one node. -/
def unariesOf (dec : Nat → Bool × Bool) (q : QConj) : Option (List (Nat × (SMatch T (AnnoKey Str) → Except (Fail E) Bool))) :=
  allSome (q.uns.mapIdx fun i u => unaryOf env g db th order (dec i) u)

/-- A filter accepts a match. An error would be an item of the results (exec/filter.rs 116-125), here it is like no match; the theorems are
about filters without errors (`C101_unary`). -/
def accepts (f : SMatch T (AnnoKey Str) → Except (Fail E) Bool) (m : SMatch T (AnnoKey Str)) : Bool :=
  match f m with
  | .ok b => b
  | .error _ => false

/-- The filters around the search for the node `i`. -/
def keepOf (us : List (Nat × (SMatch T (AnnoKey Str) → Except (Fail E) Bool))) (i : Nat) : Option (SMatch T (AnnoKey Str) → Bool) :=
  if us.any fun u => decide (u.1 = i) then some fun m => us.all fun u => !decide (u.1 = i) || accepts u.2 m else none

/-- The nodes that are searched for (conjunction.rs 844-870). -/
def nodesOf (us : List (Nat × (SMatch T (AnnoKey Str) → Except (Fail E) Bool))) (q : QConj) : List (Option (Node T Str Str)) :=
  q.nodes.mapIdx fun i n => if n.optional then none else some ⟨n.spec, keepOf us i⟩

/-- The operators on one node are on nodes that are searched for (otherwise `NoExecutionNode`, conjunction.rs 854-857). -/
def unariesOk (q : QConj) : Bool := q.uns.all fun u => (q.nodes[u.idx]?).any fun n => !n.optional

/-- `is_binding` (negated_op.rs 19-21, operator.rs 237-239). -/
def isBinding : Aql.BOp (NsSpec Str Str) Parse.OpSpec → Bool
  | .negated _ => false
  | _ => true

/-- What `check_components_connected` looks at (conjunction.rs 897-960). -/
def shape (q : QConj) : ConjShape := ⟨q.nodes.map (·.optional), q.offset, q.bins.map fun b => (b.left, b.right, isBinding b.op)⟩

/-- An operator that needs the part-of component or the component of a segmentation, and there is none: `BaseEdgeOp::new` (edge_op.rs 38-47),
`Precedence::new` (precedence.rs 109-116) and `Near::new` (near.rs 91-98) fail. -/
def lacks : Aql.BinSpec Parse.OpSpec → Bool
  | .other (.partOf _) => db.partOf.isNone
  | .dist (.precedence (some seg)) _ => (db.segment seg).isNone
  | .dist (.near (some seg)) _ => (db.segment seg).isNone
  | _ => false

/-- An operator of the conjunction needs a missing component. -/
def lacksAny (q : QConj) : Bool :=
  (q.bins.any fun b => match b.op with
    | .plain m => lacks db m.op | .negated m => lacks db m.op | .ident => false | .partOf => lacks db (.other (.partOf .unbound))) ||
  q.uns.any fun u => match u.op with | .user _ => false | .nonExisting made _ _ => lacks db made.op

/-- `reorder_match` (plan.rs 94-115) as an item of the iterator. -/
def placed (d : SMatch T (AnnoKey Str)) (e : Exec T (AnnoKey Str) E) (row : Row T (AnnoKey Str)) : Except (Fail E) (Row T (AnnoKey Str)) :=
  lift (reorderMatch d (inversePos e.pos) row)

/-- `make_exec_node` (conjunction.rs 962-974) for one alternative, as in `ExecutionPlan::from_disjunction` (plan.rs 27-92): the rows of its
plan in the order of the query nodes, or no plan because of an error that is not about the semantics of the query. Here these are a missing
component for part-of operators or segmentations and errors of node searches. A pattern that does not compile is an error about the semantics, but if there
are operators, one of them misses its operand before this error is looked at (conjunction.rs 757-764, 854-857, 884-887) and the error is
`NoComponentForNode` or `NoExecutionNode`. Node searches may be replaced (`PlannedAll`). The order of the operators is arbitrary (see
C95). -/
inductive AltRows (d : SMatch T (AnnoKey Str)) (q : QConj) : Option (List (Except (Fail E) (Row T (AnnoKey Str)))) → Prop
  | plan {dec decU us} {bins bins' : List (Bin T Str Str)} {S e} : checkConnected (shape q) = true →
      unariesOk q = true → unariesOf (E := E) env g db th order decU q = some us → binsOf env db dec q = some bins → bins'.Perm bins →
      PlannedAll env g (sizes db q) bins (nodesOf us q) S →
      MakePlan S (bins'.map (Bin.toQ th order true)) e →
      AltRows d q (some (e.rows.map (placed d e)))
  | failed {decU us err} : checkConnected (shape q) = true → unariesOf (E := E) env g db th order decU q = some us →
      searches (E := E) env g (nodesOf us q) = .error err → (err = .regex → q.bins ≠ [] ∨ q.uns ≠ []) → AltRows d q none
  | missing : checkConnected (shape q) = true → lacksAny db q = true → AltRows d q none

/-- `make_exec_node` gives an error about the semantics of the query: a node is not bound (conjunction.rs 945-955), or a pattern does not compile
and there are no operators (conjunction.rs 884-887). -/
def AltRefused (q : QConj) : Prop :=
  checkConnected (shape q) = false ∨
  (q.bins = [] ∧ q.uns = [] ∧ searches (E := E) env g (nodesOf (E := E) [] q) = .error .regex)

/-- The output of the iterator `ExecutionPlan` for the plans of the alternatives (plan.rs 27-92, 165-207); no plan at all gives no
results. -/
def Output (plans : List (List (Except (Fail E) (Row T (AnnoKey Str))))) (out : List (Except (Fail E) (Row T (AnnoKey Str)))) : Prop :=
  match plans with
  | [p] => Runs planNextProxy p out
  | ps => Runs planNextMulti (ps, []) out

/-- The results of a query: the text is parsed and translated, the alternatives are planned, and the plan is iterated. -/
inductive Answers (doc : NsSpec Str Str) (d : SMatch T (AnnoKey Str)) (text : Str) : List (Except (Fail E) (Row T (AnnoKey Str))) → Prop
  | mk {e qs alts out} : Parse.parseQuery text = .ok e → Aql.parse false doc e = .ok qs →
      List.Forall₂ (AltRows env g db th order d) qs alts → Output (alts.filterMap id) out → Answers doc d text out

/-- The query ends with an error about its semantics: the text is not accepted, or an alternative has such an error (plan.rs 68-73). -/
def Refused (doc : NsSpec Str Str) (text : Str) : Prop :=
  ∀ e, Parse.parseQuery text = .ok e → ∀ qs, Aql.parse false doc e = .ok qs → ∃ q ∈ qs, AltRefused (E := E) env g q

end
end Answer
