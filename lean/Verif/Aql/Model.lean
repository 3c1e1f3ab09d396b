import Verif.Util.OMap
import Verif.Op.Text
import Mathlib.Logic.Function.Basic

/-!
# From the parsed query to conjunctions

`graphannis/src/annis/db/aql/mod.rs` 107-559, `aql/disjunction.rs` and the first part of `aql/conjunction.rs` (229-424): the tree the
parser gives is split into alternatives, node searches get their numbers and operators are attached to nodes. Left out: the parser, the
function `simplify_via_laws` of the crate `boolean_expression` (theorems are about trees in disjunctive normal form), and positions of
errors and nodes in the query text (see C40).
-/

namespace Aql

/-- Names of variables. In the code they are strings: the number of a node in decimal digits, or a name, which starts with a letter
(parser.lalrpop `VARIABLE_DEF`), so that both kinds are different. -/
inductive Var
  | num (n : Nat)
  | name (s : List Char)
deriving DecidableEq

/-- `boolean_expression::Expr`. -/
inductive Expr (L : Type)
  | term (l : L)
  | const (b : Bool)
  | not (a : Expr L)
  | and (a b : Expr L)
  | or (a b : Expr L)
deriving DecidableEq

/-- `find_all_children_for_and` (aql/mod.rs 435-446). -/
def andChildren {L : Type} : Expr L → List L
  | .term l => [l]
  | .and a b => andChildren a ++ andChildren b
  | _ => []

/-- `find_all_children_for_or` (aql/mod.rs 448-459). -/
def orChildren {L : Type} : Expr L → List (Expr L)
  | .or a b => orChildren a ++ orChildren b
  | e => [e]

/-- One alternative of a disjunction (aql/mod.rs 471-480). -/
def alternativeOf {L : Type} : Expr L → Option (List L)
  | .and a b => some (andChildren (.and a b))
  | .term t => some [t]
  | _ => none

/-- `get_alternatives_from_dnf` (aql/mod.rs 461-485). -/
def alternatives {L : Type} : Expr L → List (List L)
  | .and a b => [andChildren (.and a b)]
  | .or a b => (orChildren (.or a b)).filterMap alternativeOf
  | .term t => [[t]]
  | _ => []

/-- `ast::NodeRef` (aql/ast.rs 85-89). -/
inductive Ref
  | id (n : Nat)
  | name (s : List Char)
deriving DecidableEq

/-- The string for a reference (aql/mod.rs 123-126, 155-158, 166-169). -/
def Ref.var : Ref → Var
  | .id n => .num n
  | .name s => .name s

deriving instance DecidableEq for RangeSpec

/-- `ast::BinaryOpSpec` (aql/ast.rs 91-105) as far as this code looks into it: dominance and pointing (`join`), precedence and near
with their range (`dist`), all others. -/
inductive BinSpec (O : Type)
  | join (o : O)
  | dist (o : O) (range : RangeSpec)
  | other (o : O)
deriving DecidableEq

/-- `ast::Operand` (aql/ast.rs 59-68). Of the position only the start is kept. -/
inductive Operand (S : Type)
  | ref (r : Ref)
  | lit (spec : S) (pos : Nat) (vname : Option (List Char)) (optional : Bool)

/-- `ast::Literal` (aql/ast.rs 33-57). The position of a node search is always given by the parser. -/
inductive Literal (S O U : Type)
  | node (spec : S) (pos : Nat) (vname : Option (List Char)) (optional : Bool)
  | bin (lhs : Operand S) (op : BinSpec O) (rhs : Operand S) (negated : Bool)
  | un (r : Ref) (op : U)
  | legacyMeta (spec : S)

/-- `NodeSearchSpecEntry` (conjunction.rs 63-68). -/
structure NodeEntry (S : Type) where
  var : Var
  spec : S
  optional : Bool
deriving DecidableEq

/-- The result of `make_binary_operator_spec` (aql/mod.rs 560-591). The searches of the operands are only kept by value comparisons. -/
structure Made (S O : Type) where
  op : BinSpec O
  left : S
  right : S
deriving DecidableEq

/-- Binary operators of a conjunction. -/
inductive BOp (S O : Type)
  | plain (o : Made S O)
  | negated (o : Made S O)
  | ident
  | partOf
deriving DecidableEq

/-- Unary operators of a conjunction. -/
inductive UOp (S O U : Type)
  | user (u : U)
  | nonExisting (o : Made S O) (target : S) (targetLeft : Bool)
deriving DecidableEq

/-- `BinaryOperatorSpecEntry` (conjunction.rs 30-47). -/
structure BinEntry (S O : Type) where
  op : BOp S O
  left : Nat
  right : Nat
  globalReflexivity : Bool
deriving DecidableEq

/-- `UnaryOperatorSpecEntry` (conjunction.rs 49-53). -/
structure UnEntry (S O U : Type) where
  op : UOp S O U
  idx : Nat
deriving DecidableEq

/-- `Conjunction` (conjunction.rs 70-98). -/
structure Conj (S O U : Type) where
  nodes : List (NodeEntry S)
  bins : List (BinEntry S O)
  uns : List (UnEntry S O U)
  vars : Var → Option Nat
  out : List Var
  offset : Nat

inductive Err
  | notFound (v : Var)
  | bothOptional
  | optional
  | legacyMeta
deriving DecidableEq

variable {S O U : Type}

namespace Conj

/-- `with_offset` (conjunction.rs 245-256). -/
def empty (offset : Nat) : Conj S O U := ⟨[], [], [], fun _ => none, [], offset⟩

/-- `add_node_from_query` (conjunction.rs 286-315): the new conjunction and the name of the variable. -/
def addNode (q : Conj S O U) (spec : S) (vname : Option (List Char)) (inOutput optional : Bool) : Conj S O U × Var :=
  let v := match vname with
    | some s => .name s
    | none => .num (q.offset + q.nodes.length + 1)
  ({ q with
      vars := Function.update q.vars v (some q.nodes.length)
      nodes := q.nodes ++ [⟨v, spec, optional⟩]
      out := if inOutput && !optional then v :: q.out else q.out }, v)

/-- `resolve_variable_pos` (conjunction.rs 376-388). -/
def resolvePos (q : Conj S O U) (v : Var) : Except Err Nat :=
  match q.vars v with
  | some p => .ok (p + q.offset)
  | none => .error (.notFound v)

/-- `resolve_variable` (conjunction.rs 406-422). -/
def resolve (q : Conj S O U) (v : Var) : Except Err (NodeEntry S) :=
  match q.resolvePos v with
  | .error e => .error e
  | .ok idx =>
    if q.offset ≤ idx then
      match q.nodes[idx - q.offset]? with
      | some n => .ok n
      | none => .error (.notFound v)
    else .error (.notFound v)

/-- `add_unary_operator_from_query` (conjunction.rs 317-335). -/
def addUnary (q : Conj S O U) (op : UOp S O U) (v : Var) : Except Err (Conj S O U) :=
  match q.vars v with
  | some p => .ok { q with uns := q.uns ++ [⟨op, p⟩] }
  | none => .error (.notFound v)

/-- `add_operator_from_query` and `add_operator` (conjunction.rs 337-368). -/
def addOperator (q : Conj S O U) (op : BOp S O) (l r : Var) (globalReflexivity : Bool) : Except Err (Conj S O U) :=
  match q.resolvePos l with
  | .error e => .error e
  | .ok left =>
    match q.resolvePos r with
    | .error e => .error e
    | .ok right => .ok { q with bins := q.bins ++ [⟨op, left, right, globalReflexivity⟩] }

/-- `get_variable_by_node_nr` (conjunction.rs 401-404). -/
def varByNr (q : Conj S O U) (n : Nat) : Option Var :=
  if q.offset ≤ n then (q.nodes[n - q.offset]?).map NodeEntry.var else none

/-- `is_included_in_output` (conjunction.rs 393-395). -/
def inOutput (q : Conj S O U) (v : Var) : Bool := decide (v ∈ q.out)

end Conj

/-- The information kept for a position: `PosToNodeMap` (aql/mod.rs 282). -/
abbrev PosMap (S : Type) := OMap Nat (S × Option (List Char) × Bool)

/-- `entry(pos.start).or_insert_with` for an operand (aql/mod.rs 309-333). -/
def addOperand (m : PosMap S) : Operand S → PosMap S
  | .ref _ => m
  | .lit spec pos vname optional =>
    match m.get pos with
    | some _ => m
    | none => m.insert pos (spec, vname, optional)

/-- `calculate_node_positions` (aql/mod.rs 285-352). -/
def nodePositions (quirks : Bool) : List (Literal S O U) → PosMap S → Except Err (PosMap S)
  | [], m => .ok m
  | .node spec pos vname optional :: r, m => nodePositions quirks r (m.insert pos (spec, vname, optional))
  | .bin lhs _ rhs _ :: r, m => nodePositions quirks r (addOperand (addOperand m lhs) rhs)
  | .un _ _ :: r, m => nodePositions quirks r m
  | .legacyMeta _ :: r, m => if quirks then nodePositions quirks r m else .error .legacyMeta

/-- `add_node_specs_by_start` (aql/mod.rs 354-378); the map is iterated by increasing position. -/
def addNodes : PosMap S → Conj S O U → OMap Nat Var → Conj S O U × OMap Nat Var
  | [], q, ids => (q, ids)
  | (pos, spec, vname, optional) :: r, q, ids =>
    let (q, v) := q.addNode spec vname true optional
    addNodes r q (ids.insert pos v)

/-- The unary operators of the query (aql/mod.rs 121-136). -/
def addUnaries : List (Literal S O U) → Conj S O U → Except Err (Conj S O U)
  | [], q => .ok q
  | .un r op :: ls, q =>
    match q.addUnary (.user op) r.var with
    | .error e => .error e
    | .ok q => addUnaries ls q
  | _ :: ls, q => addUnaries ls q

/-- The variable of an operand (aql/mod.rs 150-172). -/
def operandVar (q : Conj S O U) (ids : OMap Nat Var) : Operand S → Conj S O U × OMap Nat Var × Var
  | .ref r => (q, ids, r.var)
  | .lit spec pos _ _ =>
    match ids.get pos with
    | some v => (q, ids, v)
    | none =>
      let (q, v) := q.addNode spec none true false
      (q, ids.insert pos v, v)

/-- The changes of the operator in quirks mode (aql/mod.rs 191-210). -/
def quirksOp : BinSpec O → BinSpec O
  | .dist o .unbound => .dist o (.bound 1 50)
  | o => o

/-- The counters of joins (aql/mod.rs 181-190). -/
def countJoin (counts : Var → Nat) (op : BinSpec O) (l r : Var) : Var → Nat :=
  match op with
  | .join _ =>
    let c := Function.update counts l (counts l + 1)
    Function.update c r (c r + 1)
  | _ => counts

/-- What is added for a binary operator (aql/mod.rs 213-258). -/
def addBinary (q : Conj S O U) (op : BinSpec O) (negated quirks : Bool) (l r : Var) (nl nr : NodeEntry S) : Except Err (Conj S O U) :=
  let made : Made S O := ⟨op, nl.spec, nr.spec⟩
  if negated then
    if !nl.optional && !nr.optional then q.addOperator (.negated made) l r !quirks
    else if nl.optional && nr.optional then .error .bothOptional
    else if nl.optional then q.addUnary (.nonExisting made nl.spec true) nr.var
    else q.addUnary (.nonExisting made nr.spec false) nl.var
  else if nl.optional || nr.optional then .error .optional
  else q.addOperator (.plain made) l r !quirks

/-- The binary operators of the query (aql/mod.rs 138-260). -/
def addBinaries (quirks : Bool) : List (Literal S O U) → Conj S O U → OMap Nat Var → (Var → Nat) →
    Except Err (Conj S O U × OMap Nat Var × (Var → Nat))
  | [], q, ids, counts => .ok (q, ids, counts)
  | .bin lhs op rhs negated :: ls, q, ids, counts =>
    let (q, ids, l) := operandVar q ids lhs
    let (q, ids, r) := operandVar q ids rhs
    match q.resolve l with
    | .error e => .error e
    | .ok nl =>
      match q.resolve r with
      | .error e => .error e
      | .ok nr =>
        match addBinary q (if quirks then quirksOp op else op) negated quirks l r nl nr with
        | .error e => .error e
        | .ok q => addBinaries quirks ls q ids (if quirks then countJoin counts op l r else counts)
  | _ :: ls, q, ids, counts => addBinaries quirks ls q ids counts

/-- The additional nodes for one variable in quirks mode (aql/mod.rs 267-276): `n` is the number of nodes to add. -/
def addCopies (v : Var) : Nat → Conj S O U → Except Err (Conj S O U)
  | 0, q => .ok q
  | n + 1, q =>
    match q.resolve v with
    | .error _ => addCopies v n q
    | .ok node =>
      let (q, w) := q.addNode node.spec none true false
      match q.addOperator .ident v w false with
      | .error e => .error e
      | .ok q => addCopies v n q

/-- All additional nodes (aql/mod.rs 263-277). -/
def addAllCopies (counts : Var → Nat) : List (Nat × Var) → Conj S O U → Except Err (Conj S O U)
  | [], q => .ok q
  | (_, v) :: r, q =>
    match addCopies v (counts v - 1) q with
    | .error e => .error e
    | .ok q => addAllCopies counts r q

/-- `map_conjunction` (aql/mod.rs 107-280). -/
def mapConjunction (c : List (Literal S O U)) (offset : Nat) (quirks : Bool) : Except Err (Conj S O U) :=
  match nodePositions quirks c [] with
  | .error e => .error e
  | .ok m =>
    let (q, ids) := addNodes m (Conj.empty offset) []
    match addUnaries c q with
    | .error e => .error e
    | .ok q =>
      match addBinaries quirks c q ids (fun _ => 0) with
      | .error e => .error e
      | .ok (q, ids, counts) => if quirks then addAllCopies counts ids q else .ok q

/-- `add_legacy_metadata_constraints` (aql/mod.rs 380-433); `doc` is the search for `annis:doc`. -/
def addMeta (doc : S) (firstNode : Option Var) : List S → Option Var → Conj S O U → Except Err (Conj S O U)
  | [], _, q => .ok q
  | spec :: r, firstMeta, q =>
    let (q, v) := q.addNode spec none false false
    match firstMeta with
    | some f =>
      match q.addOperator .ident f v true with
      | .error e => .error e
      | .ok q => addMeta doc firstNode r firstMeta q
    | none =>
      match firstNode with
      | none => addMeta doc firstNode r none q
      | some n =>
        match q.addOperator .partOf n v true with
        | .error e => .error e
        | .ok q =>
          let (q, d) := q.addNode doc none false false
          match q.addOperator .ident v d true with
          | .error e => .error e
          | .ok q => addMeta doc firstNode r (some v) q

/-- The metadata searches of the query (aql/mod.rs 505-514). -/
def metaSearches (alts : List (List (Literal S O U))) : List S :=
  alts.flatMap fun c => c.filterMap fun l => match l with
    | .legacyMeta spec => some spec
    | _ => none

/-- The loop over the alternatives (aql/mod.rs 516-535). -/
def mapAlternatives (quirks : Bool) (doc : S) (metas : List S) : List (List (Literal S O U)) → Nat → Except Err (List (Conj S O U))
  | [], _ => .ok []
  | c :: r, offset =>
    match mapConjunction c offset quirks with
    | .error e => .error e
    | .ok q =>
      match (if quirks then addMeta doc (q.varByNr offset) metas none q else .ok q) with
      | .error e => .error e
      | .ok q =>
        match mapAlternatives quirks doc metas r (offset + q.nodes.length) with
        | .error e => .error e
        | .ok qs => .ok (q :: qs)

/-- `parse` (aql/mod.rs 495-559) for a tree in disjunctive normal form. -/
def parse (quirks : Bool) (doc : S) (e : Expr (Literal S O U)) : Except Err (List (Conj S O U)) :=
  let alts := alternatives e
  mapAlternatives quirks doc (if quirks then metaSearches alts else []) alts 0

/-! ## Numbers of nodes in a disjunction -/

/-- `Disjunction::get_variable_by_node_nr` (disjunction.rs 41-48). -/
def varByNr (d : List (Conj S O U)) (n : Nat) : Option Var := d.findSome? fun q => q.varByNr n

/-- `Disjunction::get_variable_pos` (disjunction.rs 30-37). -/
def variablePos (d : List (Conj S O U)) (v : Var) : Option Nat :=
  d.findSome? fun q => match q.resolvePos v with
    | .ok p => some p
    | .error _ => none

/-- `Disjunction::is_included_in_output` (disjunction.rs 50-57). -/
def inOutput (d : List (Conj S O U)) (v : Var) : Bool := d.any fun q => q.inOutput v

/-- Whether a column is part of the output (corpusstorage.rs 1917-1922, aql/mod.rs 84-93). -/
def columnShown (d : List (Conj S O U)) (n : Nat) : Bool :=
  match varByNr d n with
  | some v => inOutput d v
  | none => false

/-- The part of a result row that is shown (corpusstorage.rs 1915-1924, aql/mod.rs 80-94). -/
def shown {M : Type} (d : List (Conj S O U)) (row : List M) : List M :=
  (row.zipIdx.filter fun p => columnShown d p.2).map Prod.fst

/-- The columns a frequency table is made of (corpusstorage.rs 2292-2310): definitions with unknown variables are skipped. -/
def freqColumns (d : List (Conj S O U)) (defs : List Var) : List Nat := defs.filterMap (variablePos d)

/-- The matches that are looked at for a row (corpusstorage.rs 2319-2333); `none` gives an empty value. -/
def freqMatches {M : Type} (d : List (Conj S O U)) (defs : List Var) (row : List M) : List (Option M) :=
  (freqColumns d defs).map fun p => row[p]?

end Aql
