import Verif.Exec.Parallel
import Verif.Util.OMap

/-!
# Conjunctions, join order and execution plans

`graphannis/src/annis/db/aql/conjunction.rs` and `graphannis/src/annis/db/plan.rs`.

Costs only decide between alternatives (which operand of a nested loop is the outer one, if the operands of an operator are switched,
which operator order is used); here all decisions are allowed. Timeouts are left out.
-/

section
variable {N K E : Type} [DecidableEq N] [DecidableEq K]

/-- `update_components_for_nodes` (conjunction.rs 116-137). -/
def updateComponents (m : OMap Nat Nat) (src dst : Nat) : OMap Nat Nat :=
  if src = dst then m else (m.filterMap fun p => if p.2 = src then some p.1 else none).foldl (fun m n => m.insert n dst) m

/-- What the connection check looks at: which nodes are optional, the offset of the node numbers and the operands of the operators (global
node numbers) with `is_binding`. -/
structure ConjShape where
  optional : List Bool
  offset : Nat
  ops : List (Nat × Nat × Bool)

/-- The global numbers of the nodes that are not optional (conjunction.rs 901-911). -/
def ConjShape.nodes (c : ConjShape) : List Nat :=
  c.optional.zipIdx.filterMap fun p => if p.1 then none else some (c.offset + p.2)

/-- The start of the connection check: each node is its own component (conjunction.rs 900-911). -/
def ConjShape.initComponents (c : ConjShape) : OMap Nat Nat := c.nodes.foldl (fun m n => m.insert n n) []

/-- Merging the components of the operands of a binding operator (conjunction.rs 913-935). -/
def mergeOp (m : OMap Nat Nat) (o : Nat × Nat × Bool) : OMap Nat Nat :=
  if o.2.2 then
    match m.get o.1, m.get o.2.1 with
    | some cl, some cr => updateComponents (updateComponents m cl cl) cr cl
    | _, _ => m
  else m

/-- `check_components_connected` (conjunction.rs 897-960); `false` is the error "variable not bound". -/
def checkConnected (c : ConjShape) : Bool :=
  match c.ops.foldl mergeOp c.initComponents with
  | [] => true
  | p :: rest => rest.all fun q => p.2 = q.2

/-! ## Operators and execution nodes -/

/-- One implementation of an operator: filter function and, if it can be used in an index join, retrieval
(`BinaryOperator::Index`, annis/operator.rs 149-154). -/
structure OpImpl (N K E : Type) where
  base : BinOp N K E
  retrieve : Option (SMatch N K → Except (Fail E) (List N))

/-- An operator of the conjunction. `inv` is the inverse operator (if there is one), `inv2` the inverse of the inverse. The operands are
given as positions in the conjunction (the offset is already subtracted, conjunction.rs 750-752). -/
structure QOp (N K E : Type) where
  left : Nat
  right : Nat
  globalReflexivity : Bool
  fwd : OpImpl N K E
  inv : Option (OpImpl N K E)
  inv2 : Option (OpImpl N K E)

/-- `NodeSearchDesc` (exec/mod.rs 193-197): the keys of a node that fit the qualified name, the conditions, the constant output. -/
structure NsDesc (N K E : Type) where
  keys : N → List K
  cond : List (SMatch N K → Except (Fail E) Bool)
  constOutput : Option K

/-- An execution node: its component number, its mapping of query nodes to columns (`node_pos`), its rows, and the description of the
node search if it is one (`as_nodesearch`). The rows stand for everything the iterator will give; errors are left out here. -/
structure Exec (N K E : Type) where
  comp : Nat
  pos : OMap Nat Nat
  rows : List (Row N K)
  ns : Option (NsDesc N K E)

/-- The merged column mapping of a join (exec/mod.rs 98-111). -/
def joinPos (l r : OMap Nat Nat) : OMap Nat Nat := r.foldl (fun m p => m.insert p.1 (p.2 + l.length)) l

/-- The index join for an operator and a node search (conjunction.rs 139-171, exec/indexjoin.rs 90-116). -/
def ijConf (op : OpImpl N K E) (ret : SMatch N K → Except (Fail E) (List N)) (d : NsDesc N K E) (global : Bool) (idx : Nat) : IjConf N K E where
  lhsIdx := idx
  reflexive := op.base.reflexive
  globalReflexivity := global
  candidates := fun a => do
    let ns ← ret a
    pure (ns.flatMap fun n => (d.keys n).map (⟨n, ·⟩))
  cond := d.cond
  constOutput := d.constOutput

/-- The rows of an index join, sequential or parallel. -/
def IndexRows (c : IjConf N K E) (lhs out : List (Row N K)) : Prop :=
  Runs c.next ⟨lhs.map .ok, none⟩ (out.map .ok) ∨ PijRuns c 512 (lhs.map .ok) (out.map .ok)

/-- The rows of a nested loop join, sequential or parallel. -/
def NestedRows (c : NlConf N K E) (outer inner out : List (Row N K)) : Prop :=
  Runs c.next (nlStart (outer.map .ok) (inner.map .ok)) (out.map .ok) ∨
    PnlRuns c 1024 ⟨outer.map .ok, inner.map .ok, [], none⟩ (out.map .ok)

/-- `create_join` (conjunction.rs 173-228): the execution nodes that may result. `op` is the operator and `inv` its inverse. -/
inductive CreateJoin (op : OpImpl N K E) (inv : Option (OpImpl N K E)) (global : Bool) (L R : Exec N K E) (iL iR : Nat) : Exec N K E → Prop
  | index {ret d rows} : R.ns = some d → op.retrieve = some ret → IndexRows (ijConf op ret d global iL) L.rows rows →
      CreateJoin op inv global L R iL iR ⟨L.comp, joinPos L.pos R.pos, rows, none⟩
  | indexInv {o ret d rows} : (R.ns = none ∨ op.retrieve = none) → L.ns = some d → inv = some o → o.retrieve = some ret →
      IndexRows (ijConf o ret d global iR) R.rows rows →
      CreateJoin op inv global L R iL iR ⟨R.comp, joinPos R.pos L.pos, rows, none⟩
  | nestedLR {rows} : (R.ns = none ∨ op.retrieve = none) → (L.ns = none ∨ ∀ o, inv = some o → o.retrieve = none) →
      NestedRows ⟨op.base, iL, iR, true, global⟩ L.rows R.rows rows →
      CreateJoin op inv global L R iL iR ⟨L.comp, joinPos L.pos R.pos, rows, none⟩
  | nestedRL {rows} : (R.ns = none ∨ op.retrieve = none) → (L.ns = none ∨ ∀ o, inv = some o → o.retrieve = none) →
      NestedRows ⟨op.base, iR, iL, false, global⟩ R.rows L.rows rows →
      CreateJoin op inv global L R iL iR ⟨R.comp, joinPos R.pos L.pos, rows, none⟩

/-- `component2exec` and `node2component` (conjunction.rs 100-114). -/
structure PlanState (N K E : Type) where
  execs : OMap Nat (Exec N K E)
  n2c : OMap Nat Nat

/-- The operator with its inverse and its operands, after the decision to switch the operands (conjunction.rs 731-748). -/
def QOp.oriented (o : QOp N K E) (switch : Bool) : OpImpl N K E × Option (OpImpl N K E) × Nat × Nat :=
  match o.inv with
  | some i => if switch then (i, o.inv2, o.right, o.left) else (o.fwd, o.inv, o.left, o.right)
  | none => (o.fwd, none, o.left, o.right)

/-- `add_binary_operator_to_exec_plan` (conjunction.rs 720-826); all cases without an error. -/
inductive AddOp (o : QOp N K E) (s : PlanState N K E) : PlanState N K E → Prop
  | filter {switch op inv l r cl L iL iR rows} : o.oriented switch = (op, inv, l, r) → s.n2c.get l = some cl → s.n2c.get r = some cl →
      s.execs.get cl = some L → L.pos.get l = some iL → L.pos.get r = some iR →
      filterBinary op.base iL iR (L.rows.map .ok) = rows.map .ok →
      AddOp o s ⟨(s.execs.erase cl).insert L.comp ⟨L.comp, L.pos, rows, none⟩, updateComponents (updateComponents s.n2c cl L.comp) cl L.comp⟩
  | join {switch op inv l r cl cr L R iL iR new} : o.oriented switch = (op, inv, l, r) → s.n2c.get l = some cl → s.n2c.get r = some cr →
      cl ≠ cr → s.execs.get cl = some L → L.pos.get l = some iL → s.execs.get cr = some R → R.pos.get r = some iR →
      CreateJoin op inv o.globalReflexivity L R iL iR new →
      AddOp o s ⟨((s.execs.erase cl).erase cr).insert new.comp new,
        updateComponents (updateComponents s.n2c cl new.comp) cr new.comp⟩

/-- Adding the operators in the given order (conjunction.rs 872-882). -/
inductive AddOps : List (QOp N K E) → PlanState N K E → PlanState N K E → Prop
  | nil {s} : AddOps [] s s
  | cons {o os s s' s''} : AddOp o s s' → AddOps os s' s'' → AddOps (o :: os) s s''

/-- The execution nodes for the single query nodes (conjunction.rs 616-687, 846-851): `searches` gives, for each query node, `none` if it is
optional, otherwise the rows of its node search and its description. -/
def initPlan (searches : List (Option (List (SMatch N K) × Option (NsDesc N K E)))) : PlanState N K E :=
  searches.zipIdx.foldl (fun s p =>
    match p.1 with
    | none => s
    | some (ms, d) => ⟨s.execs.insert p.2 ⟨p.2, [(p.2, 0)], ms.map fun m => [m], d⟩, s.n2c.insert p.2 p.2⟩) ⟨[], []⟩

/-- `make_exec_plan_with_order` (conjunction.rs 828-895) from the node searches: the first execution node that is left. Unary operators
are part of the node searches here (a filter around the search, which then has no description). -/
inductive MakePlan (searches : List (Option (List (SMatch N K) × Option (NsDesc N K E)))) (ops : List (QOp N K E)) : Exec N K E → Prop
  | mk {s p} : AddOps ops (initPlan searches) s → s.execs.head? = some p → MakePlan searches ops p.2

/-! ## Execution plans (plan.rs) -/

/-- The inverted column mapping (plan.rs 42-66): for each column the query node; `none` if no column has to be moved. -/
def inversePos (pos : OMap Nat Nat) : Option (List Nat) :=
  if pos.any fun p => p.1 ≠ p.2 then
    let inv : OMap Nat Nat := pos.foldl (fun m p => m.insert p.2 p.1) []
    some ((List.range inv.length).map fun i => (inv.get i).getD i)
  else none

/-- `result[target_pos] = m` for all columns (plan.rs 110-113); `none` is the panic for a missing column or position. -/
def placeAll {α : Type} (inv : List Nat) : List α → Nat → List α → Option (List α)
  | [], _, res => some res
  | m :: ms, i, res =>
    match inv[i]? with
    | none => none
    | some t => if t < res.length then placeAll inv ms (i + 1) (res.set t m) else none

/-- `reorder_match` (plan.rs 98-118); `d` is the default match. -/
def reorderMatch {α : Type} (d : α) (inv : Option (List Nat)) (row : List α) : Option (List α) :=
  match inv with
  | none => some row
  | some inv =>
    let size := match inv.max? with
      | some m => m + 1
      | none => 0
    placeAll inv row 0 (List.replicate size d)

/-- `ExecutionPlan::next` with several plans (plan.rs 169-204): what is left of the current and the later plans (already reordered) and
the results so far. The symbol ids used for the set identify matches (C01), so the rows themselves are used. -/
def planNextMulti {α E : Type} [DecidableEq α] (s : List (List (Except E α)) × List α) : Option (Except E α) × (List (List (Except E α)) × List α) :=
  match s with
  | ([], seen) => (none, ([], seen))
  | ([] :: ps, seen) => planNextMulti (ps, seen)
  | ((.error e :: p) :: ps, seen) => (some (.error e), (p :: ps, seen))
  | ((.ok r :: p) :: ps, seen) => if r ∈ seen then planNextMulti (p :: ps, seen) else (some (.ok r), (p :: ps, r :: seen))
termination_by (s.1.map fun p => p.length + 1).sum

/-- `ExecutionPlan::next` with one plan (`proxy_mode`, plan.rs 170-174). -/
def planNextProxy {α E : Type} (s : List (Except E α)) : Option (Except E α) × List (Except E α) :=
  match s with
  | [] => (none, [])
  | x :: xs => (some x, xs)

end
