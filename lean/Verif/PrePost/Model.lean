import Verif.Adj.Model

/-!
# Model of `core/src/graph/storage/prepost.rs` (`PrePostOrderStorage<OrderT, LevelT>`)

The two number types are represented by their largest values `ordCap` and `lvlCap`.  Order numbers and levels are natural
numbers; `copy` reports an overflow of the order type explicitly.  Serialisation (lines 198-235) and statistics are not
modelled.
-/

/-- `PrePost` (prepost.rs 19-24). -/
structure PP where
  pre : Nat
  post : Nat
  level : Nat
deriving DecidableEq, Repr

/-- `OrderVecEntry` (prepost.rs 26-39). -/
inductive OEntry (N : Type)
  | empty
  | pre (post level : Nat) (node : N)
  | post (pre level : Nat) (node : N)
deriving DecidableEq, Repr

/-- `PrePostOrderStorage` (prepost.rs 41-47) without `stats`. -/
structure PrePostGs (N S W : Type) where
  nodeToOrder : OMap N (List PP)
  order : List (OEntry N)
  annos : AnnoStore (N ×ₗ N) S W

namespace PrePostGs

variable {N S W : Type} [LinearOrder N] [LinearOrder S] [OrderBot S] [LinearOrder W]

/-- `new` (prepost.rs 68-75). -/
def new : PrePostGs N S W := ⟨[], [], AnnoStore.new⟩

/-- `clear` (prepost.rs 77-83). -/
def clear (g : PrePostGs N S W) : PrePostGs N S W := ⟨[], [], g.annos.clear⟩

/-- The local variables of `copy`: `current_order`, `node_stack` (head is the front) with the fields `id`, `order.pre` and
`order.level` of each entry (the field `order.post` is zero until the node is exited), and `node_to_order`. -/
structure CState (N : Type) where
  cur : Nat
  stack : List (N × Nat × Nat)
  done : OMap N (List PP)

/-- `enter_node` (prepost.rs 85-102). -/
def enter (st : CState N) (n : N) (level : Nat) : CState N :=
  { st with cur := st.cur + 1, stack := (n, st.cur, level) :: st.stack }

/-- `exit_node` (prepost.rs 104-116). -/
def exit (st : CState N) : CState N :=
  match st.stack with
  | [] => st
  | (n, pre, level) :: r =>
    { cur := st.cur + 1, stack := r, done := st.done.insert n ((st.done.get n).getD [] ++ [⟨pre, st.cur, level⟩]) }

/-- `k` calls of `exit_node`. -/
def exits : Nat → CState N → CState N
  | 0, st => st
  | k + 1, st => exits k (exit st)

/-- `while node_stack.len() > d { exit_node }` (prepost.rs 502-504, and 519-521 for `d = 0`). -/
def exitTo (d : Nat) (st : CState N) : CState N := exits (st.stack.length - d) st

/-- Loop body for one step of the traversal (prepost.rs 491-516) without the annotations. -/
def procStep (lvlCap : Nat) (s : CState N × Nat) (x : N × Nat) : CState N × Nat :=
  let st := if x.2 ≤ s.2 then exitTo x.2 s.1 else s.1
  (if x.2 ≤ lvlCap then enter st x.1 x.2 else st, x.2)

/-- Loop body for one root (prepost.rs 477-521) without the annotations. -/
def copyRoot (lvlCap : Nat) (o : Source N S W) (st : CState N) (root : N) : CState N :=
  exitTo 0 ((Dfs.steps o.out o.nodes root 1 usizeMax).foldl (procStep lvlCap) (enter { st with stack := [] } root 0, 0)).1

/-- The annotations copied for one root (prepost.rs 482, 494). -/
def copyRootAnnos (o : Source N S W) (s : AnnoStore (N ×ₗ N) S W) (root : N) : AnnoStore (N ×ₗ N) S W :=
  (root :: (Dfs.steps o.out o.nodes root 1 usizeMax).map fun x => x.1).foldl (fun s a => o.copyNodeAnnos s a) s

/-- The assignments to `order_to_node` (prepost.rs 526-544) in the iteration order of `node_to_order`. -/
def writes (m : OMap N (List PP)) : List (Nat × OEntry N) :=
  m.flatMap fun p => p.2.flatMap fun x => [(x.pre, .pre x.post x.level p.1), (x.post, .post x.pre x.level p.1)]

/-- `copy` (prepost.rs 466-554).  `none` is the overflow of `current_order`, which is only ever incremented by one, in the
type `OrderT`; nodes whose distance does not fit `LevelT` are skipped as in the code. -/
def copy (ordCap lvlCap : Nat) (g : PrePostGs N S W) (o : Source N S W) : Option (PrePostGs N S W) :=
  let st := o.roots.foldl (copyRoot lvlCap o) ⟨0, [], []⟩
  if st.cur ≤ ordCap then
    some { nodeToOrder := st.done
           order := (writes st.done).foldl (fun v w => v.set w.1 w.2) (List.replicate st.cur .empty)
           annos := o.roots.foldl (copyRootAnnos o) g.clear.annos }
  else none

/-- The filter of `find_connected` (prepost.rs 262-283). -/
def below (root : PP) (min max : Nat) : OEntry N → Option N
  | .pre post level node =>
    if post ≤ root.post ∧ min ≤ level - root.level ∧ level - root.level ≤ max then some node else none
  | _ => none

/-- `self.order_to_node[start..end]` (prepost.rs 252-258). -/
def slice (g : PrePostGs N S W) (root : PP) : List (OEntry N) := (g.order.take (root.post + 1)).drop root.pre

/-- No arithmetic or range error when reading the entries of one order: `order_to_node[start..end]` is in range and
`current_level - root_level` does not underflow (prepost.rs 258, 267). -/
def sliceOk (g : PrePostGs N S W) (root : PP) : Bool :=
  decide (root.post < g.order.length) && decide (root.pre ≤ root.post + 1) && (g.slice root).all fun e =>
    match e with
    | .pre _ level _ => decide (root.level ≤ level)
    | _ => true

/-- `find_connected` (prepost.rs 237-291).  `none` is a panic: underflow for `Excluded(0)`, or `sliceOk` is false. -/
def findConnected (g : PrePostGs N S W) (n : N) (min : Nat) (max : Bnd Nat) : Option (List N) :=
  match g.nodeToOrder.get n with
  | none => some []
  | some orders =>
    match maxDistance max with
    | none => none
    | some m =>
      if orders.all g.sliceOk then
        some (firstVisits [] ((orders.flatMap fun r => (g.slice r).filterMap (below r min m)).map fun x => (x, 0)))
      else none

/-- Whether the range `post..len()` is searched (prepost.rs 321-329). -/
def usePost (g : PrePostGs N S W) (root : PP) : Bool := decide (g.order.length - root.post < root.pre)

/-- The filter of `find_connected_inverse` (prepost.rs 336-384) applied to the entry at position `i`. -/
def above (up : Bool) (root : PP) (min max : Nat) (i : Nat) : OEntry N → Option N
  | .pre post level node =>
    if up = false ∧ level ≤ root.level ∧ i ≤ root.pre ∧ root.post ≤ post ∧ min ≤ root.level - level ∧
      root.level - level ≤ max then some node else none
  | .post pre level node =>
    if up = true ∧ level ≤ root.level ∧ pre ≤ root.pre ∧ root.post ≤ i ∧ min ≤ root.level - level ∧
      root.level - level ≤ max then some node else none
  | .empty => none

/-- The entries that are searched for one order (prepost.rs 313-334) with their positions. -/
def inverseSlice (g : PrePostGs N S W) (root : PP) : List (OEntry N × Nat) :=
  if g.usePost root then g.order.zipIdx.drop root.post else g.order.zipIdx.take (root.pre + 1)

/-- `find_connected_inverse` (prepost.rs 293-390).  The slices are in range because order numbers are below the length. -/
def findConnectedInverse (g : PrePostGs N S W) (n : N) (min : Nat) (max : Bnd Nat) : Option (List N) :=
  match g.nodeToOrder.get n with
  | none => some []
  | some orders =>
    match maxDistance max with
    | none => none
    | some m =>
      some (firstVisits [] ((orders.flatMap fun r =>
        (g.inverseSlice r).filterMap fun p => above (g.usePost r) r min m p.2 p.1).map fun x => (x, 0)))

/-- The nested pairs of orders visited by `distance` and `is_connected` (prepost.rs 405-411, 445-451) in loop order, as
level differences. -/
def nested (g : PrePostGs N S W) (a b : N) : List Nat :=
  match g.nodeToOrder.get a, g.nodeToOrder.get b with
  | some oa, some ob =>
    oa.flatMap fun x => ob.filterMap fun y =>
      if x.pre ≤ y.pre ∧ y.post ≤ x.post ∧ x.level ≤ y.level then some (y.level - x.level) else none
  | _, _ => []

/-- `distance` (prepost.rs 392-427). -/
def distance (g : PrePostGs N S W) (a b : N) : Option Nat :=
  if a = b then some 0 else
    match g.nested a b with
    | [] => none
    | l => some (l.foldl Nat.min usizeMax)

/-- `is_connected` (prepost.rs 428-464): the first nested pair decides.  `none` is the underflow for `Excluded(0)`. -/
def isConnected (g : PrePostGs N S W) (a b : N) (min : Nat) (max : Bnd Nat) : Option Bool :=
  match g.nodeToOrder.get a, g.nodeToOrder.get b with
  | some _, some _ =>
    (maxDistance max).map fun m =>
      match g.nested a b with
      | [] => false
      | d :: _ => decide (min ≤ d) && decide (d ≤ m)
  | _, _ => some false

/-- `get_outgoing_edges` (prepost.rs 148-153). -/
def out (g : PrePostGs N S W) (n : N) : Option (List N) := g.findConnected n 1 (.included 1)

/-- `get_ingoing_edges` (prepost.rs 155-160). -/
def inn (g : PrePostGs N S W) (n : N) : Option (List N) := g.findConnectedInverse n 1 (.included 1)

/-- `source_nodes` (prepost.rs 162-176). -/
def sources (g : PrePostGs N S W) : List N := g.nodeToOrder.keys.filter fun n => g.out n != some []

end PrePostGs
