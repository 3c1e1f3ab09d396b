import Mathlib.Order.Nat

/-!
# Model of `CycleSafeDFS` (core/src/dfs.rs)

The edge container is abstracted to the function `next` that lists the outgoing (`new`) or ingoing (`new_inverse`)
neighbours of a node in iteration order.  Simplified: neighbour iterators never fail (they do not for the containers in main
memory), so the `Err` branches of dfs.rs 101, 108 and 139 are not modelled.
-/

namespace Dfs

variable {N : Type} [DecidableEq N]

/-- `CycleSafeDFS` (dfs.rs 4-15).  The head of `stack` is the end of the Rust vector; the hash set `nodes_in_path` is a
list used as a set; the unchanging fields are arguments of the functions below. -/
structure State (N : Type) where
  stack : List (N × Nat)
  path : List N
  inPath : List N
  last : Nat
  cyclic : Bool
deriving DecidableEq, Repr

/-- `CycleSafeDFS::new` (dfs.rs 23-40, `inverse = false`) and `new_inverse` (dfs.rs 42-59, `inverse = true`): the inverse
constructor starts with the cycle flag set. -/
def init (start : N) (inverse : Bool) : State N :=
  { stack := [(start, 0)], path := [], inPath := [], last := 0, cyclic := inverse }

/-- First part of `enter_node` (dfs.rs 71-78). -/
def truncate (s : State N) (dist : Nat) : State N :=
  if s.last ≥ dist then
    { s with
      inPath := (s.path.drop dist).foldl (fun acc x => acc.filter (· ≠ x)) s.inPath
      path := s.path.take dist }
  else s

/-- `enter_node` (dfs.rs 65-120). -/
def enter (next : N → List N) (min max : Nat) (s : State N) (node : N) (dist : Nat) : State N × Bool :=
  let s := truncate s dist
  if node ∈ s.inPath then
    ({ s with last := dist, cyclic := true, stack := s.stack.tail }, false)
  else
    let s := { s with path := s.path ++ [node], inPath := node :: s.inPath, last := dist, stack := s.stack.tail }
    let found := decide (min ≤ dist) && decide (dist ≤ max)
    let s := if dist < max then { s with stack := (next node).foldl (fun st o => (o, dist + 1) :: st) s.stack } else s
    (s, found)

/-- The loop of `next` (dfs.rs 126-145) called until it returns `None`; the list contains the yielded steps.  `fuel`
bounds the number of loop iterations, `Dfs.C10_terminates` shows that `fuelFor` is always enough. -/
def exec (next : N → List N) (min max : Nat) : Nat → State N → List (N × Nat) × State N
  | 0, s => ([], s)
  | f + 1, s =>
    match s.stack with
    | [] => ([], s)
    | (node, dist) :: _ =>
      let r := enter next min max s node dist
      let rest := exec next min max f r.1
      (if r.2 then (node, dist) :: rest.1 else rest.1, rest.2)

/-- A number of loop iterations that suffices for a graph whose nodes are listed in `nodes` (modelling device, not in the
code). -/
def fuelFor (next : N → List N) (nodes : List N) : Nat :=
  ((nodes.map fun n => (next n).length).sum + 1) ^ nodes.length

/-- All steps of a traversal, `CycleSafeDFS::new(..)` collected. -/
def steps (next : N → List N) (nodes : List N) (start : N) (min max : Nat) (inverse : Bool := false) : List (N × Nat) :=
  (exec next min max (fuelFor next (start :: nodes)) (init start inverse)).1

/-- `is_cyclic` (dfs.rs 61-63) after the traversal was exhausted. -/
def isCyclic (next : N → List N) (nodes : List N) (start : N) (min max : Nat) (inverse : Bool := false) : Bool :=
  (exec next min max (fuelFor next (start :: nodes)) (init start inverse)).2.cyclic

end Dfs
