import Verif.Anno.Model
import Verif.Dfs.Model
import Verif.Gs.Source
import Verif.Util.Bnd

/-!
# Model of `core/src/graph/storage/adjacencylist.rs` (`AdjacencyListStorage`)

Generic in the node ID type `N`, the string type `S` of annotation names and the annotation value type `W`.
Serialisation (lines 126-159) is the identity on the modelled fields and not modelled.  `Result` is dropped: no modelled
operation fails.  Statistics (lines 352-465) are modelled in `Verif.Registry.Model`.
-/

/-- `usize::MAX` on a 64 bit machine. -/
def usizeMax : Nat := 2 ^ 64 - 1

/-- Conversion of the distance bound (adjacencylist.rs 168-172, 192-196, 228-232; identical in dense_adjacency.rs and
disk_adjacency.rs).  `none` is the arithmetic underflow (panic) for `Excluded(0)`. -/
def maxDistance : Bnd Nat → Option Nat
  | .unbounded => some usizeMax
  | .included d => some d
  | .excluded d => if d = 0 then none else some (d - 1)

/-- The filter closure of `find_connected` (adjacencylist.rs 173-181): every node is only returned when it is first
visited. -/
def firstVisits {N : Type} [DecidableEq N] : List N → List (N × Nat) → List N
  | _, [] => []
  | visited, (n, _) :: r => if n ∈ visited then firstVisits visited r else n :: firstVisits (n :: visited) r

/-- `binary_search` followed by `insert` at the found position (adjacencylist.rs 282-284, 287-289). -/
def vecInsert {N : Type} [LinearOrder N] (x : N) : List N → List N
  | [] => [x]
  | y :: r => if x < y then x :: y :: r else if x = y then y :: r else y :: vecInsert x r

/-- `AdjacencyListStorage` (adjacencylist.rs 22-27) without `stats`. -/
structure Adj (N S W : Type) where
  edges : OMap N (List N)
  inverse : OMap N (List N)
  annos : AnnoStore (N ×ₗ N) S W

namespace Adj

variable {N S W : Type} [LinearOrder N] [LinearOrder S] [OrderBot S] [LinearOrder W]

/-- `new` (adjacencylist.rs 49-56). -/
def new : Adj N S W := ⟨[], [], AnnoStore.new⟩

/-- `clear` (adjacencylist.rs 58-64, 467-473). -/
def clear (g : Adj N S W) : Adj N S W := ⟨[], [], g.annos.clear⟩

/-- `get_outgoing_edges` (adjacencylist.rs 68-80). -/
def out (g : Adj N S W) (n : N) : List N := (g.edges.get n).getD []

/-- `has_outgoing_edges` (adjacencylist.rs 82-88). -/
def hasOut (g : Adj N S W) (n : N) : Bool :=
  match g.edges.get n with
  | some l => !l.isEmpty
  | none => false

/-- `get_ingoing_edges` (adjacencylist.rs 90-102). -/
def inn (g : Adj N S W) (n : N) : List N := (g.inverse.get n).getD []

/-- `source_nodes` (adjacencylist.rs 103-110); the order of the hash map is not specified. -/
def sources (g : Adj N S W) : List N := (g.edges.filter fun p => !p.2.isEmpty).map fun p => p.1

/-- All nodes that are a target (bounds the traversals, not in the code). -/
def targets (m : OMap N (List N)) : List N := m.vals.flatten

/-- `find_connected` (adjacencylist.rs 161-183). -/
def findConnected (g : Adj N S W) (n : N) (min : Nat) (max : Bnd Nat) : Option (List N) :=
  (maxDistance max).map fun m => firstVisits [] (Dfs.steps g.out (targets g.edges) n min m)

/-- `find_connected_inverse` (adjacencylist.rs 185-207). -/
def findConnectedInverse (g : Adj N S W) (n : N) (min : Nat) (max : Bnd Nat) : Option (List N) :=
  (maxDistance max).map fun m => firstVisits [] (Dfs.steps g.inn (targets g.inverse) n min m true)

/-- `distance` (adjacencylist.rs 209-220): the first step of the traversal that reaches the target. -/
def distance (g : Adj N S W) (source target : N) : Option Nat :=
  ((Dfs.steps g.out (targets g.edges) source 0 usizeMax).find? fun x => target = x.1).map fun x => x.2

/-- `is_connected` (adjacencylist.rs 221-237). -/
def isConnected (g : Adj N S W) (source target : N) (min : Nat) (max : Bnd Nat) : Option Bool :=
  (maxDistance max).map fun m => (Dfs.steps g.out (targets g.edges) source min m).any fun x => target = x.1

/-- `add_edge` (adjacencylist.rs 276-293). -/
def addEdge (g : Adj N S W) (a b : N) : Adj N S W :=
  if a ≠ b then
    { g with
      inverse := g.inverse.insert b (vecInsert a ((g.inverse.get b).getD []))
      edges := g.edges.insert a (vecInsert b ((g.edges.get a).getD [])) }
  else g

/-- `add_edge_annotation` (adjacencylist.rs 295-302). -/
def addAnno (g : Adj N S W) (a b : N) (key : AnnoKey S) (val : W) : Adj N S W :=
  match g.edges.get a with
  | some l => if b ∈ l then { g with annos := g.annos.insert (toLex (a, b)) key val } else g
  | none => g

/-- `binary_search` followed by `remove` (adjacencylist.rs 305-315): the entry of the map stays, even if it is empty. -/
def dropFrom (m : OMap N (List N)) (a b : N) : OMap N (List N) :=
  match m.get a with
  | some l => if b ∈ l then m.insert a (l.erase b) else m
  | none => m

/-- `delete_edge` (adjacencylist.rs 304-319). -/
def deleteEdge (g : Adj N S W) (a b : N) : Adj N S W :=
  { edges := dropFrom g.edges a b, inverse := dropFrom g.inverse b a, annos := (g.annos.removeItem (toLex (a, b))).1 }

/-- `delete_edge_annotation` (adjacencylist.rs 320-323). -/
def deleteAnno (g : Adj N S W) (a b : N) (key : AnnoKey S) : Adj N S W :=
  { g with annos := (g.annos.removeAnno (toLex (a, b)) key).1 }

/-- `delete_node` (adjacencylist.rs 324-350). -/
def deleteNode (g : Adj N S W) (n : N) : Adj N S W :=
  let toDelete := (g.out n).map (fun t => (n, t)) ++ (g.inn n).map (fun s => (s, n))
  toDelete.foldl (fun g e => g.deleteEdge e.1 e.2) g

/-- `root_nodes` (default implementation, storage/mod.rs 117-130). -/
def roots (g : Adj N S W) : List N := g.sources.filter fun n => (g.inn n).isEmpty

/-- The storage as the origin of a copy. -/
def asSource (g : Adj N S W) : Source N S W :=
  ⟨g.sources, g.roots, g.out, targets g.edges, fun a b => g.annos.annosForItem (toLex (a, b))⟩

/-- Body of the inner loop of `copy` (adjacencylist.rs 248-255). -/
def copyEdge (o : Source N S W) (g : Adj N S W) (a b : N) : Adj N S W :=
  (o.annos a b).foldl (fun g kv => g.addAnno a b kv.1 kv.2) (g.addEdge a b)

/-- `copy` (adjacencylist.rs 239-261). -/
def copy (g : Adj N S W) (o : Source N S W) : Adj N S W :=
  o.sources.foldl (fun g a => (o.out a).foldl (fun g b => copyEdge o g a b) g) g.clear

end Adj
