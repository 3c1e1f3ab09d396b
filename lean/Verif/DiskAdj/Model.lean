import Verif.Adj.Model
import Verif.OnDisk.Model
import Mathlib.Order.Fin.Basic

/-!
# Model of `core/src/graph/storage/disk_adjacency.rs` (`DiskAdjacencyListStorage`)

The two disk maps are ordered maps (C08).  Simplified: the annotations use the model of the in-memory annotation storage; C06
lists where the on-disk annotation storage differs.  Node IDs are `NodeID64` because the range queries use the largest ID as an
exclusive bound.  Serialisation (lines 142-182) is not modelled.
-/

/-- `DiskAdjacencyListStorage` (disk_adjacency.rs 17-22) without `stats`. -/
structure DiskAdj (S W : Type) where
  edges : OMap (NodeID64 ×ₗ NodeID64) Bool
  inverse : OMap (NodeID64 ×ₗ NodeID64) Bool
  annos : AnnoStore (NodeID64 ×ₗ NodeID64) S W

namespace DiskAdj

variable {S W : Type} [LinearOrder S] [OrderBot S] [LinearOrder W]

/-- `new` (disk_adjacency.rs 44-51). -/
def new : DiskAdj S W := ⟨[], [], AnnoStore.new⟩

/-- `clear` (disk_adjacency.rs 53-59, 466-472). -/
def clear (g : DiskAdj S W) : DiskAdj S W := ⟨[], [], g.annos.clear⟩

/-- The range `(node, 0)..(node, u64::MAX)` (disk_adjacency.rs 67-79, 104-116): the upper bound is excluded. -/
def rangeOf (m : OMap (NodeID64 ×ₗ NodeID64) Bool) (n : NodeID64) : List NodeID64 :=
  (m.filter fun p => decide ((ofLex p.1).1 = n) && decide ((ofLex p.1).2.val < usizeMax)).map fun p => (ofLex p.1).2

/-- `get_outgoing_edges` (disk_adjacency.rs 63-80). -/
def out (g : DiskAdj S W) (n : NodeID64) : List NodeID64 := rangeOf g.edges n

/-- `has_outgoing_edges` (disk_adjacency.rs 82-98). -/
def hasOut (g : DiskAdj S W) (n : NodeID64) : Bool := !(rangeOf g.edges n).isEmpty

/-- `get_ingoing_edges` (disk_adjacency.rs 100-117). -/
def inn (g : DiskAdj S W) (n : NodeID64) : List NodeID64 := rangeOf g.inverse n

/-- `source_nodes` (disk_adjacency.rs 118-127). -/
def sources (g : DiskAdj S W) : List NodeID64 := firstVisits [] (g.edges.map fun p => ((ofLex p.1).1, 0))

/-- All nodes that are a target (bounds the traversals, not in the code). -/
def targets (m : OMap (NodeID64 ×ₗ NodeID64) Bool) : List NodeID64 := m.map fun p => (ofLex p.1).2

/-- `find_connected` (disk_adjacency.rs 184-200). -/
def findConnected (g : DiskAdj S W) (n : NodeID64) (min : Nat) (max : Bnd Nat) : Option (List NodeID64) :=
  (maxDistance max).map fun m => firstVisits [] (Dfs.steps g.out (targets g.edges) n min m)

/-- `find_connected_inverse` (disk_adjacency.rs 202-219). -/
def findConnectedInverse (g : DiskAdj S W) (n : NodeID64) (min : Nat) (max : Bnd Nat) : Option (List NodeID64) :=
  (maxDistance max).map fun m => firstVisits [] (Dfs.steps g.inn (targets g.inverse) n min m true)

/-- `distance` (disk_adjacency.rs 221-233). -/
def distance (g : DiskAdj S W) (source target : NodeID64) : Option Nat :=
  ((Dfs.steps g.out (targets g.edges) source 0 usizeMax).find? fun x => target = x.1).map fun x => x.2

/-- `is_connected` (disk_adjacency.rs 234-259). -/
def isConnected (g : DiskAdj S W) (source target : NodeID64) (min : Nat) (max : Bnd Nat) : Option Bool :=
  (maxDistance max).map fun m => (Dfs.steps g.out (targets g.edges) source min m).any fun x => target = x.1

/-- `add_edge` (disk_adjacency.rs 299-307). -/
def addEdge (g : DiskAdj S W) (a b : NodeID64) : DiskAdj S W :=
  if a ≠ b then
    { g with inverse := g.inverse.insert (toLex (b, a)) true, edges := g.edges.insert (toLex (a, b)) true }
  else g

/-- `add_edge_annotation` (disk_adjacency.rs 309-314). -/
def addAnno (g : DiskAdj S W) (a b : NodeID64) (key : AnnoKey S) (val : W) : DiskAdj S W :=
  if (g.edges.get (toLex (a, b))).isSome then { g with annos := g.annos.insert (toLex (a, b)) key val } else g

/-- `delete_edge` (disk_adjacency.rs 316-323). -/
def deleteEdge (g : DiskAdj S W) (a b : NodeID64) : DiskAdj S W :=
  { edges := g.edges.erase (toLex (a, b)), inverse := g.inverse.erase (toLex (b, a))
    annos := (g.annos.removeItem (toLex (a, b))).1 }

/-- `delete_edge_annotation` (disk_adjacency.rs 324-327). -/
def deleteAnno (g : DiskAdj S W) (a b : NodeID64) (key : AnnoKey S) : DiskAdj S W :=
  { g with annos := (g.annos.removeAnno (toLex (a, b)) key).1 }

/-- `delete_node` (disk_adjacency.rs 328-349). -/
def deleteNode (g : DiskAdj S W) (n : NodeID64) : DiskAdj S W :=
  let toDelete := (g.out n).map (fun t => (n, t)) ++ (g.inn n).map (fun s => (s, n))
  toDelete.foldl (fun g e => g.deleteEdge e.1 e.2) g

/-- `root_nodes` (default implementation, storage/mod.rs 117-130). -/
def roots (g : DiskAdj S W) : List NodeID64 := g.sources.filter fun n => (g.inn n).isEmpty

/-- The storage as the origin of a copy. -/
def asSource (g : DiskAdj S W) : Source NodeID64 S W :=
  ⟨g.sources, g.roots, g.out, targets g.edges, fun a b => g.annos.annosForItem (toLex (a, b))⟩

/-- Body of the inner loop of `copy` (disk_adjacency.rs 271-276). -/
def copyEdge (o : Source NodeID64 S W) (g : DiskAdj S W) (a b : NodeID64) : DiskAdj S W :=
  (o.annos a b).foldl (fun g kv => g.addAnno a b kv.1 kv.2) (g.addEdge a b)

/-- `copy` (disk_adjacency.rs 261-283). -/
def copy (g : DiskAdj S W) (o : Source NodeID64 S W) : DiskAdj S W :=
  o.sources.foldl (fun g a => (o.out a).foldl (fun g b => copyEdge o g a b) g) g.clear

end DiskAdj
