import Verif.Adj.Model
import Verif.OnDisk.Model
import Mathlib.Order.Fin.Basic

/-!
# Model of the storages that keep one successor per node

* `core/src/graph/storage/dense_adjacency.rs` (`DenseAdjacencyListStorage`)
* `core/src/graph/storage/disk_path.rs` (`DiskPathStorage`)

Node IDs are the 64 bit numbers `NodeID64`, because they are used as positions.  Serialisation (dense_adjacency.rs 222-261,
disk_path.rs 353-427) and statistics are not modelled.
-/

/-- `DenseAdjacencyListStorage` (dense_adjacency.rs 20-26) without `stats`. -/
structure Dense (S W : Type) where
  edges : List (Option NodeID64)
  inverse : OMap NodeID64 (List NodeID64)
  annos : AnnoStore (NodeID64 ×ₗ NodeID64) S W

namespace Dense

variable {S W : Type} [LinearOrder S] [OrderBot S] [LinearOrder W]

/-- `new` (dense_adjacency.rs 35-42). -/
def new : Dense S W := ⟨[], [], AnnoStore.new⟩

/-- `get_outgoing_edges` (dense_adjacency.rs 47-58). -/
def out (g : Dense S W) (n : NodeID64) : List NodeID64 :=
  match g.edges[n.val]? with
  | some (some t) => [t]
  | _ => []

/-- `get_ingoing_edges` (dense_adjacency.rs 60-72). -/
def inn (g : Dense S W) (n : NodeID64) : List NodeID64 := (g.inverse.get n).getD []

/-- `source_nodes` (dense_adjacency.rs 79-88). -/
def sources (g : Dense S W) : List NodeID64 :=
  g.edges.zipIdx.filterMap fun p => if p.1.isSome then (if h : p.2 < 256 ^ 8 then some ⟨p.2, h⟩ else none) else none

/-- All nodes that are a target (bounds the traversals, not in the code). -/
def targets (g : Dense S W) : List NodeID64 := g.edges.filterMap id

/-- `find_connected` (dense_adjacency.rs 92-108). -/
def findConnected (g : Dense S W) (n : NodeID64) (min : Nat) (max : Bnd Nat) : Option (List NodeID64) :=
  (maxDistance max).map fun m => firstVisits [] (Dfs.steps g.out g.targets n min m)

/-- `find_connected_inverse` (dense_adjacency.rs 110-127). -/
def findConnectedInverse (g : Dense S W) (n : NodeID64) (min : Nat) (max : Bnd Nat) : Option (List NodeID64) :=
  (maxDistance max).map fun m => firstVisits [] (Dfs.steps g.inn (Adj.targets g.inverse) n min m true)

/-- `distance` (dense_adjacency.rs 129-141). -/
def distance (g : Dense S W) (source target : NodeID64) : Option Nat :=
  ((Dfs.steps g.out g.targets source 0 usizeMax).find? fun x => target = x.1).map fun x => x.2

/-- `is_connected` (dense_adjacency.rs 142-158). -/
def isConnected (g : Dense S W) (source target : NodeID64) (min : Nat) (max : Bnd Nat) : Option Bool :=
  (maxDistance max).map fun m => (Dfs.steps g.out g.targets source min m).any fun x => target = x.1

/-- Loop body of `copy` (dense_adjacency.rs 180-201); `none` is the index panic of line 187. -/
def copyNode (o : Source NodeID64 S W) (g : Dense S W) (a : NodeID64) : Option (Dense S W) :=
  match (o.out a).head? with
  | none => some g
  | some t =>
    if a.val < g.edges.length then
      some { edges := g.edges.set a.val (some t)
             inverse := g.inverse.insert t (vecInsert a ((g.inverse.get t).getD []))
             annos := o.copyEdgeAnnos g.annos a t }
    else none

/-- `copy` (dense_adjacency.rs 164-206); `largest` is `node_annos.get_largest_item()`. -/
def copy (largest : Option NodeID64) (g : Dense S W) (o : Source NodeID64 S W) : Option (Dense S W) :=
  match largest with
  | none => some ⟨[], [], g.annos.clear⟩
  | some l => o.sources.foldlM (copyNode o) ⟨List.replicate (l.val + 1) none, [], g.annos.clear⟩

end Dense

/-- Number of path elements of an entry (disk_path.rs 25). -/
def pathMaxDepth : Nat := 15

/-- One entry of the path file (disk_path.rs 29-32): the length and the 15 slots.  The byte encoding of the numbers is not
modelled. -/
structure PathEntry where
  len : Nat
  nodes : List NodeID64
deriving DecidableEq

/-- `DiskPathStorage` (disk_path.rs 35-42).  `paths` is the memory mapped file as a list of entries.  `inverse_edges` is a
disk map; by C08 it behaves like an ordered map.  Simplified: the annotations use the model of the in-memory annotation
storage; C06 relates both for histories that insert each annotation once, like `copy` does. -/
structure DiskPath (S W : Type) where
  paths : List PathEntry
  inverse : OMap (NodeID64 ×ₗ NodeID64) Bool
  annos : AnnoStore (NodeID64 ×ₗ NodeID64) S W

namespace DiskPath

variable {S W : Type} [LinearOrder S] [OrderBot S] [LinearOrder W]

/-- `new` (disk_path.rs 53-63). -/
def new : DiskPath S W := ⟨[], [], AnnoStore.new⟩

/-- `path_for_node` (disk_path.rs 87-112).  `none` is the underflow of `max_node_id` (lines 82-85) when the file has no
entry. -/
def pathFor (g : DiskPath S W) (n : NodeID64) : Option (List NodeID64) :=
  if g.paths.length = 0 then none else
    if g.paths.length - 1 < n.val then some [] else
      match g.paths[n.val]? with
      | some e => if e.len = 0 then some [] else some (e.nodes.take e.len)
      | none => none

/-- `get_outgoing_edges` (disk_path.rs 65-80, 115-124). -/
def out (g : DiskPath S W) (n : NodeID64) : Option (List NodeID64) :=
  if g.paths.length = 0 then none else
    if g.paths.length - 1 < n.val then some [] else
      match g.paths[n.val]? with
      | some e => if e.len = 0 then some [] else some (e.nodes[0]?).toList
      | none => none

/-- `get_ingoing_edges` (disk_path.rs 126-143): the range excludes its upper bound `(node, u64::MAX)`. -/
def inn (g : DiskPath S W) (n : NodeID64) : List NodeID64 :=
  (g.inverse.filter fun p => decide ((ofLex p.1).1 = n) && decide ((ofLex p.1).2.val < usizeMax)).map fun p => (ofLex p.1).2

/-- `source_nodes` (disk_path.rs 163-182). -/
def sources (g : DiskPath S W) : Option (List NodeID64) :=
  if g.paths.length = 0 then none else
    some (g.paths.zipIdx.filterMap fun p =>
      if p.1.len = 0 then none else (if h : p.2 < 256 ^ 8 then some ⟨p.2, h⟩ else none))

/-- End of the slice of the path that is within the upper bound (disk_path.rs 199-204 and 262-267). -/
def stop (max : Bnd Nat) (len : Nat) : Nat :=
  match max with
  | .included m => Nat.min m len
  | .excluded m => Nat.min (m - 1) len
  | .unbounded => len

/-- `find_connected` (disk_path.rs 190-215). -/
def findConnected (g : DiskPath S W) (n : NodeID64) (min : Nat) (max : Bnd Nat) : Option (List NodeID64) :=
  (g.pathFor n).map fun path =>
    let e := stop max path.length
    (if min = 0 then [n] else []) ++ (if min - 1 < e then (path.take e).drop (min - 1) else [])

/-- `find_connected_inverse` (disk_path.rs 217-239). -/
def findConnectedInverse (g : DiskPath S W) (n : NodeID64) (min : Nat) (max : Bnd Nat) : Option (List NodeID64) :=
  (maxDistance max).map fun m =>
    firstVisits [] (Dfs.steps g.inn (g.inverse.map fun p => (ofLex p.1).2) n min m true)

/-- Index of the first occurrence (`Iterator::position`). -/
def position (t : NodeID64) : List NodeID64 → Option Nat
  | [] => none
  | x :: r => if x = t then some 0 else (position t r).map (· + 1)

/-- `distance` (disk_path.rs 241-249). -/
def distance (g : DiskPath S W) (source target : NodeID64) : Option (Option Nat) :=
  (g.pathFor source).map fun path => (position target path).map (· + 1)

/-- `is_connected` (disk_path.rs 251-273). -/
def isConnected (g : DiskPath S W) (source target : NodeID64) (min : Nat) (max : Bnd Nat) : Option Bool :=
  (g.pathFor source).map fun path =>
    let start := Nat.min (min - 1) path.length
    let e := stop max path.length
    ((path.take e).drop start).any fun p => p = target

/-- Loop body for one step of the traversal (disk_path.rs 310-334). -/
def copyStep (o : Source NodeID64 S W) (source : NodeID64) (st : PathEntry × DiskPath S W) (x : NodeID64 × Nat) :
    PathEntry × DiskPath S W :=
  let g := if x.2 = 1 then
      { st.2 with
        inverse := st.2.inverse.insert (toLex (x.1, source)) true
        annos := o.copyEdgeAnnos st.2.annos source x.1 }
    else st.2
  (⟨x.2, st.1.nodes.set (x.2 - 1) x.1⟩, g)

/-- Loop body for one source node (disk_path.rs 299-335).  The entry of the source is in range because the file was created
for the largest source node. -/
def copySource (o : Source NodeID64 S W) (g : DiskPath S W) (source : NodeID64) : DiskPath S W :=
  match g.paths[source.val]? with
  | none => g
  | some e =>
    let r := (Dfs.steps o.out o.nodes source 1 pathMaxDepth).foldl (copyStep o source) (e, g)
    { r.2 with paths := r.2.paths.set source.val r.1 }

/-- `copy` (disk_path.rs 279-346).  Simplified: `(max_node_id + 1) * ENTRY_SIZE` does not overflow; the sources are visited in
the given order (sorting only affects the speed, the entries of different sources are independent). -/
def copy (g : DiskPath S W) (o : Source NodeID64 S W) : DiskPath S W :=
  let m := o.sources.foldl (fun acc n => Nat.max acc n.val) 0
  o.sources.foldl (copySource o)
    { paths := List.replicate (m + 1) ⟨0, List.replicate pathMaxDepth 0⟩, inverse := [], annos := g.annos }

end DiskPath
