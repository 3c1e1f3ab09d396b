import Verif.Anno.Model

/-!
# What `GraphStorage::copy` reads from the original storage
-/

/-- View of a graph storage as the argument `orig` of `copy` (core/src/graph/storage/mod.rs 78-131, 185-189):
`source_nodes`, `root_nodes`, `get_outgoing_edges` and the annotations of an edge
(`get_anno_storage().get_annotations_for_item`).  `nodes` lists the nodes with an ingoing edge; it only bounds traversals
and is not in the code. -/
structure Source (N S W : Type) where
  sources : List N
  roots : List N
  out : N → List N
  nodes : List N
  annos : N → N → List (AnnoKey S × W)

namespace Source

variable {N S W : Type} [LinearOrder N] [LinearOrder S] [OrderBot S] [LinearOrder W]

/-- Insertion of all annotations of one edge (adjacencylist.rs 252-254, linear.rs 67-70, prepost.rs 132-135,
dense_adjacency.rs 197-199). -/
def copyEdgeAnnos (o : Source N S W) (s : AnnoStore (N ×ₗ N) S W) (a b : N) : AnnoStore (N ×ₗ N) S W :=
  (o.annos a b).foldl (fun s kv => s.insert (toLex (a, b)) kv.1 kv.2) s

/-- `copy_edge_annos_for_node` (linear.rs 53-73, prepost.rs 118-138). -/
def copyNodeAnnos (o : Source N S W) (s : AnnoStore (N ×ₗ N) S W) (a : N) : AnnoStore (N ×ₗ N) S W :=
  (o.out a).foldl (fun s b => copyEdgeAnnos o s a b) s

end Source
