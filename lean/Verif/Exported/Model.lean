import Verif.GraphML.Model
import Verif.Index.Model

/-!
# Model of what the GraphML export writes for a graph (core/src/graph/serialization/graphml.rs 25-268)

`Verif.GraphML.Model` has the document for a given list of nodes and edges; here are the lists which `export` collects from the graph storages.
Simplified: errors of storages on disk are left out.
-/

namespace Graph

open Index

/-- The orders in which the export visits the elements of a graph: as the storages give them, or sorted (`sort_unstable`, `sorted_unstable_by`,
graphml.rs 49-51, 75-77, 149-154, 203-205, 212-216, 222-229; the data elements are always sorted by their identifiers, 171-176 and 252-257). -/
structure Visits (C : Type) where
  keys : List (AnnoKey Str) → List (AnnoKey Str)
  items : List (NodeID64 × AnnoKey Str) → List (NodeID64 × AnnoKey Str)
  comps : List C → List C
  ids : List NodeID64 → List NodeID64
  labels : Labels → Labels

variable {C : Type} [LinearOrder C] (sc : Schema C) (nk tk : AnnoKey Str) (v : Visits C) (g : Graph Str Str C)

/-- `update_graph_index_components` (aql/model.rs 603-621) lists this component. -/
def isIndex (c : C) : Bool := c = sc.left || c = sc.right || c = sc.inh

/-- The components that are exported: all without the generated ones (graphml.rs 70-81 and 200-212). -/
def exported : List C := (v.comps g.comps.keys).filter fun c => !isIndex sc c

/-- Each key gets one identifier, at its first occurrence (`contains_key` and `insert`, graphml.rs 53, 68, 85 and 99). -/
def addKeys (seen : List (AnnoKey Str)) (ks : List (AnnoKey Str)) : List (AnnoKey Str) :=
  ks.foldl (fun seen k => if k ∈ seen then seen else seen ++ [k]) seen

/-- The annotation keys of `write_annotation_keys` (graphml.rs 48-103) in the order of their identifiers. -/
def docKeys : List (AnnoKey Str) :=
  (exported sc v g).foldl (fun seen c => addKeys seen (g.comp c).annos.annotationKeys)
    (addKeys [] ((v.keys g.annos.annotationKeys).filter fun k => k ≠ nk))

/-- The nodes of `write_nodes` (graphml.rs 140-190): all with a type and a name, with all their labels except for the name. -/
def docNodes : List (Str × Labels) :=
  (v.items (g.annos.exactSearch (some tk.ns) tk.name .any)).filterMap fun p =>
    (g.annos.getValue p.1 nk).map fun n => (n, (v.labels (g.annos.annosForItem p.1)).filter fun a => a.1 ≠ nk)

/-- The outgoing edges of one source node (graphml.rs 217-265). -/
def docOut (c : C) (s : NodeID64) : List (Str × Str × C × Labels) :=
  match g.annos.getValue s nk with
  | none => []
  | some n => (v.ids ((g.comp c).out s)).filterMap fun t =>
      (g.annos.getValue t nk).map fun n' => (n, n', c, v.labels ((g.comp c).annos.annosForItem (toLex (s, t))))

/-- The edges of `write_edges` (graphml.rs 192-268). -/
def docEdges : List (Str × Str × C × Labels) :=
  (exported sc v g).flatMap fun c => (v.ids (g.comp c).sources).flatMap fun s => docOut nk v g c s

/-- What `export` (graphml.rs 270-341) writes. -/
def toDoc (config : Option Str) : GDoc C :=
  ⟨config, docKeys sc nk v g, docNodes nk tk v g, docEdges sc nk v g⟩

/-- `Display` of a component of an annotation graph (core/src/types.rs 237-242). -/
def printComp (c : CKey Str) : Str :=
  (⟨AnnotationComponentType.ofU16 (ofLex c).1, (ofLex (ofLex c).2).2, (ofLex (ofLex c).2).1⟩ : Component AnnotationComponentType).print
    AnnotationComponentType.print

/-- `FromStr` of a component of an annotation graph (core/src/types.rs 244-269). -/
def parseComp (s : Str) : Option (CKey Str) :=
  (Component.parse AnnotationComponentType.parse s).map fun c => toLex (c.ty.toU16, toLex (c.name, c.layer))

end Graph
