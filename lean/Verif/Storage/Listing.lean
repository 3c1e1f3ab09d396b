import Verif.Storage.Model
import Verif.OnDisk.Model

/-!
# Model of the functions that list annotations and components (graphannis/src/annis/db/corpusstorage.rs 2383-2533)

They use the storage of `Verif/Storage/Model`, so all components of a loaded graph are loaded, and errors of the file system are left out.
-/

open Keys

/-- The loop over the keys of an annotation storage (corpusstorage.rs 2446-2477 for nodes, 2503-2528 for edges): `keys` is
`annotation_keys`, `vals` is `get_all_values`, `empty` the empty string. -/
def listAnnos {N V : Type} (values mostFrequent : Bool) (empty : V) (keys : List (AnnoKey N)) (vals : AnnoKey N → Bool → List V) :
    List (AnnoKey N × V) :=
  keys.flatMap fun key =>
    if values then
      if mostFrequent then
        match vals key true with
        | v :: _ => [(key, v)]
        | [] => []
      else (vals key false).map fun v => (key, v)
    else [(key, empty)]

/-- `listAnnos` for an annotation storage in memory. -/
def AnnoStore.list {T N V : Type} [LinearOrder T] [LinearOrder N] [OrderBot N] [LinearOrder V] (values mostFrequent : Bool) (empty : V)
    (s : AnnoStore T N V) : List (AnnoKey N × V) :=
  listAnnos values mostFrequent empty s.annotationKeys s.allValues

/-- `listAnnos` for an annotation storage on disk. -/
def DiskAnno.list {T N : Type} [LinearOrder T] [FixedKey T] [LinearOrder N] [OrderBot N] (values mostFrequent : Bool)
    (s : DiskAnno T N) : List (AnnoKey N × Bytes) :=
  listAnnos values mostFrequent [] s.annotationKeys s.allValues

namespace Store

variable {Nm A C K U S V : Type} [LinearOrder Nm] [LinearOrder C]

/-- `list_node_annotations` (corpusstorage.rs 2437-2481); `annos` lists the annotations of a storage.  Errors of loading the corpus are
dropped (2444, 2446). -/
def listNodeAnnos (o : GraphOps A C K U) (annos : A → List (AnnoKey S × V)) (s : Store Nm A C K U) (n : Nm) (m1 m2 : Mem) :
    Store Nm A C K U × List (AnnoKey S × V) :=
  match getLoaded o s n false m1 m2 with
  | (s, .error _) => (s, [])
  | (s, .ok p) =>
    match s.graph p with
    | none => (s, [])
    | some g => (s, annos g.annos)

/-- `list_edge_annotations` (corpusstorage.rs 2488-2533) with `get_loaded_entry_with_components` (712-740). -/
def listEdgeAnnos (o : GraphOps A C K U) (annos : K → List (AnnoKey S × V)) (s : Store Nm A C K U) (n : Nm) (c : C) (m1 m2 : Mem) :
    Store Nm A C K U × List (AnnoKey S × V) :=
  match getLoaded o s n false m1 m2 with
  | (s, .error _) => (s, [])
  | (s, .ok p) =>
    match s.graph p with
    | none => (s, [])
    | some g =>
      match g.comps.get c with
      | none => (s, [])
      | some k => (s, annos k)

/-- The folder that `list_components` looks at (corpusstorage.rs 2399-2406). -/
def listFolder (d : Disk A C K U) : Option (Folder A C K U) :=
  match d.backup with
  | some b => some b
  | none => d.current

/-- The test of one filter of `list_components` (corpusstorage.rs 2412-2425). -/
def passes {X : Type} [DecidableEq X] (want : Option X) (x : X) : Bool :=
  match want with
  | some y => decide (x = y)
  | none => true

/-- `list_components` (corpusstorage.rs 2387-2430); `ty` and `name` are the filters, `tyOf` and `nameOf` the type and name of a
component.  `find_components_from_disk` is `C29`. -/
def listComponents {Ty Na : Type} [DecidableEq Ty] [DecidableEq Na] (tyOf : C → Ty) (nameOf : C → Na) (s : Store Nm A C K U) (n : Nm)
    (ty : Option Ty) (name : Option Na) : Store Nm A C K U × List C :=
  ((s.getEntry n).1,
    match (s.disk.get n).bind listFolder with
    | none => []
    | some f => (f.files.comps.keys.filter fun c => passes ty (tyOf c)).filter fun c => passes name (nameOf c))

end Store
