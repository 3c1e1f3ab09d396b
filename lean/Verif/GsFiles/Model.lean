import Verif.Registry.Model

/-!
# Model of the files of the components of a graph

Every component of a stored graph has a directory.  The model covers

* `save_to` and `load_from` of all graph storages (core/src/graph/storage/adjacencylist.rs 126-159, dense_adjacency.rs 221-255,
  linear.rs 167-201, prepost.rs 200-235, disk_adjacency.rs 142-180, disk_path.rs 352-420), with the legacy files of older versions
  (core/src/graph/storage/legacy.rs, core/src/graph/storage/mod.rs 204-262),
* the names of the implementations in `impl.cfg` (core/src/graph/storage/registry.rs 24-56, 216-221; core/src/graph/mod.rs 69-82),
* `internal_save` and `internal_save_with_backup` (core/src/graph/mod.rs 352-388, 749-775) for the components.

The file system separates names from file contents (`inode` numbers), because a storage that is kept on disk holds an open file:
renaming or deleting the directory does not change what the storage reads, truncating the file does.

Simplifications: the value of one serialised field, of one disk table and of the path file is one value of an arbitrary type `D`;
the serialised forms themselves are the subject of C07 (byte keys) and of the trusted `bincode`.  Reading a file that was written with
another type is an error.  The node annotations and the global statistics of the graph (mod.rs 357, 377-381) have files of their
own and are left out; so are errors of the file system that are not caused by the order of the operations.
-/

namespace GsFiles

/-- The folders inside the location of a graph: `current`, `backup` (core/src/graph/mod.rs 94-113, 749-775), or any other one. -/
inductive Folder
  | current
  | backup
  | other (n : Nat)
deriving DecidableEq, Repr

/-- The directory of a component: the folder and the relative path of the component (`component_to_relative_path`,
core/src/graph/mod.rs 81-92; that different components have different relative paths is not part of this model). -/
abbrev Dir := Folder × Nat

/-- The files in the directory of a component.  The last three annotation files are in the sub-folder `nodes_diskmap_v1` of a
component that is kept on disk (core/src/annostorage/ondisk.rs 1148-1166). -/
inductive Name
  | component | edges | inverseEdges | annos | nodeToPos | nodeChains | nodeToOrder | orderToNode
  | statsToml | edgeStats | paths | byContainer | byAnnoQname | custom | implCfg
deriving DecidableEq, Repr

/-- `GraphStatistic` (core/src/graph/storage/mod.rs 32-64): the fields of the older version and the number of roots.  Average values
and percentiles are copied like the other fields and left out. -/
structure Stats where
  old : GsStats
  rootNodes : Nat
deriving DecidableEq, Repr

/-- The conversion of the older version (core/src/graph/storage/legacy.rs 51-67). -/
def fromV1 (s : GsStats) : Stats := ⟨s, if s.nodes > 0 then 1 else 0⟩

/-- What a file can contain. -/
inductive Content (D : Type)
  /-- A field written by `serialize_gs_field` (core/src/graph/storage/mod.rs 204-213). -/
  | field (k : GsImpl) (d : D)
  /-- `component.bin`, one of the structures in legacy.rs 69-104. -/
  | legacy (k : GsImpl) (fields : List D) (stats : Option GsStats)
  /-- `stats.toml`. -/
  | toml (s : Stats)
  /-- `edge_stats.bin`. -/
  | oldStats (s : Option GsStats)
  /-- A table written by `DiskMap::write_to` (core/src/util/disk_collections.rs 307-329). -/
  | table (d : D)
  /-- `paths.bin` and `custom.bin`. -/
  | blob (d : D)
  /-- `impl.cfg`. -/
  | cfg (id : String)
  /-- A file that was just created or truncated. -/
  | truncated

/-- The file system: names of files, existing directories and folders, and the content of each file. -/
structure Fs (D : Type) where
  file : Dir → Name → Option Nat
  dirs : Dir → Bool
  folders : Folder → Bool
  data : Nat → Content D
  next : Nat

namespace Fs

variable {D : Type}

/-- `File::create` and `OpenOptions::truncate` followed by writing: an existing file keeps its number. -/
def create (fs : Fs D) (p : Dir) (n : Name) (c : Content D) : Fs D :=
  match fs.file p n with
  | some i => { fs with data := Function.update fs.data i c }
  | none =>
    { fs with
      file := fun q m => if q = p ∧ m = n then some fs.next else fs.file q m
      data := Function.update fs.data fs.next c
      next := fs.next + 1 }

/-- `std::fs::remove_file`. -/
def remove (fs : Fs D) (p : Dir) (n : Name) : Fs D :=
  { fs with file := fun q m => if q = p ∧ m = n then none else fs.file q m }

/-- `std::fs::create_dir_all`. -/
def mkdir (fs : Fs D) (p : Dir) : Fs D :=
  { fs with
    dirs := fun q => if q = p then true else fs.dirs q
    folders := fun f => if f = p.1 then true else fs.folders f }

/-- `std::fs::rename` of a folder to a name that does not exist. -/
def rename (fs : Fs D) (a b : Folder) : Fs D :=
  { fs with
    file := fun q m => if q.1 = b then fs.file (a, q.2) m else if q.1 = a then none else fs.file q m
    dirs := fun q => if q.1 = b then fs.dirs (a, q.2) else if q.1 = a then false else fs.dirs q
    folders := fun f => if f = b then true else if f = a then false else fs.folders f }

/-- Renaming a folder to a temporary name and deleting it there (core/src/graph/mod.rs 764-772). -/
def drop (fs : Fs D) (a : Folder) : Fs D :=
  { fs with
    file := fun q m => if q.1 = a then none else fs.file q m
    dirs := fun q => if q.1 = a then false else fs.dirs q
    folders := fun f => if f = a then false else fs.folders f }

/-- The content of a file, if it exists. -/
def read (fs : Fs D) (p : Dir) (n : Name) : Option (Content D) := (fs.file p n).map fs.data

end Fs

/-- How the entries of a disk map that are not yet in its table change the content of the table (core/src/util/disk_collections.rs
102-169: `C0` and `C1` before `C2`; the order is the subject of C08), with the empty change and the empty table. -/
structure Overlay (D O : Type) where
  merge : O → D → D
  zero : O
  empty : D
  merge_zero : ∀ d, merge zero d = d

/-- `DiskMap` (core/src/util/disk_collections.rs 34-47): the changes and the open table. -/
structure DMap (O : Type) where
  over : O
  base : Option Nat

/-- `AnnoStorageImpl` on disk (core/src/annostorage/ondisk.rs 30-56): two disk maps and the fields of `custom.bin`. -/
structure DAnnos (D O : Type) where
  byContainer : DMap O
  byAnnoQname : DMap O
  custom : D

/-- The paths of a path storage: the mapped file (core/src/graph/storage/disk_path.rs 35-42), which is a temporary file for a new
storage (the value itself, since nobody else can change it). -/
inductive Src (D : Type)
  | temp (d : D)
  | file (i : Nat)

/-- A graph storage as an object of the running program. -/
inductive Gs (D O : Type)
  /-- The storages in memory: `AdjacencyListStorage`, `DenseAdjacencyListStorage`, `LinearGraphStorage`, `PrePostOrderStorage`. -/
  | mem (k : GsImpl) (fields : List D) (stats : Option Stats)
  /-- `DiskAdjacencyListStorage` (disk_adjacency.rs 17-22). -/
  | diskAdj (edges inverse : DMap O) (annos : DAnnos D O) (stats : Option Stats)
  /-- `DiskPathStorage` (disk_path.rs 35-42). -/
  | diskPath (paths : Src D) (inverse : DMap O) (annos : DAnnos D O) (stats : Option Stats) (location : Option Dir)

/-- `serialization_id` of the number types: their size in bits (linear.rs 163-165, prepost.rs 192-198). -/
def bits (cap : Nat) : String :=
  if cap = u8Max then "8" else if cap = u16Max then "16" else if cap = u32Max then "32" else "64"

/-- `serialization_id` (adjacencylist.rs 122-124, dense_adjacency.rs 217-219, linear.rs 163-165, prepost.rs 192-198,
disk_adjacency.rs 15 and 138-140, disk_path.rs 26 and 348-350). -/
def serializationId : GsImpl → String
  | .adj => "AdjacencyListV1"
  | .dense => "DenseAdjacencyListV1"
  | .linear c => "LinearO" ++ bits c ++ "V1"
  | .prepost o l => "PrePostOrderO" ++ bits o ++ "L" ++ bits l ++ "V1"
  | .diskAdj => "DiskAdjacencyListV1"
  | .diskPath => "DiskPathV1_D15"

/-- The registered implementations (registry.rs 24-56). -/
def registered : List GsImpl :=
  [.adj, .diskAdj, .diskPath, .dense,
   .prepost usizeMax usizeMax, .prepost usizeMax u32Max, .prepost usizeMax u8Max, .prepost u32Max u32Max, .prepost u32Max u8Max,
   .prepost u16Max u32Max, .prepost u16Max u8Max,
   .linear usizeMax, .linear u32Max, .linear u16Max, .linear u8Max]

/-- `REGISTRY.get` (registry.rs 216-220). -/
def lookup (id : String) : Option GsImpl := registered.find? fun k => serializationId k == id

/-- The names of the fields (adjacencylist.rs 142-147 and 153-159, dense_adjacency.rs 238-243, linear.rs 184-189, prepost.rs 216-221). -/
def fieldNames : GsImpl → List Name
  | .adj | .dense => [.edges, .inverseEdges, .annos]
  | .linear _ => [.nodeToPos, .nodeChains, .annos]
  | .prepost _ _ => [.nodeToOrder, .orderToNode, .annos]
  | .diskAdj | .diskPath => []

variable {D O : Type}

/-- Whether a storage is kept in memory. -/
def inMemory : GsImpl → Bool
  | .diskAdj | .diskPath => false
  | _ => true

/-- The implementation of a storage. -/
def Gs.kind : Gs D O → GsImpl
  | .mem k _ _ => k
  | .diskAdj .. => .diskAdj
  | .diskPath .. => .diskPath

/-- `save_statistics_to_toml` (core/src/graph/storage/mod.rs 251-262). -/
def saveStats (fs : Fs D) (p : Dir) (s : Option Stats) : Fs D :=
  let fs := fs.remove p .statsToml
  match s with
  | some s => fs.create p .statsToml (.toml s)
  | none => fs

/-- `load_statistics_from_location` (core/src/graph/storage/mod.rs 230-249). -/
def loadStats (fs : Fs D) (p : Dir) : Option (Option Stats) :=
  match fs.read p .statsToml with
  | some (.toml s) => some (some s)
  | some _ => none
  | none =>
    match fs.read p .edgeStats with
    | some (.oldStats s) => some (s.map fromV1)
    | some _ => none
    | none => some none

/-- The fields of a storage in memory, written one after the other (`serialize_gs_field`, core/src/graph/storage/mod.rs 204-213). -/
def saveFields (fs : Fs D) (p : Dir) (k : GsImpl) : List (Name × D) → Fs D
  | [] => fs
  | (n, d) :: r => saveFields (fs.create p n (.field k d)) p k r

/-- `deserialize_gs_field` (core/src/graph/storage/mod.rs 215-226). -/
def loadField (fs : Fs D) (p : Dir) (k : GsImpl) (n : Name) : Option D :=
  match fs.read p n with
  | some (.field k' d) => if k' = k then some d else none
  | _ => none

/-- The fields of a storage in memory, read one after the other. -/
def loadFields (fs : Fs D) (p : Dir) (k : GsImpl) : List Name → Option (List D)
  | [] => some []
  | n :: r =>
    match loadField fs p k n, loadFields fs p k r with
    | some d, some ds => some (d :: ds)
    | _, _ => none

/-- What a disk map contains: `iter` (core/src/util/disk_collections.rs 229-305).  Reading a truncated table is an error. -/
def readMap (ov : Overlay D O) (fs : Fs D) (m : DMap O) : Option D :=
  match m.base with
  | none => some (ov.merge m.over ov.empty)
  | some i =>
    match fs.data i with
    | .table d => some (ov.merge m.over d)
    | _ => none

/-- `DiskMap::write_to` (core/src/util/disk_collections.rs 307-329): the file is truncated before the map is read. -/
def writeMap (ov : Overlay D O) (fs : Fs D) (p : Dir) (n : Name) (m : DMap O) : Fs D × Bool :=
  let fs := fs.create p n .truncated
  match readMap ov fs m with
  | some d => (fs.create p n (.table d), true)
  | none => (fs, false)

/-- `DiskMap::new` (core/src/util/disk_collections.rs 59-84): a missing file is an empty map. -/
def openMap (ov : Overlay D O) (fs : Fs D) (p : Dir) (n : Name) : Option (DMap O) :=
  match fs.file p n with
  | none => some ⟨ov.zero, none⟩
  | some i =>
    match fs.data i with
    | .table _ => some ⟨ov.zero, some i⟩
    | _ => none

/-- One step after another, the `?` operator between them. -/
def thenDo (r : Fs D × Bool) (f : Fs D → Fs D × Bool) : Fs D × Bool := if r.2 then f r.1 else r

/-- `save_annotations_to` of the annotations on disk (core/src/annostorage/ondisk.rs 1148-1166). -/
def saveAnnos (ov : Overlay D O) (fs : Fs D) (p : Dir) (a : DAnnos D O) : Fs D × Bool :=
  thenDo (writeMap ov fs p .byContainer a.byContainer) fun fs =>
  thenDo (writeMap ov fs p .byAnnoQname a.byAnnoQname) fun fs =>
  (fs.create p .custom (.blob a.custom), true)

/-- A file of bytes. -/
def readBlob (fs : Fs D) (p : Dir) (n : Name) : Option D :=
  match fs.read p n with
  | some (.blob d) => some d
  | _ => none

/-- `AnnoStorageImpl::new` with a path (core/src/annostorage/ondisk.rs 107-144). -/
def openAnnos (ov : Overlay D O) (fs : Fs D) (p : Dir) : Option (DAnnos D O) :=
  match openMap ov fs p .byContainer, openMap ov fs p .byAnnoQname, readBlob fs p .custom with
  | some a, some b, some c => some ⟨a, b, c⟩
  | _, _, _ => none

/-- The bytes of the mapped path file. -/
def readSrc (fs : Fs D) : Src D → Option D
  | .temp d => some d
  | .file i =>
    match fs.data i with
    | .blob d => some d
    | _ => none

/-- `File::create` and `std::io::copy` of the path file (disk_path.rs 402-405). -/
def writePaths (fs : Fs D) (p : Dir) (s : Src D) : Fs D × Bool :=
  let fs := fs.create p .paths .truncated
  match readSrc fs s with
  | some d => (fs.create p .paths (.blob d), true)
  | none => (fs, false)

/-- Whether the location of a path storage can be normalised (disk_path.rs 393-394). -/
def locationExists (fs : Fs D) : Option Dir → Bool
  | some q => fs.dirs q
  | none => true

/-- `save_to` of every storage (lines in the head of this file).  The directory exists, since `internal_save` creates it first
(core/src/graph/mod.rs 362).  The path storage compares its own location with the new one; its own location has to exist for that
(disk_path.rs 388-400). -/
def save (ov : Overlay D O) (fs : Fs D) (p : Dir) : Gs D O → Fs D × Bool
  | .mem k ds s => (saveStats (saveFields fs p k ((fieldNames k).zip ds)) p s, true)
  | .diskAdj e i a s =>
    thenDo (writeMap ov fs p .edges e) fun fs =>
    thenDo (writeMap ov fs p .inverseEdges i) fun fs =>
    thenDo (saveAnnos ov fs p a) fun fs =>
    (saveStats fs p s, true)
  | .diskPath w i a s loc =>
    if locationExists fs loc = false then (fs, false)
    else if loc = some p then (fs, true)
    else
      thenDo (writePaths fs p w) fun fs =>
      thenDo (writeMap ov fs p .inverseEdges i) fun fs =>
      thenDo (saveAnnos ov fs p a) fun fs =>
      (saveStats fs p s, true)

/-- `load_from` of every storage. -/
def load (ov : Overlay D O) (fs : Fs D) (p : Dir) : GsImpl → Option (Gs D O)
  | .diskAdj =>
    match loadStats fs p, openMap ov fs p .edges, openMap ov fs p .inverseEdges, openAnnos ov fs p with
    | some s, some e, some i, some a => some (.diskAdj e i a s)
    | _, _, _, _ => none
  | .diskPath =>
    match fs.file p .paths, readBlob fs p .paths, openMap ov fs p .inverseEdges, openAnnos ov fs p, loadStats fs p with
    | some w, some _, some i, some a, some s => some (.diskPath (.file w) i a s (some p))
    | _, _, _, _, _ => none
  | k =>
    match fs.read p .component with
    | some (.legacy k' ds s) => if k' = k then some (.mem k ds (s.map fromV1)) else none
    | some _ => none
    | none =>
      match loadStats fs p, loadFields fs p k (fieldNames k) with
      | some s, some ds => some (.mem k ds s)
      | _, _ => none

/-- `load_component_from_disk` (core/src/graph/mod.rs 69-82) with `registry::deserialize` (registry.rs 216-221). -/
def loadComponent (ov : Overlay D O) (fs : Fs D) (p : Dir) : Option (Gs D O) :=
  match fs.read p .implCfg with
  | some (.cfg id) => (lookup id).bind (load ov fs p)
  | _ => none

/-- One component of `internal_save` (core/src/graph/mod.rs 359-372). -/
def saveComponent (ov : Overlay D O) (fs : Fs D) (p : Dir) (g : Gs D O) : Fs D × Bool :=
  thenDo (save ov (fs.mkdir p) p g) fun fs => (fs.create p .implCfg (.cfg (serializationId g.kind)), true)

/-- `internal_save` (core/src/graph/mod.rs 352-388), the components. -/
def saveGraph (ov : Overlay D O) (f : Folder) : Fs D → List (Nat × Gs D O) → Fs D × Bool
  | fs, [] => (fs, true)
  | fs, (c, g) :: r => thenDo (saveComponent ov fs (f, c) g) fun fs => saveGraph ov f fs r

/-- `internal_save_with_backup` (core/src/graph/mod.rs 749-775).  Used after every update (`background_sync_wal_updates`,
core/src/graph/mod.rs 733-744) and by `optimize_impl` (mod.rs 1017-1020).  The folder `current` exists before. -/
def saveWithBackup (ov : Overlay D O) (fs : Fs D) (g : List (Nat × Gs D O)) : Fs D × Bool :=
  let fs := if fs.folders .backup then fs else fs.rename .current .backup
  thenDo (saveGraph ov .current fs g) fun fs => (fs.drop .backup, true)

/-- The components as they are loaded again (`component_path` and `ensure_loaded_all`, core/src/graph/mod.rs 94-113 and 900-960). -/
def reload (ov : Overlay D O) (fs : Fs D) : List Nat → Option (List (Nat × Gs D O))
  | [] => some []
  | c :: r =>
    match loadComponent ov fs (if fs.folders .backup then .backup else .current, c), reload ov fs r with
    | some g, some gs => some ((c, g) :: gs)
    | _, _ => none

end GsFiles
