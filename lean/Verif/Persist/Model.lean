import Verif.Graph.Model

/-!
# Model of storing a graph on disk (core/src/graph/mod.rs, lines 207-380 and 651-775)

A location has the sub-folders `current` and `backup`.  A crash is modelled as stopping after some prefix of the file system
steps; single steps are atomic.  A file is visible as torn between the step which opens it for writing and the step which
completes it.  Simplified: the content of a graph is its node annotations and its components (generic types here, instantiated
below), each component is one file, the statistics file is left out, all components are loaded, and the temporary folders with
random names are not represented: renaming `backup` to such a folder and deleting it is one step.
-/

/-- The part of a graph that is stored. -/
structure Content (A C K : Type) where
  annos : A
  comps : OMap C K

inductive FileSt (X : Type)
  | absent
  | torn
  | ok (x : X)

/-- The files of one folder: `nodes_v1.bin`, the folder `gs` (`none` is a torn component) and `update_log.bin`. -/
structure Files (A C K U : Type) where
  annos : FileSt A
  comps : OMap C (Option K)
  log : Option U

/-- A folder with its files and a possible sub-folder that is also named `current`. -/
structure Folder (A C K U : Type) where
  files : Files A C K U
  nested : Option (Files A C K U)

structure Disk (A C K U : Type) where
  current : Option (Folder A C K U)
  backup : Option (Folder A C K U)

/-- The folder which is written to: `location/current` or `location/current/current`. -/
inductive Target
  | current
  | nested

/-- File system steps. -/
inductive Fs (A C K U : Type)
  | renameToBackup
  | mkdir (t : Target)
  | beginAnnos (t : Target)
  | endAnnos (t : Target) (a : A)
  | beginComp (t : Target) (c : C)
  | endComp (t : Target) (c : C) (k : K)
  | dropBackup
  | putLog (u : U)

section
variable {A C K U : Type} [LinearOrder C]

def Files.empty : Files A C K U := ⟨.absent, [], none⟩

def Disk.edit (d : Disk A C K U) (t : Target) (f : Files A C K U → Files A C K U) : Disk A C K U :=
  let folder := d.current.getD ⟨Files.empty, none⟩
  match t with
  | .current => { d with current := some { folder with files := f folder.files } }
  | .nested => { d with current := some { folder with nested := some (f (folder.nested.getD Files.empty)) } }

/-- Effect of a step.  Opening a component for writing makes an existing one unreadable; a new one only becomes visible with
its file `impl.cfg`, which is written last. -/
def Disk.step (d : Disk A C K U) : Fs A C K U → Disk A C K U
  | .renameToBackup => { current := none, backup := d.current }
  | .mkdir t => d.edit t id
  | .beginAnnos t => d.edit t fun f => { f with annos := .torn }
  | .endAnnos t a => d.edit t fun f => { f with annos := .ok a }
  | .beginComp t c => d.edit t fun f =>
    { f with comps := match f.comps.get c with
      | some _ => f.comps.insert c none
      | none => f.comps }
  | .endComp t c k => d.edit t fun f => { f with comps := f.comps.insert c (some k) }
  | .dropBackup => { d with backup := none }
  | .putLog u => d.edit .current fun f => { f with log := some u }

def Disk.exec (d : Disk A C K U) (steps : List (Fs A C K U)) : Disk A C K U := steps.foldl Disk.step d

/-- `internal_save` (graph/mod.rs 352-380). -/
def saveSteps (t : Target) (g : Content A C K) : List (Fs A C K U) :=
  .mkdir t :: .beginAnnos t :: .endAnnos t g.annos :: g.comps.flatMap fun p => [.beginComp t p.1, .endComp t p.1 p.2]

/-- `internal_save_with_backup` (graph/mod.rs 749-775), which is what `background_sync_wal_updates` (733-744) executes. -/
def syncSteps (d : Disk A C K U) (g : Content A C K) : List (Fs A C K U) :=
  (match d.backup with
    | none => [.renameToBackup]
    | some _ => []) ++ saveSteps .current g ++ [.dropBackup]

/-- Reading all components. -/
def loadComps : OMap C (Option K) → Option (OMap C K)
  | [] => some []
  | (_, none) :: _ => none
  | (c, some k) :: r => (loadComps r).map fun r => (c, k) :: r

/-- The loading part of `internal_open` (graph/mod.rs 276-312): node annotations, components, then the log is replayed.
`apply` is `apply_update_in_memory`; `none` is an error. -/
def loadFiles (apply : Content A C K → U → Content A C K × Bool) (f : Files A C K U) : Option (Content A C K) :=
  match f.annos with
  | .ok a =>
    (loadComps f.comps).bind fun comps =>
      match f.log with
      | none => some ⟨a, comps⟩
      | some u =>
        let r := apply ⟨a, comps⟩ u
        if r.2 then some r.1 else none
  | _ => none

/-- `internal_open` (graph/mod.rs 256-329): the loaded graph and the file system steps executed afterwards.  After loading
the backup, `save_to` with the path `location/current` writes to `location/current/current` (line 316 with 335). -/
def openSteps (apply : Content A C K → U → Content A C K × Bool) (d : Disk A C K U) :
    Option (Content A C K × List (Fs A C K U)) :=
  match d.backup with
  | some b => (loadFiles apply b.files).map fun g => (g, saveSteps .nested g ++ [.dropBackup])
  | none => d.current.bind fun f => (loadFiles apply f.files).map fun g => (g, [])

/-- `open` (graph/mod.rs 211-218), without a crash. -/
def openGraph (apply : Content A C K → U → Content A C K × Bool) (d : Disk A C K U) :
    Option (Content A C K × Disk A C K U) :=
  (openSteps apply d).map fun r => (r.1, d.exec r.2)

/-- `apply_update` with a location (graph/mod.rs 651-664 and 687-730): a successful update writes the log, which replaces an
older one (the temporary file is moved atomically); after a failure the graph is loaded again.  `none` is an error of the
latter. -/
def applyUpdate (apply : Content A C K → U → Content A C K × Bool) (g : Content A C K) (d : Disk A C K U) (u : U) :
    Option ((Content A C K × Disk A C K U) × Bool) :=
  let r := apply g u
  if r.2 then some ((r.1, d.step (.putLog u)), true)
  else (openGraph apply d).map fun s => (s, false)

end

section
variable {S V C : Type} [LinearOrder S] [OrderBot S] [LinearOrder V] [LinearOrder C]

/-- `apply_update_in_memory` on the stored part of a graph. -/
def graphApply (nk tk : AnnoKey S) (cap : Nat) (hook : Graph S V C → Event S V C → Bool)
    (g : Content (AnnoStore NodeID64 S V) C (Adj NodeID64 S V)) (u : List (Nat × Event S V C)) :
    Content (AnnoStore NodeID64 S V) C (Adj NodeID64 S V) × Bool :=
  let r := Graph.applyInMemory nk tk cap hook ⟨g.annos, g.comps, 0⟩ u
  (⟨r.1.annos, r.1.comps⟩, r.2)

end
