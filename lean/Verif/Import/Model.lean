import Mathlib.Logic.Function.Basic
/-!
# Import of a corpus into the storage

`CorpusStorage::import_from_fs` (graphannis/src/annis/db/corpusstorage.rs 927-1064) after the file
was parsed.  The result of each file system operation is an arbitrary input of the model, so the
theorems hold for every pattern of failures.

Simplifications: the evictions done by `check_cache_size_and_remove_with_cache` do not change the
directories and are part of C51; only whether a name is in the cache is kept.  An existing
directory that could not be removed keeps an arbitrary rest.
-/
namespace Import

/-- The directory of a corpus: the saved graph (`none`: there is no graph that can be loaded), the
configuration file and the linked files below `files`. -/
structure Dir (G Cfg F : Type) where
  graph : Option G
  config : Option Cfg
  files : List F
  deriving DecidableEq

/-- The corpora on disk and the names in the corpus cache. -/
structure Store (Nm G Cfg F : Type) where
  disk : Nm → Option (Dir G Cfg F)
  cached : Nm → Bool

/-- What the file system answers in one import; `none`: success. -/
structure Io (G Cfg F : Type) where
  /-- the size check of line 992 returns an error -/
  check1 : Bool
  /-- `remove_dir_all` (1006) fails and leaves the given rest -/
  remove : Option (Option (Dir G Cfg F))
  /-- `create_dir_all(db_path)` (1014) fails -/
  create : Bool
  /-- `create_dir_all(files_dir)` (1025) fails -/
  createFiles : Bool
  /-- copying the linked files (1030) fails after the given ones -/
  copy : Option (List F)
  /-- `graph.save_to` (1034) fails; what can be loaded from the directory afterwards -/
  save : Option (Option G)
  /-- writing the configuration (1050) fails -/
  config : Bool
  /-- the size check of line 1057 returns an error -/
  check2 : Bool
  deriving DecidableEq

inductive Err
  | check
  | corpusExists
  | io
  deriving DecidableEq

variable {Nm G Cfg F : Type} [DecidableEq Nm]

/-- Replace the directory of `n`. -/
def Store.setDisk (s : Store Nm G Cfg F) (n : Nm) (d : Option (Dir G Cfg F)) : Store Nm G Cfg F :=
  { s with disk := Function.update s.disk n d }

def Store.setCached (s : Store Nm G Cfg F) (n : Nm) (b : Bool) : Store Nm G Cfg F :=
  { s with cached := Function.update s.cached n b }

/-- Change the directory of `n` if there is one: the single write operations do nothing useful
when the directory could not be created. -/
def Store.edit (s : Store Nm G Cfg F) (n : Nm) (f : Dir G Cfg F → Dir G Cfg F) :
    Store Nm G Cfg F := s.setDisk n ((s.disk n).map f)

/-- Lines 994-1012: remove the old corpus or refuse the import.  An error of `remove_dir_all` is
logged only. -/
def prepare (s : Store Nm G Cfg F) (n : Nm) (overwrite : Bool) (io : Io G Cfg F) :
    Store Nm G Cfg F × Option Err :=
  if overwrite then
    let s := s.setCached n false
    match s.disk n with
    | none => (s, none)
    | some _ =>
      match io.remove with
      | none => (s.setDisk n none, none)
      | some rest => (s.setDisk n rest, none)
  else if s.cached n || (s.disk n).isSome then (s, some .corpusExists)
  else (s, none)

/-- Line 1014: an existing directory is kept, an error is logged only. -/
def createDir (s : Store Nm G Cfg F) (n : Nm) (io : Io G Cfg F) : Store Nm G Cfg F :=
  match s.disk n with
  | some _ => s
  | none => if io.create then s else s.setDisk n (some ⟨none, none, []⟩)

/-- `create_dir_all` of a path in the directory of `n`. -/
def ensureDir (s : Store Nm G Cfg F) (n : Nm) : Store Nm G Cfg F :=
  match s.disk n with
  | some _ => s
  | none => s.setDisk n (some ⟨none, none, []⟩)

/-- Lines 1025-1030: create `files` (which creates the directory of the corpus as well) and copy
the linked files; errors end the import. -/
def copyFiles (s : Store Nm G Cfg F) (n : Nm) (files : List F) (io : Io G Cfg F) :
    Store Nm G Cfg F × Option Err :=
  if io.createFiles then (s, some .io)
  else
    let s := ensureDir s n
    match io.copy with
    | some l => (s.edit n fun d => { d with files := d.files ++ l }, some .io)
    | none => (s.edit n fun d => { d with files := d.files ++ files }, none)

/-- Lines 1034-1041: save the graph; an error is logged only. -/
def saveGraph (s : Store Nm G Cfg F) (n : Nm) (g : G) (io : Io G Cfg F) : Store Nm G Cfg F :=
  match io.save with
  | none => s.edit n fun d => { d with graph := some g }
  | some rest => s.edit n fun d => { d with graph := rest }

/-- `import_from_fs` (corpusstorage.rs 985-1063) for a parsed graph `g` with linked files `files`
and configuration `c`. -/
def importCorpus (s : Store Nm G Cfg F) (n : Nm) (g : G) (c : Cfg) (files : List F)
    (overwrite : Bool) (io : Io G Cfg F) : Store Nm G Cfg F × Except Err Nm :=
  if io.check1 then (s, .error .check)
  else
    match prepare s n overwrite io with
    | (s, some e) => (s, .error e)
    | (s, none) =>
      let s := createDir s n io
      match copyFiles s n files io with
      | (s, some e) => (s, .error e)
      | (s, none) =>
        let s := saveGraph s n g io
        if io.config then (s, .error .io)
        else
          let s := s.edit n fun d => { d with config := some c }
          let s := s.setCached n true
          if io.check2 then (s, .error .check) else (s, .ok n)

/-- Everything works. -/
def Io.good : Io G Cfg F := ⟨false, none, false, false, none, none, false, false⟩

/-- Loading the corpus later: what `get_loaded_entry` finds in the directory. -/
def Store.load (s : Store Nm G Cfg F) (n : Nm) : Option G := (s.disk n).bind Dir.graph

end Import
