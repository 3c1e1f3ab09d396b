/-!
# The lock file of a corpus storage (C118)

`create_lockfile_for_directory` (graphannis/src/annis/db/corpusstorage.rs 2747-2772) and the end of `Drop for CorpusStorage`
(2576-2598), executed by any number of processes for the same directory in any interleaving.

Simplifications: creating the directory and opening the file do not fail; nobody else touches the file; removing a name does not
affect descriptors that are already open, as on Unix; a lock belongs to the file a descriptor was opened for and not to its name
(`flock`, which the crate fs2 uses).  A process that crashes, or whose `unlock` fails, loses its lock without removing the file.
-/

namespace LockFile

/-- What a process is doing: nothing yet, between `open` (2759) and `try_lock_exclusive` (2764), having a storage (from the end of
`create_lockfile_for_directory`, 2771, to `unlock`, 2577), between `unlock` and `exists` (2591), between `exists` and `remove_file`
(2593), done.  The number is the file that its descriptor refers to. -/
inductive Phase
  | idle
  | opened (file : Nat)
  | open_ (file : Nat)
  | unlocked
  | removing
  | done
  deriving DecidableEq

/-- The name `db.lock` refers to `path` if it exists; files with a number from `next` on do not exist yet; `owner` is the process that
has the exclusive lock of a file. -/
structure State where
  path : Option Nat
  next : Nat
  owner : Nat → Option Nat
  phase : Nat → Phase

/-- No process did anything and there is no lock file. -/
def init : State := ⟨none, 0, fun _ => none, fun _ => .idle⟩

/-- The steps of process `i`: `open` with `create(true)` (2754-2763), `try_lock_exclusive` (2764-2769), `unlock` (2577), the condition
`exists() && is_file()` (2591-2592), `remove_file` (2593), and a crash (no line). -/
inductive Act
  | open_ (i : Nat)
  | lock (i : Nat)
  | unlock (i : Nat)
  | check (i : Nat)
  | remove (i : Nat)
  | crash (i : Nat)
  deriving DecidableEq

/-- Process `i` goes on to `p`. -/
def State.goto (s : State) (i : Nat) (p : Phase) : State := { s with phase := fun j => if j = i then p else s.phase j }

/-- The lock of a file is given to a process or to nobody. -/
def State.give (s : State) (file : Nat) (o : Option Nat) : State := { s with owner := fun f => if f = file then o else s.owner f }

/-- One step (corpusstorage.rs 2576-2598, 2747-2772); `none` if the process can not do it now. -/
def step (s : State) : Act → Option State
  | .open_ i => match s.phase i with
    | .idle => match s.path with
      | some f => some (s.goto i (.opened f))
      | none => some ({ s with path := some s.next, next := s.next + 1 }.goto i (.opened s.next))
    | _ => none
  | .lock i => match s.phase i with
    | .opened f => match s.owner f with
      | none => some ((s.give f (some i)).goto i (.open_ f))
      | some _ => some (s.goto i .done)
    | _ => none
  | .unlock i => match s.phase i with
    | .open_ f => some ((s.give f none).goto i .unlocked)
    | _ => none
  | .check i => match s.phase i with
    | .unlocked => some (s.goto i (if s.path.isSome then .removing else .done))
    | _ => none
  | .remove i => match s.phase i with
    | .removing => some ({ s with path := none }.goto i .done)
    | _ => none
  | .crash i => match s.phase i with
    | .open_ f => some ((s.give f none).goto i .done)
    | _ => some (s.goto i .done)

/-- The state after some steps. -/
def run (s : State) : List Act → Option State
  | [] => some s
  | a :: r => match step s a with
    | some s' => run s' r
    | none => none

/-- Process `i` has a storage that is in use. -/
def State.InUse (s : State) (i : Nat) : Prop := ∃ f, s.phase i = .open_ f

/-- Process `i` opened the lock file and did not try to lock it yet. -/
def State.Opening (s : State) (i : Nat) : Prop := ∃ f, s.phase i = .opened f

/-- Process `i` released its lock and did not yet remove the lock file. -/
def State.Closing (s : State) (i : Nat) : Prop := s.phase i = .unlocked ∨ s.phase i = .removing

end LockFile
