import Verif.Persist.Model
import Verif.Dfs.Model

/-!
# Model of the corpus storage (graphannis/src/annis/db/corpusstorage.rs)

A corpus is a directory with a stored graph (`Verif/Persist`); cache entries are shared pointers.  Simplified:

* queries return the whole content of the graph instead of something computed from it,
* all components of an opened graph are loaded,
* corpus names stand for their directories (C38), configuration and linked files are left out,
* errors of the file system other than missing files and poisoned locks are left out (poisoned locks: `Verif/Storage/Drop`).
-/

/-- Memory measurements for one call of `check_cache_size_and_remove_with_cache`: the used memory at the start, the maximal size
(`get_max_cache_size`, corpusstorage.rs 2621-2639) and the used memory after each removal; a missing measurement counts as
`usize::MAX` (2648, 2665). -/
structure Mem where
  size : Nat
  max : Nat
  later : List Nat

inductive SErr
  | noSuchCorpus
  | openFailed
  | notLoaded
  | updateFailed
  | corpusExists
  deriving DecidableEq

/-- `CorpusStorage` (corpusstorage.rs 378-385) with its directory.  `heap` contains the cache entries (`none` is
`CacheEntry::NotLoaded`), `cache` the linked hash map from names to entries with the oldest first, `jobs` the background writers
which were started and did not finish. -/
structure Store (Nm A C K U : Type) where
  disk : OMap Nm (Disk A C K U)
  heap : List (Option (Content A C K))
  cache : List (Nm × Nat)
  jobs : List (Nm × Nat)

/-- What the code does with graphs: `apply_update_in_memory`, the graph with default graph storages (corpusstorage.rs 652), and the
content of a graph that could not be loaded again after a failed update. -/
structure GraphOps (A C K U : Type) where
  apply : Content A C K → U → Content A C K × Bool
  fresh : Content A C K
  broken : Content A C K

namespace Store

variable {Nm A C K U : Type} [LinearOrder Nm] [LinearOrder C]

/-- `LinkedHashMap::get`. -/
def cacheGet (l : List (Nm × Nat)) (n : Nm) : Option Nat := (l.find? fun e => e.1 = n).map Prod.snd

/-- `LinkedHashMap::remove`. -/
def cacheRemove (l : List (Nm × Nat)) (n : Nm) : List (Nm × Nat) := l.filter fun e => e.1 ≠ n

/-- The graph of an entry, if it is loaded. -/
def graph (s : Store Nm A C K U) (p : Nat) : Option (Content A C K) := (s.heap[p]?).join

/-- The loop of `check_cache_size_and_remove_with_cache` (corpusstorage.rs 2655-2677). -/
def evictLoop (loaded : Nat → Bool) (keep : List Nm) (max : Nat) : List (Nm × Nat) → Nat → List Nat → List (Nm × Nat)
  | [], _, _ => []
  | e :: r, size, later =>
    if size > max then
      if loaded e.2 ∧ e.1 ∉ keep then evictLoop loaded keep max r (later.headD usizeMax) later.tail
      else e :: evictLoop loaded keep max r size later
    else e :: r

/-- `check_cache_size_and_remove_with_cache` (corpusstorage.rs 2641-2686). -/
def evict (s : Store Nm A C K U) (m : Mem) (keep : List Nm) : Store Nm A C K U :=
  { s with cache := evictLoop (fun p => (s.graph p).isSome) keep m.max s.cache m.size m.later }

/-- `get_entry` (corpusstorage.rs 604-625). -/
def getEntry (s : Store Nm A C K U) (n : Nm) : Store Nm A C K U × Nat :=
  match cacheGet s.cache n with
  | some p => (s, p)
  | none => ({ s with heap := s.heap ++ [none], cache := s.cache ++ [(n, s.heap.length)] }, s.heap.length)

/-- Adding a loaded graph to the cache (corpusstorage.rs 667-682). -/
def addEntry (s : Store Nm A C K U) (n : Nm) (g : Content A C K) (m : Mem) : Store Nm A C K U × Except SErr Nat :=
  (evict { s with heap := s.heap ++ [some g], cache := cacheRemove s.cache n ++ [(n, s.heap.length)] } m [n],
    .ok s.heap.length)

/-- `load_entry_with_lock` (corpusstorage.rs 627-683). -/
def loadEntry (o : GraphOps A C K U) (s : Store Nm A C K U) (n : Nm) (create : Bool) (m1 m2 : Mem) :
    Store Nm A C K U × Except SErr Nat :=
  match s.disk.get n with
  | none =>
    if create then
      let s := s.evict m1 [n]
      addEntry { s with disk := s.disk.insert n (Disk.exec ⟨none, none⟩ (saveSteps .current o.fresh)) } n o.fresh m2
    else (s, .error .noSuchCorpus)
  | some d =>
    let s := s.evict m1 [n]
    match openGraph o.apply d with
    | none => (s, .error .openFailed)
    | some (g, d') => addEntry { s with disk := s.disk.insert n d' } n g m2

/-- `get_loaded_entry` (corpusstorage.rs 685-710). -/
def getLoaded (o : GraphOps A C K U) (s : Store Nm A C K U) (n : Nm) (create : Bool) (m1 m2 : Mem) :
    Store Nm A C K U × Except SErr Nat :=
  let r := s.getEntry n
  if (r.1.graph r.2).isSome then (r.1, .ok r.2) else loadEntry o r.1 n create m1 m2

/-- The part of `apply_update` with the write lock of the entry, and starting the background writer (corpusstorage.rs
1415-1432); `Graph::apply_update` creates a missing directory (core/src/graph/mod.rs 700). -/
def applyEntry (o : GraphOps A C K U) (s : Store Nm A C K U) (n : Nm) (p : Nat) (u : U) : Store Nm A C K U × Except SErr Unit :=
  match s.graph p with
  | none => (s, .error .notLoaded)
  | some g =>
    match applyUpdate o.apply g ((s.disk.get n).getD ⟨none, none⟩) u with
    | none => ({ s with heap := s.heap.set p (some o.broken) }, .error .updateFailed)
    | some ((g', d'), true) =>
      ({ s with heap := s.heap.set p (some g'), disk := s.disk.insert n d', jobs := s.jobs ++ [(n, p)] }, .ok ())
    | some ((g', d'), false) =>
      ({ s with heap := s.heap.set p (some g'),
                disk := if (s.disk.get n).isSome then s.disk.insert n d' else s.disk }, .error .updateFailed)

/-- `sync_wal_updates_in_background` (corpusstorage.rs 2774-2793) for the background writer number `i`.  If there is neither a
folder `current` nor a backup, renaming fails and nothing is written (core/src/graph/mod.rs 758-760). -/
def work (s : Store Nm A C K U) (i : Nat) : Store Nm A C K U :=
  match s.jobs[i]? with
  | none => s
  | some (n, p) =>
    let s := { s with jobs := s.jobs.eraseIdx i }
    match s.graph p, s.disk.get n with
    | some g, some d =>
      if d.backup.isNone ∧ d.current.isNone then s else { s with disk := s.disk.insert n (d.exec (syncSteps d g)) }
    | _, _ => s

/-- Operations of clients and background writers. -/
inductive Op (Nm A C K U : Type)
  | info (n : Nm)
  | list
  | query (n : Nm)
  | update (n : Nm) (u : U)
  | create (n : Nm)
  | delete (n : Nm)
  | unload (n : Nm)
  | import (n : Nm) (g : Content A C K) (overwrite : Bool)
  | work (i : Nat)

/-- Results; the load status in the result of `info` is left out. -/
inductive Out (Nm A C K : Type)
  | unit
  | bool (b : Bool)
  | names (l : List Nm)
  | graph (g : Content A C K)
  | err (e : SErr)

/-- One operation.  The memory measurements are used for the calls of `check_cache_size_and_remove_with_cache` in their order:
`info` 540-597, `list` 471-481, queries with `prepare_query` 1437-1491 (the last check is only made after loading components, which
is the same as a measurement below the limit), `apply_update` 1413-1435, `create_empty_corpus` 1396-1408, `delete` 1361-1390,
`unload` 1508-1513, `import_from_fs` 988-1063. -/
def step (o : GraphOps A C K U) (s : Store Nm A C K U) (m1 m2 m3 : Mem) : Op Nm A C K U → Store Nm A C K U × Out Nm A C K
  | .info n => ((s.getEntry n).1, .unit)
  | .list => (s.disk.keys.foldl (fun s n => (s.getEntry n).1) s, .names s.disk.keys)
  | .query n =>
    match getLoaded o s n false m1 m2 with
    | (s, .error e) => (s, .err e)
    | (s, .ok p) =>
      match s.graph p with
      | none => (s, .err .notLoaded)
      | some g => (s.evict m3 [n], .graph g)
  | .update n u =>
    match getLoaded o s n true m1 m2 with
    | (s, .error e) => (s, .err e)
    | (s, .ok p) =>
      match applyEntry o s n p u with
      | (s, .error e) => (s, .err e)
      | (s, .ok _) => (s, .unit)
  | .create n =>
    if (cacheGet s.cache n).isSome ∨ (s.disk.get n).isSome then (s, .bool false)
    else
      match loadEntry o s n true m1 m2 with
      | (s, .error e) => (s, .err e)
      | (s, .ok _) => (s, .bool true)
  | .delete n =>
    ({ s with cache := cacheRemove s.cache n, disk := s.disk.erase n },
      .bool ((s.disk.get n).isSome || (cacheGet s.cache n).isSome))
  | .unload n => ({ s with cache := cacheRemove s.cache n }, .unit)
  | .import n g overwrite =>
    let s := s.evict m1 []
    if !overwrite ∧ ((cacheGet s.cache n).isSome ∨ (s.disk.get n).isSome) then (s, .err .corpusExists)
    else
      let s : Store Nm A C K U := { s with
        disk := s.disk.insert n (Disk.exec ⟨none, none⟩ (saveSteps .current g))
        heap := s.heap ++ [none]
        cache := cacheRemove s.cache n ++ [(n, s.heap.length)] }
      (s.evict m2 [n], .unit)
  | .work i => (s.work i, .unit)

/-- A sequence of operations with the measurements for each. -/
def run (o : GraphOps A C K U) : Store Nm A C K U → List ((Mem × Mem × Mem) × Op Nm A C K U) → Store Nm A C K U × List (Out Nm A C K)
  | s, [] => (s, [])
  | s, (m, op) :: r =>
    let x := step o s m.1 m.2.1 m.2.2 op
    let y := run o x.1 r
    (y.1, x.2 :: y.2)

end Store
