import Mathlib.Data.List.Basic
/-!
# Locks of the corpus storage

`graphannis/src/annis/db/corpusstorage.rs` protects its state by three kinds of locks:

* `corpus_cache : RwLock<LinkedHashMap<String, Arc<RwLock<CacheEntry>>>>` (struct `CorpusStorage`),
* one `RwLock<CacheEntry>` for each cache entry (the `Arc` values of that map),
* the `Mutex<usize>` in `active_background_workers`.

All guards are local variables and are released when the block they belong to is left, also when
it is left early by the `?` operator.  The model therefore describes a function by a program with
lexically scoped guards.  What is kept of the code: which guard is taken where, in which mode, and
in which block it lives.  Everything else is replaced by a free choice: both branches of a
conditional are possible, loops run any number of times, every entry of the cache can be any lock,
and every function can leave early at every point.  So each execution of the code is one of the
executions of the model, whatever the graphs, the file system and the queries are.

Not modelled: the condition variable used when the storage is dropped (see `Verif/Storage`, C54;
nobody else can call a function of the storage at that time), locks inside of the disk maps (they
are taken and released inside of a single map operation) and callback functions given by the
caller (see `exportWithCallback` below).
-/
namespace Locks

/-- `CorpusStorage::corpus_cache`, the lock of one cache entry, and
`CorpusStorage::active_background_workers` (corpusstorage.rs 361-372).  Entries are numbered by
the identity of their `Arc`, not by the name of the corpus: after an entry was removed from the
cache and added again it is another lock. -/
inductive Lock
  | cache
  | entry (i : Nat)
  | workers
  deriving DecidableEq

/-- Shared (`RwLock::read`) or exclusive (`RwLock::write`, `Mutex::lock`). -/
inductive Mode
  | read
  | write
  deriving DecidableEq

/-- Programs with scoped guards. -/
inductive Prog
  /-- no lock is used -/
  | skip
  /-- one block after the other -/
  | seq (p q : Prog)
  /-- `let guard = lock.read()?;` (or `write`) and the rest of the block -/
  | scope (m : Mode) (l : Lock) (p : Prog)
  /-- a conditional -/
  | alt (p q : Prog)
  /-- a loop -/
  | many (p : Prog)
  /-- the program uses some entry of the cache -/
  | some (f : Nat → Prog)

namespace Prog
infixr:60 " ;; " => Prog.seq
end Prog
open Prog

/-- What a thread does with locks. -/
inductive Act
  | acq (m : Mode) (l : Lock)
  | rel (l : Lock)
  deriving DecidableEq

/-- `Run p t b`: executing `p` can do the actions `t`; `b` tells whether the end of `p` was
reached (`true`) or the function was left early by `?`, `return` or `break` (`false`).  Guards are
released at the end of their block in both cases.  A guard that was requested can be an error
because the lock is poisoned; the `PoisonError` contains the guard and is dropped when the function
is left, so this is the early end of the block. -/
inductive Run : Prog → List Act → Bool → Prop
  | leave (p : Prog) : Run p [] false
  | skip : Run .skip [] true
  | seqLeave {p q : Prog} {t : List Act} : Run p t false → Run (.seq p q) t false
  | seq {p q : Prog} {t u : List Act} {b : Bool} :
      Run p t true → Run q u b → Run (.seq p q) (t ++ u) b
  | scope {m : Mode} {l : Lock} {p : Prog} {t : List Act} {b : Bool} :
      Run p t b → Run (.scope m l p) (.acq m l :: (t ++ [.rel l])) b
  | altL {p q : Prog} {t : List Act} {b : Bool} : Run p t b → Run (.alt p q) t b
  | altR {p q : Prog} {t : List Act} {b : Bool} : Run q t b → Run (.alt p q) t b
  | manyEnd (p : Prog) : Run (.many p) [] true
  | manyLeave {p : Prog} {t : List Act} : Run p t false → Run (.many p) t false
  | many {p : Prog} {t u : List Act} {b : Bool} :
      Run p t true → Run (.many p) u b → Run (.many p) (t ++ u) b
  | some {f : Nat → Prog} {i : Nat} {t : List Act} {b : Bool} :
      Run (f i) t b → Run (.some f) t b

/-! ## The functions of the storage -/

/-- `for … { matches!(*cache_entry.read()?, …) }` and `entry.read().unwrap()`
(corpusstorage.rs 2655-2659 and 2696-2705): the guards of the entries live for one iteration. -/
def readEntries : Prog := .many (.some fun i => .scope .read (.entry i) .skip)

/-- `get_corpus_cache_info_as_string` (corpusstorage.rs 2689-2716); the caller holds the cache. -/
def cacheInfo : Prog := readEntries

/-- `check_cache_size_and_remove_with_cache` (corpusstorage.rs 2641-2686); the caller holds the
cache.  The guard in line 2657 is a temporary and released before line 2668 asks for the others. -/
def checkCacheWithCache : Prog :=
  .many (.some fun i => .scope .read (.entry i) .skip ;; .alt .skip cacheInfo)

/-- `check_cache_size_and_remove` (corpusstorage.rs 2536-2541). -/
def checkCache : Prog := .scope .write .cache checkCacheWithCache

/-- `report_corpus_cache_info` (corpusstorage.rs 2553-2560). -/
def reportCacheInfo : Prog := .scope .read .cache cacheInfo

/-- `get_entry` (corpusstorage.rs 604-625): first the read lock in its own block, then the write
lock until the end of the function. -/
def getEntry : Prog := .scope .read .cache .skip ;; .scope .write .cache .skip

/-- `load_entry_with_lock` (corpusstorage.rs 627-683); the caller holds the cache. -/
def loadEntryWithLock : Prog :=
  checkCacheWithCache ;; checkCacheWithCache ;; .alt .skip cacheInfo

/-- `get_loaded_entry` (corpusstorage.rs 685-710); `i` is the entry found by `get_entry`. -/
def getLoadedEntry : Prog :=
  getEntry ;;
  .some (fun i => .scope .read (.entry i) .skip) ;;
  .alt (.scope .write .cache loadEntryWithLock) .skip

/-- The two blocks of `get_loaded_entry_with_components` and `get_fully_loaded_entry` after the
call of `get_loaded_entry` (corpusstorage.rs 717-739, 743-767). -/
def loadComponents (i : Nat) : Prog :=
  .scope .read (.entry i) .skip ;; .alt (.scope .write (.entry i) .skip) .skip

/-- `get_loaded_entry_with_components` (corpusstorage.rs 712-740) and `get_fully_loaded_entry`
(742-768) followed by `p` for the entry. -/
def withLoadedComponents (p : Nat → Prog) : Prog :=
  getLoadedEntry ;; .some fun i => loadComponents i ;; p i

/-- `prepare_query` (corpusstorage.rs 1437-1491) followed by `p` for the entry of the prepared
query. -/
def withPreparedQuery (p : Nat → Prog) : Prog :=
  getLoadedEntry ;; .some fun i =>
    .scope .read (.entry i) .skip ;;
    .alt (.scope .write (.entry i) .skip ;; checkCache ;; reportCacheInfo) .skip ;;
    p i

/-- `let lock = db_entry.read()?;` until the end of the block, where only the graph is used. -/
def readEntry (i : Nat) : Prog := .scope .read (.entry i) .skip

/-- `let mut lock = db_entry.write()?;` until the end of the block, where only the graph is
used. -/
def writeEntry (i : Nat) : Prog := .scope .write (.entry i) .skip

/-- `create_corpus_info` (corpusstorage.rs 540-598). -/
def corpusInfo : Prog := getEntry ;; .some readEntry

/-- `import_from_fs` (corpusstorage.rs 927-1064).  The progress callback of lines 941-947 and
959-966 checks the cache size while no guard is held.  The guard of the old entry (1000-1003) is
released at the end of the `if` block. -/
def importFromFs : Prog :=
  .many checkCache ;;
  .scope .write .cache
    (checkCacheWithCache ;;
     .alt (.some writeEntry) .skip ;;
     checkCacheWithCache ;; cacheInfo)

/-- The lock part of `export_corpus_graphml` (corpusstorage.rs 1191-1227) and `export_to_zip`
(1238-1300). -/
def exportLocks : Prog := getLoadedEntry ;; .some fun i => writeEntry i ;; readEntry i

/-- The public functions of `CorpusStorage` that use locks, and the body of the thread that
`apply_update` starts. -/
inductive Op
  | list | info | importAllFromZip | importFromFs | exportToZip | exportToFs | delete
  | createEmptyCorpus | applyUpdate | backgroundSync | preload | unload | reoptimize
  | validateQuery | plan | count | countExtra | find | subgraph | subgraphForQuery
  | subcorpusGraph | corpusGraph | frequency | listComponents | listNodeAnnotations
  | listEdgeAnnotations
  deriving DecidableEq

/-- The lock program of each function. -/
def Op.prog : Op → Prog
  -- 471-480: one `create_corpus_info` for each corpus
  | .list => .many corpusInfo
  -- 600-602
  | .info => corpusInfo
  -- 778-865: one import after the other
  | .importAllFromZip => .many Locks.importFromFs
  -- 927-1064
  | .importFromFs => Locks.importFromFs
  -- 1238-1300
  | .exportToZip => exportLocks
  -- 1308-1358: one export after the other
  | .exportToFs => .many exportLocks
  -- 1361-1390: the guard of the entry lives until the end of the function
  | .delete => .scope .write .cache (.alt (.some writeEntry) .skip)
  -- 1396-1408
  | .createEmptyCorpus => .scope .write .cache (.alt loadEntryWithLock .skip)
  -- 1413-1435: the entry is released before the counter is used
  | .applyUpdate =>
      getLoadedEntry ;; .some writeEntry ;; .scope .write .workers .skip
  -- 2774-2793: the read guard lives until the end of the function (its name is shadowed only)
  | .backgroundSync => .some fun i => .scope .read (.entry i) (.scope .write .workers .skip)
  -- 1494-1505
  | .preload => getLoadedEntry ;; .some writeEntry ;; checkCache ;; reportCacheInfo
  -- 1508-1513
  | .unload => .scope .write .cache .skip
  -- 1519-1533
  | .reoptimize => getLoadedEntry ;; .some writeEntry
  -- 1542-1560, 1566-1590, 1592-1620, 1622-1670: the guard is released in each iteration
  | .validateQuery => .many (withPreparedQuery readEntry)
  | .plan => .many (withPreparedQuery readEntry)
  | .count => .many (withPreparedQuery readEntry)
  | .countExtra => .many (withPreparedQuery readEntry)
  -- 1994-2076 with 1847-1979: the guard lives until the end of `find_in_single_corpus`
  | .find => .many (withPreparedQuery readEntry)
  -- 2096-2112
  | .subgraph => withLoadedComponents readEntry
  -- 2120-2148 with 2719-2744
  | .subgraphForQuery => withPreparedQuery readEntry
  -- 2152-2231 with 2719-2744
  | .subcorpusGraph => withLoadedComponents readEntry
  -- 2235-2268: the components are listed in a block of their own, then they are loaded
  | .corpusGraph => getLoadedEntry ;; .some readEntry ;; withLoadedComponents readEntry
  -- 2274-2356
  | .frequency => .many (withPreparedQuery readEntry)
  -- 2388-2430
  | .listComponents => getEntry ;; .some readEntry
  -- 2437-2479
  | .listNodeAnnotations => getLoadedEntry ;; .some readEntry
  -- 2486-2534
  | .listEdgeAnnotations => withLoadedComponents readEntry

/-- A variant of `export_to_zip` where the caller's progress callback, which the code calls while
the read guard of the entry is held (corpusstorage.rs 1271-1285), calls another function of the
storage. -/
def exportWithCallback (callback : Prog) : Prog :=
  getLoadedEntry ;; .some fun i => writeEntry i ;; .scope .read (.entry i) callback

/-- A client thread: it calls functions one after the other, and a function that was left early
does not stop the client. -/
inductive Client : List Prog → List Act → Prop
  | nil : Client [] []
  | cons {p : Prog} {ps : List Prog} {t u : List Act} {b : Bool} :
      Run p t b → Client ps u → Client (p :: ps) (t ++ u)

/-! ## Threads -/

/-- A thread: the guards it holds (newest first) and what it will do. -/
structure Thread where
  held : List (Mode × Lock)
  todo : List Act

/-- Some thread of `ts` holds `l` in mode `m`. -/
def Holds (ts : List Thread) (m : Mode) (l : Lock) : Prop := ∃ t ∈ ts, (m, l) ∈ t.held

/-- `l` is held by somebody. -/
def Busy (ts : List Thread) (l : Lock) : Prop := ∃ m, Holds ts m l

/-- When `RwLock::read`, `RwLock::write` and `Mutex::lock` can succeed: exclusive requests need a
free lock, shared ones a lock without exclusive holder.  Releasing is always possible. -/
def Grants (ts : List Thread) : Act → Prop
  | .acq .read l => ¬ Holds ts .write l
  | .acq .write l => ¬ Busy ts l
  | .rel _ => True

/-- Some thread is about to ask for `l` exclusively. -/
def WriterWaits (ts : List Thread) (l : Lock) : Prop :=
  ∃ t ∈ ts, ∃ r, t.todo = .acq .write l :: r

/-- When a request *must* succeed.  The documentation of `RwLock` leaves the priority of readers
and writers to the operating system, so a shared request can have to wait already when another
thread is waiting for exclusive access. -/
def MustGrant (ts : List Thread) : Act → Prop
  | .acq .read l => ¬ Holds ts .write l ∧ ¬ WriterWaits ts l
  | a => Grants ts a

/-- The guards after an action. -/
def Act.apply (h : List (Mode × Lock)) : Act → List (Mode × Lock)
  | .acq m l => (m, l) :: h
  | .rel l => h.eraseP fun x => x.2 == l

/-- One thread does its next action. -/
inductive Step : List Thread → List Thread → Prop
  | mk {as bs : List Thread} {h : List (Mode × Lock)} {a : Act} {r : List Act} :
      Grants (as ++ ⟨h, a :: r⟩ :: bs) a →
      Step (as ++ ⟨h, a :: r⟩ :: bs) (as ++ ⟨a.apply h, r⟩ :: bs)

/-- Any number of steps. -/
inductive Steps : List Thread → List Thread → Prop
  | refl (s : List Thread) : Steps s s
  | tail {s t u : List Thread} : Steps s t → Step t u → Steps s u

end Locks
