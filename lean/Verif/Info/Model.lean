import Verif.Load.Model

/-!
# Information about corpora and what is in memory

`list`, `list_from_disk`, `get_corpus_config`, `create_corpus_info`, `info`, `get_entry`, `load_entry_with_lock`, `get_loaded_entry`,
`get_loaded_entry_with_components`, `get_fully_loaded_entry`, `preload`, `unload`, `delete` and the loading part of `prepare_query`
(graphannis/src/annis/db/corpusstorage.rs).

Simplified: one thread; the content of the directories changes only by `delete`, and they have no outstanding log or backup (C27, C28);
which entries are removed from the cache because of its size is arbitrary (C51 has the measurements), so the order of the
cache does not matter; corpus names stand for their directories (C38); statistics are left out.
-/

namespace Info

open Load

variable {Nm S σ E Cfg : Type} [LinearOrder Nm] [LinearOrder S] [OrderBot S]

/-- The directory of a corpus: the components that `find_components_from_disk` finds, the outcome of reading each of them, an error
of opening the graph (node annotations), and the outcome of reading `corpus-config.toml` if this file exists. -/
structure Dir (S σ E Cfg : Type) where
  comps : List (CKey S)
  files : CKey S → Except E σ
  openError : Option E
  config : Option (Except E Cfg)

/-- `CorpusStorage` (corpusstorage.rs 378-385): the data directory and the cache; `some none` is `CacheEntry::NotLoaded` (73-76). -/
structure State (Nm S σ E Cfg : Type) where
  disk : OMap Nm (Dir S σ E Cfg)
  cache : Nm → Option (Option (Comps S σ))

inductive Err (E : Type)
  | noSuchCorpus
  | io (e : E)
  | config (e : E)
  | query (e : E)

/-- `LoadStatus` (corpusstorage.rs 79-88). -/
inductive Status
  | notLoaded
  | partiallyLoaded
  | fullyLoaded
  deriving DecidableEq

/-- `GraphStorageInfo` (corpusstorage.rs 91-102) without statistics. -/
structure GsInfo (S : Type) where
  component : CKey S
  status : Status
  annotations : Nat
  implementation : Str

/-- `CorpusInfo` (corpusstorage.rs 127-140) without global statistics. -/
structure CInfo (Nm S Cfg : Type) where
  name : Nm
  status : Status
  graphstorages : List (GsInfo S)
  config : Cfg

/-- What is read from a storage in memory: `number_of_annotations` and `serialization_id`. -/
structure Reads (σ E : Type) where
  count : σ → Except E Nat
  impl : σ → Str

namespace State

/-- `get_entry` (corpusstorage.rs 604-625). -/
def getEntry (s : State Nm S σ E Cfg) (n : Nm) : State Nm S σ E Cfg × Option (Comps S σ) :=
  match s.cache n with
  | some e => (s, e)
  | none => ({ s with cache := Function.update s.cache n (some none) }, none)

/-- `check_cache_size_and_remove_with_cache` (corpusstorage.rs 2641-2686): removes those entries of `rm` that are loaded and not kept. -/
def evict (s : State Nm S σ E Cfg) (rm : List Nm) (keep : Nm) : State Nm S σ E Cfg :=
  { s with cache := fun n => match s.cache n with
    | some (some g) => if n ∈ rm ∧ n ≠ keep then none else some (some g)
    | e => e }

/-- The components of a graph that was opened (core/src/graph/mod.rs 295-298). -/
def opened (d : Dir S σ E Cfg) : Comps S σ := d.comps.foldl (fun g c => OMap.insert g c none) []

/-- `load_entry_with_lock` without creation (corpusstorage.rs 627-683). -/
def loadEntry (s : State Nm S σ E Cfg) (n : Nm) (rm1 rm2 : List Nm) : State Nm S σ E Cfg × Except (Err E) (Comps S σ) :=
  match s.disk.get n with
  | none => (s, .error .noSuchCorpus)
  | some d =>
    let s := s.evict rm1 n
    match d.openError with
    | some e => (s, .error (.io e))
    | none => (evict { s with cache := Function.update s.cache n (some (some (opened d))) } rm2 n, .ok (opened d))

/-- `get_loaded_entry` without creation (corpusstorage.rs 685-710). -/
def getLoaded (s : State Nm S σ E Cfg) (n : Nm) (rm1 rm2 : List Nm) : State Nm S σ E Cfg × Except (Err E) (Comps S σ) :=
  match s.getEntry n with
  | (s, some g) => (s, .ok g)
  | (s, none) => s.loadEntry n rm1 rm2

/-- The outcome of reading a component of the corpus; only asked for components that were found. -/
def files (s : State Nm S σ E Cfg) (n : Nm) (c : CKey S) : Except (Err E) σ :=
  match s.disk.get n with
  | none => .error .noSuchCorpus
  | some d => match d.files c with
    | .ok x => .ok x
    | .error e => .error (.io e)

/-- Loading components into the entry (`ensure_loaded_parallel`, `ensure_loaded`); what was loaded before an error stays. -/
def load (s : State Nm S σ E Cfg) (n : Nm) (g : Comps S σ) (cs : List (CKey S)) : State Nm S σ E Cfg × Except (Err E) Unit :=
  let r := ensureLoaded (s.files n) g cs
  ({ s with cache := Function.update s.cache n (some (some r.1)) }, r.2.map fun _ => ())

/-- `preload` (corpusstorage.rs 1492-1504). -/
def preload (s : State Nm S σ E Cfg) (n : Nm) (rm1 rm2 rm3 : List Nm) : State Nm S σ E Cfg × Except (Err E) Unit :=
  match s.getLoaded n rm1 rm2 with
  | (s, .error e) => (s, .error e)
  | (s, .ok g) =>
    match s.load n g ((g.filter fun e => e.2.isNone).map Prod.fst) with
    | (s, .error e) => (s, .error e)
    | (s, .ok _) => (s.evict rm3 n, .ok ())

/-- The loading part of `prepare_query` (corpusstorage.rs 1437-1487), of `get_loaded_entry_with_components` (712-740) and of
`get_fully_loaded_entry` (742-766); `q` gives the missing components for a loaded graph, or is the error of the parser. -/
def use (s : State Nm S σ E Cfg) (n : Nm) (q : Except E (Comps S σ → List (CKey S))) (rm1 rm2 rm3 : List Nm) :
    State Nm S σ E Cfg × Except (Err E) Unit :=
  match s.getLoaded n rm1 rm2 with
  | (s, .error e) => (s, .error e)
  | (s, .ok g) =>
    match q with
    | .error e => (s, .error (.query e))
    | .ok needs =>
      match s.load n g (needs g) with
      | (s, .error e) => (s, .error e)
      | (s, .ok _) => (s.evict rm3 n, .ok ())

/-- `unload` (corpusstorage.rs 1507-1512). -/
def unload (s : State Nm S σ E Cfg) (n : Nm) : State Nm S σ E Cfg := { s with cache := Function.update s.cache n none }

/-- `delete` (corpusstorage.rs 1361-1390). -/
def delete (s : State Nm S σ E Cfg) (n : Nm) : State Nm S σ E Cfg := { disk := s.disk.erase n, cache := Function.update s.cache n none }

end State

/-- `get_corpus_config` with `unwrap_or_default` (corpusstorage.rs 514-526, 544-551). -/
def readConfig (dflt : Cfg) (d : Option (Dir S σ E Cfg)) : Except (Err E) Cfg :=
  match d.bind Dir.config with
  | none => .ok dflt
  | some (.ok c) => .ok c
  | some (.error e) => .error (.config e)

/-- The loop over the components (corpusstorage.rs 558-580); `st` is the variable `load_status`. -/
def gsLoop (r : Reads σ E) (g : Comps S σ) : List (CKey S) → Status → Except (Err E) (Status × List (GsInfo S))
  | [], st => .ok (st, [])
  | c :: cs, st =>
    match getGs g c with
    | some x =>
      match r.count x with
      | .error e => .error (.io e)
      | .ok k => (gsLoop r g cs st).map fun p => (p.1, ⟨c, .fullyLoaded, k, r.impl x⟩ :: p.2)
    | none => (gsLoop r g cs .partiallyLoaded).map fun p => (p.1, ⟨c, .notLoaded, 0, []⟩ :: p.2)

/-- `create_corpus_info` (corpusstorage.rs 540-597), which is `info` (600-602). -/
def info (r : Reads σ E) (dflt : Cfg) (s : State Nm S σ E Cfg) (n : Nm) : State Nm S σ E Cfg × Except (Err E) (CInfo Nm S Cfg) :=
  ((s.getEntry n).1,
    match readConfig dflt ((s.getEntry n).1.disk.get n) with
    | .error e => .error e
    | .ok cfg =>
      match (s.getEntry n).2 with
      | none => .ok ⟨n, .notLoaded, [], cfg⟩
      | some g => (gsLoop r g (allComps g none none) .fullyLoaded).map fun p => ⟨n, p.1, p.2, cfg⟩)

/-- The loop of `list` (corpusstorage.rs 475-478). -/
def listLoop (r : Reads σ E) (dflt : Cfg) : State Nm S σ E Cfg → List Nm → State Nm S σ E Cfg × Except (Err E) (List (CInfo Nm S Cfg))
  | s, [] => (s, .ok [])
  | s, n :: ns =>
    match info r dflt s n with
    | (s, .error e) => (s, .error e)
    | (s, .ok i) =>
      match listLoop r dflt s ns with
      | (s, .error e) => (s, .error e)
      | (s, .ok l) => (s, .ok (i :: l))

/-- `list` (corpusstorage.rs 471-481): `ord` is the order of the directories; if the data directory can not be read, there are no corpora. -/
def list (r : Reads σ E) (dflt : Cfg) (s : State Nm S σ E Cfg) (readable : Bool) (ord : List Nm → List Nm) :
    State Nm S σ E Cfg × Except (Err E) (List (CInfo Nm S Cfg)) :=
  listLoop r dflt s (if readable then ord s.disk.keys else [])

/-- The operations. -/
inductive Op (Nm S σ E : Type)
  | info (n : Nm)
  | list (readable : Bool) (ord : List Nm → List Nm)
  | preload (n : Nm) (rm1 rm2 rm3 : List Nm)
  | use (n : Nm) (q : Except E (Comps S σ → List (CKey S))) (rm1 rm2 rm3 : List Nm)
  | unload (n : Nm)
  | delete (n : Nm)

/-- The state after an operation. -/
def step (r : Reads σ E) (dflt : Cfg) (s : State Nm S σ E Cfg) : Op Nm S σ E → State Nm S σ E Cfg
  | .info n => (info r dflt s n).1
  | .list readable ord => (list r dflt s readable ord).1
  | .preload n a b c => (s.preload n a b c).1
  | .use n q a b c => (s.use n q a b c).1
  | .unload n => s.unload n
  | .delete n => s.delete n

/-- A sequence of operations. -/
def run (r : Reads σ E) (dflt : Cfg) (s : State Nm S σ E Cfg) (ops : List (Op Nm S σ E)) : State Nm S σ E Cfg := ops.foldl (step r dflt) s

end Info
