import Verif.Rel.Properties
import Verif.Capi.Model
import Verif.Find.Model

/-!
# Model of the command line (cli/src/bin/annis.rs)

The corpus storage is a transition system: it gets requests in a state and gives an answer, or an error, and a new state.  Each
request is also added to a trace, so that theorems can speak about what the storage was asked.  Not modelled: the printed texts,
the history of the terminal, measured times, the log and the arguments of the program.
-/

namespace Cli

/-! ## Requests to the corpus storage -/

/-- `ImportFormat` (corpusstorage.rs 241-247). -/
inductive ImportFormat | relANNIS | graphML
deriving DecidableEq

/-- `ExportFormat` (corpusstorage.rs 252-260). -/
inductive ExportFormat | graphML | graphMLZip | graphMLDirectory
deriving DecidableEq

/-- `SearchQuery` (corpusstorage.rs 362-371); the language is `AQLQuirksV3` if `quirks`, otherwise `AQL`; a time in seconds. -/
structure SearchQuery where
  corpora : List Str
  query : Str
  quirks : Bool
  timeout : Option Nat
deriving DecidableEq

/-- The calls of functions of `CorpusStorage`. -/
inductive Request
  | openStorage (parallel : Bool)
  | importZip (path : Str) (disk : Bool)
  | importFs (path : Str) (format : ImportFormat) (name : Option Str) (disk : Bool)
  | exportFs (corpora : List Str) (path : Str) (format : ExportFormat)
  | reoptimize (corpus : Str) (disk : Bool)
  | list
  | delete (corpus : Str)
  | info (corpus : Str)
  | preload (corpus : Str)
  | plan (corpora : List Str) (query : Str) (quirks : Bool)
  | count (q : SearchQuery)
  | find (q : SearchQuery) (offset : Nat) (limit : Option Nat) (order : ResultOrder)
  | frequency (q : SearchQuery) (defs : List Capi.FreqDef)
deriving DecidableEq

/-- The environment: the corpus storage and the file system.  An answer is a list of names, which is only used for `list`. -/
structure Env (W : Type) where
  /-- a call of a function; `none`: it returns an error -/
  call : W → Request → Option (List Str) × W
  /-- `CorpusStorage::with_auto_cache_size`; `none`: it returns an error -/
  reopen : W → Bool → Option W
  /-- `Path::exists` -/
  pathExists : W → Str → Bool
  /-- whether `File::open` is successful -/
  fileOpens : W → Str → Bool

/-- The errors of a command. -/
inductive Err | missing | noStorage | storage | notANumber | unknownOrder | unknownArgument | unknownCommand | io | notSingle
deriving DecidableEq

/-- `AnnisRunner` (annis.rs 123-134); `opened`: `storage` is not `None`. -/
structure St (W : Type) where
  world : W
  opened : Bool := true
  sel : List Str := []
  offset : Nat := 0
  limit : Option Nat := none
  order : ResultOrder := .normal
  parallel : Bool := true
  disk : Bool := false
  quirks : Bool := false
  timeout : Option Nat := none
  trace : List Request := []

variable {W : Type}

/-- The result of a command: the error, if there is one. -/
abbrev Res := Option Err

/-- `self.storage.as_ref().ok_or_else(..)?.f(..)?`. -/
def ask (env : Env W) (st : St W) (r : Request) : St W × Except Err (List Str) :=
  if st.opened then
    ({ st with world := (env.call st.world r).2, trace := st.trace ++ [r] },
      match (env.call st.world r).1 with
      | some a => .ok a
      | none => .error .storage)
  else (st, .error .noStorage)

/-- A request whose answer is not used. -/
def ask_ (env : Env W) (st : St W) (r : Request) : St W × Res :=
  match ask env st r with
  | (st, .ok _) => (st, none)
  | (st, .error e) => (st, some e)

/-- One request after the other up to the first error: the loops of `reoptimize`, `info` and `preload`. -/
def askAll (env : Env W) (st : St W) : List Request → St W × Res
  | [] => (st, none)
  | r :: rs =>
    match ask_ env st r with
    | (st, none) => askAll env st rs
    | (st, some e) => (st, some e)

/-! ## Paths -/

/-- The part after the last dot, without the dot, if there is a dot after the first character. -/
def lastDot : Str → Option Str
  | [] => none
  | _ :: r => if '.' ∈ r then (splitAll '.' r).getLast? else none

/-- `Path::extension`: of the last component if that is a name.  Simplified: `/` is the only separator. -/
def extension (path : Str) : Option Str :=
  match ((splitAll '/' path).filter fun s => s ≠ [] ∧ s ≠ ['.']).getLast? with
  | none => none
  | some s => if s = ['.', '.'] then none else lastDot s

/-! ## Commands -/

/-- `str::split_ascii_whitespace`: the separators. -/
def isAsciiWs (c : Char) : Bool := c == ' ' || c == '\t' || c == '\n' || c == '\r' || c.toNat == 12

/-- `str::split_ascii_whitespace`; `cur` is the part of the current word that was already read. -/
def asciiWordsFrom (cur : Str) : Str → List Str
  | [] => if cur = [] then [] else [cur]
  | c :: r =>
    if isAsciiWs c then (if cur = [] then asciiWordsFrom [] r else cur :: asciiWordsFrom [] r)
    else asciiWordsFrom (cur ++ [c]) r

def asciiWords (s : Str) : List Str := asciiWordsFrom [] s

/-- The commands. -/
inductive Cmd
  | importCmd | exportCmd | list | delete | corpus | setOffset | setLimit | setOrder | setTimeout | preload | plan | reoptimize
  | count | find | frequency | setParallel | setDisk | setQuirks | info | quit
deriving DecidableEq

/-- The arms of the `match` in `exec` (annis.rs 208-229). -/
def cmdTable : List (Str × Cmd) :=
  [("import".toList, .importCmd), ("export".toList, .exportCmd), ("list".toList, .list), ("delete".toList, .delete),
    ("corpus".toList, .corpus), ("set-offset".toList, .setOffset), ("set-limit".toList, .setLimit),
    ("set-order".toList, .setOrder), ("set-timeout".toList, .setTimeout), ("preload".toList, .preload),
    ("plan".toList, .plan), ("re-optimize".toList, .reoptimize), ("count".toList, .count), ("find".toList, .find),
    ("frequency".toList, .frequency), ("set-parallel-search".toList, .setParallel), ("set-disk-based".toList, .setDisk),
    ("set-quirks-mode".toList, .setQuirks), ("info".toList, .info), ("quit".toList, .quit), ("exit".toList, .quit)]

/-- `import` (annis.rs 239-305).  The first check is never true, because `split` gives at least one part. -/
def importCmd (env : Env W) (st : St W) (args : Str) : St W × Res :=
  let parts := splitAll ' ' args
  if parts = [] then (st, some .missing)
  else
    let path := parts.headD []
    if env.pathExists st.world path then
      let ext := (extension path).map Rel.lower
      if ext = some "zip".toList then
        if env.fileOpens st.world path then ask_ env st (.importZip path st.disk) else (st, some .io)
      else
        ask_ env st (.importFs path
          (if ext = some "graphml".toList ∨ ext = some "xml".toList then .graphML else .relANNIS) parts[1]? st.disk)
    else (st, none)

/-- `export_graphml` (annis.rs 307-343). -/
def exportCmd (env : Env W) (st : St W) (args : Str) : St W × Res :=
  let parts := splitAll ' ' args
  if parts = [] then (st, some .missing)
  else
    let path := parts.headD []
    match extension path with
    | some ext =>
      if Rel.lower ext = "zip".toList then ask_ env st (.exportFs st.sel path .graphMLZip)
      else if ext = ".graphml".toList ∧ st.sel.length ≠ 1 then (st, some .notSingle)
      else ask_ env st (.exportFs st.sel path .graphML)
    | none => ask_ env st (.exportFs st.sel path .graphMLDirectory)

/-- `delete` (annis.rs 374-387). -/
def deleteCmd (env : Env W) (st : St W) (args : Str) : St W × Res :=
  if args = [] then (st, some .missing) else ask_ env st (.delete args)

/-- `corpus` (annis.rs 389-413). -/
def corpusCmd (env : Env W) (st : St W) (args : Str) : St W × Res :=
  if args = [] then ({ st with sel := [] }, none)
  else
    match ask env st .list with
    | (st, .error e) => (st, some e)
    | (st, .ok names) => ({ st with sel := (asciiWords args).filter (· ∈ names) }, none)

/-- `set_offset` (annis.rs 415-422). -/
def setOffset (st : St W) (args : Str) : St W × Res :=
  if args = [] then ({ st with offset := 0 }, none)
  else
    match Rel.parseUsize (Rel.trimStr args) with
    | some n => ({ st with offset := n }, none)
    | none => (st, some .notANumber)

/-- `set_limit` (annis.rs 424-431). -/
def setLimit (st : St W) (args : Str) : St W × Res :=
  if args = [] then ({ st with limit := none }, none)
  else
    match Rel.parseUsize (Rel.trimStr args) with
    | some n => ({ st with limit := some n }, none)
    | none => (st, some .notANumber)

/-- `set_order` (annis.rs 433-455).  `to_lowercase` is `Rel.lower`: no character outside of ASCII becomes one of the letters of the
words it is compared with. -/
def setOrder (st : St W) (args : Str) : St W × Res :=
  if args = [] then ({ st with order := .normal }, none)
  else if Rel.lower args = "normal".toList then ({ st with order := .normal }, none)
  else if Rel.lower args = "inverted".toList then ({ st with order := .inverted }, none)
  else if Rel.lower args = "random".toList then ({ st with order := .randomized }, none)
  else if Rel.lower args = "unsorted".toList then ({ st with order := .notSorted }, none)
  else (st, some .unknownOrder)

/-- `set_timeout` (annis.rs 457-467). -/
def setTimeout (st : St W) (args : Str) : St W × Res :=
  if args = [] then ({ st with timeout := none }, none)
  else
    match Rel.parseNat Rel.u64Max (Rel.trimStr args) with
    | some n => ({ st with timeout := some n }, none)
    | none => (st, some .notANumber)

/-- `create_query_from_args` (annis.rs 530-537). -/
def queryOf (st : St W) (query : Str) : SearchQuery := ⟨st.sel, query, st.quirks, st.timeout⟩

/-- The commands which only print a hint if no corpus is selected. -/
def ifSelected (st : St W) (f : St W × Res) : St W × Res := if st.sel = [] then (st, none) else f

/-- `frequency` (annis.rs 590-650). -/
def frequencyCmd (env : Env W) (st : St W) (args : Str) : St W × Res :=
  match splitOnce ' ' args with
  | none => (st, none)
  | some (defs, query) => ask_ env st (.frequency (queryOf st query) ((splitAll ',' defs).filterMap Capi.parseDef))

/-- The value of a switch (annis.rs 653-657, 682-686, 693-697). -/
def onOff (args : Str) : Option Bool :=
  let a := Rel.lower (Rel.trimStr args)
  if a = "on".toList ∨ a = "true".toList then some true
  else if a = "off".toList ∨ a = "false".toList then some false
  else none

/-- `use_parallel` (annis.rs 652-679). -/
def setParallel (env : Env W) (st : St W) (args : Str) : St W × Res :=
  match onOff args with
  | none => (st, some .unknownArgument)
  | some v =>
    if st.parallel ≠ v then
      match env.reopen st.world v with
      | some w => ({ st with world := w, opened := true, parallel := v, trace := st.trace ++ [.openStorage v] }, none)
      | none => ({ st with opened := false, trace := st.trace ++ [.openStorage v] }, some .storage)
    else (st, none)

/-- `use_disk` (annis.rs 681-690). -/
def setDisk (st : St W) (args : Str) : St W × Res :=
  match onOff args with
  | some v => ({ st with disk := v }, none)
  | none => (st, some .unknownArgument)

/-- `quirks_mode` (annis.rs 692-715). -/
def setQuirks (st : St W) (args : Str) : St W × Res :=
  match onOff args with
  | some v => ({ st with quirks := v }, none)
  | none => (st, some .unknownArgument)

/-- The functions that `exec` calls; `reoptimize` annis.rs 345-354, `list` 356-372, `info` 469-488, `preload` 490-508, `plan`
510-528, `count` 539-560, `find` 562-588. -/
def runCmd (env : Env W) (st : St W) (args : Str) : Cmd → St W × Res
  | .importCmd => importCmd env st args
  | .exportCmd => exportCmd env st args
  | .list => ask_ env st .list
  | .delete => deleteCmd env st args
  | .corpus => corpusCmd env st args
  | .setOffset => setOffset st args
  | .setLimit => setLimit st args
  | .setOrder => setOrder st args
  | .setTimeout => setTimeout st args
  | .preload => ifSelected st (askAll env st (st.sel.map .preload))
  | .plan => ifSelected st (ask_ env st (.plan st.sel args st.quirks))
  | .reoptimize => askAll env st (st.sel.map (.reoptimize · st.disk))
  | .count => ifSelected st (ask_ env st (.count (queryOf st args)))
  | .find => ifSelected st (ask_ env st (.find (queryOf st args) st.offset st.limit st.order))
  | .frequency => ifSelected st (frequencyCmd env st args)
  | .setParallel => setParallel env st args
  | .setDisk => setDisk st args
  | .setQuirks => setQuirks st args
  | .info => ifSelected st (askAll env st (st.sel.map .info))
  | .quit => (st, none)

/-- The command and its argument (annis.rs 199-207). -/
def cmdArgs (line : Str) : Str × Str :=
  match splitOnce ' ' line with
  | some p => p
  | none => (line, [])

/-- `exec` (annis.rs 198-237): the new state, the printed error, and whether the loop goes on. -/
def exec (env : Env W) (st : St W) (line : Str) : St W × Res × Bool :=
  match cmdTable.lookup (cmdArgs line).1 with
  | some .quit => (st, none, false)
  | some c => ((runCmd env st (cmdArgs line).2 c).1, (runCmd env st (cmdArgs line).2 c).2, true)
  | none => (st, some .unknownCommand, true)

/-- The commands given with `-c` (annis.rs 777-780): the value of `exec` is not used. -/
def runCommands (env : Env W) (st : St W) (lines : List Str) : St W := lines.foldl (fun st l => (exec env st l).1) st

/-- `start_loop` (annis.rs 152-196) for the lines that the user enters until the end of the input. -/
def runLoop (env : Env W) (st : St W) : List Str → St W
  | [] => st
  | l :: ls => if (exec env st l).2.2 then runLoop env (exec env st l).1 ls else (exec env st l).1

/-- `AnnisRunner::new` (annis.rs 137-150); `none`: the storage cannot be opened and the program ends. -/
def start (env : Env W) (w : W) : Option (St W) :=
  (env.reopen w true).map fun w => { world := w, trace := [.openStorage true] }

/-! ## Completion -/

/-- `ConsoleHelper::new` (annis.rs 41-70); the set is ordered, which is of no importance here. -/
def knownCommands : List Str :=
  ["import".toList, "export".toList, "list".toList, "delete".toList, "corpus".toList, "set-offset".toList, "set-limit".toList,
    "set-order".toList, "set-timeout".toList, "preload".toList, "count".toList, "find".toList, "frequency".toList,
    "plan".toList, "re-optimize".toList, "set-disk-based".toList, "set-parallel-search".toList, "set-quirks-mode".toList,
    "info".toList, "quit".toList, "exit".toList]

/-- The result of the completer: the place from which on the line up to the cursor is replaced, and the candidates. -/
inductive Completion
  | files
  | at (start : Nat) (candidates : List Str)
  /-- the subtraction overflows: a panic with debug assertions, otherwise a place behind the end of the line -/
  | overflow
deriving DecidableEq

/-- The part after the last space, if there is one. -/
def afterLastSpace (line : Str) : Option Str := if ' ' ∈ line then (splitAll ' ' line).getLast? else none

/-- `complete` (annis.rs 76-120); `pos` counts bytes.  The completion of file names is a function of the library. -/
def complete (corpora : List Str) (line : Str) (pos : Nat) : Completion :=
  if "import ".toList <+: line ∨ "export ".toList <+: line then .files
  else if "corpus ".toList <+: line ∨ "delete ".toList <+: line then
    match afterLastSpace line with
    | some word =>
      if (utf8 word).length ≤ pos then .at (pos - (utf8 word).length) (corpora.filter fun c => word.isPrefixOf c) else .overflow
    | none => .at pos []
  else if pos = (utf8 line).length then .at 0 (knownCommands.filter fun c => line.isPrefixOf c)
  else .at 0 []

end Cli
