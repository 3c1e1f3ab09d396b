import Verif.Text.Model
import Mathlib.Data.List.Lex
import Mathlib.Data.Char

/-!
# The web service

`webservice/src/`: claims of a request, groups of corpora, authorisation, files of a corpus and background jobs. Left out: HTTP itself,
JSON, the signature check of tokens (the parameter `verify`), SQLite (its tables are lists with the constraints of the migrations), and
the storage: what it answers is a parameter that is given the content of the named corpora only. The file system has no symbolic links.
-/

namespace Web

/-- `Claims` (auth.rs 1-19); the expiration date is checked by the library that decodes tokens. -/
structure Claims where
  sub : Str
  groups : List Str
  roles : List Str
deriving DecidableEq

/-- `GraphAnnisError` (graphannis/src/annis/errors.rs 15-86) as far as the web service tells its variants apart, and the error for a corpus that
does not exist. -/
inductive StorageErr
  | syntaxError
  | semanticError
  | impossibleSearch
  | timeout
  | noSuchCorpus
  | other
deriving DecidableEq

/-- `ServiceError` (errors.rs 11-34). -/
inductive Err
  | token
  | forbidden (corpora : List Str)
  | notAdmin (sub : Str)
  | database
  | internal
  | notFound
  | illegalPath
  | uuid
  | storage (e : StorageErr)
deriving DecidableEq

/-- `Settings` (settings.rs 68-82) as far as used; `verify` is `verify_token` (extractors.rs 7-19) with the key of the settings. -/
structure Settings where
  dataDir : List Str
  anonymousAll : Bool
  verify : Str → Option Claims

/-! ## Claims -/

def anonymous : Str := "anonymous".toList
def admin : Str := "admin".toList

/-- `str::trim`. -/
def trim (s : Str) : Str := ((s.dropWhile isWs).reverse.dropWhile isWs).reverse

/-- `ClaimsFromAuth::from_request` (extractors.rs 21-55). The header can be missing, or not be text. -/
def claimsOf (s : Settings) (header : Option (Option Str)) : Except Err Claims :=
  match header with
  | some (some h) =>
    if "bearer".toList.isPrefixOf h || "Bearer".toList.isPrefixOf h then
      match s.verify (trim (h.drop 6)) with
      | some c => .ok c
      | none => .error .token
    else .ok ⟨anonymous, [], []⟩
  | _ => .ok ⟨anonymous, [], []⟩

/-! ## Groups -/

/-- The tables `groups` and `corpus_groups` (schema.rs, migrations). -/
structure Db where
  groups : List Str
  rows : List (Str × Str)
deriving DecidableEq

/-- `authorized_corpora_from_groups` (actions.rs 6-23). -/
def authorizedCorpora (db : Db) (c : Claims) : List Str :=
  (db.rows.filter fun r => decide (r.1 ∈ anonymous :: c.groups)).map Prod.snd

/-- `list_groups` (actions.rs 25-45). -/
def listGroups (db : Db) : List (Str × List Str) :=
  db.groups.map fun g => (g, (db.rows.filter fun r => r.1 = g).map Prod.snd)

/-- Deletes a row of `groups`; `fk` says if SQLite checks foreign keys, then `ON DELETE CASCADE` deletes the rows of the group. -/
def deleteGroupRow (fk : Bool) (db : Db) (name : Str) : Db :=
  ⟨db.groups.filter (· ≠ name), if fk then db.rows.filter (fun r => r.1 ≠ name) else db.rows⟩

/-- `delete_group` (actions.rs 47-55). -/
def deleteGroup (fk : Bool) (db : Db) (name : Str) : Db := deleteGroupRow fk db name

/-- Inserts rows for all corpora (actions.rs 78-86); `none` is a violation of the primary key. -/
def insertRows (name : Str) : List Str → Db → Option Db
  | [], db => some db
  | c :: r, db => if (name, c) ∈ db.rows then none else insertRows name r { db with rows := db.rows ++ [(name, c)] }

/-- `add_or_replace_group` (actions.rs 57-90): the changes are made in one transaction, so an error changes nothing. -/
def putGroup (fk : Bool) (db : Db) (name : Str) (corpora : List Str) : Except Err Unit × Db :=
  let db1 : Db := { db with rows := db.rows.filter fun r => r.1 ≠ name }
  let db2 := deleteGroupRow fk db1 name
  let db3 : Db := { db2 with groups := db2.groups ++ [name] }
  match insertRows name corpora db3 with
  | some db4 => (.ok (), db4)
  | none => (.error .database, db)

/-! ## Authorisation -/

/-- `check_is_admin` (api/mod.rs 8-14). -/
def checkAdmin (c : Claims) : Except Err Unit := if admin ∈ c.roles then .ok () else .error (.notAdmin c.sub)

/-- `check_corpora_authorized_read` (api/mod.rs 18-48). -/
def checkRead (s : Settings) (db : Db) (c : Claims) (requested : List Str) : Except Err Unit :=
  if admin ∈ c.roles ∨ s.anonymousAll = true then .ok ()
  else
    let allowed := authorizedCorpora db c
    if requested.all fun n => decide (n ∈ allowed) then .ok () else .error (.forbidden (requested.filter fun n => n ∉ allowed))

/-! ## Files -/

/-- Files by their resolved path in the order in which directories are read, and directories. -/
structure Fs (D : Type) where
  files : List (List Str × D)
  dirs : List (List Str)

def Fs.file {D : Type} (fs : Fs D) (p : List Str) : Option D := (fs.files.find? fun e => e.1 = p).map Prod.snd

/-- `WalkDir::new(dir)`, the files only. -/
def Fs.walk {D : Type} (fs : Fs D) (dir : List Str) : List (List Str) := (fs.files.filter fun e => dir.isPrefixOf e.1).map Prod.fst

/-- `PATH_SEGMENT_ENCODE_SET` (api/corpora.rs 13-24). -/
def webSet : AsciiSet := fun b =>
  controls b || b == 0x20 || b == 0x22 || b == 0x23 || b == 0x3c || b == 0x3e || b == 0x60 || b == 0x3f || b == 0x7b ||
    b == 0x7d || b == 0x25 || b == 0x2f

/-- The directory with the files of a corpus (api/corpora.rs 255-261, 322-327). -/
def filesDir (dataDir : List Str) (corpus : Str) : List Str := pushPath (pushPath dataDir (pctEncode webSet corpus)) "files".toList

/-- `contains("..")`. -/
def hasDots : Str → Bool
  | [] => false
  | a :: r => (a = '.' && r.head? = some '.') || hasDots r

/-- The check of paths (api/corpora.rs 264-276, 309-319): the path after `trim`. -/
def checkPath (p : Str) : Except Err Str :=
  let p := trim p
  if hasDots p then .error .illegalPath else if p.head? = some '/' then .error .illegalPath else .ok p

/-- The path as text. -/
def pathText (p : List Str) : Str := ['/'].intercalate p

/-- The loop over the entries (api/corpora.rs 282-293): `strip_prefix` fails for files outside of the directory. -/
def relative (base : List Str) : List (List Str) → Except Err (List Str)
  | [] => .ok []
  | p :: r =>
    if base.isPrefixOf p then
      match relative base r with
      | .ok l => .ok (pathText (p.drop base.length) :: l)
      | .error e => .error e
    else .error .internal

variable {C D Q R : Type}

/-- The directory that is searched (api/corpora.rs 263-279). -/
def searchPath (base : List Str) (corpus : Str) : Option Str → Except Err (List Str)
  | some n =>
    match checkPath n with
    | .ok p => .ok (pushPath base p)
    | .error e => .error e
  | none => .ok (pushPath base corpus)

/-- `list_files` (api/corpora.rs 245-296) after the check of the authorisation. -/
def listFiles (dataDir : List Str) (fs : Fs D) (corpus : Str) (node : Option Str) : Except Err (List Str) :=
  if filesDir dataDir corpus ∈ fs.dirs then
    match searchPath (filesDir dataDir corpus) corpus node with
    | .error e => .error e
    | .ok search => if search ∈ fs.dirs then relative (filesDir dataDir corpus) (fs.walk search) else .ok []
  else .error .notFound

/-- `file_content` (api/corpora.rs 298-330) after the check of the authorisation. `name` is the segment of the URL as given by the
extractor of paths, which has already decoded it. -/
def fileContent (lossy : List UInt8 → Str) (dataDir : List Str) (fs : Fs D) (corpus name : Str) : Except Err D :=
  match checkPath (pctDecodeStr lossy name) with
  | .error e => .error e
  | .ok p =>
    match fs.file (pushPath (filesDir dataDir corpus) p) with
    | some d => .ok d
    | none => if pushPath (filesDir dataDir corpus) p ∈ fs.dirs then .error .internal else .error .notFound

/-! ## Background jobs -/

inductive JobType
  | imp
  | exp
deriving DecidableEq

/-- `JobStatus` (api/administration.rs 18-24); `R` is an exported file with its name. -/
inductive Status (R : Type)
  | running
  | failed
  | finished (result : Option R)
deriving DecidableEq

/-- `Job` (api/administration.rs 32-37). -/
structure Job (R : Type) where
  type : JobType
  messages : List Str
  status : Status R
deriving DecidableEq

/-- `BackgroundJobs` (api/administration.rs 39-43). -/
abbrev Jobs (R : Type) := Nat → Option (Job R)

/-- The entry for a new job (api/administration.rs 125-136, 227-238). -/
def Jobs.start (j : Jobs R) (id : Nat) (t : JobType) : Jobs R := Function.update j id (some ⟨t, [], .running⟩)

/-- A report of the background thread (api/administration.rs 144-152, 203-211). -/
def Jobs.message (j : Jobs R) (id : Nat) (m : Str) : Jobs R :=
  match j id with
  | some x => Function.update j id (some { x with messages := x.messages ++ [m] })
  | none => j

/-- The end of the background thread (api/administration.rs 154-172, 241-259); the message is only given by imports and errors. -/
def Jobs.finish (j : Jobs R) (id : Nat) (m : Option Str) (st : Status R) : Jobs R :=
  match j id with
  | some x => Function.update j id (some { x with messages := x.messages ++ m.toList, status := st })
  | none => j

/-- The answer to a request for a job. -/
inductive Poll (R : Type)
  | accepted (messages : List Str)
  | gone (messages : List Str)
  | file (r : R)
  | ok (messages : List Str)
  | notFound
deriving DecidableEq

/-- `jobs` (api/administration.rs 267-303) after the check of the authorisation. -/
def Jobs.poll (j : Jobs R) (id : Nat) : Poll R × Jobs R :=
  match j id with
  | some x =>
    match x.status with
    | .running => (.accepted x.messages, j)
    | .failed => (.gone x.messages, Function.update j id none)
    | .finished (some f) => (.file f, Function.update j id none)
    | .finished none => (.ok x.messages, Function.update j id none)
  | none => (.notFound, j)

/-! ## Requests -/

/-- The routes (main.rs 196-257). `Q` are parameters of requests that are only looked at by the storage. -/
inductive Req (Q : Type)
  /-- `openapi.yml`, `api-docs.html` -/
  | docs
  /-- `/search/node-descriptions` -/
  | describe (q : Q)
  /-- `/search/count`, `/search/find`, `/search/frequency` -/
  | search (q : Q) (corpora : List Str)
  /-- `/corpora/{corpus}/` with `configuration`, `node-annotations`, `components`, `edge-annotations`, `subgraph` or
  `subgraph-for-query` -/
  | read (q : Q) (corpus : Str)
  | files (corpus : Str) (node : Option Str)
  | file (corpus name : Str)
  | list
  | delete (corpus : Str)
  | imp (q : Q) (id : Nat)
  | exp (corpora : List Str) (id : Nat)
  | job (id : Option Nat)
  | groups
  | deleteGroup (name : Str)
  | putGroup (path name : Str) (corpora : List Str)

/-- Answers without an error. -/
inductive Resp (D R : Type)
  | docs
  | data (r : R)
  | names (l : List Str)
  | content (d : D)
  | deleted (found : Bool)
  | reference (id : Nat)
  | poll (p : Poll R)
  | groups (l : List (Str × List Str))
  | groupDeleted
  | groupPut
  | nameMismatch

/-- The state of the service. `started` are the threads for imports and exports that were started. -/
structure State (C D Q R : Type) where
  db : Db
  corpora : List (Str × C)
  fs : Fs D
  jobs : Jobs R
  started : List (Nat × (Q ⊕ List Str))

/-- What the storage answers. -/
structure Backend (C Q R : Type) where
  describe : Q → Except Err R
  search : Q → List (Str × Option C) → Except Err R
  read : Q → Str → Option C → Except Err R

/-- The content of a corpus. -/
def State.corpus (st : State C D Q R) (n : Str) : Option C := (st.corpora.find? fun e => e.1 = n).map Prod.snd

/-- The order of `sort_unstable` on strings (api/corpora.rs 53). -/
def leStr (a b : Str) : Bool := decide (a ≤ b)

/-- `count`, `find`, `frequency` (api/search.rs 24-43, 74-103, 114-133). -/
def handleSearch (s : Settings) (b : Backend C Q R) (st : State C D Q R) (c : Claims) (q : Q) (corpora : List Str) :
    Except Err (Resp D R) :=
  match checkRead s st.db c corpora with
  | .error e => .error e
  | .ok _ => (b.search q (corpora.map fun n => (n, st.corpus n))).map .data

/-- `subgraph`, `subgraph_for_query`, `configuration`, `list_components`, `node_annotations`, `edge_annotations`
(api/corpora.rs 69-238). -/
def handleRead (s : Settings) (b : Backend C Q R) (st : State C D Q R) (c : Claims) (q : Q) (corpus : Str) : Except Err (Resp D R) :=
  match checkRead s st.db c [corpus] with
  | .error e => .error e
  | .ok _ => (b.read q corpus (st.corpus corpus)).map .data

/-- `list_files` (api/corpora.rs 245-296). -/
def handleFiles (s : Settings) (st : State C D Q R) (c : Claims) (corpus : Str) (node : Option Str) : Except Err (Resp D R) :=
  match checkRead s st.db c [corpus] with
  | .error e => .error e
  | .ok _ => (listFiles s.dataDir st.fs corpus node).map .names

/-- `file_content` (api/corpora.rs 298-330). -/
def handleFile (lossy : List UInt8 → Str) (s : Settings) (st : State C D Q R) (c : Claims) (corpus name : Str) : Except Err (Resp D R) :=
  match checkRead s st.db c [corpus] with
  | .error e => .error e
  | .ok _ => (fileContent lossy s.dataDir st.fs corpus name).map .content

/-- `list` (api/corpora.rs 26-56). -/
def handleList (s : Settings) (st : State C D Q R) (c : Claims) : List Str :=
  let all := st.corpora.map Prod.fst
  let allowed :=
    if admin ∈ c.roles ∨ s.anonymousAll = true then all
    else
      let byGroup := authorizedCorpora st.db c
      all.filter fun n => n ∈ byGroup
  allowed.mergeSort leStr

/-- `delete` (api/corpora.rs 331-343). The files of the corpus are deleted by the storage with its directory (see C52), which is left out. -/
def handleDelete (st : State C D Q R) (c : Claims) (corpus : Str) : Except Err (Resp D R) × State C D Q R :=
  match checkAdmin c with
  | .error e => (.error e, st)
  | .ok _ => (.ok (.deleted (st.corpus corpus).isSome), { st with corpora := st.corpora.filter fun e => e.1 ≠ corpus })

/-- `import_corpus` (api/administration.rs 107-178). -/
def handleImport (st : State C D Q R) (c : Claims) (q : Q) (id : Nat) : Except Err (Resp D R) × State C D Q R :=
  match checkAdmin c with
  | .error e => (.error e, st)
  | .ok _ => (.ok (.reference id), { st with jobs := st.jobs.start id .imp, started := st.started ++ [(id, .inl q)] })

/-- `export_corpus` (api/administration.rs 218-265). -/
def handleExport (st : State C D Q R) (c : Claims) (corpora : List Str) (id : Nat) : Except Err (Resp D R) × State C D Q R :=
  match checkAdmin c with
  | .error e => (.error e, st)
  | .ok _ => (.ok (.reference id), { st with jobs := st.jobs.start id .exp, started := st.started ++ [(id, .inr corpora)] })

/-- `jobs` (api/administration.rs 267-303); `none` is an identifier that is not a UUID. -/
def handleJob (st : State C D Q R) (c : Claims) (id : Option Nat) : Except Err (Resp D R) × State C D Q R :=
  match checkAdmin c with
  | .error e => (.error e, st)
  | .ok _ =>
    match id with
    | none => (.error .uuid, st)
    | some id => (.ok (.poll (st.jobs.poll id).1), { st with jobs := (st.jobs.poll id).2 })

/-- `list_groups` (api/administration.rs 45-59). -/
def handleGroups (st : State C D Q R) (c : Claims) : Except Err (Resp D R) :=
  match checkAdmin c with
  | .error e => .error e
  | .ok _ => .ok (.groups (listGroups st.db))

/-- `delete_group` (api/administration.rs 61-73). -/
def handleDeleteGroup (fk : Bool) (st : State C D Q R) (c : Claims) (name : Str) : Except Err (Resp D R) × State C D Q R :=
  match checkAdmin c with
  | .error e => (.error e, st)
  | .ok _ => (.ok .groupDeleted, { st with db := deleteGroup fk st.db name })

/-- `put_group` (api/administration.rs 75-94). -/
def handlePutGroup (fk : Bool) (st : State C D Q R) (c : Claims) (path name : Str) (corpora : List Str) :
    Except Err (Resp D R) × State C D Q R :=
  match checkAdmin c with
  | .error e => (.error e, st)
  | .ok _ =>
    if path ≠ name then (.ok .nameMismatch, st)
    else ((putGroup fk st.db name corpora).1.map fun _ => .groupPut, { st with db := (putGroup fk st.db name corpora).2 })

/-- What a handler does with its claims. -/
def dispatch (fk : Bool) (lossy : List UInt8 → Str) (s : Settings) (b : Backend C Q R) (st : State C D Q R) (c : Claims) :
    Req Q → Except Err (Resp D R) × State C D Q R
  | .docs => (.ok .docs, st)
  | .describe q => ((b.describe q).map .data, st)
  | .search q corpora => (handleSearch s b st c q corpora, st)
  | .read q corpus => (handleRead s b st c q corpus, st)
  | .files corpus node => (handleFiles s st c corpus node, st)
  | .file corpus name => (handleFile lossy s st c corpus name, st)
  | .list => (.ok (.names (handleList s st c)), st)
  | .delete corpus => handleDelete st c corpus
  | .imp q id => handleImport st c q id
  | .exp corpora id => handleExport st c corpora id
  | .job id => handleJob st c id
  | .groups => (handleGroups st c, st)
  | .deleteGroup name => handleDeleteGroup fk st c name
  | .putGroup path name corpora => handlePutGroup fk st c path name corpora

/-- Whether the handler has an argument of the type `ClaimsFromAuth`. -/
def Req.takesClaims : Req Q → Bool
  | .docs => false
  | .describe _ => false
  | _ => true

/-- A request (main.rs 165-258): handlers with an argument of the type `ClaimsFromAuth` are only called if the extractor succeeds. -/
def handle (fk : Bool) (lossy : List UInt8 → Str) (s : Settings) (b : Backend C Q R) (st : State C D Q R) (header : Option (Option Str))
    (r : Req Q) : Except Err (Resp D R) × State C D Q R :=
  if r.takesClaims then
    match claimsOf s header with
    | .error e => (.error e, st)
    | .ok c => dispatch fk lossy s b st c r
  else dispatch fk lossy s b st ⟨anonymous, [], []⟩ r

end Web
