import Verif.Update.Model
import Verif.Text.Model

/-!
# Model of the C interface (capi/src)

Memory is a list of objects; a pointer to an object is its position. A `char*` that the client gives is the list of the bytes that can be read
from it on, `none` is `NULL`. The functions of the library are arbitrary functions on the states of a corpus storage and of a graph.
-/

namespace Capi

/-! ## Strings -/

/-- `char*`. -/
abbrev CPtr := Option (List UInt8)

/-- The content of a `CString` without the terminating NUL. -/
abbrev CString := List UInt8

/-- `cstr` (lib.rs 22-30): up to the first NUL, with replacements for invalid UTF-8; the empty text for `NULL`. -/
def cstr (lossy : List UInt8 → Str) : CPtr → Str
  | none => []
  | some p => decodeLossy lossy (p.takeWhile (· ≠ 0))

/-- `CString::new`, which refuses texts with NUL. -/
def newCString (s : Str) : Option CString := if 0 ∈ utf8 s then none else some (utf8 s)

/-- `CString::new(..).unwrap_or_default()`. -/
def cstring (s : Str) : CString := (newCString s).getD []

/-- `CString::as_ptr` and `CString::into_raw`. -/
def asPtr (c : CString) : CPtr := some (c ++ [0])

/-! ## Objects -/

/-- `Annotation`. -/
structure Anno where
  ns : Str
  name : Str
  val : Str
deriving DecidableEq

/-- `AnnotationComponent`; the type is a number. -/
structure Comp where
  ty : Nat
  layer : Str
  name : Str
deriving DecidableEq

/-- `QueryAttributeDescription`. -/
structure QueryAtt where
  alternative : Nat
  fragment : Str
  var : Str
  annoName : Option Str
deriving DecidableEq

/-- An error of the library: its text, the text of its kind (cerror.rs 37-51), and the texts of its chain of sources. -/
structure Err where
  msg : Str
  kind : Str
  sources : List Str
deriving DecidableEq

/-- `UpdateEvent` (core/src/graph/update.rs 21-79). -/
inductive Event
  | addNode (nodeName nodeType : Str)
  | deleteNode (nodeName : Str)
  | addNodeLabel (nodeName annoNs annoName annoValue : Str)
  | deleteNodeLabel (nodeName annoNs annoName : Str)
  | addEdge (sourceNode targetNode layer componentType componentName : Str)
  | deleteEdge (sourceNode targetNode layer componentType componentName : Str)
  | addEdgeLabel (sourceNode targetNode layer componentType componentName annoNs annoName annoValue : Str)
  | deleteEdgeLabel (sourceNode targetNode layer componentType componentName annoNs annoName : Str)
deriving DecidableEq

/-- What pointers that the client gets from the interface point to. -/
inductive Obj (σ G : Type)
  | storage (s : σ)
  | graph (g : G)
  | update (u : GraphUpdate Event)
  | vecStr (v : List CString)
  | matrix (m : List (List CString))
  | freqTable (t : List (List CString × Nat))
  | comps (l : List Comp)
  | annos (l : List Anno)
  | edges (l : List (Nat × Nat))
  | queryAtts (l : List QueryAtt)
  | iter (l : List (Except Err Nat))
  | nodeId (n : Nat)
  | errors (l : List (CString × CString))
  | str (c : CString)

/-- Memory: the objects, `none` after they are freed, and the variables of the client for error lists (`ErrorList*`). -/
structure St (σ G : Type) where
  heap : List (Option (Obj σ G))
  vars : Nat → Option Nat

/-- How a call can end without result: a failed assertion, or access to memory that is not an object of the right type. -/
inductive Stop
  | abort
  | undefined
deriving DecidableEq

abbrev M (σ G α : Type) := St σ G → Except Stop (α × St σ G)

/-- The results of the functions. `null` is `NULL`, `ptr` a pointer to an object. -/
inductive Val
  | null
  | ptr (p : Nat)
  | num (n : Nat)
  | bool (b : Bool)
  | counts (matches_ documents : Nat)
  | unit
deriving DecidableEq

section
variable {σ G α : Type}

/-- `cast_const` and `cast_mut` (lib.rs 8-20). -/
def cast (p : Option Nat) : M σ G (Obj σ G) := fun s =>
  match p with
  | none => .error .abort
  | some p =>
    match s.heap[p]? with
    | some (some o) => .ok (o, s)
    | _ => .error .undefined

/-- `Box::into_raw(Box::new(..))`. -/
def alloc (o : Obj σ G) (s : St σ G) : Nat × St σ G := (s.heap.length, { s with heap := s.heap ++ [some o] })

/-- `create_error_list` (cerror.rs 53-65) with `CauseIterator` (17-35). -/
def errorList (e : Err) : List (CString × CString) :=
  (cstring e.msg, cstring e.kind) :: e.sources.map fun m => (cstring m, cstring "Cause".toList)

/-- `map_cerr` (lib.rs 32-47). -/
def mapCerr (x : Except Err α) (err : Option Nat) (s : St σ G) : Option α × St σ G :=
  match x with
  | .ok v => (some v, s)
  | .error e =>
    match err with
    | none => (none, s)
    | some c => (none, { (alloc (.errors (errorList e)) s).2 with vars := fun d => if d = c then some (alloc (.errors (errorList e)) s).1 else s.vars d })

/-- Assignment to an object. -/
def store (p : Nat) (o : Obj σ G) (s : St σ G) : St σ G := { s with heap := s.heap.set p (some o) }

/-! ## The library -/

/-- `SearchQuery` without time out. -/
structure Query where
  query : Str
  corpora : List Str
  language : Nat
deriving DecidableEq

/-- `FrequencyDefEntry` (corpusstorage.rs 197-205). -/
structure FreqDef where
  ns : Option Str
  name : Str
  nodeRef : Str
deriving DecidableEq

/-- `FrequencyDefEntry::from_str` (corpusstorage.rs 207-223). -/
def parseDef (s : Str) : Option FreqDef :=
  match splitOnce ':' s with
  | none => none
  | some (nodeRef, key) => some ⟨(splitQName key).1, (splitQName key).2, nodeRef⟩

/-- The functions of `CorpusStorage` and of the graph that the interface calls; the former may change the storage. -/
structure Lib (σ G : Type) where
  new : Str → Option Nat → Bool → Except Err σ
  count : σ → Query → Except Err Nat × σ
  countExtra : σ → Query → Except Err (Nat × Nat) × σ
  find : σ → Query → Nat → Option Nat → Nat → Except Err (List Str) × σ
  subgraph : σ → Str → List Str → Nat → Nat → Option Str → Except Err G × σ
  subcorpusGraph : σ → Str → List Str → Except Err G × σ
  corpusGraph : σ → Str → Except Err G × σ
  subgraphForQuery : σ → Str → Str → Nat → Option Nat → Except Err G × σ
  frequency : σ → Query → List FreqDef → Except Err (List (List Str × Nat)) × σ
  list : σ → Except Err (List Str) × σ
  nodeAnnos : σ → Str → Bool → Bool → Except Err (List Anno) × σ
  edgeAnnos : σ → Str → Comp → Bool → Bool → Except Err (List Anno) × σ
  validate : σ → List Str → Str → Nat → Except Err Bool × σ
  nodeDescriptions : σ → Str → Nat → Except Err (List QueryAtt) × σ
  importFrom : σ → Str → Nat → Option Str → Bool → Bool → Except Err Str × σ
  exportTo : σ → List Str → Str → Nat → Except Err Unit × σ
  components : σ → Str → Option Nat → Except Err (List Comp) × σ
  delete : σ → Str → Except Err Bool × σ
  unload : σ → Str → Except Err Unit × σ
  applyUpdate : σ → Str → GraphUpdate Event → (Except Err Unit × GraphUpdate Event) × σ
  nodesByType : G → Str → List (Except Err Nat)
  annosForNode : G → Nat → Except Err (List Anno)
  graphComps : G → Option Nat → List Comp
  outgoing : G → Nat → Comp → Option (List (Except Err Nat))
  annosForEdge : G → Nat × Nat → Comp → Option (Except Err (List Anno))

/-- A value, or an object that is put on the heap. -/
inductive Ret (σ G : Type)
  | val (v : Val)
  | obj (o : Obj σ G)

def give (r : Ret σ G) (s : St σ G) : Val × St σ G :=
  match r with
  | .val v => (v, s)
  | .obj o => (.ptr (alloc o s).1, (alloc o s).2)

/-- The end of all functions that can fail: `map_cerr(..).map(..).unwrap_or_else(..)`. -/
def answer (x : Except Err α) (err : Option Nat) (ok : α → Ret σ G) (failed : Val) (s : St σ G) : Val × St σ G :=
  match mapCerr x err s with
  | (some v, s) => give (ok v) s
  | (none, s) => (failed, s)

/-- A call of a function of the corpus storage at `ptr`. -/
def request (ptr : Option Nat) (f : σ → Except Err α × σ) (err : Option Nat) (ok : α → Ret σ G) (failed : Val) : M σ G Val := fun s =>
  match cast ptr s, ptr with
  | .ok (.storage x, s), some p => .ok (answer (f x).1 err ok failed (store p (.storage (f x).2) s))
  | .error e, _ => .error e
  | _, _ => .error .undefined

/-- A pointer to a graph. -/
def graphAt (ptr : Option Nat) (s : St σ G) : Except Stop G :=
  match cast ptr s with
  | .ok (.graph g, _) => .ok g
  | .error e => .error e
  | _ => .error .undefined

/-- `cast_const(names).iter().map(|cn| String::from(cn.to_string_lossy()))`. -/
def stringsAt (lossy : List UInt8 → Str) (ptr : Option Nat) (s : St σ G) : Except Stop (List Str) :=
  match cast ptr s with
  | .ok (.vecStr v, _) => .ok (v.map (decodeLossy lossy))
  | .error e => .error e
  | _ => .error .undefined

/-- A pointer to a component. In C it points into a vector; the client owns no components. -/
def compAt (ptr : Option (Nat × Nat)) (s : St σ G) : Except Stop Comp :=
  match ptr with
  | none => .error .abort
  | some (p, i) =>
    match cast (some p) s with
    | .ok (.comps l, _) => match l[i]? with
      | some c => .ok c
      | none => .error .undefined
    | .error e => .error e
    | _ => .error .undefined

/-! ## Corpus storage (corpusstorage.rs) -/

/-- The table of annotations: rows with NUL are left out (corpusstorage.rs 468-480, 516-528). -/
def annoRows (l : List Anno) : List (List CString) :=
  l.filterMap fun a =>
    match newCString a.ns, newCString a.name, newCString a.val with
    | some x, some y, some z => some [x, y, z]
    | _, _, _ => none

/-- The definition of the columns of a frequency table (corpusstorage.rs 392-396). -/
def tableDef (s : Str) : List FreqDef := (splitAll ',' s).filterMap parseDef

/-- The functions of corpusstorage.rs and of graph.rs that can fail, and the functions of update.rs, with their arguments in the order of their
declarations. -/
inductive Fn
  /-- corpusstorage.rs 26-40 -/
  | withAutoCacheSize (dbDir : CPtr) (parallel : Bool)
  /-- corpusstorage.rs 49-68 -/
  | withMaxCacheSize (dbDir : CPtr) (size : Nat) (parallel : Bool)
  /-- corpusstorage.rs 95-118 -/
  | count (ptr names : Option Nat) (query : CPtr) (language : Nat)
  /-- corpusstorage.rs 128-150 -/
  | countExtra (ptr names : Option Nat) (query : CPtr) (language : Nat)
  /-- corpusstorage.rs 172-208 -/
  | find (ptr names : Option Nat) (query : CPtr) (language offset : Nat) (limit : Option Nat) (order : Nat)
  /-- corpusstorage.rs 225-253 -/
  | subgraph (ptr : Option Nat) (corpus : CPtr) (nodeIds : Option Nat) (ctxLeft ctxRight : Nat) (segmentation : CPtr)
  /-- corpusstorage.rs 266-282 -/
  | subcorpusGraph (ptr : Option Nat) (corpus : CPtr) (corpusIds : Option Nat)
  /-- corpusstorage.rs 289-300 -/
  | corpusGraph (ptr : Option Nat) (corpus : CPtr)
  /-- corpusstorage.rs 310-327 -/
  | subgraphForQuery (ptr : Option Nat) (corpus query : CPtr) (language : Nat)
  /-- corpusstorage.rs 338-356 -/
  | subgraphForQueryWithCtype (ptr : Option Nat) (corpus query : CPtr) (language ctype : Nat)
  /-- corpusstorage.rs 369-421 -/
  | frequency (ptr names : Option Nat) (query : CPtr) (language : Nat) (definition : CPtr)
  /-- corpusstorage.rs 428-446 -/
  | list (ptr : Option Nat)
  /-- corpusstorage.rs 455-483 -/
  | listNodeAnnotations (ptr : Option Nat) (corpus : CPtr) (listValues onlyMostFrequent : Bool)
  /-- corpusstorage.rs 495-531 -/
  | listEdgeAnnotations (ptr : Option Nat) (corpus : CPtr) (ctype : Nat) (componentName componentLayer : CPtr) (listValues onlyMostFrequent : Bool)
  /-- corpusstorage.rs 543-563 -/
  | validateQuery (ptr names : Option Nat) (query : CPtr) (language : Nat)
  /-- corpusstorage.rs 572-585 -/
  | nodeDescriptions (ptr : Option Nat) (query : CPtr) (language : Nat)
  /-- corpusstorage.rs 599-633 -/
  | importFromFs (ptr : Option Nat) (path : CPtr) (format : Nat) (corpus : CPtr) (diskBased overwrite : Bool)
  /-- corpusstorage.rs 643-660 -/
  | exportToFs (ptr names : Option Nat) (path : CPtr) (format : Nat)
  /-- corpusstorage.rs 668-680 -/
  | listComponentsByType (ptr : Option Nat) (corpus : CPtr) (ctype : Nat)
  /-- corpusstorage.rs 688-697 -/
  | delete (ptr : Option Nat) (corpus : CPtr)
  /-- corpusstorage.rs 704-713 -/
  | unload (ptr : Option Nat) (corpus : CPtr)
  /-- corpusstorage.rs 722-733 -/
  | applyUpdate (ptr : Option Nat) (corpus : CPtr) (update : Option Nat)
  /-- graph.rs 59-72 -/
  | annotationsForNode (g : Option Nat) (node : Nat)
  /-- graph.rs 99-119 -/
  | outgoingEdges (g : Option Nat) (source : Nat) (component : Option (Nat × Nat))
  /-- graph.rs 125-141 -/
  | annotationsForEdge (g : Option Nat) (edge : Nat × Nat) (component : Option (Nat × Nat))
  /-- data.rs 49-69 -/
  | iterNext (ptr : Option Nat)
  /-- update.rs 19-33 -/
  | addNode (ptr : Option Nat) (nodeName nodeType : CPtr)
  /-- update.rs 41-53 -/
  | deleteNode (ptr : Option Nat) (nodeName : CPtr)
  /-- update.rs 64-82 -/
  | addNodeLabel (ptr : Option Nat) (nodeName annoNs annoName annoValue : CPtr)
  /-- update.rs 92-108 -/
  | deleteNodeLabel (ptr : Option Nat) (nodeName annoNs annoName : CPtr)
  /-- update.rs 120-141 -/
  | addEdge (ptr : Option Nat) (sourceNode targetNode layer componentType componentName : CPtr)
  /-- update.rs 153-173 -/
  | deleteEdge (ptr : Option Nat) (sourceNode targetNode layer componentType componentName : CPtr)
  /-- update.rs 188-215 -/
  | addEdgeLabel (ptr : Option Nat) (sourceNode targetNode layer componentType componentName annoNs annoName annoValue : CPtr)
  /-- update.rs 229-254 -/
  | deleteEdgeLabel (ptr : Option Nat) (sourceNode targetNode layer componentType componentName annoNs annoName : CPtr)

/-- `map_cerr(u.add_event(..), err)` (update.rs). Simplified: `add_event` gives no error; its panic (C21 excludes it) is `abort`. -/
def pushEvent (ptr : Option Nat) (e : Event) : M σ G Val := fun s =>
  match cast ptr s, ptr with
  | .ok (.update u, s), some p =>
    match u.addEvent e with
    | some u => .ok (.unit, store p (.update u) s)
    | none => .error .abort
  | .error e, _ => .error e
  | _, _ => .error .undefined

/-- The loop of `annis_graph_outgoing_edges` (graph.rs 110-116): errors are reported and left out. -/
def collectEdges (source : Nat) (err : Option Nat) : List (Except Err Nat) → List (Nat × Nat) → St σ G → List (Nat × Nat) × St σ G
  | [], acc, s => (acc, s)
  | x :: r, acc, s =>
    match mapCerr x err s with
    | (some t, s) => collectEdges source err r (acc ++ [(source, t)]) s
    | (none, s) => collectEdges source err r acc s

variable (lossy : List UInt8 → Str) (L : Lib σ G)

/-- The functions; `err` is the variable to whose address the last argument points, `none` if it is `NULL`. -/
def exec (f : Fn) (err : Option Nat) : M σ G Val := fun s =>
  match f with
  | .withAutoCacheSize d p => .ok (answer (L.new (cstr lossy d) none p) err (fun x => .obj (.storage x)) .null s)
  | .withMaxCacheSize d n p => .ok (answer (L.new (cstr lossy d) (some n) p) err (fun x => .obj (.storage x)) .null s)
  | .count p ns q l => do
    let ns ← stringsAt lossy ns s
    request p (L.count · ⟨cstr lossy q, ns, l⟩) err (fun n => .val (.num n)) (.num 0) s
  | .countExtra p ns q l => do
    let ns ← stringsAt lossy ns s
    request p (L.countExtra · ⟨cstr lossy q, ns, l⟩) err (fun n => .val (.counts n.1 n.2)) (.counts 0 0) s
  | .find p ns q l o li ord => do
    let ns ← stringsAt lossy ns s
    request p (L.find · ⟨cstr lossy q, ns, l⟩ o li ord) err (fun ids => .obj (.vecStr (ids.map cstring))) .null s
  | .subgraph p c ids l r seg => do
    let ids ← stringsAt lossy ids s
    request p (L.subgraph · (cstr lossy c) ids l r (seg.map fun x => cstr lossy (some x))) err (fun g => .obj (.graph g)) .null s
  | .subcorpusGraph p c ids => do
    let ids ← stringsAt lossy ids s
    request p (L.subcorpusGraph · (cstr lossy c) ids) err (fun g => .obj (.graph g)) .null s
  | .corpusGraph p c => request p (L.corpusGraph · (cstr lossy c)) err (fun g => .obj (.graph g)) .null s
  | .subgraphForQuery p c q l => request p (L.subgraphForQuery · (cstr lossy c) (cstr lossy q) l none) err (fun g => .obj (.graph g)) .null s
  | .subgraphForQueryWithCtype p c q l t =>
    request p (L.subgraphForQuery · (cstr lossy c) (cstr lossy q) l (some t)) err (fun g => .obj (.graph g)) .null s
  | .frequency p ns q l d => do
    let ns ← stringsAt lossy ns s
    request p (L.frequency · ⟨cstr lossy q, ns, l⟩ (tableDef (cstr lossy d))) err
      (fun t => .obj (.freqTable (t.map fun r => (r.1.map cstring, r.2)))) .null s
  | .list p => request p L.list err (fun l => .obj (.vecStr (l.filterMap newCString))) .null s
  | .listNodeAnnotations p c v o => request p (L.nodeAnnos · (cstr lossy c) v o) err (fun l => .obj (.matrix (annoRows l))) .null s
  | .listEdgeAnnotations p c t n l v o =>
    request p (L.edgeAnnos · (cstr lossy c) ⟨t, cstr lossy l, cstr lossy n⟩ v o) err (fun l => .obj (.matrix (annoRows l))) .null s
  | .validateQuery p ns q l => do
    let ns ← stringsAt lossy ns s
    request p (L.validate · ns (cstr lossy q) l) err (fun b => .val (.bool b)) (.bool false) s
  | .nodeDescriptions p q l => request p (L.nodeDescriptions · (cstr lossy q) l) err (fun d => .obj (.queryAtts d)) .null s
  | .importFromFs p path f c d o =>
    request p (L.importFrom · (cstr lossy path) f (c.map fun x => cstr lossy (some x)) d o) err (fun n => .obj (.str (cstring n))) .null s
  | .exportToFs p ns path f => do
    let ns ← stringsAt lossy ns s
    request p (L.exportTo · ns (cstr lossy path) f) err (fun _ => .val .unit) .unit s
  | .listComponentsByType p c t => request p (L.components · (cstr lossy c) (some t)) err (fun l => .obj (.comps l)) .null s
  | .delete p c => request p (L.delete · (cstr lossy c)) err (fun b => .val (.bool b)) (.bool false) s
  | .unload p c => request p (L.unload · (cstr lossy c)) err (fun _ => .val .unit) .unit s
  | .applyUpdate p c u =>
    match cast u s, u with
    | .ok (.update up, s), some i =>
      match cast p s, p with
      | .ok (.storage x, s), some j =>
        let r := L.applyUpdate x (cstr lossy c) up
        .ok (answer r.1.1 err (fun _ => .val .unit) .unit (store i (.update r.1.2) (store j (.storage r.2) s)))
      | .error e, _ => .error e
      | _, _ => .error .undefined
    | .error e, _ => .error e
    | _, _ => .error .undefined
  | .annotationsForNode g n => do
    let g ← graphAt g s
    .ok (answer (L.annosForNode g n) err (fun l => .obj (.annos l)) .null s)
  | .outgoingEdges g n c => do
    let g ← graphAt g s
    let c ← compAt c s
    let r := collectEdges n err ((L.outgoing g n c).getD []) [] s
    .ok (give (.obj (.edges r.1)) r.2)
  | .annotationsForEdge g e c => do
    let g ← graphAt g s
    let c ← compAt c s
    .ok (match L.annosForEdge g e c with
      | some r => answer r err (fun l => .obj (.annos l)) .null s
      | none => give (.obj (.annos [])) s)
  | .iterNext p =>
    match cast p s, p with
    | .ok (.iter (x :: l), s), some i => .ok (answer x err (fun n => .obj (.nodeId n)) .null (store i (.iter l) s))
    | .ok (.iter [], s), _ => .ok (.null, s)
    | .error e, _ => .error e
    | _, _ => .error .undefined
  | .addNode p n t => pushEvent p (.addNode (cstr lossy n) (cstr lossy t)) s
  | .deleteNode p n => pushEvent p (.deleteNode (cstr lossy n)) s
  | .addNodeLabel p n ns name v => pushEvent p (.addNodeLabel (cstr lossy n) (cstr lossy ns) (cstr lossy name) (cstr lossy v)) s
  | .deleteNodeLabel p n ns name => pushEvent p (.deleteNodeLabel (cstr lossy n) (cstr lossy ns) (cstr lossy name)) s
  | .addEdge p a b l t n => pushEvent p (.addEdge (cstr lossy a) (cstr lossy b) (cstr lossy l) (cstr lossy t) (cstr lossy n)) s
  | .deleteEdge p a b l t n => pushEvent p (.deleteEdge (cstr lossy a) (cstr lossy b) (cstr lossy l) (cstr lossy t) (cstr lossy n)) s
  | .addEdgeLabel p a b l t n ns name v => pushEvent p (.addEdgeLabel (cstr lossy a) (cstr lossy b) (cstr lossy l) (cstr lossy t) (cstr lossy n)
      (cstr lossy ns) (cstr lossy name) (cstr lossy v)) s
  | .deleteEdgeLabel p a b l t n ns name => pushEvent p (.deleteEdgeLabel (cstr lossy a) (cstr lossy b) (cstr lossy l) (cstr lossy t)
      (cstr lossy n) (cstr lossy ns) (cstr lossy name)) s

/-! ## Functions that cannot fail -/

/-- `annis_graphupdate_new` (update.rs 7-10). -/
def updateNew (s : St σ G) : Val × St σ G := give (.obj (.update GraphUpdate.new)) s

/-- `annis_vec_str_new` (data.rs 104-107). -/
def vecNew (s : St σ G) : Val × St σ G := give (.obj (.vecStr [])) s

/-- `annis_vec_str_push` (data.rs 111-117). -/
def vecPush (ptr : Option Nat) (v : CPtr) (s : St σ G) : Except Stop (St σ G) :=
  match cast ptr s, ptr with
  | .ok (.vecStr l, s), some p =>
    match newCString (cstr lossy v) with
    | some c => .ok (store p (.vecStr (l ++ [c])) s)
    | none => .ok s
  | .error e, _ => .error e
  | _, _ => .error .undefined

/-- `annis_vec_str_size` (data.rs 86-88). -/
def vecSize (ptr : Option Nat) (s : St σ G) : Except Stop Nat :=
  match cast ptr s with
  | .ok (.vecStr l, _) => .ok l.length
  | .error e => .error e
  | _ => .error .undefined

/-- `annis_vec_str_get` (data.rs 92-100). -/
def vecGet (ptr : Option Nat) (i : Nat) (s : St σ G) : Except Stop CPtr :=
  match cast ptr s with
  | .ok (.vecStr l, _) => .ok (l[i]?.bind asPtr)
  | .error e => .error e
  | _ => .error .undefined

/-- `annis_matrix_str_nrows` (data.rs 253-255). -/
def matrixRows (ptr : Option Nat) (s : St σ G) : Except Stop Nat :=
  match cast ptr s with
  | .ok (.matrix m, _) => .ok m.length
  | .error e => .error e
  | _ => .error .undefined

/-- `annis_matrix_str_ncols` (data.rs 259-265): the columns of the first row. -/
def matrixCols (ptr : Option Nat) (s : St σ G) : Except Stop Nat :=
  match cast ptr s with
  | .ok (.matrix m, _) => .ok ((m.head?.map List.length).getD 0)
  | .error e => .error e
  | _ => .error .undefined

/-- `annis_matrix_str_get` (data.rs 269-280). -/
def matrixGet (ptr : Option Nat) (row col : Nat) (s : St σ G) : Except Stop CPtr :=
  match cast ptr s with
  | .ok (.matrix m, _) => .ok (m[row]?.bind fun r => r[col]?.bind asPtr)
  | .error e => .error e
  | _ => .error .undefined

/-- `annis_freqtable_str_nrows` (data.rs 284-286). -/
def freqRows (ptr : Option Nat) (s : St σ G) : Except Stop Nat :=
  match cast ptr s with
  | .ok (.freqTable m, _) => .ok m.length
  | .error e => .error e
  | _ => .error .undefined

/-- `annis_freqtable_str_ncols` (data.rs 290-296). -/
def freqCols (ptr : Option Nat) (s : St σ G) : Except Stop Nat :=
  match cast ptr s with
  | .ok (.freqTable m, _) => .ok ((m.head?.map fun r => r.1.length).getD 0)
  | .error e => .error e
  | _ => .error .undefined

/-- `annis_freqtable_str_get` (data.rs 300-311). -/
def freqGet (ptr : Option Nat) (row col : Nat) (s : St σ G) : Except Stop CPtr :=
  match cast ptr s with
  | .ok (.freqTable m, _) => .ok (m[row]?.bind fun r => r.1[col]?.bind asPtr)
  | .error e => .error e
  | _ => .error .undefined

/-- `annis_freqtable_str_count` (data.rs 315-324). -/
def freqCount (ptr : Option Nat) (row : Nat) (s : St σ G) : Except Stop Nat :=
  match cast ptr s with
  | .ok (.freqTable m, _) => .ok ((m[row]?.map Prod.snd).getD 0)
  | .error e => .error e
  | _ => .error .undefined

/-- `annis_error_size` (cerror.rs 107-109). -/
def errorSize (ptr : Option Nat) (s : St σ G) : Except Stop Nat :=
  match cast ptr s with
  | .ok (.errors l, _) => .ok l.length
  | .error e => .error e
  | _ => .error .undefined

/-- `annis_error_get_msg` (cerror.rs 113-120). -/
def errorMsg (ptr : Option Nat) (i : Nat) (s : St σ G) : Except Stop CPtr :=
  match cast ptr s with
  | .ok (.errors l, _) => .ok (l[i]?.bind fun e => asPtr e.1)
  | .error e => .error e
  | _ => .error .undefined

/-- `annis_error_get_kind` (cerror.rs 124-131). -/
def errorKind (ptr : Option Nat) (i : Nat) (s : St σ G) : Except Stop CPtr :=
  match cast ptr s with
  | .ok (.errors l, _) => .ok (l[i]?.bind fun e => asPtr e.2)
  | .error e => .error e
  | _ => .error .undefined

/-- `annis_vec_qattdesc_get_anno_name` (data.rs 237-249); the functions for the other fields are alike (196-231). A position outside of the
vector gives a null pointer, whose cast fails. -/
def queryAttName (ptr : Option Nat) (i : Nat) (s : St σ G) : Except Stop CPtr :=
  match cast ptr s with
  | .ok (.queryAtts l, _) =>
    match l[i]? with
    | some d => .ok (d.annoName.bind fun n => asPtr (cstring n))
    | none => .error .abort
  | .error e => .error e
  | _ => .error .undefined

/-- `annis_graph_nodes_by_type` (graph.rs 41-53). -/
def nodesByType (ptr : Option Nat) (ty : CPtr) (s : St σ G) : Except Stop (Val × St σ G) := do
  let g ← graphAt ptr s
  .ok (give (.obj (.iter (L.nodesByType g (cstr lossy ty)))) s)

/-! ## Releasing memory -/

/-- Size and alignment of the allocation of an object, as given to the allocator. `CString` is an allocation of its own. -/
structure Layout where
  size : Nat
  align : Nat
deriving DecidableEq

/-- The layouts on a machine with 64 bit: vectors have three words, an iterator is a `Box<dyn Iterator>` of two words. The sizes of storages,
graphs and updates are arguments. -/
def layout (storage graph update : Nat) : Obj σ G → Layout
  | .storage _ => ⟨storage, 8⟩
  | .graph _ => ⟨graph, 8⟩
  | .update _ => ⟨update, 8⟩
  | .iter _ => ⟨16, 8⟩
  | .nodeId _ => ⟨8, 8⟩
  | .str c => ⟨c.length + 1, 1⟩
  | _ => ⟨24, 8⟩

/-- `annis_free` (data.rs 22-30): the memory is given back as a `Box<c_void>`, of one byte. `undefined` if the allocator gets another layout than
for the allocation. -/
def free (lay : Obj σ G → Layout) (ptr : Option Nat) (s : St σ G) : Except Stop (St σ G) :=
  match ptr with
  | none => .ok s
  | some p =>
    match s.heap[p]? with
    | some (some o) => if lay o = ⟨1, 1⟩ then .ok { s with heap := s.heap.set p none } else .error .undefined
    | _ => .error .undefined

/-- `annis_str_free` (data.rs 38-45): `CString::from_raw` takes the length up to the first NUL. -/
def strFree (ptr : Option Nat) (s : St σ G) : Except Stop (St σ G) :=
  match ptr with
  | none => .ok s
  | some p =>
    match s.heap[p]? with
    | some (some (.str c)) => if (c ++ [0]).takeWhile (· ≠ 0) = c then .ok { s with heap := s.heap.set p none } else .error .undefined
    | _ => .error .undefined

/-- `annis_cs_free` (corpusstorage.rs 77-84). -/
def csFree (ptr : Option Nat) (s : St σ G) : Except Stop (St σ G) :=
  match ptr with
  | none => .ok s
  | some p =>
    match s.heap[p]? with
    | some (some (.storage _)) => .ok { s with heap := s.heap.set p none }
    | _ => .error .undefined

end
end Capi
