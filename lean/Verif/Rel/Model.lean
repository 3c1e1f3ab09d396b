import Verif.Rel.Rows
import Verif.Graph.Lemmas
import Mathlib.Data.List.Lex
import Mathlib.Data.Char

/-!
# Model of the relANNIS import (graphannis/src/annis/db/relannis.rs): from the tables to the update events

The rows of the tables are those of `Verif.Rel.Rows`.  Each loop of the code which fills several maps is written as one fold
per map.  Every error which aborts the import is `none`; the events collected until then are dropped by the code (the graph is
only changed by the `apply_update` at the end, relannis.rs 359), so the model does not keep them.  `DiskMap`s and `BTreeMap`s
are `OMap`s (a `DiskMap` behaves like a map, C08; that the keys keep the order is C86).  `HashMap`s are lists.
Not modelled: progress messages, statistics, the choice of the storage of the components, reading the files.
-/

set_option linter.unusedSectionVars false

/-- The empty string is the least one. -/
instance Rel.strBot : OrderBot Str where
  bot := []
  bot_le a := by
    cases a with
    | nil => exact le_refl _
    | cons x r => exact le_of_lt (List.nil_lt_cons x r)

namespace Rel

/-- The update events with strings as names and values. -/
abbrev Ev := Event Str Str (CKey Str)

/-- Type, layer and name of a component in an event.  The type is written with `to_string` and can be parsed again (C30). -/
def compOf (t : AnnotationComponentType) (layer name : Str) : Option (CKey Str) :=
  some (toLex (t.toU16, toLex (name, layer)))

/-- `DEFAULT_NS` (core/src/graph/mod.rs 28). -/
def defaultNs : Str := "default_ns".toList
/-- `TOK`, `TOK_WHITESPACE_BEFORE`, `TOK_WHITESPACE_AFTER` (aql/model.rs 35-37) in the namespace `annis`. -/
def tokKey : AnnoKey Str := AnnoKey.mk annisNs "tok".toList
def beforeKey : AnnoKey Str := AnnoKey.mk annisNs "tok-whitespace-before".toList
def afterKey : AnnoKey Str := AnnoKey.mk annisNs "tok-whitespace-after".toList
def layerKey : AnnoKey Str := AnnoKey.mk annisNs "layer".toList
def docKey : AnnoKey Str := AnnoKey.mk annisNs "doc".toList
def versionKey : AnnoKey Str := AnnoKey.mk annisNs "relannis-version".toList
def fileKey : AnnoKey Str := AnnoKey.mk annisNs "file".toList
/-- `NODE_NAME_KEY`, `NODE_TYPE_KEY` (core/src/graph/mod.rs 36-45). -/
def nameKey : AnnoKey Str := AnnoKey.mk annisNs "node_name".toList
def typeKey : AnnoKey Str := AnnoKey.mk annisNs nodeTypeName

/-- The component for the corpus structure. -/
def partOfComp : Option (CKey Str) := compOf .partOf annisNs []

/-- `INVALID_STRING` (relannis.rs 37): the largest character. -/
def invalidStr : Str := [Char.ofNat 0x10FFFF]

/-- A map which is filled in a loop over the rows of a table: later rows replace the value of the same key. -/
def collect {R K V : Type} [LinearOrder K] (f : R → Option (K × V)) (rows : List R) : OMap K V :=
  rows.foldl (fun m r => match f r with
    | some p => OMap.insert m p.1 p.2
    | none => m) []

/-! ### The corpus table -/

/-- The suffix of renamed documents (relannis.rs 904). -/
def dupSuffix : Str := "_duplicated_document_name_".toList

/-- Renaming documents whose name was used before by another document (relannis.rs 893-910); `seen` are the names of the
documents so far, before they were renamed (`document_names`). -/
def renameFrom (seen : List Str) : List CorpusRow → List CorpusRow
  | [] => []
  | r :: rs =>
    if r.doc then
      (if seen.count r.name + 1 > 1 then { r with name := r.name ++ dupSuffix ++ Nat.toDigits 10 (seen.count r.name + 1) } else r)
        :: renameFrom (r.name :: seen) rs
    else r :: renameFrom seen rs

/-- `ParsedCorpusTable` (relannis.rs 241-245); the entries by identifier are the (renamed) rows. -/
structure CTable where
  top : Str
  byPre : OMap Nat Nat
  byId : OMap Nat CorpusRow

/-- `normalized_name` (relannis.rs 915). -/
def norm (s : Str) : Str := pctEncode nodeNameSet s

/-- `parse_corpus_tab` (relannis.rs 857-941) for the parsed rows. -/
def parseCorpus (rows : List CorpusRow) : Option CTable :=
  match (collect (fun r => some (r.pre, r.id)) (renameFrom [] rows)).head? with
  | none => none
  | some first =>
    ((collect (fun r => some (r.id, r)) (renameFrom [] rows)).get first.2).map fun e =>
      ⟨e.name, collect (fun r => some (r.pre, r.id)) (renameFrom [] rows), collect (fun r => some (r.id, r)) (renameFrom [] rows)⟩

/-- `join("/")`. -/
def joinSlash : List Str → Str
  | [] => []
  | [s] => s
  | s :: t :: r => s ++ '/' :: joinSlash (t :: r)

/-- The corpora whose range contains the corpus `c` (relannis.rs 2011-2015). -/
def parentsOf (T : CTable) (c : CorpusRow) : List CorpusRow :=
  ((T.byPre.filter fun p => p.1 < c.pre).filterMap fun p => T.byId.get p.2).filter fun q => c.post < q.post

/-- `get_parent_path` (relannis.rs 2003-2018). -/
def parentPath (T : CTable) (cid : Nat) : Option Str :=
  (T.byId.get cid).map fun c => joinSlash ((parentsOf T c).map fun q => norm q.name)

/-- `get_corpus_path` (relannis.rs 2020-2029). -/
def corpusPath (T : CTable) (cid : Nat) : Option Str :=
  (parentPath T cid).bind fun p => (T.byId.get cid).map fun c => p ++ '/' :: norm c.name

/-! ### Texts -/

/-- `TextKey` (relannis.rs 162-166): the identifier and the corpus, which is missing for the old format; no corpus is smaller
than any corpus. -/
def textKey (id : Nat) (corpus : Option Nat) : Nat ×ₗ Nat :=
  toLex (id, match corpus with
    | none => 0
    | some c => c + 1)

/-- `parse_text_tab` (relannis.rs 943-996) for the parsed rows. -/
def parseTexts (rows : List TextRow) : OMap (Nat ×ₗ Nat) TextRow := collect (fun r => some (textKey r.id r.corpus, r)) rows

/-- Completing the corpus of the texts with the node table for the old format (relannis.rs 1427-1440). -/
def completeTexts (is33 : Bool) (nodes : List NodeRow) (texts : OMap (Nat ×ₗ Nat) TextRow) : OMap (Nat ×ₗ Nat) TextRow :=
  if is33 then texts
  else nodes.foldl (fun m n =>
    match m.get (textKey n.text none) with
    | some t => (m.erase (textKey n.text none)).insert (textKey n.text (some n.corpus)) { t with corpus := some n.corpus }
    | none => m) texts

/-! ### The node table -/

/-- `TextProperty` (relannis.rs 112-118) in the order of the derived `Ord`: segmentation, corpus, text, value. -/
abbrev TProp := Str ×ₗ Nat ×ₗ Nat ×ₗ Nat

def tprop (seg : Str) (corpus text val : Nat) : TProp := toLex (seg, toLex (corpus, toLex (text, val)))

def TProp.seg (p : TProp) : Str := (ofLex p).1
def TProp.corpus (p : TProp) : Nat := (ofLex (ofLex p).2).1
def TProp.text (p : TProp) : Nat := (ofLex (ofLex (ofLex p).2).2).1
def TProp.val (p : TProp) : Nat := (ofLex (ofLex (ofLex p).2).2).2

/-- A row of the node table with the name of its node. -/
abbrev Named := NodeRow × Str

/-- The names of the nodes (relannis.rs 1442-1447); an unknown corpus is an error. -/
def nameNodes (T : CTable) (rows : List NodeRow) : Option (List Named) :=
  rows.mapM fun r => (corpusPath T r.corpus).map fun p => (r, p ++ '#' :: r.name)

/-- The events for one row of the node table (relannis.rs 1448-1464, 1529-1534 and 1563-1568). -/
def nodeEvents (n : Named) : List Ev :=
  .addNode n.2 "node".toList ::
  ((match n.1.layer with
    | some l => if l ≠ [] then [.addNodeLabel n.2 layerKey l] else []
    | none => []) ++
  match n.1.kind with
    | .tok _ span => [.addNodeLabel n.2 tokKey span]
    | .seg _ _ (some span) => [.addNodeLabel n.2 tokKey span]
    | _ => [])

/-- `id_to_node_name` (relannis.rs 1452). -/
def nodeNames (ns : List Named) : OMap Nat Str := collect (fun n => some (n.1.id, n.2)) ns

/-- `missing_seg_span` (relannis.rs 1571). -/
def missingSpans (rows : List NodeRow) : OMap Nat Str :=
  collect (fun r => match r.kind with
    | .seg seg _ none => some (r.id, seg)
    | _ => none) rows

/-- `nodes_by_text` (relannis.rs 1418-1425): text, corpus and node. -/
def nodesByText (rows : List NodeRow) : OMap (Nat ×ₗ Nat ×ₗ Nat) Unit :=
  collect (fun r => some (toLex (r.text, toLex (r.corpus, r.id)), ())) rows

/-- `token_by_index` (relannis.rs 1542-1544 and 1573-1580). -/
def tokByIndex (rows : List NodeRow) : OMap TProp Nat :=
  collect (fun r => match r.kind with
    | .tok i _ => some (tprop [] r.corpus r.text i, r.id)
    | .seg seg i _ => some (tprop seg r.corpus r.text i, r.id)
    | .plain => none) rows

/-- `token_to_index` (relannis.rs 1545). -/
def tokToIndex (rows : List NodeRow) : OMap Nat TProp :=
  collect (fun r => match r.kind with
    | .tok i _ => some (r.id, tprop [] r.corpus r.text i)
    | _ => none) rows

/-- `token_by_left_textpos` (relannis.rs 1546-1548). -/
def tokByLeft (rows : List NodeRow) : OMap TProp Nat :=
  collect (fun r => match r.kind with
    | .tok _ _ => some (tprop [] r.corpus r.text r.la, r.id)
    | _ => none) rows

/-- `token_by_right_textpos` (relannis.rs 1549-1551). -/
def tokByRight (rows : List NodeRow) : OMap TProp Nat :=
  collect (fun r => match r.kind with
    | .tok _ _ => some (tprop [] r.corpus r.text r.ra, r.id)
    | _ => none) rows

/-- `node_to_left`, `node_to_right` (relannis.rs 1514-1519), `node_to_left_char`, `node_to_right_char` (1484-1489). -/
def nodeToLeft (rows : List NodeRow) : OMap Nat TProp := collect (fun r => some (r.id, tprop [] r.corpus r.text r.la)) rows
def nodeToRight (rows : List NodeRow) : OMap Nat TProp := collect (fun r => some (r.id, tprop [] r.corpus r.text r.ra)) rows
def nodeToLeftChar (rows : List NodeRow) : OMap Nat TProp :=
  collect (fun r => some (r.id, tprop [] r.corpus r.text r.left)) rows
def nodeToRightChar (rows : List NodeRow) : OMap Nat TProp :=
  collect (fun r => some (r.id, tprop [] r.corpus r.text r.right)) rows

/-- Both positions are in the same text and segmentation (relannis.rs 1020-1022). -/
def sameText (p q : TProp) : Bool := p.corpus == q.corpus && p.text == q.text && p.seg == q.seg

/-- The layer of an ordering component (relannis.rs 1026-1030). -/
def orderLayer (seg : Str) : Str := if seg = [] then annisNs else defaultNs

/-- The loop of `calculate_automatic_token_order` (relannis.rs 1012-1048). -/
def orderFrom (names : OMap Nat Str) : Option (TProp × Nat) → List (TProp × Nat) → Option (List Ev)
  | _, [] => some []
  | none, c :: r => orderFrom names (some c) r
  | some l, c :: r =>
    if sameText l.1 c.1 then do
      let s ← names.get l.2
      let t ← names.get c.2
      let rest ← orderFrom names (some c) r
      return .addEdge s t (compOf .ordering (orderLayer c.1.seg) c.1.seg) :: rest
    else orderFrom names (some c) r

/-- `load_node_tab` (relannis.rs 1362-1635): the named nodes and the events. -/
def loadNodeTab (T : CTable) (rows : List NodeRow) : Option (List Named × List Ev) := do
  let ns ← nameNodes T rows
  let ord ← orderFrom (nodeNames ns) none (tokByIndex rows)
  return (ns, ns.flatMap nodeEvents ++ ord)

/-- One row of `load_node_anno_tab` (relannis.rs 1664-1699). -/
def nodeAnnoEvents (names missing : OMap Nat Str) (a : AnnoRow) : Option (List Ev) :=
  (names.get a.id).map fun n =>
    if a.ns ≠ annisNs ∨ a.name ≠ "tok".toList then
      (match missing.get a.id, a.val with
        | some seg, some v => if seg = a.name then [.addNodeLabel n tokKey v] else []
        | _, _ => []) ++ [.addNodeLabel n (AnnoKey.mk a.ns a.name) (a.val.getD invalidStr)]
    else []

/-- `load_node_anno_tab` (relannis.rs 1637-1709). -/
def loadNodeAnnos (names missing : OMap Nat Str) (rows : List AnnoRow) : Option (List Ev) :=
  (rows.mapM (nodeAnnoEvents names missing)).map List.flatten

/-! ### The corpus structure -/

/-- `load_corpus_annotation` (relannis.rs 1961-2001) for the parsed rows. -/
def corpusAnnos (rows : List AnnoRow) : OMap (Nat ×ₗ AnnoKey Str) Str :=
  collect (fun r => some (toLex (r.id, AnnoKey.mk r.ns r.name), r.val.getD invalidStr)) rows

/-- The metadata of one corpus (relannis.rs 2061-2080 and 2119-2136). -/
def metaEvents (annos : OMap (Nat ×ₗ AnnoKey Str) Str) (cid : Nat) (node : Str) : List Ev :=
  ((annos.filter fun p => decide (toLex (cid, AnnoKey.mk [] []) ≤ p.1)).takeWhile fun p => (ofLex p.1).1 == cid).map fun p =>
    .addNodeLabel node (ofLex p.1).2 p.2

/-- `add_external_data_files` (relannis.rs 720-766); `files` are the names and the full paths of the files in the folder. -/
def fileEvents (parent : Str) (files : List (Str × Str)) : List Ev :=
  files.flatMap fun f =>
    [.addNode (parent ++ '/' :: f.1) "file".toList, .addNodeLabel (parent ++ '/' :: f.1) fileKey f.2,
      .addEdge (parent ++ '/' :: f.1) parent partOfComp]

/-- The events for the top-level corpus (relannis.rs 2041-2083); `ext` lists the files of the folder of a document, or of the
whole corpus. -/
def topEvents (is33 : Bool) (T : CTable) (annos : OMap (Nat ×ₗ AnnoKey Str) Str) (ext : Option Str → List (Str × Str)) : List Ev :=
  [.addNode T.top "corpus".toList, .addNodeLabel T.top versionKey (if is33 then "3.3".toList else "3.2".toList)] ++
  match T.byPre.get 0 with
  | some cid => metaEvents annos cid T.top ++ fileEvents T.top (ext none)
  | none => []

/-- The events for one sub-corpus or document (relannis.rs 2086-2150). -/
def subEvents (T : CTable) (annos : OMap (Nat ×ₗ AnnoKey Str) Str) (ext : Option Str → List (Str × Str)) (p : Nat × Nat) :
    Option (List Ev) :=
  if p.1 = 0 then some []
  else do
    let c ← T.byId.get p.2
    let full ← corpusPath T p.2
    let parent ← parentPath T p.2
    return [.addNode full "corpus".toList] ++
      (if c.pre + 1 = c.post then [.addNodeLabel full docKey c.name] else []) ++
      metaEvents annos p.2 full ++
      [.addEdge full parent partOfComp] ++
      fileEvents full (ext (some c.name))

/-- The events for one text (relannis.rs 2153-2196). -/
def textEvents (T : CTable) (names : OMap Nat Str) (byText : OMap (Nat ×ₗ Nat ×ₗ Nat) Unit) (t : TextRow) : Option (List Ev) :=
  match t.corpus with
  | none => some []
  | some c => do
    let sub ← corpusPath T c
    let es ← (byText.filter fun p => (ofLex p.1).1 == t.id && (ofLex (ofLex p.1).2).1 == c).mapM fun p =>
      (names.get (ofLex (ofLex p.1).2).2).map fun n => (Event.addEdge n (sub ++ '#' :: norm t.name) partOfComp : Ev)
    return [.addNode (sub ++ '#' :: norm t.name) "datasource".toList, .addEdge (sub ++ '#' :: norm t.name) sub partOfComp] ++ es

/-- `add_subcorpora` (relannis.rs 2031-2199). -/
def addSubcorpora (is33 : Bool) (T : CTable) (names : OMap Nat Str) (byText : OMap (Nat ×ₗ Nat ×ₗ Nat) Unit)
    (texts : OMap (Nat ×ₗ Nat) TextRow) (annos : OMap (Nat ×ₗ AnnoKey Str) Str) (ext : Option Str → List (Str × Str)) :
    Option (List Ev) := do
  let subs ← T.byPre.mapM (subEvents T annos ext)
  let txts ← texts.mapM fun t => textEvents T names byText t.2
  return topEvents is33 T annos ext ++ subs.flatten ++ txts.flatten

/-! ### Whitespace -/

/-- The labels of one token of the loop of `add_white_space_token_labels` (relannis.rs 1267-1349): the remaining characters of
the text and their offset; `prev` is true if there was a token before; `next` is the left position of the next token. -/
def wsToken (rest : Str) (off : Nat) (prev : Bool) (l r : Nat) (next : Option Nat) : Option Str × Str × Str × Nat :=
  let b := !prev && decide (off < l)
  let k := if b then l - 1 - off else 0
  let before := if b then some (rest.take k) else none
  let off1 := off + (rest.take k).length
  let rest1 := rest.drop k
  let off2 := off1 + (rest1.take (r - off1)).length
  let rest2 := rest1.drop (r - off1)
  match next with
  | some e => (before, rest2.take (e - off2), rest2.drop (e - off2), off2 + (rest2.take (e - off2)).length)
  | none => (before, rest2, [], off2 + rest2.length)

/-- The loop over the tokens of one text (relannis.rs 1263-1351): the token with its labels. -/
def wsLoop (left right : Nat → Option Nat) (rest : Str) (off : Nat) (prev : Bool) : List Nat → List (Nat × Option Str × Str)
  | [] => []
  | t :: ts =>
    match left t, right t with
    | some l, some r =>
      let w := wsToken rest off prev l r (ts.head?.bind left)
      (t, w.1, w.2.1) :: wsLoop left right w.2.2.1 w.2.2.2 true ts
    | _, _ => wsLoop left right rest off true ts

/-- The label events of one token (relannis.rs 1287-1295 and 1340-1348). -/
def wsEvents (names : OMap Nat Str) (w : Nat × Option Str × Str) : List Ev :=
  match names.get w.1 with
  | some n => (match w.2.1 with
    | some b => [.addNodeLabel n beforeKey b]
    | none => []) ++ [.addNodeLabel n afterKey w.2.2]
  | none => []

/-- The tokens of one text in their order (relannis.rs 1245-1262); a text without corpus looks in corpus 0.  Simplified: the
exclusive upper bound `u32::MAX` of the range is not modelled, i.e. a token with this index is not skipped. -/
def textTokens (index : OMap TProp Nat) (t : TextRow) : List Nat :=
  (index.filter fun p => p.1.seg == [] && p.1.corpus == t.corpus.getD 0 && p.1.text == t.id).map Prod.snd

/-- `add_white_space_token_labels` (relannis.rs 1225-1360). -/
def addWhitespace (rows : List NodeRow) (names : OMap Nat Str) (texts : OMap (Nat ×ₗ Nat) TextRow) : List Ev :=
  texts.flatMap fun t =>
    (wsLoop (fun n => ((nodeToLeftChar rows).get n).map TProp.val) (fun n => ((nodeToRightChar rows).get n).map TProp.val)
      t.2.val 0 false (textTokens (tokByIndex rows) t.2)).flatMap (wsEvents names)

/-! ### Edges -/

/-- `load_component_tab` (relannis.rs 1711-1746) for the parsed rows. -/
def compTable (rows : List CompRow) : OMap Nat CompRow := collect (fun r => some (r.id, r)) rows

/-- The first run over the rank table (relannis.rs 1826-1835). -/
def preToNode (rows : List RankRow) : OMap Nat Nat := collect (fun r => some (r.pre, r.node)) rows

/-- The source node and the component of the edge of a row of the rank table (relannis.rs 1851-1855). -/
def rankEdge (pre : OMap Nat Nat) (comps : OMap Nat CompRow) (r : RankRow) : Option (Nat × CompRow) :=
  match r.parent with
  | none => none
  | some p =>
    match pre.get p, comps.get r.comp with
    | some s, some c => some (s, c)
    | _, _ => none

/-- The edge event of a row of the rank table (relannis.rs 1856-1867). -/
def rankEvents (pre : OMap Nat Nat) (comps : OMap Nat CompRow) (names : OMap Nat Str) (r : RankRow) : Option (List Ev) :=
  match rankEdge pre comps r with
  | none => some []
  | some (s, c) => do
    let sn ← names.get s
    let tn ← names.get r.node
    return [.addEdge sn tn (compOf c.type c.layer c.name)]

/-- `LoadRankResult` (relannis.rs 267-274); the edges by pre-order value come with their component. -/
structure RankResult where
  byPre : OMap Nat ((Nat × Nat) × CompRow)
  cov : List (Nat × Nat)
  parentless : OMap Nat CompRow

/-- The maps of `load_rank_tab` (relannis.rs 1869-1893). -/
def rankResult (comps : OMap Nat CompRow) (rows : List RankRow) : RankResult where
  byPre := collect (fun r => (rankEdge (preToNode rows) comps r).map fun e => (r.pre, ((e.1, r.node), e.2))) rows
  cov := rows.filterMap fun r => match rankEdge (preToNode rows) comps r with
    | some (s, c) => if c.type = .coverage then some (s, r.node) else none
    | none => none
  parentless := collect (fun r => match r.parent, comps.get r.comp with
    | none, some c => if c.type = .coverage then some (r.node, c) else none
    | _, _ => none) rows

/-- `load_rank_tab` (relannis.rs 1784-1899): the events. -/
def loadRank (comps : OMap Nat CompRow) (names : OMap Nat Str) (rows : List RankRow) : Option (List Ev) :=
  (rows.mapM (rankEvents (preToNode rows) comps names)).map List.flatten

/-- One row of `load_edge_annotation` (relannis.rs 1926-1955).  Simplified: the code reads the other columns only if there is
an edge with the pre-order value, here the whole row was read before. -/
def edgeAnnoEvents (res : RankResult) (names : OMap Nat Str) (a : AnnoRow) : Option (List Ev) :=
  match res.byPre.get a.id with
  | none => some []
  | some (e, c) => do
    let s ← names.get e.1
    let t ← names.get e.2
    return [.addEdgeLabel s t (compOf c.type c.layer c.name) (AnnoKey.mk a.ns a.name) (a.val.getD invalidStr)]

/-- `load_edge_annotation` (relannis.rs 1901-1959). -/
def loadEdgeAnnos (res : RankResult) (names : OMap Nat Str) (rows : List AnnoRow) : Option (List Ev) :=
  (rows.mapM (edgeAnnoEvents res names)).map List.flatten

/-! ### Coverage edges -/

/-- The component of an automatic coverage edge (relannis.rs 1135-1160). -/
def covComp (res : RankResult) (n : Nat) : Option (CKey Str) :=
  if res.cov.any fun e => e.1 == n then compOf .coverage annisNs "autogenerated-coverage".toList
  else match res.parentless.get n with
    | some c => compOf .coverage c.layer c.name
    | none => compOf .coverage [] []

/-- The loop of `add_automatic_cov_edge_for_node` (relannis.rs 1116-1178) over `k` token indexes starting with `i`; at the first
index without a token (or node without a name) the code returns an error, which only leads to a warning (1197-1219): the events
until then are kept. -/
def covLoop (res : RankResult) (names : OMap Nat Str) (index : OMap TProp Nat) (n corpus text : Nat) : Nat → Nat → List Ev
  | _, 0 => []
  | i, k + 1 =>
    match index.get (tprop [] corpus text i) with
    | none => []
    | some t =>
      if n ≠ t ∧ (n, t) ∉ res.cov then
        match names.get n, names.get t with
        | some sn, some tn => .addEdge sn tn (covComp res n) :: covLoop res names index n corpus text (i + 1) k
        | _, _ => []
      else covLoop res names index n corpus text (i + 1) k

/-- The left- and right-aligned token of a node; if only one of them exists it is used for both sides (relannis.rs 1059-1097). -/
def aligned (rows : List NodeRow) (n : Nat) : Option (Nat × Nat) := do
  let lp ← (nodeToLeft rows).get n
  let rp ← (nodeToRight rows).get n
  match (tokByLeft rows).get lp, (tokByRight rows).get rp with
  | some l, some r => some (l, r)
  | some l, none => some (l, l)
  | none, some r => some (r, r)
  | none, none => none

/-- `add_automatic_cov_edge_for_node` (relannis.rs 1053-1181). -/
def covEvents (rows : List NodeRow) (res : RankResult) (names : OMap Nat Str) (n : Nat) : List Ev :=
  match aligned rows n with
  | none => []
  | some (l, r) =>
    match (tokToIndex rows).get l, (tokToIndex rows).get r with
    | some lp, some rp => covLoop res names (tokByIndex rows) n lp.corpus lp.text lp.val (rp.val + 1 - lp.val)
    | _, _ => []

/-- `calculate_automatic_coverage_edges` (relannis.rs 1183-1223). -/
def addCoverage (rows : List NodeRow) (res : RankResult) (names : OMap Nat Str) : List Ev :=
  (nodeToLeft rows).flatMap fun p =>
    if p.2.seg = [] ∧ (tokToIndex rows).get p.1 = none then covEvents rows res names p.1 else []

/-! ### The whole import -/

/-- The rows of all tables. -/
structure Tables where
  is33 : Bool
  corpora : List CorpusRow
  texts : List TextRow
  corpusAnnos : List AnnoRow
  nodes : List NodeRow
  nodeAnnos : List AnnoRow
  comps : List CompRow
  ranks : List RankRow
  edgeAnnos : List AnnoRow

/-- `load` (relannis.rs 297-386) without the configuration: the name of the corpus and the update events, in the order of
`load_node_and_corpus_tables` (388-430), `load_edge_tables` (432-470) and `calculate_automatic_coverage_edges`. -/
def importEvents (ext : Option Str → List (Str × Str)) (t : Tables) : Option (Str × List Ev) := do
  let T ← parseCorpus t.corpora
  let (ns, e1) ← loadNodeTab T t.nodes
  let names := nodeNames ns
  let e2 ← loadNodeAnnos names (missingSpans t.nodes) t.nodeAnnos
  let texts := completeTexts t.is33 t.nodes (parseTexts t.texts)
  let e3 ← addSubcorpora t.is33 T names (nodesByText t.nodes) texts (corpusAnnos t.corpusAnnos) ext
  let e4 := addWhitespace t.nodes names texts
  let comps := compTable t.comps
  let e5 ← loadRank comps names t.ranks
  let res := rankResult comps t.ranks
  let e6 ← loadEdgeAnnos res names t.edgeAnnos
  let e7 := addCoverage t.nodes res names
  return (T.top, e1 ++ e2 ++ e3 ++ e4 ++ e5 ++ e6 ++ e7)

end Rel
