import Verif.Text.Model
import Verif.Graph.Model
import Mathlib.Data.Char
import Mathlib.Data.List.Lex

/-!
# Model of the GraphML export and import (core/src/graph/serialization/graphml.rs)

The crate `quick_xml` is a dependency; a document is modelled by the list of its events.  As documented, the writer escapes
attribute values and texts, an empty text leaves no event, the reader gives attribute values as they are in the file and only
`unescape` replaces the entities.  Simplified: indentation (texts outside of `data`, which the reader skips) and the XML
declaration are left out.  Exported is a list of nodes with their labels and a list of edges with their labels, in any order;
components are any type with a printed form.
-/

instance : OrderBot Str where
  bot := []
  bot_le := fun l => not_lt.1 (List.not_lt_nil l)

/-- `escape` of `quick_xml`. -/
def xmlEscChar (c : Char) : Str :=
  if c = '<' then "&lt;".toList
  else if c = '>' then "&gt;".toList
  else if c = '&' then "&amp;".toList
  else if c = '\'' then "&apos;".toList
  else if c = '"' then "&quot;".toList
  else [c]

def xmlEscape (s : Str) : Str := s.flatMap xmlEscChar

/-- `unescape` of `quick_xml` for the predefined entities; `none` is an error (also for entities that are not modelled). -/
def xmlUnescape : Str → Option Str
  | [] => some []
  | '&' :: 'l' :: 't' :: ';' :: r => (xmlUnescape r).map ('<' :: ·)
  | '&' :: 'g' :: 't' :: ';' :: r => (xmlUnescape r).map ('>' :: ·)
  | '&' :: 'a' :: 'm' :: 'p' :: ';' :: r => (xmlUnescape r).map ('&' :: ·)
  | '&' :: 'a' :: 'p' :: 'o' :: 's' :: ';' :: r => (xmlUnescape r).map ('\'' :: ·)
  | '&' :: 'q' :: 'u' :: 'o' :: 't' :: ';' :: r => (xmlUnescape r).map ('"' :: ·)
  | c :: r => if c = '&' then none else (xmlUnescape r).map (c :: ·)

inductive Tag
  | graphml
  | key
  | graph
  | node
  | edge
  | data
deriving DecidableEq

inductive Attr
  | id
  | name
  | source
  | target
  | label
  | key
deriving DecidableEq

/-- Events of the document; attribute values and texts are escaped. -/
inductive Xml
  | start (t : Tag) (attrs : List (Attr × Str))
  | text (s : Str)
  | cdata (s : Str)
  | stop (t : Tag)

abbrev Labels := List (AnnoKey Str × Str)

/-- What is exported. -/
structure GDoc (C : Type) where
  config : Option Str
  keys : List (AnnoKey Str)
  nodes : List (Str × Labels)
  edges : List (Str × Str × C × Labels)

/-- `format!("k{}", n)`. -/
def keyId (n : Nat) : Str := 'k' :: Nat.toDigits 10 n

section
variable {C : Type}

/-- The number of the first annotation key. -/
def GDoc.firstId (d : GDoc C) : Nat := if d.config.isSome then 1 else 0

/-- `key_id_mapping.get` (graphml.rs 113-115), with the numbers assigned by `write_annotation_keys` (25-103). -/
def GDoc.idOf (d : GDoc C) (k : AnnoKey Str) : Str := keyId (d.firstId + d.keys.idxOf k)

/-- `push_attribute`. -/
def xattr (a : Attr) (v : Str) : Attr × Str := (a, xmlEscape v)

/-- One `key` element (graphml.rs 54-66). -/
def writeKey (id : Str) (k : AnnoKey Str) : List Xml :=
  [.start .key [xattr .id id, xattr .name (joinQName k.ns k.name)], .stop .key]

/-- `write_annotation_keys` (graphml.rs 25-103). -/
def GDoc.writeKeys (d : GDoc C) : List Xml :=
  (if d.config.isSome then [.start .key [xattr .id (keyId 0), xattr .name "configuration".toList], .stop .key] else []) ++
  d.keys.flatMap fun k => writeKey (d.idOf k) k

/-- `write_data` (graphml.rs 105-124). -/
def GDoc.writeData (d : GDoc C) (l : AnnoKey Str × Str) : List Xml :=
  .start .data [xattr .key (d.idOf l.1)] :: ((if l.2 = [] then [] else [.text (xmlEscape l.2)]) ++ [.stop .data])

/-- One node of `write_nodes` (graphml.rs 155-190). -/
def GDoc.writeNode (d : GDoc C) (n : Str × Labels) : List Xml :=
  .start .node [xattr .id n.1] :: (n.2.flatMap d.writeData ++ [.stop .node])

/-- One edge of `write_edges` (graphml.rs 232-262). -/
def GDoc.writeEdge (printC : C → Str) (d : GDoc C) (e : Str × Str × C × Labels) : List Xml :=
  .start .edge [xattr .source e.1, xattr .target e.2.1, xattr .label (printC e.2.2.1)] ::
    (e.2.2.2.flatMap d.writeData ++ [.stop .edge])

/-- The configuration as CDATA section (graphml.rs 315-324, with the key `k0`). -/
def GDoc.writeConfig (d : GDoc C) : List Xml :=
  match d.config with
  | some c => [.start .data [xattr .key (keyId 0)], .cdata c, .stop .data]
  | none => []

/-- `export` (graphml.rs 270-341). -/
def GDoc.export (printC : C → Str) (d : GDoc C) : List Xml :=
  [.start .graphml []] ++ d.writeKeys ++ [.start .graph []] ++
  d.writeConfig ++
  d.nodes.flatMap d.writeNode ++ d.edges.flatMap (d.writeEdge printC) ++ [.stop .graph, .stop .graphml]

/-- The variables of `read_graphml` (graphml.rs 497-515). -/
structure RState (C : Type) where
  keys : List (Str × AnnoKey Str)
  level : Nat
  inGraph : Bool
  node : Option Str
  dataKey : Option Str
  source : Option Str
  target : Option Str
  comp : Option Str
  dataVal : Option Str
  data : Labels
  nodeUpd : List (Event Str Str C)
  edgeUpd : List (Event Str Str C)
  config : Option Str

def RState.new : RState C := ⟨[], 0, false, none, none, none, none, none, none, [], [], [], none⟩

/-- The value of the last attribute with the name, otherwise the old value. -/
def attrOr (attrs : List (Attr × Str)) (a : Attr) (old : Option Str) : Option Str :=
  match (attrs.filter fun p => p.1 = a).getLast? with
  | some p => some p.2
  | none => old

/-- `insert` of the map `keys` or `data`. -/
def assocInsert {K V : Type} [DecidableEq K] : List (K × V) → K → V → List (K × V)
  | [], k, v => [(k, v)]
  | p :: r, k, v => if p.1 = k then (k, v) :: r else p :: assocInsert r k v

def assocGet {K V : Type} [DecidableEq K] (m : List (K × V)) (k : K) : Option V := (m.find? fun p => p.1 = k).map Prod.snd

variable (tk : AnnoKey Str) (parseC : Str → Option C)

/-- `add_annotation_key` (graphml.rs 409-440). -/
def addKey (keys : List (Str × AnnoKey Str)) (attrs : List (Attr × Str)) : List (Str × AnnoKey Str) :=
  match attrOr attrs .id none, attrOr attrs .name none with
  | some id, some q =>
    let s := splitQName q
    assocInsert keys id (AnnoKey.mk (s.1.getD []) s.2)
  | _, _ => keys

/-- `add_node` (graphml.rs 442-468). -/
def addNodeEvents (node : Option Str) (data : Labels) : List (Event Str Str C) :=
  match node with
  | some n => .addNode n ((assocGet data tk).getD "node".toList) ::
      (data.filter fun p => p.1 ≠ tk).map fun p => .addNodeLabel n p.1 p.2
  | none => []

/-- `add_edge` (graphml.rs 470-507). -/
def addEdgeEvents (s t c : Option Str) (data : Labels) : List (Event Str Str C) :=
  match s, t, c.bind parseC with
  | some s, some t, some c => .addEdge s t (some c) :: data.map fun p => .addEdgeLabel s t (some c) p.1 p.2
  | _, _, _ => []

/-- The loop of `read_graphml` (graphml.rs 516-645); `none` is an error. -/
def RState.step (s : RState C) : Xml → Option (RState C)
  | .start t attrs =>
    let s := { s with level := s.level + 1 }
    some <| match t with
      | .graph => if s.level = 2 then { s with inGraph := true } else s
      | .key => if s.level = 2 then { s with keys := addKey s.keys attrs } else s
      | .node => if s.inGraph ∧ s.level = 3 then { s with data := [], node := attrOr attrs .id s.node } else s
      | .edge =>
        if s.inGraph ∧ s.level = 3 then
          { s with
            data := []
            source := attrOr attrs .source s.source
            target := attrOr attrs .target s.target
            comp := attrOr attrs .label s.comp }
        else s
      | .data => { s with dataKey := attrOr attrs .key s.dataKey }
      | .graphml => s
  | .text v =>
    if s.inGraph ∧ s.level = 4 ∧ s.dataKey.isSome then (xmlUnescape v).map fun v => { s with dataVal := some v }
    else some s
  | .cdata v =>
    some (if s.inGraph ∧ s.level = 3 ∧ s.dataKey = some "k0".toList then { s with config := some v } else s)
  | .stop t =>
    let s := match t with
      | .graph => { s with inGraph := false }
      | .node =>
        { s with
          nodeUpd := s.nodeUpd ++ addNodeEvents tk s.node s.data
          data := if s.node.isSome then [] else s.data
          node := none }
      | .edge =>
        { s with
          edgeUpd := s.edgeUpd ++ addEdgeEvents parseC s.source s.target s.comp s.data
          data := if s.source.isSome ∧ s.target.isSome ∧ (s.comp.bind parseC).isSome then [] else s.data
          source := none
          target := none
          comp := none }
      | .data =>
        { s with
          data := match s.dataKey.bind (assocGet s.keys) with
            | some k => assocInsert s.data k (s.dataVal.getD [])
            | none => s.data
          dataVal := none
          dataKey := none }
      | _ => s
    some { s with level := s.level - 1 }

def RState.run (s : RState C) (x : List Xml) : Option (RState C) := x.foldlM (RState.step tk parseC) s

/-- `import` (graphml.rs 647-692) up to applying the events: the events and the configuration. -/
def importEvents (x : List Xml) : Option (List (Event Str Str C) × Option Str) :=
  (RState.run tk parseC RState.new x).map fun s => (s.nodeUpd ++ s.edgeUpd, s.config)

end
