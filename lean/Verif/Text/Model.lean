import Verif.Text.Percent
import Mathlib.Data.Prod.Lex

/-!
# Model of the functions that build and parse names
-/

/-! ### Splitting strings -/

/-- `str::split_once` with a character. -/
def splitOnce (c : Char) : Str → Option (Str × Str)
  | [] => none
  | x :: r => if x = c then some ([], r) else (splitOnce c r).map fun p => (x :: p.1, p.2)

/-- `str::split` with a character. -/
def splitAll (c : Char) : Str → List Str
  | [] => [[]]
  | x :: r =>
    if x = c then [] :: splitAll c r
    else match splitAll c r with
      | [] => [[x]]
      | p :: ps => (x :: p) :: ps

/-- `str::splitn(3, c)`. -/
def splitn3 (c : Char) (s : Str) : List Str :=
  match splitOnce c s with
  | none => [s]
  | some (a, r) =>
    match splitOnce c r with
    | none => [a, r]
    | some (b, r) => [a, b, r]

/-- Splitting at the first occurrence of `::`. -/
def splitColons : Str → Option (Str × Str)
  | [] => none
  | [_] => none
  | x :: y :: r =>
    if x = ':' ∧ y = ':' then some ([], r) else (splitColons (y :: r)).map fun p => (x :: p.1, p.2)

/-- `str::splitn(3, "::")`. -/
def splitn3Colons (s : Str) : List Str :=
  match splitColons s with
  | none => [s]
  | some (a, r) =>
    match splitColons r with
    | none => [a, r]
    | some (b, r) => [a, b, r]

/-- `char::is_whitespace`. -/
def isWs (c : Char) : Bool :=
  let n := c.toNat
  (9 ≤ n && n ≤ 13) || n == 0x20 || n == 0x85 || n == 0xA0 || n == 0x1680 || (0x2000 ≤ n && n ≤ 0x200A) ||
    n == 0x2028 || n == 0x2029 || n == 0x202F || n == 0x205F || n == 0x3000

/-- `str::split_whitespace`; `cur` is the part of the current word that was already read. -/
def wordsFrom (cur : Str) : Str → List Str
  | [] => if cur = [] then [] else [cur]
  | c :: r =>
    if isWs c then (if cur = [] then wordsFrom [] r else cur :: wordsFrom [] r)
    else wordsFrom (cur ++ [c]) r

def splitWhitespace (s : Str) : List Str := wordsFrom [] s

/-! ### Qualified names (core/src/util/mod.rs) -/

/-- `QNAME_ENCODE_SET` (util/mod.rs 10). -/
def qnameSet : AsciiSet := fun b => controls b || b == 0x20 || b == 0x3a || b == 0x25

/-- `join_qname` (util/mod.rs 12-22). -/
def joinQName (ns name : Str) : Str :=
  (if ns ≠ [] then pctEncode qnameSet ns ++ [':', ':'] else []) ++ pctEncode qnameSet name

/-- `split_qname` (util/mod.rs 24-31). -/
def splitQName (q : Str) : Option Str × Str :=
  match splitColons q with
  | some (ns, name) => (some ns, name)
  | none => (none, q)

/-! ### Paths

A path is the list of its resolved segments from the root.  Simplified: resolved without symbolic links, and with `/` as the
only separator. -/

/-- One segment of a relative path. -/
def pushSeg (p : List Str) (s : Str) : List Str :=
  if s = [] ∨ s = ['.'] then p else if s = ['.', '.'] then p.dropLast else p ++ [s]

/-- `PathBuf::push`, which replaces the path if the argument is absolute. -/
def pushPath (p : List Str) (rel : Str) : List Str :=
  (splitAll '/' rel).foldl pushSeg (if rel.head? = some '/' then [] else p)

/-! ### Corpus directories (graphannis/src/annis/db/corpusstorage.rs) -/

/-- `PATH_ENCODE_SET` (corpusstorage.rs 302-318). -/
def pathSet : AsciiSet := fun b =>
  controls b || b == 0x20 || b == 0x22 || b == 0x23 || b == 0x3c || b == 0x3e || b == 0x60 || b == 0x3f || b == 0x7b ||
    b == 0x7d || b == 0x25 || b == 0x2f || b == 0x3a || b == 0x7c || b == 0x2a || b == 0x5c

/-- `corpus_directory_on_disk` (corpusstorage.rs 2543-2550). -/
def corpusDir (base : List Str) (name : Str) : List Str := pushPath base (pctEncode pathSet name)

/-- `list_from_disk` (corpusstorage.rs 483-512) for the names of the directories inside the data directory. -/
def listFromDisk (lossy : List UInt8 → Str) (dirs : List Str) : List Str := dirs.map (pctDecodeStr lossy)

/-! ### Components -/

/-- A component (core/src/types.rs 203-212). -/
structure Component (T : Type) where
  ty : T
  layer : Str
  name : Str
deriving DecidableEq

/-- `DEFAULT_EMPTY_LAYER` (core/src/graph/mod.rs). -/
def defaultLayer : Str := "default_layer".toList

section
variable {T : Type}

/-- `component_path` (core/src/graph/mod.rs 81-113) inside a folder; `tyName` is `Display` of the component type. -/
def componentPath (tyName : T → Str) (base : List Str) (c : Component T) : List Str :=
  pushPath (pushPath (pushPath (pushPath base "gs".toList) (tyName c.ty)) (if c.layer = [] then defaultLayer else c.layer)) c.name

/-- The entries of a directory, given the directories with a file `impl.cfg`.  Simplified: there are no other files. -/
def dirChildren (cfgs : List (List Str)) (d : List Str) : List Str :=
  cfgs.filterMap fun p => if d.isPrefixOf p then (p.drop d.length).head? else none

/-- `find_components_from_disk` (core/src/graph/mod.rs 116-174); `types` is `all_component_types`. -/
def findComponents (tyName : T → Str) (types : List T) (base : List Str) (cfgs : List (List Str)) : List (Component T) :=
  types.flatMap fun t =>
    (dirChildren cfgs (pushPath (pushPath base "gs".toList) (tyName t))).flatMap fun l =>
      let layer := if l = defaultLayer then [] else l
      (if componentPath tyName base ⟨t, layer, []⟩ ∈ cfgs then [⟨t, layer, []⟩] else []) ++
      (dirChildren cfgs (pushPath (pushPath base "gs".toList) (tyName t) ++ [l])).filterMap fun n =>
        if componentPath tyName base ⟨t, layer, n⟩ ∈ cfgs then some ⟨t, layer, n⟩ else none

/-- `Display` of a component (core/src/types.rs 237-242). -/
def Component.print (tyName : T → Str) (c : Component T) : Str := tyName c.ty ++ ['/'] ++ c.layer ++ ['/'] ++ c.name

/-- `FromStr` of a component (core/src/types.rs 244-269). -/
def Component.parse (parseTy : Str → Option T) (s : Str) : Option (Component T) :=
  match splitn3 '/' s with
  | [a, b, c] => (parseTy a).map fun t => ⟨t, b, c⟩
  | _ => none

end

/-- `AnnotationComponentType` (graphannis/src/annis/db/aql/model.rs 62-77). -/
inductive AnnotationComponentType
  | coverage
  | dominance
  | pointing
  | ordering
  | leftToken
  | rightToken
  | partOf
deriving DecidableEq

namespace AnnotationComponentType

def all : List AnnotationComponentType := [coverage, dominance, pointing, ordering, leftToken, rightToken, partOf]

/-- The derived `Debug`, which is also used by `Display`. -/
def print : AnnotationComponentType → Str
  | coverage => "Coverage".toList
  | dominance => "Dominance".toList
  | pointing => "Pointing".toList
  | ordering => "Ordering".toList
  | leftToken => "LeftToken".toList
  | rightToken => "RightToken".toList
  | partOf => "PartOf".toList

/-- The derived `FromStr`. -/
def parse (s : Str) : Option AnnotationComponentType := all.find? fun t => t.print == s

/-- `Into<u16>` (model.rs 79-83). -/
def toU16 : AnnotationComponentType → Nat
  | coverage => 0
  | dominance => 2
  | pointing => 3
  | ordering => 4
  | leftToken => 5
  | rightToken => 6
  | partOf => 7

/-- `From<u16>` (model.rs 85-98). -/
def ofU16 : Nat → AnnotationComponentType
  | 0 => coverage
  | 2 => dominance
  | 3 => pointing
  | 4 => ordering
  | 5 => leftToken
  | 6 => rightToken
  | 7 => partOf
  | _ => pointing

end AnnotationComponentType

/-- The key of the map of components: type number, name and layer in the order of the derived `Ord` (core/src/types.rs
202-212).  Strings are any linear order with the empty string as smallest element. -/
abbrev CKey (S : Type) := Nat ×ₗ S ×ₗ S

section
variable {T S : Type} [DecidableEq T] [LinearOrder S] [OrderBot S]

/-- `BTreeMap::range(k..)` on the sorted keys. -/
def rangeFrom (keys : List (CKey S)) (k : CKey S) : List (CKey S) := keys.dropWhile (· < k)

/-- `get_all_components` (core/src/graph/mod.rs 1086-1132). -/
def getAllComponents (toU16 : T → Nat) (ofU16 : Nat → T) (keys : List (CKey S)) (ctype : Option T) (name : Option S) :
    List (CKey S) :=
  match ctype, name with
  | some t, some n =>
    (rangeFrom keys (toLex (toU16 t, toLex (n, ⊥)))).takeWhile fun c =>
      !(decide ((ofLex (ofLex c).2).1 ≠ n) || decide (ofU16 (ofLex c).1 ≠ t))
  | some t, none =>
    (rangeFrom keys (toLex (toU16 t, toLex (⊥, ⊥)))).takeWhile fun c => !decide (ofU16 (ofLex c).1 ≠ t)
  | none, name =>
    keys.filter fun c =>
      match name with
      | some n => decide (n = (ofLex (ofLex c).2).1)
      | none => true

end

/-! ### Match identifiers -/

/-- `NODE_NAME_ENCODE_SET` (corpusstorage.rs 328-339). -/
def nodeNameSet : AsciiSet := fun b =>
  controls b || b == 0x3a || b == 0x2f || b == 0x20 || b == 0x25 || b == 0x5c || b == 0x3c || b == 0x3e || b == 0x22 ||
    b == 0x7c || b == 0x3f || b == 0x2a

/-- A matched node in the output: namespace and name of the matched annotation and the node name. -/
structure OutMatch where
  ns : Str
  name : Str
  node : Str

def annisNs : Str := "annis".toList
def nodeTypeName : Str := "node_type".toList

/-- The description of one matched node (corpusstorage.rs 1920-1966), not in quirks mode. -/
def matchDesc (m : OutMatch) : Str :=
  (if m.ns ≠ annisNs ∨ m.name ≠ nodeTypeName then
    (if m.ns ≠ [] then pctEncode nodeNameSet m.ns ++ [':', ':'] else []) ++ pctEncode nodeNameSet m.name ++ [':', ':']
  else []) ++ m.node

/-- The identifier of a match (corpusstorage.rs 1900-1969), for the nodes that are included in the output. -/
def matchId : List OutMatch → Str
  | [] => []
  | [m] => matchDesc m
  | m :: ms => matchDesc m ++ [' '] ++ matchId ms

/-- `node_names_from_match` (graphannis/src/annis/util/mod.rs 96-107). -/
def nodeNamesFromMatch (s : Str) : List Str := (splitWhitespace s).filterMap fun m => (splitn3Colons m).getLast?

/-! ### Positions in a query (graphannis/src/annis/db/aql/mod.rs) -/

/-- `get_line_offsets` (aql/mod.rs 602-612) for a query given by its bytes; `o` and `l` are the loop variables.  The map is
given by its sorted entries, since the offsets increase. -/
def lineOffsetsFrom (o l : Nat) : List (List UInt8) → List (Nat × Nat)
  | [] => []
  | line :: r => (o, l) :: lineOffsetsFrom (o + line.length + 1) (l + 1) r

/-- `split('\n')` on the bytes of the query. -/
def splitLines : List UInt8 → List (List UInt8)
  | [] => [[]]
  | x :: r =>
    if x = 10 then [] :: splitLines r
    else match splitLines r with
      | [] => [[x]]
      | p :: ps => (x :: p) :: ps

def lineOffsets (input : List UInt8) : List (Nat × Nat) := lineOffsetsFrom 0 0 (splitLines input)

/-- `get_line_and_column_for_pos` (aql/mod.rs 614-632): line (from 0) and column (from 1). -/
def lineAndColumn (pos : Nat) (offsets : List (Nat × Nat)) : Nat × Nat :=
  match (offsets.filter fun p => p.1 ≤ pos).getLast? with
  | some p => (p.2, pos - p.1 + 1)
  | none => (0, 0)

/-- The errors of the parser generator that carry a location. -/
inductive ParseErr
  | invalidToken (location : Nat)
  | token (start stop : Nat)
  | unrecognizedEof
  | user

/-- `extract_location` (aql/mod.rs 634-669); the outer `none` is an arithmetic underflow. -/
def extractLocation (e : ParseErr) (input : List UInt8) : Option (Option ((Nat × Nat) × Option (Nat × Nat))) :=
  let offsets := lineOffsets input
  match e with
  | .invalidToken l => some (some (lineAndColumn l offsets, none))
  | .token a b => if b = 0 then none else some (some (lineAndColumn a offsets, some (lineAndColumn (b - 1) offsets)))
  | .unrecognizedEof => if input.length = 0 then none else some (some (lineAndColumn (input.length - 1) offsets, none))
  | .user => some none
