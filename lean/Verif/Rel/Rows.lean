import Verif.Rel.Tab

/-!
# The rows of the tables of a relANNIS corpus (relannis.rs) (C77)

Each function of relannis.rs which loads a table reads the columns of a line inside its loop.  Here the columns of one line are
read by one function per table; every error aborts the whole import (`none`).
-/

set_option linter.unusedSimpArgs false
set_option linter.unusedSectionVars false

namespace Rel

/-- A plus sign before a number is skipped. -/
def stripPlus : Str → Str
  | [] => []
  | c :: r => if c = '+' then r else c :: r

/-- `str::parse` for an unsigned integer below `bound`: decimal digits with an optional plus sign. -/
def parseNat (bound : Nat) (s : Str) : Option Nat :=
  if stripPlus s ≠ [] ∧ (stripPlus s).all Char.isDigit then
    (if Nat.ofDigitChars 10 (stripPlus s) 0 < bound then some (Nat.ofDigitChars 10 (stripPlus s) 0) else none)
  else none

def u32Max : Nat := 2 ^ 32
def u64Max : Nat := 2 ^ 64

/-- `get_field_not_null(..)?.parse::<u32>()?`. -/
def getU32 (r : Row) (i : Nat) : Option Nat := (getNotNull r i).bind (parseNat u32Max)

/-- `get_field_not_null(..)?.parse::<NodeID>()?`. -/
def getU64 (r : Row) (i : Nat) : Option Nat := (getNotNull r i).bind (parseNat u64Max)

/-- A line of the corpus table as far as it is used (`parse_corpus_tab`, relannis.rs 888-917). -/
structure CorpusRow where
  id : Nat
  name : Str
  /-- the type is `DOCUMENT` -/
  doc : Bool
  pre : Nat
  post : Nat
  deriving DecidableEq

def documentStr : Str := "DOCUMENT".toList

def parseCorpusRow (r : Row) : Option CorpusRow := do
  let id ← getU32 r 0
  let name ← getNotNull r 1
  let ty ← getNotNull r 2
  let pre ← getU32 r 4
  let post ← getU32 r 5
  return ⟨id, name, ty == documentStr, pre, post⟩

/-- A line of the text table (`parse_text_tab`, relannis.rs 968-993). -/
structure TextRow where
  id : Nat
  corpus : Option Nat
  name : Str
  val : Str
  deriving DecidableEq

def parseTextRow (is33 : Bool) (r : Row) : Option TextRow := do
  let id ← getU32 r (if is33 then 1 else 0)
  let name ← getNotNull r (if is33 then 2 else 1)
  let val ← getNotNull r (if is33 then 3 else 2)
  if is33 then
    let c ← getU32 r 0
    return ⟨id, some c, name, val⟩
  else return ⟨id, none, name, val⟩

/-- What a node is: a token, a node of a segmentation or neither. -/
inductive NodeKind
  | tok (index : Nat) (span : Str)
  | seg (name : Str) (index : Nat) (span : Option Str)
  | plain
  deriving DecidableEq

/-- A line of the node table (`load_node_tab`, relannis.rs 1404-1583). -/
structure NodeRow where
  id : Nat
  text : Nat
  corpus : Nat
  layer : Option Str
  name : Str
  /-- character offsets -/
  left : Nat
  right : Nat
  /-- alignment values: token indexes for relANNIS 3.3, otherwise again the character offsets -/
  la : Nat
  ra : Nat
  kind : NodeKind
  deriving DecidableEq

/-- The columns for tokens and segmentations (relannis.rs 1407-1408 and 1522-1583). -/
def parseKind (is33 : Bool) (r : Row) : Option NodeKind := do
  let ti ← getField r 7
  let hasSeg := is33 || decide (10 < r.length)
  match ti with
  | some ti =>
    let span ← if hasSeg then getNotNull r 12 else getNotNull r 9
    let i ← parseNat u32Max ti
    return .tok i span
  | none =>
    if hasSeg then
      let seg ← getField r (if is33 then 11 else 8)
      match seg with
      | some seg =>
        let i ← getU32 r (if is33 then 10 else 9)
        if is33 then
          let span ← getField r 12
          return .seg seg i span
        else return .seg seg i none
      | none => return .plain
    else return .plain

def parseNodeRow (is33 : Bool) (r : Row) : Option NodeRow := do
  let id ← getU64 r 0
  let text ← getU32 r 1
  let corpus ← getU32 r 2
  let layer ← getField r 3
  let name ← getNotNull r 4
  let left ← getU32 r 5
  let right ← getU32 r 6
  let la ← getU32 r (if is33 then 8 else 5)
  let ra ← getU32 r (if is33 then 9 else 6)
  let kind ← parseKind is33 r
  return ⟨id, text, corpus, layer, name, left, right, la, ra, kind⟩

/-- A line of one of the annotation tables: the identifier (node, rank or corpus), namespace, name and value. -/
structure AnnoRow where
  id : Nat
  ns : Str
  name : Str
  val : Option Str
  deriving DecidableEq

/-- The columns of `load_node_anno_tab` (relannis.rs 1667-1674), `load_edge_annotation` (1929-1938) and
`load_corpus_annotation` (1989-1995); `bound` is the size of the integer type of the identifier. -/
def parseAnnoRow (bound : Nat) (r : Row) : Option AnnoRow := do
  let id ← (getNotNull r 0).bind (parseNat bound)
  let ns ← getField r 1
  let name ← getNotNull r 2
  let val ← getField r 3
  return ⟨id, ns.getD [], name, val⟩

/-- A line of the component table with a type (`load_component_tab`, relannis.rs 1734-1742). -/
structure CompRow where
  id : Nat
  type : AnnotationComponentType
  layer : Str
  name : Str
  deriving DecidableEq

/-- `component_type_from_short_name` (relannis.rs 2201-2209). -/
def shortType (s : Str) : Option AnnotationComponentType :=
  if s = ['c'] then some .coverage
  else if s = ['d'] then some .dominance
  else if s = ['p'] then some .pointing
  else if s = ['o'] then some .ordering
  else none

/-- A line without a type is ignored (inner `none`). -/
def parseCompRow (r : Row) : Option (Option CompRow) := do
  let id ← getU32 r 0
  let ty ← getField r 1
  match ty with
  | none => return none
  | some ty =>
    let layer ← getField r 2
    let name ← getField r 3
    let t ← shortType ty
    return some ⟨id, t, layer.getD [], name.getD []⟩

/-- A line of the rank table (`load_rank_tab`, relannis.rs 1826-1883). -/
structure RankRow where
  pre : Nat
  node : Nat
  comp : Nat
  parent : Option Nat
  deriving DecidableEq

def parseRankRow (is33 : Bool) (r : Row) : Option RankRow := do
  let pre ← getU32 r 0
  let node ← getU64 r (if is33 then 3 else 2)
  let comp ← getU32 r (if is33 then 4 else 3)
  let parent ← getField r (if is33 then 5 else 4)
  match parent with
  | none => return ⟨pre, node, comp, none⟩
  | some p =>
    let p ← parseNat u32Max p
    return ⟨pre, node, comp, some p⟩

/-! ### Specification: the columns of a line -/

namespace Spec

/-- A number as it is written into a table. -/
def num (n : Nat) : Option Str := some (Nat.toDigits 10 n)

def corpusCols (r : CorpusRow) (version : Option Str) (top : Str) : List (Option Str) :=
  [num r.id, some r.name, some (if r.doc then "DOCUMENT".toList else "CORPUS".toList), version, num r.pre, num r.post, some top]

def textCols (r : TextRow) : List (Option Str) :=
  match r.corpus with
  | some c => [num c, num r.id, some r.name, some r.val]
  | none => [num r.id, some r.name, some r.val]

/-- The columns of relANNIS 3.3; `root` is the last column, which is not used. -/
def nodeCols33 (r : NodeRow) (root : Str) : List (Option Str) :=
  [num r.id, num r.text, num r.corpus, r.layer, some r.name, num r.left, num r.right] ++
  (match r.kind with
    | .tok i _ => [num i]
    | _ => [none]) ++
  [num r.la, num r.ra] ++
  (match r.kind with
    | .seg n i s => [num i, some n, s]
    | .tok _ s => [none, none, some s]
    | .plain => [none, none, none]) ++
  [some root]

/-- The columns of the older format without segmentations. -/
def nodeCols32 (r : NodeRow) (continuous : Str) : List (Option Str) :=
  [num r.id, num r.text, num r.corpus, r.layer, some r.name, num r.left, num r.right] ++
  (match r.kind with
    | .tok i s => [num i, some continuous, some s]
    | _ => [none, some continuous, none])

/-- The columns of the older format with segmentations; `segRight` and `continuous` are not used. -/
def nodeColsSeg (r : NodeRow) (segRight continuous : Option Str) : List (Option Str) :=
  [num r.id, num r.text, num r.corpus, r.layer, some r.name, num r.left, num r.right] ++
  (match r.kind with
    | .tok i s => [num i, none, none, segRight, continuous, some s]
    | .seg n i _ => [none, some n, num i, segRight, continuous, none]
    | .plain => [none, none, none, segRight, continuous, none])

def annoCols (r : AnnoRow) : List (Option Str) := [num r.id, some r.ns, some r.name, r.val]

def shortName : AnnotationComponentType → Str
  | .coverage => ['c']
  | .dominance => ['d']
  | .pointing => ['p']
  | .ordering => ['o']
  | _ => []

def compCols (r : CompRow) : List (Option Str) := [num r.id, some (shortName r.type), some r.layer, some r.name]

def rankCols33 (r : RankRow) (post level : Nat) : List (Option Str) :=
  [num r.pre, num post, num level, num r.node, num r.comp, r.parent.bind num]

def rankCols32 (r : RankRow) (post : Nat) : List (Option Str) :=
  [num r.pre, num post, num r.node, num r.comp, r.parent.bind num]

/-- The values of a row are not the string `NULL`, so that they can be written. -/
def NoNull (cols : List (Option Str)) : Prop := some nullStr ∉ cols

end Spec

open Spec

theorem getField_write {cols : List (Option Str)} (h : NoNull cols) (i : Nat) : getField (cols.map writeField) i = cols[i]? := by
  unfold getField
  rw [List.getElem?_map]
  cases hv : cols[i]? with
  | none => rfl
  | some v =>
    simp only [Option.map_some]
    rw [decode_write fun e => h (e ▸ List.mem_of_getElem? hv)]

theorem getNotNull_write {cols : List (Option Str)} (h : NoNull cols) (i : Nat) :
    getNotNull (cols.map writeField) i = (cols[i]?).join := by
  unfold getNotNull; rw [getField_write h]

theorem parseNat_digits {bound n : Nat} (h : n < bound) : parseNat bound (Nat.toDigits 10 n) = some n := by
  have hne : Nat.toDigits 10 n ≠ [] := Nat.toDigits_ne_nil
  have hd : ∀ c ∈ Nat.toDigits 10 n, c.isDigit := fun c hc => Nat.isDigit_of_mem_toDigits (by decide) (by decide) hc
  have e : stripPlus (Nat.toDigits 10 n) = Nat.toDigits 10 n := by
    cases heq : Nat.toDigits 10 n with
    | nil => rfl
    | cons c r =>
      rw [stripPlus, if_neg]
      rintro rfl
      exact absurd (hd '+' (by rw [heq]; simp)) (by decide)
  unfold parseNat
  rw [e]
  rw [if_pos ⟨hne, by rw [List.all_eq_true]; exact hd⟩, Nat.ofDigitChars_ten_toDigits, if_pos h]

/-- A number is not the string `NULL`. -/
theorem num_ne (n : Nat) : num n ≠ some nullStr := by
  intro e
  have hd : ∀ c ∈ Nat.toDigits 10 n, c.isDigit := fun c hc => Nat.isDigit_of_mem_toDigits (by decide) (by decide) hc
  have e : Nat.toDigits 10 n = nullStr := Option.some.inj e
  exact absurd (hd 'N' (by rw [e]; decide)) (by decide)

/-- C77: a row of the corpus table is read back. -/
theorem C77_corpus_row (r : CorpusRow) (version : Option Str) (top : Str) (h : NoNull (corpusCols r version top))
    (hb : r.id < u32Max ∧ r.pre < u32Max ∧ r.post < u32Max) :
    parseCorpusRow ((corpusCols r version top).map writeField) = some r := by
  obtain ⟨id, name, doc, pre, post⟩ := r
  unfold parseCorpusRow getU32
  simp only [getNotNull_write h]
  simp only [corpusCols, num, List.getElem?_cons_zero, List.getElem?_cons_succ, Option.join_some, Option.bind_some,
    parseNat_digits hb.1, parseNat_digits hb.2.1, parseNat_digits hb.2.2]
  cases doc <;> rfl

/-- C77: a row of the text table is read back. -/
theorem C77_text_row (r : TextRow) (h : NoNull (textCols r)) (hb : r.id < u32Max ∧ ∀ c, r.corpus = some c → c < u32Max) :
    parseTextRow r.corpus.isSome ((textCols r).map writeField) = some r := by
  obtain ⟨id, corpus, name, val⟩ := r
  unfold parseTextRow getU32
  simp only [getNotNull_write h]
  cases corpus with
  | none => simp [textCols, num, parseNat_digits hb.1]
  | some c => simp [textCols, num, parseNat_digits hb.1, parseNat_digits (hb.2 c rfl)]

/-- The numbers of a row fit into their types. -/
def NodeRow.Fits (r : NodeRow) : Prop :=
  r.id < u64Max ∧ r.text < u32Max ∧ r.corpus < u32Max ∧ r.left < u32Max ∧ r.right < u32Max ∧ r.la < u32Max ∧ r.ra < u32Max ∧
    match r.kind with
    | .tok i _ => i < u32Max
    | .seg _ i _ => i < u32Max
    | .plain => True

/-- C77: a row of the node table of relANNIS 3.3 is read back. -/
theorem C77_node_row (r : NodeRow) (root : Str) (h : NoNull (nodeCols33 r root)) (hb : r.Fits) :
    parseNodeRow true ((nodeCols33 r root).map writeField) = some r := by
  obtain ⟨id, text, corpus, layer, name, left, right, la, ra, kind⟩ := r
  obtain ⟨h1, h2, h3, h4, h5, h6, h7, h8⟩ := hb
  unfold parseNodeRow parseKind getU32 getU64
  simp only [getNotNull_write h, getField_write h]
  cases kind with
  | tok i s => simp [nodeCols33, num, parseNat_digits h1, parseNat_digits h2, parseNat_digits h3, parseNat_digits h4,
      parseNat_digits h5, parseNat_digits h6, parseNat_digits h7, parseNat_digits h8]
  | seg n i s => simp [nodeCols33, num, parseNat_digits h1, parseNat_digits h2, parseNat_digits h3, parseNat_digits h4,
      parseNat_digits h5, parseNat_digits h6, parseNat_digits h7, parseNat_digits h8]
  | plain => simp [nodeCols33, num, parseNat_digits h1, parseNat_digits h2, parseNat_digits h3, parseNat_digits h4,
      parseNat_digits h5, parseNat_digits h6, parseNat_digits h7]

/-- C77: a row of the older node table without segmentations is read back; the character offsets are also the alignment. -/
theorem C77_node_row_old (r : NodeRow) (cont : Str) (h : NoNull (nodeCols32 r cont)) (hb : r.Fits)
    (ha : r.la = r.left ∧ r.ra = r.right) (hk : ∀ n i s, r.kind ≠ .seg n i s) :
    parseNodeRow false ((nodeCols32 r cont).map writeField) = some r := by
  obtain ⟨id, text, corpus, layer, name, left, right, la, ra, kind⟩ := r
  obtain ⟨h1, h2, h3, h4, h5, h6, h7, h8⟩ := hb
  simp only at ha
  obtain ⟨rfl, rfl⟩ := ha
  unfold parseNodeRow parseKind getU32 getU64
  simp only [getNotNull_write h, getField_write h]
  cases kind with
  | tok i s => simp [nodeCols32, num, parseNat_digits h1, parseNat_digits h2, parseNat_digits h3, parseNat_digits h4,
      parseNat_digits h5, parseNat_digits h6, parseNat_digits h7, parseNat_digits h8]
  | seg n i s => exact absurd rfl (hk n i s)
  | plain => simp [nodeCols32, num, parseNat_digits h1, parseNat_digits h2, parseNat_digits h3, parseNat_digits h4,
      parseNat_digits h5, parseNat_digits h6, parseNat_digits h7]

/-- C77: a row of the older node table with segmentations is read back; the text of a node of a segmentation is not part of it. -/
theorem C77_node_row_seg (r : NodeRow) (sr cont : Option Str) (h : NoNull (nodeColsSeg r sr cont)) (hb : r.Fits)
    (ha : r.la = r.left ∧ r.ra = r.right) (hk : ∀ n i s, r.kind ≠ .seg n i (some s)) :
    parseNodeRow false ((nodeColsSeg r sr cont).map writeField) = some r := by
  obtain ⟨id, text, corpus, layer, name, left, right, la, ra, kind⟩ := r
  obtain ⟨h1, h2, h3, h4, h5, h6, h7, h8⟩ := hb
  simp only at ha
  obtain ⟨rfl, rfl⟩ := ha
  unfold parseNodeRow parseKind getU32 getU64
  simp only [getNotNull_write h, getField_write h]
  cases kind with
  | tok i s => simp [nodeColsSeg, num, parseNat_digits h1, parseNat_digits h2, parseNat_digits h3, parseNat_digits h4,
      parseNat_digits h5, parseNat_digits h6, parseNat_digits h7, parseNat_digits h8]
  | seg n i s =>
    cases s with
    | some s => exact absurd rfl (hk n i s)
    | none => simp [nodeColsSeg, num, parseNat_digits h1, parseNat_digits h2, parseNat_digits h3, parseNat_digits h4,
        parseNat_digits h5, parseNat_digits h6, parseNat_digits h7, parseNat_digits h8]
  | plain => simp [nodeColsSeg, num, parseNat_digits h1, parseNat_digits h2, parseNat_digits h3, parseNat_digits h4,
      parseNat_digits h5, parseNat_digits h6, parseNat_digits h7]

/-- C77: a row of an annotation table is read back. -/
theorem C77_anno_row (bound : Nat) (r : AnnoRow) (h : NoNull (annoCols r)) (hb : r.id < bound) :
    parseAnnoRow bound ((annoCols r).map writeField) = some r := by
  obtain ⟨id, ns, name, val⟩ := r
  unfold parseAnnoRow
  simp only [getNotNull_write h, getField_write h]
  simp [annoCols, num, parseNat_digits hb]

/-- C77: a row of the component table is read back, if the type is one of the four which can be imported. -/
theorem C77_component_row (r : CompRow) (h : NoNull (compCols r)) (hb : r.id < u32Max)
    (ht : r.type = .coverage ∨ r.type = .dominance ∨ r.type = .pointing ∨ r.type = .ordering) :
    parseCompRow ((compCols r).map writeField) = some (some r) := by
  obtain ⟨id, ty, layer, name⟩ := r
  unfold parseCompRow getU32
  simp only [getNotNull_write h, getField_write h]
  rcases ht with ht | ht | ht | ht <;> simp only at ht <;> subst ht <;>
    simp [compCols, num, parseNat_digits hb, shortName, shortType]

/-- C77: a row of the rank table is read back in both formats. -/
theorem C77_rank_row (r : RankRow) (post level : Nat)
    (hb : r.pre < u32Max ∧ r.node < u64Max ∧ r.comp < u32Max ∧ ∀ p, r.parent = some p → p < u32Max) :
    parseRankRow true ((rankCols33 r post level).map writeField) = some r ∧
    parseRankRow false ((rankCols32 r post).map writeField) = some r := by
  obtain ⟨pre, node, comp, parent⟩ := r
  have hn : ∀ n, some nullStr ≠ num n := fun n => (num_ne n).symm
  have hp : some nullStr ≠ parent.bind num := by
    cases parent with
    | none => exact fun h => by cases h
    | some p => exact hn p
  have n1 : NoNull (rankCols33 ⟨pre, node, comp, parent⟩ post level) := by
    simp only [NoNull, rankCols33, List.mem_cons, List.not_mem_nil, or_false, not_or]
    exact ⟨hn _, hn _, hn _, hn _, hn _, hp⟩
  have n2 : NoNull (rankCols32 ⟨pre, node, comp, parent⟩ post) := by
    simp only [NoNull, rankCols32, List.mem_cons, List.not_mem_nil, or_false, not_or]
    exact ⟨hn _, hn _, hn _, hn _, hp⟩
  constructor
  · unfold parseRankRow getU32 getU64
    simp only [getNotNull_write n1, getField_write n1]
    cases parent with
    | none => simp [rankCols33, num, parseNat_digits hb.1, parseNat_digits hb.2.1, parseNat_digits hb.2.2.1]
    | some p => simp [rankCols33, num, parseNat_digits hb.1, parseNat_digits hb.2.1, parseNat_digits hb.2.2.1,
        parseNat_digits (hb.2.2.2 p rfl)]
  · unfold parseRankRow getU32 getU64
    simp only [getNotNull_write n2, getField_write n2]
    cases parent with
    | none => simp [rankCols32, num, parseNat_digits hb.1, parseNat_digits hb.2.1, parseNat_digits hb.2.2.1]
    | some p => simp [rankCols32, num, parseNat_digits hb.1, parseNat_digits hb.2.1, parseNat_digits hb.2.2.1,
        parseNat_digits (hb.2.2.2 p rfl)]

/-- C77 fails: a token whose text is the word `NULL` cannot be read, the import is aborted. -/
theorem C77_null_token_fails :
    parseNodeRow true ((nodeCols33 ⟨1, 0, 0, none, "t".toList, 0, 4, 0, 0, .tok 0 nullStr⟩ []).map writeField) = none := by
  decide +kernel

theorem C77_rows_nonvacuous :
    parseNodeRow true (splitAll '\t' "1\t0\t2\tNULL\ta\\tb\t0\t4\t7\t+3\t3\tNULL\tNULL\tx\tTRUE".toList)
      = some ⟨1, 0, 2, none, "a\tb".toList, 0, 4, 3, 3, .tok 7 "x".toList⟩ ∧
    parseNodeRow false (splitAll '\t' "1\t0\t2\tl\tn\t0\t4\tNULL\tTRUE\tNULL".toList)
      = some ⟨1, 0, 2, some "l".toList, "n".toList, 0, 4, 0, 4, .plain⟩ ∧
    NoNull (nodeCols33 ⟨1, 0, 2, none, "a\tb".toList, 0, 4, 3, 3, .seg "s".toList 2 none⟩ "FALSE".toList) ∧
    NoNull (nodeColsSeg ⟨1, 0, 2, none, "a\tb".toList, 0, 4, 0, 4, .seg "s".toList 2 none⟩ (num 3) (some "TRUE".toList)) ∧
    parseNodeRow false (splitAll '\t' "1\t0\t2\tl\tn\t0\t4\tNULL\ts\t5\t5\tTRUE\tNULL".toList)
      = some ⟨1, 0, 2, some "l".toList, "n".toList, 0, 4, 0, 4, .seg "s".toList 5 none⟩ ∧
    parseRankRow true (splitAll '\t' "7\t10\t1\t5\t0\t3".toList) = some ⟨7, 5, 0, some 3⟩ := by
  unfold NoNull
  decide +kernel

end Rel
