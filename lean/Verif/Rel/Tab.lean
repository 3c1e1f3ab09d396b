import Verif.Text.Props
import Mathlib.Data.List.Infix

/-!
# Reading the tables of a relANNIS corpus (graphannis/src/annis/db/relannis.rs 768-855) (C77)

Strings are lists of characters (`Str`).  The decoding of UTF-8 is not modelled.
-/

set_option linter.unusedSimpArgs false
set_option linter.unusedSectionVars false

namespace Rel

/-- One line of a table: the raw fields. -/
abbrev Row := List Str

/-- The string which stands for a missing value in the tables (relannis.rs 788). -/
def nullStr : Str := "NULL".toList

/-- Splitting at every character for which the test succeeds. -/
def splitWith (p : Char → Bool) : Str → List Str
  | [] => [[]]
  | x :: r =>
    if p x then [] :: splitWith p r
    else match splitWith p r with
      | [] => [[x]]
      | q :: qs => (x :: q) :: qs

/-- The line terminators of the csv reader. -/
def isNewline (c : Char) : Bool := c == '\n' || c == '\r'

/-- The records of the `csv::Reader` made by `postgresql_import_reader` (relannis.rs 768-774): records end at each `\r`, `\n`
or `\r\n`, empty lines are skipped, the tab is the delimiter, and a record with another number of fields than the first one is
an error (`none`).  Simplified: quoting (with NUL as quotation mark) is not modelled, a file with a NUL character is an error;
the byte order mark, which the reader skips, is not modelled. -/
def readTable (s : Str) : Option (List Row) :=
  if '\x00' ∈ s then none
  else
    let rows := ((splitWith isNewline s).filter (· ≠ [])).map (splitAll '\t')
    if rows.all fun r => r.length == (rows.headD []).length then some rows else none

/-- The character which an escape sequence stands for (`escape_field`, relannis.rs 806-820). -/
def escaped (c : Char) : Option Char :=
  if c = '\\' ∨ c = '"' ∨ c = '\'' ∨ c = '`' ∨ c = '$' then some c
  else if c = 'n' then some '\n'
  else if c = 'r' then some '\r'
  else if c = 't' then some '\t'
  else none

/-- `escape_field` (relannis.rs 796-839). -/
def unescape : Str → Str
  | [] => []
  | [c] => [c]
  | c :: d :: r =>
    if c = '\\' then
      match escaped d with
      | some e => e :: unescape r
      | none => c :: unescape (d :: r)
    else c :: unescape (d :: r)

/-- The value of a raw field (relannis.rs 788-793). -/
def decodeField (s : Str) : Option Str := if s = nullStr then none else some (unescape s)

/-- `get_field` (relannis.rs 776-794); the outer `none` is the error for a missing column. -/
def getField (r : Row) (i : Nat) : Option (Option Str) := r[i]?.map decodeField

/-- `get_field_not_null` (relannis.rs 841-855); `none` is an error. -/
def getNotNull (r : Row) (i : Nat) : Option Str := (getField r i).join

/-! ### Specification: writing a table -/

namespace Spec

/-- A character as it is written into a table. -/
def escChar (c : Char) : Str :=
  if c = '\\' then ['\\', '\\']
  else if c = '\n' then ['\\', 'n']
  else if c = '\r' then ['\\', 'r']
  else if c = '\t' then ['\\', 't']
  else [c]

/-- A value as it is written into a table. -/
def writeField : Option Str → Str
  | none => nullStr
  | some s => s.flatMap escChar

/-- The fields with tabs between them. -/
def joinTabs : List Str → Str
  | [] => []
  | [s] => s
  | s :: t :: r => s ++ '\t' :: joinTabs (t :: r)

/-- A table whose lines end with `nl`. -/
def writeTable (nl : Str) (rows : List (List (Option Str))) : Str :=
  rows.flatMap fun r => joinTabs (r.map writeField) ++ nl

/-- The line ends of the different operating systems. -/
def Newline (nl : Str) : Prop := nl = ['\n'] ∨ nl = ['\r'] ∨ nl = ['\r', '\n']

end Spec

open Spec

/-! ### Lemmas -/

theorem splitWith_append {p : Char → Bool} {a : Str} (h : ∀ c ∈ a, p c = false) {c : Char} (hc : p c = true) (b : Str) :
    splitWith p (a ++ c :: b) = a :: splitWith p b := by
  induction a with
  | nil => simp [splitWith, hc]
  | cons x r ih =>
    rw [List.cons_append, splitWith, if_neg (by simp [h x (by simp)]), ih fun y hy => h y (by simp [hy])]

theorem splitAll_append_tab {c : Char} {a : Str} (h : c ∉ a) (b : Str) : splitAll c (a ++ c :: b) = a :: splitAll c b := by
  induction a with
  | nil => simp [splitAll]
  | cons x r ih =>
    simp only [List.mem_cons, not_or] at h
    rw [List.cons_append, splitAll, if_neg (Ne.symm h.1), ih h.2]

theorem splitAll_joinTabs : ∀ r : List Str, r ≠ [] → (∀ s ∈ r, '\t' ∉ s) → splitAll '\t' (joinTabs r) = r
  | [], h, _ => absurd rfl h
  | [s], _, h => splitAll_single (h s (by simp))
  | s :: t :: r, _, h => by
    rw [joinTabs, splitAll_append_tab (h s (by simp)), splitAll_joinTabs (t :: r) (by simp) fun x hx => h x (by simp [hx])]

theorem mem_joinTabs {c : Char} : ∀ r : List Str, c ∈ joinTabs r → c = '\t' ∨ ∃ s ∈ r, c ∈ s
  | [], h => by cases h
  | [s], h => Or.inr ⟨s, by simp, h⟩
  | s :: t :: r, h => by
    rw [joinTabs, List.mem_append, List.mem_cons] at h
    rcases h with h | h | h
    · exact Or.inr ⟨s, by simp, h⟩
    · exact Or.inl h
    · rcases mem_joinTabs (t :: r) h with h | ⟨x, hx, h⟩
      · exact Or.inl h
      · exact Or.inr ⟨x, by simp [hx], h⟩

theorem mem_escChar {c d : Char} (h : d ∈ escChar c) : d ≠ '\n' ∧ d ≠ '\r' ∧ d ≠ '\t' ∧ (d = '\x00' → c = '\x00') := by
  unfold escChar at h
  split at h
  · rename_i e; subst e; simp at h; subst h; decide
  split at h
  · rename_i e; subst e; simp at h; rcases h with rfl | rfl <;> decide
  split at h
  · rename_i e; subst e; simp at h; rcases h with rfl | rfl <;> decide
  split at h
  · rename_i e; subst e; simp at h; rcases h with rfl | rfl <;> decide
  · rename_i h1 h2 h3 h4
    simp at h; subst h
    exact ⟨h2, h3, h4, id⟩

theorem mem_writeField {v : Option Str} {d : Char} (h : d ∈ writeField v) :
    d ≠ '\n' ∧ d ≠ '\r' ∧ d ≠ '\t' ∧ (d = '\x00' → ∃ s, v = some s ∧ '\x00' ∈ s) := by
  cases v with
  | none =>
    simp only [writeField, nullStr] at h
    have : d = 'N' ∨ d = 'U' ∨ d = 'L' := by
      simpa using h
    rcases this with rfl | rfl | rfl <;> exact ⟨by decide, by decide, by decide, fun h => absurd h (by decide)⟩
  | some s =>
    simp only [writeField, List.mem_flatMap] at h
    obtain ⟨c, hc, hd⟩ := h
    obtain ⟨h1, h2, h3, h4⟩ := mem_escChar hd
    exact ⟨h1, h2, h3, fun h => ⟨s, rfl, h4 h ▸ hc⟩⟩

theorem unescape_esc (c : Char) (t : Str) : unescape (escChar c ++ t) = c :: unescape t := by
  unfold escChar
  split
  · rename_i e; subst e; simp [unescape, escaped]
  split
  · rename_i e; subst e; simp [unescape, escaped]
  split
  · rename_i e; subst e; simp [unescape, escaped]
  split
  · rename_i e; subst e; simp [unescape, escaped]
  · rename_i h1 _ _ _
    cases t with
    | nil => rfl
    | cons d t => simp [unescape, h1]

theorem unescape_written (s : Str) : unescape (s.flatMap escChar) = s := by
  induction s with
  | nil => rfl
  | cons c r ih => rw [List.flatMap_cons, unescape_esc, ih]

theorem unescape_plain : ∀ s : Str, '\\' ∉ s → unescape s = s
  | [], _ => rfl
  | [_], _ => rfl
  | c :: d :: r, h => by
    rw [unescape, if_neg (fun e => h (by simp [e])), unescape_plain (d :: r) (fun e => h (List.mem_cons_of_mem _ e))]

/-- Only the string `NULL` is written as `NULL`. -/
theorem escape_null {s : Str} (h : s.flatMap escChar = nullStr) : s = nullStr := by
  have := unescape_written s
  rw [h] at this
  exact this.symm

theorem decode_write {v : Option Str} (h : v ≠ some nullStr) : decodeField (writeField v) = v := by
  cases v with
  | none => simp [decodeField, writeField]
  | some s =>
    unfold decodeField
    rw [if_neg]
    · simp [writeField, unescape_written]
    · intro e
      exact h (by rw [escape_null e])

/-- The line of a row is not empty. -/
theorem joinTabs_ne_nil {r : List (Option Str)} (h1 : r ≠ []) (h2 : r ≠ [some []]) : joinTabs (r.map writeField) ≠ [] := by
  match r, h1, h2 with
  | [none], _, _ => exact fun h => absurd h (by decide)
  | [some []], _, h => exact absurd rfl h
  | [some (c :: s)], _, _ =>
    simp only [List.map_cons, List.map_nil, joinTabs, writeField, List.flatMap_cons]
    unfold escChar
    repeat (split; · simp)
    simp
  | a :: b :: t, _, _ => simp [joinTabs]

theorem readLines (nl : Str) (hn : Newline nl) (ls : List Str) (h : ∀ l ∈ ls, l ≠ [] ∧ ∀ c ∈ l, isNewline c = false) :
    (splitWith isNewline (ls.flatMap fun l => l ++ nl)).filter (· ≠ []) = ls := by
  induction ls with
  | nil => rfl
  | cons l ls ih =>
    have h1 := h l (by simp)
    have ih := ih fun x hx => h x (by simp [hx])
    rw [List.flatMap_cons, List.append_assoc]
    rcases hn with rfl | rfl | rfl
    · rw [List.singleton_append, splitWith_append h1.2 (by rfl), List.filter_cons_of_pos (by simp [h1.1]), ih]
    · rw [List.singleton_append, splitWith_append h1.2 (by rfl), List.filter_cons_of_pos (by simp [h1.1]), ih]
    · rw [show ['\r', '\n'] ++ (ls.flatMap fun l => l ++ ['\r', '\n']) =
        '\r' :: ([] ++ '\n' :: ls.flatMap fun l => l ++ ['\r', '\n']) from rfl,
        splitWith_append h1.2 (by rfl), splitWith_append (by simp) (by rfl), List.filter_cons_of_pos (by simp [h1.1]),
        List.filter_cons_of_neg (by simp), ih]

/-- The tables which can be written such that they are read again: all rows have the same number of columns, no value is the
string `NULL` or has a NUL character, and no line would be empty. -/
structure Writable (n : Nat) (rows : List (List (Option Str))) : Prop where
  pos : 0 < n
  len : ∀ r ∈ rows, r.length = n
  null : ∀ r ∈ rows, some nullStr ∉ r
  nul : ∀ r ∈ rows, ∀ s, some s ∈ r → '\x00' ∉ s
  line : ∀ r ∈ rows, r ≠ [some []]

theorem readTable_write {nl : Str} (hn : Newline nl) {n : Nat} {rows : List (List (Option Str))} (h : Writable n rows) :
    readTable (writeTable nl rows) = some (rows.map fun r => r.map writeField) := by
  have hne : ∀ r ∈ rows, r ≠ [] := fun r hr e => by have := h.len r hr; have := h.pos; simp [e] at *; omega
  have hz : '\x00' ∉ writeTable nl rows := by
    intro hm
    simp only [writeTable, List.mem_flatMap, List.mem_append] at hm
    obtain ⟨r, hr, hm | hm⟩ := hm
    · rcases mem_joinTabs _ hm with e | ⟨s, hs, hc⟩
      · exact absurd e (by decide)
      · obtain ⟨v, hv, rfl⟩ := List.mem_map.1 hs
        obtain ⟨s, rfl, hz⟩ := (mem_writeField hc).2.2.2 rfl
        exact h.nul r hr s hv hz
    · rcases hn with rfl | rfl | rfl <;> simp at hm
  have hl : (splitWith isNewline (writeTable nl rows)).filter (· ≠ []) = rows.map fun r => joinTabs (r.map writeField) := by
    have := readLines nl hn (rows.map fun r => joinTabs (r.map writeField)) (by
      intro l hl
      obtain ⟨r, hr, rfl⟩ := List.mem_map.1 hl
      refine ⟨joinTabs_ne_nil (hne r hr) (h.line r hr), fun c hc => ?_⟩
      rcases mem_joinTabs _ hc with rfl | ⟨s, hs, hc⟩
      · rfl
      · obtain ⟨v, hv, rfl⟩ := List.mem_map.1 hs
        obtain ⟨h1, h2, _, _⟩ := mem_writeField hc
        simp [isNewline, h1, h2])
    rw [List.flatMap_map] at this
    exact this
  have hs : (rows.map fun r => joinTabs (r.map writeField)).map (splitAll '\t') = rows.map fun r => r.map writeField := by
    rw [List.map_map]
    apply List.map_congr_left
    intro r hr
    refine splitAll_joinTabs _ (by simpa using hne r hr) ?_
    intro s hs
    obtain ⟨v, hv, rfl⟩ := List.mem_map.1 hs
    exact fun hc => (mem_writeField hc).2.2.1 rfl
  unfold readTable
  rw [if_neg hz]
  simp only [hl, hs]
  rw [if_pos]
  rw [List.all_eq_true]
  intro x hx
  obtain ⟨r, hr, rfl⟩ := List.mem_map.1 hx
  have h0 : ∀ l : List (List (Option Str)), l ≠ [] → (∀ r ∈ l, r.length = n) →
      ((l.map fun r => r.map writeField).headD []).length = n := by
    intro l hl h
    cases l with
    | nil => exact absurd rfl hl
    | cons a l => simpa using h a (by simp)
  rw [h0 rows (fun e => by simp [e] at hr) h.len]
  simp [h.len r hr]

/-- C77: a table in the import format is read back as it was written, with any line ends, if no value is the string `NULL`. -/
theorem C77_round_trip_partial {nl : Str} (hn : Newline nl) {n : Nat} {rows : List (List (Option Str))}
    (h : Writable n rows) :
    ∃ t, readTable (writeTable nl rows) = some t ∧ t.length = rows.length ∧
      ∀ (i j : Nat) (r : List (Option Str)) (row : Row), rows[i]? = some r → t[i]? = some row → getField row j = r[j]? := by
  refine ⟨_, readTable_write hn h, by simp, ?_⟩
  intro i j r row hr hrow
  rw [List.getElem?_map, hr] at hrow
  cases hrow
  unfold getField
  rw [List.getElem?_map]
  cases hv : r[j]? with
  | none => rfl
  | some v =>
    have hm := List.mem_of_getElem? hv
    simp only [Option.map_some]
    rw [decode_write fun e => h.null r (List.mem_of_getElem? hr) (e ▸ hm)]

/-- C77: a field without a backslash is taken as it is. -/
theorem C77_plain (s : Str) (h : '\\' ∉ s) (hn : s ≠ nullStr) : decodeField s = some s := by
  unfold decodeField
  rw [if_neg hn, unescape_plain s h]

namespace Spec

/-- The escape sequences of the format: the character after the backslash and what it stands for. -/
def escapes : List (Char × Char) :=
  [('\\', '\\'), ('"', '"'), ('\'', '\''), ('`', '`'), ('$', '$'), ('n', '\n'), ('r', '\r'), ('t', '\t')]

/-- A raw field stands for a value: escape sequences are replaced from left to right, other backslashes stand for themselves. -/
inductive Stands : Str → Str → Prop
  | nil : Stands [] []
  | plain (c : Char) {s v : Str} : c ≠ '\\' → Stands s v → Stands (c :: s) (c :: v)
  | esc {c d : Char} {s v : Str} : (c, d) ∈ escapes → Stands s v → Stands ('\\' :: c :: s) (d :: v)
  | other {c : Char} {s v : Str} : (∀ d, (c, d) ∉ escapes) → Stands (c :: s) v → Stands ('\\' :: c :: s) ('\\' :: v)
  | last : Stands ['\\'] ['\\']

end Spec

theorem escaped_iff (c d : Char) : escaped c = some d ↔ (c, d) ∈ escapes := by
  unfold escaped escapes
  simp only [List.mem_cons, Prod.mk.injEq, List.not_mem_nil, or_false]
  constructor
  · intro h
    split at h
    · rename_i hc
      cases h
      rcases hc with rfl | rfl | rfl | rfl | rfl <;> decide
    split at h
    · cases h; subst c; decide
    split at h
    · cases h; subst c; decide
    split at h
    · cases h; subst c; decide
    · cases h
  · rintro (⟨rfl, rfl⟩ | ⟨rfl, rfl⟩ | ⟨rfl, rfl⟩ | ⟨rfl, rfl⟩ | ⟨rfl, rfl⟩ | ⟨rfl, rfl⟩ | ⟨rfl, rfl⟩ | ⟨rfl, rfl⟩) <;> decide

theorem stands_unescape : ∀ s : Str, Stands s (unescape s)
  | [] => .nil
  | [c] => by
    by_cases hc : c = '\\'
    · subst hc; exact .last
    · exact .plain c hc .nil
  | c :: d :: r => by
    rw [unescape]
    split
    · rename_i hc
      subst hc
      cases he : escaped d with
      | some e => exact .esc ((escaped_iff d e).1 he) (stands_unescape r)
      | none =>
        refine .other (fun e hm => ?_) (stands_unescape (d :: r))
        rw [(escaped_iff d e).2 hm] at he
        cases he
    · rename_i hc
      exact .plain c hc (stands_unescape (d :: r))

/-- C77: the value of any raw field is the one it stands for. -/
theorem C77_field (s v : Str) : unescape s = v ↔ Stands s v := by
  constructor
  · rintro rfl; exact stands_unescape s
  · intro h
    induction h with
    | nil => rfl
    | @plain c s v hc _ ih =>
      cases s with
      | nil => rw [← ih]; rfl
      | cons d r => rw [unescape, if_neg hc, ih]
    | esc hm _ ih => rw [unescape, if_pos rfl, (escaped_iff _ _).2 hm]; exact congrArg _ ih
    | @other c s v hm _ ih =>
      rw [unescape, if_pos rfl]
      cases he : escaped c with
      | some e => exact absurd ((escaped_iff _ _).1 he) (hm e)
      | none => exact congrArg _ ih
    | last => rfl

/-- C77 fails: a value which is the word `NULL` becomes a missing value. -/
theorem C77_null_fails : (readTable (writeTable ['\n'] [[some "1".toList, some nullStr]])).map (fun t => t.map fun r => getField r 1)
    = some [some none] := by decide

/-- C77 fails: an empty value in a table with only one column is lost together with its line. -/
theorem C77_empty_line_fails : readTable (writeTable ['\n'] [[some "a".toList], [some []], [some "b".toList]])
    = some [["a".toList], ["b".toList]] := by decide

theorem C77_nonvacuous :
    Writable 3 [[some "1".toList, none, some "a\tb\\n\n".toList], [some "2".toList, some [], some "$".toList]] ∧
    writeTable "\r\n".toList [[some "1".toList, none, some "a\tb\\n\n".toList], [some "2".toList, some [], some "$".toList]]
      = "1\tNULL\ta\\tb\\\\n\\n\r\n2\t\t$\r\n".toList ∧
    unescape "\\x\\`\\".toList = "\\x`\\".toList :=
  ⟨⟨by decide, by decide, by decide, by
    intro r hr s hs
    simp only [List.mem_cons, List.not_mem_nil, or_false] at hr
    rcases hr with rfl | rfl
    · simp only [List.mem_cons, List.not_mem_nil, or_false, Option.some.injEq, reduceCtorEq, false_or] at hs
      rcases hs with rfl | rfl <;> decide
    · simp only [List.mem_cons, List.not_mem_nil, or_false, Option.some.injEq, reduceCtorEq, false_or] at hs
      rcases hs with rfl | rfl | rfl <;> decide, by decide⟩, by decide, by decide⟩

end Rel
