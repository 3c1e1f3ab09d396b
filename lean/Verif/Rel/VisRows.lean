import Verif.Rel.Properties

/-!
# C87: the lines of the visualizer table are read back as they were written
-/

set_option linter.unusedSimpArgs false

namespace Rel

open Spec

namespace Spec

/-- An integer as it is written into a table. -/
def intText : Int → Str
  | .ofNat n => Nat.toDigits 10 n
  | .negSucc n => '-' :: Nat.toDigits 10 (n + 1)

/-- White space only. -/
def Blank (s : Str) : Prop := ∀ c ∈ s, isWs c = true

/-- No white space at the beginning and the end. -/
def Trimmed (s : Str) : Prop := (∀ c, s.head? = some c → isWs c = false) ∧ ∀ c, s.getLast? = some c → isWs c = false

/-- A mapping with white space around its key and value. -/
structure Mapping where
  w1 : Str
  key : Str
  w2 : Str
  w3 : Str
  value : Str
  w4 : Str

/-- A mapping that can be written. -/
structure Mapping.Ok (m : Mapping) : Prop where
  blank : Blank m.w1 ∧ Blank m.w2 ∧ Blank m.w3 ∧ Blank m.w4
  key : ':' ∉ m.key ∧ ';' ∉ m.key ∧ Trimmed m.key
  value : ';' ∉ m.value ∧ Trimmed m.value

def Mapping.text (m : Mapping) : Str := m.w1 ++ m.key ++ m.w2 ++ ':' :: (m.w3 ++ m.value ++ m.w4)

/-- Mappings with semicolons between them. -/
def mapText : List Mapping → Str
  | [] => []
  | [m] => m.text
  | m :: n :: r => m.text ++ ';' :: mapText (n :: r)

/-- The value of a key is that of its last mapping. -/
def mapValue (ms : List Mapping) (k : Str) : Option Str := (ms.reverse.find? fun m => m.key = k).map Mapping.value

def elemText : Option Elem → Option Str
  | none => none
  | some .node => some "node".toList
  | some .edge => some "edge".toList

def visText : Visibility → Str
  | .hidden => "hidden".toList
  | .visible => "visible".toList
  | .permanent => "permanent".toList
  | .preloaded => "preloaded".toList

/-- The columns of a line; the first two are not used. -/
def visCols (corpus version : Option Str) (r : VisRow) (ms : List Mapping) : List (Option Str) :=
  [corpus, version, r.rule.layer, elemText r.rule.element, some r.rule.visType, some r.rule.display,
    some (if r.removed then "removed".toList else visText r.rule.visibility), some (intText r.order), some (mapText ms)]

/-- The columns of a line in the older format without a visibility. -/
def visColsOld (corpus version : Option Str) (r : VisRow) (ms : List Mapping) : List (Option Str) :=
  [corpus, version, r.rule.layer, elemText r.rule.element, some r.rule.visType, some r.rule.display, some (intText r.order),
    some (mapText ms)]

end Spec

theorem dropWhile_blank {w : Str} (hw : Blank w) {s : Str} (hs : ∀ c, s.head? = some c → isWs c = false) : (w ++ s).dropWhile isWs = s := by
  induction w with
  | nil =>
    cases s with
    | nil => rfl
    | cons c s => rw [List.nil_append, List.dropWhile_cons, if_neg (by simp [hs c rfl])]
  | cons c w ih =>
    rw [List.cons_append, List.dropWhile_cons, if_pos (hw c (by simp)), ih fun d hd => hw d (by simp [hd])]

theorem dropWhile_all {w : Str} (hw : Blank w) : w.dropWhile isWs = [] := by
  have := dropWhile_blank hw (s := []) (by simp)
  simpa using this

/-- `trim` removes the white space around a text. -/
theorem C87_trim {w s w' : Str} (hw : Blank w) (hw' : Blank w') (hs : Trimmed s) : trimStr (w ++ s ++ w') = s := by
  unfold trimStr
  have hr : Blank w'.reverse := fun c hc => hw' c (List.mem_reverse.1 hc)
  cases s with
  | nil =>
    have hb : Blank (w ++ [] ++ w') := fun c hc => by
      simp only [List.append_nil, List.mem_append] at hc
      exact hc.elim (hw c) (hw' c)
    rw [dropWhile_all hb]
    rfl
  | cons c s =>
    rw [List.append_assoc, dropWhile_blank hw (fun d hd => by
      simp only [List.cons_append, List.head?_cons, Option.some.injEq] at hd
      exact hd ▸ hs.1 c rfl), List.reverse_append, dropWhile_blank hr (fun d hd => hs.2 d (by
        rw [List.getLast?_eq_head?_reverse]; exact hd)), List.reverse_reverse]

theorem parseI64_text {i : Int} (h1 : -2 ^ 63 ≤ i) (h2 : i < 2 ^ 63) : parseI64 (intText i) = some i := by
  cases i with
  | ofNat n =>
    have hn : n < 2 ^ 63 := by
      have e : Int.ofNat n = (n : Int) := rfl
      rw [e] at h2
      omega
    have hd : ∀ c ∈ Nat.toDigits 10 n, c.isDigit := fun c hc => Nat.isDigit_of_mem_toDigits (by decide) (by decide) hc
    have e := parseNat_digits hn
    have e0 : intText (Int.ofNat n) = Nat.toDigits 10 n := rfl
    rw [e0]
    generalize Nat.toDigits 10 n = s at hd e
    unfold parseI64
    split
    · exact absurd (hd '-' (by simp)) (by decide)
    · rw [e]; rfl
  | negSucc n =>
    have hd : ∀ c ∈ Nat.toDigits 10 (n + 1), c.isDigit := fun c hc => Nat.isDigit_of_mem_toDigits (by decide) (by decide) hc
    have hn : n + 1 ≤ 2 ^ 63 := by
      rw [Int.negSucc_eq] at h1
      omega
    unfold intText parseI64
    simp only
    rw [if_pos ⟨Nat.toDigits_ne_nil, by rw [List.all_eq_true]; exact hd, by rw [Nat.ofDigitChars_ten_toDigits]; exact hn⟩,
      Nat.ofDigitChars_ten_toDigits, Int.negSucc_eq]
    simp

theorem ws_colon {w : Str} (h : Blank w) {c : Char} (hc : isWs c = false) : c ∉ w := fun hm => by
  rw [h c hm] at hc; cases hc

theorem not_semi {m : Mapping} (h : m.Ok) : ';' ∉ m.text := by
  have hs : isWs ';' = false := by decide
  unfold Mapping.text
  simp only [List.mem_append, List.mem_cons, not_or]
  exact ⟨⟨⟨ws_colon h.blank.1 hs, h.key.2.1⟩, ws_colon h.blank.2.1 hs⟩, by decide, ⟨ws_colon h.blank.2.2.1 hs, h.value.1⟩,
    ws_colon h.blank.2.2.2 hs⟩

theorem splitAll_mapText : ∀ ms : List Mapping, ms ≠ [] → (∀ m ∈ ms, m.Ok) → splitAll ';' (mapText ms) = ms.map Mapping.text
  | [], h, _ => absurd rfl h
  | [m], _, h => splitAll_single (not_semi (h m (by simp)))
  | m :: n :: r, _, h => by
    rw [mapText, splitAll_append_tab (not_semi (h m (by simp))), splitAll_mapText (n :: r) (by simp) fun x hx => h x (by simp [hx])]
    rfl

theorem mapping_read {m : Mapping} (h : m.Ok) :
    ((splitOnce ':' m.text).map fun p => (trimStr p.1, trimStr p.2)) = some (m.key, m.value) := by
  have hs : isWs ':' = false := by decide
  unfold Mapping.text
  rw [splitOnce_append (by
    simp only [List.mem_append, not_or]
    exact ⟨⟨ws_colon h.blank.1 hs, h.key.1⟩, ws_colon h.blank.2.1 hs⟩)]
  simp only [Option.map_some, C87_trim h.blank.1 h.blank.2.1 h.key.2.2, C87_trim h.blank.2.2.1 h.blank.2.2.2 h.value.2]

theorem parseMappings_text {ms : List Mapping} (h : ∀ m ∈ ms, m.Ok) :
    parseMappings (mapText ms) = (ms.map fun m => (m.key, m.value)).foldl (fun m p => OMap.insert m p.1 p.2) [] := by
  unfold parseMappings
  cases hms : ms with
  | nil => decide
  | cons a l =>
    rw [← hms, splitAll_mapText ms (by rw [hms]; simp) h]
    congr 1
    clear hms a l
    induction ms with
    | nil => rfl
    | cons m ms ih =>
      rw [List.map_cons, List.filterMap_cons, mapping_read (h m (by simp)), List.map_cons, ih fun x hx => h x (by simp [hx])]

/-- Each key has the value of its last mapping, and no other key has a value. -/
theorem C87_mappings {ms : List Mapping} (h : ∀ m ∈ ms, m.Ok) (k : Str) : OMap.get (parseMappings (mapText ms)) k = mapValue ms k := by
  rw [parseMappings_text h]
  clear h
  unfold mapValue
  induction ms using List.reverseRecOn with
  | nil => rfl
  | append_singleton ms m ih =>
    rw [List.map_append, List.foldl_append]
    simp only [List.map_cons, List.map_nil, List.foldl_cons, List.foldl_nil, OMap.get_insert, List.reverse_append, List.reverse_cons,
      List.reverse_nil, List.nil_append, List.singleton_append, List.find?_cons]
    by_cases e : k = m.key
    · simp [e]
    · simp [e, Ne.symm e, ih]

/-- What is left to say about a row read from a line: the mappings. -/
def VisRow.noMappings (r : VisRow) : VisRow := { r with rule := { r.rule with mappings := [] } }

theorem elementOf_text (e : Option Elem) : (elemText e).bind elementOf = e := by
  cases e with
  | none => rfl
  | some e => cases e <;> decide

theorem visText_read (v : Visibility) : visibilityOf (visText v) = v ∧ visText v ≠ "removed".toList ∧ visText v ≠ nullStr := by
  cases v <;> decide

/-- A line of the visualizer table is read back; removed rules have no visibility of their own. -/
theorem C87_row (is33 : Bool) (corpus version : Option Str) (r : VisRow) (ms : List Mapping) (h : NoNull (visCols corpus version r ms))
    (hm : ∀ m ∈ ms, m.Ok) (hi : -2 ^ 63 ≤ r.order ∧ r.order < 2 ^ 63) (hr : r.removed = true → r.rule.visibility = .hidden) :
    ∃ x, parseVisRow is33 ((visCols corpus version r ms).map writeField) = some x ∧ x.noMappings = r.noMappings ∧
      ∀ k, OMap.get x.rule.mappings k = mapValue ms k := by
  have hv : (is33 || ((visCols corpus version r ms).map writeField).length == 9) = true := by simp [visCols]
  unfold parseVisRow
  simp only [hv, if_true, getNotNull_write h, getField_write h]
  obtain ⟨removed, order, display, visType, element, layer, visibility, mappings⟩ := r
  simp only [visCols, List.getElem?_cons_zero, List.getElem?_cons_succ, Option.join_some, Option.bind_eq_bind, Option.bind_some,
    Option.getD_some, parseI64_text hi.1 hi.2, elementOf_text, Option.pure_def, Option.some.injEq, exists_eq_left']
  refine ⟨?_, fun k => C87_mappings hm k⟩
  unfold VisRow.noMappings
  cases removed with
  | true =>
    have e := hr rfl
    simp only at e
    subst e
    simp
    decide
  | false =>
    obtain ⟨e1, e2, -⟩ := visText_read visibility
    simp only [Bool.false_eq_true, if_false, e1]
    simp only [VisRow.mk.injEq, and_true, beq_eq_false_iff_ne, ne_eq]
    exact e2

/-- A line without a visibility is read back: the rule is hidden. -/
theorem C87_row_old (corpus version : Option Str) (r : VisRow) (ms : List Mapping) (h : NoNull (visColsOld corpus version r ms))
    (hm : ∀ m ∈ ms, m.Ok) (hi : -2 ^ 63 ≤ r.order ∧ r.order < 2 ^ 63) (hr : r.removed = false ∧ r.rule.visibility = .hidden) :
    ∃ x, parseVisRow false ((visColsOld corpus version r ms).map writeField) = some x ∧ x.noMappings = r.noMappings ∧
      ∀ k, OMap.get x.rule.mappings k = mapValue ms k := by
  have hv : (false || ((visColsOld corpus version r ms).map writeField).length == 9) = false := by simp [visColsOld]
  unfold parseVisRow
  simp only [hv, Bool.false_eq_true, if_false, getNotNull_write h, getField_write h]
  obtain ⟨removed, order, display, visType, element, layer, visibility, mappings⟩ := r
  obtain ⟨e1, e2⟩ := hr
  simp only at e1 e2
  subst e1 e2
  simp only [visColsOld, List.getElem?_cons_zero, List.getElem?_cons_succ, Option.join_some, Option.bind_eq_bind, Option.bind_some,
    Option.getD_some, parseI64_text hi.1 hi.2, elementOf_text, Option.pure_def, Option.some.injEq, exists_eq_left']
  exact ⟨by unfold VisRow.noMappings; simp; decide, fun k => C87_mappings hm k⟩

def exMapping : List Mapping := [⟨[' '], "annos".toList, [], [' '], "a:b".toList, []⟩, ⟨[], "annos".toList, [], [], "c".toList, [' ']⟩]

def exVisRow : VisRow := ⟨false, -3, ⟨"my grid".toList, "grid".toList, some .node, some "mmax".toList, .preloaded, []⟩⟩

/-- A line with a negative order and a key with two values meets the hypotheses. -/
theorem C87_row_nonvacuous :
    NoNull (visCols (some ['c']) none exVisRow exMapping) ∧ (∀ m ∈ exMapping, m.Ok) ∧ (-2 ^ 63 ≤ exVisRow.order ∧ exVisRow.order < 2 ^ 63) ∧
    mapText exMapping = " annos: a:b;annos:c ".toList ∧ mapValue exMapping "annos".toList = some ['c'] ∧
    mapValue exMapping "b".toList = none := by
  refine ⟨by unfold NoNull; decide, ?_, by decide, by decide, by decide, by decide⟩
  intro m hm
  simp only [exMapping, List.mem_cons, List.not_mem_nil, or_false] at hm
  have ht : ∀ s : Str, s.head?.all (fun c => !isWs c) = true → s.getLast?.all (fun c => !isWs c) = true → Trimmed s := by
    intro s h1 h2
    constructor
    · intro c hc
      rw [hc] at h1
      simpa using h1
    · intro c hc
      rw [hc] at h2
      simpa using h2
  have hb : ∀ s : Str, s.all isWs = true → Blank s := fun s h c hc => (List.all_eq_true.1 h) c hc
  rcases hm with rfl | rfl
  · exact ⟨⟨hb _ (by decide), hb _ (by decide), hb _ (by decide), hb _ (by decide)⟩, ⟨by decide, by decide, ht _ (by decide) (by decide)⟩,
      ⟨by decide, ht _ (by decide) (by decide)⟩⟩
  · exact ⟨⟨hb _ (by decide), hb _ (by decide), hb _ (by decide), hb _ (by decide)⟩, ⟨by decide, by decide, ht _ (by decide) (by decide)⟩,
      ⟨by decide, ht _ (by decide) (by decide)⟩⟩

end Rel
