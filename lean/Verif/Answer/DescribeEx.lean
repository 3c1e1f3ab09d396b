import Verif.Answer.Describe
import Verif.Answer.FindEx

/-!
# Concrete cases for C111
-/

namespace Answer.Ex

open Whole TextOp

def docSpec : NsSpec Str Str := .exact (some annis) "doc".toList none false

/-- The descriptions of the query `cat ->dep cat | tok`. -/
def desc6 : List Desc := [⟨0, cat, ['1'], some cat, false⟩, ⟨0, cat, ['2'], some cat, false⟩, ⟨1, tokName, ['3'], none, false⟩]

/-- Concrete case: the descriptions of the nodes of `cat ->dep cat | tok`, which has the answers of C108. -/
theorem C111_nonvacuous : (nodeDescriptions false docSpec text6).toOption = some desc6 ∧
    ∃ ds, nodeDescriptions false docSpec text6 = .ok ds ∧ ds.length = 3 ∧
      ∃ x, ds[2]? = some x ∧ Describes 1 2 ⟨16, .anyToken, none, false⟩ x ∧ RefersTo 2 list7 ('#' :: x.var) 0 := by
  refine ⟨by decide +kernel, ?_⟩
  obtain ⟨e, qs, ha, ht⟩ := query docSpec
  obtain ⟨ps, tree, h1, h2⟩ := ht.flat
  obtain ⟨ds, h3, h4, h5⟩ := C111_descriptions_partial ht.parsed h1 h2 ht.translated ht.searches ht.names
  obtain ⟨x, h6, h7, h8⟩ := h5 1 0 list7 _ rfl rfl
  exact ⟨ds, h3, h4, x, h6, h7, h8 (by decide)⟩

/-- Concrete case: the columns of the answer with two spans belong to the two descriptions of the first alternative. -/
theorem C111_columns_nonvacuous (d : SMatch NodeID64 (AnnoKey Str)) :
    ∃ ds, nodeDescriptions false docSpec text6 = .ok ds ∧ (ds.filter fun x => decide (x.alternative = 0) && !x.optional).length = 2 ∧
      List.Forall₂ (fun (x : Desc) m => ∃ p, Finds env (AnnoStore.spec (named 'a')) rels p m ∧
          (Parse.Spec.Unsplit p → Parse.Spec.eraseOut (Parse.parseQuery x.fragment) = .ok (.term (.node p 0 none false))))
        (ds.filter fun x => decide (x.alternative = 0) && !x.optional) [catM 11, catM 10] := by
  obtain ⟨e, qs, ha, ht⟩ := query docSpec
  obtain ⟨ds, h1, h2⟩ := C111_columns_partial (k := known 'a') ht (i := 0) (row := [catM 11, catM 10]) (by
    rw [ha]
    exact (answer_iff 'a' d 0 _).2 (.inl ⟨rfl, rfl⟩))
  exact ⟨ds, h1, h2.length_eq, h2⟩

/-- Concrete case: the query is valid on the corpora `b` and `a`. -/
theorem C111_valid_nonvacuous (doc : NsSpec Str Str) (d : SMatch NodeID64 (AnnoKey Str)) :
    Validated Empty doc d text6 [corpus 'b', corpus 'a'] := by
  obtain ⟨e, qs, ha, ht⟩ := query doc
  refine C111_valid_partial ht [known 'b', known 'a'] fun k hk => ?_
  rw [ha]
  simp only [List.mem_cons, List.not_mem_nil, or_false] at hk
  rcases hk with rfl | rfl
  · exact fits _ (.inr rfl) d
  · exact fits _ (.inl rfl) d

/-- The queries of `C101_pattern_fails` in one corpus: the pattern alone is not valid, but it is with an operator. -/
theorem C111_pattern_fails (doc : NsSpec Str Str) (d : SMatch NodeID64 (AnnoKey Str)) :
    env.compile ['('] = none ∧ Validated Empty doc d text4 [⟨['a'], env, graph, db, demoTh, demoOrder⟩] ∧
    ¬ Validated Empty doc d text5 [⟨['a'], env, graph, db, demoTh, demoOrder⟩] := by
  obtain ⟨h1, ⟨h2, h3⟩, ⟨out, h4⟩, _, _⟩ := C101_pattern_fails doc d
  refine ⟨h1, ?_, fun h => C111_refused h List.mem_cons_self h2⟩
  intro c hc
  obtain rfl := List.mem_singleton.1 hc
  cases h4 with
  | mk g1 g2 g3 g4 => exact ⟨_, toQuery_ok.2 ⟨_, g1, g2⟩, _, g3⟩

/-- Without corpora everything is valid, even a text that is not a query. -/
theorem C111_no_corpus_fails (doc : NsSpec Str Str) (d : SMatch NodeID64 (AnnoKey Str)) :
    (nodeDescriptions false docSpec "& )".toList).toOption = none ∧ Validated Empty doc d "& )".toList ([] : List (Corpus NodeID64)) :=
  ⟨by decide +kernel, by simp [Validated]⟩

/-- What is shown of a row with the numbers of its columns. -/
def shownColumns (quirks : Bool) (text : Str) (width : Nat) : Option (List Nat) :=
  (toQuery quirks docSpec text).toOption.map fun qs => Aql.shown qs (List.range width)

/-- In quirks mode the nodes for metadata are described like all others, but they are not shown. -/
theorem C111_quirks_fails :
    (nodeDescriptions true docSpec "tok & meta::author=\"x\"".toList).toOption = some [⟨0, tokName, ['1'], none, false⟩,
      ⟨0, "author=\"x\"".toList, ['2'], some "author".toList, false⟩, ⟨0, "annis:doc".toList, ['3'], some "doc".toList, false⟩] ∧
    shownColumns true "tok & meta::author=\"x\"".toList 3 = some [0] := by
  refine ⟨by decide +kernel, by decide +kernel⟩

/-- In quirks mode the copies of nodes for joins are described although they are not in the text. -/
theorem C111_copies_fails :
    (nodeDescriptions true docSpec "a & b & c & #1 > #2 & #1 > #3".toList).toOption = some [⟨0, ['a'], ['1'], some ['a'], false⟩,
      ⟨0, ['b'], ['2'], some ['b'], false⟩, ⟨0, ['c'], ['3'], some ['c'], false⟩, ⟨0, ['a'], ['4'], some ['a'], false⟩] := by
  decide +kernel

/-- Searches for other values than the given one have no annotation name. -/
theorem C111_anno_name_fails : (nodeDescriptions false docSpec "pos!=\"NN\"".toList).toOption =
      some [⟨0, "pos!=\"NN\"".toList, ['1'], none, false⟩] ∧
    (nodeDescriptions false docSpec "pos=\"NN\"".toList).toOption = some [⟨0, "pos=\"NN\"".toList, ['1'], some "pos".toList, false⟩] := by
  refine ⟨by decide +kernel, by decide +kernel⟩

/-- The text of a description need not be a query. -/
theorem C111_fragment_fails : (nodeDescriptions false docSpec "x: arity=\"1\"".toList).toOption =
      some [⟨0, "x:arity=\"1\"".toList, ['1'], some "arity".toList, false⟩] ∧
    (toQuery false docSpec "x:arity=\"1\"".toList).toOption = none := by
  refine ⟨by decide +kernel, by decide +kernel⟩

/-- With several alternatives the first one decides which columns are shown (see `C70_alternatives_fails`): nothing is shown of the rows of
the second alternative here, but its node is described as not optional. -/
theorem C111_optional_fails : ((nodeDescriptions false docSpec "a? & b | c".toList).toOption.map fun ds => ds.map fun x => (x.alternative, x.optional)) =
      some [(0, true), (0, false), (1, false)] ∧ shownColumns false "a? & b | c".toList 1 = some [] := by
  refine ⟨by decide +kernel, by decide +kernel⟩

end Answer.Ex
