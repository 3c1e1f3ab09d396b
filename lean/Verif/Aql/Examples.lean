import Verif.Aql.Whole

/-!
# Queries for C69 and C70
-/

set_option linter.unusedSimpArgs false

namespace Aql.Ex

open Aql

abbrev Lit := Literal Nat Nat Nat

def x : List Char := ['x']

/-- What can be compared of a conjunction. -/
structure View where
  nodes : List (NodeEntry Nat)
  bins : List (BinEntry Nat Nat)
  uns : List (UnEntry Nat Nat Nat)
  out : List Var
  offset : Nat
deriving DecidableEq

def view (q : Conj Nat Nat Nat) : View := ⟨q.nodes, q.bins, q.uns, q.out, q.offset⟩

def mapped (c : List Lit) (offset : Nat) (quirks : Bool) : View ⊕ Err :=
  match mapConjunction c offset quirks with
  | .ok q => .inl (view q)
  | .error e => .inr e

def parsed (e : Expr Lit) (quirks : Bool) : List View ⊕ Err :=
  match parse quirks 99 e with
  | .ok d => .inl (d.map view)
  | .error e => .inr e

/-! ## C69 -/

/-- `x#tok . pos & lemma? !> #2 & #x:arity=7`: the searches have the numbers 10, 20 and 30. -/
def query : List Lit :=
  [.bin (.lit 10 0 (some x) false) (.dist 1 .unbound) (.lit 20 8 none false) false,
   .bin (.lit 30 14 none true) (.join 2) (.ref (.id 2)) true,
   .un (.name x) 7]

def queryList : List (Occ Nat) := [⟨0, 10, some x, false⟩, ⟨8, 20, none, false⟩, ⟨14, 30, none, true⟩]

theorem query_list : IsNodeList query queryList := by
  refine ⟨by decide, fun o => ?_⟩
  simp [query, queryList, Literal.occs, Operand.occs]
  tauto

theorem query_names : NamesDistinct queryList := by unfold NamesDistinct; decide

/-- The query is accepted, its nodes are in the order of the text, and the optional node has become a condition on the second node. -/
theorem C69_nonvacuous : IsNodeList query queryList ∧ NamesDistinct queryList ∧ WellFormed false 0 query queryList ∧
    mapped query 0 false = .inl ⟨[⟨.name x, 10, false⟩, ⟨.num 2, 20, false⟩, ⟨.num 3, 30, true⟩],
      [⟨.plain ⟨.dist 1 .unbound, 10, 20⟩, 0, 1, true⟩],
      [⟨.user 7, 0⟩, ⟨.nonExisting ⟨.join 2, 30, 20⟩ 30 true, 1⟩], [.num 2, .name x], 0⟩ := by
  have hm : mapped query 0 false = .inl ⟨[⟨.name x, 10, false⟩, ⟨.num 2, 20, false⟩, ⟨.num 3, 30, true⟩],
      [⟨.plain ⟨.dist 1 .unbound, 10, 20⟩, 0, 1, true⟩],
      [⟨.user 7, 0⟩, ⟨.nonExisting ⟨.join 2, 30, 20⟩ 30 true, 1⟩], [.num 2, .name x], 0⟩ := by decide
  refine ⟨query_list, query_names, (C69_accepted_partial query 0 false queryList query_list query_names).1 ?_, hm⟩
  unfold mapped at hm
  cases h : mapConjunction query 0 false with
  | ok q => exact ⟨q, rfl⟩
  | error e => rw [h] at hm; simp at hm

/-- In quirks mode: the range is limited, and a node that is used for two edges is there twice. `10 > 20 & #1 > 30 & #1 . #2`. -/
theorem C69_quirks_nonvacuous :
    mapped [.bin (.lit 10 0 none false) (.join 1) (.lit 20 5 none false) false, .bin (.ref (.id 1)) (.join 1) (.lit 30 9 none false) false,
      .bin (.ref (.id 1)) (.dist 2 .unbound) (.ref (.id 2)) false] 0 true =
    .inl ⟨[⟨.num 1, 10, false⟩, ⟨.num 2, 20, false⟩, ⟨.num 3, 30, false⟩, ⟨.num 4, 10, false⟩],
      [⟨.plain ⟨.join 1, 10, 20⟩, 0, 1, false⟩, ⟨.plain ⟨.join 1, 10, 30⟩, 0, 2, false⟩,
       ⟨.plain ⟨.dist 2 (.bound 1 50), 10, 20⟩, 0, 1, false⟩, ⟨.ident, 0, 3, false⟩],
      [], [.num 4, .num 3, .num 2, .num 1], 0⟩ := by decide

/-- C69 fails for trees that are not in disjunctive normal form: in `0 & (1 | 2)` the disjunction is ignored. -/
theorem C69_not_dnf_fails : ((alternatives (.and (.term 0) (.or (.term 1) (.term 2)))).any fun c => c.all fun n => n == 0) = true ∧
    (Expr.and (.term 0) (.or (.term 1) (.term 2))).eval (fun n => n == 0) = false := by decide

/-- C69 fails for a name that is used twice: `x#tok . x#pos` says that the second node precedes itself. -/
theorem C69_same_name_fails : mapped [.bin (.lit 10 0 (some x) false) (.dist 1 .unbound) (.lit 20 8 (some x) false) false] 0 false =
    .inl ⟨[⟨.name x, 10, false⟩, ⟨.name x, 20, false⟩], [⟨.plain ⟨.dist 1 .unbound, 20, 20⟩, 1, 1, true⟩], [],
      [.name x, .name x], 0⟩ := by decide

/-- A node with a name has no number: `x#tok & pos & #1 . #2` is an error. -/
theorem C69_named_number_fails : mapped [.node 10 0 (some x) false, .node 20 8 none false,
    .bin (.ref (.id 1)) (.dist 1 .unbound) (.ref (.id 2)) false] 0 false = .inr (.notFound (.num 1)) := by decide

def distributed (n : Nat) (s p : Nat) : Expr Lit := .and (.and (.term (.node s p none false)) (.term (.node 30 15 none false)))
  (.term (.bin (.ref (.id 1)) (.dist 1 .unbound) (.ref (.id n)) false))

/-- Numbers are not those of the text if a disjunction was distributed: `(tok | pos) & lemma & #1 . #3`, where the third search of the text
is `lemma`, and with `#1 . #2`, which would be correct for the first alternative, are errors. -/
theorem C69_distributed_fails :
    parsed (.or (distributed 3 10 1) (distributed 3 20 7)) false = .inr (.notFound (.num 3)) ∧
    parsed (.or (distributed 2 10 1) (distributed 2 20 7)) false = .inr (.notFound (.num 1)) := by decide

/-- Numbers of later alternatives are shifted by artificial nodes in quirks mode: `(10 > 20 & #1 > 30) | (40 & 50 & #4 . #5)` is an error, since
the first alternative has four nodes. -/
theorem C69_quirks_numbers_fails :
    let e : Expr Lit := .or
      (.and (.term (.bin (.lit 10 1 none false) (.join 1) (.lit 20 6 none false) false))
        (.term (.bin (.ref (.id 1)) (.join 1) (.lit 30 11 none false) false)))
      (.and (.and (.term (.node 40 20 none false)) (.term (.node 50 25 none false)))
        (.term (.bin (.ref (.id 4)) (.dist 1 .unbound) (.ref (.id 5)) false)))
    (parsed e false).isLeft = true ∧ parsed e true = .inr (.notFound (.num 4)) := by decide

/-- C69 in quirks mode: a `meta::` search in one alternative also restricts the others: `(tok & meta::60) | pos`. -/
theorem C69_meta_scope_fails : parsed (.or (.and (.term (.node 10 1 none false)) (.term (.legacyMeta 60))) (.term (.node 20 20 none false))) true =
    .inl [⟨[⟨.num 1, 10, false⟩, ⟨.num 2, 60, false⟩, ⟨.num 3, 99, false⟩], [⟨.partOf, 0, 1, true⟩, ⟨.ident, 1, 2, true⟩], [], [.num 1], 0⟩,
      ⟨[⟨.num 4, 20, false⟩, ⟨.num 5, 60, false⟩, ⟨.num 6, 99, false⟩], [⟨.partOf, 3, 4, true⟩, ⟨.ident, 4, 5, true⟩], [], [.num 4], 3⟩] := by
  decide

/-- C69 in quirks mode: `meta::` searches without a node search are not joined and need not be documents. -/
theorem C69_meta_only_fails : parsed (.and (.term (.legacyMeta 60)) (.term (.legacyMeta 61))) true =
    .inl [⟨[⟨.num 1, 60, false⟩, ⟨.num 2, 61, false⟩], [], [], [], 0⟩] := by decide

/-- C69 in quirks mode: the metadata is a condition on the first node even if this node is optional and so has no match: `tok? !. pos &
meta::60`. -/
theorem C69_meta_optional_fails :
    parsed (.and (.term (.bin (.lit 10 0 none true) (.dist 1 .unbound) (.lit 20 8 none false) true)) (.term (.legacyMeta 60))) true =
    .inl [⟨[⟨.num 1, 10, true⟩, ⟨.num 2, 20, false⟩, ⟨.num 3, 60, false⟩, ⟨.num 4, 99, false⟩],
      [⟨.partOf, 0, 2, true⟩, ⟨.ident, 2, 3, true⟩], [⟨.nonExisting ⟨.dist 1 (.bound 1 50), 10, 20⟩ 10 true, 1⟩], [.num 2], 0⟩] := by decide

/-- C69 on a sample with metadata: both searches are about the document of the first node. -/
theorem C69_meta_nonvacuous :
    parsed (.and (.term (.legacyMeta 60)) (.and (.term (.node 10 1 none false)) (.term (.legacyMeta 61)))) true =
    .inl [⟨[⟨.num 1, 10, false⟩, ⟨.num 2, 60, false⟩, ⟨.num 3, 99, false⟩, ⟨.num 4, 61, false⟩],
      [⟨.partOf, 0, 1, true⟩, ⟨.ident, 1, 2, true⟩, ⟨.ident, 1, 3, true⟩], [], [.num 1], 0⟩] := by decide

/-- The query of `C69_meta_scope_fails`, `(tok & meta::60) | pos`, meets the hypotheses of `C69_query_quirks_partial`, and without the metadata
those of `C69_query_partial`. -/
theorem C69_query_nonvacuous :
    let e : Expr Lit := .or (.and (.term (.node 10 1 none false)) (.term (.legacyMeta 60))) (.term (.node 20 20 none false))
    let e' : Expr Lit := .or (.term (.node 10 1 none false)) (.term (.node 20 20 none false))
    IsDnf e ∧ (∃ d, parse true 99 e = .ok d ∧ d.length = 2) ∧ (∀ c ∈ alternatives e, ∃ L, IsNodeList c L ∧ NamesDistinct L ∧ L ≠ []) ∧
    (∃ d, parse false 99 e' = .ok d ∧ d.length = 2) ∧ (∀ c ∈ alternatives e', ∃ L, IsNodeList c L ∧ NamesDistinct L) := by
  have one : ∀ (s p : Nat), NamesDistinct [(⟨p, s, none, false⟩ : Occ Nat)] := fun s p => by simp [NamesDistinct]
  refine ⟨.or (.conj (.and (.term _) (.term _))) (.conj (.term _)), ⟨_, rfl, rfl⟩, ?_, ⟨_, rfl, rfl⟩, ?_⟩
  all_goals
    intro c hc
    simp [alternatives, orChildren, alternativeOf, andChildren] at hc
    rcases hc with rfl | rfl
  · exact ⟨[⟨1, 10, none, false⟩], ⟨by simp, fun o => by simp [Literal.occs]⟩, one _ _, by simp⟩
  · exact ⟨[⟨20, 20, none, false⟩], ⟨by simp, fun o => by simp [Literal.occs]⟩, one _ _, by simp⟩
  · exact ⟨[⟨1, 10, none, false⟩], ⟨by simp, fun o => by simp [Literal.occs]⟩, one _ _⟩
  · exact ⟨[⟨20, 20, none, false⟩], ⟨by simp, fun o => by simp [Literal.occs]⟩, one _ _⟩

/-! ## C70 -/

/-- The columns that are shown of a row. -/
def shownOf (e : Expr Lit) (row : List Nat) : Option (List Nat) :=
  match parse false 99 e with
  | .ok d => some (shown d row)
  | .error _ => none

def freqOf (e : Expr Lit) (defs : List Var) (row : List Nat) : Option (List (Option Nat)) :=
  match parse false 99 e with
  | .ok d => some (freqMatches d defs row)
  | .error _ => none

/-- `10 . 20` and `10? !. 20`. -/
def pair (optional negated : Bool) (p : Nat) : Expr Lit :=
  .term (.bin (.lit 10 p none optional) (.dist 1 .unbound) (.lit 20 (p + 5) none false) negated)

/-- C70 on a sample: the third node of the query is the first one of the second alternative. -/
theorem C70_nonvacuous : (match parse false 99 (.or (pair false false 0) (pair false true 20)) with
    | .ok d => (List.range 5).map (varByNr d)
    | .error _ => []) = [some (.num 1), some (.num 2), some (.num 3), some (.num 4), none] ∧
    shownOf (pair true true 0) [0, 7] = some [7] ∧ shownOf (.or (pair false false 0) (pair false true 20)) [5, 7] = some [5, 7] ∧
    freqOf (pair false false 0) [.num 2] [5, 7] = some [some 7] := by decide

/-- C70 fails for alternatives with optional nodes: the columns of all rows are chosen by the nodes of the first alternative. In
`(10? !. 20) | (10 . 20)` the first column of the second alternative is missing, and in `(10 . 20) | (10? !. 20)` the first column of the
second alternative, which has no match (here 0), is shown. -/
theorem C70_alternatives_fails : shownOf (.or (pair true true 0) (pair false false 20)) [5, 7] = some [7] ∧
    shownOf (.or (pair false false 0) (pair true true 20)) [0, 7] = some [0, 7] := by decide

/-- C70 fails for frequencies of queries with alternatives: `#1` takes the first column of rows of the second alternative, `#3`, its first node,
takes no column at all, and an unknown variable is ignored. -/
theorem C70_frequency_fails : freqOf (.or (pair false false 0) (pair false true 20)) [.num 1] [5, 7] = some [some 5] ∧
    freqOf (.or (pair false false 0) (pair false true 20)) [.num 3] [5, 7] = some [none] ∧
    freqOf (.or (pair false false 0) (pair false true 20)) [.name x, .num 1] [5, 7] = some [some 5] := by decide

end Aql.Ex
