import Verif.Whole.Tree
import Verif.Whole.Examples

/-!
# The order of the operators in a query with a cycle, and a query without cycle
-/

open AnnoStore TextOp

namespace Whole.Ex

abbrev span : Node NodeID64 Nat Nat := ⟨.exact (some 4) 6 none false, none⟩

/-- Two spans. -/
def spans : List (Option (Node NodeID64 Nat Nat)) := [some span, some span]

/-- `#1 _ident_ #2` and `#1 _=_ #2`. -/
abbrev ident : Bin NodeID64 Nat Nat := ⟨.identicalNode, 0, 1⟩
abbrev same : Bin NodeID64 Nat Nat := ⟨.identicalCoverage, 0, 1⟩

theorem spans_unambiguous : ∀ nd, some nd ∈ spans → Unambiguous nd.spec := by
  intro nd h
  simp only [spans, List.mem_cons, List.not_mem_nil, or_false, Option.some.injEq, or_self] at h
  rw [h]; trivial

theorem cycle_ok : QueryOk NodeSearch.Ex.env (spec changes) rels demoTh demoE GStore.anyRange (fun _ _ => True) (fun _ => GStore.anyRange)
    spans [ident, same] where
  nonempty := ⟨0, _, rfl⟩
  unambiguous := spans_unambiguous
  operands := by
    intro b hb
    simp only [List.mem_cons, List.not_mem_nil, or_false] at hb
    rcases hb with rfl | rfl <;> exact ⟨⟨_, rfl⟩, _, rfl⟩
  connected := by decide
  fits := by
    intro b hb
    simp only [List.mem_cons, List.not_mem_nil, or_false] at hb
    rcases hb with rfl | rfl <;> trivial

theorem one_ok : QueryOk NodeSearch.Ex.env (spec changes) rels demoTh demoE GStore.anyRange (fun _ _ => True) (fun _ => GStore.anyRange)
    spans [same] where
  nonempty := ⟨0, _, rfl⟩
  unambiguous := spans_unambiguous
  operands := by
    intro b hb
    rw [List.mem_singleton.1 hb]
    exact ⟨⟨_, rfl⟩, _, rfl⟩
  connected := by decide
  fits := by
    intro b hb
    rw [List.mem_singleton.1 hb]
    trivial

theorem joined_nil {x y : Nat} (h : Joined ([] : List (Bin NodeID64 Nat Nat)) x y) : x = y := by
  unfold Joined at h
  induction h with
  | rel _ _ h => simp at h
  | refl => rfl
  | symm _ _ _ ih => exact ih.symm
  | trans _ _ _ _ _ ih ih' => exact ih.trans ih'

theorem one_tree : Tree [same] := by
  intro before b after h hj
  cases before with
  | nil =>
    simp only [List.nil_append, List.cons.injEq] at h
    obtain ⟨rfl, rfl⟩ := h
    exact absurd (joined_nil hj) (by decide)
  | cons x l => simp at h

/-- The span 10 twice. -/
def twice : Row NodeID64 (AnnoKey Nat) := [⟨10, AnnoKey.mk 4 6⟩, ⟨10, AnnoKey.mk 4 6⟩]

theorem n10 : ¬ rels.tok 10 := fun h => absurd ((demo_tok 10).1 h) (by decide)

theorem twice_answer (d : SMatch NodeID64 (AnnoKey Nat)) {bins : List (Bin NodeID64 Nat Nat)} (h : ∀ b ∈ bins, b = ident ∨ b = same) :
    IsAnswer NodeSearch.Ex.env (spec changes) rels d spans bins twice := by
  refine ⟨?_, ?_, ?_, ?_⟩
  · intro i
    constructor
    · intro hi
      simp only [twice, List.length_cons, List.length_nil] at hi
      exact ⟨1, _, by omega, rfl⟩
    · rintro ⟨n, nd, hi, hn⟩
      have := (List.getElem?_eq_some_iff.1 hn).1
      simp only [spans, twice, List.length_cons, List.length_nil] at this ⊢
      omega
  · intro n nd hn
    have hlt := (List.getElem?_eq_some_iff.1 hn).1
    simp only [spans, List.length_cons, List.length_nil] at hlt
    have : n = 0 ∨ n = 1 := by omega
    rcases this with rfl | rfl <;>
    · simp only [spans, List.getElem?_cons_succ, List.getElem?_cons_zero, Option.some.injEq] at hn
      subst hn
      exact ⟨_, rfl, ⟨AnnoKey.mk 4 6, ⟨rfl, fun _ h => by simpa using h, 8, by decide, by simp⟩, rfl⟩, by simp⟩
  · intro n x hn hx
    have hlt := (List.getElem?_eq_some_iff.1 hn).1
    simp only [spans, List.length_cons, List.length_nil] at hlt
    have : n = 0 ∨ n = 1 := by omega
    rcases this with rfl | rfl <;> simp [spans] at hn
  · intro b hb
    rcases h b hb with rfl | rfl
    · exact ⟨_, _, rfl, rfl, rfl⟩
    · exact ⟨_, _, rfl, rfl, ⟨1, Or.inr ⟨n10, by simp [rels]⟩, Or.inr ⟨n10, by simp [rels]⟩⟩,
        2, Or.inr ⟨n10, by simp [rels]⟩, Or.inr ⟨n10, by simp [rels]⟩⟩

/-- The assumptions of C98 hold for `#1 _ident_ #2 & #1 _=_ #2` and there are plans for both orders. All plans for the order of the query find
the span 10 for both nodes, no plan for the other order does: `_=_` only excludes the same node if it joins. -/
theorem C98_order_fails (d : SMatch NodeID64 (AnnoKey Nat)) : ∃ S : List (Option (List (SMatch NodeID64 (AnnoKey Nat)) × Option Desc)),
    searches NodeSearch.Ex.env graph spans = .ok S ∧
    (∃ e, MakePlan S ([ident, same].map (Bin.toQ demoTh demoOrder false)) e) ∧
    (∃ e, MakePlan S ([same, ident].map (Bin.toQ demoTh demoOrder false)) e) ∧
    (∀ e, MakePlan S ([ident, same].map (Bin.toQ demoTh demoOrder false)) e → some twice ∈ e.rows.map (reorderMatch d (inversePos e.pos))) ∧
    ∀ e, MakePlan S ([same, ident].map (Bin.toQ demoTh demoOrder false)) e → some twice ∉ e.rows.map (reorderMatch d (inversePos e.pos)) := by
  obtain ⟨S, hS⟩ : ∃ S : List (Option (List (SMatch NodeID64 (AnnoKey Nat)) × Option Desc)), searches NodeSearch.Ex.env graph spans = .ok S := by
    refine (C98_searches).2 fun nd hnd => ?_
    simp only [spans, List.mem_cons, List.not_mem_nil, or_false, Option.some.injEq, or_self] at hnd
    subst hnd
    exact ⟨fun p hp => by simp [NodeSearch.patternOf] at hp, fun h => by simp at h⟩
  have hp : [same, ident].Perm [ident, same] := List.Perm.swap _ _ _
  refine ⟨S, hS, (C98_conjunction corpus_ok cycle_ok hS d false (List.Perm.refl _)).1, (C98_conjunction corpus_ok cycle_ok hS d false hp).1,
    fun e he => ?_, fun e he hm => ?_⟩
  · obtain ⟨rows, h1, _, h3⟩ := C98_exact corpus_ok cycle_ok hS d (List.Perm.refl _) e he
    rw [h1]
    refine List.mem_map_of_mem ((h3 _).2 ⟨twice_answer d (by simp), ?_⟩)
    intro before b after hb hr hl
    match before, hb with
    | [], hb =>
      simp only [List.nil_append, List.cons.injEq] at hb
      obtain ⟨rfl, _⟩ := hb
      exact absurd hr (by decide)
    | [x], hb =>
      simp only [List.cons_append, List.nil_append, List.cons.injEq] at hb
      obtain ⟨rfl, rfl, _⟩ := hb
      exact absurd (Relation.EqvGen.rel _ _ ⟨ident, List.mem_singleton_self _, rfl, rfl⟩) hl
    | x :: y :: l, hb => simp at hb
  · obtain ⟨rows, h1, _, h3⟩ := C98_exact corpus_ok cycle_ok hS d hp e he
    rw [h1, List.mem_map] at hm
    obtain ⟨row, hrow, hr⟩ := hm
    obtain rfl : row = twice := Option.some.inj hr
    refine ((h3 _).1 hrow).2 [] same [ident] rfl rfl (fun hj => absurd (joined_nil hj) (by decide)) ?_
    simp [twice]

/-- The assumptions of `C98_tree` hold for `#1 _=_ #2`; the span 10 for both nodes is a combination that the query describes, but the operator
excludes it. -/
theorem C98_tree_nonvacuous (d : SMatch NodeID64 (AnnoKey Nat)) :
    CorpusOk changes NodeSearch.Ex.env graph rels demoTh demoOrder demoE (fun _ => True) GStore.anyRange ∧
    QueryOk NodeSearch.Ex.env (spec changes) rels demoTh demoE GStore.anyRange (fun _ _ => True) (fun _ => GStore.anyRange) spans [same] ∧
    Tree [same] ∧ IsAnswer NodeSearch.Ex.env (spec changes) rels d spans [same] twice ∧ ¬ DifferAlways [same] twice :=
  ⟨corpus_ok, one_ok, one_tree, twice_answer d (by simp), fun h => h same (List.mem_singleton_self _) rfl rfl⟩

end Whole.Ex
