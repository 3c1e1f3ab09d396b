import Verif.Explain.Props
import Verif.Explain.Plan
import Verif.Explain.Whole

/-!
# Examples for C120 and C121
-/

namespace Explain

open Parse Spec

/-- A negated dominance with a name, a range and an annotation. -/
theorem C120_nonvacuous :
    (Oper.negated (.dominance "edge".toList true (.bound 2 5) (some (.exact none "func".toList (some "a\"]".toList))))).text =
      "!>edge ⃖2,5[func=\"a\"]\"]".toList ∧
    Ok (.negated (.dominance "edge".toList true (.bound 2 5) (some (.exact none "func".toList (some "a\"]".toList))))) := by
  refine ⟨by decide +kernel, Or.inr ⟨'e', "dge".toList, by decide +kernel, by decide +kernel, by decide +kernel⟩, ?_⟩
  intro e he
  cases he
  exact ⟨by simp, ⟨'f', "unc".toList, by decide +kernel, by decide +kernel, by decide +kernel⟩⟩

/-- The requirement on the names is needed: a name with a colon and a namespace with a name have the same text. -/
theorem C120_names_needed :
    annoText (.exact none "a:b".toList none) = annoText (.exact (some "a".toList) "b".toList none) ∧
    (EdgeSpec.exact none "a:b".toList none) ≠ .exact (some "a".toList) "b".toList none := ⟨by decide, by simp⟩

namespace Ex

def a : Desc := .base (some 0) "search".toList "tok".toList (some ⟨10, 0, 0⟩)
def b : Desc := .base (some 1) "search".toList "node".toList none
def plan : List Desc := [.filter "filter".toList "#1 @ #2".toList none (.join "join".toList "#1 . #2".toList none a b), b]

/-- A plan with a filter above a join and a second alternative. -/
theorem C121_nonvacuous : (∀ d ∈ plan, NoBreak d) ∧ planText plan =
    ("+|filter (#1 @ #2) [no cost estimated]\n    +|join (#1 . #2) [no cost estimated]\n        #1 (tok) [out: 10, sum: 0, instep: 0] search\n" ++
      "        #2 (node) [no cost estimated] search\n---[OR]---\n#2 (node) [no cost estimated] search\n").toList := by
  refine ⟨?_, by decide +kernel⟩
  intro d hd
  simp only [plan, List.mem_cons, List.not_mem_nil, or_false] at hd
  rcases hd with rfl | rfl
  · simp only [NoBreak, a, b]; decide
  · simp only [NoBreak, b]; decide

/-- The requirement is needed: the second search of a join can also be the end of a description with a line break. -/
theorem C121_plan_fails : ∃ ds ds' : List Desc, planText ds = planText ds' ∧ ds.map linesOf ≠ ds'.map linesOf :=
  ⟨[.filter "op".toList "f".toList none (.base none "i".toList "x) [no cost estimated] i\n    #2 (y".toList none)],
    [.join "op".toList "f".toList none (.base none "i".toList "x".toList none) (.base (some 1) "i".toList "y".toList none)],
    by decide +kernel, by decide +kernel⟩

/-- The same plan meets the requirements for the whole plan, and a fragment with brackets as well. -/
theorem C121_whole_nonvacuous : (∀ d ∈ plan, Fine d) ∧ Fine (.base (some 2) "".toList "tok=/(a|b) [x] /".toList none) := by
  refine ⟨?_, ?_⟩
  · intro d hd
    simp only [plan, List.mem_cons, List.not_mem_nil, or_false] at hd
    rcases hd with rfl | rfl
    · simp only [Fine, StepText, a, b]; decide
    · simp only [Fine, StepText, b]; decide
  · simp only [Fine, StepText]; decide

end Ex

end Explain
