import Verif.Explain.Plan

/-!
# The text of a plan tells the whole plan (C121)
-/

namespace Explain

open Spec

namespace Spec

/-- The texts for the kinds of steps have no opening parenthesis and bracket: they are the empty text, `part-of-component-search`
(nodesearch.rs 1067), `filter` (filter.rs 63, 107) and names of joins as `indexjoin` (indexjoin.rs 75) and `nestedloop L-R` (nestedloop.rs 57). -/
def StepText (s : Str) : Prop := '(' ∉ s ∧ '[' ∉ s

/-- All texts for steps are of this form, and there are no line breaks in fragments. -/
def Fine : Desc → Prop
  | .base _ impl fragment _ => StepText impl ∧ '\n' ∉ impl ∧ '\n' ∉ fragment
  | .filter impl fragment _ lhs => StepText impl ∧ '\n' ∉ impl ∧ '\n' ∉ fragment ∧ Fine lhs
  | .join impl fragment _ lhs rhs => StepText impl ∧ '\n' ∉ impl ∧ '\n' ∉ fragment ∧ Fine lhs ∧ Fine rhs

/-- Descriptions that differ at most in searches without a number, which are shown as the first node. -/
def Same : Desc → Desc → Prop
  | .base nr i f c, .base nr' i' f' c' => nr.getD 0 = nr'.getD 0 ∧ i = i' ∧ f = f' ∧ c = c'
  | .filter i f c l, .filter i' f' c' l' => i = i' ∧ f = f' ∧ c = c' ∧ Same l l'
  | .join i f c l r, .join i' f' c' l' r' => i = i' ∧ f = f' ∧ c = c' ∧ Same l l' ∧ Same r r'
  | _, _ => False

end Spec

theorem split_first {u u' v v' : Str} {x : Char} (hu : x ∉ u) (hu' : x ∉ u') (h : u ++ x :: v = u' ++ x :: v') : u = u' ∧ v = v' := by
  have cls : ∀ l : Str, x ∉ l → ∀ c ∈ l, decide (c ≠ x) = true := fun l hl c hc => by
    have : c ≠ x := fun e => hl (e ▸ hc)
    simp [this]
  obtain ⟨e1, _, e2⟩ := split_class (cls u hu) (cls u' hu') (by simp) (by simp) h
  exact ⟨e1, e2⟩

theorem split_last {u u' v v' : Str} {x : Char} (hv : x ∉ v) (hv' : x ∉ v') (h : u ++ x :: v = u' ++ x :: v') : u = u' ∧ v = v' := by
  have e := congrArg List.reverse h
  simp only [List.reverse_append, List.reverse_cons, List.append_assoc, List.cons_append, List.nil_append] at e
  obtain ⟨e1, e2⟩ := split_first (by simpa using hv) (by simpa using hv') e
  exact ⟨List.reverse_injective e2, List.reverse_injective e1⟩

theorem not_append {x : Char} {u v : Str} (h1 : x ∉ u) (h2 : x ∉ v) : x ∉ u ++ v := by
  rw [List.mem_append, not_or]
  exact ⟨h1, h2⟩

theorem cost_brackets (c : Option Cost) : '[' ∉ costText c ∧ ']' ∉ costText c := by
  have dig : ∀ n : Nat, '[' ∉ Nat.toDigits 10 n ∧ ']' ∉ Nat.toDigits 10 n :=
    fun n => ⟨fun h => absurd (digits_class n _ h) (by decide), fun h => absurd (digits_class n _ h) (by decide)⟩
  cases c with
  | none =>
    unfold costText
    exact ⟨by decide +kernel, by decide +kernel⟩
  | some c =>
    unfold costText
    exact ⟨not_append (by decide +kernel) (not_append (dig c.output).1 (not_append (by decide +kernel) (not_append (dig c.sum).1
        (not_append (by decide +kernel) (dig c.step).1)))),
      not_append (by decide +kernel) (not_append (dig c.output).2 (not_append (by decide +kernel) (not_append (dig c.sum).2
        (not_append (by decide +kernel) (dig c.step).2))))⟩

theorem cost_inj {c c' : Option Cost} (h : costText c = costText c') : c = c' := by
  have e1 : ∀ u : Str, "out: ".toList ++ u = 'o' :: 'u' :: 't' :: ':' :: ' ' :: u := fun _ => rfl
  have e2 : ∀ u : Str, ", sum: ".toList ++ u = ',' :: ' ' :: 's' :: 'u' :: 'm' :: ':' :: ' ' :: u := fun _ => rfl
  have e3 : ∀ u : Str, ", instep: ".toList ++ u = ',' :: ' ' :: 'i' :: 'n' :: 's' :: 't' :: 'e' :: 'p' :: ':' :: ' ' :: u := fun _ => rfl
  have hn : (costText none).head? = some 'n' := by decide +kernel
  have hs : ∀ c, (costText (some c)).head? = some 'o' := fun c => by
    unfold costText
    simp only [e1, List.head?_cons]
  have dig : ∀ n : Nat, ',' ∉ Nat.toDigits 10 n := fun n h => absurd (digits_class n _ h) (by decide)
  cases c with
  | none =>
    cases c' with
    | none => rfl
    | some c' =>
      have := congrArg List.head? h
      rw [hn, hs] at this
      exact absurd (Option.some.inj this) (by decide)
  | some c =>
    cases c' with
    | none =>
      have := congrArg List.head? h
      rw [hn, hs] at this
      exact absurd (Option.some.inj this) (by decide)
    | some c' =>
      unfold costText at h
      simp only [e1, e2, e3, List.cons.injEq, true_and] at h
      obtain ⟨h1, h⟩ := split_first (dig _) (dig _) h
      simp only [List.cons.injEq, true_and] at h
      obtain ⟨h2, h⟩ := split_first (dig _) (dig _) h
      simp only [List.cons.injEq, true_and] at h
      obtain ⟨o, s, t⟩ := c
      obtain ⟨o', s', t'⟩ := c'
      have := digits_inj h1
      have := digits_inj h2
      have := digits_inj h
      simp_all

theorem open_eq (u : Str) : " (".toList ++ u = ' ' :: '(' :: u := rfl
theorem close_eq (u : Str) : ") [".toList ++ u = ')' :: ' ' :: '[' :: u := rfl
theorem end_eq (u : Str) : "] ".toList ++ u = ']' :: ' ' :: u := rfl
theorem end_eq' : "]".toList = [']'] := rfl

/-- The end of a fragment is the last opening bracket. -/
theorem fragment_split {f f' v v' : Str} (hv : '[' ∉ v) (hv' : '[' ∉ v') (h : f ++ ')' :: ' ' :: '[' :: v = f' ++ ')' :: ' ' :: '[' :: v') :
    f = f' ∧ v = v' := by
  have e : ∀ f v : Str, f ++ ')' :: ' ' :: '[' :: v = (f ++ [')', ' ']) ++ '[' :: v := by intro f v; simp
  rw [e, e] at h
  obtain ⟨e1, e2⟩ := split_last hv hv' h
  exact ⟨List.append_cancel_right e1, e2⟩

theorem innerLine_inj {i i' f f' : Str} {c c' : Option Cost} (h : '(' ∉ i) (h' : '(' ∉ i') (he : innerLine i f c = innerLine i' f' c') :
    i = i' ∧ f = f' ∧ c = c' := by
  unfold innerLine at he
  simp only [open_eq, close_eq, end_eq', List.cons.injEq, true_and] at he
  have e : ∀ i v : Str, i ++ ' ' :: '(' :: v = (i ++ [' ']) ++ '(' :: v := by intro i v; simp
  rw [e, e] at he
  obtain ⟨e1, e2⟩ := split_first (not_append h (by decide)) (not_append h' (by decide)) he
  obtain ⟨e3, e4⟩ := fragment_split (not_append (cost_brackets c).1 (by decide)) (not_append (cost_brackets c').1 (by decide)) e2
  exact ⟨List.append_cancel_right e1, e3, cost_inj (List.append_cancel_right e4)⟩

theorem baseLine_inj {nr nr' : Option Nat} {i i' f f' : Str} {c c' : Option Cost} (h : '[' ∉ i) (h' : '[' ∉ i')
    (he : baseLine nr i f c = baseLine nr' i' f' c') : nr.getD 0 = nr'.getD 0 ∧ i = i' ∧ f = f' ∧ c = c' := by
  unfold baseLine at he
  simp only [open_eq, close_eq, end_eq, List.cons.injEq, true_and] at he
  have dig : ∀ n : Nat, ' ' ∉ Nat.toDigits 10 n := fun n h => absurd (digits_class n _ h) (by decide)
  obtain ⟨e1, e2⟩ := split_first (dig _) (dig _) he
  have hb : ∀ (c : Option Cost) (i : Str), '[' ∉ i → '[' ∉ costText c ++ ']' :: ' ' :: i := by
    intro c i hi
    refine not_append (cost_brackets c).1 ?_
    simp only [List.mem_cons, not_or]
    exact ⟨by decide, by decide, hi⟩
  obtain ⟨e3, e4⟩ := fragment_split (hb c i h) (hb c' i' h') (List.cons.inj e2).2
  obtain ⟨e5, e6⟩ := split_first (cost_brackets c).2 (cost_brackets c').2 e4
  have := digits_inj e1
  exact ⟨by omega, (List.cons.inj e6).2, e3, cost_inj e5⟩

theorem fine_noBreak {d : Desc} (h : Fine d) : NoBreak d := by
  induction d with
  | base => exact h.2
  | filter _ _ _ _ ih => exact ⟨h.2.1, h.2.2.1, ih h.2.2.2⟩
  | join _ _ _ _ _ ihl ihr => exact ⟨h.2.1, h.2.2.1, ihl h.2.2.2.1, ihr h.2.2.2.2⟩

theorem same_of_lines : ∀ {d d' : Desc}, Fine d → Fine d' → linesOf d = linesOf d' → Same d d' := by
  intro d
  induction d with
  | base nr i f c =>
    intro d' h h' he
    cases d' with
    | base nr' i' f' c' => exact baseLine_inj h.1.2 h'.1.2 (Lines.leaf.inj he)
    | _ => cases he
  | filter i f c l ih =>
    intro d' h h' he
    cases d' with
    | filter i' f' c' l' =>
      obtain ⟨e1, e2⟩ := Lines.one.inj he
      obtain ⟨e3, e4, e5⟩ := innerLine_inj h.1.1 h'.1.1 e1
      exact ⟨e3, e4, e5, ih h.2.2.2 h'.2.2.2 e2⟩
    | _ => cases he
  | join i f c l r ihl ihr =>
    intro d' h h' he
    cases d' with
    | join i' f' c' l' r' =>
      obtain ⟨e1, e2, e6⟩ := Lines.two.inj he
      obtain ⟨e3, e4, e5⟩ := innerLine_inj h.1.1 h'.1.1 e1
      exact ⟨e3, e4, e5, ihl h.2.2.2.1 h'.2.2.2.1 e2, ihr h.2.2.2.2 h'.2.2.2.2 e6⟩
    | _ => cases he

/-- **C121**: without line breaks the text of a plan tells the whole plan: its alternatives and, for each step, what is done, the fragment of the
query, the costs, and the number of the node, whatever parentheses and brackets the fragments have. -/
theorem C121_whole_partial {ds ds' : List Desc} (h : ∀ d ∈ ds, Fine d) (h' : ∀ d ∈ ds', Fine d) (he : planText ds = planText ds') :
    List.Forall₂ Same ds ds' := by
  have hl := C121_plan_partial (fun d hd => fine_noBreak (h d hd)) (fun d hd => fine_noBreak (h' d hd)) he
  clear he
  induction ds generalizing ds' with
  | nil =>
    cases ds' with
    | nil => exact .nil
    | cons => cases hl
  | cons d ds ih =>
    cases ds' with
    | nil => cases hl
    | cons d' ds' =>
      simp only [List.map_cons, List.cons.injEq] at hl
      exact .cons (same_of_lines (h d (by simp)) (h' d' (by simp)) hl.1) (ih (fun x hx => h x (by simp [hx])) (fun x hx => h' x (by simp [hx])) hl.2)

end Explain
