import Verif.Explain.Model

/-!
# The text of an execution plan (C121)

`ExecutionNodeDesc::debug_string` (graphannis/src/annis/db/exec/mod.rs 146-184) and `Display` of `ExecutionPlan` (graphannis/src/annis/db/plan.rs
150-164), which is what `CorpusStorage::plan` returns.
-/

namespace Explain

/-- `CostEstimate` (exec/mod.rs 14-21). -/
structure Cost where
  output : Nat
  sum : Nat
  step : Nat
  deriving DecidableEq

/-- `ExecutionNodeDesc` (exec/mod.rs 23-144, filter.rs 60-75, 100-115): a search for nodes, with the least key of `node_pos` if there is one, a filter, which has only a left side, and a join.  There
are no descriptions with only a right side. -/
inductive Desc
  | base (nr : Option Nat) (impl fragment : Str) (cost : Option Cost)
  | filter (impl fragment : Str) (cost : Option Cost) (lhs : Desc)
  | join (impl fragment : Str) (cost : Option Cost) (lhs rhs : Desc)
  deriving DecidableEq

/-- `cost_str` (exec/mod.rs 149-156). -/
def costText : Option Cost → Str
  | some c => "out: ".toList ++ (Nat.toDigits 10 c.output ++ (", sum: ".toList ++ (Nat.toDigits 10 c.sum ++ (", instep: ".toList ++ Nat.toDigits 10 c.step))))
  | none => "no cost estimated".toList

/-- The line of a search for nodes (exec/mod.rs 160-168), without the end of the line. -/
def baseLine (nr : Option Nat) (impl fragment : Str) (cost : Option Cost) : Str :=
  '#' :: (Nat.toDigits 10 (nr.getD 0 + 1) ++ (" (".toList ++ (fragment ++ (") [".toList ++ (costText cost ++ ("] ".toList ++ impl))))))

/-- The line of a filter or join (exec/mod.rs 170-173), without the end of the line. -/
def innerLine (impl fragment : Str) (cost : Option Cost) : Str :=
  '+' :: '|' :: (impl ++ (" (".toList ++ (fragment ++ (") [".toList ++ (costText cost ++ "]".toList)))))

/-- `debug_string` (exec/mod.rs 146-184). -/
def Desc.text (indention : Str) : Desc → Str
  | .base nr impl fragment cost => indention ++ (baseLine nr impl fragment cost ++ ['\n'])
  | .filter impl fragment cost lhs => indention ++ (innerLine impl fragment cost ++ ('\n' :: lhs.text (indention ++ "    ".toList)))
  | .join impl fragment cost lhs rhs =>
    indention ++ (innerLine impl fragment cost ++ ('\n' :: (lhs.text (indention ++ "    ".toList) ++ rhs.text (indention ++ "    ".toList))))

/-- The line between alternatives (plan.rs 154). -/
def orLine : Str := "---[OR]---\n".toList

/-- The loop in `Display` of `ExecutionPlan` (plan.rs 152-161) for alternatives with a description after the first one. -/
def altsText : List Desc → Str
  | [] => []
  | d :: ds => orLine ++ (d.text [] ++ altsText ds)

/-- `Display` of `ExecutionPlan` (plan.rs 150-164), if all alternatives have descriptions.  The only plan with an alternative without one is the plan of
a query without results, which has no other alternatives (plan.rs 76-81). -/
def planText : List Desc → Str
  | [] => []
  | d :: ds => d.text [] ++ altsText ds

namespace Spec

/-- The tree of the lines of a description: what is done, on what, and the costs, as they are shown. -/
inductive Lines
  | leaf (line : Str)
  | one (line : Str) (t : Lines)
  | two (line : Str) (l r : Lines)
  deriving DecidableEq

def linesOf : Desc → Lines
  | .base nr impl fragment cost => .leaf (baseLine nr impl fragment cost)
  | .filter impl fragment cost lhs => .one (innerLine impl fragment cost) (linesOf lhs)
  | .join impl fragment cost lhs rhs => .two (innerLine impl fragment cost) (linesOf lhs) (linesOf rhs)

/-- No description has the end of a line in it. -/
def NoBreak : Desc → Prop
  | .base _ impl fragment _ => '\n' ∉ impl ∧ '\n' ∉ fragment
  | .filter impl fragment _ lhs => '\n' ∉ impl ∧ '\n' ∉ fragment ∧ NoBreak lhs
  | .join impl fragment _ lhs rhs => '\n' ∉ impl ∧ '\n' ∉ fragment ∧ NoBreak lhs ∧ NoBreak rhs

end Spec

open Spec

theorem digits_no_break (n : Nat) : '\n' ∉ Nat.toDigits 10 n := fun h => absurd (digits_class n _ h) (by decide)

theorem append_no_break {u v : Str} (h1 : '\n' ∉ u) (h2 : '\n' ∉ v) : '\n' ∉ u ++ v := by
  rw [List.mem_append, not_or]
  exact ⟨h1, h2⟩

theorem cons_no_break {c : Char} {v : Str} (h1 : c ≠ '\n') (h2 : '\n' ∉ v) : '\n' ∉ c :: v := by
  rw [List.mem_cons, not_or]
  exact ⟨fun e => h1 e.symm, h2⟩

theorem cost_no_break (c : Option Cost) : '\n' ∉ costText c := by
  cases c with
  | none =>
    unfold costText
    decide +kernel
  | some c =>
    unfold costText
    refine append_no_break (by decide +kernel) (append_no_break (digits_no_break c.output) (append_no_break (by decide +kernel)
      (append_no_break (digits_no_break c.sum) (append_no_break (by decide +kernel) (digits_no_break c.step)))))

theorem base_no_break {nr : Option Nat} {impl fragment : Str} {cost : Option Cost} (h1 : '\n' ∉ impl) (h2 : '\n' ∉ fragment) :
    '\n' ∉ baseLine nr impl fragment cost := by
  unfold baseLine
  exact cons_no_break (by decide) (append_no_break (digits_no_break (nr.getD 0 + 1)) (append_no_break (by decide +kernel) (append_no_break h2
    (append_no_break (by decide +kernel) (append_no_break (cost_no_break cost) (append_no_break (by decide +kernel) h1))))))

theorem inner_no_break {impl fragment : Str} {cost : Option Cost} (h1 : '\n' ∉ impl) (h2 : '\n' ∉ fragment) :
    '\n' ∉ innerLine impl fragment cost := by
  unfold innerLine
  exact cons_no_break (by decide) (cons_no_break (by decide) (append_no_break h1 (append_no_break (by decide +kernel) (append_no_break h2
    (append_no_break (by decide +kernel) (append_no_break (cost_no_break cost) (by decide +kernel)))))))

/-- The indention at a depth. -/
def blanks (n : Nat) : Str := List.replicate (4 * n) ' '

theorem blanks_succ (n : Nat) : blanks n ++ "    ".toList = blanks (n + 1) := by
  have : "    ".toList = List.replicate 4 ' ' := by decide
  rw [this, blanks, blanks, ← List.replicate_add]
  congr 1

/-- The first line of a text, if there is one, has an indention of at most this depth. -/
def Low (n : Nat) (u : Str) : Prop := u = [] ∨ ∃ k, k ≤ n ∧ ∃ c r, u = blanks k ++ c :: r ∧ c ≠ ' '

theorem Low.succ {n : Nat} {u : Str} (h : Low n u) : Low (n + 1) u := by
  rcases h with h | ⟨k, hk, h⟩
  · exact Or.inl h
  · exact Or.inr ⟨k, by omega, h⟩

/-- The first line of a description. -/
theorem text_head (n : Nat) (d : Desc) : ∃ c r, d.text (blanks n) = blanks n ++ c :: r ∧ c ≠ ' ' := by
  cases d with
  | base => exact ⟨'#', _, rfl, by decide⟩
  | _ => exact ⟨'+', _, rfl, by decide⟩

theorem blanks_split {k k' : Nat} {c c' : Char} {r r' : Str} (hc : c ≠ ' ') (hc' : c' ≠ ' ') (h : blanks k ++ c :: r = blanks k' ++ c' :: r') :
    k = k' ∧ c :: r = c' :: r' := by
  have cls : ∀ n, ∀ x ∈ blanks n, decide (x = ' ') = true := by
    intro n x hx
    simp [List.eq_of_mem_replicate hx]
  obtain ⟨e1, e2, e3⟩ := split_class (cls k) (cls k') (by simp [hc]) (by simp [hc']) h
  have := congrArg List.length e1
  simp only [blanks, List.length_replicate] at this
  exact ⟨by omega, by rw [e2, e3]⟩

theorem low_text {n : Nat} (d : Desc) (u : Str) : Low n (d.text (blanks n) ++ u) := by
  obtain ⟨c, r, e, hc⟩ := text_head n d
  refine Or.inr ⟨n, Nat.le_refl n, c, r ++ u, ?_, hc⟩
  rw [e]
  simp

/-- A deeper line does not come next. -/
theorem not_deeper {n : Nat} {u v : Str} {d : Desc} (h : Low n u) : u ≠ d.text (blanks (n + 1)) ++ v := by
  intro e
  obtain ⟨c, r, e', hc⟩ := text_head (n + 1) d
  rw [e', List.append_assoc, List.cons_append] at e
  rcases h with rfl | ⟨k, hk, c', r', rfl, hc'⟩
  · simp at e
  · have := (blanks_split hc' hc e).1
    omega

/-- The first lines of two texts. -/
theorem line_split {n : Nat} {l l' u u' : Str} (hl : '\n' ∉ l) (hl' : '\n' ∉ l') (h : blanks n ++ (l ++ '\n' :: u) = blanks n ++ (l' ++ '\n' :: u')) :
    l = l' ∧ u = u' := by
  have cls : ∀ l : Str, '\n' ∉ l → ∀ c ∈ l, decide (c ≠ '\n') = true := fun l hl c hc => by
    have : c ≠ '\n' := fun e => hl (e ▸ hc)
    simp [this]
  obtain ⟨e1, _, e2⟩ := split_class (cls l hl) (cls l' hl') (by simp) (by simp) (List.append_cancel_left h)
  exact ⟨e1, e2⟩

/-- The lines of a description are read back, together with the text after it. -/
theorem text_split : ∀ {d d' : Desc} {n : Nat} {u u' : Str}, NoBreak d → NoBreak d' → Low n u → Low n u' →
    d.text (blanks n) ++ u = d'.text (blanks n) ++ u' → linesOf d = linesOf d' ∧ u = u' := by
  have ne : ∀ {nr : Option Nat} {i f i' f' : Str} {c c' : Option Cost}, baseLine nr i f c ≠ innerLine i' f' c' := by
    intro nr i f i' f' c c' h
    exact absurd (List.cons.inj h).1 (by decide)
  intro d
  induction d with
  | base nr i f c =>
    intro d' n u u' h h' hu hu' he
    cases d' with
    | base nr' i' f' c' =>
      simp only [Desc.text, List.append_assoc, List.cons_append, List.nil_append] at he
      obtain ⟨e1, e2⟩ := line_split (base_no_break h.1 h.2) (base_no_break h'.1 h'.2) he
      exact ⟨by simp only [linesOf]; rw [e1], e2⟩
    | filter i' f' c' l' =>
      simp only [Desc.text, List.append_assoc, List.cons_append, List.nil_append] at he
      exact absurd (line_split (base_no_break h.1 h.2) (inner_no_break h'.1 h'.2.1) he).1 ne
    | join i' f' c' l' r' =>
      simp only [Desc.text, List.append_assoc, List.cons_append, List.nil_append] at he
      exact absurd (line_split (base_no_break h.1 h.2) (inner_no_break h'.1 h'.2.1) he).1 ne
  | filter i f c l ih =>
    intro d' n u u' h h' hu hu' he
    cases d' with
    | base nr' i' f' c' =>
      simp only [Desc.text, List.append_assoc, List.cons_append, List.nil_append] at he
      exact absurd (line_split (inner_no_break h.1 h.2.1) (base_no_break h'.1 h'.2) he).1.symm ne
    | filter i' f' c' l' =>
      simp only [Desc.text, List.append_assoc, List.cons_append, blanks_succ] at he
      obtain ⟨e1, e2⟩ := line_split (inner_no_break h.1 h.2.1) (inner_no_break h'.1 h'.2.1) he
      obtain ⟨e3, e4⟩ := ih h.2.2 h'.2.2 hu.succ hu'.succ e2
      exact ⟨by simp only [linesOf]; rw [e1, e3], e4⟩
    | join i' f' c' l' r' =>
      simp only [Desc.text, List.append_assoc, List.cons_append, blanks_succ] at he
      obtain ⟨e1, e2⟩ := line_split (inner_no_break h.1 h.2.1) (inner_no_break h'.1 h'.2.1) he
      obtain ⟨_, e4⟩ := ih h.2.2 h'.2.2.1 hu.succ (low_text r' u') e2
      exact absurd e4 (not_deeper hu)
  | join i f c l r ihl ihr =>
    intro d' n u u' h h' hu hu' he
    cases d' with
    | base nr' i' f' c' =>
      simp only [Desc.text, List.append_assoc, List.cons_append, List.nil_append] at he
      exact absurd (line_split (inner_no_break h.1 h.2.1) (base_no_break h'.1 h'.2) he).1.symm ne
    | filter i' f' c' l' =>
      simp only [Desc.text, List.append_assoc, List.cons_append, blanks_succ] at he
      obtain ⟨e1, e2⟩ := line_split (inner_no_break h.1 h.2.1) (inner_no_break h'.1 h'.2.1) he
      obtain ⟨_, e4⟩ := ihl h.2.2.1 h'.2.2 (low_text r u) hu'.succ e2
      exact absurd e4.symm (not_deeper hu')
    | join i' f' c' l' r' =>
      simp only [Desc.text, List.append_assoc, List.cons_append, blanks_succ] at he
      obtain ⟨e1, e2⟩ := line_split (inner_no_break h.1 h.2.1) (inner_no_break h'.1 h'.2.1) he
      obtain ⟨e3, e4⟩ := ihl h.2.2.1 h'.2.2.1 (low_text r u) (low_text r' u') e2
      obtain ⟨e5, e6⟩ := ihr h.2.2.2 h'.2.2.2 hu.succ hu'.succ e4
      exact ⟨by simp only [linesOf]; rw [e1, e3, e5], e6⟩

theorem low_alts (ds : List Desc) : Low 0 (altsText ds) := by
  cases ds with
  | nil => exact Or.inl rfl
  | cons d ds => exact Or.inr ⟨0, Nat.le_refl 0, '-', _, rfl, by decide⟩

theorem alts_inj {ds ds' : List Desc} (h : ∀ d ∈ ds, NoBreak d) (h' : ∀ d ∈ ds', NoBreak d) (he : altsText ds = altsText ds') :
    ds.map linesOf = ds'.map linesOf := by
  induction ds generalizing ds' with
  | nil =>
    cases ds' with
    | nil => rfl
    | cons d' ds' => cases he
  | cons d ds ih =>
    cases ds' with
    | nil => cases he
    | cons d' ds' =>
      simp only [altsText] at he
      obtain ⟨e1, e2⟩ := text_split (n := 0) (h d (by simp)) (h' d' (by simp)) (low_alts ds) (low_alts ds') (List.append_cancel_left he)
      rw [List.map_cons, List.map_cons, e1, ih (fun x hx => h x (by simp [hx])) (fun x hx => h' x (by simp [hx])) e2]

/-- **C121**: if no description has the end of a line in it, the text of a plan tells its alternatives, and for each of them the tree of its searches,
filters and joins with the line of each. -/
theorem C121_plan_partial {ds ds' : List Desc} (h : ∀ d ∈ ds, NoBreak d) (h' : ∀ d ∈ ds', NoBreak d) (he : planText ds = planText ds') :
    ds.map linesOf = ds'.map linesOf := by
  have ne : ∀ (d : Desc) (u : Str), d.text [] ++ u ≠ [] := by
    intro d u e
    obtain ⟨c, r, e', _⟩ := text_head 0 d
    have : d.text [] = c :: r := e'
    rw [this] at e
    cases e
  cases ds with
  | nil =>
    cases ds' with
    | nil => rfl
    | cons d' ds' => exact absurd he.symm (ne _ _)
  | cons d ds =>
    cases ds' with
    | nil => exact absurd he (ne _ _)
    | cons d' ds' =>
      simp only [planText] at he
      obtain ⟨e1, e2⟩ := text_split (n := 0) (h d (by simp)) (h' d' (by simp)) (low_alts ds) (low_alts ds') he
      rw [List.map_cons, List.map_cons, e1, alts_inj (fun x hx => h x (by simp [hx])) (fun x hx => h' x (by simp [hx])) e2]

/-- **C121**: the line of a search tells its number, and with it the node of the query: whatever the fragments are. -/
theorem C121_number {nr nr' : Nat} {impl impl' fragment fragment' : Str} {cost cost' : Option Cost}
    (h : baseLine (some nr) impl fragment cost = baseLine (some nr') impl' fragment' cost') : nr = nr' := by
  have e : ∀ u : Str, " (".toList ++ u = ' ' :: '(' :: u := fun _ => rfl
  simp only [baseLine, Option.getD_some, List.cons.injEq, true_and, e] at h
  obtain ⟨e1, _, _⟩ := split_class (digits_class (nr + 1)) (digits_class (nr' + 1)) (by decide) (by decide) h
  have := digits_inj e1
  omega

/-- **C121**: the line of a search tells also its fragment, if there is no closing parenthesis in it. -/
theorem C121_fragment_partial {nr nr' : Nat} {impl impl' fragment fragment' : Str} {cost cost' : Option Cost} (hf : ')' ∉ fragment) (hf' : ')' ∉ fragment')
    (h : baseLine (some nr) impl fragment cost = baseLine (some nr') impl' fragment' cost') : fragment = fragment' := by
  have e : ∀ u : Str, " (".toList ++ u = ' ' :: '(' :: u := fun _ => rfl
  have e' : ∀ u : Str, ") [".toList ++ u = ')' :: ' ' :: '[' :: u := fun _ => rfl
  simp only [baseLine, Option.getD_some, List.cons.injEq, true_and, e, e'] at h
  obtain ⟨_, _, e2⟩ := split_class (digits_class (nr + 1)) (digits_class (nr' + 1)) (by decide) (by decide) h
  have cls : ∀ l : Str, ')' ∉ l → ∀ c ∈ l, decide (c ≠ ')') = true := fun l hl c hc => by
    have : c ≠ ')' := fun e => hl (e ▸ hc)
    simp [this]
  exact (split_class (cls _ hf) (cls _ hf') (by simp) (by simp) (List.cons.inj e2).2).1

end Explain
