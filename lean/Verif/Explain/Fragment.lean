import Verif.Explain.Query
import Verif.Explain.Plan
import Verif.Parse.Values

/-!
# Fragments of queries without line breaks (C121)

The descriptions of the plan of a query are fragments of the query: the text of a search for nodes (nodesearch.rs 389) or an operator between numbers
of nodes (filter.rs 64-67, 108, indexjoin.rs 76, nestedloop.rs 58-61, 83-86).  If the query is written on one line, they have no line breaks.
-/

namespace Explain

open Parse Parse.Spec Spec

/-- The fragment of a join or a filter with two operands (filter.rs 64-67, indexjoin.rs 76, nestedloop.rs 58-61, 83-86). -/
def operFragment (left right : Nat) (o : Oper) : Str :=
  '#' :: (Nat.toDigits 10 left ++ (' ' :: (o.text ++ (' ' :: '#' :: Nat.toDigits 10 right))))

theorem written_chars {pos : Nat} {ts : List PTok} {s : Str} (h : Written pos ts s) : ∀ t ∈ ts, ∀ c ∈ t.tk.text, c ∈ s := by
  induction h with
  | nil => intro t ht; cases ht
  | cons _ _ _ _ ih =>
    intro t ht c hc
    rcases List.mem_cons.1 ht with rfl | ht
    · simp [hc]
    · simp [ih t ht c hc]

theorem yield_no_break {s : Str} {ts : List PTok} {l : List Tk} (hl : lex s = .ok ts) (hs : '\n' ∉ s) (h : l <:+: ts.map (·.tk)) :
    ∀ t ∈ l, '\n' ∉ t.text := by
  intro t ht hc
  obtain ⟨p, hp, rfl⟩ := List.mem_map.1 (h.subset ht)
  exact hs (written_chars (C91_written hl) p hp _ hc)

theorem part_no_break {a b c : Str} (h : '\n' ∉ a ++ (b ++ c)) : '\n' ∉ b := fun hb => h (by simp [hb])

theorem txt_no_break {t : Txt} (h : ∀ x ∈ t.yield, '\n' ∉ x.text) : ∀ v, t = .exact v ∨ t = .regex v → '\n' ∉ v := by
  rintro v (rfl | rfl) hv
  · exact h (.quoted v) (by simp [Txt.yield]) (by simp [Tk.text, hv])
  · exact h (.regex v) (by simp [Txt.yield]) (by simp [Tk.text, hv])

theorem qn_no_break {q : QN} (h : ∀ x ∈ q.yield, '\n' ∉ x.text) : (∀ n, q.ns = some n → '\n' ∉ n) ∧ '\n' ∉ q.name := by
  obtain ⟨ns, name⟩ := q
  cases ns with
  | none => exact ⟨by simp, h (.id name) (by simp [QN.yield])⟩
  | some n =>
    refine ⟨?_, h (.id name) (by simp [QN.yield])⟩
    intro m e
    cases e
    exact h (.id n) (by simp [QN.yield])

theorem showName_no_break {q : QN} (h : ∀ x ∈ q.yield, '\n' ∉ x.text) : '\n' ∉ showName q.ns q.name := by
  obtain ⟨h1, h2⟩ := qn_no_break h
  obtain ⟨ns, name⟩ := q
  cases ns with
  | none => exact h2
  | some n => exact append_no_break (h1 n rfl) (cons_no_break (by decide) h2)

theorem quoted_no_break {v : Str} (h : '\n' ∉ v) : '\n' ∉ showQuoted v := cons_no_break (by decide) (append_no_break h (by decide))

theorem regex_no_break {v : Str} (h : '\n' ∉ v) : '\n' ∉ showRegex v := cons_no_break (by decide) (append_no_break h (by decide))

/-- **C121**: the fragment of a search for nodes in a query on one line has no line break. -/
theorem C121_search_fragment {s : Str} {ts : List PTok} (hl : lex s = .ok ts) (hs : '\n' ∉ s) {n : NS} (hn : n.yield <:+: ts.map (·.tk)) :
    '\n' ∉ display n.act := by
  have h := yield_no_break hl hs hn
  have val : ∀ (p : Str) (t : Txt) (c : Cmp), '\n' ∉ p → (∀ x ∈ t.yield, '\n' ∉ x.text) →
      '\n' ∉ p ++ ((match c with | .eq => ['='] | .ne => ['!', '=']) ++ (match t with | .exact v => showQuoted v | .regex v => showRegex v)) := by
    intro p t c hp ht
    refine append_no_break hp (append_no_break (by cases c <;> decide) ?_)
    cases t with
    | exact v => exact quoted_no_break (txt_no_break ht v (Or.inl rfl))
    | regex v => exact regex_no_break (txt_no_break ht v (Or.inr rfl))
  cases n with
  | node => decide
  | tok => decide
  | tokCmp c t =>
    have := val ['t', 'o', 'k'] t c (by decide) (fun x hx => h x (by simp [NS.yield, hx]))
    cases c <;> cases t <;> simpa [NS.act, display] using this
  | txt t =>
    cases t with
    | exact v => exact quoted_no_break (txt_no_break (t := .exact v) h v (Or.inl rfl))
    | regex v => exact regex_no_break (txt_no_break (t := .regex v) h v (Or.inr rfl))
  | named q c t =>
    have := val _ t c (showName_no_break (q := q) fun x hx => h x (by simp [NS.yield, hx])) (fun x hx => h x (by simp [NS.yield, hx]))
    cases c <;> cases t <;> simpa [NS.act, valueSpec, display] using this
  | name q =>
    have := showName_no_break (q := q) h
    simpa [NS.act, display] using this

theorem range_no_break (d : RangeSpec) : '\n' ∉ rangeText d := fun h => absurd (rangeText_class d _ h) (by decide)

theorem ea_no_break {a : EA} (h : ∀ x ∈ a.yield, '\n' ∉ x.text) : '\n' ∉ annoText a.act := by
  have hq := qn_no_break (q := a.q) (fun x hx => h x (by simp [EA.yield, hx]))
  have hname : '\n' ∉ qnameText a.q.ns a.q.name := by
    cases hns : a.q.ns with
    | none => exact hq.2
    | some n => exact append_no_break (hq.1 n hns) (cons_no_break (by decide) hq.2)
  have ht : ∀ x ∈ a.t.yield, '\n' ∉ x.text := fun x hx => h x (by simp [EA.yield, hx])
  obtain ⟨q, c, t⟩ := a
  have e1 : ∀ v : Str, '\n' ∉ v → '\n' ∉ '"' :: (v ++ ['"']) := fun v hv => quoted_no_break hv
  have e2 : ∀ v : Str, '\n' ∉ v → '\n' ∉ '/' :: (v ++ ['/']) := fun v hv => regex_no_break hv
  cases t with
  | exact v =>
    have hv := txt_no_break ht v (Or.inl rfl)
    cases c
    · exact append_no_break hname (cons_no_break (by decide) (e1 v hv))
    · exact append_no_break hname (cons_no_break (by decide) (cons_no_break (by decide) (e1 v hv)))
  | regex v =>
    have hv := txt_no_break ht v (Or.inr rfl)
    cases c
    · exact append_no_break hname (cons_no_break (by decide) (e2 v hv))
    · exact append_no_break hname (cons_no_break (by decide) (cons_no_break (by decide) (e2 v hv)))

theorem arrow_no_break (i : Bool) : '\n' ∉ arrowText i := by cases i <;> decide

theorem tail_no_break {x : Tail} (h : ∀ t ∈ x.yield, '\n' ∉ t.text) (i : Bool) :
    '\n' ∉ arrowText i ++ (rangeText x.act.1 ++ annoFrag x.act.2) := by
  refine append_no_break (arrow_no_break i) (append_no_break (range_no_break _) ?_)
  cases x with
  | anno a => exact cons_no_break (by decide) (append_no_break (ea_no_break h) (by decide))
  | _ => exact List.not_mem_nil

theorem nameText_no_break {n : Str} (h : '\n' ∉ n) : '\n' ∉ nameText n := by
  unfold nameText
  split
  · exact List.not_mem_nil
  · exact append_no_break h (by decide)

theorem dist_no_break {n : Str} (h : '\n' ∉ n) (d : RangeSpec) : '\n' ∉ distText (segName n) d := by
  unfold segName
  split
  · exact range_no_break d
  · exact append_no_break h (cons_no_break (by decide) (range_no_break d))

theorem operOf_no_break {i : Bool} {op : BOp} {o : Oper} (h : ∀ t ∈ op.yield, '\n' ∉ t.text) (ho : operOf i op.act = some o) : '\n' ∉ o.text := by
  cases op with
  | dom n t =>
    cases ho
    have hn : '\n' ∉ n := fun hc => h (.dom n) (by simp [BOp.yield]) (by simp [Tk.text, hc])
    exact cons_no_break (by decide) (append_no_break (nameText_no_break hn) (tail_no_break (fun x hx => h x (by simp [BOp.yield, hx])) i))
  | point n t =>
    cases ho
    have hn : '\n' ∉ n := fun hc => h (.point n) (by simp [BOp.yield]) (by simp [Tk.text, hc])
    exact cons_no_break (by decide) (cons_no_break (by decide)
      (append_no_break (nameText_no_break hn) (tail_no_break (fun x hx => h x (by simp [BOp.yield, hx])) i)))
  | prec n r =>
    cases ho
    have hn : '\n' ∉ n := fun hc => h (.prec n) (by simp [BOp.yield]) (by simp [Tk.text, hc])
    exact cons_no_break (by decide) (append_no_break (arrow_no_break i) (dist_no_break hn _))
  | near n r =>
    cases ho
    have hn : '\n' ∉ n := fun hc => h (.near n) (by simp [BOp.yield]) (by simp [Tk.text, hc])
    exact cons_no_break (by decide) (dist_no_break hn _)
  | partOf r =>
    cases ho
    exact cons_no_break (by decide) (append_no_break (arrow_no_break i) (range_no_break _))
  | _ => cases ho; decide

/-- **C121**: the fragment of an operator in a query on one line has no line break. -/
theorem C121_operator_fragment {s : Str} {ts : List PTok} (hl : lex s = .ok ts) (hs : '\n' ∉ s) {op : BOp} (hop : op.yield <:+: ts.map (·.tk))
    {i neg : Bool} {o : Oper} (ho : linkOper i neg op = some o) (left right : Nat) : '\n' ∉ operFragment left right o := by
  have key : '\n' ∉ o.text := by
    unfold linkOper at ho
    cases hx : operOf i op.act with
    | none => rw [hx] at ho; cases ho
    | some x =>
      rw [hx] at ho
      have hx' := operOf_no_break (yield_no_break hl hs hop) hx
      cases neg <;> cases ho
      · exact hx'
      · exact cons_no_break (by decide) hx'
  exact cons_no_break (by decide) (append_no_break (digits_no_break _) (cons_no_break (by decide) (append_no_break key
    (cons_no_break (by decide) (cons_no_break (by decide) (digits_no_break _))))))

/-- **C121**: the line of a join or filter tells the numbers of its operands and the operator, whatever the operator is, if its name can be
written in a query. -/
theorem C121_operator {l l' r r' : Nat} {o o' : Oper} (h : Ok o) (h' : Ok o') (he : operFragment l r o = operFragment l' r' o') :
    l = l' ∧ r = r' ∧ o = o' := by
  simp only [operFragment, List.cons.injEq, true_and] at he
  obtain ⟨e1, _, e2⟩ := split_class (digits_class l) (digits_class l') (by decide) (by decide) he
  have e3 := congrArg List.reverse e2
  simp only [List.reverse_append, List.reverse_cons, List.append_assoc, List.cons_append, List.nil_append] at e3
  have cls : ∀ n : Nat, ∀ c ∈ (Nat.toDigits 10 n).reverse, c.isDigit = true := fun n c hc => digits_class n c (List.mem_reverse.1 hc)
  obtain ⟨e4, _, e5⟩ := split_class (cls r) (cls r') (by decide) (by decide) e3
  have e6 := (List.cons.inj e5).2
  exact ⟨digits_inj e1, digits_inj (List.reverse_injective e4), C120_operator h h' (List.reverse_injective e6)⟩

/-- A query on one line with a search, an operator and the fragments of both. -/
theorem C121_fragment_nonvacuous :
    ∃ ts, lex "tok=\"a\" >e[f=\"b\"] node".toList = .ok ts ∧ (NS.tokCmp .eq (.exact ['a'])).yield <:+: ts.map (·.tk) ∧
      (BOp.dom ['e'] (.anno ⟨⟨none, ['f']⟩, .eq, .exact ['b']⟩)).yield <:+: ts.map (·.tk) ∧
      display (NS.tokCmp .eq (.exact ['a'])).act = "tok=\"a\"".toList ∧
      (linkOper false false (BOp.dom ['e'] (.anno ⟨⟨none, ['f']⟩, .eq, .exact ['b']⟩))).map (operFragment 1 2) = some "#1 >e [f=\"b\"] #2".toList := by
  refine ⟨[⟨0, .kw .tok, 3⟩, ⟨3, .kw .eq, 4⟩, ⟨4, .quoted ['a'], 7⟩, ⟨8, .dom ['e'], 10⟩, ⟨10, .kw .lbr, 11⟩, ⟨11, .id ['f'], 12⟩, ⟨12, .kw .eq, 13⟩,
    ⟨13, .quoted ['b'], 16⟩, ⟨16, .kw .rbr, 17⟩, ⟨18, .kw .node, 22⟩], by decide +kernel, ⟨[], [.dom ['e'], .kw .lbr, .id ['f'], .kw .eq,
    .quoted ['b'], .kw .rbr, .kw .node], by decide +kernel⟩, ⟨[.kw .tok, .kw .eq, .quoted ['a']], [.kw .node], by decide +kernel⟩,
    by decide +kernel, by decide +kernel⟩

end Explain
