import Verif.Explain.Model

/-!
# The text of an operator tells which one it is (C120)
-/

namespace Explain

open Parse

namespace Spec

/-- A name as it can be written in a query. -/
def Ident (s : Str) : Prop := ∃ c r, s = c :: r ∧ idStart c = true ∧ r.all idCont = true

/-- The names of an annotation can be written in a query; its value is arbitrary. -/
def AnnoOk : EdgeSpec → Prop
  | .exact ns name _ | .notExact ns name _ | .regex ns name _ | .notRegex ns name _ => (∀ n, ns = some n → Ident n) ∧ Ident name

/-- The names of an operator can be written in a query. -/
def Ok : Oper → Prop
  | .dominance name _ _ anno | .pointing name _ _ anno => (name = [] ∨ Ident name) ∧ ∀ e, anno = some e → AnnoOk e
  | .precedence _ seg _ | .near seg _ => ∀ s, seg = some s → Ident s
  | .partOf _ _ | .simple _ => True
  | .negated o => Ok o

end Spec

open Spec

theorem split_class' {α : Type} {p : α → Bool} {u u' v v' : List α} (hu : ∀ c ∈ u, p c = true) (hu' : ∀ c ∈ u', p c = true)
    (hv : ∀ c, v.head? = some c → p c = false) (hv' : ∀ c, v'.head? = some c → p c = false) (h : u ++ v = u' ++ v') : u = u' ∧ v = v' := by
  induction u generalizing u' with
  | nil =>
    cases u' with
    | nil => exact ⟨rfl, h⟩
    | cons a r =>
      rw [List.nil_append, List.cons_append] at h
      have := hv a (by rw [h]; rfl)
      rw [hu' a (by simp)] at this
      cases this
  | cons a r ih =>
    cases u' with
    | nil =>
      rw [List.nil_append, List.cons_append] at h
      have := hv' a (by rw [← h]; rfl)
      rw [hu a (by simp)] at this
      cases this
    | cons a' r' =>
      simp only [List.cons_append, List.cons.injEq] at h
      obtain ⟨e1, e2⟩ := ih (fun c hc => hu c (by simp [hc])) (fun c hc => hu' c (by simp [hc])) h.2
      exact ⟨by rw [h.1, e1], e2⟩

/-- Characters of names. -/
theorem ident_cont {s : Str} (h : Ident s) : ∀ c ∈ s, idStart c = true ∨ idCont c = true := by
  obtain ⟨c, r, rfl, h1, h2⟩ := h
  intro x hx
  rcases List.mem_cons.1 hx with rfl | hx
  · exact Or.inl h1
  · exact Or.inr (List.all_eq_true.1 h2 x hx)

theorem ident_ne {s : Str} (h : Ident s) (d : Char) (h1 : idStart d = false) (h2 : idCont d = false) : d ∉ s := by
  intro hd
  rcases ident_cont h d hd with h | h
  · rw [h1] at h; cases h
  · rw [h2] at h; cases h

theorem ident_ne_nil {s : Str} (h : Ident s) : s ≠ [] := by
  obtain ⟨c, r, rfl, _⟩ := h
  simp

/-! ### Ranges -/

/-- The characters of ranges. -/
def isRange (c : Char) : Bool := c.isDigit || c == ',' || c == '*'

theorem rangeText_class (d : RangeSpec) : ∀ c ∈ rangeText d, isRange c = true := by
  intro c hc
  cases d with
  | unbound =>
    simp only [rangeText, List.mem_singleton] at hc
    subst hc
    decide
  | bound a b =>
    simp only [rangeText] at hc
    split at hc
    · cases hc
    · simp only [List.mem_append, List.mem_cons] at hc
      rcases hc with hc | rfl | hc
      · simp [isRange, digits_class a c hc]
      · decide
      · simp [isRange, digits_class b c hc]

theorem rangeText_inj {d d' : RangeSpec} (h : rangeText d = rangeText d') : d = d' := by
  have star : ∀ a b : Nat, Nat.toDigits 10 a ++ ',' :: Nat.toDigits 10 b ≠ ['*'] := by
    intro a b h
    have : ',' ∈ ['*'] := by rw [← h]; simp
    revert this
    decide
  have ne : ∀ a b : Nat, Nat.toDigits 10 a ++ ',' :: Nat.toDigits 10 b ≠ [] := by simp
  cases d with
  | unbound =>
    cases d' with
    | unbound => rfl
    | bound a b =>
      simp only [rangeText] at h
      split at h
      · cases h
      · exact absurd h.symm (star a b)
  | bound a b =>
    cases d' with
    | unbound =>
      simp only [rangeText] at h
      split at h
      · cases h
      · exact absurd h (star a b)
    | bound a' b' =>
      simp only [rangeText] at h
      split at h <;> split at h
      · rename_i h1 h2; rw [h1.1, h1.2, h2.1, h2.2]
      · exact absurd h.symm (ne _ _)
      · exact absurd h (ne _ _)
      · obtain ⟨e1, _, e2⟩ := split_class (digits_class a) (digits_class a') (by decide) (by decide) h
        rw [digits_inj e1, digits_inj e2]

/-! ### Annotations -/

theorem qname_class {ns : Option Str} {name : Str} (h : (∀ n, ns = some n → Ident n) ∧ Ident name) :
    ∀ c ∈ qnameText ns name, (decide (c ≠ '=') && decide (c ≠ '!')) = true := by
  have key : ∀ s, Ident s → ∀ c ∈ s, (decide (c ≠ '=') && decide (c ≠ '!')) = true := by
    intro s hs c hc
    have h1 : c ≠ '=' := fun e => ident_ne hs '=' (by decide) (by decide) (e ▸ hc)
    have h2 : c ≠ '!' := fun e => ident_ne hs '!' (by decide) (by decide) (e ▸ hc)
    simp [h1, h2]
  intro c hc
  cases ns with
  | none => exact key _ h.2 c hc
  | some n =>
    simp only [qnameText, List.mem_append, List.mem_cons] at hc
    rcases hc with hc | rfl | hc
    · exact key _ (h.1 n rfl) c hc
    · decide
    · exact key _ h.2 c hc

theorem qname_inj {ns ns' : Option Str} {name name' : Str} (h : (∀ n, ns = some n → Ident n) ∧ Ident name)
    (h' : (∀ n, ns' = some n → Ident n) ∧ Ident name') (he : qnameText ns name = qnameText ns' name') : ns = ns' ∧ name = name' := by
  have no : ∀ s, Ident s → ':' ∉ s := fun s hs => ident_ne hs ':' (by decide) (by decide)
  have cls : ∀ s, Ident s → ∀ c ∈ s, decide (c ≠ ':') = true := fun s hs c hc => by
    have : c ≠ ':' := fun e => no s hs (e ▸ hc)
    simp [this]
  cases ns with
  | none =>
    cases ns' with
    | none => exact ⟨rfl, he⟩
    | some n' =>
      simp only [qnameText] at he
      exact absurd (by rw [he]; simp) (no _ h.2)
  | some n =>
    cases ns' with
    | none =>
      simp only [qnameText] at he
      exact absurd (by rw [← he]; simp) (no _ h'.2)
    | some n' =>
      simp only [qnameText] at he
      obtain ⟨e1, _, e2⟩ := split_class (cls _ (h.1 n rfl)) (cls _ (h'.1 n' rfl)) (by simp) (by simp) he
      exact ⟨by rw [e1], e2⟩

/-- The parts of an annotation: the names, and the text after them. -/
def annoParts : EdgeSpec → (Option Str × Str) × Str
  | .exact ns name (some val) => ((ns, name), '=' :: '"' :: (val ++ ['"']))
  | .exact ns name none => ((ns, name), [])
  | .notExact ns name val => ((ns, name), '!' :: '=' :: '"' :: (val ++ ['"']))
  | .regex ns name val => ((ns, name), '=' :: '/' :: (val ++ ['/']))
  | .notRegex ns name val => ((ns, name), '!' :: '=' :: '/' :: (val ++ ['/']))

theorem annoText_parts (e : EdgeSpec) : annoText e = qnameText (annoParts e).1.1 (annoParts e).1.2 ++ (annoParts e).2 := by
  cases e with
  | exact ns name val => cases val <;> simp [annoText, annoParts]
  | _ => simp [annoText, annoParts]

theorem annoParts_inj {e e' : EdgeSpec} (h : annoParts e = annoParts e') : e = e' := by
  cases e with
  | exact ns name val =>
    cases val <;> cases e' with
    | exact ns' name' val' => cases val' <;> simp_all [annoParts]
    | _ => simp_all [annoParts]
  | _ =>
    cases e' with
    | exact ns' name' val' => cases val' <;> simp_all [annoParts]
    | _ => simp_all [annoParts]

theorem annoParts_ok {e : EdgeSpec} (h : AnnoOk e) : (∀ n, (annoParts e).1.1 = some n → Ident n) ∧ Ident (annoParts e).1.2 := by
  cases e with
  | exact ns name val => cases val <;> exact h
  | _ => exact h

theorem annoParts_head (e : EdgeSpec) : ∀ c, (annoParts e).2.head? = some c → (decide (c ≠ '=') && decide (c ≠ '!')) = false := by
  intro c hc
  cases e with
  | exact ns name val =>
    cases val with
    | none => cases hc
    | some v => cases hc; decide
  | _ => cases hc; decide

theorem annoText_inj {e e' : EdgeSpec} (h : AnnoOk e) (h' : AnnoOk e') (he : annoText e = annoText e') : e = e' := by
  rw [annoText_parts, annoText_parts] at he
  obtain ⟨e1, e2⟩ := split_class' (qname_class (annoParts_ok h)) (qname_class (annoParts_ok h')) (annoParts_head e) (annoParts_head e') he
  obtain ⟨e3, e4⟩ := qname_inj (annoParts_ok h) (annoParts_ok h') e1
  exact annoParts_inj (Prod.ext (Prod.ext e3 e4) e2)

theorem annoFrag_inj {a a' : Option EdgeSpec} (h : ∀ e, a = some e → AnnoOk e) (h' : ∀ e, a' = some e → AnnoOk e) (he : annoFrag a = annoFrag a') :
    a = a' := by
  cases a with
  | none =>
    cases a' with
    | none => rfl
    | some e' => simp [annoFrag] at he
  | some e =>
    cases a' with
    | none => simp [annoFrag] at he
    | some e' =>
      simp only [annoFrag, List.cons.injEq, true_and] at he
      rw [annoText_inj (h e rfl) (h' e' rfl) (List.append_cancel_right he)]

theorem annoFrag_head (a : Option EdgeSpec) : ∀ c, (annoFrag a).head? = some c → c = '[' := by
  intro c hc
  cases a with
  | none => cases hc
  | some e => cases hc; rfl

/-! ### The parts of operators -/

/-- The first character after the name. -/
theorem tail_head (dist : RangeSpec) (anno : Option EdgeSpec) : ∀ c, (rangeText dist ++ annoFrag anno).head? = some c → isRange c = true ∨ c = '[' := by
  intro c hc
  cases hr : rangeText dist with
  | nil => rw [hr] at hc; exact Or.inr (annoFrag_head anno c hc)
  | cons x r =>
    rw [hr] at hc
    cases hc
    exact Or.inl (rangeText_class dist _ (by rw [hr]; simp))

theorem tail_inj {d d' : RangeSpec} {a a' : Option EdgeSpec} (h : ∀ e, a = some e → AnnoOk e) (h' : ∀ e, a' = some e → AnnoOk e)
    (he : rangeText d ++ annoFrag a = rangeText d' ++ annoFrag a') : d = d' ∧ a = a' := by
  obtain ⟨e1, e2⟩ := split_class' (rangeText_class d) (rangeText_class d') (fun c hc => by rw [annoFrag_head a c hc]; decide)
    (fun c hc => by rw [annoFrag_head a' c hc]; decide) he
  exact ⟨rangeText_inj e1, annoFrag_inj h h' e2⟩

/-- An arrow is told apart from what follows. -/
theorem arrow_inj {i i' : Bool} {u u' : Str} (hu : ∀ c, u.head? = some c → c ≠ arrow) (hu' : ∀ c, u'.head? = some c → c ≠ arrow)
    (h : arrowText i ++ u = arrowText i' ++ u') : i = i' ∧ u = u' := by
  cases i <;> cases i' <;> simp only [arrowText, Bool.false_eq_true, if_false, if_true, List.nil_append, List.cons_append, List.cons.injEq, true_and] at h
  · exact ⟨rfl, h⟩
  · exact absurd rfl (hu arrow (by rw [h]; rfl))
  · exact absurd rfl (hu' arrow (by rw [← h]; rfl))
  · exact ⟨rfl, h⟩

theorem range_not_arrow {c : Char} (h : isRange c = true ∨ c = '[') : c ≠ arrow := by
  rintro rfl
  revert h
  decide

/-- The characters after a name, and no start of a name. -/
def isTail (c : Char) : Prop := isRange c = true ∨ c = '[' ∨ c = arrow

theorem ident_not_tail {c : Char} (h : idStart c = true) : ¬ isTail c := by
  rintro (h' | rfl | rfl)
  · simp only [isRange, Bool.or_eq_true, beq_iff_eq] at h'
    simp only [idStart, Bool.or_eq_true, beq_iff_eq] at h
    rcases h' with (h' | rfl) | rfl
    · have hd : c.isAlpha = false := by
        simp only [Char.isDigit, Bool.and_eq_true, decide_eq_true_eq] at h'
        have h2 := h'.2
        have hup : c.isUpper = false := by
          cases hx : c.isUpper with
          | false => rfl
          | true =>
            simp only [Char.isUpper, Bool.and_eq_true, decide_eq_true_eq] at hx
            exact absurd (UInt32.le_trans hx.1 h2) (by decide)
        have hlo : c.isLower = false := by
          cases hx : c.isLower with
          | false => rfl
          | true =>
            simp only [Char.isLower, Bool.and_eq_true, decide_eq_true_eq] at hx
            exact absurd (UInt32.le_trans hx.1 h2) (by decide)
        rw [Char.isAlpha, hup, hlo]
        rfl
      rcases h with (h | rfl) | rfl
      · rw [hd] at h; cases h
      · revert h'; decide
      · revert h'; decide
    · revert h; decide
    · revert h; decide
  · revert h; decide
  · revert h; decide

theorem blank_class {s : Str} (h : Ident s) : ∀ c ∈ s, decide (c ≠ ' ') = true := fun c hc => by
  have : c ≠ ' ' := fun e => ident_ne h ' ' (by decide) (by decide) (e ▸ hc)
  simp [this]

/-- A name with a blank, if there is one, before another text. -/
def withName : Option Str → Str → Str
  | some n, u => n ++ ' ' :: u
  | none, u => u

/-- A name is told apart from what follows. -/
theorem name_inj {s s' : Option Str} {u u' : Str} (hs : ∀ n, s = some n → Ident n) (hs' : ∀ n, s' = some n → Ident n)
    (hu : ∀ c, u.head? = some c → isTail c) (hu' : ∀ c, u'.head? = some c → isTail c)
    (h : withName s u = withName s' u') : s = s' ∧ u = u' := by
  have mixed : ∀ (n : Str) (u u' : Str), Ident n → (∀ c, u'.head? = some c → isTail c) → n ++ ' ' :: u ≠ u' := by
    rintro n u u' ⟨c, r, rfl, h1, _⟩ hu h
    exact ident_not_tail h1 (hu c (by rw [← h]; rfl))
  cases s with
  | none =>
    cases s' with
    | none => exact ⟨rfl, h⟩
    | some n' => exact absurd h.symm (mixed n' u' u (hs' n' rfl) hu)
  | some n =>
    cases s' with
    | none => exact absurd h (mixed n u u' (hs n rfl) hu')
    | some n' =>
      obtain ⟨e1, _, e2⟩ := split_class (blank_class (hs n rfl)) (blank_class (hs' n' rfl)) (by simp) (by simp) h
      exact ⟨by rw [e1], e2⟩

theorem nameText_eq (name u : Str) : nameText name ++ u = withName (if name = [] then none else some name) u := by
  unfold nameText
  split <;> simp [withName]

theorem edge_inj {n n' : Str} {i i' : Bool} {d d' : RangeSpec} {a a' : Option EdgeSpec} (hn : n = [] ∨ Ident n) (hn' : n' = [] ∨ Ident n')
    (h : ∀ e, a = some e → AnnoOk e) (h' : ∀ e, a' = some e → AnnoOk e)
    (he : nameText n ++ (arrowText i ++ (rangeText d ++ annoFrag a)) = nameText n' ++ (arrowText i' ++ (rangeText d' ++ annoFrag a'))) :
    n = n' ∧ i = i' ∧ d = d' ∧ a = a' := by
  have hd : ∀ (i : Bool) (d : RangeSpec) (a : Option EdgeSpec) c, (arrowText i ++ (rangeText d ++ annoFrag a)).head? = some c → isTail c := by
    intro i d a c hc
    cases i with
    | false =>
      rcases tail_head d a c hc with h | h
      · exact Or.inl h
      · exact Or.inr (Or.inl h)
    | true => cases hc; exact Or.inr (Or.inr rfl)
  have opt : ∀ n : Str, n = [] ∨ Ident n → ∀ m, (if n = [] then none else some n) = some m → Ident m := by
    intro n hn m hm
    split at hm
    · cases hm
    · rename_i hne
      cases hm
      exact hn.resolve_left hne
  rw [nameText_eq, nameText_eq] at he
  obtain ⟨e1, e2⟩ := name_inj (opt n hn) (opt n' hn') (hd i d a) (hd i' d' a') he
  obtain ⟨e3, e4⟩ := arrow_inj (fun c hc => range_not_arrow (tail_head d a c hc)) (fun c hc => range_not_arrow (tail_head d' a' c hc)) e2
  obtain ⟨e5, e6⟩ := tail_inj h h' e4
  refine ⟨?_, e3, e5, e6⟩
  split at e1 <;> split at e1
  · rename_i h1 h2; rw [h1, h2]
  · cases e1
  · cases e1
  · exact Option.some.inj e1

theorem range_head (d : RangeSpec) : ∀ c, (rangeText d).head? = some c → isRange c = true := by
  intro c hc
  cases hr : rangeText d with
  | nil => rw [hr] at hc; cases hc
  | cons x r =>
    rw [hr] at hc
    cases hc
    exact rangeText_class d _ (by rw [hr]; simp)

theorem distText_eq (s : Option Str) (d : RangeSpec) : distText s d = withName s (rangeText d) := by
  cases s <;> rfl

theorem dist_inj {s s' : Option Str} {d d' : RangeSpec} (hs : ∀ n, s = some n → Ident n) (hs' : ∀ n, s' = some n → Ident n)
    (h : distText s d = distText s' d') : s = s' ∧ d = d' := by
  rw [distText_eq, distText_eq] at h
  obtain ⟨e1, e2⟩ := name_inj hs hs' (fun c hc => Or.inl (range_head d c hc)) (fun c hc => Or.inl (range_head d' c hc)) h
  exact ⟨e1, rangeText_inj e2⟩

theorem dist_not_arrow {s : Option Str} {d : RangeSpec} (hs : ∀ n, s = some n → Ident n) : ∀ c, (distText s d).head? = some c → c ≠ arrow := by
  intro c hc
  cases s with
  | none => exact range_not_arrow (Or.inl (range_head d c hc))
  | some n =>
    obtain ⟨x, r, rfl, h1, _⟩ := hs _ rfl
    cases hc
    rintro rfl
    exact ident_not_tail h1 (Or.inr (Or.inr rfl))

theorem simple_inj {o o' : Simple} (h : o.text = o'.text) : o = o' := by
  revert h
  cases o <;> cases o' <;> first | (intro _; rfl) | skip
  all_goals
    first
    | (rename_i b b'; cases b <;> cases b' <;> decide)
    | (rename_i b; cases b <;> decide)
    | decide

/-- The first characters of the simple operators. -/
theorem simple_head (o : Simple) : ∃ r, o.text = '_' :: r ∨ o.text = '=' :: r ∨ o.text = '!' :: r := by
  cases o with
  | overlap b => cases b <;> exact ⟨_, Or.inl rfl⟩
  | equalValue b =>
    cases b
    · exact ⟨_, Or.inr (Or.inl rfl)⟩
    · exact ⟨_, Or.inr (Or.inr rfl)⟩
  | _ => exact ⟨_, Or.inl rfl⟩

/-- No operator has only an equals sign as its text. -/
theorem text_ne_eq (o : Oper) : o.text ≠ ['='] := by
  cases o with
  | simple s =>
    cases s with
    | overlap b => cases b <;> decide
    | equalValue b => cases b <;> decide
    | _ => decide
  | _ => simp [Oper.text]

theorem simple_bang {s : Simple} {o : Oper} : s.text ≠ (Oper.negated o).text := by
  intro h
  simp only [Oper.text] at h
  cases s with
  | equalValue b =>
    cases b with
    | false => exact absurd (List.cons.inj h).1 (by decide)
    | true => exact text_ne_eq o (List.cons.inj h).2.symm
  | overlap b => cases b <;> exact absurd (List.cons.inj h).1 (by decide)
  | _ => exact absurd (List.cons.inj h).1 (by decide)

/-- **C120**: operators with names that can be written in a query have the same text only if they are the same. -/
theorem C120_operator {o o' : Oper} : Ok o → Ok o' → o.text = o'.text → o = o' := by
  have first : ∀ (s : Simple) (x : Char) (r : Str), s.text = x :: r → x = '_' ∨ x = '=' ∨ x = '!' := by
    intro s x r h
    obtain ⟨r', h' | h' | h'⟩ := simple_head s <;> rw [h'] at h <;> cases h <;> simp
  induction o generalizing o' with
  | dominance n i d a =>
    intro ho ho' h
    cases o' with
    | dominance n' i' d' a' =>
      simp only [Oper.text, List.cons.injEq, true_and] at h
      obtain ⟨rfl, rfl, rfl, rfl⟩ := edge_inj ho.1 ho'.1 ho.2 ho'.2 h
      rfl
    | simple s => have := first s _ _ h.symm; simp at this
    | _ => simp [Oper.text] at h
  | pointing n i d a =>
    intro ho ho' h
    cases o' with
    | pointing n' i' d' a' =>
      simp only [Oper.text, List.cons.injEq, true_and] at h
      obtain ⟨rfl, rfl, rfl, rfl⟩ := edge_inj ho.1 ho'.1 ho.2 ho'.2 h
      rfl
    | simple s => have := first s _ _ h.symm; simp at this
    | _ => simp [Oper.text] at h
  | partOf i d =>
    intro ho ho' h
    cases o' with
    | partOf i' d' =>
      simp only [Oper.text, List.cons.injEq, true_and] at h
      obtain ⟨rfl, e⟩ := arrow_inj (fun c hc => range_not_arrow (Or.inl (range_head d c hc))) (fun c hc => range_not_arrow (Or.inl (range_head d' c hc))) h
      rw [rangeText_inj e]
    | simple s => have := first s _ _ h.symm; simp at this
    | _ => simp [Oper.text] at h
  | precedence i s d =>
    intro ho ho' h
    cases o' with
    | precedence i' s' d' =>
      simp only [Oper.text, List.cons.injEq, true_and] at h
      obtain ⟨rfl, e⟩ := arrow_inj (dist_not_arrow ho) (dist_not_arrow ho') h
      obtain ⟨rfl, rfl⟩ := dist_inj ho ho' e
      rfl
    | simple s => have := first s _ _ h.symm; simp at this
    | _ => simp [Oper.text] at h
  | near s d =>
    intro ho ho' h
    cases o' with
    | near s' d' =>
      simp only [Oper.text, List.cons.injEq, true_and] at h
      obtain ⟨rfl, rfl⟩ := dist_inj ho ho' h
      rfl
    | simple s => have := first s _ _ h.symm; simp at this
    | _ => simp [Oper.text] at h
  | simple s =>
    intro ho ho' h
    cases o' with
    | simple s' => rw [simple_inj h]
    | negated o' => exact absurd h simple_bang
    | _ => have := first s _ _ h; simp at this
  | negated o ih =>
    intro ho ho' h
    cases o' with
    | negated o' =>
      simp only [Oper.text, List.cons.injEq, true_and] at h
      rw [ih (o' := o') ho ho' h]
    | simple s => exact absurd h.symm simple_bang
    | _ => simp [Oper.text] at h

/-- **C120**: the same for the specifications of annotations on edges, whose values are arbitrary. -/
theorem C120_annotation {e e' : EdgeSpec} (h : AnnoOk e) (h' : AnnoOk e') (he : annoText e = annoText e') : e = e' := annoText_inj h h' he

end Explain
