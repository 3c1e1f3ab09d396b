import Verif.Parse.Props

set_option linter.unusedSimpArgs false

/-!
# C94: values, names and numbers of queries

Which searches can be written, and which of them `Display` writes so that the text can be read again.
-/

namespace Parse

open Spec

/-! ### Display -/

/-- `qname` with a colon if there is a namespace. -/
def showName (ns : Option Str) (name : Str) : Str :=
  match ns with
  | some ns => ns ++ ':' :: name
  | none => name

/-- `"value"` -/
def showQuoted (v : Str) : Str := '"' :: (v ++ ['"'])

/-- `/value/` -/
def showRegex (v : Str) : Str := '/' :: (v ++ ['/'])

/-- `impl Display for NodeSearchSpec` (graphannis/src/annis/db/exec/nodesearch.rs 298-353), which gives the fragments of queries in
`QueryAttributeDescription` (aql/conjunction.rs 272). -/
def display : NsSpec Str Str → Str
  | .exact ns name (some v) _ => showName ns name ++ '=' :: showQuoted v
  | .exact ns name none _ => showName ns name
  | .notExact ns name v _ => showName ns name ++ '!' :: '=' :: showQuoted v
  | .regex ns name v _ => showName ns name ++ '=' :: showRegex v
  | .notRegex ns name v _ => showName ns name ++ '!' :: '=' :: showRegex v
  | .exactTok v true => 't' :: 'o' :: 'k' :: '=' :: showQuoted v
  | .exactTok v false => showQuoted v
  | .notExactTok v => 't' :: 'o' :: 'k' :: '!' :: '=' :: showQuoted v
  | .regexTok v true => 't' :: 'o' :: 'k' :: '=' :: showRegex v
  | .regexTok v false => showRegex v
  | .notRegexTok v => 't' :: 'o' :: 'k' :: '!' :: '=' :: showRegex v
  | .anyToken => ['t', 'o', 'k']
  | .anyNode => ['n', 'o', 'd', 'e']

/-! ### Specification -/

namespace Spec

/-- A name as it can be written: a letter, an underscore or a percent sign, then also digits and minus signs, and no keyword. -/
def NameOk (s : Str) : Prop := (∃ c r, s = c :: r ∧ idStart c = true ∧ r.all idCont = true) ∧ ∀ k ∈ words, s ≠ k.text

/-- A namespace as it can be written. -/
def NsOk (ns : Option Str) : Prop := ∀ n, ns = some n → NameOk n

/-- A value as it can be written between quotation marks: there is no way to write a quotation mark. -/
def ValueOk (v : Str) : Prop := '"' ∉ v

/-- A regular expression as it can be written between slashes: slashes have a backslash before them. -/
def RegexOk (v : Str) : Prop := regexBody false v = true

/-- The searches that can be written (`b`: after `meta::`). -/
def Writable (b : Bool) : NsSpec Str Str → Prop
  | .exact ns name v m => NsOk ns ∧ NameOk name ∧ (∀ w, v = some w → ValueOk w) ∧ (b = true → v ≠ none) ∧ m = b
  | .notExact ns name v m => NsOk ns ∧ NameOk name ∧ ValueOk v ∧ m = b
  | .regex ns name v m => NsOk ns ∧ NameOk name ∧ RegexOk v ∧ m = b
  | .notRegex ns name v m => NsOk ns ∧ NameOk name ∧ RegexOk v ∧ m = b
  | .exactTok v _ => ValueOk v ∧ b = false
  | .notExactTok v => ValueOk v ∧ b = false
  | .regexTok v _ => RegexOk v ∧ b = false
  | .notRegexTok v => RegexOk v ∧ b = false
  | .anyToken => b = false
  | .anyNode => b = false

/-- The searches for annotations of edges that can be written. -/
def EdgeOk : EdgeSpec → Prop
  | .exact ns name v => NsOk ns ∧ NameOk name ∧ ∃ w, v = some w ∧ ValueOk w
  | .notExact ns name v => NsOk ns ∧ NameOk name ∧ ValueOk v
  | .regex ns name v => NsOk ns ∧ NameOk name ∧ RegexOk v
  | .notRegex ns name v => NsOk ns ∧ NameOk name ∧ RegexOk v

/-- A name after an operator: any identifier (also a keyword). -/
def OpNameOk (s : Str) : Prop := ∃ c r, s = c :: r ∧ idStart c = true ∧ r.all idCont = true

/-- The operators that can be written: dominance may have an empty name, pointing has a name; with an annotation the distance is one. -/
def OpOk : Aql.BinSpec OpSpec → Prop
  | .join (.dominance n r a) => (n = [] ∨ OpNameOk n) ∧ ∀ x, a = some x → EdgeOk x ∧ r = .bound 1 1
  | .join (.pointing n r a) => OpNameOk n ∧ ∀ x, a = some x → EdgeOk x ∧ r = .bound 1 1
  | .join _ => False
  | .dist (.precedence n) _ => ∀ x, n = some x → OpNameOk x
  | .dist (.near n) _ => ∀ x, n = some x → OpNameOk x
  | .dist _ _ => False
  | .other (.dominance _ _ _) => False
  | .other (.pointing _ _ _) => False
  | .other (.precedence _) => False
  | .other (.near _) => False
  | .other _ => True

/-- The literals that can be written. -/
def LitOk (l : QLit) : Prop :=
  (∀ o ∈ l.occs, Writable false o.spec) ∧ (∀ p, l = .legacyMeta p → Writable true p) ∧ ∀ a op b n, l = .bin a op b n → OpOk op

/-- All tokens can be written. -/
def AllValid (ts : List Tk) : Prop := ∀ t ∈ ts, Valid t

end Spec

/-! ### What can be written -/

theorem allValid_append {a b : List Tk} : AllValid (a ++ b) ↔ AllValid a ∧ AllValid b := by
  simp only [AllValid, List.mem_append]
  exact ⟨fun h => ⟨fun t ht => h t (.inl ht), fun t ht => h t (.inr ht)⟩, fun h t ht => ht.elim (h.1 t) (h.2 t)⟩

theorem allValid_cons {t : Tk} {b : List Tk} : AllValid (t :: b) ↔ Valid t ∧ AllValid b := by
  simp only [AllValid, List.mem_cons]
  exact ⟨fun h => ⟨h t (.inl rfl), fun t ht => h t (.inr ht)⟩, fun h x hx => hx.elim (fun e => e ▸ h.1) (h.2 x)⟩

theorem ok_qn {q : QN} (h : AllValid q.yield) : NsOk q.ns ∧ NameOk q.name := by
  obtain ⟨ns, n⟩ := q
  cases ns with
  | none =>
    simp only [QN.yield, allValid_cons] at h
    exact ⟨by simp [NsOk], h.1⟩
  | some ns =>
    simp only [QN.yield, allValid_cons] at h
    exact ⟨fun m hm => by cases hm; exact h.1, h.2.2.1⟩

theorem ok_exact {v : Str} (h : AllValid (Txt.exact v).yield) : ValueOk v := by
  simp only [Txt.yield, allValid_cons] at h
  exact fun hm => h.1 _ hm rfl

theorem ok_regex {v : Str} (h : AllValid (Txt.regex v).yield) : RegexOk v := by
  simp only [Txt.yield, allValid_cons] at h
  exact h.1

theorem ok_valueSpec {q : QN} {c : Cmp} {t : Txt} (b : Bool) (hq : AllValid q.yield) (ht : AllValid t.yield) : Writable b (valueSpec q c b t) := by
  obtain ⟨h1, h2⟩ := ok_qn hq
  cases t with
  | exact v =>
    have := ok_exact ht
    cases c <;> simp [valueSpec, Writable, h1, h2, this]
  | regex v =>
    have := ok_regex ht
    cases c <;> simp [valueSpec, Writable, h1, h2, this]

theorem ok_ns {s : NS} (h : AllValid s.yield) : Writable false s.act := by
  cases s with
  | node => rfl
  | tok => rfl
  | tokCmp c t =>
    simp only [NS.yield, allValid_cons, allValid_append] at h
    cases t with
    | exact v => have := ok_exact h.2.2; cases c <;> exact ⟨this, rfl⟩
    | regex v => have := ok_regex h.2.2; cases c <;> exact ⟨this, rfl⟩
  | txt t =>
    cases t with
    | exact v => exact ⟨ok_exact h, rfl⟩
    | regex v => exact ⟨ok_regex h, rfl⟩
  | named q c t =>
    simp only [NS.yield, allValid_append] at h
    exact ok_valueSpec false h.1 h.2.2
  | name q =>
    obtain ⟨h1, h2⟩ := ok_qn h
    exact ⟨h1, h2, by simp, by simp, rfl⟩

theorem ok_search {s : Search} (h : AllValid s.yield) : Writable false s.spec.act := by
  simp only [Search.yield, allValid_append] at h
  exact ok_ns h.2.1

theorem ok_edge {a : EA} (h : AllValid a.yield) : EdgeOk a.act := by
  obtain ⟨q, c, t⟩ := a
  simp only [EA.yield, allValid_append, allValid_cons] at h
  obtain ⟨h1, h2⟩ := ok_qn h.2.1
  cases t with
  | exact v => have := ok_exact h.2.2.2.1; cases c <;> simp [EA.act, EdgeOk, h1, h2, this]
  | regex v => have := ok_regex h.2.2.2.1; cases c <;> simp [EA.act, EdgeOk, h1, h2, this]

theorem ok_tail {t : Tail} (h : AllValid t.yield) : ∀ x, t.act.2 = some x → EdgeOk x ∧ t.act.1 = .bound 1 1 := by
  cases t with
  | none => simp [Tail.act]
  | rng r => simp [Tail.act]
  | anno a =>
    intro x hx
    cases hx
    exact ⟨ok_edge h, rfl⟩

theorem ok_segName {s : Str} (h : s = [] ∨ OpNameOk s) : ∀ x, segName s = some x → OpNameOk x := by
  intro x hx
  unfold segName at hx
  split at hx
  · cases hx
  · rename_i hne
    cases hx
    rcases h with rfl | h
    · simp at hne
    · exact h

theorem ok_bop {b : BOp} (h : AllValid b.yield) : OpOk b.act := by
  cases b with
  | dom n t => simp only [BOp.yield, allValid_cons] at h; exact ⟨h.1, ok_tail h.2⟩
  | point n t => simp only [BOp.yield, allValid_cons] at h; exact ⟨h.1, ok_tail h.2⟩
  | prec n r => simp only [BOp.yield, allValid_cons] at h; exact ok_segName h.1
  | near n r => simp only [BOp.yield, allValid_cons] at h; exact ok_segName h.1
  | _ => exact trivial

theorem ok_opd {x : Opd} {ps : List PTok} {q : QOpd} (h : AllValid x.yield) (hq : x.act ps = some q) : ∀ o ∈ q.occs, Writable false o.spec := by
  cases x with
  | ref r =>
    simp only [Opd.act, Option.map_eq_some_iff] at hq
    obtain ⟨a, _, rfl⟩ := hq
    simp [Aql.Operand.occs]
  | search s =>
    cases hq
    simpa [Aql.Operand.occs] using ok_search h

theorem ok_link {x : Link} (h : AllValid x.yield) : AllValid x.op.yield ∧ AllValid x.rhs.yield := by
  simp only [Link.yield, allValid_append] at h
  exact h.2

theorem ok_bin {a b : QOpd} {op : Aql.BinSpec OpSpec} {n : Bool} (ha : ∀ o ∈ a.occs, Writable false o.spec) (hb : ∀ o ∈ b.occs, Writable false o.spec)
    (ho : OpOk op) : LitOk (.bin a op b n) := by
  refine ⟨?_, by simp, ?_⟩
  · intro o hm
    simp only [Aql.Literal.occs, List.mem_append] at hm
    exact hm.elim (ha o) (hb o)
  · rintro a' op' b' n' e
    cases e
    exact ho

/-- All literals of the tree can be written. -/
def TreeOk (e : Q) : Prop := ∀ l ∈ e.literals, LitOk l

theorem treeOk_term {l : QLit} : TreeOk (.term l) ↔ LitOk l := by simp [TreeOk, Aql.Expr.literals]

theorem treeOk_and {a b : Q} : TreeOk (.and a b) ↔ TreeOk a ∧ TreeOk b := by
  simp only [TreeOk, Aql.Expr.literals, List.mem_append]
  exact ⟨fun h => ⟨fun l hl => h l (.inl hl), fun l hl => h l (.inr hl)⟩, fun h l hl => hl.elim (h.1 l) (h.2 l)⟩

theorem treeOk_or {a b : Q} : TreeOk (.or a b) ↔ TreeOk a ∧ TreeOk b := treeOk_and (a := a) (b := b)

theorem ok_chain {last : QOpd} {ps : List PTok} {e e' : Q} {xs : List Link} (h : chainAct last ps e xs = some e')
    (hv : AllValid (xs.flatMap Link.yield)) (hl : ∀ o ∈ last.occs, Writable false o.spec) (he : TreeOk e) : TreeOk e' := by
  induction xs generalizing last ps e with
  | nil => cases h; exact he
  | cons x xs ih =>
    rw [chainAct] at h
    rw [List.flatMap_cons, allValid_append] at hv
    obtain ⟨h1, h2⟩ := ok_link hv.1
    split at h
    · cases h
    · rename_i o ho
      exact ih h hv.2 (ok_opd h2 ho) (treeOk_and.2 ⟨he, treeOk_term.2 (ok_bin hl (ok_opd h2 ho) (ok_bop h1))⟩)

theorem ok_comparison (a b : Aql.Ref) (c : Cmp) : LitOk (.bin (.ref a) (.other (.valueComparison c)) (.ref b) false) :=
  ok_bin (by simp [Aql.Operand.occs]) (by simp [Aql.Operand.occs]) trivial

theorem ok_filter {last : Aql.Ref} {e e' : Q} {xs : List (Cmp × Ref)} (h : filterAct last e xs = some e') (he : TreeOk e) : TreeOk e' := by
  induction xs generalizing last e with
  | nil => cases h; exact he
  | cons x xs ih =>
    rw [filterAct] at h
    split at h
    · cases h
    · exact ih h (treeOk_and.2 ⟨he, treeOk_term.2 (ok_comparison _ _ _)⟩)

theorem ok_lit {l : Lit} {ps : List PTok} {e : Q} (h : l.act ps = some e) (hv : AllValid l.yield) : TreeOk e := by
  cases l with
  | search s =>
    cases h
    rw [treeOk_term]
    refine ⟨?_, by simp, by simp⟩
    simpa [Aql.Literal.occs] using ok_search hv
  | chain l x xs =>
    simp only [Lit.act] at h
    simp only [Lit.yield, allValid_append] at hv
    obtain ⟨h1, h2⟩ := ok_link hv.2.1
    split at h
    · rename_i a b ha hb
      exact ok_chain h hv.2.2 (ok_opd h2 hb) (treeOk_term.2 (ok_bin (ok_opd hv.1 ha) (ok_opd h2 hb) (ok_bop h1)))
    · cases h
  | filter l x xs =>
    simp only [Lit.act] at h
    split at h
    · exact ok_filter h (treeOk_term.2 (ok_comparison _ _ _))
    · cases h
  | arity r g =>
    simp only [Lit.act, Option.map_eq_some_iff] at h
    obtain ⟨a, _, rfl⟩ := h
    rw [treeOk_term]
    exact ⟨by simp [Aql.Literal.occs], by simp, by simp⟩
  | metaQ q c t =>
    cases h
    simp only [Lit.yield, allValid_cons, allValid_append] at hv
    rw [treeOk_term]
    refine ⟨by simp [Aql.Literal.occs], ?_, by simp⟩
    rintro p e
    cases e
    exact ok_valueSpec true hv.2.1 hv.2.2.2

theorem treeOk_orWith {acc : Option Q} {e : Q} (ha : ∀ a, acc = some a → TreeOk a) (he : TreeOk e) : TreeOk (orWith acc e) := by
  cases acc with
  | none => exact he
  | some a => exact treeOk_or.2 ⟨ha a rfl, he⟩

theorem treeOk_andWith {acc : Option Q} {e : Q} (ha : ∀ a, acc = some a → TreeOk a) (he : TreeOk e) : TreeOk (andWith acc e) := by
  cases acc with
  | none => exact he
  | some a => exact treeOk_and.2 ⟨ha a rfl, he⟩

mutual
theorem ok_disj : ∀ (d : Disj) (ps : List PTok) (acc : Option Q) (e : Q), d.act ps acc = some e → AllValid d.yield →
    (∀ a, acc = some a → TreeOk a) → TreeOk e
  | .one c, ps, acc, e, h, hv, ha => by
    simp only [Disj.act, Option.map_eq_some_iff] at h
    obtain ⟨e', h', rfl⟩ := h
    exact treeOk_orWith ha (ok_conj c ps none e' h' (by simpa only [Disj.yield] using hv) (by simp))
  | .more c d, ps, acc, e, h, hv, ha => by
    simp only [Disj.act] at h
    simp only [Disj.yield, allValid_append, allValid_cons] at hv
    split at h
    · cases h
    · rename_i e' h'
      refine ok_disj d _ _ e h hv.2.2 fun a he => ?_
      cases he
      exact treeOk_orWith ha (ok_conj c ps none e' h' hv.1 (by simp))
theorem ok_conj : ∀ (d : Conj) (ps : List PTok) (acc : Option Q) (e : Q), d.act ps acc = some e → AllValid d.yield →
    (∀ a, acc = some a → TreeOk a) → TreeOk e
  | .one c, ps, acc, e, h, hv, ha => by
    simp only [Conj.act, Option.map_eq_some_iff] at h
    obtain ⟨e', h', rfl⟩ := h
    exact treeOk_andWith ha (ok_fac c ps e' h' (by simpa only [Conj.yield] using hv))
  | .more c d, ps, acc, e, h, hv, ha => by
    simp only [Conj.act] at h
    simp only [Conj.yield, allValid_append, allValid_cons] at hv
    split at h
    · cases h
    · rename_i e' h'
      refine ok_conj d _ _ e h hv.2.2 fun a he => ?_
      cases he
      exact treeOk_andWith ha (ok_fac c ps e' h' hv.1)
theorem ok_fac : ∀ (d : Fac) (ps : List PTok) (e : Q), d.act ps = some e → AllValid d.yield → TreeOk e
  | .lit l, ps, e, h, hv => by
    simp only [Fac.act] at h
    simp only [Fac.yield] at hv
    exact ok_lit h hv
  | .paren d, ps, e, h, hv => by
    simp only [Fac.act] at h
    simp only [Fac.yield, allValid_append, allValid_cons] at hv
    exact ok_disj d _ none e h hv.2.1 (by simp)
end

/-- All searches, metadata and operators of a query are among those in the specification: for instance no value has a quotation mark. -/
theorem C94_values {s : Str} {e : Q} (h : parseQuery s = .ok e) : ∀ l ∈ e.literals, LitOk l := by
  obtain ⟨ps, d, ht, he⟩ := ok_tree h
  refine ok_disj d ps none e he ?_ (by simp)
  intro t ht'
  rw [ht.2] at ht'
  obtain ⟨x, hx, rfl⟩ := List.mem_map.1 ht'
  exact C91_valid ((C91_lex s ps).2 ht.1) x hx

/-! ### Reading what `Display` writes -/

theorem kw_first {k : Kw} {a : Char} {w : Str} (h : k.text = a :: w) (ha : idStart a = true) :
    (a :: w).all idCont = true ∨ k = .identCov ∨ k = .metaK := by
  cases k <;> simp only [Kw.text, List.cons.injEq] at h <;> obtain ⟨rfl, rfl⟩ := h <;> first | (left; decide) | (right; left; rfl) | (right; right; rfl) | (exact absurd ha (by decide))

/-- A name is not continued by these characters. -/
theorem clear_name {t : Tk} {c : Char} {rest : Str} (ht : OpNameOk t.text) (h1 : idCont c = false) (h2 : c ≠ '#')
    (h3 : ∀ r, rest = '_' :: r → c ≠ '=') (h4 : ∀ r, rest = ':' :: r → c ≠ ':') : Clear t (c :: rest) := by
  intro k v hv hp hl
  obtain ⟨u, rfl, hu⟩ : ∃ u, v = c :: u ∧ u <+: rest := by
    cases v with
    | nil => exact absurd rfl hv
    | cons d u =>
      rw [List.cons_prefix_cons] at hp
      exact ⟨u, by rw [hp.1], hp.2⟩
  obtain ⟨a, w, e, ha, hw⟩ := ht
  rw [e, List.cons_append] at hl
  rw [lang_iff] at hl
  have hstart := idStart_iff.1 ha
  have hsub : c ∈ w ++ c :: u := by simp
  cases k with
  | kw k =>
    have hk : k.text = a :: (w ++ c :: u) := hl.symm
    rcases kw_first hk ha with h | rfl | rfl
    · rw [List.all_eq_true] at h
      have := h c (by simp)
      rw [h1] at this
      cases this
    · -- `_=_`
      simp only [Kw.text, List.cons.injEq] at hk
      obtain ⟨rfl, hk⟩ := hk
      cases w with
      | nil =>
        simp only [List.nil_append, List.cons.injEq] at hk
        obtain ⟨rfl, rfl⟩ := hk
        obtain ⟨r, hr⟩ := hu
        exact h3 r hr.symm rfl
      | cons b w =>
        simp only [List.cons_append, List.cons.injEq] at hk
        obtain ⟨rfl, _⟩ := hk
        simp [idCont] at hw
    · -- `meta::`
      simp only [Kw.text, List.cons.injEq] at hk
      obtain ⟨rfl, hk⟩ := hk
      rw [List.all_eq_true] at hw
      have hlen : w.length + u.length = 4 := by
        have := congrArg List.length hk
        simp at this
        omega
      have hn : ∀ i : Nat, w[i]? ≠ some ':' := by
        intro i hi
        have := hw ':' (List.mem_of_getElem? hi)
        revert this; decide
      match w, hk, hlen, hn with
      | [], hk, _, _ =>
        simp only [List.nil_append, List.cons.injEq] at hk
        rw [← hk.1] at h1
        revert h1; decide
      | [_], hk, _, _ =>
        simp only [List.cons_append, List.nil_append, List.cons.injEq] at hk
        rw [← hk.2.1] at h1
        revert h1; decide
      | [_, _], hk, _, _ =>
        simp only [List.cons_append, List.nil_append, List.cons.injEq] at hk
        rw [← hk.2.2.1] at h1
        revert h1; decide
      | [_, _, _], hk, _, _ =>
        simp only [List.cons_append, List.nil_append, List.cons.injEq] at hk
        obtain ⟨_, _, _, rfl, rfl⟩ := hk
        obtain ⟨r, hr⟩ := hu
        exact h4 r hr.symm rfl
      | _ :: _ :: _ :: b :: _, hk, _, hn =>
        simp only [List.cons_append, List.cons.injEq] at hk
        exact hn 3 (by simp [hk.2.2.2.1.symm])
  | id =>
    obtain ⟨b, r, e, _, hr⟩ := hl
    simp only [List.cons.injEq] at e
    obtain ⟨_, rfl⟩ := e
    rw [List.all_eq_true] at hr
    have := hr c hsub
    rw [h1] at this
    cases this
  | varDef =>
    obtain ⟨b, r, e, _, hr⟩ := hl
    simp only [List.cons.injEq] at e
    obtain ⟨_, e⟩ := e
    rw [e] at hsub
    rcases List.mem_append.1 hsub with hm | hm
    · rw [List.all_eq_true] at hr
      have := hr c hm
      have h5 : idCont c = true := by simp [idCont, this]
      rw [h1] at h5
      cases h5
    · exact h2 (by simpa using hm)
  | nodeRef => generalize w ++ c :: u = x at hl; obtain ⟨_, _, e, _⟩ := hl; cases e; revert ha; decide
  | varRef => generalize w ++ c :: u = x at hl; obtain ⟨_, _, e, _⟩ := hl; cases e; revert ha; decide
  | digits =>
    generalize w ++ c :: u = x at hl
    obtain ⟨b, r, e, hb, _⟩ := hl
    cases e
    have := isDigit_iff.1 hb
    omega
  | dom => generalize w ++ c :: u = x at hl; rcases hl with e | ⟨_, _, e, _⟩ <;> cases e <;> revert ha <;> decide
  | point => generalize w ++ c :: u = x at hl; obtain ⟨_, _, e, _⟩ := hl; cases e; revert ha; decide
  | prec => generalize w ++ c :: u = x at hl; rcases hl with e | ⟨_, _, e, _⟩ <;> cases e <;> revert ha <;> decide
  | near => generalize w ++ c :: u = x at hl; rcases hl with e | ⟨_, _, e, _⟩ <;> cases e <;> revert ha <;> decide
  | quoted => generalize w ++ c :: u = x at hl; obtain ⟨_, e, _⟩ := hl; cases e; revert ha; decide
  | regex => generalize w ++ c :: u = x at hl; obtain ⟨_, e, _⟩ := hl; cases e; revert ha; decide
  | space =>
    generalize w ++ c :: u = x at hl
    obtain ⟨b, r, e, hb, _⟩ := hl
    cases e
    have := isSpace_iff.1 hb
    omega

theorem clear_colon {rest : Str} (h : ¬ ['a', 'r', 'i', 't', 'y'] <+: rest) : Clear (.kw .colon) rest := by
  intro k v hv hp hl
  rw [lang_iff] at hl
  have hl : Shape k (':' :: v) := hl
  cases k with
  | kw k =>
    have hk : k.text = ':' :: v := hl.symm
    cases k <;> simp only [Kw.text, List.cons.injEq, reduceCtorEq, Char.reduceEq, false_and, true_and] at hk
    · exact h (hk ▸ hp)
    · exact hv hk.symm
  | id => obtain ⟨_, _, e, h1, _⟩ := hl; cases e; revert h1; decide
  | nodeRef => obtain ⟨_, _, e, _⟩ := hl; cases e
  | varRef => obtain ⟨_, _, e, _⟩ := hl; cases e
  | varDef => obtain ⟨_, _, e, h1, _⟩ := hl; cases e; revert h1; decide
  | digits => obtain ⟨_, _, e, h1, _⟩ := hl; cases e; revert h1; decide
  | dom => rcases hl with e | ⟨_, _, e, _⟩ <;> cases e
  | point => obtain ⟨_, _, e, _⟩ := hl; cases e
  | prec => rcases hl with e | ⟨_, _, e, _⟩ <;> cases e
  | near => rcases hl with e | ⟨_, _, e, _⟩ <;> cases e
  | quoted => obtain ⟨_, e, _⟩ := hl; cases e
  | regex => obtain ⟨_, e, _⟩ := hl; cases e
  | space => obtain ⟨_, _, e, h1, _⟩ := hl; cases e; revert h1; decide

theorem texts_cons {t : Tk} {ts : List Tk} {s : Str} (h : Clear t s) (hs : Texts ts s) : Texts (t :: ts) (t.text ++ s) :=
  .cons (g := []) (by simp [Blank]) h hs

theorem texts_single (t : Tk) : Texts [t] t.text := by
  have := texts_cons (clear_nil t) (.nil (g := []) (by simp [Blank]))
  simpa using this

/-- The text of a value. -/
def showTxt : Txt → Str
  | .exact v => showQuoted v
  | .regex v => showRegex v

/-- The text of a comparison. -/
def showCmp : Cmp → Str
  | .eq => ['=']
  | .ne => ['!', '=']

theorem texts_value (c : Cmp) (t : Txt) : Texts (c.yield ++ t.yield) (showCmp c ++ showTxt t) := by
  have hc : ∀ k : Kw, Clear (.kw k) (showTxt t) := fun k => by
    cases t with
    | exact v => exact clear_opens (t := .kw k) trivial (by decide)
    | regex v => exact clear_opens (t := .kw k) trivial (by decide)
  have ht : Texts t.yield (showTxt t) := by
    cases t with
    | exact v => exact texts_single (.quoted v)
    | regex v => exact texts_single (.regex v)
  cases c with
  | eq => exact texts_cons (t := .kw .eq) (hc _) ht
  | ne => exact texts_cons (t := .kw .neq) (hc _) ht

theorem clear_before_value {t : Tk} (ht : OpNameOk t.text) (hv : Valid t) (c : Cmp) (x : Txt) : Clear t (showCmp c ++ showTxt x) := by
  cases c with
  | eq =>
    refine clear_name ht (by decide) (by decide) ?_ ?_
    · intro r hr; cases x <;> cases hr
    · intro r hr; cases x <;> cases hr
  | ne => exact clear_opens hv (by decide)

/-- The name can be written after a namespace without a blank. -/
def Spec.NoArity (ns : Option Str) (name : Str) : Prop := ns ≠ none → ¬ ['a', 'r', 'i', 't', 'y'] <+: name

theorem texts_name {q : QN} {ts : List Tk} {rest : Str} (h1 : NsOk q.ns) (h2 : NameOk q.name) (hn : NoArity q.ns q.name)
    (hc : Clear (.id q.name) rest) (hr : ∀ c r, rest = c :: r → c.isAlpha = false) (ht : Texts ts rest) :
    Texts (q.yield ++ ts) (showName q.ns q.name ++ rest) := by
  obtain ⟨ns, name⟩ := q
  cases ns with
  | none => exact texts_cons hc ht
  | some ns =>
    have e := texts_cons (t := .id name) hc ht
    have e2 : Texts (.kw .colon :: .id name :: ts) (':' :: (name ++ rest)) := by
      refine texts_cons (t := .kw .colon) (clear_colon ?_) e
      intro hp
      refine hn (by simp) ?_
      obtain ⟨u, hu⟩ := hp
      rcases List.append_eq_append_iff.1 hu with ⟨a, ha, _⟩ | ⟨a, ha, hb⟩
      · exact ⟨a, ha.symm⟩
      · cases a with
        | nil => exact ⟨[], by simpa using ha⟩
        | cons c a =>
          have h5 := hr c _ hb
          have : c ∈ ['a', 'r', 'i', 't', 'y'] := by rw [ha]; simp
          simp only [List.mem_cons, List.not_mem_nil, or_false] at this
          rcases this with rfl | rfl | rfl | rfl | rfl <;> exact absurd h5 (by decide)
    have e3 := texts_cons (t := .id ns) (s := ':' :: (name ++ rest)) (clear_name (h1 ns rfl).1 (by decide) (by decide) (by
      intro r _; decide) (by
      intro r hr'
      obtain ⟨c, r', e, hc', _⟩ := h2.1
      simp only at e
      rw [e] at hr'
      cases hr'
      revert hc'; decide)) e2
    simpa [showName, QN.yield, Tk.text] using e3

theorem alpha_value (c : Cmp) (t : Txt) : ∀ a r, showCmp c ++ showTxt t = a :: r → a.isAlpha = false := by
  intro a r h
  cases c <;> cases h <;> decide

theorem texts_named {q : QN} {c : Cmp} {t : Txt} (h1 : NsOk q.ns) (h2 : NameOk q.name) (hn : NoArity q.ns q.name) :
    Texts (NS.named q c t).yield (showName q.ns q.name ++ (showCmp c ++ showTxt t)) :=
  texts_name h1 h2 hn (clear_before_value (t := .id q.name) h2.1 h2 c t) (alpha_value c t) (texts_value c t)

/-- The syntax tree of a search. -/
def nsOf : NsSpec Str Str → NS
  | .exact ns name (some v) _ => .named ⟨ns, name⟩ .eq (.exact v)
  | .exact ns name none _ => .name ⟨ns, name⟩
  | .notExact ns name v _ => .named ⟨ns, name⟩ .ne (.exact v)
  | .regex ns name v _ => .named ⟨ns, name⟩ .eq (.regex v)
  | .notRegex ns name v _ => .named ⟨ns, name⟩ .ne (.regex v)
  | .exactTok v true => .tokCmp .eq (.exact v)
  | .exactTok v false => .txt (.exact v)
  | .notExactTok v => .tokCmp .ne (.exact v)
  | .regexTok v true => .tokCmp .eq (.regex v)
  | .regexTok v false => .txt (.regex v)
  | .notRegexTok v => .tokCmp .ne (.regex v)
  | .anyToken => .tok
  | .anyNode => .node

theorem nsOf_act {p : NsSpec Str Str} (h : Writable false p) : (nsOf p).act = p := by
  cases p with
  | exact ns name v m => obtain ⟨_, _, _, _, rfl⟩ := h; cases v <;> rfl
  | notExact ns name v m => obtain ⟨_, _, _, rfl⟩ := h; rfl
  | regex ns name v m => obtain ⟨_, _, _, rfl⟩ := h; rfl
  | notRegex ns name v m => obtain ⟨_, _, _, rfl⟩ := h; rfl
  | exactTok v b => cases b <;> rfl
  | regexTok v b => cases b <;> rfl
  | _ => rfl

/-- Names after a namespace do not start with `arity`. -/
def Spec.Unsplit : NsSpec Str Str → Prop
  | .exact ns name _ _ => NoArity ns name
  | .notExact ns name _ _ => NoArity ns name
  | .regex ns name _ _ => NoArity ns name
  | .notRegex ns name _ _ => NoArity ns name
  | _ => True

theorem tok_name : OpNameOk (Tk.kw .tok).text := ⟨'t', ['o', 'k'], rfl, by decide, by decide⟩

theorem texts_tok (c : Cmp) (t : Txt) : Texts (NS.tokCmp c t).yield ('t' :: 'o' :: 'k' :: (showCmp c ++ showTxt t)) :=
  texts_cons (t := .kw .tok) (clear_before_value tok_name trivial c t) (texts_value c t)

theorem texts_display {p : NsSpec Str Str} (h : Writable false p) (hn : Unsplit p) : Texts (nsOf p).yield (display p) := by
  cases p with
  | exact ns name v m =>
    obtain ⟨h1, h2, _, _⟩ := h
    cases v with
    | none =>
      have := texts_name (q := ⟨ns, name⟩) (ts := []) (rest := []) h1 h2 hn (clear_nil _) (by simp) (.nil (by simp [Blank]))
      simpa [nsOf, NS.yield, display] using this
    | some v => exact texts_named (q := ⟨ns, name⟩) (c := .eq) (t := .exact v) h1 h2 hn
  | notExact ns name v m => exact texts_named (q := ⟨ns, name⟩) (c := .ne) (t := .exact v) h.1 h.2.1 hn
  | regex ns name v m => exact texts_named (q := ⟨ns, name⟩) (c := .eq) (t := .regex v) h.1 h.2.1 hn
  | notRegex ns name v m => exact texts_named (q := ⟨ns, name⟩) (c := .ne) (t := .regex v) h.1 h.2.1 hn
  | exactTok v b =>
    cases b with
    | true => exact texts_tok .eq (.exact v)
    | false => exact texts_single (.quoted v)
  | notExactTok v => exact texts_tok .ne (.exact v)
  | regexTok v b =>
    cases b with
    | true => exact texts_tok .eq (.regex v)
    | false => exact texts_single (.regex v)
  | notRegexTok v => exact texts_tok .ne (.regex v)
  | anyToken => exact texts_single (.kw .tok)
  | anyNode => exact texts_single (.kw .node)

theorem valid_qn {ns : Option Str} {name : Str} (h1 : NsOk ns) (h2 : NameOk name) : AllValid (QN.mk ns name).yield := by
  cases ns with
  | none => simp only [QN.yield, allValid_cons]; exact ⟨h2, by simp [AllValid]⟩
  | some ns => simp only [QN.yield, allValid_cons]; exact ⟨h1 ns rfl, trivial, h2, by simp [AllValid]⟩

theorem valid_cmp (c : Cmp) : AllValid c.yield := by
  cases c <;> simp only [Cmp.yield, allValid_cons] <;> exact ⟨trivial, by simp [AllValid]⟩

theorem valid_exact {v : Str} (h : ValueOk v) : AllValid (Txt.exact v).yield := by
  simp only [Txt.yield, allValid_cons]
  exact ⟨fun c hc e => h (e ▸ hc), by simp [AllValid]⟩

theorem valid_regex {v : Str} (h : RegexOk v) : AllValid (Txt.regex v).yield := by
  simp only [Txt.yield, allValid_cons]
  exact ⟨h, by simp [AllValid]⟩

theorem valid_nsOf {p : NsSpec Str Str} (h : Writable false p) : AllValid (nsOf p).yield := by
  have hk : ∀ k : Kw, AllValid [.kw k] := fun k => by rw [allValid_cons]; exact ⟨trivial, by simp [AllValid]⟩
  cases p with
  | exact ns name v m =>
    obtain ⟨h1, h2, h3, _⟩ := h
    cases v with
    | none => exact valid_qn h1 h2
    | some v => simp only [nsOf, NS.yield, allValid_append]; exact ⟨valid_qn h1 h2, valid_cmp _, valid_exact (h3 v rfl)⟩
  | notExact ns name v m =>
    simp only [nsOf, NS.yield, allValid_append]; exact ⟨valid_qn h.1 h.2.1, valid_cmp _, valid_exact h.2.2.1⟩
  | regex ns name v m =>
    simp only [nsOf, NS.yield, allValid_append]; exact ⟨valid_qn h.1 h.2.1, valid_cmp _, valid_regex h.2.2.1⟩
  | notRegex ns name v m =>
    simp only [nsOf, NS.yield, allValid_append]; exact ⟨valid_qn h.1 h.2.1, valid_cmp _, valid_regex h.2.2.1⟩
  | exactTok v b =>
    cases b with
    | true => simp only [nsOf, NS.yield, allValid_append, allValid_cons]; exact ⟨trivial, valid_cmp _, valid_exact h.1⟩
    | false => exact valid_exact h.1
  | notExactTok v => simp only [nsOf, NS.yield, allValid_append, allValid_cons]; exact ⟨trivial, valid_cmp _, valid_exact h.1⟩
  | regexTok v b =>
    cases b with
    | true => simp only [nsOf, NS.yield, allValid_append, allValid_cons]; exact ⟨trivial, valid_cmp _, valid_regex h.1⟩
    | false => exact valid_regex h.1
  | notRegexTok v => simp only [nsOf, NS.yield, allValid_append, allValid_cons]; exact ⟨trivial, valid_cmp _, valid_regex h.1⟩
  | anyToken => exact hk _
  | anyNode => exact hk _

/-- The tree of a query that is one search. -/
def oneSearch (s : Search) : Disj := .one (.one (.lit (.search s)))

theorem one_search_parsed {s : Str} {p : NsSpec Str Str} (hp : Writable false p) (h : Texts (nsOf p).yield s) :
    eraseOut (parseQuery s) = .ok (.term (.node p 0 none false)) := by
  obtain ⟨ps, h1, h2⟩ := C91_texts (valid_nsOf hp) h
  have ht : Tree s ps (oneSearch ⟨none, nsOf p, false⟩) := by
    refine ⟨(C91_lex s ps).1 h1, ?_⟩
    rw [h2]
    simp [oneSearch, Disj.yield, Conj.yield, Fac.yield, Lit.yield, Search.yield, varYield]
  rw [parseQuery_tree ht]
  simp [oneSearch, Disj.act, Conj.act, Fac.act, Lit.act, orWith, andWith, eraseOut, erase, eraseLit, nsOf_act hp]

/-- Every search of the specification can be written: some text gives exactly this search. -/
theorem C94_expressible (p : NsSpec Str Str) :
    (∃ s, eraseOut (parseQuery s) = .ok (.term (.node p 0 none false))) ↔ Writable false p := by
  constructor
  · rintro ⟨s, hs⟩
    cases hq : parseQuery s with
    | ok e =>
      rw [hq] at hs
      simp only [eraseOut, Outcome.ok.injEq] at hs
      cases e with
      | term l =>
        simp only [erase, Aql.Expr.term.injEq] at hs
        have := (C94_values hq l (by simp [Aql.Expr.literals])).1
        cases l with
        | node q pos v o =>
          simp only [eraseLit, Aql.Literal.node.injEq] at hs
          have h1 := this ⟨pos, q, v, o⟩ (by simp [Aql.Literal.occs])
          simp only at h1
          rw [hs.1] at h1
          exact h1
        | _ => simp [eraseLit] at hs
      | _ => simp [erase] at hs
    | syntaxError => rw [hq] at hs; cases hs
    | panic => rw [hq] at hs; cases hs
  · intro hp
    have key : ∀ ts : List Tk, ts ≠ [] → ∃ s, Spaced ts s := by
      intro ts
      induction ts with
      | nil => intro h; exact absurd rfl h
      | cons t ts ih =>
        intro _
        by_cases hts : ts = []
        · subst hts
          exact ⟨_, .last (g := []) (g' := []) (by simp [Blank]) (by simp [Blank])⟩
        · obtain ⟨s, hs⟩ := ih hts
          exact ⟨_, .cons (g := []) (c := ' ') (by simp [Blank]) (by decide) hs⟩
    by_cases hne : (nsOf p).yield = []
    · exact ⟨[], one_search_parsed hp (by rw [hne]; exact .nil (by simp [Blank]))⟩
    · obtain ⟨s, hs⟩ := key _ hne
      exact ⟨s, one_search_parsed hp (texts_of_spaced (valid_nsOf hp) hs)⟩

/-- The text `Display` writes for a search of a query is read as this search, if no name after a namespace starts with `arity`.
Missing: `C94_arity_fails`. -/
theorem C94_display_partial {s : Str} {e : Q} (h : parseQuery s = .ok e) {l : QLit} (hl : l ∈ e.literals) {o : QOcc} (ho : o ∈ l.occs)
    (hn : Unsplit o.spec) : eraseOut (parseQuery (display o.spec)) = .ok (.term (.node o.spec 0 none false)) :=
  one_search_parsed ((C94_values h l hl).1 o ho) (texts_display ((C94_values h l hl).1 o ho) hn)

/-! ### Numbers -/

theorem natOf_eq (s : Str) : natOf s = Nat.ofDigitChars 10 s 0 := by
  simp only [natOf, Nat.ofDigitChars_eq_foldl]
  rfl

/-- The value of the digits of a number. -/
theorem C94_digits (n : Nat) : natOf (Nat.toDigits 10 n) = n := by
  rw [natOf_eq, Nat.ofDigitChars_ten_toDigits]

/-- The program panics exactly for queries without a syntax error in which a reference has a number that is too large. -/
theorem C94_panic (s : Str) : parseQuery s = .panic ↔ ∃ ps d, Tree s ps d ∧ ¬ RefsFit (ps.map (·.tk)) := by
  constructor
  · intro h
    by_cases hex : ∃ ps d, Tree s ps d
    · obtain ⟨ps, d, ht⟩ := hex
      refine ⟨ps, d, ht, fun hf => ?_⟩
      rw [← ht.2, ← disj_fit d ps none] at hf
      rw [parseQuery_tree ht] at h
      cases hd : d.act ps none with
      | none => rw [hd] at hf; cases hf
      | some e => rw [hd] at h; cases h
    · rw [parseQuery_no_tree hex] at h; cases h
  · rintro ⟨ps, d, ht, hf⟩
    rw [← ht.2, ← disj_fit d ps none] at hf
    rw [parseQuery_tree ht]
    cases hd : d.act ps none with
    | none => rfl
    | some e => rw [hd] at hf; simp at hf

/-- Without such a number a query without a syntax error is accepted. -/
theorem C94_accepted_partial {s : Str} {ps : List PTok} {d : Disj} (h : Tree s ps d) (hf : RefsFit (ps.map (·.tk))) : ∃ e, parseQuery s = .ok e := by
  cases he : parseQuery s with
  | ok e => exact ⟨e, rfl⟩
  | syntaxError => exact absurd ⟨ps, d, h⟩ ((C92_syntax s).1 he)
  | panic =>
    obtain ⟨ps', d', h', hf'⟩ := (C94_panic s).1 he
    obtain ⟨rfl, rfl⟩ := tree_unique h h'
    exact absurd hf hf'

/-- Distances up to `m` and `n` that fit into 64 bits are kept. -/
theorem C94_range_partial (b : Bool) {m n : Nat} (hm : m < 2 ^ 64) (hn : n < 2 ^ 64) :
    (Rng.two b (Nat.toDigits 10 m) (Nat.toDigits 10 n)).act = .bound m n ∧ (Rng.one b (Nat.toDigits 10 m)).act = .bound m m := by
  simp [Rng.act, usize, C94_digits, hm, hn]

/-! ### Examples -/

/-- The tree of a query. -/
def parsed (s : String) : Outcome := parseQuery s.toList

/-- C92 and C93 on a sample: a chain, an optional node with a name, parentheses. -/
theorem C92_nonvacuous :
    parsed "tok . (x#pos=\"NN\"? | node)" = .syntaxError ∧
    parsed "tok .2,3 x#pos=\"NN\"? > #1 & (node | /a/)" =
      .ok (.and (.and (.term (.bin (.lit .anyToken 0 none false) (.dist (.precedence none) (.bound 2 3))
            (.lit (.exact none "pos".toList (some "NN".toList) false) 9 (some ['x']) true) false))
          (.term (.bin (.lit (.exact none "pos".toList (some "NN".toList) false) 9 (some ['x']) true)
            (.join (.dominance [] (.bound 1 1) none)) (.ref (.id 1)) false)))
        (.or (.term (.node .anyNode 29 none false)) (.term (.node (.regexTok ['a'] false) 36 none false)))) ∧
    parsed "tok | node & /b/" = .ok (.or (.term (.node .anyToken 0 none false))
      (.and (.term (.node .anyNode 6 none false)) (.term (.node (.regexTok ['b'] false) 13 none false)))) := by
  refine ⟨by decide +kernel, by decide +kernel, by decide +kernel⟩

/-- Positions are offsets in bytes. -/
theorem C93_nonvacuous : parsed "\"ä\" & tok" =
    .ok (.and (.term (.node (.exactTok ['ä'] false) 0 none false)) (.term (.node .anyToken 7 none false))) := by decide +kernel

/-- A name that starts with `arity` cannot be written directly after the colon of a namespace, so `Display` writes a text that is a syntax
error or another query. -/
theorem C94_arity_fails :
    parsed "x: arity=\"1\"" = .ok (.term (.node (.exact (some ['x']) "arity".toList (some ['1']) false) 0 none false)) ∧
    display (.exact (some ['x']) "arity".toList (some ['1']) false) = "x:arity=\"1\"".toList ∧ parsed "x:arity=\"1\"" = .syntaxError := by
  refine ⟨by decide +kernel, by decide, by decide +kernel⟩

/-- A value with a quotation mark cannot be written; after a backslash the quotation mark ends the value. -/
theorem C94_quote_fails : parsed "\"a\\\"b\"" = .syntaxError ∧
    ¬ ∃ s, eraseOut (parseQuery s) = .ok (.term (.node (.exactTok ['a', '"', 'b'] false) 0 none false)) := by
  refine ⟨by decide +kernel, ?_⟩
  rw [C94_expressible]
  intro h
  exact h.1 (by decide)

/-- The number of a reference that needs more than 64 bits is a panic. -/
theorem C94_reference_fails : parsed "tok & #18446744073709551616 . tok" = .panic := by decide +kernel

/-- A distance that needs more than 64 bits becomes 0. -/
theorem C94_range_fails : parsed "tok .1,18446744073709551616 tok" =
    .ok (.term (.bin (.lit .anyToken 0 none false) (.dist (.precedence none) (.bound 1 0)) (.lit .anyToken 28 none false) false)) := by
  decide +kernel

/-- C94 on a sample. -/
theorem C94_nonvacuous : parsed "ns:pos!=/a\\/b/ & #2:arity=3 & meta::doc=\"x\"" =
    .ok (.and (.and (.term (.node (.notRegex (some "ns".toList) "pos".toList "a\\/b".toList false) 0 none false))
      (.term (.un (.id 2) (.bound 3 3)))) (.term (.legacyMeta (.exact none "doc".toList (some ['x']) true)))) ∧
    display (.notRegex (some "ns".toList) "pos".toList "a\\/b".toList false) = "ns:pos!=/a\\/b/".toList := by
  refine ⟨by decide +kernel, by decide⟩

end Parse
