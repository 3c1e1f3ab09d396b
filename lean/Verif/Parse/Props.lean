import Verif.Parse.OccLemmas

set_option linter.unusedSimpArgs false

/-!
# C92, C93: the trees of queries

C92: the tokens of a query have at most one syntax tree; the tree of literals means what the tree says.  C93: positions of node searches.
-/

namespace Parse

open Spec

/-! ### C92 -/

namespace Spec

/-- The text has these tokens and this syntax tree. -/
def Tree (s : Str) (ps : List PTok) (d : Disj) : Prop := Tokens 0 s ps ∧ d.yield = ps.map (·.tk)

/-- There are no parentheses in the tree. -/
def Flat : Disj → Prop
  | .one c => FlatC c
  | .more c d => FlatC c ∧ Flat d
where
  FlatC : Conj → Prop
  | .one f => FlatF f
  | .more f c => FlatF f ∧ FlatC c
  FlatF : Fac → Prop
  | .lit _ => True
  | .paren _ => False

/-- A literal without its position. -/
def eraseLit : QLit → QLit
  | .node s _ v o => .node s 0 v o
  | .bin l op r n => .bin (eraseOpd l) op (eraseOpd r) n
  | .un r g => .un r g
  | .legacyMeta s => .legacyMeta s
where
  eraseOpd : QOpd → QOpd
  | .ref r => .ref r
  | .lit s _ v o => .lit s 0 v o

/-- A tree of literals without the positions. -/
def erase : Q → Q
  | .term l => .term (eraseLit l)
  | .const b => .const b
  | .not a => .not (erase a)
  | .and a b => .and (erase a) (erase b)
  | .or a b => .or (erase a) (erase b)

/-- The outcome without the positions. -/
def eraseOut : Outcome → Outcome
  | .ok e => .ok (erase e)
  | .syntaxError => .syntaxError
  | .panic => .panic

end Spec

/-- The parser finds a syntax tree exactly if it is a tree for the tokens. -/
theorem C92_parse (ts : List Tk) (d : Disj) : parseTree ts = some d ↔ d.yield = ts := parseTree_iff ts d

/-- The grammar is unambiguous. -/
theorem C92_unambiguous {d d' : Disj} (h : d.yield = d'.yield) : d = d' := by
  have h1 := (C92_parse d'.yield d).2 h
  have h2 := (C92_parse d'.yield d').2 rfl
  rw [h1] at h2
  cases h2; rfl

theorem tree_unique {s : Str} {ps ps' : List PTok} {d d' : Disj} (h : Tree s ps d) (h' : Tree s ps' d') : ps = ps' ∧ d = d' := by
  have e := C91_unique h.1 h'.1
  subst e
  exact ⟨rfl, C92_unambiguous (h.2.trans h'.2.symm)⟩

theorem parseQuery_tree {s : Str} {ps : List PTok} {d : Disj} (h : Tree s ps d) :
    parseQuery s = match d.act ps none with | none => .panic | some e => .ok e := by
  simp only [parseQuery, (C91_lex s ps).2 h.1, (C92_parse _ d).2 h.2]
  cases d.act ps none <;> rfl

theorem parseQuery_no_tree {s : Str} (h : ¬ ∃ ps d, Tree s ps d) : parseQuery s = .syntaxError := by
  unfold parseQuery
  split
  · rfl
  · rename_i ps hps
    split
    · rfl
    · rename_i d hd
      exact absurd ⟨ps, d, (C91_lex s ps).1 hps, (C92_parse _ d).1 hd⟩ h

/-- A text is a syntax error exactly if it cannot be split into tokens that have a syntax tree. -/
theorem C92_syntax (s : Str) : parseQuery s = .syntaxError ↔ ¬ ∃ ps d, Tree s ps d := by
  constructor
  · rintro h ⟨ps, d, ht⟩
    rw [parseQuery_tree ht] at h
    split at h <;> cases h
  · exact parseQuery_no_tree

theorem ok_tree {s : Str} {e : Q} (h : parseQuery s = .ok e) : ∃ ps d, Tree s ps d ∧ d.act ps none = some e := by
  by_cases hex : ∃ ps d, Tree s ps d
  · obtain ⟨ps, d, ht⟩ := hex
    rw [parseQuery_tree ht] at h
    refine ⟨ps, d, ht, ?_⟩
    split at h
    · cases h
    · rename_i e' he; cases h; exact he
  · rw [parseQuery_no_tree hex] at h; cases h

/-- The tree of literals of a query means what the syntax tree of its text says: conjunctions bind stronger than disjunctions, parentheses
group, and a chain of operators is the conjunction of the operators between neighbouring operands. -/
theorem C92_meaning {s : Str} {e : Q} (h : parseQuery s = .ok e) :
    ∃ ps d, Tree s ps d ∧ ∀ v : QLit → Bool, e.eval v = true ↔ DisjHolds v d ps := by
  obtain ⟨ps, d, ht, he⟩ := ok_tree h
  refine ⟨ps, d, ht, fun v => ?_⟩
  rw [disj_eval v d ps none e he]
  simp

theorem isConj_andWith {acc : Option Q} {e : Q} (h : ∀ a, acc = some a → Aql.IsConj a) (he : Aql.IsConj e) : Aql.IsConj (andWith acc e) := by
  cases acc with
  | none => exact he
  | some a => exact .and (h a rfl) he

theorem isDnf_orWith {acc : Option Q} {e : Q} (h : ∀ a, acc = some a → Aql.IsDnf a) (he : Aql.IsDnf e) : Aql.IsDnf (orWith acc e) := by
  cases acc with
  | none => exact he
  | some a => exact .or (h a rfl) he

theorem chain_isConj {last : QOpd} {ps : List PTok} {e e' : Q} {xs : List Link} (h : chainAct last ps e xs = some e') (he : Aql.IsConj e) :
    Aql.IsConj e' := by
  induction xs generalizing last ps e with
  | nil => cases h; exact he
  | cons x xs ih =>
    rw [chainAct] at h
    split at h
    · cases h
    · exact ih h (.and he (.term _))

theorem filter_isConj {last : Aql.Ref} {e e' : Q} {xs : List (Cmp × Ref)} (h : filterAct last e xs = some e') (he : Aql.IsConj e) :
    Aql.IsConj e' := by
  induction xs generalizing last e with
  | nil => cases h; exact he
  | cons x xs ih =>
    rw [filterAct] at h
    split at h
    · cases h
    · exact ih h (.and he (.term _))

theorem lit_isConj {l : Lit} {ps : List PTok} {e : Q} (h : l.act ps = some e) : Aql.IsConj e := by
  cases l with
  | search s => cases h; exact .term _
  | chain l x xs =>
    simp only [Lit.act] at h
    split at h
    · exact chain_isConj h (.term _)
    · cases h
  | filter l x xs =>
    simp only [Lit.act] at h
    split at h
    · exact filter_isConj h (.term _)
    · cases h
  | arity r g =>
    simp only [Lit.act, Option.map_eq_some_iff] at h
    obtain ⟨a, _, rfl⟩ := h
    exact .term _
  | metaQ q c t => cases h; exact .term _

theorem flatC_isConj : ∀ (c : Conj) (ps : List PTok) (acc : Option Q) (e : Q), Flat.FlatC c → (∀ a, acc = some a → Aql.IsConj a) →
    c.act ps acc = some e → Aql.IsConj e
  | .one (.lit l), ps, acc, e, _, ha, h => by
    simp only [Conj.act, Fac.act, Option.map_eq_some_iff] at h
    obtain ⟨e', h', rfl⟩ := h
    exact isConj_andWith ha (lit_isConj h')
  | .one (.paren _), _, _, _, hf, _, _ => by simp [Flat.FlatC, Flat.FlatF] at hf
  | .more (.lit l) c, ps, acc, e, hf, ha, h => by
    simp only [Conj.act, Fac.act] at h
    simp only [Flat.FlatC] at hf
    split at h
    · cases h
    · rename_i e' h'
      exact flatC_isConj c _ _ e hf.2 (fun a he => by cases he; exact isConj_andWith ha (lit_isConj h')) h
  | .more (.paren _) _, _, _, _, hf, _, _ => by simp [Flat.FlatC, Flat.FlatF] at hf

theorem flat_isDnf : ∀ (d : Disj) (ps : List PTok) (acc : Option Q) (e : Q), Flat d → (∀ a, acc = some a → Aql.IsDnf a) →
    d.act ps acc = some e → Aql.IsDnf e
  | .one c, ps, acc, e, hf, ha, h => by
    simp only [Disj.act, Option.map_eq_some_iff] at h
    obtain ⟨e', h', rfl⟩ := h
    exact isDnf_orWith ha (.conj (flatC_isConj c ps none e' (by simpa only [Flat] using hf) (by simp) h'))
  | .more c d, ps, acc, e, hf, ha, h => by
    simp only [Disj.act] at h
    simp only [Flat] at hf
    split at h
    · cases h
    · rename_i e' h'
      exact flat_isDnf d _ _ e hf.2 (fun a he => by
        cases he; exact isDnf_orWith ha (.conj (flatC_isConj c ps none e' hf.1 (by simp) h'))) h

/-- The tree of literals of a query without parentheses is in disjunctive normal form. -/
theorem C92_flat {s : Str} {e : Q} {ps : List PTok} {d : Disj} (h : parseQuery s = .ok e) (ht : Tree s ps d) (hf : Flat d) : Aql.IsDnf e := by
  obtain ⟨ps', d', ht', he⟩ := ok_tree h
  obtain ⟨rfl, rfl⟩ := tree_unique ht ht'
  exact flat_isDnf d ps none e hf (by simp) he

/-! ### Blanks -/

theorem erase_opd (x : Opd) (ps ps' : List PTok) : (x.act ps).map eraseLit.eraseOpd = (x.act ps').map eraseLit.eraseOpd := by
  cases x with
  | ref r => rfl
  | search s => rfl

theorem erase_chain (xs : List Link) : ∀ (l l' : QOpd) (ps ps' : List PTok) (e e' : Q), eraseLit.eraseOpd l = eraseLit.eraseOpd l' →
    erase e = erase e' → (chainAct l ps e xs).map erase = (chainAct l' ps' e' xs).map erase := by
  induction xs with
  | nil => intro l l' ps ps' e e' _ he; simp [chainAct, he]
  | cons x xs ih =>
    intro l l' ps ps' e e' hl he
    rw [chainAct, chainAct]
    have := erase_opd x.rhs (ps.drop x.opLen) (ps'.drop x.opLen)
    revert this
    cases x.rhs.act (ps.drop x.opLen) <;> cases x.rhs.act (ps'.drop x.opLen) <;> intro this
    · rfl
    · cases this
    · cases this
    · simp only [Option.map_some, Option.some.injEq] at this
      exact ih _ _ _ _ _ _ this (by simp [erase, eraseLit, he, hl, this])

theorem erase_filter (xs : List (Cmp × Ref)) : ∀ (l : Aql.Ref) (e e' : Q), erase e = erase e' →
    (filterAct l e xs).map erase = (filterAct l e' xs).map erase := by
  induction xs with
  | nil => intro l e e' he; simp [filterAct, he]
  | cons x xs ih =>
    intro l e e' he
    rw [filterAct, filterAct]
    cases x.2.act with
    | none => rfl
    | some o => exact ih _ _ _ (by simp [erase, he])

theorem erase_lit (l : Lit) (ps ps' : List PTok) : (l.act ps).map erase = (l.act ps').map erase := by
  cases l with
  | search s => rfl
  | chain l x xs =>
    simp only [Lit.act]
    have h1 := erase_opd l ps ps'
    have h2 := erase_opd x.rhs (ps.drop (l.yield.length + x.opLen)) (ps'.drop (l.yield.length + x.opLen))
    revert h1 h2
    cases l.act ps <;> cases l.act ps' <;> cases x.rhs.act (ps.drop (l.yield.length + x.opLen)) <;>
      cases x.rhs.act (ps'.drop (l.yield.length + x.opLen)) <;> intro h1 h2 <;>
      simp only [Option.map_some, Option.map_none, Option.some.injEq, reduceCtorEq] at h1 h2 ⊢
    exact erase_chain xs _ _ _ _ _ _ h2 (by simp [erase, eraseLit, h1, h2])
  | filter l x xs => rfl
  | arity r g => rfl
  | metaQ q c t => rfl

theorem erase_orWith {acc acc' : Option Q} {e e' : Q} (h : acc.map erase = acc'.map erase) (he : erase e = erase e') :
    erase (orWith acc e) = erase (orWith acc' e') := by
  cases acc <;> cases acc' <;> simp_all [orWith, erase]

theorem erase_andWith {acc acc' : Option Q} {e e' : Q} (h : acc.map erase = acc'.map erase) (he : erase e = erase e') :
    erase (andWith acc e) = erase (andWith acc' e') := by
  cases acc <;> cases acc' <;> simp_all [andWith, erase]

mutual
theorem erase_disj : ∀ (d : Disj) (ps ps' : List PTok) (acc acc' : Option Q), acc.map erase = acc'.map erase →
    (d.act ps acc).map erase = (d.act ps' acc').map erase
  | .one c, ps, ps', acc, acc', h => by
    simp only [Disj.act]
    have := erase_conj c ps ps' none none rfl
    revert this
    cases c.act ps none <;> cases c.act ps' none <;> intro this <;> simp at this ⊢
    exact erase_orWith h this
  | .more c d, ps, ps', acc, acc', h => by
    simp only [Disj.act]
    have := erase_conj c ps ps' none none rfl
    revert this
    cases c.act ps none <;> cases c.act ps' none <;> intro this <;> simp at this ⊢
    exact erase_disj d _ _ _ _ (by simp [erase_orWith h this])
theorem erase_conj : ∀ (d : Conj) (ps ps' : List PTok) (acc acc' : Option Q), acc.map erase = acc'.map erase →
    (d.act ps acc).map erase = (d.act ps' acc').map erase
  | .one c, ps, ps', acc, acc', h => by
    simp only [Conj.act]
    have := erase_fac c ps ps'
    revert this
    cases c.act ps <;> cases c.act ps' <;> intro this <;> simp at this ⊢
    exact erase_andWith h this
  | .more c d, ps, ps', acc, acc', h => by
    simp only [Conj.act]
    have := erase_fac c ps ps'
    revert this
    cases c.act ps <;> cases c.act ps' <;> intro this <;> simp at this ⊢
    exact erase_conj d _ _ _ _ (by simp [erase_andWith h this])
theorem erase_fac : ∀ (d : Fac) (ps ps' : List PTok), (d.act ps).map erase = (d.act ps').map erase
  | .lit l, ps, ps' => by simp only [Fac.act]; exact erase_lit l ps ps'
  | .paren d, ps, ps' => by simp only [Fac.act]; exact erase_disj d _ _ none none rfl
end

/-- Texts with the same tokens, for instance with other blanks, mean the same but for the positions. -/
theorem C92_blanks {s s' : Str} {ps ps' : List PTok} (h : Tokens 0 s ps) (h' : Tokens 0 s' ps') (e : ps.map (·.tk) = ps'.map (·.tk)) :
    eraseOut (parseQuery s) = eraseOut (parseQuery s') := by
  by_cases hex : ∃ d : Disj, d.yield = ps.map (·.tk)
  · obtain ⟨d, hd⟩ := hex
    rw [parseQuery_tree ⟨h, hd⟩, parseQuery_tree ⟨h', hd.trans e⟩]
    have := erase_disj d ps ps' none none rfl
    revert this
    cases d.act ps none <;> cases d.act ps' none <;> intro this <;> simp [eraseOut] at this ⊢
    exact this
  · rw [parseQuery_no_tree, parseQuery_no_tree]
    · rintro ⟨qs, d, hq, hd⟩
      rw [C91_unique hq h', ← e] at hd
      exact hex ⟨d, hd⟩
    · rintro ⟨qs, d, hq, hd⟩
      rw [C91_unique hq h] at hd
      exact hex ⟨d, hd⟩

/-- The outcome for a text with at least one blank between any two tokens: it is a syntax error, a panic or a tree of literals depending
only on the tokens. -/
theorem C92_spaced {ts : List Tk} {s s' : Str} (hv : ∀ t ∈ ts, Valid t) (h : Spaced ts s) (h' : Spaced ts s') :
    eraseOut (parseQuery s) = eraseOut (parseQuery s') := by
  obtain ⟨ps, h1, h2⟩ := C91_spaced hv h
  obtain ⟨ps', h1', h2'⟩ := C91_spaced hv h'
  exact C92_blanks ((C91_lex _ _).1 h1) ((C91_lex _ _).1 h1') (h2.trans h2'.symm)

/-! ### C93 -/

theorem starts_sorted {s : Str} {pos : Nat} {ps : List PTok} (h : Written pos ps s) (hv : ∀ t ∈ ps, Valid t.tk) :
    (∀ t ∈ ps, pos ≤ t.start) ∧ (ps.map (·.start)).Pairwise (· < ·) := by
  induction h with
  | nil => simp
  | @cons pos g t ts s hg h1 h2 _ ih =>
    obtain ⟨i1, i2⟩ := ih fun x hx => hv x (by simp [hx])
    have hpos : 0 < byteLen t.tk.text := by
      obtain ⟨a, w, ha⟩ := List.exists_cons_of_ne_nil (text_ne_nil (hv t (by simp)))
      rw [ha]
      have : byteLen (a :: w) = byteLen [a] + byteLen w := byteLen_append [a] w
      have h3 : 0 < byteLen [a] := by
        simp only [byteLen, utf8, List.flatMap_cons, List.flatMap_nil, List.append_nil]
        simpa [String.length_utf8EncodeChar] using Char.utf8Size_pos a
      omega
    refine ⟨?_, ?_⟩
    · intro x hx
      rcases List.mem_cons.1 hx with rfl | hx
      · omega
      · have := i1 x hx; omega
    · simp only [List.map_cons, List.pairwise_cons]
      refine ⟨?_, i2⟩
      intro p hp
      obtain ⟨x, hx, rfl⟩ := List.mem_map.1 hp
      have := i1 x hx
      omega

/-- The node searches of the literals are the searches of the text, each at the position where it is written, in the order of the text. -/
theorem C93_searches {s : Str} {e : Q} (h : parseQuery s = .ok e) :
    ∃ ps d L, Tree s ps d ∧ Places ps (searches d) L ∧ Aql.IsNodeList e.literals L := by
  obtain ⟨ps, d, ht, he⟩ := ok_tree h
  obtain ⟨L, hL, hm⟩ := disj_places d ps [] none e ht.2.symm (by simpa using he)
  refine ⟨ps, d, L, ht, hL, ⟨?_, ?_⟩⟩
  · have hx := (C91_lex s ps).2 ht.1
    have := (starts_sorted (C91_written hx) (C91_valid hx)).2.sublist hL.sublist
    rwa [List.pairwise_map] at this
  · intro o
    rw [← show InTree e o ↔ ∃ l ∈ e.literals, o ∈ l.occs from Iff.rfl, hm]
    simp [inAcc_none]

/-- Searches at the same position are the same: the assumption under which conjunctions are translated. -/
theorem C93_consistent {s : Str} {e : Q} (h : parseQuery s = .ok e) {c : List QLit} (hc : ∀ l ∈ c, l ∈ e.literals) :
    ∃! L, Aql.IsNodeList c L := by
  obtain ⟨_, _, L, _, _, hL⟩ := C93_searches h
  apply Aql.C69_node_list
  intro l hl l' hl' o ho o' ho' hp
  have h1 := (hL.mem o).2 ⟨l, hc l hl, ho⟩
  have h2 := (hL.mem o').2 ⟨l', hc l' hl', ho'⟩
  by_contra hne
  obtain ⟨i, hi, ei⟩ := List.mem_iff_getElem.1 h1
  obtain ⟨j, hj, ej⟩ := List.mem_iff_getElem.1 h2
  rcases Nat.lt_trichotomy i j with hij | hij | hij
  · have := List.pairwise_iff_getElem.1 hL.sorted i j hi hj hij
    rw [ei, ej] at this
    omega
  · subst hij
    exact hne (ei.symm.trans ej)
  · have := List.pairwise_iff_getElem.1 hL.sorted j i hj hi hij
    rw [ei, ej] at this
    omega

namespace Spec

/-- The alternatives of a query. -/
def alts : Disj → List Conj
  | .one c => [c]
  | .more c d => c :: alts d

/-- What is written of a search. -/
def written (s : Search) : NsSpec Str Str × Option Str × Bool := (s.spec.act, s.var, s.opt)

/-- A search of a list without its position. -/
def content (o : QOcc) : NsSpec Str Str × Option Str × Bool := (o.spec, o.vname, o.optional)

end Spec

theorem alternatives_or {a b : Q} (ha : Aql.IsDnf a) (hb : Aql.IsDnf b) :
    Aql.alternatives (.or a b) = Aql.alternatives a ++ Aql.alternatives b := by
  have key : ∀ {x : Q}, Aql.IsDnf x → (Aql.orChildren x).filterMap Aql.alternativeOf = Aql.alternatives x := by
    intro x hx
    cases hx with
    | conj hx => cases hx <;> simp [Aql.orChildren, Aql.alternatives, Aql.alternativeOf]
    | or _ _ => rfl
  rw [← key ha, ← key hb, ← List.filterMap_append]
  rfl

theorem alternatives_conj {a : Q} (ha : Aql.IsConj a) : Aql.alternatives a = [a.literals] := by
  have h := Aql.andChildren_literals ha
  cases ha with
  | term l => rfl
  | and _ _ => simp [Aql.alternatives, h]

theorem alternatives_orWith {acc : Option Q} {e : Q} (h : ∀ a, acc = some a → Aql.IsDnf a) (he : Aql.IsConj e) :
    Aql.alternatives (orWith acc e) = (acc.map Aql.alternatives).getD [] ++ [e.literals] := by
  cases acc with
  | none => simpa [orWith] using alternatives_conj he
  | some a => rw [orWith, alternatives_or (h a rfl) (.conj he), alternatives_conj he]; rfl

theorem flat_alternatives : ∀ (d : Disj) (ps : List PTok) (acc : Option Q) (e : Q), Flat d → (∀ a, acc = some a → Aql.IsDnf a) →
    ps.map (·.tk) = d.yield → d.act ps acc = some e → ∃ (es : List Q) (Ls : List (List QOcc)),
      Aql.alternatives e = (acc.map Aql.alternatives).getD [] ++ es.map (·.literals) ∧
      List.Forall₂ (fun e L => ∀ o, InTree e o ↔ o ∈ L) es Ls ∧
      List.Forall₂ (fun c L => L.map content = (conjSearches c).map written) (alts d) Ls ∧ Places ps (searches d) Ls.flatten
  | .one c, ps, acc, e, hf, ha, hy, h => by
    simp only [Disj.act, Option.map_eq_some_iff] at h
    obtain ⟨e', h', rfl⟩ := h
    have hc := flatC_isConj c ps none e' (by simpa only [Flat] using hf) (by simp) h'
    obtain ⟨L, hL, hm⟩ := conj_places c ps [] none e' (by simpa only [Disj.yield] using hy) (by simpa using h')
    refine ⟨[e'], [L], by simpa using alternatives_orWith ha hc, .cons ?_ .nil, .cons hL.specs .nil, by simpa [searches] using hL⟩
    intro o; rw [hm]; simp [inAcc_none]
  | .more c d, ps, acc, e, hf, ha, hy, h => by
    simp only [Disj.act] at h
    simp only [Flat] at hf
    simp only [Disj.yield] at hy
    obtain ⟨h1, h2, h3⟩ := split_sep hy
    split at h
    · cases h
    · rename_i e' h'
      have hc := flatC_isConj c ps none e' hf.1 (by simp) h'
      obtain ⟨L, hL, hm⟩ := conj_places c (ps.take c.yield.length) (ps.drop c.yield.length) none e' h1 (by
        rw [List.take_append_drop]; exact h')
      obtain ⟨es, Ls, i1, i2, i3, i4⟩ := flat_alternatives d _ _ e hf.2 (fun a he => by cases he; exact isDnf_orWith ha (.conj hc)) h2 h
      refine ⟨e' :: es, L :: Ls, ?_, .cons ?_ i2, .cons hL.specs i3, by simpa only [searches, List.flatten_cons] using places_sep hL i4⟩
      · rw [i1, Option.map_some, Option.getD_some, alternatives_orWith ha hc]
        simp
      · intro o; rw [hm]; simp [inAcc_none]

/-- The alternatives of a query without parentheses are those of the text, and the node searches of each alternative are its searches in the
order of the text: the numbers of nodes count the searches of the text. -/
theorem C93_alternatives {s : Str} {e : Q} {ps : List PTok} {d : Disj} (h : parseQuery s = .ok e) (ht : Tree s ps d) (hf : Flat d) :
    ∃ Ls : List (List QOcc), List.Forall₂ Aql.IsNodeList (Aql.alternatives e) Ls ∧
      List.Forall₂ (fun c L => L.map content = (conjSearches c).map written) (alts d) Ls ∧ Places ps (searches d) Ls.flatten := by
  obtain ⟨ps', d', ht', he⟩ := ok_tree h
  obtain ⟨rfl, rfl⟩ := tree_unique ht ht'
  obtain ⟨es, Ls, h1, h2, h3, h4⟩ := flat_alternatives d ps none e hf (by simp) ht.2.symm he
  refine ⟨Ls, ?_, h3, h4⟩
  have hx := (C91_lex s ps).2 ht.1
  have hs := (starts_sorted (C91_written hx) (C91_valid hx)).2.sublist h4.sublist
  rw [List.pairwise_map, List.pairwise_flatten] at hs
  rw [h1]
  simp only [Option.map_none, Option.getD_none, List.nil_append, List.forall₂_map_left_iff]
  have hs1 := hs.1
  clear h1 h3 h4 hs
  induction h2 with
  | nil => exact .nil
  | cons h _ ih =>
    exact .cons ⟨hs1 _ (by simp), fun o => (h o).symm⟩ (ih fun l hl => hs1 l (by simp [hl]))

theorem places_var {ts : List PTok} {ss : List Search} {L : List QOcc} (h : Places ts ss L) :
    ∀ o ∈ L, ∀ w, o.vname = some w → Tk.varDef w ∈ ts.map (·.tk) := by
  induction h with
  | nil => simp
  | @cons a t b c s ss L h1 _ ih =>
    intro o ho w hw
    rcases List.mem_cons.1 ho with rfl | ho
    · simp only [occAt] at hw
      have : Tk.varDef w ∈ s.yield := by simp [Search.yield, hw, varYield]
      rw [← h1] at this
      simp only [List.map_append, List.mem_append]
      exact .inr (.inl this)
    · simp only [List.map_append, List.mem_append]
      exact .inr (.inr (ih o ho w hw))

/-- The name of a node starts with a letter, so it differs from the number of every node. -/
theorem C93_names {s : Str} {e : Q} (h : parseQuery s = .ok e) {l : QLit} (hl : l ∈ e.literals) {o : QOcc} (ho : o ∈ l.occs) {w : Str}
    (hw : o.vname = some w) : (∃ c r, w = c :: r ∧ c.isAlpha = true ∧ r.all Char.isAlphanum = true) ∧ ∀ n : Nat, w ≠ Nat.toDigits 10 n := by
  obtain ⟨ps, d, L, ht, hp, hL⟩ := C93_searches h
  have := places_var hp o ((hL.mem o).2 ⟨l, hl, ho⟩) w hw
  obtain ⟨t, ht', e'⟩ := List.mem_map.1 this
  have hv := C91_valid ((C91_lex s ps).2 ht.1) t ht'
  rw [e'] at hv
  refine ⟨hv, ?_⟩
  rintro n rfl
  obtain ⟨c, r, e1, e2, _⟩ := hv
  have h3 : c.isDigit = true := Nat.isDigit_of_mem_toDigits (b := 10) (n := n) (by decide) (by decide) (by rw [e1]; simp)
  have h4 := isDigit_iff.1 h3
  have h5 := isAlpha_iff.1 e2
  omega

/-- From the text to the conjunctions: each alternative of a query without parentheses and without repeated names has exactly one list of node
searches, and an accepted alternative is translated into these nodes and operators.  Missing: parentheses (the crate `boolean_expression`
changes the tree before the translation) and `Aql.Ex.C69_same_name_fails`. -/
theorem C93_translated_partial {s : Str} {e : Q} {ps : List PTok} {d : Disj} (h : parseQuery s = .ok e) (ht : Tree s ps d) (hf : Flat d)
    {c : List QLit} (hc : c ∈ Aql.alternatives e) : ∃ L, Aql.IsNodeList c L ∧ (∀ L', Aql.IsNodeList c L' → L' = L) ∧
      (Aql.NamesDistinct L → ∀ (offset : Nat) (q : Aql.Conj (NsSpec Str Str) OpSpec RangeSpec), Aql.mapConjunction c offset false = .ok q →
        Aql.Translated false offset c L q) := by
  have hsub : ∀ l ∈ c, l ∈ e.literals := by
    intro l hl
    rw [← Aql.C69_literals_partial e (C92_flat h ht hf)]
    exact List.mem_flatten.2 ⟨c, hc, hl⟩
  obtain ⟨L, hL, hu⟩ := C93_consistent h hsub
  exact ⟨L, hL, hu, fun hn offset q hq => Aql.C69_translation_partial c offset L hL hn q hq⟩

end Parse
