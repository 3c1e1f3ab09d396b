import Verif.Parse.ActLemmas

set_option linter.unusedSimpArgs false

/-!
# The node searches of a query text
-/

namespace Parse

open Spec

/-- A node search of a text with its position. -/
abbrev QOcc := Aql.Occ (NsSpec Str Str)

namespace Spec

/-- The search written as `s` at the position `p`. -/
def occAt (p : Nat) (s : Search) : QOcc := ⟨p, s.spec.act, s.var, s.opt⟩

/-- The node searches of an operand. -/
def opdSearches : Opd → List Search
  | .ref _ => []
  | .search s => [s]

/-- The node searches of a literal in the order of the text. -/
def litSearches : Lit → List Search
  | .search s => [s]
  | .chain l x xs => opdSearches l ++ (x :: xs).flatMap fun y => opdSearches y.rhs
  | .filter _ _ _ => []
  | .arity _ _ => []
  | .metaQ _ _ _ => []

mutual
/-- The node searches of a tree in the order of the text. -/
def searches : Disj → List Search
  | .one c => conjSearches c
  | .more c d => conjSearches c ++ searches d
def conjSearches : Conj → List Search
  | .one f => facSearches f
  | .more f c => facSearches f ++ conjSearches c
def facSearches : Fac → List Search
  | .lit l => litSearches l
  | .paren d => searches d
end

/-- `Places ts ss L`: `L` are the searches `ss`, each at the position of the first token of a part of `ts` that is the search, and these
parts follow each other. -/
inductive Places : List PTok → List Search → List QOcc → Prop
  | nil (ts : List PTok) : Places ts [] []
  | cons {a : List PTok} {t : PTok} {b c : List PTok} {s : Search} {ss : List Search} {L : List QOcc} :
      (t :: b).map (·.tk) = s.yield → Places c ss L → Places (a ++ (t :: b ++ c)) (s :: ss) (occAt t.start s :: L)

end Spec

theorem Spec.Places.prefix {ts : List PTok} {ss : List Search} {L : List QOcc} (h : Places ts ss L) (a : List PTok) : Places (a ++ ts) ss L := by
  cases h with
  | nil => exact .nil _
  | cons h1 h2 => rw [← List.append_assoc]; exact .cons h1 h2

theorem Spec.Places.append {ts ts' : List PTok} {ss ss' : List Search} {L L' : List QOcc} (h : Places ts ss L) (h' : Places ts' ss' L') :
    Places (ts ++ ts') (ss ++ ss') (L ++ L') := by
  induction h with
  | nil ts => exact h'.prefix ts
  | cons h1 _ ih =>
    simp only [List.append_assoc, List.cons_append] at ih ⊢
    exact .cons h1 ih

theorem Spec.Places.sublist {ts : List PTok} {ss : List Search} {L : List QOcc} (h : Places ts ss L) :
    (L.map (·.pos)).Sublist (ts.map (·.start)) := by
  induction h with
  | nil => simp
  | @cons a t b c s ss L _ _ ih =>
    simp only [List.map_append, List.map_cons, occAt, List.cons_append]
    exact (List.Sublist.cons_cons _ (ih.trans (List.sublist_append_right _ _))).trans (List.sublist_append_right _ _)

theorem Spec.Places.specs {ts : List PTok} {ss : List Search} {L : List QOcc} (h : Places ts ss L) :
    L.map (fun o => (o.spec, o.vname, o.optional)) = ss.map fun s => (s.spec.act, s.var, s.opt) := by
  induction h with
  | nil => simp
  | cons _ _ ih => simp [ih, occAt]

/-! ### The node searches of the tree of literals -/

/-- The search is in a literal of the tree. -/
def InTree (e : Q) (o : QOcc) : Prop := ∃ l ∈ e.literals, o ∈ l.occs

theorem inTree_term {l : QLit} {o : QOcc} : InTree (.term l) o ↔ o ∈ l.occs := by simp [InTree, Aql.Expr.literals]

theorem inTree_and {a b : Q} {o : QOcc} : InTree (.and a b) o ↔ InTree a o ∨ InTree b o := by
  simp only [InTree, Aql.Expr.literals, List.mem_append, or_and_right, exists_or]

theorem inTree_or {a b : Q} {o : QOcc} : InTree (.or a b) o ↔ InTree a o ∨ InTree b o := by
  simp only [InTree, Aql.Expr.literals, List.mem_append, or_and_right, exists_or]

theorem split_tokens {ps : List PTok} {a b : List Tk} (h : ps.map (·.tk) = a ++ b) :
    (ps.take a.length).map (·.tk) = a ∧ (ps.drop a.length).map (·.tk) = b := by
  rw [List.map_take, List.map_drop, h]
  simp

theorem opd_places {x : Opd} {ps rest : List PTok} {q : QOpd} (hy : ps.map (·.tk) = x.yield) (h : x.act (ps ++ rest) = some q) :
    Places ps (opdSearches x) q.occs := by
  cases x with
  | ref r =>
    simp only [Opd.act, Option.map_eq_some_iff] at h
    obtain ⟨a, _, rfl⟩ := h
    exact .nil _
  | search s =>
    simp only [Opd.yield] at hy
    cases ps with
    | nil => have := s.yield_pos; rw [← hy] at this; simp at this
    | cons t ps =>
      cases h
      have := Places.cons (a := []) (c := []) hy (.nil [])
      simpa [Aql.Operand.occs, occAt, startOf, opdSearches] using this

theorem link_places {x : Link} {ps rest : List PTok} {q : QOpd} (hy : ps.map (·.tk) = x.yield)
    (h : x.rhs.act ((ps ++ rest).drop x.opLen) = some q) : Places ps (opdSearches x.rhs) q.occs := by
  have hl : x.yield = (x.yield.take x.opLen) ++ x.rhs.yield ∧ (x.yield.take x.opLen).length = x.opLen := by
    obtain ⟨n, op, o⟩ := x
    cases n <;> simp [Link.yield, Link.opLen, Nat.add_comm 1]
  have hlen : x.opLen ≤ ps.length := by
    have h1 : ps.length = x.yield.length := by rw [← hy]; simp
    rw [h1]
    have := hl.2
    rw [List.length_take] at this
    omega
  rw [List.drop_append_of_le_length hlen] at h
  rw [hl.1] at hy
  have h2 := (split_tokens hy).2
  rw [hl.2] at h2
  have := opd_places h2 h
  have h3 := this.prefix (ps.take x.opLen)
  rwa [List.take_append_drop] at h3

theorem chain_places {last : QOpd} {ps rest : List PTok} {e e' : Q} {xs : List Link} (hy : ps.map (·.tk) = xs.flatMap Link.yield)
    (h : chainAct last (ps ++ rest) e xs = some e') (hlast : ∀ o ∈ last.occs, InTree e o) :
    ∃ L, Places ps (xs.flatMap fun y => opdSearches y.rhs) L ∧ ∀ o, InTree e' o ↔ InTree e o ∨ o ∈ L := by
  induction xs generalizing last ps e with
  | nil => cases h; exact ⟨[], .nil _, by simp⟩
  | cons x xs ih =>
    rw [chainAct] at h
    rw [List.flatMap_cons] at hy
    obtain ⟨h1, h2⟩ := split_tokens hy
    have hle : x.yield.length ≤ ps.length := by
      have := congrArg List.length hy
      simp at this
      omega
    split at h
    · cases h
    · rename_i q hq
      rw [List.drop_append_of_le_length hle] at h
      obtain ⟨L, hL, hm⟩ := ih h2 h (fun o ho => inTree_and.2 (.inr (inTree_term.2 (by simp [Aql.Literal.occs, ho]))))
      have hp := link_places (rest := ps.drop x.yield.length ++ rest) h1 (by rw [← List.append_assoc, List.take_append_drop]; exact hq)
      refine ⟨q.occs ++ L, ?_, fun o => ?_⟩
      · have := hp.append hL
        rwa [List.take_append_drop] at this
      · rw [hm, inTree_and, inTree_term]
        simp only [Aql.Literal.occs, List.mem_append]
        constructor
        · rintro ((h | h | h) | h)
          · exact .inl h
          · exact .inl (hlast o h)
          · exact .inr (.inl h)
          · exact .inr (.inr h)
        · rintro (h | h | h)
          · exact .inl (.inl h)
          · exact .inl (.inr (.inr h))
          · exact .inr h

theorem filter_inTree {last : Aql.Ref} {e e' : Q} {xs : List (Cmp × Ref)} (h : filterAct last e xs = some e') (o : QOcc) :
    InTree e' o ↔ InTree e o := by
  induction xs generalizing last e with
  | nil => cases h; rfl
  | cons x xs ih =>
    rw [filterAct] at h
    split at h
    · cases h
    · rw [ih h, inTree_and, inTree_term]
      simp [Aql.Literal.occs, Aql.Operand.occs]

theorem lit_places {l : Lit} {ps rest : List PTok} {e : Q} (hy : ps.map (·.tk) = l.yield) (h : l.act (ps ++ rest) = some e) :
    ∃ L, Places ps (litSearches l) L ∧ ∀ o, InTree e o ↔ o ∈ L := by
  cases l with
  | search s =>
    have := opd_places (x := .search s) (q := .lit s.spec.act (startOf (ps ++ rest)) s.var s.opt) hy rfl
    cases h
    exact ⟨_, this, fun o => by rw [inTree_term]; simp [Aql.Literal.occs, Aql.Operand.occs]⟩
  | chain l x xs =>
    simp only [Lit.act] at h
    simp only [Lit.yield] at hy
    obtain ⟨h1, h2⟩ := split_tokens hy
    obtain ⟨h3, h4⟩ := split_tokens h2
    have hle : l.yield.length + x.yield.length ≤ ps.length := by
      have := congrArg List.length hy
      simp at this
      omega
    split at h
    · rename_i a b ha hb
      have pa := opd_places (rest := ps.drop l.yield.length ++ rest) h1 (by rw [← List.append_assoc, List.take_append_drop]; exact ha)
      have pb := link_places (rest := (ps.drop l.yield.length).drop x.yield.length ++ rest) h3 (by
        rw [← List.append_assoc, List.take_append_drop, ← List.drop_append_of_le_length (by omega), List.drop_drop]; exact hb)
      rw [List.drop_append_of_le_length hle, ← List.drop_drop] at h
      obtain ⟨L, hL, hm⟩ := chain_places h4 h (fun o ho => inTree_term.2 (by simp [Aql.Literal.occs, ho]))
      refine ⟨a.occs ++ (b.occs ++ L), ?_, fun o => ?_⟩
      · have h5 := pb.append hL
        rw [List.take_append_drop] at h5
        have h6 := pa.append h5
        rw [List.take_append_drop] at h6
        simpa [litSearches] using h6
      · rw [hm, inTree_term]
        simp [Aql.Literal.occs, or_assoc]
    · cases h
  | filter l x xs =>
    simp only [Lit.act] at h
    split at h
    · refine ⟨[], .nil _, fun o => ?_⟩
      rw [filter_inTree h, inTree_term]
      simp [Aql.Literal.occs, Aql.Operand.occs]
    · cases h
  | arity r g =>
    simp only [Lit.act, Option.map_eq_some_iff] at h
    obtain ⟨a, _, rfl⟩ := h
    exact ⟨[], .nil _, fun o => by rw [inTree_term]; simp [Aql.Literal.occs]⟩
  | metaQ q c t =>
    cases h
    exact ⟨[], .nil _, fun o => by rw [inTree_term]; simp [Aql.Literal.occs]⟩

/-- The search is in the part of the tree that is built already. -/
def InAcc (acc : Option Q) (o : QOcc) : Prop := ∃ a, acc = some a ∧ InTree a o

theorem inTree_orWith {acc : Option Q} {e : Q} {o : QOcc} : InTree (orWith acc e) o ↔ InAcc acc o ∨ InTree e o := by
  cases acc <;> simp [orWith, InAcc, inTree_or]

theorem inTree_andWith {acc : Option Q} {e : Q} {o : QOcc} : InTree (andWith acc e) o ↔ InAcc acc o ∨ InTree e o := by
  cases acc <;> simp [andWith, InAcc, inTree_and]

theorem inAcc_none {o : QOcc} : ¬ InAcc none o := by simp [InAcc]

theorem inAcc_some {a : Q} {o : QOcc} : InAcc (some a) o ↔ InTree a o := by simp [InAcc]

theorem split_sep {ps : List PTok} {a b : List Tk} {t : Tk} (h : ps.map (·.tk) = a ++ t :: b) :
    (ps.take a.length).map (·.tk) = a ∧ (ps.drop (a.length + 1)).map (·.tk) = b ∧ a.length + 1 ≤ ps.length := by
  rw [List.map_take, List.map_drop, h]
  refine ⟨by simp, by simp, ?_⟩
  have := congrArg List.length h
  simp at this
  omega

theorem places_sep {ps : List PTok} {n : Nat} {ss ss' : List Search} {L L' : List QOcc} (h : Places (ps.take n) ss L)
    (h' : Places (ps.drop (n + 1)) ss' L') : Places ps (ss ++ ss') (L ++ L') := by
  have h2 := h'.prefix ((ps.drop n).take 1)
  rw [show ps.drop (n + 1) = (ps.drop n).drop 1 by rw [List.drop_drop], List.take_append_drop] at h2
  have := h.append h2
  rwa [List.take_append_drop] at this

mutual
theorem disj_places : ∀ (d : Disj) (ps rest : List PTok) (acc : Option Q) (e : Q), ps.map (·.tk) = d.yield → d.act (ps ++ rest) acc = some e →
    ∃ L, Places ps (searches d) L ∧ ∀ o, InTree e o ↔ InAcc acc o ∨ o ∈ L
  | .one c, ps, rest, acc, e, hy, h => by
    simp only [Disj.act, Option.map_eq_some_iff] at h
    obtain ⟨e', h', rfl⟩ := h
    obtain ⟨L, hL, hm⟩ := conj_places c ps rest none e' (by simpa only [Disj.yield] using hy) h'
    refine ⟨L, by simpa only [searches] using hL, fun o => ?_⟩
    rw [inTree_orWith, hm]
    simp [inAcc_none]
  | .more c d, ps, rest, acc, e, hy, h => by
    simp only [Disj.act] at h
    simp only [Disj.yield] at hy
    obtain ⟨h1, h2, h3⟩ := split_sep hy
    split at h
    · cases h
    · rename_i e' h'
      rw [List.drop_append_of_le_length h3] at h
      obtain ⟨L, hL, hm⟩ := conj_places c (ps.take c.yield.length) (ps.drop c.yield.length ++ rest) none e' h1 (by
        rw [← List.append_assoc, List.take_append_drop]; exact h')
      obtain ⟨L', hL', hm'⟩ := disj_places d _ rest _ e h2 h
      refine ⟨L ++ L', by simpa only [searches] using places_sep hL hL', fun o => ?_⟩
      rw [hm', inAcc_some, inTree_orWith, hm]
      simp [inAcc_none, or_assoc]
theorem conj_places : ∀ (d : Conj) (ps rest : List PTok) (acc : Option Q) (e : Q), ps.map (·.tk) = d.yield → d.act (ps ++ rest) acc = some e →
    ∃ L, Places ps (conjSearches d) L ∧ ∀ o, InTree e o ↔ InAcc acc o ∨ o ∈ L
  | .one c, ps, rest, acc, e, hy, h => by
    simp only [Conj.act, Option.map_eq_some_iff] at h
    obtain ⟨e', h', rfl⟩ := h
    obtain ⟨L, hL, hm⟩ := fac_places c ps rest e' (by simpa only [Conj.yield] using hy) h'
    refine ⟨L, by simpa only [conjSearches] using hL, fun o => ?_⟩
    rw [inTree_andWith, hm]
  | .more c d, ps, rest, acc, e, hy, h => by
    simp only [Conj.act] at h
    simp only [Conj.yield] at hy
    obtain ⟨h1, h2, h3⟩ := split_sep hy
    split at h
    · cases h
    · rename_i e' h'
      rw [List.drop_append_of_le_length h3] at h
      obtain ⟨L, hL, hm⟩ := fac_places c (ps.take c.yield.length) (ps.drop c.yield.length ++ rest) e' h1 (by
        rw [← List.append_assoc, List.take_append_drop]; exact h')
      obtain ⟨L', hL', hm'⟩ := conj_places d _ rest _ e h2 h
      refine ⟨L ++ L', by simpa only [conjSearches] using places_sep hL hL', fun o => ?_⟩
      rw [hm', inAcc_some, inTree_andWith, hm]
      simp [or_assoc]
theorem fac_places : ∀ (d : Fac) (ps rest : List PTok) (e : Q), ps.map (·.tk) = d.yield → d.act (ps ++ rest) = some e →
    ∃ L, Places ps (facSearches d) L ∧ ∀ o, InTree e o ↔ o ∈ L
  | .lit l, ps, rest, e, hy, h => by
    simp only [Fac.act] at h
    simp only [Fac.yield] at hy
    simpa only [facSearches] using lit_places hy h
  | .paren d, ps, rest, e, hy, h => by
    simp only [Fac.act] at h
    simp only [Fac.yield] at hy
    cases ps with
    | nil => simp at hy
    | cons t ps =>
      simp only [List.map_cons, List.cons.injEq] at hy
      obtain ⟨h1, _⟩ := split_tokens hy.2
      obtain ⟨L, hL, hm⟩ := disj_places d (ps.take d.yield.length) (ps.drop d.yield.length ++ rest) none e h1 (by
        rw [← List.append_assoc, List.take_append_drop]; simpa using h)
      refine ⟨L, ?_, fun o => ?_⟩
      · have := (hL.prefix [t]).append (.nil (ps.drop d.yield.length))
        simp only [List.append_nil, List.append_assoc, List.take_append_drop] at this
        simpa only [facSearches, List.singleton_append] using this
      · rw [hm]; simp [inAcc_none]
end

end Parse
