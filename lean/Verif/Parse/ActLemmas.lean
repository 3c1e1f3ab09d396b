import Verif.Parse.Actions

set_option linter.unusedSimpArgs false

/-!
# Lemmas about the actions
-/

namespace Parse

open Spec

theorem eval_orWith (v : QLit → Bool) (acc : Option Q) (e : Q) :
    ((orWith acc e).eval v = true ↔ (∃ a, acc = some a ∧ a.eval v = true) ∨ e.eval v = true) := by
  cases acc <;> simp [orWith, Aql.Expr.eval]

theorem eval_andWith (v : QLit → Bool) (acc : Option Q) (e : Q) :
    ((andWith acc e).eval v = true ↔ (∀ a, acc = some a → a.eval v = true) ∧ e.eval v = true) := by
  cases acc <;> simp [andWith, Aql.Expr.eval]

/-! ### Chains -/

/-- The operands of a chain after the first one was read. -/
def opAt (last : Option QOpd) (xs : List Link) (ps : List PTok) : Nat → Option QOpd
  | 0 => last
  | i + 1 =>
    match xs[i]? with
    | none => none
    | some x => x.rhs.act (ps.drop (((xs.take i).flatMap Link.yield).length + x.opLen))

theorem operand_eq (l : Opd) (xs : List Link) (ps : List PTok) (i : Nat) :
    operand l xs ps i = opAt (l.act ps) xs (ps.drop l.yield.length) i := by
  cases i with
  | zero => rfl
  | succ i =>
    simp only [operand, opAt]
    cases xs[i]? with
    | none => rfl
    | some x => simp only [List.drop_drop, Nat.add_assoc]

theorem opAt_succ (last : Option QOpd) (x : Link) (xs : List Link) (ps : List PTok) (i : Nat) :
    opAt last (x :: xs) ps (i + 1) = opAt (x.rhs.act (ps.drop x.opLen)) xs (ps.drop x.yield.length) i := by
  cases i with
  | zero => simp [opAt]
  | succ i =>
    simp only [opAt, List.getElem?_cons_succ]
    cases xs[i]? with
    | none => rfl
    | some y => simp only [List.take_succ_cons, List.flatMap_cons, List.length_append, List.drop_drop, Nat.add_assoc]

/-- When the operators of a chain hold. -/
def ChainHolds (v : QLit → Bool) (last : Option QOpd) (xs : List Link) (ps : List PTok) : Prop :=
  ∀ (i : Nat) (y : Link) (a b : QOpd), xs[i]? = some y → opAt last xs ps i = some a → opAt last xs ps (i + 1) = some b →
    v (.bin a y.op.act b y.neg) = true

theorem chainHolds_cons (v : QLit → Bool) (a b : QOpd) (x : Link) (xs : List Link) (ps : List PTok)
    (hb : x.rhs.act (ps.drop x.opLen) = some b) :
    ChainHolds v (some a) (x :: xs) ps ↔ v (.bin a x.op.act b x.neg) = true ∧ ChainHolds v (some b) xs (ps.drop x.yield.length) := by
  constructor
  · intro h
    refine ⟨h 0 x a b rfl rfl (by rw [opAt_succ]; exact hb), ?_⟩
    intro i y a' b' h1 h2 h3
    refine h (i + 1) y a' b' h1 ?_ ?_
    · rw [opAt_succ, hb]; exact h2
    · rw [opAt_succ, hb]; exact h3
  · rintro ⟨h1, h2⟩ i y a' b' e1 e2 e3
    cases i with
    | zero =>
      rw [opAt_succ, hb] at e3
      simp only [opAt, Option.some.injEq] at e2 e3
      simp only [List.getElem?_cons_zero, Option.some.injEq] at e1
      subst e1 e2 e3
      exact h1
    | succ i =>
      rw [opAt_succ, hb] at e2 e3
      exact h2 i y a' b' e1 e2 e3

theorem chainAct_eval (v : QLit → Bool) {last : QOpd} {ps : List PTok} {e e' : Q} {xs : List Link} (h : chainAct last ps e xs = some e') :
    e'.eval v = true ↔ e.eval v = true ∧ ChainHolds v (some last) xs ps := by
  induction xs generalizing last ps e with
  | nil =>
    cases h
    simp [ChainHolds]
  | cons x xs ih =>
    rw [chainAct] at h
    split at h
    · cases h
    · rename_i o ho
      rw [ih h, chainHolds_cons v last o x xs ps ho]
      simp [Aql.Expr.eval, and_assoc]

/-- When the comparisons of a filter hold. -/
def FilterHolds (v : QLit → Bool) (l : Ref) (xs : List (Cmp × Ref)) : Prop :=
  ∀ (i : Nat) (c : Cmp) (r r' : Ref) (a b : Aql.Ref), xs[i]? = some (c, r') → (l :: xs.map (·.2))[i]? = some r → r.act = some a →
    r'.act = some b → v (.bin (.ref a) (.other (.valueComparison c)) (.ref b) false) = true

theorem filterHolds_cons (v : QLit → Bool) (l : Ref) (a b : Aql.Ref) (x : Cmp × Ref) (xs : List (Cmp × Ref)) (ha : l.act = some a)
    (hb : x.2.act = some b) :
    FilterHolds v l (x :: xs) ↔ v (.bin (.ref a) (.other (.valueComparison x.1)) (.ref b) false) = true ∧ FilterHolds v x.2 xs := by
  constructor
  · intro h
    refine ⟨h 0 x.1 l x.2 a b rfl rfl ha hb, ?_⟩
    intro i c r r' a' b' h1 h2 h3 h4
    exact h (i + 1) c r r' a' b' h1 h2 h3 h4
  · rintro ⟨h1, h2⟩ i c r r' a' b' e1 e2 e3 e4
    cases i with
    | zero =>
      simp only [List.getElem?_cons_zero, Option.some.injEq] at e1 e2
      subst e1 e2
      rw [ha] at e3
      rw [hb] at e4
      cases e3; cases e4
      exact h1
    | succ i => exact h2 i c r r' a' b' e1 e2 e3 e4

theorem filterAct_eval (v : QLit → Bool) {l : Ref} {last : Aql.Ref} (hl : l.act = some last) {e e' : Q} {xs : List (Cmp × Ref)}
    (h : filterAct last e xs = some e') : e'.eval v = true ↔ e.eval v = true ∧ FilterHolds v l xs := by
  induction xs generalizing l last e with
  | nil =>
    cases h
    simp [FilterHolds]
  | cons x xs ih =>
    rw [filterAct] at h
    split at h
    · cases h
    · rename_i o ho
      rw [ih ho h, filterHolds_cons v l last o x xs hl ho]
      simp [Aql.Expr.eval, and_assoc]

theorem lit_eval (v : QLit → Bool) {l : Lit} {ps : List PTok} {e : Q} (h : l.act ps = some e) : e.eval v = true ↔ LitHolds v ps l := by
  cases l with
  | search s => cases h; simp [Aql.Expr.eval, LitHolds]
  | chain l x xs =>
    simp only [Lit.act] at h
    split at h
    · rename_i a b ha hb
      rw [chainAct_eval v h]
      simp only [LitHolds, operand_eq, ha]
      have := chainHolds_cons v a b x xs (ps.drop l.yield.length) (by rw [List.drop_drop]; exact hb)
      unfold ChainHolds at this
      rw [this, List.drop_drop]
      rfl
    · cases h
  | filter l x xs =>
    simp only [Lit.act] at h
    split at h
    · rename_i a b ha hb
      rw [filterAct_eval v hb h]
      exact (filterHolds_cons v l a b x xs ha hb).symm
    · cases h
  | arity r g =>
    simp only [Lit.act, Option.map_eq_some_iff] at h
    obtain ⟨a, ha, rfl⟩ := h
    simp only [Aql.Expr.eval, LitHolds]
    exact ⟨fun h b hb => by rw [ha] at hb; cases hb; exact h, fun h => h a ha⟩
  | metaQ q c t => cases h; simp [Aql.Expr.eval, LitHolds]

mutual
theorem disj_eval (v : QLit → Bool) : ∀ (d : Disj) (ps : List PTok) (acc : Option Q) (e : Q), d.act ps acc = some e →
    (e.eval v = true ↔ (∃ a, acc = some a ∧ a.eval v = true) ∨ DisjHolds v d ps)
  | .one c, ps, acc, e, h => by
    simp only [Disj.act, Option.map_eq_some_iff] at h
    obtain ⟨e', h', rfl⟩ := h
    rw [eval_orWith, conj_eval v c ps none e' h']
    simp [DisjHolds]
  | .more c d, ps, acc, e, h => by
    simp only [Disj.act] at h
    split at h
    · cases h
    · rename_i e' h'
      rw [disj_eval v d _ _ e h]
      simp only [Option.some.injEq, exists_eq_left']
      rw [eval_orWith, conj_eval v c ps none e' h']
      simp [DisjHolds, or_assoc]
theorem conj_eval (v : QLit → Bool) : ∀ (d : Conj) (ps : List PTok) (acc : Option Q) (e : Q), d.act ps acc = some e →
    (e.eval v = true ↔ (∀ a, acc = some a → a.eval v = true) ∧ ConjHolds v d ps)
  | .one f, ps, acc, e, h => by
    simp only [Conj.act, Option.map_eq_some_iff] at h
    obtain ⟨e', h', rfl⟩ := h
    rw [eval_andWith, fac_eval v f ps e' h']
    simp [ConjHolds]
  | .more f c, ps, acc, e, h => by
    simp only [Conj.act] at h
    split at h
    · cases h
    · rename_i e' h'
      rw [conj_eval v c _ _ e h]
      simp only [Option.some.injEq, forall_eq']
      rw [eval_andWith, fac_eval v f ps e' h']
      simp [ConjHolds, and_assoc]
theorem fac_eval (v : QLit → Bool) : ∀ (d : Fac) (ps : List PTok) (e : Q), d.act ps = some e → (e.eval v = true ↔ FacHolds v d ps)
  | .lit l, ps, e, h => by
    simp only [Fac.act] at h
    simp only [FacHolds]
    exact lit_eval v h
  | .paren d, ps, e, h => by
    simp only [Fac.act] at h
    rw [disj_eval v d _ none e h]
    simp [FacHolds]
end

/-! ### Panics -/

theorem refsFit_append {a b : List Tk} : RefsFit (a ++ b) ↔ RefsFit a ∧ RefsFit b := by
  simp only [RefsFit, List.mem_append]
  constructor
  · intro h; exact ⟨fun s hs => h s (.inl hs), fun s hs => h s (.inr hs)⟩
  · rintro ⟨h1, h2⟩ s (hs | hs)
    · exact h1 s hs
    · exact h2 s hs

theorem refsFit_cons {t : Tk} {b : List Tk} (ht : ∀ s, t ≠ .nodeRef s) : RefsFit (t :: b) ↔ RefsFit b := by
  simp only [RefsFit, List.mem_cons]
  constructor
  · intro h s hs; exact h s (.inr hs)
  · rintro h s (hs | hs)
    · exact absurd hs.symm (ht s)
    · exact h s hs

theorem refsFit_nil : RefsFit [] := by simp [RefsFit]

theorem fit_qn (q : QN) : RefsFit q.yield := by
  obtain ⟨ns, n⟩ := q
  cases ns <;> simp [RefsFit, QN.yield]

theorem fit_cmp (c : Cmp) : RefsFit c.yield := by cases c <;> simp [RefsFit, Cmp.yield]

theorem fit_fcmp (c : Cmp) : RefsFit c.filterYield := by cases c <;> simp [RefsFit, Cmp.filterYield]

theorem fit_txt (c : Txt) : RefsFit c.yield := by cases c <;> simp [RefsFit, Txt.yield]

theorem fit_ns (s : NS) : RefsFit s.yield := by
  cases s with
  | node => simp [RefsFit, NS.yield]
  | tok => simp [RefsFit, NS.yield]
  | tokCmp c t => simp only [NS.yield]; rw [refsFit_cons (by simp), refsFit_append]; exact ⟨fit_cmp c, fit_txt t⟩
  | txt t => exact fit_txt t
  | named q c t => simp only [NS.yield]; rw [refsFit_append, refsFit_append]; exact ⟨fit_qn q, fit_cmp c, fit_txt t⟩
  | name q => exact fit_qn q

theorem fit_search (s : Search) : RefsFit s.yield := by
  obtain ⟨v, s, o⟩ := s
  simp only [Search.yield]
  rw [refsFit_append, refsFit_append]
  refine ⟨?_, fit_ns s, ?_⟩
  · cases v <;> simp [RefsFit, varYield]
  · cases o <;> simp [RefsFit]

theorem fit_rng (r : Rng) : RefsFit r.yield := by
  cases r with
  | two b x y => cases b <;> simp [RefsFit, Rng.yield, optComma]
  | one b x => cases b <;> simp [RefsFit, Rng.yield, optComma]
  | star => simp [RefsFit, Rng.yield]

theorem fit_optRng (r : Option Rng) : RefsFit (rngYield r) := by
  cases r with
  | none => exact refsFit_nil
  | some r => exact fit_rng r

theorem fit_tail (t : Tail) : RefsFit t.yield := by
  cases t with
  | none => exact refsFit_nil
  | rng r => exact fit_rng r
  | anno a =>
    simp only [Tail.yield, EA.yield]
    rw [refsFit_cons (by simp), refsFit_append, refsFit_append, refsFit_append]
    exact ⟨fit_qn _, fit_cmp _, fit_txt _, by simp [RefsFit]⟩

theorem fit_bop (b : BOp) : RefsFit b.yield := by
  cases b with
  | dom n t => simp only [BOp.yield]; rw [refsFit_cons (by simp)]; exact fit_tail t
  | point n t => simp only [BOp.yield]; rw [refsFit_cons (by simp)]; exact fit_tail t
  | prec n t => simp only [BOp.yield]; rw [refsFit_cons (by simp)]; exact fit_optRng t
  | near n t => simp only [BOp.yield]; rw [refsFit_cons (by simp)]; exact fit_optRng t
  | partOf t => simp only [BOp.yield]; rw [refsFit_cons (by simp)]; exact fit_optRng t
  | _ => simp [RefsFit, BOp.yield]

theorem ref_fit (r : Ref) : r.act.isSome = true ↔ RefsFit r.yield := by
  cases r with
  | num s =>
    by_cases h : natOf s < 2 ^ 64 <;> simp [Ref.act, Ref.yield, RefsFit, usize, h]
  | var s => simp [Ref.act, Ref.yield, RefsFit]

theorem opd_fit (x : Opd) (ps : List PTok) : (x.act ps).isSome = true ↔ RefsFit x.yield := by
  cases x with
  | ref r => simp only [Opd.act, Option.isSome_map, Opd.yield]; exact ref_fit r
  | search s => simp [Opd.act, Opd.yield, fit_search]

theorem link_fit (x : Link) : RefsFit x.yield ↔ RefsFit x.rhs.yield := by
  obtain ⟨n, op, o⟩ := x
  simp only [Link.yield]
  rw [refsFit_append, refsFit_append]
  have : RefsFit (if n then [Tk.kw .bang] else []) := by cases n <;> simp [RefsFit]
  simp [this, fit_bop]

theorem chain_fit (last : QOpd) (ps : List PTok) (e : Q) (xs : List Link) :
    (chainAct last ps e xs).isSome = true ↔ RefsFit (xs.flatMap Link.yield) := by
  induction xs generalizing last ps e with
  | nil => simp [chainAct, refsFit_nil]
  | cons x xs ih =>
    rw [chainAct, List.flatMap_cons, refsFit_append, link_fit, ← opd_fit x.rhs (ps.drop x.opLen)]
    cases x.rhs.act (ps.drop x.opLen) with
    | none => simp
    | some o => simp [ih]

theorem filterLink_fit (x : Cmp × Ref) : RefsFit (filterLink x) ↔ RefsFit x.2.yield := by
  unfold filterLink
  rw [refsFit_append]
  simp [fit_fcmp]

theorem filter_fit (last : Aql.Ref) (e : Q) (xs : List (Cmp × Ref)) :
    (filterAct last e xs).isSome = true ↔ RefsFit (xs.flatMap filterLink) := by
  induction xs generalizing last e with
  | nil => simp [filterAct, refsFit_nil]
  | cons x xs ih =>
    rw [filterAct, List.flatMap_cons, refsFit_append, filterLink_fit, ← ref_fit]
    cases x.2.act with
    | none => simp
    | some o => simp [ih]

theorem lit_fit (l : Lit) (ps : List PTok) : (l.act ps).isSome = true ↔ RefsFit l.yield := by
  cases l with
  | search s => simp [Lit.act, Lit.yield, fit_search]
  | chain l x xs =>
    simp only [Lit.act, Lit.yield]
    rw [refsFit_append, refsFit_append, link_fit, ← opd_fit l ps, ← opd_fit x.rhs (ps.drop (l.yield.length + x.opLen))]
    cases l.act ps with
    | none => simp
    | some a =>
      cases x.rhs.act (ps.drop (l.yield.length + x.opLen)) with
      | none => simp
      | some b => simp [chain_fit]
  | filter l x xs =>
    simp only [Lit.act, Lit.yield]
    rw [refsFit_append, refsFit_append, filterLink_fit, ← ref_fit, ← ref_fit]
    cases l.act with
    | none => simp
    | some a =>
      cases x.2.act with
      | none => simp
      | some b => simp [filter_fit]
  | arity r g =>
    simp only [Lit.act, Lit.yield, Option.isSome_map]
    rw [refsFit_append, refsFit_cons (by simp), refsFit_cons (by simp), ref_fit]
    simp [fit_rng]
  | metaQ q c t =>
    simp only [Lit.act, Lit.yield]
    rw [refsFit_cons (by simp), refsFit_append, refsFit_append]
    simp [fit_qn, fit_cmp, fit_txt]

mutual
theorem disj_fit : ∀ (d : Disj) (ps : List PTok) (acc : Option Q), (d.act ps acc).isSome = true ↔ RefsFit d.yield
  | .one c, ps, acc => by
    simp only [Disj.act, Disj.yield, Option.isSome_map]
    exact conj_fit c ps none
  | .more c d, ps, acc => by
    simp only [Disj.act, Disj.yield]
    rw [refsFit_append, refsFit_cons (by simp), ← conj_fit c ps none]
    cases c.act ps none with
    | none => simp
    | some e => simp [disj_fit d]
theorem conj_fit : ∀ (d : Conj) (ps : List PTok) (acc : Option Q), (d.act ps acc).isSome = true ↔ RefsFit d.yield
  | .one f, ps, acc => by
    simp only [Conj.act, Conj.yield, Option.isSome_map]
    exact fac_fit f ps
  | .more f c, ps, acc => by
    simp only [Conj.act, Conj.yield]
    rw [refsFit_append, refsFit_cons (by simp), ← fac_fit f ps]
    cases f.act ps with
    | none => simp
    | some e => simp [conj_fit c]
theorem fac_fit : ∀ (d : Fac) (ps : List PTok), (d.act ps).isSome = true ↔ RefsFit d.yield
  | .lit l, ps => by simp only [Fac.act, Fac.yield]; exact lit_fit l ps
  | .paren d, ps => by
    simp only [Fac.act, Fac.yield]
    rw [refsFit_cons (by simp), refsFit_append, disj_fit d]
    simp [RefsFit]
end

end Parse
