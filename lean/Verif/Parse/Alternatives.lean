import Verif.Parse.Props

/-!
# C92: the alternatives of a query are the conjunctions of its text
-/

namespace Parse

open Spec

/-- The conjunctions of a syntax tree, each with the tokens from its first one on. -/
def Spec.conjs : Disj → List PTok → List (Conj × List PTok)
  | .one c, ps => [(c, ps)]
  | .more c d, ps => (c, ps) :: conjs d (ps.drop (c.yield.length + 1))

theorem isConj_alternatives {e : Q} (h : Aql.IsConj e) :
    Aql.alternatives e = [Aql.andChildren e] ∧ Aql.orChildren e = [e] ∧ Aql.alternativeOf e = some (Aql.andChildren e) := by
  cases h with
  | term l => exact ⟨rfl, rfl, rfl⟩
  | and h1 h2 => exact ⟨rfl, rfl, rfl⟩

theorem isDnf_alternatives {e : Q} (h : Aql.IsDnf e) : Aql.alternatives e = (Aql.orChildren e).filterMap Aql.alternativeOf := by
  cases h with
  | conj h =>
    obtain ⟨h1, h2, h3⟩ := isConj_alternatives h
    rw [h1, h2]
    simp [h3]
  | or h1 h2 => rfl

theorem orWith_alternatives {acc : Option Q} {e : Q} (ha : ∀ a, acc = some a → Aql.IsDnf a) (he : Aql.IsDnf e) :
    Aql.alternatives (orWith acc e) = acc.elim [] Aql.alternatives ++ Aql.alternatives e := by
  cases acc with
  | none => rfl
  | some a =>
    have h1 := isDnf_alternatives (ha a rfl)
    have h2 := isDnf_alternatives he
    simp only [orWith, Option.elim, h1, h2]
    rw [Aql.alternatives, Aql.orChildren, List.filterMap_append]

theorem conj_alternative {c : Conj} {ps : List PTok} {e : Q} (hf : Flat.FlatC c) (h : c.act ps none = some e) :
    Aql.IsConj e ∧ Aql.alternatives e = [Aql.andChildren e] ∧ ∀ v : QLit → Bool, (Aql.andChildren e).all v = true ↔ ConjHolds v c ps := by
  have hc := flatC_isConj c ps none e hf (by simp) h
  refine ⟨hc, (isConj_alternatives hc).1, fun v => ?_⟩
  rw [Aql.andChildren_eval v hc, conj_eval v c ps none e h]
  simp

theorem disj_alternatives : ∀ (d : Disj) (ps : List PTok) (acc : Option Q) (e : Q), Flat d → (∀ a, acc = some a → Aql.IsDnf a) →
    d.act ps acc = some e → ∃ alts, Aql.alternatives e = acc.elim [] Aql.alternatives ++ alts ∧
      List.Forall₂ (fun (c : List QLit) cp => ∀ v : QLit → Bool, c.all v = true ↔ ConjHolds v cp.1 cp.2) alts (conjs d ps)
  | .one c, ps, acc, e, hf, ha, h => by
    simp only [Disj.act, Option.map_eq_some_iff] at h
    obtain ⟨e', h', rfl⟩ := h
    obtain ⟨h1, h2, h3⟩ := conj_alternative (by simpa only [Flat] using hf) h'
    exact ⟨[Aql.andChildren e'], by rw [orWith_alternatives ha (.conj h1), h2], .cons h3 .nil⟩
  | .more c d, ps, acc, e, hf, ha, h => by
    simp only [Disj.act] at h
    simp only [Flat] at hf
    split at h
    · cases h
    · rename_i e' h'
      obtain ⟨h1, h2, h3⟩ := conj_alternative hf.1 h'
      obtain ⟨alts, h4, h5⟩ := disj_alternatives d _ _ e hf.2 (fun a he => by
        cases he; exact isDnf_orWith ha (.conj h1)) h
      refine ⟨Aql.andChildren e' :: alts, ?_, .cons h3 h5⟩
      rw [h4, Option.elim, orWith_alternatives ha (.conj h1), h2]
      simp

/-- The alternatives of a query without parentheses are, in this order, the conjunctions of its text: each has the literals that are in the
conjunction. -/
theorem C92_alternatives {s : Str} {e : Q} {ps : List PTok} {d : Disj} (h : parseQuery s = .ok e) (ht : Tree s ps d) (hf : Flat d) :
    List.Forall₂ (fun (c : List QLit) cp => ∀ v : QLit → Bool, c.all v = true ↔ ConjHolds v cp.1 cp.2) (Aql.alternatives e) (conjs d ps) := by
  obtain ⟨ps', d', ht', he⟩ := ok_tree h
  obtain ⟨rfl, rfl⟩ := tree_unique ht ht'
  obtain ⟨alts, h1, h2⟩ := disj_alternatives d ps none e hf (by simp) he
  rw [h1]
  exact h2

mutual
theorem flat_of_disj : ∀ d : Disj, Tk.kw .lpar ∉ d.yield → Flat d
  | .one c, h => by simp only [Flat]; exact flat_of_conj c (by simpa [Disj.yield] using h)
  | .more c d, h => by
    simp only [Disj.yield, List.mem_append, List.mem_cons, not_or] at h
    simp only [Flat]
    exact ⟨flat_of_conj c h.1, flat_of_disj d h.2.2⟩
theorem flat_of_conj : ∀ c : Conj, Tk.kw .lpar ∉ c.yield → Flat.FlatC c
  | .one f, h => by simp only [Flat.FlatC]; exact flat_of_fac f (by simpa [Conj.yield] using h)
  | .more f c, h => by
    simp only [Conj.yield, List.mem_append, List.mem_cons, not_or] at h
    simp only [Flat.FlatC]
    exact ⟨flat_of_fac f h.1, flat_of_conj c h.2.2⟩
theorem flat_of_fac : ∀ f : Fac, Tk.kw .lpar ∉ f.yield → Flat.FlatF f
  | .lit _, _ => by simp [Flat.FlatF]
  | .paren d, h => by simp [Fac.yield] at h
end

/-- An accepted text without the token `(` has a syntax tree without parentheses. -/
theorem C92_no_parens {s : Str} {e : Q} {ps : List PTok} (h : parseQuery s = .ok e) (hl : lex s = .ok ps) (hp : ∀ t ∈ ps, t.tk ≠ .kw .lpar) :
    ∃ d, Tree s ps d ∧ Flat d := by
  obtain ⟨ps', d, ht, _⟩ := ok_tree h
  have e1 := C91_unique ((C91_lex s ps).1 hl) ht.1
  subst e1
  refine ⟨d, ht, flat_of_disj d ?_⟩
  rw [ht.2, List.mem_map]
  rintro ⟨t, ht, e2⟩
  exact hp t ht e2

end Parse
