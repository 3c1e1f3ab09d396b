import Verif.Parse.Grammar

set_option linter.unusedSimpArgs false

/-!
# Lemmas about the parser
-/

namespace Parse

/-! ### What the parser reads -/

theorem pQN_sound {ts r : List Tk} {x : QN} (h : pQN ts = some (x, r)) : ts = x.yield ++ r := by
  unfold pQN at h
  split at h
  · split at h
    · cases h; rfl
    · cases h
  · cases h; rfl
  · cases h

theorem pCmp_sound {ts r : List Tk} {x : Cmp} (h : pCmp ts = some (x, r)) : ts = x.yield ++ r := by
  unfold pCmp at h
  split at h <;> cases h <;> rfl

theorem pFilter_sound {ts r : List Tk} {x : Cmp} (h : pFilter ts = some (x, r)) : ts = x.filterYield ++ r := by
  unfold pFilter at h
  split at h <;> cases h <;> rfl

theorem pTxt_sound {ts r : List Tk} {x : Txt} (h : pTxt ts = some (x, r)) : ts = x.yield ++ r := by
  unfold pTxt at h
  split at h <;> cases h <;> rfl

/-- The tokens of an optional comparison. -/
def valYield : Option (Cmp × Txt) → List Tk
  | none => []
  | some (c, t) => c.yield ++ t.yield

theorem pVal_sound {ts r : List Tk} {x : Option (Cmp × Txt)} (h : pVal ts = some (x, r)) : ts = valYield x ++ r := by
  unfold pVal at h
  split at h
  · cases h; rfl
  · rename_i e
    split at h
    · cases h
    · rename_i e2
      cases h
      rw [pCmp_sound e, pTxt_sound e2]; simp [valYield]

theorem pNS_sound {ts r : List Tk} {x : NS} (h : pNS ts = some (x, r)) : ts = x.yield ++ r := by
  unfold pNS at h
  split at h
  · cases h; rfl
  · split at h
    · cases h
    · rename_i e; cases h; rw [pVal_sound e]; rfl
    · rename_i e; cases h; rw [pVal_sound e]; simp [valYield, NS.yield]
  · split at h
    · rename_i e; cases h; rw [pTxt_sound e]; rfl
    · split at h
      · cases h
      · rename_i e
        split at h
        · cases h
        · rename_i e2; cases h; rw [pQN_sound e, pVal_sound e2]; rfl
        · rename_i e2; cases h; rw [pQN_sound e, pVal_sound e2]; simp [valYield, NS.yield]

theorem pVar_sound (ts : List Tk) : ts = varYield (pVar ts).1 ++ (pVar ts).2 := by
  unfold pVar
  split <;> rfl

theorem pQuest_sound (ts : List Tk) : ts = (if (pQuest ts).1 then [Tk.kw .quest] else []) ++ (pQuest ts).2 := by
  unfold pQuest
  split <;> rfl

theorem pBang_sound (ts : List Tk) : ts = (if (pBang ts).1 then [Tk.kw .bang] else []) ++ (pBang ts).2 := by
  unfold pBang
  split <;> rfl

theorem pSearch_sound {ts r : List Tk} {x : Search} (h : pSearch ts = some (x, r)) : ts = x.yield ++ r := by
  unfold pSearch at h
  split at h
  · cases h
  · rename_i s r' e
    cases h
    have e2 := pNS_sound e
    have e3 := pQuest_sound r'
    conv_lhs => rw [pVar_sound ts, e2, e3]
    simp [Search.yield]

theorem pRef_sound {ts r : List Tk} {x : Ref} (h : pRef ts = some (x, r)) : ts = x.yield ++ r := by
  unfold pRef at h
  split at h <;> cases h <;> rfl

theorem pOpd_sound {ts r : List Tk} {x : Opd} (h : pOpd ts = some (x, r)) : ts = x.yield ++ r := by
  unfold pOpd at h
  split at h
  · rename_i e; cases h; exact pRef_sound e
  · rw [Option.map_eq_some_iff] at h
    obtain ⟨⟨s, r'⟩, e, h⟩ := h
    cases h
    exact pSearch_sound e

theorem pNums_sound {b : Bool} {ts r : List Tk} {x : Rng} (h : pNums b ts = some (x, r)) : optComma b ++ ts = x.yield ++ r := by
  unfold pNums at h
  split at h
  · split at h
    · cases h; simp [Rng.yield]
    · cases h
  · cases h; simp [Rng.yield]
  · cases h

theorem pRng_sound {ts r : List Tk} {x : Rng} (h : pRng ts = some (x, r)) : ts = x.yield ++ r := by
  unfold pRng at h
  split at h
  · cases h; rfl
  · exact pNums_sound (b := true) h
  · exact pNums_sound (b := false) h

theorem pOptRng_sound {ts r : List Tk} {x : Option Rng} (h : pOptRng ts = some (x, r)) : ts = rngYield x ++ r := by
  unfold pOptRng at h
  split at h
  · rw [Option.map_eq_some_iff] at h
    obtain ⟨⟨s, r'⟩, e, h⟩ := h
    cases h
    exact pRng_sound e
  · cases h; rfl

theorem pEA_sound {ts r : List Tk} {x : EA} (h : pEA ts = some (x, r)) : .kw .lbr :: ts = x.yield ++ r := by
  unfold pEA at h
  split at h
  · cases h
  · rename_i e
    split at h
    · cases h
    · rename_i e2
      split at h
      · rename_i e3
        cases h
        rw [pQN_sound e, pCmp_sound e2, pTxt_sound e3]
        simp [EA.yield]
      · cases h

theorem pTail_sound {ts r : List Tk} {x : Tail} (h : pTail ts = some (x, r)) : ts = x.yield ++ r := by
  unfold pTail at h
  split at h
  · rw [Option.map_eq_some_iff] at h
    obtain ⟨⟨s, r'⟩, e, h⟩ := h
    cases h
    exact pEA_sound e
  · rw [Option.map_eq_some_iff] at h
    obtain ⟨⟨s, r'⟩, e, h⟩ := h
    cases h
    have := pOptRng_sound e
    cases s <;> exact this

theorem pBOp_sound {ts r : List Tk} {x : BOp} (h : pBOp ts = some (x, r)) : ts = x.yield ++ r := by
  unfold pBOp at h
  split at h
  · rw [Option.map_eq_some_iff] at h; obtain ⟨⟨s, r'⟩, e, h⟩ := h; cases h; rw [pTail_sound e]; rfl
  · rw [Option.map_eq_some_iff] at h; obtain ⟨⟨s, r'⟩, e, h⟩ := h; cases h; rw [pTail_sound e]; rfl
  · rw [Option.map_eq_some_iff] at h; obtain ⟨⟨s, r'⟩, e, h⟩ := h; cases h; rw [pOptRng_sound e]; rfl
  · rw [Option.map_eq_some_iff] at h; obtain ⟨⟨s, r'⟩, e, h⟩ := h; cases h; rw [pOptRng_sound e]; rfl
  · rw [Option.map_eq_some_iff] at h; obtain ⟨⟨s, r'⟩, e, h⟩ := h; cases h; rw [pOptRng_sound e]; rfl
  all_goals first | (cases h; rfl) | cases h

theorem pLink_sound {ts r : List Tk} {x : Link} (h : pLink ts = some (x, r)) : ts = x.yield ++ r := by
  unfold pLink at h
  split at h
  · cases h
  · rename_i e
    split at h
    · cases h
    · rename_i e2
      cases h
      conv_lhs => rw [pBang_sound ts, pBOp_sound e, pOpd_sound e2]
      simp [Link.yield]

theorem pLinks_sound {n : Nat} {ts r : List Tk} {x : List Link} (h : pLinks n ts = some (x, r)) : ts = x.flatMap Link.yield ++ r := by
  induction n generalizing ts x with
  | zero => cases h; rfl
  | succ n ih =>
    rw [pLinks] at h
    split at h
    · split at h
      · cases h
      · rename_i e
        split at h
        · cases h
        · rename_i e2
          cases h
          rw [pLink_sound e, ih e2]
          simp
    · cases h; rfl

theorem pFilters_sound {n : Nat} {ts r : List Tk} {x : List (Cmp × Ref)} (h : pFilters n ts = some (x, r)) :
    ts = x.flatMap filterLink ++ r := by
  induction n generalizing ts x with
  | zero => cases h; rfl
  | succ n ih =>
    rw [pFilters] at h
    split at h
    · cases h; rfl
    · rename_i e
      split at h
      · cases h
      · rename_i e2
        split at h
        · cases h
        · rename_i e3
          cases h
          rw [pFilter_sound e, pRef_sound e2, ih e3]
          simp [filterLink]

theorem pChain_sound {l : Opd} {ts r : List Tk} {x : Lit} (h : pChain l ts = some (x, r)) : l.yield ++ ts = x.yield ++ r := by
  unfold pChain at h
  split at h
  · cases h
  · rename_i e
    split at h
    · cases h
    · rename_i e2
      cases h
      rw [pLink_sound e]
      conv_lhs => rw [pLinks_sound e2]
      simp [Lit.yield]

theorem pAfterRef_sound {x : Ref} {ts r : List Tk} {y : Lit} (h : pAfterRef x ts = some (y, r)) : x.yield ++ ts = y.yield ++ r := by
  unfold pAfterRef at h
  split at h
  · split at h
    · rw [Option.map_eq_some_iff] at h
      obtain ⟨⟨s, r'⟩, e3, h⟩ := h
      cases h
      rw [pRng_sound e3]
      simp [Lit.yield]
    · cases h
  · exact pChain_sound (l := .ref _) h

theorem pOpLit_sound {ts r : List Tk} {x : Lit} (h : pOpLit ts = some (x, r)) : ts = x.yield ++ r := by
  unfold pOpLit at h
  split at h
  · rename_i e
    rw [pRef_sound e]
    split at h
    · rename_i e2
      rw [pFilter_sound e2]
      split at h
      · cases h
      · rename_i e3
        rw [Option.map_eq_some_iff] at h
        obtain ⟨⟨s, r'⟩, e4, h⟩ := h
        cases h
        rw [pRef_sound e3]
        conv_lhs => rw [pFilters_sound e4]
        simp [Lit.yield, filterLink]
    · exact pAfterRef_sound h
  · split at h
    · cases h
    · rename_i e
      rw [pSearch_sound e]
      split at h
      · exact pChain_sound (l := .search _) h
      · cases h; rfl

theorem pLit_sound {ts r : List Tk} {x : Lit} (h : pLit ts = some (x, r)) : ts = x.yield ++ r := by
  unfold pLit at h
  split at h
  · split at h
    · cases h
    · rename_i e
      split at h
      · cases h
      · rename_i e2
        rw [Option.map_eq_some_iff] at h
        obtain ⟨⟨s, r'⟩, e3, h⟩ := h
        cases h
        rw [pQN_sound e, pCmp_sound e2, pTxt_sound e3]
        simp [Lit.yield]
  · exact pOpLit_sound h

theorem pDisj_sound (n : Nat) :
    (∀ {ts r : List Tk} {x : Disj}, pDisj n ts = some (x, r) → ts = x.yield ++ r) ∧
    (∀ {ts r : List Tk} {x : Conj}, pConj n ts = some (x, r) → ts = x.yield ++ r) ∧
    (∀ {ts r : List Tk} {x : Fac}, pFac n ts = some (x, r) → ts = x.yield ++ r) := by
  induction n with
  | zero => exact ⟨fun h => by simp [pDisj] at h, fun h => by simp [pConj] at h, fun h => by simp [pFac] at h⟩
  | succ n ih =>
    obtain ⟨ih1, ih2, ih3⟩ := ih
    refine ⟨?_, ?_, ?_⟩
    · intro ts r x h
      rw [pDisj] at h
      split at h
      · cases h
      · rename_i e
        rw [Option.map_eq_some_iff] at h
        obtain ⟨⟨s, r'⟩, e2, h⟩ := h
        cases h
        rw [ih2 e, ih1 e2]
        simp [Disj.yield]
      · rename_i e
        cases h
        rw [ih2 e]; simp [Disj.yield]
    · intro ts r x h
      rw [pConj] at h
      split at h
      · cases h
      · rename_i e
        rw [Option.map_eq_some_iff] at h
        obtain ⟨⟨s, r'⟩, e2, h⟩ := h
        cases h
        rw [ih3 e, ih2 e2]
        simp [Conj.yield]
      · rename_i e
        cases h
        rw [ih3 e]; simp [Conj.yield]
    · intro ts r x h
      unfold pFac at h
      split at h
      · cases h
      · rename_i heq
        cases heq
        split at h
        · rename_i e
          cases h
          rw [ih1 e]; simp [Fac.yield]
        · cases h
      · rw [Option.map_eq_some_iff] at h
        obtain ⟨⟨s, r'⟩, e2, h⟩ := h
        cases h
        rw [pLit_sound e2]; simp [Fac.yield]

/-! ### The parser reads every tree -/

/-- What may follow a name. -/
def noColon : List Tk → Bool
  | .kw .colon :: _ => false
  | _ => true

/-- What may follow the start of a comparison. -/
def noCmp : List Tk → Bool
  | .kw .eq :: _ => false
  | .kw .neq :: _ => false
  | _ => true

def noQuest : List Tk → Bool
  | .kw .quest :: _ => false
  | _ => true

def noComma : List Tk → Bool
  | .kw .comma :: _ => false
  | _ => true

def noLbr : List Tk → Bool
  | .kw .lbr :: _ => false
  | _ => true

def noFilter : List Tk → Bool
  | .kw .eqeq :: _ => false
  | .kw .neq :: _ => false
  | _ => true

/-- What may follow a literal. -/
def litEnd : List Tk → Bool
  | [] => true
  | .kw .amp :: _ => true
  | .kw .bar :: _ => true
  | .kw .rpar :: _ => true
  | _ => false

/-- What may follow a node search. -/
def searchEnd (r : List Tk) : Bool := noColon r && noCmp r && noQuest r

/-- What may follow an operator. -/
def opEnd (r : List Tk) : Bool := !startsRng r && noLbr r

theorem pQN_complete (x : QN) {r : List Tk} (h : noColon r = true) : pQN (x.yield ++ r) = some (x, r) := by
  obtain ⟨ns, n⟩ := x
  cases ns with
  | some ns => rfl
  | none =>
    simp only [QN.yield, List.cons_append, List.nil_append]
    unfold pQN
    split
    · rename_i heq; cases heq; simp [noColon] at h
    · rename_i heq; cases heq; rfl
    · rename_i h1; exact absurd rfl (h1 n r)

theorem pCmp_complete (x : Cmp) (r : List Tk) : pCmp (x.yield ++ r) = some (x, r) := by cases x <;> rfl

theorem pFilter_complete (x : Cmp) (r : List Tk) : pFilter (x.filterYield ++ r) = some (x, r) := by cases x <;> rfl

theorem pTxt_complete (x : Txt) (r : List Tk) : pTxt (x.yield ++ r) = some (x, r) := by cases x <;> rfl

theorem pRef_complete (x : Ref) (r : List Tk) : pRef (x.yield ++ r) = some (x, r) := by cases x <;> rfl

theorem pCmp_none {r : List Tk} (h : noCmp r = true) : pCmp r = none := by
  unfold pCmp
  split
  · simp [noCmp] at h
  · simp [noCmp] at h
  · rfl

theorem pVal_complete (x : Option (Cmp × Txt)) {r : List Tk} (h : x = none → noCmp r = true) : pVal (valYield x ++ r) = some (x, r) := by
  cases x with
  | none => simp [pVal, valYield, pCmp_none (h rfl)]
  | some p =>
    obtain ⟨c, t⟩ := p
    simp only [pVal, valYield, List.append_assoc, pCmp_complete, pTxt_complete]

theorem pTxt_id (n : Str) (r : List Tk) : pTxt (.id n :: r) = none := rfl

theorem QN.yield_cons (x : QN) : ∃ n r, x.yield = .id n :: r := by
  obtain ⟨ns, n⟩ := x
  cases ns <;> exact ⟨_, _, rfl⟩

theorem noColon_val (x : Cmp × Txt) (r : List Tk) : noColon (valYield (some x) ++ r) = true := by
  obtain ⟨c, t⟩ := x
  cases c <;> rfl

theorem pNS_complete (x : NS) {r : List Tk} (h1 : noColon r = true) (h2 : noCmp r = true) : pNS (x.yield ++ r) = some (x, r) := by
  cases x with
  | node => rfl
  | tok =>
    have := pVal_complete none (r := r) fun _ => h2
    simp only [valYield, List.nil_append] at this
    simp [NS.yield, pNS, this]
  | tokCmp c t =>
    have := pVal_complete (some (c, t)) (r := r) (by simp)
    simp only [valYield] at this
    simp only [NS.yield, List.cons_append, pNS, this]
  | txt t => cases t <;> rfl
  | named q c t =>
    have e1 := pVal_complete (some (c, t)) (r := r) (by simp)
    have e2 := pQN_complete q (noColon_val (c, t) r)
    obtain ⟨n, u, e⟩ := q.yield_cons
    simp only [valYield] at e1 e2
    simp only [NS.yield, List.append_assoc]
    simp only [List.append_assoc] at e1 e2
    rw [e] at e2 ⊢
    simp only [List.cons_append] at e2 ⊢
    unfold pNS
    simp only [pTxt_id, e2, e1]
  | name q =>
    have e1 := pVal_complete none (r := r) fun _ => h2
    have e2 := pQN_complete q h1
    obtain ⟨n, u, e⟩ := q.yield_cons
    simp only [valYield, List.nil_append] at e1
    simp only [NS.yield]
    rw [e] at e2 ⊢
    simp only [List.cons_append] at e2 ⊢
    unfold pNS
    simp only [pTxt_id, e2, e1]

/-- How a node search begins. -/
theorem NS.yield_cons (x : NS) : ∃ t r, x.yield = t :: r ∧ (t = .kw .node ∨ t = .kw .tok ∨ (∃ s, t = .quoted s) ∨ (∃ s, t = .regex s) ∨ ∃ s, t = .id s) := by
  cases x with
  | node => exact ⟨_, _, rfl, by simp⟩
  | tok => exact ⟨_, _, rfl, by simp⟩
  | tokCmp c t => exact ⟨_, _, rfl, by simp⟩
  | txt t => cases t <;> exact ⟨_, _, rfl, by simp⟩
  | named q c t => obtain ⟨n, r, e⟩ := q.yield_cons; exact ⟨.id n, _, by simp only [NS.yield, e]; rfl, by simp⟩
  | name q => obtain ⟨n, r, e⟩ := q.yield_cons; exact ⟨.id n, _, by simp only [NS.yield, e]; rfl, by simp⟩

/-- The tokens a node search or a reference begins with. -/
def startsOpd : List Tk → Bool
  | .kw .node :: _ => true
  | .kw .tok :: _ => true
  | .quoted _ :: _ => true
  | .regex _ :: _ => true
  | .id _ :: _ => true
  | .varDef _ :: _ => true
  | .nodeRef _ :: _ => true
  | .varRef _ :: _ => true
  | _ => false

theorem pVar_ns (x : NS) (r : List Tk) : pVar (x.yield ++ r) = (none, x.yield ++ r) := by
  obtain ⟨t, u, e, h⟩ := x.yield_cons
  rw [e]
  rcases h with rfl | rfl | ⟨s, rfl⟩ | ⟨s, rfl⟩ | ⟨s, rfl⟩ <;> rfl

theorem pRef_ns (x : NS) (r : List Tk) : pRef (x.yield ++ r) = none := by
  obtain ⟨t, u, e, h⟩ := x.yield_cons
  rw [e]
  rcases h with rfl | rfl | ⟨s, rfl⟩ | ⟨s, rfl⟩ | ⟨s, rfl⟩ <;> rfl

theorem startsOpd_ns (x : NS) (r : List Tk) : startsOpd (x.yield ++ r) = true := by
  obtain ⟨t, u, e, h⟩ := x.yield_cons
  rw [e]
  rcases h with rfl | rfl | ⟨s, rfl⟩ | ⟨s, rfl⟩ | ⟨s, rfl⟩ <;> rfl

theorem pQuest_none {r : List Tk} (h : noQuest r = true) : pQuest r = (false, r) := by
  unfold pQuest
  split
  · simp [noQuest] at h
  · rfl

theorem pSearch_complete (x : Search) {r : List Tk} (h : searchEnd r = true) : pSearch (x.yield ++ r) = some (x, r) := by
  simp only [searchEnd, Bool.and_eq_true] at h
  obtain ⟨⟨h1, h2⟩, h3⟩ := h
  obtain ⟨v, s, o⟩ := x
  have hq : pQuest ((if o then [Tk.kw .quest] else []) ++ r) = (o, r) := by
    cases o with
    | true => rfl
    | false => exact pQuest_none h3
  have hs : pNS (s.yield ++ ((if o then [Tk.kw .quest] else []) ++ r)) = some (s, (if o then [Tk.kw .quest] else []) ++ r) := by
    apply pNS_complete
    · cases o with
      | true => rfl
      | false => exact h1
    · cases o with
      | true => rfl
      | false => exact h2
  have hv : pVar (varYield v ++ (s.yield ++ ((if o then [Tk.kw .quest] else []) ++ r))) =
      (v, s.yield ++ ((if o then [Tk.kw .quest] else []) ++ r)) := by
    cases v with
    | none => exact pVar_ns _ _
    | some v => rfl
  simp only [Search.yield, List.append_assoc]
  unfold pSearch
  simp only [hv, hs, hq]

theorem startsOpd_search (x : Search) (r : List Tk) : startsOpd (x.yield ++ r) = true := by
  obtain ⟨v, s, o⟩ := x
  cases v with
  | none => simp only [Search.yield, List.append_assoc, List.nil_append]; exact startsOpd_ns _ _
  | some v => rfl

theorem pRef_search (x : Search) (r : List Tk) : pRef (x.yield ++ r) = none := by
  obtain ⟨v, s, o⟩ := x
  cases v with
  | none => simp only [Search.yield, List.append_assoc, List.nil_append]; exact pRef_ns _ _
  | some v => rfl

theorem pOpd_complete (x : Opd) {r : List Tk} (h : searchEnd r = true) : pOpd (x.yield ++ r) = some (x, r) := by
  cases x with
  | ref x => simp [pOpd, Opd.yield, pRef_complete]
  | search s => simp [pOpd, Opd.yield, pRef_search, pSearch_complete s h]

theorem startsOpd_opd (x : Opd) (r : List Tk) : startsOpd (x.yield ++ r) = true := by
  cases x with
  | ref x => cases x <;> rfl
  | search s => exact startsOpd_search s r

theorem startsOpd_ref (x : Ref) (r : List Tk) : startsOpd (x.yield ++ r) = true := startsOpd_opd (.ref x) r

theorem opEnd_of_startsOpd {r : List Tk} (h : startsOpd r = true) : opEnd r = true := by
  unfold startsOpd at h
  split at h <;> first | rfl | cases h

theorem searchEnd_of_startsLink {r : List Tk} (h : startsLink r = true) : searchEnd r = true := by
  unfold startsLink at h
  split at h <;> first | rfl | cases h

theorem searchEnd_of_litEnd {r : List Tk} (h : litEnd r = true) : searchEnd r = true := by
  unfold litEnd at h
  split at h <;> first | rfl | cases h

theorem noLink_of_litEnd {r : List Tk} (h : litEnd r = true) : startsLink r = false := by
  unfold litEnd at h
  split at h <;> first | rfl | cases h

theorem noComma_of_litEnd {r : List Tk} (h : litEnd r = true) : noComma r = true := by
  unfold litEnd at h
  split at h <;> first | rfl | cases h

theorem noFilter_of_litEnd {r : List Tk} (h : litEnd r = true) : pFilter r = none := by
  unfold litEnd at h
  split at h <;> first | rfl | cases h

theorem pNums_two (b : Bool) (x y : Str) (r : List Tk) : pNums b (.digits x :: .kw .comma :: .digits y :: r) = some (.two b x y, r) := rfl

theorem pNums_one (b : Bool) (x : Str) {r : List Tk} (h : noComma r = true) : pNums b (.digits x :: r) = some (.one b x, r) := by
  unfold pNums
  split
  · rename_i heq; cases heq; simp [noComma] at h
  · rename_i heq; cases heq; rfl
  · rename_i h1; exact absurd rfl (h1 x r)

theorem pRng_complete (x : Rng) {r : List Tk} (h : noComma r = true) : pRng (x.yield ++ r) = some (x, r) := by
  cases x with
  | two b x y => cases b <;> rfl
  | one b x =>
    cases b
    · exact pNums_one false x h
    · exact pNums_one true x h
  | star => rfl

theorem startsRng_rng (x : Rng) (r : List Tk) : startsRng (x.yield ++ r) = true := by
  cases x with
  | two b x y => cases b <;> rfl
  | one b x => cases b <;> rfl
  | star => rfl

theorem noComma_of_noRng {r : List Tk} (h : startsRng r = false) : noComma r = true := by
  unfold noComma
  split
  · simp [startsRng] at h
  · rfl

theorem pOptRng_complete (x : Option Rng) {r : List Tk} (h : startsRng r = false) : pOptRng (rngYield x ++ r) = some (x, r) := by
  cases x with
  | none => simp [pOptRng, rngYield, h]
  | some x => simp [pOptRng, rngYield, startsRng_rng, pRng_complete x (noComma_of_noRng h)]

theorem pEA_complete (x : EA) (r : List Tk) : ∃ u, x.yield = .kw .lbr :: u ∧ pEA (u ++ r) = some (x, r) := by
  obtain ⟨q, c, t⟩ := x
  refine ⟨_, rfl, ?_⟩
  have e1 : noColon (c.yield ++ (t.yield ++ ([Tk.kw .rbr] ++ r))) = true := by cases c <;> rfl
  simp only [List.append_assoc]
  unfold pEA
  simp only [pQN_complete q e1, pCmp_complete, pTxt_complete]
  rfl

theorem pTail_rng {ts : List Tk} (h : noLbr ts = true) : pTail ts = (pOptRng ts).map fun x => (match x.1 with | none => .none | some r => .rng r, x.2) := by
  unfold pTail
  split
  · simp [noLbr] at h
  · rfl

theorem noLbr_rng (x : Rng) (r : List Tk) : noLbr (x.yield ++ r) = true := by
  cases x with
  | two b x y => cases b <;> rfl
  | one b x => cases b <;> rfl
  | star => rfl

theorem pTail_complete (x : Tail) {r : List Tk} (h : opEnd r = true) : pTail (x.yield ++ r) = some (x, r) := by
  simp only [opEnd, Bool.and_eq_true, Bool.not_eq_true'] at h
  cases x with
  | none =>
    have e := pOptRng_complete none h.1
    simp only [rngYield, List.nil_append] at e
    simp only [Tail.yield, List.nil_append]
    rw [pTail_rng h.2, e]; rfl
  | rng x =>
    have e := pOptRng_complete (some x) h.1
    simp only [rngYield] at e
    simp only [Tail.yield]
    rw [pTail_rng (noLbr_rng x r), e]; rfl
  | anno a =>
    obtain ⟨u, e1, e2⟩ := pEA_complete a r
    simp only [Tail.yield, e1, List.cons_append, pTail, e2]
    rfl

theorem pBOp_complete (x : BOp) {r : List Tk} (h : opEnd r = true) : pBOp (x.yield ++ r) = some (x, r) := by
  have h' : startsRng r = false := by
    simp only [opEnd, Bool.and_eq_true, Bool.not_eq_true'] at h
    exact h.1
  cases x with
  | dom n t => simp [pBOp, BOp.yield, pTail_complete t h]
  | point n t => simp [pBOp, BOp.yield, pTail_complete t h]
  | prec n t => simp [pBOp, BOp.yield, pOptRng_complete t h']
  | near n t => simp [pBOp, BOp.yield, pOptRng_complete t h']
  | partOf t => simp [pBOp, BOp.yield, pOptRng_complete t h']
  | _ => rfl

theorem pBang_bop (x : BOp) (r : List Tk) : pBang (x.yield ++ r) = (false, x.yield ++ r) := by
  cases x <;> rfl

theorem startsLink_bop (x : BOp) (r : List Tk) : startsLink (x.yield ++ r) = true := by
  cases x <;> rfl

theorem pLink_complete (x : Link) {r : List Tk} (h : searchEnd r = true) : pLink (x.yield ++ r) = some (x, r) := by
  obtain ⟨n, op, o⟩ := x
  have hb : pBang ((if n then [Tk.kw .bang] else []) ++ (op.yield ++ (o.yield ++ r))) = (n, op.yield ++ (o.yield ++ r)) := by
    cases n
    · exact pBang_bop _ _
    · rfl
  simp only [Link.yield, List.append_assoc]
  unfold pLink
  simp only [hb, pBOp_complete op (opEnd_of_startsOpd (startsOpd_opd o r)), pOpd_complete o h]

theorem startsLink_link (x : Link) (r : List Tk) : startsLink (x.yield ++ r) = true := by
  obtain ⟨n, op, o⟩ := x
  cases n
  · simp only [Link.yield, List.append_assoc]; exact startsLink_bop op _
  · rfl

theorem searchEnd_links (x : List Link) {r : List Tk} (h : searchEnd r = true) : searchEnd (x.flatMap Link.yield ++ r) = true := by
  cases x with
  | nil => exact h
  | cons x xs => simp only [List.flatMap_cons, List.append_assoc]; exact searchEnd_of_startsLink (startsLink_link _ _)

theorem pLinks_complete (x : List Link) {n : Nat} {r : List Tk} (hn : x.length ≤ n) (h : searchEnd r = true) (h' : startsLink r = false) :
    pLinks n (x.flatMap Link.yield ++ r) = some (x, r) := by
  induction x generalizing n with
  | nil =>
    cases n with
    | zero => rfl
    | succ n => simp [pLinks, h']
  | cons x xs ih =>
    obtain ⟨n, rfl⟩ : ∃ m, n = m + 1 := ⟨n - 1, by simp only [List.length_cons] at hn; omega⟩
    simp only [List.flatMap_cons, List.append_assoc, pLinks, startsLink_link, if_true, pLink_complete x (searchEnd_links xs h),
      ih (Nat.le_of_succ_le_succ hn)]

theorem pFilters_complete (x : List (Cmp × Ref)) {n : Nat} {r : List Tk} (hn : x.length ≤ n) (h : pFilter r = none) :
    pFilters n (x.flatMap filterLink ++ r) = some (x, r) := by
  induction x generalizing n with
  | nil =>
    cases n with
    | zero => rfl
    | succ n => simp [pFilters, h]
  | cons x xs ih =>
    obtain ⟨n, rfl⟩ : ∃ m, n = m + 1 := ⟨n - 1, by simp only [List.length_cons] at hn; omega⟩
    simp only [List.flatMap_cons, List.append_assoc, pFilters]
    rw [show filterLink x = x.1.filterYield ++ x.2.yield from rfl, List.append_assoc, pFilter_complete]
    simp only [pRef_complete, ih (Nat.le_of_succ_le_succ hn)]

theorem yield_pos_link (x : Link) : 0 < x.yield.length := by
  obtain ⟨n, op, o⟩ := x
  have : 0 < op.yield.length := by cases op <;> simp [BOp.yield]
  simp only [Link.yield, List.length_append]
  omega

theorem length_links (x : List Link) : x.length ≤ (x.flatMap Link.yield).length := by
  induction x with
  | nil => simp
  | cons x xs ih =>
    have := yield_pos_link x
    simp only [List.length_cons, List.flatMap_cons, List.length_append]
    omega

theorem length_filters (x : List (Cmp × Ref)) : x.length ≤ (x.flatMap filterLink).length := by
  induction x with
  | nil => simp
  | cons x xs ih =>
    have : 0 < (filterLink x).length := by
      obtain ⟨c, r⟩ := x
      cases c <;> simp [filterLink, Cmp.filterYield]
    simp only [List.length_cons, List.flatMap_cons, List.length_append]
    omega

theorem pChain_complete (l : Opd) (x : Link) (xs : List Link) {r : List Tk} (h : litEnd r = true) :
    pChain l (x.yield ++ (xs.flatMap Link.yield ++ r)) = some (.chain l x xs, r) := by
  have h1 := searchEnd_of_litEnd h
  unfold pChain
  rw [pLink_complete x (searchEnd_links xs h1)]
  have := pLinks_complete xs (n := (xs.flatMap Link.yield ++ r).length) (by
    have := length_links xs
    rw [List.length_append]
    omega) h1 (noLink_of_litEnd h)
  simp only [this]

/-- How a literal can be told from a legacy search for metadata. -/
theorem pLit_other {ts : List Tk} (h : startsOpd ts = true) : pLit ts = pOpLit ts := by
  unfold pLit
  split
  · simp [startsOpd] at h
  · rfl

theorem pFilter_link {r : List Tk} (h : startsLink r = true) : pFilter r = none := by
  unfold startsLink at h
  split at h <;> first | rfl | cases h

/-- The rest after a reference if an operator follows. -/
theorem pAfterRef_link {r : List Tk} (x : Ref) (h : startsLink r = true) : pAfterRef x r = pChain (.ref x) r := by
  unfold pAfterRef
  split
  · simp [startsLink] at h
  · rfl

theorem pLit_complete (x : Lit) {r : List Tk} (h : litEnd r = true) : pLit (x.yield ++ r) = some (x, r) := by
  cases x with
  | search s =>
    simp only [Lit.yield]
    rw [pLit_other (startsOpd_search s r)]
    simp only [pOpLit, pRef_search, pSearch_complete s (searchEnd_of_litEnd h), noLink_of_litEnd h]
    rfl
  | chain l x xs =>
    simp only [Lit.yield, List.append_assoc]
    have hl := startsLink_link x (xs.flatMap Link.yield ++ r)
    rw [pLit_other (startsOpd_opd l _)]
    cases l with
    | ref l =>
      simp only [pOpLit, Opd.yield, pRef_complete, pFilter_link hl]
      rw [pAfterRef_link l hl, pChain_complete _ x xs h]
    | search s =>
      simp only [pOpLit, Opd.yield, pRef_search, pSearch_complete s (searchEnd_of_startsLink hl), hl, if_true]
      rw [pChain_complete _ x xs h]
  | filter l x xs =>
    simp only [Lit.yield, List.append_assoc]
    rw [pLit_other (startsOpd_ref l _)]
    have := pFilters_complete xs (n := (xs.flatMap filterLink ++ r).length) (r := r) (by
      have := length_filters xs
      rw [List.length_append]
      omega) (noFilter_of_litEnd h)
    unfold pOpLit
    rw [pRef_complete, show filterLink x = x.1.filterYield ++ x.2.yield from rfl, List.append_assoc]
    simp only [pFilter_complete, pRef_complete, this]
    rfl
  | arity l g =>
    simp only [Lit.yield, List.append_assoc, List.cons_append]
    rw [pLit_other (startsOpd_ref l _)]
    unfold pOpLit
    rw [pRef_complete]
    have : pFilter (Tk.kw .arity :: Tk.kw .eq :: (g.yield ++ r)) = none := rfl
    simp only [this, pAfterRef, pRng_complete g (noComma_of_litEnd h)]
    rfl
  | metaQ q c t =>
    have e1 : noColon (c.yield ++ (t.yield ++ r)) = true := by cases c <;> rfl
    simp only [Lit.yield, List.append_assoc, List.cons_append]
    unfold pLit
    simp only [pQN_complete q e1, pCmp_complete, pTxt_complete]
    rfl

/-! ### Trees -/

theorem Search.yield_pos (s : Search) : 0 < s.yield.length := by
  obtain ⟨t, u, e, _⟩ := s.spec.yield_cons
  simp only [Search.yield, List.length_append, e, List.length_cons]
  omega

theorem Opd.yield_pos (x : Opd) : 0 < x.yield.length := by
  cases x with
  | ref r => cases r <;> simp [Opd.yield, Ref.yield]
  | search s => exact s.yield_pos

theorem Lit.yield_pos (x : Lit) : 0 < x.yield.length := by
  cases x with
  | search s => exact s.yield_pos
  | chain l x r => have := l.yield_pos; simp only [Lit.yield, List.length_append]; omega
  | filter l x r => have := (Opd.ref l).yield_pos; simp only [Opd.yield] at this; simp only [Lit.yield, List.length_append]; omega
  | arity l g => have := (Opd.ref l).yield_pos; simp only [Opd.yield] at this; simp only [Lit.yield, List.length_append]; omega
  | metaQ q c t => simp [Lit.yield]

/-- A literal does not begin with a parenthesis. -/
theorem Lit.yield_start (x : Lit) (r : List Tk) : ∀ u, x.yield ++ r ≠ .kw .lpar :: u := by
  intro u e
  have key : ∀ {ts : List Tk}, startsOpd ts = true → ts ≠ .kw .lpar :: u := by
    rintro ts h rfl
    simp [startsOpd] at h
  cases x with
  | search s => exact key (startsOpd_search s r) e
  | chain l x xs => simp only [Lit.yield, List.append_assoc] at e; exact key (startsOpd_opd l _) e
  | filter l x xs => simp only [Lit.yield, List.append_assoc] at e; exact key (startsOpd_opd (.ref l) _) e
  | arity l g => simp only [Lit.yield, List.append_assoc] at e; exact key (startsOpd_opd (.ref l) _) e
  | metaQ q c t => simp [Lit.yield] at e

/-- What may follow a conjunction. -/
def conjEnd : List Tk → Bool
  | [] => true
  | .kw .bar :: _ => true
  | .kw .rpar :: _ => true
  | _ => false

/-- What may follow a disjunction. -/
def disjEnd : List Tk → Bool
  | [] => true
  | .kw .rpar :: _ => true
  | _ => false

theorem litEnd_of_conjEnd {r : List Tk} (h : conjEnd r = true) : litEnd r = true := by
  unfold conjEnd at h
  split at h <;> first | rfl | cases h

theorem conjEnd_of_disjEnd {r : List Tk} (h : disjEnd r = true) : conjEnd r = true := by
  unfold disjEnd at h
  split at h <;> first | rfl | cases h

theorem one_disj {c : Conj} {r : List Tk} {n : Nat} {ts : List Tk} (h : disjEnd r = true) (e : pConj n ts = some (c, r)) :
    pDisj (n + 1) ts = some (.one c, r) := by
  rw [pDisj, e]
  unfold disjEnd at h
  split at h <;> first | rfl | cases h

theorem one_conj {f : Fac} {r : List Tk} {n : Nat} {ts : List Tk} (h : conjEnd r = true) (e : pFac n ts = some (f, r)) :
    pConj (n + 1) ts = some (.one f, r) := by
  rw [pConj, e]
  unfold conjEnd at h
  split at h <;> first | rfl | cases h

theorem pFac_lit (n : Nat) (l : Lit) {r : List Tk} (h : litEnd r = true) : pFac (n + 1) (l.yield ++ r) = some (.lit l, r) := by
  have hs := l.yield_start r
  have hc := pLit_complete l h
  generalize l.yield ++ r = ts at hs hc
  unfold pFac
  split
  · omega
  · exact absurd rfl (hs _)
  · rw [hc]; rfl

mutual
theorem pDisj_complete : ∀ (x : Disj) (n : Nat) (r : List Tk), 3 * x.yield.length ≤ n → disjEnd r = true → pDisj n (x.yield ++ r) = some (x, r)
  | .one c, n, r, hn, h => by
    have hp := Conj.yield_pos c
    simp only [Disj.yield] at hn ⊢
    obtain ⟨n, rfl⟩ : ∃ m, n = m + 1 := ⟨n - 1, by omega⟩
    exact one_disj h (pConj_complete c n r (by omega) (conjEnd_of_disjEnd h))
  | .more c d, n, r, hn, h => by
    simp only [Disj.yield, List.length_append, List.length_cons] at hn
    simp only [Disj.yield, List.append_assoc, List.cons_append]
    obtain ⟨n, rfl⟩ : ∃ m, n = m + 1 := ⟨n - 1, by omega⟩
    rw [pDisj, pConj_complete c n (.kw .bar :: (d.yield ++ r)) (by omega) rfl]
    simp only [pDisj_complete d n r (by omega) h]
    rfl
theorem pConj_complete : ∀ (x : Conj) (n : Nat) (r : List Tk), 3 * x.yield.length ≤ n + 1 → conjEnd r = true → pConj n (x.yield ++ r) = some (x, r)
  | .one f, n, r, hn, h => by
    have hp := Fac.yield_pos f
    simp only [Conj.yield] at hn ⊢
    obtain ⟨n, rfl⟩ : ∃ m, n = m + 1 := ⟨n - 1, by omega⟩
    exact one_conj h (pFac_complete f n r (by omega) (litEnd_of_conjEnd h))
  | .more f c, n, r, hn, h => by
    simp only [Conj.yield, List.length_append, List.length_cons] at hn
    simp only [Conj.yield, List.append_assoc, List.cons_append]
    obtain ⟨n, rfl⟩ : ∃ m, n = m + 1 := ⟨n - 1, by omega⟩
    rw [pConj, pFac_complete f n (.kw .amp :: (c.yield ++ r)) (by omega) rfl]
    simp only [pConj_complete c n r (by omega) h]
    rfl
theorem pFac_complete : ∀ (x : Fac) (n : Nat) (r : List Tk), 3 * x.yield.length ≤ n + 2 → litEnd r = true → pFac n (x.yield ++ r) = some (x, r)
  | .lit l, n, r, hn, h => by
    have hp := l.yield_pos
    simp only [Fac.yield] at hn ⊢
    obtain ⟨n, rfl⟩ : ∃ m, n = m + 1 := ⟨n - 1, by omega⟩
    exact pFac_lit n l h
  | .paren d, n, r, hn, h => by
    simp only [Fac.yield, List.length_append, List.length_cons, List.length_nil] at hn
    simp only [Fac.yield, List.append_assoc, List.cons_append, List.nil_append]
    obtain ⟨n, rfl⟩ : ∃ m, n = m + 1 := ⟨n - 1, by omega⟩
    rw [pFac, pDisj_complete d n (.kw .rpar :: r) (by omega) rfl]
theorem Conj.yield_pos : ∀ x : Conj, 0 < x.yield.length
  | .one f => by simp only [Conj.yield]; exact Fac.yield_pos f
  | .more f c => by simp only [Conj.yield, List.length_append, List.length_cons]; omega
theorem Fac.yield_pos : ∀ x : Fac, 0 < x.yield.length
  | .lit l => by simp only [Fac.yield]; exact l.yield_pos
  | .paren d => by simp [Fac.yield]
end

/-- The parser gives exactly the trees of the grammar. -/
theorem parseTree_iff (ts : List Tk) (x : Disj) : parseTree ts = some x ↔ x.yield = ts := by
  unfold parseTree
  constructor
  · intro h
    split at h
    · rename_i d e
      cases h
      have := (pDisj_sound _).1 e
      rw [List.append_nil] at this
      exact this.symm
    · cases h
  · rintro rfl
    have := pDisj_complete x (3 * x.yield.length) [] le_rfl rfl
    rw [List.append_nil] at this
    rw [this]

end Parse
