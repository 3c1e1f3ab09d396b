import Verif.Timeout.Consume

/-!
# C112: a query that goes on has not exceeded its limit

If something else than the time out error is returned, none of the checks on the way found that the limit is exceeded.
-/

set_option linter.unusedSectionVars false

namespace Timed

/-- The checks from number `n` until `n'` did not find that the limit is exceeded. -/
def Quiet (late : Nat → Bool) (n n' : Nat) : Prop := ∀ i, n ≤ i → i < n' → late i = false

section
variable {S So Si N K E R A : Type} {late : Nat → Bool}

theorem Quiet.refl (n : Nat) : Quiet late n n := by intro i h1 h2; omega

theorem Quiet.trans {a b c : Nat} (h1 : Quiet late a b) (h2 : Quiet late b c) : Quiet late a c := by
  intro i h3 h4
  by_cases h : i < b
  · exact h1 i h3 h
  · exact h2 i (by omega) h4

theorem Quiet.one {n : Nat} (h : late n = false) : Quiet late n (n + 1) := by
  intro i h1 h2
  rw [show i = n by omega]
  exact h

/-- Only the time out error is returned if one of the checks in a call of `next` finds that the limit is exceeded. -/
def Prompt (late : Nat → Bool) (M : Mach S (TItem R E)) : Prop :=
  ∀ s n x s' n', M s n x s' n' → x ≠ some timeout → Quiet late n n'

theorem search_prompt : Prompt late (fun (s : List (TItem R E)) n x s' n' => searchNext late s n = (x, s', n')) := by
  intro s n x s' n' h hx
  simp only [searchNext] at h
  split at h <;> simp only [Prod.mk.injEq] at h <;> obtain ⟨h1, h2, h3⟩ := h
  · exact absurd h1.symm hx
  · next hn =>
    subst h3
    exact .one (by simpa using hn)

theorem filter_prompt {M : Mach S (TItem R E)} {f : TItem R E → Option (TItem R E)} (hf : f timeout = some timeout)
    (h : Prompt late M) : Prompt late (FilterNext f M) := by
  intro s n x s' n' hm
  induction hm with
  | stop hm => intro _; exact h _ _ _ _ _ hm (by simp)
  | hit hm hy =>
    intro hx
    refine h _ _ _ _ _ hm ?_
    rintro ⟨⟩
    rw [hf] at hy
    cases hy
    exact hx rfl
  | miss hm hy _ ih =>
    intro hx
    refine (h _ _ _ _ _ hm ?_).trans (ih hx)
    rintro ⟨⟩
    rw [hf] at hy
    cases hy

theorem peek_prompt {M : Mach S (TItem R E)} (h : Prompt late M) {p n x p' n'} (hp : Peek M p n x p' n') :
    p'.2 = some x ∧ (x ≠ some timeout → Quiet late n n') := by
  cases hp with
  | peeked => exact ⟨rfl, fun _ => .refl _⟩
  | fetch hm => exact ⟨rfl, fun hx => h _ _ _ _ _ hm hx⟩

theorem pnext_of_peek {M : Mach S (TItem R E)} {p n x p' n'} (hp : PNext M p n x p' n') {y} (hy : p.2 = some y) : x = y ∧ n' = n := by
  cases hp with
  | peeked => cases hy; exact ⟨rfl, rfl⟩
  | fetch _ => cases hy

variable [DecidableEq N] [DecidableEq K]

theorem scanInner_prompt {c : NlConf N K (TErr E)} {Mi : Mach Si (Item N K (TErr E))} (h : Prompt late Mi) {o s cache n r s' cache' n'}
    (hs : ScanInner c Mi o s cache n r s' cache' n') : r ≠ some timeout → Quiet late n n' := by
  induction hs with
  | stop hm => intro _; exact h _ _ _ _ _ hm (by simp)
  | err hm => intro hx; exact h _ _ _ _ _ hm hx
  | fail hm _ => intro _; exact h _ _ _ _ _ hm (by simp)
  | hit hm _ => intro _; exact h _ _ _ _ _ hm (by simp)
  | miss hm _ _ ih => intro hx; exact (h _ _ _ _ _ hm (by simp)).trans (ih hx)

theorem nlBody_prompt {c : NlConf N K (TErr E)} {Mo : Mach So (Item N K (TErr E))} {Mi : Mach Si (Item N K (TErr E))}
    (ho : Prompt late Mo) (hi : Prompt late Mi) {s n r s' n'} (h : NlBody c Mo Mi s n r s' n') :
    (∃ x, s'.outer.2 = some x) ∧
      (Quiet late n n' ∨ r = some timeout ∨ (r = none ∧ s'.outer.2 = some (some timeout))) := by
  cases h with
  | cacheHit hp _ => exact ⟨⟨_, (peek_prompt ho hp).1⟩, .inl ((peek_prompt ho hp).2 (by simp))⟩
  | cacheEnd hp _ => exact ⟨⟨_, (peek_prompt ho hp).1⟩, .inl ((peek_prompt ho hp).2 (by simp))⟩
  | @innerHit _ _ _ _ _ _ _ r _ _ _ hp hs =>
    refine ⟨⟨_, (peek_prompt ho hp).1⟩, ?_⟩
    rcases Classical.em (some r = some timeout) with hr | hr
    · exact .inr (.inl hr)
    · exact .inl (((peek_prompt ho hp).2 (by simp)).trans (scanInner_prompt hi hs hr))
  | innerEnd hp hs => exact ⟨⟨_, (peek_prompt ho hp).1⟩, .inl (((peek_prompt ho hp).2 (by simp)).trans (scanInner_prompt hi hs (by simp)))⟩
  | @skip _ _ _ _ _ x _ _ hp _ =>
    refine ⟨⟨_, (peek_prompt ho hp).1⟩, ?_⟩
    rcases Classical.em (x = some timeout) with hr | hr
    · exact .inr (.inr ⟨rfl, by rw [(peek_prompt ho hp).1, hr]⟩)
    · exact .inl ((peek_prompt ho hp).2 hr)

theorem nl_prompt {c : NlConf N K (TErr E)} {Mo : Mach So (Item N K (TErr E))} {Mi : Mach Si (Item N K (TErr E))}
    (ho : Prompt late Mo) (hi : Prompt late Mi) : Prompt late (NlNext c Mo Mi) := by
  intro s n x s' n' hm
  induction hm with
  | ret hb =>
    intro hx
    obtain ⟨-, h | h | ⟨h, -⟩⟩ := nlBody_prompt ho hi hb
    · exact h
    · exact absurd h hx
    · cases h
  | stop hb hp =>
    intro hx
    obtain ⟨⟨y, h0⟩, h⟩ := nlBody_prompt ho hi hb
    obtain ⟨h1, h2⟩ := pnext_of_peek hp h0
    subst h1 h2
    obtain h | h | ⟨-, h⟩ := h
    · exact h
    · cases h
    · rw [h0] at h; cases h
  | err hb hp =>
    intro hx
    obtain ⟨⟨y, h0⟩, h⟩ := nlBody_prompt ho hi hb
    obtain ⟨h1, h2⟩ := pnext_of_peek hp h0
    subst h1 h2
    obtain h | h | ⟨-, h⟩ := h
    · exact h
    · cases h
    · rw [h0] at h; cases h; exact absurd rfl hx
  | again hb hp _ ih =>
    intro hx
    obtain ⟨⟨y, h0⟩, h⟩ := nlBody_prompt ho hi hb
    obtain ⟨h1, h2⟩ := pnext_of_peek hp h0
    subst h1 h2
    obtain h | h | ⟨-, h⟩ := h
    · exact h.trans (ih hx)
    · cases h
    · rw [h0] at h; cases h

theorem ijLoop_of_timeout {ci : IjConf N K (TErr E)} {M : Mach S (Item N K (TErr E))} {s n r s' n'} (h : IjLoop ci M s n r s' n')
    (hs : s.lhs.2 = some (some timeout)) : r = some timeout := by
  have key : ∀ {p : S × Option (Option (Item N K (TErr E)))} {n x p' n'}, p.2 = some (some timeout) → Peek M p n x p' n' →
      x = some timeout ∧ p'.2 = some (some timeout) := by
    intro p n x p' n' hp hk
    cases hk with
    | peeked => cases hp; exact ⟨rfl, rfl⟩
    | fetch _ => cases hp
  cases h with
  | noCand hp => have := (key hs hp).1; cases this
  | hit hp _ => have := (key hs hp).1; cases this
  | nextRow hp _ _ _ _ _ => have := (key hs hp).1; cases this
  | candErr hp _ _ _ _ => have := (key hs hp).1; cases this
  | stop hp _ hn => have := (pnext_of_peek hn (key hs hp).2).1; cases this
  | err hp _ hn => exact (pnext_of_peek hn (key hs hp).2).1


theorem ijLoop_prompt {ci : IjConf N K (TErr E)} {M : Mach S (Item N K (TErr E))} (h : Prompt late M) {s n r s' n'}
    (hl : IjLoop ci M s n r s' n') : r ≠ some timeout → Quiet late n n' := by
  induction hl with
  | noCand hp => intro _; exact (peek_prompt h hp).2 (by simp)
  | hit hp _ => intro _; exact (peek_prompt h hp).2 (by simp)
  | @nextRow lhs n l lhs1 n1 cs o lhs2 n2 x lhs3 n3 cand r s' n' hp _ hn hp2 _ hl ih =>
    intro hx
    have h1 := (pnext_of_peek hn (peek_prompt h hp).1).2
    subst h1
    refine ((peek_prompt h hp).2 (by simp)).trans (Quiet.trans ?_ (ih hx))
    refine (peek_prompt h hp2).2 ?_
    intro hxt
    exact hx (ijLoop_of_timeout hl (by rw [(peek_prompt h hp2).1, hxt]))
  | @candErr lhs n l lhs1 n1 cs o lhs2 n2 x lhs3 n3 e hp _ hn hp2 hc =>
    intro hx
    have h1 := (pnext_of_peek hn (peek_prompt h hp).1).2
    subst h1
    refine ((peek_prompt h hp).2 (by simp)).trans ((peek_prompt h hp2).2 ?_)
    rintro rfl
    simp [IjConf.nextCandidates] at hc
  | stop hp _ hn =>
    intro _
    obtain ⟨h1, h2⟩ := pnext_of_peek hn (peek_prompt h hp).1
    subst h1 h2
    exact (peek_prompt h hp).2 (by simp)
  | err hp _ hn =>
    intro hx
    obtain ⟨h1, h2⟩ := pnext_of_peek hn (peek_prompt h hp).1
    subst h1 h2
    exact (peek_prompt h hp).2 hx

theorem ij_prompt {ci : IjConf N K (TErr E)} {M : Mach S (Item N K (TErr E))} (h : Prompt late M) : Prompt late (IjNext ci M) := by
  intro s n x s' n' hm hx
  cases hm with
  | run hl => exact ijLoop_prompt h hl hx
  | init hp _ hl =>
    refine ((peek_prompt h hp).2 ?_).trans (ijLoop_prompt h hl hx)
    intro hxt
    exact hx (ijLoop_of_timeout hl (by rw [(peek_prompt h hp).1, hxt]))
  | initErr hp hc =>
    refine (peek_prompt h hp).2 ?_
    rintro rfl
    simp [IjConf.nextCandidates] at hc

theorem tree_prompt (t : Tree N K E) : Prompt late (t.next late) := by
  induction t with
  | search l => exact search_prompt
  | filterBin op i j t ih => exact filter_prompt rfl ih
  | filterUn p i t ih => exact filter_prompt rfl ih
  | nested c o i iho ihi => exact nl_prompt iho ihi
  | index c l ih => exact ij_prompt ih

end

section
variable {S R E : Type} [DecidableEq R] {late : Nat → Bool} {M : Mach S (TItem R E)}

theorem plan_prompt {proxy : Bool} (h : Prompt late M) : Prompt late (PlanNext proxy M) := by
  intro s n x s' n' hm
  induction hm with
  | stop => intro _; exact .refl _
  | proxyEnd _ hm => intro _; exact h _ _ _ _ _ hm (by simp)
  | proxyRow _ hm => intro _; exact h _ _ _ _ _ hm (by simp)
  | err hm =>
    intro hx
    refine h _ _ _ _ _ hm ?_
    rintro ⟨⟩
    exact hx rfl
  | done _ hm _ ih => intro hx; exact (h _ _ _ _ _ hm (by simp)).trans (ih hx)
  | new _ hm _ => intro _; exact h _ _ _ _ _ hm (by simp)
  | dup _ hm _ _ ih => intro hx; exact (h _ _ _ _ _ hm (by simp)).trans (ih hx)

end

/-! ## The queries -/

section
variable {S C R E V : Type} {late : Nat → Bool} {M : Mach S (TItem R E)}

theorem listNext_prompt : Prompt late (listNext (R := R) (E := E)) := by
  rintro s n x s' n' ⟨h1, h2, h3⟩ _
  rw [h3]
  exact .refl _

theorem Exact.quiet (hp : Prompt late M) {s : S} {l : List (TItem R E)} (h : Exact late M s l) (hl : timeout ∉ l) {n x s' n'}
    (hm : M s n x s' n') : n ≤ n' ∧ ((x = l.head? ∧ Exact late M s' l.tail ∧ timeout ∉ l.tail ∧ Quiet late n n') ∨
      (x = some timeout ∧ late n' = true ∧ Dead late M s')) := by
  obtain ⟨h0, ⟨h1, h2⟩ | h1⟩ := h.all hm
  · refine ⟨h0, .inl ⟨h1, h2, fun h => hl (List.mem_of_mem_tail h), hp _ _ _ _ _ hm ?_⟩⟩
    rw [h1]
    intro hx
    exact hl (List.mem_of_mem_head? hx)
  · exact ⟨h0, .inr h1⟩

theorem countPlan_quiet (hc : Clock late) (hp : Prompt late M) {s : S} {tot n r n'} (h : CountPlan late M s tot n r n') :
    ∀ l, Exact late M s l → timeout ∉ l → r ≠ timeout → Quiet late n n' := by
  induction h with
  | stop hm =>
    intro l h hl _
    obtain ⟨h0, ⟨h1, h2, h3, h4⟩ | ⟨h1, -, -⟩⟩ := h.quiet hp hl hm
    · exact h4
    · cases h1
  | item hm hk hrest ih =>
    intro l h hl hr
    obtain ⟨h0, ⟨h1, h2, h3, h4⟩ | ⟨h1, h2, h3⟩⟩ := h.quiet hp hl hm
    · exact h4.trans (ih _ h2 h3 hr)
    · exact absurd (countPlan_dead_all hc hrest h3 h2).2 hr
  | check hm hk hlate hrest ih =>
    intro l h hl hr
    obtain ⟨h0, ⟨h1, h2, h3, h4⟩ | ⟨h1, h2, h3⟩⟩ := h.quiet hp hl hm
    · exact (h4.trans (.one hlate)).trans (ih _ h2 h3 hr)
    · rw [h2] at hlate; cases hlate
  | late => intro _ _ _ hr; exact absurd rfl hr

theorem count_quiet (hc : Clock late) (hp : Prompt late M) {ss : List S} {tot n r n'} (h : Count late M ss tot n r n') :
    ∀ ls, List.Forall₂ (Exact late M) ss ls → (∀ l ∈ ls, timeout ∉ l) → r ≠ timeout → Quiet late n n' := by
  induction h with
  | done => intro _ _ _ _; exact .refl _
  | fail hcp =>
    intro ls h hl hr
    cases h with
    | cons h1 h2 =>
      refine countPlan_quiet hc hp hcp _ h1 (hl _ (by simp)) ?_
      rintro ⟨⟩
      exact hr rfl
  | late => intro _ _ _ hr; exact absurd rfl hr
  | next hcp hlate _ ih =>
    intro ls h hl hr
    cases h with
    | cons h1 h2 =>
      exact ((countPlan_quiet hc hp hcp _ h1 (hl _ (by simp)) (by simp)).trans (.one hlate)).trans
        (ih _ h2 (fun l h => hl l (by simp [h])) hr)

theorem collect_quiet (hp : Prompt late M) {chk : Nat → Bool} {s : S} {acc n r n'} (h : Collect late chk M s acc n r n') :
    ∀ l, Exact late M s l → timeout ∉ l → r ≠ timeout → Quiet late n n' := by
  induction h with
  | stop hm =>
    intro l h hl _
    obtain ⟨h0, ⟨h1, h2, h3, h4⟩ | ⟨h1, -, -⟩⟩ := h.quiet hp hl hm
    · exact h4
    · cases h1
  | err hm =>
    intro l h hl hr
    refine hp _ _ _ _ _ hm ?_
    rintro ⟨⟩
    exact hr rfl
  | item hm _ _ ih =>
    intro l h hl hr
    obtain ⟨h0, ⟨h1, h2, h3, h4⟩ | ⟨h1, -, -⟩⟩ := h.quiet hp hl hm
    · exact h4.trans (ih _ h2 h3 hr)
    · cases h1
  | check hm _ hlate _ ih =>
    intro l h hl hr
    obtain ⟨h0, ⟨h1, h2, h3, h4⟩ | ⟨h1, -, -⟩⟩ := h.quiet hp hl hm
    · exact (h4.trans (.one hlate)).trans (ih _ h2 h3 hr)
    · cases h1
  | late => intro _ _ _ hr; exact absurd rfl hr

/-- None of the items is the time out error. -/
def Clean (ls : List (C × List (TItem R E))) : Prop := ∀ p ∈ ls, timeout ∉ p.2

theorem freq_quiet (hp : Prompt late M) {step : C → V → List R → V} {ss : List (C × S)} {v n r n'}
    (h : Freq late M step ss v n r n') : ∀ ls, Corpora late M ss ls → Clean ls → r ≠ timeout → Quiet late n n' := by
  induction h with
  | done => intro _ _ _ _; exact .refl _
  | fail hcp =>
    intro ls h hl hr
    cases h with
    | cons h1 h2 =>
      refine collect_quiet hp hcp _ h1.2 (hl _ (by simp)) ?_
      rintro ⟨⟩
      exact hr rfl
  | next hcp _ ih =>
    intro ls h hl hr
    cases h with
    | cons h1 h2 =>
      exact (collect_quiet hp hcp _ h1.2 (hl _ (by simp)) (by simp)).trans (ih _ h2 (fun l h => hl l (by simp [h])) hr)

theorem extra_quiet (hp : Prompt late M) {docs : C → List R → Nat} {ss : List (C × S)} {v n r n'}
    (h : Extra late M docs ss v n r n') : ∀ ls, Corpora late M ss ls → Clean ls → r ≠ timeout → Quiet late n n' := by
  induction h with
  | done => intro _ _ _ _; exact .refl _
  | fail hcp =>
    intro ls h hl hr
    cases h with
    | cons h1 h2 =>
      refine collect_quiet hp hcp _ h1.2 (hl _ (by simp)) ?_
      rintro ⟨⟩
      exact hr rfl
  | late => intro _ _ _ hr; exact absurd rfl hr
  | next hcp hlate _ ih =>
    intro ls h hl hr
    cases h with
    | cons h1 h2 =>
      exact ((collect_quiet hp hcp _ h1.2 (hl _ (by simp)) (by simp)).trans (.one hlate)).trans
        (ih _ h2 (fun l h => hl l (by simp [h])) hr)

theorem skip_quiet (hc : Clock late) (hp : Prompt late M) {offset : Nat} {s : S} {k n r n'} (h : Skip late M offset s k n r n') :
    k ≤ offset → ∀ l, Exact late M s l → timeout ∉ l → r ≠ timeout →
      (Quiet late n n' ∧ ∃ s' j l', r = .ok (s', j) ∧ Exact late M s' l' ∧ timeout ∉ l') ∨
      ∃ s', r = .ok (s', offset) ∧ Dead late M s' ∧ late n' = true := by
  induction h with
  | enough hle => intro _ l h hl _; exact .inl ⟨.refl _, _, _, l, rfl, h, hl⟩
  | stop hlt hm =>
    intro _ l h hl _
    obtain ⟨h0, ⟨h1, h2, h3, h4⟩ | ⟨h1, -, -⟩⟩ := h.quiet hp hl hm
    · exact .inl ⟨h4, _, _, _, rfl, h2, h3⟩
    · cases h1
  | item hlt hm hk hrest ih =>
    intro _ l h hl hr
    obtain ⟨h0, ⟨h1, h2, h3, h4⟩ | ⟨h1, h2, h3⟩⟩ := h.quiet hp hl hm
    · exact (ih (by omega) _ h2 h3 hr).imp (fun ⟨a, b⟩ => ⟨h4.trans a, b⟩) id
    · obtain ⟨h5, h6 | ⟨s', h6, h7⟩⟩ := skip_dead_all hc hrest h3 h2 (by omega)
      · exact absurd h6 hr
      · exact .inr ⟨s', h6, h7, hc _ _ h5 h2⟩
  | check hlt hm hk hlate hrest ih =>
    intro _ l h hl hr
    obtain ⟨h0, ⟨h1, h2, h3, h4⟩ | ⟨h1, h2, h3⟩⟩ := h.quiet hp hl hm
    · exact (ih (by omega) _ h2 h3 hr).imp (fun ⟨a, b⟩ => ⟨(h4.trans (.one hlate)).trans a, b⟩) id
    · rw [h2] at hlate; cases hlate
  | late => intro _ _ _ _ hr; exact absurd rfl hr

theorem page_quiet (hp : Prompt late M) {render : R → TItem V E} {s : S} {limit acc n r n'} (h : Page late M render s limit acc n r n') :
    ∀ l, Exact late M s l → timeout ∉ l → r ≠ timeout → Quiet late n n' := by
  induction h with
  | full => intro _ _ _ _; exact .refl _
  | stop _ hm => intro _ _ _ _; exact hp _ _ _ _ _ hm (by simp)
  | err _ hm =>
    intro _ _ _ hr
    refine hp _ _ _ _ _ hm ?_
    rintro ⟨⟩
    exact hr rfl
  | renderErr _ hm _ => intro _ _ _ _; exact hp _ _ _ _ _ hm (by simp)
  | item _ hm _ _ _ ih =>
    intro l h hl hr
    obtain ⟨h0, ⟨h1, h2, h3, h4⟩ | ⟨h1, -, -⟩⟩ := h.quiet hp hl hm
    · exact h4.trans (ih _ h2 h3 hr)
    · cases h1
  | check _ hm _ _ hlate _ ih =>
    intro l h hl hr
    obtain ⟨h0, ⟨h1, h2, h3, h4⟩ | ⟨h1, -, -⟩⟩ := h.quiet hp hl hm
    · exact (h4.trans (.one hlate)).trans (ih _ h2 h3 hr)
    · cases h1
  | late => intro _ _ _ hr; exact absurd rfl hr

theorem slice_quiet (hc : Clock late) (hp : Prompt late M) {render : R → TItem V E} {offset : Nat} {limit : Option Nat} {s : S} {n r n'}
    (h : Slice late M render offset limit s n r n') (h0 : limit ≠ some 0) {l : List (TItem R E)} (hl : Exact late M s l)
    (ht : timeout ∉ l) (hr : r ≠ timeout) : Quiet late n n' := by
  cases h with
  | skipErr hs =>
    obtain ⟨h1, s', j, l', h2, -, -⟩ | ⟨s', h2, -, -⟩ := skip_quiet hc hp hs (Nat.zero_le _) l hl ht (by rintro ⟨⟩; exact hr rfl)
    · cases h2
    · cases h2
  | pageErr hs hpg =>
    obtain ⟨h1, s', j, l', h2, h3, h4⟩ | ⟨s', h2, h3, h4⟩ := skip_quiet hc hp hs (Nat.zero_le _) l hl ht (by simp)
    · cases h2
      exact h1.trans (page_quiet hp hpg l' h3 h4 (by rintro ⟨⟩; exact hr rfl))
    · cases h2
      obtain ⟨-, h5 | ⟨h5, -⟩⟩ := page_dead_all hpg h3 h4
      · cases h5; exact absurd rfl hr
      · exact absurd h5 h0
  | ok hs hpg =>
    obtain ⟨h1, s', j, l', h2, h3, h4⟩ | ⟨s', h2, h3, h4⟩ := skip_quiet hc hp hs (Nat.zero_le _) l hl ht (by simp)
    · cases h2
      exact h1.trans (page_quiet hp hpg l' h3 h4 (by simp))
    · cases h2
      obtain ⟨-, h5 | ⟨h5, -⟩⟩ := page_dead_all hpg h3 h4
      · cases h5
      · exact absurd h5 h0

theorem single_quiet (hc : Clock late) (hp : Prompt late M) {c : FCorpus R E V} {offset : Nat} {limit : Option Nat} {s : S} {n r n'}
    (h : Single late M c offset limit s n r n') (h0 : limit ≠ some 0) {l : List (TItem R E)} (hl : Exact late M s l)
    (ht : timeout ∉ l) (hr : r ≠ timeout) : Quiet late n n' := by
  cases h with
  | direct _ hs => exact slice_quiet hc hp hs h0 hl ht hr
  | collectErr _ hcl => exact collect_quiet hp hcl l hl ht (by rintro ⟨⟩; exact hr rfl)
  | arrangeErr _ hcl _ => exact collect_quiet hp hcl l hl ht (by simp)
  | @sorted rows n1 rows' _ _ _ hcl _ hs =>
    refine (collect_quiet hp hcl l hl ht (by simp)).trans ?_
    exact slice_quiet hc listNext_prompt hs h0 (listNext_exact late _) (by simp) hr

theorem findLoop_quiet (hc : Clock late) (hp : Prompt late M) {offset : Nat} {limit : Option Nat} {cs : List (FCorpus R E V × S)}
    {cur res n r n'} (h : FindLoop late M offset limit cs cur res n r n') (h0 : limit ≠ some 0) : ∀ ls, Corpora late M cs ls →
      Clean ls → r ≠ timeout → Quiet late n n' := by
  induction h with
  | done => intro _ _ _ _; exact .refl _
  | fail hs =>
    intro ls h hl hr
    cases h with
    | cons h1 h2 => exact single_quiet hc hp hs h0 h1.2 (hl _ (by simp)) (by rintro ⟨⟩; exact hr rfl)
  | full hs _ =>
    intro ls h hl hr
    cases h with
    | cons h1 h2 => exact single_quiet hc hp hs h0 h1.2 (hl _ (by simp)) (by simp)
  | late => intro _ _ _ hr; exact absurd rfl hr
  | next hs _ hlate _ ih =>
    intro ls h hl hr
    cases h with
    | cons h1 h2 =>
      exact ((single_quiet hc hp hs h0 h1.2 (hl _ (by simp)) (by simp)).trans (.one hlate)).trans
        (ih _ h2 (fun l h => hl l (by simp [h])) hr)

theorem find_quiet (hc : Clock late) (hp : Prompt late M) {offset : Nat} {limit : Option Nat} {cs : List (FCorpus R E V × S)} {n r n'}
    (h : Find late M offset limit cs n r n') (h0 : limit ≠ some 0) {ls} (hl : Corpora late M cs ls) (ht : Clean ls)
    (hr : r ≠ timeout) : Quiet late n n' := by
  cases h with
  | none => exact .refl _
  | one hs =>
    cases hl with
    | cons h1 h2 => exact single_quiet hc hp hs h0 h1.2 (ht _ (by simp)) (by simp)
  | oneErr hs =>
    cases hl with
    | cons h1 h2 => exact single_quiet hc hp hs h0 h1.2 (ht _ (by simp)) (by rintro ⟨⟩; exact hr rfl)
  | many _ hs => exact findLoop_quiet hc hp hs h0 ls hl ht hr

end

end Timed
