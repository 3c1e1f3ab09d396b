import Verif.Timeout.Exec

/-!
# Queries under a time limit

Plans of several trees and the loops of `count`, `count_extra`, `frequency` and `find`, for iterators that are exact.
-/

namespace Timed

/-! ## Plans -/

section
variable {S R E : Type} [DecidableEq R] {late : Nat → Bool} {M : Mach S (TItem R E)}

/-- The items of the plans that are left. -/
def restItems (proxy : Bool) (seen : List R) (ls : List ((R → R) × List (TItem R E))) : List (TItem R E) :=
  let all := ls.map fun p => p.2.map (Except.map p.1)
  if proxy then all.headD [] else uniqItems seen all.flatten

/-- Each plan is exact for its list. -/
def PlanLive (late : Nat → Bool) (M : Mach S (TItem R E)) (ps : List ((R → R) × S)) (ls : List ((R → R) × List (TItem R E))) : Prop :=
  List.Forall₂ (fun p q => p.1 = q.1 ∧ Exact late M p.2 q.2) ps ls

/-- The current plan only gives time outs. -/
def PlanDead (late : Nat → Bool) (M : Mach S (TItem R E)) (st : List ((R → R) × S) × List R) : Prop :=
  ∃ f s ps, st.1 = (f, s) :: ps ∧ Dead late M s

theorem plan_dead {proxy : Bool} {st : List ((R → R) × S) × List R} (h : PlanDead late M st) :
    Dead late (PlanNext proxy M) st := by
  refine ⟨PlanDead late M, h, ?_⟩
  rintro ⟨ps0, seen⟩ ⟨f, s, ps, h1, h2⟩ n hn
  simp only at h1
  subst h1
  refine ⟨?_, ?_⟩
  · obtain ⟨x, s', n', hm⟩ := h2.ex hn
    obtain ⟨rfl, -, -⟩ := h2.all hn hm
    exact ⟨_, _, _, .err hm⟩
  · intro x st' n' hm
    cases hm with
    | proxyEnd _ hm => exact absurd (h2.all hn hm).1 (by simp)
    | proxyRow _ hm => have := (h2.all hn hm).1; cases this
    | err hm =>
      obtain ⟨h3, h4, h5⟩ := h2.all hn hm
      exact ⟨h3, h4, _, _, _, rfl, h5⟩
    | done _ hm _ => exact absurd (h2.all hn hm).1 (by simp)
    | new _ hm _ => have := (h2.all hn hm).1; cases this
    | dup _ hm _ _ => have := (h2.all hn hm).1; cases this

theorem plan_ex {proxy : Bool} : ∀ (k : Nat) (ps : List ((R → R) × S)) (ls : List ((R → R) × List (TItem R E))) (seen : List R) (n : Nat),
    (ls.map fun p => p.2.length + 1).sum = k → PlanLive late M ps ls → ∃ x st' n', PlanNext proxy M (ps, seen) n x st' n' := by
  intro k
  induction k using Nat.strong_induction_on with
  | _ k ih =>
    intro ps ls seen n hk hl
    cases hl with
    | nil => exact ⟨_, _, _, .stop⟩
    | @cons p q ps ls hpq hl =>
      obtain ⟨f, s⟩ := p
      obtain ⟨g, l⟩ := q
      obtain ⟨h1, h2⟩ := hpq
      simp only at h1 h2
      subst h1
      obtain ⟨x, s', n', hm⟩ := h2.ex n
      obtain ⟨-, ⟨h3, h4⟩ | ⟨rfl, -, -⟩⟩ := h2.all hm
      · cases l with
        | nil =>
          subst h3
          cases proxy with
          | true => exact ⟨_, _, _, .proxyEnd rfl hm⟩
          | false =>
            obtain ⟨y, st', n2, h5⟩ := ih _ (by rw [← hk]; simp) ps ls seen n' rfl hl
            exact ⟨_, _, _, .done rfl hm h5⟩
        | cons a l =>
          subst h3
          cases a with
          | error e => exact ⟨_, _, _, .err hm⟩
          | ok r =>
            cases proxy with
            | true => exact ⟨_, _, _, .proxyRow rfl hm⟩
            | false =>
              by_cases hr : f r ∈ seen
              · obtain ⟨y, st', n2, h5⟩ := ih _ (by rw [← hk]; simp) ((f, s') :: ps) ((f, l) :: ls) seen n' rfl
                  (.cons ⟨rfl, h4⟩ hl)
                exact ⟨_, _, _, .dup rfl hm hr h5⟩
              · exact ⟨_, _, _, .new rfl hm hr⟩
      · exact ⟨_, _, _, .err hm⟩

theorem plan_all (hc : Clock late) {proxy : Bool} {st : List ((R → R) × S) × List R} {n x st' n'}
    (h : PlanNext proxy M st n x st' n') : ∀ ls, PlanLive late M st.1 ls → n ≤ n' ∧
      ((∃ ls', PlanLive late M st'.1 ls' ∧ x = (restItems proxy st.2 ls).head? ∧
          restItems proxy st'.2 ls' = (restItems proxy st.2 ls).tail) ∨
        (x = some timeout ∧ late n' = true ∧ PlanDead late M st')) := by
  induction h with
  | @stop seen n =>
    intro ls hl
    cases hl
    exact ⟨le_refl _, .inl ⟨[], .nil, by cases proxy <;> rfl, by cases proxy <;> rfl⟩⟩
  | @proxyEnd f s ps seen n s' n' hb hm =>
    intro ls hl
    subst hb
    cases hl with
    | @cons p q _ ls hpq hl =>
      obtain ⟨g, l⟩ := q
      obtain ⟨rfl, h2⟩ := hpq
      obtain ⟨h0, ⟨h3, h4⟩ | ⟨h3, -, -⟩⟩ := h2.all hm
      · cases l with
        | nil => exact ⟨h0, .inl ⟨(f, []) :: ls, .cons ⟨rfl, h4⟩ hl, rfl, rfl⟩⟩
        | cons a l => simp at h3
      · cases h3
  | @proxyRow f s ps seen n r s' n' hb hm =>
    intro ls hl
    subst hb
    cases hl with
    | @cons p q _ ls hpq hl =>
      obtain ⟨g, l⟩ := q
      obtain ⟨rfl, h2⟩ := hpq
      obtain ⟨h0, ⟨h3, h4⟩ | ⟨h3, -, -⟩⟩ := h2.all hm
      · cases l with
        | nil => simp at h3
        | cons a l =>
          simp only [List.head?_cons, Option.some.injEq] at h3
          subst h3
          exact ⟨h0, .inl ⟨(f, l) :: ls, .cons ⟨rfl, h4⟩ hl, rfl, rfl⟩⟩
      · cases h3
  | @err f s ps seen n e s' n' hm =>
    intro ls hl
    cases hl with
    | @cons p q _ ls hpq hl =>
      obtain ⟨g, l⟩ := q
      obtain ⟨rfl, h2⟩ := hpq
      obtain ⟨h0, ⟨h3, h4⟩ | ⟨h3, h4, h5⟩⟩ := h2.all hm
      · cases l with
        | nil => simp at h3
        | cons a l =>
          simp only [List.head?_cons, Option.some.injEq] at h3
          subst h3
          exact ⟨h0, .inl ⟨(f, l) :: ls, .cons ⟨rfl, h4⟩ hl, by cases proxy <;> rfl, by cases proxy <;> rfl⟩⟩
      · exact ⟨h0, .inr ⟨h3, h4, f, s', ps, rfl, h5⟩⟩
  | @done f s ps seen n s1 n1 r st n' hb hm _ ih =>
    intro ls hl
    subst hb
    cases hl with
    | @cons p q _ ls hpq hl =>
      obtain ⟨g, l⟩ := q
      obtain ⟨rfl, h2⟩ := hpq
      obtain ⟨h0, ⟨h3, h4⟩ | ⟨h3, -, -⟩⟩ := h2.all hm
      · cases l with
        | nil =>
          obtain ⟨h5, h6⟩ := ih ls hl
          refine ⟨by omega, ?_⟩
          simpa [restItems] using h6
        | cons a l => simp at h3
      · cases h3
  | @new f s ps seen n r s' n' hb hm hr =>
    intro ls hl
    subst hb
    cases hl with
    | @cons p q _ ls hpq hl =>
      obtain ⟨g, l⟩ := q
      obtain ⟨rfl, h2⟩ := hpq
      obtain ⟨h0, ⟨h3, h4⟩ | ⟨h3, -, -⟩⟩ := h2.all hm
      · cases l with
        | nil => simp at h3
        | cons a l =>
          simp only [List.head?_cons, Option.some.injEq] at h3
          subst h3
          refine ⟨h0, .inl ⟨(f, l) :: ls, .cons ⟨rfl, h4⟩ hl, ?_, ?_⟩⟩ <;>
            simp [restItems, Except.map, uniqItems, hr]
      · cases h3
  | @dup f s ps seen n r s1 n1 x st n' hb hm hr _ ih =>
    intro ls hl
    subst hb
    cases hl with
    | @cons p q _ ls hpq hl =>
      obtain ⟨g, l⟩ := q
      obtain ⟨rfl, h2⟩ := hpq
      obtain ⟨h0, ⟨h3, h4⟩ | ⟨h3, -, -⟩⟩ := h2.all hm
      · cases l with
        | nil => simp at h3
        | cons a l =>
          simp only [List.head?_cons, Option.some.injEq] at h3
          subst h3
          obtain ⟨h5, h6⟩ := ih ((f, l) :: ls) (.cons ⟨rfl, h4⟩ hl)
          refine ⟨by omega, ?_⟩
          simpa [restItems, Except.map, uniqItems, hr] using h6
      · cases h3

theorem plan_exact (hc : Clock late) (proxy : Bool) {ps : List ((R → R) × S)} {ls : List ((R → R) × List (TItem R E))}
    (h : PlanLive late M ps ls) : Exact late (PlanNext proxy M) (ps, []) (planItems proxy ls) := by
  refine ⟨fun st l => ∃ ls, PlanLive late M st.1 ls ∧ l = restItems proxy st.2 ls, ⟨ls, h, rfl⟩, ?_⟩
  rintro ⟨ps, seen⟩ l ⟨ls, hl, rfl⟩ n
  refine ⟨plan_ex _ ps ls seen n rfl hl, ?_⟩
  intro x st' n' hm
  obtain ⟨h1, ⟨ls', h2, h3, h4⟩ | ⟨h2, h3, h4⟩⟩ := plan_all hc hm ls hl
  · exact ⟨h1, .inl ⟨h3, ls', h2, h4.symm⟩⟩
  · exact ⟨h1, .inr ⟨h2, h3, plan_dead h4⟩⟩

end

/-! ## Loops -/

section
variable {S C R E V N : Type} {late : Nat → Bool} {M : Mach S (TItem R E)}

theorem countPlan_dead_all {s : S} {tot n r n'} (hc : Clock late) (h : CountPlan late M s tot n r n') (hd : Dead late M s)
    (hn : late n = true) : n ≤ n' ∧ r = timeout := by
  induction h with
  | stop hm => exact absurd (hd.all hn hm).1 (by simp)
  | item hm _ _ ih =>
    obtain ⟨h1, h2, h3⟩ := hd.all hn hm
    obtain ⟨h4, h5⟩ := ih h3 (hc _ _ h2 hn)
    exact ⟨by omega, h5⟩
  | check hm _ hl _ _ =>
    obtain ⟨h1, h2, h3⟩ := hd.all hn hm
    rw [hc _ _ h2 hn] at hl
    cases hl
  | late hm _ _ =>
    obtain ⟨h1, h2, h3⟩ := hd.all hn hm
    exact ⟨by omega, rfl⟩

theorem countPlan_dead_ex (hc : Clock late) : ∀ (k : Nat) (s : S) (tot n : Nat), (tot + k + 1) % every = 0 → Dead late M s →
    late n = true → ∃ r n', CountPlan late M s tot n r n' := by
  intro k
  induction k with
  | zero =>
    intro s tot n hk hd hn
    obtain ⟨x, s', n', hm⟩ := hd.ex hn
    obtain ⟨rfl, h2, -⟩ := hd.all hn hm
    exact ⟨_, _, .late hm hk (hc _ _ h2 hn)⟩
  | succ k ih =>
    intro s tot n hk hd hn
    obtain ⟨x, s', n', hm⟩ := hd.ex hn
    obtain ⟨rfl, h2, h3⟩ := hd.all hn hm
    by_cases h : (tot + 1) % every = 0
    · exact ⟨_, _, .late hm h (hc _ _ h2 hn)⟩
    · obtain ⟨r, n2, h4⟩ := ih s' (tot + 1) n' (by rw [show tot + 1 + k + 1 = tot + (k + 1) + 1 by omega]; exact hk) h3 (hc _ _ h2 hn)
      exact ⟨_, _, .item hm h h4⟩

theorem countPlan_all (hc : Clock late) {s : S} {tot n r n'} (h : CountPlan late M s tot n r n') :
    ∀ l, Exact late M s l → n ≤ n' ∧ (r = .ok (tot + l.length) ∨ (r = timeout ∧ late n' = true)) := by
  induction h with
  | stop hm =>
    intro l hl
    obtain ⟨h0, ⟨h1, h2⟩ | ⟨h1, -, -⟩⟩ := hl.all hm
    · cases l with
      | nil => exact ⟨h0, .inl rfl⟩
      | cons a l => simp at h1
    · cases h1
  | item hm _ hp ih =>
    intro l hl
    obtain ⟨h0, ⟨h1, h2⟩ | ⟨h1, h2, h3⟩⟩ := hl.all hm
    · cases l with
      | nil => simp at h1
      | cons a l =>
        obtain ⟨h3, h4⟩ := ih l h2
        refine ⟨by omega, ?_⟩
        simpa [Nat.add_assoc, Nat.add_comm 1] using h4
    · obtain ⟨h4, h5⟩ := countPlan_dead_all hc hp h3 h2
      exact ⟨by omega, .inr ⟨h5, hc _ _ h4 h2⟩⟩
  | check hm _ hlate hp ih =>
    intro l hl
    obtain ⟨h0, ⟨h1, h2⟩ | ⟨h1, h2, h3⟩⟩ := hl.all hm
    · cases l with
      | nil => simp at h1
      | cons a l =>
        obtain ⟨h3, h4⟩ := ih l h2
        refine ⟨by omega, ?_⟩
        simpa [Nat.add_assoc, Nat.add_comm 1] using h4
    · rw [h2] at hlate
      cases hlate
  | late hm _ hlate =>
    intro l hl
    obtain ⟨h0, -⟩ := hl.all hm
    exact ⟨by omega, .inr ⟨rfl, hc _ _ (by omega) hlate⟩⟩

theorem countPlan_ex (hc : Clock late) : ∀ (l : List (TItem R E)) (s : S) (tot n : Nat), Exact late M s l →
    ∃ r n', CountPlan late M s tot n r n' := by
  intro l
  induction l with
  | nil =>
    intro s tot n hl
    obtain ⟨x, s', n', hm⟩ := hl.ex n
    obtain ⟨h0, ⟨rfl, h2⟩ | ⟨rfl, h2, h3⟩⟩ := hl.all hm
    · exact ⟨_, _, .stop hm⟩
    · by_cases h : (tot + 1) % every = 0
      · exact ⟨_, _, .late hm h h2⟩
      · obtain ⟨r, n2, h4⟩ := countPlan_dead_ex hc (every - 1 - (tot + 1) % every) s' (tot + 1) n' (by simp only [every]; omega) h3 h2
        exact ⟨_, _, .item hm h h4⟩
  | cons a l ih =>
    intro s tot n hl
    obtain ⟨x, s', n', hm⟩ := hl.ex n
    obtain ⟨h0, ⟨rfl, h2⟩ | ⟨rfl, h2, h3⟩⟩ := hl.all hm
    · by_cases h : (tot + 1) % every = 0
      · cases hlate : late n' with
        | true => exact ⟨_, _, .late hm h hlate⟩
        | false =>
          obtain ⟨r, n2, h4⟩ := ih s' (tot + 1) (n' + 1) h2
          exact ⟨_, _, .check hm h hlate h4⟩
      · obtain ⟨r, n2, h4⟩ := ih s' (tot + 1) n' h2
        exact ⟨_, _, .item hm h h4⟩
    · by_cases h : (tot + 1) % every = 0
      · exact ⟨_, _, .late hm h h2⟩
      · obtain ⟨r, n2, h4⟩ := countPlan_dead_ex hc (every - 1 - (tot + 1) % every) s' (tot + 1) n' (by simp only [every]; omega) h3 h2
        exact ⟨_, _, .item hm h h4⟩

/-- `count` for several corpora. -/
theorem count_all (hc : Clock late) {ss : List S} {tot n r n'} (h : Count late M ss tot n r n') :
    ∀ ls, List.Forall₂ (Exact late M) ss ls → n ≤ n' ∧
      (r = .ok (tot + (ls.map List.length).sum) ∨ (r = timeout ∧ late n' = true)) := by
  induction h with
  | done => intro ls hl; cases hl; exact ⟨le_refl _, .inl rfl⟩
  | fail hp =>
    intro ls hl
    cases hl with
    | cons h1 hl =>
      obtain ⟨h2, h3 | h3⟩ := countPlan_all hc hp _ h1
      · cases h3
      · exact ⟨h2, .inr h3⟩
  | late hp hlate =>
    intro ls hl
    cases hl with
    | cons h1 hl =>
      obtain ⟨h2, -⟩ := countPlan_all hc hp _ h1
      exact ⟨by omega, .inr ⟨rfl, hc _ _ (by omega) hlate⟩⟩
  | next hp hlate _ ih =>
    intro ls hl
    cases hl with
    | cons h1 hl =>
      obtain ⟨h2, h3 | h3⟩ := countPlan_all hc hp _ h1
      · cases h3
        obtain ⟨h4, h5⟩ := ih _ hl
        refine ⟨by omega, ?_⟩
        simpa [Nat.add_assoc] using h5
      · have := h3.1; cases this

theorem count_ex (hc : Clock late) : ∀ (ss : List S) (ls : List (List (TItem R E))) (tot n : Nat), List.Forall₂ (Exact late M) ss ls →
    ∃ r n', Count late M ss tot n r n' := by
  intro ss
  induction ss with
  | nil => intro ls tot n _; exact ⟨_, _, .done⟩
  | cons s ss ih =>
    intro ls tot n hl
    cases hl with
    | cons h1 hl =>
      obtain ⟨r, n1, h2⟩ := countPlan_ex hc _ s tot n h1
      cases r with
      | error e => exact ⟨_, _, .fail h2⟩
      | ok t =>
        cases hlate : late n1 with
        | true => exact ⟨_, _, .late h2 hlate⟩
        | false =>
          obtain ⟨r, n', h3⟩ := ih _ t (n1 + 1) hl
          exact ⟨_, _, .next h2 hlate h3⟩

/-- The rows, or the first error. -/
def rowsOf : List (TItem R E) → TItem (List R) E
  | [] => .ok []
  | .error e :: _ => .error e
  | .ok x :: l => (rowsOf l).map (x :: ·)

theorem collect_all (hc : Clock late) {chk : Nat → Bool} {s : S} {acc n r n'} (h : Collect late chk M s acc n r n') :
    ∀ l, Exact late M s l → n ≤ n' ∧ (r = (rowsOf l).map (acc ++ ·) ∨ (r = timeout ∧ late n' = true)) := by
  induction h with
  | stop hm =>
    intro l hl
    obtain ⟨h0, ⟨h1, h2⟩ | ⟨h1, -, -⟩⟩ := hl.all hm
    · cases l with
      | nil => exact ⟨h0, .inl (by simp [rowsOf, Except.map])⟩
      | cons a l => simp at h1
    · cases h1
  | err hm =>
    intro l hl
    obtain ⟨h0, ⟨h1, h2⟩ | ⟨h1, h2, h3⟩⟩ := hl.all hm
    · cases l with
      | nil => simp at h1
      | cons a l =>
        simp only [List.head?_cons, Option.some.injEq] at h1
        subst h1
        exact ⟨h0, .inl rfl⟩
    · cases h1
      exact ⟨h0, .inr ⟨rfl, h2⟩⟩
  | item hm _ hp ih =>
    intro l hl
    obtain ⟨h0, ⟨h1, h2⟩ | ⟨h1, h2, h3⟩⟩ := hl.all hm
    · cases l with
      | nil => simp at h1
      | cons a l =>
        simp only [List.head?_cons, Option.some.injEq] at h1
        subst h1
        obtain ⟨h3, h4⟩ := ih l h2
        refine ⟨by omega, ?_⟩
        rw [rowsOf]
        cases h5 : rowsOf l <;> simpa [h5, Except.map] using h4
    · cases h1
  | check hm _ hlate hp ih =>
    intro l hl
    obtain ⟨h0, ⟨h1, h2⟩ | ⟨h1, h2, h3⟩⟩ := hl.all hm
    · cases l with
      | nil => simp at h1
      | cons a l =>
        simp only [List.head?_cons, Option.some.injEq] at h1
        subst h1
        obtain ⟨h3, h4⟩ := ih l h2
        refine ⟨by omega, ?_⟩
        rw [rowsOf]
        cases h5 : rowsOf l <;> simpa [h5, Except.map] using h4
    · cases h1
  | late hm _ hlate =>
    intro l hl
    obtain ⟨h0, -⟩ := hl.all hm
    exact ⟨by omega, .inr ⟨rfl, hc _ _ (by omega) hlate⟩⟩

theorem collect_ex {chk : Nat → Bool} : ∀ (l : List (TItem R E)) (s : S) (acc : List R) (n : Nat), Exact late M s l →
    ∃ r n', Collect late chk M s acc n r n' := by
  intro l
  induction l with
  | nil =>
    intro s acc n hl
    obtain ⟨x, s', n', hm⟩ := hl.ex n
    obtain ⟨h0, ⟨rfl, h2⟩ | ⟨rfl, h2, h3⟩⟩ := hl.all hm
    · exact ⟨_, _, .stop hm⟩
    · exact ⟨_, _, .err hm⟩
  | cons a l ih =>
    intro s acc n hl
    obtain ⟨x, s', n', hm⟩ := hl.ex n
    obtain ⟨h0, ⟨rfl, h2⟩ | ⟨rfl, h2, h3⟩⟩ := hl.all hm
    · cases a with
      | error e => exact ⟨_, _, .err hm⟩
      | ok x =>
        cases hchk : chk (acc.length + 1) with
        | false =>
          obtain ⟨r, n2, h4⟩ := ih s' (acc ++ [x]) n' h2
          exact ⟨_, _, .item hm hchk h4⟩
        | true =>
          cases hlate : late n' with
          | true => exact ⟨_, _, .late hm hchk hlate⟩
          | false =>
            obtain ⟨r, n2, h4⟩ := ih s' (acc ++ [x]) (n' + 1) h2
            exact ⟨_, _, .check hm hchk hlate h4⟩
    · exact ⟨_, _, .err hm⟩

/-- The rows of each corpus are added one after the other; the first error ends this. -/
def foldRows (step : C → V → List R → V) : List (C × List (TItem R E)) → V → TItem V E
  | [], v => .ok v
  | (c, l) :: ls, v =>
    match rowsOf l with
    | .error e => .error e
    | .ok rows => foldRows step ls (step c v rows)

/-- The corpora and their iterators belong to the corpora and their items. -/
def Corpora (late : Nat → Bool) (M : Mach S (TItem R E)) (ss : List (C × S)) (ls : List (C × List (TItem R E))) : Prop :=
  List.Forall₂ (fun p q => p.1 = q.1 ∧ Exact late M p.2 q.2) ss ls

theorem freq_all (hc : Clock late) {step : C → V → List R → V} {ss : List (C × S)} {v n r n'}
    (h : Freq late M step ss v n r n') : ∀ ls, Corpora late M ss ls → n ≤ n' ∧
      (r = foldRows step ls v ∨ (r = timeout ∧ late n' = true)) := by
  induction h with
  | done => intro ls hl; cases hl; exact ⟨le_refl _, .inl rfl⟩
  | fail hp =>
    intro ls hl
    cases hl with
    | @cons p q _ ls hpq hl =>
      obtain ⟨c, l⟩ := q
      obtain ⟨rfl, h1⟩ := hpq
      obtain ⟨h2, h3 | h3⟩ := collect_all hc hp _ h1
      · refine ⟨h2, .inl ?_⟩
        simp only [foldRows]
        cases h5 : rowsOf l with
        | error e => rw [h5] at h3; simpa [Except.map] using h3
        | ok rows => rw [h5] at h3; simp [Except.map] at h3
      · obtain ⟨h3, h4⟩ := h3
        cases h3
        exact ⟨h2, .inr ⟨rfl, h4⟩⟩
  | next hp _ ih =>
    intro ls hl
    cases hl with
    | @cons p q _ ls hpq hl =>
      obtain ⟨c, l⟩ := q
      obtain ⟨rfl, h1⟩ := hpq
      obtain ⟨h2, h3 | h3⟩ := collect_all hc hp _ h1
      · obtain ⟨h4, h5⟩ := ih ls hl
        refine ⟨by omega, ?_⟩
        simp only [foldRows]
        cases h6 : rowsOf l with
        | error e => rw [h6] at h3; simp [Except.map] at h3
        | ok rows => rw [h6] at h3; simp [Except.map] at h3; subst h3; exact h5
      · have := h3.1; cases this

theorem freq_ex {step : C → V → List R → V} : ∀ (ss : List (C × S)) (ls : List (C × List (TItem R E))) (v : V) (n : Nat),
    Corpora late M ss ls → ∃ r n', Freq late M step ss v n r n' := by
  intro ss
  induction ss with
  | nil => intro ls v n _; exact ⟨_, _, .done⟩
  | cons s ss ih =>
    intro ls v n hl
    obtain ⟨c, s⟩ := s
    cases hl with
    | @cons p q _ ls hpq hl =>
      obtain ⟨r, n1, h2⟩ := collect_ex (chk := fun k => k % every = 0) _ s [] n hpq.2
      cases r with
      | error e => exact ⟨_, _, .fail h2⟩
      | ok rows =>
        obtain ⟨r, n', h3⟩ := ih _ (step c v rows) n1 hl
        exact ⟨_, _, .next h2 h3⟩

/-- The numbers of matches and documents of one more corpus. -/
def addCounts (docs : C → List R → Nat) (c : C) (v : Nat × Nat) (rows : List R) : Nat × Nat := (v.1 + rows.length, v.2 + docs c rows)

theorem extra_all (hc : Clock late) {docs : C → List R → Nat} {ss : List (C × S)} {v n r n'}
    (h : Extra late M docs ss v n r n') : ∀ ls, Corpora late M ss ls → n ≤ n' ∧
      (r = foldRows (addCounts docs) ls v ∨ (r = timeout ∧ late n' = true)) := by
  induction h with
  | done => intro ls hl; cases hl; exact ⟨le_refl _, .inl rfl⟩
  | fail hp =>
    intro ls hl
    cases hl with
    | @cons p q _ ls hpq hl =>
      obtain ⟨c, l⟩ := q
      obtain ⟨rfl, h1⟩ := hpq
      obtain ⟨h2, h3 | h3⟩ := collect_all hc hp _ h1
      · refine ⟨h2, .inl ?_⟩
        simp only [foldRows]
        cases h5 : rowsOf l with
        | error e => rw [h5] at h3; simpa [Except.map] using h3
        | ok rows => rw [h5] at h3; simp [Except.map] at h3
      · obtain ⟨h3, h4⟩ := h3
        cases h3
        exact ⟨h2, .inr ⟨rfl, h4⟩⟩
  | late hp hlate =>
    intro ls hl
    cases hl with
    | @cons p q _ ls hpq hl =>
      obtain ⟨h2, -⟩ := collect_all hc hp _ hpq.2
      exact ⟨by omega, .inr ⟨rfl, hc _ _ (by omega) hlate⟩⟩
  | next hp hlate _ ih =>
    intro ls hl
    cases hl with
    | @cons p q _ ls hpq hl =>
      obtain ⟨c, l⟩ := q
      obtain ⟨rfl, h1⟩ := hpq
      obtain ⟨h2, h3 | h3⟩ := collect_all hc hp _ h1
      · obtain ⟨h4, h5⟩ := ih ls hl
        refine ⟨by omega, ?_⟩
        simp only [foldRows]
        cases h6 : rowsOf l with
        | error e => rw [h6] at h3; simp [Except.map] at h3
        | ok rows => rw [h6] at h3; simp [Except.map] at h3; subst h3; exact h5
      · have := h3.1; cases this

theorem extra_ex {docs : C → List R → Nat} : ∀ (ss : List (C × S)) (ls : List (C × List (TItem R E))) (v : Nat × Nat) (n : Nat),
    Corpora late M ss ls → ∃ r n', Extra late M docs ss v n r n' := by
  intro ss
  induction ss with
  | nil => intro ls v n _; exact ⟨_, _, .done⟩
  | cons s ss ih =>
    intro ls v n hl
    obtain ⟨c, s⟩ := s
    cases hl with
    | @cons p q _ ls hpq hl =>
      obtain ⟨r, n1, h2⟩ := collect_ex (chk := fun k => (v.1 + k) % every = 0) _ s [] n hpq.2
      cases r with
      | error e => exact ⟨_, _, .fail h2⟩
      | ok rows =>
        cases hlate : late n1 with
        | true => exact ⟨_, _, .late h2 hlate⟩
        | false =>
          obtain ⟨r, n', h3⟩ := ih _ (v.1 + rows.length, v.2 + docs c rows) (n1 + 1) hl
          exact ⟨_, _, .next h2 hlate h3⟩

/-! ### Skipping and taking -/

theorem skip_dead_all (hc : Clock late) {offset : Nat} {s : S} {k n r n'} (h : Skip late M offset s k n r n') (hd : Dead late M s)
    (hn : late n = true) (hk : k ≤ offset) : n ≤ n' ∧ (r = timeout ∨ ∃ s', r = .ok (s', offset) ∧ Dead late M s') := by
  induction h with
  | @enough s k n hle =>
    have : offset = k := by omega
    subst this
    exact ⟨le_refl _, .inr ⟨s, rfl, hd⟩⟩
  | stop _ hm => exact absurd (hd.all hn hm).1 (by simp)
  | item hlt hm _ _ ih =>
    obtain ⟨h1, h2, h3⟩ := hd.all hn hm
    obtain ⟨h4, h5⟩ := ih h3 (hc _ _ h2 hn) (by omega)
    exact ⟨by omega, h5⟩
  | check _ hm _ hl _ _ =>
    obtain ⟨h1, h2, h3⟩ := hd.all hn hm
    rw [hc _ _ h2 hn] at hl
    cases hl
  | late _ hm _ _ =>
    obtain ⟨h1, h2, h3⟩ := hd.all hn hm
    exact ⟨by omega, .inl rfl⟩

theorem skip_all (hc : Clock late) {offset : Nat} {s : S} {k n r n'} (h : Skip late M offset s k n r n') : ∀ l, Exact late M s l →
    k ≤ offset → n ≤ n' ∧ ((∃ s', r = .ok (s', k + min (offset - k) l.length) ∧ Exact late M s' (l.drop (offset - k))) ∨
      (r = timeout ∧ late n' = true) ∨ ∃ s', r = .ok (s', offset) ∧ Dead late M s' ∧ late n' = true) := by
  induction h with
  | @enough s k n hle =>
    intro l hl hk
    refine ⟨le_refl _, .inl ⟨s, ?_, ?_⟩⟩
    · rw [show offset - k = 0 by omega]; simp
    · rw [show offset - k = 0 by omega]; exact hl
  | @stop s k n s' n' hlt hm =>
    intro l hl hk
    obtain ⟨h0, ⟨h1, h2⟩ | ⟨h1, -, -⟩⟩ := hl.all hm
    · cases l with
      | nil => exact ⟨h0, .inl ⟨s', by simp, by simpa using h2⟩⟩
      | cons a l => simp at h1
    · cases h1
  | @item s k n x s1 n1 r n' hlt hm _ hp ih =>
    intro l hl hk
    obtain ⟨h0, ⟨h1, h2⟩ | ⟨h1, h2, h3⟩⟩ := hl.all hm
    · cases l with
      | nil => simp at h1
      | cons a l =>
        obtain ⟨h3, h4⟩ := ih l h2 (by omega)
        refine ⟨by omega, h4.imp ?_ id⟩
        rintro ⟨s', h5, h6⟩
        refine ⟨s', ?_, ?_⟩
        · rw [h5]; congr 2; simp only [List.length_cons]; omega
        · rw [show offset - k = (offset - (k + 1)) + 1 by omega]; simpa using h6
    · obtain ⟨h4, h5⟩ := skip_dead_all hc hp h3 h2 (by omega)
      refine ⟨by omega, .inr ?_⟩
      obtain h5 | ⟨s', h5, h6⟩ := h5
      · exact .inl ⟨h5, hc _ _ h4 h2⟩
      · exact .inr ⟨s', h5, h6, hc _ _ h4 h2⟩
  | @check s k n x s1 n1 r n' hlt hm _ hlate hp ih =>
    intro l hl hk
    obtain ⟨h0, ⟨h1, h2⟩ | ⟨h1, h2, h3⟩⟩ := hl.all hm
    · cases l with
      | nil => simp at h1
      | cons a l =>
        obtain ⟨h3, h4⟩ := ih l h2 (by omega)
        refine ⟨by omega, h4.imp ?_ id⟩
        rintro ⟨s', h5, h6⟩
        refine ⟨s', ?_, ?_⟩
        · rw [h5]; congr 2; simp only [List.length_cons]; omega
        · rw [show offset - k = (offset - (k + 1)) + 1 by omega]; simpa using h6
    · rw [h2] at hlate
      cases hlate
  | late _ hm _ hlate =>
    intro l hl hk
    obtain ⟨h0, -⟩ := hl.all hm
    exact ⟨by omega, .inr (.inl ⟨rfl, hc _ _ (by omega) hlate⟩)⟩

theorem skip_dead_ex (hc : Clock late) {offset : Nat} : ∀ (j : Nat) (s : S) (k n : Nat), offset - k = j → Dead late M s →
    late n = true → ∃ r n', Skip late M offset s k n r n' := by
  intro j
  induction j with
  | zero => intro s k n hj _ _; exact ⟨_, _, .enough (by omega)⟩
  | succ j ih =>
    intro s k n hj hd hn
    obtain ⟨x, s', n', hm⟩ := hd.ex hn
    obtain ⟨rfl, h2, h3⟩ := hd.all hn hm
    by_cases h : (k + 1) % every = 0
    · exact ⟨_, _, .late (by omega) hm h (hc _ _ h2 hn)⟩
    · obtain ⟨r, n2, h4⟩ := ih s' (k + 1) n' (by omega) h3 (hc _ _ h2 hn)
      exact ⟨_, _, .item (by omega) hm h h4⟩

theorem skip_ex (hc : Clock late) {offset : Nat} : ∀ (l : List (TItem R E)) (s : S) (k n : Nat), Exact late M s l →
    ∃ r n', Skip late M offset s k n r n' := by
  intro l
  induction l with
  | nil =>
    intro s k n hl
    by_cases hk : offset ≤ k
    · exact ⟨_, _, .enough hk⟩
    obtain ⟨x, s', n', hm⟩ := hl.ex n
    obtain ⟨h0, ⟨rfl, h2⟩ | ⟨rfl, h2, h3⟩⟩ := hl.all hm
    · exact ⟨_, _, .stop (by omega) hm⟩
    · by_cases h : (k + 1) % every = 0
      · exact ⟨_, _, .late (by omega) hm h h2⟩
      · obtain ⟨r, n2, h4⟩ := skip_dead_ex (offset := offset) hc _ s' (k + 1) n' rfl h3 h2
        exact ⟨_, _, .item (by omega) hm h h4⟩
  | cons a l ih =>
    intro s k n hl
    by_cases hk : offset ≤ k
    · exact ⟨_, _, .enough hk⟩
    obtain ⟨x, s', n', hm⟩ := hl.ex n
    obtain ⟨h0, ⟨rfl, h2⟩ | ⟨rfl, h2, h3⟩⟩ := hl.all hm
    · by_cases h : (k + 1) % every = 0
      · cases hlate : late n' with
        | true => exact ⟨_, _, .late (by omega) hm h hlate⟩
        | false =>
          obtain ⟨r, n2, h4⟩ := ih s' (k + 1) (n' + 1) h2
          exact ⟨_, _, .check (by omega) hm h hlate h4⟩
      · obtain ⟨r, n2, h4⟩ := ih s' (k + 1) n' h2
        exact ⟨_, _, .item (by omega) hm h h4⟩
    · by_cases h : (k + 1) % every = 0
      · exact ⟨_, _, .late (by omega) hm h h2⟩
      · obtain ⟨r, n2, h4⟩ := skip_dead_ex (offset := offset) hc _ s' (k + 1) n' rfl h3 h2
        exact ⟨_, _, .item (by omega) hm h h4⟩

/-- The first items, if there is a limit. -/
def takeOpt {α : Type} (limit : Option Nat) (l : List α) : List α :=
  match limit with
  | some k => l.take k
  | none => l

/-- The text of a row. -/
def renderItem (render : R → TItem V E) (x : TItem R E) : TItem V E :=
  match x with
  | .error e => .error e
  | .ok r => render r

/-- The results without a time limit. -/
def pageRef (render : R → TItem V E) (limit : Option Nat) (l : List (TItem R E)) : TItem (List V) E :=
  rowsOf ((takeOpt limit l).map (renderItem render))

theorem takeOpt_cons {α : Type} {limit : Option Nat} (h : limit ≠ some 0) (a : α) (l : List α) :
    takeOpt limit (a :: l) = a :: takeOpt (limit.map (· - 1)) l := by
  cases limit with
  | none => rfl
  | some k =>
    cases k with
    | zero => simp at h
    | succ k => rfl

theorem page_all (hc : Clock late) {render : R → TItem V E} {s : S} {limit acc n r n'}
    (h : Page late M render s limit acc n r n') : ∀ l, Exact late M s l → n ≤ n' ∧
      (r = (pageRef render limit l).map (acc ++ ·) ∨ (r = timeout ∧ late n' = true)) := by
  induction h with
  | full => intro l _; exact ⟨le_refl _, .inl (by simp [pageRef, takeOpt, rowsOf, Except.map])⟩
  | @stop s limit acc n s' n' hlim hm =>
    intro l hl
    obtain ⟨h0, ⟨h1, h2⟩ | ⟨h1, -, -⟩⟩ := hl.all hm
    · cases l with
      | nil => exact ⟨h0, .inl (by cases limit <;> simp [pageRef, takeOpt, rowsOf, Except.map])⟩
      | cons a l => simp at h1
    · cases h1
  | err hlim hm =>
    intro l hl
    obtain ⟨h0, ⟨h1, h2⟩ | ⟨h1, h2, h3⟩⟩ := hl.all hm
    · cases l with
      | nil => simp at h1
      | cons a l =>
        simp only [List.head?_cons, Option.some.injEq] at h1
        subst h1
        refine ⟨h0, .inl ?_⟩
        rw [pageRef, takeOpt_cons hlim]
        rfl
    · cases h1
      exact ⟨h0, .inr ⟨rfl, h2⟩⟩
  | renderErr hlim hm hx =>
    intro l hl
    obtain ⟨h0, ⟨h1, h2⟩ | ⟨h1, h2, h3⟩⟩ := hl.all hm
    · cases l with
      | nil => simp at h1
      | cons a l =>
        simp only [List.head?_cons, Option.some.injEq] at h1
        subst h1
        refine ⟨h0, .inl ?_⟩
        rw [pageRef, takeOpt_cons hlim]
        simp [renderItem, hx, rowsOf, Except.map]
    · cases h1
  | item hlim hm hx _ hp ih =>
    intro l hl
    obtain ⟨h0, ⟨h1, h2⟩ | ⟨h1, h2, h3⟩⟩ := hl.all hm
    · cases l with
      | nil => simp at h1
      | cons a l =>
        simp only [List.head?_cons, Option.some.injEq] at h1
        subst h1
        obtain ⟨h3, h4⟩ := ih l h2
        refine ⟨by omega, ?_⟩
        rw [pageRef, takeOpt_cons hlim]
        simp only [List.map_cons, renderItem, hx, rowsOf]
        rw [pageRef] at h4
        generalize rowsOf (List.map (renderItem render) _) = q at h4 ⊢
        cases q <;> simpa [Except.map] using h4
    · cases h1
  | check hlim hm hx _ hlate hp ih =>
    intro l hl
    obtain ⟨h0, ⟨h1, h2⟩ | ⟨h1, h2, h3⟩⟩ := hl.all hm
    · cases l with
      | nil => simp at h1
      | cons a l =>
        simp only [List.head?_cons, Option.some.injEq] at h1
        subst h1
        obtain ⟨h3, h4⟩ := ih l h2
        refine ⟨by omega, ?_⟩
        rw [pageRef, takeOpt_cons hlim]
        simp only [List.map_cons, renderItem, hx, rowsOf]
        rw [pageRef] at h4
        generalize rowsOf (List.map (renderItem render) _) = q at h4 ⊢
        cases q <;> simpa [Except.map] using h4
    · cases h1
  | late _ hm _ _ hlate =>
    intro l hl
    obtain ⟨h0, -⟩ := hl.all hm
    exact ⟨by omega, .inr ⟨rfl, hc _ _ (by omega) hlate⟩⟩

theorem page_dead_all {render : R → TItem V E} {s : S} {limit acc n r n'} (h : Page late M render s limit acc n r n')
    (hd : Dead late M s) (hn : late n = true) : n ≤ n' ∧ (r = timeout ∨ (limit = some 0 ∧ r = .ok acc)) := by
  cases h with
  | full => exact ⟨le_refl _, .inr ⟨rfl, rfl⟩⟩
  | stop _ hm => exact absurd (hd.all hn hm).1 (by simp)
  | err _ hm =>
    obtain ⟨h1, h2, -⟩ := hd.all hn hm
    cases h1
    exact ⟨h2, .inl rfl⟩
  | renderErr _ hm _ => have := (hd.all hn hm).1; cases this
  | item _ hm _ _ _ => have := (hd.all hn hm).1; cases this
  | check _ hm _ _ _ _ => have := (hd.all hn hm).1; cases this
  | late _ hm _ _ _ => have := (hd.all hn hm).1; cases this

theorem page_ex {render : R → TItem V E} : ∀ (l : List (TItem R E)) (s : S) (limit : Option Nat) (acc : List V) (n : Nat),
    Exact late M s l → ∃ r n', Page late M render s limit acc n r n' := by
  intro l
  induction l with
  | nil =>
    intro s limit acc n hl
    by_cases hlim : limit = some 0
    · subst hlim; exact ⟨_, _, .full⟩
    obtain ⟨x, s', n', hm⟩ := hl.ex n
    obtain ⟨h0, ⟨rfl, h2⟩ | ⟨rfl, h2, h3⟩⟩ := hl.all hm
    · exact ⟨_, _, .stop hlim hm⟩
    · exact ⟨_, _, .err hlim hm⟩
  | cons a l ih =>
    intro s limit acc n hl
    by_cases hlim : limit = some 0
    · subst hlim; exact ⟨_, _, .full⟩
    obtain ⟨x, s', n', hm⟩ := hl.ex n
    obtain ⟨h0, ⟨rfl, h2⟩ | ⟨rfl, h2, h3⟩⟩ := hl.all hm
    · cases a with
      | error e => exact ⟨_, _, .err hlim hm⟩
      | ok x =>
        cases hx : render x with
        | error e => exact ⟨_, _, .renderErr hlim hm hx⟩
        | ok v =>
          by_cases h : acc.length % every = 0
          · cases hlate : late n' with
            | true => exact ⟨_, _, .late hlim hm hx h hlate⟩
            | false =>
              obtain ⟨r, n2, h4⟩ := ih s' (limit.map (· - 1)) (acc ++ [v]) (n' + 1) h2
              exact ⟨_, _, .check hlim hm hx h hlate h4⟩
          · obtain ⟨r, n2, h4⟩ := ih s' (limit.map (· - 1)) (acc ++ [v]) n' h2
            exact ⟨_, _, .item hlim hm hx h h4⟩
    · exact ⟨_, _, .err hlim hm⟩

theorem page_dead_ex {render : R → TItem V E} {s : S} {n : Nat} (hd : Dead late M s) (hn : late n = true) (limit : Option Nat)
    (acc : List V) : ∃ r n', Page late M render s limit acc n r n' := by
  by_cases hlim : limit = some 0
  · subst hlim; exact ⟨_, _, .full⟩
  obtain ⟨x, s', n', hm⟩ := hd.ex hn
  obtain ⟨rfl, -, -⟩ := hd.all hn hm
  exact ⟨_, _, .err hlim hm⟩

/-- A page and the number of skipped items without a time limit. -/
def sliceRef (render : R → TItem V E) (offset : Nat) (limit : Option Nat) (l : List (TItem R E)) : TItem (List V × Nat) E :=
  (pageRef render limit (l.drop offset)).map (·, min offset l.length)

theorem slice_all (hc : Clock late) {render : R → TItem V E} {offset : Nat} {limit : Option Nat} {s : S} {n r n'}
    (h : Slice late M render offset limit s n r n') {l : List (TItem R E)} (hl : Exact late M s l) : n ≤ n' ∧
      (r = sliceRef render offset limit l ∨ (r = timeout ∧ late n' = true) ∨
        (limit = some 0 ∧ late n' = true ∧ r = .ok ([], offset))) := by
  cases h with
  | skipErr hs =>
    obtain ⟨h1, ⟨s', h2, h3⟩ | ⟨h2, h3⟩ | ⟨s', h2, h3, h4⟩⟩ := skip_all hc hs l hl (Nat.zero_le _)
    · cases h2
    · cases h2; exact ⟨h1, .inr (.inl ⟨rfl, h3⟩)⟩
    · cases h2
  | pageErr hs hp =>
    obtain ⟨h1, ⟨s', h2, h3⟩ | ⟨h2, h3⟩ | ⟨s', h2, h3, h4⟩⟩ := skip_all hc hs l hl (Nat.zero_le _)
    · cases h2
      obtain ⟨h4, h5 | ⟨h5, h6⟩⟩ := page_all hc hp _ h3
      · refine ⟨by omega, .inl ?_⟩
        rw [Nat.sub_zero] at h5
        rw [sliceRef]
        cases hq : pageRef render limit (l.drop offset) with
        | error e => rw [hq] at h5; simpa [Except.map] using h5
        | ok vs => rw [hq] at h5; simp [Except.map] at h5
      · cases h5; exact ⟨by omega, .inr (.inl ⟨rfl, h6⟩)⟩
    · cases h2
    · cases h2
      obtain ⟨h5, h6 | ⟨-, h6⟩⟩ := page_dead_all hp h3 h4
      · cases h6; exact ⟨by omega, .inr (.inl ⟨rfl, hc _ _ h5 h4⟩)⟩
      · cases h6
  | ok hs hp =>
    obtain ⟨h1, ⟨s', h2, h3⟩ | ⟨h2, h3⟩ | ⟨s', h2, h3, h4⟩⟩ := skip_all hc hs l hl (Nat.zero_le _)
    · cases h2
      obtain ⟨h4, h5 | ⟨h5, h6⟩⟩ := page_all hc hp _ h3
      · refine ⟨by omega, .inl ?_⟩
        rw [Nat.sub_zero] at h5
        rw [sliceRef]
        cases hq : pageRef render limit (l.drop offset) with
        | error e => rw [hq] at h5; simp [Except.map] at h5
        | ok vs => rw [hq] at h5; simp [Except.map] at h5; simp [h5, Except.map]
      · cases h5
    · cases h2
    · cases h2
      obtain ⟨h5, h6 | ⟨h6, h7⟩⟩ := page_dead_all hp h3 h4
      · cases h6
      · cases h7; exact ⟨by omega, .inr (.inr ⟨h6, hc _ _ h5 h4, rfl⟩)⟩

theorem slice_ex (hc : Clock late) {render : R → TItem V E} {offset : Nat} {limit : Option Nat} {s : S} {l : List (TItem R E)}
    (hl : Exact late M s l) (n : Nat) : ∃ r n', Slice late M render offset limit s n r n' := by
  obtain ⟨r, n1, hs⟩ := skip_ex (offset := offset) hc l s 0 n hl
  cases r with
  | error e => exact ⟨_, _, .skipErr hs⟩
  | ok q =>
    obtain ⟨s', k⟩ := q
    have : ∃ r n', Page late M render s' limit [] n1 r n' := by
      obtain ⟨h1, ⟨s2, h2, h3⟩ | ⟨h2, h3⟩ | ⟨s2, h2, h3, h4⟩⟩ := skip_all hc hs l hl (Nat.zero_le _)
      · cases h2; exact page_ex _ _ _ _ _ h3
      · cases h2
      · cases h2; exact page_dead_ex h3 h4 _ _
    obtain ⟨r, n', hp⟩ := this
    cases r with
    | error e => exact ⟨_, _, .pageErr hs hp⟩
    | ok vs => exact ⟨_, _, .ok hs hp⟩

/-- The page of one corpus without a time limit. -/
def singleRef (c : FCorpus R E V) (offset : Nat) (limit : Option Nat) (l : List (TItem R E)) : TItem (List V × Nat) E :=
  if c.direct then sliceRef c.render offset limit l
  else
    match rowsOf l with
    | .error e => .error e
    | .ok rows =>
      match c.arrange offset limit rows with
      | .error e => .error e
      | .ok rows' => sliceRef c.render offset limit (rows'.map .ok)

theorem slice_limit_zero {render : R → TItem V E} {offset : Nat} {l : List (TItem R E)} :
    sliceRef render offset (some 0) l = .ok ([], min offset l.length) := by
  simp [sliceRef, pageRef, takeOpt, rowsOf, Except.map]

theorem single_all (hc : Clock late) {c : FCorpus R E V} {offset : Nat} {limit : Option Nat} {s : S} {n r n'}
    (h : Single late M c offset limit s n r n') {l : List (TItem R E)} (hl : Exact late M s l) : n ≤ n' ∧
      (r = singleRef c offset limit l ∨ (r = timeout ∧ late n' = true) ∨
        (limit = some 0 ∧ late n' = true ∧ ∃ k k', r = .ok ([], k) ∧ singleRef c offset limit l = .ok ([], k'))) := by
  have zero : ∀ (l : List (TItem R E)), limit = some 0 → ∃ k', sliceRef c.render offset limit l = .ok ([], k') := by
    rintro l rfl
    exact ⟨_, slice_limit_zero⟩
  cases h with
  | direct hd hs =>
    obtain ⟨h1, h2⟩ := slice_all hc hs hl
    refine ⟨h1, ?_⟩
    simp only [singleRef, hd, if_true]
    obtain h2 | h2 | ⟨h2, h3, h4⟩ := h2
    · exact .inl h2
    · exact .inr (.inl h2)
    · obtain ⟨k', h5⟩ := zero l h2
      exact .inr (.inr ⟨h2, h3, _, k', h4, h5⟩)
  | collectErr hd hs =>
    obtain ⟨h1, h2 | ⟨h2, h3⟩⟩ := collect_all hc hs l hl
    · refine ⟨h1, .inl ?_⟩
      simp only [singleRef, hd]
      cases hq : rowsOf l with
      | error e => rw [hq] at h2; simpa [Except.map] using h2
      | ok rows => rw [hq] at h2; simp [Except.map] at h2
    · cases h2; exact ⟨h1, .inr (.inl ⟨rfl, h3⟩)⟩
  | arrangeErr hd hs ha =>
    obtain ⟨h1, h2 | ⟨h2, h3⟩⟩ := collect_all hc hs l hl
    · refine ⟨h1, .inl ?_⟩
      simp only [singleRef, hd]
      cases hq : rowsOf l with
      | error e => rw [hq] at h2; simp [Except.map] at h2
      | ok rows =>
        rw [hq] at h2
        simp [Except.map] at h2
        subst h2
        simp [ha]
    · cases h2
  | @sorted rows n1 rows' _ _ hd hs ha hslice =>
    obtain ⟨h1, h2 | ⟨h2, h3⟩⟩ := collect_all hc hs l hl
    · obtain ⟨h3, h4⟩ := slice_all hc hslice (listNext_exact late _)
      refine ⟨by omega, ?_⟩
      have : singleRef c offset limit l = sliceRef c.render offset limit (List.map Except.ok rows') := by
        simp only [singleRef, hd]
        cases hq : rowsOf l with
        | error e => rw [hq] at h2; simp [Except.map] at h2
        | ok rows =>
          rw [hq] at h2
          simp [Except.map] at h2
          subst h2
          simp [ha]
      rw [this]
      obtain h4 | h4 | ⟨h4, h5, h6⟩ := h4
      · exact .inl h4
      · exact .inr (.inl h4)
      · obtain ⟨k', h7⟩ := zero (List.map Except.ok rows') h4
        exact .inr (.inr ⟨h4, h5, _, k', h6, h7⟩)
    · cases h2

theorem single_ex (hc : Clock late) {c : FCorpus R E V} {offset : Nat} {limit : Option Nat} {s : S} {l : List (TItem R E)}
    (hl : Exact late M s l) (n : Nat) : ∃ r n', Single late M c offset limit s n r n' := by
  cases hd : c.direct with
  | true =>
    obtain ⟨r, n', h⟩ := slice_ex hc hl n
    exact ⟨_, _, .direct hd h⟩
  | false =>
    obtain ⟨r, n1, h⟩ := collect_ex (chk := fun _ => false) l s [] n hl
    cases r with
    | error e => exact ⟨_, _, .collectErr hd h⟩
    | ok rows =>
      cases ha : c.arrange offset limit rows with
      | error e => exact ⟨_, _, .arrangeErr hd h ha⟩
      | ok rows' =>
        obtain ⟨r, n', h2⟩ := slice_ex hc (listNext_exact late (rows'.map .ok)) n1
        exact ⟨_, _, .sorted hd h ha h2⟩

/-- The page of one corpus as in C24 and C108 (errors are `none`). -/
def singleOpt (p : FCorpus R E V × List (TItem R E)) (offset : Nat) (limit : Option Nat) : Option (List V × Nat) :=
  (singleRef p.1 offset limit p.2).toOption

theorem findLoop_all (hc : Clock late) {offset : Nat} {limit : Option Nat} {cs : List (FCorpus R E V × S)} {cur res n r n'}
    (h : FindLoop late M offset limit cs cur res n r n') : ∀ ls, Corpora late M cs ls → n ≤ n' ∧
      (r.toOption = findLoop singleOpt offset limit ls cur res ∨ (r = timeout ∧ late n' = true)) := by
  induction h with
  | done => intro ls hl; cases hl; exact ⟨le_refl _, .inl rfl⟩
  | @fail c s cs cur res n e n' hs =>
    intro ls hl
    cases hl with
    | @cons p q _ ls hpq hl =>
      obtain ⟨c', l⟩ := q
      obtain ⟨h0, h1⟩ := hpq
      simp only at h0 h1
      subst h0
      obtain ⟨h2, h3 | ⟨h3, h4⟩ | ⟨_, _, k, k', h3, _⟩⟩ := single_all hc hs h1
      · refine ⟨h2, .inl ?_⟩
        simp [findLoop, singleOpt, ← h3, Except.toOption]
      · cases h3; exact ⟨h2, .inr ⟨rfl, h4⟩⟩
      · cases h3
  | @full c s cs cur res n sr k n' hs hlim =>
    intro ls hl
    cases hl with
    | @cons p q _ ls hpq hl =>
      obtain ⟨c', l⟩ := q
      obtain ⟨h0, h1⟩ := hpq
      simp only at h0 h1
      subst h0
      obtain ⟨h2, h3 | ⟨h3, h4⟩ | ⟨h3, h4, j, j', h5, h6⟩⟩ := single_all hc hs h1
      · refine ⟨h2, .inl ?_⟩
        simp only [findLoop, singleOpt, ← h3, Except.toOption, bind, Option.bind]
        exact (if_pos hlim).symm
      · cases h3
      · cases h5
        refine ⟨h2, .inl ?_⟩
        simp only [findLoop, singleOpt, h6, Except.toOption, bind, Option.bind]
        exact (if_pos hlim).symm
  | @late c s cs cur res n sr k n1 hs hlim hlate =>
    intro ls hl
    cases hl with
    | @cons p q _ ls hpq hl =>
      obtain ⟨h2, -⟩ := single_all hc hs hpq.2
      exact ⟨by omega, .inr ⟨rfl, hc _ _ (by omega) hlate⟩⟩
  | @next c s cs cur res n sr k n1 r n' hs hlim hlate _ ih =>
    intro ls hl
    cases hl with
    | @cons p q _ ls hpq hl =>
      obtain ⟨c', l⟩ := q
      obtain ⟨h0, h1⟩ := hpq
      simp only at h0 h1
      subst h0
      obtain ⟨h2, h3 | ⟨h3, h4⟩ | ⟨h3, h4, j, j', h5, h6⟩⟩ := single_all hc hs h1
      · obtain ⟨h4, h5⟩ := ih ls hl
        refine ⟨by omega, h5.imp ?_ id⟩
        intro h5
        rw [h5]
        simp only [findLoop, singleOpt, ← h3, Except.toOption, bind, Option.bind]
        exact (if_neg hlim).symm
      · cases h3
      · rw [h4] at hlate; cases hlate

theorem findLoop_ex (hc : Clock late) {offset : Nat} {limit : Option Nat} : ∀ (cs : List (FCorpus R E V × S))
    (ls : List (FCorpus R E V × List (TItem R E))) (cur : Nat) (res : List V) (n : Nat), Corpora late M cs ls →
    ∃ r n', FindLoop late M offset limit cs cur res n r n' := by
  intro cs
  induction cs with
  | nil => intro ls cur res n _; exact ⟨_, _, .done⟩
  | cons p cs ih =>
    intro ls cur res n hl
    obtain ⟨c, s⟩ := p
    cases hl with
    | @cons p q _ ls hpq hl =>
      obtain ⟨r, n1, h⟩ := single_ex (c := c) (offset := cur) (limit := limit) hc hpq.2 n
      cases r with
      | error e => exact ⟨_, _, .fail h⟩
      | ok q =>
        obtain ⟨sr, k⟩ := q
        by_cases hlim : limit = some (addPage limit res sr).length
        · exact ⟨_, _, .full h hlim⟩
        · cases hlate : late n1 with
          | true => exact ⟨_, _, .late h hlim hlate⟩
          | false =>
            obtain ⟨r, n', h2⟩ := ih ls (if k < offset then cur - k else 0) (addPage limit res sr) (n1 + 1) hl
            exact ⟨_, _, .next h hlim hlate h2⟩

theorem find_all (hc : Clock late) {offset : Nat} {limit : Option Nat} {cs : List (FCorpus R E V × S)} {n r n'}
    (h : Find late M offset limit cs n r n') {ls} (hl : Corpora late M cs ls) : n ≤ n' ∧
      (r.toOption = find singleOpt ls offset limit ∨ (r = timeout ∧ late n' = true)) := by
  cases h with
  | none => cases hl; exact ⟨le_refl _, .inl rfl⟩
  | one hs =>
    cases hl with
    | @cons p q _ ls hpq hl =>
      cases hl
      obtain ⟨c', l⟩ := q
      obtain ⟨h0, h1⟩ := hpq
      simp only at h0 h1
      subst h0
      obtain ⟨h2, h3 | ⟨h3, h4⟩ | ⟨h3, h4, j, j', h5, h6⟩⟩ := single_all hc hs h1
      · exact ⟨h2, .inl (by simp [find, singleOpt, ← h3, Except.toOption])⟩
      · cases h3
      · cases h5
        exact ⟨h2, .inl (by simp [find, singleOpt, h6, Except.toOption])⟩
  | oneErr hs =>
    cases hl with
    | @cons p q _ ls hpq hl =>
      cases hl
      obtain ⟨c', l⟩ := q
      obtain ⟨h0, h1⟩ := hpq
      simp only at h0 h1
      subst h0
      obtain ⟨h2, h3 | ⟨h3, h4⟩ | ⟨h3, h4, j, j', h5, h6⟩⟩ := single_all hc hs h1
      · exact ⟨h2, .inl (by simp [find, singleOpt, ← h3, Except.toOption])⟩
      · cases h3; exact ⟨h2, .inr ⟨rfl, h4⟩⟩
      · cases h5
  | many hlen hs =>
    obtain ⟨h1, h2⟩ := findLoop_all hc hs ls hl
    refine ⟨h1, h2.imp ?_ id⟩
    intro h2
    rw [h2]
    have := hl.length_eq
    rw [this] at hlen
    match ls, hlen with
    | _ :: _ :: _, _ => rfl

theorem find_ex (hc : Clock late) {offset : Nat} {limit : Option Nat} {cs : List (FCorpus R E V × S)} {ls}
    (hl : Corpora late M cs ls) (n : Nat) : ∃ r n', Find late M offset limit cs n r n' := by
  match cs, hl with
  | [], _ => exact ⟨_, _, .none⟩
  | [(c, s)], .cons hpq .nil =>
    obtain ⟨r, n', h⟩ := single_ex (c := c) (offset := offset) (limit := limit) hc hpq.2 n
    cases r with
    | error e => exact ⟨_, _, .oneErr h⟩
    | ok q => exact ⟨_, _, .one h⟩
  | p :: q :: cs, hl =>
    obtain ⟨r, n', h⟩ := findLoop_ex (offset := offset) (limit := limit) hc _ ls offset [] n hl
    exact ⟨_, _, .many (by simp) h⟩

end
end Timed
