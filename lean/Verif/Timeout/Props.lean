import Verif.Timeout.Prompt

/-!
# C112: what a time limit does to a query

A plan is a list of alternatives, each one with the function that reorders its rows and the tree of its execution nodes.
-/

set_option linter.unusedSectionVars false

namespace Timed

section
variable {N K E : Type} [DecidableEq N] [DecidableEq K]

/-- `next` of the root of any tree. -/
inductive AnyNext (late : Nat → Bool) : Mach (Σ t : Tree N K E, t.St) (Item N K (TErr E))
  | mk {t : Tree N K E} {s : t.St} {n x} {s' : t.St} {n'} : t.next late s n x s' n' → AnyNext late ⟨t, s⟩ n x ⟨t, s'⟩ n'

/-- The plan of a query (plan.rs 39-47). -/
abbrev QPlan (N K E : Type) := List ((Row N K → Row N K) × Tree N K E)

/-- The state of a plan: if there is one alternative (`proxy_mode`), the alternatives that are left and the set of the results. -/
abbrev QSt (N K E : Type) := Bool × (List ((Row N K → Row N K) × Σ t : Tree N K E, t.St) × List (Row N K))

/-- `ExecutionPlan::next` (plan.rs 169-204). -/
inductive QNext (late : Nat → Bool) : Mach (QSt N K E) (Item N K (TErr E))
  | mk {b st n x st' n'} : PlanNext b (AnyNext late) st n x st' n' → QNext late (b, st) n x (b, st') n'

/-- A new plan (plan.rs 92-131). -/
def QPlan.start (p : QPlan N K E) : QSt N K E := (p.length == 1, (p.map fun q => (q.1, ⟨q.2, q.2.start⟩), []))

/-- The items of a plan without a limit. -/
def QPlan.Full (p : QPlan N K E) (l : List (Item N K (TErr E))) : Prop :=
  ∃ ls, List.Forall₂ (fun q r => q.1 = r.1 ∧ q.2.Full r.2) p ls ∧ l = planItems (p.length == 1) ls

variable {late : Nat → Bool}

theorem any_dead {t : Tree N K E} {s : t.St} (h : Dead late (t.next late) s) : Dead late (AnyNext late) ⟨t, s⟩ := by
  obtain ⟨P, hs, hp⟩ := h
  refine ⟨fun q => ∃ s, q = ⟨t, s⟩ ∧ P s, ⟨s, rfl, hs⟩, ?_⟩
  rintro _ ⟨s, rfl, hs⟩ n hn
  obtain ⟨⟨x, s', n', h1⟩, h2⟩ := hp s hs n hn
  refine ⟨⟨_, _, _, .mk h1⟩, ?_⟩
  intro x s' n' hm
  cases hm with
  | mk hm =>
    obtain ⟨h3, h4, h5⟩ := h2 _ _ _ hm
    exact ⟨h3, h4, _, rfl, h5⟩

theorem any_exact {t : Tree N K E} {s : t.St} {l} (h : Exact late (t.next late) s l) : Exact late (AnyNext late) ⟨t, s⟩ l := by
  refine ⟨fun q l => ∃ s, q = ⟨t, s⟩ ∧ Exact late (t.next late) s l, ⟨s, rfl, h⟩, ?_⟩
  rintro _ l ⟨s, rfl, hs⟩ n
  obtain ⟨x, s', n', h1⟩ := hs.ex n
  refine ⟨⟨_, _, _, .mk h1⟩, ?_⟩
  intro x s' n' hm
  cases hm with
  | mk hm =>
    obtain ⟨h3, h4⟩ := hs.all hm
    exact ⟨h3, h4.imp (fun h => ⟨h.1, _, rfl, h.2⟩) fun h => ⟨h.1, h.2.1, any_dead h.2.2⟩⟩

theorem q_dead {b : Bool} {st} (h : Dead late (PlanNext b (AnyNext (N := N) (K := K) (E := E) late)) st) :
    Dead late (QNext late) (b, st) := by
  obtain ⟨P, hs, hp⟩ := h
  refine ⟨fun q => q.1 = b ∧ P q.2, ⟨rfl, hs⟩, ?_⟩
  rintro ⟨_, st⟩ ⟨rfl, hs⟩ n hn
  obtain ⟨⟨x, s', n', h1⟩, h2⟩ := hp st hs n hn
  refine ⟨⟨_, _, _, .mk h1⟩, ?_⟩
  intro x s' n' hm
  cases hm with
  | mk hm =>
    obtain ⟨h3, h4, h5⟩ := h2 _ _ _ hm
    exact ⟨h3, h4, rfl, h5⟩

theorem q_exact {b : Bool} {st l} (h : Exact late (PlanNext b (AnyNext (N := N) (K := K) (E := E) late)) st l) :
    Exact late (QNext late) (b, st) l := by
  refine ⟨fun q l => q.1 = b ∧ Exact late (PlanNext b (AnyNext late)) q.2 l, ⟨rfl, h⟩, ?_⟩
  rintro ⟨_, st⟩ l ⟨rfl, hs⟩ n
  obtain ⟨x, s', n', h1⟩ := hs.ex n
  refine ⟨⟨_, _, _, .mk h1⟩, ?_⟩
  intro x s' n' hm
  cases hm with
  | mk hm =>
    obtain ⟨h3, h4⟩ := hs.all hm
    exact ⟨h3, h4.imp (fun h => ⟨h.1, rfl, h.2⟩) fun h => ⟨h.1, h.2.1, q_dead h.2.2⟩⟩

theorem qplan_exact (hc : Clock late) {p : QPlan N K E} {l} (h : p.Full l) : Exact late (QNext late) p.start l := by
  obtain ⟨ls, h1, rfl⟩ := h
  refine q_exact (plan_exact hc _ ?_)
  unfold PlanLive
  rw [List.forall₂_map_left_iff]
  exact h1.imp fun q r h => ⟨h.1, any_exact (tree_exact hc h.2)⟩

theorem q_prompt : Prompt late (QNext (N := N) (K := K) (E := E) late) := by
  intro s n x s' n' hm hx
  cases hm with
  | mk hm =>
    refine plan_prompt ?_ _ _ _ _ _ hm hx
    intro s n x s' n' hm hx
    cases hm with
    | mk hm => exact tree_prompt _ _ _ _ _ _ hm hx

/-! ## The items of a plan -/

/-- Calls of `next` and their results. -/
inductive Calls {S A : Type} (M : Mach S A) : S → Nat → List (Option A) → S → Nat → Prop
  | nil {s n} : Calls M s n [] s n
  | cons {s n x s1 n1 xs s' n'} : M s n x s1 n1 → Calls M s1 n1 xs s' n' → Calls M s n (x :: xs) s' n'

theorem calls_dead (hc : Clock late) {S R : Type} {M : Mach S (TItem R E)} : ∀ {s n xs s' n'}, Calls M s n xs s' n' → Dead late M s → late n = true →
    n ≤ n' ∧ xs = List.replicate xs.length (some timeout) := by
  intro s n xs s' n' h
  induction h with
  | nil => intro _ _; exact ⟨le_refl _, rfl⟩
  | cons hm _ ih =>
    intro hd hn
    obtain ⟨rfl, h2, h3⟩ := hd.all hn hm
    obtain ⟨h4, h5⟩ := ih h3 (hc _ _ h2 hn)
    exact ⟨by omega, by rw [h5]; simp [List.replicate_succ]⟩

theorem calls_exact (hc : Clock late) {S R : Type} {M : Mach S (TItem R E)} (hp : Prompt late M) : ∀ {s n xs s' n'}, Calls M s n xs s' n' →
    ∀ l, Exact late M s l → timeout ∉ l → n ≤ n' ∧ ∃ j ≤ xs.length, (∀ i < j, xs[i]? = some l[i]?) ∧
      (∀ i, j ≤ i → i < xs.length → xs[i]? = some (some timeout)) ∧ (j < xs.length → late n' = true) ∧
      (j = xs.length → Quiet late n n') := by
  intro s n xs s' n' h
  induction h with
  | nil => intro l _ _; exact ⟨le_refl _, 0, le_refl _, by simp, by simp, by simp, fun _ => .refl _⟩
  | @cons s n x s1 n1 xs s' n' hm hcalls ih =>
    intro l hl ht
    obtain ⟨h0, ⟨h1, h2, h3, h4⟩ | ⟨h1, h2, h3⟩⟩ := hl.quiet hp ht hm
    · obtain ⟨h5, j, h6, h7, h8, h9, h10⟩ := ih _ h2 h3
      refine ⟨by omega, j + 1, by simpa using h6, ?_, ?_, ?_, ?_⟩
      · intro i hi
        cases i with
        | zero => simp [h1, List.head?_eq_getElem?]
        | succ i => simpa using h7 i (by omega)
      · intro i h1 h2
        cases i with
        | zero => omega
        | succ i => simpa using h8 i (by omega) (by simpa using h2)
      · intro hj
        exact h9 (by simpa using hj)
      · intro hj
        exact h4.trans (h10 (by simpa using hj))
    · obtain ⟨h5, h6⟩ := calls_dead hc hcalls h3 h2
      refine ⟨by omega, 0, by simp, by simp, ?_, fun _ => hc _ _ h5 h2, by simp⟩
      intro i _ hi
      subst h1
      rw [h6]
      cases i with
      | zero => rfl
      | succ i => simp at hi; simp [List.getElem?_replicate, hi]

theorem calls_ex {S R : Type} {M : Mach S (TItem R E)} (hc : Clock late) : ∀ (k : Nat) (s : S) (n : Nat),
    ((∃ l, Exact late M s l) ∨ (Dead late M s ∧ late n = true)) → ∃ xs s' n', Calls M s n xs s' n' ∧ xs.length = k := by
  intro k
  induction k with
  | zero => intro s n _; exact ⟨[], s, n, .nil, rfl⟩
  | succ k ih =>
    rintro s n (⟨l, h⟩ | ⟨h, hn⟩)
    · obtain ⟨x, s1, n1, hm⟩ := h.ex n
      obtain ⟨h0, h1⟩ := h.all hm
      obtain ⟨xs, s', n', h2, h3⟩ := ih s1 n1 (h1.imp (fun h => ⟨_, h.2⟩) fun h => ⟨h.2.2, h.2.1⟩)
      exact ⟨_, _, _, .cons hm h2, by simp [h3]⟩
    · obtain ⟨x, s1, n1, hm⟩ := h.ex hn
      obtain ⟨-, h1, h2⟩ := h.all hn hm
      obtain ⟨xs, s', n', h3, h4⟩ := ih s1 n1 (.inr ⟨h2, hc _ _ h1 hn⟩)
      exact ⟨_, _, _, .cons hm h3, by simp [h4]⟩

/-- C112: a plan without parallel joins with any time limit. Each call of `next` returns. The results are the items of the plan
without a limit, followed by the end, up to some call; all later calls give the time out error, and they are only there if the limit is
exceeded. If there are none, no check found that the limit is exceeded. -/
theorem C112_items (hc : Clock late) {p : QPlan N K E} {l} (h : p.Full l) (ht : timeout ∉ l) (k : Nat) :
    (∃ xs s' n', Calls (QNext late) p.start 0 xs s' n' ∧ xs.length = k) ∧
    ∀ xs s' n', Calls (QNext late) p.start 0 xs s' n' → ∃ j ≤ xs.length, (∀ i < j, xs[i]? = some l[i]?) ∧
      (∀ i, j ≤ i → i < xs.length → xs[i]? = some (some timeout)) ∧ (j < xs.length → late n' = true) ∧
      (j = xs.length → ∀ i < n', late i = false) := by
  refine ⟨calls_ex hc k _ _ (.inl ⟨l, qplan_exact hc h⟩), ?_⟩
  intro xs s' n' hx
  obtain ⟨-, j, h1, h2, h3, h4, h5⟩ := calls_exact hc q_prompt hx l (qplan_exact hc h) ht
  exact ⟨j, h1, h2, h3, h4, fun hj i hi => h5 hj i (Nat.zero_le _) hi⟩

/-! ## The queries -/

/-- The result of a query under a time limit: the call returns, and it returns the result `ref` without a limit, with no check that
finds that the limit is exceeded, or the time out error, but only if the limit is exceeded. `run` relates a result and the number of
the checks made. -/
def Limited {A : Type} (late : Nat → Bool) (run : TItem A E → Nat → Prop) (ref : TItem A E → Prop) : Prop :=
  (∃ r n', run r n') ∧ ∀ r n', run r n' → (r ≠ timeout ∧ ref r ∧ ∀ i < n', late i = false) ∨ (r = timeout ∧ late n' = true)

theorem limited_of {A : Type} {run : TItem A E → Nat → Prop} {ref : TItem A E → Prop} (h1 : ∃ r n', run r n')
    (h2 : ∀ r n', run r n' → ref r ∨ (r = timeout ∧ late n' = true)) (h3 : ∀ r n', run r n' → r ≠ timeout → Quiet late 0 n')
    (h4 : ¬ ref timeout) : Limited late run ref := by
  refine ⟨h1, fun r n' hr => ?_⟩
  rcases Classical.em (r = timeout) with rfl | hne
  · exact .inr ((h2 _ _ hr).resolve_left h4)
  · exact .inl ⟨hne, (h2 _ _ hr).resolve_right fun h => hne h.1, fun i hi => h3 _ _ hr hne i (Nat.zero_le _) hi⟩

/-- The plans of the corpora, and their items without a limit. -/
theorem qplans_exact (hc : Clock late) {ps : List (QPlan N K E)} {ls} (h : List.Forall₂ QPlan.Full ps ls) :
    List.Forall₂ (Exact late (QNext late)) (ps.map QPlan.start) ls := by
  rw [List.forall₂_map_left_iff]
  exact h.imp fun _ _ h => qplan_exact hc h

theorem corpora_exact {C : Type} (hc : Clock late) {ps : List (C × QPlan N K E)} {ls : List (C × List (Item N K (TErr E)))}
    (h : List.Forall₂ (fun p q => p.1 = q.1 ∧ QPlan.Full p.2 q.2) ps ls) :
    Corpora late (QNext late) (ps.map fun p => (p.1, QPlan.start p.2)) ls := by
  unfold Corpora
  rw [List.forall₂_map_left_iff]
  exact h.imp fun _ _ h => ⟨h.1, qplan_exact hc h.2⟩

theorem countQuery_sum {G : Type} (ls : List (List (Option G))) : countQuery ls = (ls.map List.length).sum := by
  have key : ∀ (ls : List (List (Option G))) (a : Nat), ls.foldl (fun n p => n + p.length) a = a + (ls.map List.length).sum := by
    intro ls
    induction ls with
    | nil => intro a; simp
    | cons x ls ih => intro a; simp only [List.foldl_cons, ih, List.map_cons, List.sum_cons]; omega
  have := key ls 0
  rwa [Nat.zero_add] at this

/-- C112: `count` with a time limit. -/
theorem C112_count (hc : Clock late) {ps : List (QPlan N K E)} {ls} (h : List.Forall₂ QPlan.Full ps ls) (ht : ∀ l ∈ ls, timeout ∉ l) :
    Limited late (Count late (QNext late) (ps.map QPlan.start) 0 0)
      (· = .ok (countQuery (ls.map fun l => l.map Except.toOption))) := by
  have he := qplans_exact hc h
  refine limited_of (count_ex hc _ ls 0 0 he) ?_ (fun r n' hr hne => count_quiet hc q_prompt hr ls he ht hne) (by simp)
  intro r n' hr
  have := (count_all hc hr ls he).2
  rw [countQuery_sum]
  simpa [List.map_map, Function.comp_def] using this

/-- The rows, if all items are rows. -/
theorem rowsOf_toOption {R : Type} (l : List (TItem R E)) : (rowsOf l).toOption = (l.map Except.toOption).mapM id := by
  induction l with
  | nil => rfl
  | cons a l ih =>
    cases a with
    | error e => simp [rowsOf, Except.toOption, List.mapM_cons]
    | ok x =>
      simp only [rowsOf, List.map_cons, List.mapM_cons, ← ih]
      cases rowsOf l <;> simp [Except.map, Except.toOption]

theorem rowsOf_ne_timeout {R : Type} {l : List (TItem R E)} (h : timeout ∉ l) : rowsOf l ≠ timeout := by
  induction l with
  | nil => simp [rowsOf]
  | cons a l ih =>
    cases a with
    | error e => intro h2; exact h (by simp only [rowsOf] at h2; cases h2; simp)
    | ok x =>
      have := ih fun h2 => h (by simp [h2])
      simp only [rowsOf]
      cases hr : rowsOf l with
      | error e => rw [hr] at this; intro h2; simp only [Except.map] at h2; cases h2; exact this rfl
      | ok y => simp [Except.map]

theorem foldRows_toOption {C R V : Type} (step : C → V → List R → V) : ∀ (ls : List (C × List (TItem R E))) (v : V),
    (foldRows step ls v).toOption = (ls.map fun p => (p.1, p.2.map Except.toOption)).foldlM
      (fun v p => do let all ← p.2.mapM id; pure (step p.1 v all)) v := by
  intro ls
  induction ls with
  | nil => intro v; rfl
  | cons p ls ih =>
    intro v
    obtain ⟨c, l⟩ := p
    simp only [List.map_cons, List.foldlM_cons, foldRows, ← rowsOf_toOption]
    cases hr : rowsOf l with
    | error e => rfl
    | ok rows => exact ih _

theorem foldRows_ne_timeout {C R V : Type} {step : C → V → List R → V} : ∀ {ls : List (C × List (TItem R E))}, Clean ls → ∀ v : V,
    foldRows step ls v ≠ timeout := by
  intro ls
  induction ls with
  | nil => intro _ v; simp [foldRows]
  | cons p ls ih =>
    intro h v
    obtain ⟨c, l⟩ := p
    simp only [foldRows]
    have h1 := rowsOf_ne_timeout (h (c, l) (by simp))
    cases hr : rowsOf l with
    | error e => rw [hr] at h1; intro h2; cases h2; exact h1 rfl
    | ok rows => exact ih (fun q hq => h q (by simp [hq])) _

/-- What `count_extra` reads from a corpus besides the plan (see `ExtraCorpus`). -/
structure ExtraInfo (G Nd : Type) where
  ancestors : G → List Nd
  isDoc : Nd → Bool

/-- The number of documents for the rows of a corpus (corpusstorage.rs 1660-1681). -/
def ExtraInfo.docs {G Nd : Type} [DecidableEq Nd] (c : ExtraInfo G Nd) (rows : List G) : Nat :=
  ((rows.flatMap c.ancestors).dedup.filter c.isDoc).length

/-- C112: `count_extra` with a time limit. -/
theorem C112_count_extra {Nd : Type} [DecidableEq Nd] (hc : Clock late) {ps : List (ExtraInfo (Row N K) Nd × QPlan N K E)}
    {ls : List (ExtraInfo (Row N K) Nd × List (Item N K (TErr E)))}
    (h : List.Forall₂ (fun p q => p.1 = q.1 ∧ QPlan.Full p.2 q.2) ps ls) (ht : ∀ p ∈ ls, timeout ∉ p.2) :
    Limited late (Extra late (QNext late) ExtraInfo.docs (ps.map fun p => (p.1, QPlan.start p.2)) (0, 0) 0)
      (fun r => r.toOption = countExtra (ls.map fun p => ⟨p.2.map Except.toOption, p.1.ancestors, p.1.isDoc⟩)) := by
  have he := corpora_exact hc h
  have key : (foldRows (addCounts ExtraInfo.docs) ls (0, 0)).toOption =
      countExtra (ls.map fun p => ⟨p.2.map Except.toOption, p.1.ancestors, p.1.isDoc⟩) := by
    rw [foldRows_toOption]
    unfold countExtra
    rw [List.foldlM_map, List.foldlM_map]
    rfl
  have hlim : Limited late (Extra late (QNext late) ExtraInfo.docs (ps.map fun p => (p.1, QPlan.start p.2)) (0, 0) 0)
      (· = foldRows (addCounts ExtraInfo.docs) ls (0, 0)) :=
    limited_of (extra_ex _ ls _ 0 he) (fun r n' hr => (extra_all hc hr ls he).2)
      (fun r n' hr hne => extra_quiet q_prompt hr ls he ht hne) fun h => foldRows_ne_timeout ht _ h.symm
  refine ⟨hlim.1, fun r n' hr => (hlim.2 r n' hr).imp ?_ id⟩
  rintro ⟨h1, rfl, h3⟩
  exact ⟨h1, key, h3⟩

/-- What `frequency` reads from a corpus besides the plan (see `FreqCorpus`). -/
structure FreqInfo (Nd Q : Type) where
  keys : List (Nat × List Q)
  value : Nd → Q → Option Str

/-- The rows of a corpus are added to the table (corpusstorage.rs 2317-2336). -/
def FreqInfo.add {Nd Q : Type} (nodes : Row N K → List Nd) (c : FreqInfo Nd Q) (t : List (List Str × Nat)) (rows : List (Row N K)) :
    List (List Str × Nat) :=
  rows.foldl (fun t m => bump (c.keys.map (freqValue c.value (nodes m))) t) t

theorem mapM_map_option {A B : Type} (f : A → B) (l : List (Option A)) :
    (l.map (Option.map f)).mapM id = (l.mapM id).map (List.map f) := by
  induction l with
  | nil => rfl
  | cons a l ih =>
    cases a with
    | none => simp [List.mapM_cons]
    | some x =>
      simp only [List.map_cons, List.mapM_cons, ih, Option.map_some]
      cases l.mapM id <;> rfl

/-- C112: `frequency` with a time limit. -/
theorem C112_frequency {Nd Q : Type} (hc : Clock late) (nodes : Row N K → List Nd)
    (hashOrder : List (List Str × Nat) → List (List Str × Nat)) {ps : List (FreqInfo Nd Q × QPlan N K E)}
    {ls : List (FreqInfo Nd Q × List (Item N K (TErr E)))}
    (h : List.Forall₂ (fun p q => p.1 = q.1 ∧ QPlan.Full p.2 q.2) ps ls) (ht : ∀ p ∈ ls, timeout ∉ p.2) :
    Limited late (fun r n' => ∃ t, Freq late (QNext late) (FreqInfo.add nodes) (ps.map fun p => (p.1, QPlan.start p.2)) [] 0 t n' ∧
        r = t.map fun t => (hashOrder t).mergeSort fun a b => decide (b.2 ≤ a.2))
      (fun r => r.toOption =
        frequency hashOrder (ls.map fun p => ⟨p.2.map fun x => x.toOption.map nodes, p.1.keys, p.1.value⟩)) := by
  have he := corpora_exact hc h
  have key : (foldRows (FreqInfo.add nodes) ls []).toOption = (ls.map fun p => (⟨p.2.map fun x => x.toOption.map nodes, p.1.keys, p.1.value⟩ : FreqCorpus Nd Q)).foldlM
      (fun t c => do
        let all ← c.plan.mapM id
        pure (all.foldl (fun t m => bump (freqTuple c m) t) t)) [] := by
    rw [foldRows_toOption, List.foldlM_map, List.foldlM_map]
    refine congrArg (fun f => List.foldlM f [] ls) ?_
    funext t p
    have : (p.2.map fun x => x.toOption.map nodes) = (p.2.map Except.toOption).map (Option.map nodes) := by simp
    simp only [this, mapM_map_option]
    cases (p.2.map Except.toOption).mapM id with
    | none => rfl
    | some rows => simp [FreqInfo.add, List.foldl_map, freqTuple]
  have hlim : Limited late (Freq late (QNext late) (FreqInfo.add nodes) (ps.map fun p => (p.1, QPlan.start p.2)) [] 0)
      (· = foldRows (FreqInfo.add nodes) ls []) :=
    limited_of (freq_ex _ ls _ 0 he) (fun r n' hr => (freq_all hc hr ls he).2)
      (fun r n' hr hne => freq_quiet q_prompt hr ls he ht hne) fun h => foldRows_ne_timeout ht _ h.symm
  refine ⟨?_, ?_⟩
  · obtain ⟨t, n', ht⟩ := hlim.1
    exact ⟨_, n', t, ht, rfl⟩
  · rintro r n' ⟨t, hr, rfl⟩
    obtain ⟨h1, h2, h3⟩ | ⟨h1, h2⟩ := hlim.2 t n' hr
    · refine .inl ⟨?_, ?_, h3⟩
      · cases t with
        | error e => intro h; simp only [Except.map] at h; cases h; exact h1 rfl
        | ok t => simp [Except.map]
      · unfold frequency
        rw [← key, ← h2]
        cases t <;> rfl
    · exact .inr ⟨by rw [h1]; rfl, h2⟩

end

/-! ## `find` -/

section
variable {N K E V : Type} [DecidableEq N] [DecidableEq K] {late : Nat → Bool}

/-- What `find` needs for a corpus besides the plan (see `FindCorpus`). -/
structure FindInfo (G V : Type) where
  sortedByText : Bool
  cmp : G → G → Option Ordering
  render : G → Option V

/-- An error instead of nothing. -/
def orErr {A : Type} (e : E) : Option A → TItem A E
  | some a => .ok a
  | none => .error (.err (.other e))

theorem orErr_toOption {A : Type} (e : E) (a : Option A) : (orErr e a).toOption = a := by cases a <;> rfl

/-- The corpus for `find` with the given order (corpusstorage.rs 1719-1833, 1908-1978); `e` stands for the errors of the sorting and
of the output. -/
def FindInfo.corpus {G : Type} (e : E) (rnd : Rnd G) (quirks : Bool) (order : ResultOrder) (c : FindInfo G V) : FCorpus G E V where
  direct := decide (order = .notSorted ∨ (order = .normal ∧ c.sortedByText ∧ ¬ quirks))
  arrange offset limit rows :=
    if order = .randomized then .ok (rnd.shuffle rows)
    else orErr e (sortFirstN (cmpFor order c.cmp) (match limit with
      | some k => offset + k
      | none => rows.length) rnd.fuel rnd.pivots rows)
  render r := orErr e (c.render r)

theorem sliceRef_toOption {G : Type} (e : E) (render : G → Option V) (offset : Nat) (limit : Option Nat) (l : List (TItem G E)) :
    (sliceRef (fun r => orErr e (render r)) offset limit l).toOption = (do
      let rest := (l.map Except.toOption).drop offset
      let rest := match limit with
        | some k => rest.take k
        | none => rest
      let res ← rest.mapM fun m => m.bind render
      pure (res, min offset (l.map Except.toOption).length) : Option (List V × Nat)) := by
  have hr : ∀ l : List (TItem G E), (rowsOf (l.map (renderItem fun r => orErr e (render r)))).toOption =
      (l.map Except.toOption).mapM fun m => m.bind render := by
    intro l
    rw [rowsOf_toOption]
    induction l with
    | nil => rfl
    | cons a l ih =>
      simp only [List.map_cons, List.mapM_cons, ih]
      have : (renderItem (fun r => orErr e (render r)) a).toOption = a.toOption.bind render := by
        cases a with
        | error e => rfl
        | ok r => exact orErr_toOption e _
      rw [this]
      rfl
  have ht : (match limit with
        | some k => ((l.map Except.toOption).drop offset).take k
        | none => (l.map Except.toOption).drop offset) = (takeOpt limit (l.drop offset)).map Except.toOption := by
    cases limit <;> simp [takeOpt]
  simp only [sliceRef, pageRef, List.length_map]
  rw [ht, ← hr]
  cases rowsOf ((takeOpt limit (l.drop offset)).map (renderItem fun r => orErr e (render r))) <;> rfl

theorem singleRef_toOption {G : Type} (e : E) (rnd : Rnd G) (quirks : Bool) (order : ResultOrder) (c : FindInfo G V) (offset : Nat)
    (limit : Option Nat) (l : List (TItem G E)) :
    (singleRef (c.corpus e rnd quirks order) offset limit l).toOption =
      findSingle ⟨l.map Except.toOption, c.sortedByText, c.cmp, c.render⟩ rnd quirks order offset limit := by
  unfold singleRef findSingle createFindIterator
  by_cases hd : order = .notSorted ∨ (order = .normal ∧ c.sortedByText ∧ ¬ quirks)
  · have : (c.corpus e rnd quirks order).direct = true := by simpa [FindInfo.corpus] using hd
    rw [if_pos this, if_pos hd]
    exact sliceRef_toOption e c.render offset limit l
  · have : ¬ (c.corpus e rnd quirks order).direct = true := by simpa [FindInfo.corpus] using hd
    rw [if_neg this, if_neg hd]
    simp only [← rowsOf_toOption]
    cases hr : rowsOf l with
    | error e => rfl
    | ok rows =>
      have hmm : ∀ rows : List G, (rows.map (Except.ok : G → TItem G E)).map Except.toOption = rows.map some := by
        intro rows; simp [Except.toOption]
      simp only [Except.toOption, Option.bind_eq_bind, Option.bind_some, FindInfo.corpus]
      by_cases ho : order = .randomized
      · simp only [ho, if_true]
        have := sliceRef_toOption e c.render offset limit ((rnd.shuffle rows).map .ok)
        rw [hmm] at this
        exact this
      · simp only [ho, if_false]
        cases hs : sortFirstN (cmpFor order c.cmp) (match limit with
          | some k => offset + k
          | none => rows.length) rnd.fuel rnd.pivots rows with
        | none => simp only [orErr]; cases limit <;> simp_all
        | some rows' =>
          have := sliceRef_toOption e c.render offset limit (rows'.map .ok)
          rw [hmm] at this
          exact this

theorem rowsOf_map_ne_timeout {G : Type} {e : E} {render : G → Option V} {l : List (TItem G E)} (h : timeout ∉ l) :
    timeout ∉ l.map (renderItem fun r => orErr e (render r)) := by
  intro hm
  obtain ⟨x, h1, h2⟩ := List.mem_map.1 hm
  cases x with
  | error e => simp only [renderItem] at h2; cases h2; exact h h1
  | ok r =>
    simp only [renderItem] at h2
    cases hr : render r with
    | none => rw [hr] at h2; cases h2
    | some v => rw [hr] at h2; cases h2

theorem sliceRef_ne_timeout {G : Type} {e : E} {render : G → Option V} {offset : Nat} {limit : Option Nat} {l : List (TItem G E)}
    (h : timeout ∉ l) : sliceRef (fun r => orErr e (render r)) offset limit l ≠ timeout := by
  have h1 : timeout ∉ takeOpt limit (l.drop offset) := by
    intro hm
    cases limit with
    | none => exact h (List.mem_of_mem_drop hm)
    | some k => exact h (List.mem_of_mem_drop (List.mem_of_mem_take hm))
  have h2 := rowsOf_ne_timeout (rowsOf_map_ne_timeout (e := e) (render := render) h1)
  unfold sliceRef pageRef
  cases hr : rowsOf ((takeOpt limit (l.drop offset)).map (renderItem fun r => orErr e (render r))) with
  | error e => rw [hr] at h2; intro h3; simp only [Except.map] at h3; cases h3; exact h2 rfl
  | ok v => simp [Except.map]

theorem singleRef_ne_timeout {G : Type} {e : E} {rnd : Rnd G} {quirks : Bool} {order : ResultOrder} {c : FindInfo G V} {offset : Nat}
    {limit : Option Nat} {l : List (TItem G E)} (h : timeout ∉ l) :
    singleRef (c.corpus e rnd quirks order) offset limit l ≠ timeout := by
  unfold singleRef
  split
  · exact sliceRef_ne_timeout h
  · have h1 := rowsOf_ne_timeout h
    cases hr : rowsOf l with
    | error e => rw [hr] at h1; intro h2; cases h2; exact h1 rfl
    | ok rows =>
      simp only
      cases ha : (c.corpus e rnd quirks order).arrange offset limit rows with
      | error e2 =>
        simp only [FindInfo.corpus] at ha
        split at ha
        · cases ha
        · unfold orErr at ha
          split at ha
          · cases ha
          · cases ha; simp
      | ok rows' => exact sliceRef_ne_timeout (by simp)

theorem single_timeout {S G : Type} {M : Mach S (TItem G E)} (hc : Clock late) {c : FCorpus G E V} {offset : Nat} {limit : Option Nat}
    {s : S} {n n'} {l : List (TItem G E)} (hl : Exact late M s l) (ht : ∀ offset, singleRef c offset limit l ≠ timeout)
    (h : Single late M c offset limit s n timeout n') : late n' = true := by
  obtain ⟨-, h1 | ⟨-, h1⟩ | ⟨-, h1, -⟩⟩ := single_all hc h hl
  · exact absurd h1.symm (ht _)
  · exact h1
  · exact h1

theorem findLoop_timeout {S G : Type} {M : Mach S (TItem G E)} (hc : Clock late) {offset : Nat} {limit : Option Nat}
    {cs : List (FCorpus G E V × S)} {cur res n r n'} (h : FindLoop late M offset limit cs cur res n r n') :
    ∀ ls, Corpora late M cs ls → (∀ p ∈ ls, ∀ offset, singleRef p.1 offset limit p.2 ≠ timeout) → r = timeout → late n' = true := by
  induction h with
  | done => intro _ _ _ hr; cases hr
  | fail hs =>
    intro ls h hl hr
    cases h with
    | @cons p q _ ls h1 h2 =>
      cases hr
      obtain ⟨h3, h4⟩ := h1
      refine single_timeout hc h4 ?_ hs
      have := hl q (by simp)
      simp only at h3
      rwa [h3]
  | full => intro _ _ _ hr; cases hr
  | late _ _ hlate => intro _ _ _ _; exact hc _ _ (Nat.le_succ _) hlate
  | next _ _ _ _ ih =>
    intro ls h hl hr
    cases h with
    | cons h1 h2 => exact ih _ h2 (fun p hp => hl p (by simp [hp])) hr

theorem find_timeout {S G : Type} {M : Mach S (TItem G E)} (hc : Clock late) {offset : Nat} {limit : Option Nat}
    {cs : List (FCorpus G E V × S)} {n n'} (h : Find late M offset limit cs n timeout n') {ls} (h1 : Corpora late M cs ls)
    (h2 : ∀ p ∈ ls, ∀ offset, singleRef p.1 offset limit p.2 ≠ timeout) : late n' = true := by
  cases h with
  | oneErr hs =>
    cases h1 with
    | @cons p q _ ls hpq hl =>
      obtain ⟨h3, h4⟩ := hpq
      refine single_timeout hc h4 ?_ hs
      have := h2 q (by simp)
      simp only at h3
      rwa [h3]
  | many _ hs => exact findLoop_timeout hc hs ls h1 h2 rfl

theorem findLoop_map {A B : Type} (f : A → B) (single : B → Nat → Option Nat → Option (List V × Nat)) (offset : Nat) (limit : Option Nat) :
    ∀ (cs : List A) (cur : Nat) (res : List V),
    findLoop single offset limit (cs.map f) cur res = findLoop (fun c => single (f c)) offset limit cs cur res := by
  intro cs
  induction cs with
  | nil => intro _ _; rfl
  | cons c cs ih => intro cur res; simp only [List.map_cons, findLoop, ih]

theorem find_map {A B : Type} (f : A → B) (single : B → Nat → Option Nat → Option (List V × Nat)) (cs : List A) (offset : Nat)
    (limit : Option Nat) : find single (cs.map f) offset limit = find (fun c => single (f c)) cs offset limit := by
  match cs with
  | [] => rfl
  | [_] => rfl
  | a :: b :: cs => exact findLoop_map f single offset limit (a :: b :: cs) offset []

/-- C112: `find` with a time limit. Only if no results are asked for, the limit may be exceeded without an error. -/
theorem C112_find (hc : Clock late) (e : E) (rnd : Rnd (Row N K)) (quirks : Bool) (order : ResultOrder) (offset : Nat)
    (limit : Option Nat) {ps : List (FindInfo (Row N K) V × QPlan N K E)} {ls : List (FindInfo (Row N K) V × List (Item N K (TErr E)))}
    (h : List.Forall₂ (fun p q => p.1 = q.1 ∧ QPlan.Full p.2 q.2) ps ls) (ht : ∀ p ∈ ls, timeout ∉ p.2) :
    let run := Find late (QNext late) offset limit (ps.map fun p => (p.1.corpus e rnd quirks order, QPlan.start p.2)) 0
    (∃ r n', run r n') ∧ ∀ r n', run r n' →
      (r ≠ timeout ∧ (limit ≠ some 0 → ∀ i < n', late i = false) ∧
        r.toOption = find (fun c => findSingle c rnd quirks order)
          (ls.map fun p => ⟨p.2.map Except.toOption, p.1.sortedByText, p.1.cmp, p.1.render⟩) offset limit) ∨
      (r = timeout ∧ late n' = true) := by
  intro run
  have he : Corpora late (QNext late) (ps.map fun p => (p.1.corpus e rnd quirks order, QPlan.start p.2))
      (ls.map fun p => (p.1.corpus e rnd quirks order, p.2)) := by
    unfold Corpora
    rw [List.forall₂_map_left_iff, List.forall₂_map_right_iff]
    refine h.imp fun _ _ h => ⟨by rw [h.1], qplan_exact hc h.2⟩
  have hclean : Clean (ls.map fun p => (p.1.corpus e rnd quirks order, p.2)) := by
    intro p hp
    obtain ⟨q, h1, rfl⟩ := List.mem_map.1 hp
    exact ht q h1
  refine ⟨find_ex hc he 0, fun r n' hr => ?_⟩
  rcases Classical.em (r = timeout) with rfl | hne
  · refine .inr ⟨rfl, find_timeout hc hr he ?_⟩
    intro p hp offset
    obtain ⟨q, h1, rfl⟩ := List.mem_map.1 hp
    exact singleRef_ne_timeout (ht q h1)
  · refine .inl ⟨hne, fun h0 i hi => find_quiet hc q_prompt hr h0 he hclean hne i (Nat.zero_le _) hi, ?_⟩
    rw [(find_all hc hr he).2.resolve_right fun h => hne h.1, find_map, find_map]
    refine congrArg (fun f => find f ls offset limit) ?_
    funext p offset limit
    exact singleRef_toOption e rnd quirks order p.1 offset limit p.2

end

/-! ## The parallel nested loop -/

section
variable {So Si N K E : Type} [DecidableEq N] [DecidableEq K] {late : Nat → Bool}

theorem fillInner_dead (hc : Clock late) {max : Nat} {Mi : Mach Si (Item N K (TErr E))} {o s cache b n s' cache' b' full n'}
    (h : FillInner max Mi o s cache b n s' cache' b' full n') : Dead late Mi s → late n = true → False := by
  induction h with
  | stop hm => intro hd hn; have := (hd.all hn hm).1; cases this
  | err hm _ ih =>
    intro hd hn
    obtain ⟨-, h2, h3⟩ := hd.all hn hm
    exact ih h3 (hc _ _ h2 hn)
  | full hm _ => intro hd hn; have := (hd.all hn hm).1; cases this
  | row hm _ _ => intro hd hn; have := (hd.all hn hm).1; cases this

/-- The states in which only time outs are left to read for the next outer row or for the next inner row. -/
def PnlStuck (late : Nat → Bool) (Mo : Mach So (Item N K (TErr E))) (Mi : Mach Si (Item N K (TErr E))) (s : TPnl So Si N K) : Prop :=
  (s.cur = none ∧ Dead late Mo s.outer) ∨ ((∃ o, s.cur = some o) ∧ s.pos = none ∧ Dead late Mi s.inner)

/-- C112 fails for parallel nested loops: if the limit is exceeded while the outer rows are read, or while the inner rows are read for
the first time, the block is never complete: the call of `next_match_buffer` does not return. -/
theorem C112_parallel_hangs (hc : Clock late) {max : Nat} {Mo : Mach So (Item N K (TErr E))} {Mi : Mach Si (Item N K (TErr E))}
    {s b n s' b' n'} (hn : late n = true) (hs : PnlStuck late Mo Mi s) (hb : b.pairs.length < max) :
    ¬ NextBuffer max Mo Mi s b n s' b' n' := by
  intro h
  have peekDead : ∀ {so : So} {n r st n'}, PeekOuter Mo (so, none) n r st n' → Dead late Mo so → late n = true →
      (∃ e, r = .error e) ∧ n ≤ n' ∧ st.2 = none ∧ Dead late Mo st.1 := by
    intro so n r st n' hp hd hn
    cases hp with
    | row hm => have := (hd.all hn hm).1; cases this
    | stop hm => have := (hd.all hn hm).1; cases this
    | err hm => obtain ⟨-, h2, h3⟩ := hd.all hn hm; exact ⟨⟨_, rfl⟩, h2, rfl, h3⟩
  -- the body of the loop
  have body : ∀ {s b n s' b' full n'}, FillBody max Mo Mi s b n s' b' full n' → PnlStuck late Mo Mi s → late n = true →
      full = false ∧ n ≤ n' ∧ b'.pairs = b.pairs ∧ Dead late Mo s'.outer := by
    intro s b n s' b' full n' h hs hn
    obtain ⟨h1, h2⟩ | ⟨⟨o, h1⟩, h2, h3⟩ := hs
    · cases h with
      | err hp => simp only at h1; subst h1; obtain ⟨-, h4, -, h5⟩ := peekDead hp h2 hn; exact ⟨rfl, h4, rfl, h5⟩
      | none hp => simp only at h1; subst h1; obtain ⟨⟨e, h4⟩, -⟩ := peekDead hp h2 hn; cases h4
      | cacheFull hp _ => simp only at h1; subst h1; obtain ⟨⟨e, h4⟩, -⟩ := peekDead hp h2 hn; cases h4
      | cacheEnd hp _ => simp only at h1; subst h1; obtain ⟨⟨e, h4⟩, -⟩ := peekDead hp h2 hn; cases h4
      | inner hp _ => simp only at h1; subst h1; obtain ⟨⟨e, h4⟩, -⟩ := peekDead hp h2 hn; cases h4
    · cases h with
      | err hp => simp only at h1; subst h1; cases hp
      | none hp => simp only at h1; subst h1; cases hp
      | cacheFull hp _ => cases h2
      | cacheEnd hp _ => cases h2
      | inner hp hf =>
        simp only at h1; subst h1
        cases hp
        exact (fillInner_dead hc hf h3 hn).elim
  induction h with
  | max hm => omega
  | full _ hbody => obtain ⟨h1, -⟩ := body hbody hs hn; cases h1
  | stop _ hbody hp =>
    obtain ⟨-, h1, -, h2⟩ := body hbody hs hn
    obtain ⟨⟨e, h4⟩, -⟩ := peekDead hp h2 (hc _ _ h1 hn)
    cases h4
  | row _ hbody hp _ _ =>
    obtain ⟨-, h1, -, h2⟩ := body hbody hs hn
    obtain ⟨⟨e, h4⟩, -⟩ := peekDead hp h2 (hc _ _ h1 hn)
    cases h4
  | err _ hbody hp _ ih =>
    obtain ⟨-, h1, h3, h2⟩ := body hbody hs hn
    obtain ⟨-, h5, h6, h7⟩ := peekDead hp h2 (hc _ _ h1 hn)
    exact ih (hc _ _ (h1.trans h5) hn) (.inl ⟨h6, h7⟩) (by simp only [h3]; exact hb)

theorem fillInner_quiet (hc : Clock late) {max : Nat} {Mi : Mach Si (Item N K (TErr E))} (hp : Prompt late Mi)
    {o s cache b n s' cache' b' full n'} (h : FillInner max Mi o s cache b n s' cache' b' full n') :
    ∀ li, Exact late Mi s li → timeout ∉ li → .err .timeout ∉ b.errs →
      Quiet late n n' ∧ .err .timeout ∉ b'.errs ∧ ∃ li', Exact late Mi s' li' ∧ timeout ∉ li' := by
  induction h with
  | stop hm =>
    intro li h hl hb
    obtain ⟨-, ⟨h1, h2, h3, h4⟩ | ⟨h1, -, -⟩⟩ := h.quiet hp hl hm
    · exact ⟨h4, hb, _, h2, h3⟩
    · cases h1
  | @err s cache b n e s1 n1 s' cache' b' full n' hm hrest ih =>
    intro li h hl hb
    obtain ⟨-, ⟨h1, h2, h3, h4⟩ | ⟨h1, h2, h3⟩⟩ := h.quiet hp hl hm
    · obtain ⟨h5, h6, h7⟩ := ih _ h2 h3 (by
        simp only [List.mem_append, List.mem_singleton, not_or]
        refine ⟨hb, ?_⟩
        rintro rfl
        exact hl (List.mem_of_mem_head? h1.symm))
      exact ⟨h4.trans h5, h6, h7⟩
    · exact (fillInner_dead hc hrest h3 h2).elim
  | full hm _ =>
    intro li h hl hb
    obtain ⟨-, ⟨h1, h2, h3, h4⟩ | ⟨h1, -, -⟩⟩ := h.quiet hp hl hm
    · exact ⟨h4, hb, _, h2, h3⟩
    · cases h1
  | row hm _ _ ih =>
    intro li h hl hb
    obtain ⟨-, ⟨h1, h2, h3, h4⟩ | ⟨h1, -, -⟩⟩ := h.quiet hp hl hm
    · obtain ⟨h5, h6, h7⟩ := ih _ h2 h3 hb
      exact ⟨h4.trans h5, h6, h7⟩
    · cases h1

theorem peekOuter_quiet {Mo : Mach So (Item N K (TErr E))} (hp : Prompt late Mo) {st n r st' n'} (h : PeekOuter Mo st n r st' n')
    {lo} (hl : Exact late Mo st.1 lo) (ht : timeout ∉ lo) : n ≤ n' ∧
      ((Quiet late n n' ∧ r ≠ .error (.err .timeout) ∧ ∃ lo', Exact late Mo st'.1 lo' ∧ timeout ∉ lo') ∨
       (r = .error (.err .timeout) ∧ late n' = true ∧ st'.2 = none ∧ Dead late Mo st'.1)) := by
  cases h with
  | «have» => exact ⟨le_refl _, .inl ⟨.refl _, by simp, lo, hl, ht⟩⟩
  | row hm =>
    obtain ⟨h0, ⟨h1, h2, h3, h4⟩ | ⟨h1, -, -⟩⟩ := hl.quiet hp ht hm
    · exact ⟨h0, .inl ⟨h4, by simp, _, h2, h3⟩⟩
    · cases h1
  | stop hm =>
    obtain ⟨h0, ⟨h1, h2, h3, h4⟩ | ⟨h1, -, -⟩⟩ := hl.quiet hp ht hm
    · exact ⟨h0, .inl ⟨h4, by simp, _, h2, h3⟩⟩
    · cases h1
  | err hm =>
    obtain ⟨h0, ⟨h1, h2, h3, h4⟩ | ⟨h1, h2, h3⟩⟩ := hl.quiet hp ht hm
    · refine ⟨h0, .inl ⟨h4, ?_, _, h2, h3⟩⟩
      intro h5
      cases h5
      exact ht (List.mem_of_mem_head? h1.symm)
    · cases h1
      exact ⟨h0, .inr ⟨rfl, h2, rfl, h3⟩⟩

theorem fillCache_errs {max : Nat} {o : Row N K} : ∀ {rest : List (Row N K)} {p : Nat} {b b' : Block N K (TErr E)} {q},
    fillCache max o rest p b = (b', q) → b'.errs = b.errs := by
  intro rest
  induction rest with
  | nil => intro p b b' q h; simp only [fillCache] at h; cases h; rfl
  | cons i rest ih =>
    intro p b b' q h
    simp only [fillCache] at h
    split at h
    · cases h; rfl
    · have := ih h
      simpa using this

theorem fillCache_room {max : Nat} {o : Row N K} : ∀ {rest : List (Row N K)} {p : Nat} {b b' : Block N K (TErr E)},
    fillCache max o rest p b = (b', none) → b.pairs.length < max → b'.pairs.length < max := by
  intro rest
  induction rest with
  | nil => intro p b b' h hb; simp only [fillCache] at h; cases h; exact hb
  | cons i rest ih =>
    intro p b b' h hb
    simp only [fillCache] at h
    split at h
    · cases h
    · next hm => exact ih h (by simp at hm ⊢; omega)

theorem fillInner_room {max : Nat} {Mi : Mach Si (Item N K (TErr E))} {o s cache b n s' cache' b' full n'}
    (h : FillInner max Mi o s cache b n s' cache' b' full n') : full = false → b.pairs.length < max → b'.pairs.length < max := by
  induction h with
  | stop => intro _ h; exact h
  | err _ _ ih => exact ih
  | full => intro h; cases h
  | row _ hm _ ih => intro hf _; exact ih hf (by simp; omega)

theorem fillBody_room {max : Nat} {Mo : Mach So (Item N K (TErr E))} {Mi : Mach Si (Item N K (TErr E))} {s b n s' b' n'}
    (h : FillBody max Mo Mi s b n s' b' false n') (hb : b.pairs.length < max) : b'.pairs.length < max := by
  cases h with
  | err => exact hb
  | none => exact hb
  | cacheEnd _ hf => exact fillCache_room hf hb
  | inner _ hf => exact fillInner_room hf rfl hb

/-- A time out leaves nothing but waiting: if a block is returned, no check on the way found that the limit is exceeded. So the time
out error is never in a block, and once the limit is exceeded, no block is returned. -/
theorem nextBuffer_quiet (hc : Clock late) {max : Nat} {Mo : Mach So (Item N K (TErr E))} {Mi : Mach Si (Item N K (TErr E))}
    (hpo : Prompt late Mo) (hpi : Prompt late Mi) {s b n s' b' n'} (h : NextBuffer max Mo Mi s b n s' b' n') :
    ∀ lo li, Exact late Mo s.outer lo → timeout ∉ lo → Exact late Mi s.inner li → timeout ∉ li → .err .timeout ∉ b.errs →
      Quiet late n n' ∧ .err .timeout ∉ b'.errs := by
  -- the body of the loop
  have body : ∀ {s b n s' b' full n'}, FillBody max Mo Mi s b n s' b' full n' → ∀ lo li, Exact late Mo s.outer lo → timeout ∉ lo →
      Exact late Mi s.inner li → timeout ∉ li → .err .timeout ∉ b.errs →
      (Quiet late n n' ∧ .err .timeout ∉ b'.errs ∧ ∃ lo' li', Exact late Mo s'.outer lo' ∧ timeout ∉ lo' ∧
        Exact late Mi s'.inner li' ∧ timeout ∉ li') ∨
      (full = false ∧ late n' = true ∧ b'.pairs = b.pairs ∧ s'.cur = none ∧ Dead late Mo s'.outer) := by
    intro s b n s' b' full n' h lo li h1 h2 h3 h4 h5
    cases h with
    | @err _ _ _ _ _ _ _ e _ _ _ hp =>
      obtain ⟨-, ⟨h6, h7, lo', h8, h9⟩ | ⟨h6, h7, h8, h9⟩⟩ := peekOuter_quiet hpo hp h1 h2
      · refine .inl ⟨h6, ?_, lo', li, h8, h9, h3, h4⟩
        simp only [List.mem_append, List.mem_singleton, not_or]
        refine ⟨h5, ?_⟩
        rintro rfl
        exact h7 rfl
      · exact .inr ⟨rfl, h7, rfl, h8, h9⟩
    | none hp =>
      obtain ⟨-, ⟨h6, h7, lo', h8, h9⟩ | ⟨h6, -⟩⟩ := peekOuter_quiet hpo hp h1 h2
      · exact .inl ⟨h6, h5, lo', li, h8, h9, h3, h4⟩
      · cases h6
    | cacheFull hp hf =>
      obtain ⟨-, ⟨h6, h7, lo', h8, h9⟩ | ⟨h6, -⟩⟩ := peekOuter_quiet hpo hp h1 h2
      · exact .inl ⟨h6, by rw [fillCache_errs hf]; exact h5, lo', li, h8, h9, h3, h4⟩
      · cases h6
    | cacheEnd hp hf =>
      obtain ⟨-, ⟨h6, h7, lo', h8, h9⟩ | ⟨h6, -⟩⟩ := peekOuter_quiet hpo hp h1 h2
      · exact .inl ⟨h6, by rw [fillCache_errs hf]; exact h5, lo', li, h8, h9, h3, h4⟩
      · cases h6
    | inner hp hf =>
      obtain ⟨-, ⟨h6, h7, lo', h8, h9⟩ | ⟨h6, -⟩⟩ := peekOuter_quiet hpo hp h1 h2
      · obtain ⟨h10, h11, li', h12, h13⟩ := fillInner_quiet hc hpi hf li h3 h4 h5
        exact .inl ⟨h6.trans h10, h11, lo', li', h8, h9, h12, h13⟩
      · cases h6
  have peekDead : ∀ {so : So} {n r st n'}, PeekOuter Mo (so, none) n r st n' → Dead late Mo so → late n = true →
      ∃ e, r = .error e := by
    intro so n r st n' hp hd hn
    cases hp with
    | row hm => have := (hd.all hn hm).1; cases this
    | stop hm => have := (hd.all hn hm).1; cases this
    | err hm => exact ⟨_, rfl⟩
  have peekDead2 : ∀ {so : So} {n r st n'}, PeekOuter Mo (so, none) n r st n' → Dead late Mo so → late n = true →
      n ≤ n' ∧ st.2 = none ∧ Dead late Mo st.1 := by
    intro so n r st n' hp hd hn
    cases hp with
    | row hm => have := (hd.all hn hm).1; cases this
    | stop hm => have := (hd.all hn hm).1; cases this
    | err hm => obtain ⟨-, h2, h3⟩ := hd.all hn hm; exact ⟨h2, rfl, h3⟩
  induction h with
  | max => intro lo li _ _ _ _ h; exact ⟨.refl _, h⟩
  | full _ hb =>
    intro lo li h1 h2 h3 h4 h5
    obtain ⟨h6, h7, -⟩ | ⟨h6, -⟩ := body hb lo li h1 h2 h3 h4 h5
    · exact ⟨h6, h7⟩
    · cases h6
  | stop _ hb hp =>
    intro lo li h1 h2 h3 h4 h5
    obtain ⟨h6, h7, lo', li', h8, h9, h10, h11⟩ | ⟨-, h6, -, -, h7⟩ := body hb lo li h1 h2 h3 h4 h5
    · obtain ⟨-, ⟨h12, -⟩ | ⟨h12, -⟩⟩ := peekOuter_quiet hpo hp h8 h9
      · exact ⟨h6.trans h12, h7⟩
      · cases h12
    · obtain ⟨e, h8⟩ := peekDead hp h7 h6
      cases h8
  | row _ hb hp _ ih =>
    intro lo li h1 h2 h3 h4 h5
    obtain ⟨h6, h7, lo', li', h8, h9, h10, h11⟩ | ⟨-, h6, -, -, h7⟩ := body hb lo li h1 h2 h3 h4 h5
    · obtain ⟨-, ⟨h12, -, lo2, h13, h14⟩ | ⟨h12, -⟩⟩ := peekOuter_quiet hpo hp h8 h9
      · obtain ⟨h15, h16⟩ := ih lo2 li' h13 h14 h10 h11 h7
        exact ⟨(h6.trans h12).trans h15, h16⟩
      · cases h12
    · obtain ⟨e, h8⟩ := peekDead hp h7 h6
      cases h8
  | @err s b n outer cur inner cache pos b1 n1 e outer1 cur1 n2 s' b' n' hmax hb hp hrest ih =>
    intro lo li h1 h2 h3 h4 h5
    obtain ⟨h6, h7, lo', li', h8, h9, h10, h11⟩ | ⟨-, h6, hbp, -, h7⟩ := body hb lo li h1 h2 h3 h4 h5
    · obtain ⟨-, ⟨h12, h17, lo2, h13, h14⟩ | ⟨-, h13, h14, h15⟩⟩ := peekOuter_quiet hpo hp h8 h9
      · obtain ⟨h15, h16⟩ := ih lo2 li' h13 h14 h10 h11 (by
          simp only [List.mem_append, List.mem_singleton, not_or]
          refine ⟨h7, ?_⟩
          rintro rfl
          exact h17 rfl)
        exact ⟨(h6.trans h12).trans h15, h16⟩
      · exact absurd hrest (C112_parallel_hangs hc h13 (.inl ⟨h14, h15⟩) (by
          have := fillBody_room hb (by omega)
          exact this))
    · obtain ⟨h8, h9, h10⟩ := peekDead2 hp h7 h6
      exact absurd hrest (C112_parallel_hangs hc (hc _ _ h8 h6) (.inl ⟨h9, h10⟩) (by
        show b1.pairs.length < max
        rw [hbp]; omega))

/-- C112 fails for a parallel nested loop over any two trees of execution nodes: the time out error is never in a block that is
returned. If a check finds that the limit is exceeded, the call does not return. -/
theorem C112_parallel_never (hc : Clock late) {max : Nat} {o i : Tree N K E} {lo li} (ho : o.Full lo) (hto : timeout ∉ lo)
    (hi : i.Full li) (hti : timeout ∉ li) {n s' b' n'}
    (h : NextBuffer max (o.next late) (i.next late) ⟨o.start, none, i.start, [], none⟩ ⟨[], []⟩ n s' b' n') :
    (∀ j, n ≤ j → j < n' → late j = false) ∧ .err .timeout ∉ b'.errs :=
  nextBuffer_quiet hc (tree_prompt o) (tree_prompt i) h lo li (tree_exact hc ho) hto (tree_exact hc hi) hti (by simp)

end
end Timed
