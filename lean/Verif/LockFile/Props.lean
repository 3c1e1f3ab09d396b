import Verif.LockFile.Model

/-!
# Who can have a storage for a directory (C118)
-/

namespace LockFile

theorem run_append (s : State) (as bs : List Act) : run s (as ++ bs) = (run s as).bind (run · bs) := by
  induction as generalizing s with
  | nil => rfl
  | cons a r ih =>
    simp only [List.cons_append, run]
    cases step s a with
    | none => rfl
    | some s' => exact ih s'

theorem run_snoc {s s2 : State} {as : List Act} {a : Act} (h : run s (as ++ [a]) = some s2) : ∃ s1, run s as = some s1 ∧ step s1 a = some s2 := by
  rw [run_append] at h
  cases h1 : run s as with
  | none => rw [h1] at h; cases h
  | some s1 =>
    rw [h1] at h
    simp only [Option.bind_some, run] at h
    refine ⟨s1, rfl, ?_⟩
    cases h2 : step s1 a with
    | none => rw [h2] at h; cases h
    | some s' => rw [h2] at h; exact h

/-- Induction over the executions. -/
theorem run_induction {P : State → Prop} (h0 : P init) (hs : ∀ s a s', P s → step s a = some s' → P s') {as : List Act} {s : State}
    (h : run init as = some s) : P s := by
  suffices H : ∀ (as : List Act) (s0 s : State), P s0 → run s0 as = some s → P s from H as init s h0 h
  intro as
  induction as with
  | nil => intro s0 s h0 h; cases h; exact h0
  | cons a r ih =>
    intro s0 s h0 h
    simp only [run] at h
    cases h1 : step s0 a with
    | none => rw [h1] at h; cases h
    | some s1 => rw [h1] at h; exact ih s1 s (hs _ _ _ h0 h1) h

/-- The owner of a file is the process that has a storage with it, and files that are referred to exist. -/
structure Inv (s : State) : Prop where
  owner : ∀ f i, s.owner f = some i ↔ s.phase i = .open_ f
  path : ∀ f, s.path = some f → f < s.next
  opened : ∀ i f, s.phase i = .opened f → f < s.next
  held : ∀ i f, s.phase i = .open_ f → f < s.next

/-- The phases after a process went on. -/
@[simp] theorem goto_phase (s : State) (i j : Nat) (p : Phase) : (s.goto i p).phase j = if j = i then p else s.phase j := rfl
@[simp] theorem goto_path (s : State) (i : Nat) (p : Phase) : (s.goto i p).path = s.path := rfl
@[simp] theorem goto_next (s : State) (i : Nat) (p : Phase) : (s.goto i p).next = s.next := rfl
@[simp] theorem goto_owner (s : State) (i : Nat) (p : Phase) : (s.goto i p).owner = s.owner := rfl
@[simp] theorem give_phase (s : State) (f : Nat) (o : Option Nat) : (s.give f o).phase = s.phase := rfl
@[simp] theorem give_path (s : State) (f : Nat) (o : Option Nat) : (s.give f o).path = s.path := rfl
@[simp] theorem give_next (s : State) (f : Nat) (o : Option Nat) : (s.give f o).next = s.next := rfl
@[simp] theorem give_owner (s : State) (f g : Nat) (o : Option Nat) : (s.give f o).owner g = if g = f then o else s.owner g := rfl

/-- What a step does, as a case distinction. -/
theorem step_cases {s s' : State} {a : Act} (h : step s a = some s') :
    (∃ i f, a = .open_ i ∧ s.phase i = .idle ∧ s.path = some f ∧ s' = s.goto i (.opened f)) ∨
    (∃ i, a = .open_ i ∧ s.phase i = .idle ∧ s.path = none ∧ s' = ({ s with path := some s.next, next := s.next + 1 } : State).goto i (.opened s.next)) ∨
    (∃ i f, a = .lock i ∧ s.phase i = .opened f ∧ s.owner f = none ∧ s' = (s.give f (some i)).goto i (.open_ f)) ∨
    (∃ i f j, a = .lock i ∧ s.phase i = .opened f ∧ s.owner f = some j ∧ s' = s.goto i .done) ∨
    (∃ i f, a = .unlock i ∧ s.phase i = .open_ f ∧ s' = (s.give f none).goto i .unlocked) ∨
    (∃ i, a = .check i ∧ s.phase i = .unlocked ∧ s' = s.goto i (if s.path.isSome then .removing else .done)) ∨
    (∃ i, a = .remove i ∧ s.phase i = .removing ∧ s' = ({ s with path := none } : State).goto i .done) ∨
    (∃ i f, a = .crash i ∧ s.phase i = .open_ f ∧ s' = (s.give f none).goto i .done) ∨
    (∃ i, a = .crash i ∧ (∀ f, s.phase i ≠ .open_ f) ∧ s' = s.goto i .done) := by
  cases a with
  | open_ i =>
    cases hp : s.phase i <;> simp only [step, hp, reduceCtorEq] at h
    cases hq : s.path with
    | some f =>
      simp only [hq, Option.some.injEq] at h
      exact Or.inl ⟨i, f, rfl, hp, rfl, h.symm⟩
    | none =>
      simp only [hq, Option.some.injEq] at h
      exact Or.inr (Or.inl ⟨i, rfl, hp, rfl, h.symm⟩)
  | lock i =>
    cases hp : s.phase i <;> simp only [step, hp, reduceCtorEq] at h
    rename_i f
    cases hq : s.owner f with
    | none =>
      simp only [hq, Option.some.injEq] at h
      exact Or.inr (Or.inr (Or.inl ⟨i, f, rfl, hp, hq, h.symm⟩))
    | some j =>
      simp only [hq, Option.some.injEq] at h
      exact Or.inr (Or.inr (Or.inr (Or.inl ⟨i, f, j, rfl, hp, hq, h.symm⟩)))
  | unlock i =>
    cases hp : s.phase i <;> simp only [step, hp, reduceCtorEq] at h
    rename_i f
    simp only [Option.some.injEq] at h
    exact Or.inr (Or.inr (Or.inr (Or.inr (Or.inl ⟨i, f, rfl, hp, h.symm⟩))))
  | check i =>
    cases hp : s.phase i <;> simp only [step, hp, reduceCtorEq] at h
    simp only [Option.some.injEq] at h
    exact Or.inr (Or.inr (Or.inr (Or.inr (Or.inr (Or.inl ⟨i, rfl, hp, h.symm⟩)))))
  | remove i =>
    cases hp : s.phase i <;> simp only [step, hp, reduceCtorEq] at h
    simp only [Option.some.injEq] at h
    exact Or.inr (Or.inr (Or.inr (Or.inr (Or.inr (Or.inr (Or.inl ⟨i, rfl, hp, h.symm⟩))))))
  | crash i =>
    cases hp : s.phase i with
    | open_ f =>
      simp only [step, hp, Option.some.injEq] at h
      exact Or.inr (Or.inr (Or.inr (Or.inr (Or.inr (Or.inr (Or.inr (Or.inl ⟨i, f, rfl, hp, h.symm⟩)))))))
    | _ =>
      simp only [step, hp, Option.some.injEq] at h
      exact Or.inr (Or.inr (Or.inr (Or.inr (Or.inr (Or.inr (Or.inr (Or.inr ⟨i, rfl, by simp [hp], h.symm⟩)))))))

/-- A process that leaves a phase without a lock for one without a lock. -/
theorem Inv.goto {s : State} (hi : Inv s) {i : Nat} {p : Phase} (h1 : ∀ f, s.phase i ≠ .open_ f) (h2 : ∀ f, p ≠ .open_ f)
    (h3 : ∀ f, p = .opened f → f < s.next) : Inv (s.goto i p) where
  owner f j := by
    rw [goto_owner, hi.owner, goto_phase]
    by_cases hj : j = i
    · subst hj; simp [h1, h2]
    · simp [hj]
  path := hi.path
  opened j f h := by
    rw [goto_phase] at h
    by_cases hj : j = i
    · rw [if_pos hj] at h; exact h3 f h
    · rw [if_neg hj] at h; exact hi.opened j f h
  held j f h := by
    rw [goto_phase] at h
    by_cases hj : j = i
    · rw [if_pos hj] at h; exact absurd h (h2 f)
    · rw [if_neg hj] at h; exact hi.held j f h

/-- A process that gives up its lock. -/
theorem Inv.release {s : State} (hi : Inv s) {i f : Nat} {p : Phase} (h1 : s.phase i = .open_ f) (h2 : ∀ f, p ≠ .open_ f)
    (h3 : ∀ f, p ≠ .opened f) : Inv ((s.give f none).goto i p) where
  owner g j := by
    rw [goto_owner, give_owner, goto_phase, give_phase]
    by_cases hj : j = i
    · subst hj
      rw [if_pos rfl]
      by_cases hg : g = f
      · subst hg; simp [h2]
      · rw [if_neg hg, hi.owner, h1]
        simp [h2, Ne.symm hg]
    · rw [if_neg hj]
      by_cases hg : g = f
      · subst hg
        rw [if_pos rfl]
        constructor
        · intro h; cases h
        · intro h
          have e1 := (hi.owner g j).2 h
          have e2 := (hi.owner g i).2 h1
          rw [e1] at e2
          exact absurd (Option.some.inj e2) hj
      · rw [if_neg hg, hi.owner]
  path := hi.path
  opened j g h := by
    rw [goto_phase] at h
    by_cases hj : j = i
    · rw [if_pos hj] at h; exact absurd h (h3 g)
    · rw [if_neg hj] at h; exact hi.opened j g h
  held j g h := by
    rw [goto_phase] at h
    by_cases hj : j = i
    · rw [if_pos hj] at h; exact absurd h (h2 g)
    · rw [if_neg hj] at h; exact hi.held j g h

theorem inv_step {s : State} {a : Act} {s' : State} (hi : Inv s) (h : step s a = some s') : Inv s' := by
  rcases step_cases h with ⟨i, f, -, hp, hq, rfl⟩ | ⟨i, -, hp, hq, rfl⟩ | ⟨i, f, -, hp, hq, rfl⟩ | ⟨i, f, j, -, hp, hq, rfl⟩ | ⟨i, f, -, hp, rfl⟩ |
    ⟨i, -, hp, rfl⟩ | ⟨i, -, hp, rfl⟩ | ⟨i, f, -, hp, rfl⟩ | ⟨i, -, hp, rfl⟩
  · exact hi.goto (by simp [hp]) (by simp) (by intro g hg; cases hg; exact hi.path f hq)
  · have hi' : Inv ({ s with path := some s.next, next := s.next + 1 } : State) :=
      ⟨hi.owner, by intro f hf; cases hf; exact Nat.lt_succ_self _, fun j f hj => Nat.lt_succ_of_lt (hi.opened j f hj),
        fun j f hj => Nat.lt_succ_of_lt (hi.held j f hj)⟩
    exact hi'.goto (by simp [hp]) (by simp) (by intro g hg; cases hg; exact Nat.lt_succ_self _)
  · refine ⟨?_, hi.path, ?_, ?_⟩
    · intro g j
      rw [goto_owner, give_owner, goto_phase, give_phase]
      by_cases hj : j = i
      · subst hj
        rw [if_pos rfl]
        by_cases hg : g = f
        · subst hg; simp
        · rw [if_neg hg, hi.owner, hp]
          simp [Ne.symm hg]
      · rw [if_neg hj]
        by_cases hg : g = f
        · subst hg
          rw [if_pos rfl]
          constructor
          · intro h; exact absurd (Option.some.inj h).symm hj
          · intro h
            rw [← hi.owner, hq] at h
            cases h
        · rw [if_neg hg, hi.owner]
    · intro j g hj
      rw [goto_phase] at hj
      by_cases hji : j = i
      · rw [if_pos hji] at hj; cases hj
      · rw [if_neg hji] at hj; exact hi.opened j g hj
    · intro j g hj
      rw [goto_phase] at hj
      by_cases hji : j = i
      · rw [if_pos hji] at hj; cases hj; exact hi.opened i _ hp
      · rw [if_neg hji] at hj; exact hi.held j g hj
  · exact hi.goto (by simp [hp]) (by simp) (by simp)
  · exact hi.release hp (by simp) (by simp)
  · refine hi.goto (by simp [hp]) ?_ ?_ <;> intro g <;> split <;> simp
  · have hi' : Inv ({ s with path := none } : State) := ⟨hi.owner, by simp, hi.opened, hi.held⟩
    exact hi'.goto (by simp [hp]) (by simp) (by simp)
  · exact hi.release hp (by simp) (by simp)
  · exact hi.goto hp (by simp) (by simp)

theorem inv_run {as : List Act} {s : State} (h : run init as = some s) : Inv s :=
  run_induction (P := Inv) ⟨by intro f i; simp [init], by simp [init], by simp [init], by simp [init]⟩ (fun _ _ _ hi hs => inv_step hi hs) h

/-- **C118**: two processes never have the lock of the same file. -/
theorem C118_same_file {as : List Act} {s : State} (h : run init as = some s) {i j f : Nat} (hi : s.phase i = .open_ f) (hj : s.phase j = .open_ f) : i = j := by
  have hv := inv_run h
  have e1 := (hv.owner f i).2 hi
  have e2 := (hv.owner f j).2 hj
  rw [e1] at e2
  exact Option.some.inj e2

/-- Everybody who opened or locked the lock file has the one the name refers to, and nobody has a storage while the file is about to
be removed. -/
structure Good (s : State) : Prop where
  inv : Inv s
  opened : ∀ i f, s.phase i = .opened f → s.path = some f
  held : ∀ i f, s.phase i = .open_ f → s.path = some f
  closing : ∀ i j, s.Closing i → ¬ s.InUse j

/-- One process is about to lock the file while another one is about to remove it. -/
def State.Overlap (s : State) : Prop := ∃ i j, s.Opening i ∧ s.Closing j

theorem good_step {s : State} {a : Act} {s' : State} (hg : Good s) (ho : ¬ s.Overlap) (h : step s a = some s') : Good s' := by
  have hv := inv_step hg.inv h
  have same : ∀ (i : Nat) (p : Phase), (∀ f, p = .opened f → s.path = some f) → (∀ f, p ≠ .open_ f) →
      (p = .unlocked ∨ p = .removing → ∀ j, j ≠ i → ¬ s.InUse j) → ∀ o, ({ s with owner := o }.goto i p).path = s.path →
      (∀ k f, ({ s with owner := o }.goto i p).phase k = .opened f → s.path = some f) ∧
      (∀ k f, ({ s with owner := o }.goto i p).phase k = .open_ f → s.path = some f) ∧
      (∀ k j, ({ s with owner := o }.goto i p).Closing k → ¬ ({ s with owner := o }.goto i p).InUse j) := by
    intro i p h1 h2 h3 o _
    refine ⟨?_, ?_, ?_⟩
    · intro k f hk
      rw [goto_phase] at hk
      by_cases hki : k = i
      · rw [if_pos hki] at hk; exact h1 f hk
      · rw [if_neg hki] at hk; exact hg.opened k f hk
    · intro k f hk
      rw [goto_phase] at hk
      by_cases hki : k = i
      · rw [if_pos hki] at hk; exact absurd hk (h2 f)
      · rw [if_neg hki] at hk; exact hg.held k f hk
    · rintro k j hk ⟨f, hj⟩
      rw [goto_phase] at hj
      by_cases hji : j = i
      · rw [if_pos hji] at hj; exact h2 f hj
      · rw [if_neg hji] at hj
        unfold State.Closing at hk
        rw [goto_phase] at hk
        by_cases hki : k = i
        · rw [if_pos hki] at hk; exact h3 hk j hji ⟨f, hj⟩
        · rw [if_neg hki] at hk; exact hg.closing k j hk ⟨f, hj⟩
  have alone : ∀ i f, s.phase i = .open_ f → ∀ j, j ≠ i → ¬ s.InUse j := by
    rintro i f hp j hji ⟨g, hj⟩
    have e1 := hg.held i f hp
    rw [hg.held j g hj] at e1
    cases e1
    have e2 := (hg.inv.owner _ j).2 hj
    rw [(hg.inv.owner _ i).2 hp] at e2
    exact hji (Option.some.inj e2).symm
  rcases step_cases h with ⟨i, f, -, hp, hq, rfl⟩ | ⟨i, -, hp, hq, rfl⟩ | ⟨i, f, -, hp, hq, rfl⟩ | ⟨i, f, j, -, hp, hq, rfl⟩ | ⟨i, f, -, hp, rfl⟩ |
    ⟨i, -, hp, rfl⟩ | ⟨i, -, hp, rfl⟩ | ⟨i, f, -, hp, rfl⟩ | ⟨i, -, hp, rfl⟩
  · obtain ⟨k1, k2, k3⟩ := same i (.opened f) (by intro g hg; cases hg; exact hq) (by simp) (by simp) s.owner rfl
    exact ⟨hv, k1, k2, k3⟩
  · have no1 : ∀ k f, s.phase k ≠ .opened f := fun k f hk => by have := hg.opened k f hk; rw [hq] at this; cases this
    have no2 : ∀ k f, s.phase k ≠ .open_ f := fun k f hk => by have := hg.held k f hk; rw [hq] at this; cases this
    refine ⟨hv, ?_, ?_, ?_⟩
    · intro k f hk
      rw [goto_phase] at hk
      by_cases hki : k = i
      · rw [if_pos hki] at hk; cases hk; rfl
      · rw [if_neg hki] at hk; exact absurd hk (no1 k f)
    · intro k f hk
      rw [goto_phase] at hk
      by_cases hki : k = i
      · rw [if_pos hki] at hk; cases hk
      · rw [if_neg hki] at hk; exact absurd hk (no2 k f)
    · rintro k j hk ⟨f, hj⟩
      rw [goto_phase] at hj
      by_cases hji : j = i
      · rw [if_pos hji] at hj; cases hj
      · rw [if_neg hji] at hj; exact no2 j f hj
  · have hpath := hg.opened i f hp
    refine ⟨hv, ?_, ?_, ?_⟩
    · intro k g hk
      rw [goto_phase] at hk
      by_cases hki : k = i
      · rw [if_pos hki] at hk; cases hk
      · rw [if_neg hki] at hk; exact hg.opened k g hk
    · intro k g hk
      rw [goto_phase] at hk
      by_cases hki : k = i
      · rw [if_pos hki] at hk; cases hk; exact hpath
      · rw [if_neg hki] at hk; exact hg.held k g hk
    · rintro k j hk -
      unfold State.Closing at hk
      rw [goto_phase] at hk
      by_cases hki : k = i
      · rw [if_pos hki] at hk; simp at hk
      · rw [if_neg hki] at hk; exact ho ⟨i, k, ⟨f, hp⟩, hk⟩
  · obtain ⟨k1, k2, k3⟩ := same i .done (by simp) (by simp) (by simp) s.owner rfl
    exact ⟨hv, k1, k2, k3⟩
  · obtain ⟨k1, k2, k3⟩ := same i .unlocked (by simp) (by simp) (fun _ => alone i f hp) (s.give f none).owner rfl
    exact ⟨hv, k1, k2, k3⟩
  · obtain ⟨k1, k2, k3⟩ := same i (if s.path.isSome then .removing else .done) (by intro f; split <;> simp) (by intro f; split <;> simp)
      (fun _ j _ => hg.closing i j (Or.inl hp)) s.owner rfl
    exact ⟨hv, k1, k2, k3⟩
  · have no1 : ∀ k f, s.phase k ≠ .opened f := fun k f hk => ho ⟨k, i, ⟨f, hk⟩, Or.inr hp⟩
    have no2 : ∀ k f, s.phase k ≠ .open_ f := fun k f hk => hg.closing i k (Or.inr hp) ⟨f, hk⟩
    refine ⟨hv, ?_, ?_, ?_⟩
    · intro k f hk
      rw [goto_phase] at hk
      by_cases hki : k = i
      · rw [if_pos hki] at hk; cases hk
      · rw [if_neg hki] at hk; exact absurd hk (no1 k f)
    · intro k f hk
      rw [goto_phase] at hk
      by_cases hki : k = i
      · rw [if_pos hki] at hk; cases hk
      · rw [if_neg hki] at hk; exact absurd hk (no2 k f)
    · rintro k j hk ⟨f, hj⟩
      rw [goto_phase] at hj
      by_cases hji : j = i
      · rw [if_pos hji] at hj; cases hj
      · rw [if_neg hji] at hj; exact no2 j f hj
  · obtain ⟨k1, k2, k3⟩ := same i .done (by simp) (by simp) (by simp) (s.give f none).owner rfl
    exact ⟨hv, k1, k2, k3⟩
  · obtain ⟨k1, k2, k3⟩ := same i .done (by simp) (by simp) (by simp) s.owner rfl
    exact ⟨hv, k1, k2, k3⟩

theorem good_init : Good init where
  inv := inv_run (as := []) rfl
  opened := by simp [init]
  held := by simp [init]
  closing := by rintro i j (h | h) <;> simp [init] at h

theorem good_run {s : State} : ∀ {as : List Act}, run init as = some s →
    (∀ n s', run init (as.take n) = some s' → ¬ s'.Overlap) → Good s := by
  intro as
  suffices H : ∀ n, n ≤ as.length → ∀ s, run init (as.take n) = some s → (∀ n s', run init (as.take n) = some s' → ¬ s'.Overlap) → Good s by
    intro h ho
    exact H as.length (Nat.le_refl _) s (by rw [List.take_length]; exact h) ho
  intro n
  induction n with
  | zero =>
    intro _ s h _
    rw [List.take_zero] at h
    cases h
    exact good_init
  | succ n ih =>
    intro hn s h ho
    have e : as.take (n + 1) = as.take n ++ [as[n]] := (List.take_append_getElem (by omega)).symm
    have h' := h
    rw [e] at h'
    obtain ⟨s1, h1, h2⟩ := run_snoc h'
    exact good_step (ih (by omega) s1 h1 ho) (ho n s1 h1) h2

/-- **C118** (partial): at most one process has a storage for the directory, if never one process is between opening and locking the
file while another one is between unlocking and removing it.  Missing: executions with such an overlap (`C118_exclusive_fails`). -/
theorem C118_exclusive_partial {as : List Act} {s : State} (h : run init as = some s) (ho : ∀ n s', run init (as.take n) = some s' → ¬ s'.Overlap)
    {i j : Nat} (hi : s.InUse i) (hj : s.InUse j) : i = j := by
  have hg := good_run h ho
  obtain ⟨f, hf⟩ := hi
  obtain ⟨g, hgj⟩ := hj
  have e := hg.held i f hf
  rw [hg.held j g hgj] at e
  cases e
  exact C118_same_file h hf hgj

/-- Everybody who opened or locked the lock file has the one the name refers to, or some process already ended. -/
theorem third_step {s : State} {a : Act} {s' : State}
    (hg : (∀ i f, s.phase i = .opened f ∨ s.phase i = .open_ f → s.path = some f) ∨ ∃ k, s.phase k = .done) (h : step s a = some s') :
    (∀ i f, s'.phase i = .opened f ∨ s'.phase i = .open_ f → s'.path = some f) ∨ ∃ k, s'.phase k = .done := by
  have stay : ∀ (s1 : State) i p, s1.phase = s.phase → (∃ k, s.phase k = .done) → s.phase i ≠ .done → ∃ k, (s1.goto i p).phase k = .done := by
    rintro s1 i p e ⟨k, hk⟩ hi
    have hki : k ≠ i := fun he => hi (he ▸ hk)
    exact ⟨k, by simp [hki, e, hk]⟩
  have move : ∀ (s1 : State) i p, s1.phase = s.phase → s1.path = s.path → (∀ i f, s.phase i = .opened f ∨ s.phase i = .open_ f → s.path = some f) →
      (∀ f, p = .opened f ∨ p = .open_ f → s.path = some f) →
      ∀ j f, (s1.goto i p).phase j = .opened f ∨ (s1.goto i p).phase j = .open_ f → (s1.goto i p).path = some f := by
    intro s1 i p e1 e2 hall hp j f hj
    rw [goto_path, e2]
    rw [goto_phase] at hj
    by_cases hji : j = i
    · rw [if_pos hji] at hj; exact hp f hj
    · rw [if_neg hji, e1] at hj; exact hall j f hj
  rcases step_cases h with ⟨i, f, -, hp, hq, rfl⟩ | ⟨i, -, hp, hq, rfl⟩ | ⟨i, f, -, hp, hq, rfl⟩ | ⟨i, f, j, -, hp, hq, rfl⟩ | ⟨i, f, -, hp, rfl⟩ |
    ⟨i, -, hp, rfl⟩ | ⟨i, -, hp, rfl⟩ | ⟨i, f, -, hp, rfl⟩ | ⟨i, -, hp, rfl⟩
  · rcases hg with hg | hg
    · exact Or.inl (move s i _ rfl rfl hg (by intro g hg; simp only [Phase.opened.injEq, reduceCtorEq, or_false] at hg; rw [hq, hg]))
    · exact Or.inr (stay s i _ rfl hg (by simp [hp]))
  · rcases hg with hg | hg
    · refine Or.inl ?_
      intro j f hj
      rw [goto_phase] at hj
      by_cases hji : j = i
      · rw [if_pos hji] at hj
        simp only [Phase.opened.injEq, reduceCtorEq, or_false] at hj
        rw [← hj]; rfl
      · rw [if_neg hji] at hj
        have := hg j f hj
        rw [hq] at this
        cases this
    · exact Or.inr (stay _ i _ rfl hg (by simp [hp]))
  · rcases hg with hg | hg
    · exact Or.inl (move _ i _ rfl rfl hg (by
        intro g hg'; simp only [Phase.open_.injEq, reduceCtorEq, false_or] at hg'; rw [← hg']; exact hg i f (Or.inl hp)))
    · exact Or.inr (stay _ i _ rfl hg (by simp [hp]))
  · exact Or.inr ⟨i, by simp⟩
  · rcases hg with hg | hg
    · exact Or.inl (move _ i _ rfl rfl hg (by simp))
    · exact Or.inr (stay _ i _ rfl hg (by simp [hp]))
  · rcases hg with hg | hg
    · exact Or.inl (move _ i _ rfl rfl hg (by intro g; split <;> simp))
    · exact Or.inr (stay _ i _ rfl hg (by simp [hp]))
  · exact Or.inr ⟨i, by simp⟩
  · exact Or.inr ⟨i, by simp⟩
  · exact Or.inr ⟨i, by simp⟩

/-- **C118**: if two processes have a storage at the same time, a third one already ended.  So two processes never have one as long as
no other process used the directory. -/
theorem C118_third {as : List Act} {s : State} (h : run init as = some s) {i j : Nat} (hi : s.InUse i) (hj : s.InUse j) (hij : i ≠ j) :
    ∃ k, k ≠ i ∧ k ≠ j ∧ s.phase k = .done := by
  have key := run_induction (P := fun s => (∀ i f, s.phase i = .opened f ∨ s.phase i = .open_ f → s.path = some f) ∨ ∃ k, s.phase k = .done)
    (Or.inl (by simp [init])) (fun _ _ _ hg hs => third_step hg hs) h
  obtain ⟨f, hf⟩ := hi
  obtain ⟨g, hg⟩ := hj
  rcases key with hk | ⟨k, hk⟩
  · have e := hk i f (Or.inr hf)
    rw [hk j g (Or.inr hg)] at e
    cases e
    exact absurd (C118_same_file h hf hg) hij
  · exact ⟨k, (by rintro rfl; rw [hf] at hk; cases hk), (by rintro rfl; rw [hg] at hk; cases hk), hk⟩

/-- **C118** (partial): while a process has a storage, and without such an overlap, everybody who opens the lock file gets an error. -/
theorem C118_refused_partial {as : List Act} {s : State} (h : run init as = some s) (ho : ∀ n s', run init (as.take n) = some s' → ¬ s'.Overlap)
    {i j : Nat} (hi : s.InUse i) (hj : s.phase j = .idle) :
    ∃ s', run s [.open_ j, .lock j] = some s' ∧ s'.phase j = .done ∧ s'.path = s.path ∧ (∀ k, s'.InUse k ↔ s.InUse k) := by
  have hg := good_run h ho
  obtain ⟨f, hf⟩ := hi
  have hp := hg.held i f hf
  have hw := (hg.inv.owner f i).2 hf
  refine ⟨(s.goto j (.opened f)).goto j .done, ?_, ?_, ?_, ?_⟩
  · simp [run, step, hj, hp, hw]
  · simp
  · rfl
  · intro k
    unfold State.InUse
    by_cases hk : k = j
    · subst hk; simp [hj]
    · simp [hk]

/-- **C118**: if no process has a storage, whoever opens the lock file gets one: neither a storage that was closed nor a process that
crashed keeps the directory locked. -/
theorem C118_free {as : List Act} {s : State} (h : run init as = some s) (hn : ∀ i, ¬ s.InUse i) {j : Nat} (hj : s.phase j = .idle) :
    ∃ s', run s [.open_ j, .lock j] = some s' ∧ ∀ k, s'.InUse k ↔ k = j := by
  have hv := inv_run h
  have free : ∀ f, s.owner f = none := by
    intro f
    cases hw : s.owner f with
    | none => rfl
    | some i => exact absurd ⟨f, (hv.owner f i).1 hw⟩ (hn i)
  have fin : ∀ (s1 : State) f, s1.phase = s.phase → ∀ k, (((s1.goto j (.opened f)).give f (some j)).goto j (.open_ f)).InUse k ↔ k = j := by
    intro s1 f e k
    unfold State.InUse
    by_cases hk : k = j
    · subst hk; simp
    · simp only [goto_phase, give_phase, hk, if_false, iff_false, e]
      exact hn k
  cases hp : s.path with
  | some f => exact ⟨_, by simp [run, step, hj, hp, free], fin s f rfl⟩
  | none => exact ⟨_, by simp [run, step, hj, hp, free], fin { s with path := some s.next, next := s.next + 1 } s.next rfl⟩

/-- **C118** (partial, without such an overlap): a process that closes its storage undisturbed leaves no lock file and no lock. -/
theorem C118_close_partial {as : List Act} {s : State} (h : run init as = some s) (ho : ∀ n s', run init (as.take n) = some s' → ¬ s'.Overlap)
    {i : Nat} (hi : s.InUse i) : ∃ s', run s [.unlock i, .check i, .remove i] = some s' ∧ s'.path = none ∧ (∀ k, ¬ s'.InUse k) ∧ ∀ f, s'.owner f = none := by
  have hg := good_run h ho
  obtain ⟨f, hf⟩ := hi
  have hp := hg.held i f hf
  have only : ∀ k g, s.phase k = .open_ g → k = i := fun k g hk => C118_exclusive_partial h ho ⟨g, hk⟩ ⟨f, hf⟩
  refine ⟨_, by simp [run, step, hf, hp]; rfl, rfl, ?_, ?_⟩
  · rintro k ⟨g, hk⟩
    by_cases hki : k = i
    · subst hki; simp at hk
    · simp [hki] at hk
      exact hki (only k g hk)
  · intro g
    simp only [goto_owner, give_owner]
    by_cases hgf : g = f
    · simp [hgf]
    · simp only [hgf, if_false]
      cases hw : s.owner g with
      | none => rfl
      | some k =>
        have hk := (hg.inv.owner g k).1 hw
        have := only k g hk
        subst this
        rw [hf] at hk
        cases hk
        exact absurd rfl hgf

end LockFile
