import Verif.Web.Model

/-!
# Background jobs (C73)

All functions on jobs lock the same mutex, so an execution of the service is a sequence of them.
-/

namespace Web

variable {R : Type}

/-- What can happen to the jobs. -/
inductive Ev (R : Type)
  | start (id : Nat) (t : JobType)
  | message (id : Nat) (m : Str)
  | finish (id : Nat) (m : Option Str) (st : Status R)
  | poll (id : Nat)

def Jobs.step (j : Jobs R) : Ev R → Jobs R
  | .start id t => j.start id t
  | .message id m => j.message id m
  | .finish id m st => j.finish id m st
  | .poll id => (j.poll id).2

def Jobs.run (j : Jobs R) (l : List (Ev R)) : Jobs R := l.foldl Jobs.step j

/-- No jobs. -/
def Jobs.none : Jobs R := fun _ => Option.none

/-! ## Specification -/

def Ev.isStart (id : Nat) : Ev R → Prop
  | .start i _ => i = id
  | _ => False

def Ev.isFinish (id : Nat) : Ev R → Prop
  | .finish i _ _ => i = id
  | _ => False

def Ev.isPoll (id : Nat) : Ev R → Prop
  | .poll i => i = id
  | _ => False

def Ev.isMessage (id : Nat) : Ev R → Prop
  | .message i _ => i = id
  | _ => False

/-- The reports for a job. -/
def reports (id : Nat) (l : List (Ev R)) : List Str :=
  l.filterMap fun e => match e with
    | .message i m => if i = id then some m else Option.none
    | _ => Option.none

/-- The answer for a job that has ended. -/
def answer (messages : List Str) : Status R → Poll R
  | .running => .accepted messages
  | .failed => .gone messages
  | .finished (some f) => .file f
  | .finished Option.none => .ok messages

/-! ## Proofs -/

theorem run_append (j : Jobs R) (a b : List (Ev R)) : j.run (a ++ b) = (j.run a).run b := by simp [Jobs.run]

theorem step_other {j : Jobs R} {id : Nat} (e : Ev R) (hs : ¬ e.isStart id) (hf : ¬ e.isFinish id)
    (hm : ¬ e.isMessage id) (hp : ¬ e.isPoll id) : j.step e id = j id := by
  cases e with
  | start i t =>
    have he : id ≠ i := fun he => hs he.symm
    simp [Jobs.step, Jobs.start, he]
  | message i m =>
    have he : id ≠ i := fun he => hm he.symm
    simp only [Jobs.step, Jobs.message]
    cases j i <;> simp [he]
  | finish i m st =>
    have he : id ≠ i := fun he => hf he.symm
    simp only [Jobs.step, Jobs.finish]
    cases j i <;> simp [he]
  | poll i =>
    have he : id ≠ i := fun he => hp he.symm
    simp only [Jobs.step, Jobs.poll]
    cases j i with
    | none => rfl
    | some x =>
      cases x with
      | mk t ms st =>
        cases st with
        | running => rfl
        | failed => simp [he]
        | finished r => cases r <;> simp [he]

theorem step_absent {j : Jobs R} {id : Nat} (h : j id = Option.none) (e : Ev R) (hs : ¬ e.isStart id) : j.step e id = Option.none := by
  by_cases hf : e.isFinish id
  · cases e with
    | finish i m st =>
      have he : i = id := hf
      subst he
      simp [Jobs.step, Jobs.finish, h]
    | _ => exact hf.elim
  by_cases hm : e.isMessage id
  · cases e with
    | message i m =>
      have he : i = id := hm
      subst he
      simp [Jobs.step, Jobs.message, h]
    | _ => exact hm.elim
  by_cases hp : e.isPoll id
  · cases e with
    | poll i =>
      have he : i = id := hp
      subst he
      simp [Jobs.step, Jobs.poll, h]
    | _ => exact hp.elim
  rw [step_other e hs hf hm hp, h]

theorem run_absent (l : List (Ev R)) : ∀ {j : Jobs R} {id : Nat}, j id = Option.none → (∀ e ∈ l, ¬ e.isStart id) →
    j.run l id = Option.none := by
  induction l with
  | nil => intro j id h _; exact h
  | cons e r ih =>
    intro j id h hs
    exact ih (step_absent h e (hs e (by simp))) fun e he => hs e (by simp [he])

theorem step_running {j : Jobs R} {id : Nat} {t : JobType} {ms : List Str} (h : j id = some ⟨t, ms, .running⟩) (e : Ev R)
    (hs : ¬ e.isStart id) (hf : ¬ e.isFinish id) : j.step e id = some ⟨t, ms ++ reports id [e], .running⟩ := by
  by_cases hm : e.isMessage id
  · cases e with
    | message i m =>
      have he : i = id := hm
      subst he
      simp [Jobs.step, Jobs.message, h, reports]
    | _ => exact hm.elim
  by_cases hp : e.isPoll id
  · cases e with
    | poll i =>
      have he : i = id := hp
      subst he
      simp [Jobs.step, Jobs.poll, h, reports]
    | _ => exact hp.elim
  rw [step_other e hs hf hm hp, h]
  have : reports id [e] = [] := by
    cases e with
    | message i m =>
      have he : ¬ i = id := hm
      simp [reports, he]
    | _ => rfl
  rw [this, List.append_nil]

theorem run_running (l : List (Ev R)) : ∀ {j : Jobs R} {id : Nat} {t : JobType} {ms : List Str}, j id = some ⟨t, ms, .running⟩ →
    (∀ e ∈ l, ¬ e.isStart id ∧ ¬ e.isFinish id) → j.run l id = some ⟨t, ms ++ reports id l, .running⟩ := by
  induction l with
  | nil => intro j id t ms h _; simpa [Jobs.run, reports] using h
  | cons e r ih =>
    intro j id t ms h hs
    have h1 := step_running h e (hs e (by simp)).1 (hs e (by simp)).2
    have h2 := ih h1 fun e he => hs e (by simp [he])
    have e1 : reports id (e :: r) = reports id [e] ++ reports id r := by
      simp only [reports, List.filterMap_cons, List.filterMap_nil]
      split <;> simp
    rw [e1, ← List.append_assoc]
    exact h2

theorem run_keep (l : List (Ev R)) : ∀ {j : Jobs R} {id : Nat} {x : Job R}, j id = some x →
    (∀ e ∈ l, ¬ e.isStart id ∧ ¬ e.isFinish id ∧ ¬ e.isMessage id ∧ ¬ e.isPoll id) → j.run l id = some x := by
  induction l with
  | nil => intro j id x h _; exact h
  | cons e r ih =>
    intro j id x h hs
    obtain ⟨h1, h2, h3, h4⟩ := hs e (by simp)
    exact ih ((step_other e h1 h2 h3 h4).trans h) fun e he => hs e (by simp [he])

/-- C73: before its start a job is not found. -/
theorem C73_before (id : Nat) (l : List (Ev R)) (h : ∀ e ∈ l, ¬ e.isStart id) : ((Jobs.none.run l).poll id).1 = .notFound := by
  have := run_absent l (j := Jobs.none) (id := id) rfl h
  simp [Jobs.poll, this]

/-- C73: until its end, whatever else is going on and however often it was asked for, the answer for a job has exactly the reports made so
far in their order. -/
theorem C73_running (id : Nat) (t : JobType) (a b : List (Ev R)) (h : ∀ e ∈ b, ¬ e.isStart id ∧ ¬ e.isFinish id) :
    ((Jobs.none.run (a ++ .start id t :: b)).poll id).1 = .accepted (reports id b) := by
  have h0 : (Jobs.none.run (a ++ [.start id t])) id = some ⟨t, [], .running⟩ := by
    simp [Jobs.run, Jobs.step, Jobs.start]
  have := run_running b h0 h
  rw [← run_append, List.append_assoc] at this
  simp only [List.singleton_append, List.nil_append] at this
  simp [Jobs.poll, this]

theorem after_finish (id : Nat) (t : JobType) (m : Option Str) (st : Status R) (a b c : List (Ev R))
    (h : ∀ e ∈ b, ¬ e.isStart id ∧ ¬ e.isFinish id)
    (hc : ∀ e ∈ c, ¬ e.isStart id ∧ ¬ e.isFinish id ∧ ¬ e.isMessage id ∧ ¬ e.isPoll id) :
    (Jobs.none.run (a ++ .start id t :: b ++ .finish id m st :: c)) id = some ⟨t, reports id b ++ m.toList, st⟩ := by
  have h0 : (Jobs.none.run (a ++ [.start id t])) id = some ⟨t, [], .running⟩ := by
    simp [Jobs.run, Jobs.step, Jobs.start]
  have h1 := run_running b h0 h
  have h2 : (((Jobs.none.run (a ++ [.start id t])).run b).run [.finish id m st]) id = some ⟨t, reports id b ++ m.toList, st⟩ := by
    have e : ∀ j : Jobs R, j.run [.finish id m st] = j.finish id m st := fun _ => rfl
    rw [e]
    simp only [Jobs.finish, h1]
    simp
  have h3 := run_keep c h2 hc
  simpa only [← run_append, List.append_assoc, List.singleton_append, List.cons_append, List.nil_append] using h3

/-- C73: the first request after the end of a job gets its result. -/
theorem C73_delivered (id : Nat) (t : JobType) (m : Option Str) (st : Status R) (a b c : List (Ev R))
    (h : ∀ e ∈ b, ¬ e.isStart id ∧ ¬ e.isFinish id)
    (hc : ∀ e ∈ c, ¬ e.isStart id ∧ ¬ e.isFinish id ∧ ¬ e.isMessage id ∧ ¬ e.isPoll id) :
    ((Jobs.none.run (a ++ .start id t :: b ++ .finish id m st :: c)).poll id).1 = answer (reports id b ++ m.toList) st := by
  have := after_finish id t m st a b c h hc
  simp only [Jobs.poll, this]
  cases st with
  | running => rfl
  | failed => rfl
  | finished r => cases r <;> rfl

/-- C73: the result is given once: after that the job is not found, unless its number is used again. -/
theorem C73_once (id : Nat) (t : JobType) (m : Option Str) (st : Status R) (hst : st ≠ .running) (a b c d : List (Ev R))
    (h : ∀ e ∈ b, ¬ e.isStart id ∧ ¬ e.isFinish id)
    (hc : ∀ e ∈ c, ¬ e.isStart id ∧ ¬ e.isFinish id ∧ ¬ e.isMessage id ∧ ¬ e.isPoll id) (hd : ∀ e ∈ d, ¬ e.isStart id) :
    ((Jobs.none.run (a ++ .start id t :: b ++ .finish id m st :: c ++ .poll id :: d)).poll id).1 = .notFound := by
  have h1 := after_finish id t m st a b c h hc
  have h2 : (Jobs.none.run (a ++ .start id t :: b ++ .finish id m st :: c ++ .poll id :: d)) id = Option.none := by
    rw [run_append]
    apply run_absent d _ hd
    simp only [Jobs.step, Jobs.poll, h1]
    cases st with
    | running => exact absurd rfl hst
    | failed => simp
    | finished r => cases r <;> simp
  simp only [Jobs.poll, h2]

end Web
