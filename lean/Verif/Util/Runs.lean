import Mathlib.Data.List.Basic

/-!
# Iterators

An iterator is a state and a function computing the next item and the next state (`Iterator::next`).
-/

variable {σ α β : Type}

/-- Calling `next` again and again from `s` gives exactly the items of the list and then the end. -/
inductive Runs (next : σ → Option α × σ) : σ → List α → Prop
  | done {s s' : σ} : next s = (none, s') → Runs next s []
  | step {s s' : σ} {a : α} {l : List α} : next s = (some a, s') → Runs next s' l → Runs next s (a :: l)

/-- The items an iterator gives are determined by its state. -/
theorem Runs.unique {next : σ → Option α × σ} {s : σ} {l l' : List α} (h : Runs next s l) (h' : Runs next s l') : l = l' := by
  induction h generalizing l' with
  | done h =>
    cases h' with
    | done _ => rfl
    | step h2 _ => rw [h] at h2; simp at h2
  | step h _ ih =>
    cases h' with
    | done h2 => rw [h] at h2; simp at h2
    | step h2 hr =>
      rw [h] at h2
      simp only [Prod.mk.injEq, Option.some.injEq] at h2
      obtain ⟨rfl, rfl⟩ := h2
      rw [ih hr]

/-- A state that gives the same answer as another one gives the same items. -/
theorem Runs.of_next_eq {next : σ → Option α × σ} {s t : σ} {l : List α} (he : next s = next t) (h : Runs next t l) : Runs next s l := by
  cases h with
  | done h => exact .done (he.trans h)
  | step h hr => exact .step (he.trans h) hr
