import Verif.Update.Model
import Mathlib.Data.List.Induction

/-!
# Properties of the update log (C21)
-/

set_option linter.unusedSimpArgs false

namespace GraphUpdate

variable {Ev : Type}

/-- What a client can do with a log. -/
inductive Op (Ev : Type)
  | add (e : Ev)
  | iter
  | saveLoad

def step (u : GraphUpdate Ev) : Op Ev → Option (GraphUpdate Ev)
  | .add e => u.addEvent e
  | .iter => some u.iter.1
  | .saveLoad => u.saveLoad

def run (ops : List (Op Ev)) : Option (GraphUpdate Ev) := ops.foldlM step new

/-- Specification: the added events. -/
def added (ops : List (Op Ev)) : List Ev := ops.filterMap fun o => match o with
  | .add e => some e
  | _ => none

/-- The events numbered from `k + 1`. -/
def number (k : Nat) : List Ev → List (Nat × Ev)
  | [] => []
  | e :: r => (k + 1, e) :: number (k + 1) r

/-- All entries of a log, whatever the state of the change sets. -/
def entries (sets : List (ChangeSet Ev)) : List (Nat × Ev) := sets.flatMap fun c => match c with
  | .inProgress t => t
  | .finished t => t

theorem number_append (k : Nat) (l : List Ev) (e : Ev) : number k (l ++ [e]) = number k l ++ [(k + l.length + 1, e)] := by
  induction l generalizing k with
  | nil => rfl
  | cons x l ih =>
    simp only [List.cons_append, number, ih, List.length_cons]
    rw [show k + 1 + l.length + 1 = k + (l.length + 1) + 1 by omega]

theorem number_last (k : Nat) (l : List Ev) (x : Nat × Ev) (h : (number k l).getLast? = some x) : x.1 = k + l.length := by
  induction l generalizing k with
  | nil => simp [number] at h
  | cons e l ih =>
    unfold number at h
    cases l with
    | nil => simp [number] at h; subst h; rfl
    | cons y l =>
      rw [List.getLast?_cons] at h
      have : (number (k + 1) (y :: l)).getLast? = some x := by
        unfold number at h ⊢
        rw [List.getLast?_cons] at h ⊢
        simpa using h
      have := ih (k + 1) this
      simp only [List.length_cons] at this ⊢
      omega

theorem collect_all (n : Nat) : ∀ (its : List (List (Nat × Ev))), (its.map List.length).sum ≤ n →
    collect (n + 1) its = its.flatten := by
  have hflat : ∀ l : List (List (Nat × Ev)), (l.filter (fun t => !t.isEmpty)).flatten = l.flatten := by
    intro l
    induction l with
    | nil => rfl
    | cons t l ih =>
      cases t with
      | nil => simpa using ih
      | cons x t => simp [ih]
  have hlen : ∀ l : List (List (Nat × Ev)), l.flatten.length = (l.map List.length).sum := by
    intro l; rw [List.length_flatten]
  induction n with
  | zero =>
    intro its h
    have h0 : its.flatten = [] := List.length_eq_zero_iff.1 (by rw [hlen]; omega)
    have hf : its.filter (fun t => !t.isEmpty) = [] := by
      rw [List.filter_eq_nil_iff]
      intro t ht
      have := List.flatten_eq_nil_iff.1 h0 t ht
      simp [this]
    simp [collect, next, hf, h0]
  | succ n ih =>
    intro its h
    unfold collect next
    cases hf : its.filter (fun t => !t.isEmpty) with
    | nil => rw [← hflat, hf]; rfl
    | cons t r =>
      cases t with
      | nil =>
        have : ([] : List (Nat × Ev)) ∈ its.filter (fun t => !t.isEmpty) := by rw [hf]; simp
        rw [List.mem_filter] at this
        simp at this
      | cons x t =>
        have e : its.flatten = x :: (t :: r).flatten := by rw [← hflat, hf]; rfl
        simp only
        rw [ih (t :: r), e]
        have h1 := congrArg List.length e
        rw [hlen, List.length_cons, hlen] at h1
        omega

theorem iter_events (u : GraphUpdate Ev) : u.iter.2 = entries u.sets ∧ entries u.iter.1.sets = entries u.sets := by
  have h1 : (iterators (finishAll u.sets)).flatten = entries u.sets := by
    unfold iterators finishAll entries
    induction u.sets with
    | nil => rfl
    | cons c l ih => cases c <;> simp_all
  refine ⟨?_, ?_⟩
  · unfold iter
    simp only
    rw [collect_all _ _ (Nat.le_refl _), h1]
  · unfold iter finishAll entries
    simp only
    induction u.sets with
    | nil => rfl
    | cons c l ih => cases c <;> simp_all

theorem current_entries (sets : List (ChangeSet Ev)) : entries (current sets).1 ++ (current sets).2 = entries sets := by
  unfold current
  cases h : sets.getLast? with
  | none => simp
  | some c =>
    cases c with
    | finished t => simp
    | inProgress t =>
      obtain ⟨ys, rfl⟩ := List.getLast?_eq_some_iff.1 h
      simp [entries]

theorem getLast?_append_right (a b : List (Nat × Ev)) (x : Nat × Ev) (h : b.getLast? = some x) : (a ++ b).getLast? = some x := by
  rw [List.getLast?_append, h]; rfl

theorem tableAdd_number (t l : List (Nat × Ev)) (evs : List Ev) (e : Ev) (h : l ++ t = number 0 evs) :
    tableAdd t (evs.length + 1) e = some (t ++ [(evs.length + 1, e)]) := by
  unfold tableAdd
  cases hl : t.getLast? with
  | none =>
    rw [List.getLast?_eq_none_iff] at hl
    subst hl
    rfl
  | some x =>
    have := number_last 0 evs x (by rw [← h]; exact getLast?_append_right l t x hl)
    simp only
    rw [if_pos (by omega)]

theorem deserialize_number (evs : List Ev) :
    (number 0 evs).foldlM (fun (acc : List (Nat × Ev) × Nat) (x : Nat × Ev) => (tableAdd acc.1 x.1 x.2).map fun t => (t, x.1)) ([], 0)
      = some (number 0 evs, evs.length) := by
  induction evs using List.reverseRecOn with
  | nil => rfl
  | append_singleton evs e ih =>
    rw [number_append, List.foldlM_append, ih]
    simp only [Option.bind_eq_bind, Option.bind_some, List.foldlM_cons, List.foldlM_nil, Nat.zero_add]
    rw [tableAdd_number (number 0 evs) [] evs e (by simp)]
    simp [pure]

/-- The state after a history. -/
def Holds (u : GraphUpdate Ev) (evs : List Ev) : Prop := entries u.sets = number 0 evs ∧ u.counter = evs.length

theorem step_holds {u : GraphUpdate Ev} {evs : List Ev} (h : Holds u evs) (op : Op Ev) :
    ∃ u', u.step op = some u' ∧ Holds u' (evs ++ added [op]) := by
  obtain ⟨h1, h2⟩ := h
  cases op with
  | add e =>
    have hc := current_entries u.sets
    rw [h1] at hc
    have ht := tableAdd_number (current u.sets).2 (entries (current u.sets).1) evs e hc
    refine ⟨⟨(current u.sets).1 ++ [.inProgress ((current u.sets).2 ++ [(evs.length + 1, e)])], u.counter + 1⟩, ?_, ?_, ?_⟩
    · simp only [step, addEvent, h2, ht]
      rfl
    · show entries ((current u.sets).1 ++ _) = _
      have : ∀ (a : List (ChangeSet Ev)) t, entries (a ++ [.inProgress t]) = entries a ++ t := by
        intro a t; simp [entries]
      rw [this, ← List.append_assoc, hc]
      simp [added, number_append]
    · simp [added, h2]
  | iter =>
    refine ⟨_, rfl, ?_, ?_⟩
    · rw [(iter_events u).2, h1]; simp [added]
    · simp [added, iter, h2]
  | saveLoad =>
    simp only [step, saveLoad, (iter_events u).1, h1, deserialize, deserialize_number, Option.map_some]
    refine ⟨_, rfl, ?_, ?_⟩
    · simp [finishAll, entries, added]
    · simp [added]

theorem run_holds (ops : List (Op Ev)) : ∃ u, run ops = some u ∧ Holds u (added ops) := by
  induction ops using List.reverseRecOn with
  | nil => exact ⟨new, rfl, rfl, rfl⟩
  | append_singleton ops op ih =>
    obtain ⟨u, h1, h2⟩ := ih
    obtain ⟨u', h3, h4⟩ := step_holds h2 op
    refine ⟨u', ?_, ?_⟩
    · unfold run at h1 ⊢
      rw [List.foldlM_append, h1]
      simp [h3]
    · have : added (ops ++ [op]) = added ops ++ added [op] := by simp [added]
      rw [this]; exact h4

/-- C21: after any history of adding, iterating and serialising, iterating yields exactly the added events in insertion order
with the ids 1, 2, …, the length is their number, and the log is empty iff there are none.  No step fails. -/
theorem C21_update_log (ops : List (Op Ev)) : ∃ u, run ops = some u ∧
    u.iter.2.map Prod.snd = added ops ∧ u.iter.2.map Prod.fst = List.range' 1 (added ops).length ∧
    u.len = (added ops).length ∧ (u.isEmpty = true ↔ added ops = []) := by
  obtain ⟨u, h1, h2, h3⟩ := run_holds ops
  refine ⟨u, h1, ?_, ?_, h3, ?_⟩
  · rw [(iter_events u).1, h2]
    generalize added ops = evs
    suffices H : ∀ k, (number k evs).map Prod.snd = evs by exact H 0
    induction evs with
    | nil => intro k; rfl
    | cons e r ih => intro k; simp [number, ih]
  · rw [(iter_events u).1, h2]
    generalize added ops = evs
    suffices H : ∀ k, (number k evs).map Prod.fst = List.range' (k + 1) evs.length by exact H 0
    induction evs with
    | nil => intro k; rfl
    | cons e r ih => intro k; simp [number, ih, List.range'_succ]
  · unfold isEmpty
    rw [h3]
    simp

/-- Adding, iterating in between, saving and adding again. -/
theorem C21_nonvacuous : (run ([.add 7, .iter, .add 8, .saveLoad, .add 7] : List (Op Nat))).map (fun u => u.iter.2) =
    some [(1, 7), (2, 8), (3, 7)] := by decide

end GraphUpdate
