import Verif.LockFile.Props

/-!
# Two storages for one directory (C118)
-/

namespace LockFile

/-- Process 0 closes its storage; before it removes the lock file, process 1 locks it; process 2 then creates and locks a new one. -/
def race : List Act := [.open_ 0, .lock 0, .unlock 0, .open_ 1, .lock 1, .check 0, .remove 0, .open_ 2, .lock 2]

/-- The same with process 1 opening the file before process 0 closes its storage and locking it after it was removed. -/
def race' : List Act := [.open_ 0, .lock 0, .open_ 1, .unlock 0, .check 0, .remove 0, .lock 1, .open_ 2, .lock 2]

/-- **C118 fails**: two processes have a storage for the same directory at the same time. -/
theorem C118_exclusive_fails : ((run init race).map fun s => (s.phase 1, s.phase 2)) = some (.open_ 0, .open_ 1) ∧
    ((run init race').map fun s => (s.phase 1, s.phase 2)) = some (.open_ 0, .open_ 1) := by decide +kernel

/-- **C118 fails**: a closed storage removes the lock file of the one that is in use. -/
theorem C118_removed_fails : ((run init (race.take 7)).map fun s => (s.phase 1, s.path)) = some (.open_ 0, none) := by decide +kernel

/-- Process 0 has a storage, process 1 is refused, process 0 closes it, process 2 gets one. -/
def fine : List Act := [.open_ 0, .lock 0, .open_ 1, .lock 1, .unlock 0, .check 0, .remove 0, .open_ 2, .lock 2]

theorem C118_nonvacuous : (∃ s, run init fine = some s ∧ s.InUse 2 ∧ s.phase 1 = .done ∧ s.phase 3 = .idle) ∧
    ∀ n s', run init (fine.take n) = some s' → ¬ s'.Overlap := by
  refine ⟨⟨_, rfl, ⟨1, rfl⟩, rfl, rfl⟩, ?_⟩
  have key : ∀ n, n < 10 → ∀ s', run init (fine.take n) = some s' → ¬ s'.Overlap := by
    intro n hn s' h
    have hn' : n = 0 ∨ n = 1 ∨ n = 2 ∨ n = 3 ∨ n = 4 ∨ n = 5 ∨ n = 6 ∨ n = 7 ∨ n = 8 ∨ n = 9 := by omega
    rcases hn' with rfl | rfl | rfl | rfl | rfl | rfl | rfl | rfl | rfl | rfl <;>
    · simp only [fine, List.take_succ_cons, List.take_zero, List.take_nil] at h
      cases h
      rintro ⟨i, j, ⟨f, hi⟩, hj⟩
      simp only [State.Closing, goto_phase, give_phase, init, State.goto, State.give] at hi hj
      grind
  intro n s' h
  by_cases hn : n < 10
  · exact key n hn s' h
  · rw [List.take_of_length_le (by simp [fine]; omega)] at h
    exact key 9 (by omega) s' h

end LockFile
