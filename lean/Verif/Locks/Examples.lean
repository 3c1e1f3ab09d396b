import Verif.Locks.Props
/-!
# C63: examples, and the callback of the export
-/
namespace LocksEx
open Locks

/-- The actions of a query on a corpus that is loaded with all needed components. -/
def queryActs : List Act :=
  [.acq .read .cache, .rel .cache, .acq .write .cache, .rel .cache,
   .acq .read (.entry 0), .rel (.entry 0),
   .acq .read (.entry 0), .rel (.entry 0),
   .acq .read (.entry 0), .rel (.entry 0)]

/-- The actions of deleting the same corpus. -/
def deleteActs : List Act :=
  [.acq .write .cache, .acq .write (.entry 0), .rel (.entry 0), .rel .cache]

theorem run_read (m : Mode) (l : Lock) : Run (.scope m l .skip) [.acq m l, .rel l] true :=
  Run.scope Run.skip

theorem run_getEntry : Run getEntry
    [.acq .read .cache, .rel .cache, .acq .write .cache, .rel .cache] true :=
  Run.seq (run_read _ _) (run_read _ _)

theorem run_getLoaded : Run getLoadedEntry
    [.acq .read .cache, .rel .cache, .acq .write .cache, .rel .cache,
     .acq .read (.entry 0), .rel (.entry 0)] true :=
  Run.seq run_getEntry (Run.seq (t := [.acq .read (.entry 0), .rel (.entry 0)]) (u := [])
    (Run.some (i := 0) (run_read _ _)) (Run.altR Run.skip))

theorem run_count : Run Op.count.prog queryActs true := by
  have h : Run (withPreparedQuery readEntry) queryActs true :=
    Run.seq run_getLoaded (Run.some (i := 0)
      (Run.seq (run_read _ _) (Run.seq (t := []) (Run.altR Run.skip) (run_read _ _))))
  have := Run.many h (Run.manyEnd (withPreparedQuery readEntry))
  rwa [List.append_nil] at this

theorem run_delete : Run Op.delete.prog deleteActs true := by
  have h : Run (.alt (.some writeEntry) .skip)
      [.acq .write (.entry 0), .rel (.entry 0)] true :=
    Run.altL (Run.some (i := 0) (run_read _ _))
  exact Run.scope h

theorem client_one {o : Op} {t : List Act} {b : Bool} (h : Run o.prog t b) :
    Client ([o].map Op.prog) t := by
  have := Client.cons h Client.nil
  rwa [List.append_nil] at this

/-- A query and a deletion of the same corpus. -/
def two : List Thread := [⟨[], queryActs⟩, ⟨[], deleteActs⟩]

/-- The hypotheses of C63 are met by a query that runs together with a deletion. -/
theorem C63_nonvacuous : Clients two := by
  intro t ht
  rcases List.mem_cons.1 ht with rfl | ht
  · exact ⟨rfl, _, client_one run_count⟩
  · rcases List.mem_cons.1 ht with rfl | ht
    · exact ⟨rfl, _, client_one run_delete⟩
    · simp at ht

/-- A step of the first of two threads. -/
theorem left {h : List (Mode × Lock)} {a : Act} {r : List Act} {x : Thread}
    (hg : Grants [⟨h, a :: r⟩, x] a) : Step [⟨h, a :: r⟩, x] [⟨a.apply h, r⟩, x] :=
  Step.mk (as := []) hg

/-- A step of the second of two threads. -/
theorem right {h : List (Mode × Lock)} {a : Act} {r : List Act} {x : Thread}
    (hg : Grants [x, ⟨h, a :: r⟩] a) : Step [x, ⟨h, a :: r⟩] [x, ⟨a.apply h, r⟩] :=
  Step.mk (as := [x]) (bs := []) hg

/-- In this state the deletion has to wait (it has the cache, but not the entry) and the query can
go on: the theorem is about states with threads that are blocked. -/
theorem C63_blocked_nonvacuous : ∃ q d, Steps two [q, d] ∧
    (∃ r, d.todo = .acq .write (.entry 0) :: r) ∧
    ¬ Grants [q, d] (.acq .write (.entry 0)) ∧ (.write, .cache) ∈ d.held ∧ q.todo ≠ [] := by
  refine ⟨⟨[(.read, .entry 0)], [.rel (.entry 0)]⟩,
    ⟨[(.write, .cache)], [.acq .write (.entry 0), .rel (.entry 0), .rel .cache]⟩,
    ?_, ⟨_, rfl⟩, ?_, by simp, by simp⟩
  · refine .tail (.tail (.tail (.tail (.tail (.tail (.tail (.tail (.tail (.tail (.refl _)
      (left ?_)) (left ?_)) (left ?_)) (left ?_)) (left ?_)) (left ?_)) (left ?_)) (left ?_))
      (left ?_)) (right ?_)
    all_goals simp [Grants, Holds, Busy, Act.apply]
  · simp [Grants, Holds, Busy]

/-! ## The progress callback of an export runs while the guard of the entry is held -/

/-- Export with a callback that asks the storage for the list of corpora. -/
def callbackActs : List Act :=
  [.acq .read .cache, .rel .cache, .acq .write .cache, .rel .cache,
   .acq .read (.entry 0), .rel (.entry 0),
   .acq .write (.entry 0), .rel (.entry 0),
   .acq .read (.entry 0),
   .acq .read .cache, .rel .cache, .acq .write .cache, .rel .cache,
   .rel (.entry 0)]

theorem run_callback : Run (exportWithCallback getEntry) callbackActs true :=
  Run.seq run_getLoaded (Run.some (i := 0) (Run.seq (run_read _ _) (Run.scope run_getEntry)))

/-- **C63** does not extend to the callbacks of the caller: if the progress callback of
`export_to_zip` calls a function like `info` on the same storage while another thread deletes the
exported corpus, both wait for ever, whatever the priority of readers and writers is. -/
theorem C63_callback_fails : ∃ acts, Run (exportWithCallback getEntry) acts true ∧
    ∃ e d, Steps [⟨[], acts⟩, ⟨[], deleteActs⟩] [e, d] ∧
      (∃ a r, e.todo = a :: r ∧ ¬ Grants [e, d] a) ∧
      (∃ a r, d.todo = a :: r ∧ ¬ Grants [e, d] a) := by
  refine ⟨_, run_callback, ⟨[(.read, .entry 0)],
      [.acq .read .cache, .rel .cache, .acq .write .cache, .rel .cache, .rel (.entry 0)]⟩,
    ⟨[(.write, .cache)], [.acq .write (.entry 0), .rel (.entry 0), .rel .cache]⟩, ?_, ?_, ?_⟩
  · refine .tail (.tail (.tail (.tail (.tail (.tail (.tail (.tail (.tail (.tail (.refl _)
      (left ?_)) (left ?_)) (left ?_)) (left ?_)) (left ?_)) (left ?_)) (left ?_)) (left ?_))
      (left ?_)) (right ?_)
    all_goals simp [Grants, Holds, Busy, Act.apply]
  · exact ⟨_, _, rfl, by simp [Grants, Holds]⟩
  · exact ⟨_, _, rfl, by simp [Grants, Holds, Busy]⟩

end LocksEx
