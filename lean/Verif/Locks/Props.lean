import Verif.Locks.Lemmas
/-!
# C63: the locks of the corpus storage cannot deadlock
-/
namespace Locks

/-- Threads at the beginning: each one will call functions of the storage one after the other and
holds no guard.  (The background thread of an update is one of the threads: it can run at any
time.) -/
def Clients (ts : List Thread) : Prop :=
  ∀ t ∈ ts, t.held = [] ∧ ∃ ops : List Op, Client (ops.map Op.prog) t.todo

theorem Clients.ok {ts : List Thread} (h : Clients ts) : ∀ x ∈ ts, x.Ok := by
  intro x hx
  obtain ⟨h1, ops, hc⟩ := h x hx
  unfold Thread.Ok
  rw [h1]
  refine hc.disc fun p hp => ?_
  obtain ⟨o, _, rfl⟩ := List.mem_map.1 hp
  exact o.ordered

/-- **C63**, no deadlock.  For any number of threads that call any functions of the storage, in
every reachable state: as long as some thread is not finished, there is a thread whose next
request is granted, even if waiting writers have priority over readers. -/
theorem C63_no_deadlock {s ts : List Thread} (h0 : Clients s) (hr : Steps s ts)
    {t : Thread} (ht : t ∈ ts) (hn : t.todo ≠ []) :
    ∃ u ∈ ts, ∃ a r, u.todo = a :: r ∧ MustGrant ts a :=
  progress (hr.ok h0.ok) ht hn

/-- **C63**, every call ends: every execution has at most as many steps as there are actions, and
from every reachable state all threads can finish; then nobody holds a guard. -/
theorem C63_finish {s ts : List Thread} (h0 : Clients s) (hr : Steps s ts) :
    ∃ us, Steps ts us ∧ ∀ t ∈ us, t.todo = [] ∧ t.held = [] :=
  finish _ rfl (hr.ok h0.ok)

/-- **C63**, each step brings the execution nearer to its end, so there is no infinite one. -/
theorem C63_decreases {ts us : List Thread} (h : Step ts us) :
    (us.map fun t => t.todo.length).sum < (ts.map fun t => t.todo.length).sum := by
  have := h.work
  unfold work at this
  omega

/-- **C63**, an exclusive guard excludes all other guards of the same lock. -/
theorem C63_exclusive {s as bs cs : List Thread} {t u : Thread} (h0 : Clients s)
    (hr : Steps s (as ++ t :: bs ++ u :: cs)) {l : Lock} {m : Mode}
    (hw : (.write, l) ∈ t.held ∧ (m, l) ∈ u.held ∨ (m, l) ∈ t.held ∧ (.write, l) ∈ u.held) :
    False := by
  have hx : Exclusive s := by
    refine (List.pairwise_of_forall_mem_list ?_)
    intro x hx y _ l m m' hm
    rw [(h0 x hx).1] at hm
    simp at hm
  have := hr.exclusive hx
  unfold Exclusive at this
  rw [List.pairwise_append] at this
  have := this.2.2 t (by simp) u (by simp) l
  rcases hw with ⟨h1, h2⟩ | ⟨h1, h2⟩
  · have := this _ _ h1 h2
    simp at this
  · have := this _ _ h1 h2
    simp at this

end Locks
