import Mathlib.Data.List.Basic

/-!
# C54: closing the corpus storage waits for the background writers

The threads that use the counter `active_background_workers` of the corpus storage: calls of `apply_update`, the background writers
they start, and the thread that drops the storage.  The mutex and the condition variable have the usual semantics, with spurious
wake-ups.  One step is what happens between two operations on the mutex, the condition variable or the counter.

Simplified: writing a corpus is one step of a background writer, and whether it succeeds is left out, since errors are only logged.
Waiting for the lock of the cache entry is left out: after the drop began there is nobody left who holds it exclusively.
-/

set_option linter.unusedSimpArgs false
set_option linter.unusedVariables false
set_option linter.unusedTactic false
set_option linter.unreachableTactic false
set_option linter.unnecessarySeqFocus false

namespace Closing

/-- A call of `apply_update` (corpusstorage.rs 1413-1435): updating the graph, before `lock.lock()` (1426), holding the mutex before and
after the increment (1427), before `thread::spawn` (1429), and returned. -/
inductive CPc
  | update | want | inc | rel | spawn | returned
  deriving DecidableEq

/-- A background writer (`sync_wal_updates_in_background`, corpusstorage.rs 2774-2793): before `db_entry.read()` (2779), before writing
(2782), before `lock.lock()` (2789), holding the mutex before the decrement (2790), before `notify_all` (2791) and afterwards,
finished, and ended without decrementing the counter (a panic, or an error in 2779). -/
inductive WPc
  | read | sync | want | dec | notify | rel | finished | lost
  deriving DecidableEq

/-- Dropping the storage (corpusstorage.rs 2563-2573): not called, before `lock.lock()` (2567), holding the mutex before the condition of
the loop (2568), waiting in `cvar.wait` (2573), woken up and before locking the mutex again, and after the loop. -/
inductive DPc
  | idle | want | check | waiting | woken | returned
  deriving DecidableEq

inductive Owner
  | client (i : Nat)
  | worker (i : Nat)
  | closer
  deriving DecidableEq

structure State where
  count : Nat
  mutex : Option Owner
  poisoned : Bool
  clients : List CPc
  workers : List WPc
  closer : DPc

/-- `call` is a new call of `apply_update`, `client` and `worker` a step of a thread, where `fail` means that the update fails or the
background writer can not lock the entry or panics, `close` a step of the dropping thread and `spurious` a spurious wake-up. -/
inductive Act
  | call
  | client (i : Nat) (fail : Bool)
  | worker (i : Nat) (fail : Bool)
  | close
  | spurious
  deriving DecidableEq

/-- The step of a client; `none` if it has to wait or has returned. -/
def stepClient (s : State) (i : Nat) (fail : Bool) : CPc → Option State
  | .update => some { s with clients := s.clients.set i (if fail then .returned else .want) }
  | .want =>
    if s.poisoned then some { s with clients := s.clients.set i .returned }
    else if s.mutex = none then some { s with mutex := some (.client i), clients := s.clients.set i .inc } else none
  | .inc => some { s with count := s.count + 1, clients := s.clients.set i .rel }
  | .rel => some { s with mutex := none, clients := s.clients.set i .spawn }
  | .spawn => some { s with clients := s.clients.set i .returned, workers := s.workers ++ [.read] }
  | .returned => none

/-- The step of a background writer.  Decrementing zero would panic while the mutex is locked. -/
def stepWorker (s : State) (i : Nat) (fail : Bool) : WPc → Option State
  | .read => some { s with workers := s.workers.set i (if fail then .lost else .sync) }
  | .sync => some { s with workers := s.workers.set i (if fail then .lost else .want) }
  | .want =>
    if s.poisoned then some { s with workers := s.workers.set i .lost }
    else if s.mutex = none then some { s with mutex := some (.worker i), workers := s.workers.set i .dec } else none
  | .dec =>
    if s.count = 0 then some { s with poisoned := true, mutex := none, workers := s.workers.set i .lost }
    else some { s with count := s.count - 1, workers := s.workers.set i .notify }
  | .notify =>
    some { s with workers := s.workers.set i .rel, closer := if s.closer = .waiting then .woken else s.closer }
  | .rel => some { s with mutex := none, workers := s.workers.set i .finished }
  | .finished => none
  | .lost => none

/-- The step of the dropping thread.  It starts only if there is no call of `apply_update` any more: these borrow the storage.  If the
mutex is poisoned, `unwrap` panics and there are no more steps. -/
def stepCloser (s : State) : Option State :=
  match s.closer with
  | .idle => if ∀ c ∈ s.clients, c = .returned then some { s with closer := .want } else none
  | .want => if s.mutex = none ∧ s.poisoned = false then some { s with mutex := some .closer, closer := .check } else none
  | .check => if s.count > 0 then some { s with mutex := none, closer := .waiting } else some { s with mutex := none, closer := .returned }
  | .waiting => none
  | .woken => if s.mutex = none ∧ s.poisoned = false then some { s with mutex := some .closer, closer := .check } else none
  | .returned => none

def step (s : State) : Act → Option State
  | .call => if s.closer = .idle then some { s with clients := s.clients ++ [.update] } else none
  | .client i fail =>
    match s.clients[i]? with
    | some c => stepClient s i fail c
    | none => none
  | .worker i fail =>
    match s.workers[i]? with
    | some c => stepWorker s i fail c
    | none => none
  | .close => stepCloser s
  | .spurious => if s.closer = .waiting then some { s with closer := .woken } else none

def run : State → List Act → Option State
  | s, [] => some s
  | s, a :: r => (step s a).bind fun s => run s r

def init : State := ⟨0, none, false, [], [], .idle⟩

/-- Reachable states. -/
def Reachable (s : State) : Prop := ∃ l, run init l = some s

/-! ### Counting -/

def CPc.counted : CPc → Nat
  | .rel => 1
  | .spawn => 1
  | _ => 0

def WPc.counted : WPc → Nat
  | .notify => 0
  | .rel => 0
  | .finished => 0
  | _ => 1

theorem sum_set {α : Type} (f : α → Nat) (l : List α) (i : Nat) (x y : α) (h : l[i]? = some x) :
    ((l.set i y).map f).sum + f x = (l.map f).sum + f y := by
  induction l generalizing i with
  | nil => simp at h
  | cons a r ih =>
    cases i with
    | zero =>
      simp only [List.getElem?_cons_zero, Option.some.injEq] at h
      subst h
      simp only [List.set_cons_zero, List.map_cons, List.sum_cons]
      omega
    | succ k =>
      simp only [List.getElem?_cons_succ] at h
      have := ih k h
      simp only [List.set_cons_succ, List.map_cons, List.sum_cons]
      omega

theorem le_sum {α : Type} (f : α → Nat) (l : List α) {i : Nat} {x : α} (h : l[i]? = some x) : f x ≤ (l.map f).sum := by
  induction l generalizing i with
  | nil => simp at h
  | cons a r ih =>
    rw [List.map_cons, List.sum_cons]
    cases i with
    | zero =>
      simp only [List.getElem?_cons_zero, Option.some.injEq] at h
      subst h
      omega
    | succ k =>
      simp only [List.getElem?_cons_succ] at h
      have := ih h
      omega

theorem get_set {α : Type} {l : List α} {i : Nat} {x : α} (h : l[i]? = some x) (y : α) (k : Nat) :
    (l.set i y)[k]? = if k = i then some y else l[k]? := by
  by_cases e : k = i
  · subst e
    rw [if_pos rfl, List.getElem?_set_self (List.getElem?_eq_some_iff.1 h).1]
  · rw [if_neg e, List.getElem?_set_ne (fun h => e h.symm)]

/-- Whether the thread holds the mutex. -/
def CPc.holds : CPc → Bool
  | .inc => true
  | .rel => true
  | _ => false

def WPc.holds : WPc → Bool
  | .dec => true
  | .notify => true
  | .rel => true
  | _ => false

structure Inv (s : State) : Prop where
  count : s.count = (s.clients.map CPc.counted).sum + (s.workers.map WPc.counted).sum
  cown : ∀ i c, s.clients[i]? = some c → (c.holds = true ↔ s.mutex = some (.client i))
  wown : ∀ i c, s.workers[i]? = some c → (c.holds = true ↔ s.mutex = some (.worker i))
  down : s.closer = .check ↔ s.mutex = some .closer
  cvalid : ∀ i, s.mutex = some (.client i) → i < s.clients.length
  wvalid : ∀ i, s.mutex = some (.worker i) → i < s.workers.length
  alone : s.closer ≠ .idle → ∀ c ∈ s.clients, c = .returned
  wake : s.closer = .waiting → s.count > 0 ∨ ∃ i : Nat, s.workers[i]? = some WPc.notify
  done : s.closer = .returned → ∀ w ∈ s.workers, w = .finished
  sound : s.poisoned = false

theorem inv_init : Inv init := by
  refine ⟨rfl, ?_, ?_, ?_, ?_, ?_, ?_, ?_, ?_, rfl⟩ <;> simp [init]

/-- A thread that takes part in the count keeps it above zero. -/
theorem Inv.pos {s : State} (h : Inv s) {i : Nat} {w : WPc} (hw : s.workers[i]? = some w) (hc : w.counted = 1) : s.count > 0 := by
  have := le_sum WPc.counted s.workers hw
  have := h.count
  omega

theorem inv_client {s s' : State} (h : Inv s) {i : Nat} {c : CPc} (hc : s.clients[i]? = some c) (fail : Bool)
    (hs : stepClient s i fail c = some s') : Inv s' := by
  have hlen := (List.getElem?_eq_some_iff.1 hc).1
  have hidle : c ≠ .returned → s.closer = .idle := by
    intro hr
    by_contra hn
    exact hr (h.alone hn c (List.mem_of_getElem? hc))
  have hnret : c ≠ .returned := by
    rintro rfl
    simp [stepClient] at hs
  have hcl := hidle hnret
  -- a new state of the client without a change of the mutex
  have plain : ∀ (c' : CPc) (n : Nat), n + c.counted = s.count + c'.counted → c'.holds = c.holds →
      Inv { s with count := n, clients := s.clients.set i c' } := by
    intro c' n hn hh
    have hsum := sum_set CPc.counted s.clients i c c' hc
    refine ⟨?_, ?_, h.wown, h.down, ?_, h.wvalid, fun hx => absurd hcl hx, ?_, h.done, by first | exact h.sound | rfl⟩
    · show n = ((s.clients.set i c').map CPc.counted).sum + (s.workers.map WPc.counted).sum
      have := h.count
      omega
    · intro k d hk
      change (s.clients.set i c')[k]? = some d at hk
      rw [get_set hc] at hk
      split at hk
      · rename_i e
        obtain rfl := Option.some.inj hk
        rw [e, hh]
        exact h.cown i c hc
      · exact h.cown k d hk
    · intro k hk
      show k < (s.clients.set i c').length
      rw [List.length_set]
      exact h.cvalid k hk
    · intro hx
      rw [show s.closer = .idle from hcl] at hx
      cases hx
  cases c with
  | returned => exact absurd rfl hnret
  | update =>
    simp only [stepClient, Option.some.injEq] at hs
    subst hs
    cases fail
    · exact plain .want s.count rfl rfl
    · exact plain .returned s.count rfl rfl
  | inc =>
    simp only [stepClient, Option.some.injEq] at hs
    subst hs
    exact plain .rel (s.count + 1) rfl rfl
  | want =>
    simp only [stepClient, h.sound, Bool.false_eq_true, if_false] at hs
    split at hs
    · rename_i hm
      simp only [Option.some.injEq] at hs
      subst hs
      have hsum := sum_set CPc.counted s.clients i .want .inc hc
      refine ⟨?_, ?_, ?_, ?_, ?_, ?_, fun hx => absurd hcl hx, ?_, h.done, by first | exact h.sound | rfl⟩
      · show s.count = ((s.clients.set i .inc).map CPc.counted).sum + (s.workers.map WPc.counted).sum
        have := h.count
        simp only [CPc.counted] at hsum
        omega
      · intro k d hk
        change (s.clients.set i .inc)[k]? = some d at hk
        rw [get_set hc] at hk
        split at hk
        · rename_i e
          obtain rfl := Option.some.inj hk
          rw [e]
          exact ⟨fun _ => rfl, fun _ => rfl⟩
        · rename_i e
          have := h.cown k d hk
          rw [hm] at this
          show _ ↔ some (Owner.client i) = some (Owner.client k)
          simp only [reduceCtorEq, iff_false] at this
          simp only [Option.some.injEq, Owner.client.injEq]
          exact ⟨fun hx => absurd hx this, fun hx => absurd hx.symm e⟩
      · intro k d hk
        have := h.wown k d hk
        rw [hm] at this
        show _ ↔ some (Owner.client i) = some (Owner.worker k)
        simpa using this
      · have := h.down
        rw [hm] at this
        show _ ↔ some (Owner.client i) = some Owner.closer
        simpa using this
      · intro k hk
        obtain rfl := Owner.client.inj (Option.some.inj hk)
        show i < (s.clients.set i .inc).length
        rw [List.length_set]; exact hlen
      · intro k hk; cases hk
      · intro hx
        rw [show s.closer = .idle from hcl] at hx
        cases hx
    · cases hs
  | rel =>
    simp only [stepClient, Option.some.injEq] at hs
    subst hs
    have hm : s.mutex = some (.client i) := (h.cown i .rel hc).1 rfl
    have hsum := sum_set CPc.counted s.clients i .rel .spawn hc
    refine ⟨?_, ?_, ?_, ?_, (fun k hk => by cases hk), (fun k hk => by cases hk), fun hx => absurd hcl hx, ?_, h.done, by first | exact h.sound | rfl⟩
    · show s.count = ((s.clients.set i .spawn).map CPc.counted).sum + (s.workers.map WPc.counted).sum
      have := h.count
      simp only [CPc.counted] at hsum
      omega
    · intro k d hk
      change (s.clients.set i .spawn)[k]? = some d at hk
      rw [get_set hc] at hk
      show _ ↔ none = some (Owner.client k)
      split at hk
      · obtain rfl := Option.some.inj hk
        simp [CPc.holds]
      · rename_i e
        have := h.cown k d hk
        rw [hm] at this
        simp only [Option.some.injEq, Owner.client.injEq] at this
        simp only [reduceCtorEq, iff_false]
        exact fun hx => e (this.1 hx).symm
    · intro k d hk
      have := h.wown k d hk
      rw [hm] at this
      show _ ↔ none = some (Owner.worker k)
      simpa using this
    · have := h.down
      rw [hm] at this
      show _ ↔ none = some Owner.closer
      simpa using this
    · intro hx
      rw [show s.closer = .idle from hcl] at hx
      cases hx
  | spawn =>
    simp only [stepClient, Option.some.injEq] at hs
    subst hs
    have hsum := sum_set CPc.counted s.clients i .spawn .returned hc
    have hmi : s.mutex ≠ some (.client i) := fun hm => by
      have := (h.cown i .spawn hc).2 hm
      cases this
    refine ⟨?_, ?_, ?_, h.down, ?_, ?_, fun hx => absurd hcl hx, ?_, ?_, h.sound⟩
    · show s.count = ((s.clients.set i .returned).map CPc.counted).sum + ((s.workers ++ [WPc.read]).map WPc.counted).sum
      have := h.count
      simp only [CPc.counted] at hsum
      rw [List.map_append, List.sum_append]
      simp only [List.map_cons, List.map_nil, List.sum_cons, List.sum_nil, WPc.counted]
      omega
    · intro k d hk
      change (s.clients.set i .returned)[k]? = some d at hk
      rw [get_set hc] at hk
      split at hk
      · rename_i e
        obtain rfl := Option.some.inj hk
        rw [e]
        exact ⟨(fun hx => by cases hx), fun hx => absurd hx hmi⟩
      · exact h.cown k d hk
    · intro k d hk
      change (s.workers ++ [WPc.read])[k]? = some d at hk
      by_cases hl : k < s.workers.length
      · rw [List.getElem?_append_left hl] at hk
        exact h.wown k d hk
      · have hd : d = .read := by
          rw [List.getElem?_append_right (by omega)] at hk
          have := List.mem_of_getElem? hk
          simpa using this
        subst hd
        refine ⟨(fun hx => by cases hx), fun hx => absurd (h.wvalid k hx) hl⟩
    · intro k hk
      show k < (s.clients.set i _).length
      rw [List.length_set]
      exact h.cvalid k hk
    · intro k hk
      show k < (s.workers ++ [_]).length
      rw [List.length_append]
      exact Nat.lt_of_lt_of_le (h.wvalid k hk) (Nat.le_add_right _ _)
    · intro hx
      rw [show s.closer = .idle from hcl] at hx
      cases hx
    · intro hx
      rw [show s.closer = .idle from hcl] at hx
      cases hx

theorem inv_worker {s s' : State} (h : Inv s) {i : Nat} {c : WPc} (hc : s.workers[i]? = some c) (fail : Bool)
    (hs : stepWorker s i fail c = some s') : Inv s' := by
  have hlen := (List.getElem?_eq_some_iff.1 hc).1
  have hnfin : c ≠ .finished := by
    rintro rfl
    simp [stepWorker] at hs
  have hret : s.closer ≠ .returned := fun hx => hnfin (h.done hx c (List.mem_of_getElem? hc))
  have hwl : ∀ (c' : WPc) k, k < s.workers.length → k < (s.workers.set i c').length := by
    intro c' k hk
    rw [List.length_set]; exact hk
  -- a new state of the writer that does not change the mutex, the counter or the dropping thread
  have plain : ∀ c' : WPc, c.counted = 1 → c'.counted = 1 → c.holds = false → c'.holds = false →
      Inv { s with workers := s.workers.set i c' } := by
    intro c' h1 h2 h3 h4
    have hsum := sum_set WPc.counted s.workers i c c' hc
    refine ⟨?_, h.cown, ?_, h.down, h.cvalid, fun k hk => hwl c' k (h.wvalid k hk), h.alone, ?_, fun hx => absurd hx hret, by first | exact h.sound | rfl⟩
    · show s.count = (s.clients.map CPc.counted).sum + ((s.workers.set i c').map WPc.counted).sum
      have := h.count
      omega
    · intro k d hk
      change (s.workers.set i c')[k]? = some d at hk
      rw [get_set hc] at hk
      split at hk
      · rename_i e
        obtain rfl := Option.some.inj hk
        have := h.wown i c hc
        rw [h3] at this
        rw [e, h4]
        exact this
      · exact h.wown k d hk
    · intro _
      exact .inl (h.pos hc h1)
  cases c with
  | finished => exact absurd rfl hnfin
  | lost => simp [stepWorker] at hs
  | read =>
    simp only [stepWorker, Option.some.injEq] at hs
    subst hs
    cases fail
    · exact plain .sync rfl rfl rfl rfl
    · exact plain .lost rfl rfl rfl rfl
  | sync =>
    simp only [stepWorker, Option.some.injEq] at hs
    subst hs
    cases fail
    · exact plain .want rfl rfl rfl rfl
    · exact plain .lost rfl rfl rfl rfl
  | want =>
    simp only [stepWorker, h.sound, Bool.false_eq_true, if_false] at hs
    split at hs
    · rename_i hm
      simp only [Option.some.injEq] at hs
      subst hs
      have hsum := sum_set WPc.counted s.workers i .want .dec hc
      refine ⟨?_, ?_, ?_, ?_, (fun k hk => by cases hk), ?_, h.alone, fun _ => .inl (h.pos hc rfl), fun hx => absurd hx hret, by first | exact h.sound | rfl⟩
      · show s.count = (s.clients.map CPc.counted).sum + ((s.workers.set i .dec).map WPc.counted).sum
        have := h.count
        simp only [WPc.counted] at hsum
        omega
      · intro k d hk
        have := h.cown k d hk
        rw [hm] at this
        show _ ↔ some (Owner.worker i) = some (Owner.client k)
        simpa using this
      · intro k d hk
        change (s.workers.set i .dec)[k]? = some d at hk
        rw [get_set hc] at hk
        split at hk
        · rename_i e
          obtain rfl := Option.some.inj hk
          rw [e]
          exact ⟨fun _ => rfl, fun _ => rfl⟩
        · rename_i e
          have := h.wown k d hk
          rw [hm] at this
          show _ ↔ some (Owner.worker i) = some (Owner.worker k)
          simp only [reduceCtorEq, iff_false] at this
          simp only [Option.some.injEq, Owner.worker.injEq]
          exact ⟨fun hx => absurd hx this, fun hx => absurd hx.symm e⟩
      · have := h.down
        rw [hm] at this
        show _ ↔ some (Owner.worker i) = some Owner.closer
        simpa using this
      · intro k hk
        obtain rfl := Owner.worker.inj (Option.some.inj hk)
        exact hwl _ _ hlen
    · cases hs
  | dec =>
    have hpos := h.pos hc rfl
    simp only [stepWorker] at hs
    rw [if_neg (by omega)] at hs
    simp only [Option.some.injEq] at hs
    subst hs
    have hsum := sum_set WPc.counted s.workers i .dec .notify hc
    refine ⟨?_, h.cown, ?_, h.down, h.cvalid, fun k hk => hwl _ k (h.wvalid k hk), h.alone, ?_, fun hx => absurd hx hret, by first | exact h.sound | rfl⟩
    · show s.count - 1 = (s.clients.map CPc.counted).sum + ((s.workers.set i .notify).map WPc.counted).sum
      have := h.count
      simp only [WPc.counted] at hsum
      omega
    · intro k d hk
      change (s.workers.set i .notify)[k]? = some d at hk
      rw [get_set hc] at hk
      split at hk
      · rename_i e
        obtain rfl := Option.some.inj hk
        rw [e]
        exact h.wown i .dec hc
      · exact h.wown k d hk
    · intro _
      exact .inr ⟨i, by show (s.workers.set i .notify)[i]? = _; rw [get_set hc, if_pos rfl]⟩
  | notify =>
    simp only [stepWorker, Option.some.injEq] at hs
    subst hs
    have hsum := sum_set WPc.counted s.workers i .notify .rel hc
    have hm : s.mutex = some (.worker i) := (h.wown i .notify hc).1 rfl
    have hnc : s.closer ≠ .check := fun hx => by
      have := h.down.1 hx
      rw [hm] at this
      cases this
    refine ⟨?_, h.cown, ?_, ?_, h.cvalid, fun k hk => hwl _ k (h.wvalid k hk), ?_, ?_, ?_, h.sound⟩
    · show s.count = (s.clients.map CPc.counted).sum + ((s.workers.set i .rel).map WPc.counted).sum
      have := h.count
      simp only [WPc.counted] at hsum
      omega
    · intro k d hk
      change (s.workers.set i .rel)[k]? = some d at hk
      rw [get_set hc] at hk
      split at hk
      · rename_i e
        obtain rfl := Option.some.inj hk
        rw [e]
        exact h.wown i .notify hc
      · exact h.wown k d hk
    · show (if s.closer = .waiting then DPc.woken else s.closer) = .check ↔ s.mutex = some .closer
      rw [hm]
      split
      · simp
      · simpa using hnc
    · intro hx
      refine h.alone ?_
      intro hi
      refine hx ?_
      show (if s.closer = .waiting then DPc.woken else s.closer) = .idle
      rw [hi]
      rfl
    · intro hx
      change (if s.closer = .waiting then DPc.woken else s.closer) = .waiting at hx
      split at hx
      · cases hx
      · contradiction
    · intro hx
      change (if s.closer = .waiting then DPc.woken else s.closer) = .returned at hx
      split at hx
      · cases hx
      · exact absurd hx hret
  | rel =>
    simp only [stepWorker, Option.some.injEq] at hs
    subst hs
    have hsum := sum_set WPc.counted s.workers i .rel .finished hc
    have hm : s.mutex = some (.worker i) := (h.wown i .rel hc).1 rfl
    refine ⟨?_, ?_, ?_, ?_, (fun k hk => by cases hk), (fun k hk => by cases hk), h.alone, ?_, fun hx => absurd hx hret, by first | exact h.sound | rfl⟩
    · show s.count = (s.clients.map CPc.counted).sum + ((s.workers.set i .finished).map WPc.counted).sum
      have := h.count
      simp only [WPc.counted] at hsum
      omega
    · intro k d hk
      have := h.cown k d hk
      rw [hm] at this
      show _ ↔ none = some (Owner.client k)
      simpa using this
    · intro k d hk
      change (s.workers.set i .finished)[k]? = some d at hk
      rw [get_set hc] at hk
      show _ ↔ none = some (Owner.worker k)
      split at hk
      · obtain rfl := Option.some.inj hk
        simp [WPc.holds]
      · rename_i e
        have := h.wown k d hk
        rw [hm] at this
        simp only [Option.some.injEq, Owner.worker.injEq] at this
        simp only [reduceCtorEq, iff_false]
        exact fun hx => e (this.1 hx).symm
    · have := h.down
      rw [hm] at this
      show _ ↔ none = some Owner.closer
      simpa using this
    · intro hx
      rcases h.wake hx with hw | ⟨k, hk⟩
      · exact .inl hw
      · have := (h.wown k .notify hk).1 rfl
        rw [hm] at this
        obtain rfl := Owner.worker.inj (Option.some.inj this)
        rw [hc] at hk
        cases hk

theorem inv_closer {s s' : State} (h : Inv s) (hs : stepCloser s = some s') : Inv s' := by
  have lock : ∀ s', s.closer ≠ .idle → s.closer ≠ .returned →
      (if s.mutex = none ∧ s.poisoned = false then some { s with mutex := some .closer, closer := .check } else none) = some s' →
      Inv s' := by
    intro s' h1 h2 hs
    split at hs
    · rename_i hm
      simp only [Option.some.injEq] at hs
      subst hs
      refine ⟨h.count, ?_, ?_, ⟨fun _ => rfl, fun _ => rfl⟩, (fun k hk => by cases hk), (fun k hk => by cases hk), fun _ => h.alone h1,
        (fun hx => by cases hx), (fun hx => by cases hx), h.sound⟩
      · intro k d hk
        have := h.cown k d hk
        rw [hm.1] at this
        show _ ↔ some Owner.closer = some (Owner.client k)
        simpa using this
      · intro k d hk
        have := h.wown k d hk
        rw [hm.1] at this
        show _ ↔ some Owner.closer = some (Owner.worker k)
        simpa using this
    · cases hs
  unfold stepCloser at hs
  cases hd : s.closer with
  | idle =>
    rw [hd] at hs
    simp only at hs
    split at hs
    · rename_i hall
      simp only [Option.some.injEq] at hs
      subst hs
      refine ⟨h.count, h.cown, h.wown, ?_, h.cvalid, h.wvalid, fun _ => hall, (fun hx => by cases hx), (fun hx => by cases hx), h.sound⟩
      have := h.down
      rw [hd] at this
      simpa using this
    · cases hs
  | want => rw [hd] at hs; exact lock s' (by rw [hd]; simp) (by rw [hd]; simp) hs
  | woken => rw [hd] at hs; exact lock s' (by rw [hd]; simp) (by rw [hd]; simp) hs
  | waiting => rw [hd] at hs; cases hs
  | returned => rw [hd] at hs; cases hs
  | check =>
    rw [hd] at hs
    simp only at hs
    have hm := h.down.1 hd
    have hal := h.alone (by rw [hd]; simp)
    have hc' : ∀ (i : Nat) c, s.clients[i]? = some c → c.holds = false := by
      intro i c hi
      have := h.cown i c hi
      rw [hm] at this
      simpa using this
    have hw' : ∀ (i : Nat) c, s.workers[i]? = some c → c.holds = false := by
      intro i c hi
      have := h.wown i c hi
      rw [hm] at this
      simpa using this
    split at hs
    · rename_i hpos
      simp only [Option.some.injEq] at hs
      subst hs
      refine ⟨h.count, ?_, ?_, by simp, (fun k hk => by cases hk), (fun k hk => by cases hk), fun _ => hal, fun _ => .inl hpos,
        (fun hx => by cases hx), h.sound⟩
      · intro i c hi
        rw [hc' i c hi]; simp
      · intro i c hi
        rw [hw' i c hi]; simp
    · rename_i hz
      simp only [Option.some.injEq] at hs
      subst hs
      refine ⟨h.count, ?_, ?_, by simp, (fun k hk => by cases hk), (fun k hk => by cases hk), fun _ => hal, (fun hx => by cases hx),
        ?_, h.sound⟩
      · intro i c hi
        rw [hc' i c hi]; simp
      · intro i c hi
        rw [hw' i c hi]; simp
      · intro _ w hw
        obtain ⟨i, hi⟩ := List.mem_iff_getElem?.1 hw
        have hh := hw' i w hi
        have hcount : w.counted ≠ 1 := fun hx => hz (h.pos hi hx)
        cases w <;> simp [WPc.holds, WPc.counted] at hh hcount ⊢

theorem inv_step {s s' : State} (h : Inv s) (a : Act) (hs : step s a = some s') : Inv s' := by
  cases a with
  | call =>
    unfold step at hs
    simp only at hs
    split at hs
    · rename_i hi
      simp only [Option.some.injEq] at hs
      subst hs
      refine ⟨?_, ?_, h.wown, h.down, ?_, h.wvalid, fun hx => absurd hi hx, h.wake, h.done, h.sound⟩
      · show s.count = ((s.clients ++ [CPc.update]).map CPc.counted).sum + (s.workers.map WPc.counted).sum
        rw [List.map_append, List.sum_append]
        simp only [List.map_cons, List.map_nil, List.sum_cons, List.sum_nil, CPc.counted]
        exact h.count
      · intro k d hk
        change (s.clients ++ [CPc.update])[k]? = some d at hk
        by_cases hl : k < s.clients.length
        · rw [List.getElem?_append_left hl] at hk
          exact h.cown k d hk
        · have hd : d = .update := by
            rw [List.getElem?_append_right (by omega)] at hk
            have := List.mem_of_getElem? hk
            simpa using this
          subst hd
          exact ⟨(fun hx => by cases hx), fun hx => absurd (h.cvalid k hx) hl⟩
      · intro k hk
        show k < (s.clients ++ [_]).length
        rw [List.length_append]
        exact Nat.lt_of_lt_of_le (h.cvalid k hk) (Nat.le_add_right _ _)
    · cases hs
  | client i fail =>
    unfold step at hs
    simp only at hs
    cases hc : s.clients[i]? with
    | none => rw [hc] at hs; cases hs
    | some c => rw [hc] at hs; exact inv_client h hc fail hs
  | worker i fail =>
    unfold step at hs
    simp only at hs
    cases hc : s.workers[i]? with
    | none => rw [hc] at hs; cases hs
    | some c => rw [hc] at hs; exact inv_worker h hc fail hs
  | close => exact inv_closer h hs
  | spurious =>
    unfold step at hs
    simp only at hs
    split at hs
    · rename_i hw
      simp only [Option.some.injEq] at hs
      subst hs
      refine ⟨h.count, h.cown, h.wown, ?_, h.cvalid, h.wvalid, fun _ => h.alone (by rw [hw]; simp), (fun hx => by cases hx),
        (fun hx => by cases hx), h.sound⟩
      have := h.down
      rw [hw] at this
      simpa using this
    · cases hs

theorem inv_run (l : List Act) : ∀ s s', Inv s → run s l = some s' → Inv s' := by
  induction l with
  | nil => intro s s' h hs; exact Option.some.inj hs ▸ h
  | cons a r ih =>
    intro s s' h hs
    unfold run at hs
    cases ha : step s a with
    | none => rw [ha] at hs; cases hs
    | some s1 =>
      rw [ha] at hs
      exact ih s1 s' (inv_step h a ha) hs

theorem inv_reachable {s : State} (h : Reachable s) : Inv s := by
  obtain ⟨l, hl⟩ := h
  exact inv_run l _ _ inv_init hl

/-! ### Steps with failures can not be undone -/

theorem lost_step {s s' : State} {i : Nat} (h : s.workers[i]? = some .lost) (a : Act) (hs : step s a = some s') :
    s'.workers[i]? = some .lost := by
  cases a with
  | call =>
    unfold step at hs
    simp only at hs
    split at hs
    · simp only [Option.some.injEq] at hs
      subst hs; exact h
    · cases hs
  | client k fail =>
    unfold step at hs
    simp only at hs
    cases hc : s.clients[k]? with
    | none => rw [hc] at hs; cases hs
    | some c =>
      rw [hc] at hs
      cases c <;> simp only [stepClient] at hs
      case want =>
        split at hs
        · simp only [Option.some.injEq] at hs; subst hs; exact h
        · split at hs
          · simp only [Option.some.injEq] at hs; subst hs; exact h
          · cases hs
      case spawn =>
        simp only [Option.some.injEq] at hs
        subst hs
        show (s.workers ++ [_])[i]? = _
        rw [List.getElem?_append_left (List.getElem?_eq_some_iff.1 h).1]
        exact h
      case returned => cases hs
      all_goals simp only [Option.some.injEq] at hs; subst hs; exact h
  | worker k fail =>
    unfold step at hs
    simp only at hs
    cases hc : s.workers[k]? with
    | none => rw [hc] at hs; cases hs
    | some c =>
      rw [hc] at hs
      simp only at hs
      have hne : i ≠ k ∨ c = .lost := by
        by_cases e : i = k
        · subst e
          rw [hc] at h
          exact .inr (Option.some.inj h)
        · exact .inl e
      rcases hne with hne | rfl
      · have hset : ∀ y, (s.workers.set k y)[i]? = some .lost := by
          intro y
          rw [get_set hc, if_neg hne]
          exact h
        cases c <;> simp only [stepWorker] at hs
        case want =>
          split at hs
          · simp only [Option.some.injEq] at hs; subst hs; exact hset _
          · split at hs
            · simp only [Option.some.injEq] at hs; subst hs; exact hset _
            · cases hs
        case dec => split at hs <;> (simp only [Option.some.injEq] at hs; subst hs; exact hset _)
        case finished => cases hs
        case lost => cases hs
        all_goals simp only [Option.some.injEq] at hs; subst hs; exact hset _
      · simp [stepWorker] at hs
  | close =>
    change stepCloser s = some s' at hs
    unfold stepCloser at hs
    split at hs
    all_goals first
      | cases hs; done
      | (split at hs <;> first | (simp only [Option.some.injEq] at hs; subst hs; exact h) | cases hs)
  | spurious =>
    unfold step at hs
    simp only at hs
    split at hs
    · simp only [Option.some.injEq] at hs; subst hs; exact h
    · cases hs

/-! ### Progress -/

def WPc.weight : WPc → Nat
  | .read => 8
  | .sync => 7
  | .want => 6
  | .dec => 5
  | .notify => 4
  | .rel => 1
  | _ => 0

def DPc.weight : DPc → Nat
  | .want => 2
  | .woken => 2
  | .check => 1
  | _ => 0

/-- A bound for the number of steps that are left after the drop began. -/
def State.left (s : State) : Nat := (s.workers.map WPc.weight).sum + s.closer.weight

/-- The writer ends without decrementing the counter. -/
def Act.fails : Act → Bool
  | .worker _ true => true
  | _ => false

theorem worker_left {s s' : State} (h : Inv s) {i : Nat} {c : WPc} (hc : s.workers[i]? = some c)
    (hs : stepWorker s i false c = some s') : s'.left < s.left ∧ (s.closer ≠ .idle → s'.closer ≠ .idle) ∧
      ((∀ w ∈ s.workers, w ≠ .lost) → ∀ w ∈ s'.workers, w ≠ .lost) := by
  have hset : ∀ c' : WPc, c' ≠ .lost → (∀ w ∈ s.workers, w ≠ .lost) → ∀ w ∈ s.workers.set i c', w ≠ .lost := by
    intro c' hc' hl w hw
    rcases List.mem_or_eq_of_mem_set hw with hw | rfl
    · exact hl w hw
    · exact hc'
  have easy : ∀ c' : WPc, c'.weight < c.weight → c' ≠ .lost → ∀ n m, (⟨n, m, s.poisoned, s.clients, s.workers.set i c', s.closer⟩ : State) = s' →
      s'.left < s.left ∧ (s.closer ≠ .idle → s'.closer ≠ .idle) ∧ ((∀ w ∈ s.workers, w ≠ .lost) → ∀ w ∈ s'.workers, w ≠ .lost) := by
    intro c' hw hl n m he
    have hsum := sum_set WPc.weight s.workers i c c' hc
    subst he
    refine ⟨?_, fun hx => hx, hset c' hl⟩
    unfold State.left
    simp only
    omega
  cases c with
  | finished => simp [stepWorker] at hs
  | lost => simp [stepWorker] at hs
  | read =>
    simp only [stepWorker, Option.some.injEq, Bool.false_eq_true, if_false] at hs
    exact easy .sync (by decide) (by decide) _ _ hs
  | sync =>
    simp only [stepWorker, Option.some.injEq, Bool.false_eq_true, if_false] at hs
    exact easy .want (by decide) (by decide) _ _ hs
  | want =>
    simp only [stepWorker, h.sound, Bool.false_eq_true, if_false] at hs
    split at hs
    · simp only [Option.some.injEq] at hs
      exact easy .dec (by decide) (by decide) _ _ (by rw [← hs, h.sound])
    · cases hs
  | dec =>
    simp only [stepWorker] at hs
    rw [if_neg (by have := h.pos hc rfl; omega)] at hs
    simp only [Option.some.injEq] at hs
    exact easy .notify (by decide) (by decide) _ _ hs
  | rel =>
    simp only [stepWorker, Option.some.injEq] at hs
    exact easy .finished (by decide) (by decide) _ _ hs
  | notify =>
    simp only [stepWorker, Option.some.injEq] at hs
    have hsum := sum_set WPc.weight s.workers i .notify .rel hc
    subst hs
    refine ⟨?_, ?_, hset .rel (by decide)⟩
    · unfold State.left
      simp only [WPc.weight] at hsum
      simp only
      cases hcl : s.closer <;> simp only [reduceCtorEq, if_true, if_false, DPc.weight] <;> omega
    · intro hx
      show (if s.closer = .waiting then DPc.woken else s.closer) ≠ .idle
      split
      · simp
      · exact hx

/-- After the drop began every step of a thread makes the bound smaller, and a spurious wake-up adds two. -/
theorem step_left {s s' : State} (h : Inv s) (hd : s.closer ≠ .idle) (hl : ∀ w ∈ s.workers, w ≠ .lost) (a : Act) (ha : a.fails = false)
    (hs : step s a = some s') :
    s'.closer ≠ .idle ∧ (∀ w ∈ s'.workers, w ≠ .lost) ∧ (a ≠ .spurious → s'.left + 1 ≤ s.left) ∧ s'.left ≤ s.left + 2 := by
  cases a with
  | call =>
    unfold step at hs
    simp only at hs
    split at hs
    · contradiction
    · cases hs
  | client i fail =>
    unfold step at hs
    simp only at hs
    cases hc : s.clients[i]? with
    | none => rw [hc] at hs; cases hs
    | some c =>
      rw [hc] at hs
      have := h.alone hd c (List.mem_of_getElem? hc)
      subst this
      simp [stepClient] at hs
  | worker i fail =>
    cases fail with
    | true => cases ha
    | false =>
      unfold step at hs
      simp only at hs
      cases hc : s.workers[i]? with
      | none => rw [hc] at hs; cases hs
      | some c =>
        rw [hc] at hs
        obtain ⟨h1, h2, h3⟩ := worker_left h hc hs
        exact ⟨h2 hd, h3 hl, fun _ => h1, by omega⟩
  | close =>
    change stepCloser s = some s' at hs
    unfold stepCloser at hs
    cases hcl : s.closer with
    | idle => exact absurd hcl hd
    | want =>
      rw [hcl] at hs
      simp only at hs
      split at hs
      · simp only [Option.some.injEq] at hs
        subst hs
        refine ⟨by simp, hl, ?_, ?_⟩ <;> simp [State.left, hcl, DPc.weight] <;> omega
      · cases hs
    | woken =>
      rw [hcl] at hs
      simp only at hs
      split at hs
      · simp only [Option.some.injEq] at hs
        subst hs
        refine ⟨by simp, hl, ?_, ?_⟩ <;> simp [State.left, hcl, DPc.weight] <;> omega
      · cases hs
    | waiting => rw [hcl] at hs; cases hs
    | returned => rw [hcl] at hs; cases hs
    | check =>
      rw [hcl] at hs
      simp only at hs
      split at hs <;>
      · simp only [Option.some.injEq] at hs
        subst hs
        refine ⟨by simp, hl, ?_, ?_⟩ <;> simp [State.left, hcl, DPc.weight] <;> omega
  | spurious =>
    unfold step at hs
    simp only at hs
    split at hs
    · rename_i hw
      simp only [Option.some.injEq] at hs
      subst hs
      refine ⟨by simp, hl, fun hx => absurd rfl hx, ?_⟩
      simp [State.left, hw, DPc.weight]
    · cases hs

/-- As long as the drop did not return, some thread can make a step. -/
theorem can_step {s : State} (h : Inv s) (hd : s.closer ≠ .idle) (hl : ∀ w ∈ s.workers, w ≠ .lost) (hr : s.closer ≠ .returned) :
    ∃ a, a.fails = false ∧ a ≠ .spurious ∧ (step s a).isSome = true := by
  have owner : ∀ i, s.mutex = some (.worker i) → ∃ a, a.fails = false ∧ a ≠ .spurious ∧ (step s a).isSome = true := by
    intro i hm
    have hi := h.wvalid i hm
    have hw : s.workers[i]? = some s.workers[i] := List.getElem?_eq_getElem hi
    have hh := (h.wown i _ hw).2 hm
    refine ⟨.worker i false, rfl, by simp, ?_⟩
    unfold step
    simp only [hw]
    cases hc : s.workers[i] <;> rw [hc] at hh <;> simp [WPc.holds] at hh <;> simp [stepWorker]
    split <;> rfl
  have noclient : ∀ i, s.mutex ≠ some (.client i) := by
    intro i hm
    have hi := h.cvalid i hm
    have hw : s.clients[i]? = some s.clients[i] := List.getElem?_eq_getElem hi
    have hh := (h.cown i _ hw).2 hm
    rw [h.alone hd _ (List.getElem_mem hi)] at hh
    cases hh
  have lock : s.closer = .want ∨ s.closer = .woken → ∃ a, a.fails = false ∧ a ≠ .spurious ∧ (step s a).isSome = true := by
    intro hc
    cases hm : s.mutex with
    | none =>
      refine ⟨.close, rfl, by simp, ?_⟩
      show (stepCloser s).isSome = true
      unfold stepCloser
      rcases hc with hc | hc <;> rw [hc] <;> simp [hm, h.sound]
    | some x =>
      cases x with
      | client i => exact absurd hm (noclient i)
      | worker i => exact owner i hm
      | closer =>
        have := h.down.2 hm
        rcases hc with hc | hc <;> rw [hc] at this <;> cases this
  cases hc : s.closer with
  | idle => exact absurd hc hd
  | returned => exact absurd hc hr
  | want => exact lock (.inl hc)
  | woken => exact lock (.inr hc)
  | check =>
    refine ⟨.close, rfl, by simp, ?_⟩
    show (stepCloser s).isSome = true
    unfold stepCloser
    rw [hc]
    simp only
    split <;> rfl
  | waiting =>
    rcases h.wake hc with hpos | ⟨i, hi⟩
    · -- some writer is left, since all clients have returned
      have hz : (s.clients.map CPc.counted).sum = 0 := by
        have hal := h.alone hd
        generalize s.clients = l at hal
        induction l with
        | nil => rfl
        | cons x r ih =>
          rw [List.map_cons, List.sum_cons, ih fun c hc => hal c (by simp [hc]), hal x (by simp)]
          rfl
      have hex : ∃ (i : Nat) (w : WPc), s.workers[i]? = some w ∧ w.counted = 1 := by
        by_contra hno
        push Not at hno
        have : ∀ l : List WPc, (∀ w ∈ l, w.counted ≠ 1) → (l.map WPc.counted).sum = 0 := by
          intro l
          induction l with
          | nil => intro _; rfl
          | cons x r ih =>
            intro hl
            rw [List.map_cons, List.sum_cons, ih fun w hw => hl w (by simp [hw])]
            have := hl x (by simp)
            cases x <;> simp [WPc.counted] at this ⊢
        have := this s.workers fun w hw => by
          obtain ⟨i, hi⟩ := List.mem_iff_getElem?.1 hw
          exact hno i w hi
        have := h.count
        omega
      obtain ⟨i, w, hw, hcw⟩ := hex
      have hstep : (stepWorker s i false w).isSome = true → ∃ a, a.fails = false ∧ a ≠ .spurious ∧ (step s a).isSome = true := by
        intro hx
        refine ⟨.worker i false, rfl, by simp, ?_⟩
        unfold step
        simp only [hw]
        exact hx
      cases w with
      | read => exact hstep rfl
      | sync => exact hstep rfl
      | dec => exact hstep (by simp only [stepWorker]; split <;> rfl)
      | notify => cases hcw
      | rel => cases hcw
      | finished => cases hcw
      | lost => exact absurd rfl (hl _ (List.mem_of_getElem? hw))
      | want =>
        cases hm : s.mutex with
        | none => exact hstep (by simp [stepWorker, h.sound, hm])
        | some x =>
          cases x with
          | client i => exact absurd hm (noclient i)
          | worker i => exact owner i hm
          | closer =>
            have := h.down.2 hm
            rw [hc] at this
            cases this
    · refine ⟨.worker i false, rfl, by simp, ?_⟩
      unfold step
      simp only [hi]
      rfl

/-- The number of spurious wake-ups. -/
def spurious (l : List Act) : Nat := l.countP fun a => decide (a = .spurious)

theorem run_left (l : List Act) : ∀ s s', Inv s → s.closer ≠ .idle → (∀ w ∈ s.workers, w ≠ .lost) → (∀ a ∈ l, a.fails = false) →
    run s l = some s' →
    s'.closer ≠ .idle ∧ (∀ w ∈ s'.workers, w ≠ .lost) ∧ s'.left + l.length ≤ s.left + 3 * spurious l := by
  induction l with
  | nil =>
    intro s s' _ hd hl _ hs
    obtain rfl := Option.some.inj hs
    exact ⟨hd, hl, by simp [spurious]⟩
  | cons a r ih =>
    intro s s' h hd hl hf hs
    unfold run at hs
    cases ha : step s a with
    | none => rw [ha] at hs; cases hs
    | some s1 =>
      rw [ha] at hs
      obtain ⟨h1, h2, h3, h4⟩ := step_left h hd hl a (hf a (by simp)) ha
      obtain ⟨h5, h6, h7⟩ := ih s1 s' (inv_step h a ha) h1 h2 (fun b hb => hf b (by simp [hb])) hs
      refine ⟨h5, h6, ?_⟩
      rw [List.length_cons]
      by_cases e : a = .spurious
      · have : spurious (a :: r) = spurious r + 1 := by simp [spurious, e]
        omega
      · have := h3 e
        have : spurious (a :: r) = spurious r := by simp [spurious, e]
        omega

theorem run_append (l l' : List Act) : ∀ s, run s (l ++ l') = (run s l).bind fun s => run s l' := by
  induction l with
  | nil => intro s; rfl
  | cons a r ih =>
    intro s
    show (step s a).bind _ = Option.bind ((step s a).bind _) _
    cases step s a with
    | none => rfl
    | some s1 => exact ih s1

end Closing

open Closing

/-- C54, the first half: in every execution, if the drop has returned then every background writer has finished. No restriction:
failing updates, writers that fail or panic and spurious wake-ups are included. -/
theorem C54_waits (l : List Act) (s : State) (h : run init l = some s) (hr : s.closer = .returned) :
    ∀ w ∈ s.workers, w = .finished := (inv_run l _ _ inv_init h).done hr

/-- The mutex of the counter is never poisoned and the counter never underflows, so the drop does not panic. -/
theorem C54_sound (l : List Act) (s : State) (h : run init l = some s) : s.poisoned = false := (inv_run l _ _ inv_init h).sound

/-- C54, the second half, restricted to executions where no background writer is lost: after the drop began (in the state reached with
`l`), any sequence of further steps is bounded up to spurious wake-ups, and as long as the drop did not return some thread can make
a step.  So the drop returns if the threads are scheduled and there are only finitely many spurious wake-ups.  Missing: background
writers that end without decrementing the counter, for which it is false (`C54_fails`). -/
theorem C54_returns_partial (l l' : List Act) (s s' : State) (h : run init l = some s) (hd : s.closer ≠ .idle)
    (hf : ∀ a ∈ l ++ l', a.fails = false) (h' : run s l' = some s') :
    l'.length ≤ 8 * s.workers.length + 2 + 3 * spurious l' ∧
      (s'.closer = .returned ∨ ∃ a, a.fails = false ∧ a ≠ .spurious ∧ (step s' a).isSome = true) := by
  have nolost : ∀ (l : List Act) (s s' : State), Inv s → (∀ w ∈ s.workers, w ≠ .lost) → (∀ a ∈ l, a.fails = false) → run s l = some s' →
      ∀ w ∈ s'.workers, w ≠ .lost := by
    intro l
    induction l with
    | nil => intro s s' _ hl _ hs; exact Option.some.inj hs ▸ hl
    | cons a r ih =>
      intro s s' hi hl hf hs
      unfold run at hs
      cases ha : step s a with
      | none => rw [ha] at hs; cases hs
      | some s1 =>
        rw [ha] at hs
        refine ih s1 s' (inv_step hi a ha) ?_ (fun b hb => hf b (by simp [hb])) hs
        have hfa := hf a (by simp)
        cases a with
        | call =>
          unfold step at ha
          simp only at ha
          split at ha
          · simp only [Option.some.injEq] at ha; subst ha; exact hl
          · cases ha
        | client i fail =>
          unfold step at ha
          simp only at ha
          cases hc : s.clients[i]? with
          | none => rw [hc] at ha; cases ha
          | some c =>
            rw [hc] at ha
            cases c <;> simp only [stepClient] at ha
            case want =>
              split at ha
              · simp only [Option.some.injEq] at ha; subst ha; exact hl
              · split at ha
                · simp only [Option.some.injEq] at ha; subst ha; exact hl
                · cases ha
            case spawn =>
              simp only [Option.some.injEq] at ha
              subst ha
              intro w hw
              rcases List.mem_append.1 hw with hw | hw
              · exact hl w hw
              · rw [List.mem_singleton] at hw
                subst hw
                simp
            case returned => cases ha
            all_goals simp only [Option.some.injEq] at ha; subst ha; exact hl
        | worker i fail =>
          cases fail with
          | true => cases hfa
          | false =>
            unfold step at ha
            simp only at ha
            cases hc : s.workers[i]? with
            | none => rw [hc] at ha; cases ha
            | some c =>
              rw [hc] at ha
              exact (worker_left hi hc ha).2.2 hl
        | close =>
          change stepCloser s = some s1 at ha
          unfold stepCloser at ha
          split at ha
          all_goals first
            | cases ha; done
            | (split at ha <;> first | (simp only [Option.some.injEq] at ha; subst ha; exact hl) | cases ha)
        | spurious =>
          unfold step at ha
          simp only at ha
          split at ha
          · simp only [Option.some.injEq] at ha; subst ha; exact hl
          · cases ha
  have hi := inv_run l _ _ inv_init h
  have hl := nolost l _ _ inv_init (by simp [init]) (fun a ha => hf a (by simp [ha])) h
  obtain ⟨h1, h2, h3⟩ := run_left l' s s' hi hd hl (fun a ha => hf a (by simp [ha])) h'
  refine ⟨?_, ?_⟩
  · have hb : ∀ w : List WPc, (w.map WPc.weight).sum ≤ 8 * w.length := by
      intro w
      induction w with
      | nil => simp
      | cons x r ih =>
        rw [List.map_cons, List.sum_cons, List.length_cons]
        have : x.weight ≤ 8 := by cases x <;> simp [WPc.weight]
        omega
    have hw := hb s.workers
    have hc : s.closer.weight ≤ 2 := by cases s.closer <;> simp [DPc.weight]
    have : s.left = (s.workers.map WPc.weight).sum + s.closer.weight := rfl
    omega
  · by_cases hr : s'.closer = .returned
    · exact .inl hr
    · exact .inr (can_step (inv_run l' _ _ hi h') h1 h2 hr)

/-- A background writer that ended without decrementing the counter: the drop never returns, whatever happens afterwards. -/
theorem C54_lost (l l' : List Act) (s s' : State) (h : run init l = some s) (hl : .lost ∈ s.workers) (h' : run s l' = some s') :
    s'.closer ≠ .returned := by
  have keep : ∀ (l : List Act) (s s' : State) (i : Nat), s.workers[i]? = some .lost → run s l = some s' → s'.workers[i]? = some .lost := by
    intro l
    induction l with
    | nil => intro s s' i hw hs; exact Option.some.inj hs ▸ hw
    | cons a r ih =>
      intro s s' i hw hs
      unfold run at hs
      cases ha : step s a with
      | none => rw [ha] at hs; cases hs
      | some s1 =>
        rw [ha] at hs
        exact ih s1 s' i (lost_step hw a ha) hs
  obtain ⟨i, hi⟩ := List.mem_iff_getElem?.1 hl
  have hw := keep l' s s' i hi h'
  intro hr
  have := (inv_run l' _ _ (inv_run l _ _ inv_init h) h').done hr _ (List.mem_of_getElem? hw)
  cases this

namespace ClosingEx

/-- An update with its background writer. -/
def update (i : Nat) : List Act := List.replicate 5 (.client i false)

/-- Two updates, the second update is made while the first writer runs, and a drop that waits. -/
def two : List Act :=
  [.call] ++ update 0 ++ [.worker 0 false, .call] ++ update 1 ++
    [.close, .close, .close, .spurious, .close, .close] ++ List.replicate 5 (.worker 1 false)

theorem C54_nonvacuous :
    ((run init two).map fun s => (s.closer, s.workers, s.count)) = some (.woken, [.sync, .rel], 1) ∧
    (run init (two ++ [.worker 1 false, .close, .close] ++ List.replicate 4 (.worker 0 false) ++ [.worker 0 false, .close, .close])).map
      (fun s => (s.closer, s.workers)) = some (.returned, [.finished, .finished]) := by decide +kernel

/-- C54 fails: the lock of the entry is poisoned (by a panic in another update), the background writer ends with an error before it
decrements the counter, and the drop waits forever. -/
theorem C54_fails :
    ∃ l s, run init l = some s ∧ s.closer = .waiting ∧ ∀ l' s', run s l' = some s' → s'.closer ≠ .returned := by
  refine ⟨[.call] ++ update 0 ++ [.worker 0 true, .close, .close, .close], _, rfl, rfl, ?_⟩
  intro l' s' h
  exact C54_lost ([.call] ++ update 0 ++ [.worker 0 true, .close, .close, .close]) l' _ s' rfl (by decide) h

end ClosingEx
