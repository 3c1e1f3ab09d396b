import Verif.Locks.Model
set_option linter.unusedVariables false
/-!
# The lock order and its consequences
-/
namespace Locks
open Prog

/-- The order in which locks are taken. -/
def Lock.rank : Lock → Nat
  | .cache => 0
  | .entry _ => 1
  | .workers => 2

/-- `p` only takes locks of rank `k` or more, and inside of a guard only locks of higher rank. -/
def Ordered : Nat → Prog → Prop
  | _, .skip => True
  | k, .seq p q => Ordered k p ∧ Ordered k q
  | k, .scope _ l p => k ≤ l.rank ∧ Ordered (l.rank + 1) p
  | k, .alt p q => Ordered k p ∧ Ordered k q
  | k, .many p => Ordered k p
  | k, .some f => ∀ i, Ordered k (f i)

/-- A sequence of actions that respects the order when the locks `h` are held already, releases
the newest guard first, and ends with no guard. -/
def Disc : List Lock → List Act → Prop
  | [], [] => True
  | _ :: _, [] => False
  | h, .acq _ l :: t => (∀ x ∈ h, x.rank < l.rank) ∧ Disc (l :: h) t
  | [], .rel _ :: _ => False
  | x :: h, .rel l :: t => x = l ∧ Disc h t

theorem Disc.acq {h : List Lock} {m : Mode} {l : Lock} {t : List Act} :
    Disc h (.acq m l :: t) ↔ (∀ x ∈ h, x.rank < l.rank) ∧ Disc (l :: h) t := by
  cases h <;> simp [Disc]

theorem Run.disc {p : Prog} {t : List Act} {b : Bool} (hr : Run p t b) :
    ∀ {k : Nat} {h : List Lock} {rest : List Act}, Ordered k p → (∀ x ∈ h, x.rank < k) →
      Disc h rest → Disc h (t ++ rest) := by
  induction hr with
  | leave p => intro k h rest _ _ hd; exact hd
  | skip => intro k h rest _ _ hd; exact hd
  | seqLeave _ ih => intro k h rest ho hk hd; exact ih ho.1 hk hd
  | seq _ _ ih1 ih2 =>
    intro k h rest ho hk hd
    rw [List.append_assoc]
    exact ih1 ho.1 hk (ih2 ho.2 hk hd)
  | @scope m l p t b _ ih =>
    intro k h rest ho hk hd
    obtain ⟨h1, h2⟩ := ho
    rw [List.cons_append, Disc.acq, List.append_assoc]
    refine ⟨fun x hx => Nat.lt_of_lt_of_le (hk x hx) h1, ih h2 ?_ ?_⟩
    · intro x hx
      rcases List.mem_cons.1 hx with rfl | hx
      · exact Nat.lt_succ_self _
      · exact Nat.lt_succ_of_lt (Nat.lt_of_lt_of_le (hk x hx) h1)
    · exact ⟨rfl, hd⟩
  | altL _ ih => intro k h rest ho hk hd; exact ih ho.1 hk hd
  | altR _ ih => intro k h rest ho hk hd; exact ih ho.2 hk hd
  | manyEnd p => intro k h rest _ _ hd; exact hd
  | manyLeave _ ih => intro k h rest ho hk hd; exact ih ho hk hd
  | many _ _ ih1 ih2 =>
    intro k h rest ho hk hd
    rw [List.append_assoc]
    exact ih1 ho hk (ih2 ho hk hd)
  | some _ ih => intro k h rest ho hk hd; exact ih (ho _) hk hd

theorem Client.disc {ps : List Prog} {t : List Act} (hc : Client ps t)
    (ho : ∀ p ∈ ps, Ordered 0 p) : Disc [] t := by
  induction hc with
  | nil => trivial
  | cons hr _ ih =>
    exact hr.disc (ho _ (by simp)) (by simp) (ih fun p hp => ho p (by simp [hp]))

/-- The order is respected by every function. -/
theorem Op.ordered (o : Op) : Ordered 0 o.prog := by
  cases o <;>
    simp [Op.prog, Ordered, corpusInfo, getEntry, readEntry, writeEntry, Locks.importFromFs, checkCache,
      checkCacheWithCache, cacheInfo, readEntries, exportLocks, getLoadedEntry, loadEntryWithLock,
      withPreparedQuery, withLoadedComponents, loadComponents, reportCacheInfo, Lock.rank]

/-! ## The invariant of the threads -/

/-- The guards that a thread holds fit to what it will do. -/
def Thread.Ok (t : Thread) : Prop := Disc (t.held.map Prod.snd) t.todo

theorem Thread.Ok.step {h : List (Mode × Lock)} {a : Act} {r : List Act}
    (hk : Thread.Ok ⟨h, a :: r⟩) : Thread.Ok ⟨a.apply h, r⟩ := by
  unfold Thread.Ok at *
  cases a with
  | acq m l => exact (Disc.acq.1 hk).2
  | rel l =>
    cases h with
    | nil => exact absurd hk (by simp [Disc])
    | cons x h =>
      obtain ⟨h1, h2⟩ := hk
      have hx : (x.2 == l) = true := by simp [h1]
      simp only [Act.apply, List.eraseP_cons, hx]
      exact h2

theorem Step.ok {s t : List Thread} (hs : Step s t) (h : ∀ x ∈ s, x.Ok) : ∀ x ∈ t, x.Ok := by
  cases hs with
  | mk _ =>
    intro x hx
    simp only [List.mem_append, List.mem_cons] at hx h
    rcases hx with hx | rfl | hx
    · exact h x (Or.inl hx)
    · exact Thread.Ok.step (h _ (Or.inr (Or.inl rfl)))
    · exact h x (Or.inr (Or.inr hx))

theorem Steps.ok {s t : List Thread} (hs : Steps s t) (h : ∀ x ∈ s, x.Ok) : ∀ x ∈ t, x.Ok := by
  induction hs with
  | refl => exact h
  | tail _ h2 ih => exact h2.ok ih

theorem Steps.trans {s t u : List Thread} (h1 : Steps s t) (h2 : Steps t u) : Steps s u := by
  induction h2 with
  | refl => exact h1
  | tail _ h ih => exact ih.tail h

/-- A thread that is not finished has a next action, and a thread that holds a lock is not
finished. -/
theorem Thread.Ok.todo_ne {t : Thread} (h : t.Ok) {m : Mode} {l : Lock} (hm : (m, l) ∈ t.held) :
    t.todo ≠ [] := by
  intro h0
  unfold Thread.Ok at h
  rw [h0] at h
  cases hh : t.held with
  | nil => rw [hh] at hm; simp at hm
  | cons x r => rw [hh] at h; simp [Disc] at h

/-- Some thread can do its next action, even if writers are preferred. -/
def CanStep (ts : List Thread) : Prop :=
  ∃ t ∈ ts, ∃ a r, t.todo = a :: r ∧ MustGrant ts a

theorem MustGrant.grants {ts : List Thread} {a : Act} (h : MustGrant ts a) : Grants ts a := by
  cases a with
  | acq m l => cases m <;> simp_all [MustGrant, Grants]
  | rel l => trivial

theorem blocked_busy {ts : List Thread} (hb : ¬ CanStep ts) {t : Thread} (ht : t ∈ ts) {a : Act}
    {r : List Act} (ha : t.todo = a :: r) : ∃ m l, a = .acq m l ∧ Busy ts l := by
  have key : ∀ t ∈ ts, ∀ l r, t.todo = Act.acq .write l :: r → Busy ts l := by
    intro t ht l r hr
    by_contra hn
    exact hb ⟨t, ht, _, _, hr, hn⟩
  have hg : ¬ MustGrant ts a := fun h => hb ⟨t, ht, a, r, ha, h⟩
  cases a with
  | rel l => exact absurd trivial hg
  | acq m l =>
    refine ⟨m, l, rfl, ?_⟩
    cases m with
    | write => exact key t ht l r ha
    | read =>
      simp only [MustGrant, not_and_or, not_not] at hg
      rcases hg with h | ⟨w, hw, r', hr'⟩
      · exact ⟨_, h⟩
      · exact key w hw l r' hr'

/-- If nobody can step then nobody holds a lock of rank `k`, from the top of the order down. -/
theorem blocked_rank {ts : List Thread} (hok : ∀ x ∈ ts, x.Ok) (hb : ¬ CanStep ts) :
    ∀ (n : Nat) (l : Lock), 3 ≤ l.rank + n → ¬ Busy ts l := by
  intro n
  induction n with
  | zero =>
    intro l hl _
    cases l <;> simp [Lock.rank] at hl
  | succ n ih =>
    rintro l hl ⟨m, t, ht, hm⟩
    have hok' := hok t ht
    cases h : t.todo with
    | nil => exact hok'.todo_ne hm h
    | cons a r =>
      obtain ⟨m', l', rfl, hbusy⟩ := blocked_busy hb ht h
      unfold Thread.Ok at hok'
      rw [h, Disc.acq] at hok'
      have := hok'.1 l (List.mem_map.2 ⟨_, hm, rfl⟩)
      exact ih l' (by omega) hbusy

theorem progress {ts : List Thread} (hok : ∀ x ∈ ts, x.Ok) {t : Thread} (ht : t ∈ ts)
    (hn : t.todo ≠ []) : CanStep ts := by
  by_contra hb
  cases h : t.todo with
  | nil => exact hn h
  | cons a r =>
    obtain ⟨m, l, rfl, hbusy⟩ := blocked_busy hb ht h
    exact blocked_rank hok hb 3 l (by omega) hbusy

/-- The number of actions that are still to do. -/
def work (ts : List Thread) : Nat := (ts.map fun t => t.todo.length).sum

theorem Step.work {s t : List Thread} (h : Step s t) : work s = work t + 1 := by
  cases h with
  | mk _ => simp [Locks.work]; omega

theorem CanStep.step {ts : List Thread} (h : CanStep ts) : ∃ us, Step ts us := by
  obtain ⟨t, ht, a, r, ha, hg⟩ := h
  obtain ⟨as, bs, rfl⟩ := List.append_of_mem ht
  obtain ⟨held, todo⟩ := t
  simp only at ha
  subst ha
  exact ⟨_, Step.mk hg.grants⟩

theorem finish : ∀ (n : Nat) {ts : List Thread}, work ts = n → (∀ x ∈ ts, x.Ok) →
    ∃ us, Steps ts us ∧ ∀ t ∈ us, t.todo = [] ∧ t.held = [] := by
  intro n
  induction n with
  | zero =>
    intro ts hw hok
    refine ⟨ts, .refl _, fun t ht => ?_⟩
    have h0 : t.todo = [] := by
      by_contra hn
      obtain ⟨us, hu⟩ := (progress hok ht hn).step
      have := hu.work
      omega
    refine ⟨h0, ?_⟩
    by_contra hn
    obtain ⟨x, hx⟩ := List.exists_mem_of_ne_nil _ hn
    exact (hok t ht).todo_ne (m := x.1) (l := x.2) hx h0
  | succ n ih =>
    intro ts hw hok
    have : ∃ t ∈ ts, t.todo ≠ [] := by
      by_contra hn
      push Not at hn
      have : work ts = 0 := by
        have hm : ts.map (fun t => t.todo.length) = ts.map fun _ => 0 :=
          List.map_congr_left fun t ht => by simp [hn t ht]
        simp [work, hm]
      omega
    obtain ⟨t, ht, hn⟩ := this
    obtain ⟨us, hu⟩ := (progress hok ht hn).step
    have := hu.work
    obtain ⟨vs, hv, hf⟩ := ih (by omega) (hu.ok hok)
    refine ⟨vs, ?_, hf⟩
    have : Steps ts us := .tail (.refl _) hu
    exact this.trans hv

/-! ## Mutual exclusion -/

/-- No two threads hold the same lock unless both only read. -/
def Exclusive (ts : List Thread) : Prop :=
  ts.Pairwise fun s t => ∀ l m m', (m, l) ∈ s.held → (m', l) ∈ t.held → m = .read ∧ m' = .read

theorem Act.mem_apply {h : List (Mode × Lock)} {a : Act} {x : Mode × Lock}
    (hx : x ∈ a.apply h) : x ∈ h ∨ a = .acq x.1 x.2 := by
  cases a with
  | acq m l =>
    simp only [Act.apply, List.mem_cons] at hx
    rcases hx with rfl | hx
    · exact Or.inr rfl
    · exact Or.inl hx
  | rel l => exact Or.inl (List.mem_of_mem_eraseP hx)

theorem granted {ts : List Thread} {m : Mode} {l : Lock} (hg : Grants ts (.acq m l)) {s : Thread}
    (hs : s ∈ ts) {m' : Mode} (hm : (m', l) ∈ s.held) : m' = .read ∧ m = .read := by
  cases m with
  | write => exact absurd ⟨m', s, hs, hm⟩ hg
  | read =>
    cases m' with
    | read => exact ⟨rfl, rfl⟩
    | write => exact absurd ⟨s, hs, hm⟩ hg

theorem Step.exclusive {s t : List Thread} (h : Step s t) (hx : Exclusive s) : Exclusive t := by
  cases h with
  | @mk as bs h a r hg =>
    unfold Exclusive at *
    rw [List.pairwise_append, List.pairwise_cons] at hx ⊢
    obtain ⟨h1, ⟨h2, h3⟩, h4⟩ := hx
    refine ⟨h1, ⟨?_, h3⟩, ?_⟩
    · intro u hu l m m' hm hm'
      rcases Act.mem_apply hm with hm | rfl
      · exact h2 u hu l m m' hm hm'
      · have := granted hg (s := u) (by simp [hu]) hm'
        exact ⟨this.2, this.1⟩
    · intro u hu v hv l m m' hm hm'
      rcases List.mem_cons.1 hv with rfl | hv
      · rcases Act.mem_apply hm' with hm' | rfl
        · exact h4 u hu _ List.mem_cons_self l m m' hm hm'
        · exact granted hg (s := u) (by simp [hu]) hm
      · exact h4 u hu v (by simp [hv]) l m m' hm hm'

theorem Steps.exclusive {s t : List Thread} (h : Steps s t) (hx : Exclusive s) : Exclusive t := by
  induction h with
  | refl => exact hx
  | tail _ h2 ih => exact h2.exclusive ih

end Locks
