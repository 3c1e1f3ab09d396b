import Verif.Storage.Props

/-!
# C53: concurrent clients of the corpus storage

Every client is a thread which executes the functions of `Verif/Storage/Model` one lock after the other.  The atomic steps are the
parts of the code that hold a lock: `get_entry` (the cache lock), the check whether the entry is loaded (merged with the former, since an
entry that is not loaded is never changed), `load_entry_with_lock` (the cache write lock), and reading or updating the graph (the lock of
the entry).  Simplified: opening a corpus and a background writer do not overlap.
-/

set_option linter.unusedSimpArgs false
set_option linter.unusedSectionVars false
set_option linter.unusedVariables false

open Store

/-- `find` and similar functions, or `apply_update`. -/
inductive Kind (U : Type)
  | read
  | write (u : U)

/-- The state of a client: before `get_entry`, before `load_entry_with_lock`, with a loaded entry, and returned. -/
inductive Pc
  | start
  | load
  | ready (p : Nat)
  | done

structure Thread (Nm U : Type) where
  name : Nm
  kind : Kind U
  pc : Pc

/-- What happened, with the number of the client. -/
inductive Ev (Nm A C K U : Type)
  | began (i : Nat) (n : Nm)
  | created (n : Nm)
  | updated (i : Nat) (n : Nm) (u : U)
  | answered (i : Nat) (n : Nm) (g : Content A C K)
  | failed (i : Nat) (n : Nm) (e : SErr)
  | written (n : Nm)

structure Conc (Nm A C K U : Type) where
  store : Store Nm A C K U
  threads : List (Thread Nm U)
  log : List (Ev Nm A C K U)

/-- A new client, a step of a client, a background writer, `check_cache_size_and_remove`, and `unload`. -/
inductive Act (Nm U : Type)
  | spawn (n : Nm) (k : Kind U)
  | advance (i : Nat) (m1 m2 : Mem)
  | work (i : Nat)
  | evict (m : Mem) (keep : List Nm)
  | unload (n : Nm)

namespace Conc

variable {Nm A C K U : Type} [LinearOrder Nm] [LinearOrder C]

def Kind.creates : Kind U → Bool
  | .read => false
  | .write _ => true

/-- The next state of a client. -/
def goto (c : Conc Nm A C K U) (i : Nat) (t : Thread Nm U) (pc : Pc) (s : Store Nm A C K U) (ev : List (Ev Nm A C K U)) :
    Conc Nm A C K U :=
  { store := s, threads := c.threads.set i { t with pc := pc }, log := c.log ++ ev }

/-- One step of the client `i` (`get_loaded_entry` corpusstorage.rs 685-710, then `apply_update` 1413-1435 or a query 1437-1491). -/
def advance (o : GraphOps A C K U) (c : Conc Nm A C K U) (i : Nat) (m1 m2 : Mem) (t : Thread Nm U) : Conc Nm A C K U :=
  match t.pc with
  | .start =>
    let r := c.store.getEntry t.name
    c.goto i t (if (r.1.graph r.2).isSome then .ready r.2 else .load) r.1 []
  | .load =>
    match loadEntry o c.store t.name (Kind.creates t.kind) m1 m2 with
    | (s, .error e) => c.goto i t .done s [.failed i t.name e]
    | (s, .ok p) => c.goto i t (.ready p) s (if (c.store.disk.get t.name).isSome then [] else [.created t.name])
  | .ready p =>
    match t.kind with
    | .read =>
      match c.store.graph p with
      | none => c.goto i t .done c.store [.failed i t.name .notLoaded]
      | some g => c.goto i t .done c.store [.answered i t.name g]
    | .write u =>
      match applyEntry o c.store t.name p u with
      | (s, .error e) => c.goto i t .done s [.failed i t.name e]
      | (s, .ok _) => c.goto i t .done s [.updated i t.name u]
  | .done => c

def step (o : GraphOps A C K U) (c : Conc Nm A C K U) : Act Nm U → Conc Nm A C K U
  | .spawn n k => { c with threads := c.threads ++ [⟨n, k, .start⟩], log := c.log ++ [.began c.threads.length n] }
  | .advance i m1 m2 =>
    match c.threads[i]? with
    | none => c
    | some t => c.advance o i m1 m2 t
  | .work i =>
    { c with store := c.store.work i, log := c.log ++ (c.store.jobs[i]?.map fun j => Ev.written j.1).toList }
  | .evict m keep => { c with store := c.store.evict m keep }
  | .unload n => { c with store := { c.store with cache := cacheRemove c.store.cache n } }

/-- The entries that updating clients use. -/
def held (c : Conc Nm A C K U) : List (Nm × Nat) :=
  c.threads.filterMap fun t =>
    match t.kind, t.pc with
    | .write _, .ready p => some (t.name, p)
    | _, _ => none

/-- The entries that reading clients use. -/
def seen (c : Conc Nm A C K U) : List (Nm × Nat) :=
  c.threads.filterMap fun t =>
    match t.kind, t.pc with
    | .read, .ready p => some (t.name, p)
    | _, _ => none

/-- How many updates of the corpus happened since it was created or written back. -/
def _root_.Ev.pending (log : List (Ev Nm A C K U)) (n : Nm) : Nat :=
  log.foldl (fun k e =>
    match e with
    | .created m => if m = n then 0 else k
    | .updated _ m _ => if m = n then k + 1 else k
    | .written m => if m = n then 0 else k
    | _ => k) 0

/-- A corpus is only loaded if at most one of its updates is not written back.  A successful update only happens if there is no other
loaded entry of this corpus in the cache, in another updating client or in a background writer, and a failing one only if at most one
update is not written back. -/
def quiet (o : GraphOps A C K U) (c : Conc Nm A C K U) : Act Nm U → Bool
  | .advance i _ _ =>
    match c.threads[i]? with
    | some ⟨n, _, .load⟩ => decide (Ev.pending c.log n ≤ 1)
    | some ⟨n, .write u, .ready p⟩ =>
      match c.store.graph p with
        | some g =>
          if (o.apply g u).2 then
            (c.store.cache ++ c.store.jobs ++ c.held).all fun e => decide (e.1 = n → (c.store.graph e.2).isSome → e.2 = p)
          else decide (Ev.pending c.log n ≤ 1)
        | none => true
    | _ => true
  | _ => true

def run (o : GraphOps A C K U) (c : Conc Nm A C K U) (l : List (Act Nm U)) : Conc Nm A C K U := l.foldl (step o) c

def Quiet (o : GraphOps A C K U) : Conc Nm A C K U → List (Act Nm U) → Prop
  | _, [] => True
  | c, x :: r => c.quiet o x = true ∧ Quiet o (c.step o x) r

end Conc

/-- The contents of all corpora according to what happened: the initial contents with all updates. -/
def Ev.contents {Nm A C K U : Type} [LinearOrder Nm] [LinearOrder C] (o : GraphOps A C K U) (corpora : OMap Nm (Content A C K))
    (log : List (Ev Nm A C K U)) : OMap Nm (Content A C K) :=
  log.foldl (fun m e =>
    match e with
    | .created n => m.insert n o.fresh
    | .updated _ n u =>
      match m.get n with
      | some g => m.insert n (o.apply g u).1
      | none => m
    | _ => m) corpora

namespace Rel

variable {Nm A C K U : Type} [LinearOrder Nm] [LinearOrder C]
variable {o : GraphOps A C K U} {s : Store Nm A C K U} {a : Abs Nm A C K} {held seen : List (Nm × Nat)}

/-- Other entries are used. -/
theorem rehold (h : Rel o s a held seen) (held' seen' : List (Nm × Nat)) (h1 : ∀ e ∈ held', e ∈ s.cache ++ held)
    (h2 : ∀ e ∈ seen', e ∈ s.cache ++ s.jobs ++ held ++ seen) : Rel o s a held' seen' := by
  have hold : ∀ e ∈ s.cache ++ s.jobs ++ held' ++ seen', e ∈ s.cache ++ s.jobs ++ held ++ seen := by
    intro e he
    simp only [List.mem_append] at he
    rcases he with ((he | he) | he) | he
    · simp [he]
    · simp [he]
    · rcases List.mem_append.1 (h1 e he) with h | h <;> simp [h]
    · exact h2 e he
  refine { h with cur := ?_, valid := fun e he => h.valid e (hold e he), sep := fun e he e' he' => h.sep e (hold e he) e' (hold e' he') }
  intro e he g hg
  refine h.cur e ?_ g hg
  rcases List.mem_append.1 he with he | he
  · exact List.mem_append_left _ he
  · exact h1 e he

/-- Only the corpora and jobs of the abstract state and the set of left names matter. -/
theorem exchange (h : Rel o s a held seen) {a' : Abs Nm A C K} (h1 : a'.corpora = a.corpora) (h2 : a'.jobs = a.jobs)
    (h3 : ∀ n, n ∈ a'.phantom ↔ n ∈ a.phantom) (h4 : a'.pend = a.pend) : Rel o s a' held seen := by
  refine ⟨h.sd, by rw [h1]; exact h.sc, by rw [h1]; exact h.dom, by rw [h1, h4]; exact h.disk, by rw [h2, h4]; exact h.idle, by rw [h1]; exact h.cur, h.nodup,
    by rw [h2]; exact h.jobs, by rw [h1]; exact h.jobsOk, h.valid, h.sep, fun n => (h3 n).trans (h.phantom n)⟩

end Rel

namespace Conc

variable {Nm A C K U : Type} [LinearOrder Nm] [LinearOrder C] {o : GraphOps A C K U} {corpora : OMap Nm (Content A C K)}

theorem contents_append (l : List (Ev Nm A C K U)) (e : Ev Nm A C K U) :
    Ev.contents o corpora (l ++ [e]) =
      match e with
      | .created n => (Ev.contents o corpora l).insert n o.fresh
      | .updated _ n u =>
        match (Ev.contents o corpora l).get n with
        | some g => (Ev.contents o corpora l).insert n (o.apply g u).1
        | none => Ev.contents o corpora l
      | _ => Ev.contents o corpora l := by
  unfold Ev.contents
  rw [List.foldl_append]
  rfl

theorem pending_append (l : List (Ev Nm A C K U)) (e : Ev Nm A C K U) (n : Nm) :
    Ev.pending (l ++ [e]) n =
      match e with
      | .created m => if m = n then 0 else Ev.pending l n
      | .updated _ m _ => if m = n then Ev.pending l n + 1 else Ev.pending l n
      | .written m => if m = n then 0 else Ev.pending l n
      | _ => Ev.pending l n := by
  unfold Ev.pending
  rw [List.foldl_append]
  rfl

/-- The content was the current one at a moment after the client began. -/
def Fresh (o : GraphOps A C K U) (corpora : OMap Nm (Content A C K)) (log : List (Ev Nm A C K U)) (i : Nat) (n : Nm)
    (g : Content A C K) : Prop :=
  ∃ j, j ≤ log.length ∧ (Ev.contents o corpora (log.take j)).get n = some g ∧
    ∀ (b : Nat) (n' : Nm), log[b]? = some (.began i n') → n' = n ∧ b < j

/-- What the log says about answers is right. -/
def Right (o : GraphOps A C K U) (corpora : OMap Nm (Content A C K)) (log : List (Ev Nm A C K U)) : Prop :=
  ∀ k, (∀ i n g, log[k]? = some (.answered i n g) → Fresh o corpora (log.take k) i n g ∧
      ∀ b n', log[b]? = some (.began i n') → b < k) ∧
    (∀ i n e, log[k]? = some (.failed i n e) →
      (e = .noSuchCorpus ∧ (Ev.contents o corpora (log.take k)).get n = none) ∨ e = .updateFailed)

structure Inv (o : GraphOps A C K U) (corpora : OMap Nm (Content A C K)) (c : Conc Nm A C K U) (a : Abs Nm A C K) : Prop where
  rel : Rel o c.store a c.held c.seen
  contents : a.corpora = Ev.contents o corpora c.log
  pend : ∀ n, a.pend n = Ev.pending c.log n
  began : ∀ (b i : Nat) (n : Nm), c.log[b]? = some (.began i n) → ∃ t, c.threads[i]? = some t ∧ t.name = n
  jobs : ∀ n ∈ a.jobs, (a.corpora.get n).isSome = true
  loaded : ∀ e ∈ c.held, (c.store.graph e.2).isSome = true
  reading : ∀ (i : Nat) (t : Thread Nm U) (p : Nat), c.threads[i]? = some t → t.kind = .read → t.pc = .ready p →
    ∃ g, c.store.graph p = some g ∧ Fresh o corpora c.log i t.name g
  right : Right o corpora c.log
  bounded : ∀ (k i : Nat) (n : Nm) (g : Content A C K), c.log[k]? = some (.answered i n g) → i < c.threads.length

theorem Fresh.mono {log : List (Ev Nm A C K U)} {i : Nat} {n : Nm} {g : Content A C K} (h : Fresh o corpora log i n g)
    (ev : List (Ev Nm A C K U)) (hev : ∀ e ∈ ev, ∀ n', e ≠ .began i n') : Fresh o corpora (log ++ ev) i n g := by
  obtain ⟨j, h1, h2, h3⟩ := h
  refine ⟨j, by rw [List.length_append]; omega, by rw [List.take_append_of_le_length h1]; exact h2, ?_⟩
  intro b n' hb
  by_cases hl : b < log.length
  · rw [List.getElem?_append_left hl] at hb
    exact h3 b n' hb
  · rw [List.getElem?_append_right (by omega)] at hb
    exact absurd rfl (hev _ (List.mem_of_getElem? hb) n')

/-- The current content is fresh for every client. -/
theorem fresh_now {c : Conc Nm A C K U} {a : Abs Nm A C K} (h : Inv o corpora c a) {i : Nat} {t : Thread Nm U}
    (ht : c.threads[i]? = some t) {g : Content A C K} (hg : a.corpora.get t.name = some g) : Fresh o corpora c.log i t.name g := by
  refine ⟨c.log.length, Nat.le_refl _, by rw [List.take_length, ← h.contents]; exact hg, ?_⟩
  intro b n' hb
  obtain ⟨t', h1, h2⟩ := h.began b i n' hb
  rw [ht] at h1
  obtain rfl := Option.some.inj h1
  exact ⟨h2.symm, (List.getElem?_eq_some_iff.1 hb).1⟩

theorem Right.append {log : List (Ev Nm A C K U)} (h : Right o corpora log) (e : Ev Nm A C K U)
    (hb : ∀ i n, e = .began i n → ∀ (k : Nat) (n' : Nm) g, log[k]? ≠ some (.answered i n' g))
    (ha : ∀ i n g, e = .answered i n g → Fresh o corpora log i n g)
    (hf : ∀ i n x, e = .failed i n x → (x = .noSuchCorpus ∧ (Ev.contents o corpora log).get n = none) ∨ x = .updateFailed) :
    Right o corpora (log ++ [e]) := by
  intro k
  have hlt : ∀ {x}, (log ++ [e])[k]? = some x → k < log.length ∨ (k = log.length ∧ x = e) := by
    intro x hx
    by_cases hk : k < log.length
    · exact .inl hk
    · right
      have := (List.getElem?_eq_some_iff.1 hx).1
      rw [List.length_append, List.length_singleton] at this
      have hk' : k = log.length := by omega
      subst hk'
      rw [List.getElem?_append_right (Nat.le_refl _), Nat.sub_self] at hx
      exact ⟨rfl, (Option.some.inj hx).symm⟩
  constructor
  · intro i n g hx
    rcases hlt hx with hk | ⟨hk, he⟩
    · rw [List.getElem?_append_left hk] at hx
      obtain ⟨h1, h2⟩ := (h k).1 i n g hx
      refine ⟨by rw [List.take_append_of_le_length (Nat.le_of_lt hk)]; exact h1, ?_⟩
      intro b n' hbb
      by_cases hl : b < log.length
      · rw [List.getElem?_append_left hl] at hbb
        exact h2 b n' hbb
      · have hl2 := (List.getElem?_eq_some_iff.1 hbb).1
        rw [List.length_append, List.length_singleton] at hl2
        have : b = log.length := by omega
        subst this
        rw [List.getElem?_append_right (Nat.le_refl _), Nat.sub_self] at hbb
        exact absurd hx (hb i n' (Option.some.inj hbb) k n g)
    · subst hk
      refine ⟨?_, ?_⟩
      · rw [List.take_append_of_le_length (Nat.le_refl _), List.take_length]
        exact ha i n g he.symm
      · intro b n' hbb
        have hl2 := (List.getElem?_eq_some_iff.1 hbb).1
        rw [List.length_append, List.length_singleton] at hl2
        by_contra hc
        have : b = log.length := by omega
        subst this
        rw [hx] at hbb
        cases hbb
  · intro i n x hx
    rcases hlt hx with hk | ⟨hk, he⟩
    · rw [List.getElem?_append_left hk] at hx
      rw [List.take_append_of_le_length (Nat.le_of_lt hk)]
      exact (h k).2 i n x hx
    · subst hk
      rw [List.take_append_of_le_length (Nat.le_refl _), List.take_length]
      exact hf i n x he.symm

/-- Membership in `held` and `seen`. -/
theorem mem_held {c : Conc Nm A C K U} {e : Nm × Nat} :
    e ∈ c.held ↔ ∃ (i : Nat) (t : Thread Nm U) (u : U), c.threads[i]? = some t ∧ t.kind = .write u ∧ t.pc = .ready e.2 ∧ t.name = e.1 := by
  unfold held
  rw [List.mem_filterMap]
  constructor
  · rintro ⟨⟨n, k, pc⟩, ht, h⟩
    obtain ⟨i, hi⟩ := List.mem_iff_getElem?.1 ht
    cases k with
    | read => cases h
    | write u =>
      cases pc with
      | ready p =>
        obtain rfl := Option.some.inj h
        exact ⟨i, _, u, hi, rfl, rfl, rfl⟩
      | start => cases h
      | load => cases h
      | done => cases h
  · rintro ⟨i, t, u, ht, h1, h2, h3⟩
    refine ⟨t, List.mem_of_getElem? ht, ?_⟩
    rw [h1, h2, h3]

theorem mem_seen {c : Conc Nm A C K U} {e : Nm × Nat} :
    e ∈ c.seen ↔ ∃ (i : Nat) (t : Thread Nm U), c.threads[i]? = some t ∧ t.kind = .read ∧ t.pc = .ready e.2 ∧ t.name = e.1 := by
  unfold seen
  rw [List.mem_filterMap]
  constructor
  · rintro ⟨⟨n, k, pc⟩, ht, h⟩
    obtain ⟨i, hi⟩ := List.mem_iff_getElem?.1 ht
    cases k with
    | write u => cases h
    | read =>
      cases pc with
      | ready p =>
        obtain rfl := Option.some.inj h
        exact ⟨i, _, hi, rfl, rfl, rfl⟩
      | start => cases h
      | load => cases h
      | done => cases h
  · rintro ⟨i, t, ht, h1, h2, h3⟩
    refine ⟨t, List.mem_of_getElem? ht, ?_⟩
    rw [h1, h2, h3]

/-- The threads after `goto`. -/
theorem get_goto {c : Conc Nm A C K U} {i : Nat} {t : Thread Nm U} (ht : c.threads[i]? = some t) (pc : Pc) (k : Nat) :
    (c.threads.set i { t with pc := pc })[k]? = if k = i then some { t with pc := pc } else c.threads[k]? := by
  by_cases e : k = i
  · subst e
    rw [if_pos rfl, List.getElem?_set_self (List.getElem?_eq_some_iff.1 ht).1]
  · rw [if_neg e, List.getElem?_set_ne (fun h => e h.symm)]

/-- A client that moves on keeps the invariant: its new entry is in the cache and loaded, or it has none. -/
theorem inv_goto {c : Conc Nm A C K U} {a a' : Abs Nm A C K} (h : Inv o corpora c a) {i : Nat} {t : Thread Nm U}
    (ht : c.threads[i]? = some t) (pc : Pc) (s' : Store Nm A C K U) (ev : List (Ev Nm A C K U)) (hrel : Rel o s' a' c.held c.seen)
    (hpc : ∀ p, pc = .ready p → (t.name, p) ∈ s'.cache ∧ ∃ g, s'.graph p = some g ∧ a'.corpora.get t.name = some g)
    (hcon : a'.corpora = Ev.contents o corpora (c.log ++ ev)) (hpend : ∀ n, a'.pend n = Ev.pending (c.log ++ ev) n) (hev : ∀ e ∈ ev, ∀ k n, e ≠ .began k n)
    (hjobs : ∀ n ∈ a'.jobs, (a'.corpora.get n).isSome = true)
    (hload : ∀ p, (∃ n, (n, p) ∈ c.held ++ c.seen) → (c.store.graph p).isSome = true → (s'.graph p).isSome = true)
    (hread : ∀ (k : Nat) (u : Thread Nm U) (p : Nat), k ≠ i → c.threads[k]? = some u → u.kind = .read → u.pc = .ready p →
      ∃ g, s'.graph p = some g ∧ Fresh o corpora (c.log ++ ev) k u.name g)
    (hright : Right o corpora (c.log ++ ev)) (hbound : ∀ e ∈ ev, ∀ k n g, e = .answered k n g → k = i) : Inv o corpora (c.goto i t pc s' ev) a' := by
  have hget : ∀ k, (c.goto i t pc s' ev).threads[k]? = if k = i then some { t with pc := pc } else c.threads[k]? := get_goto ht pc
  have hheld : ∀ e ∈ (c.goto i t pc s' ev).held, (e ∈ c.held) ∨ (e.1 = t.name ∧ pc = .ready e.2) := by
    intro e he
    obtain ⟨k, u, w, h1, h2, h3, h4⟩ := mem_held.1 he
    rw [hget] at h1
    split at h1
    · obtain rfl := Option.some.inj h1
      exact .inr ⟨h4.symm, h3⟩
    · exact .inl (mem_held.2 ⟨k, u, w, h1, h2, h3, h4⟩)
  have hseen : ∀ e ∈ (c.goto i t pc s' ev).seen, (e ∈ c.seen) ∨ (e.1 = t.name ∧ pc = .ready e.2) := by
    intro e he
    obtain ⟨k, u, h1, h2, h3, h4⟩ := mem_seen.1 he
    rw [hget] at h1
    split at h1
    · obtain rfl := Option.some.inj h1
      exact .inr ⟨h4.symm, h3⟩
    · exact .inl (mem_seen.2 ⟨k, u, h1, h2, h3, h4⟩)
  have hbeg : ∀ (b k : Nat) (n : Nm), (c.log ++ ev)[b]? = some (.began k n) → ∃ u, c.threads[k]? = some u ∧ u.name = n := by
    intro b k n hb
    by_cases hl : b < c.log.length
    · rw [List.getElem?_append_left hl] at hb
      exact h.began b k n hb
    · rw [List.getElem?_append_right (by omega)] at hb
      exact absurd rfl (hev _ (List.mem_of_getElem? hb) k n)
  refine ⟨?_, hcon, hpend, ?_, hjobs, ?_, ?_, hright, ?_⟩
  · refine hrel.rehold _ _ ?_ ?_
    · intro e he
      rcases hheld e he with he | ⟨h1, h2⟩
      · exact List.mem_append_right _ he
      · refine List.mem_append_left _ ?_
        have := (hpc e.2 h2).1
        rw [← h1] at this
        exact this
    · intro e he
      rcases hseen e he with he | ⟨h1, h2⟩
      · exact List.mem_append_right _ he
      · have := (hpc e.2 h2).1
        rw [← h1] at this
        simp only [List.mem_append]
        exact .inl (.inl (.inl this))
  · intro b k n hb
    obtain ⟨u, h1, h2⟩ := hbeg b k n hb
    rw [hget]
    split
    · rename_i e
      subst e
      rw [ht] at h1
      obtain rfl := Option.some.inj h1
      exact ⟨_, rfl, h2⟩
    · exact ⟨u, h1, h2⟩
  · intro e he
    rcases hheld e he with he | ⟨h1, h2⟩
    · exact hload e.2 ⟨e.1, List.mem_append_left _ he⟩ (h.loaded e he)
    · obtain ⟨_, g, hg, _⟩ := hpc e.2 h2
      show (s'.graph e.2).isSome = true
      rw [hg]; rfl
  · intro k u p hk hread' hp
    rw [hget] at hk
    split at hk
    · rename_i e
      subst e
      obtain rfl := Option.some.inj hk
      obtain ⟨_, g, hg, hg'⟩ := hpc p hp
      refine ⟨g, hg, (c.log ++ ev).length, Nat.le_refl _, ?_, ?_⟩
      · show (Ev.contents o corpora ((c.log ++ ev).take _)).get t.name = some g
        rw [List.take_length, ← hcon]
        exact hg'
      · intro b n' hb
        obtain ⟨u, h1, h2⟩ := hbeg b k n' hb
        rw [ht] at h1
        obtain rfl := Option.some.inj h1
        exact ⟨h2.symm, (List.getElem?_eq_some_iff.1 hb).1⟩
    · rename_i e
      exact hread k u p e hk hread' hp

  · intro k j n g hk
    show j < (c.threads.set i _).length
    rw [List.length_set]
    change (c.log ++ ev)[k]? = _ at hk
    by_cases hl : k < c.log.length
    · rw [List.getElem?_append_left hl] at hk
      exact h.bounded k j n g hk
    · rw [List.getElem?_append_right (by omega)] at hk
      rw [hbound _ (List.mem_of_getElem? hk) j n g rfl]
      exact (List.getElem?_eq_some_iff.1 ht).1

/-- A step that only changes the cache, the disk or the jobs. -/
theorem inv_store {c : Conc Nm A C K U} {a a' : Abs Nm A C K} (h : Inv o corpora c a) (s' : Store Nm A C K U)
    (hrel : Rel o s' a' c.held c.seen) (hheap : s'.heap = c.store.heap) (hcon : a'.corpora = a.corpora)
    (hpend : a'.pend = a.pend) (hjobs : ∀ n ∈ a'.jobs, n ∈ a.jobs) : Inv o corpora { c with store := s' } a' := by
  have hg : ∀ p, s'.graph p = c.store.graph p := by
    intro p
    unfold Store.graph
    rw [hheap]
  refine ⟨hrel, hcon.trans h.contents, by rw [hpend]; exact h.pend, h.began, ?_, ?_, ?_, h.right, h.bounded⟩
  · intro n hn
    rw [hcon]
    exact h.jobs n (hjobs n hn)
  · intro e he
    show (s'.graph e.2).isSome = true
    rw [hg]
    exact h.loaded e he
  · intro i t p h1 h2 h3
    show ∃ g, s'.graph p = some g ∧ _
    rw [hg]
    exact h.reading i t p h1 h2 h3

theorem graph_getEntry {s : Store Nm A C K U} {n : Nm} {p : Nat} {g : Content A C K} (h : s.graph p = some g) :
    (s.getEntry n).1.graph p = some g := by
  unfold Store.getEntry
  cases cacheGet s.cache n with
  | some q => exact h
  | none => exact (graph_append (s := s) (graph_lt h)).trans h

theorem graph_addEntry {s : Store Nm A C K U} {n : Nm} {p : Nat} {g x : Content A C K} {m : Mem} (h : s.graph p = some g) :
    (Store.addEntry s n x m).1.graph p = some g :=
  (graph_append (s := s) (graph_lt h)).trans h

theorem graph_loadEntry {s : Store Nm A C K U} {n : Nm} {p : Nat} {g : Content A C K} {create : Bool} {m1 m2 : Mem}
    (h : s.graph p = some g) : (Store.loadEntry o s n create m1 m2).1.graph p = some g := by
  unfold Store.loadEntry
  cases s.disk.get n with
  | none =>
    simp only
    split
    · exact graph_addEntry h
    · exact h
  | some d =>
    simp only
    cases openGraph o.apply d with
    | none => exact h
    | some r => exact graph_addEntry h

theorem inv_start {c : Conc Nm A C K U} {a : Abs Nm A C K} (h : Inv o corpora c a) {i : Nat} {t : Thread Nm U}
    (ht : c.threads[i]? = some t) :
    Inv o corpora (c.goto i t (if ((c.store.getEntry t.name).1.graph (c.store.getEntry t.name).2).isSome then .ready (c.store.getEntry t.name).2 else .load)
      (c.store.getEntry t.name).1 []) (a.touch t.name) := by
  obtain ⟨h1, h2, h3⟩ := h.rel.getEntry t.name
  have hco : (a.touch t.name).corpora = a.corpora := by unfold Abs.touch; split <;> rfl
  have hjo : (a.touch t.name).jobs = a.jobs := by unfold Abs.touch; split <;> rfl
  have hpo : (a.touch t.name).pend = a.pend := by unfold Abs.touch; split <;> rfl
  refine inv_goto h ht _ _ [] h1 ?_ ?_ (by rw [hpo, List.append_nil]; exact h.pend) (by simp) ?_ ?_ ?_ (by simpa using h.right) (by simp)
  · intro p hp
    split at hp
    · rename_i hl
      obtain rfl := Pc.ready.inj hp
      obtain ⟨g, hg⟩ := Option.isSome_iff_exists.1 hl
      exact ⟨h2, g, hg, h1.cur _ (List.mem_append_left _ h2) g hg⟩
    · cases hp
  · rw [hco, List.append_nil]; exact h.contents
  · rw [hco, hjo]; exact h.jobs
  · intro p _ hp
    obtain ⟨g, hg⟩ := Option.isSome_iff_exists.1 hp
    rw [graph_getEntry hg]; rfl
  · intro k u p hk hu h1 h2
    obtain ⟨g, hg, hf⟩ := h.reading k u p hu h1 h2
    exact ⟨g, graph_getEntry hg, by rw [List.append_nil]; exact hf⟩

theorem inv_load {c : Conc Nm A C K U} {a : Abs Nm A C K} (hfs : o.fresh.comps.Sorted) (h : Inv o corpora c a) {i : Nat}
    {t : Thread Nm U} (ht : c.threads[i]? = some t) (hpc : t.pc = .load) (m1 m2 : Mem) (hq : c.quiet o (.advance i m1 m2) = true) :
    ∃ a', Inv o corpora (c.advance o i m1 m2 t) a' := by
  have hlo : ∀ (s' : Store Nm A C K U), (Store.loadEntry o c.store t.name (Kind.creates t.kind) m1 m2).1 = s' →
      ∀ p, (c.store.graph p).isSome = true → (s'.graph p).isSome = true := by
    intro s' hs p hp
    obtain ⟨g, hg⟩ := Option.isSome_iff_exists.1 hp
    rw [← hs, graph_loadEntry hg]; rfl
  have hre : ∀ (s' : Store Nm A C K U) (ev : List (Ev Nm A C K U)),
      (Store.loadEntry o c.store t.name (Kind.creates t.kind) m1 m2).1 = s' → (∀ e ∈ ev, ∀ k n, e ≠ .began k n) →
      ∀ (k : Nat) (u : Thread Nm U) (p : Nat), k ≠ i → c.threads[k]? = some u → u.kind = .read → u.pc = .ready p →
        ∃ g, s'.graph p = some g ∧ Fresh o corpora (c.log ++ ev) k u.name g := by
    intro s' ev hs hev k u p _ hu h1 h2
    obtain ⟨g, hg, hf⟩ := h.reading k u p hu h1 h2
    exact ⟨g, by rw [← hs]; exact graph_loadEntry hg, hf.mono ev fun e he n' => hev e he k n'⟩
  unfold advance
  rw [hpc]
  simp only
  have hpe : a.pend t.name ≤ 1 := by
    unfold quiet at hq
    obtain ⟨tn, tk, tp⟩ := t
    simp only at hpc
    subst hpc
    simp only [ht, decide_eq_true_eq] at hq
    rw [h.pend]
    exact hq
  cases hg : a.corpora.get t.name with
  | some g =>
    obtain ⟨s', p, e1, e2, e3, e4, _⟩ := h.rel.loadEntry_some hg (Kind.creates t.kind) m1 m2 hpe
    obtain ⟨d, hd⟩ := h.rel.disk_some hg
    have hl := hlo s' (by rw [e1])
    have hr := hre s' [] (by rw [e1]) (by simp)
    rw [e1, hd]
    simp only [Option.isSome_some, if_true]
    refine ⟨a, inv_goto h ht _ _ [] e2 ?_ (by rw [List.append_nil]; exact h.contents) (by rw [List.append_nil]; exact h.pend) (by simp) h.jobs (fun p _ => hl p) hr
      (by simpa using h.right) (by simp)⟩
    intro q hq
    obtain rfl := Pc.ready.inj hq
    exact ⟨e4, g, e3, hg⟩
  | none =>
    have hd := h.rel.disk_none hg
    cases hk : Kind.creates t.kind with
    | false =>
      have e1 : Store.loadEntry o c.store t.name false m1 m2 = (c.store, .error .noSuchCorpus) := by
        unfold Store.loadEntry
        rw [hd]
        rfl
      rw [hk] at hre
      have hr := hre c.store [.failed i t.name .noSuchCorpus] (by rw [e1]) (by simp)
      rw [e1]
      refine ⟨a, inv_goto h ht _ _ [.failed i t.name .noSuchCorpus] h.rel (fun p hp => by cases hp) ?_ ?_ (by simp) h.jobs (fun p _ hp => hp) hr
        ?_ (by simp)⟩
      · rw [contents_append]; exact h.contents
      · intro n; rw [pending_append]; exact h.pend n
      · refine h.right.append _ (fun _ _ hx => by cases hx) (fun _ _ _ hx => by cases hx) ?_
        intro i' n x hx
        cases hx
        exact .inl ⟨rfl, by rw [← h.contents]; exact hg⟩
    | true =>
      have hj : t.name ∉ a.jobs := by
        intro hj
        have := h.jobs _ hj
        rw [hg] at this
        cases this
      have hh : t.name ∉ c.held.map Prod.fst := by
        intro hh
        obtain ⟨e, he, hen⟩ := List.mem_map.1 hh
        obtain ⟨g, hgg⟩ := Option.isSome_iff_exists.1 (h.loaded e he)
        have := h.rel.cur e (List.mem_append_right _ he) g hgg
        rw [hen, hg] at this
        cases this
      obtain ⟨s', p, e1, e2, e3, e4⟩ := h.rel.loadEntry_create hg m1 m2 hfs hj hh
      rw [hk] at hlo hre
      have hl := hlo s' (by rw [e1])
      have hr := hre s' [.created t.name] (by rw [e1]) (by simp)
      rw [e1, hd]
      simp only [Option.isSome_none, if_false, Bool.false_eq_true]
      have hget : ∀ m, ((a.put t.name o.fresh 0).corpora).get m = if m = t.name then some o.fresh else a.corpora.get m :=
        fun m => OMap.get_insert _ _ _ _
      refine ⟨_, inv_goto h ht _ _ [.created t.name] e2 ?_ ?_ ?_ (by simp) ?_ (fun p _ => hl p) hr ?_ (by simp)⟩
      · intro q hq
        obtain rfl := Pc.ready.inj hq
        exact ⟨e4, _, e3, OMap.get_insert_self _ _ _⟩
      · rw [contents_append, ← h.contents]; rfl
      · intro n
        rw [pending_append]
        show Function.update a.pend t.name 0 n = if t.name = n then 0 else Ev.pending c.log n
        by_cases e : n = t.name
        · rw [e, Function.update_self, if_pos rfl]
        · rw [Function.update_of_ne e, if_neg (fun h => e h.symm), h.pend]
      · intro n hn
        rw [hget]
        split
        · rfl
        · exact h.jobs n hn
      · exact h.right.append _ (fun _ _ hx => by cases hx) (fun _ _ _ hx => by cases hx) (fun _ _ _ hx => by cases hx)

theorem inv_read {c : Conc Nm A C K U} {a : Abs Nm A C K} (h : Inv o corpora c a) {i : Nat} {t : Thread Nm U} {p : Nat}
    (ht : c.threads[i]? = some t) (hpc : t.pc = .ready p) (hk : t.kind = .read) (m1 m2 : Mem) :
    Inv o corpora (c.advance o i m1 m2 t) a := by
  obtain ⟨g, hg, hf⟩ := h.reading i t p ht hk hpc
  unfold advance
  rw [hpc, hk]
  simp only [hg]
  refine inv_goto h ht _ _ [.answered i t.name g] h.rel (fun p hp => by cases hp) ?_ ?_ (by simp) h.jobs (fun p _ hp => hp) ?_ ?_ ?_
  · rw [contents_append]; exact h.contents
  · intro n; rw [pending_append]; exact h.pend n
  · intro k u p' hk' hu h1 h2
    obtain ⟨g', hg', hf'⟩ := h.reading k u p' hu h1 h2
    exact ⟨g', hg', hf'.mono _ (by simp)⟩
  · refine h.right.append _ (fun _ _ hx => by cases hx) ?_ (fun _ _ _ hx => by cases hx)
    intro i' n g' hx
    cases hx
    exact hf
  · intro e he k n g' hx
    rw [List.mem_singleton] at he
    rw [he] at hx
    cases hx
    rfl

theorem inv_write {c : Conc Nm A C K U} {a : Abs Nm A C K} (hsort : ∀ g u, g.comps.Sorted → (o.apply g u).1.comps.Sorted)
    (h : Inv o corpora c a) {i : Nat} {t : Thread Nm U} {p : Nat} {u : U} (ht : c.threads[i]? = some t) (hpc : t.pc = .ready p)
    (hk : t.kind = .write u) (m1 m2 : Mem) (hq : c.quiet o (.advance i m1 m2) = true) :
    ∃ a', Inv o corpora (c.advance o i m1 m2 t) a' := by
  have hmem : (t.name, p) ∈ c.held := mem_held.2 ⟨i, t, u, ht, hk, hpc, rfl⟩
  obtain ⟨g, hg⟩ := Option.isSome_iff_exists.1 (h.loaded _ hmem)
  have hcur := h.rel.cur _ (List.mem_append_right _ hmem) g hg
  have hcur' : a.corpora.get t.name = some g := hcur
  have hg' : c.store.graph p = some g := hg
  obtain ⟨d, hd⟩ := h.rel.disk_some hcur'
  have hsg := (h.rel.disk _ d g hd hcur').1
  unfold advance
  rw [hpc, hk]
  simp only
  by_cases hu : (o.apply g u).2 = true
  · have hq' : Rel.Only c.store c.held t.name p := by
      unfold quiet at hq
      obtain ⟨tn, tk, tp⟩ := t
      simp only at hpc hk
      subst hpc hk
      simp only [ht, hg', hu, if_true, decide_eq_true_eq, List.all_eq_true] at hq
      exact hq
    obtain ⟨s', e1, e2, e3, e4⟩ := h.rel.applyEntry_ok hg' hcur' u hu (hsort g u hsg) hq' (by simp [hmem])
    rw [e1]
    have hget : ∀ m, ((a.put t.name (o.apply g u).1 (a.pend t.name + 1)).corpora).get m = if m = t.name then some (o.apply g u).1 else a.corpora.get m :=
      fun m => OMap.get_insert _ _ _ _
    have hcon : (a.put t.name (o.apply g u).1 (a.pend t.name + 1)).corpora = Ev.contents o corpora (c.log ++ [.updated i t.name u]) := by
      rw [contents_append]
      simp only
      rw [← h.contents, hcur']
      rfl
    refine ⟨_, inv_goto h ht _ _ [.updated i t.name u] e2 (fun p hp => by cases hp) hcon ?_ (by simp) ?_ ?_ ?_ ?_ (by simp)⟩
    · intro n
      rw [pending_append]
      show Function.update a.pend t.name (a.pend t.name + 1) n = if t.name = n then Ev.pending c.log n + 1 else Ev.pending c.log n
      by_cases e : n = t.name
      · rw [e, Function.update_self, if_pos rfl, h.pend]
      · rw [Function.update_of_ne e, if_neg (fun h => e h.symm), h.pend]
    · intro n hn
      show (((a.put t.name (o.apply g u).1 (a.pend t.name + 1)).corpora).get n).isSome = true
      rw [hget]
      split
      · rfl
      · rename_i hne
        rcases List.mem_append.1 hn with hn | hn
        · exact h.jobs n hn
        · rw [List.mem_singleton] at hn
          exact absurd hn hne
    · intro q _ hq2
      rw [e4]
      split
      · rfl
      · exact hq2
    · intro k w q hk' hw h1 h2
      obtain ⟨g', hg2, hf'⟩ := h.reading k w q hw h1 h2
      rw [e4]
      split
      · rename_i e
        subst e
        have hname : w.name = t.name :=
          h.rel.sep (w.name, q) (List.mem_append_right _ (mem_seen.2 ⟨k, w, hw, h1, h2, rfl⟩)) (t.name, q) (by simp [hmem]) rfl
        refine ⟨_, rfl, (c.log ++ [Ev.updated i t.name u]).length, Nat.le_refl _, ?_, ?_⟩
        · rw [List.take_length, ← hcon, hget, if_pos hname]
        · intro b n' hb
          by_cases hl : b < c.log.length
          · rw [List.getElem?_append_left hl] at hb
            obtain ⟨w', i1, i2⟩ := h.began b k n' hb
            rw [hw] at i1
            obtain rfl := Option.some.inj i1
            exact ⟨i2.symm, by rw [List.length_append]; omega⟩
          · rw [List.getElem?_append_right (by omega)] at hb
            have := List.mem_of_getElem? hb
            simp at this
      · exact ⟨g', hg2, hf'.mono _ (by simp)⟩
    · exact h.right.append _ (fun _ _ hx => by cases hx) (fun _ _ _ hx => by cases hx) (fun _ _ _ hx => by cases hx)
  · have hpe : a.pend t.name ≤ 1 := by
      unfold quiet at hq
      obtain ⟨tn, tk, tp⟩ := t
      simp only at hpc hk
      subst hpc hk
      simp only [ht, hg', hu, if_false, Bool.false_eq_true, decide_eq_true_eq] at hq
      rw [h.pend]
      exact hq
    rw [h.rel.applyEntry_fail hg' hcur' u (by simpa using hu) hpe]
    refine ⟨a, inv_goto h ht _ _ [.failed i t.name .updateFailed] h.rel (fun p hp => by cases hp) ?_ ?_ (by simp) h.jobs (fun p _ hp => hp) ?_ ?_ (by simp)⟩
    · rw [contents_append]; exact h.contents
    · intro n; rw [pending_append]; exact h.pend n
    · intro k w q hk' hw h1 h2
      obtain ⟨g', hg2, hf'⟩ := h.reading k w q hw h1 h2
      exact ⟨g', hg2, hf'.mono _ (by simp)⟩
    · refine h.right.append _ (fun _ _ hx => by cases hx) (fun _ _ _ hx => by cases hx) ?_
      intro i' n x hx
      cases hx
      exact .inr rfl

theorem inv_step {c : Conc Nm A C K U} {a : Abs Nm A C K} (hfs : o.fresh.comps.Sorted)
    (hsort : ∀ g u, g.comps.Sorted → (o.apply g u).1.comps.Sorted) (h : Inv o corpora c a) (x : Act Nm U)
    (hq : c.quiet o x = true) : ∃ a', Inv o corpora (c.step o x) a' := by
  cases x with
  | spawn n k =>
    have hheld : ∀ e, e ∈ (c.step o (.spawn n k)).held → e ∈ c.held := by
      intro e he
      unfold held step at he
      simp only [List.filterMap_append, List.mem_append] at he
      rcases he with he | he
      · exact he
      · cases k <;> simp at he
    have hseen : ∀ e, e ∈ (c.step o (.spawn n k)).seen → e ∈ c.seen := by
      intro e he
      unfold seen step at he
      simp only [List.filterMap_append, List.mem_append] at he
      rcases he with he | he
      · exact he
      · cases k <;> simp at he
    refine ⟨a, h.rel.rehold _ _ (fun e he => List.mem_append_right _ (hheld e he)) (fun e he => List.mem_append_right _ (hseen e he)),
      ?_, ?_, ?_, h.jobs, fun e he => h.loaded e (hheld e he), ?_, ?_, ?_⟩
    · show a.corpora = Ev.contents o corpora (c.log ++ [_])
      rw [contents_append]; exact h.contents
    · intro n'
      show _ = Ev.pending (c.log ++ [_]) n'
      rw [pending_append]; exact h.pend n'
    · intro b i n' hb
      change (c.log ++ [_])[b]? = _ at hb
      show ∃ t, (c.threads ++ [_])[i]? = some t ∧ _
      by_cases hl : b < c.log.length
      · rw [List.getElem?_append_left hl] at hb
        obtain ⟨t, h1, h2⟩ := h.began b i n' hb
        exact ⟨t, by rw [List.getElem?_append_left (List.getElem?_eq_some_iff.1 h1).1]; exact h1, h2⟩
      · rw [List.getElem?_append_right (by omega)] at hb
        have := List.mem_of_getElem? hb
        rw [List.mem_singleton] at this
        cases this
        exact ⟨_, by rw [List.getElem?_append_right (Nat.le_refl _), Nat.sub_self]; rfl, rfl⟩
    · intro i t p h1 h2 h3
      change (c.threads ++ [_])[i]? = some t at h1
      by_cases hl : i < c.threads.length
      · rw [List.getElem?_append_left hl] at h1
        obtain ⟨g, hg, hf⟩ := h.reading i t p h1 h2 h3
        refine ⟨g, hg, hf.mono [.began c.threads.length n] ?_⟩
        intro e he n' hx
        rw [List.mem_singleton] at he
        rw [he] at hx
        cases hx
        exact absurd hl (Nat.lt_irrefl _)
      · rw [List.getElem?_append_right (by omega)] at h1
        have := List.mem_of_getElem? h1
        rw [List.mem_singleton] at this
        subst this
        cases h3
    · refine h.right.append _ ?_ (fun _ _ _ hx => by cases hx) (fun _ _ _ hx => by cases hx)
      intro i n' hx k' n2 g hk
      cases hx
      exact absurd (h.bounded k' _ n2 g hk) (Nat.lt_irrefl _)
    · intro k' i n' g hk
      change (c.log ++ [_])[k']? = _ at hk
      show i < (c.threads ++ [_]).length
      rw [List.length_append]
      by_cases hl : k' < c.log.length
      · rw [List.getElem?_append_left hl] at hk
        exact Nat.lt_of_lt_of_le (h.bounded k' i n' g hk) (Nat.le_add_right _ _)
      · rw [List.getElem?_append_right (by omega)] at hk
        have := List.mem_of_getElem? hk
        rw [List.mem_singleton] at this
        cases this
  | advance i m1 m2 =>
    unfold step
    simp only
    cases ht : c.threads[i]? with
    | none => exact ⟨a, h⟩
    | some t =>
      simp only
      cases hpc : t.pc with
      | start =>
        have := inv_start h ht
        refine ⟨a.touch t.name, ?_⟩
        unfold advance
        rw [hpc]
        exact this
      | load => exact inv_load hfs h ht hpc m1 m2 hq
      | ready p =>
        cases hk : t.kind with
        | read => exact ⟨a, inv_read h ht hpc hk m1 m2⟩
        | write u => exact inv_write hsort h ht hpc hk m1 m2 hq
      | done =>
        unfold advance
        rw [hpc]
        exact ⟨a, h⟩
  | work i =>
    obtain ⟨h1, h2, h3⟩ := h.rel.work i
    have hg : ∀ p, (c.store.work i).graph p = c.store.graph p := by
      intro p
      unfold Store.graph
      rw [h3]
    refine ⟨a.written i, ?_⟩
    cases hi : c.store.jobs[i]? with
    | none =>
      have hai : a.jobs[i]? = none := by rw [← h.rel.jobs, List.getElem?_map, hi]; rfl
      have e : c.step o (.work i) = { c with store := c.store.work i } := by
        unfold step
        simp only [hi]
        simp
      rw [e]
      refine inv_store h _ h1 h3 rfl ?_ fun n hn => List.mem_of_mem_eraseIdx hn
      unfold Abs.written
      rw [hai]
    | some j =>
      have hai : a.jobs[i]? = some j.1 := by rw [← h.rel.jobs, List.getElem?_map, hi]; rfl
      have e : c.step o (.work i) = { c with store := c.store.work i, log := c.log ++ [.written j.1] } := by
        unfold step
        simp only [hi]
        rfl
      rw [e]
      have hbegan : ∀ (b k : Nat) (n : Nm), (c.log ++ [Ev.written j.1])[b]? = some (.began k n) → c.log[b]? = some (.began k n) := by
        intro b k n hb
        by_cases hl : b < c.log.length
        · rw [List.getElem?_append_left hl] at hb
          exact hb
        · rw [List.getElem?_append_right (by omega)] at hb
          have := List.mem_of_getElem? hb
          rw [List.mem_singleton] at this
          cases this
      refine ⟨h1, ?_, ?_, fun b k n hb => h.began b k n (hbegan b k n hb), fun n hn => h.jobs n (List.mem_of_mem_eraseIdx hn), ?_, ?_, ?_, ?_⟩
      · rw [contents_append]; exact h.contents
      · intro n
        rw [pending_append]
        unfold Abs.written
        rw [hai]
        show Function.update a.pend j.1 0 n = if j.1 = n then 0 else Ev.pending c.log n
        by_cases e : n = j.1
        · rw [e, Function.update_self, if_pos rfl]
        · rw [Function.update_of_ne e, if_neg (fun h => e h.symm), h.pend]
      · intro e he
        show ((c.store.work i).graph e.2).isSome = true
        rw [hg]
        exact h.loaded e he
      · intro k t p h1 h2 h3
        obtain ⟨g, i1, i2⟩ := h.reading k t p h1 h2 h3
        exact ⟨g, (hg p).trans i1, i2.mono _ (by simp)⟩
      · exact h.right.append _ (fun _ _ hx => by cases hx) (fun _ _ _ hx => by cases hx) (fun _ _ _ hx => by cases hx)
      · intro k i' n g hk
        by_cases hl : k < c.log.length
        · rw [List.getElem?_append_left hl] at hk
          exact h.bounded k i' n g hk
        · rw [List.getElem?_append_right (by omega)] at hk
          have := List.mem_of_getElem? hk
          rw [List.mem_singleton] at this
          cases this
  | evict m keep => exact ⟨_, inv_store h _ (h.rel.evict m keep) rfl rfl rfl fun n hn => hn⟩
  | unload n => exact ⟨_, inv_store h _ (h.rel.unload n) rfl rfl rfl fun n hn => hn⟩

theorem inv_run (hfs : o.fresh.comps.Sorted) (hsort : ∀ g u, g.comps.Sorted → (o.apply g u).1.comps.Sorted) (l : List (Act Nm U)) :
    ∀ (c : Conc Nm A C K U) (a : Abs Nm A C K), Inv o corpora c a → Quiet o c l → ∃ a', Inv o corpora (c.run o l) a' := by
  induction l with
  | nil => intro c a h _; exact ⟨a, h⟩
  | cons x r ih =>
    intro c a h hq
    obtain ⟨a', h'⟩ := inv_step hfs hsort h x hq.1
    exact ih _ a' h' hq.2

end Conc

variable {Nm A C K U : Type} [LinearOrder Nm] [LinearOrder C]

/-- C53, restricted: in every interleaving of clients, background writers, evictions and `unload`, every query returns the initial
content of the corpus with all updates (in the order in which they happened, each applied to the result of the one before) up to some
moment after the query began and before it returned.  So it observes all updates that returned before it began.  A query fails only if
the corpus does not exist.  Restricted to executions where a corpus is only loaded and updates only fail when at most one update of the
corpus is not written back, and where an update is only made when there is no other loaded entry of this corpus; without these
conditions it is false (`C53_fails`, `C53_evicted_fails`, `C51_fails`, `C51_failed_update_fails`, `C51_stale_writer_fails`). -/
theorem C53_partial (o : GraphOps A C K U) (hf : o.fresh.comps.Sorted)
    (hsort : ∀ g u, g.comps.Sorted → (o.apply g u).1.comps.Sorted) (disk : OMap Nm (Disk A C K U))
    (corpora : OMap Nm (Content A C K)) (hd : Holds o disk corpora) (acts : List (Act Nm U))
    (hq : Conc.Quiet o ⟨Store.opened disk, [], []⟩ acts) (k : Nat) :
    let log := (Conc.run o ⟨Store.opened disk, [], []⟩ acts).log
    (∀ (i : Nat) (n : Nm) (g : Content A C K), log[k]? = some (.answered i n g) →
      ∃ j ≤ k, (Ev.contents o corpora (log.take j)).get n = some g ∧
        ∀ (b : Nat) (n' : Nm), log[b]? = some (.began i n') → n' = n ∧ b < j) ∧
    (∀ (i : Nat) (n : Nm) (e : SErr), log[k]? = some (.failed i n e) →
      (e = .noSuchCorpus ∧ (Ev.contents o corpora (log.take k)).get n = none) ∨ e = .updateFailed) := by
  intro log
  have h0 : Conc.Inv o corpora (⟨Store.opened disk, [], []⟩ : Conc Nm A C K U) ⟨corpora, [], [], fun _ => 0⟩ := by
    refine ⟨opened_rel hd, rfl, fun _ => rfl, ?_, ?_, ?_, ?_, ?_, ?_⟩
    · intro b i n hb; simp at hb
    · simp
    · simp [Conc.held]
    · intro i t p ht; simp at ht
    · intro k; exact ⟨fun i n g hx => by simp at hx, fun i n g hx => by simp at hx⟩
    · intro k i n g hx; simp at hx
  obtain ⟨a, h⟩ := Conc.inv_run hf hsort acts _ _ h0 hq
  refine ⟨?_, (h.right k).2⟩
  intro i n g hx
  obtain ⟨⟨j, h1, h2, h3⟩, h4⟩ := (h.right k).1 i n g hx
  have hkl : k < log.length := (List.getElem?_eq_some_iff.1 hx).1
  rw [List.length_take] at h1
  have hjk : j ≤ k := by omega
  refine ⟨j, hjk, ?_, ?_⟩
  · have : (log.take k).take j = log.take j := by rw [List.take_take, Nat.min_eq_left hjk]
    change (Ev.contents o corpora ((log.take k).take j)).get n = some g at h2
    rw [this] at h2
    exact h2
  · intro b n' hb
    refine h3 b n' ?_
    rw [List.getElem?_take_of_lt (h4 b n' hb)]
    exact hb

/-! ### Examples -/

namespace StorageEx
open Graph PersistEx Store

abbrev Co := Conc Nat (AnnoStore NodeID64 Nat Nat) Nat (Adj NodeID64 Nat Nat) (List (Nat × ExEvent))
abbrev CAct := Act Nat (List (Nat × ExEvent))

/-- The corpus 1 exists and is empty. -/
def disk1 : OMap Nat (Disk (AnnoStore NodeID64 Nat Nat) Nat (Adj NodeID64 Nat Nat) (List (Nat × ExEvent))) := [(1, saved g0)]

def conc1 : Co := ⟨Store.opened disk1, [], []⟩

def go (i : Nat) : CAct := .advance i big big

/-- Client, and whether the nodes 10 and 12 are in the answer. -/
def answers (c : Co) : List (Nat × Bool × Bool) :=
  c.log.filterMap fun e =>
    match e with
    | .answered i _ g => some (i, g.annos.hasNodeName exNk 10, g.annos.hasNodeName exNk 12)
    | _ => none

/-- Clients whose update returned successfully, and the beginning of clients. -/
def order (c : Co) : List (Bool × Nat) :=
  c.log.filterMap fun e =>
    match e with
    | .updated i _ _ => some (true, i)
    | .began i _ => some (false, i)
    | _ => none

/-- C53 fails: two clients find the corpus not loaded and both load it.  The update of the first one changes an entry which is not in the
cache any more, and the query of client 2, which begins after the update returned, does not observe it. -/
theorem C53_fails :
    let c := conc1.run ops [.spawn 1 (.write u1), .spawn 1 .read, go 0, go 1, go 0, go 1, go 0, .spawn 1 .read, go 2, go 2]
    order c = [(false, 0), (false, 1), (true, 0), (false, 2)] ∧ answers c = [(2, false, false)] := by decide +kernel

/-- C53 fails: the corpus is evicted and loaded again while a client is between getting the entry and updating it. -/
theorem C53_evicted_fails :
    let c := conc1.run ops [.spawn 1 (.write u1), go 0, go 0, .evict small [], .spawn 1 .read, go 1, go 1, go 1, go 0, .spawn 1 .read,
      go 2, go 2]
    order c = [(false, 0), (false, 1), (true, 0), (false, 2)] ∧ answers c = [(1, false, false), (2, false, false)] := by decide +kernel

/-- Two updating and three reading clients with evictions; the second update is made before the first one is written back. -/
def calm : List CAct :=
  [.spawn 1 (.write u1), .spawn 1 .read, go 0, go 0, go 1, go 0, .evict small [], .spawn 1 (.write u2), .spawn 1 .read, go 3, go 3, go 1,
   .work 0, go 2, go 2, .spawn 1 .read, go 4, go 3, go 4, .spawn 1 (.write u1), go 5, go 5, .spawn 1 .read, go 6, go 6, .work 1, .evict small [],
   .spawn 1 .read, go 7, go 7, go 7]

theorem C53_nonvacuous :
    Conc.Quiet ops conc1 calm ∧ Holds ops disk1 [(1, g0)] ∧
    answers (conc1.run ops calm) = [(1, true, false), (3, true, true), (4, true, true), (6, true, true), (7, true, true)] := by
  refine ⟨?_, ?_, by decide +kernel⟩
  · repeat' (first | exact trivial | refine ⟨by decide +kernel, ?_⟩)
  · refine ⟨List.pairwise_singleton _ _, List.pairwise_singleton _ _, ?_, ?_⟩
    · intro n
      by_cases e : n = 1
      · subst e; rfl
      · simp [disk1, OMap.get, e]
    · intro n d g h1 h2
      by_cases e : n = 1
      · subst e
        obtain rfl := Option.some.inj h1
        obtain rfl := Option.some.inj h2
        exact ⟨OMap.sorted_nil, saved_synced app g0 OMap.sorted_nil⟩
      · have h1' := OMap.mem_of_get h1
        simp [disk1] at h1'
        exact absurd h1'.1 e

end StorageEx
