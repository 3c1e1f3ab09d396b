import Verif.Info.Model
import Verif.Load.Props

/-!
# C116: information about corpora
-/

set_option linter.unusedSimpArgs false
set_option linter.unusedSectionVars false
set_option linter.unusedVariables false

namespace Info

open Load

variable {Nm S σ E Cfg : Type} [LinearOrder Nm] [LinearOrder S] [OrderBot S]

/-! ### Specification -/

/-- The corpus is in memory, without or with some of its components. -/
def InMemory (s : State Nm S σ E Cfg) (n : Nm) : Prop := ∃ g, s.cache n = some (some g)

/-- The storage of this component of the corpus is in memory. -/
def Held (s : State Nm S σ E Cfg) (n : Nm) (c : CKey S) (x : σ) : Prop := ∃ g, s.cache n = some (some g) ∧ OMap.get g c = some (some x)

/-- The directory has this component. -/
def Has (s : State Nm S σ E Cfg) (n : Nm) (c : CKey S) : Prop := ∃ d, s.disk.get n = some d ∧ c ∈ d.comps

/-- What is said about one component. -/
def Tells (r : Reads σ E) (s : State Nm S σ E Cfg) (n : Nm) (i : GsInfo S) : Prop :=
  (∃ x, Held s n i.component x ∧ i.status = .fullyLoaded ∧ r.count x = .ok i.annotations ∧ i.implementation = r.impl x) ∨
    ((¬ ∃ x, Held s n i.component x) ∧ i.status = .notLoaded ∧ i.annotations = 0 ∧ i.implementation = [])

/-- A correct description of a corpus in a state. -/
structure Correct (r : Reads σ E) (dflt : Cfg) (s : State Nm S σ E Cfg) (n : Nm) (i : CInfo Nm S Cfg) : Prop where
  name : i.name = n
  config : ∀ d c, s.disk.get n = some d → d.config = some (.ok c) → i.config = c
  noConfig : (∀ d, s.disk.get n = some d → d.config = none) → i.config = dflt
  notLoaded : i.status = .notLoaded ↔ ¬ InMemory s n
  partially : i.status = .partiallyLoaded ↔ InMemory s n ∧ ∃ c, Has s n c ∧ ¬ ∃ x, Held s n c x
  fully : i.status = .fullyLoaded ↔ InMemory s n ∧ ∀ c, Has s n c → ∃ x, Held s n c x
  once : (i.graphstorages.map GsInfo.component).Pairwise (· < ·)
  components : ∀ c, c ∈ i.graphstorages.map GsInfo.component ↔ InMemory s n ∧ Has s n c
  tells : ∀ k ∈ i.graphstorages, Tells r s n k

/-- Two states have the same directories and the same in memory. -/
def Same (s s' : State Nm S σ E Cfg) : Prop := s.disk = s'.disk ∧ ∀ n g, s.cache n = some (some g) ↔ s'.cache n = some (some g)

/-- The invariant: an entry of the cache that is loaded has the components of its directory, and storages as they are in the files. -/
structure Inv (s : State Nm S σ E Cfg) : Prop where
  sorted : OMap.Sorted s.disk
  entry : ∀ n g, s.cache n = some (some g) → ∃ d, s.disk.get n = some d ∧ OMap.Sorted g ∧ (∀ c, c ∈ OMap.keys g ↔ c ∈ d.comps) ∧
    ∀ c x, OMap.get g c = some (some x) → d.files c = .ok x

/-! ### Entries -/

section
variable {s : State Nm S σ E Cfg}

theorem same_refl : Same s s := ⟨rfl, fun _ _ => Iff.rfl⟩

theorem same_trans {a b c : State Nm S σ E Cfg} (h : Same a b) (h' : Same b c) : Same a c :=
  ⟨h.1.trans h'.1, fun n g => (h.2 n g).trans (h'.2 n g)⟩

theorem same_symm {a b : State Nm S σ E Cfg} (h : Same a b) : Same b a := ⟨h.1.symm, fun n g => (h.2 n g).symm⟩

theorem Inv.same {s' : State Nm S σ E Cfg} (h : Same s s') (hi : Inv s) : Inv s' :=
  ⟨h.1 ▸ hi.sorted, fun n g hg => by rw [← h.1]; exact hi.entry n g ((h.2 n g).2 hg)⟩

theorem getEntry_same (n : Nm) : Same s (s.getEntry n).1 := by
  unfold State.getEntry
  split
  · exact same_refl
  · rename_i hn
    refine ⟨rfl, fun m g => ?_⟩
    by_cases h : m = n
    · subst h; simp [hn]
    · simp [Function.update_of_ne h]

theorem getEntry_some {n : Nm} {g : Comps S σ} : (s.getEntry n).2 = some g ↔ s.cache n = some (some g) := by
  unfold State.getEntry
  split <;> rename_i h <;> rw [h] <;> simp

theorem evict_disk (rm : List Nm) (keep : Nm) : (s.evict rm keep).disk = s.disk := rfl

theorem evict_keep (rm : List Nm) (keep : Nm) : (s.evict rm keep).cache keep = s.cache keep := by
  unfold State.evict
  simp only [ne_eq, not_true_eq_false, and_false, if_false]
  split <;> simp_all

theorem evict_some {rm : List Nm} {keep n : Nm} {g : Comps S σ} (h : (s.evict rm keep).cache n = some (some g)) : s.cache n = some (some g) := by
  unfold State.evict at h
  simp only at h
  split at h
  · rename_i h'
    split at h
    · cases h
    · rw [h', h]
  · exact h

theorem evict_inv (hi : Inv s) (rm : List Nm) (keep : Nm) : Inv (s.evict rm keep) :=
  ⟨hi.sorted, fun n g hg => hi.entry n g (evict_some hg)⟩

/-- Other entries are unchanged or gone. -/
def Kept (s s' : State Nm S σ E Cfg) (n : Nm) : Prop := ∀ m, m ≠ n → ∀ g, s'.cache m = some (some g) → s.cache m = some (some g)

theorem evict_kept (rm : List Nm) (keep n : Nm) : Kept s (s.evict rm keep) n := fun _ _ _ h => evict_some h

theorem Kept.trans {a b c : State Nm S σ E Cfg} {n : Nm} (h : Kept a b n) (h' : Kept b c n) : Kept a c n :=
  fun m hm g hg => h m hm g (h' m hm g hg)

theorem opened_get (l : List (CKey S)) (g : Comps S σ) (c : CKey S) :
    OMap.get (l.foldl (fun g c => OMap.insert g c none) g) c = if c ∈ l then some none else OMap.get g c := by
  induction l generalizing g with
  | nil => simp
  | cons a r ih =>
    rw [List.foldl_cons, ih, OMap.get_insert]
    by_cases h : c ∈ r
    · simp [h]
    · by_cases h' : c = a
      · simp [h']
      · simp [h, h']

theorem opened_sorted (l : List (CKey S)) (g : Comps S σ) (hg : OMap.Sorted g) : OMap.Sorted (l.foldl (fun g c => OMap.insert g c none) g) := by
  induction l generalizing g with
  | nil => exact hg
  | cons a r ih => exact ih _ (OMap.sorted_insert hg _ _)

theorem loadEntry_spec (hi : Inv s) (n : Nm) (rm1 rm2 : List Nm) : Inv (s.loadEntry n rm1 rm2).1 ∧ (s.loadEntry n rm1 rm2).1.disk = s.disk ∧
    Kept s (s.loadEntry n rm1 rm2).1 n ∧
    ∀ g, (s.loadEntry n rm1 rm2).2 = .ok g → (s.loadEntry n rm1 rm2).1.cache n = some (some g) ∧
      ∃ d, s.disk.get n = some d ∧ d.openError = none ∧ g = State.opened d := by
  unfold State.loadEntry
  split
  · exact ⟨hi, rfl, fun _ _ _ h => h, fun g h => by cases h⟩
  · rename_i d hd
    simp only
    split
    · exact ⟨evict_inv hi _ _, rfl, evict_kept _ _ _, fun g h => by cases h⟩
    · rename_i ho
      have h1 : Inv ({ s.evict rm1 n with cache := Function.update (s.evict rm1 n).cache n (some (some (State.opened d))) } : State Nm S σ E Cfg) := by
        refine ⟨hi.sorted, fun m g hg => ?_⟩
        by_cases h : m = n
        · subst h
          simp only [Function.update_self, Option.some.injEq] at hg
          subst hg
          refine ⟨d, hd, opened_sorted _ _ OMap.sorted_nil, fun c => ?_, fun c x hx => ?_⟩
          · rw [OMap.mem_keys_iff, State.opened, opened_get]
            by_cases hc : c ∈ d.comps <;> simp [hc]
          · rw [State.opened, opened_get] at hx
            by_cases hc : c ∈ d.comps <;> simp [hc] at hx
        · simp only [Function.update_of_ne h] at hg
          exact (evict_inv hi rm1 n).entry m g hg
      refine ⟨evict_inv h1 _ _, rfl, ?_, ?_⟩
      · refine Kept.trans (evict_kept rm1 n n) (Kept.trans ?_ (evict_kept rm2 n n))
        intro m hm g hg
        simp only [Function.update_of_ne hm] at hg
        exact hg
      · intro g hg
        cases hg
        refine ⟨?_, d, hd, ho, rfl⟩
        rw [evict_keep]
        simp

theorem getLoaded_spec (hi : Inv s) (n : Nm) (rm1 rm2 : List Nm) : Inv (s.getLoaded n rm1 rm2).1 ∧ (s.getLoaded n rm1 rm2).1.disk = s.disk ∧
    Kept s (s.getLoaded n rm1 rm2).1 n ∧ (∀ g, s.cache n = some (some g) → (s.getLoaded n rm1 rm2).2 = .ok g) ∧
    ∀ g, (s.getLoaded n rm1 rm2).2 = .ok g → (s.getLoaded n rm1 rm2).1.cache n = some (some g) := by
  have hs := getEntry_same (s := s) n
  have hi' := hi.same hs
  unfold State.getLoaded
  split
  · rename_i s' g he
    have h1 : s' = (s.getEntry n).1 := by rw [he]
    have h2 : (s.getEntry n).2 = some g := by rw [he]
    subst h1
    have h3 := getEntry_some.1 h2
    refine ⟨hi', hs.1.symm, fun m _ g' h => (hs.2 m g').2 h, fun g' h => ?_, fun g' h => ?_⟩
    · rw [h3] at h; cases h; rfl
    · cases h; exact (hs.2 n g).1 h3
  · rename_i s' he
    have h1 : s' = (s.getEntry n).1 := by rw [he]
    have h2 : (s.getEntry n).2 = none := by rw [he]
    subst h1
    obtain ⟨a, b, c, d⟩ := loadEntry_spec hi' n rm1 rm2
    refine ⟨a, b.trans hs.1.symm, Kept.trans (fun m _ g' h => (hs.2 m g').2 h) c, fun g' h => ?_, fun g h => (d g h).1⟩
    rw [getEntry_some.2 h] at h2
    cases h2

theorem load_spec (hi : Inv s) {n : Nm} {g : Comps S σ} (hg : s.cache n = some (some g)) (cs : List (CKey S)) :
    Inv (s.load n g cs).1 ∧ (s.load n g cs).1.disk = s.disk ∧ Kept s (s.load n g cs).1 n ∧
    (∀ c x, Held s n c x → Held (s.load n g cs).1 n c x) ∧ InMemory (s.load n g cs).1 n ∧
    ((s.load n g cs).2 = .ok () → ∀ c ∈ cs, Has s n c → ∃ x, Held (s.load n g cs).1 n c x) := by
  obtain ⟨d, hd, h1, h2, h3⟩ := hi.entry n g hg
  have hget := ensureLoaded_get (s.files n) g cs
  have hsort : OMap.Sorted (ensureLoaded (s.files n) g cs).1 := insertLoaded_sorted h1 _
  have hkeys : ∀ c, c ∈ OMap.keys (ensureLoaded (s.files n) g cs).1 ↔ c ∈ OMap.keys g := by
    intro c
    rw [OMap.mem_keys_iff, OMap.mem_keys_iff]
    rcases hget c with h | ⟨x, _, h, _, h'⟩
    · rw [h]
    · simp [h, h']
  have hfiles : ∀ c x, OMap.get (ensureLoaded (s.files n) g cs).1 c = some (some x) → d.files c = .ok x := by
    intro c x hx
    rcases hget c with h | ⟨y, _, _, h, h'⟩
    · exact h3 c x (h ▸ hx)
    · rw [h'] at hx
      cases hx
      unfold State.files at h
      rw [hd] at h
      simp only at h
      split at h
      · rename_i e; cases h; exact e
      · cases h
  unfold State.load
  refine ⟨⟨hi.sorted, fun m g' hg' => ?_⟩, rfl, ?_, ?_, ⟨(ensureLoaded (s.files n) g cs).1, Function.update_self ..⟩, ?_⟩
  · by_cases h : m = n
    · subst h
      simp only [Function.update_self, Option.some.injEq] at hg'
      subst hg'
      exact ⟨d, hd, hsort, fun c => (hkeys c).trans (h2 c), hfiles⟩
    · simp only [Function.update_of_ne h] at hg'
      exact hi.entry m g' hg'
  · intro m hm g' hg'
    simp only [Function.update_of_ne hm] at hg'
    exact hg'
  · rintro c x ⟨g', hg', hx⟩
    rw [hg] at hg'
    cases hg'
    refine ⟨(ensureLoaded (s.files n) g cs).1, Function.update_self .., ?_⟩
    rcases hget c with h | ⟨y, _, h, _⟩
    · rw [h]; exact hx
    · rw [hx] at h; cases h
  · intro hok c hc ⟨d', hd', hcd⟩
    rw [hd] at hd'
    cases hd'
    generalize hr : ensureLoaded (s.files n) g cs = r at *
    obtain ⟨g', res⟩ := r
    cases res with
    | error e => cases hok
    | ok l =>
      have hne := ensureLoaded_ok hr hc
      obtain ⟨v, hv⟩ := OMap.mem_keys_iff.1 ((hkeys c).2 ((h2 c).2 hcd))
      cases v with
      | none => exact absurd hv hne
      | some x => exact ⟨x, g', Function.update_self .., hv⟩

/-! ### Operations -/

/-- What an operation on the corpus `n` that loads something does. -/
structure Loads (s s' : State Nm S σ E Cfg) (n : Nm) : Prop where
  inv : Inv s'
  disk : s'.disk = s.disk
  kept : Kept s s' n
  held : ∀ c x, Held s n c x → Held s' n c x
  mem : InMemory s n → InMemory s' n

theorem load_all (hi : Inv s) {n : Nm} {g : Comps S σ} (hg : s.cache n = some (some g)) (cs : List (CKey S)) : Loads s (s.load n g cs).1 n := by
  obtain ⟨a, b, c, d, e, _⟩ := load_spec hi hg cs
  exact ⟨a, b, c, d, fun _ => e⟩

theorem Loads.trans {a b c : State Nm S σ E Cfg} {n : Nm} (h : Loads a b n) (h' : Loads b c n) : Loads a c n :=
  ⟨h'.inv, h'.disk.trans h.disk, h.kept.trans h'.kept, fun k x hx => h'.held k x (h.held k x hx), fun hm => h'.mem (h.mem hm)⟩

theorem loads_evict (hi : Inv s) (rm : List Nm) (n : Nm) : Loads s (s.evict rm n) n :=
  ⟨evict_inv hi _ _, rfl, evict_kept _ _ _, fun c x ⟨g, h, hx⟩ => ⟨g, by rw [evict_keep]; exact h, hx⟩,
    fun ⟨g, h⟩ => ⟨g, by rw [evict_keep]; exact h⟩⟩

theorem loads_getLoaded (hi : Inv s) (n : Nm) (rm1 rm2 : List Nm) : Loads s (s.getLoaded n rm1 rm2).1 n := by
  obtain ⟨a, b, c, d, e⟩ := getLoaded_spec hi n rm1 rm2
  exact ⟨a, b, c, fun k x ⟨g, h, hx⟩ => ⟨g, e g (d g h), hx⟩, fun ⟨g, h⟩ => ⟨g, e g (d g h)⟩⟩

/-- The common part of `preload` and `use`. -/
theorem use_spec (hi : Inv s) (n : Nm) (q : Except E (Comps S σ → List (CKey S))) (rm1 rm2 rm3 : List Nm) : Loads s (s.use n q rm1 rm2 rm3).1 n ∧
    ((s.use n q rm1 rm2 rm3).2 = .ok () → InMemory (s.use n q rm1 rm2 rm3).1 n ∧ ∃ needs g, q = .ok needs ∧
      (∀ c, c ∈ OMap.keys g ↔ Has s n c) ∧ (∀ c x, OMap.get g c = some (some x) → Held (s.use n q rm1 rm2 rm3).1 n c x) ∧
      ∀ c ∈ needs g, Has s n c → ∃ x, Held (s.use n q rm1 rm2 rm3).1 n c x) := by
  have hl := loads_getLoaded hi n rm1 rm2
  have hg := (getLoaded_spec hi n rm1 rm2).2.2.2.2
  unfold State.use
  generalize s.getLoaded n rm1 rm2 = p at *
  obtain ⟨s1, res⟩ := p
  cases res with
  | error e => exact ⟨hl, fun h => by cases h⟩
  | ok g =>
    have hg := hg g rfl
    cases q with
    | error e => exact ⟨hl, fun h => by cases h⟩
    | ok needs =>
      simp only at hl hg ⊢
      have h1 := load_all hl.inv hg (needs g)
      obtain ⟨_, _, _, h4, h5, h6⟩ := load_spec hl.inv hg (needs g)
      generalize s1.load n g (needs g) = p at *
      obtain ⟨s2, res⟩ := p
      cases res with
      | error e => exact ⟨hl.trans h1, fun h => by cases h⟩
      | ok u =>
        simp only at h1 h4 h5 h6 ⊢
        have h7 := loads_evict h1.inv rm3 n
        refine ⟨(hl.trans h1).trans h7, fun _ => ⟨h7.mem h5, needs, g, rfl, fun c => ?_, fun c x hx => h7.held c x (h4 c x ⟨g, hg, hx⟩), fun c hc hh => ?_⟩⟩
        · obtain ⟨d, hd, _, hk, _⟩ := hl.inv.entry n g hg
          rw [hl.disk] at hd
          rw [hk]
          exact ⟨fun h => ⟨d, hd, h⟩, fun ⟨d', hd', h⟩ => by rw [hd] at hd'; cases hd'; exact h⟩
        · obtain ⟨x, hx⟩ := h6 (by trivial) c hc (by obtain ⟨d, hd, h⟩ := hh; exact ⟨d, by rw [hl.disk]; exact hd, h⟩)
          exact ⟨x, h7.held c x hx⟩

theorem evict_stays {rm : List Nm} {keep m : Nm} (h : m ∉ rm) : (s.evict rm keep).cache m = s.cache m := by
  unfold State.evict
  simp only [h, false_and, if_false]
  split <;> simp_all

theorem loadEntry_stays {n m : Nm} {rm1 rm2 : List Nm} (h1 : m ∉ rm1) (h2 : m ∉ rm2) (hm : m ≠ n) : (s.loadEntry n rm1 rm2).1.cache m = s.cache m := by
  unfold State.loadEntry
  split
  · rfl
  · simp only
    split
    · exact evict_stays h1
    · rw [evict_stays h2]
      simp only [Function.update_of_ne hm]
      exact evict_stays h1

theorem getLoaded_stays {n m : Nm} {rm1 rm2 : List Nm} (h1 : m ∉ rm1) (h2 : m ∉ rm2) (hm : m ≠ n) : (s.getLoaded n rm1 rm2).1.cache m = s.cache m := by
  have he : (s.getEntry n).1.cache m = s.cache m := by
    unfold State.getEntry
    split
    · rfl
    · exact Function.update_of_ne hm ..
  unfold State.getLoaded
  split
  · rename_i s' g e
    rw [e] at he
    exact he
  · rename_i s' e
    rw [e] at he
    exact (loadEntry_stays h1 h2 hm).trans he

theorem use_stays {n m : Nm} {q : Except E (Comps S σ → List (CKey S))} {rm1 rm2 rm3 : List Nm} (h1 : m ∉ rm1) (h2 : m ∉ rm2) (h3 : m ∉ rm3)
    (hm : m ≠ n) : (s.use n q rm1 rm2 rm3).1.cache m = s.cache m := by
  have hg := getLoaded_stays (s := s) h1 h2 hm
  unfold State.use
  generalize s.getLoaded n rm1 rm2 = p at *
  obtain ⟨s1, res⟩ := p
  cases res with
  | error e => exact hg
  | ok g =>
    cases q with
    | error e => exact hg
    | ok needs =>
      have hl : (s1.load n g (needs g)).1.cache m = s1.cache m := Function.update_of_ne hm ..
      simp only
      generalize s1.load n g (needs g) = p at *
      obtain ⟨s2, res⟩ := p
      cases res with
      | error e => exact hl.trans hg
      | ok u => exact (evict_stays h3).trans (hl.trans hg)

theorem preload_eq (n : Nm) (rm1 rm2 rm3 : List Nm) :
    s.preload n rm1 rm2 rm3 = s.use n (.ok fun g => (g.filter fun e => e.2.isNone).map Prod.fst) rm1 rm2 rm3 := rfl

theorem listLoop_same (r : Reads σ E) (dflt : Cfg) (s : State Nm S σ E Cfg) (ns : List Nm) : Same s (listLoop r dflt s ns).1 := by
  induction ns generalizing s with
  | nil => exact same_refl
  | cons n ns ih =>
    have h1 : Same s (info r dflt s n).1 := getEntry_same n
    unfold listLoop
    generalize info r dflt s n = p at *
    obtain ⟨s1, res⟩ := p
    cases res with
    | error e => exact h1
    | ok i =>
      have h2 := ih s1
      simp only
      generalize listLoop r dflt s1 ns = q at *
      obtain ⟨s2, res⟩ := q
      cases res <;> exact same_trans h1 h2

end

section
variable (r : Reads σ E) (dflt : Cfg)

theorem step_inv {s : State Nm S σ E Cfg} (hi : Inv s) (op : Op Nm S σ E) : Inv (step r dflt s op) := by
  cases op with
  | info n => exact hi.same (getEntry_same n)
  | list readable ord => exact hi.same (listLoop_same r dflt s _)
  | preload n a b c => exact (use_spec hi n (.ok _) a b c).1.inv
  | use n q a b c => exact (use_spec hi n q a b c).1.inv
  | unload n =>
    refine ⟨hi.sorted, fun m g hg => ?_⟩
    by_cases h : m = n
    · subst h; simp [step, State.unload] at hg
    · simp only [step, State.unload, Function.update_of_ne h] at hg
      exact hi.entry m g hg
  | delete n =>
    refine ⟨OMap.sorted_erase hi.sorted n, fun m g hg => ?_⟩
    by_cases h : m = n
    · subst h; simp [step, State.delete] at hg
    · simp only [step, State.delete, Function.update_of_ne h] at hg ⊢
      rw [OMap.get_erase_ne _ h]
      exact hi.entry m g hg

/-- A storage that was just created for a data directory. -/
def start (disk : OMap Nm (Dir S σ E Cfg)) : State Nm S σ E Cfg := ⟨disk, fun _ => none⟩

theorem run_inv {disk : OMap Nm (Dir S σ E Cfg)} (hd : OMap.Sorted disk) (ops : List (Op Nm S σ E)) : Inv (run r dflt (start disk) ops) := by
  have : ∀ s : State Nm S σ E Cfg, Inv s → Inv (run r dflt s ops) := by
    induction ops with
    | nil => exact fun s h => h
    | cons op ops ih => exact fun s h => ih _ (step_inv r dflt h op)
  exact this _ ⟨hd, fun n g h => by cases h⟩

/-! ### The description -/

theorem allComps_all (g : Comps S σ) : allComps g none none = OMap.keys g := by
  unfold allComps getAllComponents
  simp

theorem gsLoop_ok {g : Comps S σ} {cs : List (CKey S)} {st st' : Status} {l : List (GsInfo S)} (h : gsLoop r g cs st = .ok (st', l)) :
    l.map GsInfo.component = cs ∧ ((∃ c ∈ cs, getGs g c = none) ∧ st' = .partiallyLoaded ∨ (∀ c ∈ cs, ∃ x, getGs g c = some x) ∧ st' = st) ∧
    ∀ k ∈ l, (∃ x, getGs g k.component = some x ∧ k.status = .fullyLoaded ∧ r.count x = .ok k.annotations ∧ k.implementation = r.impl x) ∨
      (getGs g k.component = none ∧ k.status = .notLoaded ∧ k.annotations = 0 ∧ k.implementation = []) := by
  induction cs generalizing st st' l with
  | nil => cases h; simp
  | cons c cs ih =>
    unfold gsLoop at h
    split at h
    · rename_i x hx
      split at h
      · cases h
      · rename_i k hk
        cases hr : gsLoop r g cs st with
        | error e => rw [hr] at h; cases h
        | ok p =>
          rw [hr] at h
          cases h
          obtain ⟨h1, h2, h3⟩ := ih hr
          refine ⟨by simp [h1], ?_, ?_⟩
          · rcases h2 with ⟨⟨c', hc', hn⟩, e⟩ | ⟨ha, e⟩
            · exact Or.inl ⟨⟨c', List.mem_cons_of_mem _ hc', hn⟩, e⟩
            · exact Or.inr ⟨fun c' hc' => by
                rcases List.mem_cons.1 hc' with rfl | hc'
                · exact ⟨x, hx⟩
                · exact ha c' hc', e⟩
          · intro k' hk'
            rcases List.mem_cons.1 hk' with rfl | hk'
            · exact Or.inl ⟨x, hx, rfl, hk, rfl⟩
            · exact h3 k' hk'
    · rename_i hx
      cases hr : gsLoop r g cs .partiallyLoaded with
      | error e => rw [hr] at h; cases h
      | ok p =>
        rw [hr] at h
        cases h
        obtain ⟨h1, h2, h3⟩ := ih hr
        refine ⟨by simp [h1], Or.inl ⟨⟨c, List.mem_cons_self, hx⟩, ?_⟩, ?_⟩
        · rcases h2 with ⟨_, e⟩ | ⟨_, e⟩ <;> exact e
        · intro k' hk'
          rcases List.mem_cons.1 hk' with rfl | hk'
          · exact Or.inr ⟨hx, rfl, rfl, rfl⟩
          · exact h3 k' hk'

theorem gsLoop_total {g : Comps S σ} (cs : List (CKey S)) (st : Status) :
    (∃ p, gsLoop r g cs st = .ok p) ↔ ∀ c ∈ cs, ∀ x, getGs g c = some x → ∃ k, r.count x = .ok k := by
  induction cs generalizing st with
  | nil => exact iff_of_true ⟨_, rfl⟩ (by simp)
  | cons c cs ih =>
    unfold gsLoop
    split
    · rename_i x hx
      split
      · rename_i e he
        constructor
        · rintro ⟨p, h⟩; cases h
        · intro h
          obtain ⟨k, hk⟩ := h c List.mem_cons_self x hx
          rw [he] at hk; cases hk
      · rename_i k hk
        constructor
        · rintro ⟨p, h⟩
          cases hr : gsLoop r g cs st with
          | error e => rw [hr] at h; cases h
          | ok q =>
            intro c' hc' y hy
            rcases List.mem_cons.1 hc' with rfl | hc'
            · rw [hx] at hy; cases hy; exact ⟨k, hk⟩
            · exact (ih st).1 ⟨q, hr⟩ c' hc' y hy
        · intro h
          obtain ⟨q, hq⟩ := (ih st).2 fun c' hc' => h c' (List.mem_cons_of_mem _ hc')
          exact ⟨_, by rw [hq]; rfl⟩
    · rename_i hx
      constructor
      · rintro ⟨p, h⟩
        cases hr : gsLoop r g cs .partiallyLoaded with
        | error e => rw [hr] at h; cases h
        | ok q =>
          intro c' hc' y hy
          rcases List.mem_cons.1 hc' with rfl | hc'
          · rw [hx] at hy; cases hy
          · exact (ih _).1 ⟨q, hr⟩ c' hc' y hy
      · intro h
        obtain ⟨q, hq⟩ := (ih .partiallyLoaded).2 fun c' hc' => h c' (List.mem_cons_of_mem _ hc')
        exact ⟨_, by rw [hq]; rfl⟩

theorem readConfig_ok {dflt c : Cfg} {o : Option (Dir S σ E Cfg)} (h : readConfig dflt o = (.ok c : Except (Err E) Cfg)) :
    (∀ d c', o = some d → d.config = some (.ok c') → c = c') ∧ ((∀ d, o = some d → d.config = none) → c = dflt) := by
  unfold readConfig at h
  cases o with
  | none => cases h; simp
  | some d =>
    simp only [Option.bind_some] at h
    cases hc : d.config with
    | none =>
      rw [hc] at h
      cases h
      exact ⟨fun d' c' e h' => (by cases e; rw [hc] at h'; cases h'), fun _ => rfl⟩
    | some x =>
      rw [hc] at h
      cases x with
      | error e => cases h
      | ok c0 =>
        cases h
        exact ⟨fun d' c' e h' => (by cases e; rw [hc] at h'; cases h'; rfl), fun h' => by rw [h' d rfl] at hc; cases hc⟩

theorem getGs_some {g : Comps S σ} {c : CKey S} {x : σ} : getGs g c = some x ↔ OMap.get g c = some (some x) := by
  unfold getGs
  split <;> simp_all

theorem held_iff {s : State Nm S σ E Cfg} {n : Nm} {g : Comps S σ} (h : s.cache n = some (some g)) {c : CKey S} {x : σ} :
    Held s n c x ↔ getGs g c = some x := by
  rw [getGs_some]
  exact ⟨fun ⟨g', h', hx⟩ => by rw [h] at h'; cases h'; exact hx, fun hx => ⟨g, h, hx⟩⟩

section
variable {disk : OMap Nm (Dir S σ E Cfg)} (hd : OMap.Sorted disk) (ops : List (Op Nm S σ E))
include hd

/-- **C116**: after any operations, what `info` says about a corpus is correct. -/
theorem C116_info {n : Nm} {i : CInfo Nm S Cfg} (h : (info r dflt (run r dflt (start disk) ops) n).2 = .ok i) :
    Correct r dflt (run r dflt (start disk) ops) n i := by
  have hi := run_inv r dflt hd ops
  generalize run r dflt (start disk) ops = s at *
  have hs := getEntry_same (s := s) n
  unfold info at h
  simp only at h
  rw [← hs.1] at h
  split at h
  · cases h
  · rename_i cfg hc
    cases hg : (s.getEntry n).2 with
    | none =>
      rw [hg] at h
      cases h
      have hm : ¬ InMemory s n := by
        rintro ⟨g, h⟩
        rw [getEntry_some.2 h] at hg
        cases hg
      exact ⟨rfl, (readConfig_ok hc).1, (readConfig_ok hc).2, by simp [hm], by simp [hm], by simp [hm], by simp, by simp [hm], by simp⟩
    | some g =>
      rw [hg] at h
      have hg := getEntry_some.1 hg
      have hm : InMemory s n := ⟨g, hg⟩
      obtain ⟨d, hdd, hsort, hk, hf⟩ := hi.entry n g hg
      simp only [allComps_all] at h
      cases hr : gsLoop r g (OMap.keys g) .fullyLoaded with
      | error e => rw [hr] at h; cases h
      | ok p =>
        rw [hr] at h
        cases h
        obtain ⟨h1, h2, h3⟩ := gsLoop_ok r hr
        have hhas : ∀ c, Has s n c ↔ c ∈ OMap.keys g := fun c => by
          rw [hk]
          exact ⟨fun ⟨d', h, hc⟩ => by rw [hdd] at h; cases h; exact hc, fun h => ⟨d, hdd, h⟩⟩
        have hp : (∃ c, Has s n c ∧ ¬ ∃ x, Held s n c x) ↔ ∃ c ∈ OMap.keys g, getGs g c = none := by
          refine exists_congr fun c => ?_
          rw [hhas]
          refine and_congr_right fun _ => ?_
          simp only [held_iff hg, not_exists]
          exact ⟨fun h => Option.eq_none_iff_forall_ne_some.2 h, fun h x => by rw [h]; simp⟩
        have hfu : (∀ c, Has s n c → ∃ x, Held s n c x) ↔ ∀ c ∈ OMap.keys g, ∃ x, getGs g c = some x := by
          refine forall_congr' fun c => ?_
          rw [hhas]
          simp only [held_iff hg]
        refine ⟨rfl, (readConfig_ok hc).1, (readConfig_ok hc).2, ?_, ?_, ?_, ?_, ?_, ?_⟩
        · rcases h2 with ⟨_, e⟩ | ⟨_, e⟩ <;> simp [e, hm]
        · rw [hp]
          rcases h2 with ⟨a, e⟩ | ⟨a, e⟩
          · simp only [e, hm, true_and, true_iff]; exact a
          · simp only [e, hm, true_and, reduceCtorEq, false_iff, not_exists, not_and]
            intro c hc hn
            obtain ⟨x, hx⟩ := a c hc
            rw [hn] at hx; cases hx
        · rw [hfu]
          rcases h2 with ⟨⟨c, hc, hn⟩, e⟩ | ⟨a, e⟩
          · simp only [e, hm, true_and, reduceCtorEq, false_iff]
            intro h
            obtain ⟨x, hx⟩ := h c hc
            rw [hn] at hx; cases hx
          · simp only [e, hm, true_and, true_iff]; exact a
        · simp only [h1]
          exact OMap.sorted_keys hsort
        · intro c
          simp only [h1, hm, true_and]
          exact (hhas c).symm
        · intro k hk
          rcases h3 k hk with ⟨x, hx, a, b, c⟩ | ⟨hx, a, b, c⟩
          · exact Or.inl ⟨x, (held_iff hg).2 hx, a, b, c⟩
          · refine Or.inr ⟨?_, a, b, c⟩
            simp only [held_iff hg, hx]
            simp

/-- **C116**: `info` fails exactly if the configuration of the corpus is unreadable or the annotations of a storage in memory can not be counted. -/
theorem C116_info_succeeds (n : Nm) : (∃ i, (info r dflt (run r dflt (start disk) ops) n).2 = .ok i) ↔
    (∀ d e, (run r dflt (start disk) ops).disk.get n = some d → d.config ≠ some (.error e)) ∧
      ∀ c x, Held (run r dflt (start disk) ops) n c x → ∃ k, r.count x = .ok k := by
  have hi := run_inv r dflt hd ops
  generalize run r dflt (start disk) ops = s at *
  have hs := getEntry_same (s := s) n
  have hcfg : (∀ d e, s.disk.get n = some d → d.config ≠ some (.error e)) ↔ ∃ c, readConfig dflt (s.disk.get n) = (.ok c : Except (Err E) Cfg) := by
    unfold readConfig
    cases hd : s.disk.get n with
    | none => simp
    | some d =>
      simp only [Option.bind_some, Option.some.injEq]
      cases hc : d.config with
      | none => exact iff_of_true (by rintro _ e rfl; simp [hc]) ⟨_, rfl⟩
      | some x =>
        cases x with
        | ok c => exact iff_of_true (by rintro _ e rfl; simp [hc]) ⟨_, rfl⟩
        | error e =>
          simp only [reduceCtorEq, exists_false, iff_false, not_forall, not_not]
          exact ⟨d, e, rfl, hc⟩
  rw [hcfg]
  unfold info
  simp only
  rw [← hs.1]
  cases readConfig dflt (s.disk.get n) with
  | error e => simp
  | ok cfg =>
    simp only [Except.ok.injEq, exists_eq', true_and]
    cases hg : (s.getEntry n).2 with
    | none =>
      simp only [Except.ok.injEq, exists_eq', true_iff]
      rintro c x ⟨g, h, _⟩
      rw [getEntry_some.2 h] at hg
      cases hg
    | some g =>
      have hg := getEntry_some.1 hg
      have := gsLoop_total r (g := g) (allComps g none none) .fullyLoaded
      simp only [held_iff hg]
      constructor
      · rintro ⟨i, h⟩ c x hx
        refine this.1 ?_ c ?_ x hx
        · cases hr : gsLoop r g (allComps g none none) .fullyLoaded with
          | error e => rw [hr] at h; cases h
          | ok p => exact ⟨p, rfl⟩
        · rw [allComps_all, OMap.mem_keys_iff]
          exact ⟨_, getGs_some.1 hx⟩
      · intro h
        obtain ⟨p, hp⟩ := this.2 fun c _ x hx => h c x hx
        exact ⟨_, by rw [hp]; rfl⟩

/-- **C116**: `info` and `list` load nothing and remove nothing from memory. -/
theorem C116_reads_only (n : Nm) (readable : Bool) (ord : List Nm → List Nm) :
    Same (run r dflt (start disk) ops) (info r dflt (run r dflt (start disk) ops) n).1 ∧
      Same (run r dflt (start disk) ops) (list r dflt (run r dflt (start disk) ops) readable ord).1 :=
  ⟨getEntry_same n, listLoop_same r dflt _ _⟩

theorem correct_same {s s' : State Nm S σ E Cfg} (h : Same s s') {n : Nm} {i : CInfo Nm S Cfg} (hc : Correct r dflt s n i) : Correct r dflt s' n i := by
  have h1 : ∀ n, InMemory s n ↔ InMemory s' n := fun n => exists_congr fun g => h.2 n g
  have h2 : ∀ n c x, Held s n c x ↔ Held s' n c x := fun n c x => exists_congr fun g => and_congr_left' (h.2 n g)
  have h3 : ∀ n c, Has s n c ↔ Has s' n c := fun n c => by unfold Has; rw [h.1]
  obtain ⟨a, b, b', c, d, e, f, g, t⟩ := hc
  refine ⟨a, by rw [← h.1]; exact b, by rw [← h.1]; exact b', ?_, ?_, ?_, f, ?_, ?_⟩
  · rw [← h1]; exact c
  · simp only [← h1, ← h2, ← h3]; exact d
  · simp only [← h1, ← h2, ← h3]; exact e
  · simp only [← h1, ← h3]; exact g
  · intro k hk
    have := t k hk
    unfold Tells at this ⊢
    simp only [← h2]
    exact this

/-- **C116**: if `list` succeeds, it describes every corpus of the data directory correctly, in the order of the directories. -/
theorem C116_list {ord : List Nm → List Nm} {l : List (CInfo Nm S Cfg)}
    (h : (list r dflt (run r dflt (start disk) ops) true ord).2 = .ok l) :
    l.map CInfo.name = ord (run r dflt (start disk) ops).disk.keys ∧ ∀ i ∈ l, Correct r dflt (run r dflt (start disk) ops) i.name i := by
  have key : ∀ (ns : List Nm) (ops' : List (Op Nm S σ E)) (l : List (CInfo Nm S Cfg)), (listLoop r dflt (run r dflt (start disk) ops') ns).2 = .ok l →
      l.map CInfo.name = ns ∧ ∀ i ∈ l, Correct r dflt (run r dflt (start disk) ops') i.name i := by
    intro ns
    induction ns with
    | nil => intro ops' l h; cases h; simp
    | cons n ns ih =>
      intro ops' l h
      unfold listLoop at h
      cases hres : (info r dflt (run r dflt (start disk) ops') n).2 with
      | error e =>
        rw [show info r dflt (run r dflt (start disk) ops') n = ((info r dflt (run r dflt (start disk) ops') n).1, .error e) from by rw [← hres]] at h
        cases h
      | ok i =>
        rw [show info r dflt (run r dflt (start disk) ops') n = ((info r dflt (run r dflt (start disk) ops') n).1, .ok i) from by rw [← hres]] at h
        have e1 : (info r dflt (run r dflt (start disk) ops') n).1 = run r dflt (start disk) (ops' ++ [.info n]) := by simp [run, step]
        simp only at h
        rw [e1] at h
        have ih' := ih (ops' ++ [.info n])
        cases hr : listLoop r dflt (run r dflt (start disk) (ops' ++ [.info n])) ns with
        | mk s2 res =>
          rw [hr] at h ih'
          cases res with
          | error e => cases h
          | ok l' =>
            cases h
            obtain ⟨h1, h2⟩ := ih' l' rfl
            have hc := C116_info r dflt hd ops' hres
            refine ⟨by simp [h1, hc.name], fun j hj => ?_⟩
            rcases List.mem_cons.1 hj with rfl | hj
            · rw [hc.name]; exact hc
            · exact correct_same r dflt hd (same_symm (e1 ▸ getEntry_same n)) (h2 j hj)
  exact key _ ops l (by simpa [list] using h)

/-- **C116**: `list` succeeds exactly if `info` does for every corpus: one unreadable configuration, and nothing is listed. -/
theorem C116_list_succeeds (ord : List Nm → List Nm) (hord : ∀ l, (ord l).Perm l) :
    (∃ l, (list r dflt (run r dflt (start disk) ops) true ord).2 = .ok l) ↔
      ∀ n ∈ (run r dflt (start disk) ops).disk.keys, ∃ i, (info r dflt (run r dflt (start disk) ops) n).2 = .ok i := by
  have key : ∀ (ns : List Nm) (ops' : List (Op Nm S σ E)), (∃ l, (listLoop r dflt (run r dflt (start disk) ops') ns).2 = .ok l) ↔
      ∀ n ∈ ns, ∃ i, (info r dflt (run r dflt (start disk) ops') n).2 = .ok i := by
    intro ns
    induction ns with
    | nil => intro ops'; exact iff_of_true ⟨_, rfl⟩ (by simp)
    | cons n ns ih =>
      intro ops'
      have e1 : (info r dflt (run r dflt (start disk) ops') n).1 = run r dflt (start disk) (ops' ++ [.info n]) := by simp [run, step]
      have hsame : Same (run r dflt (start disk) ops') (run r dflt (start disk) (ops' ++ [.info n])) := e1 ▸ getEntry_same n
      have hother : ∀ m, (∃ i, (info r dflt (run r dflt (start disk) (ops' ++ [.info n])) m).2 = .ok i) ↔
          ∃ i, (info r dflt (run r dflt (start disk) ops') m).2 = .ok i := by
        intro m
        rw [C116_info_succeeds r dflt hd, C116_info_succeeds r dflt hd, hsame.1]
        refine and_congr_right fun _ => forall_congr' fun c => forall_congr' fun x => ?_
        rw [show Held (run r dflt (start disk) (ops' ++ [.info n])) m c x ↔ Held (run r dflt (start disk) ops') m c x from
          exists_congr fun g => and_congr_left' (hsame.2 m g).symm]
      have ih' := ih (ops' ++ [.info n])
      simp only [hother] at ih'
      unfold listLoop
      cases hres : (info r dflt (run r dflt (start disk) ops') n).2 with
      | error e =>
        rw [show info r dflt (run r dflt (start disk) ops') n = ((info r dflt (run r dflt (start disk) ops') n).1, .error e) from by rw [← hres]]
        constructor
        · rintro ⟨l, h⟩; cases h
        · intro h
          obtain ⟨i, hi⟩ := h n List.mem_cons_self
          rw [hres] at hi
          cases hi
      | ok i =>
        rw [show info r dflt (run r dflt (start disk) ops') n = ((info r dflt (run r dflt (start disk) ops') n).1, .ok i) from by rw [← hres]]
        simp only
        rw [e1]
        simp only [List.mem_cons, forall_eq_or_imp, hres, Except.ok.injEq, exists_eq', true_and]
        rw [← ih']
        cases hr : listLoop r dflt (run r dflt (start disk) (ops' ++ [.info n])) ns with
        | mk s2 res =>
          cases res with
          | error e => simp
          | ok l' => simp
  unfold list
  rw [if_pos rfl, key]
  exact forall_congr' fun n => by rw [(hord _).mem_iff]

/-- **C116**: a storage in memory is the one in the file of the component in the directory of this corpus. -/
theorem C116_files {n : Nm} {c : CKey S} {x : σ} (h : Held (run r dflt (start disk) ops) n c x) :
    ∃ d, (run r dflt (start disk) ops).disk.get n = some d ∧ c ∈ d.comps ∧ d.files c = .ok x := by
  obtain ⟨g, hg, hx⟩ := h
  obtain ⟨d, h1, _, h3, h4⟩ := (run_inv r dflt hd ops).entry n g hg
  exact ⟨d, h1, (h3 c).1 (OMap.mem_keys_iff.2 ⟨_, hx⟩), h4 c x hx⟩

/-- **C116**: `preload` succeeds exactly if there is such a corpus, it is in memory or can be opened, and the files of all
components that are not in memory can be read. -/
theorem C116_preload_succeeds (n : Nm) (rm1 rm2 rm3 : List Nm) : ((run r dflt (start disk) ops).preload n rm1 rm2 rm3).2 = .ok () ↔
    ∃ d, (run r dflt (start disk) ops).disk.get n = some d ∧ (InMemory (run r dflt (start disk) ops) n ∨ d.openError = none) ∧
      ∀ c ∈ d.comps, (∃ x, Held (run r dflt (start disk) ops) n c x) ∨ ∃ x, d.files c = .ok x := by
  have hi := run_inv r dflt hd ops
  generalize run r dflt (start disk) ops = s at *
  have hl := loads_getLoaded hi n rm1 rm2
  obtain ⟨_, _, _, hin, hg⟩ := getLoaded_spec hi n rm1 rm2
  have hopen : ¬ InMemory s n → (s.getLoaded n rm1 rm2).2 = (match s.disk.get n with
      | none => .error .noSuchCorpus
      | some d => match d.openError with
        | some e => .error (.io e)
        | none => .ok (State.opened d)) := by
    intro hm
    have hs := getEntry_same (s := s) n
    have h2 : (s.getEntry n).2 = none := by
      cases h : (s.getEntry n).2 with
      | none => rfl
      | some g => exact absurd ⟨g, getEntry_some.1 h⟩ hm
    unfold State.getLoaded
    rw [show s.getEntry n = ((s.getEntry n).1, none) from by rw [← h2]]
    simp only [State.loadEntry, ← hs.1]
    cases s.disk.get n with
    | none => rfl
    | some d => cases h : d.openError <;> simp [h]
  have main : ∀ g d, (s.getLoaded n rm1 rm2).2 = .ok g → s.disk.get n = some d → ((s.preload n rm1 rm2 rm3).2 = .ok () ↔
      ∀ c ∈ d.comps, (∃ x, OMap.get g c = some (some x)) ∨ ∃ x, d.files c = .ok x) := by
    intro g d hok hdd
    have hgg := hg g hok
    have hdisk := hl.disk
    have hinv := hl.inv
    unfold State.preload
    generalize s.getLoaded n rm1 rm2 = p at *
    obtain ⟨s1, res⟩ := p
    simp only at hok hgg hdisk hinv
    subst hok
    simp only
    obtain ⟨d', hd', hsort, hk, _⟩ := hinv.entry n g hgg
    rw [hdisk, hdd] at hd'
    cases hd'
    have hf : ∀ c x, s1.files n c = .ok x ↔ d.files c = .ok x := by
      intro c x
      unfold State.files
      rw [hdisk, hdd]
      simp only
      cases d.files c <;> simp
    have hload : (s1.load n g ((g.filter fun e => e.2.isNone).map Prod.fst)).2 = .ok () ↔
        ∀ c ∈ d.comps, (∃ x, OMap.get g c = some (some x)) ∨ ∃ x, d.files c = .ok x := by
      unfold State.load
      simp only
      constructor
      · intro h c hc
        have hget := ensureLoaded_get (s1.files n) g ((g.filter fun e => e.2.isNone).map Prod.fst) c
        obtain ⟨v, hv⟩ := OMap.mem_keys_iff.1 ((hk c).2 hc)
        cases v with
        | some x => exact Or.inl ⟨x, hv⟩
        | none =>
          right
          generalize hr : ensureLoaded (s1.files n) g ((g.filter fun e => e.2.isNone).map Prod.fst) = r at *
          obtain ⟨g', res⟩ := r
          cases res with
          | error e => cases h
          | ok l =>
            have hne := ensureLoaded_ok hr (List.mem_map.2 ⟨(c, none), List.mem_filter.2 ⟨OMap.mem_of_get hv, rfl⟩, rfl⟩)
            rcases hget with h' | ⟨x, _, _, h', _⟩
            · rw [hv] at h'; exact absurd h' hne
            · exact ⟨x, (hf c x).1 h'⟩
      · intro h
        obtain ⟨g', r', e⟩ : ∃ g' r', ensureLoaded (s1.files n) g ((g.filter fun e => e.2.isNone).map Prod.fst) = (g', .ok r') := by
          refine insertLoaded_total g ?_
          intro a ha
          obtain ⟨c, hc, rfl⟩ := List.mem_map.1 ha
          have hn := (mem_toLoad.1 hc).2
          rcases h c ((hk c).1 (OMap.mem_keys_iff.2 ⟨_, hn⟩)) with ⟨x, hx⟩ | ⟨x, hx⟩
          · rw [hn] at hx; cases hx
          · exact ⟨x, (hf c x).2 hx⟩
        rw [e]
        rfl
    rw [← hload]
    generalize s1.load n g ((g.filter fun e => e.2.isNone).map Prod.fst) = p
    obtain ⟨s2, res⟩ := p
    cases res with
    | error e => simp
    | ok u => simp
  by_cases hm : InMemory s n
  · obtain ⟨g, hgm⟩ := hm
    obtain ⟨d, hdd, _⟩ := hi.entry n g hgm
    rw [main g d (hin g hgm) hdd]
    have hh : ∀ c x, Held s n c x ↔ OMap.get g c = some (some x) := fun c x =>
      ⟨fun ⟨g', h', hx⟩ => by rw [hgm] at h'; cases h'; exact hx, fun hx => ⟨g, hgm, hx⟩⟩
    simp only [hh]
    constructor
    · intro h
      exact ⟨d, hdd, Or.inl ⟨g, hgm⟩, h⟩
    · rintro ⟨d', hd', _, h⟩
      rw [hdd] at hd'
      cases hd'
      exact h
  · have ho := hopen hm
    have hnh : ∀ c, ¬ ∃ x, Held s n c x := fun c ⟨x, g, hg, _⟩ => hm ⟨g, hg⟩
    simp only [hm, hnh, false_or]
    have herr : ∀ e, (s.getLoaded n rm1 rm2).2 = .error e → (s.preload n rm1 rm2 rm3).2 ≠ .ok () := by
      intro e he
      unfold State.preload
      generalize s.getLoaded n rm1 rm2 = p at *
      obtain ⟨s1, res⟩ := p
      simp only at he
      subst he
      simp
    cases hdd : s.disk.get n with
    | none =>
      rw [hdd] at ho
      exact iff_of_false (herr _ ho) (by rintro ⟨d, h, _⟩; cases h)
    | some d =>
      rw [hdd] at ho
      simp only at ho
      cases hoe : d.openError with
      | some e =>
        rw [hoe] at ho
        exact iff_of_false (herr _ ho) (by rintro ⟨d', h, h', _⟩; cases h; rw [hoe] at h'; cases h')
      | none =>
        rw [hoe] at ho
        rw [main _ d ho hdd]
        have hno : ∀ c, ¬ ∃ x, OMap.get (State.opened d) c = some (some x) := by
          rintro c ⟨x, hx⟩
          rw [State.opened, opened_get] at hx
          by_cases hc : c ∈ d.comps <;> simp [hc] at hx
        simp only [hno, false_or]
        constructor
        · intro h; exact ⟨d, rfl, hoe, h⟩
        · rintro ⟨d', e, _, h⟩; cases e; exact h

/-- **C116**: after `preload` the corpus is described as fully loaded. -/
theorem C116_preload {n : Nm} {rm1 rm2 rm3 : List Nm} (h : ((run r dflt (start disk) ops).preload n rm1 rm2 rm3).2 = .ok ()) {i : CInfo Nm S Cfg}
    (hi : (info r dflt (run r dflt (start disk) (ops ++ [.preload n rm1 rm2 rm3])) n).2 = .ok i) : i.status = .fullyLoaded := by
  refine (C116_info r dflt hd _ hi).fully.2 ?_
  have e : run r dflt (start disk) (ops ++ [.preload n rm1 rm2 rm3]) = ((run r dflt (start disk) ops).preload n rm1 rm2 rm3).1 := by simp [run, step]
  rw [e]
  have hinv := run_inv r dflt hd ops
  generalize run r dflt (start disk) ops = s at *
  rw [preload_eq] at h ⊢
  obtain ⟨h1, h2⟩ := use_spec hinv n (.ok fun g => (g.filter fun e => e.2.isNone).map Prod.fst) rm1 rm2 rm3
  obtain ⟨h3, needs, g, hq, h4, h5, h6⟩ := h2 h
  cases hq
  refine ⟨h3, fun c hc => ?_⟩
  have hc' : Has s n c := by
    obtain ⟨d, hd, h⟩ := hc
    exact ⟨d, by rw [← h1.disk]; exact hd, h⟩
  obtain ⟨v, hv⟩ := OMap.mem_keys_iff.1 ((h4 c).2 hc')
  cases v with
  | some x => exact ⟨x, h5 c x hv⟩
  | none => exact h6 c (List.mem_map.2 ⟨(c, none), List.mem_filter.2 ⟨OMap.mem_of_get hv, rfl⟩, rfl⟩) hc'

/-- **C116**: after a query the components that it needs are in memory. -/
theorem C116_query {n : Nm} {needs : Comps S σ → List (CKey S)} {rm1 rm2 rm3 : List Nm}
    (h : ((run r dflt (start disk) ops).use n (.ok needs) rm1 rm2 rm3).2 = .ok ()) {c : CKey S} (hc : Has (run r dflt (start disk) ops) n c)
    (hn : ∀ g : Comps S σ, c ∈ OMap.keys g → OMap.get g c = some none → c ∈ needs g) :
    ∃ x, Held (run r dflt (start disk) (ops ++ [.use n (.ok needs) rm1 rm2 rm3])) n c x := by
  have e : run r dflt (start disk) (ops ++ [.use n (.ok needs) rm1 rm2 rm3]) = ((run r dflt (start disk) ops).use n (.ok needs) rm1 rm2 rm3).1 := by
    simp [run, step]
  rw [e]
  have hinv := run_inv r dflt hd ops
  generalize run r dflt (start disk) ops = s at *
  obtain ⟨h1, h2⟩ := use_spec hinv n (.ok needs) rm1 rm2 rm3
  obtain ⟨h3, needs', g, hq, h4, h5, h6⟩ := h2 h
  cases hq
  have hk := (h4 c).2 hc
  obtain ⟨v, hv⟩ := OMap.mem_keys_iff.1 hk
  cases v with
  | some x => exact ⟨x, h5 c x hv⟩
  | none => exact h6 c (hn g hk hv) hc

/-- The corpus that an operation removes from memory on request. -/
def Op.drops : Op Nm S σ E → Nm → Prop
  | .unload n, m => m = n
  | .delete n, m => m = n
  | _, _ => False

/-- The corpus that an operation loads. -/
def Op.loads : Op Nm S σ E → Nm → Prop
  | .preload n _ _ _, m => m = n
  | .use n _ _ _ _, m => m = n
  | _, _ => False

/-- The corpora that an operation may remove from memory to save memory. -/
def Op.frees : Op Nm S σ E → List Nm
  | .preload _ a b c => a ++ b ++ c
  | .use _ _ a b c => a ++ b ++ c
  | _ => []

/-- **C116**: what is in memory of a corpus stays there until the corpus is unloaded, deleted or removed as a whole to save memory; operations
on a corpus never remove it. -/
theorem C116_stays (op : Op Nm S σ E) (m : Nm) (hop : ¬ op.drops m) :
    ((∀ c x, Held (run r dflt (start disk) ops) m c x → Held (run r dflt (start disk) (ops ++ [op])) m c x) ∨
      m ∈ op.frees ∧ ¬ op.loads m ∧ ¬ InMemory (run r dflt (start disk) (ops ++ [op])) m) := by
  have e : run r dflt (start disk) (ops ++ [op]) = step r dflt (run r dflt (start disk) ops) op := by simp [run]
  rw [e]
  have hinv := run_inv r dflt hd ops
  generalize run r dflt (start disk) ops = s at *
  have hsame : ∀ s', Same s s' → ∀ c x, Held s m c x → Held s' m c x := fun s' h c x ⟨g, hg, hx⟩ => ⟨g, (h.2 m g).1 hg, hx⟩
  have hload : ∀ n q a b d, (∀ c x, Held s m c x → Held (s.use n q a b d).1 m c x) ∨ m ∈ a ++ b ++ d ∧ ¬ m = n ∧ ¬ InMemory (s.use n q a b d).1 m := by
    intro n q a b d
    have h1 := (use_spec hinv n q a b d).1
    by_cases h : m = n
    · subst h; exact Or.inl h1.held
    · by_cases hm : InMemory (s.use n q a b d).1 m
      · obtain ⟨g, hg⟩ := hm
        have := h1.kept m h g hg
        exact Or.inl fun c x ⟨g', hg', hx⟩ => by rw [this] at hg'; cases hg'; exact ⟨g, hg, hx⟩
      · by_cases hr : m ∈ a ++ b ++ d
        · exact Or.inr ⟨hr, h, hm⟩
        · simp only [List.mem_append, not_or] at hr
          exact Or.inl fun c x ⟨g, hg, hx⟩ => ⟨g, (use_stays hr.1.1 hr.1.2 hr.2 h).trans hg, hx⟩
  cases op with
  | info n => exact Or.inl (hsame _ (getEntry_same n))
  | list readable ord => exact Or.inl (hsame _ (listLoop_same r dflt s _))
  | preload n a b d => exact hload n (.ok _) a b d
  | use n q a b d => exact hload n q a b d
  | unload n => exact Or.inl fun c x ⟨g, hg, hx⟩ => ⟨g, by simp only [step, State.unload]; rw [Function.update_of_ne hop]; exact hg, hx⟩
  | delete n => exact Or.inl fun c x ⟨g, hg, hx⟩ => ⟨g, by simp only [step, State.delete]; rw [Function.update_of_ne hop]; exact hg, hx⟩

/-- **C116**: a corpus that was unloaded or deleted is described as not loaded. -/
theorem C116_unload {op : Op Nm S σ E} {n : Nm} (hop : op.drops n) {i : CInfo Nm S Cfg}
    (hi : (info r dflt (run r dflt (start disk) (ops ++ [op])) n).2 = .ok i) : i.status = .notLoaded ∧ i.graphstorages = [] := by
  have hc := C116_info r dflt hd _ hi
  have hm : ¬ InMemory (run r dflt (start disk) (ops ++ [op])) n := by
    have e : run r dflt (start disk) (ops ++ [op]) = step r dflt (run r dflt (start disk) ops) op := by simp [run]
    rw [e]
    rintro ⟨g, hg⟩
    cases op with
    | unload m => cases hop; simp [step, State.unload] at hg
    | delete m => cases hop; simp [step, State.delete] at hg
    | _ => exact hop
  refine ⟨hc.notLoaded.2 hm, ?_⟩
  cases hl : i.graphstorages with
  | nil => rfl
  | cons k l =>
    have := (hc.components k.component).1 (by rw [hl]; simp)
    exact absurd this.1 hm

end
end

end Info
