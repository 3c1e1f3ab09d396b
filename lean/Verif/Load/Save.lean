import Verif.Load.Props

/-!
# C76: saving a corpus keeps all of its components

`internal_save` writes only the components that are loaded (core/src/graph/mod.rs 352-380), so everything must be loaded before: by
`apply_update` (651-664), by loading again after a failed update (687-730) and by `optimize_impl` (981-1021).  The background thread that saves
an update runs later (corpusstorage.rs 1413-1435, 2774-2793).

Simplified: the folder of the corpus is one map from components to storages and the log of the last update (crashes while saving are C28); an
update is a list of components with their new storages; writing files and reading the node annotations do not fail.
-/

set_option linter.unusedSectionVars false

namespace Load

variable {S σ E : Type} [LinearOrder S] [OrderBot S]

/-- A corpus: its folder, the log in the folder, the graph in memory, and the number of background threads that still have to save it. -/
structure St (S σ : Type) where
  disk : OMap (CKey S) σ
  log : Option (List (CKey S × σ))
  mem : Comps S σ
  jobs : Nat

/-- `load_component_from_disk` (core/src/graph/mod.rs 65-79); `bad` are the components with a read error. -/
def readComp (err : E) (bad : CKey S → Bool) (disk : OMap (CKey S) σ) (c : CKey S) : Except E σ :=
  if bad c then .error err else
    match OMap.get disk c with
    | some s => .ok s
    | none => .error err

/-- The changes of an update to the graph in memory (`apply_update_in_memory`, core/src/graph/mod.rs 397-647). -/
def applyWrites (g : Comps S σ) (w : List (CKey S × σ)) : Comps S σ := w.foldl (fun g a => OMap.insert g a.1 (some a.2)) g

/-- The components and the log in `internal_open` (core/src/graph/mod.rs 295-312). -/
def openMem (err : E) (bad : CKey S → Bool) (st : St S σ) : Comps S σ × Except E Unit :=
  let g : Comps S σ := st.disk.map fun e => (e.1, none)
  match st.log with
  | none => (g, .ok ())
  | some w =>
    match ensureLoadedAll (readComp err bad st.disk) g with
    | (g', .error e) => (g', .error e)
    | (g', .ok _) => (applyWrites g' w, .ok ())

/-- The map of components that `internal_save` writes (core/src/graph/mod.rs 359-371). -/
def saved (g : Comps S σ) : OMap (CKey S) σ := g.filterMap fun e => e.2.map fun s => (e.1, s)

/-- Operations on a corpus; `bad` are the components that cannot be read this time. -/
inductive Op (S σ : Type)
  /-- A query loads components (`ensure_loaded_parallel`). -/
  | load (bad : CKey S → Bool) (cs : List (CKey S))
  /-- `CorpusStorage::apply_update` (corpusstorage.rs 1413-1435) with its changes in memory; `ok` tells if they succeed. -/
  | update (bad : CKey S → Bool) (w : List (CKey S × σ)) (ok : Bool)
  /-- A background thread of an update saves the corpus (`background_sync_wal_updates`, core/src/graph/mod.rs 733-744). -/
  | sync
  /-- `optimize_impl` (core/src/graph/mod.rs 981-1021) with the conversion of storages. -/
  | optimize (bad : CKey S → Bool) (conv : CKey S → σ → σ)

/-- One operation. -/
def step (err : E) (st : St S σ) : Op S σ → St S σ × Except E Unit
  | .load bad cs =>
    match ensureLoaded (readComp err bad st.disk) st.mem cs with
    | (g, .ok _) => ({ st with mem := g }, .ok ())
    | (g, .error e) => ({ st with mem := g }, .error e)
  | .update bad w ok =>
    match ensureLoadedAll (readComp err bad st.disk) st.mem with
    | (g, .error e) => ({ st with mem := g }, .error e)
    | (g, .ok _) =>
      if ok then ({ st with mem := applyWrites g w, log := some w, jobs := st.jobs + 1 }, .ok ())
      else
        match openMem err bad st with
        | (g', .error e) => ({ st with mem := g' }, .error e)
        | (g', .ok _) => ({ st with mem := (ensureLoadedAll (readComp err bad st.disk) g').1 }, .error err)
  | .sync =>
    match st.jobs with
    | 0 => (st, .ok ())
    | n + 1 => ({ st with disk := saved st.mem, log := none, jobs := n }, .ok ())
  | .optimize bad conv =>
    match ensureLoadedAll (readComp err bad st.disk) st.mem with
    | (g, .error e) => ({ st with mem := g }, .error e)
    | (g, .ok _) =>
      let g' : Comps S σ := g.map fun e => (e.1, e.2.map (conv e.1))
      ({ st with mem := g', disk := saved g', log := none }, .ok ())

/-- A sequence of operations. -/
def run (err : E) (st : St S σ) (ops : List (Op S σ)) : St S σ := ops.foldl (fun st op => (step err st op).1) st

/-! ### Specification -/

/-- Every component of the folder is known, and everything is loaded while a background thread has to save it. -/
structure Inv (st : St S σ) : Prop where
  disk : OMap.Sorted st.disk
  mem : OMap.Sorted st.mem
  known : ∀ c ∈ OMap.keys st.disk, c ∈ OMap.keys st.mem
  loaded : st.jobs ≠ 0 → ∀ c, OMap.get st.mem c ≠ some none

/-- The value of a component for a reader of the corpus: from memory, or from the folder if it is not loaded yet. -/
def content (st : St S σ) (c : CKey S) : Option σ :=
  match OMap.get st.mem c with
  | some (some s) => some s
  | some none => OMap.get st.disk c
  | none => none

/-- The value that a component would have after a restart: of the last write in the log, or of the folder. -/
def stored (st : St S σ) (c : CKey S) : Option σ :=
  match st.log.bind fun w => w.reverse.find? fun a => a.1 = c with
  | some a => some a.2
  | none => OMap.get st.disk c

/-- Every update waits for the background thread of the update before it. -/
def Waits (err : E) (st : St S σ) : List (Op S σ) → Prop
  | [] => True
  | op :: ops => (∀ bad w, op = .update bad w true → st.log = none) ∧ Waits err (step err st op).1 ops

/-- Reading does not fail for an update that fails for another reason. -/
def ReloadOk : Op S σ → Prop
  | .update bad _ false => ∀ c, bad c = false
  | _ => True

/-! ### Proofs -/

theorem ensureLoaded_keys (disk : CKey S → Except E σ) (g : Comps S σ) (cs : List (CKey S)) (c : CKey S) :
    c ∈ OMap.keys (ensureLoaded disk g cs).1 ↔ c ∈ OMap.keys g := by
  rw [OMap.mem_keys_iff, OMap.mem_keys_iff]
  rcases ensureLoaded_get disk g cs c with h | ⟨s, _, h1, _, h2⟩
  · rw [h]
  · rw [h1, h2]; simp

theorem ensureLoadedAll_loaded {disk : CKey S → Except E σ} {g g' : Comps S σ} {r : List (CKey S)}
    (h : ensureLoadedAll disk g = (g', .ok r)) (c : CKey S) : OMap.get g' c ≠ some none := by
  intro hn
  have hget := ensureLoaded_get disk g ((g.filter fun e => e.2.isNone).map Prod.fst) c
  rw [show ensureLoaded disk g _ = (g', .ok r) from h] at hget
  rcases hget with h' | ⟨s, _, _, _, h'⟩
  · rw [hn] at h'
    exact ensureLoaded_ok (show ensureLoaded disk g _ = (g', .ok r) from h)
      (List.mem_map.2 ⟨(c, none), List.mem_filter.2 ⟨OMap.mem_of_get h'.symm, rfl⟩, rfl⟩) hn
  · rw [hn] at h'
    simp at h'

theorem applyWrites_spec (g : Comps S σ) (w : List (CKey S × σ)) (hs : OMap.Sorted g) :
    OMap.Sorted (applyWrites g w) ∧ (∀ c ∈ OMap.keys g, c ∈ OMap.keys (applyWrites g w)) ∧
    ∀ c, OMap.get (applyWrites g w) c = some none → OMap.get g c = some none := by
  induction w generalizing g with
  | nil => exact ⟨hs, fun _ h => h, fun _ h => h⟩
  | cons a w ih =>
    obtain ⟨h1, h2, h3⟩ := ih (OMap.insert g a.1 (some a.2)) (OMap.sorted_insert hs _ _)
    refine ⟨h1, fun c hc => h2 c ?_, fun c hc => ?_⟩
    · rw [OMap.mem_keys_iff] at hc ⊢
      rw [OMap.get_insert]
      split
      · exact ⟨_, rfl⟩
      · exact hc
    · have := h3 c hc
      rw [OMap.get_insert] at this
      split at this
      · simp at this
      · exact this

theorem get_filterMap_saved {g : Comps S σ} (hs : OMap.Sorted g) : OMap.Sorted (saved g) ∧
    ∀ c s, OMap.get (saved g) c = some s ↔ OMap.get g c = some (some s) := by
  have h1 : OMap.Sorted (saved g) := by
    unfold OMap.Sorted saved
    rw [List.pairwise_filterMap]
    refine List.Pairwise.imp ?_ hs
    rintro ⟨a, x⟩ ⟨b, y⟩ hab p hp q hq
    simp only [Option.map_eq_some_iff] at hp hq
    obtain ⟨_, _, rfl⟩ := hp
    obtain ⟨_, _, rfl⟩ := hq
    exact hab
  refine ⟨h1, fun c s => ?_⟩
  rw [← OMap.mem_iff_get h1, ← OMap.mem_iff_get hs]
  unfold saved
  rw [List.mem_filterMap]
  constructor
  · rintro ⟨⟨a, x⟩, ha, hx⟩
    simp only [Option.map_eq_some_iff, Prod.mk.injEq] at hx
    obtain ⟨_, rfl, rfl, rfl⟩ := hx
    exact ha
  · intro h
    exact ⟨_, h, rfl⟩

/-- Saving keeps the components of memory if all are loaded. -/
theorem saved_keys {g : Comps S σ} (hs : OMap.Sorted g) (hl : ∀ c, OMap.get g c ≠ some none) (c : CKey S) :
    c ∈ OMap.keys (saved g) ↔ c ∈ OMap.keys g := by
  rw [OMap.mem_keys_iff, OMap.mem_keys_iff]
  constructor
  · rintro ⟨s, h⟩
    exact ⟨_, ((get_filterMap_saved hs).2 c s).1 h⟩
  · rintro ⟨v, h⟩
    cases v with
    | none => exact absurd h (hl c)
    | some s => exact ⟨s, ((get_filterMap_saved hs).2 c s).2 h⟩

theorem freshMem_spec (d : OMap (CKey S) σ) (hd : OMap.Sorted d) : OMap.Sorted (d.map fun e => (e.1, (none : Option σ))) ∧
    OMap.keys (d.map fun e => (e.1, (none : Option σ))) = OMap.keys d := by
  refine ⟨?_, ?_⟩
  · unfold OMap.Sorted
    rw [List.pairwise_map]
    exact hd
  · unfold OMap.keys
    rw [List.map_map]
    rfl

theorem ensureLoadedAll_total (err : E) {bad : CKey S → Bool} (hb : ∀ c, bad c = false) {d : OMap (CKey S) σ} {g : Comps S σ}
    (hk : ∀ c, OMap.get g c = some none → c ∈ OMap.keys d) : ∃ g' r, ensureLoadedAll (readComp err bad d) g = (g', .ok r) := by
  refine insertLoaded_total g ?_
  intro a ha
  obtain ⟨c, hc, rfl⟩ := List.mem_map.1 ha
  obtain ⟨s, hs⟩ := OMap.mem_keys_iff.1 (hk c (mem_toLoad.1 hc).2)
  exact ⟨s, by simp [readComp, hb, hs]⟩

theorem mapConv_spec (g : Comps S σ) (hs : OMap.Sorted g) (conv : CKey S → σ → σ) :
    OMap.Sorted (g.map fun e => (e.1, e.2.map (conv e.1))) ∧
    OMap.keys (g.map fun e => (e.1, e.2.map (conv e.1))) = OMap.keys g ∧
    ∀ c, OMap.get (g.map fun e => (e.1, e.2.map (conv e.1))) c = some none → OMap.get g c = some none := by
  have h1 : OMap.Sorted (g.map fun e => (e.1, e.2.map (conv e.1))) := by
    unfold OMap.Sorted
    rw [List.pairwise_map]
    exact hs
  refine ⟨h1, ?_, fun c hc => ?_⟩
  · unfold OMap.keys
    rw [List.map_map]
    rfl
  · obtain ⟨⟨a, x⟩, ha, e⟩ := List.mem_map.1 (OMap.mem_of_get hc)
    simp only [Prod.mk.injEq, Option.map_eq_none_iff] at e
    obtain ⟨rfl, rfl⟩ := e
    exact OMap.get_of_mem hs ha

/-- One step keeps the invariant and the components of the folder. -/
theorem step_inv (err : E) {st : St S σ} (hi : Inv st) {op : Op S σ} (hr : ReloadOk op) :
    Inv (step err st op).1 ∧ ∀ c ∈ OMap.keys st.disk, c ∈ OMap.keys (step err st op).1.disk := by
  cases op with
  | load bad cs =>
    have hl := ensureLoaded_get (readComp err bad st.disk) st.mem cs
    have hk := ensureLoaded_keys (readComp err bad st.disk) st.mem cs
    have hs : OMap.Sorted (ensureLoaded (readComp err bad st.disk) st.mem cs).1 := insertLoaded_sorted hi.mem _
    rcases he : ensureLoaded (readComp err bad st.disk) st.mem cs with ⟨g, x⟩
    rw [he] at hl hk hs
    have hi' : Inv { st with mem := g } := by
      refine ⟨hi.disk, hs, fun c hc => (hk c).2 (hi.known c hc), fun hj c hc => ?_⟩
      rcases hl c with h | ⟨s, _, _, _, h⟩
      · exact hi.loaded hj c (h ▸ hc)
      · rw [show OMap.get g c = some none from hc] at h; simp at h
    cases x <;> simp only [step, he] <;> exact ⟨hi', fun _ h => h⟩
  | update bad w ok =>
    have hl := ensureLoaded_get (readComp err bad st.disk) st.mem ((st.mem.filter fun e => e.2.isNone).map Prod.fst)
    have hk := ensureLoaded_keys (readComp err bad st.disk) st.mem ((st.mem.filter fun e => e.2.isNone).map Prod.fst)
    have hs : OMap.Sorted (ensureLoadedAll (readComp err bad st.disk) st.mem).1 := insertLoaded_sorted hi.mem _
    rcases he : ensureLoadedAll (readComp err bad st.disk) st.mem with ⟨g, x⟩
    rw [show ensureLoaded (readComp err bad st.disk) st.mem _ = (g, x) from he] at hl hk
    rw [he] at hs
    cases x with
    | error e =>
      simp only [step, he]
      refine ⟨⟨hi.disk, hs, fun c hc => (hk c).2 (hi.known c hc), fun hj c hc => ?_⟩, fun _ h => h⟩
      rcases hl c with h | ⟨s, _, _, _, h⟩
      · exact hi.loaded hj c (h ▸ hc)
      · rw [show OMap.get g c = some none from hc] at h; simp at h
    | ok r =>
      have hall := ensureLoadedAll_loaded he
      cases ok with
      | true =>
        simp only [step, he, if_true]
        obtain ⟨h1, h2, h3⟩ := applyWrites_spec g w hs
        exact ⟨⟨hi.disk, h1, fun c hc => h2 c ((hk c).2 (hi.known c hc)), fun _ c hc => hall c (h3 c hc)⟩, fun _ h => h⟩
      | false =>
        have hb : ∀ c, bad c = false := hr
        obtain ⟨f1, f2⟩ := freshMem_spec st.disk hi.disk
        obtain ⟨g1, r1, e1⟩ : ∃ g' r, ensureLoadedAll (readComp err bad st.disk) (st.disk.map fun e => (e.1, (none : Option σ))) =
            (g', .ok r) := by
          refine ensureLoadedAll_total err hb fun c hc => ?_
          rw [← f2]
          exact OMap.mem_keys_iff.2 ⟨_, hc⟩
        have k1 := ensureLoaded_keys (readComp err bad st.disk) (st.disk.map fun e => (e.1, (none : Option σ)))
          (((st.disk.map fun e => (e.1, (none : Option σ))).filter fun e => e.2.isNone).map Prod.fst)
        rw [show ensureLoaded (readComp err bad st.disk) (st.disk.map fun e => (e.1, (none : Option σ))) _ = (g1, .ok r1) from e1] at k1
        have s1 : OMap.Sorted g1 := by
          have : g1 = (ensureLoadedAll (readComp err bad st.disk) (st.disk.map fun e => (e.1, (none : Option σ)))).1 := by rw [e1]
          rw [this]
          exact insertLoaded_sorted f1 _
        obtain ⟨g2, o1, o2, o3, o4⟩ : ∃ g2, openMem err bad st = (g2, .ok ()) ∧ OMap.Sorted g2 ∧
            (∀ c ∈ OMap.keys st.disk, c ∈ OMap.keys g2) ∧ ∀ c, OMap.get g2 c = some none → c ∈ OMap.keys st.disk := by
          unfold openMem
          cases hlog : st.log with
          | none =>
            refine ⟨_, rfl, f1, fun c hc => f2 ▸ hc, fun c hc => f2 ▸ OMap.mem_keys_iff.2 ⟨_, hc⟩⟩
          | some w' =>
            simp only [e1]
            obtain ⟨h1, h2, h3⟩ := applyWrites_spec g1 w' s1
            exact ⟨_, rfl, h1, fun c hc => h2 c ((k1 c).2 (f2 ▸ hc)), fun c hc => absurd (h3 c hc) (ensureLoadedAll_loaded e1 c)⟩
        obtain ⟨g3, r3, e3⟩ := ensureLoadedAll_total err hb (g := g2) o4
        have hst : step err st (.update bad w false) = ({ st with mem := g3 }, .error err) := by
          simp only [step, he, Bool.false_eq_true, if_false, o1, e3]
        rw [hst]
        have k3 := ensureLoaded_keys (readComp err bad st.disk) g2 ((g2.filter fun e => e.2.isNone).map Prod.fst)
        rw [show ensureLoaded (readComp err bad st.disk) g2 _ = (g3, .ok r3) from e3] at k3
        have s3 : OMap.Sorted g3 := by
          have : g3 = (ensureLoadedAll (readComp err bad st.disk) g2).1 := by rw [e3]
          rw [this]
          exact insertLoaded_sorted o2 _
        exact ⟨⟨hi.disk, s3, fun c hc => (k3 c).2 (o3 c hc), fun _ => ensureLoadedAll_loaded e3⟩, fun _ h => h⟩
  | sync =>
    unfold step
    cases hj : st.jobs with
    | zero => exact ⟨hi, fun _ h => h⟩
    | succ n =>
      have hl := hi.loaded (by rw [hj]; simp)
      have hk := saved_keys hi.mem hl
      refine ⟨⟨(get_filterMap_saved hi.mem).1, hi.mem, fun c hc => (hk c).1 hc, fun _ => hl⟩, fun c hc => (hk c).2 (hi.known c hc)⟩
  | optimize bad conv =>
    have hk := ensureLoaded_keys (readComp err bad st.disk) st.mem ((st.mem.filter fun e => e.2.isNone).map Prod.fst)
    have hl := ensureLoaded_get (readComp err bad st.disk) st.mem ((st.mem.filter fun e => e.2.isNone).map Prod.fst)
    have hs : OMap.Sorted (ensureLoadedAll (readComp err bad st.disk) st.mem).1 := insertLoaded_sorted hi.mem _
    rcases he : ensureLoadedAll (readComp err bad st.disk) st.mem with ⟨g, x⟩
    rw [show ensureLoaded (readComp err bad st.disk) st.mem _ = (g, x) from he] at hk hl
    rw [he] at hs
    cases x with
    | error e =>
      simp only [step, he]
      refine ⟨⟨hi.disk, hs, fun c hc => (hk c).2 (hi.known c hc), fun hj c hc => ?_⟩, fun _ h => h⟩
      rcases hl c with h | ⟨s, _, _, _, h⟩
      · exact hi.loaded hj c (h ▸ hc)
      · rw [show OMap.get g c = some none from hc] at h; simp at h
    | ok r =>
      simp only [step, he]
      obtain ⟨h1, h2, h3⟩ := mapConv_spec g hs conv
      have hall : ∀ c, OMap.get (g.map fun e => (e.1, e.2.map (conv e.1))) c ≠ some none := fun c hc =>
        ensureLoadedAll_loaded he c (h3 c hc)
      have hk' := saved_keys h1 hall
      exact ⟨⟨(get_filterMap_saved h1).1, h1, fun c hc => (hk' c).1 hc, fun _ => hall⟩,
        fun c hc => (hk' c).2 (h2 ▸ (hk c).2 (hi.known c hc))⟩

/-- C76: no sequence of queries, updates, background saves and optimisations removes a component from the folder of a corpus, and everything
is loaded whenever a background thread is going to save.  Partial: an update that fails must be able to read the corpus again. -/
theorem C76_kept_partial (err : E) {st : St S σ} (hi : Inv st) (ops : List (Op S σ)) (hr : ∀ op ∈ ops, ReloadOk op) :
    Inv (run err st ops) ∧ ∀ c ∈ OMap.keys st.disk, c ∈ OMap.keys (run err st ops).disk := by
  induction ops generalizing st with
  | nil => exact ⟨hi, fun _ h => h⟩
  | cons op ops ih =>
    obtain ⟨h1, h2⟩ := step_inv err hi (hr op List.mem_cons_self)
    obtain ⟨h3, h4⟩ := ih h1 fun o ho => hr o (List.mem_cons_of_mem _ ho)
    exact ⟨h3, fun c hc => h4 c (h2 c hc)⟩

/-- C76: what a background thread saves is the whole graph in memory, component by component. -/
theorem C76_saved_partial (err : E) {st : St S σ} (hi : Inv st) (ops : List (Op S σ)) (hr : ∀ op ∈ ops, ReloadOk op)
    (hj : (run err st ops).jobs ≠ 0) (c : CKey S) :
    OMap.get (run err st (ops ++ [.sync])).mem c = OMap.get (run err st ops).mem c ∧
    (OMap.get (run err st (ops ++ [.sync])).disk c).map some = OMap.get (run err st ops).mem c := by
  obtain ⟨h1, _⟩ := C76_kept_partial err hi ops hr
  have e : run err st (ops ++ [.sync]) = (step err (run err st ops) .sync).1 := by simp [run]
  rw [e]
  generalize run err st ops = s at *
  unfold step
  cases hn : s.jobs with
  | zero => exact absurd hn hj
  | succ n =>
    refine ⟨rfl, ?_⟩
    have hg := (get_filterMap_saved h1.mem).2 c
    cases hm : OMap.get s.mem c with
    | none =>
      cases hd : OMap.get (saved s.mem) c with
      | none => rfl
      | some x => rw [(hg x).1 hd] at hm; simp at hm
    | some v =>
      cases v with
      | none => exact absurd hm (h1.loaded hj c)
      | some x => rw [(hg x).2 hm]; rfl

/-- C76: an optimised corpus is saved completely. -/
theorem C76_optimized (err : E) {st st' : St S σ} (hi : Inv st) (bad : CKey S → Bool) (conv : CKey S → σ → σ)
    (h : step err st (.optimize bad conv) = (st', .ok ())) (c : CKey S) :
    (OMap.get st'.disk c).map some = OMap.get st'.mem c ∧ (c ∈ OMap.keys st.mem ↔ c ∈ OMap.keys st'.mem) := by
  have hk := ensureLoaded_keys (readComp err bad st.disk) st.mem ((st.mem.filter fun e => e.2.isNone).map Prod.fst) c
  have hs : OMap.Sorted (ensureLoadedAll (readComp err bad st.disk) st.mem).1 := insertLoaded_sorted hi.mem _
  rcases he : ensureLoadedAll (readComp err bad st.disk) st.mem with ⟨g, x⟩
  rw [show ensureLoaded (readComp err bad st.disk) st.mem _ = (g, x) from he] at hk
  rw [he] at hs
  cases x with
  | error e => simp [step, he] at h
  | ok r =>
    simp only [step, he, Prod.mk.injEq, and_true] at h
    obtain ⟨h1, h2, h3⟩ := mapConv_spec g hs conv
    subst h
    refine ⟨?_, ?_⟩
    · have hg := (get_filterMap_saved h1).2 c
      simp only
      cases hm : OMap.get (g.map fun e => (e.1, e.2.map (conv e.1))) c with
      | none =>
        cases hd : OMap.get (saved (g.map fun e => (e.1, e.2.map (conv e.1)))) c with
        | none => rfl
        | some x => rw [(hg x).1 hd] at hm; simp at hm
      | some v =>
        cases v with
        | none => exact absurd (h3 c hm) (ensureLoadedAll_loaded he c)
        | some x => rw [(hg x).2 hm]; rfl
    · simp only [h2]
      exact hk.symm


/-! ### Content -/

theorem get_applyWrites (g : Comps S σ) (w : List (CKey S × σ)) (c : CKey S) :
    OMap.get (applyWrites g w) c = match w.reverse.find? fun a => a.1 = c with
      | some a => some (some a.2)
      | none => OMap.get g c := by
  induction w generalizing g with
  | nil => rfl
  | cons a w ih =>
    have e : applyWrites g (a :: w) = applyWrites (OMap.insert g a.1 (some a.2)) w := rfl
    rw [e, ih, List.reverse_cons, List.find?_append]
    cases w.reverse.find? fun a => a.1 = c with
    | some b => rfl
    | none =>
      rw [OMap.get_insert]
      by_cases h : a.1 = c
      · simp [h]
      · simp [h, Ne.symm h]

theorem ensureLoadedAll_get {err : E} {bad : CKey S → Bool} {d : OMap (CKey S) σ} {g g' : Comps S σ} {r : List (CKey S)}
    (h : ensureLoadedAll (readComp err bad d) g = (g', .ok r)) (c : CKey S) :
    OMap.get g' c = match OMap.get g c with
      | some none => (OMap.get d c).map some
      | x => x := by
  have hn := ensureLoadedAll_loaded h c
  have hget := ensureLoaded_get (readComp err bad d) g ((g.filter fun e => e.2.isNone).map Prod.fst) c
  rw [show ensureLoaded (readComp err bad d) g _ = (g', .ok r) from h] at hget
  rcases hget with h' | ⟨s, _, h1, h2, h3⟩
  · rw [h'] at hn
    simp only at h'
    rw [h']
    cases hg : OMap.get g c with
    | none => rfl
    | some v =>
      cases v with
      | none => exact absurd hg hn
      | some s => rfl
  · simp only at h3
    rw [h3, h1]
    unfold readComp at h2
    split at h2
    · simp at h2
    · cases hd : OMap.get d c with
      | none => rw [hd] at h2; simp at h2
      | some s' =>
        rw [hd] at h2
        simp only [Except.ok.injEq] at h2
        simp [h2]

theorem ensureLoaded_content (err : E) (bad : CKey S → Bool) (st : St S σ) (cs : List (CKey S)) (c : CKey S) :
    content { st with mem := (ensureLoaded (readComp err bad st.disk) st.mem cs).1 } c = content st c := by
  unfold content
  rcases ensureLoaded_get (readComp err bad st.disk) st.mem cs c with h | ⟨s, _, h1, h2, h3⟩
  · simp only [h]
  · simp only [h1, h3]
    unfold readComp at h2
    split at h2
    · simp at h2
    · cases hd : OMap.get st.disk c with
      | none => rw [hd] at h2; simp at h2
      | some s' =>
        rw [hd] at h2
        simp only [Except.ok.injEq] at h2
        rw [h2]

/-- A failed update leaves what is stored. -/
theorem failed_content (err : E) {st : St S σ} (hi : Inv st) {bad : CKey S → Bool} (hb : ∀ c, bad c = false) (w : List (CKey S × σ))
    (c : CKey S) : content (step err st (.update bad w false)).1 c = stored st c ∨
      content (step err st (.update bad w false)).1 c = content st c := by
  rcases he : ensureLoadedAll (readComp err bad st.disk) st.mem with ⟨g, x⟩
  cases x with
  | error e =>
    right
    have := ensureLoaded_content err bad st ((st.mem.filter fun e => e.2.isNone).map Prod.fst) c
    simp only [step, he]
    rw [show ensureLoaded (readComp err bad st.disk) st.mem _ = (g, .error e) from he] at this
    exact this
  | ok r =>
    left
    obtain ⟨f1, f2⟩ := freshMem_spec st.disk hi.disk
    have fg : ∀ c, OMap.get (st.disk.map fun e => (e.1, (none : Option σ))) c = (OMap.get st.disk c).map fun _ => none := by
      intro c
      cases hd : OMap.get st.disk c with
      | none =>
        have := OMap.get_eq_none_iff.1 hd
        rw [← f2] at this
        rw [OMap.get_eq_none_iff.2 this]
        rfl
      | some s =>
        exact OMap.get_of_mem f1 (List.mem_map.2 ⟨(c, s), OMap.mem_of_get hd, rfl⟩)
    obtain ⟨g1, r1, e1⟩ : ∃ g' r, ensureLoadedAll (readComp err bad st.disk) (st.disk.map fun e => (e.1, (none : Option σ))) =
        (g', .ok r) := by
      refine ensureLoadedAll_total err hb fun c hc => ?_
      rw [← f2]
      exact OMap.mem_keys_iff.2 ⟨_, hc⟩
    have G1 : ∀ c, OMap.get g1 c = (OMap.get st.disk c).map some := by
      intro c
      rw [ensureLoadedAll_get e1 c, fg]
      cases OMap.get st.disk c <;> rfl
    obtain ⟨g2, o1, o2⟩ : ∃ g2, openMem err bad st = (g2, .ok ()) ∧ ∀ c, OMap.get g2 c =
        match st.log.bind fun w => w.reverse.find? fun a => a.1 = c with
        | some a => some (some a.2)
        | none => match st.log with
          | none => (OMap.get st.disk c).map fun _ => none
          | some _ => (OMap.get st.disk c).map some := by
      unfold openMem
      cases hlog : st.log with
      | none => exact ⟨_, rfl, fg⟩
      | some w' =>
        simp only [e1]
        refine ⟨_, rfl, fun c => ?_⟩
        rw [get_applyWrites, G1]
        rfl
    obtain ⟨g3, r3, e3⟩ := ensureLoadedAll_total err hb (d := st.disk) (g := g2) (by
      intro c hc
      rw [o2] at hc
      rw [OMap.mem_keys_iff]
      cases hd : OMap.get st.disk c with
      | some s => exact ⟨s, rfl⟩
      | none =>
        rw [hd] at hc
        revert hc
        cases st.log.bind fun w => w.reverse.find? fun a => a.1 = c with
        | some a => simp
        | none => cases st.log <;> simp)
    have hst : step err st (.update bad w false) = ({ st with mem := g3 }, .error err) := by
      simp only [step, he, Bool.false_eq_true, if_false, o1, e3]
    rw [hst]
    unfold content stored
    simp only [ensureLoadedAll_get e3 c, o2 c]
    cases hl : st.log with
    | none =>
      simp only [Option.bind_none]
      cases OMap.get st.disk c <;> rfl
    | some w' =>
      simp only [Option.bind_some]
      cases w'.reverse.find? fun a => a.1 = c with
      | some a => rfl
      | none => simp only; cases OMap.get st.disk c <;> rfl

theorem step_stored (err : E) {st : St S σ} (hi : Inv st) (hc : content st = stored st) {op : Op S σ} (hr : ReloadOk op)
    (hw : ∀ bad w, op = .update bad w true → st.log = none) :
    content (step err st op).1 = stored (step err st op).1 := by
  cases op with
  | load bad cs =>
    have h := ensureLoaded_content err bad st cs
    rcases he : ensureLoaded (readComp err bad st.disk) st.mem cs with ⟨g, x⟩
    rw [he] at h
    cases x <;> simp only [step, he] <;> funext c <;> rw [h c, hc] <;> rfl
  | update bad w ok =>
    cases ok with
    | false =>
      funext c
      have hs : stored (step err st (.update bad w false)).1 c = stored st c := by
        have : (step err st (.update bad w false)).1.log = st.log ∧ (step err st (.update bad w false)).1.disk = st.disk := by
          simp only [step]
          split
          · exact ⟨rfl, rfl⟩
          · simp only [Bool.false_eq_true, if_false]
            split <;> exact ⟨rfl, rfl⟩
        unfold stored
        rw [this.1, this.2]
      rw [hs]
      rcases failed_content err hi hr w c with h | h
      · exact h
      · rw [h, hc]
    | true =>
      have hlog := hw bad w rfl
      have h := ensureLoaded_content err bad st ((st.mem.filter fun e => e.2.isNone).map Prod.fst)
      rcases he : ensureLoadedAll (readComp err bad st.disk) st.mem with ⟨g, x⟩
      rw [show ensureLoaded (readComp err bad st.disk) st.mem _ = (g, x) from he] at h
      cases x with
      | error e => simp only [step, he]; funext c; rw [h c, hc]; rfl
      | ok r =>
        simp only [step, he, if_true]
        funext c
        have h' := h c
        rw [hc] at h'
        unfold content stored at h' ⊢
        simp only [hlog, Option.bind_none] at h'
        simp only [get_applyWrites, Option.bind_some]
        cases w.reverse.find? fun a => a.1 = c with
        | some a => rfl
        | none => exact h'
  | sync =>
    unfold step
    cases hj : st.jobs with
    | zero => exact hc
    | succ n =>
      funext c
      have hl := hi.loaded (by rw [hj]; simp) c
      have hg := (get_filterMap_saved hi.mem).2 c
      unfold content stored
      simp only [Option.bind_none]
      cases hm : OMap.get st.mem c with
      | none =>
        cases hd : OMap.get (saved st.mem) c with
        | none => rfl
        | some x => rw [(hg x).1 hd] at hm; simp at hm
      | some v =>
        cases v with
        | none => exact absurd hm hl
        | some x => exact ((hg x).2 hm).symm
  | optimize bad conv =>
    have h := ensureLoaded_content err bad st ((st.mem.filter fun e => e.2.isNone).map Prod.fst)
    rcases he : ensureLoadedAll (readComp err bad st.disk) st.mem with ⟨g, x⟩
    rw [show ensureLoaded (readComp err bad st.disk) st.mem _ = (g, x) from he] at h
    cases x with
    | error e => simp only [step, he]; funext c; rw [h c, hc]; rfl
    | ok r =>
      funext c
      have ho := (C76_optimized err hi bad conv (st' := (step err st (.optimize bad conv)).1) (by simp [step, he]) c).1
      have hlog : (step err st (.optimize bad conv)).1.log = none := by simp [step, he]
      unfold content stored
      rw [hlog, ← ho]
      cases OMap.get (step err st (.optimize bad conv)).1.disk c <;> rfl

/-- C76: a failed update changes no component for the readers of the corpus, and after any operation a restart would find the same content.
Partial: every update waits for the background thread of the update before it (`C76_two_updates_fails`), and an update that fails must be
able to read the corpus again. -/
theorem C76_content_partial (err : E) {st : St S σ} (hi : Inv st) (hc : content st = stored st) (ops : List (Op S σ))
    (hr : ∀ op ∈ ops, ReloadOk op) (hw : Waits err st ops) :
    content (run err st ops) = stored (run err st ops) ∧
    ∀ bad w, (∀ c, bad c = false) → content (run err st (ops ++ [.update bad w false])) = content (run err st ops) := by
  have key : content (run err st ops) = stored (run err st ops) := by
    induction ops generalizing st with
    | nil => exact hc
    | cons op ops ih =>
      have hro := hr op List.mem_cons_self
      exact ih (step_inv err hi hro).1 (step_stored err hi hc hro hw.1) (fun o ho => hr o (List.mem_cons_of_mem _ ho)) hw.2
  refine ⟨key, fun bad w hb => ?_⟩
  have e : run err st (ops ++ [.update bad w false]) = (step err (run err st ops) (.update bad w false)).1 := by simp [run]
  rw [e]
  funext c
  rcases failed_content err (C76_kept_partial err hi ops hr).1 hb w c with h | h
  · rw [h, key]
  · exact h

end Load
