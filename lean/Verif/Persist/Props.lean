import Verif.Persist.Model
import Verif.Graph.Props

/-!
# Properties of storing a graph on disk (C26, C27, C28)
-/

set_option linter.unusedSimpArgs false
set_option linter.unusedSectionVars false

section
variable {A C K U : Type} [LinearOrder C]
variable (apply : Content A C K → U → Content A C K × Bool)

theorem loadComps_some (m : OMap C K) : loadComps (m.map fun p => (p.1, some p.2)) = some m := by
  induction m with
  | nil => rfl
  | cons p r ih => simp [loadComps, ih]

/-- Inserting the entries of a sorted map one after the other. -/
theorem foldl_insert_sorted (m : OMap C K) (hs : m.Sorted) :
    m.foldl (fun (acc : OMap C (Option K)) p => acc.insert p.1 (some p.2)) [] = m.map fun p => (p.1, some p.2) := by
  have key : ∀ (m : OMap C K) (acc : OMap C (Option K)), m.Sorted → acc.Sorted →
      (∀ c, acc.get c ≠ none → ∀ p ∈ m, p.1 ≠ c) →
      (m.foldl (fun (acc : OMap C (Option K)) p => acc.insert p.1 (some p.2)) acc).Sorted ∧
      ∀ c, (m.foldl (fun (acc : OMap C (Option K)) p => acc.insert p.1 (some p.2)) acc).get c =
        match OMap.get m c with
        | some k => some (some k)
        | none => acc.get c := by
    intro m
    induction m with
    | nil => intro acc _ ha _; exact ⟨ha, fun c => rfl⟩
    | cons p r ih =>
      intro acc hm ha hd
      obtain ⟨h1, h2⟩ := OMap.sorted_cons.1 hm
      have hne : ∀ q ∈ r, q.1 ≠ p.1 := fun q hq => ne_of_gt (h1 q hq)
      obtain ⟨i1, i2⟩ := ih (acc.insert p.1 (some p.2)) h2 (OMap.sorted_insert ha _ _) (by
        intro c hc q hq
        rw [OMap.get_insert] at hc
        split at hc
        · rename_i e; rw [e]; exact hne q hq
        · exact hd c hc q (List.mem_cons_of_mem _ hq))
      refine ⟨i1, ?_⟩
      intro c
      simp only [List.foldl_cons]
      rw [i2]
      obtain ⟨k0, v0⟩ := p
      simp only [OMap.get]
      by_cases e : c = k0
      · subst e
        have : OMap.get r c = none := by
          rw [OMap.get_eq_none_iff]
          intro hk
          unfold OMap.keys at hk
          obtain ⟨q, hq, he⟩ := List.mem_map.1 hk
          exact hne q hq he
        rw [this]
        simp [OMap.get_insert]
      · simp only [e, if_false, OMap.get_insert]
  obtain ⟨k1, k2⟩ := key m [] hs OMap.sorted_nil (by simp)
  refine OMap.ext k1 ?_ ?_
  · unfold OMap.Sorted at hs ⊢
    rw [List.pairwise_map]
    exact hs
  · intro c
    rw [k2]
    clear k1 k2 hs key
    induction m with
    | nil => rfl
    | cons p r ih =>
      obtain ⟨k0, v0⟩ := p
      simp only [OMap.get, List.map_cons]
      by_cases e : c = k0
      · simp only [if_pos e]
      · simp only [if_neg e]
        exact ih

theorem exec_append (d : Disk A C K U) (a b : List (Fs A C K U)) : d.exec (a ++ b) = (d.exec a).exec b := by
  simp [Disk.exec, List.foldl_append]

/-- Steps other than those on the backup folder. -/
def Fs.keepsBackup : Fs A C K U → Bool
  | .renameToBackup => false
  | .dropBackup => false
  | _ => true

theorem exec_backup (steps : List (Fs A C K U)) (h : ∀ s ∈ steps, s.keepsBackup = true) (d : Disk A C K U) :
    (d.exec steps).backup = d.backup := by
  induction steps generalizing d with
  | nil => rfl
  | cons s r ih =>
    have e : d.exec (s :: r) = (d.step s).exec r := rfl
    rw [e, ih (fun s hs => h s (List.mem_cons_of_mem _ hs))]
    have := h s (by simp)
    cases s with
    | renameToBackup | dropBackup => cases this
    | mkdir t | beginAnnos t | endAnnos t a | beginComp t c | endComp t c k => cases t <;> rfl
    | putLog u => rfl

theorem saveSteps_keeps (t : Target) (g : Content A C K) : ∀ s ∈ (saveSteps t g : List (Fs A C K U)), s.keepsBackup = true := by
  intro s hs
  unfold saveSteps at hs
  simp only [List.mem_cons, List.mem_flatMap, List.not_mem_nil, or_false] at hs
  rcases hs with rfl | rfl | rfl | ⟨p, _, rfl | rfl⟩ <;> rfl

/-- Writing into a new folder. -/
theorem exec_save_fresh (g : Content A C K) (hs : g.comps.Sorted) (b : Option (Folder A C K U)) :
    ∃ f : Folder A C K U, (Disk.exec ⟨none, b⟩ (saveSteps .current g)).current = some f ∧
      f.files = ⟨.ok g.annos, g.comps.map fun p => (p.1, some p.2), none⟩ := by
  have loop : ∀ (m : OMap C K) (acc : OMap C (Option K)) (a : FileSt A), (∀ c, acc.get c ≠ none → ∀ p ∈ m, p.1 ≠ c) → m.Sorted →
      Disk.exec (⟨some ⟨⟨a, acc, none⟩, none⟩, b⟩ : Disk A C K U)
        (m.flatMap fun p => [.beginComp .current p.1, .endComp .current p.1 p.2]) =
      ⟨some ⟨⟨a, m.foldl (fun acc p => acc.insert p.1 (some p.2)) acc, none⟩, none⟩, b⟩ := by
    intro m
    induction m with
    | nil => intro acc a _ _; rfl
    | cons p r ih =>
      intro acc a hd hm
      obtain ⟨h1, h2⟩ := OMap.sorted_cons.1 hm
      have hg : acc.get p.1 = none := by
        by_contra hc
        exact hd p.1 hc p (by simp) rfl
      simp only [List.flatMap_cons, List.foldl_cons]
      rw [exec_append]
      have e : Disk.exec (⟨some ⟨⟨a, acc, none⟩, none⟩, b⟩ : Disk A C K U)
          [.beginComp .current p.1, .endComp .current p.1 p.2] =
          ⟨some ⟨⟨a, acc.insert p.1 (some p.2), none⟩, none⟩, b⟩ := by
        simp [Disk.exec, Disk.step, Disk.edit, hg]
      rw [e]
      refine ih _ _ ?_ h2
      intro c hc q hq
      rw [OMap.get_insert] at hc
      split at hc
      · rename_i e; rw [e]; exact ne_of_gt (h1 q hq)
      · exact hd c hc q (List.mem_cons_of_mem _ hq)
  unfold saveSteps
  have e : Disk.exec (⟨none, b⟩ : Disk A C K U)
      (.mkdir .current :: .beginAnnos .current :: .endAnnos .current g.annos ::
        g.comps.flatMap fun p => [.beginComp .current p.1, .endComp .current p.1 p.2]) =
      Disk.exec ⟨some ⟨⟨.ok g.annos, [], none⟩, none⟩, b⟩
        (g.comps.flatMap fun p => [.beginComp .current p.1, .endComp .current p.1 p.2]) := by
    simp [Disk.exec, Disk.step, Disk.edit, Files.empty]
  rw [e, loop g.comps [] _ (by simp) hs]
  exact ⟨_, rfl, by rw [foldl_insert_sorted g.comps hs]⟩

/-- The disk holds the graph in its folder `current`, possibly with a log. -/
def Clean (d : Disk A C K U) (g : Content A C K) : Prop :=
  d.backup = none ∧ ∃ f, d.current = some f ∧ loadFiles apply f.files = some g

/-- The disk holds the graph without a log. -/
def Synced (d : Disk A C K U) (g : Content A C K) : Prop :=
  d.backup = none ∧ ∃ f, d.current = some f ∧ loadFiles apply f.files = some g ∧ f.files.log = none

theorem Synced.clean {d : Disk A C K U} {g : Content A C K} (h : Synced apply d g) : Clean apply d g :=
  ⟨h.1, h.2.imp fun _ h => ⟨h.1, h.2.1⟩⟩

/-- A completed write-back, whatever was in the folder before. -/
theorem sync_complete {d : Disk A C K U} (g : Content A C K) (hs : g.comps.Sorted) (hb : d.backup = none) :
    Synced apply (d.exec (syncSteps d g)) g := by
  unfold syncSteps
  rw [hb]
  simp only
  rw [exec_append, exec_append]
  have e : d.exec [.renameToBackup] = ⟨none, d.current⟩ := rfl
  rw [e]
  obtain ⟨f, h1, h2⟩ := exec_save_fresh g hs d.current
  refine ⟨rfl, f, h1, ?_, by rw [h2]⟩
  unfold loadFiles
  rw [h2]
  simp [loadComps_some]

theorem take_append_cases {X : Type} (a b : List X) (k : Nat) :
    (∃ r, a = (a ++ b).take k ++ r) ∨ (∃ j, (a ++ b).take k = a ++ b.take j) := by
  rcases Nat.le_total k a.length with h | h
  · left
    rw [List.take_append_of_le_length h]
    exact ⟨a.drop k, (List.take_append_drop k a).symm⟩
  · right
    refine ⟨k - a.length, ?_⟩
    rw [List.take_append, List.take_of_length_le h]

/-- Stopping the write-back after any number of steps: loading gives the graph. -/
theorem sync_prefix {d : Disk A C K U} {g : Content A C K} (hs : g.comps.Sorted) (hc : Clean apply d g) (k : Nat) :
    (openSteps apply (d.exec ((syncSteps d g).take k))).map Prod.fst = some g := by
  have hclean : ∀ {d : Disk A C K U}, Clean apply d g → (openSteps apply d).map Prod.fst = some g := by
    intro d ⟨h1, f, h2, h3⟩
    unfold openSteps
    rw [h1, h2]
    simp [h3]
  obtain ⟨hb, f, hf, hl⟩ := hc
  have hfull := (sync_complete apply (d := d) g hs hb).clean
  by_cases hk : (syncSteps d g).length ≤ k
  · rw [List.take_of_length_le hk]
    exact hclean hfull
  · cases k with
    | zero => exact hclean ⟨hb, f, hf, hl⟩
    | succ k =>
      have e : syncSteps d g = .renameToBackup :: (saveSteps .current g ++ [.dropBackup]) := by
        unfold syncSteps
        rw [hb]
        rfl
      rw [e] at hk ⊢
      rw [List.take_succ_cons]
      have hlen : k < (saveSteps .current g ++ [(.dropBackup : Fs A C K U)]).length := by
        simp only [List.length_cons] at hk
        omega
      have hle : k ≤ (saveSteps .current g : List (Fs A C K U)).length := by
        simp only [List.length_append, List.length_cons, List.length_nil] at hlen
        omega
      rw [List.take_append_of_le_length hle]
      have e2 : d.exec (.renameToBackup :: (saveSteps .current g).take k) =
          Disk.exec ⟨none, d.current⟩ ((saveSteps .current g).take k) := rfl
      rw [e2]
      have hbk := exec_backup ((saveSteps .current g : List (Fs A C K U)).take k)
        (fun s h => saveSteps_keeps .current g s (List.mem_of_mem_take h)) ⟨none, d.current⟩
      unfold openSteps
      rw [hbk, hf]
      simp [hl]

/-- Stopping the recovery before the backup is removed: loading still gives the graph. -/
theorem recovery_prefix {d : Disk A C K U} {g : Content A C K} {steps : List (Fs A C K U)} (h : openSteps apply d = some (g, steps))
    (k : Nat) (hk : k < steps.length ∨ steps = []) : openSteps apply (d.exec (steps.take k)) = some (g, steps) := by
  rcases hk with hk | rfl
  · unfold openSteps at h
    cases hb : d.backup with
    | none =>
      rw [hb] at h
      simp only at h
      cases hc : d.current with
      | none => rw [hc] at h; cases h
      | some f =>
        rw [hc] at h
        simp only [Option.bind_some, Option.map_eq_some_iff, Prod.mk.injEq] at h
        obtain ⟨_, _, _, rfl⟩ := h
        simp at hk
    | some b =>
      rw [hb] at h
      simp only [Option.map_eq_some_iff, Prod.mk.injEq] at h
      obtain ⟨g', hl, rfl, rfl⟩ := h
      have hle : k ≤ (saveSteps .nested g' : List (Fs A C K U)).length := by
        simp only [List.length_append, List.length_cons, List.length_nil] at hk
        omega
      rw [List.take_append_of_le_length hle]
      have hbk := exec_backup ((saveSteps .nested g' : List (Fs A C K U)).take k)
        (fun s h => saveSteps_keeps .nested g' s (List.mem_of_mem_take h)) d
      unfold openSteps
      rw [hbk, hb]
      simp [hl]
  · simpa [Disk.exec] using h

/-- Repeated opening, each time crashing after some steps of the recovery. -/
def crashes (d : Disk A C K U) : List Nat → Disk A C K U
  | [] => d
  | k :: r => match openSteps apply d with
    | some (_, steps) => crashes (d.exec (steps.take k)) r
    | none => d

/-- No recovery is completed. -/
def Unfinished (d : Disk A C K U) : List Nat → Prop
  | [] => True
  | k :: r => match openSteps apply d with
    | some (_, steps) => (k < steps.length ∨ steps = []) ∧ Unfinished (d.exec (steps.take k)) r
    | none => True

theorem crashes_stable {d : Disk A C K U} {g : Content A C K} {steps : List (Fs A C K U)} (h : openSteps apply d = some (g, steps))
    (ks : List Nat) (hu : Unfinished apply d ks) : openSteps apply (crashes apply d ks) = some (g, steps) := by
  induction ks generalizing d with
  | nil => exact h
  | cons k r ih =>
    unfold crashes
    unfold Unfinished at hu
    rw [h] at hu ⊢
    simp only at hu ⊢
    exact ih (recovery_prefix apply h k hu.1) hu.2

/-! ### Histories -/

/-- What happens to a stored graph while the process runs. -/
inductive POp (U : Type)
  | update (u : U)
  | sync

/-- The graph in memory and the disk.  `none` is an error while loading the graph again after a failed update. -/
def pstep (s : Content A C K × Disk A C K U) : POp U → Option (Content A C K × Disk A C K U)
  | .update u => (applyUpdate apply s.1 s.2 u).map Prod.fst
  | .sync => some (s.1, s.2.exec (syncSteps s.2 s.1))

def prun (s : Content A C K × Disk A C K U) (ops : List (POp U)) : Option (Content A C K × Disk A C K U) :=
  ops.foldlM (pstep apply) s

/-- There is never more than one successful update that was not yet written back. `pending` tells whether there is one. -/
def Serial : Bool → Content A C K × Disk A C K U → List (POp U) → Prop
  | _, _, [] => True
  | pending, s, .update u :: r =>
    if (apply s.1 u).2 then pending = false ∧ ∀ s', pstep apply s (.update u) = some s' → Serial true s' r
    else ∀ s', pstep apply s (.update u) = some s' → Serial pending s' r
  | _, s, .sync :: r => ∀ s', pstep apply s .sync = some s' → Serial false s' r

/-- The state is consistent with the disk; `pending` tells whether there may be a log. -/
def Consistent (pending : Bool) (s : Content A C K × Disk A C K U) : Prop :=
  s.1.comps.Sorted ∧ if pending then Clean apply s.2 s.1 else Synced apply s.2 s.1

theorem Consistent.clean {pending : Bool} {s : Content A C K × Disk A C K U} (h : Consistent apply pending s) :
    Clean apply s.2 s.1 := by
  obtain ⟨_, h⟩ := h
  cases pending
  · exact Synced.clean apply h
  · exact h

/-- A failed update leaves memory and disk as they were. -/
theorem failed_update {d : Disk A C K U} {g : Content A C K} (hc : Clean apply d g) (u : U) (hf : (apply g u).2 = false) :
    applyUpdate apply g d u = some ((g, d), false) := by
  obtain ⟨h1, f, h2, h3⟩ := hc
  unfold applyUpdate openGraph openSteps
  rw [h1, h2]
  simp [hf, h3, Disk.exec]

theorem prun_consistent (hsort : ∀ g u, g.comps.Sorted → (apply g u).1.comps.Sorted) (ops : List (POp U)) :
    ∀ (pending : Bool) (s : Content A C K × Disk A C K U), Consistent apply pending s → Serial apply pending s ops →
      ∃ s' pending', prun apply s ops = some s' ∧ Consistent apply pending' s' := by
  induction ops with
  | nil => intro p s h _; exact ⟨s, p, rfl, h⟩
  | cons op r ih =>
    intro pending s h hser
    cases op with
    | sync =>
      have hc := h.clean
      have hs' : Consistent apply false (s.1, s.2.exec (syncSteps s.2 s.1)) :=
        ⟨h.1, sync_complete apply s.1 h.1 hc.1⟩
      obtain ⟨s', p', h1, h2⟩ := ih false _ hs' (hser _ rfl)
      exact ⟨s', p', by simpa [prun, pstep] using h1, h2⟩
    | update u =>
      unfold Serial at hser
      by_cases ha : (apply s.1 u).2 = true
      · rw [if_pos ha] at hser
        obtain ⟨rfl, hser⟩ := hser
        obtain ⟨hs, hb, f, hf, hl, hlog⟩ := h
        have hst : pstep apply s (.update u) = some ((apply s.1 u).1, s.2.step (.putLog u)) := by
          simp [pstep, applyUpdate, ha]
        have hcons : Consistent apply true ((apply s.1 u).1, s.2.step (.putLog u)) := by
          refine ⟨hsort _ _ hs, hb, ⟨{ f.files with log := some u }, f.nested⟩, ?_, ?_⟩
          · simp [Disk.step, Disk.edit, hf]
          · unfold loadFiles at hl ⊢
            cases hfa : f.files.annos with
            | ok a =>
              rw [hfa] at hl
              simp only [hlog] at hl ⊢
              cases hlc : loadComps f.files.comps with
              | none => rw [hlc] at hl; cases hl
              | some comps =>
                rw [hlc] at hl
                simp only [Option.bind_some, Option.some.injEq] at hl ⊢
                rw [hl, if_pos ha]
            | absent => rw [hfa] at hl; cases hl
            | torn => rw [hfa] at hl; cases hl
        obtain ⟨s', p', h1, h2⟩ := ih true _ hcons (hser _ hst)
        exact ⟨s', p', by simpa [prun, hst] using h1, h2⟩
      · rw [if_neg ha] at hser
        have hst : pstep apply s (.update u) = some s := by
          have := failed_update apply h.clean u (by simpa using ha)
          simp [pstep, this]
        obtain ⟨s', p', h1, h2⟩ := ih pending s h (hser s hst)
        exact ⟨s', p', by simpa [prun, hst] using h1, h2⟩

end

section
variable {S V C : Type} [LinearOrder S] [OrderBot S] [LinearOrder V] [LinearOrder C]

abbrev GContent (S V C : Type) := Content (AnnoStore NodeID64 S V) C (Adj NodeID64 S V)
abbrev GDisk (S V C : Type) := Disk (AnnoStore NodeID64 S V) C (Adj NodeID64 S V) (List (Nat × Event S V C))

theorem sorted_setComp {g : Graph S V C} (h : g.comps.Sorted) (c : C) (a : Adj NodeID64 S V) : (g.setComp c a).comps.Sorted :=
  OMap.sorted_insert h _ _

theorem sorted_editComp {g : Graph S V C} (h : g.comps.Sorted) (a b : Option NodeID64) (c : Option C)
    (f : Adj NodeID64 S V → NodeID64 → NodeID64 → Adj NodeID64 S V) : (g.editComp a b c f).comps.Sorted := by
  unfold Graph.editComp
  split
  · exact sorted_setComp h _ _
  · exact h

theorem sorted_foldl {g : Graph S V C} (h : g.comps.Sorted) (i : NodeID64) (all : List C) :
    (all.foldl (fun g c => g.setComp c ((g.comp c).deleteNode i)) g).comps.Sorted := by
  induction all generalizing g with
  | nil => exact h
  | cons c r ih => exact ih (sorted_setComp h _ _)

theorem sorted_applyEvent {nk tk : AnnoKey S} {cap : Nat} {all : List C} {g : Graph S V C} (h : g.comps.Sorted)
    {cache : IdCache V} {e : Event S V C} {r : Graph S V C × IdCache V}
    (hr : Graph.applyEvent nk tk cap all g cache e = some r) : r.1.comps.Sorted := by
  cases e with
  | addNode n ty =>
    simp only [Graph.applyEvent] at hr
    split at hr
    · obtain rfl := Option.some.inj hr; exact h
    · obtain ⟨i, _, rfl⟩ := Option.map_eq_some_iff.1 hr
      exact h
  | deleteNode n =>
    simp only [Graph.applyEvent] at hr
    split at hr
    · obtain rfl := Option.some.inj hr
      exact sorted_foldl (g := { annos := (g.annos.removeItem _).1, comps := g.comps, changeId := g.changeId }) h _ _
    · obtain rfl := Option.some.inj hr; exact h
  | addNodeLabel n key val | deleteNodeLabel n key =>
    simp only [Graph.applyEvent] at hr
    split at hr <;> (obtain rfl := Option.some.inj hr; exact h)
  | addEdge s t c | deleteEdge s t c | addEdgeLabel s t c key val | deleteEdgeLabel s t c key =>
    simp only [Graph.applyEvent] at hr
    obtain rfl := Option.some.inj hr
    exact sorted_editComp h _ _ _ _

theorem sorted_loop {nk tk : AnnoKey S} {cap : Nat} {hook : Graph S V C → Event S V C → Bool} {all : List C}
    (u : List (Nat × Event S V C)) : ∀ {g : Graph S V C} {cache : IdCache V}, g.comps.Sorted →
      (Graph.applyLoop nk tk cap hook all g cache u).1.comps.Sorted := by
  induction u with
  | nil => intro g cache h; exact h
  | cons x u ih =>
    intro g cache h
    simp only [Graph.applyLoop]
    split
    · cases ha : Graph.applyEvent nk tk cap all g cache x.2 with
      | none => exact h
      | some r => exact ih (sorted_applyEvent (r := r) h ha)
    · exact h

theorem graphApply_sorted (nk tk : AnnoKey S) (cap : Nat) (hook : Graph S V C → Event S V C → Bool) (g : GContent S V C)
    (u : List (Nat × Event S V C)) (h : g.comps.Sorted) : (graphApply nk tk cap hook g u).1.comps.Sorted :=
  sorted_loop u h

/-- The location after `persist_to` with a new location. -/
def saved (g : GContent S V C) : GDisk S V C := Disk.exec ⟨none, none⟩ (saveSteps .current g)

theorem saved_synced (apply : GContent S V C → List (Nat × Event S V C) → GContent S V C × Bool) (g : GContent S V C)
    (hs : g.comps.Sorted) : Synced apply (saved g) g := by
  obtain ⟨f, h1, h2⟩ := exec_save_fresh (U := List (Nat × Event S V C)) g hs none
  refine ⟨?_, f, h1, ?_, by rw [h2]⟩
  · exact exec_backup _ (saveSteps_keeps .current g) _
  · unfold loadFiles
    rw [h2]
    simp [loadComps_some]

variable (nk tk : AnnoKey S) (cap : Nat) (hook : Graph S V C → Event S V C → Bool)

/-- C26, restricted: a failed update on a stored graph leaves the graph and its files unchanged, after any history of updates
and write-backs in which there is never more than one successful update that was not written back.  Missing: several pending
updates (`C26_pending_fails`), a graph without location (`C26_in_memory_fails`), and input/output errors while writing the
log. -/
theorem C26_failed_update_partial (g0 : GContent S V C) (hs : g0.comps.Sorted) (ops : List (POp (List (Nat × Event S V C))))
    (hser : Serial (graphApply nk tk cap hook) false (g0, saved g0) ops) :
    ∃ g d, prun (graphApply nk tk cap hook) (g0, saved g0) ops = some (g, d) ∧
      ∀ u, (graphApply nk tk cap hook g u).2 = false →
        applyUpdate (graphApply nk tk cap hook) g d u = some ((g, d), false) := by
  obtain ⟨⟨g, d⟩, p, h1, h2⟩ := prun_consistent _ (graphApply_sorted nk tk cap hook) ops false (g0, saved g0)
    ⟨hs, saved_synced (graphApply nk tk cap hook) g0 hs⟩ hser
  exact ⟨g, d, h1, fun u hu => failed_update _ h2.clean u hu⟩

/-- C27, restricted: after any history of updates and write-backs in which there is never more than one successful update that
was not written back, a crash after any number of steps of a write-back followed by opening the graph gives the graph with all
successful updates.  Missing: several pending updates (`C27_fails`), and crashes after a completed recovery (`C28_fails`). -/
theorem C27_durability_partial (g0 : GContent S V C) (hs : g0.comps.Sorted) (ops : List (POp (List (Nat × Event S V C))))
    (hser : Serial (graphApply nk tk cap hook) false (g0, saved g0) ops) :
    ∃ g d, prun (graphApply nk tk cap hook) (g0, saved g0) ops = some (g, d) ∧
      ∀ k, (openGraph (graphApply nk tk cap hook) (d.exec ((syncSteps d g).take k))).map Prod.fst = some g := by
  obtain ⟨⟨g, d⟩, p, h1, h2⟩ := prun_consistent _ (graphApply_sorted nk tk cap hook) ops false (g0, saved g0)
    ⟨hs, saved_synced (graphApply nk tk cap hook) g0 hs⟩ hser
  refine ⟨g, d, h1, ?_⟩
  intro k
  have := sync_prefix _ h2.1 h2.clean k
  unfold openGraph
  rw [Option.map_map]
  exact this

/-- C28, restricted: if the write-back crashes after any number of steps, and then opening the graph crashes any number of times
before the recovery is complete, opening the graph gives the complete state.  Missing: stability after a completed recovery
(`C28_fails`). -/
theorem C28_backup_partial (g : GContent S V C) (d : GDisk S V C) (hs : g.comps.Sorted)
    (hc : Clean (graphApply nk tk cap hook) d g) (k : Nat) (ks : List Nat)
    (hu : Unfinished (graphApply nk tk cap hook) (d.exec ((syncSteps d g).take k)) ks) :
    (openGraph (graphApply nk tk cap hook)
      (crashes (graphApply nk tk cap hook) (d.exec ((syncSteps d g).take k)) ks)).map Prod.fst = some g := by
  have h := sync_prefix _ hs hc k
  obtain ⟨⟨g', steps⟩, h1, h2⟩ := Option.map_eq_some_iff.1 h
  simp only at h2
  subst h2
  have := crashes_stable _ h1 ks hu
  unfold openGraph
  rw [this]
  rfl

/-- C28: a completed write-back leaves the complete state without a log, also if the folder `current` was damaged before. -/
theorem C28_completed (g : GContent S V C) (d : GDisk S V C) (hs : g.comps.Sorted) (hb : d.backup = none) :
    (openGraph (graphApply nk tk cap hook) (d.exec (syncSteps d g))).map Prod.fst = some g := by
  obtain ⟨h1, f, h2, h3, _⟩ := sync_complete (graphApply nk tk cap hook) (d := d) g hs hb
  unfold openGraph openSteps
  rw [h1, h2]
  simp [h3]

end

/-! ### Examples -/

namespace PersistEx
open Graph

abbrev G := GContent Nat Nat Nat
abbrev D := GDisk Nat Nat Nat

/-- The update is aborted at the second attempt to add the node 66 or at an attempt to delete it. -/
def hook (g : Graph Nat Nat Nat) : ExEvent → Bool
  | .deleteNode n => g.annos.hasNodeName exNk n
  | _ => true

def app : G → List (Nat × ExEvent) → G × Bool := graphApply exNk exTk 1000 hook

def g0 : G := ⟨AnnoStore.new, []⟩

def u1 : List (Nat × ExEvent) := numbered [.addNode 10 99, .addNode 11 99, .addEdge 10 11 (some 5)]
def u2 : List (Nat × ExEvent) := numbered [.addNode 12 99]
def bad : List (Nat × ExEvent) := numbered [.addNode 13 99, .deleteNode 77]

/-- C27 fails: two acknowledged updates before the first write-back, then a crash: the first update is lost. -/
theorem C27_fails :
    ((prun app (g0, saved g0) [.update u1, .update u2]).map fun s =>
      (s.1.annos.hasNodeName exNk 10, (openGraph app s.2).map fun r =>
        (r.1.annos.hasNodeName exNk 10, r.1.annos.hasNodeName exNk 12))) = some (true, some (false, true)) := by decide

/-- C26 fails with two pending updates: the failed update loses the first of them. -/
theorem C26_pending_fails :
    ((prun app (g0, saved g0) [.update u1, .update u2]).bind fun s => (applyUpdate app s.1 s.2 bad).map fun r =>
      (r.2, s.1.annos.hasNodeName exNk 10, r.1.1.annos.hasNodeName exNk 10)) = some (false, true, false) := by decide

/-- C26 fails for a graph without a location: the events before the failing one stay applied. -/
theorem C26_in_memory_fails :
    (app g0 bad).2 = false ∧ g0.annos.hasNodeName exNk 13 = false ∧ (app g0 bad).1.annos.hasNodeName exNk 13 = true := by
  decide

/-- The graph after the first update and its location after a write-back. -/
def g1 : G := (app g0 u1).1

/-- C28 fails: the write-back crashes between the node annotations and the components.  The first opening recovers the graph
from the backup, the second one silently gets a graph without edges. -/
theorem C28_fails :
    let d := (saved g1).exec ((syncSteps (saved g1) g1).take 4)
    (openGraph app d).map (fun r => (r.1.comps.keys, (openGraph app r.2).map fun r => (r.1.annos.hasNodeName exNk 10, r.1.comps.keys)))
      = some ([5], some (true, [])) := by decide

/-- C28 fails: the write-back crashes after the first step.  The second opening is an error. -/
theorem C28_second_open_fails :
    let d := (saved g1).exec ((syncSteps (saved g1) g1).take 1)
    (openGraph app d).map (fun r => (r.1.comps.keys, (openGraph app r.2).isSome)) = some ([5], false) := by decide

/-- The restricted statements apply to histories with several updates and a failed one. -/
theorem C27_nonvacuous :
    Serial app false (g0, saved g0) [.update u1, .update bad, .sync, .update u2] ∧
    (prun app (g0, saved g0) [.update u1, .update bad, .sync, .update u2]).map (fun s =>
      (s.1.annos.hasNodeName exNk 10, s.1.annos.hasNodeName exNk 12, s.1.annos.hasNodeName exNk 13)) = some (true, true, false) := by
  refine ⟨?_, by decide⟩
  unfold Serial
  rw [if_pos (by decide)]
  refine ⟨rfl, ?_⟩
  intro s1 h1
  have e1 : s1 = (pstep app (g0, saved g0) (.update u1)).get (by decide) := by simp [h1]
  subst e1
  unfold Serial
  rw [if_neg (by decide)]
  intro s2 h2
  have e2 : s2 = (pstep app ((pstep app (g0, saved g0) (.update u1)).get (by decide)) (.update bad)).get (by decide) := by simp [h2]
  unfold Serial
  intro s3 h3
  unfold Serial
  split
  · exact ⟨rfl, fun _ _ => trivial⟩
  · exact fun _ _ => trivial

end PersistEx
