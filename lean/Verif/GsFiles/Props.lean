import Verif.GsFiles.Lemmas

/-!
# C107: what was saved is what is loaded

`view` (in `Lemmas.lean`) is the specification: the parts of a component and its statistics.
-/

namespace GsFiles

variable {D O : Type}

theorem view_frame {N : Nat} {p : Dir} {a b : Fs D} (ov : Overlay D O) {g : Gs D O} (hg : g.Ok N) (h : Frame N p a b) :
    view ov b g = view ov a g := by
  cases g with
  | mem k ds s => rfl
  | diskAdj e i x s =>
    obtain ⟨he, hi, hx⟩ := hg
    simp only [view, readMap_frame ov he h, readMap_frame ov hi h, readMap_frame ov hx.1 h, readMap_frame ov hx.2 h]
  | diskPath w i x s l =>
    obtain ⟨he, hi, hx⟩ := hg
    simp only [view, readSrc_frame he h, readMap_frame ov hi h, readMap_frame ov hx.1 h, readMap_frame ov hx.2 h]

theorem mkdir_frame (N : Nat) (p : Dir) (fs : Fs D) : Frame N p fs (fs.mkdir p) where
  data := fun _ _ => rfl
  next := le_rfl
  file := fun _ _ _ => rfl
  dirs := fun q h => by simp only [Fs.mkdir]; split <;> simp_all
  folders := fun f => by
    left
    simp only [Fs.mkdir]
    by_cases h : f = p.1 <;> simp [h]
  wf := id

theorem mkdir_fresh {N : Nat} {p : Dir} {fs : Fs D} (h : Fresh N fs p) : Fresh N (fs.mkdir p) p := ⟨h.next, h.bounds, h.inj⟩

/-- Saving one component: everything that was open or stored elsewhere is kept, and the directory shows the saved component. -/
theorem saveComponent_step {N : Nat} {p : Dir} {a : Fs D} (ov : Overlay D O) (h : Fresh N a p) {g : Gs D O} (hg : g.Ok N)
    {v : View D} (hv : view ov a g = some v) (hl : ∀ q, g.location = some q → q ≠ p ∧ a.dirs q = true)
    (hr : NoOld (a.read p) g) :
    (saveComponent ov a p g).2 = true ∧ Fresh N (saveComponent ov a p g).1 p ∧ Frame N p a (saveComponent ov a p g).1 ∧
      dirComponent ov ((saveComponent ov a p g).1.read p) = some v := by
  have hm := mkdir_frame N p a
  have hv' : view ov (a.mkdir p) g = some v := (view_frame ov hg hm).trans hv
  have hs := save_step ov (mkdir_fresh h) hg hv' (fun q hq => ⟨(hl q hq).1, hm.dirs q (hl q hq).2⟩)
  have hc := hs.2.create .implCfg (.cfg (serializationId g.kind))
  have he : saveComponent ov a p g =
      ((save ov (a.mkdir p) p g).1.create p .implCfg (.cfg (serializationId g.kind)), true) := by
    unfold saveComponent
    rw [thenDo_true hs.1]
  rw [he]
  refine ⟨rfl, hc.1, hm.trans hc.2.1, ?_⟩
  simp only [hc.2.2]
  exact dirComponent_put ov (a.mkdir p) _ hg hv' hr

/-- **C107, one component.**  Full claim: a component of any implementation that is saved to a directory is loaded again with the
same parts and the same statistics, the saved storage itself still shows them, and no other directory changes.

Missing: a path storage that was loaded from the same directory (`C107_lost`), a storage on disk that reads from the directory
(`C107_in_place`, here excluded by `Fresh`: all files of the directory have numbers from `N` on, all open files are below), and
directories with files of older versions (`C107_stale`). -/
theorem C107_save_partial {N : Nat} {p : Dir} {a : Fs D} (ov : Overlay D O) (h : Fresh N a p) {g : Gs D O} (hg : g.Ok N)
    {v : View D} (hv : view ov a g = some v) (hl : ∀ q, g.location = some q → q ≠ p ∧ a.dirs q = true)
    (hr : NoOld (a.read p) g) :
    ∃ a', saveComponent ov a p g = (a', true) ∧ (loadComponent ov a' p).bind (view ov a') = some v ∧ view ov a' g = some v ∧
      ∀ q n, q ≠ p → a'.file q n = a.file q n := by
  have hs := saveComponent_step ov h hg hv hl hr
  exact ⟨_, Prod.ext rfl hs.1, by rw [loadComponent_view]; exact hs.2.2.2, (view_frame ov hg hs.2.2.1).trans hv, hs.2.2.1.file⟩

/-- Saving never creates the files of older versions. -/
theorem save_read_old {N : Nat} {p : Dir} {a : Fs D} (ov : Overlay D O) (h : Fresh N a p) {g : Gs D O} (hg : g.Ok N)
    (hm : inMemory g.kind = true) :
    (saveComponent ov a p g).1.read p .component = a.read p .component ∧
      (saveComponent ov a p g).1.read p .edgeStats = a.read p .edgeStats := by
  cases g with
  | diskAdj => cases hm
  | diskPath => cases hm
  | mem k ds s =>
    have hs := save_step ov (mkdir_fresh h) (g := .mem k ds s) hg rfl (fun q hq => by cases hq)
    have hc := hs.2.create .implCfg (.cfg (serializationId k))
    have he : saveComponent ov a p (.mem k ds s) =
        ((save ov (a.mkdir p) p (.mem k ds s)).1.create p .implCfg (.cfg (serializationId k)), true) := by
      unfold saveComponent
      rw [thenDo_true hs.1]
      rfl
    rw [he]
    simp only [hc.2.2, put, putStats]
    constructor
    · rw [Function.update_of_ne (by decide), Function.update_of_ne (by decide), putFields_other]
      · rfl
      · intro x hx
        exact (fieldNames_not k (List.of_mem_zip (show (x.1, x.2) ∈ _ from hx)).1).1
    · rw [Function.update_of_ne (by decide), Function.update_of_ne (by decide), putFields_other]
      · rfl
      · intro x hx
        exact (fieldNames_not k (List.of_mem_zip (show (x.1, x.2) ∈ _ from hx)).1).2.2.1

/-- Saving several storages, one after the other, into the same directory. -/
def saveAll (ov : Overlay D O) (p : Dir) : Fs D → List (Gs D O) → Fs D
  | fs, [] => fs
  | fs, g :: r => saveAll ov p (saveComponent ov fs p g).1 r

/-- **C107, the last one counts.**  Whatever storages in memory, of whatever implementations, were saved into a directory before, the
one that was saved last is loaded: no file of an earlier one is mistaken for its own.  (The directory starts without files of older
versions.) -/
theorem C107_last {p : Dir} (ov : Overlay D O) (l : List (Gs D O)) (g : Gs D O) (a : Fs D) (h : Fresh 0 a p)
    (hl : ∀ x ∈ l, x.Ok 0 ∧ inMemory x.kind = true) (hg : g.Ok 0 ∧ inMemory g.kind = true)
    (hc : a.read p .component = none) (he : a.read p .edgeStats = none) :
    (loadComponent ov (saveAll ov p a (l ++ [g])) p).bind (view ov (saveAll ov p a (l ++ [g]))) = view ov a g := by
  have hno : ∀ (b : Fs D) (x : Gs D O), b.read p .component = none → b.read p .edgeStats = none → NoOld (b.read p) x :=
    fun b x h1 h2 => ⟨fun _ => h1, fun _ _ _ => h2⟩
  have hloc : ∀ x : Gs D O, inMemory x.kind = true → ∀ q, x.location = some q → False := by
    intro x hx q hq
    cases x <;> first | (cases hq; done) | (cases hx; done)
  have hview : ∀ (b c : Fs D) (x : Gs D O), inMemory x.kind = true → view ov b x = view ov c x ∧ ∃ v, view ov b x = some v := by
    intro b c x hx
    cases x with
    | mem k ds s => exact ⟨rfl, _, rfl⟩
    | diskAdj => cases hx
    | diskPath => cases hx
  induction l generalizing a with
  | nil =>
    obtain ⟨v, hv⟩ := (hview a a g hg.2).2
    have hs := saveComponent_step ov h hg.1 hv (fun q hq => (hloc g hg.2 q hq).elim) (hno a g hc he)
    show (loadComponent ov (saveComponent ov a p g).1 p).bind (view ov (saveComponent ov a p g).1) = view ov a g
    rw [loadComponent_view, hs.2.2.2, hv]
  | cons x l ih =>
    have hx := hl x List.mem_cons_self
    obtain ⟨v, hv⟩ := (hview a a x hx.2).2
    have hs := saveComponent_step ov h hx.1 hv (fun q hq => (hloc x hx.2 q hq).elim) (hno a x hc he)
    have ho := save_read_old ov h hx.1 hx.2
    have := ih (saveComponent ov a p x).1 hs.2.1 (fun y hy => hl y (List.mem_cons_of_mem _ hy)) (by rw [ho.1, hc]) (by rw [ho.2, he])
    show (loadComponent ov (saveAll ov p (saveComponent ov a p x).1 (l ++ [g])) p).bind
      (view ov (saveAll ov p (saveComponent ov a p x).1 (l ++ [g]))) = _
    rw [this]
    exact (hview _ _ g hg.2).1

/-! ### Files of older versions -/

/-- **C107, older versions.**  A `component.bin` of an older version is read with all its parts; of its statistics the number of
roots is invented. -/
theorem C107_legacy (ov : Overlay D O) (a : Fs D) (p : Dir) (k : GsImpl) (hk : inMemory k = true) (ds : List D) (s : Option GsStats)
    (h : a.read p .component = some (.legacy k ds s)) :
    load ov a p k = some (.mem k ds (s.map fun s => ⟨s, if s.nodes > 0 then 1 else 0⟩)) := by
  have : load ov a p k = (match a.read p .component with
      | some (.legacy k' ds s) => if k' = k then some (Gs.mem k ds (s.map fromV1)) else none
      | some _ => none
      | none =>
        match loadStats a p, loadFields a p k (fieldNames k) with
        | some s, some ds => some (.mem k ds s)
        | _, _ => none) := by
    cases k <;> first | rfl | cases hk
  rw [this, h]
  simp only [if_true]
  rfl

/-- **C107, stale files.**  `save_to` does not delete the file of the older version, and `load_from` prefers it: whatever storage of
the same implementation is saved into such a directory, the old one is loaded. -/
theorem C107_stale {N : Nat} {p : Dir} (ov : Overlay D O) (a : Fs D) (h : Fresh N a p) (k : GsImpl) (hk : inMemory k = true)
    (hreg : k ∈ registered) (old new : List D) (hlen : new.length = (fieldNames k).length) (s : Option GsStats) (t : Option Stats)
    (ho : a.read p .component = some (.legacy k old s)) :
    (loadComponent ov (saveComponent ov a p (.mem k new t : Gs D O)).1 p).bind
      (view ov (saveComponent ov a p (.mem k new t : Gs D O)).1) = some ⟨k, old, s.map fromV1⟩ := by
  have hg : (Gs.mem k new t : Gs D O).Ok N := ⟨hk, hreg, hlen⟩
  have hs := save_step ov (mkdir_fresh h) hg rfl (fun q hq => by cases hq)
  have hc := hs.2.create .implCfg (.cfg (serializationId k))
  have he : saveComponent ov a p (.mem k new t : Gs D O) =
      ((save ov (a.mkdir p) p (.mem k new t)).1.create p .implCfg (.cfg (serializationId k)), true) := by
    unfold saveComponent
    rw [thenDo_true hs.1]
    rfl
  have hold := save_read_old ov h hg hk
  rw [loadComponent_view]
  unfold dirComponent
  have hcfg : (saveComponent ov a p (.mem k new t : Gs D O)).1.read p .implCfg = some (.cfg (serializationId k)) := by
    rw [he]; simp only [hc.2.2, Function.update_self]
  rw [hcfg]
  simp only [lookup_id hreg, Option.bind_some]
  have hd : ∀ rd : Name → Option (Content D), rd .component = some (.legacy k old s) →
      dirView ov rd k = some ⟨k, old, s.map fromV1⟩ := by
    intro rd hrd
    cases k <;> first | (simp only [dirView, hrd, if_true]; done) | (cases hk; done)
  exact hd _ (hold.1.trans ho)

/-! ### The whole graph -/

/-- The components to save: different directories, storages that can be read, and no path storage that would skip its files. -/
structure Savable (ov : Overlay D O) (fs : Fs D) (f : Folder) (g : List (Nat × Gs D O)) : Prop where
  nodup : (g.map Prod.fst).Nodup
  ok : ∀ x ∈ g, x.2.Ok fs.next
  shows : ∀ x ∈ g, ∃ v, view ov fs x.2 = some v
  elsewhere : ∀ x ∈ g, ∀ q, x.2.location = some q → q ≠ (f, x.1) ∧ fs.dirs q = true

theorem fresh_empty {fs : Fs D} {p : Dir} (h : ∀ n, fs.file p n = none) : Fresh fs.next fs p :=
  ⟨le_rfl, fun n i hi => (by rw [h n] at hi; cases hi), fun n m i hi => (by rw [h n] at hi; cases hi)⟩

theorem Gs.Ok.mono {N M : Nat} (h : N ≤ M) {g : Gs D O} (hg : g.Ok N) : g.Ok M := by
  cases g with
  | mem => exact hg
  | diskAdj e i a s =>
    exact ⟨fun n hn => (hg.1 n hn).trans_le h, fun n hn => (hg.2.1 n hn).trans_le h, fun n hn => (hg.2.2.1 n hn).trans_le h,
      fun n hn => (hg.2.2.2 n hn).trans_le h⟩
  | diskPath w i a s l =>
    exact ⟨fun n hn => (hg.1 n hn).trans_le h, fun n hn => (hg.2.1 n hn).trans_le h, fun n hn => (hg.2.2.1 n hn).trans_le h,
      fun n hn => (hg.2.2.2 n hn).trans_le h⟩

/-- Writing in one directory changes neither the files of another one nor anything that is open. -/
theorem Frame.read_other {p q : Dir} {a b : Fs D} (h : Frame a.next p a b) (hw : a.Wf) (hq : q ≠ p) : b.read q = a.read q := by
  funext n
  simp only [Fs.read, h.file q n hq]
  cases hf : a.file q n with
  | none => rfl
  | some i => simp [h.data i (hw q n i hf)]

/-- `internal_save` into empty directories. -/
theorem saveGraph_step (ov : Overlay D O) (f : Folder) (g : List (Nat × Gs D O)) : ∀ (a : Fs D), a.Wf → Savable ov a f g →
    (∀ x ∈ g, ∀ n, a.file (f, x.1) n = none) →
    ∃ a', saveGraph ov f a g = (a', true) ∧ a'.Wf ∧ a.next ≤ a'.next ∧ (∀ i, i < a.next → a'.data i = a.data i) ∧
      (∀ q, q.1 ≠ f → a'.read q = a.read q) ∧ (∀ q, (∀ x ∈ g, q ≠ (f, x.1)) → a'.read q = a.read q) ∧
      (∀ h, h ≠ f → a'.folders h = a.folders h) ∧ (g ≠ [] → a'.folders f = true) ∧
      (∀ x ∈ g, dirComponent ov (a'.read (f, x.1)) = view ov a x.2) := by
  induction g with
  | nil =>
    intro a hw _ _
    exact ⟨a, rfl, hw, le_rfl, fun _ _ => rfl, fun _ _ => rfl, fun _ _ => rfl, fun _ _ => rfl, fun h => absurd rfl h,
      fun x hx => absurd hx (List.not_mem_nil)⟩
  | cons x g ih =>
    intro a hw hs he
    have hx : ∀ n, a.file (f, x.1) n = none := he x List.mem_cons_self
    obtain ⟨v, hv⟩ := hs.shows x List.mem_cons_self
    have hr : NoOld (a.read (f, x.1)) x.2 := ⟨fun _ => by simp [Fs.read, hx], fun _ _ _ => by simp [Fs.read, hx]⟩
    have h1 := saveComponent_step ov (fresh_empty hx) (hs.ok x List.mem_cons_self) hv (hs.elsewhere x List.mem_cons_self) hr
    set b := (saveComponent ov a (f, x.1) x.2).1 with hb
    have hfr := h1.2.2.1
    have hnd := List.nodup_cons.1 (List.map_cons (f := Prod.fst) ▸ hs.nodup)
    have hne : ∀ y ∈ g, (f, y.1) ≠ (f, x.1) := by
      intro y hy e
      exact hnd.1 (List.mem_map.2 ⟨y, hy, (Prod.ext_iff.1 e).2⟩)
    have hvb : ∀ y ∈ g, view ov b y.2 = view ov a y.2 := fun y hy =>
      view_frame ov (hs.ok y (List.mem_cons_of_mem _ hy)) hfr
    obtain ⟨c, hc, hcw, hcn, hcd, hcr, hco, hcf, hcg, hcv⟩ := ih b (hfr.wf hw)
      ⟨hnd.2, fun y hy => (hs.ok y (List.mem_cons_of_mem _ hy)).mono hfr.next,
        fun y hy => by
          obtain ⟨w, h⟩ := hs.shows y (List.mem_cons_of_mem _ hy)
          exact ⟨w, (hvb y hy).trans h⟩,
        fun y hy q hq => by
          have := hs.elsewhere y (List.mem_cons_of_mem _ hy) q hq
          exact ⟨this.1, hfr.dirs q this.2⟩⟩
      (fun y hy n => by rw [hfr.file _ n (hne y hy)]; exact he y (List.mem_cons_of_mem _ hy) n)
    have hfold : ∀ h, h ≠ f → b.folders h = a.folders h := by
      intro h hh
      rcases hfr.folders h with e | e
      · rw [e]; simp [hh]
      · exact e
    have hff : b.folders f = true := by
      have hm : (a.mkdir (f, x.1)).folders f = true := by simp [Fs.mkdir]
      have hs1 := save_step ov (mkdir_fresh (fresh_empty hx)) (hs.ok x List.mem_cons_self)
        ((view_frame ov (hs.ok x List.mem_cons_self) (mkdir_frame a.next (f, x.1) a)).trans hv)
        (fun q hq => ⟨(hs.elsewhere x List.mem_cons_self q hq).1, (mkdir_frame a.next (f, x.1) a).dirs q
          (hs.elsewhere x List.mem_cons_self q hq).2⟩)
      have hc1 := hs1.2.create .implCfg (.cfg (serializationId x.2.kind))
      have he1 : b = (save ov (a.mkdir (f, x.1)) (f, x.1) x.2).1.create (f, x.1) .implCfg (.cfg (serializationId x.2.kind)) := by
        rw [hb]; unfold saveComponent; rw [thenDo_true hs1.1]
      rw [he1]
      rcases hc1.2.1.folders f with e | e
      · rw [e, hm]; rfl
      · rw [e, hm]
    have hdir : c.read (f, x.1) = b.read (f, x.1) := hco (f, x.1) fun y hy => (hne y hy).symm
    refine ⟨c, ?_, hcw, hfr.next.trans hcn, ?_, ?_, ?_, ?_, ?_, ?_⟩
    · show thenDo (saveComponent ov a (f, x.1) x.2) _ = _
      rw [thenDo_true h1.1]
      exact hc
    · intro i hi
      rw [hcd i (hi.trans_le hfr.next), hfr.data i hi]
    · intro q hq
      rw [hcr q hq, hfr.read_other hw (fun e => hq (by rw [e]))]
    · intro q hq
      rw [hco q fun y hy => hq y (List.mem_cons_of_mem _ hy), hfr.read_other hw (hq x List.mem_cons_self)]
    · intro h hh
      rw [hcf h hh, hfold h hh]
    · intro _
      by_cases hg : g = []
      · subst hg
        have : c = b := by simpa [saveGraph] using congrArg Prod.fst hc.symm
        rw [this]; exact hff
      · exact hcg hg
    · intro y hy
      rcases List.mem_cons.1 hy with rfl | hy
      · rw [hdir, h1.2.2.2, hv]
      · rw [hcv y hy, hvb y hy]

theorem rename_wf {fs : Fs D} (h : fs.Wf) (a b : Folder) : (fs.rename a b).Wf := by
  intro q n i hi
  simp only [Fs.rename] at hi
  split at hi
  · exact h _ _ _ hi
  · split at hi
    · cases hi
    · exact h _ _ _ hi

theorem view_data (ov : Overlay D O) {a b : Fs D} (h : b.data = a.data) (g : Gs D O) : view ov b g = view ov a g := by
  cases g <;> simp only [view, readMap, readSrc, h]

/-- **C107, the whole graph.**  Full claim: after `internal_save_with_backup` the folder `current` shows every component as it was in
the program, and the backup is gone.

Missing: path storages that were loaded from `current` (`elsewhere` in `Savable` excludes them, `C107_lost`). -/
theorem C107_graph_partial (ov : Overlay D O) (a : Fs D) (g : List (Nat × Gs D O)) (hw : a.Wf) (hb : a.folders .backup = false)
    (hs : Savable ov (a.rename .current .backup) .current g) :
    ∃ a', saveWithBackup ov a g = (a', true) ∧ a'.Wf ∧ a.next ≤ a'.next ∧ a'.folders .backup = false ∧
      ∀ x ∈ g, (loadComponent ov a' (.current, x.1)).bind (view ov a') = view ov a x.2 ∧ view ov a' x.2 = view ov a x.2 := by
  have hempty : ∀ x ∈ g, ∀ n, (a.rename .current .backup).file (.current, x.1) n = none := by
    intro x _ n
    simp [Fs.rename]
  obtain ⟨b, hb1, hbw, hbn, hbd, -, -, -, -, hbv⟩ := saveGraph_step ov .current g _ (rename_wf hw _ _) hs hempty
  refine ⟨b.drop .backup, ?_, ?_, hbn, ?_, ?_⟩
  · unfold saveWithBackup
    simp only [hb, Bool.false_eq_true, if_false]
    rw [hb1]
    rfl
  · intro q n i hi
    simp only [Fs.drop] at hi
    split at hi
    · cases hi
    · exact hbw _ _ _ hi
  · simp [Fs.drop]
  · intro x hx
    have hread : (b.drop .backup).read (.current, x.1) = b.read (.current, x.1) := by
      funext n
      simp [Fs.read, Fs.drop]
    refine ⟨?_, ?_⟩
    · rw [loadComponent_view, hread, hbv x hx]
      exact view_data ov rfl x.2
    · rw [view_data ov (show (b.drop .backup).data = b.data from rfl) x.2]
      have hfr : Frame a.next (.current, x.1) (a.rename .current .backup) (a.rename .current .backup) := Frame.refl _ _ _
      have hok := hs.ok x hx
      have : view ov b x.2 = view ov (a.rename .current .backup) x.2 := by
        have hrm : ∀ m : DMap O, m.Below a.next → readMap ov b m = readMap ov (a.rename .current .backup) m := by
          intro m hm
          unfold readMap
          cases hbm : m.base with
          | none => rfl
          | some i => simp only [hbd i (hm i hbm)]
        cases hx2 : x.2 with
        | mem => rfl
        | diskAdj e i y s =>
          rw [hx2] at hok
          obtain ⟨h1, h2, h3⟩ := hok
          simp only [view, hrm e h1, hrm i h2, hrm _ h3.1, hrm _ h3.2]
        | diskPath w i y s l =>
          rw [hx2] at hok
          obtain ⟨h1, h2, h3⟩ := hok
          have hw' : readSrc b w = readSrc (a.rename .current .backup) w := by
            cases w with
            | temp d => rfl
            | file n => simp only [readSrc, hbd n (h1 n rfl)]
          simp only [view, hw', hrm i h2, hrm _ h3.1, hrm _ h3.2]
      rw [this]
      exact view_data ov rfl x.2

/-! ### Saving and opening again, any number of times -/

theorem view_kind {ov : Overlay D O} {a : Fs D} {g : Gs D O} {v : View D} (h : view ov a g = some v) : v.kind = g.kind := by
  cases g with
  | mem k ds s => simp only [view, Option.some.injEq] at h; subst h; rfl
  | diskAdj e i x s =>
    simp only [view] at h
    split at h
    · cases h; rfl
    · cases h
  | diskPath w i x s l =>
    simp only [view] at h
    split at h
    · cases h; rfl
    · cases h

theorem openMap_below {ov : Overlay D O} {b : Fs D} (hw : b.Wf) {p : Dir} {n : Name} {m : DMap O}
    (h : openMap ov b p n = some m) : m.Below b.next := by
  unfold openMap at h
  cases hf : b.file p n with
  | none => rw [hf] at h; cases h; intro i hi; cases hi
  | some i =>
    rw [hf] at h
    simp only at h
    split at h
    · cases h; intro j hj; cases hj; exact hw _ _ _ hf
    · cases h

theorem openAnnos_below {ov : Overlay D O} {b : Fs D} (hw : b.Wf) {p : Dir} {x : DAnnos D O} (h : openAnnos ov b p = some x) :
    x.Below b.next := by
  unfold openAnnos at h
  split at h
  · rename_i h1 h2 h3
    cases h
    exact ⟨openMap_below hw h1, openMap_below hw h2⟩
  · cases h

/-- A loaded storage holds only files that exist. -/
theorem load_ok {ov : Overlay D O} {b : Fs D} (hw : b.Wf) {p : Dir} {k : GsImpl} {g : Gs D O} (h : load ov b p k = some g) :
    (∃ ds s, g = .mem k ds s ∧ inMemory k = true) ∨ (inMemory g.kind = false ∧ g.Ok b.next) := by
  have hmem : ∀ k, inMemory k = true → load ov b p k = some g → ∃ ds s, g = .mem k ds s := by
    intro k hk h
    have hl : load ov b p k = (match b.read p .component with
        | some (.legacy k' ds s) => if k' = k then some (Gs.mem k ds (s.map fromV1)) else none
        | some _ => none
        | none =>
          match loadStats b p, loadFields b p k (fieldNames k) with
          | some s, some ds => some (.mem k ds s)
          | _, _ => none) := by
      cases k <;> first | rfl | cases hk
    rw [hl] at h
    split at h
    · split at h
      · cases h; exact ⟨_, _, rfl⟩
      · cases h
    · cases h
    · split at h
      · cases h; exact ⟨_, _, rfl⟩
      · cases h
  cases k with
  | diskAdj =>
    right
    simp only [load] at h
    split at h
    · rename_i h1 h2 h3 h4
      cases h
      exact ⟨rfl, openMap_below hw h2, openMap_below hw h3, openAnnos_below hw h4⟩
    · cases h
  | diskPath =>
    right
    simp only [load] at h
    split at h
    · rename_i h0 h1 h2 h3 h4
      cases h
      refine ⟨rfl, ?_, openMap_below hw h2, openAnnos_below hw h3⟩
      intro n hn
      cases hn
      exact hw _ _ _ h0
    · cases h
  | adj => obtain ⟨ds, s, e⟩ := hmem _ rfl h; exact .inl ⟨ds, s, e, rfl⟩
  | dense => obtain ⟨ds, s, e⟩ := hmem _ rfl h; exact .inl ⟨ds, s, e, rfl⟩
  | linear c => obtain ⟨ds, s, e⟩ := hmem _ rfl h; exact .inl ⟨ds, s, e, rfl⟩
  | prepost c d => obtain ⟨ds, s, e⟩ := hmem _ rfl h; exact .inl ⟨ds, s, e, rfl⟩

theorem loadComponent_ok {ov : Overlay D O} {a b : Fs D} (hw : b.Wf) {p : Dir} {g g' : Gs D O} {N : Nat} (hg : g.Ok N)
    (h : loadComponent ov b p = some g') (hv : view ov b g' = view ov a g) : g'.Ok b.next := by
  unfold loadComponent at h
  split at h
  · rename_i id _
    cases hl : lookup id with
    | none => rw [hl] at h; cases h
    | some k =>
      rw [hl] at h
      simp only [Option.bind_some] at h
      rcases load_ok hw h with ⟨ds, s, rfl, hk⟩ | ⟨-, hok⟩
      · have hkind : k = g.kind := view_kind (g := g) (v := ⟨k, ds, s⟩) (by rw [← hv]; rfl)
        cases g with
        | mem k' ds' s' =>
          simp only [view, Option.some.injEq, View.mk.injEq] at hv
          obtain ⟨rfl, rfl, rfl⟩ := hv
          exact hg
        | diskAdj => rw [hkind] at hk; cases hk
        | diskPath => rw [hkind] at hk; cases hk
      · exact hok
  · cases h

/-- Saving the graph with a backup and opening it again. -/
def cycle (ov : Overlay D O) (s : Fs D × List (Nat × Gs D O)) : Option (Fs D × List (Nat × Gs D O)) :=
  let r := saveWithBackup ov s.1 s.2
  if r.2 then (reload ov r.1 (s.2.map Prod.fst)).map fun g => (r.1, g) else none

def cycles (ov : Overlay D O) : Nat → Fs D × List (Nat × Gs D O) → Option (Fs D × List (Nat × Gs D O))
  | 0, s => some s
  | n + 1, s => (cycle ov s).bind (cycles ov n)

/-- What all components show. -/
def shown (ov : Overlay D O) (s : Fs D × List (Nat × Gs D O)) : List (Nat × Option (View D)) :=
  s.2.map fun x => (x.1, view ov s.1 x.2)

theorem reload_shown (ov : Overlay D O) (a b : Fs D) (hb : b.folders .backup = false) (hw : b.Wf) (g : List (Nat × Gs D O))
    (N : Nat) (hok : ∀ x ∈ g, x.2.Ok N) (hsome : ∀ x ∈ g, ∃ v, view ov a x.2 = some v)
    (h : ∀ x ∈ g, (loadComponent ov b (.current, x.1)).bind (view ov b) = view ov a x.2) :
    ∃ g', reload ov b (g.map Prod.fst) = some g' ∧ shown ov (b, g') = shown ov (a, g) ∧ (∀ x ∈ g', x.2.Ok b.next) := by
  induction g with
  | nil => exact ⟨[], rfl, rfl, fun x hx => absurd hx List.not_mem_nil⟩
  | cons x g ih =>
    obtain ⟨g', h1, h2, h3⟩ := ih (fun y hy => hok y (List.mem_cons_of_mem _ hy)) (fun y hy => hsome y (List.mem_cons_of_mem _ hy))
      (fun y hy => h y (List.mem_cons_of_mem _ hy))
    have hx := h x List.mem_cons_self
    obtain ⟨v, hv⟩ := hsome x List.mem_cons_self
    cases hl : loadComponent ov b (.current, x.1) with
    | none => rw [hl, hv] at hx; cases hx
    | some y =>
      rw [hl] at hx
      simp only [Option.bind_some] at hx
      refine ⟨(x.1, y) :: g', ?_, ?_, ?_⟩
      · simp only [List.map_cons, reload, hb, Bool.false_eq_true, if_false, hl, h1]
      · simp only [shown, List.map_cons, hx]
        exact congrArg _ h2
      · intro z hz
        rcases List.mem_cons.1 hz with rfl | hz
        · exact loadComponent_ok hw (hok x List.mem_cons_self) hl hx
        · exact h3 z hz

theorem location_none {g : Gs D O} (h : g.kind ≠ .diskPath) : g.location = none := by
  cases g with
  | mem => rfl
  | diskAdj => rfl
  | diskPath => exact absurd rfl h

/-- **C107, any number of times.**  Full claim: a graph that is saved with a backup and opened again, any number of times, keeps all
its components with all their parts.

Missing: path storages, which are lost the second time (`C107_second`). -/
theorem C107_cycles_partial (ov : Overlay D O) (n : Nat) : ∀ (a : Fs D) (g : List (Nat × Gs D O)), a.Wf →
    a.folders .backup = false → (g.map Prod.fst).Nodup → (∀ x ∈ g, x.2.Ok a.next) → (∀ x ∈ g, ∃ v, view ov a x.2 = some v) →
    (∀ x ∈ g, x.2.kind ≠ .diskPath) →
    ∃ s, cycles ov n (a, g) = some s ∧ shown ov s = shown ov (a, g) := by
  induction n with
  | zero => intro a g _ _ _ _ _ _; exact ⟨_, rfl, rfl⟩
  | succ n ih =>
    intro a g hw hb hnd hok hsome hk
    obtain ⟨b, h1, h2, h3, h4, h5⟩ := C107_graph_partial ov a g hw hb
      ⟨hnd, hok, fun x hx => by
          obtain ⟨v, hv⟩ := hsome x hx
          exact ⟨v, (view_data ov rfl x.2).trans hv⟩,
        fun x hx q hq => by rw [location_none (hk x hx)] at hq; cases hq⟩
    obtain ⟨g', r1, r2, r3⟩ := reload_shown ov a b h4 h2 g a.next hok hsome (fun x hx => (h5 x hx).1)
    have hc : cycle ov (a, g) = some (b, g') := by
      unfold cycle
      simp only [h1, r1, if_true, Option.map_some]
    have hfst : g'.map Prod.fst = g.map Prod.fst := by
      have := congrArg (List.map Prod.fst) r2
      simpa [shown, List.map_map, Function.comp_def] using this
    have hvk : ∀ x' ∈ g', ∃ x ∈ g, view ov b x'.2 = view ov a x.2 := by
      intro x' hx'
      have : (x'.1, view ov b x'.2) ∈ shown ov (b, g') := List.mem_map.2 ⟨x', hx', rfl⟩
      rw [r2] at this
      obtain ⟨x, hx, e⟩ := List.mem_map.1 this
      exact ⟨x, hx, (Prod.ext_iff.1 e).2.symm⟩
    obtain ⟨s, hs, hs'⟩ := ih b g' h2 h4 (hfst ▸ hnd) r3
      (fun x' hx' => by
        obtain ⟨x, hx, e⟩ := hvk x' hx'
        obtain ⟨v, hv⟩ := hsome x hx
        exact ⟨v, e.trans hv⟩)
      (fun x' hx' => by
        obtain ⟨x, hx, e⟩ := hvk x' hx'
        obtain ⟨v, hv⟩ := hsome x hx
        rw [← view_kind (e.trans hv), view_kind hv]
        exact hk x hx)
    refine ⟨s, ?_, hs'.trans r2⟩
    simp only [cycles, hc, Option.bind_some, hs]

/-! ### The loss of path storages -/

theorem saveFields_other (fs : Fs D) (p : Dir) (k : GsImpl) (l : List (Name × D)) (q : Dir) (n : Name) (h : q ≠ p) :
    (saveFields fs p k l).file q n = fs.file q n := by
  induction l generalizing fs with
  | nil => rfl
  | cons x l ih => rw [saveFields, ih, create_file _ _ _ _ _ _ (fun e => h e.1)]

theorem saveStats_other (fs : Fs D) (p : Dir) (s : Option Stats) (q : Dir) (n : Name) (h : q ≠ p) :
    (saveStats fs p s).file q n = fs.file q n := by
  have hr : (fs.remove p .statsToml).file q n = fs.file q n := by simp [Fs.remove, h]
  cases s with
  | none => exact hr
  | some s => simp only [saveStats]; rw [create_file _ _ _ _ _ _ (fun e => h e.1), hr]

theorem writeMap_other (ov : Overlay D O) (fs : Fs D) (p : Dir) (m : Name) (x : DMap O) (q : Dir) (n : Name) (h : q ≠ p) :
    (writeMap ov fs p m x).1.file q n = fs.file q n := by
  have h1 := create_file fs p m .truncated q n (fun e => h e.1)
  simp only [writeMap]
  split
  · rw [create_file _ _ _ _ _ _ (fun e => h e.1), h1]
  · exact h1

theorem writePaths_other (fs : Fs D) (p : Dir) (w : Src D) (q : Dir) (n : Name) (h : q ≠ p) :
    (writePaths fs p w).1.file q n = fs.file q n := by
  have h1 := create_file fs p .paths .truncated q n (fun e => h e.1)
  simp only [writePaths]
  split
  · rw [create_file _ _ _ _ _ _ (fun e => h e.1), h1]
  · exact h1

theorem thenDo_other {r : Fs D × Bool} {f : Fs D → Fs D × Bool} {q : Dir} {n : Name} {o : Option Nat}
    (h : r.1.file q n = o) (h' : ∀ b : Fs D, b.file q n = o → (f b).1.file q n = o) : (thenDo r f).1.file q n = o := by
  unfold thenDo
  split
  · exact h' _ h
  · exact h

theorem saveAnnos_other (ov : Overlay D O) (fs : Fs D) (p : Dir) (x : DAnnos D O) (q : Dir) (n : Name) (h : q ≠ p) :
    (saveAnnos ov fs p x).1.file q n = fs.file q n := by
  unfold saveAnnos
  refine thenDo_other (writeMap_other ov fs p _ _ q n h) fun b hb => ?_
  refine thenDo_other ((writeMap_other ov b p _ _ q n h).trans hb) fun c hc => ?_
  exact (create_file _ _ _ _ _ _ (fun e => h e.1)).trans hc

theorem save_other (ov : Overlay D O) (fs : Fs D) (p : Dir) (g : Gs D O) (q : Dir) (n : Name) (h : q ≠ p) :
    (save ov fs p g).1.file q n = fs.file q n := by
  cases g with
  | mem k ds s => exact (saveStats_other _ _ _ _ _ h).trans (saveFields_other _ _ _ _ _ _ h)
  | diskAdj e i a s =>
    refine thenDo_other (writeMap_other ov fs p _ _ q n h) fun b hb => ?_
    refine thenDo_other ((writeMap_other ov b p _ _ q n h).trans hb) fun c hc => ?_
    refine thenDo_other ((saveAnnos_other ov c p _ q n h).trans hc) fun d hd => ?_
    exact (saveStats_other _ _ _ _ _ h).trans hd
  | diskPath w i a s l =>
    simp only [save]
    split
    · rfl
    · split
      · rfl
      · refine thenDo_other (writePaths_other fs p _ q n h) fun b hb => ?_
        refine thenDo_other ((writeMap_other ov b p _ _ q n h).trans hb) fun c hc => ?_
        refine thenDo_other ((saveAnnos_other ov c p _ q n h).trans hc) fun d hd => ?_
        exact (saveStats_other _ _ _ _ _ h).trans hd

theorem saveComponent_other (ov : Overlay D O) (fs : Fs D) (p : Dir) (g : Gs D O) (q : Dir) (n : Name) (h : q ≠ p) :
    (saveComponent ov fs p g).1.file q n = fs.file q n := by
  refine thenDo_other (save_other ov (fs.mkdir p) p g q n h) fun b hb => ?_
  exact (create_file _ _ _ _ _ _ (fun e => h e.1)).trans hb

theorem saveGraph_other (ov : Overlay D O) (f : Folder) (g : List (Nat × Gs D O)) (q : Dir) (n : Name)
    (h : ∀ x ∈ g, q ≠ (f, x.1)) (fs : Fs D) : (saveGraph ov f fs g).1.file q n = fs.file q n := by
  induction g generalizing fs with
  | nil => rfl
  | cons x g ih =>
    refine thenDo_other (saveComponent_other ov fs _ _ q n (h x List.mem_cons_self)) fun b hb => ?_
    exact (ih (fun y hy => h y (List.mem_cons_of_mem _ hy)) b).trans hb

/-- A directory that has no file besides `impl.cfg` is loaded by no implementation. -/
theorem loadComponent_empty (ov : Overlay D O) (fs : Fs D) (p : Dir) (h : ∀ n, n ≠ .implCfg → fs.file p n = none) :
    loadComponent ov fs p = none := by
  have hf : ∀ n, n ≠ Name.implCfg → fs.read p n = none := fun n hn => by simp [Fs.read, h n hn]
  unfold loadComponent
  split
  · rename_i id _
    cases hl : lookup id with
    | none => rfl
    | some k =>
      have hc := hf .custom (by decide)
      have ho := hf .component (by decide)
      have hp := h .paths (by decide)
      have hlf : ∀ k n r, n ≠ Name.implCfg → loadFields fs p k (n :: r) = none := by
        intro k n r hn
        simp [loadFields, loadField, hf n hn]
      simp only [Option.bind_some]
      cases k with
      | diskAdj =>
        have : openAnnos ov fs p = none := by
          simp only [openAnnos, readBlob, hc]
          cases openMap ov fs p .byContainer <;> cases openMap ov fs p .byAnnoQname <;> rfl
        simp only [load, this]
        cases loadStats fs p <;> cases openMap ov fs p .edges <;> cases openMap ov fs p .inverseEdges <;> rfl
      | diskPath => simp only [load, hp]
      | adj => simp only [load, ho, fieldNames, hlf _ .edges _ (by decide)]; cases loadStats fs p <;> rfl
      | dense => simp only [load, ho, fieldNames, hlf _ .edges _ (by decide)]; cases loadStats fs p <;> rfl
      | linear c => simp only [load, ho, fieldNames, hlf _ .nodeToPos _ (by decide)]; cases loadStats fs p <;> rfl
      | prepost c d => simp only [load, ho, fieldNames, hlf _ .nodeToOrder _ (by decide)]; cases loadStats fs p <;> rfl
  · rfl

/-- **C107, the loss.**  A path storage that was loaded from `current` is not written when the graph is saved with a backup: its
`save_to` takes the new, empty directory for the one that it was loaded from.  Afterwards the component cannot be loaded, and the
backup with the files is deleted.  This holds for every such storage and every graph that is saved without an error. -/
theorem C107_lost (ov : Overlay D O) (a a' : Fs D) (g : List (Nat × Gs D O)) (hnd : (g.map Prod.fst).Nodup)
    (hb : a.folders .backup = false) (hs : saveWithBackup ov a g = (a', true)) (x : Nat × Gs D O) (hx : x ∈ g)
    (hl : x.2.location = some (.current, x.1)) :
    loadComponent ov a' (.current, x.1) = none ∧ ∀ n, n ≠ .implCfg → ∀ q : Dir, q.2 = x.1 → q.1 = .current ∨ q.1 = .backup →
      a'.file q n = none := by
  have key : ∀ (g : List (Nat × Gs D O)), (g.map Prod.fst).Nodup → x ∈ g → ∀ b : Fs D,
      (∀ n, b.file (.current, x.1) n = none) → (saveGraph ov .current b g).2 = true →
      ∀ n, n ≠ .implCfg → (saveGraph ov .current b g).1.file (.current, x.1) n = none := by
    intro g
    induction g with
    | nil => intro _ h; exact absurd h List.not_mem_nil
    | cons y g ih =>
      intro hnd hx b he hok n hn
      have hnd' := List.nodup_cons.1 (List.map_cons (f := Prod.fst) ▸ hnd)
      rcases List.mem_cons.1 hx with rfl | hx'
      · have hrest : ∀ z ∈ g, ((Folder.current, x.1) : Dir) ≠ (.current, z.1) := by
          intro z hz e
          exact hnd'.1 (List.mem_map.2 ⟨z, hz, (Prod.ext_iff.1 e).2.symm⟩)
        refine thenDo_other (o := none) ?_ fun c hc => (saveGraph_other ov .current g _ n hrest c).trans hc
        refine thenDo_other (o := none) ?_ fun c hc => (create_file _ _ _ _ _ _ (fun e => hn e.2)).trans hc
        cases hg : x.2 with
        | mem k ds s => rw [hg] at hl; cases hl
        | diskAdj e i z s => rw [hg] at hl; cases hl
        | diskPath w i z s l =>
          rw [hg] at hl
          simp only [Gs.location] at hl
          subst hl
          have hd : locationExists (b.mkdir (.current, x.1)) (some (.current, x.1)) = true := by
            simp [locationExists, Fs.mkdir]
          simp only [save, hd, Bool.true_eq_false, if_false, if_true]
          exact he n
      · have hne : ((Folder.current, x.1) : Dir) ≠ (.current, y.1) := by
          intro e
          exact hnd'.1 (List.mem_map.2 ⟨x, hx', (Prod.ext_iff.1 e).2⟩)
        have hy : (saveComponent ov b (.current, y.1) y.2).2 = true := by
          by_contra hc
          have hc' : (saveComponent ov b (.current, y.1) y.2).2 = false := by simpa using hc
          have hok' : (thenDo (saveComponent ov b (.current, y.1) y.2) fun fs => saveGraph ov .current fs g).2 = true := hok
          unfold thenDo at hok'
          rw [hc'] at hok'
          simp only [Bool.false_eq_true, if_false] at hok'
          rw [hc'] at hok'
          cases hok'
        have hstep : saveGraph ov .current b (y :: g) =
            saveGraph ov .current (saveComponent ov b (.current, y.1) y.2).1 g := by
          show thenDo _ _ = _
          rw [thenDo_true hy]
        rw [hstep] at hok ⊢
        exact ih hnd'.2 hx' _ (fun m => (saveComponent_other ov b _ _ _ m hne).trans (he m)) hok n hn
  have hempty : ∀ n, (a.rename .current .backup).file (.current, x.1) n = none := by intro n; simp [Fs.rename]
  unfold saveWithBackup at hs
  simp only [hb, Bool.false_eq_true, if_false] at hs
  have hok : (saveGraph ov .current (a.rename .current .backup) g).2 = true := by
    by_contra hc
    have hc' : (saveGraph ov .current (a.rename .current .backup) g).2 = false := by simpa using hc
    unfold thenDo at hs
    rw [hc'] at hs
    simp only [Bool.false_eq_true, if_false] at hs
    have := congrArg Prod.snd hs
    rw [hc'] at this
    cases this
  rw [thenDo_true hok] at hs
  have ha : a' = (saveGraph ov .current (a.rename .current .backup) g).1.drop .backup := (congrArg Prod.fst hs).symm
  have hfile : ∀ n, n ≠ .implCfg → a'.file (.current, x.1) n = none := by
    intro n hn
    rw [ha]
    simp only [Fs.drop]
    rw [if_neg (by decide)]
    exact key g hnd hx _ hempty hok n hn
  refine ⟨loadComponent_empty ov a' _ hfile, ?_⟩
  intro n hn q hq hf
  rcases hf with hf | hf
  · have : q = (.current, x.1) := Prod.ext hf hq
    rw [this]; exact hfile n hn
  · rw [ha]
    simp [Fs.drop, hf]

/-- The components of a reloaded graph are those that were asked for. -/
theorem reload_mem {ov : Overlay D O} {b : Fs D} {l : List Nat} {g : List (Nat × Gs D O)} (h : reload ov b l = some g) (c : Nat)
    (hc : c ∈ l) : ∃ x, (c, x) ∈ g ∧ loadComponent ov b (if b.folders .backup then .backup else .current, c) = some x := by
  induction l generalizing g with
  | nil => exact absurd hc List.not_mem_nil
  | cons d l ih =>
    simp only [reload] at h
    split at h
    · rename_i x gs h1 h2
      cases h
      rcases List.mem_cons.1 hc with rfl | hc
      · exact ⟨x, List.mem_cons_self, h1⟩
      · obtain ⟨y, hy, hl⟩ := ih h2 hc
        exact ⟨y, List.mem_cons_of_mem _ hy, hl⟩
    · cases h

theorem reload_fst {ov : Overlay D O} {b : Fs D} {l : List Nat} {g : List (Nat × Gs D O)} (h : reload ov b l = some g) :
    g.map Prod.fst = l := by
  induction l generalizing g with
  | nil => cases h; rfl
  | cons d l ih =>
    simp only [reload] at h
    split at h
    · rename_i x gs h1 h2
      cases h
      simp [ih h2]
    · cases h

/-- A loaded path storage remembers its directory. -/
theorem load_location {ov : Overlay D O} {b : Fs D} {p : Dir} {g : Gs D O} (h : loadComponent ov b p = some g)
    (hk : g.kind = .diskPath) : g.location = some p := by
  unfold loadComponent at h
  split at h
  · rename_i id _
    cases hl : lookup id with
    | none => rw [hl] at h; cases h
    | some k =>
      rw [hl] at h
      simp only [Option.bind_some] at h
      have hmem : inMemory k = true → False := by
        intro hm
        have hv := load_view ov b p k
        rw [h] at hv
        simp only [Option.bind_some] at hv
        have : ∃ ds s, g = .mem k ds s := by
          have hl : load ov b p k = (match b.read p .component with
              | some (.legacy k' ds s) => if k' = k then some (Gs.mem k ds (s.map fromV1)) else none
              | some _ => none
              | none =>
                match loadStats b p, loadFields b p k (fieldNames k) with
                | some s, some ds => some (.mem k ds s)
                | _, _ => none) := by
            cases k <;> first | rfl | cases hm
          rw [hl] at h
          split at h
          · split at h
            · cases h; exact ⟨_, _, rfl⟩
            · cases h
          · cases h
          · split at h
            · cases h; exact ⟨_, _, rfl⟩
            · cases h
        obtain ⟨ds, s, rfl⟩ := this
        simp only [Gs.kind] at hk
        subst hk
        cases hm
      cases k with
      | diskPath =>
        simp only [load] at h
        split at h
        · cases h; rfl
        · cases h
      | diskAdj =>
        simp only [load] at h
        split at h
        · cases h; cases hk
        · cases h
      | adj => exact (hmem rfl).elim
      | dense => exact (hmem rfl).elim
      | linear c => exact (hmem rfl).elim
      | prepost c d => exact (hmem rfl).elim
  · cases h

/-- **C107, the second time.**  No graph with a path storage can be saved and opened twice: after the first opening the storage
remembers its directory, and the second saving leaves nothing of it, so that opening fails. -/
theorem C107_second (ov : Overlay D O) (a b : Fs D) (g g' : List (Nat × Gs D O)) (hnd : (g.map Prod.fst).Nodup)
    (h : cycle ov (a, g) = some (b, g')) (x : Nat × Gs D O) (hx : x ∈ g') (hk : x.2.kind = .diskPath) :
    cycle ov (b, g') = none := by
  unfold cycle at h
  simp only at h
  split at h
  · rename_i hok
    cases hr : reload ov (saveWithBackup ov a g).1 (g.map Prod.fst) with
    | none => rw [hr] at h; cases h
    | some gs =>
      rw [hr] at h
      simp only [Option.map_some, Option.some.injEq, Prod.mk.injEq] at h
      obtain ⟨hb, rfl⟩ := h
      have hbk : b.folders .backup = false := by
        rw [← hb]
        have : ∀ c : Fs D, (thenDo (saveGraph ov .current c g) fun fs => (fs.drop .backup, true)).2 = true →
            (thenDo (saveGraph ov .current c g) fun fs => (fs.drop .backup, true)).1.folders .backup = false := by
          intro c hc
          unfold thenDo at hc ⊢
          split
          · simp [Fs.drop]
          · rename_i hn
            rw [if_neg hn] at hc
            exact absurd hc hn
        exact this _ hok
      rw [hb] at hr
      have hfst := reload_fst hr
      have hgn : (gs.map Prod.fst).Nodup := hfst ▸ hnd
      obtain ⟨y, hy, hl⟩ := reload_mem hr x.1 (hfst ▸ List.mem_map.2 ⟨x, hx, rfl⟩)
      have hxy : x.2 = y := by
        have key : ∀ l : List (Nat × Gs D O), (l.map Prod.fst).Nodup → x ∈ l → (x.1, y) ∈ l → x = (x.1, y) := by
          intro l
          induction l with
          | nil => intro _ h; exact absurd h List.not_mem_nil
          | cons z l ih =>
            intro hn h1 h2
            have hn' := List.nodup_cons.1 (List.map_cons (f := Prod.fst) ▸ hn)
            rcases List.mem_cons.1 h1 with h1 | h1 <;> rcases List.mem_cons.1 h2 with h2 | h2
            · exact h1.trans h2.symm
            · exact absurd (List.mem_map.2 ⟨_, h2, by rw [h1]⟩) hn'.1
            · exact absurd (List.mem_map.2 ⟨_, h1, by rw [← h2]⟩) hn'.1
            · exact ih hn'.2 h1 h2
        rw [key gs hgn hx hy]
      simp only [hbk, Bool.false_eq_true, if_false] at hl
      have hloc := load_location (hxy ▸ hl) hk
      unfold cycle
      simp only
      split
      · rename_i hok2
        have hlost := C107_lost ov b (saveWithBackup ov b gs).1 gs hgn hbk (Prod.ext rfl hok2) x hx hloc
        have hbk2 : (saveWithBackup ov b gs).1.folders .backup = false := by
          have : ∀ c : Fs D, (thenDo (saveGraph ov .current c gs) fun fs => (fs.drop .backup, true)).2 = true →
              (thenDo (saveGraph ov .current c gs) fun fs => (fs.drop .backup, true)).1.folders .backup = false := by
            intro c hc
            unfold thenDo at hc ⊢
            split
            · simp [Fs.drop]
            · rename_i hn
              rw [if_neg hn] at hc
              exact absurd hc hn
          exact this _ hok2
        cases hr2 : reload ov (saveWithBackup ov b gs).1 (gs.map Prod.fst) with
        | none => rfl
        | some g2 =>
          obtain ⟨z, -, hz⟩ := reload_mem hr2 x.1 (List.mem_map.2 ⟨x, hx, rfl⟩)
          simp only [hbk2, Bool.false_eq_true, if_false] at hz
          rw [hlost.1] at hz
          cases hz
      · rfl
  · cases h

/-! ### A storage on disk that is saved where it reads -/

/-- **C107, in place.**  A storage on disk that is saved into the directory that it reads from (`Graph::save_to` or `persist_to` with
the location of the graph) truncates its own table before it reads it: saving fails, and the table is lost. -/
theorem C107_in_place (ov : Overlay D O) (a : Fs D) (p : Dir) (e i : DMap O) (x : DAnnos D O) (s : Option Stats) (n : Nat)
    (hf : a.file p .edges = some n) (he : e.base = some n) :
    (save ov a p (.diskAdj e i x s)).2 = false ∧ load ov (save ov a p (.diskAdj e i x s)).1 p .diskAdj = none := by
  have hc : a.create p .edges .truncated = { a with data := Function.update a.data n .truncated } := by
    simp [Fs.create, hf]
  have hr : readMap ov (a.create p .edges .truncated) e = none := by
    rw [hc]
    simp [readMap, he]
  have hw : writeMap ov a p .edges e = (a.create p .edges .truncated, false) := by
    unfold writeMap
    simp only [hr]
  have hs : save ov a p (.diskAdj e i x s) = (a.create p .edges .truncated, false) := by
    simp only [save]
    rw [hw]; rfl
  refine ⟨by rw [hs], ?_⟩
  rw [hs]
  have ho : openMap ov (a.create p .edges .truncated) p .edges = none := by
    rw [hc]
    simp [openMap, hf]
  simp only [load, ho]
  cases loadStats (a.create p .edges .truncated) p <;> rfl

/-! ### The names of the implementations -/

/-- **C107, names.**  The implementation that the heuristic chooses is always registered, and its name in `impl.cfg` leads back to
it. -/
theorem C107_names (ft : FloatTests) (disk : Bool) (largest : Option Nat) (s : GsStats) :
    chooseImpl ft disk largest s ∈ registered ∧
      lookup (serializationId (chooseImpl ft disk largest s)) = some (chooseImpl ft disk largest s) := by
  have h : chooseImpl ft disk largest s ∈ registered := by
    have ha : adjacencyImpl ft disk largest s ∈ registered := by
      unfold adjacencyImpl
      split
      · decide
      · cases largest with
        | none => exact show GsImpl.adj ∈ registered by decide
        | some l => simp only; split <;> decide
    have hp : prepostBySize s ∈ registered := by
      unfold prepostBySize
      repeat' split
      all_goals decide
    have hl : linearBySize s ∈ registered := by
      unfold linearBySize
      repeat' split
      all_goals decide
    unfold chooseImpl
    split
    · decide
    · split
      · exact ha
      · split
        · split
          · exact hl
          · exact hp
        · split
          · exact hp
          · exact ha
  exact ⟨h, lookup_id h⟩

end GsFiles
