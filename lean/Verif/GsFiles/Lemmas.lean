import Verif.GsFiles.Model

/-!
# The files of one component: what saving leaves in the directory and what loading makes of it
-/

namespace GsFiles

variable {D O : Type}

/-- What a user can see of a component, the specification of this area: the implementation, the values of its parts and the
statistics. -/
structure View (D : Type) where
  kind : GsImpl
  values : List D
  stats : Option Stats
deriving DecidableEq

/-- What a storage shows: the files it holds open are read through their numbers. -/
def view (ov : Overlay D O) (fs : Fs D) : Gs D O → Option (View D)
  | .mem k ds s => some ⟨k, ds, s⟩
  | .diskAdj e i a s =>
    match readMap ov fs e, readMap ov fs i, readMap ov fs a.byContainer, readMap ov fs a.byAnnoQname with
    | some e, some i, some x, some y => some ⟨.diskAdj, [e, i, x, y, a.custom], s⟩
    | _, _, _, _ => none
  | .diskPath w i a s _ =>
    match readSrc fs w, readMap ov fs i, readMap ov fs a.byContainer, readMap ov fs a.byAnnoQname with
    | some w, some i, some x, some y => some ⟨.diskPath, [w, i, x, y, a.custom], s⟩
    | _, _, _, _ => none

/-- A file that is open has a number below `N`. -/
def DMap.Below (m : DMap O) (N : Nat) : Prop := ∀ i, m.base = some i → i < N

def DAnnos.Below (a : DAnnos D O) (N : Nat) : Prop := a.byContainer.Below N ∧ a.byAnnoQname.Below N

/-- A storage that the program can have: a registered implementation with all its fields, all open files below `N`. -/
def Gs.Ok (N : Nat) : Gs D O → Prop
  | .mem k ds _ => inMemory k = true ∧ k ∈ registered ∧ ds.length = (fieldNames k).length
  | .diskAdj e i a _ => e.Below N ∧ i.Below N ∧ a.Below N
  | .diskPath w i a _ _ => (∀ n, w = .file n → n < N) ∧ i.Below N ∧ a.Below N

/-- Where a storage was loaded from, which only a path storage remembers. -/
def Gs.location : Gs D O → Option Dir
  | .diskPath _ _ _ _ l => l
  | _ => none

/-- All files have numbers below the next one. -/
def Fs.Wf (fs : Fs D) : Prop := ∀ q n i, fs.file q n = some i → i < fs.next

/-- Different names in a directory are different files, all with numbers from `N` on. -/
structure Fresh (N : Nat) (fs : Fs D) (p : Dir) : Prop where
  next : N ≤ fs.next
  bounds : ∀ n i, fs.file p n = some i → N ≤ i ∧ i < fs.next
  inj : ∀ n m i, fs.file p n = some i → fs.file p m = some i → n = m

/-- What does not change when files are written in the directory `p`. -/
structure Frame (N : Nat) (p : Dir) (fs fs' : Fs D) : Prop where
  data : ∀ i, i < N → fs'.data i = fs.data i
  next : fs.next ≤ fs'.next
  file : ∀ q n, q ≠ p → fs'.file q n = fs.file q n
  dirs : ∀ q, fs.dirs q = true → fs'.dirs q = true
  folders : ∀ f, fs'.folders f = (fs.folders f || decide (f = p.1)) ∨ fs'.folders f = fs.folders f
  wf : fs.Wf → fs'.Wf

theorem Frame.refl (N : Nat) (p : Dir) (fs : Fs D) : Frame N p fs fs :=
  ⟨fun _ _ => rfl, le_rfl, fun _ _ _ => rfl, fun _ h => h, fun _ => .inr rfl, id⟩

theorem Frame.trans {N : Nat} {p : Dir} {a b c : Fs D} (h : Frame N p a b) (h' : Frame N p b c) : Frame N p a c where
  data := fun i hi => (h'.data i hi).trans (h.data i hi)
  next := h.next.trans h'.next
  file := fun q n hq => (h'.file q n hq).trans (h.file q n hq)
  dirs := fun q hq => h'.dirs q (h.dirs q hq)
  folders := fun f => by
    rcases h.folders f with e | e <;> rcases h'.folders f with e' | e' <;> rw [e', e]
    · left; cases fs_ : a.folders f <;> cases h_ : decide (f = p.1) <;> rfl
    · left; rfl
    · left; rfl
    · right; rfl
  wf := fun w => h'.wf (h.wf w)

theorem create_file (fs : Fs D) (p : Dir) (n : Name) (c : Content D) (q : Dir) (m : Name) (h : ¬ (q = p ∧ m = n)) :
    (fs.create p n c).file q m = fs.file q m := by
  unfold Fs.create; split
  · rfl
  · simp only [if_neg h]

/-- Writing one file. -/
theorem create_step {N : Nat} {fs : Fs D} {p : Dir} (n : Name) (c : Content D) (h : Fresh N fs p) :
    Fresh N (fs.create p n c) p ∧ Frame N p fs (fs.create p n c) ∧
      (fs.create p n c).read p = Function.update (fs.read p) n (some c) := by
  unfold Fs.create
  split
  · rename_i i hi
    have hb := h.bounds n i hi
    refine ⟨⟨h.next, h.bounds, h.inj⟩, ⟨?_, le_rfl, fun _ _ _ => rfl, fun _ h => h, fun _ => .inr rfl, fun w => w⟩, ?_⟩
    · intro j hj
      exact Function.update_of_ne (by omega) _ _
    · funext m
      by_cases hm : m = n
      · subst hm; simp [Fs.read, hi]
      · rw [Function.update_of_ne hm]
        simp only [Fs.read]
        cases hf : fs.file p m with
        | none => rfl
        | some j =>
          have : j ≠ i := fun e => hm (h.inj m n i (e ▸ hf) hi)
          simp [Function.update_of_ne this]
  · rename_i hi
    have hfile : ∀ m, ((if p = p ∧ m = n then some fs.next else fs.file p m) : Option Nat) =
        if m = n then some fs.next else fs.file p m := by intro m; simp
    refine ⟨⟨Nat.le_succ_of_le h.next, ?_, ?_⟩, ⟨?_, Nat.le_succ _, ?_, fun _ h => h, fun _ => .inr rfl, ?_⟩, ?_⟩
    · intro m j hj
      simp only [hfile] at hj
      split at hj
      · cases hj; exact ⟨h.next, Nat.lt_succ_self _⟩
      · have := h.bounds m j hj
        exact ⟨this.1, Nat.lt_succ_of_lt this.2⟩
    · intro m k j hm hk
      simp only [hfile] at hm hk
      split at hm <;> split at hk
      · rename_i a b; rw [a.2, b.2]
      · cases hm; have := (h.bounds k _ hk).2; omega
      · cases hk; have := (h.bounds m _ hm).2; omega
      · exact h.inj m k j hm hk
    · intro j hj
      have := h.next
      exact Function.update_of_ne (by omega) _ _
    · intro q m hq
      simp [hq]
    · intro w q m j hj
      simp only at hj
      split at hj
      · cases hj; exact Nat.lt_succ_self _
      · exact Nat.lt_succ_of_lt (w q m j hj)
    · funext m
      by_cases hm : m = n
      · subst hm; simp [Fs.read]
      · rw [Function.update_of_ne hm]
        have hx : ((if p = p ∧ m = n then some fs.next else fs.file p m) : Option Nat) = fs.file p m := by simp [hm]
        show Option.map _ (if p = p ∧ m = n then some fs.next else fs.file p m) = Option.map fs.data (fs.file p m)
        rw [hx]
        cases hf : fs.file p m with
        | none => rfl
        | some j =>
          have := (h.bounds m j hf).2
          simp [Function.update_of_ne (show j ≠ fs.next by omega)]

theorem remove_step {N : Nat} {fs : Fs D} {p : Dir} (n : Name) (h : Fresh N fs p) :
    Fresh N (fs.remove p n) p ∧ Frame N p fs (fs.remove p n) ∧
      (fs.remove p n).read p = Function.update (fs.read p) n none := by
  refine ⟨⟨h.next, ?_, ?_⟩, ⟨fun _ _ => rfl, le_rfl, ?_, fun _ h => h, fun _ => .inr rfl, ?_⟩, ?_⟩
  · intro m i hm
    simp only [Fs.remove] at hm
    split at hm
    · cases hm
    · exact h.bounds m i hm
  · intro m k i hm hk
    simp only [Fs.remove] at hm hk
    split at hm
    · cases hm
    · split at hk
      · cases hk
      · exact h.inj m k i hm hk
  · intro q m hq
    simp [Fs.remove, hq]
  · intro w q m i hi
    simp only [Fs.remove] at hi
    split at hi
    · cases hi
    · exact w q m i hi
  · funext m
    by_cases hm : m = n
    · subst hm; simp [Fs.read, Fs.remove]
    · simp [Fs.read, Fs.remove, hm]

/-- A result of writing in the directory `p`, and what the directory contains afterwards. -/
def Step (N : Nat) (p : Dir) (fs fs' : Fs D) (rd : Name → Option (Content D)) : Prop :=
  Fresh N fs' p ∧ Frame N p fs fs' ∧ fs'.read p = rd

theorem Step.then {N : Nat} {p : Dir} {a b c : Fs D} {r r' : Name → Option (Content D)} (h : Step N p a b r)
    (h' : Step N p b c r') : Step N p a c r' := ⟨h'.1, h.2.1.trans h'.2.1, h'.2.2⟩

theorem Step.create {N : Nat} {p : Dir} {a b : Fs D} {r : Name → Option (Content D)} (h : Step N p a b r) (n : Name)
    (c : Content D) : Step N p a (b.create p n c) (Function.update r n (some c)) := by
  have := create_step n c h.1
  exact ⟨this.1, h.2.1.trans this.2.1, by rw [this.2.2, h.2.2]⟩

theorem Step.refl {N : Nat} {p : Dir} {fs : Fs D} (h : Fresh N fs p) : Step N p fs fs (fs.read p) := ⟨h, Frame.refl _ _ _, rfl⟩

/-- What the statistics become in the directory. -/
def putStats (rd : Name → Option (Content D)) (s : Option Stats) : Name → Option (Content D) :=
  Function.update rd .statsToml (s.map .toml)

theorem saveStats_step {N : Nat} {p : Dir} {a b : Fs D} {r : Name → Option (Content D)} (h : Step N p a b r) (s : Option Stats) :
    Step N p a (saveStats b p s) (putStats r s) := by
  have hr := remove_step .statsToml h.1
  have hs : Step N p a (b.remove p .statsToml) (Function.update r .statsToml none) :=
    ⟨hr.1, h.2.1.trans hr.2.1, by rw [hr.2.2, h.2.2]⟩
  cases s with
  | none => exact hs
  | some s =>
    have := hs.create .statsToml (.toml s)
    simp only [Function.update_idem] at this
    exact this

theorem readMap_frame {N : Nat} {p : Dir} {a b : Fs D} (ov : Overlay D O) {m : DMap O} (hm : m.Below N) (h : Frame N p a b) :
    readMap ov b m = readMap ov a m := by
  unfold readMap
  cases hb : m.base with
  | none => rfl
  | some i => simp only [h.data i (hm i hb)]

theorem readSrc_frame {N : Nat} {p : Dir} {a b : Fs D} {w : Src D} (hw : ∀ n, w = .file n → n < N) (h : Frame N p a b) :
    readSrc b w = readSrc a w := by
  cases w with
  | temp d => rfl
  | file i => simp only [readSrc, h.data i (hw i rfl)]

theorem writeMap_step {N : Nat} {p : Dir} {a b : Fs D} {r : Name → Option (Content D)} (ov : Overlay D O) (h : Step N p a b r)
    (n : Name) {m : DMap O} (hm : m.Below N) {d : D} (hd : readMap ov a m = some d) :
    (writeMap ov b p n m).2 = true ∧ Step N p a (writeMap ov b p n m).1 (Function.update r n (some (.table d))) := by
  have h1 := h.create n .truncated
  have hr : readMap ov (b.create p n .truncated) m = some d := by rw [readMap_frame ov hm h1.2.1, hd]
  have h2 := h1.create n (.table d)
  simp only [Function.update_idem] at h2
  unfold writeMap
  simp only [hr]
  exact ⟨trivial, h2⟩

theorem writePaths_step {N : Nat} {p : Dir} {a b : Fs D} {r : Name → Option (Content D)} (h : Step N p a b r) {w : Src D}
    (hw : ∀ n, w = .file n → n < N) {d : D} (hd : readSrc a w = some d) :
    (writePaths b p w).2 = true ∧ Step N p a (writePaths b p w).1 (Function.update r .paths (some (.blob d))) := by
  have h1 := h.create .paths .truncated
  have hr : readSrc (b.create p .paths .truncated) w = some d := by rw [readSrc_frame hw h1.2.1, hd]
  have h2 := h1.create .paths (.blob d)
  simp only [Function.update_idem] at h2
  unfold writePaths
  simp only [hr]
  exact ⟨trivial, h2⟩

theorem thenDo_true {r : Fs D × Bool} {f : Fs D → Fs D × Bool} (h : r.2 = true) : thenDo r f = f r.1 := by simp [thenDo, h]

theorem saveAnnos_step {N : Nat} {p : Dir} {a b : Fs D} {r : Name → Option (Content D)} (ov : Overlay D O) (h : Step N p a b r)
    {x : DAnnos D O} (hx : x.Below N) {d e : D} (hd : readMap ov a x.byContainer = some d)
    (he : readMap ov a x.byAnnoQname = some e) :
    (saveAnnos ov b p x).2 = true ∧ Step N p a (saveAnnos ov b p x).1
      (Function.update (Function.update (Function.update r .byContainer (some (.table d))) .byAnnoQname (some (.table e)))
        .custom (some (.blob x.custom))) := by
  have h1 := writeMap_step ov h .byContainer hx.1 hd
  have h2 := writeMap_step ov h1.2 .byAnnoQname hx.2 he
  unfold saveAnnos
  rw [thenDo_true h1.1, thenDo_true h2.1]
  exact ⟨rfl, h2.2.create .custom _⟩

/-- What the fields become in the directory. -/
def putFields (rd : Name → Option (Content D)) (k : GsImpl) : List (Name × D) → Name → Option (Content D)
  | [] => rd
  | (n, d) :: r => putFields (Function.update rd n (some (.field k d))) k r

theorem saveFields_step {N : Nat} {p : Dir} {a : Fs D} (k : GsImpl) (l : List (Name × D)) : ∀ {b : Fs D}
    {r : Name → Option (Content D)}, Step N p a b r → Step N p a (saveFields b p k l) (putFields r k l) := by
  induction l with
  | nil => intro b r h; exact h
  | cons x l ih => intro b r h; exact ih (h.create x.1 (.field k x.2))

/-- The content of the directory after `save_to`. -/
def put (ov : Overlay D O) (fs : Fs D) (rd : Name → Option (Content D)) : Gs D O → Name → Option (Content D)
  | .mem k ds s => putStats (putFields rd k ((fieldNames k).zip ds)) s
  | .diskAdj e i a s =>
    putStats (Function.update (Function.update (Function.update (Function.update (Function.update rd
      .edges ((readMap ov fs e).map .table)) .inverseEdges ((readMap ov fs i).map .table))
      .byContainer ((readMap ov fs a.byContainer).map .table)) .byAnnoQname ((readMap ov fs a.byAnnoQname).map .table))
      .custom (some (.blob a.custom))) s
  | .diskPath w i a s _ =>
    putStats (Function.update (Function.update (Function.update (Function.update (Function.update rd
      .paths ((readSrc fs w).map .blob)) .inverseEdges ((readMap ov fs i).map .table))
      .byContainer ((readMap ov fs a.byContainer).map .table)) .byAnnoQname ((readMap ov fs a.byAnnoQname).map .table))
      .custom (some (.blob a.custom))) s

/-- A path storage writes nothing if it was loaded from the directory, and fails if that directory does not exist. -/
def MayWrite (fs : Fs D) (p : Dir) (g : Gs D O) : Prop := ∀ q, g.location = some q → q ≠ p ∧ fs.dirs q = true

theorem save_step {N : Nat} {p : Dir} {a : Fs D} (ov : Overlay D O) (h : Fresh N a p) {g : Gs D O} (hg : g.Ok N)
    {v : View D} (hv : view ov a g = some v) (hl : MayWrite a p g) :
    (save ov a p g).2 = true ∧ Step N p a (save ov a p g).1 (put ov a (a.read p) g) := by
  cases g with
  | mem k ds s => exact ⟨rfl, saveStats_step (saveFields_step k _ (Step.refl h)) s⟩
  | diskAdj e i x s =>
    obtain ⟨he, hi, hx⟩ := hg
    cases h1 : readMap ov a e with
    | none => simp [view, h1] at hv
    | some d1 =>
    cases h2 : readMap ov a i with
    | none => simp [view, h1, h2] at hv
    | some d2 =>
    cases h3 : readMap ov a x.byContainer with
    | none => simp [view, h1, h2, h3] at hv
    | some d3 =>
    cases h4 : readMap ov a x.byAnnoQname with
    | none => simp [view, h1, h2, h3, h4] at hv
    | some d4 =>
      have s1 := writeMap_step ov (Step.refl h) .edges he h1
      have s2 := writeMap_step ov s1.2 .inverseEdges hi h2
      have s3 := saveAnnos_step ov s2.2 hx h3 h4
      have s4 := saveStats_step s3.2 s
      simp only [save, put, h1, h2, h3, h4, Option.map_some]
      rw [thenDo_true s1.1, thenDo_true s2.1, thenDo_true s3.1]
      exact ⟨rfl, s4⟩
  | diskPath w i x s loc =>
    obtain ⟨he, hi, hx⟩ := hg
    cases h1 : readSrc a w with
    | none => simp [view, h1] at hv
    | some d1 =>
    cases h2 : readMap ov a i with
    | none => simp [view, h1, h2] at hv
    | some d2 =>
    cases h3 : readMap ov a x.byContainer with
    | none => simp [view, h1, h2, h3] at hv
    | some d3 =>
    cases h4 : readMap ov a x.byAnnoQname with
    | none => simp [view, h1, h2, h3, h4] at hv
    | some d4 =>
      have s1 := writePaths_step (Step.refl h) he h1
      have s2 := writeMap_step ov s1.2 .inverseEdges hi h2
      have s3 := saveAnnos_step ov s2.2 hx h3 h4
      have s4 := saveStats_step s3.2 s
      have hc : locationExists a loc = true := by
        cases loc with
        | none => rfl
        | some q => exact (hl q rfl).2
      have hn : loc ≠ some p := fun e => (hl p e).1 rfl
      simp only [save, put, h1, h2, h3, h4, Option.map_some, hc, Bool.true_eq_false, if_false, if_neg hn]
      rw [thenDo_true s1.1, thenDo_true s2.1, thenDo_true s3.1]
      exact ⟨rfl, s4⟩

/-! ### Loading depends on the content of the directory only -/

def dirStats (rd : Name → Option (Content D)) : Option (Option Stats) :=
  match rd .statsToml with
  | some (.toml s) => some (some s)
  | some _ => none
  | none =>
    match rd .edgeStats with
    | some (.oldStats s) => some (s.map fromV1)
    | some _ => none
    | none => some none

def dirTable (ov : Overlay D O) (rd : Name → Option (Content D)) (n : Name) : Option D :=
  match rd n with
  | none => some ov.empty
  | some (.table d) => some d
  | some _ => none

def dirBlob (rd : Name → Option (Content D)) (n : Name) : Option D :=
  match rd n with
  | some (.blob d) => some d
  | _ => none

def dirField (rd : Name → Option (Content D)) (k : GsImpl) (n : Name) : Option D :=
  match rd n with
  | some (.field k' d) => if k' = k then some d else none
  | _ => none

def dirFields (rd : Name → Option (Content D)) (k : GsImpl) : List Name → Option (List D)
  | [] => some []
  | n :: r =>
    match dirField rd k n, dirFields rd k r with
    | some d, some ds => some (d :: ds)
    | _, _ => none

/-- The five values of a storage on disk. -/
def five (k : GsImpl) (a b c d e : Option D) (s : Option (Option Stats)) : Option (View D) :=
  match a, b, c, d, e, s with
  | some a, some b, some c, some d, some e, some s => some ⟨k, [a, b, c, d, e], s⟩
  | _, _, _, _, _, _ => none

/-- What a directory shows when it is loaded as a storage of the given implementation. -/
def dirView (ov : Overlay D O) (rd : Name → Option (Content D)) : GsImpl → Option (View D)
  | .diskAdj => five .diskAdj (dirTable ov rd .edges) (dirTable ov rd .inverseEdges) (dirTable ov rd .byContainer)
      (dirTable ov rd .byAnnoQname) (dirBlob rd .custom) (dirStats rd)
  | .diskPath => five .diskPath (dirBlob rd .paths) (dirTable ov rd .inverseEdges) (dirTable ov rd .byContainer)
      (dirTable ov rd .byAnnoQname) (dirBlob rd .custom) (dirStats rd)
  | k =>
    match rd .component with
    | some (.legacy k' ds s) => if k' = k then some ⟨k, ds, s.map fromV1⟩ else none
    | some _ => none
    | none =>
      match dirStats rd, dirFields rd k (fieldNames k) with
      | some s, some ds => some ⟨k, ds, s⟩
      | _, _ => none

theorem loadFields_dir (fs : Fs D) (p : Dir) (k : GsImpl) (l : List Name) :
    loadFields fs p k l = dirFields (fs.read p) k l := by
  induction l with
  | nil => rfl
  | cons n l ih => simp only [loadFields, dirFields, ih]; rfl

theorem openMap_dir (ov : Overlay D O) (fs : Fs D) (p : Dir) (n : Name) :
    (openMap ov fs p n).bind (readMap ov fs) = dirTable ov (fs.read p) n ∧
      (openMap ov fs p n = none ↔ dirTable ov (fs.read p) n = none) := by
  simp only [openMap, dirTable, Fs.read]
  cases hf : fs.file p n with
  | none => simp [readMap, ov.merge_zero]
  | some i =>
    simp only [Option.map_some]
    cases hd : fs.data i <;> simp [readMap, hd, ov.merge_zero]

theorem openMap_some {ov : Overlay D O} {fs : Fs D} {p : Dir} {n : Name} {m : DMap O} (h : openMap ov fs p n = some m) :
    ∃ d, readMap ov fs m = some d ∧ dirTable ov (fs.read p) n = some d := by
  have hd := openMap_dir ov fs p n
  cases ht : dirTable ov (fs.read p) n with
  | none => rw [hd.2.2 ht] at h; cases h
  | some d => refine ⟨d, ?_, rfl⟩; rw [h, ht] at hd; exact hd.1

theorem openMap_none {ov : Overlay D O} {fs : Fs D} {p : Dir} {n : Name} (h : openMap ov fs p n = none) :
    dirTable ov (fs.read p) n = none := (openMap_dir ov fs p n).2.1 h

theorem readBlob_dir (fs : Fs D) (p : Dir) (n : Name) : readBlob fs p n = dirBlob (fs.read p) n := rfl

theorem loadStats_dir (fs : Fs D) (p : Dir) : loadStats fs p = dirStats (fs.read p) := rfl

/-- Loading shows what the directory contains. -/
theorem load_view (ov : Overlay D O) (fs : Fs D) (p : Dir) (k : GsImpl) :
    (load ov fs p k).bind (view ov fs) = dirView ov (fs.read p) k := by
  have hmem : ∀ k, inMemory k = true → (load ov fs p k).bind (view ov fs) = dirView ov (fs.read p) k := by
    intro k hk
    have hl : load ov fs p k = (match fs.read p .component with
        | some (.legacy k' ds s) => if k' = k then some (Gs.mem k ds (s.map fromV1)) else none
        | some _ => none
        | none =>
          match loadStats fs p, loadFields fs p k (fieldNames k) with
          | some s, some ds => some (.mem k ds s)
          | _, _ => none) := by
      cases k <;> first | rfl | cases hk
    have hd : dirView ov (fs.read p) k = (match fs.read p .component with
        | some (.legacy k' ds s) => if k' = k then some ⟨k, ds, s.map fromV1⟩ else none
        | some _ => none
        | none =>
          match dirStats (fs.read p), dirFields (fs.read p) k (fieldNames k) with
          | some s, some ds => some ⟨k, ds, s⟩
          | _, _ => none) := by
      cases k <;> first | rfl | cases hk
    rw [hl, hd, loadFields_dir, loadStats_dir]
    cases fs.read p .component with
    | none =>
      cases dirStats (fs.read p) with
      | none => rfl
      | some s => cases dirFields (fs.read p) k (fieldNames k) <;> rfl
    | some c =>
      cases c <;> try rfl
      simp only
      split <;> rfl
  cases k with
  | diskAdj =>
    simp only [load, dirView, openAnnos, loadStats_dir, readBlob_dir]
    cases h1 : openMap ov fs p .edges with
    | none =>
      rw [openMap_none h1]
      cases dirStats (fs.read p) <;> rfl
    | some e =>
    obtain ⟨d1, r1, t1⟩ := openMap_some h1
    cases h2 : openMap ov fs p .inverseEdges with
    | none => rw [openMap_none h2, t1]; cases dirStats (fs.read p) <;> rfl
    | some i =>
    obtain ⟨d2, r2, t2⟩ := openMap_some h2
    cases h3 : openMap ov fs p .byContainer with
    | none => rw [openMap_none h3, t1, t2]; cases dirStats (fs.read p) <;> rfl
    | some x =>
    obtain ⟨d3, r3, t3⟩ := openMap_some h3
    cases h4 : openMap ov fs p .byAnnoQname with
    | none => rw [openMap_none h4, t1, t2, t3]; cases dirStats (fs.read p) <;> rfl
    | some y =>
    obtain ⟨d4, r4, t4⟩ := openMap_some h4
    rw [t1, t2, t3, t4]
    cases dirBlob (fs.read p) .custom with
    | none => cases dirStats (fs.read p) <;> rfl
    | some c =>
      cases dirStats (fs.read p) with
      | none => rfl
      | some s => simp [view, five, r1, r2, r3, r4]
  | diskPath =>
    simp only [load, dirView, openAnnos, loadStats_dir, readBlob_dir]
    cases h0 : fs.file p .paths with
    | none =>
      have : dirBlob (fs.read p) .paths = none := by simp [dirBlob, Fs.read, h0]
      rw [this]; rfl
    | some w =>
    cases h1 : dirBlob (fs.read p) .paths with
    | none => rfl
    | some d1 =>
    have r1 : readSrc fs (.file w) = some d1 := by
      simp only [dirBlob, Fs.read, h0, Option.map_some] at h1
      simp only [readSrc]
      cases hd : fs.data w <;> rw [hd] at h1 <;> simp_all
    cases h2 : openMap ov fs p .inverseEdges with
    | none => rw [openMap_none h2]; rfl
    | some i =>
    obtain ⟨d2, r2, t2⟩ := openMap_some h2
    cases h3 : openMap ov fs p .byContainer with
    | none => rw [openMap_none h3, t2]; rfl
    | some x =>
    obtain ⟨d3, r3, t3⟩ := openMap_some h3
    cases h4 : openMap ov fs p .byAnnoQname with
    | none => rw [openMap_none h4, t2, t3]; rfl
    | some y =>
    obtain ⟨d4, r4, t4⟩ := openMap_some h4
    rw [t2, t3, t4]
    cases dirBlob (fs.read p) .custom with
    | none => rfl
    | some c =>
      cases dirStats (fs.read p) with
      | none => rfl
      | some s => simp [view, five, r1, r2, r3, r4]
  | adj => exact hmem _ rfl
  | dense => exact hmem _ rfl
  | linear c => exact hmem _ rfl
  | prepost a b => exact hmem _ rfl

/-- What a directory shows, with its `impl.cfg`. -/
def dirComponent (ov : Overlay D O) (rd : Name → Option (Content D)) : Option (View D) :=
  match rd .implCfg with
  | some (.cfg id) => (lookup id).bind (dirView ov rd)
  | _ => none

theorem loadComponent_view (ov : Overlay D O) (fs : Fs D) (p : Dir) :
    (loadComponent ov fs p).bind (view ov fs) = dirComponent ov (fs.read p) := by
  unfold loadComponent dirComponent
  cases fs.read p .implCfg with
  | none => rfl
  | some c =>
    cases c <;> try rfl
    rename_i id
    simp only
    cases lookup id with
    | none => rfl
    | some k => exact load_view ov fs p k

theorem lookup_id {k : GsImpl} (h : k ∈ registered) : lookup (serializationId k) = some k := by
  simp only [registered, List.mem_cons, List.not_mem_nil, or_false] at h
  rcases h with h | h | h | h | h | h | h | h | h | h | h | h | h | h | h <;> subst h <;> decide +kernel

/-- The implementation of a loaded component has a registered name. -/
theorem lookup_mem {id : String} {k : GsImpl} (h : lookup id = some k) : k ∈ registered := List.mem_of_find?_eq_some h

theorem dirFields_congr {r r' : Name → Option (Content D)} (k : GsImpl) (l : List Name) (h : ∀ n ∈ l, r n = r' n) :
    dirFields r k l = dirFields r' k l := by
  induction l with
  | nil => rfl
  | cons n l ih =>
    simp only [dirFields, dirField, h n List.mem_cons_self, ih fun m hm => h m (List.mem_cons_of_mem _ hm)]

theorem putFields_other {r : Name → Option (Content D)} (k : GsImpl) (l : List (Name × D)) (m : Name) (h : ∀ x ∈ l, x.1 ≠ m) :
    putFields r k l m = r m := by
  induction l generalizing r with
  | nil => rfl
  | cons x l ih =>
    rw [putFields, ih fun y hy => h y (List.mem_cons_of_mem _ hy)]
    exact Function.update_of_ne (fun e => h x List.mem_cons_self e.symm) _ _

theorem dirFields_put (r : Name → Option (Content D)) (k : GsImpl) (names : List Name) (ds : List D)
    (hn : names.Nodup) (hl : ds.length = names.length) :
    dirFields (putFields r k (names.zip ds)) k names = some ds := by
  induction names generalizing r ds with
  | nil => cases ds with | nil => rfl | cons => cases hl
  | cons n names ih =>
    cases ds with
    | nil => cases hl
    | cons d ds =>
      have hn' := List.nodup_cons.1 hn
      simp only [List.zip_cons_cons, putFields, dirFields]
      rw [ih _ ds hn'.2 (by simpa using hl)]
      have : putFields (Function.update r n (some (.field k d))) k (names.zip ds) n = some (.field k d) := by
        rw [putFields_other]
        · simp
        · intro x hx e
          exact hn'.1 (e ▸ (List.of_mem_zip (show (x.1, x.2) ∈ _ from hx)).1)
      simp [dirField, this]

theorem fieldNames_nodup (k : GsImpl) : (fieldNames k).Nodup := by cases k <;> simp [fieldNames]

theorem fieldNames_not (k : GsImpl) {n : Name} (h : n ∈ fieldNames k) :
    n ≠ .component ∧ n ≠ .statsToml ∧ n ≠ .edgeStats ∧ n ≠ .implCfg := by
  cases k <;> simp only [fieldNames, List.mem_cons, List.not_mem_nil, or_false] at h <;>
    first | exact h.elim | (rcases h with h | h | h <;> subst h <;> decide)

/-- No file of an older version is in the way. -/
structure NoOld (rd : Name → Option (Content D)) (g : Gs D O) : Prop where
  component : inMemory g.kind = true → rd .component = none
  stats : ∀ v : Option Stats, (∃ k ds, g = .mem k ds v) ∨ (∃ a b c, g = .diskAdj a b c v) ∨ (∃ a b c d, g = .diskPath a b c v d) →
    v = none → rd .edgeStats = none

/-- What was saved is what the directory shows. -/
theorem dirComponent_put (ov : Overlay D O) {N : Nat} (fs : Fs D) (rd : Name → Option (Content D)) {g : Gs D O} (hg : g.Ok N)
    {v : View D} (hv : view ov fs g = some v) (hr : NoOld rd g) :
    dirComponent ov (Function.update (put ov fs rd g) .implCfg (some (.cfg (serializationId g.kind)))) = some v := by
  have hreg : g.kind ∈ registered := by
    cases g with
    | mem k ds s => exact hg.2.1
    | diskAdj => exact show GsImpl.diskAdj ∈ registered by decide
    | diskPath => exact show GsImpl.diskPath ∈ registered by decide
  unfold dirComponent
  simp only [Function.update_self, lookup_id hreg, Option.bind_some]
  cases g with
  | mem k ds s =>
    obtain ⟨hm, -, hlen⟩ := hg
    have hst : dirStats (Function.update (put ov fs rd (.mem k ds s : Gs D O)) .implCfg
        (some (.cfg (serializationId k)))) = some s := by
      have h1 : Function.update (put ov fs rd (.mem k ds s : Gs D O)) .implCfg (some (.cfg (serializationId k))) .statsToml =
          s.map .toml := by simp [put, putStats]
      unfold dirStats
      rw [h1]
      cases hs : s with
      | some s => rfl
      | none =>
        have h2 : Function.update (put ov fs rd (.mem k ds s : Gs D O)) .implCfg (some (.cfg (serializationId k))) .edgeStats =
            none := by
          simp only [put, putStats]
          rw [Function.update_of_ne (by decide), Function.update_of_ne (by decide), putFields_other]
          · exact hr.stats s (.inl ⟨k, ds, rfl⟩) hs
          · intro x hx
            exact (fieldNames_not k (List.of_mem_zip (show (x.1, x.2) ∈ _ from hx)).1).2.2.1
        subst hs
        simp only [Option.map_none, h2]
    have hco : Function.update (put ov fs rd (.mem k ds s : Gs D O)) .implCfg (some (.cfg (serializationId k))) .component =
        none := by
      simp only [put, putStats]
      rw [Function.update_of_ne (by decide), Function.update_of_ne (by decide), putFields_other]
      · exact hr.component hm
      · intro x hx
        exact (fieldNames_not k (List.of_mem_zip (show (x.1, x.2) ∈ _ from hx)).1).1
    have hfi : dirFields (Function.update (put ov fs rd (.mem k ds s : Gs D O)) .implCfg (some (.cfg (serializationId k)))) k
        (fieldNames k) = some ds := by
      rw [dirFields_congr (r' := putFields rd k ((fieldNames k).zip ds)), dirFields_put _ _ _ _ (fieldNames_nodup k) hlen]
      intro n hn
      have := fieldNames_not k hn
      simp only [put, putStats]
      rw [Function.update_of_ne this.2.2.2, Function.update_of_ne this.2.1]
    simp only [view, Option.some.injEq] at hv
    subst hv
    simp only [Gs.kind]
    have hd : ∀ rd : Name → Option (Content D), rd .component = none → dirView ov rd k = (match dirStats rd, dirFields rd k (fieldNames k) with
        | some s, some ds => some ⟨k, ds, s⟩
        | _, _ => none) := by
      intro rd h
      cases k <;> first | (simp only [dirView, h]; done) | (cases hm; done)
    rw [hd _ hco, hst, hfi]
  | diskAdj e i a s =>
    have hst : dirStats (Function.update (put ov fs rd (.diskAdj e i a s)) .implCfg
        (some (.cfg (serializationId .diskAdj)))) = some s := by
      cases hs : s with
      | some s => simp [dirStats, put, putStats]
      | none =>
        have := hr.stats s (.inr (.inl ⟨_, _, _, rfl⟩)) hs
        simp [dirStats, put, putStats, this]
    simp only [Gs.kind, dirView, hst]
    simp only [view] at hv
    cases h1 : readMap ov fs e with
    | none => simp [h1] at hv
    | some d1 =>
    cases h2 : readMap ov fs i with
    | none => simp [h1, h2] at hv
    | some d2 =>
    cases h3 : readMap ov fs a.byContainer with
    | none => simp [h1, h2, h3] at hv
    | some d3 =>
    cases h4 : readMap ov fs a.byAnnoQname with
    | none => simp [h1, h2, h3, h4] at hv
    | some d4 =>
      simp only [h1, h2, h3, h4, Option.some.injEq] at hv
      subst hv
      simp [dirTable, dirBlob, put, putStats, h1, h2, h3, h4, five]
  | diskPath w i a s l =>
    have hst : dirStats (Function.update (put ov fs rd (.diskPath w i a s l)) .implCfg
        (some (.cfg (serializationId .diskPath)))) = some s := by
      cases hs : s with
      | some s => simp [dirStats, put, putStats]
      | none =>
        have := hr.stats s (.inr (.inr ⟨_, _, _, _, rfl⟩)) hs
        simp [dirStats, put, putStats, this]
    simp only [Gs.kind, dirView, hst]
    simp only [view] at hv
    cases h1 : readSrc fs w with
    | none => simp [h1] at hv
    | some d1 =>
    cases h2 : readMap ov fs i with
    | none => simp [h1, h2] at hv
    | some d2 =>
    cases h3 : readMap ov fs a.byContainer with
    | none => simp [h1, h2, h3] at hv
    | some d3 =>
    cases h4 : readMap ov fs a.byAnnoQname with
    | none => simp [h1, h2, h3, h4] at hv
    | some d4 =>
      simp only [h1, h2, h3, h4, Option.some.injEq] at hv
      subst hv
      simp [dirTable, dirBlob, put, putStats, h1, h2, h3, h4, five]

end GsFiles
