import Verif.Import.Model
/-!
# C64: an import is all or nothing
-/
namespace Import
variable {Nm G Cfg F : Type} [DecidableEq Nm]

@[simp] theorem disk_setDisk_same (s : Store Nm G Cfg F) (n : Nm) (d : Option (Dir G Cfg F)) :
    (s.setDisk n d).disk n = d := by simp [Store.setDisk]

@[simp] theorem disk_setDisk_ne (s : Store Nm G Cfg F) {n k : Nm} (d : Option (Dir G Cfg F))
    (h : k ≠ n) : (s.setDisk n d).disk k = s.disk k := by simp [Store.setDisk, h]

@[simp] theorem disk_setCached (s : Store Nm G Cfg F) (n k : Nm) (b : Bool) :
    (s.setCached n b).disk k = s.disk k := rfl

@[simp] theorem cached_setCached_same (s : Store Nm G Cfg F) (n : Nm) (b : Bool) :
    (s.setCached n b).cached n = b := by simp [Store.setCached]

@[simp] theorem cached_setCached_ne (s : Store Nm G Cfg F) {n k : Nm} (b : Bool) (h : k ≠ n) :
    (s.setCached n b).cached k = s.cached k := by simp [Store.setCached, h]

@[simp] theorem cached_setDisk (s : Store Nm G Cfg F) (n : Nm) (d : Option (Dir G Cfg F)) :
    (s.setDisk n d).cached = s.cached := rfl

@[simp] theorem cached_edit (s : Store Nm G Cfg F) (n : Nm) (f : Dir G Cfg F → Dir G Cfg F) :
    (s.edit n f).cached = s.cached := rfl

@[simp] theorem disk_edit_same (s : Store Nm G Cfg F) (n : Nm) (f : Dir G Cfg F → Dir G Cfg F) :
    (s.edit n f).disk n = (s.disk n).map f := by simp [Store.edit]

@[simp] theorem disk_edit_ne (s : Store Nm G Cfg F) {n k : Nm} (f : Dir G Cfg F → Dir G Cfg F)
    (h : k ≠ n) : (s.edit n f).disk k = s.disk k := by simp [Store.edit, h]

/-- Two storages differ at most in the corpus `n`. -/
def SameOthers (n : Nm) (s t : Store Nm G Cfg F) : Prop :=
  ∀ k, k ≠ n → t.disk k = s.disk k ∧ t.cached k = s.cached k

theorem SameOthers.refl (n : Nm) (s : Store Nm G Cfg F) : SameOthers n s s :=
  fun _ _ => ⟨rfl, rfl⟩

theorem SameOthers.trans {n : Nm} {s t u : Store Nm G Cfg F} (h1 : SameOthers n s t)
    (h2 : SameOthers n t u) : SameOthers n s u :=
  fun k hk => ⟨((h2 k hk).1).trans (h1 k hk).1, ((h2 k hk).2).trans (h1 k hk).2⟩

theorem same_setDisk (n : Nm) (s : Store Nm G Cfg F) (d : Option (Dir G Cfg F)) :
    SameOthers n s (s.setDisk n d) := fun k hk => ⟨disk_setDisk_ne s d hk, rfl⟩

theorem same_setCached (n : Nm) (s : Store Nm G Cfg F) (b : Bool) :
    SameOthers n s (s.setCached n b) := fun k hk => ⟨rfl, cached_setCached_ne s b hk⟩

theorem same_edit (n : Nm) (s : Store Nm G Cfg F) (f : Dir G Cfg F → Dir G Cfg F) :
    SameOthers n s (s.edit n f) := same_setDisk n s _

theorem same_prepare (s : Store Nm G Cfg F) (n : Nm) (o : Bool) (io : Io G Cfg F) :
    SameOthers n s (prepare s n o io).1 := by
  unfold prepare
  split
  · dsimp only
    cases (s.setCached n false).disk n with
    | none => exact same_setCached n s _
    | some d =>
      cases io.remove <;> exact (same_setCached n s _).trans (same_setDisk n _ _)
  · split <;> exact SameOthers.refl n s

theorem same_createDir (s : Store Nm G Cfg F) (n : Nm) (io : Io G Cfg F) :
    SameOthers n s (createDir s n io) := by
  unfold createDir
  split
  · exact SameOthers.refl n s
  · split
    · exact SameOthers.refl n s
    · exact same_setDisk n s _

theorem same_copyFiles (s : Store Nm G Cfg F) (n : Nm) (fs : List F) (io : Io G Cfg F) :
    SameOthers n s (copyFiles s n fs io).1 := by
  unfold copyFiles
  split
  · exact SameOthers.refl n s
  · have : SameOthers n s (ensureDir s n) := by
      unfold ensureDir
      split
      · exact SameOthers.refl n s
      · exact same_setDisk n s _
    dsimp only
    cases io.copy <;> exact this.trans (same_edit n _ _)

theorem same_saveGraph (s : Store Nm G Cfg F) (n : Nm) (g : G) (io : Io G Cfg F) :
    SameOthers n s (saveGraph s n g io) := by
  unfold saveGraph
  split <;> exact same_edit n s _

/-- **C64**, other corpora: an import never touches another corpus, whatever fails. -/
theorem C64_others (s : Store Nm G Cfg F) (n : Nm) (g : G) (c : Cfg) (fs : List F) (o : Bool)
    (io : Io G Cfg F) {k : Nm} (hk : k ≠ n) :
    (importCorpus s n g c fs o io).1.disk k = s.disk k ∧
      (importCorpus s n g c fs o io).1.cached k = s.cached k := by
  have : SameOthers n s (importCorpus s n g c fs o io).1 := by
    unfold importCorpus
    split
    · exact SameOthers.refl n s
    · split
      · rename_i s' e h
        have := same_prepare s n o io
        rwa [h] at this
      · rename_i s' h
        have h1 := same_prepare s n o io
        rw [h] at h1
        have h2 := h1.trans (same_createDir s' n io)
        dsimp only
        split
        · rename_i s2 e h'
          have := same_copyFiles (createDir s' n io) n fs io
          rw [h'] at this
          exact h2.trans this
        · rename_i s2 h'
          have h3 := same_copyFiles (createDir s' n io) n fs io
          rw [h'] at h3
          have h4 := (h2.trans h3).trans (same_saveGraph s2 n g io)
          split
          · exact h4
          · have h5 := (h4.trans (same_edit n _ _)).trans (same_setCached n
              ((saveGraph s2 n g io).edit n fun d => { d with config := some c }) true)
            split <;> exact h5
  exact this k hk

/-- **C64**, refused imports: without the permission to overwrite, an existing corpus is left
alone, in the cache and on disk. -/
theorem C64_exists (s : Store Nm G Cfg F) (n : Nm) (g : G) (c : Cfg) (fs : List F)
    (io : Io G Cfg F) (h : s.cached n = true ∨ (s.disk n).isSome) :
    (importCorpus s n g c fs false io).1 = s ∧
      ∃ e, (importCorpus s n g c fs false io).2 = .error e := by
  have hp : prepare s n false io = (s, some .corpusExists) := by
    unfold prepare
    have : (s.cached n || (s.disk n).isSome) = true := by
      rcases h with h | h <;> simp [h]
    simp [this]
  unfold importCorpus
  split
  · exact ⟨rfl, _, rfl⟩
  · rw [hp]
    exact ⟨rfl, _, rfl⟩

/-- **C64**, success: if no file operation fails and the corpus is new or may be overwritten, the
import succeeds and the directory contains exactly the imported graph, configuration and files.
The full property asks this of every import that returns `Ok`; `C64_save_fails` shows that the
hypothesis is needed. -/
theorem C64_success_partial (s : Store Nm G Cfg F) (n : Nm) (g : G) (c : Cfg) (fs : List F)
    (o : Bool) (h : o = true ∨ (s.cached n = false ∧ s.disk n = none)) :
    (importCorpus s n g c fs o Io.good).2 = .ok n ∧
    (importCorpus s n g c fs o Io.good).1.disk n = some ⟨some g, some c, fs⟩ ∧
    (importCorpus s n g c fs o Io.good).1.cached n = true ∧
    (importCorpus s n g c fs o Io.good).1.load n = some g := by
  have hp : ∃ s', prepare s n o Io.good = (s', none) ∧ s'.disk n = none := by
    unfold prepare
    cases o with
    | true =>
      simp only [if_true]
      cases hd : (s.setCached n false).disk n with
      | none => exact ⟨_, rfl, hd⟩
      | some d => exact ⟨_, rfl, by simp⟩
    | false =>
      obtain ⟨h1, h2⟩ := by simpa using h
      refine ⟨s, by simp [h1, h2], h2⟩
  obtain ⟨s', h1, h2⟩ := hp
  have hc : createDir s' n Io.good = s'.setDisk n (some ⟨none, none, []⟩) := by
    simp [createDir, h2, Io.good]
  unfold importCorpus
  rw [h1]
  simp only [hc]
  simp [copyFiles, ensureDir, saveGraph, Io.good, Store.load]

/-- **C64**, what `Ok` always means: the name is known to the cache, the configuration was
written, all linked files were copied. -/
theorem C64_ok_config {s t : Store Nm G Cfg F} {n k : Nm} {g : G} {c : Cfg} {fs : List F}
    {o : Bool} {io : Io G Cfg F} (h : importCorpus s n g c fs o io = (t, .ok k)) :
    k = n ∧ t.cached n = true ∧ ∃ d, t.disk n = some d ∧ d.config = some c ∧
      fs <:+ d.files ∧ (io.save = none → d.graph = some g) := by
  unfold importCorpus at h
  split at h
  · simp at h
  · split at h
    · simp at h
    · rename_i s' _
      dsimp only at h
      generalize hcd : createDir s' n io = s1 at h
      split at h
      · simp at h
      · rename_i s2 h'
        have hex : ∃ d, s2.disk n = some d ∧ fs <:+ d.files := by
          unfold copyFiles at h'
          split at h'
          · simp at h'
          · dsimp only at h'
            split at h'
            · simp at h'
            · obtain ⟨rfl, -⟩ := Prod.mk.inj h'
              cases hd : s1.disk n with
              | none => exact ⟨⟨none, none, fs⟩, by simp [ensureDir, hd], by simp⟩
              | some d =>
                exact ⟨{ d with files := d.files ++ fs }, by simp [ensureDir, hd], by simp⟩
        obtain ⟨d, hd, hf⟩ := hex
        split at h
        · simp at h
        · split at h
          · simp at h
          · obtain ⟨rfl, h2⟩ := Prod.mk.inj h
            simp only [Except.ok.injEq] at h2
            refine ⟨h2.symm, by simp, ?_⟩
            cases hs : io.save with
            | none =>
              exact ⟨⟨some g, some c, d.files⟩, by simp [saveGraph, hs, hd], rfl, hf,
                fun _ => rfl⟩
            | some r =>
              exact ⟨⟨r, some c, d.files⟩, by simp [saveGraph, hs, hd], rfl, hf,
                fun h => by cases h⟩

/-! ## Examples -/

/-- One corpus `0` with graph `10`. -/
def demo : Store Nat Nat Nat Nat :=
  ⟨fun n => if n = 0 then some ⟨some 10, some 0, []⟩ else none, fun _ => false⟩

/-- The hypotheses of `C64_success_partial` and `C64_exists` are met. -/
theorem C64_nonvacuous :
    (importCorpus demo 0 20 5 [7] true Io.good).1.load 0 = some 20 ∧
    (importCorpus demo 1 20 5 [7] false Io.good).1.load 1 = some 20 ∧
    (importCorpus demo 0 20 5 [7] false Io.good).2 = .error .corpusExists := by
  refine ⟨by decide, by decide, rfl⟩

/-- **C64** fails for errors while saving: they are only logged, so the import returns `Ok`, the
corpus is in the cache, but there is no graph to load, and the old graph is gone. -/
theorem C64_save_fails :
    let r := importCorpus demo 0 20 5 [] true { Io.good with save := some none }
    r.2 = .ok 0 ∧ r.1.load 0 = none ∧ r.1.cached 0 = true ∧ demo.load 0 = some 10 := by
  refine ⟨rfl, by decide, by decide, by decide⟩

/-- **C64** fails for errors while copying linked files: the import returns an error, but the old
corpus was removed before. -/
theorem C64_overwrite_fails :
    let r := importCorpus demo 0 20 5 [7, 8] true { Io.good with copy := some [7] }
    r.2 = .error .io ∧ r.1.load 0 = none ∧ demo.load 0 = some 10 := by
  refine ⟨rfl, by decide, by decide⟩

/-- **C64** fails for new corpora as well: after an import that returned an error the same import
is refused because the corpus exists, but it cannot be loaded. -/
theorem C64_retry_fails :
    let r := importCorpus demo 1 20 5 [7, 8] false { Io.good with copy := some [7] }
    r.2 = .error .io ∧ r.1.load 1 = none ∧
      (importCorpus r.1 1 20 5 [7, 8] false Io.good).2 = .error .corpusExists := by
  refine ⟨rfl, by decide, rfl⟩

end Import
