import Verif.GsFiles.Props

/-!
# C107: concrete cases and the claims that the code violates
-/

namespace GsFiles.Ex

open GsFiles

/-- Values are numbers; a change of a disk map replaces the value. -/
def ov : Overlay Nat (Option Nat) where
  merge o d := o.getD d
  zero := none
  empty := 0
  merge_zero _ := rfl

def stats : GsStats := { maxDepth := 3, maxFanOut := 2, nodes := 8, visits := 8, cyclic := false, rootedTree := true }

/-- An empty file system with the folder `current`. -/
def start : Fs Nat where
  file _ _ := none
  dirs _ := false
  folders f := f = .current
  data _ := .truncated
  next := 0

def newMap (d : Nat) : DMap (Option Nat) := ⟨some d, none⟩

def annos (d : Nat) : DAnnos Nat (Option Nat) := ⟨newMap d, newMap (d + 1), d + 2⟩

def tree : Gs Nat (Option Nat) := .mem (.prepost u16Max u8Max) [1, 2, 3] (some ⟨stats, 2⟩)
def list : Gs Nat (Option Nat) := .mem .adj [4, 5, 6] none
def onDisk : Gs Nat (Option Nat) := .diskAdj (newMap 7) (newMap 8) (annos 9) (some ⟨stats, 2⟩)
def paths : Gs Nat (Option Nat) := .diskPath (.temp 12) (newMap 13) (annos 14) (some ⟨stats, 1⟩) none

/-- A graph without path storages. -/
def graph : List (Nat × Gs Nat (Option Nat)) := [(0, tree), (1, list), (2, onDisk)]

theorem start_wf : start.Wf := fun _ _ _ h => by cases h

theorem newMap_below (d N : Nat) : (newMap d).Below N := fun _ h => by cases h

/-- The hypotheses of `C107_cycles_partial` hold for three components, and hence ten rounds keep them. -/
theorem C107_nonvacuous : ∃ s, cycles ov 10 (start, graph) = some s ∧ shown ov s = shown ov (start, graph) := by
  refine C107_cycles_partial ov 10 start graph start_wf rfl (by decide) ?_ ?_ ?_
  · intro x hx
    simp only [graph, List.mem_cons, List.not_mem_nil, or_false] at hx
    rcases hx with rfl | rfl | rfl
    · exact ⟨rfl, by decide, rfl⟩
    · exact ⟨rfl, by decide, rfl⟩
    · exact ⟨newMap_below _ _, newMap_below _ _, newMap_below _ _, newMap_below _ _⟩
  · intro x hx
    simp only [graph, List.mem_cons, List.not_mem_nil, or_false] at hx
    rcases hx with rfl | rfl | rfl <;> exact ⟨_, rfl⟩
  · intro x hx
    simp only [graph, List.mem_cons, List.not_mem_nil, or_false] at hx
    rcases hx with rfl | rfl | rfl <;> simp [tree, list, onDisk, Gs.kind]

/-- A disk map that was loaded and then changed is written with the change. -/
theorem C107_changed_example :
    ((cycle ov (start, [(2, onDisk)])).bind fun s => match s.2 with
      | [(c, .diskAdj e i a t)] => (cycle ov (s.1, [(c, .diskAdj ⟨some 99, e.base⟩ i a t)])).map (shown ov)
      | _ => none) = some [(2, some ⟨.diskAdj, [99, 8, 9, 10, 11], some ⟨stats, 2⟩⟩)] := by decide +kernel

/-- **The claim of C107 is false for path storages**: a graph with one path storage is saved and opened; nothing is changed; it is
saved with a backup and cannot be opened any more.  The backup is gone. -/
theorem C107_path_fails :
    (cycles ov 1 (start, [(0, paths)])).map (shown ov) = some (shown ov (start, [(0, paths)])) ∧
      (cycles ov 2 (start, [(0, paths)])).isNone ∧
      ((cycles ov 1 (start, [(0, paths)])).map fun s => (saveWithBackup ov s.1 s.2).2) = some true := by decide +kernel

/-- `C107_second` applies to this graph. -/
theorem C107_second_nonvacuous : ∃ b g', cycle ov (start, [(0, paths)]) = some (b, g') ∧ ∃ x ∈ g', x.2.kind = .diskPath := by
  cases h : cycle ov (start, [(0, paths)]) with
  | none => exact absurd (show (cycle ov (start, [(0, paths)])).isSome = true by decide +kernel) (by rw [h]; decide)
  | some s =>
    refine ⟨s.1, s.2, rfl, ?_⟩
    have hk : ((cycle ov (start, [(0, paths)])).map fun s => s.2.any fun x => x.2.kind == .diskPath) = some true := by
      decide +kernel
    rw [h] at hk
    simp only [Option.map_some, Option.some.injEq, List.any_eq_true, beq_iff_eq] at hk
    exact hk

/-- A storage in memory that is loaded from files of an older version and has been saved since. -/
def oldDir : Fs Nat where
  file p n := if p = (.current, 0) ∧ n = .component then some 0 else none
  dirs p := p = (.current, 0)
  folders f := f = .current
  data _ := .legacy .adj [1, 2, 3] (some stats)
  next := 1

/-- **Saving into a directory with files of an older version has no effect**: other values are saved, the old ones are loaded. -/
theorem C107_stale_fails :
    (saveComponent ov oldDir (.current, 0) list).2 = true ∧
      (loadComponent ov (saveComponent ov oldDir (.current, 0) list).1 (.current, 0)).bind
        (view ov (saveComponent ov oldDir (.current, 0) list).1) = some ⟨.adj, [1, 2, 3], some ⟨stats, 1⟩⟩ ∧
      view ov oldDir list = some ⟨.adj, [4, 5, 6], none⟩ := by decide +kernel

/-- The hypotheses of `C107_stale` hold there. -/
theorem C107_stale_nonvacuous : Fresh 0 oldDir (.current, 0) ∧ oldDir.read (.current, 0) .component = some (.legacy .adj [1, 2, 3] (some stats)) := by
  refine ⟨⟨Nat.zero_le _, ?_, ?_⟩, rfl⟩
  · intro n i h
    simp only [oldDir] at h ⊢
    split at h
    · cases h; exact ⟨le_rfl, Nat.one_pos⟩
    · cases h
  · intro n m i h h'
    simp only [oldDir] at h h'
    split at h
    · split at h'
      · rename_i a b; rw [a.2, b.2]
      · cases h'
    · cases h

/-- The edges of two trees: 1 to 2 and 3 to 4. -/
def forest : Adj NodeID64 Nat Nat := ((Adj.new.addEdge 1 2).addEdge 3 4)

/-- **The statistics of an older version count one root only**: a component with two trees, its statistics in the older format. -/
theorem C107_roots_fails : forest.statRoots.length = 2 ∧ (fromV1 forest.stats).rootNodes = 1 := by decide +kernel

/-- A storage on disk that is loaded from `current` and saved to the same location without a backup (`C107_in_place`): the saving
fails and the component is lost. -/
theorem C107_in_place_fails :
    ((cycle ov (start, [(2, onDisk)])).map fun s =>
      ((saveGraph ov .current s.1 s.2).2, (reload ov (saveGraph ov .current s.1 s.2).1 [2]).isSome, (reload ov s.1 [2]).isSome)) =
      some (false, false, true) := by decide +kernel

/-- Statistics that were removed are replaced by those of an older version. -/
def oldStatsDir : Fs Nat where
  file p n := if p = (.current, 0) ∧ n = .edgeStats then some 0 else none
  dirs p := p = (.current, 0)
  folders f := f = .current
  data _ := .oldStats (some stats)
  next := 1

theorem C107_old_stats_fails :
    (loadComponent ov (saveComponent ov oldStatsDir (.current, 0) list).1 (.current, 0)).bind
      (view ov (saveComponent ov oldStatsDir (.current, 0) list).1) = some ⟨.adj, [4, 5, 6], some ⟨stats, 1⟩⟩ ∧
      view ov oldStatsDir list = some ⟨.adj, [4, 5, 6], none⟩ := by decide +kernel

/-- Three implementations saved into one directory (`C107_last`). -/
theorem C107_last_nonvacuous :
    (loadComponent ov (saveAll ov (.current, 0) start ([tree, list] ++ [tree])) (.current, 0)).bind
      (view ov (saveAll ov (.current, 0) start ([tree, list] ++ [tree]))) = view ov start tree := by
  refine C107_last ov _ _ start ⟨le_rfl, fun _ _ h => (by cases h), fun _ _ _ h => (by cases h)⟩ ?_ ⟨⟨rfl, by decide, rfl⟩, rfl⟩ rfl rfl
  intro x hx
  simp only [List.mem_cons, List.not_mem_nil, or_false] at hx
  rcases hx with rfl | rfl
  · exact ⟨⟨rfl, by decide, rfl⟩, rfl⟩
  · exact ⟨⟨rfl, by decide, rfl⟩, rfl⟩

end GsFiles.Ex
