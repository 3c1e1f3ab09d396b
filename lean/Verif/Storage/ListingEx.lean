import Verif.Storage.ListingProps

/-!
# C110: examples and counterexamples
-/

set_option linter.unusedSimpArgs false

namespace Listing.Ex
open Graph PersistEx Store StorageEx Keys

/-- Three nodes, two of them of the type 99, one edge with a label in the component 5. -/
def u3 : List (Nat × ExEvent) :=
  numbered [.addNode 10 99, .addNode 11 98, .addNode 12 99, .addNodeLabel 12 ⟨7, 0⟩ 30, .addEdge 10 11 (some 5),
    .addEdgeLabel 10 11 (some 5) ⟨8, 0⟩ 40]

def hist : List SOp := [.create 1, .update 1 u3, .create 2, .work 0]

/-- The components in the answer of a query. -/
def _root_.Store.Out.comps : SOut → Option (List Nat)
  | .graph g => some g.comps.keys
  | _ => none

def done : St := (Store.run ops start (with_ small hist)).1

def final : Abs Nat (AnnoStore NodeID64 Nat Nat) Nat (Adj NodeID64 Nat Nat) := ((Abs.mk [] [] [] fun _ => 0).run ops hist).1

def g3 : G := (app g0 u3).1

def m3 : GSpec Nat Nat Nat := (GSpec.empty : GSpec Nat Nat Nat).run exNk exTk (evs u3)

theorem g3_rep : Graph.Inv exNk ⟨g3.annos, g3.comps, 0⟩ ∧ Graph.Rep exNk ⟨g3.annos, g3.comps, 0⟩ m3 := by
  have hu : ∀ e ∈ evs ([u3] : List (List (Nat × ExEvent))).flatten, e.NoRename exNk := by
    intro e he
    simp [evs, u3, numbered, List.range'] at he
    rcases he with rfl | rfl | rfl | rfl | rfl | rfl <;>
      first | trivial | exact fun h => absurd (congrArg Prod.fst h) (by decide)
  have hok : (applyAll exNk exTk 1000 hook Graph.new [u3]).2 = true := by decide +kernel
  obtain ⟨h1, k, h2, h3, _⟩ := all_refines (nk := exNk) (tk := exTk) (by decide) 1000 hook [u3] Graph.new GSpec.empty Inv.empty Rep.empty hu
  rw [h3 hok] at h2
  have e : (applyAll exNk exTk 1000 hook Graph.new [u3]).1 =
      (Graph.applyInMemory exNk exTk 1000 hook ⟨g0.annos, g0.comps, 0⟩ u3).1 := by
    have : (Graph.applyInMemory exNk exTk 1000 hook ⟨g0.annos, g0.comps, 0⟩ u3).2 = true := by decide +kernel
    show (if (Graph.applyInMemory exNk exTk 1000 hook ⟨g0.annos, g0.comps, 0⟩ u3).2 then _ else _ : _ × Bool).1 = _
    rw [if_pos this]
    rfl
  rw [e] at h1 h2
  exact ⟨h1.changeId 0, h2.changeId 0⟩

theorem safe : Abs.AllSafe ops start (Abs.mk [] [] [] fun _ => 0) (with_ small hist) := by
  refine allAllowed_safe OMap.sorted_nil (graphApply_sorted exNk exTk 1000 hook) _ _ _ (opened_rel ⟨OMap.sorted_nil, OMap.sorted_nil, fun _ => rfl,
    fun n d g h => by cases h⟩) (fun _ => Nat.zero_le _) ?_
  exact ⟨fun h => (by cases h), by decide +kernel, fun h => absurd h (by decide +kernel), trivial, trivial⟩

/-- The lists of a corpus that was evicted from the cache in the meantime: the label with the number 1 is the name, 2 is the type. -/
theorem C110_nodes_nonvacuous :
    Holds ops (Nm := Nat) [] [] ∧ Abs.AllSafe ops start (Abs.mk [] [] [] fun _ => 0) (with_ small hist) ∧
    final.corpora.get 1 = some g3 ∧ final.corpora.get 3 = none ∧ ¬ done.hasLoaded 1 ∧ final.pend 1 ≤ 1 ∧
    Graph.Inv exNk ⟨g3.annos, g3.comps, 0⟩ ∧ Graph.Rep exNk ⟨g3.annos, g3.comps, 0⟩ m3 ∧
    (done.listNodeAnnos ops (AnnoStore.list false true 0) 1 small small).2 = [(⟨1, 0⟩, 0), (⟨2, 0⟩, 0), (⟨7, 0⟩, 0)] ∧
    (done.listNodeAnnos ops (AnnoStore.list true false 0) 1 small small).2 =
      [(⟨1, 0⟩, 10), (⟨1, 0⟩, 11), (⟨1, 0⟩, 12), (⟨2, 0⟩, 99), (⟨2, 0⟩, 98), (⟨7, 0⟩, 30)] := by
  refine ⟨⟨OMap.sorted_nil, OMap.sorted_nil, fun _ => rfl, fun n d g h => by cases h⟩, safe, rfl, by decide +kernel, ?_, by decide +kernel,
    g3_rep.1, g3_rep.2, by decide +kernel, by decide +kernel⟩
  rintro ⟨p, h1, h2⟩
  have e : (Store.cacheGet done.cache 1) = none := by decide +kernel
  rw [e] at h1
  cases h1

/-- The most frequent type of a node comes first, so it is the one that is listed. -/
theorem C110_most_frequent_nonvacuous :
    g3.annos.allValues ⟨2, 0⟩ true = [99, 98] ∧ g3.annos.annotationKeys = [⟨1, 0⟩, ⟨2, 0⟩, ⟨7, 0⟩] := by
  refine ⟨?_, by decide +kernel⟩
  obtain ⟨k, hk⟩ : ∃ k, g3.annos.keys.getSymbol ⟨2, 0⟩ = some k := ⟨1, by decide +kernel⟩
  have hk1 : k = 1 := by
    have : g3.annos.keys.getSymbol ⟨2, 0⟩ = some 1 := by decide +kernel
    rw [hk] at this
    simpa using this
  subst hk1
  cases hb : g3.annos.byAnno.get 1 with
  | none =>
    have : (g3.annos.byAnno.get 1).isSome = true := by decide +kernel
    rw [hb] at this
    cases this
  | some vm =>
    have hc : (g3.annos.byAnno.get 1).map (fun vm => vm.filterMap fun p => (g3.annos.vals.getValue p.1).map fun v => (p.2.length, v)) =
        some [(2, 99), (1, 98)] := by decide +kernel
    rw [hb] at hc
    have hc : (vm.filterMap fun p => (g3.annos.vals.getValue p.1).map fun v => (toLex (p.2.length, v) : Nat ×ₗ Nat)) =
        [toLex (2, 99), toLex (1, 98)] := Option.some.inj hc
    unfold AnnoStore.allValues
    simp only [hk, hb, if_true, hc]
    have h1 : ¬ ((toLex (2, 99) : Nat ×ₗ Nat) ≤ toLex (1, 98)) := by decide
    simp [List.mergeSort, List.MergeSort.Internal.splitInTwo, List.merge, h1]

/-- The label of the edge in the component 5; there is no component 6. -/
theorem C110_edges_nonvacuous :
    ((g3.comps.get 5).map fun k => k.annos.list true false 0) = some [(⟨8, 0⟩, 40)] ∧ g3.comps.get 6 = none ∧ 
    (done.listEdgeAnnos ops (fun k => k.annos.list true false 0) 1 5 small small).2 = [(⟨8, 0⟩, 40)] ∧
    (done.listEdgeAnnos ops (fun k => k.annos.list true false 0) 1 6 small small).2 = [] ∧
    ∀ k, g3.comps.get 5 = some k → k.annos.Inv := by
  refine ⟨by decide +kernel, rfl, by decide +kernel, by decide +kernel, fun k hk => ?_⟩
  have := g3_rep.1.ci 5
  simp only [Graph.comp, hk, Option.getD_some] at this
  exact this.anno

/-- All updates are written back: the components and the effect of the filters. -/
theorem C110_components_nonvacuous :
    final.pend 1 = 0 ∧ (done.listComponents (fun c => c % 2) id 1 none none).2 = [5] ∧
    (done.listComponents (fun c => c % 2) id 1 (some 1) (some 5)).2 = [5] ∧ (done.listComponents (fun c => c % 2) id 1 (some 0) none).2 = [] ∧
    (done.listComponents (fun c => c % 2) id 1 none (some 4)).2 = [] := by decide +kernel

/-- A crash after the write of the graph has begun: the backup folder with the component 5 is read, not the unfinished one; and a folder
with a log, whose update is not in the list yet. -/
theorem C110_opened_nonvacuous :
    let d : Disk (AnnoStore NodeID64 Nat Nat) Nat (Adj NodeID64 Nat Nat) (List (Nat × ExEvent)) :=
      (saved g3).exec [.renameToBackup, .mkdir .current]
    let e : Disk (AnnoStore NodeID64 Nat Nat) Nat (Adj NodeID64 Nat Nat) (List (Nat × ExEvent)) := (saved g0).exec [.putLog u3]
    let s : St := Store.opened [(1, d), (2, e)]
    (openSteps ops.apply d).isSome = true ∧ (openSteps ops.apply e).isSome = true ∧
    (s.listComponents id id 1 none none).2 = [5] ∧ (s.listComponents id id 2 none none).2 = [] := by decide +kernel

/-- C110 fails: after an update that is acknowledged and visible to queries, but not yet written back by the background writer, the new
component is not listed. -/
theorem C110_components_fails :
    let s := (Store.run ops start (with_ big [.create 1, .update 1 u3])).1
    (s.listComponents id id 1 none none).2 = [] ∧
    (s.step ops big big big (.query 1)).2.comps = some [5] ∧
    ((s.work 0).listComponents id id 1 none none).2 = [5] := by decide +kernel

/-- C110 fails: a corpus that can not be loaded has no annotations, without any error. -/
theorem C110_unreadable_fails :
    let broken : Disk (AnnoStore NodeID64 Nat Nat) Nat (Adj NodeID64 Nat Nat) (List (Nat × ExEvent)) :=
      (saved g3).exec [.beginAnnos .current]
    let s : St := Store.opened [(1, broken)]
    (s.listNodeAnnos ops (AnnoStore.list true false 0) 1 big big).2 = [] ∧
    isErr .openFailed (s.step ops big big big (.query 1)).2 = true ∧
    ((Store.opened [(1, saved g3)] : St).listNodeAnnos ops (AnnoStore.list true false 0) 1 big big).2.length = 6 := by decide +kernel

/-- C110 fails: a corpus that does not exist has empty lists, without any error, and after asking for a list it can not be created. -/
theorem C110_unknown_fails :
    (start.listComponents id id 1 none none).2 = [] ∧
    isBool false ((start.listComponents id id 1 none none).1.step ops big big big (.create 1)).2 = true ∧
    isBool true (start.step ops big big big (.create 1)).2 = true := by decide +kernel

/-- C110 fails for a storage on disk: two items have the value 97, but 98 is listed as the most frequent one. -/
theorem C110_disk_fails :
    let s : DiskAnno NodeID64 Nat := DiskAnno.run 10000 [.insert 1 (AnnoKey.mk 1 2) [97], .insert 2 (AnnoKey.mk 1 2) [97],
      .insert 3 (AnnoKey.mk 1 2) [98]]
    s.list true true = [(AnnoKey.mk 1 2, [98])] ∧ s.getValue 1 (AnnoKey.mk 1 2) = some [97] ∧ s.getValue 2 (AnnoKey.mk 1 2) = some [97] := by
  intro s
  refine ⟨?_, by decide⟩
  have h := DiskAnno.C05_disk_most_frequent_first_fails.1
  have hk : s.annotationKeys = [AnnoKey.mk 1 2] := by decide
  unfold DiskAnno.list listAnnos
  rw [hk]
  simp only [List.flatMap_cons, List.flatMap_nil, if_true, List.append_nil]
  rw [h]

/-- The history `DiskAnno.demo` (`DiskAnno.demo_clean` and the example after it show two of the hypotheses) and its lists. -/
theorem C110_disk_nonvacuous : DiskAnno.Plain (DiskAnno.spec DiskAnno.demo) ∧ DiskAnno.demo.length < 256 ^ 8 ∧
    (DiskAnno.run 10000 DiskAnno.demo).list true false = [(AnnoKey.mk 1 2, [98]), (AnnoKey.mk 1 2, [99])] ∧
    (DiskAnno.run 10000 DiskAnno.demo).list false false = [(AnnoKey.mk 1 2, [])] := by
  refine ⟨?_, by decide, by decide +kernel, by decide +kernel⟩
  intro t k v h
  have : (t = 1 ∨ t = 2) ∧ (v = [98] ∨ v = [99]) := by
    simp only [DiskAnno.demo, DiskAnno.spec, AnnoStore.spec, List.foldl_cons, List.foldl_nil, AnnoStore.specStep] at h
    split_ifs at h with h1 h2 h3
    · exact ⟨.inl h1.1, .inr (Option.some.inj h).symm⟩
    · exact ⟨.inr (by simp_all), .inl (Option.some.inj h).symm⟩
  obtain ⟨rfl | rfl, rfl | rfl⟩ := this <;> exact ⟨by unfold NoNul; decide, by decide, by decide⟩

end Listing.Ex
