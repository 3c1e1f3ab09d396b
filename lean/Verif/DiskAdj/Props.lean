import Verif.DiskAdj.Lemmas
import Verif.Adj.Copy

/-!
# C60: the disk adjacency storage behaves like the graph given by its operations
-/

set_option linter.unusedSimpArgs false
set_option linter.unusedSectionVars false

namespace DiskAdj

variable {S W : Type} [LinearOrder S] [OrderBot S] [LinearOrder W]

/-- The client operations are the same as for the adjacency list storage. -/
def step (g : DiskAdj S W) : Adj.Op NodeID64 S W → DiskAdj S W
  | .addEdge a b => g.addEdge a b
  | .addAnno a b key val => g.addAnno a b key val
  | .deleteEdge a b => g.deleteEdge a b
  | .deleteAnno a b key => g.deleteAnno a b key
  | .deleteNode n => g.deleteNode n
  | .clear => g.clear

def run (ops : List (Adj.Op NodeID64 S W)) : DiskAdj S W := ops.foldl step new

/-- The operation does not add an edge at the largest possible node ID. -/
def Small : Adj.Op NodeID64 S W → Prop
  | .addEdge a b => a.val < usizeMax ∧ b.val < usizeMax
  | _ => True

/-- The state represents the abstract graph. -/
def Rep (g : DiskAdj S W) (m : Adj.Spec NodeID64 S W) : Prop :=
  (∀ a b, (g.edges.get (toLex (a, b))).isSome ↔ m.edge a b = true) ∧
    ∀ a b key, g.annos.getValue (toLex (a, b)) key = m.anno a b key

theorem step_refines {g : DiskAdj S W} {m : Adj.Spec NodeID64 S W} (h : Inv g) (hr : Rep g m) (op : Adj.Op NodeID64 S W)
    (hs : Small op) : Inv (g.step op) ∧ Rep (g.step op) (Adj.specStep m op) := by
  obtain ⟨r1, r2⟩ := hr
  cases op with
  | addEdge a b =>
    refine ⟨h.addEdge a b hs.1 hs.2, ?_, ?_⟩
    · intro x y
      simp only [step, Adj.specStep]
      rw [edge_addEdge, r1]
      by_cases hc : x = a ∧ y = b ∧ a ≠ b
      · simp [hc]
      · simp [hc]
    · intro x y k
      simp only [step, Adj.specStep, annos_addEdge, r2]
  | addAnno a b key val =>
    refine ⟨h.addAnno a b key val, ?_, ?_⟩
    · intro x y
      simp only [step, Adj.specStep]
      rw [edges_addAnno]; exact r1 x y
    · intro x y k
      simp only [step, Adj.specStep]
      rw [getValue_addAnno h, r2]
      simp only [r1]
  | deleteEdge a b =>
    refine ⟨h.deleteEdge a b, ?_, ?_⟩
    · intro x y
      simp only [step, Adj.specStep]
      rw [edge_deleteEdge h, r1]
      by_cases hc : x = a ∧ y = b <;> simp [hc]
    · intro x y k
      simp only [step, Adj.specStep]
      rw [getValue_deleteEdge h, r2]
  | deleteAnno a b key =>
    refine ⟨h.deleteAnno a b key, fun x y => r1 x y, ?_⟩
    intro x y k
    simp only [step, Adj.specStep, deleteAnno]
    rw [(AnnoStore.removeAnno_spec h.anno _ _).2.2, r2]
    simp only [toLex_inj, Prod.mk.injEq, and_assoc]
  | deleteNode n =>
    obtain ⟨i1, i2, i3⟩ := deleteNode_spec h n
    refine ⟨i1, ?_, ?_⟩
    · intro x y
      simp only [step, Adj.specStep]
      rw [i2, r1]
      by_cases h1 : x = n <;> by_cases h2 : y = n <;> simp [h1, h2]
    · intro x y k
      simp only [step, Adj.specStep]
      rw [i3, r2]
  | clear =>
    refine ⟨Inv.clear g, ?_, ?_⟩
    · intro x y; simp [step, Adj.specStep, clear]
    · intro x y k; simp only [step, Adj.specStep, clear, Adj.getValue_clear]

theorem foldl_refines (ops : List (Adj.Op NodeID64 S W)) : ∀ (g : DiskAdj S W) (m : Adj.Spec NodeID64 S W),
    (∀ op ∈ ops, Small op) → Inv g → Rep g m → Inv (ops.foldl step g) ∧ Rep (ops.foldl step g) (ops.foldl Adj.specStep m) := by
  induction ops with
  | nil => intro g m _ h hr; exact ⟨h, hr⟩
  | cons op ops ih =>
    intro g m hs h hr
    obtain ⟨a, b⟩ := step_refines h hr op (hs op (by simp))
    exact ih _ _ (fun x hx => hs x (by simp [hx])) a b

theorem run_refines (ops : List (Adj.Op NodeID64 S W)) (hs : ∀ op ∈ ops, Small op) :
    Inv (run ops) ∧ Rep (run ops) (Adj.spec ops) := by
  refine foldl_refines ops _ _ hs Inv.new ⟨?_, ?_⟩
  · intro a b; simp [new]
  · intro a b key; simp [new, AnnoStore.new, AnnoStore.getValue, SymbolTable.new, SymbolTable.getSymbol]

section
variable (ops : List (Adj.Op NodeID64 S W)) (hs : ∀ op ∈ ops, Small op)
include hs

theorem out_iff (a b : NodeID64) : b ∈ (run ops).out a ↔ (Adj.spec ops).edge a b = true := by
  obtain ⟨h, r1, _⟩ := run_refines ops hs
  rw [h.mem_out, r1]

theorem inn_iff (a b : NodeID64) : a ∈ (run ops).inn b ↔ (Adj.spec ops).edge a b = true := by
  obtain ⟨h, r1, _⟩ := run_refines ops hs
  rw [h.mem_inn, r1]

/-- C60: both directions of the edges, the source nodes and the edge annotations are those of the specification.  Partial: no
edge may use the largest possible node ID (`C60_largest_node_fails`). -/
theorem C60_edges_in_sync_partial :
    (∀ a b, b ∈ (run ops).out a ↔ (Adj.spec ops).edge a b = true) ∧
    (∀ a b, a ∈ (run ops).inn b ↔ (Adj.spec ops).edge a b = true) ∧
    (∀ a, ((run ops).out a).Nodup ∧ ((run ops).inn a).Nodup) ∧
    (∀ a, (run ops).hasOut a = true ↔ ∃ b, (Adj.spec ops).edge a b = true) ∧
    (∀ a, a ∈ (run ops).sources ↔ ∃ b, (Adj.spec ops).edge a b = true) ∧ (run ops).sources.Nodup ∧
    (∀ a b k, (run ops).annos.getValue (toLex (a, b)) k = (Adj.spec ops).anno a b k) ∧
    (∀ a b k, ((Adj.spec ops).anno a b k).isSome → (Adj.spec ops).edge a b = true) := by
  obtain ⟨h, r1, r2⟩ := run_refines ops hs
  refine ⟨out_iff ops hs, inn_iff ops hs, fun a => ⟨nodup_rangeOf h.es a, nodup_rangeOf h.is a⟩, ?_, ?_,
    nodup_firstVisits _ _, r2, ?_⟩
  · intro a
    simp only [← out_iff ops hs]
    unfold hasOut out
    cases rangeOf (run ops).edges a with
    | nil => simp
    | cons x r => exact ⟨fun _ => ⟨x, by simp⟩, fun _ => rfl⟩
  · intro a
    simp only [← r1]
    unfold sources
    rw [mem_firstVisits]
    simp only [List.not_mem_nil, not_false_eq_true, true_and, List.mem_map, Prod.mk.injEq]
    constructor
    · rintro ⟨d, ⟨k, v⟩, hk, rfl, _⟩
      refine ⟨(ofLex k).2, ?_⟩
      show ((run ops).edges.get k).isSome
      rw [(OMap.mem_iff_get h.es).1 hk]; rfl
    · rintro ⟨b, hb⟩
      obtain ⟨v, hv⟩ := Option.isSome_iff_exists.1 hb
      exact ⟨0, (toLex (a, b), v), OMap.mem_of_get hv, rfl, rfl⟩
  · intro a b k hk
    rw [← r2] at hk
    exact (r1 a b).1 (h.edge a b k hk)

/-- C60: reachability, distance and connection queries. -/
theorem C60_queries_partial (a b : NodeID64) (min : Nat) (max : Bnd Nat) (hmax : max ≠ .excluded 0) :
    (∃ l, (run ops).findConnected a min max = some l ∧ l.Nodup ∧
      ∀ b, b ∈ l ↔ ∃ d, Walk.SimplePath (fun x y => (Adj.spec ops).edge x y = true) a b d ∧ Within min max d) ∧
    (∃ l, (run ops).findConnectedInverse a min max = some l ∧ l.Nodup ∧
      ∀ b, b ∈ l ↔ ∃ d, Walk.SimplePath (fun x y => (Adj.spec ops).edge x y = true) b a d ∧ Within min max d) ∧
    (∃ r, (run ops).isConnected a b min max = some r ∧
      (r = true ↔ ∃ d, Walk.SimplePath (fun x y => (Adj.spec ops).edge x y = true) a b d ∧ Within min max d)) ∧
    ((run ops).distance a b = none ↔ ¬ ∃ d, Walk.SimplePath (fun x y => (Adj.spec ops).edge x y = true) a b d) ∧
    ∀ d, (run ops).distance a b = some d → Walk.SimplePath (fun x y => (Adj.spec ops).edge x y = true) a b d := by
  obtain ⟨m, hm⟩ := DfsQuery.max_some hmax
  have hq := DfsQuery.find_steps (covers_rangeOf (m := (run ops).edges)) (out_iff ops hs) false a b
  refine ⟨⟨_, by unfold findConnected; rw [hm]; rfl, nodup_firstVisits _ _, ?_⟩,
    ⟨_, by unfold findConnectedInverse; rw [hm]; rfl, nodup_firstVisits _ _, ?_⟩,
    ⟨_, by unfold isConnected; rw [hm]; rfl, ?_⟩, hq.1, hq.2⟩
  · intro b
    exact DfsQuery.mem_firstVisits_steps (covers_rangeOf (m := (run ops).edges)) (out_iff ops hs) false a min m max hm b
  · intro b
    rw [DfsQuery.mem_firstVisits_steps (next := (run ops).inn) (E := fun x y => (Adj.spec ops).edge y x = true)
      (covers_rangeOf (m := (run ops).inverse)) (fun x y => inn_iff ops hs y x) true a min m max hm b]
    constructor
    · rintro ⟨d, hp, hw⟩; exact ⟨d, Walk.simplePath_flip.1 hp, hw⟩
    · rintro ⟨d, hp, hw⟩; exact ⟨d, Walk.simplePath_flip.2 hp, hw⟩
  · exact DfsQuery.any_steps (covers_rangeOf (m := (run ops).edges)) (out_iff ops hs) false a b min m max hm

end

/-! ## Copying -/

variable {o : Source NodeID64 S W} {E : NodeID64 → NodeID64 → Prop} {A : NodeID64 → NodeID64 → AnnoKey S → Option W}

theorem copy_eq (g : DiskAdj S W) (o : Source NodeID64 S W) : copy g o = (Adj.copyOps o).foldl step g := by
  unfold copy Adj.copyOps
  rw [List.foldl_cons, List.foldl_flatMap]
  show _ = List.foldl _ g.clear _
  congr 1
  funext g a
  rw [List.foldl_flatMap]
  congr 1
  funext g b
  rw [List.foldl_cons, List.foldl_map]
  rfl

/-- C60: copying a component keeps exactly its edges and annotations, whatever the storage contained before. -/
theorem C60_copy_partial (h : o.Is E A) (hsm : ∀ a b, E a b → a.val < usizeMax ∧ b.val < usizeMax) {g0 : DiskAdj S W}
    (hg0 : Inv g0) :
    Inv (copy g0 o) ∧ (∀ a b, b ∈ (copy g0 o).out a ↔ E a b) ∧ (∀ a b, a ∈ (copy g0 o).inn b ↔ E a b) ∧
    ∀ a b k, (copy g0 o).annos.getValue (toLex (a, b)) k = A a b k := by
  rw [copy_eq]
  obtain ⟨s1, s2⟩ := Adj.spec_copyOps h (⟨fun a b => (g0.edges.get (toLex (a, b))).isSome, fun a b k =>
    g0.annos.getValue (toLex (a, b)) k⟩ : Adj.Spec NodeID64 S W)
  obtain ⟨hi, r1, r2⟩ := foldl_refines (Adj.copyOps o) g0 _ (by
    intro op hop
    unfold Adj.copyOps at hop
    rcases List.mem_cons.1 hop with rfl | hop
    · trivial
    · obtain ⟨a, _, ha⟩ := List.mem_flatMap.1 hop
      obtain ⟨b, hb, hop⟩ := List.mem_flatMap.1 ha
      rcases List.mem_cons.1 hop with rfl | hop
      · exact hsm a b ((h.out_iff a b).1 hb)
      · obtain ⟨kv, _, rfl⟩ := List.mem_map.1 hop
        trivial) hg0 (⟨fun a b => Iff.rfl, fun a b k => rfl⟩ : Rep g0 ⟨fun a b => (g0.edges.get (toLex (a, b))).isSome,
          fun a b k => g0.annos.getValue (toLex (a, b)) k⟩)
  refine ⟨hi, ?_, ?_, ?_⟩
  · intro a b; rw [hi.mem_out, r1, s1]
  · intro a b; rw [hi.mem_inn, r1, s1]
  · intro a b k; rw [r2, s2]

/-! ## Concrete cases -/

/-- A component with a cycle. -/
def demo : List (Adj.Op NodeID64 Nat Nat) :=
  [.addEdge 1 2, .addEdge 2 3, .addEdge 3 1, .addEdge 1 5, .addAnno 1 2 ⟨1, 1⟩ 9, .addEdge 4 4, .addEdge 6 1,
    .deleteNode 6]

theorem demo_small : ∀ op ∈ demo, Small op := by
  intro op hop
  simp only [demo, List.mem_cons, List.not_mem_nil, or_false] at hop
  rcases hop with rfl | rfl | rfl | rfl | rfl | rfl | rfl | rfl <;> simp [Small, usizeMax] <;> decide

example : ∀ a b, b ∈ (run demo).out a ↔ (Adj.spec demo).edge a b = true := (C60_edges_in_sync_partial demo demo_small).1

example : (run demo).out 1 = [2, 5] ∧ (run demo).inn 1 = [3] ∧ (run demo).sources = [1, 2, 3] ∧
    (run demo).annos.getValue (toLex (1, 2)) ⟨1, 1⟩ = some 9 ∧ (run demo).findConnected 2 1 .unbounded = some [3, 1, 5] := by
  decide

/-- C60 fails for the largest node ID: the edge is stored, but never returned, and deleting the node does not delete it. -/
theorem C60_largest_node_fails :
    ((run ([.addEdge 1 18446744073709551615, .deleteNode 1] : List (Adj.Op NodeID64 Nat Nat))).out 1 = []) ∧
    ((run ([.addEdge 1 18446744073709551615, .deleteNode 1] : List (Adj.Op NodeID64 Nat Nat))).inn 18446744073709551615 =
      [1]) := by decide

end DiskAdj
