import Verif.Single.Lemmas
import Verif.Linear.Props

/-!
# C17 and C59: storages with one successor per node

C17: copying keeps every edge and edge annotation.  C59: reachability, distance and connection queries on the copy.
-/

set_option linter.unusedSimpArgs false
set_option linter.unusedSectionVars false

variable {S W : Type} [LinearOrder S] [OrderBot S] [LinearOrder W]
variable {o : Source NodeID64 S W} {E : NodeID64 → NodeID64 → Prop} {A : NodeID64 → NodeID64 → AnnoKey S → Option W}

namespace Dense

section
variable (h : o.Is E A) (hf : Walk.Functional E) (l : NodeID64) (hl : ∀ a b, E a b → a ≤ l) (g0 : Dense S W)
include h hf hl

/-- C17: copying into the dense storage does not panic and keeps exactly the edges (in both directions), the source nodes
and the edge annotations. -/
theorem C17_dense : ∃ g, copy (some l) g0 o = some g ∧
    (∀ n, (g.out n).Nodup ∧ ∀ b, b ∈ g.out n ↔ E n b) ∧ (∀ n, (g.inn n).Nodup ∧ ∀ b, b ∈ g.inn n ↔ E b n) ∧
    (∀ n, n ∈ g.sources ↔ ∃ b, E n b) ∧ (∀ a b k, g.annos.getValue (toLex (a, b)) k = A a b k) := by
  obtain ⟨g, hg, hr⟩ := copy_rep h hf l hl g0
  refine ⟨g, hg, fun n => ⟨?_, hr.out n⟩, fun n => ⟨?_, fun b => hr.inn b n⟩, hr.src, hr.val⟩
  · have := hr.outLen n
    cases hx : g.out n with
    | nil => simp
    | cons x r =>
      rw [hx] at this
      cases r with
      | nil => simp
      | cons y r => simp at this
  · exact (hr.asc n).imp (fun hlt => ne_of_lt hlt)

/-- C59: reachability queries on the dense storage. -/
theorem C59_dense_find_connected (n : NodeID64) (min : Nat) (max : Bnd Nat) (hmax : max ≠ .excluded 0) :
    ∃ g, copy (some l) g0 o = some g ∧
    (∃ r, g.findConnected n min max = some r ∧ r.Nodup ∧ ∀ b, b ∈ r ↔ ∃ d, Walk.SimplePath E n b d ∧ Within min max d) ∧
    (∃ r, g.findConnectedInverse n min max = some r ∧ r.Nodup ∧
      ∀ b, b ∈ r ↔ ∃ d, Walk.SimplePath E b n d ∧ Within min max d) := by
  obtain ⟨g, hg, hr⟩ := copy_rep h hf l hl g0
  obtain ⟨m, hm⟩ := DfsQuery.max_some hmax
  refine ⟨g, hg, ⟨_, by unfold findConnected; rw [hm]; rfl, nodup_firstVisits _ _, ?_⟩,
    ⟨_, by unfold findConnectedInverse; rw [hm]; rfl, nodup_firstVisits _ _, ?_⟩⟩
  · intro b
    exact DfsQuery.mem_firstVisits_steps hr.coverOut hr.out false n min m max hm b
  · intro b
    rw [DfsQuery.mem_firstVisits_steps (E := fun x y => E y x) hr.coverInn (fun x y => hr.inn y x) true n min m max hm b]
    constructor
    · rintro ⟨d, hp, hw⟩; exact ⟨d, Walk.simplePath_flip.1 hp, hw⟩
    · rintro ⟨d, hp, hw⟩; exact ⟨d, Walk.simplePath_flip.2 hp, hw⟩

/-- C59: distances and connection tests on the dense storage. -/
theorem C59_dense_distance (a b : NodeID64) :
    ∃ g, copy (some l) g0 o = some g ∧ (∀ d, g.distance a b = some d ↔ Walk.SimplePath E a b d) ∧
    ∀ (min : Nat) (max : Bnd Nat), max ≠ .excluded 0 → ∃ r, g.isConnected a b min max = some r ∧
      (r = true ↔ ∃ d, Walk.SimplePath E a b d ∧ Within min max d) := by
  obtain ⟨g, hg, hr⟩ := copy_rep h hf l hl g0
  refine ⟨g, hg, ?_, ?_⟩
  · intro d
    have hq := DfsQuery.find_steps hr.coverOut hr.out false a b
    constructor
    · exact hq.2 d
    · intro hd
      cases hx : g.distance a b with
      | none => exact absurd ⟨d, hd⟩ (hq.1.1 hx)
      | some e => rw [Walk.simplePath_functional hf (hq.2 e hx) hd]
  · intro min max hmax
    obtain ⟨m, hm⟩ := DfsQuery.max_some hmax
    refine ⟨_, by unfold isConnected; rw [hm]; rfl, ?_⟩
    exact DfsQuery.any_steps hr.coverOut hr.out false a b min m max hm

end

/-- A component with one successor per node that is not a chain: `1 → 3`, `2 → 3`, `3 → 4`, `6 → 5`. -/
def demo : List (Adj.Op NodeID64 Nat Nat) :=
  [.addEdge 1 3, .addEdge 2 3, .addEdge 3 4, .addEdge 6 5, .addAnno 2 3 ⟨1, 2⟩ 7]

theorem demo_edge (a b : NodeID64) : (Adj.spec demo).edge a b = true ↔
    (a = 1 ∧ b = 3) ∨ (a = 2 ∧ b = 3) ∨ (a = 3 ∧ b = 4) ∨ (a = 6 ∧ b = 5) := by
  simp only [demo, Adj.spec, List.foldl_cons, List.foldl_nil, Adj.specStep]
  by_cases h1 : a = 6 ∧ b = 5
  · obtain ⟨rfl, rfl⟩ := h1; decide
  · by_cases h2 : a = 3 ∧ b = 4
    · obtain ⟨rfl, rfl⟩ := h2; decide
    · by_cases h3 : a = 2 ∧ b = 3
      · obtain ⟨rfl, rfl⟩ := h3; decide
      · by_cases h4 : a = 1 ∧ b = 3
        · obtain ⟨rfl, rfl⟩ := h4; decide
        · have e1 : ¬(a = 6 ∧ b = 5 ∧ (6 : NodeID64) ≠ 5) := by tauto
          have e2 : ¬(a = 3 ∧ b = 4 ∧ (3 : NodeID64) ≠ 4) := by tauto
          have e3 : ¬(a = 2 ∧ b = 3 ∧ (2 : NodeID64) ≠ 3) := by tauto
          have e4 : ¬(a = 1 ∧ b = 3 ∧ (1 : NodeID64) ≠ 3) := by tauto
          simp only [e1, e2, e3, e4, if_false, Bool.false_eq_true, h1, h2, h3, h4, or_self]

theorem demo_functional : Walk.Functional (fun a b => (Adj.spec demo).edge a b = true) := by
  intro x y z h1 h2
  rw [demo_edge] at h1 h2
  rcases h1 with ⟨rfl, rfl⟩ | ⟨rfl, rfl⟩ | ⟨rfl, rfl⟩ | ⟨rfl, rfl⟩ <;>
  rcases h2 with ⟨h, rfl⟩ | ⟨h, rfl⟩ | ⟨h, rfl⟩ | ⟨h, rfl⟩ <;> first | rfl | exact absurd h (by decide)

/-- The hypotheses of the C17 and C59 theorems hold for the demo component. -/
example : ∃ g, copy (some 6) new (Adj.run demo).asSource = some g ∧ (∀ b, b ∈ g.inn 3 ↔ (Adj.spec demo).edge b 3 = true) := by
  obtain ⟨g, h1, _, h2, _⟩ := C17_dense (Adj.asSource_is demo) demo_functional 6 (by
    intro a b hab
    rw [demo_edge] at hab
    rcases hab with ⟨rfl, rfl⟩ | ⟨rfl, rfl⟩ | ⟨rfl, rfl⟩ | ⟨rfl, rfl⟩ <;> decide) new
  exact ⟨g, h1, (h2 3).2⟩

/-- The expected result is not trivial: the copy of the demo component answers as in the code's own tests. -/
example : (copy (some 6) new (Adj.run demo).asSource).map (fun g => (g.out 1, g.inn 3, g.distance 1 4,
    g.findConnected 2 1 .unbounded, g.annos.getValue (toLex (2, 3)) ⟨1, 2⟩)) =
    some ([3], [1, 2], some 2, some [3, 4], some 7) := by rfl

/-- The fan-out restriction is needed: with two successors one edge is lost. -/
theorem C17_dense_two_successors_fails :
    (copy (some 3) new (Adj.run ([.addEdge 1 2, .addEdge 1 3] : List (Adj.Op NodeID64 Nat Nat))).asSource).map
      (fun g => g.out 1) = some [2] := by decide

/-- The bound of the sources is needed: a source above the largest annotated node is a panic. -/
theorem C17_dense_unannotated_source_fails :
    (copy (some 3) new (Adj.run ([.addEdge 4 2] : List (Adj.Op NodeID64 Nat Nat))).asSource).isNone = true := by decide

end Dense

namespace DiskPath

theorem simple_zero (E : NodeID64 → NodeID64 → Prop) (n : NodeID64) : Walk.SimplePath E n n 0 :=
  ⟨[n], ⟨rfl, rfl, by simp⟩, by simp, rfl⟩

theorem position_some {l : List NodeID64} {t : NodeID64} : ∀ {i : Nat}, l.Nodup →
    (position t l = some i ↔ l[i]? = some t) := by
  induction l with
  | nil => intro i _; simp [position]
  | cons x r ih =>
    intro i hn
    rw [List.nodup_cons] at hn
    unfold position
    by_cases hx : x = t
    · subst hx
      rw [if_pos rfl]
      cases i with
      | zero => simp
      | succ i =>
        simp only [Option.some.injEq, Nat.zero_ne_add_one, List.getElem?_cons_succ, false_iff]
        intro hc
        exact hn.1 (List.mem_of_getElem? hc)
    · rw [if_neg hx, Option.map_eq_some_iff]
      cases i with
      | zero => simp [hx]
      | succ i =>
        simp only [Nat.add_right_cancel_iff, exists_eq_right, List.getElem?_cons_succ]
        exact ih hn.2

section
variable (h : o.Is E A) (hf : Walk.Functional E)
include h hf

/-- C17: copying into a new path storage keeps exactly the edges, the source nodes and the edge annotations.  Partial: an
edge whose source has the largest possible node ID is missing from the ingoing edges. -/
theorem C17_path_partial :
    (∀ n, ∃ l, (copy (new : DiskPath S W) o).out n = some l ∧ l.Nodup ∧ ∀ b, b ∈ l ↔ E n b) ∧
    (∀ n, ((copy (new : DiskPath S W) o).inn n).Nodup ∧
      ∀ b, b ∈ (copy (new : DiskPath S W) o).inn n ↔ E b n ∧ b.val < usizeMax) ∧
    (∃ l, (copy (new : DiskPath S W) o).sources = some l ∧ ∀ n, n ∈ l ↔ ∃ b, E n b) ∧
    (∀ a b k, (copy (new : DiskPath S W) o).annos.getValue (toLex (a, b)) k = A a b k) := by
  have hr := copy_rep h hf
  exact ⟨hr.out, fun n => ⟨hr.innNodup n, fun b => hr.inn b n⟩, hr.src, hr.val⟩

/-- C59: `find_connected` on the path storage, for components where no path is longer than an entry. -/
theorem C59_path_find_connected (hd : ∀ a b d, Walk.SimplePath E a b d → d ≤ pathMaxDepth) (n : NodeID64) (min : Nat)
    (max : Bnd Nat) (hmax : max ≠ .excluded 0) :
    ∃ l, (copy (new : DiskPath S W) o).findConnected n min max = some l ∧ l.Nodup ∧
      ∀ b, b ∈ l ↔ ∃ d, Walk.SimplePath E n b d ∧ Within min max d := by
  have hr := copy_rep h hf
  have hbound : ∀ i b, (pathOf o n)[i]? = some b →
      ((i < stop max (pathOf o n).length) ↔ Within 0 max (i + 1)) := by
    intro i b hib
    have hlt := (List.getElem?_eq_some_iff.1 hib).1
    unfold Within
    cases max with
    | unbounded =>
      simp only [Nat.zero_le, and_self, iff_true]
      show i < (pathOf o n).length
      omega
    | included m =>
      simp only [Nat.zero_le, true_and]
      show i < Min.min m (pathOf o n).length ↔ _
      omega
    | excluded m =>
      have : m ≠ 0 := fun e => hmax (by rw [e])
      simp only [Nat.zero_le, true_and]
      show i < Min.min (m - 1) (pathOf o n).length ↔ _
      omega
  have hzero : Within 0 max 0 := by
    unfold Within
    cases max with
    | unbounded => simp
    | included m => simp
    | excluded m =>
      have : m ≠ 0 := fun e => hmax (by rw [e])
      simp only [Nat.zero_le, true_and]
      omega
  have hwm : ∀ d, Within min max d ↔ min ≤ d ∧ Within 0 max d := by
    intro d; unfold Within; simp
  have hnotself : n ∉ pathOf o n := by
    intro hm
    obtain ⟨i, hi⟩ := List.mem_iff_getElem?.1 hm
    have := Walk.simplePath_functional hf ((steps_get h hf n i n).1 hi).1 (simple_zero _ _)
    omega
  set e := stop max (pathOf o n).length with he
  have hslice : ∀ b, b ∈ (if min - 1 < e then ((pathOf o n).take e).drop (min - 1) else []) ↔
      ∃ i, min - 1 ≤ i ∧ i < e ∧ (pathOf o n)[i]? = some b := by
    intro b
    split
    · exact mem_slice _ _ _ _
    · rename_i hc
      simp only [List.not_mem_nil, false_iff]
      rintro ⟨i, h1, h2, _⟩
      omega
  refine ⟨(if min = 0 then [n] else []) ++ (if min - 1 < e then ((pathOf o n).take e).drop (min - 1) else []), ?_, ?_, ?_⟩
  · unfold findConnected
    rw [hr.pathFor n]
    rfl
  · rw [List.nodup_append]
    refine ⟨by split <;> simp, ?_, ?_⟩
    · split
      · exact ((path_nodup h hf n).sublist (List.take_sublist _ _)).sublist (List.drop_sublist _ _)
      · simp
    · intro x hx y hy
      have hxn : x = n := by
        split at hx
        · simpa using hx
        · simp at hx
      obtain ⟨i, _, _, hi⟩ := (hslice y).1 hy
      rintro rfl
      subst hxn
      exact hnotself (List.mem_of_getElem? hi)
  · intro b
    rw [List.mem_append, hslice]
    constructor
    · rintro (hb | ⟨i, h1, h2, h3⟩)
      · split at hb
        · rename_i hm
          rw [List.mem_singleton] at hb
          subst hb
          exact ⟨0, (simple_zero _ _), (hwm 0).2 ⟨by omega, hzero⟩⟩
        · simp at hb
      · exact ⟨i + 1, ((steps_get h hf n i b).1 h3).1, (hwm _).2 ⟨by omega, (hbound i b h3).1 h2⟩⟩
    · rintro ⟨d, hp, hw⟩
      rw [hwm] at hw
      cases d with
      | zero =>
        have hm : min = 0 := by omega
        left
        rw [if_pos hm, List.mem_singleton]
        exact (Walk.walkLen_zero.1 hp.walk).symm
      | succ i =>
        right
        have hi := (steps_get h hf n i b).2 ⟨hp, hd _ _ _ hp⟩
        exact ⟨i, by omega, (hbound i b hi).2 hw.2, hi⟩

/-- C59: `find_connected_inverse` on the path storage, if the largest possible node ID is not a source. -/
theorem C59_path_find_connected_inverse (hs : ∀ a b, E a b → a.val < usizeMax) (n : NodeID64) (min : Nat) (max : Bnd Nat)
    (hmax : max ≠ .excluded 0) :
    ∃ l, (copy (new : DiskPath S W) o).findConnectedInverse n min max = some l ∧ l.Nodup ∧
      ∀ b, b ∈ l ↔ ∃ d, Walk.SimplePath E b n d ∧ Within min max d := by
  have hr := copy_rep h hf
  obtain ⟨m, hm⟩ := DfsQuery.max_some hmax
  refine ⟨_, by unfold findConnectedInverse; rw [hm]; rfl, nodup_firstVisits _ _, ?_⟩
  intro b
  rw [DfsQuery.mem_firstVisits_steps (E := fun x y => E y x) hr.coverInn (fun x y => by
    rw [hr.inn y x]; exact ⟨fun hx => hx.1, fun hx => ⟨hx, hs _ _ hx⟩⟩) true n min m max hm b]
  constructor
  · rintro ⟨d, hp, hw⟩; exact ⟨d, Walk.simplePath_flip.1 hp, hw⟩
  · rintro ⟨d, hp, hw⟩; exact ⟨d, Walk.simplePath_flip.2 hp, hw⟩

/-- C59: distances on the path storage.  Partial: source and target must differ, otherwise the answer is missing
(`C59_path_self_distance_fails`). -/
theorem C59_path_distance_partial (hd : ∀ a b d, Walk.SimplePath E a b d → d ≤ pathMaxDepth) (a b : NodeID64)
    (hab : a ≠ b) :
    ∃ r, (copy (new : DiskPath S W) o).distance a b = some r ∧ ∀ d, r = some d ↔ Walk.SimplePath E a b d := by
  have hr := copy_rep h hf
  refine ⟨_, by unfold distance; rw [hr.pathFor a]; rfl, ?_⟩
  intro d
  rw [Option.map_eq_some_iff]
  constructor
  · rintro ⟨i, hi, rfl⟩
    exact ((steps_get h hf a i b).1 ((position_some (path_nodup h hf a)).1 hi)).1
  · intro hp
    cases d with
    | zero => exact absurd (Walk.walkLen_zero.1 hp.walk) hab
    | succ i => exact ⟨i, (position_some (path_nodup h hf a)).2 ((steps_get h hf a i b).2 ⟨hp, hd _ _ _ hp⟩), rfl⟩

/-- C59: connection tests on the path storage.  Partial: not for a test that allows distance zero between a node and
itself (`C59_path_self_connected_fails`). -/
theorem C59_path_is_connected_partial (hd : ∀ a b d, Walk.SimplePath E a b d → d ≤ pathMaxDepth) (a b : NodeID64)
    (min : Nat) (max : Bnd Nat) (hmax : max ≠ .excluded 0) (hab : a ≠ b ∨ 1 ≤ min) :
    ∃ r, (copy (new : DiskPath S W) o).isConnected a b min max = some r ∧
      (r = true ↔ ∃ d, Walk.SimplePath E a b d ∧ Within min max d) := by
  have hr := copy_rep h hf
  refine ⟨_, by unfold isConnected; rw [hr.pathFor a]; rfl, ?_⟩
  simp only [List.any_eq_true, decide_eq_true_eq, exists_eq_right, mem_slice]
  constructor
  · rintro ⟨i, h1, h2, h3⟩
    refine ⟨i + 1, ((steps_get h hf a i b).1 h3).1, ?_⟩
    have hlt := (List.getElem?_eq_some_iff.1 h3).1
    have h1' : Min.min (min - 1) (pathOf o a).length ≤ i := h1
    unfold Within
    cases max with
    | unbounded => exact ⟨by omega, trivial⟩
    | included m =>
      have h2' : i < Min.min m (pathOf o a).length := h2
      exact ⟨by omega, by simp only; omega⟩
    | excluded m =>
      have h2' : i < Min.min (m - 1) (pathOf o a).length := h2
      exact ⟨by omega, by simp only; omega⟩
  · rintro ⟨d, hp, hw⟩
    cases d with
    | zero =>
      have h0 := Walk.walkLen_zero.1 hp.walk
      have := hw.1
      rcases hab with hab | hab
      · exact absurd h0 hab
      · omega
    | succ i =>
      have hi := (steps_get h hf a i b).2 ⟨hp, hd _ _ _ hp⟩
      have hlt := (List.getElem?_eq_some_iff.1 hi).1
      refine ⟨i, ?_, ?_, hi⟩
      · show Min.min (min - 1) (pathOf o a).length ≤ i
        have := hw.1
        omega
      · unfold Within at hw
        cases max with
        | unbounded =>
          show i < (pathOf o a).length
          omega
        | included m =>
          have := hw.2
          simp only at this
          show i < Min.min m (pathOf o a).length
          omega
        | excluded m =>
          have := hw.2
          simp only at this
          show i < Min.min (m - 1) (pathOf o a).length
          omega

end

/-- The demo component as path storage. -/
def demoCopy : DiskPath Nat Nat := copy new (Adj.run Dense.demo).asSource

/-- The hypotheses of the C17 and C59 theorems hold for the demo component. -/
example : ∃ l, demoCopy.findConnected 1 0 (.included 2) = some l ∧ l.Nodup ∧
    ∀ b, b ∈ l ↔ ∃ d, Walk.SimplePath (fun a b => (Adj.spec Dense.demo).edge a b = true) 1 b d ∧
      Within 0 (.included 2) d := by
  refine C59_path_find_connected (Adj.asSource_is Dense.demo) Dense.demo_functional ?_ 1 0 (.included 2) (by simp)
  intro a b d hp
  have hac : Walk.Acyclic (fun a b => (Adj.spec Dense.demo).edge a b = true) := by
    have hE2 : ∀ a b, (Adj.spec Dense.demo).edge a b = true → (if a = 6 then 0 else a.val) < (if b = 6 then 0 else b.val) := by
      intro a b hab
      rw [Dense.demo_edge] at hab
      rcases hab with ⟨rfl, rfl⟩ | ⟨rfl, rfl⟩ | ⟨rfl, rfl⟩ | ⟨rfl, rfl⟩ <;> decide
    have hlt : ∀ a b, Relation.TransGen (fun a b => (Adj.spec Dense.demo).edge a b = true) a b →
        (if a = 6 then 0 else a.val) < (if b = 6 then 0 else b.val) := by
      intro a b hab
      induction hab with
      | single h => exact hE2 _ _ h
      | tail _ h ih => exact lt_trans ih (hE2 _ _ h)
    intro a ha
    exact lt_irrefl _ (hlt a a ha)
  have h1 := Walk.walk_le hac (Adj.asSource_is Dense.demo).covers hp.walk
  have h2 : (Adj.run Dense.demo).asSource.nodes.length = 4 := by decide
  simp only [pathMaxDepth]
  omega

example : demoCopy.findConnected 1 0 (.included 2) = some [1, 3, 4] ∧ demoCopy.inn 3 = [1, 2] ∧
    demoCopy.distance 2 4 = some (some 2) ∧ demoCopy.isConnected 2 4 1 (.included 1) = some false := by decide

/-- C59 fails for the distance of a node to itself: the path storage knows no distance, other storages answer 0. -/
theorem C59_path_self_distance_fails : demoCopy.distance 1 1 = some none ∧
    (Adj.run Dense.demo).distance 1 1 = some 0 := by decide

/-- C59 fails for testing the connection of a node to itself with distance 0. -/
theorem C59_path_self_connected_fails : demoCopy.isConnected 1 1 0 .unbounded = some false ∧
    (Adj.run Dense.demo).isConnected 1 1 0 .unbounded = some true := by decide

/-- C59 fails for an empty range: no distance is below 0, but the node itself is returned. -/
theorem C59_path_empty_range_fails : demoCopy.findConnected 1 0 (.excluded 0) = some [1] := by decide

/-- C17 fails for the ingoing edges of the largest possible node ID. -/
theorem C17_path_largest_source_fails :
    ∃ m : NodeID64, ∃ g : DiskPath Nat Nat, g.inverse = [(toLex (1, m), true)] ∧ g.inn 1 = [] := by
  refine ⟨⟨256 ^ 8 - 1, by decide⟩, ⟨[], [(toLex (1, ⟨256 ^ 8 - 1, by decide⟩), true)], AnnoStore.new⟩, rfl, ?_⟩
  decide

/-- C17 fails when a path storage is filled twice: the annotations of the first copy stay. -/
theorem C17_path_second_copy_fails :
    (copy demoCopy (Adj.run ([.addEdge 2 3] : List (Adj.Op NodeID64 Nat Nat))).asSource).annos.getValue (toLex (2, 3))
      ⟨1, 2⟩ = some 7 := by decide

/-- Queries on a path storage that was never filled are an arithmetic underflow. -/
theorem C59_path_empty_storage_fails : (new : DiskPath Nat Nat).out 1 = none ∧
    (new : DiskPath Nat Nat).distance 1 2 = none := by decide

end DiskPath
