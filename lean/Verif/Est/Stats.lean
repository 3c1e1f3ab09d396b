import Verif.Registry.Props
import Mathlib.Data.List.Sort

/-!
# The statistics of a component (C89)

The remaining fields of `GraphStatistic` (the others are in `Verif.Registry.Model`).  The component is the result of any sequence of
updates of the writable adjacency list storage.

Property theorems are named `C89_…`; failing witnesses contain `_fails`, restricted statements end in `_partial`.
-/

set_option linter.unusedSectionVars false
set_option linter.unusedSimpArgs false

namespace Adj

/-- `get_fan_outs` (adjacencylist.rs 29-40; disk_adjacency.rs 35-75 counts the same numbers with an iterator): the number of entries for
every key, in ascending order. -/
def fanOuts {N : Type} (m : OMap N (List N)) : List Nat := (m.vals.map List.length).insertionSort (· ≤ ·)

/-- The two percentiles (adjacencylist.rs 410-430). -/
def percentile99 (l : List Nat) : Nat :=
  if 100 ≤ l.length then (l[l.length / 100]?).getD 0 else (l.getLast?).getD 0

variable {N S W : Type} [LinearOrder N] [LinearOrder S] [OrderBot S] [LinearOrder W]

/-- `stats.root_nodes` (adjacencylist.rs 391-399). -/
def statRootNodes (g : Adj N S W) : Nat := g.statRoots.length

/-- `stats.fan_out_99_percentile`, `stats.inverse_fan_out_99_percentile` (adjacencylist.rs 401-430). -/
def statPercentile (g : Adj N S W) : Nat := percentile99 (fanOuts g.edges)
def statInversePercentile (g : Adj N S W) : Nat := percentile99 (fanOuts g.inverse)

/-! ### Specification -/

namespace Spec

/-- No edge was deleted. -/
def noDeletion (ops : List (Op N S W)) : Bool := ops.all fun op =>
  match op with
  | .deleteEdge _ _ => false
  | .deleteNode _ => false
  | _ => true

/-- The list contains exactly the nodes with the property. -/
def Lists (P : N → Prop) (L : List N) : Prop := L.Nodup ∧ ∀ n, n ∈ L ↔ P n

end Spec

variable (ops : List (Op N S W))

/-! ### Numbers of nodes -/

/-- Every key of the edge map has an edge. -/
def Tidy (g : Adj N S W) : Prop := ∀ n ∈ g.edges.keys, g.out n ≠ []

theorem vecInsert_ne_nil (x : N) (l : List N) : vecInsert x l ≠ [] := by
  cases l with
  | nil => simp [vecInsert]
  | cons y r => unfold vecInsert; split <;> (try split) <;> simp

theorem tidy_run (h : Spec.noDeletion ops = true) : Tidy (run ops) := by
  suffices hg : ∀ (ops : List (Op N S W)) (g : Adj N S W), Tidy g → Spec.noDeletion ops = true → Tidy (ops.foldl step g) by
    refine hg ops new ?_ h
    intro n hn
    simp [new, OMap.keys] at hn
  intro ops
  induction ops with
  | nil => intro g hg _; exact hg
  | cons op r ih =>
    intro g hg hn
    simp only [Spec.noDeletion, List.all_cons, Bool.and_eq_true] at hn
    rw [List.foldl_cons]
    refine ih _ ?_ hn.2
    cases op with
    | addEdge a b =>
      show Tidy (g.addEdge a b)
      unfold addEdge
      split
      · intro n hnk
        unfold out
        rw [OMap.mem_keys_iff] at hnk
        rw [OMap.get_insert] at hnk ⊢
        by_cases e : n = a
        · simp [e, vecInsert_ne_nil]
        · simp only [e, if_false] at hnk ⊢
          exact hg n (OMap.mem_keys_iff.2 hnk)
      · exact hg
    | addAnno a b key val =>
      show Tidy (g.addAnno a b key val)
      unfold addAnno
      split
      · split <;> exact hg
      · exact hg
    | deleteEdge a b => simp at hn
    | deleteAnno a b key => exact hg
    | deleteNode n => simp at hn
    | clear =>
      intro n hnk
      simp [step, clear, OMap.keys] at hnk

theorem mem_statNodes (n : N) : n ∈ (run ops).statNodes ↔ n ∈ (run ops).edges.keys ∨ ∃ a, (spec ops).edge a n = true := by
  unfold statNodes
  rw [mem_firstVisits]
  simp only [List.not_mem_nil, not_false_iff, true_and, List.mem_map, Prod.mk.injEq, List.mem_append]
  constructor
  · rintro ⟨d, x, hx, rfl, -⟩
    rcases hx with hx | hx
    · exact Or.inl hx
    · exact Or.inr ((mem_targets ops _).1 hx)
  · rintro (h | h)
    · exact ⟨0, n, Or.inl h, rfl, rfl⟩
    · exact ⟨0, n, Or.inr ((mem_targets ops n).2 h), rfl, rfl⟩

theorem key_of_edge {a b : N} (h : (spec ops).edge a b = true) : a ∈ (run ops).edges.keys := by
  have := ((run_refines ops).2.1 a b).2 h
  unfold out at this
  rw [OMap.mem_keys_iff]
  cases hg : (run ops).edges.get a with
  | none => simp [hg] at this
  | some l => exact ⟨l, rfl⟩

theorem edge_of_key (ht : Tidy (run ops)) {a : N} (h : a ∈ (run ops).edges.keys) : ∃ b, (spec ops).edge a b = true := by
  obtain ⟨b, hb⟩ := List.exists_mem_of_ne_nil _ (ht a h)
  exact ⟨b, ((run_refines ops).2.1 a b).1 hb⟩

/-- C89 (restricted to components from which nothing was deleted): `nodes` is the number of nodes with an edge. -/
theorem C89_nodes_partial (h : Spec.noDeletion ops = true) :
    ∃ L, Spec.Lists (fun n => ∃ m, (spec ops).edge n m = true ∨ (spec ops).edge m n = true) L ∧ (run ops).stats.nodes = L.length := by
  refine ⟨(run ops).statNodes, ⟨nodup_firstVisits _ _, fun n => ?_⟩, rfl⟩
  rw [mem_statNodes]
  constructor
  · rintro (hk | ⟨a, ha⟩)
    · obtain ⟨b, hb⟩ := edge_of_key ops (tidy_run ops h) hk
      exact ⟨b, Or.inl hb⟩
    · exact ⟨a, Or.inr ha⟩
  · rintro ⟨m, hm | hm⟩
    · exact Or.inl (key_of_edge ops hm)
    · exact Or.inr ⟨m, hm⟩

/-- C89: in general `nodes` is never smaller. -/
theorem C89_nodes_lower (L : List N) (hn : L.Nodup) (h : ∀ n ∈ L, ∃ m, (spec ops).edge n m = true ∨ (spec ops).edge m n = true) :
    L.length ≤ (run ops).stats.nodes := by
  apply List.Subperm.length_le
  apply List.subperm_of_subset hn
  intro n hnL
  rw [mem_statNodes]
  obtain ⟨m, hm | hm⟩ := h n hnL
  · exact Or.inl (key_of_edge ops hm)
  · exact Or.inr ⟨m, hm⟩

/-- C89 (restricted to components from which nothing was deleted): `root_nodes` is the number of nodes with an outgoing and without an
ingoing edge. -/
theorem C89_root_nodes_partial (h : Spec.noDeletion ops = true) :
    ∃ L, Spec.Lists (fun n => (∃ m, (spec ops).edge n m = true) ∧ ¬ ∃ m, (spec ops).edge m n = true) L ∧
      (run ops).statRootNodes = L.length := by
  refine ⟨(run ops).statRoots, ⟨statRoots_nodup ops, fun n => ?_⟩, rfl⟩
  constructor
  · intro hn
    refine ⟨?_, statRoot_no_pred ops n hn⟩
    unfold statRoots at hn
    exact edge_of_key ops (tidy_run ops h) (List.mem_filter.1 hn).1
  · rintro ⟨⟨m, hm⟩, h2⟩
    unfold statRoots
    rw [List.mem_filter]
    refine ⟨key_of_edge ops hm, ?_⟩
    simp only [decide_eq_true_eq, mem_targets]
    exact h2

/-- C89: there are never more root nodes than nodes, so the difference used by the estimates does not overflow. -/
theorem C89_root_nodes_le : (run ops).statRootNodes ≤ (run ops).stats.nodes := by
  show (run ops).statRoots.length ≤ (run ops).statNodes.length
  apply List.Subperm.length_le
  apply List.subperm_of_subset (statRoots_nodup ops)
  intro n hn
  rw [mem_statNodes]
  unfold statRoots at hn
  exact Or.inl (List.mem_filter.1 hn).1

/-- C89 fails: after the deletion of the only edge, also by deleting its source node, the source still counts as node and as root. -/
theorem C89_nodes_fails :
    let ops : List (Op Nat Nat Nat) := [.addEdge 1 2, .deleteNode 1]
    (∀ a ∈ [1, 2], ∀ b ∈ [1, 2], (spec ops).edge a b = false) ∧ (run ops).stats.nodes = 1 ∧ (run ops).statRootNodes = 1 := by decide

/-! ### Fan-out -/

/-- C89: `max_fan_out` is the largest number of targets of a node. -/
theorem C89_max_fan_out :
    (∀ a, ((run ops).out a).length ≤ (run ops).stats.maxFanOut) ∧
    ((run ops).stats.maxFanOut = 0 ∨ ∃ a, ((run ops).out a).length = (run ops).stats.maxFanOut) ∧
    (∀ a, ((run ops).out a).Nodup ∧ ∀ b, b ∈ (run ops).out a ↔ (spec ops).edge a b = true) := by
  obtain ⟨h, h1, _⟩ := run_refines ops
  refine ⟨(maxFanOut_iff ops _).1 (Nat.le_refl _), ?_, fun a => ⟨?_, h1 a⟩⟩
  · rcases Nat.eq_zero_or_pos (run ops).stats.maxFanOut with h0 | h0
    · exact Or.inl h0
    · right
      by_contra hc
      have : (run ops).stats.maxFanOut ≤ (run ops).stats.maxFanOut - 1 := by
        rw [maxFanOut_iff]
        intro a
        have hle := (maxFanOut_iff ops _).1 (Nat.le_refl _) a
        have hne : ((run ops).out a).length ≠ (run ops).stats.maxFanOut := fun e => hc ⟨a, e⟩
        omega
      omega
  · exact (h.eo a).imp (fun hlt he => absurd (he ▸ hlt) (lt_irrefl _))

theorem fanOuts_perm (m : OMap N (List N)) : (fanOuts m).Perm (m.vals.map List.length) := List.perm_insertionSort _ _

theorem fanOuts_sorted (m : OMap N (List N)) : (fanOuts m).Pairwise (· ≤ ·) := List.pairwise_insertionSort _ _

/-- C89: what the percentile is for at least 100 keys: at most one percent of the numbers is smaller, and a number at this position
exists. -/
theorem C89_percentile_large (l : List Nat) (hs : l.Pairwise (· ≤ ·)) (hl : 100 ≤ l.length) :
    percentile99 l ∈ l ∧ (l.countP fun x => decide (x < percentile99 l)) * 100 ≤ l.length := by
  have hlt : l.length / 100 < l.length := Nat.div_lt_self (by omega) (by decide)
  have hp : percentile99 l = l[l.length / 100] := by
    unfold percentile99
    rw [if_pos hl, List.getElem?_eq_getElem hlt, Option.getD_some]
  refine ⟨hp ▸ List.getElem_mem _, ?_⟩
  have hcount : (l.countP fun x => decide (x < percentile99 l)) ≤ l.length / 100 := by
    generalize hv : percentile99 l = v at *
    have hsplit : l.countP (fun x => decide (x < v)) = (l.take (l.length / 100)).countP (fun x => decide (x < v)) +
        (l.drop (l.length / 100)).countP (fun x => decide (x < v)) := by
      rw [← List.countP_append, List.take_append_drop]
    rw [hsplit]
    have h2 : (l.drop (l.length / 100)).countP (fun x => decide (x < v)) = 0 := by
      rw [List.countP_eq_zero]
      intro x hx
      simp only [decide_eq_true_eq, not_lt]
      rw [hp]
      obtain ⟨i, hi, rfl⟩ := List.getElem_of_mem hx
      rw [List.getElem_drop]
      rcases Nat.eq_zero_or_pos i with rfl | h0
      · exact Nat.le_refl _
      · exact (List.pairwise_iff_getElem.1 hs) _ _ _ _ (by omega)
    rw [h2, Nat.add_zero]
    exact List.countP_le_length.trans (by rw [List.length_take]; omega)
  have := Nat.div_mul_le_self l.length 100
  have := Nat.mul_le_mul_right 100 hcount
  omega

/-- C89 (restricted to components with less than 100 source nodes): no node has more targets than the percentile, and no node more
sources than the inverse percentile. -/
theorem C89_percentile_partial (m : OMap N (List N)) (h : m.vals.length < 100) : ∀ l ∈ m.vals, l.length ≤ percentile99 (fanOuts m) := by
  intro l hl
  have hlen : (fanOuts m).length = m.vals.length := by rw [(fanOuts_perm m).length_eq, List.length_map]
  have hmem : l.length ∈ fanOuts m := (fanOuts_perm m).mem_iff.2 (List.mem_map.2 ⟨l, hl, rfl⟩)
  unfold percentile99
  rw [if_neg (by omega)]
  obtain ⟨i, hi, he⟩ := List.getElem_of_mem hmem
  rw [List.getLast?_eq_getElem?, List.getElem?_eq_getElem (by omega), Option.getD_some, ← he]
  rcases Nat.lt_or_ge i ((fanOuts m).length - 1) with h' | h'
  · exact (List.pairwise_iff_getElem.1 (fanOuts_sorted m)) _ _ _ _ h'
  · have : i = (fanOuts m).length - 1 := by omega
    simp only [this, le_refl]

/-- A component with 100 source nodes: two of them have one target and the other ones two. -/
def hundred : List (Op Nat Nat Nat) :=
  (List.range 100).flatMap fun i => if i < 2 then [.addEdge i 1000] else [.addEdge i 1000, .addEdge i 1001]

/-- C89 fails: with at least 100 source nodes the position is that of the first percentile.  Here 98 of 100 source nodes have more targets
than the number which is documented as "max fan-out of 99% of the data". -/
theorem C89_percentile_fails :
    (run hundred).edges.vals.length = 100 ∧ (run hundred).statPercentile = 1 ∧
      (run hundred).edges.vals.countP (fun l => decide (l.length ≤ (run hundred).statPercentile)) = 2 := by decide +kernel

/-! ### Depth, cycles and trees -/

/-- C89: without a detected cycle and with at least one edge, `max_depth` is the length of the longest path without repeated nodes from a
root. -/
theorem C89_max_depth [U64 N] (hc : (run ops).stats.cyclic = false) (he : ∃ r ∈ (run ops).statRoots, ∃ b, (spec ops).edge r b = true) :
    (∀ r n d, (∃ b, (spec ops).edge r b = true) → (¬ ∃ a, (spec ops).edge a r = true) →
      Walk.SimplePath (fun x y => (spec ops).edge x y = true) r n d → d ≤ (run ops).stats.maxDepth) ∧
    ∃ r n, (∃ b, (spec ops).edge r b = true) ∧ (¬ ∃ a, (spec ops).edge a r = true) ∧
      Walk.SimplePath (fun x y => (spec ops).edge x y = true) r n (run ops).stats.maxDepth := by
  have root : ∀ r, (∃ b, (spec ops).edge r b = true) → (¬ ∃ a, (spec ops).edge a r = true) → r ∈ (run ops).statRoots := by
    rintro r ⟨b, hb⟩ hn
    exact roots_sub_statRoots ops r (((asSource_is ops).root_iff r).2 ⟨⟨b, hb⟩, hn⟩)
  refine ⟨fun r n d hb hn hp => maxDepth_of_walk ops hc (root r hb hn) hp, ?_⟩
  have hc' : (run ops).statCyclic = false := hc
  have e : (run ops).stats.maxDepth =
      ((run ops).statRoots.flatMap (run ops).statSteps).foldl (fun m x => Nat.max m x.2) 1 := by
    unfold stats
    simp [hc']
  obtain ⟨r, hr, b, hb⟩ := he
  have hnp := statRoot_no_pred ops r hr
  rcases (le_foldl_max (fun x : N × Nat => x.2) ((run ops).statRoots.flatMap (run ops).statSteps) 1).2.2 with h | ⟨x, hx, h⟩
  · refine ⟨r, b, ⟨b, hb⟩, hnp, ?_⟩
    rw [e, h]
    have hne : r ≠ b := fun h' => hnp ⟨r, by rw [← h'] at hb; exact hb⟩
    exact ⟨[r, b], ⟨rfl, rfl, by simpa using hb⟩, by simpa using hne, rfl⟩
  · obtain ⟨r', hr', hx⟩ := List.mem_flatMap.1 hx
    obtain ⟨n, d⟩ := x
    rw [mem_statSteps] at hx
    have hd : d = (run ops).stats.maxDepth := by rw [e, h]
    cases d with
    | zero =>
      exfalso
      have h1 := (le_foldl_max (fun x : N × Nat => x.2) ((run ops).statRoots.flatMap (run ops).statSteps) 1).1
      rw [← e, ← hd] at h1
      omega
    | succ d =>
      obtain ⟨c, hc2, _⟩ := Walk.walkLen_succ.1 hx.walk
      exact ⟨r', n, ⟨c, hc2⟩, statRoot_no_pred ops r' hr', hd ▸ hx⟩

/-- C89: a component which is marked as cyclic has a cycle. -/
theorem C89_cyclic_sound [U64 N] (hsize : (targets (run ops).edges).length < usizeMax) (hc : (run ops).stats.cyclic = true) :
    ¬ Walk.Acyclic (fun x y => (spec ops).edge x y = true) := by
  intro hac
  rcases (cyclic_iff ops hsize).1 hc with ⟨h1, h2⟩ | ⟨r, _, c, _, h4⟩
  · have key : ∀ k, k ∈ (run ops).edges.keys → False := by
      intro k hk
      obtain ⟨r, e, hw, hnp⟩ := Walk.exists_root hac (V := targets (run ops).edges)
        (fun a b hab => (mem_targets ops b).2 ⟨a, hab⟩) k
      have hr : r ∈ (run ops).edges.keys := by
        cases e with
        | zero => rw [Walk.walkLen_zero.1 hw]; exact hk
        | succ e =>
          obtain ⟨c, hc, _⟩ := Walk.walkLen_succ.1 hw
          exact key_of_edge ops hc
      have : r ∈ (run ops).statRoots := by
        unfold statRoots
        rw [List.mem_filter]
        refine ⟨hr, ?_⟩
        simp only [decide_eq_true_eq, mem_targets]
        exact hnp
      rw [h1] at this
      exact absurd this (by simp)
    obtain ⟨⟨k, l⟩, hkl⟩ := List.exists_mem_of_ne_nil _ h2
    exact key k (List.mem_map.2 ⟨(k, l), hkl, rfl⟩)
  · exact hac c h4

/-- C89 (restricted to components from which nothing was deleted, and whose cycles can be reached from a root if there is one): a
component with a cycle is marked as cyclic. -/
theorem C89_cyclic_partial (ops : List (Op NodeID64 S W)) (hsize : (targets (run ops).edges).length < usizeMax)
    (hn : Spec.noDeletion ops = true) (hrc : RootedCycles (E ops)) (hac : ¬ Walk.Acyclic (E ops)) :
    (run ops).stats.cyclic = true := by
  rw [cyclic_iff ops hsize]
  by_cases hr : (run ops).statRoots = []
  · left
    refine ⟨hr, fun he => hac ?_⟩
    intro a ha
    obtain ⟨b, hab, _⟩ := Relation.TransGen.head'_iff.1 ha
    have := key_of_edge ops hab
    rw [he] at this
    simp [OMap.keys] at this
  · right
    obtain ⟨r, hr⟩ := List.exists_mem_of_ne_nil _ hr
    have hrk : r ∈ (run ops).edges.keys := by
      unfold statRoots at hr
      exact (List.mem_filter.1 hr).1
    obtain ⟨b, hb⟩ := edge_of_key ops (tidy_run ops hn) hrk
    obtain ⟨r', b', c, h1, h2, h3, h4⟩ := hrc ⟨r, b, hb, statRoot_no_pred ops r hr⟩ hac
    exact ⟨r', roots_sub_statRoots ops r' (((asSource_is ops).root_iff r').2 ⟨⟨b', h1⟩, h2⟩), c, h3, h4⟩

/-- C89 fails: a cycle beside a tree is not detected, and a cycle which is the whole component is not detected after an edge outside of the
cycle was deleted. -/
theorem C89_cyclic_fails :
    (let ops : List (Op NodeID64 Nat Nat) := [.addEdge 1 2, .addEdge 4 5, .addEdge 5 4];
      (spec ops).edge 4 5 = true ∧ (spec ops).edge 5 4 = true ∧ (run ops).stats.cyclic = false ∧ (run ops).stats.rootedTree = true) ∧
    (let ops : List (Op NodeID64 Nat Nat) := [.addEdge 1 2, .addEdge 4 5, .addEdge 5 4, .deleteEdge 1 2];
      (spec ops).edge 4 5 = true ∧ (spec ops).edge 5 4 = true ∧ (run ops).stats.cyclic = false) := by decide

theorem once_of_injective (h : Walk.InjectiveRel (fun x y => (spec ops).edge x y = true)) :
    targetsOnce [] (targets (run ops).edges) = true := by
  obtain ⟨hi, r1, _⟩ := run_refines ops
  rw [targetsOnce_iff]
  refine ⟨?_, by simp⟩
  unfold targets OMap.vals
  rw [List.nodup_flatten]
  have hget : ∀ p ∈ (run ops).edges, (run ops).out p.1 = p.2 := by
    rintro ⟨a, l⟩ hm
    unfold out
    rw [OMap.get_of_mem hi.es hm]; rfl
  constructor
  · intro l hl
    obtain ⟨⟨a, l'⟩, hm, rfl⟩ := List.mem_map.1 hl
    rw [← hget _ hm]
    exact (hi.eo a).imp (fun hlt he => absurd (he ▸ hlt) (lt_irrefl _))
  · rw [List.pairwise_map]
    refine List.Pairwise.imp_of_mem ?_ hi.es
    intro p q hp hq hlt x hx hy
    rw [← hget p hp] at hx
    rw [← hget q hq] at hy
    have := h _ _ _ ((r1 _ _).1 hx) ((r1 _ _).1 hy)
    rw [this] at hlt
    exact lt_irrefl _ hlt

/-- C89: a component is marked as a rooted tree if it is not marked as cyclic and no node has two parents. -/
theorem C89_rooted_tree : (run ops).stats.rootedTree = true ↔
    (run ops).stats.cyclic = false ∧ ∀ x y z, (spec ops).edge x z = true → (spec ops).edge y z = true → x = y := by
  have e : (run ops).stats.rootedTree = (!(run ops).stats.cyclic && targetsOnce [] (targets (run ops).edges)) := rfl
  rw [e, Bool.and_eq_true, Bool.not_eq_true']
  refine and_congr_right fun _ => ⟨fun h x y z hx hy => injective_of_once ops h x y z hx hy, fun h => once_of_injective ops ?_⟩
  intro x y z hx hy
  exact h x y z hx hy

/-- C89 non-vacuity: a component with five nodes, two roots, a node with two parents and a path of length three; nothing was deleted. -/
theorem C89_nonvacuous :
    let ops : List (Op NodeID64 Nat Nat) := [.addEdge 1 2, .addEdge 2 3, .addEdge 3 4, .addEdge 2 4, .addEdge 5 2]
    Spec.noDeletion ops = true ∧ (run ops).stats.nodes = 5 ∧ (run ops).statRootNodes = 2 ∧ (run ops).stats.maxDepth = 3 ∧
    (run ops).stats.maxFanOut = 2 ∧ (run ops).statPercentile = 2 ∧ (run ops).statInversePercentile = 2 ∧
    (run ops).stats.cyclic = false ∧ (run ops).stats.rootedTree = false ∧ (run ops).edges.vals.length < 100 ∧
    (∃ r ∈ (run ops).statRoots, (spec ops).edge r 2 = true) := by
  refine ⟨by decide, by decide, by decide, by decide, by decide, by decide, by decide, by decide, by decide, by decide, ⟨1, by decide, by decide⟩⟩

/-- A cycle with a root: it is detected. -/
example : let ops : List (Op NodeID64 Nat Nat) := [.addEdge 1 2, .addEdge 2 3, .addEdge 3 2]
    Spec.noDeletion ops = true ∧ (run ops).stats.cyclic = true ∧ (run ops).stats.maxDepth = 0 := by decide

end Adj
