import Verif.Registry.Lemmas

/-!
# Properties of the choice of the storage implementation

C18 (optimising a component keeps its contents) and C19 (the number types chosen for a component are large enough).

The component is the result of any sequence of updates of the writable adjacency list storage; its edges and annotations are
those of the specification `Adj.spec`.
-/

set_option linter.unusedSimpArgs false
set_option linter.unusedSectionVars false

namespace Adj

variable {S W : Type} [LinearOrder S] [OrderBot S] [LinearOrder W]

/-- The edges of the component. -/
def E (ops : List (Op NodeID64 S W)) : NodeID64 → NodeID64 → Prop := fun a b => (spec ops).edge a b = true

/-- If the component has a root and a cycle, then it has a cycle that can be reached from a root. -/
def RootedCycles (E : NodeID64 → NodeID64 → Prop) : Prop :=
  (∃ r b, E r b ∧ ¬ ∃ a, E a r) → ¬ Walk.Acyclic E →
    ∃ r b c, E r b ∧ (¬ ∃ a, E a r) ∧ Relation.ReflTransGen E r c ∧ Relation.TransGen E c c

variable (ops : List (Op NodeID64 S W))

theorem acyclic_of_deep (hrc : RootedCycles (E ops)) (hsize : (targets (run ops).edges).length < usizeMax)
    (hd : 1 < (run ops).stats.maxDepth) : (run ops).stats.cyclic = false ∧ Walk.Acyclic (E ops) := by
  have hcf : (run ops).stats.cyclic = false := by
    by_contra h
    have h' : (run ops).statCyclic = true := by
      cases hx : (run ops).statCyclic with
      | true => rfl
      | false => exact absurd hx h
    unfold stats at hd
    simp [h'] at hd
  refine ⟨hcf, ?_⟩
  by_contra hac
  obtain ⟨r, hr, hrr⟩ : ∃ r ∈ (run ops).statRoots, r ∈ (run ops).roots := by
    by_contra hno
    push Not at hno
    have := maxDepth_le_one ops hno
    omega
  obtain ⟨⟨b, hb⟩, hnp⟩ := ((asSource_is ops).root_iff r).1 hrr
  obtain ⟨r', b', c, h1, h2, h3, h4⟩ := hrc ⟨r, b, hb, hnp⟩ hac
  have : (run ops).stats.cyclic = true := (cyclic_iff ops hsize).2 (Or.inr ⟨r', roots_sub_statRoots ops r'
    (((asSource_is ops).root_iff r').2 ⟨⟨b', h1⟩, h2⟩), c, h3, h4⟩)
  rw [hcf] at this
  exact absurd this (by simp)

/-- Every walk of an acyclic component is at most as long as the depth in the statistics. -/
theorem walk_le_maxDepth (hc : (run ops).stats.cyclic = false) (hac : Walk.Acyclic (E ops)) {a b : NodeID64} {d : Nat}
    (h : Walk.WalkLen (E ops) a b d) : d ≤ (run ops).stats.maxDepth := by
  have i := asSource_is ops
  cases d with
  | zero => exact Nat.zero_le _
  | succ d =>
    obtain ⟨r, e, hw, hnp⟩ := Walk.exists_root hac (V := targets (run ops).edges) (fun a b hab => (mem_targets ops b).2 ⟨a, hab⟩) a
    have hall := Walk.walkLen_add.2 ⟨a, hw, h⟩
    obtain ⟨c, hrc, _⟩ : ∃ c, E ops r c ∧ Walk.WalkLen (E ops) c b (e + d) := by
      rw [show e + (d + 1) = (e + d) + 1 by omega] at hall
      exact Walk.walkLen_succ.1 hall
    have hr : r ∈ (run ops).roots := (i.root_iff r).2 ⟨⟨c, hrc⟩, hnp⟩
    have := maxDepth_of_walk ops hc (roots_sub_statRoots ops r hr) (Walk.simple_of_acyclic hac hall)
    omega

end Adj

open Adj

section Choice
variable {ft : FloatTests} {disk : Bool} {largest : Option Nat} {s : GsStats}

theorem linearBySize_ne : (∀ oc lc, linearBySize s ≠ .prepost oc lc) ∧ linearBySize s ≠ .diskAdj ∧ linearBySize s ≠ .dense ∧
    linearBySize s ≠ .diskPath := by
  unfold linearBySize
  repeat' split
  all_goals simp

theorem prepostBySize_ne : (∀ cap, prepostBySize s ≠ .linear cap) ∧ prepostBySize s ≠ .diskAdj ∧ prepostBySize s ≠ .dense ∧
    prepostBySize s ≠ .diskPath := by
  unfold prepostBySize
  repeat' split
  all_goals simp

theorem adjacencyImpl_ne : (∀ cap, adjacencyImpl ft disk largest s ≠ .linear cap) ∧
    (∀ oc lc, adjacencyImpl ft disk largest s ≠ .prepost oc lc) ∧ adjacencyImpl ft disk largest s ≠ .diskPath ∧
    (adjacencyImpl ft disk largest s = .diskAdj → disk = true) ∧
    (adjacencyImpl ft disk largest s = .dense → largest ≠ none ∧ s.maxFanOut ≤ 1) := by
  unfold adjacencyImpl
  repeat' split
  all_goals simp_all

/-- The five ways to a decision. -/
theorem choose_cases {im : GsImpl} (h : chooseImpl ft disk largest s = im) :
    (im = .diskPath ∧ s.maxFanOut = 1) ∨ adjacencyImpl ft disk largest s = im ∨
    (1 < s.maxDepth ∧ s.maxFanOut ≤ 1 ∧ s.rootedTree = true ∧ linearBySize s = im) ∨
    (1 < s.maxDepth ∧ prepostBySize s = im) := by
  unfold chooseImpl at h
  split at h
  · left; exact ⟨h.symm, by simp_all⟩
  split at h
  · right; left; exact h
  · split at h
    · split at h
      · right; right; left; exact ⟨by omega, by assumption, by assumption, h⟩
      · right; right; right; exact ⟨by omega, h⟩
    · split at h
      · right; right; right; exact ⟨by omega, h⟩
      · right; left; exact h

theorem choose_prepost {oc lc : Nat} (h : chooseImpl ft disk largest s = .prepost oc lc) :
    1 < s.maxDepth ∧ prepostBySize s = .prepost oc lc := by
  rcases choose_cases h with ⟨h, _⟩ | h | ⟨_, _, _, h⟩ | h
  · simp at h
  · exact absurd h (adjacencyImpl_ne.2.1 oc lc)
  · exact absurd h (linearBySize_ne.1 oc lc)
  · exact h

theorem choose_linear {cap : Nat} (h : chooseImpl ft disk largest s = .linear cap) :
    1 < s.maxDepth ∧ s.maxFanOut ≤ 1 ∧ s.rootedTree = true ∧ linearBySize s = .linear cap := by
  rcases choose_cases h with ⟨h, _⟩ | h | h | ⟨_, h⟩
  · simp at h
  · exact absurd h (adjacencyImpl_ne.1 cap)
  · exact h
  · exact absurd h (prepostBySize_ne.1 cap)

theorem choose_diskPath (h : chooseImpl ft disk largest s = .diskPath) : s.maxFanOut = 1 := by
  rcases choose_cases h with ⟨_, h⟩ | h | ⟨_, _, _, h⟩ | ⟨_, h⟩
  · exact h
  · exact absurd h adjacencyImpl_ne.2.2.1
  · exact absurd h linearBySize_ne.2.2.2
  · exact absurd h prepostBySize_ne.2.2.2

theorem choose_dense (h : chooseImpl ft disk largest s = .dense) : largest ≠ none ∧ s.maxFanOut ≤ 1 := by
  rcases choose_cases h with ⟨h, _⟩ | h | ⟨_, _, _, h⟩ | ⟨_, h⟩
  · simp at h
  · exact adjacencyImpl_ne.2.2.2.2 h
  · exact absurd h linearBySize_ne.2.2.1
  · exact absurd h prepostBySize_ne.2.2.1

theorem choose_diskAdj (h : chooseImpl ft disk largest s = .diskAdj) : disk = true := by
  rcases choose_cases h with ⟨h, _⟩ | h | ⟨_, _, _, h⟩ | ⟨_, h⟩
  · simp at h
  · exact adjacencyImpl_ne.2.2.2.1 h
  · exact absurd h linearBySize_ne.2.1
  · exact absurd h prepostBySize_ne.2.1

end Choice

section
variable {S W : Type} [LinearOrder S] [OrderBot S] [LinearOrder W]

/-- C19: whenever the heuristic picks the pre- and post-order storage, every order number fits the chosen order type (so the
copy does not overflow) and every level of the component fits the chosen level type; whenever it picks the linear storage,
every position in a chain fits the chosen position type.  `hvis` states that the number of visited nodes counted by the
statistics itself fits the 64 bit machine word with one bit to spare. -/
theorem C19_types_fit (ft : FloatTests) (disk : Bool) (largest : Option Nat) (ops : List (Op NodeID64 S W))
    (hrc : RootedCycles (E ops)) (hsize : (targets (run ops).edges).length < usizeMax)
    (hvis : 2 * (run ops).stats.visits ≤ usizeMax) :
    (∀ oc lc, chooseImpl ft disk largest (run ops).stats = .prepost oc lc →
      (PrePostGs.copy oc lc PrePostGs.new (run ops).asSource).isSome ∧
      ∀ a b d, Walk.WalkLen (E ops) a b d → d ≤ lc) ∧
    (∀ cap, chooseImpl ft disk largest (run ops).stats = .linear cap → ∀ a b d, Walk.WalkLen (E ops) a b d → d < cap) := by
  have i := asSource_is ops
  have hcur : ((run ops).asSource.roots.foldl (PrePostGs.copyRoot usizeMax (run ops).asSource) ⟨0, [], []⟩).cur ≤
      2 * (run ops).stats.visits := by
    have h1 := PrePostGs.copy_cur usizeMax (run ops).asSource (run ops).asSource.roots ⟨0, [], []⟩
    have h2 := sum_le_visits ops
    simp only [asSource] at h1 h2 ⊢
    omega
  have hcurl : ∀ lc, ((run ops).asSource.roots.foldl (PrePostGs.copyRoot lc (run ops).asSource) ⟨0, [], []⟩).cur ≤
      2 * (run ops).stats.visits := by
    intro lc
    have h1 := PrePostGs.copy_cur lc (run ops).asSource (run ops).asSource.roots ⟨0, [], []⟩
    have h2 := sum_le_visits ops
    simp only [asSource] at h1 h2 ⊢
    omega
  have hsome : ∀ oc lc, 2 * (run ops).stats.visits ≤ oc →
      (PrePostGs.copy oc lc PrePostGs.new (run ops).asSource).isSome := by
    intro oc lc hoc
    unfold PrePostGs.copy
    simp only
    rw [if_pos (le_trans (hcurl lc) hoc)]
    rfl
  have hcap : ∀ a b d, Walk.Acyclic (E ops) → Walk.WalkLen (E ops) a b d → d < usizeMax := by
    intro a b d hac hw
    exact lt_of_le_of_lt (Walk.walk_le hac (V := targets (run ops).edges) (fun a b hab => (mem_targets ops b).2 ⟨a, hab⟩) hw) hsize
  constructor
  · intro oc lc him
    obtain ⟨hd, hps⟩ := choose_prepost him
    obtain ⟨hcf, hac⟩ := acyclic_of_deep ops hrc hsize hd
    have hw : ∀ a b d, Walk.WalkLen (E ops) a b d → d ≤ (run ops).stats.maxDepth ∧ d < usizeMax :=
      fun a b d h => ⟨walk_le_maxDepth ops hcf hac h, hcap a b d hac h⟩
    have hlvl : (run ops).stats.maxDepth < lc ∨ lc = usizeMax := by
      unfold prepostBySize at hps
      repeat' split at hps
      all_goals (injection hps with e1 e2; subst e2; first | (left; assumption) | (right; rfl))
    have hord : 2 * (run ops).stats.nodes ≤ oc ∧ (run ops).stats.rootedTree = true ∨ oc = usizeMax := by
      unfold prepostBySize at hps
      repeat' split at hps
      all_goals (injection hps with e1 e2; subst e1)
      all_goals first
        | (right; rfl)
        | (left; refine ⟨?_, by assumption⟩; simp only [u16Max, u32Max] at *; omega)
    refine ⟨hsome oc lc ?_, ?_⟩
    · rcases hord with ⟨h1, h2⟩ | rfl
      · have : targetsOnce [] (targets (run ops).edges) = true := by
          have h2' : (!(run ops).statCyclic && targetsOnce [] (targets (run ops).edges)) = true := h2
          simp only [Bool.and_eq_true] at h2'
          exact h2'.2
        have := visits_le_nodes ops this
        omega
      · exact hvis
    · intro a b d h
      have := hw a b d h
      rcases hlvl with h | h <;> omega
  · intro cap him a b d h
    obtain ⟨hd, _, _, hps⟩ := choose_linear him
    obtain ⟨hcf, hac⟩ := acyclic_of_deep ops hrc hsize hd
    have h1 := walk_le_maxDepth ops hcf hac h
    have h2 := hcap a b d hac h
    have hlvl : (run ops).stats.maxDepth < cap ∨ cap = usizeMax := by
      unfold linearBySize at hps
      repeat' split at hps
      all_goals (injection hps with e1; subst e1; first | (left; assumption) | (right; rfl))
    rcases hlvl with h | h <;> omega

/-- C18, restricted: optimising a component keeps its edges and edge annotations.  Missing: components that have a root and a
cycle, but no cycle that is reachable from a root (see `C18_unreachable_cycle_fails`); components with sources above the
largest annotated node, and for the disk based storages the node with the largest possible number (see
`C60_largest_node_fails`). -/
theorem C18_partial (ft : FloatTests) (disk : Bool) (largest : Option NodeID64) (ops : List (Op NodeID64 S W))
    (hrc : RootedCycles (E ops)) (hsize : (targets (run ops).edges).length < usizeMax)
    (hvis : 2 * (run ops).stats.visits ≤ usizeMax)
    (hlargest : ∀ l, largest = some l → ∀ a b, E ops a b → a ≤ l)
    (hdisk : disk = true → ∀ a b, E ops a b → a.val < usizeMax ∧ b.val < usizeMax) :
    ∃ gs, optimizeGs ft disk largest (run ops) = some gs ∧
      (∀ n, ∃ l, gs.out n = some l ∧ ∀ b, b ∈ l ↔ (spec ops).edge n b = true) ∧
      ∀ a b k, gs.annos.getValue (toLex (a, b)) k = (spec ops).anno a b k := by
  have i := asSource_is ops
  obtain ⟨f1, f2⟩ := C19_types_fit ft disk (largest.map fun l => l.val) ops hrc hsize hvis
  obtain ⟨hinv, r1, r2⟩ := run_refines ops
  unfold optimizeGs
  cases him : chooseImpl ft disk (largest.map fun l => l.val) (run ops).stats with
  | adj => exact ⟨_, rfl, fun n => ⟨_, rfl, r1 n⟩, r2⟩
  | diskAdj =>
    have hd := choose_diskAdj him
    have hc := DiskAdj.C60_copy_partial i (hdisk hd) (DiskAdj.Inv.new)
    exact ⟨_, rfl, fun n => ⟨_, rfl, hc.2.1 n⟩, hc.2.2.2⟩
  | dense =>
    obtain ⟨hx, hfo⟩ := choose_dense him
    obtain ⟨l, rfl⟩ : ∃ l, largest = some l := by
      cases largest with
      | none => simp at hx
      | some l => exact ⟨l, rfl⟩
    obtain ⟨g, hg, c1, _, _, c2⟩ := Dense.C17_dense (g0 := Dense.new) i (functional_of_fanOut ops hfo) l (hlargest l rfl)
    simp only [hg, Option.map_some]
    exact ⟨_, rfl, fun n => ⟨_, rfl, (c1 n).2⟩, c2⟩
  | diskPath =>
    have hfo : (run ops).stats.maxFanOut ≤ 1 := by rw [choose_diskPath him]
    obtain ⟨c1, _, _, c2⟩ := DiskPath.C17_path_partial i (functional_of_fanOut ops hfo)
    refine ⟨_, rfl, fun n => ?_, c2⟩
    obtain ⟨l, hl, _, hm⟩ := c1 n
    exact ⟨l, hl, hm⟩
  | linear cap =>
    obtain ⟨hd, hfo, hrt, _⟩ := choose_linear him
    have hrt' : (!(run ops).statCyclic && targetsOnce [] (targets (run ops).edges)) = true := hrt
    simp only [Bool.and_eq_true] at hrt'
    have hch : Linear.Chains (E ops) := ⟨functional_of_fanOut ops hfo, injective_of_once ops hrt'.2,
      (acyclic_of_deep ops hrc hsize hd).2⟩
    refine ⟨_, rfl, fun n => ?_, Linear.C14_annotations i hch (f2 cap him) Linear.new⟩
    obtain ⟨⟨l, hl, _, hm⟩, _⟩ := Linear.C14_neighbours i hch (f2 cap him) Linear.new n
    exact ⟨l, hl, hm⟩
  | prepost oc lc =>
    obtain ⟨hd, _⟩ := choose_prepost him
    obtain ⟨hs, hl⟩ := f1 oc lc him
    obtain ⟨g, hg⟩ := Option.isSome_iff_exists.1 hs
    have hac := (acyclic_of_deep ops hrc hsize hd).2
    simp only [hg, Option.map_some]
    refine ⟨_, rfl, fun n => ?_, PrePostGs.C15_annotations i hac hl hg⟩
    obtain ⟨⟨l, hl, _, hm⟩, _⟩ := PrePostGs.C15_neighbours i hac hl hg n
    exact ⟨l, hl, hm⟩

end

/-! ### Witnesses -/

/-- Float tests used in the examples. -/
def demoFloat : FloatTests := ⟨fun v n => decide (v * 100 ≤ 103 * n), fun n l => decide (3 * l ≤ 4 * n)⟩

/-- C18 fails: a tree of depth two next to a cycle of two nodes.  The traversal from the roots never sees the cycle, the
linear storage is chosen and the cycle is lost by the copy. -/
theorem C18_unreachable_cycle_fails :
    let ops : List (Op NodeID64 Nat Nat) := [.addEdge 1 2, .addEdge 2 3, .addEdge 4 5, .addEdge 5 4]
    (spec ops).edge 4 5 = true ∧ (run ops).stats.cyclic = false ∧ chooseImpl demoFloat false none (run ops).stats = .linear 255 ∧
    (optimizeGs demoFloat false none (run ops)).bind (fun gs => gs.out 4) = some [] := by decide

/-- C18, C19: a component that meets the hypotheses (a tree with a leftover entry from a deleted edge) and is copied to the
smallest pre- and post-order storage. -/
theorem C18_nonvacuous :
    let ops : List (Op NodeID64 Nat Nat) := [.addEdge 1 2, .addEdge 2 3, .addEdge 2 4, .addEdge 7 1, .deleteEdge 7 1]
    RootedCycles (E ops) ∧ (targets (run ops).edges).length < usizeMax ∧ 2 * (run ops).stats.visits ≤ usizeMax ∧
    chooseImpl demoFloat false none (run ops).stats = .prepost 65535 255 := by
  refine ⟨?_, by decide, by decide, by decide⟩
  intro _ hac
  exfalso
  apply hac
  intro a ha
  have hlt : ∀ x y : NodeID64, E ([.addEdge 1 2, .addEdge 2 3, .addEdge 2 4, .addEdge 7 1, .deleteEdge 7 1] :
      List (Op NodeID64 Nat Nat)) x y → x < y := by
    intro x y hxy
    simp only [E, spec, List.foldl, specStep] at hxy
    simp at hxy
    obtain ⟨h0, ⟨rfl, rfl⟩ | ⟨rfl, rfl⟩ | ⟨rfl, rfl⟩ | ⟨rfl, rfl⟩⟩ := hxy
    · simp at h0
    · decide
    · decide
    · decide
  have : ∀ x y, Relation.TransGen (E ([.addEdge 1 2, .addEdge 2 3, .addEdge 2 4, .addEdge 7 1, .deleteEdge 7 1] :
      List (Op NodeID64 Nat Nat))) x y → x < y := by
    intro x y h
    induction h with
    | single h => exact hlt _ _ h
    | tail _ h ih => exact lt_trans ih (hlt _ _ h)
  exact absurd (this a a ha) (lt_irrefl a)
