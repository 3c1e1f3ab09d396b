import Verif.Registry.Model
import Verif.DiskAdj.Props
import Verif.Single.Props
import Verif.Linear.Props
import Verif.PrePost.Props
import Mathlib.Algebra.Order.BigOperators.Group.List
import Mathlib.Algebra.Order.Monoid.NatCast
import Mathlib.Algebra.Order.Ring.Nat

/-!
# Helper lemmas for the statistics and the heuristic
-/

set_option linter.unusedSimpArgs false
set_option linter.unusedSectionVars false

theorem targetsOnce_iff {N : Type} [DecidableEq N] (l : List N) : ∀ (seen : List N),
    targetsOnce seen l = true ↔ l.Nodup ∧ ∀ x ∈ l, x ∉ seen := by
  induction l with
  | nil => intro seen; simp [targetsOnce]
  | cons t r ih =>
    intro seen
    unfold targetsOnce
    by_cases h : t ∈ seen
    · simp [h]
    · rw [if_neg h, ih]
      simp only [List.nodup_cons, List.mem_cons, not_or, forall_eq_or_imp, h, not_false_eq_true, true_and]
      constructor
      · rintro ⟨h1, h2⟩
        exact ⟨⟨fun ht => (h2 t ht).1 rfl, h1⟩, fun x hx => (h2 x hx).2⟩
      · rintro ⟨⟨h1, h2⟩, h3⟩
        exact ⟨h2, fun x hx => ⟨by rintro rfl; exact h1 hx, h3 x hx⟩⟩

/-- Walks of the same length to the same node are equal if predecessors are unique. -/
theorem Walk.walk_unique {N : Type} {E : N → N → Prop} (hi : Walk.InjectiveRel E) {a b c : N} {p q : List N}
    (hp : Walk.IsWalk E a c p) (hq : Walk.IsWalk E b c q) (hl : p.length = q.length) : p = q := by
  obtain ⟨p1, p2, p3⟩ := hp
  obtain ⟨q1, q2, q3⟩ := hq
  have agree : ∀ i, i < p.length → p[p.length - 1 - i]? = q[p.length - 1 - i]? := by
    intro i
    induction i with
    | zero =>
      intro _
      rw [List.getLast?_eq_getElem?] at p2 q2
      rw [Nat.sub_zero, p2, hl, q2]
    | succ i ih =>
      intro hlt
      have h1 := ih (by omega)
      have a1 := List.isChain_iff_getElem.1 p3 (p.length - 1 - (i + 1)) (by omega)
      have a2 := List.isChain_iff_getElem.1 q3 (p.length - 1 - (i + 1)) (by omega)
      have e : p.length - 1 - (i + 1) + 1 = p.length - 1 - i := by omega
      simp only [e] at a1 a2
      rw [List.getElem?_eq_getElem (by omega), List.getElem?_eq_getElem (by omega)] at h1
      injection h1 with h1
      rw [h1] at a1
      rw [List.getElem?_eq_getElem (by omega), List.getElem?_eq_getElem (by omega), hi _ _ _ a1 a2]
  apply List.ext_getElem? 
  intro i
  by_cases h : i < p.length
  · have := agree (p.length - 1 - i) (by omega)
    rwa [show p.length - 1 - (p.length - 1 - i) = i by omega] at this
  · rw [List.getElem?_eq_none (by omega), List.getElem?_eq_none (by omega)]

namespace PrePostGs

variable {N S W : Type} [LinearOrder N] [LinearOrder S] [OrderBot S] [LinearOrder W]

theorem exit_total (st : CState N) : (exit st).cur + (exit st).stack.length = st.cur + st.stack.length := by
  unfold exit
  cases h : st.stack with
  | nil => simp [h]
  | cons x r => obtain ⟨n, p, l⟩ := x; simp; omega

theorem exits_total (k : Nat) : ∀ (st : CState N), (exits k st).cur + (exits k st).stack.length = st.cur + st.stack.length := by
  induction k with
  | zero => intro st; rfl
  | succ k ih => intro st; unfold exits; rw [ih, exit_total]

theorem exits_length (k : Nat) : ∀ (st : CState N), (exits k st).stack.length = st.stack.length - k := by
  induction k with
  | zero => intro st; simp [exits]
  | succ k ih =>
    intro st
    unfold exits
    rw [ih]
    unfold exit
    cases h : st.stack with
    | nil => simp [h]
    | cons x r => obtain ⟨n, p, l⟩ := x; simp

theorem procStep_total (lc : Nat) (s : CState N × Nat) (x : N × Nat) :
    (procStep lc s x).1.cur + (procStep lc s x).1.stack.length ≤ s.1.cur + s.1.stack.length + 2 := by
  unfold procStep
  simp only
  have h : ∀ st : CState N, (if x.2 ≤ lc then enter st x.1 x.2 else st).cur +
      (if x.2 ≤ lc then enter st x.1 x.2 else st).stack.length ≤ st.cur + st.stack.length + 2 := by
    intro st
    split
    · simp [enter]; omega
    · omega
  refine le_trans (h _) ?_
  split
  · unfold exitTo; rw [exits_total]
  · exact Nat.le_refl _

theorem foldl_procStep_total (lc : Nat) (l : List (N × Nat)) : ∀ (s : CState N × Nat),
    (l.foldl (procStep lc) s).1.cur + (l.foldl (procStep lc) s).1.stack.length ≤
      s.1.cur + s.1.stack.length + 2 * l.length := by
  induction l with
  | nil => intro s; simp
  | cons x l ih =>
    intro s
    rw [List.foldl_cons]
    have h1 := ih (procStep lc s x)
    have h2 := procStep_total lc s x
    simp only [List.length_cons]
    omega

theorem copyRoot_cur (lc : Nat) (o : Source N S W) (st : CState N) (r : N) :
    (copyRoot lc o st r).cur ≤ st.cur + 2 * ((Dfs.steps o.out o.nodes r 1 usizeMax).length + 1) := by
  unfold copyRoot exitTo
  set s := ((Dfs.steps o.out o.nodes r 1 usizeMax).foldl (procStep lc) (enter { st with stack := [] } r 0, 0)).1 with hs
  have h1 := foldl_procStep_total lc (Dfs.steps o.out o.nodes r 1 usizeMax) (enter { st with stack := [] } r 0, 0)
  rw [← hs] at h1
  simp only [enter, List.length_cons, List.length_nil] at h1
  have h2 := exits_total (s.stack.length - 0) s
  have h3 := exits_length (s.stack.length - 0) s
  simp only [Nat.sub_zero, Nat.sub_self] at h2 h3 ⊢
  omega

/-- The order numbers that a copy uses. -/
theorem copy_cur (lc : Nat) (o : Source N S W) (rs : List N) : ∀ (st : CState N),
    (rs.foldl (copyRoot lc o) st).cur ≤
      st.cur + 2 * (rs.map fun r => (Dfs.steps o.out o.nodes r 1 usizeMax).length + 1).sum := by
  induction rs with
  | nil => intro st; simp
  | cons r rs ih =>
    intro st
    rw [List.foldl_cons]
    have h1 := ih (copyRoot lc o st r)
    have h2 := copyRoot_cur lc o st r
    simp only [List.map_cons, List.sum_cons]
    omega

end PrePostGs

namespace Dfs

variable {N : Type} [LinearOrder N]

/-- The start node is the only step with distance zero. -/
theorem steps_zero_length {next : N → List N} {V : List N} (hV : Covers V next) (hn : ∀ a, (next a).Nodup) (r : N) (m : Nat) :
    (steps next V r 0 m).length = (steps next V r 1 m).length + 1 := by
  obtain ⟨p0, n0, m0, e0⟩ := C10_each_path_once 0 m r false hV hn
  obtain ⟨p1, n1, m1, e1⟩ := C10_each_path_once 1 m r false hV hn
  have l0 : (steps next V r 0 m).length = p0.length := by
    have := congrArg List.length e0
    simpa using this
  have l1 : (steps next V r 1 m).length = p1.length := by
    have := congrArg List.length e1
    simpa using this
  have hns : [r] ∉ p1 := by
    intro hm
    have := ((m1 _).1 hm).2.2.1
    simp at this
  have hp : p0.Perm ([r] :: p1) := by
    rw [List.perm_ext_iff_of_nodup n0 (List.nodup_cons.2 ⟨hns, n1⟩)]
    intro q
    rw [List.mem_cons, m0, m1]
    constructor
    · rintro ⟨h1, ⟨n, hw⟩, _, h2⟩
      by_cases hl : 1 ≤ q.length - 1
      · exact Or.inr ⟨h1, ⟨n, hw⟩, hl, h2⟩
      · left
        obtain ⟨w1, _, _⟩ := hw
        cases q with
        | nil => simp at w1
        | cons x t =>
          simp only [List.head?_cons, Option.some.injEq] at w1
          subst w1
          cases t with
          | nil => rfl
          | cons y t => simp at hl
    · rintro (rfl | ⟨h1, h2, h3, h4⟩)
      · exact ⟨by simp, ⟨r, rfl, rfl, by simp⟩, by simp, by simp⟩
      · exact ⟨h1, h2, by omega, h4⟩
  rw [l0, l1, hp.length_eq, List.length_cons]

/-- If predecessors are unique, the traversal visits every node once. -/
theorem steps_nodup [U64 N] {next : N → List N} {V : List N} (hV : Covers V next) (hn : ∀ a, (next a).Nodup)
    (hi : Walk.InjectiveRel (Edge next)) (r : N) (m : Nat) : ((steps next V r 0 m).map fun x => x.1).Nodup := by
  obtain ⟨p0, n0, m0, e0⟩ := C10_each_path_once 0 m r false hV hn
  have e1 : (steps next V r 0 m).map (fun x => some x.1) = p0.map (fun q => q.getLast?) := by
    have := congrArg (List.map Prod.fst) e0
    simpa [Function.comp_def] using this
  have h1 : ((steps next V r 0 m).map (fun x => some x.1)).Nodup := by
    rw [e1]
    apply List.Nodup.map_on _ n0
    intro p hp q hq hpq
    obtain ⟨hp1, ⟨a, hpw⟩, _⟩ := (m0 p).1 hp
    obtain ⟨hq1, ⟨b, hqw⟩, _⟩ := (m0 q).1 hq
    have hab : a = b := by
      have := hpw.2.1.symm.trans (hpq.trans hqw.2.1)
      injection this
    subst hab
    have hpl : 0 < p.length := by
      cases p with
      | nil => simp [Walk.IsWalk] at hpw
      | cons x t => simp
    have hql : 0 < q.length := by
      cases q with
      | nil => simp [Walk.IsWalk] at hqw
      | cons x t => simp
    have hlen := Adj.simplePath_unique (fun x y z hx hy => hi x y z hx hy) (p.length - 1) (q.length - 1) r a
      ⟨p, hpw, hp1, by omega⟩ ⟨q, hqw, hq1, by omega⟩
    exact Walk.walk_unique hi hpw hqw (by omega)
  have h2 : (steps next V r 0 m).map (fun x => some x.1) = ((steps next V r 0 m).map fun x => x.1).map some := by
    rw [List.map_map]; rfl
  rw [h2] at h1
  exact List.Nodup.of_map _ h1

end Dfs

namespace Adj

variable {N S W : Type} [LinearOrder N] [LinearOrder S] [OrderBot S] [LinearOrder W]

section
variable (ops : List (Op N S W))

theorem mem_targets (b : N) : b ∈ targets (run ops).edges ↔ ∃ a, (spec ops).edge a b = true := by
  obtain ⟨h, r1, _⟩ := run_refines ops
  unfold targets OMap.vals
  rw [List.mem_flatten]
  constructor
  · rintro ⟨l, hl, hb⟩
    obtain ⟨⟨a, l'⟩, hm, rfl⟩ := List.mem_map.1 hl
    refine ⟨a, (r1 a b).1 ?_⟩
    unfold out
    rw [(OMap.mem_iff_get h.es).1 hm]
    exact hb
  · rintro ⟨a, ha⟩
    have := (r1 a b).2 ha
    unfold out at this
    cases hg : (run ops).edges.get a with
    | none => simp [hg] at this
    | some l =>
      rw [hg] at this
      exact ⟨l, List.mem_map.2 ⟨(a, l), OMap.mem_of_get hg, rfl⟩, this⟩

theorem roots_sub_statRoots (r : N) (hr : r ∈ (run ops).roots) : r ∈ (run ops).statRoots := by
  have h := (asSource_is ops).root_iff r
  obtain ⟨⟨b, hb⟩, h2⟩ := h.1 hr
  unfold statRoots
  rw [List.mem_filter]
  refine ⟨?_, ?_⟩
  · rw [OMap.mem_keys_iff]
    have := ((asSource_is ops).out_iff r b).2 hb
    unfold asSource out at this
    cases hg : (run ops).edges.get r with
    | none => simp [hg] at this
    | some l => exact ⟨l, rfl⟩
  · simp only [decide_eq_true_eq, mem_targets]
    exact h2

theorem statRoots_nodup : (run ops).statRoots.Nodup := (OMap.nodup_keys (run_refines ops).1.es).filter _

theorem statRoot_no_pred (r : N) (hr : r ∈ (run ops).statRoots) : ¬ ∃ a, (spec ops).edge a r = true := by
  unfold statRoots at hr
  rw [List.mem_filter] at hr
  simp only [decide_eq_true_eq, mem_targets] at hr
  exact hr.2

theorem statRoot_leftover (r : N) (hr : r ∈ (run ops).statRoots) (hnr : r ∉ (run ops).roots) (b : N) :
    ¬ (spec ops).edge r b = true := by
  intro hb
  exact hnr (((asSource_is ops).root_iff r).2 ⟨⟨b, hb⟩, statRoot_no_pred ops r hr⟩)

theorem mem_statSteps [U64 N] (r n : N) (d : Nat) : (n, d) ∈ (run ops).statSteps r ↔
    Walk.SimplePath (fun x y => (spec ops).edge x y = true) r n d := by
  unfold statSteps
  rw [mem_steps_out]
  exact ⟨fun h => h.1, fun h => ⟨h, Nat.zero_le _, simplePath_le h⟩⟩

theorem le_foldl_max {α : Type} (f : α → Nat) (l : List α) : ∀ m, m ≤ l.foldl (fun m x => Nat.max m (f x)) m ∧
    (∀ x ∈ l, f x ≤ l.foldl (fun m x => Nat.max m (f x)) m) ∧
    (l.foldl (fun m x => Nat.max m (f x)) m = m ∨ ∃ x ∈ l, l.foldl (fun m x => Nat.max m (f x)) m = f x) := by
  induction l with
  | nil => intro m; simp
  | cons x l ih =>
    intro m
    obtain ⟨h1, h2, h3⟩ := ih (Nat.max m (f x))
    rw [List.foldl_cons]
    refine ⟨le_trans (Nat.le_max_left _ _) h1, ?_, ?_⟩
    · intro y hy
      rcases List.mem_cons.1 hy with rfl | hy
      · exact le_trans (Nat.le_max_right _ _) h1
      · exact h2 y hy
    · rcases h3 with h3 | ⟨y, hy, h3⟩
      · rcases Nat.le_total m (f x) with hle | hle
        · right
          exact ⟨x, by simp, by rw [h3]; exact Nat.max_eq_right hle⟩
        · left
          rw [h3]; exact Nat.max_eq_left hle
      · right; exact ⟨y, by simp [hy], h3⟩

theorem maxFanOut_iff (k : Nat) : (run ops).stats.maxFanOut ≤ k ↔ ∀ a, ((run ops).out a).length ≤ k := by
  obtain ⟨h, _, _⟩ := run_refines ops
  have hfold : (run ops).stats.maxFanOut = (run ops).edges.vals.foldl (fun m x => Nat.max m x.length) 0 := by
    unfold stats
    simp only
    rw [List.foldl_map]
  rw [hfold]
  obtain ⟨h1, h2, h3⟩ := le_foldl_max List.length (run ops).edges.vals 0
  constructor
  · intro hk a
    unfold out
    cases hg : (run ops).edges.get a with
    | none => simp
    | some l =>
      have := h2 l (List.mem_map.2 ⟨(a, l), OMap.mem_of_get hg, rfl⟩)
      simp only [Option.getD_some]
      omega
  · intro hk
    rcases h3 with h3 | ⟨l, hl, h3⟩
    · rw [h3]; exact Nat.zero_le _
    · rw [h3]
      obtain ⟨⟨a, l'⟩, hm, rfl⟩ := List.mem_map.1 hl
      have := hk a
      unfold out at this
      rw [(OMap.mem_iff_get h.es).1 hm] at this
      exact this

theorem functional_of_fanOut (hf : (run ops).stats.maxFanOut ≤ 1) :
    Walk.Functional (fun x y => (spec ops).edge x y = true) := by
  intro x y z h1 h2
  have hl := (maxFanOut_iff ops 1).1 hf x
  have i := asSource_is ops
  have m1 := (i.out_iff x y).2 h1
  have m2 := (i.out_iff x z).2 h2
  unfold asSource at m1 m2
  simp only at m1 m2
  cases hx : (run ops).out x with
  | nil => simp [hx] at m1
  | cons u r =>
    rw [hx] at hl m1 m2
    cases r with
    | nil =>
      rw [List.mem_singleton] at m1 m2
      rw [m1, m2]
    | cons v r => simp at hl

theorem injective_of_once (ho : targetsOnce [] (targets (run ops).edges) = true) :
    Walk.InjectiveRel (fun x y => (spec ops).edge x y = true) := by
  have hn := ((targetsOnce_iff _ _).1 ho).1
  obtain ⟨h, r1, _⟩ := run_refines ops
  intro x y z hx hy
  by_contra hne
  unfold targets OMap.vals at hn
  rw [List.nodup_flatten] at hn
  have hp := hn.2
  rw [List.pairwise_map] at hp
  have hmem : ∀ x, (spec ops).edge x z = true → ∃ l, (x, l) ∈ (run ops).edges ∧ z ∈ l := by
    intro x hx
    have := (r1 x z).2 hx
    unfold out at this
    cases hg : (run ops).edges.get x with
    | none => simp [hg] at this
    | some l =>
      rw [hg] at this
      exact ⟨l, OMap.mem_of_get hg, this⟩
  obtain ⟨l1, m1, z1⟩ := hmem x hx
  obtain ⟨l2, m2, z2⟩ := hmem y hy
  have hsym : Std.Symm (fun (p q : N × List N) => List.Disjoint p.2 q.2) := ⟨fun _ _ hd => hd.symm⟩
  have := List.Pairwise.forall hp m1 m2 (fun e => hne (by injection e))
  exact this z1 z2

theorem visits_le_nodes [U64 N] (ho : targetsOnce [] (targets (run ops).edges) = true) :
    (run ops).stats.visits ≤ (run ops).stats.nodes := by
  have hi := injective_of_once ops ho
  have i := asSource_is ops
  have hE : ∀ x y, Dfs.Edge (run ops).out x y ↔ (spec ops).edge x y = true := fun x y => (run_refines ops).2.1 x y
  have hi' : Walk.InjectiveRel (Dfs.Edge (run ops).out) := fun x y z hx hy =>
    hi x y z ((hE x z).1 hx) ((hE y z).1 hy)
  show ((run ops).statRoots.flatMap (run ops).statSteps).length ≤ (run ops).statNodes.length
  have e : ((run ops).statRoots.flatMap (run ops).statSteps).length =
      ((run ops).statRoots.flatMap fun r => ((run ops).statSteps r).map fun x => x.1).length := by
    simp [List.length_flatMap]
  rw [e]
  apply List.Subperm.length_le
  apply List.subperm_of_subset
  · rw [List.nodup_flatMap]
    refine ⟨?_, ?_⟩
    · intro r _
      exact Dfs.steps_nodup (covers_out _) i.out_nodup hi' r usizeMax
    · have hd := statRoots_nodup ops
      rw [List.nodup_iff_pairwise_ne] at hd
      refine List.Pairwise.imp_of_mem ?_ hd
      intro r s hr hs hne n hn1 hn2
      obtain ⟨⟨_, d1⟩, m1, rfl⟩ := List.mem_map.1 hn1
      obtain ⟨⟨n2, d2⟩, m2, e2⟩ := List.mem_map.1 hn2
      simp only at e2
      subst e2
      rw [mem_statSteps] at m1 m2
      exact hne (Walk.root_unique hi m1.walk m2.walk (statRoot_no_pred ops r hr) (statRoot_no_pred ops s hs)).1
  · intro n hn
    obtain ⟨r, hr, hn⟩ := List.mem_flatMap.1 hn
    obtain ⟨⟨_, d⟩, m, rfl⟩ := List.mem_map.1 hn
    rw [mem_statSteps] at m
    unfold statNodes
    rw [mem_firstVisits]
    simp only [List.not_mem_nil, not_false_eq_true, true_and, List.mem_map, Prod.mk.injEq, List.mem_append]
    refine ⟨0, _, ?_, rfl, rfl⟩
    cases d with
    | zero =>
      left
      rw [← Walk.walkLen_zero.1 m.walk]
      unfold statRoots at hr
      exact (List.mem_filter.1 hr).1
    | succ d =>
      right
      obtain ⟨c, _, hc⟩ := Walk.walkLen_snoc.1 m.walk
      exact (mem_targets ops _).2 ⟨c, hc⟩

theorem sum_le_visits [U64 N] :
    ((run ops).roots.map fun r => (Dfs.steps (run ops).out (targets (run ops).edges) r 1 usizeMax).length + 1).sum ≤
      (run ops).stats.visits := by
  have i := asSource_is ops
  show _ ≤ ((run ops).statRoots.flatMap (run ops).statSteps).length
  rw [List.length_flatMap]
  have e : ∀ r, (Dfs.steps (run ops).out (targets (run ops).edges) r 1 usizeMax).length + 1 =
      ((run ops).statSteps r).length := by
    intro r
    exact (Dfs.steps_zero_length (covers_out _) i.out_nodup r usizeMax).symm
  simp only [e]
  have hs : (run ops).roots.Subperm (run ops).statRoots :=
    List.subperm_of_subset i.root_nodup (fun r hr => roots_sub_statRoots ops r hr)
  obtain ⟨l, hp, hsub⟩ := hs
  rw [← (hp.map _).sum_nat]
  exact List.Sublist.sum_le_sum (hsub.map _) (by simp)

theorem maxDepth_of_walk [U64 N] (hc : (run ops).stats.cyclic = false) {r n : N} {d : Nat} (hr : r ∈ (run ops).statRoots)
    (h : Walk.SimplePath (fun x y => (spec ops).edge x y = true) r n d) : d ≤ (run ops).stats.maxDepth := by
  have hc' : (run ops).statCyclic = false := hc
  have e : (run ops).stats.maxDepth =
      ((run ops).statRoots.flatMap (run ops).statSteps).foldl (fun m x => Nat.max m x.2) 1 := by
    unfold stats
    simp [hc']
  rw [e]
  exact (le_foldl_max (fun x : N × Nat => x.2) _ 1).2.1 (n, d)
    (List.mem_flatMap.2 ⟨r, hr, (mem_statSteps ops r n d).2 h⟩)

/-- Without edges the depth is one. -/
theorem maxDepth_le_one [U64 N] (hr : ∀ r ∈ (run ops).statRoots, r ∉ (run ops).roots) : (run ops).stats.maxDepth ≤ 1 := by
  unfold stats
  simp only
  split
  · exact Nat.zero_le _
  · rcases (le_foldl_max (fun x : N × Nat => x.2) ((run ops).statRoots.flatMap (run ops).statSteps) 1).2.2 with h | ⟨x, hx, h⟩
    · rw [h]
    · rw [h]
      obtain ⟨r, hr', hx⟩ := List.mem_flatMap.1 hx
      obtain ⟨n, d⟩ := x
      rw [mem_statSteps] at hx
      cases d with
      | zero => exact Nat.zero_le _
      | succ d =>
        obtain ⟨c, hc, _⟩ := Walk.walkLen_succ.1 hx.walk
        exact absurd hc (statRoot_leftover ops r hr' (hr r hr') c)

/-- The cycle flag, for components whose number of edges fits a machine number. -/
theorem cyclic_iff [U64 N] (hsize : (targets (run ops).edges).length < usizeMax) :
    (run ops).stats.cyclic = true ↔ ((run ops).statRoots = [] ∧ (run ops).edges ≠ []) ∨
      ∃ r ∈ (run ops).statRoots, ∃ c, Relation.ReflTransGen (fun x y => (spec ops).edge x y = true) r c ∧
        Relation.TransGen (fun x y => (spec ops).edge x y = true) c c := by
  have hE : Dfs.Edge (run ops).out = fun x y => (spec ops).edge x y = true := by
    funext x y; exact propext ((run_refines ops).2.1 x y)
  show (run ops).statCyclic = true ↔ _
  unfold statCyclic
  by_cases h : (run ops).statRoots = [] ∧ (run ops).edges ≠ []
  · simp [h]
  · have hb : ((run ops).statRoots.isEmpty && !(run ops).edges.isEmpty) = false := by
      cases h1 : (run ops).statRoots with
      | cons x r => simp
      | nil =>
        cases h2 : (run ops).edges with
        | nil => simp
        | cons x r => exact absurd ⟨h1, by simp [h2]⟩ h
    rw [hb]
    simp only [Bool.false_eq_true, if_false, List.any_eq_true, h, false_or]
    constructor
    · rintro ⟨r, hr, hc⟩
      rw [Dfs.C10_cycle_flag (covers_out _) r 0 usizeMax hsize, hE] at hc
      exact ⟨r, hr, hc⟩
    · rintro ⟨r, hr, hc⟩
      refine ⟨r, hr, ?_⟩
      rw [Dfs.C10_cycle_flag (covers_out _) r 0 usizeMax hsize, hE]
      exact hc

end

end Adj
