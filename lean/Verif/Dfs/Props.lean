import Verif.Dfs.Lemmas
import Mathlib.Data.List.Perm.Subperm

/-!
# C10: the cycle-safe traversal enumerates exactly the simple paths
-/

set_option linter.unusedSimpArgs false
set_option linter.unusedSectionVars false

namespace Dfs

variable {N : Type} [DecidableEq N]

/-- The edge relation of a neighbour function. -/
def Edge (next : N → List N) (a c : N) : Prop := c ∈ next a

/-- `V` lists all nodes with an incoming edge (the graph is finite). -/
def Covers (V : List N) (next : N → List N) : Prop := ∀ a, ∀ c ∈ next a, c ∈ V

theorem le_sum_of_mem {l : List Nat} {x : Nat} (h : x ∈ l) : x ≤ l.sum := by
  induction l with
  | nil => simp at h
  | cons a r ih =>
    rw [List.sum_cons]
    rcases List.mem_cons.1 h with rfl | h
    · omega
    · have := ih h; omega

section
variable {next : N → List N} {V : List N} (min max : Nat) (start : N) (inv : Bool)

theorem exec_init (hV : Covers V next) :
    ∃ m, m ≤ fuelFor next (start :: V) ∧ ∃ s', s'.stack = [] ∧
      s'.cyclic = (inv || subCyc next max (start :: V).length [] start) ∧
      ∀ f, exec next min max (m + f) (init start inv) =
        ((subPaths next max (start :: V).length [] start).filterMap (report min max), s') := by
  have hV' : ∀ a ∈ start :: V, ∀ c ∈ next a, c ∈ start :: V := fun a _ c hc => List.mem_cons_of_mem _ (hV a c hc)
  have hb : ∀ a ∈ start :: V, (next a).length ≤ ((start :: V).map fun n => (next n).length).sum := by
    intro a ha
    exact le_sum_of_mem (List.mem_map_of_mem ha)
  have hleft : left (start :: V) [] ≤ (start :: V).length := List.length_filter_le _ _
  obtain ⟨m, hm, s', _, st, _, hc, hx⟩ := exec_node next min max hV' hb _ [] start (init start inv) [] hleft
    (by simp) (Inv.init start inv) rfl (by simp)
  refine ⟨m, hm, s', st, hc, ?_⟩
  intro f
  rw [hx, exec_zero_stack next min max f st]
  simp

theorem steps_eq (hV : Covers V next) :
    steps next V start min max inv = (subPaths next max (start :: V).length [] start).filterMap (report min max) := by
  obtain ⟨m, hm, s', st, hc, hx⟩ := exec_init min max start inv hV
  unfold steps
  rw [← Nat.add_sub_cancel' hm, hx]

theorem isCyclic_eq (hV : Covers V next) :
    isCyclic next V start min max inv = (inv || subCyc next max (start :: V).length [] start) := by
  obtain ⟨m, hm, s', st, hc, hx⟩ := exec_init min max start inv hV
  unfold isCyclic
  rw [← Nat.add_sub_cancel' hm, hx, hc]

/-- A path in `subPaths` from the start. -/
theorem mem_paths (hV : Covers V next) (q : List N) :
    q ∈ subPaths next max (start :: V).length [] start ↔
      q.Nodup ∧ (∃ n, Walk.IsWalk (Edge next) start n q) ∧ q.length ≤ max + 1 := by
  have hV' : ∀ a ∈ start :: V, ∀ c ∈ next a, c ∈ start :: V := fun a _ c hc => List.mem_cons_of_mem _ (hV a c hc)
  have hleft : left (start :: V) [] ≤ (start :: V).length := List.length_filter_le _ _
  rw [mem_subPaths next max hV' _ [] start hleft (by simp) (by simp) (by simp)]
  constructor
  · rintro ⟨r, rfl, hn, hch, hl⟩
    refine ⟨hn, ?_, hl⟩
    obtain ⟨n, hn'⟩ : ∃ n, (start :: r).getLast? = some n :=
      ⟨(start :: r).getLast (by simp), List.getLast?_eq_some_getLast (by simp)⟩
    exact ⟨n, rfl, hn', hch⟩
  · rintro ⟨hn, ⟨n, h1, h2, h3⟩, hl⟩
    cases q with
    | nil => simp at h1
    | cons a r =>
      simp only [List.head?_cons, Option.some.injEq] at h1
      subst h1
      exact ⟨r, rfl, hn, h3, hl⟩

/-- C10: on every finite graph the traversal ends: after `fuelFor` loop iterations the stack is empty, and any larger
number of iterations gives the same result. -/
theorem C10_terminates (hV : Covers V next) :
    (exec next min max (fuelFor next (start :: V)) (init start inv)).2.stack = [] ∧
    ∀ f, exec next min max (fuelFor next (start :: V) + f) (init start inv) =
      exec next min max (fuelFor next (start :: V)) (init start inv) := by
  obtain ⟨m, hm, s', st, hc, hx⟩ := exec_init min max start inv hV
  obtain ⟨e, he⟩ := Nat.exists_eq_add_of_le hm
  constructor
  · rw [he, hx]; exact st
  · intro f
    rw [he, hx, Nat.add_assoc, hx]

/-- C10: node `n` is reported with distance `d` iff there is a path without repeated nodes of length `d` and `d` is in the
requested range. -/
theorem C10_steps (hV : Covers V next) (n : N) (d : Nat) :
    (n, d) ∈ steps next V start min max inv ↔ Walk.SimplePath (Edge next) start n d ∧ min ≤ d ∧ d ≤ max := by
  rw [steps_eq min max start inv hV, List.mem_filterMap]
  constructor
  · rintro ⟨q, hq, hr⟩
    obtain ⟨hnd, ⟨n', hw⟩, hl⟩ := (mem_paths max start hV q).1 hq
    unfold report at hr
    rw [hw.2.1] at hr
    simp only at hr
    split at hr
    · rename_i hc
      injection hr with hr
      injection hr with h1 h2
      subst h1 h2
      refine ⟨⟨q, hw, hnd, ?_⟩, hc⟩
      cases q with
      | nil => simp [Walk.IsWalk] at hw
      | cons a r => simp
    · cases hr
  · rintro ⟨⟨q, hw, hnd, hl⟩, hc⟩
    refine ⟨q, (mem_paths max start hV q).2 ⟨hnd, ⟨n, hw⟩, by omega⟩, ?_⟩
    unfold report
    rw [hw.2.1]
    simp [hl, hc]

/-- C10: every simple path in the range is reported exactly once (if no neighbour is listed twice). -/
theorem C10_each_path_once (hV : Covers V next) (hnd : ∀ a, (next a).Nodup) :
    ∃ ps : List (List N), ps.Nodup ∧
      (∀ q, q ∈ ps ↔ q.Nodup ∧ (∃ n, Walk.IsWalk (Edge next) start n q) ∧ min ≤ q.length - 1 ∧ q.length - 1 ≤ max) ∧
      (steps next V start min max inv).map (fun r => (some r.1, r.2)) = ps.map (fun q => (q.getLast?, q.length - 1)) := by
  have hV' : ∀ a ∈ start :: V, ∀ c ∈ next a, c ∈ start :: V := fun a _ c hc => List.mem_cons_of_mem _ (hV a c hc)
  have hleft : left (start :: V) [] ≤ (start :: V).length := List.length_filter_le _ _
  have hn := nodup_subPaths next max hV' (fun a _ => hnd a) _ [] start hleft (by simp) (by simp) (by simp)
  refine ⟨(subPaths next max (start :: V).length [] start).filter
    (fun q => decide (min ≤ q.length - 1 ∧ q.length - 1 ≤ max)), hn.sublist List.filter_sublist, ?_, ?_⟩
  · intro q
    rw [List.mem_filter, mem_paths max start hV, decide_eq_true_eq]
    constructor
    · rintro ⟨⟨a, b, _⟩, c⟩; exact ⟨a, b, c⟩
    · rintro ⟨a, b, c⟩; exact ⟨⟨a, b, by omega⟩, c⟩
  · rw [steps_eq min max start inv hV]
    have hall : ∀ q ∈ subPaths next max (start :: V).length [] start, ∃ n, q.getLast? = some n := by
      intro q hq
      obtain ⟨_, ⟨n, hw⟩, _⟩ := (mem_paths max start hV q).1 hq
      exact ⟨n, hw.2.1⟩
    generalize subPaths next max (start :: V).length [] start = l at hall
    induction l with
    | nil => rfl
    | cons q l ih =>
      obtain ⟨n, hq⟩ := hall q (by simp)
      have ih := ih (fun q hq => hall q (by simp [hq]))
      have hr : report min max q =
          if min ≤ q.length - 1 ∧ q.length - 1 ≤ max then some (n, q.length - 1) else none := by
        unfold report; rw [hq]
      rw [List.filterMap_cons, hr, List.filter_cons]
      by_cases hc : min ≤ q.length - 1 ∧ q.length - 1 ≤ max
      · simp only [hc, and_self, if_true, decide_true, List.map_cons, hq, ih]
      · rw [if_neg hc, if_neg (by simpa using hc), ih]

end

/-- A list with a repeated element has a repetition-free prefix followed by one of its elements. -/
theorem exists_repeat : ∀ w : List N, ¬ w.Nodup → ∃ q x, q ++ [x] <+: w ∧ q.Nodup ∧ x ∈ q := by
  intro w
  rw [← List.reverse_reverse w]
  induction w.reverse with
  | nil => intro h; exact absurd (by simp) h
  | cons a r ih =>
    intro h
    rw [List.reverse_cons] at h ⊢
    by_cases hr : r.reverse.Nodup
    · refine ⟨r.reverse, a, List.prefix_refl _, hr, ?_⟩
      by_contra hc
      apply h
      rw [List.nodup_append]
      refine ⟨hr, by simp, ?_⟩
      rintro x hx y hy rfl
      simp only [List.mem_singleton] at hy
      subst hy; exact hc hx
    · obtain ⟨q, x, hp, h2⟩ := ih hr
      exact ⟨q, x, hp.trans (List.prefix_append _ _), h2⟩

/-- C10: after an unrestricted forward traversal the cycle flag is set iff a cycle is reachable from the start. -/
theorem C10_cycle_flag {next : N → List N} {V : List N} (hV : Covers V next) (start : N) (min max : Nat)
    (hmax : V.length < max) :
    isCyclic next V start min max = true ↔
      ∃ c, Relation.ReflTransGen (Edge next) start c ∧ Relation.TransGen (Edge next) c c := by
  have hV' : ∀ a ∈ start :: V, ∀ c ∈ next a, c ∈ start :: V := fun a _ c hc => List.mem_cons_of_mem _ (hV a c hc)
  have hleft : left (start :: V) [] ≤ (start :: V).length := List.length_filter_le _ _
  rw [isCyclic_eq min max start false hV, Bool.false_or,
    subCyc_iff next max hV' _ [] start hleft (by simp) (by simp) (by simp) (by simp)]
  constructor
  · rintro ⟨q, hq, n, hn, hl, c, hc, hcq⟩
    obtain ⟨_, ⟨n', hw⟩, _⟩ := (mem_paths max start hV q).1 hq
    obtain ⟨l1, l2, rfl⟩ := List.append_of_mem hcq
    have hch := hw.2.2
    rw [List.isChain_append] at hch
    have h1 : Relation.ReflTransGen (Edge next) start c := by
      refine Walk.reach_iff_walk.2 ⟨l1.length, l1 ++ [c], ⟨?_, by simp, ?_⟩, by simp⟩
      · have := hw.1
        rw [List.head?_append] at this ⊢
        simpa using this
      · rw [List.isChain_append]
        refine ⟨hch.1, by simp, ?_⟩
        intro x hx y hy
        exact hch.2.2 x hx y (by simpa using hy)
    refine ⟨c, h1, ?_⟩
    have h2 : Relation.ReflTransGen (Edge next) c n := by
      refine Walk.reach_iff_walk.2 ⟨l2.length, c :: l2, ⟨rfl, ?_, hch.2.1⟩, by simp⟩
      rw [List.getLast?_append] at hn
      rw [List.getLast?_eq_some_getLast (by simp : c :: l2 ≠ [])] at hn ⊢
      simpa using hn
    exact Relation.TransGen.tail' h2 hc
  · rintro ⟨c, h1, h2⟩
    obtain ⟨d1, p1, hw1, hl1⟩ := Walk.reach_iff_walk.1 h1
    obtain ⟨e, hce, hec⟩ := Relation.TransGen.head'_iff.1 h2
    obtain ⟨d2, p2, hw2, hl2⟩ := Walk.reach_iff_walk.1 hec
    -- the walk start → c → e → c repeats c
    have hchain : List.IsChain (Edge next) (p1 ++ p2) := by
      rw [List.isChain_append]
      refine ⟨hw1.2.2, hw2.2.2, ?_⟩
      intro x hx y hy
      rw [hw1.2.1] at hx; rw [hw2.1] at hy
      simp at hx hy; subst hx hy; exact hce
    have hrep : ¬ (p1 ++ p2).Nodup := by
      intro hn
      rw [List.nodup_append] at hn
      exact hn.2.2 c (List.mem_of_getLast? hw1.2.1) c (List.mem_of_getLast? hw2.2.1) rfl
    obtain ⟨q, x, ⟨r, hr⟩, hqn, hxq⟩ := exists_repeat _ hrep
    have hq0 : q ≠ [] := by rintro rfl; simp at hxq
    obtain ⟨n, hn⟩ : ∃ n, q.getLast? = some n := ⟨q.getLast hq0, List.getLast?_eq_some_getLast hq0⟩
    rw [← hr, List.append_assoc, List.isChain_append] at hchain
    have hstart : q.head? = some start := by
      have : (p1 ++ p2).head? = some start := by rw [List.head?_append, hw1.1]; rfl
      rw [← hr, List.append_assoc, List.head?_append] at this
      cases q with
      | nil => exact absurd rfl hq0
      | cons a t => simpa using this
    have hwq : Walk.IsWalk (Edge next) start n q := ⟨hstart, hn, hchain.1⟩
    have hqlen : q.length ≤ max := by
      have hsub : q ⊆ start :: V := by
        intro y hy
        cases q with
        | nil => simp at hy
        | cons a t =>
          simp only [List.head?_cons, Option.some.injEq] at hstart
          subst hstart
          rcases List.mem_cons.1 hy with rfl | hy
          · simp
          · have hch := hchain.1
            obtain ⟨i, hi, rfl⟩ := List.getElem_of_mem hy
            have := List.isChain_iff_getElem.1 hch i (by simp; omega)
            exact List.mem_cons_of_mem _ (hV _ _ this)
      have := (hqn.subperm hsub).length_le
      simp at this
      omega
    refine ⟨q, (mem_paths max start hV q).2 ⟨hqn, ⟨n, hwq⟩, by omega⟩, n, hn, hqlen, x, ?_, hxq⟩
    exact hchain.2.2 n hn x (by simp)

/-- The distance bound of the unbounded search is never reached, because a path without repetition is no longer than the
number of nodes. -/
theorem simplePath_length {next : N → List N} {V : List N} (hV : Covers V next) {a b : N} {d : Nat}
    (h : Walk.SimplePath (Edge next) a b d) : d ≤ V.length := by
  obtain ⟨p, hw, hn, hl⟩ := h
  cases p with
  | nil => simp at hl
  | cons x t =>
    have hsub : t ⊆ V := by
      intro y hy
      obtain ⟨i, hi, rfl⟩ := List.getElem_of_mem hy
      have := List.isChain_iff_getElem.1 hw.2.2 i (by simp; omega)
      exact hV _ _ this
    have := ((List.nodup_cons.1 hn).2.subperm hsub).length_le
    simp at hl
    omega

/-! ## Non-vacuity: a graph with a cycle and two paths to one node -/

/-- 0 → 1, 0 → 2, 1 → 2, 2 → 0. -/
def demoNext : Nat → List Nat
  | 0 => [1, 2]
  | 1 => [2]
  | 2 => [0]
  | _ => []

theorem demo_covers : Covers [0, 1, 2] demoNext := by
  intro a c hc
  match a with
  | 0 => simp [demoNext] at hc ⊢; omega
  | 1 => simp [demoNext] at hc ⊢; omega
  | 2 => simp [demoNext] at hc ⊢; omega
  | n + 3 => simp [demoNext] at hc

example : steps demoNext [0, 1, 2] 0 1 10 = [(2, 1), (1, 1), (2, 2)] ∧ isCyclic demoNext [0, 1, 2] 0 1 10 = true := by
  decide

end Dfs
