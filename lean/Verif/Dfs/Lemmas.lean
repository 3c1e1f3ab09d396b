import Verif.Dfs.Model
import Verif.Util.Walk

/-!
# Helper lemmas for the depth-first traversal
-/

set_option linter.unusedSimpArgs false
set_option linter.unusedSectionVars false

namespace Dfs

variable {N : Type} [DecidableEq N]

/-- Invariant of the traversal. -/
structure Inv (s : State N) : Prop where
  nodup : s.path.Nodup
  mem : ∀ x, x ∈ s.inPath ↔ x ∈ s.path
  len : s.path.length ≤ s.last + 1

theorem Inv.init (start : N) (i : Bool) : Inv (init start i) := ⟨by simp [Dfs.init], by simp [Dfs.init], by simp [Dfs.init]⟩

theorem mem_foldl_filter (l : List N) : ∀ (acc : List N) (x : N),
    x ∈ l.foldl (fun acc x => acc.filter (· ≠ x)) acc ↔ x ∈ acc ∧ x ∉ l := by
  induction l with
  | nil => intro acc x; simp
  | cons a r ih =>
    intro acc x
    rw [List.foldl_cons, ih, List.mem_filter]
    simp only [List.mem_cons, not_or, decide_eq_true_eq]
    tauto

theorem truncate_spec {s : State N} (h : Inv s) (dist : Nat) :
    (truncate s dist).path = s.path.take dist ∧ (∀ x, x ∈ (truncate s dist).inPath ↔ x ∈ s.path.take dist) ∧
    (truncate s dist).stack = s.stack ∧ (truncate s dist).cyclic = s.cyclic := by
  unfold truncate
  split
  · refine ⟨rfl, ?_, rfl, rfl⟩
    intro x
    simp only
    rw [mem_foldl_filter, h.mem]
    have hnd := h.nodup
    rw [← List.take_append_drop dist s.path, List.nodup_append] at hnd
    constructor
    · rintro ⟨h1, h2⟩
      rw [← List.take_append_drop dist s.path, List.mem_append] at h1
      tauto
    · intro hx
      refine ⟨List.mem_of_mem_take hx, ?_⟩
      intro hd
      exact hnd.2.2 x hx x hd rfl
  · rename_i hlt
    have := h.len
    rw [List.take_of_length_le (by omega)]
    exact ⟨rfl, h.mem, rfl, rfl⟩

theorem foldl_push (l : List N) (d : Nat) : ∀ st : List (N × Nat),
    l.foldl (fun st o => (o, d) :: st) st = l.reverse.map (fun o => (o, d)) ++ st := by
  induction l with
  | nil => intro st; rfl
  | cons a r ih => intro st; rw [List.foldl_cons, ih]; simp

/-- One step on an entry whose path prefix is `p`. -/
theorem enter_spec (next : N → List N) (min max : Nat) {s : State N} (h : Inv s) {p : List N} {node : N}
    {rest : List (N × Nat)} (hst : s.stack = (node, p.length) :: rest) (hp : s.path.take p.length = p) :
    (node ∈ p → (enter next min max s node p.length).2 = false ∧ Inv (enter next min max s node p.length).1 ∧
      (enter next min max s node p.length).1.stack = rest ∧ (enter next min max s node p.length).1.path = p ∧
      (enter next min max s node p.length).1.cyclic = true) ∧
    (node ∉ p → (enter next min max s node p.length).2 = (decide (min ≤ p.length) && decide (p.length ≤ max)) ∧
      Inv (enter next min max s node p.length).1 ∧
      (enter next min max s node p.length).1.stack =
        (if p.length < max then (next node).reverse.map (fun o => (o, p.length + 1)) else []) ++ rest ∧
      (enter next min max s node p.length).1.path = p ++ [node] ∧
      (enter next min max s node p.length).1.cyclic = s.cyclic) := by
  obtain ⟨t1, t2, t3, t4⟩ := truncate_spec h p.length
  have hpn : p.Nodup := by rw [← hp]; exact h.nodup.sublist (List.take_sublist _ _)
  rw [hp] at t1 t2
  constructor
  · intro hm
    have : node ∈ (truncate s p.length).inPath := (t2 node).2 hm
    unfold enter
    simp only [this, if_true]
    refine ⟨trivial, ⟨?_, ?_, ?_⟩, ?_, t1, trivial⟩
    · simp only [t1]; exact hpn
    · intro x; simp only [t1]; exact t2 x
    · simp only [t1]; omega
    · simp only [t3, hst, List.tail_cons]
  · intro hm
    have : node ∉ (truncate s p.length).inPath := fun hc => hm ((t2 node).1 hc)
    unfold enter
    simp only [this, if_false]
    refine ⟨trivial, ⟨?_, ?_, ?_⟩, ?_, ?_, ?_⟩
    · split <;>
      · simp only [t1]
        rw [List.nodup_append]
        refine ⟨hpn, by simp, ?_⟩
        rintro a ha b hb rfl
        simp at hb
        subst hb; exact hm ha
    · split <;>
      · intro x; simp only [t1, List.mem_cons, List.mem_append, List.mem_singleton, t2]; tauto
    · split <;> simp [t1]
    · split
      · simp only [foldl_push, t3, hst, List.tail_cons]
      · simp only [t3, hst, List.tail_cons, List.nil_append]
    · split <;> simp only [t1]
    · split <;> exact t4

/-- All simple extensions of the path `p ++ [node]` of at most `max` edges. -/
def subPaths (next : N → List N) (max : Nat) : Nat → List N → N → List (List N)
  | 0, _, _ => []
  | k + 1, p, node =>
    if node ∈ p then [] else
      (p ++ [node]) :: (if p.length < max then (next node).reverse.flatMap (subPaths next max k (p ++ [node])) else [])

/-- What is yielded for a path. -/
def report (min max : Nat) (q : List N) : Option (N × Nat) :=
  match q.getLast? with
  | some n => if min ≤ q.length - 1 ∧ q.length - 1 ≤ max then some (n, q.length - 1) else none
  | none => none

/-- Whether a cycle is detected below `node`. -/
def subCyc (next : N → List N) (max : Nat) : Nat → List N → N → Bool
  | 0, p, node => decide (node ∈ p)
  | k + 1, p, node =>
    if node ∈ p then true else
      (if p.length < max then (next node).reverse.any (subCyc next max k (p ++ [node])) else false)

theorem exec_zero_stack (next : N → List N) (min max f : Nat) {s : State N} (h : s.stack = []) :
    exec next min max f s = ([], s) := by
  cases f with
  | zero => rfl
  | succ f => unfold exec; rw [h]

theorem exec_cons (next : N → List N) (min max f : Nat) {s : State N} {node : N} {dist : Nat} {rest : List (N × Nat)}
    (h : s.stack = (node, dist) :: rest) :
    exec next min max (f + 1) s =
      ((if (enter next min max s node dist).2 then [(node, dist)] else []) ++
        (exec next min max f (enter next min max s node dist).1).1,
       (exec next min max f (enter next min max s node dist).1).2) := by
  conv_lhs => unfold exec
  rw [h]
  simp only
  split <;> simp

/-- Nodes of `V` that are not on the path. -/
def left (V : List N) (p : List N) : Nat := (V.filter (· ∉ p)).length

theorem left_append_lt {V : List N} {p : List N} {x : N} (hx : x ∈ V) (hp : x ∉ p) : left V (p ++ [x]) < left V p := by
  unfold left
  have hsub : V.filter (· ∉ p ++ [x]) = (V.filter (· ∉ p)).filter (· ≠ x) := by
    rw [List.filter_filter]
    apply List.filter_congr
    intro y _
    simp only [List.mem_append, List.mem_singleton, not_or, ← Bool.decide_and]
    congr 1
    exact propext and_comm
  rw [hsub]
  apply List.length_filter_lt_length_iff_exists.2
  exact ⟨x, by simp [hx, hp], by simp⟩

variable (next : N → List N) (min max : Nat)

/-- The traversal of everything below one stack entry. -/
theorem exec_node {V : List N} {b : Nat} (hV : ∀ a ∈ V, ∀ c ∈ next a, c ∈ V) (hb : ∀ a ∈ V, (next a).length ≤ b) :
    ∀ (k : Nat) (p : List N) (node : N) (s : State N) (rest : List (N × Nat)), left V p ≤ k → node ∈ V → Inv s →
      s.stack = (node, p.length) :: rest → s.path.take p.length = p →
      ∃ m, m ≤ (b + 1) ^ k ∧ ∃ s', Inv s' ∧ s'.stack = rest ∧ s'.path.take p.length = p ∧
        s'.cyclic = (s.cyclic || subCyc next max k p node) ∧
        ∀ f, exec next min max (m + f) s =
          ((subPaths next max k p node).filterMap (report min max) ++ (exec next min max f s').1,
            (exec next min max f s').2) := by
  intro k
  induction k with
  | zero =>
    intro p node s rest hk hn h hst hp
    have hmem : node ∈ p := by
      by_contra hc
      have := left_append_lt hn hc
      omega
    obtain ⟨e1, e2, e3, e4, e5⟩ := (enter_spec next min max h hst hp).1 hmem
    refine ⟨1, by simp, _, e2, e3, by rw [e4]; simp, by rw [e5]; simp [subCyc, hmem], ?_⟩
    intro f
    rw [Nat.add_comm, exec_cons next min max f hst]
    simp [e1, subPaths]
  | succ k ih =>
    intro p node s rest hk hn h hst hp
    by_cases hmem : node ∈ p
    · obtain ⟨e1, e2, e3, e4, e5⟩ := (enter_spec next min max h hst hp).1 hmem
      refine ⟨1, Nat.one_le_pow _ _ (by omega), _, e2, e3, by rw [e4]; simp, by rw [e5]; simp [subCyc, hmem], ?_⟩
      intro f
      rw [Nat.add_comm, exec_cons next min max f hst]
      simp [e1, subPaths, hmem]
    · obtain ⟨e1, e2, e3, e4, e5⟩ := (enter_spec next min max h hst hp).2 hmem
      have hleft : left V (p ++ [node]) ≤ k := by
        have := left_append_lt hn hmem
        omega
      -- the children
      have children : ∀ (cs : List N) (s : State N), (∀ c ∈ cs, c ∈ V) → Inv s →
          s.stack = cs.map (fun o => (o, p.length + 1)) ++ rest → s.path.take (p.length + 1) = p ++ [node] →
          ∃ m, m ≤ cs.length * (b + 1) ^ k ∧ ∃ s', Inv s' ∧ s'.stack = rest ∧
            s'.path.take (p.length + 1) = p ++ [node] ∧
            s'.cyclic = (s.cyclic || cs.any (subCyc next max k (p ++ [node]))) ∧
            ∀ f, exec next min max (m + f) s =
              ((cs.flatMap (subPaths next max k (p ++ [node]))).filterMap (report min max) ++ (exec next min max f s').1,
                (exec next min max f s').2) := by
        intro cs
        induction cs with
        | nil =>
          intro s _ h hst hp
          exact ⟨0, by simp, s, h, by simpa using hst, hp, by simp, by intro f; simp⟩
        | cons c cs ihc =>
          intro s hcV h hst hp
          have hl : (p ++ [node]).length = p.length + 1 := by simp
          obtain ⟨m1, hm1, s1, i1, st1, p1, c1, x1⟩ := ih (p ++ [node]) c s (cs.map (fun o => (o, p.length + 1)) ++ rest)
            hleft (hcV c (by simp)) h (by rw [hst, hl]; rfl) (by rw [hl]; exact hp)
          rw [hl] at p1
          obtain ⟨m2, hm2, s2, i2, st2, p2, c2, x2⟩ := ihc s1 (fun c hc => hcV c (by simp [hc])) i1 st1 p1
          refine ⟨m1 + m2, ?_, s2, i2, st2, p2, ?_, ?_⟩
          · simp only [List.length_cons, Nat.add_mul]; omega
          · rw [c2, c1]; simp [Bool.or_assoc]
          · intro f
            rw [Nat.add_assoc, x1, x2]
            simp
      have hbound : 1 + b * (b + 1) ^ k ≤ (b + 1) ^ (k + 1) := by
        rw [Nat.pow_succ, Nat.mul_add]
        have : 1 ≤ (b + 1) ^ k := Nat.one_le_pow _ _ (by omega)
        rw [Nat.mul_comm b]; omega
      by_cases hmx : p.length < max
      · simp only [hmx, if_true] at e3
        obtain ⟨m, hm, s', i', st', p', c', x'⟩ := children (next node).reverse _
          (fun c hc => hV node hn c (by simpa using hc)) e2 e3 (by rw [e4]; exact List.take_of_length_le (by simp))
        refine ⟨1 + m, ?_, s', i', st', ?_, ?_, ?_⟩
        · rw [List.length_reverse] at hm
          have : (next node).length * (b + 1) ^ k ≤ b * (b + 1) ^ k := Nat.mul_le_mul_right _ (hb node hn)
          omega
        · have : (s'.path.take (p.length + 1)).take p.length = (p ++ [node]).take p.length := by rw [p']
          rw [List.take_take] at this
          simpa using this
        · rw [c', e5]
          simp only [subCyc, hmem, if_false, hmx, if_true]
        · intro f
          have e : 1 + m + f = (m + f) + 1 := by omega
          rw [e, exec_cons next min max _ hst, x', e1]
          simp only [subPaths, hmem, if_false, hmx, if_true]
          rw [List.filterMap_cons]
          have hr : report min max (p ++ [node]) =
              if min ≤ p.length ∧ p.length ≤ max then some (node, p.length) else none := by
            unfold report; simp
          rw [hr]
          by_cases hc : min ≤ p.length ∧ p.length ≤ max
          · simp [hc]
          · rw [if_neg hc, if_neg (by simpa using hc)]; simp
      · simp only [hmx, if_false, List.nil_append] at e3
        refine ⟨1, Nat.one_le_pow _ _ (by omega), _, e2, e3, by rw [e4]; simp, ?_, ?_⟩
        · rw [e5]; simp [subCyc, hmem, hmx]
        · intro f
          rw [Nat.add_comm, exec_cons next min max f hst, e1]
          simp only [subPaths, hmem, if_false, hmx, if_false]
          have hr : report min max (p ++ [node]) =
              if min ≤ p.length ∧ p.length ≤ max then some (node, p.length) else none := by
            unfold report; simp
          rw [List.filterMap_cons, hr]
          by_cases hc : min ≤ p.length ∧ p.length ≤ max
          · simp [hc]
          · rw [if_neg hc, if_neg (by simpa using hc)]; simp

/-! ## What `subPaths` contains -/

theorem mem_subPaths {V : List N} (hV : ∀ a ∈ V, ∀ c ∈ next a, c ∈ V) :
    ∀ (k : Nat) (p : List N) (node : N), left V p ≤ k → node ∈ V → p.Nodup → p.length ≤ max → ∀ q,
      q ∈ subPaths next max k p node ↔
        ∃ r, q = p ++ node :: r ∧ q.Nodup ∧ List.IsChain (fun a c => c ∈ next a) (node :: r) ∧ q.length ≤ max + 1 := by
  intro k
  induction k with
  | zero =>
    intro p node hk hn _ _ q
    have hmem : node ∈ p := by
      by_contra hc
      have := left_append_lt hn hc
      omega
    simp only [subPaths, List.not_mem_nil, false_iff, not_exists]
    rintro r ⟨rfl, hnd, _⟩
    rw [List.nodup_append] at hnd
    exact hnd.2.2 node hmem node (by simp) rfl
  | succ k ih =>
    intro p node hk hn hp hmx q
    unfold subPaths
    by_cases hmem : node ∈ p
    · simp only [hmem, if_true, List.not_mem_nil, false_iff, not_exists]
      rintro r ⟨rfl, hnd, _⟩
      rw [List.nodup_append] at hnd
      exact hnd.2.2 node hmem node (by simp) rfl
    · have hleft : left V (p ++ [node]) ≤ k := by
        have := left_append_lt hn hmem
        omega
      have hpn : (p ++ [node]).Nodup := by
        rw [List.nodup_append]
        refine ⟨hp, by simp, ?_⟩
        rintro a ha b hb rfl
        simp at hb
        subst hb; exact hmem ha
      simp only [hmem, if_false, List.mem_cons]
      by_cases hlt : p.length < max
      · simp only [hlt, if_true, List.mem_flatMap, List.mem_reverse]
        constructor
        · rintro (rfl | ⟨c, hc, hq⟩)
          · exact ⟨[], rfl, hpn, by simp, by simp; omega⟩
          · obtain ⟨r, rfl, hnd, hch, hl⟩ := (ih (p ++ [node]) c hleft (hV node hn c hc) hpn (by simp; omega) q).1 hq
            refine ⟨c :: r, by simp, hnd, ?_, hl⟩
            rw [List.isChain_cons_cons]; exact ⟨hc, hch⟩
        · rintro ⟨r, rfl, hnd, hch, hl⟩
          cases r with
          | nil => left; rfl
          | cons c r =>
            rw [List.isChain_cons_cons] at hch
            right
            refine ⟨c, hch.1, (ih (p ++ [node]) c hleft (hV node hn c hch.1) hpn (by simp; omega) _).2
              ⟨r, by simp, hnd, hch.2, hl⟩⟩
      · simp only [hlt, if_false, List.not_mem_nil, or_false]
        constructor
        · rintro rfl
          exact ⟨[], rfl, hpn, by simp, by simp; omega⟩
        · rintro ⟨r, rfl, hnd, hch, hl⟩
          cases r with
          | nil => rfl
          | cons c r => simp at hl; omega

theorem subCyc_iff {V : List N} (hV : ∀ a ∈ V, ∀ c ∈ next a, c ∈ V) :
    ∀ (k : Nat) (p : List N) (node : N), left V p ≤ k → node ∈ V → node ∉ p → p.Nodup → p.length ≤ max →
      (subCyc next max k p node = true ↔
        ∃ q ∈ subPaths next max k p node, ∃ n ∈ q.getLast?, q.length ≤ max ∧ ∃ c ∈ next n, c ∈ q) := by
  intro k
  induction k with
  | zero =>
    intro p node hk hn hmem
    have := left_append_lt hn hmem
    omega
  | succ k ih =>
    intro p node hk hn hmem hp hmx
    have hleft : left V (p ++ [node]) ≤ k := by
      have := left_append_lt hn hmem
      omega
    have hpn : (p ++ [node]).Nodup := by
      rw [List.nodup_append]
      refine ⟨hp, by simp, ?_⟩
      rintro a ha b hb rfl
      simp at hb
      subst hb; exact hmem ha
    unfold subCyc subPaths
    simp only [hmem, if_false]
    by_cases hlt : p.length < max
    · simp only [hlt, if_true, List.any_eq_true, List.mem_reverse]
      constructor
      · rintro ⟨c, hc, hs⟩
        by_cases hcp : c ∈ p ++ [node]
        · exact ⟨p ++ [node], by simp, node, by simp, by simp; omega, c, hc, hcp⟩
        · obtain ⟨q, hq, rest⟩ := (ih (p ++ [node]) c hleft (hV node hn c hc) hcp hpn (by simp; omega)).1 hs
          refine ⟨q, ?_, rest⟩
          simp only [List.mem_cons, List.mem_flatMap, List.mem_reverse]
          exact Or.inr ⟨c, hc, hq⟩
      · rintro ⟨q, hq, n, hn', hl, c, hc, hcq⟩
        simp only [List.mem_cons, List.mem_flatMap, List.mem_reverse] at hq
        rcases hq with rfl | ⟨d, hd, hq⟩
        · simp only [List.getLast?_append, List.getLast?_singleton, Option.some_or, Option.mem_some] at hn'
          subst hn'
          refine ⟨c, hc, ?_⟩
          cases k with
          | zero => simp only [subCyc]; exact decide_eq_true hcq
          | succ k => simp only [subCyc]; rw [if_pos hcq]
        · refine ⟨d, hd, ?_⟩
          by_cases hdp : d ∈ p ++ [node]
          · cases k with
            | zero => simp only [subCyc]; exact decide_eq_true hdp
            | succ k => simp only [subCyc]; rw [if_pos hdp]
          · exact (ih (p ++ [node]) d hleft (hV node hn d hd) hdp hpn (by simp; omega)).2 ⟨q, hq, n, hn', hl, c, hc, hcq⟩
    · simp only [hlt, if_false, Bool.false_eq_true, false_iff, not_exists, not_and, List.mem_singleton]
      rintro q rfl n _ hl
      simp at hl; omega

theorem nodup_subPaths {V : List N} (hV : ∀ a ∈ V, ∀ c ∈ next a, c ∈ V) (hnd : ∀ a ∈ V, (next a).Nodup) :
    ∀ (k : Nat) (p : List N) (node : N), left V p ≤ k → node ∈ V → p.Nodup → p.length ≤ max →
      (subPaths next max k p node).Nodup := by
  intro k
  induction k with
  | zero => intro p node _ _ _ _; simp [subPaths]
  | succ k ih =>
    intro p node hk hn hp hmx
    unfold subPaths
    by_cases hmem : node ∈ p
    · simp [hmem]
    · have hleft : left V (p ++ [node]) ≤ k := by
        have := left_append_lt hn hmem
        omega
      have hpn : (p ++ [node]).Nodup := by
        rw [List.nodup_append]
        refine ⟨hp, by simp, ?_⟩
        rintro a ha b hb rfl
        simp at hb
        subst hb; exact hmem ha
      simp only [hmem, if_false]
      by_cases hlt : p.length < max
      · simp only [hlt, if_true]
        rw [List.nodup_cons]
        have key : ∀ c ∈ next node, ∀ q ∈ subPaths next max k (p ++ [node]) c, ∃ r, q = (p ++ [node]) ++ c :: r := by
          intro c hc q hq
          obtain ⟨r, hr, _⟩ := (mem_subPaths next max hV k (p ++ [node]) c hleft (hV node hn c hc) hpn
            (by simp; omega) q).1 hq
          exact ⟨r, hr⟩
        constructor
        · rw [List.mem_flatMap]
          rintro ⟨c, hc, hq⟩
          obtain ⟨r, hr⟩ := key c (by simpa using hc) _ hq
          have := congrArg List.length hr
          simp at this
        · rw [List.nodup_flatMap]
          refine ⟨fun c hc => ih _ _ hleft (hV node hn c (by simpa using hc)) hpn (by simp; omega), ?_⟩
          have hrn : (next node).reverse.Nodup := List.nodup_reverse.2 (hnd node hn)
          rw [List.nodup_iff_pairwise_ne] at hrn
          refine hrn.imp_of_mem ?_
          intro c d hc hd hcd q hqc hqd
          obtain ⟨r, hr⟩ := key c (by simpa using hc) q hqc
          obtain ⟨r', hr'⟩ := key d (by simpa using hd) q hqd
          rw [hr] at hr'
          have := List.append_cancel_left hr'
          injection this with h1 _
          exact hcd h1
      · simp [hlt]

end Dfs
