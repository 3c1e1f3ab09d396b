import Verif.PrePost.Model
import Verif.Dfs.Props

/-!
# Numbering of the traversal tree

`number` assigns pre- and post-order numbers to all paths of the traversal tree by structural recursion.  It is only used in
proofs: `machine` shows that the stack machine of `copy` computes it.
-/

set_option linter.unusedSimpArgs false
set_option linter.unusedSectionVars false

namespace PrePostGs

variable {N : Type} [LinearOrder N]

/-- A numbered path. -/
structure Ent (N : Type) where
  path : List N
  node : N
  pre : Nat
  post : Nat

/-- The order entry of a numbered path. -/
def Ent.pp (e : Ent N) : PP := ⟨e.pre, e.post, e.path.length - 1⟩

def number (next : N → List N) (max : Nat) : Nat → List N → N → Nat → List (Ent N) × Nat
  | 0, _, _, c => ([], c)
  | k + 1, p, node, c =>
    if node ∈ p then ([], c) else
      let r := (if p.length < max then (next node).reverse else []).foldl
        (fun acc ch => (acc.1 ++ (number next max k (p ++ [node]) ch acc.2).1, (number next max k (p ++ [node]) ch acc.2).2))
        ([], c + 1)
      (r.1 ++ [⟨p ++ [node], node, c, r.2⟩], r.2 + 1)

/-- Numbering of several children. -/
def numbers (next : N → List N) (max k : Nat) (p : List N) (cs : List N) (c : Nat) : List (Ent N) × Nat :=
  cs.foldl (fun acc ch => (acc.1 ++ (number next max k p ch acc.2).1, (number next max k p ch acc.2).2)) ([], c)

theorem foldl_numbers (next : N → List N) (max k : Nat) (p : List N) (cs : List N) : ∀ (l : List (Ent N)) (c : Nat),
    cs.foldl (fun acc ch => (acc.1 ++ (number next max k p ch acc.2).1, (number next max k p ch acc.2).2)) (l, c) =
      (l ++ (numbers next max k p cs c).1, (numbers next max k p cs c).2) := by
  induction cs with
  | nil => intro l c; simp [numbers]
  | cons x r ih =>
    intro l c
    simp only [numbers, List.foldl_cons, List.nil_append]
    rw [ih, ih (number next max k p x c).1]
    simp

theorem numbers_cons (next : N → List N) (max k : Nat) (p : List N) (x : N) (cs : List N) (c : Nat) :
    numbers next max k p (x :: cs) c =
      ((number next max k p x c).1 ++ (numbers next max k p cs (number next max k p x c).2).1,
        (numbers next max k p cs (number next max k p x c).2).2) := by
  conv_lhs => unfold numbers
  simp only [List.foldl_cons, List.nil_append]
  rw [foldl_numbers]

theorem number_succ (next : N → List N) (max k : Nat) (p : List N) (node : N) (c : Nat) :
    number next max (k + 1) p node c =
      if node ∈ p then ([], c) else
        ((numbers next max k (p ++ [node]) (if p.length < max then (next node).reverse else []) (c + 1)).1 ++
            [⟨p ++ [node], node, c,
              (numbers next max k (p ++ [node]) (if p.length < max then (next node).reverse else []) (c + 1)).2⟩],
          (numbers next max k (p ++ [node]) (if p.length < max then (next node).reverse else []) (c + 1)).2 + 1) := by
  conv_lhs => unfold number
  rfl

/-! ## The stack machine -/

theorem exits_stack (k : Nat) : ∀ (st : CState N), (exits k st).stack = st.stack.drop k := by
  induction k with
  | zero => intro st; simp [exits]
  | succ k ih =>
    intro st
    simp only [exits, ih]
    unfold exit
    cases hs : st.stack with
    | nil => simp [hs]
    | cons x r => obtain ⟨n, a, b⟩ := x; simp

theorem exits_succ (k : Nat) : ∀ (st : CState N), exits (k + 1) st = exit (exits k st) := by
  induction k with
  | zero => intro st; rfl
  | succ k ih => intro st; rw [exits, ih]; rfl

theorem exitTo_length (d : Nat) (st : CState N) : (exitTo d st).stack.length = Nat.min st.stack.length d := by
  unfold exitTo
  rw [exits_stack, List.length_drop]
  simp only [Nat.min_def]
  split <;> omega

theorem exitTo_of_le {d : Nat} {st : CState N} (h : st.stack.length ≤ d) : exitTo d st = st := by
  unfold exitTo
  rw [Nat.sub_eq_zero_of_le h]; rfl

theorem exitTo_idem (d : Nat) (st : CState N) : exitTo d (exitTo d st) = exitTo d st :=
  exitTo_of_le (by rw [exitTo_length]; exact Nat.min_le_right _ _)

theorem exitTo_succ {d : Nat} {st : CState N} (h : d < st.stack.length) : exitTo d st = exit (exitTo (d + 1) st) := by
  unfold exitTo
  have e : st.stack.length - d = (st.stack.length - (d + 1)) + 1 := by omega
  rw [e, exits_succ]

/-- Appending finished entries to `node_to_order`. -/
def pushAll (m : OMap N (List PP)) (es : List (Ent N)) : OMap N (List PP) :=
  es.foldl (fun (m : OMap N (List PP)) (e : Ent N) => m.insert e.node ((m.get e.node).getD [] ++ [e.pp])) m

theorem pushAll_append (m : OMap N (List PP)) (a b : List (Ent N)) : pushAll m (a ++ b) = pushAll (pushAll m a) b := by
  unfold pushAll; rw [List.foldl_append]

variable (next : N → List N) (max : Nat)

/-- The steps reported below one entry. -/
def sub (k : Nat) (p : List N) (node : N) : List (N × Nat) := (Dfs.subPaths next max k p node).filterMap (Dfs.report 1 max)

theorem sub_succ (k : Nat) (p : List N) (node : N) (hp : 1 ≤ p.length) (hmax : p.length ≤ max) :
    sub next max (k + 1) p node = if node ∈ p then [] else
      (node, p.length) :: (if p.length < max then (next node).reverse else []).flatMap (sub next max k (p ++ [node])) := by
  conv_lhs => unfold sub Dfs.subPaths
  by_cases hmem : node ∈ p
  · simp [hmem]
  · simp only [hmem, if_false]
    have hr : Dfs.report 1 max (p ++ [node]) = some (node, p.length) := by
      unfold Dfs.report; simp [hp, hmax]
    rw [List.filterMap_cons, hr]
    by_cases hlt : p.length < max
    · simp only [hlt, if_true]
      congr 1
      rw [List.filterMap_flatMap]
      rfl
    · simp [hlt]

theorem machine_children (lvlCap k : Nat) (p : List N)
    (ih : ∀ (node : N) (st : CState N) (last : Nat), (∀ q ∈ Dfs.subPaths next max k p node, q.length ≤ lvlCap + 1) →
      st.stack.length = last + 1 → p.length ≤ last + 1 →
      ∃ st2 last2, (sub next max k p node).foldl (procStep lvlCap) (st, last) = (st2, last2) ∧
        st2.stack.length = last2 + 1 ∧ p.length ≤ last2 + 1 ∧
        exitTo p.length st2 = ⟨(number next max k p node (exitTo p.length st).cur).2, (exitTo p.length st).stack,
          pushAll (exitTo p.length st).done (number next max k p node (exitTo p.length st).cur).1⟩) (cs : List N) :
    ∀ (st : CState N) (last : Nat), (∀ c ∈ cs, ∀ q ∈ Dfs.subPaths next max k p c, q.length ≤ lvlCap + 1) →
      st.stack.length = last + 1 → p.length ≤ last + 1 →
      ∃ st2 last2, (cs.flatMap (sub next max k p)).foldl (procStep lvlCap) (st, last) = (st2, last2) ∧
        st2.stack.length = last2 + 1 ∧ p.length ≤ last2 + 1 ∧
        exitTo p.length st2 = ⟨(numbers next max k p cs (exitTo p.length st).cur).2, (exitTo p.length st).stack,
          pushAll (exitTo p.length st).done (numbers next max k p cs (exitTo p.length st).cur).1⟩ := by
  induction cs with
  | nil =>
    intro st last _ h1 h2
    refine ⟨st, last, by simp, h1, h2, ?_⟩
    simp [numbers, pushAll]
  | cons c cs ihc =>
    intro st last hl h1 h2
    obtain ⟨st1, last1, e1, a1, b1, x1⟩ := ih c st last (hl c (by simp)) h1 h2
    obtain ⟨st2, last2, e2, a2, b2, x2⟩ := ihc st1 last1 (fun d hd => hl d (by simp [hd])) a1 b1
    refine ⟨st2, last2, ?_, a2, b2, ?_⟩
    · rw [List.flatMap_cons, List.foldl_append, e1, e2]
    · rw [x2, x1, numbers_cons]
      simp only [pushAll_append]

/-- The stack machine numbers the subtree of one entry. -/
theorem machine (lvlCap k : Nat) : ∀ (p : List N) (node : N) (st : CState N) (last : Nat), 1 ≤ p.length → p.length ≤ max →
    (∀ q ∈ Dfs.subPaths next max k p node, q.length ≤ lvlCap + 1) →
    st.stack.length = last + 1 → p.length ≤ last + 1 →
    ∃ st2 last2, (sub next max k p node).foldl (procStep lvlCap) (st, last) = (st2, last2) ∧
      st2.stack.length = last2 + 1 ∧ p.length ≤ last2 + 1 ∧
      exitTo p.length st2 = ⟨(number next max k p node (exitTo p.length st).cur).2, (exitTo p.length st).stack,
        pushAll (exitTo p.length st).done (number next max k p node (exitTo p.length st).cur).1⟩ := by
  induction k with
  | zero =>
    intro p node st last _ _ _ h1 h2
    exact ⟨st, last, by simp [sub, Dfs.subPaths], h1, h2, by simp [number, pushAll]⟩
  | succ k ih =>
    intro p node st last hp hpm hl h1 h2
    rw [sub_succ next max k p node hp hpm, number_succ]
    by_cases hmem : node ∈ p
    · simp only [hmem, if_true]
      exact ⟨st, last, by simp, h1, h2, by simp [pushAll]⟩
    · simp only [hmem, if_false]
      have hlvl : p.length ≤ lvlCap := by
        have := hl (p ++ [node]) (by unfold Dfs.subPaths; simp [hmem])
        simp at this; omega
      rw [List.foldl_cons]
      have hstep : procStep lvlCap (st, last) (node, p.length) = (enter (exitTo p.length st) node p.length, p.length) := by
        unfold procStep
        simp only [hlvl, if_true]
        split
        · rfl
        · rw [exitTo_of_le]; omega
      rw [hstep]
      obtain ⟨st0, hst0⟩ : ∃ st0, st0 = exitTo p.length st := ⟨_, rfl⟩
      have hlen0 : st0.stack.length = p.length := by
        rw [hst0, exitTo_length, h1]; exact Nat.min_eq_right h2
      have hlen1 : (enter st0 node p.length).stack.length = p.length + 1 := by simp [enter, hlen0]
      rw [← hst0]
      obtain ⟨st2, last2, e2, a2, b2, x2⟩ : ∃ st2 last2,
          ((if p.length < max then (next node).reverse else []).flatMap (sub next max k (p ++ [node]))).foldl
            (procStep lvlCap) (enter st0 node p.length, p.length) = (st2, last2) ∧
          st2.stack.length = last2 + 1 ∧ (p ++ [node]).length ≤ last2 + 1 ∧
          exitTo (p ++ [node]).length st2 =
            ⟨(numbers next max k (p ++ [node]) (if p.length < max then (next node).reverse else [])
                (exitTo (p ++ [node]).length (enter st0 node p.length)).cur).2,
              (exitTo (p ++ [node]).length (enter st0 node p.length)).stack,
              pushAll (exitTo (p ++ [node]).length (enter st0 node p.length)).done
                (numbers next max k (p ++ [node]) (if p.length < max then (next node).reverse else [])
                  (exitTo (p ++ [node]).length (enter st0 node p.length)).cur).1⟩ := by
        by_cases hlt : p.length < max
        · rw [if_pos hlt]
          refine machine_children next max lvlCap k (p ++ [node]) ?_ _ _ _ ?_ hlen1 (by simp)
          · intro c st last hq g1 g2
            exact ih (p ++ [node]) c st last (by simp) (by simp; omega) hq g1 g2
          · intro c hc q hq
            apply hl
            unfold Dfs.subPaths
            simp only [hmem, if_false, hlt, if_true]
            exact List.mem_cons_of_mem _ (List.mem_flatMap.2 ⟨c, hc, hq⟩)
        · rw [if_neg hlt]
          exact ⟨_, _, rfl, hlen1, by simp, by simp [numbers, pushAll]⟩
      refine ⟨st2, last2, e2, a2, by simp at b2; omega, ?_⟩
      have hst1 : exitTo (p ++ [node]).length (enter st0 node p.length) = enter st0 node p.length :=
        exitTo_of_le (by rw [hlen1]; simp)
      rw [hst1] at x2
      have hgt : p.length < st2.stack.length := by simp at b2; omega
      rw [exitTo_succ hgt]
      rw [List.length_append, List.length_singleton] at x2
      rw [x2]
      simp only [enter, exit, pushAll_append]
      simp only [pushAll, List.foldl_cons, List.foldl_nil, Ent.pp, List.length_append, List.length_singleton,
        Nat.add_sub_cancel]

end PrePostGs
