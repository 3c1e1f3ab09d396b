import Verif.Query.Model
import Mathlib.Logic.Relation

/-!
# C41: the check that a query is connected
-/

set_option linter.unusedSimpArgs false
set_option linter.unusedSectionVars false
set_option linter.unusedVariables false

/-! ## Specification -/

/-- Two query nodes that are not optional are operands of the same binding operator. -/
def ConjShape.Edge (c : ConjShape) (a b : Nat) : Prop := (a, b, true) ∈ c.ops ∧ a ∈ c.nodes ∧ b ∈ c.nodes

/-- All nodes that are not optional are connected by binding operators. -/
def ConjShape.Connected (c : ConjShape) : Prop := ∀ a ∈ c.nodes, ∀ b ∈ c.nodes, Relation.EqvGen c.Edge a b

/-! ## Proof -/

theorem get_foldl_insert_const (l : List Nat) (m : OMap Nat Nat) (dst n : Nat) :
    (l.foldl (fun m x => m.insert x dst) m).get n = if n ∈ l then some dst else m.get n := by
  induction l generalizing m with
  | nil => simp
  | cons x l ih =>
    rw [List.foldl_cons, ih, OMap.get_insert]
    by_cases h1 : n ∈ l
    · simp [h1]
    · by_cases h2 : n = x
      · simp [h2]
      · simp [h1, h2]

theorem sorted_foldl_insert {α : Type} (l : List α) (k v : α → Nat) {m : OMap Nat Nat} (hm : m.Sorted) :
    (l.foldl (fun m x => m.insert (k x) (v x)) m).Sorted := by
  induction l generalizing m with
  | nil => exact hm
  | cons x l ih => exact ih (OMap.sorted_insert hm _ _)

theorem updateComponents_get {m : OMap Nat Nat} (hm : m.Sorted) (src dst n : Nat) :
    (updateComponents m src dst).get n = (m.get n).map fun c => if c = src then dst else c := by
  unfold updateComponents
  by_cases h : src = dst
  · rw [if_pos h]
    subst h
    cases m.get n with
    | none => rfl
    | some c => by_cases hc : c = src <;> simp [hc]
  · rw [if_neg h, get_foldl_insert_const]
    have : n ∈ (m.filterMap fun p => if p.2 = src then some p.1 else none) ↔ m.get n = some src := by
      rw [← OMap.mem_iff_get hm, List.mem_filterMap]
      constructor
      · rintro ⟨p, hp, h1⟩
        by_cases hs : p.2 = src
        · rw [if_pos hs] at h1
          simp only [Option.some.injEq] at h1
          rw [← h1, ← hs]; exact hp
        · rw [if_neg hs] at h1; simp at h1
      · intro hp
        exact ⟨_, hp, by simp⟩
    cases hg : m.get n with
    | none =>
      rw [if_neg (by rw [this, hg]; simp)]
      rfl
    | some c =>
      by_cases hc : c = src
      · rw [if_pos (by rw [this, hg, hc])]; simp [hc]
      · rw [if_neg (by rw [this, hg]; simpa using hc)]; simp [hc]

theorem updateComponents_sorted {m : OMap Nat Nat} (hm : m.Sorted) (src dst : Nat) : (updateComponents m src dst).Sorted := by
  unfold updateComponents
  split
  · exact hm
  · exact sorted_foldl_insert _ id (fun _ => dst) hm

theorem initComponents_get (c : ConjShape) (n : Nat) : c.initComponents.get n = if n ∈ c.nodes then some n else none := by
  unfold ConjShape.initComponents
  suffices ∀ (l : List Nat) (m : OMap Nat Nat), (l.foldl (fun m x => m.insert x x) m).get n = if n ∈ l then some n else m.get n by
    rw [this]; rfl
  intro l
  induction l with
  | nil => simp
  | cons x l ih =>
    intro m
    rw [List.foldl_cons, ih, OMap.get_insert]
    by_cases h1 : n ∈ l
    · simp [h1]
    · by_cases h2 : n = x
      · simp [h2]
      · simp [h1, h2]

theorem mergeOp_get {m : OMap Nat Nat} (hm : m.Sorted) (o : Nat × Nat × Bool) :
    (mergeOp m o = m ∧ ¬ (o.2.2 = true ∧ (m.get o.1).isSome ∧ (m.get o.2.1).isSome)) ∨
    ∃ cl cr, o.2.2 = true ∧ m.get o.1 = some cl ∧ m.get o.2.1 = some cr ∧
      ∀ n, (mergeOp m o).get n = (m.get n).map fun c => if c = cr then cl else c := by
  unfold mergeOp
  by_cases hb : o.2.2 = true
  · rw [if_pos hb]
    cases h1 : m.get o.1 with
    | none => left; simp
    | some cl =>
      cases h2 : m.get o.2.1 with
      | none => left; simp
      | some cr =>
        right
        refine ⟨cl, cr, hb, rfl, rfl, fun n => ?_⟩
        have : updateComponents m cl cl = m := by simp [updateComponents]
        simp only [this]
        exact updateComponents_get hm cr cl n
  · rw [if_neg hb]
    left; simp [hb]

theorem mergeOp_sorted {m : OMap Nat Nat} (hm : m.Sorted) (o : Nat × Nat × Bool) : (mergeOp m o).Sorted := by
  unfold mergeOp
  split
  · split
    · exact updateComponents_sorted (updateComponents_sorted hm _ _) _ _
    · exact hm
  · exact hm

structure CompInv (c : ConjShape) (done : List (Nat × Nat × Bool)) (m : OMap Nat Nat) : Prop where
  sorted : m.Sorted
  dom : ∀ n, (m.get n).isSome = true ↔ n ∈ c.nodes
  sound : ∀ a b x, m.get a = some x → m.get b = some x → Relation.EqvGen c.Edge a b
  complete : ∀ a b, (a, b, true) ∈ done → a ∈ c.nodes → b ∈ c.nodes → m.get a = m.get b

theorem CompInv.step {c : ConjShape} {done : List (Nat × Nat × Bool)} {m : OMap Nat Nat} (h : CompInv c done m)
    {o : Nat × Nat × Bool} (ho : o ∈ c.ops) : CompInv c (done ++ [o]) (mergeOp m o) := by
  rcases mergeOp_get h.sorted o with ⟨he, hn⟩ | ⟨cl, cr, hb, hl, hr, hg⟩
  · rw [he]
    refine ⟨h.sorted, h.dom, h.sound, ?_⟩
    intro a b hab ha hb
    rcases List.mem_append.1 hab with h1 | h1
    · exact h.complete a b h1 ha hb
    · rw [List.mem_singleton] at h1
      subst h1
      exact absurd ⟨rfl, (h.dom a).2 ha, (h.dom b).2 hb⟩ hn
  · refine ⟨mergeOp_sorted h.sorted o, ?_, ?_, ?_⟩
    · intro n
      rw [hg, Option.isSome_map, h.dom]
    · have hlr : Relation.EqvGen c.Edge o.1 o.2.1 := by
        refine Relation.EqvGen.rel _ _ ⟨?_, (h.dom _).1 (by rw [hl]; rfl), (h.dom _).1 (by rw [hr]; rfl)⟩
        rw [← hb]; exact ho
      have key : ∀ a x, (mergeOp m o).get a = some x →
          (m.get a = some x) ∨ (m.get a = some cr ∧ x = cl) := by
        intro a x ha
        rw [hg] at ha
        cases hc : m.get a with
        | none => rw [hc] at ha; simp at ha
        | some y =>
          rw [hc] at ha
          by_cases hy : y = cr
          · right
            simp only [hy, Option.map_some, if_true, Option.some.injEq] at ha
            exact ⟨by rw [hy], ha.symm⟩
          · left
            simpa [hy] using ha
      intro a b x ha hb'
      rcases key a x ha with h1 | ⟨h1, rfl⟩
      · rcases key b x hb' with h2 | ⟨h2, rfl⟩
        · exact h.sound a b x h1 h2
        · exact ((h.sound a o.1 x h1 hl).trans _ _ _ hlr).trans _ _ _ (h.sound _ b cr hr h2)
      · rcases key b x hb' with h2 | ⟨h2, _⟩
        · exact ((h.sound a _ cr h1 hr).trans _ _ _ (hlr.symm _ _)).trans _ _ _ (h.sound _ b x hl h2)
        · exact h.sound a b cr h1 h2
    · intro a b hab ha hb'
      rcases List.mem_append.1 hab with h1 | h1
      · rw [hg, hg, h.complete a b h1 ha hb']
      · rw [List.mem_singleton] at h1
        subst h1
        rw [hg, hg, hl, hr]
        by_cases hc : cl = cr <;> simp [hc]

theorem CompInv.all {c : ConjShape} : CompInv c c.ops (c.ops.foldl mergeOp c.initComponents) := by
  suffices ∀ (l done : List (Nat × Nat × Bool)) (m : OMap Nat Nat), (∀ o ∈ l, o ∈ c.ops) → CompInv c done m →
      CompInv c (done ++ l) (l.foldl mergeOp m) by
    have := this c.ops [] c.initComponents (fun _ h => h) ?_
    · simpa using this
    · refine ⟨?_, ?_, ?_, ?_⟩
      · exact sorted_foldl_insert _ id id OMap.sorted_nil
      · intro n
        rw [initComponents_get]
        by_cases h : n ∈ c.nodes <;> simp [h]
      · intro a b x ha hb
        rw [initComponents_get] at ha hb
        by_cases h1 : a ∈ c.nodes
        · by_cases h2 : b ∈ c.nodes
          · simp only [h1, h2, if_true, Option.some.injEq] at ha hb
            rw [ha, hb]; exact Relation.EqvGen.refl _
          · simp [h2] at hb
        · simp [h1] at ha
      · intro a b hab; simp at hab
  intro l
  induction l with
  | nil => intro done m _ h; simpa using h
  | cons o l ih =>
    intro done m hl h
    have := ih (done ++ [o]) (mergeOp m o) (fun x hx => hl x (List.mem_cons_of_mem _ hx)) (h.step (hl o List.mem_cons_self))
    simpa using this

/-- The connection check accepts a conjunction exactly if all its nodes that are not optional are connected by binding operators. -/
theorem C41_connected (c : ConjShape) : checkConnected c = true ↔ c.Connected := by
  have h : CompInv c c.ops (c.ops.foldl mergeOp c.initComponents) := CompInv.all
  have hsame : checkConnected c = true ↔ ∀ a ∈ c.nodes, ∀ b ∈ c.nodes,
      (c.ops.foldl mergeOp c.initComponents).get a = (c.ops.foldl mergeOp c.initComponents).get b := by
    unfold checkConnected
    generalize c.ops.foldl mergeOp c.initComponents = m at h
    cases m with
    | nil =>
      simp only [true_iff]
      intro a ha
      have := (h.dom a).2 ha
      simp at this
    | cons p rest =>
      simp only [List.all_eq_true, decide_eq_true_eq]
      have hp : OMap.get (p :: rest) p.1 = some p.2 := OMap.get_of_mem h.sorted (List.mem_cons_self)
      constructor
      · intro hall a ha b hb
        have key : ∀ n ∈ c.nodes, OMap.get (p :: rest) n = some p.2 := by
          intro n hn
          obtain ⟨x, hx⟩ := Option.isSome_iff_exists.1 ((h.dom n).2 hn)
          rw [hx]
          rcases List.mem_cons.1 (OMap.mem_of_get hx) with h1 | h1
          · rw [← h1]
          · rw [hall _ h1]
        rw [key a ha, key b hb]
      · intro hall q hq
        have hq' : OMap.get (p :: rest) q.1 = some q.2 := OMap.get_of_mem h.sorted (List.mem_cons_of_mem _ hq)
        have := hall p.1 ((h.dom _).1 (by rw [hp]; rfl)) q.1 ((h.dom _).1 (by rw [hq']; rfl))
        rw [hp, hq'] at this
        simpa using this
  rw [hsame]
  unfold ConjShape.Connected
  constructor
  · intro hs a ha b hb
    obtain ⟨x, hx⟩ := Option.isSome_iff_exists.1 ((h.dom a).2 ha)
    exact h.sound a b x hx (by rw [← hs a ha b hb]; exact hx)
  · intro hc a ha b hb
    have := hc a ha b hb
    clear ha hb
    induction this with
    | rel x y hxy => exact h.complete x y hxy.1 hxy.2.1 hxy.2.2
    | refl x => rfl
    | symm x y _ ih => exact ih.symm
    | trans x y z _ _ ih1 ih2 => exact ih1.trans ih2

namespace ConnEx

/-- Three nodes and an optional one, as second alternative of a query. -/
def good : ConjShape := ⟨[false, true, false, false], 2, [(2, 4, true), (3, 2, true), (5, 2, true)]⟩

/-- The same with an operator that does not bind. -/
def bad : ConjShape := ⟨[false, true, false, false], 2, [(2, 4, true), (5, 2, false)]⟩

theorem C41_nonvacuous : good.Connected ∧ ¬ bad.Connected := by
  rw [← C41_connected, ← C41_connected]
  exact ⟨rfl, by decide⟩

end ConnEx
