import Verif.Adj.Props
import Verif.Gs.AdjSource

/-!
# Copying a component into an adjacency storage
-/

set_option linter.unusedSimpArgs false
set_option linter.unusedSectionVars false

/-- The abstract graph after copying one edge with its annotations. -/
theorem Adj.spec_copyEdge {N S W : Type} [LinearOrder N] [LinearOrder S] (l : List (AnnoKey S × W)) (a b : N) :
    ∀ (m : Adj.Spec N S W), m.edge a b = true →
      ((l.map fun kv => Adj.Op.addAnno a b kv.1 kv.2).foldl Adj.specStep m).edge = m.edge ∧
      (∀ x y k, ¬ (x = a ∧ y = b) →
        ((l.map fun kv => Adj.Op.addAnno a b kv.1 kv.2).foldl Adj.specStep m).anno x y k = m.anno x y k) ∧
      (∀ k, (∀ v, (k, v) ∉ l) →
        ((l.map fun kv => Adj.Op.addAnno a b kv.1 kv.2).foldl Adj.specStep m).anno a b k = m.anno a b k) ∧
      (∀ k v, (k, v) ∈ l → (∀ w, (k, w) ∈ l → w = v) →
        ((l.map fun kv => Adj.Op.addAnno a b kv.1 kv.2).foldl Adj.specStep m).anno a b k = some v) := by
  induction l with
  | nil => intro m _; simp
  | cons p r ih =>
    intro m hm
    obtain ⟨k0, v0⟩ := p
    obtain ⟨i1, i2, i3, i4⟩ := ih (Adj.specStep m (.addAnno a b k0 v0)) hm
    simp only [List.map_cons, List.foldl_cons]
    refine ⟨i1, ?_, ?_, ?_⟩
    · intro x y k hn
      rw [i2 x y k hn]
      simp only [Adj.specStep]
      rw [if_neg (by tauto)]
    · intro k hk
      rw [i3 k (fun v hv => hk v (by simp [hv]))]
      simp only [Adj.specStep]
      rw [if_neg]
      rintro ⟨_, _, rfl, _⟩
      exact hk v0 (by simp)
    · intro k v hkv hun
      by_cases hr : (k, v) ∈ r
      · exact i4 k v hr (fun w hw => hun w (by simp [hw]))
      · have hno : ∀ w, (k, w) ∉ r := by
          intro w hw
          have := hun w (by simp [hw])
          subst this; exact hr hw
        rcases List.mem_cons.1 hkv with e | e
        · injection e with e1 e2
          subst e1 e2
          rw [i3 k hno]
          simp [Adj.specStep, hm]
        · exact absurd e hr

namespace Adj

variable {N S W : Type} [LinearOrder N] [LinearOrder S] [OrderBot S] [LinearOrder W]
variable {o : Source N S W} {E : N → N → Prop} {A : N → N → AnnoKey S → Option W}

/-- `copy` as a list of client operations. -/
def copyOps (o : Source N S W) : List (Adj.Op N S W) :=
  .clear :: o.sources.flatMap fun a => (o.out a).flatMap fun b =>
    .addEdge a b :: (o.annos a b).map fun kv => .addAnno a b kv.1 kv.2

theorem spec_targets (h : o.Is E A) (a : N) (l : List N) : ∀ (m : Adj.Spec N S W),
    (∀ b ∈ l, E a b) → (∀ b ∈ l, ∀ k, m.anno a b k = none) → l.Nodup →
    let m' := (l.flatMap fun b => Adj.Op.addEdge a b :: (o.annos a b).map fun kv => .addAnno a b kv.1 kv.2).foldl
      Adj.specStep m
    (∀ x y, m'.edge x y = true ↔ (x = a ∧ y ∈ l) ∨ m.edge x y = true) ∧
    (∀ x y k, m'.anno x y k = if x = a ∧ y ∈ l then A x y k else m.anno x y k) := by
  induction l with
  | nil => intro m _ _ _; simp
  | cons b l ih =>
    intro m hE hno hn
    rw [List.nodup_cons] at hn
    have hne : a ≠ b := fun e => h.irr a (by have := hE b (by simp); rw [← e] at this; exact this)
    have he : (Adj.specStep m (.addEdge a b)).edge a b = true := by simp [Adj.specStep, hne]
    obtain ⟨s1, s2, s3, s4⟩ := Adj.spec_copyEdge (o.annos a b) a b (Adj.specStep m (.addEdge a b)) he
    simp only [List.flatMap_cons, List.foldl_append, List.foldl_cons]
    set m1 := ((o.annos a b).map fun kv => Adj.Op.addAnno a b kv.1 kv.2).foldl Adj.specStep
      (Adj.specStep m (.addEdge a b)) with hm1
    have hanno : ∀ x y k, m1.anno x y k = if x = a ∧ y = b then A x y k else m.anno x y k := by
      intro x y k
      by_cases hxy : x = a ∧ y = b
      · obtain ⟨rfl, rfl⟩ := hxy
        rw [if_pos ⟨rfl, rfl⟩]
        cases hA : A x y k with
        | none =>
          rw [s3 k (by intro v hv; rw [h.anno_iff, hA] at hv; cases hv)]
          exact hno y (by simp) k
        | some v =>
          refine s4 k v ((h.anno_iff x y k v).2 hA) ?_
          intro w hw
          rw [h.anno_iff, hA] at hw
          injection hw with hw
          exact hw.symm
      · rw [if_neg hxy, s2 x y k hxy]
        rfl
    have hedge : ∀ x y, m1.edge x y = true ↔ (x = a ∧ y = b) ∨ m.edge x y = true := by
      intro x y
      rw [s1]
      simp only [Adj.specStep, hne, ne_eq, not_false_eq_true, and_true]
      by_cases hxy : x = a ∧ y = b
      · simp [hxy]
      · simp [hxy]
    obtain ⟨i1, i2⟩ := ih m1 (fun b hb => hE b (by simp [hb])) (by
      intro y hy k
      rw [hanno, if_neg (by rintro ⟨_, rfl⟩; exact hn.1 hy)]
      exact hno y (by simp [hy]) k) hn.2
    refine ⟨?_, ?_⟩
    · intro x y
      rw [i1, hedge]
      simp only [List.mem_cons]
      tauto
    · intro x y k
      rw [i2, hanno]
      simp only [List.mem_cons]
      by_cases h1 : x = a
      · by_cases h2 : y ∈ l
        · simp [h1, h2]
        · by_cases h3 : y = b
          · simp [h1, h3]
          · simp [h1, h2, h3]
      · simp [h1]

theorem spec_sources (h : o.Is E A) (l : List N) : ∀ (m : Adj.Spec N S W),
    (∀ a ∈ l, ∀ b k, m.anno a b k = none) → l.Nodup →
    let m' := (l.flatMap fun a => (o.out a).flatMap fun b =>
      Adj.Op.addEdge a b :: (o.annos a b).map fun kv => .addAnno a b kv.1 kv.2).foldl Adj.specStep m
    (∀ x y, m'.edge x y = true ↔ (x ∈ l ∧ E x y) ∨ m.edge x y = true) ∧
    (∀ x y k, m'.anno x y k = if x ∈ l then A x y k else m.anno x y k) := by
  induction l with
  | nil => intro m _ _; simp
  | cons a l ih =>
    intro m hno hn
    rw [List.nodup_cons] at hn
    simp only [List.flatMap_cons, List.foldl_append]
    obtain ⟨s1, s2⟩ := spec_targets h a (o.out a) m (fun b hb => (h.out_iff a b).1 hb) (fun b _ k => hno a (by simp) b k)
      (h.out_nodup a)
    obtain ⟨i1, i2⟩ := ih _ (by
      intro x hx b k
      rw [s2, if_neg (by rintro ⟨rfl, _⟩; exact hn.1 hx)]
      exact hno x (by simp [hx]) b k) hn.2
    refine ⟨?_, ?_⟩
    · intro x y
      rw [i1, s1]
      simp only [List.mem_cons, h.out_iff]
      constructor
      · rintro (⟨h1, h2⟩ | ⟨rfl, h1⟩ | h1)
        · exact Or.inl ⟨Or.inr h1, h2⟩
        · exact Or.inl ⟨Or.inl rfl, h1⟩
        · exact Or.inr h1
      · rintro (⟨rfl | h1, h2⟩ | h1)
        · exact Or.inr (Or.inl ⟨rfl, h2⟩)
        · exact Or.inl ⟨h1, h2⟩
        · exact Or.inr (Or.inr h1)
    · intro x y k
      rw [i2]
      rw [s2]
      by_cases h1 : x ∈ l
      · simp [h1]
      · by_cases h2 : x = a
        · subst h2
          simp only [h1, if_false, true_and, List.mem_cons, or_false, if_true]
          by_cases h3 : y ∈ o.out x
          · rw [if_pos h3]
          · rw [if_neg h3, hno x (by simp)]
            cases hA : A x y k with
            | none => rfl
            | some v => exact absurd ((h.out_iff x y).2 (h.anno_dom x y k v hA)) h3
        · simp [h1, h2]

/-- Copying writes the graph of the source, whatever was stored before. -/
theorem spec_copyOps (h : o.Is E A) (m : Adj.Spec N S W) :
    (∀ x y, ((copyOps o).foldl Adj.specStep m).edge x y = true ↔ E x y) ∧
    (∀ x y k, ((copyOps o).foldl Adj.specStep m).anno x y k = A x y k) := by
  unfold copyOps
  rw [List.foldl_cons]
  obtain ⟨s1, s2⟩ := spec_sources h o.sources (Adj.specStep m .clear) (by intro a _ b k; rfl) h.src_nodup
  refine ⟨?_, ?_⟩
  · intro x y
    rw [s1]
    simp only [Adj.specStep, Bool.false_eq_true, or_false, h.src_iff]
    exact ⟨fun hx => hx.2, fun hx => ⟨⟨y, hx⟩, hx⟩⟩
  · intro x y k
    rw [s2]
    cases hA : A x y k with
    | none => simp [Adj.specStep]
    | some v =>
      rw [if_pos ((h.src_iff x).2 ⟨y, h.anno_dom x y k v hA⟩)]

/-- `copy` is the sequence of client operations `copyOps`. -/
theorem copy_eq (g : Adj N S W) (o : Source N S W) : copy g o = (copyOps o).foldl step g := by
  unfold copy copyOps copyEdge
  rw [List.foldl_cons, List.foldl_flatMap]
  show _ = List.foldl _ g.clear _
  congr 1
  funext g a
  rw [List.foldl_flatMap]
  congr 1
  funext g b
  rw [List.foldl_cons, List.foldl_map]
  rfl

theorem foldl_refines (ops : List (Op N S W)) : ∀ (g : Adj N S W) (m : Spec N S W), Inv g → Rep g m →
    Inv (ops.foldl step g) ∧ Rep (ops.foldl step g) (ops.foldl specStep m) := by
  induction ops with
  | nil => intro g m h hr; exact ⟨h, hr⟩
  | cons op r ih =>
    intro g m h hr
    obtain ⟨h1, h2⟩ := step_refines h hr op
    exact ih _ _ h1 h2

/-- C13: copying a component into an adjacency list keeps exactly its edges, in both directions, and its annotations, whatever
the storage contained before. -/
theorem C13_copy (h : o.Is E A) (before : List (Op N S W)) :
    (∀ a b, b ∈ (copy (run before) o).out a ↔ E a b) ∧ (∀ a b, a ∈ (copy (run before) o).inn b ↔ E a b) ∧
    ∀ a b k, (copy (run before) o).annos.getValue (toLex (a, b)) k = A a b k := by
  rw [copy_eq]
  obtain ⟨s1, s2⟩ := spec_copyOps h (spec before)
  obtain ⟨hi, r⟩ := foldl_refines (copyOps o) (run before) (spec before) (run_refines before).1 (run_refines before).2
  refine ⟨fun a b => by rw [r.1, s1], fun a b => by rw [← hi.sync, r.1, s1], fun a b k => by rw [r.2, s2]⟩

/-- The hypothesis is met: copying a component with a cycle and annotations over a storage with other edges. -/
example : ∀ a b, b ∈ (copy (run ([.addEdge 7 8] : List (Op NodeID64 Nat Nat))) (run demo).asSource).out a ↔
    (spec demo).edge a b = true := (C13_copy (asSource_is demo) _).1

end Adj
