import Verif.Gs.Source
import Verif.Anno.InvRemove
import Mathlib.Data.List.Nodup

/-!
# The graph that a copy source represents, and lemmas about copying annotations
-/

set_option linter.unusedSimpArgs false
set_option linter.unusedSectionVars false

namespace Source

variable {N S W : Type} [LinearOrder N] [LinearOrder S] [OrderBot S] [LinearOrder W]

/-- The source represents the graph with edges `E` and edge annotations `A`. -/
structure Is (o : Source N S W) (E : N → N → Prop) (A : N → N → AnnoKey S → Option W) : Prop where
  out_iff : ∀ a b, b ∈ o.out a ↔ E a b
  out_nodup : ∀ a, (o.out a).Nodup
  src_iff : ∀ a, a ∈ o.sources ↔ ∃ b, E a b
  src_nodup : o.sources.Nodup
  root_iff : ∀ r, r ∈ o.roots ↔ (∃ b, E r b) ∧ ¬ ∃ a, E a r
  root_nodup : o.roots.Nodup
  covers : ∀ a b, E a b → b ∈ o.nodes
  irr : ∀ a, ¬ E a a
  anno_iff : ∀ a b k v, (k, v) ∈ o.annos a b ↔ A a b k = some v
  anno_dom : ∀ a b k v, A a b k = some v → E a b

theorem copyList_spec (t : N ×ₗ N) (l : List (AnnoKey S × W)) : ∀ (s : AnnoStore (N ×ₗ N) S W), s.Inv →
    (l.foldl (fun s kv => s.insert t kv.1 kv.2) s).Inv ∧
    (∀ t' k, t' ≠ t → (l.foldl (fun s kv => s.insert t kv.1 kv.2) s).getValue t' k = s.getValue t' k) ∧
    (∀ k, (∀ v, (k, v) ∉ l) → (l.foldl (fun s kv => s.insert t kv.1 kv.2) s).getValue t k = s.getValue t k) ∧
    (∀ k v, (k, v) ∈ l → (∀ w, (k, w) ∈ l → w = v) →
      (l.foldl (fun s kv => s.insert t kv.1 kv.2) s).getValue t k = some v) := by
  induction l with
  | nil => intro s h; exact ⟨h, by simp, by simp, by simp⟩
  | cons p r ih =>
    intro s h
    obtain ⟨k0, v0⟩ := p
    obtain ⟨i1, i2, i3, i4⟩ := ih _ (h.insert t k0 v0)
    simp only [List.foldl_cons]
    refine ⟨i1, ?_, ?_, ?_⟩
    · intro t' k ht
      rw [i2 t' k ht, AnnoStore.getValue_insert h]
      simp [ht]
    · intro k hk
      rw [i3 k (fun v hv => hk v (by simp [hv])), AnnoStore.getValue_insert h]
      rw [if_neg]
      rintro ⟨_, rfl⟩
      exact hk v0 (by simp)
    · intro k v hkv hun
      by_cases hr : (k, v) ∈ r
      · exact i4 k v hr (fun w hw => hun w (by simp [hw]))
      · have hno : ∀ w, (k, w) ∉ r := by
          intro w hw
          have := hun w (by simp [hw])
          subst this; exact hr hw
        rcases List.mem_cons.1 hkv with e | e
        · injection e with e1 e2
          subst e1 e2
          rw [i3 k hno, AnnoStore.getValue_insert h]; simp
        · exact absurd e hr

theorem copyEdgeAnnos_spec {o : Source N S W} {E : N → N → Prop} {A : N → N → AnnoKey S → Option W} (ho : o.Is E A)
    {s : AnnoStore (N ×ₗ N) S W} (h : s.Inv) (a b : N) :
    (o.copyEdgeAnnos s a b).Inv ∧
    ∀ x y k, (o.copyEdgeAnnos s a b).getValue (toLex (x, y)) k =
      if x = a ∧ y = b ∧ (A a b k).isSome then A a b k else s.getValue (toLex (x, y)) k := by
  obtain ⟨i1, i2, i3, i4⟩ := copyList_spec (toLex (a, b)) (o.annos a b) s h
  refine ⟨i1, ?_⟩
  intro x y k
  unfold copyEdgeAnnos
  by_cases hxy : x = a ∧ y = b
  · obtain ⟨rfl, rfl⟩ := hxy
    cases hA : A x y k with
    | none =>
      rw [i3 k (fun v hv => by rw [ho.anno_iff, hA] at hv; cases hv)]
      simp
    | some v =>
      rw [i4 k v ((ho.anno_iff x y k v).2 hA) (fun w hw => by
        rw [ho.anno_iff, hA] at hw; injection hw with hw; exact hw.symm)]
      simp
  · rw [i2 (toLex (x, y)) k (by simpa using hxy), if_neg (fun hc => hxy ⟨hc.1, hc.2.1⟩)]

theorem copyTargets_spec {o : Source N S W} {E : N → N → Prop} {A : N → N → AnnoKey S → Option W} (ho : o.Is E A) (a : N)
    (l : List N) : ∀ {s : AnnoStore (N ×ₗ N) S W}, s.Inv →
    (l.foldl (fun s b => copyEdgeAnnos o s a b) s).Inv ∧
    ∀ x y k, (l.foldl (fun s b => copyEdgeAnnos o s a b) s).getValue (toLex (x, y)) k =
      if x = a ∧ y ∈ l ∧ (A x y k).isSome then A x y k else s.getValue (toLex (x, y)) k := by
  induction l with
  | nil => intro s h; exact ⟨h, by simp⟩
  | cons b r ih =>
    intro s h
    obtain ⟨e1, e2⟩ := copyEdgeAnnos_spec ho h a b
    obtain ⟨i1, i2⟩ := ih e1
    refine ⟨i1, ?_⟩
    intro x y k
    simp only [List.foldl_cons]
    rw [i2, e2]
    by_cases hx : x = a
    · subst hx
      by_cases hA : (A x y k).isSome
      · by_cases hyr : y ∈ r
        · simp [hA, hyr]
        · by_cases hyb : y = b
          · subst hyb; simp [hA, hyr]
          · simp [hyr, hyb]
      · by_cases hyb : y = b
        · subst hyb; simp [hA]
        · simp [hA, hyb]
    · simp [hx]

/-- Copying the annotations of all edges of the nodes in `l`. -/
theorem copyNodes_spec {o : Source N S W} {E : N → N → Prop} {A : N → N → AnnoKey S → Option W} (ho : o.Is E A)
    (l : List N) : ∀ {s : AnnoStore (N ×ₗ N) S W}, s.Inv →
    (l.foldl (fun s a => copyNodeAnnos o s a) s).Inv ∧
    ∀ x y k, (l.foldl (fun s a => copyNodeAnnos o s a) s).getValue (toLex (x, y)) k =
      if x ∈ l ∧ (A x y k).isSome then A x y k else s.getValue (toLex (x, y)) k := by
  induction l with
  | nil => intro s h; exact ⟨h, by simp⟩
  | cons a r ih =>
    intro s h
    obtain ⟨e1, e2⟩ := copyTargets_spec ho a (o.out a) h
    obtain ⟨i1, i2⟩ := ih (s := copyNodeAnnos o s a) e1
    refine ⟨i1, ?_⟩
    intro x y k
    simp only [List.foldl_cons]
    rw [i2]
    unfold copyNodeAnnos
    rw [e2]
    by_cases hA : (A x y k).isSome
    · have hy : y ∈ o.out x := by
        obtain ⟨v, hv⟩ := Option.isSome_iff_exists.1 hA
        exact (ho.out_iff x y).2 (ho.anno_dom x y k v hv)
      by_cases hxr : x ∈ r
      · simp [hA, hxr]
      · by_cases hxa : x = a
        · subst hxa; simp [hA, hxr, hy]
        · simp [hxr, hxa]
    · simp [hA]

end Source
