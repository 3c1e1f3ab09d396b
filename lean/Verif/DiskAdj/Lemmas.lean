import Verif.DiskAdj.Model
import Verif.Gs.DfsQuery
import Verif.Gs.AdjSource

/-!
# Helper lemmas for the disk adjacency storage
-/

set_option linter.unusedSimpArgs false
set_option linter.unusedSectionVars false

namespace DiskAdj

variable {S W : Type} [LinearOrder S] [OrderBot S] [LinearOrder W]

theorem mem_rangeOf {m : OMap (NodeID64 ×ₗ NodeID64) Bool} (hs : m.Sorted) (a b : NodeID64) :
    b ∈ rangeOf m a ↔ (m.get (toLex (a, b))).isSome ∧ b.val < usizeMax := by
  unfold rangeOf
  rw [List.mem_map]
  constructor
  · rintro ⟨⟨k, v⟩, hk, rfl⟩
    rw [List.mem_filter] at hk
    simp only [Bool.and_eq_true, decide_eq_true_eq] at hk
    obtain ⟨hk, rfl, hk3⟩ := hk
    refine ⟨?_, hk3⟩
    have := (OMap.mem_iff_get hs).1 hk
    show (m.get k).isSome
    rw [this]; rfl
  · rintro ⟨hab, hlt⟩
    obtain ⟨v, hv⟩ := Option.isSome_iff_exists.1 hab
    refine ⟨(toLex (a, b), v), ?_, rfl⟩
    rw [List.mem_filter]
    exact ⟨OMap.mem_of_get hv, by simp [hlt]⟩

theorem nodup_rangeOf {m : OMap (NodeID64 ×ₗ NodeID64) Bool} (hs : m.Sorted) (a : NodeID64) : (rangeOf m a).Nodup := by
  unfold rangeOf
  have hk := OMap.nodup_keys hs
  unfold OMap.keys at hk
  apply List.Nodup.map_on
  · rintro ⟨k1, v1⟩ h1 ⟨k2, v2⟩ h2 heq
    simp only at heq
    rw [List.mem_filter] at h1 h2
    simp only [Bool.and_eq_true, decide_eq_true_eq] at h1 h2
    have hkk : k1 = k2 := by
      have e1 : ofLex k1 = ofLex k2 := Prod.ext (h1.2.1.trans h2.2.1.symm) heq
      exact e1
    subst hkk
    have a1 := (OMap.mem_iff_get hs).1 h1.1
    have a2 := (OMap.mem_iff_get hs).1 h2.1
    rw [a1] at a2
    injection a2 with a2
    rw [a2]
  · exact (List.Nodup.of_map _ hk).filter _

theorem covers_rangeOf {m : OMap (NodeID64 ×ₗ NodeID64) Bool} (a c : NodeID64) (h : c ∈ rangeOf m a) : c ∈ targets m := by
  unfold rangeOf at h
  obtain ⟨p, hp, rfl⟩ := List.mem_map.1 h
  exact List.mem_map.2 ⟨p, (List.mem_filter.1 hp).1, rfl⟩

/-- Invariant of the storage. -/
structure Inv (g : DiskAdj S W) : Prop where
  es : g.edges.Sorted
  is : g.inverse.Sorted
  sync : ∀ a b, (g.edges.get (toLex (a, b))).isSome ↔ (g.inverse.get (toLex (b, a))).isSome
  irr : ∀ a, ¬ (g.edges.get (toLex (a, a))).isSome
  small : ∀ a b, (g.edges.get (toLex (a, b))).isSome → a.val < usizeMax ∧ b.val < usizeMax
  anno : g.annos.Inv
  edge : ∀ a b key, (g.annos.getValue (toLex (a, b)) key).isSome → (g.edges.get (toLex (a, b))).isSome

theorem Inv.new : Inv (new : DiskAdj S W) where
  es := OMap.sorted_nil
  is := OMap.sorted_nil
  sync := by intro a b; simp [DiskAdj.new]
  irr := by intro a; simp [DiskAdj.new]
  small := by intro a; simp [DiskAdj.new]
  anno := AnnoStore.Inv.new
  edge := by intro a b key; simp [DiskAdj.new, AnnoStore.new, AnnoStore.getValue, SymbolTable.new, SymbolTable.getSymbol]

theorem Inv.clear (g : DiskAdj S W) : Inv g.clear where
  es := OMap.sorted_nil
  is := OMap.sorted_nil
  sync := by intro a b; simp [DiskAdj.clear]
  irr := by intro a; simp [DiskAdj.clear]
  small := by intro a; simp [DiskAdj.clear]
  anno := AnnoStore.Inv.clear _
  edge := by intro a b key; simp [DiskAdj.clear, Adj.getValue_clear]

theorem Inv.mem_out {g : DiskAdj S W} (h : Inv g) (a b : NodeID64) : b ∈ g.out a ↔ (g.edges.get (toLex (a, b))).isSome := by
  unfold out
  rw [mem_rangeOf h.es]
  exact ⟨fun x => x.1, fun x => ⟨x, (h.small a b x).2⟩⟩

theorem Inv.mem_inn {g : DiskAdj S W} (h : Inv g) (a b : NodeID64) : a ∈ g.inn b ↔ (g.edges.get (toLex (a, b))).isSome := by
  unfold inn
  rw [mem_rangeOf h.is, ← h.sync]
  exact ⟨fun x => x.1, fun x => ⟨x, (h.small a b x).1⟩⟩

theorem edge_addEdge (g : DiskAdj S W) (a b x y : NodeID64) :
    ((g.addEdge a b).edges.get (toLex (x, y))).isSome ↔ (x = a ∧ y = b ∧ a ≠ b) ∨ (g.edges.get (toLex (x, y))).isSome := by
  unfold addEdge
  by_cases hab : a = b
  · simp [hab]
  · simp only [ne_eq, hab, not_false_eq_true, if_true, and_true]
    rw [OMap.get_insert]
    by_cases hc : x = a ∧ y = b
    · obtain ⟨rfl, rfl⟩ := hc; simp
    · rw [if_neg (by rw [toLex_inj, Prod.mk.injEq]; exact hc)]
      simp [hc]

theorem Inv.addEdge {g : DiskAdj S W} (h : Inv g) (a b : NodeID64) (ha : a.val < usizeMax) (hb : b.val < usizeMax) :
    Inv (g.addEdge a b) where
  es := by unfold DiskAdj.addEdge; split; exacts [OMap.sorted_insert h.es _ _, h.es]
  is := by unfold DiskAdj.addEdge; split; exacts [OMap.sorted_insert h.is _ _, h.is]
  sync := by
    intro x y
    rw [edge_addEdge, h.sync]
    unfold DiskAdj.addEdge
    by_cases hab : a = b
    · simp [hab]
    · simp only [ne_eq, hab, not_false_eq_true, if_true, and_true]
      rw [OMap.get_insert]
      by_cases hc : x = a ∧ y = b
      · obtain ⟨rfl, rfl⟩ := hc; simp
      · rw [if_neg (by rw [toLex_inj, Prod.mk.injEq]; tauto)]
        simp [hc]
  irr := by
    intro x hx
    rcases (edge_addEdge g a b x x).1 hx with ⟨h1, h2, h3⟩ | hx
    · exact h3 (h1.symm.trans h2)
    · exact h.irr x hx
  small := by
    intro x y hx
    rcases (edge_addEdge g a b x y).1 hx with ⟨h1, h2, h3⟩ | hx
    · subst h1 h2; exact ⟨ha, hb⟩
    · exact h.small x y hx
  anno := by unfold DiskAdj.addEdge; split <;> exact h.anno
  edge := by
    intro x y key hk
    rw [edge_addEdge]
    right
    refine h.edge x y key ?_
    unfold DiskAdj.addEdge at hk
    split at hk <;> exact hk

theorem annos_addEdge (g : DiskAdj S W) (a b : NodeID64) : (g.addEdge a b).annos = g.annos := by
  unfold addEdge; split <;> rfl

theorem edges_addAnno (g : DiskAdj S W) (a b : NodeID64) (key : AnnoKey S) (val : W) :
    (g.addAnno a b key val).edges = g.edges := by unfold addAnno; split <;> rfl

theorem Inv.addAnno {g : DiskAdj S W} (h : Inv g) (a b : NodeID64) (key : AnnoKey S) (val : W) :
    Inv (g.addAnno a b key val) := by
  unfold DiskAdj.addAnno
  split
  · rename_i hb
    refine ⟨h.es, h.is, h.sync, h.irr, h.small, h.anno.insert _ _ _, ?_⟩
    intro x y k hk
    simp only at hk
    rw [AnnoStore.getValue_insert h.anno] at hk
    split at hk
    · rename_i hc
      rw [hc.1]; exact hb
    · exact h.edge x y k hk
  · exact h

theorem getValue_addAnno {g : DiskAdj S W} (h : Inv g) (a b : NodeID64) (key : AnnoKey S) (val : W) (x y : NodeID64)
    (k : AnnoKey S) : (g.addAnno a b key val).annos.getValue (toLex (x, y)) k =
      if x = a ∧ y = b ∧ k = key ∧ (g.edges.get (toLex (a, b))).isSome then some val
      else g.annos.getValue (toLex (x, y)) k := by
  unfold DiskAdj.addAnno
  by_cases hb : (g.edges.get (toLex (a, b))).isSome
  · rw [if_pos hb]
    simp only [hb, and_true]
    rw [AnnoStore.getValue_insert h.anno]
    simp only [toLex_inj, Prod.mk.injEq, and_assoc]
  · rw [if_neg hb]
    simp [hb]

theorem edge_deleteEdge {g : DiskAdj S W} (h : Inv g) (a b x y : NodeID64) :
    ((g.deleteEdge a b).edges.get (toLex (x, y))).isSome ↔ (g.edges.get (toLex (x, y))).isSome ∧ ¬ (x = a ∧ y = b) := by
  unfold deleteEdge
  simp only
  rw [OMap.get_erase h.es]
  by_cases hc : x = a ∧ y = b
  · obtain ⟨rfl, rfl⟩ := hc; simp
  · rw [if_neg (by rw [toLex_inj, Prod.mk.injEq]; exact hc)]
    simp [hc]

theorem getValue_deleteEdge {g : DiskAdj S W} (h : Inv g) (a b x y : NodeID64) (key : AnnoKey S) :
    (g.deleteEdge a b).annos.getValue (toLex (x, y)) key =
      if x = a ∧ y = b then none else g.annos.getValue (toLex (x, y)) key := by
  simp only [deleteEdge]
  rw [(AnnoStore.removeItem_spec h.anno _).2.2]
  simp only [toLex_inj, Prod.mk.injEq]

theorem Inv.deleteEdge {g : DiskAdj S W} (h : Inv g) (a b : NodeID64) : Inv (g.deleteEdge a b) where
  es := OMap.sorted_erase h.es _
  is := OMap.sorted_erase h.is _
  sync := by
    intro x y
    rw [edge_deleteEdge h, h.sync]
    unfold DiskAdj.deleteEdge
    simp only
    rw [OMap.get_erase h.is]
    by_cases hc : x = a ∧ y = b
    · obtain ⟨rfl, rfl⟩ := hc; simp
    · rw [if_neg (by rw [toLex_inj, Prod.mk.injEq]; tauto)]
      simp [hc]
  irr := by
    intro x hx
    exact h.irr x ((edge_deleteEdge h a b x x).1 hx).1
  small := by
    intro x y hx
    exact h.small x y ((edge_deleteEdge h a b x y).1 hx).1
  anno := (AnnoStore.removeItem_spec h.anno _).1
  edge := by
    intro x y key hk
    rw [getValue_deleteEdge h] at hk
    rw [edge_deleteEdge h]
    split at hk
    · simp at hk
    · rename_i hc; exact ⟨h.edge x y key hk, hc⟩

theorem Inv.deleteAnno {g : DiskAdj S W} (h : Inv g) (a b : NodeID64) (key : AnnoKey S) : Inv (g.deleteAnno a b key) := by
  refine ⟨h.es, h.is, h.sync, h.irr, h.small, (AnnoStore.removeAnno_spec h.anno _ _).1, ?_⟩
  intro x y k hk
  simp only [DiskAdj.deleteAnno] at hk
  rw [(AnnoStore.removeAnno_spec h.anno _ _).2.2] at hk
  split at hk
  · simp at hk
  · exact h.edge x y k hk

theorem deleteEdges_spec (l : List (NodeID64 × NodeID64)) : ∀ {g : DiskAdj S W}, Inv g →
    Inv (l.foldl (fun g e => g.deleteEdge e.1 e.2) g) ∧
    (∀ x y, ((l.foldl (fun g e => g.deleteEdge e.1 e.2) g).edges.get (toLex (x, y))).isSome ↔
      (g.edges.get (toLex (x, y))).isSome ∧ (x, y) ∉ l) ∧
    (∀ x y key, (l.foldl (fun g e => g.deleteEdge e.1 e.2) g).annos.getValue (toLex (x, y)) key =
      if (x, y) ∈ l then none else g.annos.getValue (toLex (x, y)) key) := by
  induction l with
  | nil => intro g h; exact ⟨h, by simp, by simp⟩
  | cons e r ih =>
    intro g h
    obtain ⟨a, b⟩ := e
    obtain ⟨i1, i2, i3⟩ := ih (h.deleteEdge a b)
    simp only [List.foldl_cons]
    refine ⟨i1, ?_, ?_⟩
    · intro x y
      rw [i2, edge_deleteEdge h]
      simp only [List.mem_cons, Prod.mk.injEq, not_or]
      tauto
    · intro x y key
      rw [i3, getValue_deleteEdge h]
      simp only [List.mem_cons, Prod.mk.injEq]
      by_cases h1 : (x, y) ∈ r
      · simp [h1]
      · simp [h1]

theorem mem_toDelete {g : DiskAdj S W} (h : Inv g) (n x y : NodeID64) :
    (x, y) ∈ (g.out n).map (fun t => (n, t)) ++ (g.inn n).map (fun s => (s, n)) ↔
      (g.edges.get (toLex (x, y))).isSome ∧ (x = n ∨ y = n) := by
  simp only [List.mem_append, List.mem_map, Prod.mk.injEq, h.mem_out, h.mem_inn]
  constructor
  · rintro (⟨t, ht, rfl, rfl⟩ | ⟨s, hs, rfl, rfl⟩)
    · exact ⟨ht, Or.inl rfl⟩
    · exact ⟨hs, Or.inr rfl⟩
  · rintro ⟨hy, rfl | rfl⟩
    · exact Or.inl ⟨y, hy, rfl, rfl⟩
    · exact Or.inr ⟨x, hy, rfl, rfl⟩

theorem deleteNode_spec {g : DiskAdj S W} (h : Inv g) (n : NodeID64) :
    Inv (g.deleteNode n) ∧ (∀ x y, ((g.deleteNode n).edges.get (toLex (x, y))).isSome ↔
      (g.edges.get (toLex (x, y))).isSome ∧ x ≠ n ∧ y ≠ n) ∧
    (∀ x y key, (g.deleteNode n).annos.getValue (toLex (x, y)) key =
      if x = n ∨ y = n then none else g.annos.getValue (toLex (x, y)) key) := by
  obtain ⟨i1, i2, i3⟩ := deleteEdges_spec ((g.out n).map (fun t => (n, t)) ++ (g.inn n).map (fun s => (s, n))) h
  refine ⟨i1, ?_, ?_⟩
  · intro x y
    unfold deleteNode
    rw [i2, mem_toDelete h]
    tauto
  · intro x y key
    unfold deleteNode
    rw [i3]
    simp only [mem_toDelete h]
    by_cases hy : (g.edges.get (toLex (x, y))).isSome
    · simp [hy]
    · have : g.annos.getValue (toLex (x, y)) key = none := by
        cases hv : g.annos.getValue (toLex (x, y)) key with
        | none => rfl
        | some w => exact absurd (h.edge x y key (by simp [hv])) hy
      simp [hy, this]

end DiskAdj
