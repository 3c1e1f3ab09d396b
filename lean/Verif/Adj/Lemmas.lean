import Verif.Adj.Model
import Verif.Anno.InvRemove
import Verif.Anno.Props
import Verif.Dfs.Props

/-!
# Helper lemmas for the adjacency list storage
-/

set_option linter.unusedSimpArgs false
set_option linter.unusedSectionVars false

variable {N S W : Type} [LinearOrder N] [LinearOrder S] [OrderBot S] [LinearOrder W]

theorem mem_vecInsert (x : N) (l : List N) (y : N) : y ∈ vecInsert x l ↔ y = x ∨ y ∈ l := by
  induction l with
  | nil => simp [vecInsert]
  | cons z r ih =>
    unfold vecInsert
    split
    · simp
    · split
      · rename_i h; subst h; simp
      · simp only [List.mem_cons, ih]; tauto

theorem sorted_vecInsert (x : N) (l : List N) (h : l.Pairwise (· < ·)) : (vecInsert x l).Pairwise (· < ·) := by
  induction l with
  | nil => simp [vecInsert]
  | cons z r ih =>
    have hz := List.pairwise_cons.1 h
    unfold vecInsert
    split
    · rename_i hlt
      rw [List.pairwise_cons]
      refine ⟨?_, h⟩
      intro y hy
      rcases List.mem_cons.1 hy with rfl | hy
      · exact hlt
      · exact lt_trans hlt (hz.1 y hy)
    · split
      · exact h
      · rename_i h1 h2
        rw [List.pairwise_cons]
        refine ⟨?_, ih hz.2⟩
        intro y hy
        rcases (mem_vecInsert x r y).1 hy with rfl | hy
        · exact lt_of_le_of_ne (not_lt.1 h1) (fun e => h2 e.symm)
        · exact hz.1 y hy

theorem nodup_of_lt {l : List N} (h : l.Pairwise (· < ·)) : l.Nodup := by
  rw [List.nodup_iff_pairwise_ne]; exact h.imp (fun h => ne_of_lt h)

theorem mem_firstVisits (l : List (N × Nat)) : ∀ (vis : List N) (n : N),
    n ∈ firstVisits vis l ↔ n ∉ vis ∧ ∃ d, (n, d) ∈ l := by
  induction l with
  | nil => intro vis n; simp [firstVisits]
  | cons p r ih =>
    intro vis n
    obtain ⟨m, d⟩ := p
    unfold firstVisits
    split
    · rename_i hm
      rw [ih]
      constructor
      · rintro ⟨a, e, b⟩; exact ⟨a, e, by simp [b]⟩
      · rintro ⟨a, e, b⟩
        refine ⟨a, e, ?_⟩
        rcases List.mem_cons.1 b with b | b
        · injection b with b1 _; subst b1; exact absurd hm a
        · exact b
    · rename_i hm
      rw [List.mem_cons, ih]
      constructor
      · rintro (rfl | ⟨a, e, b⟩)
        · exact ⟨hm, d, by simp⟩
        · simp at a; exact ⟨a.2, e, by simp [b]⟩
      · rintro ⟨a, e, b⟩
        by_cases hn : n = m
        · exact Or.inl hn
        · right
          refine ⟨by simp [hn, a], e, ?_⟩
          rcases List.mem_cons.1 b with b | b
          · injection b with b1 _; exact absurd b1 hn
          · exact b

theorem nodup_firstVisits (l : List (N × Nat)) : ∀ (vis : List N), (firstVisits vis l).Nodup := by
  induction l with
  | nil => intro vis; simp [firstVisits]
  | cons p r ih =>
    intro vis
    obtain ⟨m, d⟩ := p
    unfold firstVisits
    split
    · exact ih vis
    · rw [List.nodup_cons]
      refine ⟨?_, ih _⟩
      rw [mem_firstVisits]; simp

namespace Adj

/-- Invariant of the storage. -/
structure Inv (g : Adj N S W) : Prop where
  es : g.edges.Sorted
  is : g.inverse.Sorted
  eo : ∀ n, (g.out n).Pairwise (· < ·)
  io : ∀ n, (g.inn n).Pairwise (· < ·)
  sync : ∀ a b, b ∈ g.out a ↔ a ∈ g.inn b
  irr : ∀ a, a ∉ g.out a
  anno : g.annos.Inv
  edge : ∀ a b key, (g.annos.getValue (toLex (a, b)) key).isSome → b ∈ g.out a

theorem Inv.new : Inv (new : Adj N S W) where
  es := OMap.sorted_nil
  is := OMap.sorted_nil
  eo := by intro n; simp [Adj.new, out]
  io := by intro n; simp [Adj.new, inn]
  sync := by intro a b; simp [Adj.new, inn, out]
  irr := by intro a; simp [Adj.new, out]
  anno := AnnoStore.Inv.new
  edge := by intro a b key; simp [Adj.new, AnnoStore.new, AnnoStore.getValue, SymbolTable.new, SymbolTable.getSymbol]

theorem getValue_clear (s : AnnoStore (N ×ₗ N) S W) (t : N ×ₗ N) (key : AnnoKey S) : s.clear.getValue t key = none := by
  simp [AnnoStore.clear, AnnoStore.getValue, SymbolTable.clear, SymbolTable.getSymbol]

theorem Inv.clear (g : Adj N S W) : Inv g.clear where
  es := OMap.sorted_nil
  is := OMap.sorted_nil
  eo := by intro n; simp [Adj.clear, out]
  io := by intro n; simp [Adj.clear, inn]
  sync := by intro a b; simp [Adj.clear, inn, out]
  irr := by intro a; simp [Adj.clear, out]
  anno := AnnoStore.Inv.clear _
  edge := by intro a b key; simp [Adj.clear, getValue_clear]

theorem get_vec (m : OMap N (List N)) (a b n : N) :
    ((m.insert a (vecInsert b ((m.get a).getD []))).get n).getD [] =
      if n = a then vecInsert b ((m.get a).getD []) else (m.get n).getD [] := by
  rw [OMap.get_insert]
  split <;> rfl

theorem out_addEdge (g : Adj N S W) (a b n : N) :
    (g.addEdge a b).out n = if a ≠ b ∧ n = a then vecInsert b (g.out a) else g.out n := by
  unfold addEdge
  by_cases hab : a = b
  · simp [hab]
  · simp only [hab, ne_eq, not_false_eq_true, if_true, true_and]
    exact get_vec g.edges a b n

theorem inn_addEdge (g : Adj N S W) (a b n : N) :
    (g.addEdge a b).inn n = if a ≠ b ∧ n = b then vecInsert a (g.inn b) else g.inn n := by
  unfold addEdge
  by_cases hab : a = b
  · simp [hab]
  · simp only [hab, ne_eq, not_false_eq_true, if_true, true_and]
    exact get_vec g.inverse b a n

theorem mem_out_addEdge (g : Adj N S W) (a b x y : N) :
    y ∈ (g.addEdge a b).out x ↔ (x = a ∧ y = b ∧ a ≠ b) ∨ y ∈ g.out x := by
  rw [out_addEdge]
  by_cases h : a ≠ b ∧ x = a
  · rw [if_pos h, mem_vecInsert, h.2]; simp [h.1]
  · rw [if_neg h]
    constructor
    · exact Or.inr
    · rintro (⟨h1, _, h3⟩ | h1)
      · exact absurd ⟨h3, h1⟩ h
      · exact h1

theorem annos_addEdge (g : Adj N S W) (a b : N) : (g.addEdge a b).annos = g.annos := by
  unfold addEdge; split <;> rfl

theorem Inv.addEdge {g : Adj N S W} (h : Inv g) (a b : N) : Inv (g.addEdge a b) where
  es := by unfold Adj.addEdge; split; exacts [OMap.sorted_insert h.es _ _, h.es]
  is := by unfold Adj.addEdge; split; exacts [OMap.sorted_insert h.is _ _, h.is]
  eo := by
    intro n; rw [out_addEdge]; split
    · exact sorted_vecInsert _ _ (h.eo a)
    · exact h.eo n
  io := by
    intro n; rw [inn_addEdge]; split
    · exact sorted_vecInsert _ _ (h.io b)
    · exact h.io n
  sync := by
    intro x y
    rw [mem_out_addEdge, inn_addEdge, h.sync]
    by_cases hc : a ≠ b ∧ y = b
    · rw [if_pos hc, mem_vecInsert, hc.2]; simp [hc.1]
    · rw [if_neg hc]
      constructor
      · rintro (⟨_, h2, h3⟩ | h1)
        · exact absurd ⟨h3, h2⟩ hc
        · exact h1
      · exact Or.inr
  irr := by
    intro x hx
    rcases (mem_out_addEdge g a b x x).1 hx with ⟨h1, h2, h3⟩ | hx
    · exact h3 (h1.symm.trans h2)
    · exact h.irr x hx
  anno := by rw [annos_addEdge]; exact h.anno
  edge := by
    intro x y key hk
    rw [annos_addEdge] at hk
    exact (mem_out_addEdge g a b x y).2 (Or.inr (h.edge x y key hk))

theorem addAnno_eq (g : Adj N S W) (a b : N) (key : AnnoKey S) (val : W) :
    g.addAnno a b key val = if b ∈ g.out a then { g with annos := g.annos.insert (toLex (a, b)) key val } else g := by
  unfold addAnno out
  cases g.edges.get a with
  | none => simp
  | some l => rfl

theorem Inv.addAnno {g : Adj N S W} (h : Inv g) (a b : N) (key : AnnoKey S) (val : W) : Inv (g.addAnno a b key val) := by
  rw [addAnno_eq]
  split
  · rename_i hb
    refine ⟨h.es, h.is, h.eo, h.io, h.sync, h.irr, h.anno.insert _ _ _, ?_⟩
    intro x y k hk
    simp only at hk
    rw [AnnoStore.getValue_insert h.anno] at hk
    split at hk
    · rename_i hc
      have := hc.1
      simp only [toLex_inj, Prod.mk.injEq] at this
      show y ∈ g.out x
      rw [this.1, this.2]; exact hb
    · exact h.edge x y k hk
  · exact h

theorem dropFrom_get (m : OMap N (List N)) (a b n : N) :
    ((dropFrom m a b).get n).getD [] = if n = a then ((m.get a).getD []).erase b else (m.get n).getD [] := by
  unfold dropFrom
  cases ha : m.get a with
  | none =>
    simp only
    split
    · rename_i e; subst e; simp [ha]
    · rfl
  | some l =>
    simp only
    by_cases hb : b ∈ l
    · rw [if_pos hb, OMap.get_insert]
      split <;> simp
    · rw [if_neg hb]
      split
      · rename_i e; subst e; simp [ha, List.erase_of_not_mem hb]
      · rfl

theorem sorted_dropFrom {m : OMap N (List N)} (hs : m.Sorted) (a b : N) : (dropFrom m a b).Sorted := by
  unfold dropFrom
  split
  · split
    · exact OMap.sorted_insert hs _ _
    · exact hs
  · exact hs

theorem out_deleteEdge (g : Adj N S W) (a b n : N) :
    (g.deleteEdge a b).out n = if n = a then (g.out a).erase b else g.out n := dropFrom_get g.edges a b n

theorem inn_deleteEdge (g : Adj N S W) (a b n : N) :
    (g.deleteEdge a b).inn n = if n = b then (g.inn b).erase a else g.inn n := dropFrom_get g.inverse b a n

theorem mem_out_deleteEdge {g : Adj N S W} (h : Inv g) (a b x y : N) :
    y ∈ (g.deleteEdge a b).out x ↔ y ∈ g.out x ∧ ¬ (x = a ∧ y = b) := by
  rw [out_deleteEdge]
  split
  · rename_i e; subst e
    rw [(nodup_of_lt (h.eo x)).mem_erase_iff]
    tauto
  · tauto

theorem mem_inn_deleteEdge {g : Adj N S W} (h : Inv g) (a b x y : N) :
    x ∈ (g.deleteEdge a b).inn y ↔ x ∈ g.inn y ∧ ¬ (x = a ∧ y = b) := by
  rw [inn_deleteEdge]
  split
  · rename_i e; subst e
    rw [(nodup_of_lt (h.io y)).mem_erase_iff]
    tauto
  · tauto

theorem getValue_deleteEdge {g : Adj N S W} (h : Inv g) (a b x y : N) (key : AnnoKey S) :
    (g.deleteEdge a b).annos.getValue (toLex (x, y)) key =
      if x = a ∧ y = b then none else g.annos.getValue (toLex (x, y)) key := by
  simp only [deleteEdge]
  rw [(AnnoStore.removeItem_spec h.anno _).2.2]
  simp only [toLex_inj, Prod.mk.injEq]

theorem Inv.deleteEdge {g : Adj N S W} (h : Inv g) (a b : N) : Inv (g.deleteEdge a b) where
  es := sorted_dropFrom h.es _ _
  is := sorted_dropFrom h.is _ _
  eo := by
    intro n; rw [out_deleteEdge]; split
    · exact (h.eo a).sublist List.erase_sublist
    · exact h.eo n
  io := by
    intro n; rw [inn_deleteEdge]; split
    · exact (h.io b).sublist List.erase_sublist
    · exact h.io n
  sync := by
    intro x y
    rw [mem_out_deleteEdge h, mem_inn_deleteEdge h, h.sync]
  irr := by
    intro x hx
    exact h.irr x ((mem_out_deleteEdge h a b x x).1 hx).1
  anno := (AnnoStore.removeItem_spec h.anno _).1
  edge := by
    intro x y key hk
    rw [getValue_deleteEdge h] at hk
    rw [mem_out_deleteEdge h]
    split at hk
    · simp at hk
    · rename_i hc; exact ⟨h.edge x y key hk, hc⟩

theorem Inv.deleteAnno {g : Adj N S W} (h : Inv g) (a b : N) (key : AnnoKey S) : Inv (g.deleteAnno a b key) := by
  refine ⟨h.es, h.is, h.eo, h.io, h.sync, h.irr, (AnnoStore.removeAnno_spec h.anno _ _).1, ?_⟩
  intro x y k hk
  simp only [Adj.deleteAnno] at hk
  rw [(AnnoStore.removeAnno_spec h.anno _ _).2.2] at hk
  split at hk
  · simp at hk
  · exact h.edge x y k hk

theorem deleteEdges_spec (l : List (N × N)) : ∀ {g : Adj N S W}, Inv g →
    Inv (l.foldl (fun g e => g.deleteEdge e.1 e.2) g) ∧
    (∀ x y, y ∈ (l.foldl (fun g e => g.deleteEdge e.1 e.2) g).out x ↔ y ∈ g.out x ∧ (x, y) ∉ l) ∧
    (∀ x y key, (l.foldl (fun g e => g.deleteEdge e.1 e.2) g).annos.getValue (toLex (x, y)) key =
      if (x, y) ∈ l then none else g.annos.getValue (toLex (x, y)) key) := by
  induction l with
  | nil => intro g h; exact ⟨h, by simp, by simp⟩
  | cons e r ih =>
    intro g h
    obtain ⟨a, b⟩ := e
    obtain ⟨i1, i2, i3⟩ := ih (h.deleteEdge a b)
    simp only [List.foldl_cons]
    refine ⟨i1, ?_, ?_⟩
    · intro x y
      rw [i2, mem_out_deleteEdge h]
      simp only [List.mem_cons, Prod.mk.injEq, not_or]
      tauto
    · intro x y key
      rw [i3, getValue_deleteEdge h]
      simp only [List.mem_cons, Prod.mk.injEq]
      by_cases h1 : (x, y) ∈ r
      · simp [h1]
      · simp [h1]

theorem mem_toDelete {g : Adj N S W} (h : Inv g) (n x y : N) :
    (x, y) ∈ (g.out n).map (fun t => (n, t)) ++ (g.inn n).map (fun s => (s, n)) ↔ y ∈ g.out x ∧ (x = n ∨ y = n) := by
  simp only [List.mem_append, List.mem_map, Prod.mk.injEq, ← h.sync]
  constructor
  · rintro (⟨t, ht, rfl, rfl⟩ | ⟨s, hs, rfl, rfl⟩)
    · exact ⟨ht, Or.inl rfl⟩
    · exact ⟨hs, Or.inr rfl⟩
  · rintro ⟨hy, rfl | rfl⟩
    · exact Or.inl ⟨y, hy, rfl, rfl⟩
    · exact Or.inr ⟨x, hy, rfl, rfl⟩

theorem deleteNode_spec {g : Adj N S W} (h : Inv g) (n : N) :
    Inv (g.deleteNode n) ∧ (∀ x y, y ∈ (g.deleteNode n).out x ↔ y ∈ g.out x ∧ x ≠ n ∧ y ≠ n) ∧
    (∀ x y key, (g.deleteNode n).annos.getValue (toLex (x, y)) key =
      if x = n ∨ y = n then none else g.annos.getValue (toLex (x, y)) key) := by
  obtain ⟨i1, i2, i3⟩ := deleteEdges_spec ((g.out n).map (fun t => (n, t)) ++ (g.inn n).map (fun s => (s, n))) h
  refine ⟨i1, ?_, ?_⟩
  · intro x y
    unfold deleteNode
    rw [i2, mem_toDelete h]
    tauto
  · intro x y key
    unfold deleteNode
    rw [i3]
    simp only [mem_toDelete h]
    by_cases hy : y ∈ g.out x
    · simp [hy]
    · have : g.annos.getValue (toLex (x, y)) key = none := by
        cases hv : g.annos.getValue (toLex (x, y)) key with
        | none => rfl
        | some w => exact absurd (h.edge x y key (by simp [hv])) hy
      simp [hy, this]

theorem covers_out (g : Adj N S W) : Dfs.Covers (targets g.edges) g.out := by
  intro a c hc
  unfold out at hc
  unfold targets OMap.vals
  cases ha : g.edges.get a with
  | none => simp [ha] at hc
  | some l =>
    rw [ha] at hc
    rw [List.mem_flatten]
    exact ⟨l, List.mem_map.2 ⟨(a, l), OMap.mem_of_get ha, rfl⟩, hc⟩

theorem covers_inn (g : Adj N S W) : Dfs.Covers (targets g.inverse) g.inn := by
  intro a c hc
  unfold inn at hc
  unfold targets OMap.vals
  cases ha : g.inverse.get a with
  | none => simp [ha] at hc
  | some l =>
    rw [ha] at hc
    rw [List.mem_flatten]
    exact ⟨l, List.mem_map.2 ⟨(a, l), OMap.mem_of_get ha, rfl⟩, hc⟩

end Adj
