import Verif.Anno.Lemmas

set_option linter.unusedSimpArgs false
set_option linter.unusedSectionVars false

namespace AnnoStore

variable {T N V : Type} [LinearOrder T] [LinearOrder N] [OrderBot N] [LinearOrder V]

/-- Number of items with key symbol `k`. -/
def cnt (c : OMap T (OMap Nat Nat)) (k : Nat) : Nat := c.countP (fun _ row => (row.get k).isSome)

/-- Number of stored annotations. -/
def rowSum (c : OMap T (OMap Nat Nat)) : Nat := c.sumBy (fun _ row => row.length)

/-- The value symbol of an item and key symbol. -/
def cell (c : OMap T (OMap Nat Nat)) (t : T) (k : Nat) : Option Nat := ((c.get t).getD []).get k

structure Inv (s : AnnoStore T N V) : Prop where
  keys : s.keys.Inv
  vals : s.vals.Inv
  cSorted : s.byContainer.Sorted
  cRow : ∀ t row, s.byContainer.get t = some row → row.Sorted ∧ row ≠ []
  byAnno : WF3 s.byAnno
  mirror : ∀ k v t, has s.byAnno k v t ↔ cell s.byContainer t k = some v
  liveK : ∀ k v t, has s.byAnno k v t → ∃ key, s.keys.getValue k = some key
  liveV : ∀ k v t, has s.byAnno k v t → ∃ val, s.vals.getValue v = some val
  szSorted : s.sizes.Sorted
  sz : ∀ key n, s.sizes.get key = some n →
    ∃ k, s.keys.getSymbol key = some k ∧ n = cnt s.byContainer k ∧ 0 < n
  szc : ∀ key k, s.keys.getSymbol key = some k → ∃ n, s.sizes.get key = some n
  larg : ∀ t row, s.byContainer.get t = some row → ∃ l, s.largest = some l ∧ t ≤ l

theorem Inv.new : Inv (new : AnnoStore T N V) where
  keys := SymbolTable.Inv.new
  vals := SymbolTable.Inv.new
  cSorted := OMap.sorted_nil
  cRow := by simp [AnnoStore.new]
  byAnno := WF3.nil
  mirror := by simp [AnnoStore.new, has, cell]
  liveK := by simp [AnnoStore.new, has]
  liveV := by simp [AnnoStore.new, has]
  szSorted := OMap.sorted_nil
  sz := by simp [AnnoStore.new]
  szc := by simp [AnnoStore.new, SymbolTable.new, SymbolTable.getSymbol]
  larg := by simp [AnnoStore.new]

theorem Inv.clear (s : AnnoStore T N V) : Inv s.clear where
  keys := SymbolTable.Inv.new
  vals := SymbolTable.Inv.new
  cSorted := OMap.sorted_nil
  cRow := by simp [AnnoStore.clear]
  byAnno := WF3.nil
  mirror := by simp [AnnoStore.clear, has, cell]
  liveK := by simp [AnnoStore.clear, has]
  liveV := by simp [AnnoStore.clear, has]
  szSorted := OMap.sorted_nil
  sz := by simp [AnnoStore.clear]
  szc := by simp [AnnoStore.clear, SymbolTable.clear, SymbolTable.getSymbol]
  larg := by simp [AnnoStore.clear]

theorem saveLoad_eq {s : AnnoStore T N V} (h : Inv s) : s.saveLoad = s := by
  unfold saveLoad
  rw [SymbolTable.load_store h.keys, SymbolTable.load_store h.vals]

/-- `getValue` in terms of the relation. -/
theorem getValue_iff {s : AnnoStore T N V} (h : Inv s) (t : T) (key : AnnoKey N) (val : V) :
    s.getValue t key = some val ↔
      ∃ k v, s.keys.getValue k = some key ∧ s.vals.getValue v = some val ∧ has s.byAnno k v t := by
  unfold getValue
  constructor
  · intro hg
    simp only [bind, Option.bind_eq_some_iff] at hg
    obtain ⟨k, h1, row, h2, v, h3, h4⟩ := hg
    refine ⟨k, v, (h.keys.sym _ _).1 h1, h4, ?_⟩
    rw [h.mirror]; simp [cell, h2, h3]
  · rintro ⟨k, v, h1, h2, h3⟩
    rw [h.mirror] at h3
    simp only [bind, Option.bind_eq_some_iff]
    refine ⟨k, (h.keys.sym _ _).2 h1, ?_⟩
    unfold cell at h3
    cases h4 : s.byContainer.get t with
    | none => rw [h4] at h3; simp at h3
    | some row => rw [h4] at h3; exact ⟨row, rfl, v, h3, h2⟩

theorem cell_insert (c : OMap T (OMap Nat Nat)) (t : T) (k v : Nat) (t' : T) (k' : Nat) :
    cell (c.insert t (((c.get t).getD []).insert k v)) t' k' = if t' = t ∧ k' = k then some v else cell c t' k' := by
  unfold cell
  rw [OMap.get_insert]
  by_cases ht : t' = t
  · subst ht
    simp [OMap.get_insert]
  · simp [ht]

theorem cnt_insert {c : OMap T (OMap Nat Nat)} (hs : c.Sorted) (t : T) (k v k' : Nat) :
    cnt (c.insert t (((c.get t).getD []).insert k v)) k' =
      if k' = k ∧ cell c t k = none then cnt c k' + 1 else cnt c k' := by
  unfold cnt cell
  cases h : c.get t with
  | none =>
    rw [OMap.countP_insert_none _ _ _ _ h]
    by_cases e : k' = k
    · simp [e, OMap.get_insert]
    · simp [e, OMap.get_insert]
  | some row =>
    have := OMap.countP_insert_some (fun _ row => (row.get k').isSome) c hs t (row.insert k v) row h
    simp only [Option.getD_some]
    by_cases e : k' = k
    · subst e
      by_cases hr : row.get k' = none
      · simp [hr, OMap.get_insert] at this ⊢; omega
      · have hr' : (row.get k').isSome = true := Option.isSome_iff_ne_none.2 hr
        simp [hr, hr', OMap.get_insert] at this ⊢; omega
    · simp [e, OMap.get_insert] at this ⊢; omega

theorem cell_none_of_cnt {c : OMap T (OMap Nat Nat)} (hs : c.Sorted) {k : Nat} (h : cnt c k = 0) (t : T) :
    cell c t k = none := by
  by_contra hc
  obtain ⟨v, hv⟩ := Option.ne_none_iff_exists'.1 hc
  unfold cell at hv
  cases h4 : c.get t with
  | none => rw [h4] at hv; simp at hv
  | some row =>
    rw [h4] at hv
    have : 0 < cnt c k := (OMap.countP_pos_iff hs).2 ⟨t, row, h4, by simpa using by rw [Option.getD_some] at hv; simp [hv]⟩
    omega

theorem cnt_pos_of_cell {c : OMap T (OMap Nat Nat)} (hs : c.Sorted) {k v : Nat} {t : T} (h : cell c t k = some v) :
    0 < cnt c k := by
  rcases Nat.eq_zero_or_pos (cnt c k) with h0 | h0
  · rw [cell_none_of_cnt hs h0] at h; simp at h
  · exact h0

theorem has_unique {s : AnnoStore T N V} (h : Inv s) {k v v' : Nat} {t : T} (h1 : has s.byAnno k v t)
    (h2 : has s.byAnno k v' t) : v = v' := by
  rw [h.mirror] at h1 h2
  rw [h1] at h2; injection h2

/-- Effect of `insert` on the relation and the symbol tables. -/
theorem insert_spec {s : AnnoStore T N V} (h : Inv s) (t : T) (key : AnnoKey N) (val : V) :
    (s.insert t key val).keys = (s.keys.insert key).1 ∧ (s.insert t key val).vals = (s.vals.insert val).1 ∧
    WF3 (s.insert t key val).byAnno ∧
    (∀ k' v' t', has (s.insert t key val).byAnno k' v' t' ↔
      (k' = (s.keys.insert key).2 ∧ v' = (s.vals.insert val).2 ∧ t' = t) ∨
        (has s.byAnno k' v' t' ∧ ¬(k' = (s.keys.insert key).2 ∧ t' = t))) := by
  set k := (s.keys.insert key).2 with hk
  set v := (s.vals.insert val).2 with hv
  have hm := h.mirror
  unfold cell at hm
  unfold insert
  simp only [← hk, ← hv]
  split
  · rename_i old ho
    have hold : has s.byAnno k old t := (hm k old t).2 ho
    split
    · rename_i e
      refine ⟨rfl, rfl, h.byAnno, ?_⟩
      intro k' v' t'
      rw [e] at hold
      simp only
      constructor
      · intro hh
        by_cases c : k' = k ∧ t' = t
        · obtain ⟨rfl, rfl⟩ := c
          exact Or.inl ⟨rfl, has_unique h hh hold, rfl⟩
        · exact Or.inr ⟨hh, c⟩
      · rintro (⟨rfl, rfl, rfl⟩ | ⟨hh, _⟩)
        · exact hold
        · exact hh
    · rename_i e
      refine ⟨rfl, rfl, (h.byAnno.remove k old t).add k v t, ?_⟩
      intro k' v' t'
      simp only [has_add, has_remove h.byAnno]
      constructor
      · rintro (hh | ⟨hh, hne⟩)
        · exact Or.inl hh
        · by_cases c : k' = k ∧ t' = t
          · obtain ⟨rfl, rfl⟩ := c
            exact absurd ⟨rfl, has_unique h hh hold, rfl⟩ hne
          · exact Or.inr ⟨hh, c⟩
      · rintro (hh | ⟨hh, hne⟩)
        · exact Or.inl hh
        · exact Or.inr ⟨hh, fun c => hne ⟨c.1, c.2.2⟩⟩
  · rename_i ho
    refine ⟨rfl, rfl, h.byAnno.add k v t, ?_⟩
    intro k' v' t'
    simp only [has_add]
    constructor
    · rintro (hh | hh)
      · exact Or.inl hh
      · refine Or.inr ⟨hh, ?_⟩
        rintro ⟨rfl, rfl⟩
        rw [hm] at hh; rw [ho] at hh; simp at hh
    · rintro (hh | ⟨hh, _⟩)
      · exact Or.inl hh
      · exact Or.inr hh

theorem Inv.insert {s : AnnoStore T N V} (h : Inv s) (t : T) (key : AnnoKey N) (val : V) :
    Inv (s.insert t key val) := by
  obtain ⟨hks, hvs, hwf, hhas⟩ := insert_spec h t key val
  have hkI := h.keys.insert key
  have hvI := h.vals.insert val
  set k := (s.keys.insert key).2 with hk
  set v := (s.vals.insert val).2 with hv
  have hcs : (s.insert t key val).byContainer.Sorted ∧
      (∀ t' row, (s.insert t key val).byContainer.get t' = some row → row.Sorted ∧ row ≠ []) ∧
      (∀ t' k', cell (s.insert t key val).byContainer t' k' =
        if t' = t ∧ k' = k then some v else cell s.byContainer t' k') ∧
      (∀ k', cnt (s.insert t key val).byContainer k' =
        if k' = k ∧ cell s.byContainer t k = none then cnt s.byContainer k' + 1 else cnt s.byContainer k') ∧
      ((s.insert t key val).sizes = if cell s.byContainer t k = none
        then s.sizes.insert key ((s.sizes.get key).getD 0 + 1) else s.sizes) ∧
      (∀ t' row, (s.insert t key val).byContainer.get t' = some row →
        ∃ l, (s.insert t key val).largest = some l ∧ t' ≤ l) := by
    have hrow : ((s.byContainer.get t).getD []).Sorted := by
      cases h1 : s.byContainer.get t with
      | none => exact OMap.sorted_nil
      | some row => exact (h.cRow t row h1).1
    have hrows : ∀ t' row, (s.byContainer.insert t (((s.byContainer.get t).getD []).insert k v)).get t' = some row →
        row.Sorted ∧ row ≠ [] := by
      intro t' row hg
      rw [OMap.get_insert] at hg
      split at hg
      · injection hg with hg; subst hg
        exact ⟨OMap.sorted_insert hrow _ _, OMap.insert_ne_nil _ _ _⟩
      · exact h.cRow t' row hg
    unfold AnnoStore.insert
    simp only [← hk, ← hv]
    split
    · rename_i old ho
      have ho' : cell s.byContainer t k = some old := ho
      split
      · rename_i e
        refine ⟨h.cSorted, h.cRow, ?_, ?_, ?_, h.larg⟩
        · intro t' k'
          split
          · rename_i c; rw [c.1, c.2, ho', e]
          · rfl
        · intro k'; simp [ho']
        · simp [ho']
      · rename_i e
        refine ⟨OMap.sorted_insert h.cSorted _ _, hrows, cell_insert _ _ _ _, cnt_insert h.cSorted _ _ _, ?_, ?_⟩
        · simp [ho']
        · intro t' row hg
          simp only at hg
          rw [OMap.get_insert] at hg
          split at hg
          · rename_i e; subst e
            cases h1 : s.byContainer.get t' with
            | none => simp [cell, h1] at ho'
            | some r => exact h.larg t' r h1
          · exact h.larg t' row hg
    · rename_i ho
      have ho' : cell s.byContainer t k = none := ho
      refine ⟨OMap.sorted_insert h.cSorted _ _, hrows, cell_insert _ _ _ _, cnt_insert h.cSorted _ _ _, ?_, ?_⟩
      · simp [ho']
      · intro t' row hg
        simp only at hg ⊢
        rw [OMap.get_insert] at hg
        have hl := h.larg t'
        by_cases e : t' = t
        · subst e
          cases h1 : s.largest with
          | none => exact ⟨t', rfl, le_refl _⟩
          | some l =>
            simp only
            split
            · exact ⟨t', rfl, le_refl _⟩
            · rename_i hlt; exact ⟨l, rfl, not_lt.1 hlt⟩
        · simp only [e, if_false] at hg
          obtain ⟨l, h2, h3⟩ := hl row hg
          rw [h2]
          simp only
          split
          · rename_i hlt; exact ⟨t, rfl, le_trans h3 (le_of_lt hlt)⟩
          · exact ⟨l, rfl, h3⟩
  obtain ⟨h1, h2, h3, h4, h5, h6⟩ := hcs
  have hkey : (s.keys.insert key).1.getValue k = some key := by
    rw [SymbolTable.getValue_insert h.keys]; simp [hk]
  have hval : (s.vals.insert val).1.getValue v = some val := by
    rw [SymbolTable.getValue_insert h.vals]; simp [hv]
  have hsym : (s.keys.insert key).1.getSymbol key = some k := (hkI.sym _ _).2 hkey
  have hfresh : cell s.byContainer t k ≠ none → s.keys.getSymbol key = some k := by
    intro hc
    obtain ⟨x, hx⟩ := Option.ne_none_iff_exists'.1 hc
    obtain ⟨y, hy⟩ := h.liveK k x t ((h.mirror _ _ _).2 hx)
    exact (SymbolTable.insert_eq_of_live h.keys key hy).2
  refine ⟨by rw [hks]; exact hkI, by rw [hvs]; exact hvI, h1, h2, hwf, ?_, ?_, ?_, ?_, ?_, ?_, h6⟩
  · intro k' v' t'
    rw [hhas, h3]
    by_cases c : t' = t ∧ k' = k
    · obtain ⟨rfl, rfl⟩ := c
      simp [eq_comm]
    · rw [if_neg c, ← h.mirror]
      constructor
      · rintro (⟨rfl, _, rfl⟩ | ⟨hh, _⟩)
        · exact absurd ⟨rfl, rfl⟩ c
        · exact hh
      · intro hh; exact Or.inr ⟨hh, fun c' => c ⟨c'.2, c'.1⟩⟩
  · intro k' v' t' hh
    rw [hks]
    rcases (hhas _ _ _).1 hh with ⟨rfl, _, _⟩ | ⟨hh, _⟩
    · exact ⟨key, hkey⟩
    · obtain ⟨x, hx⟩ := h.liveK _ _ _ hh
      exact ⟨x, SymbolTable.getValue_insert_of_live h.keys key hx⟩
  · intro k' v' t' hh
    rw [hvs]
    rcases (hhas _ _ _).1 hh with ⟨_, rfl, _⟩ | ⟨hh, _⟩
    · exact ⟨val, hval⟩
    · obtain ⟨x, hx⟩ := h.liveV _ _ _ hh
      exact ⟨x, SymbolTable.getValue_insert_of_live h.vals val hx⟩
  · rw [h5]; split
    · exact OMap.sorted_insert h.szSorted _ _
    · exact h.szSorted
  · intro key' n hg
    rw [h5] at hg
    rw [hks]
    by_cases hc : cell s.byContainer t k = none
    · rw [if_pos hc, OMap.get_insert] at hg
      split at hg
      · rename_i e; subst e
        injection hg with hg
        refine ⟨k, hsym, ?_, by omega⟩
        rw [h4, if_pos ⟨rfl, hc⟩, ← hg]
        congr 1
        cases h7 : s.sizes.get key' with
        | some m =>
          obtain ⟨k0, h8, h9, _⟩ := h.sz _ _ h7
          have : k0 = k := by
            have := SymbolTable.getValue_insert_of_live h.keys key' ((h.keys.sym _ _).1 h8)
            exact hkI.unique this hkey
          rw [← this]; simpa using h9
        | none =>
          -- the key was unknown, so its symbol is unused
          have : s.keys.getSymbol key' = none := by
            cases h8 : s.keys.getSymbol key' with
            | none => rfl
            | some k0 => obtain ⟨n, hn⟩ := h.szc _ _ h8; rw [h7] at hn; simp at hn
          rcases SymbolTable.insert_id h.keys key' with h8 | h8
          · rw [this] at h8; simp at h8
          · simp only [Option.getD_none]
            by_contra hne
            have hpos : 0 < cnt s.byContainer k := Nat.pos_of_ne_zero (Ne.symm hne)
            obtain ⟨t0, row, hr1, hr2⟩ := (OMap.countP_pos_iff h.cSorted).1 hpos
            obtain ⟨v0, hv0⟩ := Option.isSome_iff_exists.1 hr2
            obtain ⟨x, hx⟩ := h.liveK k v0 t0 ((h.mirror _ _ _).2 (by simp [cell, hr1, hv0]))
            rw [h8.2] at hx; simp at hx
      · rename_i e
        obtain ⟨k0, h8, h9, h10⟩ := h.sz _ _ hg
        have h11 := SymbolTable.getValue_insert_of_live h.keys key ((h.keys.sym _ _).1 h8)
        refine ⟨k0, (hkI.sym _ _).2 h11, ?_, h10⟩
        have : k0 ≠ k := by
          rintro rfl
          rw [hkey] at h11; injection h11 with h11; exact e h11.symm
        rw [h4, if_neg (fun c => this c.1)]; exact h9
    · rw [if_neg hc] at hg
      obtain ⟨k0, h8, h9, h10⟩ := h.sz _ _ hg
      have h11 := SymbolTable.getValue_insert_of_live h.keys key ((h.keys.sym _ _).1 h8)
      refine ⟨k0, (hkI.sym _ _).2 h11, ?_, h10⟩
      rw [h4, if_neg (fun c => hc c.2)]; exact h9
  · intro key' k' hg
    rw [hks] at hg
    rw [SymbolTable.getSymbol_insert] at hg
    rw [h5]
    split at hg
    · rename_i e; subst e
      split
      · exact ⟨_, OMap.get_insert_self _ _ _⟩
      · rename_i hc; exact h.szc _ _ (hfresh hc)
    · rename_i e
      obtain ⟨n, hn⟩ := h.szc _ _ hg
      split
      · exact ⟨n, by rw [OMap.get_insert_ne _ _ e]; exact hn⟩
      · exact ⟨n, hn⟩

/-- `insert` overwrites exactly one cell of the abstract map. -/
theorem getValue_insert {s : AnnoStore T N V} (h : Inv s) (t : T) (key : AnnoKey N) (val : V) (t' : T)
    (key' : AnnoKey N) :
    (s.insert t key val).getValue t' key' = if t' = t ∧ key' = key then some val else s.getValue t' key' := by
  obtain ⟨hks, hvs, hwf, hhas⟩ := insert_spec h t key val
  have hkI := h.keys.insert key
  have hvI := h.vals.insert val
  have hkey : (s.keys.insert key).1.getValue (s.keys.insert key).2 = some key := by
    rw [SymbolTable.getValue_insert h.keys]; simp
  have hval : (s.vals.insert val).1.getValue (s.vals.insert val).2 = some val := by
    rw [SymbolTable.getValue_insert h.vals]; simp
  apply Option.ext
  intro w
  rw [getValue_iff (h.insert t key val), hks, hvs]
  by_cases c : t' = t ∧ key' = key
  · rw [if_pos c]
    obtain ⟨rfl, rfl⟩ := c
    constructor
    · rintro ⟨k', v', h1, h2, h3⟩
      have : k' = (s.keys.insert key').2 := hkI.unique h1 hkey
      rcases (hhas _ _ _).1 h3 with ⟨_, rfl, _⟩ | ⟨_, hne⟩
      · rw [hval] at h2; exact h2
      · exact absurd ⟨this, rfl⟩ hne
    · intro e; injection e with e; subst e
      exact ⟨_, _, hkey, hval, (hhas _ _ _).2 (Or.inl ⟨rfl, rfl, rfl⟩)⟩
  · rw [if_neg c, getValue_iff h]
    constructor
    · rintro ⟨k', v', h1, h2, h3⟩
      rcases (hhas _ _ _).1 h3 with ⟨rfl, _, rfl⟩ | ⟨hh, hne⟩
      · rw [hkey] at h1; injection h1 with h1; exact absurd ⟨rfl, h1.symm⟩ c
      · obtain ⟨x, hx⟩ := h.liveK _ _ _ hh
        obtain ⟨y, hy⟩ := h.liveV _ _ _ hh
        have h5 := SymbolTable.getValue_insert_of_live h.keys key hx
        have h6 := SymbolTable.getValue_insert_of_live h.vals val hy
        rw [h5] at h1; rw [h6] at h2
        exact ⟨k', v', by rw [hx, h1], by rw [hy, h2], hh⟩
    · rintro ⟨k', v', h1, h2, h3⟩
      have h5 := SymbolTable.getValue_insert_of_live h.keys key h1
      have h6 := SymbolTable.getValue_insert_of_live h.vals val h2
      refine ⟨k', v', h5, h6, (hhas _ _ _).2 (Or.inr ⟨h3, ?_⟩)⟩
      rintro ⟨rfl, rfl⟩
      rw [hkey] at h5; injection h5 with h5; exact c ⟨rfl, h5.symm⟩

end AnnoStore
