import Verif.SymbolTable.Model

namespace SymbolTable

variable {V : Type _} [LinearOrder V]

/-- Well-formedness: `byValue` is the inverse of `byId`, the free list holds exactly the empty slots, each once. -/
structure Inv (t : SymbolTable V) : Prop where
  sorted : t.byValue.Sorted
  sym : ∀ v id, t.getSymbol v = some id ↔ t.getValue id = some v
  free : ∀ id, id ∈ t.emptySlots ↔ t.byId[id]? = some none
  nodup : t.emptySlots.Nodup

theorem Inv.new : Inv (new : SymbolTable V) := by
  constructor <;> simp [SymbolTable.new, OMap.sorted_nil, getSymbol, getValue]

theorem Inv.unique {t : SymbolTable V} (h : Inv t) {v : V} {i j : Nat}
    (hi : t.getValue i = some v) (hj : t.getValue j = some v) : i = j := by
  have a := (h.sym v i).2 hi
  have b := (h.sym v j).2 hj
  rw [a] at b; injection b

theorem getValue_insert {t : SymbolTable V} (h : Inv t) (v : V) (id : Nat) :
    (t.insert v).1.getValue id = if id = (t.insert v).2 then some v else t.getValue id := by
  unfold insert
  split
  · rename_i i hi
    have := (h.sym v i).1 hi
    by_cases e : id = i
    · subst e; simp [this]
    · simp [e]
  · split
    · rename_i slot rest hs
      have hfree := (h.free slot).1 (by simp [hs])
      have hlt : slot < t.byId.length := by
        by_contra hc
        rw [List.getElem?_eq_none (Nat.le_of_not_lt hc)] at hfree; simp at hfree
      simp only [getValue, List.getElem?_set]
      by_cases e : id = slot
      · subst e; simp [hlt]
      · simp [e, Ne.symm e]
    · simp only [getValue, List.getElem?_append]
      by_cases e : id = t.byId.length
      · subst e; simp
      · simp only [e, if_false]
        split
        · rfl
        · rename_i h1
          rw [List.getElem?_eq_none (l := t.byId) (Nat.le_of_not_lt h1)]
          rw [List.getElem?_eq_none]; simp; omega

theorem getSymbol_insert (t : SymbolTable V) (v w : V) :
    (t.insert v).1.getSymbol w = if w = v then some (t.insert v).2 else t.getSymbol w := by
  unfold insert
  split
  · rename_i i hi
    by_cases e : w = v
    · subst e; simp [getSymbol, hi]
    · simp [e]
  · split <;> simp [getSymbol, OMap.get_insert]

/-- The returned id is either the existing one, or it was unused. -/
theorem insert_id {t : SymbolTable V} (h : Inv t) (v : V) :
    t.getSymbol v = some (t.insert v).2 ∨ (t.getSymbol v = none ∧ t.getValue (t.insert v).2 = none) := by
  unfold insert
  split
  · rename_i i hi; left; exact hi
  · rename_i hn
    right
    refine ⟨hn, ?_⟩
    split
    · rename_i slot rest hs
      have hfree := (h.free slot).1 (by simp [hs])
      simp [getValue, hfree]
    · simp [getValue]

theorem Inv.insert {t : SymbolTable V} (h : Inv t) (v : V) : Inv (t.insert v).1 := by
  have hv := getValue_insert h v
  have hsym := getSymbol_insert t v
  have hid := insert_id h v
  refine ⟨?_, ?_, ?_, ?_⟩
  · unfold SymbolTable.insert; split
    · exact h.sorted
    · split <;> exact OMap.sorted_insert h.sorted _ _
  · intro w id
    rw [hv id, hsym w]
    by_cases e : w = v
    · subst e
      simp only [if_true]
      by_cases e2 : id = (t.insert w).2
      · simp [e2]
      · simp only [e2, if_false]
        constructor
        · intro hc; injection hc with hc; exact absurd hc.symm e2
        · intro hg
          have := (h.sym w id).2 hg
          rcases hid with hid | hid
          · rw [hid] at this; injection this with this; exact absurd this.symm e2
          · rw [hid.1] at this; simp at this
    · simp only [e, if_false]
      by_cases e2 : id = (t.insert v).2
      · subst e2
        simp only [if_true]
        constructor
        · intro hg
          have hg' := (h.sym w _).1 hg
          rcases hid with hid | hid
          · rw [(h.sym v _).1 hid] at hg'; exact hg'
          · rw [hid.2] at hg'; simp at hg'
        · intro hc; injection hc with hc; exact absurd hc.symm e
      · simp only [e2, if_false]; exact h.sym w id
  · intro id
    unfold SymbolTable.insert
    split
    · exact h.free id
    · split
      · rename_i slot rest hs
        have hnd := h.nodup
        rw [hs] at hnd
        rw [List.nodup_cons] at hnd
        have hfree := (h.free slot).1 (by simp [hs])
        have hf := h.free id
        rw [hs] at hf
        simp only [List.getElem?_set]
        by_cases e : slot = id
        · subst e
          simp only [if_true]
          constructor
          · intro hm; exact absurd hm hnd.1
          · intro hm; split at hm <;> simp at hm
        · simp only [e, if_false]
          rw [← hf]; simp [Ne.symm e]
      · rename_i hs
        have hf := h.free id
        rw [hs] at hf
        simp only [List.not_mem_nil, false_iff] at hf ⊢
        rw [List.getElem?_append]
        split
        · exact hf
        · intro hc
          have hc1 := List.mem_of_getElem? hc
          simp at hc1
  · unfold SymbolTable.insert; split
    · exact h.nodup
    · split
      · rename_i slot rest hs
        have hnd := h.nodup
        rw [hs] at hnd
        exact (List.nodup_cons.1 hnd).2
      · simp

theorem getValue_remove (t : SymbolTable V) (i id : Nat) :
    (t.remove i).1.getValue id = if id = i then none else t.getValue id := by
  unfold remove
  split
  · rename_i v hv
    simp only [getValue, List.getElem?_set]
    by_cases e : id = i
    · subst e; simp; split <;> simp
    · simp [e, Ne.symm e]
  · rename_i hv
    by_cases e : id = i
    · subst e; simp [getValue, hv]
    · simp [e]

theorem getSymbol_remove {t : SymbolTable V} (h : Inv t) (i : Nat) (w : V) :
    (t.remove i).1.getSymbol w = if t.getValue i = some w then none else t.getSymbol w := by
  unfold remove
  split
  · rename_i v hv
    have hg : t.getValue i = some v := hv
    simp only [getSymbol, OMap.get_erase h.sorted, hg, Option.some.injEq]
    by_cases e : w = v
    · subst e; simp
    · simp [e, Ne.symm e]
  · rename_i hv
    have hg : t.getValue i = none := hv
    simp [hg]

theorem Inv.remove {t : SymbolTable V} (h : Inv t) (i : Nat) : Inv (t.remove i).1 := by
  refine ⟨?_, ?_, ?_, ?_⟩
  · unfold SymbolTable.remove; split
    · exact OMap.sorted_erase h.sorted _
    · exact h.sorted
  · intro w id
    rw [getSymbol_remove h, getValue_remove]
    by_cases e : id = i
    · subst e
      simp only [if_true]
      split
      · simp
      · rename_i hne
        constructor
        · intro hg; exact absurd ((h.sym w id).1 hg) hne
        · intro hc; simp at hc
    · simp only [e, if_false]
      split
      · rename_i hw
        constructor
        · intro hc; simp at hc
        · intro hg; exact absurd (h.unique hg hw) e
      · exact h.sym w id
  · intro id
    unfold SymbolTable.remove
    split
    · rename_i v hv
      simp only [List.mem_cons, h.free id, List.getElem?_set]
      by_cases e : id = i
      · subst e
        have hlt : id < t.byId.length := by
          by_contra hc
          rw [List.getElem?_eq_none (Nat.le_of_not_lt hc)] at hv; simp at hv
        simp [hlt]
      · simp [e, Ne.symm e]
    · exact h.free id
  · unfold SymbolTable.remove
    split
    · rename_i v hv
      rw [List.nodup_cons]
      refine ⟨?_, h.nodup⟩
      intro hm
      rw [(h.free i).1 hm] at hv
      simp at hv
    · exact h.nodup

theorem Inv.clear (t : SymbolTable V) : Inv t.clear := Inv.new

theorem rebuild_sorted (l : List (Option V)) (i : Nat) (m : OMap V Nat) (h : m.Sorted) :
    (rebuild l i m).Sorted := by
  induction l generalizing i m with
  | nil => exact h
  | cons o r ih =>
    cases o with
    | none => exact ih _ _ h
    | some v => exact ih _ _ (OMap.sorted_insert h _ _)

/-- With pairwise different live values the rebuilt index maps a value to its position. -/
theorem rebuild_get (l : List (Option V)) (i : Nat) (m : OMap V Nat)
    (hl : ∀ (a b : Nat) (v : V), l[a]? = some (some v) → l[b]? = some (some v) → a = b) (v : V) (id : Nat) :
    (rebuild l i m).get v = some id ↔
      (∃ j, l[j]? = some (some v) ∧ id = i + j) ∨ ((∀ j : Nat, l[j]? ≠ some (some v)) ∧ m.get v = some id) := by
  induction l generalizing i m with
  | nil => simp [rebuild]
  | cons o r ih =>
    have hr : ∀ (a b : Nat) (v : V), r[a]? = some (some v) → r[b]? = some (some v) → a = b := by
      intro a b w ha hb
      have := hl (a + 1) (b + 1) w (by simpa using ha) (by simpa using hb)
      omega
    cases o with
    | none =>
      simp only [rebuild]
      rw [ih _ _ hr]
      constructor
      · rintro (⟨j, h1, h2⟩ | ⟨h1, h2⟩)
        · exact Or.inl ⟨j + 1, by simpa using h1, by omega⟩
        · refine Or.inr ⟨?_, h2⟩
          intro j; cases j with
          | zero => simp
          | succ j => simpa using h1 j
      · rintro (⟨j, h1, h2⟩ | ⟨h1, h2⟩)
        · cases j with
          | zero => simp at h1
          | succ j => exact Or.inl ⟨j, by simpa using h1, by omega⟩
        · exact Or.inr ⟨fun j => by simpa using h1 (j + 1), h2⟩
    | some w =>
      simp only [rebuild]
      rw [ih _ _ hr, OMap.get_insert]
      by_cases e : v = w
      · subst e
        have hno : ∀ j : Nat, r[j]? ≠ some (some v) := by
          intro j hj
          have := hl 0 (j + 1) v (by simp) (by simpa using hj)
          omega
        simp only [if_true]
        constructor
        · rintro (⟨j, h1, h2⟩ | ⟨h1, h2⟩)
          · exact absurd h1 (hno j)
          · injection h2 with h2; exact Or.inl ⟨0, by simp, by omega⟩
        · rintro (⟨j, h1, h2⟩ | ⟨h1, h2⟩)
          · have : j = 0 := hl j 0 v h1 (by simp)
            subst this
            exact Or.inr ⟨hno, by simp [h2]⟩
          · exact absurd (by simp) (h1 0)
      · simp only [e, if_false]
        constructor
        · rintro (⟨j, h1, h2⟩ | ⟨h1, h2⟩)
          · exact Or.inl ⟨j + 1, by simpa using h1, by omega⟩
          · refine Or.inr ⟨?_, h2⟩
            intro j; cases j with
            | zero => simpa using Ne.symm e
            | succ j => simpa using h1 j
        · rintro (⟨j, h1, h2⟩ | ⟨h1, h2⟩)
          · cases j with
            | zero => simp at h1; exact absurd h1.symm e
            | succ j => exact Or.inl ⟨j, by simpa using h1, by omega⟩
          · exact Or.inr ⟨fun j => by simpa using h1 (j + 1), h2⟩

omit [LinearOrder V] in
theorem getValue_eq_iff (t : SymbolTable V) (id : Nat) (v : V) :
    t.getValue id = some v ↔ t.byId[id]? = some (some v) := by
  unfold getValue
  cases t.byId[id]? with
  | none => simp
  | some o => simp

/-- A reloaded table equals the stored one. -/
theorem load_store {t : SymbolTable V} (h : Inv t) : load t.store = t := by
  have hl : ∀ (a b : Nat) (v : V), t.byId[a]? = some (some v) → t.byId[b]? = some (some v) → a = b := by
    intro a b v ha hb
    exact h.unique ((getValue_eq_iff t a v).2 ha) ((getValue_eq_iff t b v).2 hb)
  have hb : rebuild t.byId 0 [] = t.byValue := by
    apply OMap.ext (rebuild_sorted _ _ _ OMap.sorted_nil) h.sorted
    intro v
    apply Option.ext
    intro id
    rw [rebuild_get _ _ _ hl]
    have := h.sym v id
    unfold getSymbol at this
    rw [this, getValue_eq_iff]
    simp
  unfold load store
  simp [hb]

end SymbolTable

namespace SymbolTable

variable {V : Type _} [LinearOrder V]

theorem getValue_insert_of_live {t : SymbolTable V} (h : Inv t) (v : V) {id : Nat} {w : V}
    (hw : t.getValue id = some w) : (t.insert v).1.getValue id = some w := by
  rw [getValue_insert h]
  split
  · rename_i e
    rcases insert_id h v with h1 | h1
    · rw [e, (h.sym v _).1 h1] at hw; exact hw
    · rw [e, h1.2] at hw; simp at hw
  · exact hw

/-- If the id handed out was live already, the insertion changed nothing. -/
theorem insert_eq_of_live {t : SymbolTable V} (h : Inv t) (v : V) {w : V}
    (hw : t.getValue (t.insert v).2 = some w) : (t.insert v).1 = t ∧ t.getSymbol v = some (t.insert v).2 := by
  rcases insert_id h v with h1 | h1
  · refine ⟨?_, h1⟩
    unfold getSymbol at h1
    unfold insert; simp [h1]
  · rw [h1.2] at hw; simp at hw

end SymbolTable
