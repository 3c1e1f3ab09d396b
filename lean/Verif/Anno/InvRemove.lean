import Verif.Anno.Inv

set_option linter.unusedSimpArgs false
set_option linter.unusedSectionVars false

namespace AnnoStore

variable {T N V : Type} [LinearOrder T] [LinearOrder N] [OrderBot N] [LinearOrder V]

theorem get_putRow {c : OMap T (OMap Nat Nat)} (hs : c.Sorted) (t : T) (row : OMap Nat Nat) (t' : T) :
    (putRow c t row).get t' = if t' = t then (if row = [] then none else some row) else c.get t' := by
  unfold putRow
  by_cases e : row = []
  · simp [e, OMap.get_erase hs]
  · simp [e, OMap.get_insert]

theorem cell_putRow {c : OMap T (OMap Nat Nat)} (hs : c.Sorted) (t : T) (row : OMap Nat Nat) (t' : T) (k' : Nat) :
    cell (putRow c t row) t' k' = if t' = t then row.get k' else cell c t' k' := by
  unfold cell
  rw [get_putRow hs]
  by_cases e : t' = t
  · by_cases e2 : row = [] <;> simp [e, e2]
  · simp [e]

theorem sorted_putRow {c : OMap T (OMap Nat Nat)} (hs : c.Sorted) (t : T) (row : OMap Nat Nat) :
    (putRow c t row).Sorted := by
  unfold putRow; split
  · exact OMap.sorted_erase hs _
  · exact OMap.sorted_insert hs _ _

theorem cnt_putRow {c : OMap T (OMap Nat Nat)} (hs : c.Sorted) {t : T} {row0 : OMap Nat Nat}
    (h : c.get t = some row0) (row : OMap Nat Nat) (k' : Nat) :
    cnt (putRow c t row) k' + (if (row0.get k').isSome then 1 else 0) =
      cnt c k' + (if (row.get k').isSome then 1 else 0) := by
  unfold putRow cnt
  split
  · rename_i e; subst e
    have := OMap.countP_erase_some (fun _ row => (row.get k').isSome) c t row0 h
    simpa using this
  · exact OMap.countP_insert_some (fun _ row => (row.get k').isSome) c hs t row row0 h

theorem rowSum_putRow {c : OMap T (OMap Nat Nat)} (hs : c.Sorted) {t : T} {row0 : OMap Nat Nat}
    (h : c.get t = some row0) (row : OMap Nat Nat) :
    rowSum (putRow c t row) + row0.length = rowSum c + row.length := by
  unfold putRow rowSum
  split
  · rename_i e; subst e
    have := OMap.sumBy_erase_some (fun _ (row : OMap Nat Nat) => row.length) c t row0 h
    simpa using this
  · exact OMap.sumBy_insert_some (fun _ row => row.length) c hs t row row0 h

theorem putRow_putRow {c : OMap T (OMap Nat Nat)} (hs : c.Sorted) (t : T) (r1 r2 : OMap Nat Nat) :
    putRow (putRow c t r1) t r2 = putRow c t r2 := by
  apply OMap.ext (sorted_putRow (sorted_putRow hs _ _) _ _) (sorted_putRow hs _ _)
  intro t'
  rw [get_putRow (sorted_putRow hs _ _), get_putRow hs, get_putRow hs]
  split <;> rfl

theorem putRow_self {c : OMap T (OMap Nat Nat)} (hs : c.Sorted) {t : T} {row : OMap Nat Nat}
    (h : c.get t = some row) (hne : row ≠ []) : putRow c t row = c := by
  apply OMap.ext (sorted_putRow hs _ _) hs
  intro t'
  rw [get_putRow hs]
  by_cases e : t' = t
  · subst e; simp [hne, h]
  · simp [e]

/-- Removal of one annotation, in the general form used by both removal operations. -/
theorem drop_spec {s : AnnoStore T N V} (h : Inv s) {t : T} {row : OMap Nat Nat} {k v : Nat} {key : AnnoKey N}
    (hrow : s.byContainer.get t = some row) (hkv : row.get k = some v) (hkey : s.keys.getValue k = some key) :
    let s' := { dropAnno s t k v (some key) with byContainer := putRow s.byContainer t (row.erase k) }
    Inv s' ∧
    (∀ t' key', s'.getValue t' key' = if t' = t ∧ key' = key then none else s.getValue t' key') := by
  intro s'
  have hrs := (h.cRow t row hrow).1
  have hcell : cell s.byContainer t k = some v := by simp [cell, hrow, hkv]
  have hhas0 : has s.byAnno k v t := (h.mirror _ _ _).2 hcell
  have hsym := (h.keys.sym key k).2 hkey
  obtain ⟨n, hn⟩ := h.szc key k hsym
  obtain ⟨k0, hk0, hncnt, hnpos⟩ := h.sz key n hn
  have : k0 = k := by rw [hsym] at hk0; injection hk0 with hk0; exact hk0.symm
  subst this
  -- the new container
  have hcs : s'.byContainer.Sorted := sorted_putRow h.cSorted _ _
  have hcl : ∀ t' k', cell s'.byContainer t' k' = if t' = t ∧ k' = k0 then none else cell s.byContainer t' k' := by
    intro t' k'
    show cell (putRow _ _ _) t' k' = _
    rw [cell_putRow h.cSorted]
    by_cases e : t' = t
    · subst e
      simp only [if_true, true_and, OMap.get_erase hrs]
      simp [cell, hrow]
    · simp [e]
  have hcnt : ∀ k', cnt s'.byContainer k' + (if k' = k0 then 1 else 0) = cnt s.byContainer k' := by
    intro k'
    have := cnt_putRow h.cSorted hrow (row.erase k0) k'
    show cnt (putRow _ _ _) k' + _ = _
    rw [OMap.get_erase hrs] at this
    by_cases e : k' = k0
    · subst e; simp [hkv] at this ⊢; omega
    · simp [e] at this ⊢; omega
  -- byAnno
  have hhas : ∀ k' v' t', has s'.byAnno k' v' t' ↔ has s.byAnno k' v' t' ∧ ¬(k' = k0 ∧ v' = v ∧ t' = t) := by
    intro k' v' t'
    have base := has_remove h.byAnno k0 v t k' v' t'
    show has (dropAnno s t k0 v (some key)).byAnno k' v' t' ↔ _
    unfold dropAnno
    simp only [hn, Option.elim]
    split
    · rename_i hz
      rw [has_erase (h.byAnno.remove _ _ _).sorted, base]
      constructor
      · exact And.right
      · rintro ⟨hh, hne⟩
        refine ⟨?_, hh, hne⟩
        rintro rfl
        have hc1 : cell s.byContainer t' k' = some v' := (h.mirror _ _ _).1 hh
        have hc2 : cell s'.byContainer t' k' = some v' := by
          rw [hcl, if_neg]
          · exact hc1
          · rintro ⟨rfl, _⟩
            rw [hcell] at hc1; injection hc1 with hc1
            exact hne ⟨rfl, hc1.symm, rfl⟩
        have hp := cnt_pos_of_cell hcs hc2
        have := hcnt k'
        simp at this; omega
    · exact base
  have hwf : WF3 s'.byAnno := by
    show WF3 (dropAnno s t k0 v (some key)).byAnno
    unfold dropAnno
    simp only [hn, Option.elim]
    split
    · exact (h.byAnno.remove _ _ _).erase _
    · exact h.byAnno.remove _ _ _
  have hmirror : ∀ k' v' t', has s'.byAnno k' v' t' ↔ cell s'.byContainer t' k' = some v' := by
    intro k' v' t'
    rw [hhas, hcl, h.mirror]
    by_cases c : t' = t ∧ k' = k0
    · rw [if_pos c]
      obtain ⟨rfl, rfl⟩ := c
      rw [hcell]
      simp [eq_comm]
    · rw [if_neg c]
      constructor
      · exact And.left
      · intro hh; exact ⟨hh, fun c' => c ⟨c'.2.2, c'.1⟩⟩
  -- keys
  have hz : n - 1 = 0 ↔ cnt s'.byContainer k0 = 0 := by
    have := hcnt k0
    simp at this; omega
  have hkeys : s'.keys = if n - 1 = 0 then (s.keys.remove k0).1 else s.keys := by
    show (dropAnno s t k0 v (some key)).keys = _
    unfold dropAnno
    simp only [hn, Option.elim]
    split <;> rfl
  have hkI : s'.keys.Inv := by
    rw [hkeys]; split
    · exact h.keys.remove _
    · exact h.keys
  have hkv' : ∀ k', s'.keys.getValue k' = if n - 1 = 0 ∧ k' = k0 then none else s.keys.getValue k' := by
    intro k'
    rw [hkeys]
    by_cases e : n - 1 = 0
    · simp only [e, if_true, SymbolTable.getValue_remove, true_and]
    · simp [e]
  -- a key symbol that is in use is kept
  have hkeep : ∀ k' v' t', has s'.byAnno k' v' t' → s'.keys.getValue k' = s.keys.getValue k' := by
    intro k' v' t' hh
    rw [hkv', if_neg]
    rintro ⟨e1, rfl⟩
    have := cnt_pos_of_cell hcs ((hmirror _ _ _).1 hh)
    rw [hz] at e1; omega
  -- values
  have hvals : s'.vals = if valueUsed s'.byAnno v then s.vals else (s.vals.remove v).1 := by
    show (dropAnno s t k0 v (some key)).vals = if valueUsed (dropAnno s t k0 v (some key)).byAnno v then _ else _
    unfold dropAnno
    simp only [hn, Option.elim]
    split <;> rfl
  have hvI : s'.vals.Inv := by
    rw [hvals]; split
    · exact h.vals
    · exact h.vals.remove _
  have hvkeep : ∀ k' v' t', has s'.byAnno k' v' t' → s'.vals.getValue v' = s.vals.getValue v' := by
    intro k' v' t' hh
    rw [hvals]
    split
    · rfl
    · rename_i hu
      rw [SymbolTable.getValue_remove, if_neg]
      rintro rfl
      exact hu ((valueUsed_iff hwf _).2 ⟨k', t', hh⟩)
  have hvsub : ∀ v' w, s'.vals.getValue v' = some w → s.vals.getValue v' = some w := by
    intro v' w
    rw [hvals]
    split
    · exact id
    · rw [SymbolTable.getValue_remove]; split
      · intro hc; simp at hc
      · exact id
  -- sizes
  have hsizes : ∀ key', s'.sizes.get key' = if key' = key then (if n - 1 = 0 then none else some (n - 1))
      else s.sizes.get key' := by
    intro key'
    show (dropAnno s t k0 v (some key)).sizes.get key' = _
    unfold dropAnno
    simp only [hn, Option.elim]
    by_cases e : n - 1 = 0
    · simp only [e, if_true, OMap.get_erase (OMap.sorted_insert h.szSorted _ _), OMap.get_insert]
      split <;> rfl
    · simp only [e, if_false, OMap.get_insert]
  have hszs : s'.sizes.Sorted := by
    show (dropAnno s t k0 v (some key)).sizes.Sorted
    unfold dropAnno
    simp only [hn, Option.elim]
    split
    · exact OMap.sorted_erase (OMap.sorted_insert h.szSorted _ _) _
    · exact OMap.sorted_insert h.szSorted _ _
  have hlarg : s'.largest = s.largest := by
    show (dropAnno s t k0 v (some key)).largest = _
    unfold dropAnno
    simp only [hn, Option.elim]
    split <;> rfl
  have hI : Inv s' := by
    refine ⟨hkI, hvI, hcs, ?_, hwf, hmirror, ?_, ?_, hszs, ?_, ?_, ?_⟩
    · intro t' r hg
      have hg : (putRow _ _ _).get t' = some r := hg
      rw [get_putRow h.cSorted] at hg
      split at hg
      · split at hg
        · simp at hg
        · rename_i hne; injection hg with hg; subst hg
          exact ⟨OMap.sorted_erase hrs _, hne⟩
      · exact h.cRow t' r hg
    · intro k' v' t' hh
      rw [hkeep k' v' t' hh]
      exact h.liveK _ _ _ ((hhas _ _ _).1 hh).1
    · intro k' v' t' hh
      rw [hvkeep k' v' t' hh]
      exact h.liveV _ _ _ ((hhas _ _ _).1 hh).1
    · intro key' m hg
      rw [hsizes] at hg
      split at hg
      · rename_i e; subst e
        split at hg
        · simp at hg
        · rename_i hz'
          injection hg with hg
          refine ⟨k0, ?_, ?_, by omega⟩
          · rw [hkI.sym, hkv', if_neg (fun c => hz' c.1)]; exact hkey
          · have := hcnt k0; simp at this; omega
      · rename_i e
        obtain ⟨k1, h1, h2, h3⟩ := h.sz key' m hg
        have hne : k1 ≠ k0 := by
          rintro rfl
          rw [h.keys.sym, hkey] at h1; injection h1 with h1; exact e h1.symm
        refine ⟨k1, ?_, ?_, h3⟩
        · rw [hkI.sym, hkv', if_neg (fun c => hne c.2)]; exact (h.keys.sym _ _).1 h1
        · have := hcnt k1; simp [hne] at this; omega
    · intro key' k' hg
      rw [hkI.sym, hkv'] at hg
      split at hg
      · simp at hg
      · rename_i hc
        obtain ⟨m, hm⟩ := h.szc key' k' ((h.keys.sym _ _).2 hg)
        rw [hsizes]
        split
        · rename_i e; subst e
          have : k' = k0 := h.keys.unique hg hkey
          have : ¬ n - 1 = 0 := fun c => hc ⟨c, this⟩
          exact ⟨n - 1, by simp [this]⟩
        · exact ⟨m, hm⟩
    · intro t' r hg
      rw [hlarg]
      have hg : (putRow _ _ _).get t' = some r := hg
      rw [get_putRow h.cSorted] at hg
      split at hg
      · rename_i e; subst e; exact h.larg _ _ hrow
      · exact h.larg _ _ hg
  refine ⟨hI, ?_⟩
  intro t' key'
  apply Option.ext
  intro w
  rw [getValue_iff hI]
  constructor
  · rintro ⟨k', v', h1, h2, h3⟩
    rw [hkeep _ _ _ h3] at h1
    have h4 := hvsub _ _ h2
    have h5 := (hhas _ _ _).1 h3
    rw [if_neg]
    · exact (getValue_iff h _ _ _).2 ⟨k', v', h1, h4, h5.1⟩
    · rintro ⟨rfl, rfl⟩
      have : k' = k0 := h.keys.unique h1 hkey
      subst this
      exact h5.2 ⟨rfl, has_unique h h5.1 hhas0, rfl⟩
  · intro hg
    split at hg
    · simp at hg
    · rename_i c
      obtain ⟨k', v', h1, h2, h3⟩ := (getValue_iff h _ _ _).1 hg
      have h4 : has s'.byAnno k' v' t' := by
        rw [hhas]
        refine ⟨h3, ?_⟩
        rintro ⟨rfl, rfl, rfl⟩
        rw [hkey] at h1; injection h1 with h1; exact c ⟨rfl, h1.symm⟩
      exact ⟨k', v', by rw [hkeep _ _ _ h4]; exact h1, by rw [hvkeep _ _ _ h4]; exact h2, h4⟩

theorem removeAnno_spec {s : AnnoStore T N V} (h : Inv s) (t : T) (key : AnnoKey N) :
    Inv (s.removeAnno t key).1 ∧ (s.removeAnno t key).2 = s.getValue t key ∧
    (∀ t' key', (s.removeAnno t key).1.getValue t' key' =
      if t' = t ∧ key' = key then none else s.getValue t' key') := by
  have triv : s.getValue t key = none →
      ∀ t' key', s.getValue t' key' = if t' = t ∧ key' = key then none else s.getValue t' key' := by
    intro hn t' key'
    split
    · rename_i c; rw [c.1, c.2]; exact hn
    · rfl
  unfold removeAnno
  split
  · rename_i h1
    have hn : s.getValue t key = none := by simp [getValue, h1]
    exact ⟨h, hn.symm, triv hn⟩
  · rename_i k h1
    split
    · rename_i h2
      have hn : s.getValue t key = none := by simp [getValue, h1, h2]
      exact ⟨h, hn.symm, triv hn⟩
    · rename_i row h2
      split
      · rename_i h3
        have hn : s.getValue t key = none := by simp [getValue, h1, h2, h3]
        have e : ({ s with byContainer := putRow s.byContainer t row } : AnnoStore T N V) = s := by
          rw [putRow_self h.cSorted h2 (h.cRow _ _ h2).2]
        rw [e]
        exact ⟨h, hn.symm, triv hn⟩
      · rename_i v h3
        obtain ⟨a, b⟩ := drop_spec h h2 h3 ((h.keys.sym _ _).1 h1)
        refine ⟨a, ?_, b⟩
        simp [getValue, h1, h2, h3]

theorem byContainer_dropAnno (s : AnnoStore T N V) (t : T) (k v : Nat) (key : Option (AnnoKey N)) :
    (dropAnno s t k v key).byContainer = s.byContainer := by
  unfold dropAnno
  cases key with
  | none => rfl
  | some key => simp only; split <;> rfl

theorem dropAnno_container (s : AnnoStore T N V) (c : OMap T (OMap Nat Nat)) (t : T) (k v : Nat)
    (key : Option (AnnoKey N)) (c' : OMap T (OMap Nat Nat)) :
    ({ dropAnno { s with byContainer := c } t k v key with byContainer := c' } : AnnoStore T N V) =
      { dropAnno s t k v key with byContainer := c' } := by
  unfold dropAnno
  cases key with
  | none => rfl
  | some key => simp only; split <;> rfl

/-- The loop of `remove_item`: `row` are the annotations still to be handled. -/
theorem removeItemLoop_spec (t : T) (row : OMap Nat Nat) : ∀ (s : AnnoStore T N V),
    s.byContainer.Sorted → s.byContainer.get t = none →
    Inv { s with byContainer := putRow s.byContainer t row } →
    Inv (removeItemLoop s t row) ∧
    (∀ t' key', (removeItemLoop s t row).getValue t' key' =
      if t' = t then none else AnnoStore.getValue { s with byContainer := putRow s.byContainer t row } t' key') := by
  induction row with
  | nil =>
    intro s hs hn hI
    have e : putRow s.byContainer t [] = s.byContainer := by
      simp [putRow, OMap.erase_of_get_none hn]
    rw [e] at hI ⊢
    refine ⟨hI, ?_⟩
    intro t' key'
    simp only [removeItemLoop]
    split
    · rename_i e; subst e
      unfold getValue
      cases s.keys.getSymbol key' <;> simp [hn]
    · rfl
  | cons p rest ih =>
    obtain ⟨k, v⟩ := p
    intro s hs hn hI
    simp only [removeItemLoop]
    have hrow : (putRow s.byContainer t ((k, v) :: rest)).get t = some ((k, v) :: rest) := by
      rw [get_putRow hs]; simp
    have hkv : OMap.get ((k, v) :: rest) k = some v := by simp [OMap.get]
    have hlive : has s.byAnno k v t := by
      have := (hI.mirror k v t).2 (by simp only [cell, hrow]; exact hkv)
      exact this
    obtain ⟨key, hkey⟩ := hI.liveK k v t hlive
    have hkey : s.keys.getValue k = some key := hkey
    obtain ⟨a, b⟩ := drop_spec hI hrow hkv hkey
    have herase : OMap.erase ((k, v) :: rest) k = rest := by simp [OMap.erase]
    simp only at a b
    rw [dropAnno_container, herase, putRow_putRow hs] at a
    simp only [dropAnno_container, herase, putRow_putRow hs] at b
    rw [hkey]
    have hbc := byContainer_dropAnno s t k v (some key)
    have hI' : Inv { dropAnno s t k v (some key) with
        byContainer := putRow (dropAnno s t k v (some key)).byContainer t rest } := by
      rw [hbc]; exact a
    obtain ⟨c, d⟩ := ih (dropAnno s t k v (some key)) (by rw [hbc]; exact hs) (by rw [hbc]; exact hn) hI'
    refine ⟨c, ?_⟩
    intro t' key'
    rw [d]
    split
    · rfl
    · rename_i hne
      rw [hbc, b, if_neg (fun c => hne c.1)]

theorem removeItem_spec {s : AnnoStore T N V} (h : Inv s) (t : T) :
    Inv (s.removeItem t).1 ∧
    ((s.removeItem t).2 = true ↔ ∃ key val, s.getValue t key = some val) ∧
    (∀ t' key', (s.removeItem t).1.getValue t' key' = if t' = t then none else s.getValue t' key') := by
  unfold removeItem
  split
  · rename_i hn
    have hno : ∀ key, s.getValue t key = none := by
      intro key; unfold getValue
      cases s.keys.getSymbol key <;> simp [hn]
    refine ⟨h, by simp [hno], ?_⟩
    intro t' key'
    split
    · rename_i e; subst e; exact hno key'
    · rfl
  · rename_i row hrow
    have hne := (h.cRow _ _ hrow).2
    have e0 : putRow (s.byContainer.erase t) t row = s.byContainer := by
      have : s.byContainer.erase t = putRow s.byContainer t [] := by simp [putRow]
      rw [this, putRow_putRow h.cSorted, putRow_self h.cSorted hrow hne]
    have e1 : ({ ({ s with byContainer := s.byContainer.erase t } : AnnoStore T N V) with
        byContainer := putRow (s.byContainer.erase t) t row } : AnnoStore T N V) = s := by
      simp only [e0]
    obtain ⟨a, b⟩ := removeItemLoop_spec t row { s with byContainer := s.byContainer.erase t }
      (OMap.sorted_erase h.cSorted _) (by simp [OMap.get_erase h.cSorted]) (by simp only [e0]; exact h)
    refine ⟨a, ?_, ?_⟩
    · simp only [decide_eq_true_eq]
      refine ⟨fun _ => ?_, fun _ => hne⟩
      obtain ⟨k, v, hkv⟩ := exists_get_of_ne_nil hne
      have hh := (h.mirror k v t).2 (by simp [cell, hrow, hkv])
      obtain ⟨key, h1⟩ := h.liveK _ _ _ hh
      obtain ⟨val, h2⟩ := h.liveV _ _ _ hh
      exact ⟨key, val, (getValue_iff h _ _ _).2 ⟨k, v, h1, h2, hh⟩⟩
    · intro t' key'
      rw [b]
      simp only [e0]

/-! ## Totals -/

theorem total_dropAnno (s : AnnoStore T N V) (t : T) (k v : Nat) (key : Option (AnnoKey N)) :
    (dropAnno s t k v key).total = s.total - 1 := by
  unfold dropAnno
  cases key with
  | none => rfl
  | some key => simp only; split <;> rfl

theorem rowSum_insert {c : OMap T (OMap Nat Nat)} (hs : c.Sorted)
    (hr : ∀ t row, c.get t = some row → row.Sorted) (t : T) (k v : Nat) :
    rowSum (c.insert t (((c.get t).getD []).insert k v)) =
      if cell c t k = none then rowSum c + 1 else rowSum c := by
  unfold rowSum cell
  cases h : c.get t with
  | none =>
    rw [OMap.sumBy_insert_none _ _ _ _ h]
    simp [OMap.insert]
  | some row =>
    have := OMap.sumBy_insert_some (fun _ (row : OMap Nat Nat) => row.length) c hs t (row.insert k v) row h
    simp only [Option.getD_some]
    by_cases hk : row.get k = none
    · rw [OMap.length_insert_none _ _ _ hk] at this
      simp [hk]; omega
    · obtain ⟨w, hw⟩ := Option.ne_none_iff_exists'.1 hk
      rw [OMap.length_insert_some _ (hr t row h) _ _ _ hw] at this
      simp [hk]; omega

theorem total_insert {s : AnnoStore T N V} (h : Inv s) (t : T) (key : AnnoKey N) (val : V) :
    (s.insert t key val).total + rowSum s.byContainer = s.total + rowSum (s.insert t key val).byContainer := by
  have hr := rowSum_insert h.cSorted (fun t row hh => (h.cRow t row hh).1) t (s.keys.insert key).2
    (s.vals.insert val).2
  unfold cell at hr
  unfold insert
  simp only
  split
  · rename_i old ho
    split
    · rfl
    · rw [hr]; simp [ho]
  · rename_i ho
    rw [hr]; simp [ho]; omega

theorem total_removeAnno {s : AnnoStore T N V} (h : Inv s) (hle : rowSum s.byContainer ≤ s.total) (t : T)
    (key : AnnoKey N) :
    (s.removeAnno t key).1.total + rowSum s.byContainer = s.total + rowSum (s.removeAnno t key).1.byContainer := by
  unfold removeAnno
  split
  · rfl
  · rename_i k h1
    split
    · rfl
    · rename_i row h2
      split
      · simp only [putRow_self h.cSorted h2 (h.cRow _ _ h2).2]
      · rename_i v h3
        simp only [total_dropAnno]
        have h4 := rowSum_putRow h.cSorted h2 (row.erase k)
        have h5 := OMap.length_erase_some row _ _ h3
        have h6 := OMap.sumBy_erase_some (fun _ (row : OMap Nat Nat) => row.length) s.byContainer t row h2
        unfold rowSum at *
        omega

theorem total_removeItemLoop (t : T) (row : OMap Nat Nat) : ∀ (s : AnnoStore T N V),
    (removeItemLoop s t row).total = s.total - row.length ∧
      (removeItemLoop s t row).byContainer = s.byContainer := by
  induction row with
  | nil => intro s; simp [removeItemLoop]
  | cons p rest ih =>
    obtain ⟨k, v⟩ := p
    intro s
    simp only [removeItemLoop]
    obtain ⟨a, b⟩ := ih (dropAnno s t k v (s.keys.getValue k))
    rw [a, b, total_dropAnno, byContainer_dropAnno]
    simp; omega

theorem total_removeItem {s : AnnoStore T N V} (hle : rowSum s.byContainer ≤ s.total) (t : T) :
    (s.removeItem t).1.total + rowSum s.byContainer = s.total + rowSum (s.removeItem t).1.byContainer := by
  unfold removeItem
  split
  · rfl
  · rename_i row h2
    obtain ⟨a, b⟩ := total_removeItemLoop t row { s with byContainer := s.byContainer.erase t }
    simp only [a, b]
    have h6 := OMap.sumBy_erase_some (fun _ (row : OMap Nat Nat) => row.length) s.byContainer t row h2
    unfold rowSum at *
    omega

end AnnoStore
