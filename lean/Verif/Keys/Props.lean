import Verif.Keys.Lemmas

/-!
# C07: binary keys are injective and order preserving

All statements compare byte strings with the lexicographic order, the order in which the tables on disk are sorted.
-/

namespace Keys

/-- C07: unsigned integers of every width: the byte order is the numeric order. -/
theorem C07_unsigned_order (w a b : Nat) (ha : a < 256 ^ w) (hb : b < 256 ^ w) : be w a < be w b ↔ a < b :=
  be_lt_iff w ha hb

/-- C07: unsigned integers of every width: parsing returns the written number, whatever follows it. -/
theorem C07_unsigned_round_trip (w a : Nat) (ha : a < 256 ^ w) (rest : Bytes) :
    parseBe w (be w a ++ rest) = some a ∧ (be w a).length = w ∧ ∀ x ∈ be w a, x < 256 :=
  ⟨parseBe_be w a ha rest, be_length w a, be_byte w a⟩

/-- C07 fails for signed integers: `-1i8` is stored behind `0i8`. -/
theorem C07_signed_order_fails : (-1 : Int) < 0 ∧ beSigned 1 0 < beSigned 1 (-1) := by decide

/-- C07, restricted: non-negative signed integers are ordered correctly.  Missing: negative ones
(`C07_signed_order_fails`). -/
theorem C07_signed_order_partial (w : Nat) (a b : Int) (ha : 0 ≤ a) (hb : 0 ≤ b) (ha' : a < (256 ^ w : Nat))
    (hb' : b < (256 ^ w : Nat)) : beSigned w a < beSigned w b ↔ a < b := by
  have h : ((256 : Int) ^ w) = ((256 ^ w : Nat) : Int) := by simp
  unfold beSigned
  rw [h, Int.emod_eq_of_lt ha ha', Int.emod_eq_of_lt hb hb', be_lt_iff w (by omega) (by omega)]
  omega

/-- C07: signed integers of every width are mapped to different keys. -/
theorem C07_signed_injective (w : Nat) (a b : Int) (m : Nat) (hm : 256 ^ w = 2 * m)
    (ha : -m ≤ a) (ha' : a < m) (hb : -m ≤ b) (hb' : b < m) (h : beSigned w a = beSigned w b) : a = b := by
  have hc : ((256 : Int) ^ w) = ((2 * m : Nat) : Int) := by rw [← hm]; simp
  unfold beSigned at h
  have hmpos : (0 : Int) < ((2 * m : Nat) : Int) := by omega
  have h1 : ∀ z : Int, (z % ((2 * m : Nat) : Int)).toNat < 256 ^ w := by
    intro z
    have := Int.emod_lt_of_pos z hmpos
    have := Int.emod_nonneg z (ne_of_gt hmpos)
    omega
  rw [hc] at h
  have h2 := be_inj w (h1 a) (h1 b) h
  have ea := Int.emod_nonneg a (ne_of_gt hmpos)
  have eb := Int.emod_nonneg b (ne_of_gt hmpos)
  have h3 : a % ((2 * m : Nat) : Int) = b % ((2 * m : Nat) : Int) := by omega
  have key : ∀ z : Int, -m ≤ z → z < m → z % ((2 * m : Nat) : Int) = if 0 ≤ z then z else z + 2 * m := by
    intro z h1 h2
    split
    · exact Int.emod_eq_of_lt (by omega) (by omega)
    · rw [← Int.add_emod_right, Int.emod_eq_of_lt (by omega) (by omega)]; simp
  rw [key a ha ha', key b hb hb'] at h3
  split at h3 <;> split at h3 <;> omega

/-- Both node IDs fit into 64 bits. -/
def Edge.Valid (e : Edge) : Prop := e.source < 256 ^ 8 ∧ e.target < 256 ^ 8

/-- C07: the byte order of edge keys is the order of edges; parsing returns the edge. -/
theorem C07_edge (a b : Edge) (ha : a.Valid) (hb : b.Valid) :
    (edgeKey a < edgeKey b ↔ a.Lt b) ∧ (edgeKey a = edgeKey b → a = b) ∧ parseEdge (edgeKey a) = some a := by
  refine ⟨?_, ?_, ?_⟩
  · unfold edgeKey Edge.Lt
    rw [lt_append_iff (by simp [be_length]), be_lt_iff 8 ha.1 hb.1, be_lt_iff 8 ha.2 hb.2]
    constructor
    · rintro (h | ⟨h1, h2⟩)
      · exact Or.inl h
      · exact Or.inr ⟨be_inj 8 ha.1 hb.1 h1, h2⟩
    · rintro (h | ⟨h1, h2⟩)
      · exact Or.inl h
      · exact Or.inr ⟨by rw [h1], h2⟩
  · intro h
    have := List.append_inj h (by simp [be_length])
    cases a; cases b
    simp only [Edge.mk.injEq]
    exact ⟨be_inj 8 ha.1 hb.1 this.1, be_inj 8 ha.2 hb.2 this.2⟩
  · unfold parseEdge edgeKey
    have h1 : (be 8 a.source ++ be 8 a.target).take 8 = be 8 a.source := by
      rw [List.take_append_of_le_length (by simp [be_length]), List.take_of_length_le (by simp [be_length])]
    have h2 : (be 8 a.source ++ be 8 a.target).drop 8 = be 8 a.target := by
      rw [List.drop_append_of_le_length (by simp [be_length]), List.drop_of_length_le (by simp [be_length])]; rfl
    rw [h1, h2]
    have e1 := parseBe_be 8 a.source ha.1 []
    have e2 := parseBe_be 8 a.target ha.2 []
    simp only [List.append_nil] at e1 e2
    rw [e1, e2]
    simp [be_length]

example : (⟨1, 256⟩ : Edge).Valid ∧ (⟨256, 1⟩ : Edge).Valid ∧ edgeKey ⟨1, 256⟩ < edgeKey ⟨256, 1⟩ := by
  unfold Edge.Valid; decide

/-- C07: keys of the table by item are ordered by item, then by symbol; different pairs have different keys; parsing
returns the pair. -/
theorem C07_by_container (size : Nat) (i j : Bytes) (hi : i.length = size) (hj : j.length = size) (s t : Nat)
    (hs : s < 256 ^ 8) (ht : t < 256 ^ 8) :
    (byContainerKey i s < byContainerKey j t ↔ i < j ∨ (i = j ∧ s < t)) ∧
    (byContainerKey i s = byContainerKey j t → i = j ∧ s = t) ∧
    parseByContainerKey size (byContainerKey i s) = some (i, s) := by
  refine ⟨?_, ?_, ?_⟩
  · unfold byContainerKey
    rw [lt_append_iff (by omega), be_lt_iff 8 hs ht]
  · intro h
    have := List.append_inj h (by omega)
    exact ⟨this.1, be_inj 8 hs ht this.2⟩
  · unfold parseByContainerKey byContainerKey
    have h1 : (i ++ be 8 s).drop size = be 8 s := by
      rw [List.drop_append_of_le_length (by omega), List.drop_of_length_le (by omega)]; rfl
    have h2 : (i ++ be 8 s).take size = i := by
      rw [List.take_append_of_le_length (by omega), List.take_of_length_le (by omega)]
    have e := parseBe_be 8 s hs []
    rw [List.append_nil] at e
    rw [h1, h2, e]; rfl

/-- C07: the range from the smallest to the largest symbol of an item hits exactly the keys of this item. -/
theorem C07_by_container_range (size : Nat) (i j : Bytes) (hi : i.length = size) (hj : j.length = size) (t : Nat)
    (ht : t < 256 ^ 8) :
    (byContainerKey i 0 ≤ byContainerKey j t ∧ byContainerKey j t ≤ byContainerKey i (256 ^ 8 - 1)) ↔ j = i := by
  have h1 := (C07_by_container size j i hj hi t 0 ht (by decide)).1
  have h2 := (C07_by_container size i j hi hj (256 ^ 8 - 1) t (by decide) ht).1
  rw [← not_lt, ← not_lt, h1, h2]
  constructor
  · rintro ⟨ha, hb⟩
    have : ¬ j < i := fun h => ha (Or.inl h)
    have : ¬ i < j := fun h => hb (Or.inl h)
    exact le_antisymm (not_lt.1 ‹¬ i < j›) (not_lt.1 ‹¬ j < i›)
  · rintro rfl
    refine ⟨?_, ?_⟩
    · rintro (h | ⟨_, h⟩)
      · exact lt_irrefl _ h
      · omega
    · rintro (h | ⟨_, h⟩)
      · exact lt_irrefl _ h
      · omega

/-- C07: keys of the search table are different for different (item, symbol, value) triples, for every value, and
parsing returns the triple. -/
theorem C07_by_qname (size : Nat) (i j : Bytes) (hi : i.length = size) (hj : j.length = size) (s t : Nat)
    (hs : s < 256 ^ 8) (ht : t < 256 ^ 8) (v w : Bytes) :
    (byQnameKey i s v = byQnameKey j t w → i = j ∧ s = t ∧ v = w) ∧
    parseByQnameKey size (byQnameKey i s v) = some (i, s, v) := by
  have hp : ∀ (i : Bytes) (_ : i.length = size) (s : Nat) (_ : s < 256 ^ 8) (v : Bytes),
      parseByQnameKey size (byQnameKey i s v) = some (i, s, v) := by
    intro i hi s hs v
    unfold parseByQnameKey byQnameKey
    have hlen : (be 8 s ++ v ++ 0 :: i).length - size = (be 8 s ++ v ++ [0]).length := by
      simp [be_length]; omega
    have hsplit : be 8 s ++ v ++ 0 :: i = (be 8 s ++ v ++ [0]) ++ i := by simp
    rw [hlen, hsplit, List.drop_left, List.take_left]
    simp only [List.dropLast_concat]
    have h1 : (be 8 s ++ v).take 8 = be 8 s := by
      rw [List.take_append_of_le_length (by simp [be_length]), List.take_of_length_le (by simp [be_length])]
    have h2 : (be 8 s ++ v).drop 8 = v := by
      rw [List.drop_append_of_le_length (by simp [be_length]), List.drop_of_length_le (by simp [be_length])]; rfl
    have e := parseBe_be 8 s hs []
    rw [List.append_nil] at e
    rw [h1, h2, e]; rfl
  refine ⟨?_, hp i hi s hs v⟩
  intro h
  have h1 := hp i hi s hs v
  rw [h, hp j hj t ht w] at h1
  simp only [Option.some.injEq, Prod.mk.injEq] at h1
  exact ⟨h1.1.symm, h1.2.1.symm, h1.2.2.symm⟩

/-- A value without NUL bytes. -/
def NoNul (v : Bytes) : Prop := ∀ b ∈ v, b ≠ 0

theorem val_lt_iff {v w : Bytes} (hv : NoNul v) (hw : NoNul w) (x y : Bytes) :
    (v ++ 0 :: x < w ++ 0 :: y) ↔ v < w ∨ (v = w ∧ x < y) := by
  induction v generalizing w with
  | nil =>
    cases w with
    | nil => simp
    | cons b w =>
      have : b ≠ 0 := hw b (by simp)
      simp only [List.nil_append, List.cons_append, List.cons_lt_cons_iff]
      constructor
      · intro _; left; exact List.nil_lt_cons b w
      · intro _; left; omega
  | cons a v ih =>
    have ha : a ≠ 0 := hv a (by simp)
    cases w with
    | nil =>
      simp only [List.nil_append, List.cons_append, List.cons_lt_cons_iff]
      constructor
      · rintro (h | ⟨h, _⟩) <;> omega
      · rintro (h | ⟨h, _⟩)
        · simp at h
        · simp at h
    | cons b w =>
      have ih' := ih (w := w) (fun z hz => hv z (by simp [hz])) (fun z hz => hw z (by simp [hz]))
      simp only [List.cons_append, List.cons_lt_cons_iff, ih', List.cons.injEq]
      constructor
      · rintro (h | ⟨h1, h2 | ⟨h2, h3⟩⟩)
        · exact Or.inl (Or.inl h)
        · exact Or.inl (Or.inr ⟨h1, h2⟩)
        · exact Or.inr ⟨⟨h1, h2⟩, h3⟩
      · rintro ((h | ⟨h1, h2⟩) | ⟨⟨h1, h2⟩, h3⟩)
        · exact Or.inl h
        · exact Or.inr ⟨h1, Or.inl h2⟩
        · exact Or.inr ⟨h1, Or.inr ⟨h2, h3⟩⟩

theorem qname_lt_iff {i j : Bytes} {s t : Nat} (hs : s < 256 ^ 8) (ht : t < 256 ^ 8) {v w : Bytes} (hv : NoNul v)
    (hw : NoNul w) : byQnameKey i s v < byQnameKey j t w ↔ s < t ∨ (s = t ∧ (v < w ∨ (v = w ∧ i < j))) := by
  unfold byQnameKey
  rw [List.append_assoc, List.append_assoc, lt_append_iff (by simp [be_length]), be_lt_iff 8 hs ht, val_lt_iff hv hw]
  constructor
  · rintro (h | ⟨h1, h2⟩)
    · exact Or.inl h
    · exact Or.inr ⟨be_inj 8 hs ht h1, h2⟩
  · rintro (h | ⟨h1, h2⟩)
    · exact Or.inl h
    · exact Or.inr ⟨by rw [h1], h2⟩

/-- C07, restricted: for values without NUL characters the search table is ordered by symbol, then value, then item.
Missing: values that contain NUL (`C07_by_qname_order_fails`). -/
theorem C07_by_qname_order_partial (i j : Bytes) (s t : Nat) (hs : s < 256 ^ 8) (ht : t < 256 ^ 8) (v w : Bytes)
    (hv : NoNul v) (hw : NoNul w) :
    byQnameKey i s v < byQnameKey j t w ↔ s < t ∨ (s = t ∧ (v < w ∨ (v = w ∧ i < j))) :=
  qname_lt_iff hs ht hv hw

/-- C07 fails for values with NUL: the value `a` is smaller than `a\0`, but the key of the item `1` with value `a` comes
after the key of the item `0` with value `a\0`. -/
theorem C07_by_qname_order_fails :
    ∃ v w : Bytes, v < w ∧ byQnameKey (be 8 0) 0 w < byQnameKey (be 8 (256 ^ 7)) 0 v :=
  ⟨[97], [97, 0], by decide⟩

/-- C07, restricted: the range for a value hits exactly the items with this value (values without NUL, items below the
largest ID).  Missing: the excluded upper bound drops the item with the largest ID and NUL breaks the separator, see
`C07_value_range_fails`. -/
theorem C07_value_range_partial (item : Bytes) (hi : 8 ≤ item.length) (hmax : item < maxId) (s t : Nat)
    (hs : s < 256 ^ 8) (ht : t < 256 ^ 8) (v w : Bytes) (hv : NoNul v) (hw : NoNul w) :
    (byQnameKey minId s v ≤ byQnameKey item t w ∧ byQnameKey item t w < byQnameKey maxId s v) ↔ t = s ∧ w = v := by
  rw [← not_lt, qname_lt_iff ht hs hw hv, qname_lt_iff ht hs hw hv]
  have hmin : ¬ item < minId := not_lt.2 (minId_le item hi)
  constructor
  · rintro ⟨h1, h2 | ⟨rfl, h2⟩⟩
    · exact absurd (Or.inl h2) h1
    · refine ⟨rfl, ?_⟩
      rcases h2 with h2 | ⟨h2, _⟩
      · exact absurd (Or.inr ⟨rfl, Or.inl h2⟩) h1
      · exact h2
  · rintro ⟨rfl, rfl⟩
    refine ⟨?_, Or.inr ⟨rfl, Or.inr ⟨rfl, hmax⟩⟩⟩
    rintro (h | ⟨_, h | ⟨_, h⟩⟩)
    · exact absurd h (lt_irrefl _)
    · exact absurd h (lt_irrefl _)
    · exact hmin h

/-- C07 fails: an item with the value `a\0a` is in the range of the value `a`, and the item with the largest ID and the
value `a` is not. -/
theorem C07_value_range_fails :
    (byQnameKey minId 0 [97] ≤ byQnameKey (be 8 5) 0 [97, 0, 97] ∧
      byQnameKey (be 8 5) 0 [97, 0, 97] < byQnameKey maxId 0 [97]) ∧
    ¬ byQnameKey maxId 0 [97] < byQnameKey maxId 0 [97] := by decide

/-- C07, restricted: the range for any value hits exactly the keys with this symbol.  Missing: values that are larger
than a single `char::MAX` (`C07_any_range_fails`). -/
theorem C07_any_range_partial (item : Bytes) (hi : 8 ≤ item.length) (hmax : item < maxId) (s t : Nat)
    (hs : s < 256 ^ 8) (ht : t < 256 ^ 8) (w : Bytes) (hw : NoNul w) (hwm : w ≤ charMax) :
    (byQnameKey minId s [] ≤ byQnameKey item t w ∧ byQnameKey item t w < byQnameKey maxId s charMax) ↔ t = s := by
  have hn : NoNul [] := by simp [NoNul]
  have hc : NoNul charMax := by unfold NoNul charMax; decide
  rw [← not_lt, qname_lt_iff ht hs hw hn, qname_lt_iff ht hs hw hc]
  have hmin : ¬ item < minId := not_lt.2 (minId_le item hi)
  constructor
  · rintro ⟨h1, h2 | ⟨rfl, h2⟩⟩
    · exact absurd (Or.inl h2) h1
    · rfl
  · rintro rfl
    constructor
    · rintro (h | ⟨_, h | ⟨_, h⟩⟩)
      · exact absurd h (lt_irrefl _)
      · simp at h
      · exact hmin h
    · right
      refine ⟨rfl, ?_⟩
      rcases lt_or_eq_of_le hwm with h | h
      · exact Or.inl h
      · exact Or.inr ⟨h, hmax⟩

/-- C07 fails: the value consisting of `char::MAX` and `a` is not in the range for any value. -/
theorem C07_any_range_fails :
    ¬ byQnameKey (be 8 5) 0 (charMax ++ [97]) < byQnameKey maxId 0 charMax := by decide

/-- The hypotheses of the range theorems are met. -/
example : NoNul [97, 98] ∧ ([97, 98] : Bytes) ≤ charMax ∧ be 8 77 < maxId ∧ 8 ≤ (be 8 77).length := by
  unfold NoNul; decide

end Keys
