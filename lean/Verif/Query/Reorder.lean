import Verif.Query.Rows

/-!
# C44: execution plans
-/

set_option linter.unusedSimpArgs false
set_option linter.unusedSectionVars false
set_option linter.unusedVariables false

/-- The column mapping `pos` belongs to the columns `cols`. -/
structure PosOk (pos : OMap Nat Nat) (cols : List Nat) : Prop where
  sorted : pos.Sorted
  nodup : cols.Nodup
  get : ∀ n, pos.get n = if n ∈ cols then some (cols.idxOf n) else none

/-- The number of columns of a result: up to the last query node that has a column. -/
def outWidth (cols : List Nat) : Nat :=
  match cols.max? with
  | some m => m + 1
  | none => 0

theorem lt_outWidth {cols : List Nat} {n : Nat} (h : n ∈ cols) : n < outWidth cols := by
  unfold outWidth
  cases hm : cols.max? with
  | none => rw [List.max?_eq_none_iff] at hm; subst hm; simp at h
  | some m =>
    have := (List.max?_eq_some_iff.1 hm).2 n h
    simp only
    omega

theorem zipRange_sorted (cols : List Nat) : OMap.Sorted ((List.range cols.length).zip cols : OMap Nat Nat) := by
  unfold OMap.Sorted
  refine List.pairwise_iff_getElem.2 fun i j hi hj hij => ?_
  simp only [List.getElem_zip, List.getElem_range]
  exact hij

theorem zipRange_get (cols : List Nat) (i : Nat) : OMap.get ((List.range cols.length).zip cols : OMap Nat Nat) i = cols[i]? := by
  by_cases h : i < cols.length
  · rw [List.getElem?_eq_getElem h]
    refine OMap.get_of_mem (zipRange_sorted cols) ?_
    refine List.mem_iff_getElem.2 ⟨i, by simp [h], ?_⟩
    simp
  · rw [List.getElem?_eq_none_iff.2 (by omega), OMap.get_eq_none_iff]
    intro hm
    obtain ⟨p, hp, rfl⟩ := List.mem_map.1 hm
    have := (List.of_mem_zip (a := p.1) (b := p.2) hp).1
    rw [List.mem_range] at this
    exact h this

theorem foldl_insert_inv_get (l : List (Nat × Nat)) (m : OMap Nat Nat) (i : Nat) (hnd : (l.map Prod.snd).Nodup) :
    (l.foldl (fun m p => m.insert p.2 p.1) m).get i =
      match l.find? (fun p => p.2 = i) with
      | some p => some p.1
      | none => m.get i := by
  induction l generalizing m with
  | nil => rfl
  | cons q l ih =>
    rw [List.map_cons, List.nodup_cons] at hnd
    rw [List.foldl_cons, ih _ hnd.2, List.find?_cons]
    by_cases h : q.2 = i
    · have : l.find? (fun p => decide (p.2 = i)) = none := by
        rw [List.find?_eq_none]
        intro p hp hpi
        simp only [decide_eq_true_eq] at hpi
        exact hnd.1 (List.mem_map.2 ⟨p, hp, hpi.trans h.symm⟩)
      rw [this, OMap.get_insert]
      simp [h]
    · rw [OMap.get_insert]
      simp [h, Ne.symm h]

theorem PosOk.get_iff {pos : OMap Nat Nat} {cols : List Nat} (h : PosOk pos cols) (n i : Nat) :
    pos.get n = some i ↔ cols[i]? = some n := by
  rw [h.get]
  constructor
  · intro hi
    by_cases hn : n ∈ cols
    · rw [if_pos hn, Option.some.injEq] at hi
      subst hi
      rw [List.getElem?_eq_getElem (List.idxOf_lt_length_iff.2 hn), List.getElem_idxOf]
    · rw [if_neg hn] at hi; simp at hi
  · intro hi
    have hn : n ∈ cols := List.mem_of_getElem? hi
    rw [if_pos hn, Option.some.injEq]
    obtain ⟨hl, rfl⟩ := List.getElem?_eq_some_iff.1 hi
    exact h.nodup.idxOf_getElem i hl

theorem inverse_eq {pos : OMap Nat Nat} {cols : List Nat} (h : PosOk pos cols) :
    (pos.foldl (fun m p => m.insert p.2 p.1) [] : OMap Nat Nat) = (List.range cols.length).zip cols := by
  refine OMap.ext (sorted_inv _ OMap.sorted_nil) (zipRange_sorted cols) fun i => ?_
  rw [zipRange_get]
  have hnd : (pos.map Prod.snd).Nodup := by
    have h0 : (pos.map Prod.fst).Nodup := OMap.nodup_keys h.sorted
    refine List.Nodup.map_on ?_ (OMap.nodup_of_sorted h.sorted)
    rintro ⟨a, i⟩ ha ⟨b, j⟩ hb hij
    simp only at hij
    subst hij
    have h1 := (h.get_iff a i).1 (OMap.get_of_mem h.sorted ha)
    have h2 := (h.get_iff b i).1 (OMap.get_of_mem h.sorted hb)
    rw [h1] at h2
    simp only [Option.some.injEq] at h2
    rw [h2]
  rw [foldl_insert_inv_get _ _ _ hnd]
  cases hf : pos.find? (fun p => decide (p.2 = i)) with
  | some p =>
    have h1 := List.mem_of_find?_eq_some hf
    have h2 := List.find?_some hf
    simp only [decide_eq_true_eq] at h2
    have := (h.get_iff p.1 i).1 (OMap.get_of_mem h.sorted (by rw [← h2]; exact h1))
    rw [this]
  | none =>
    simp only
    rw [OMap.get_nil]
    cases hc : cols[i]? with
    | none => rfl
    | some n =>
      have := OMap.mem_of_get ((h.get_iff n i).2 hc)
      rw [List.find?_eq_none] at hf
      exact absurd (decide_eq_true rfl) (hf _ this)
where
  sorted_inv {l : List (Nat × Nat)} : ∀ (m : OMap Nat Nat), m.Sorted → (l.foldl (fun m p => m.insert p.2 p.1) m : OMap Nat Nat).Sorted := by
    induction l with
    | nil => intro m hm; exact hm
    | cons q l ih => intro m hm; exact ih _ (OMap.sorted_insert hm _ _)

theorem inversePos_eq {pos : OMap Nat Nat} {cols : List Nat} (h : PosOk pos cols) :
    inversePos pos = some cols ∨ (inversePos pos = none ∧ cols = List.range cols.length) := by
  unfold inversePos
  by_cases hany : (pos.any fun p => decide (p.1 ≠ p.2)) = true
  · left
    rw [if_pos hany]
    simp only [inverse_eq h, Option.some.injEq, zipRange_get]
    refine List.ext_getElem (by simp) fun i h1 h2 => ?_
    simp [List.getElem?_eq_getElem h2]
  · right
    rw [if_neg hany]
    refine ⟨rfl, List.ext_getElem (by simp) fun i h1 h2 => ?_⟩
    rw [List.getElem_range]
    have hg := OMap.mem_of_get ((h.get_iff cols[i] i).2 (List.getElem?_eq_getElem h1))
    simp only [List.any_eq_true, not_exists, not_and, decide_eq_true_eq, ne_eq, not_not] at hany
    exact hany _ hg

theorem placeAll_spec {α : Type} (cols : List Nat) (hnd : cols.Nodup) (ms : List α) (i : Nat) (res : List α) (hi : i + ms.length = cols.length)
    (hlt : ∀ n ∈ cols, n < res.length) :
    ∃ res', placeAll cols ms i res = some res' ∧ res'.length = res.length ∧
      ∀ n, res'[n]? = if n ∈ cols.drop i then ms[(cols.drop i).idxOf n]? else res[n]? := by
  induction ms generalizing i res with
  | nil =>
    refine ⟨res, rfl, rfl, fun n => ?_⟩
    rw [List.drop_eq_nil_iff.2 (by simp at hi; omega)]
    simp
  | cons m ms ih =>
    simp only [List.length_cons] at hi
    have hil : i < cols.length := by omega
    have ht : cols[i] < res.length := hlt _ (List.getElem_mem hil)
    obtain ⟨res', h1, h2, h3⟩ := ih (i + 1) (res.set cols[i] m) (by omega) (by simpa using hlt)
    refine ⟨res', ?_, by simpa using h2, fun n => ?_⟩
    · rw [placeAll, List.getElem?_eq_getElem hil]
      simp only [ht, if_true]
      exact h1
    · rw [h3, List.drop_eq_getElem_cons hil]
      have hni : cols[i] ∉ cols.drop (i + 1) := by
        have := hnd
        rw [← List.take_append_drop i cols, List.drop_eq_getElem_cons hil] at this
        exact (List.nodup_cons.1 (List.nodup_append.1 this).2.1).1
      by_cases hn : n = cols[i]
      · subst hn
        rw [if_neg hni, if_pos List.mem_cons_self, List.getElem?_set_self ht, List.idxOf_cons_self]
        rfl
      · by_cases hm : n ∈ cols.drop (i + 1)
        · rw [if_pos hm, if_pos (List.mem_cons_of_mem _ hm), List.idxOf_cons_ne _ (Ne.symm hn)]
          rfl
        · rw [if_neg hm, if_neg (by rw [List.mem_cons]; exact not_or.2 ⟨hn, hm⟩), List.getElem?_set_ne (Ne.symm hn)]

/-- Whatever the order of the columns in the plan, the result has the match of each query node at the position of that node; positions
without a column (optional nodes) get the default. -/
theorem C44_reorder {α : Type} (d : α) {pos : OMap Nat Nat} {cols : List Nat} (h : PosOk pos cols) {row : List α} (hr : row.length = cols.length) :
    reorderMatch d (inversePos pos) row = some ((List.range (outWidth cols)).map (assign d cols row)) := by
  rcases inversePos_eq h with he | ⟨he, hc⟩
  · rw [he]
    obtain ⟨res', h1, h2, h3⟩ := placeAll_spec cols h.nodup row 0 (List.replicate (outWidth cols) d) (by omega)
      (fun n hn => by simpa using lt_outWidth hn)
    have : reorderMatch d (some cols) row = placeAll cols row 0 (List.replicate (outWidth cols) d) := rfl
    rw [this, h1, Option.some.injEq]
    refine List.ext_getElem? fun n => ?_
    rw [h3, List.drop_zero]
    by_cases hn : n ∈ cols
    · have hw := lt_outWidth hn
      rw [if_pos hn, List.getElem?_map, List.getElem?_range hw]
      have hl : cols.idxOf n < row.length := by rw [hr]; exact List.idxOf_lt_length_iff.2 hn
      simp [assign, colVal, List.getElem?_eq_getElem hl]
    · rw [if_neg hn, List.getElem?_map]
      by_cases hw : n < outWidth cols
      · rw [List.getElem?_range hw, List.getElem?_replicate, if_pos hw]
        simp [assign, colVal_of_not_mem hr hn]
      · rw [List.getElem?_eq_none_iff.2 (by simpa using hw), List.getElem?_eq_none_iff.2 (by simpa using hw)]
        rfl
  · rw [he]
    have hw : outWidth cols = cols.length := by
      rw [hc, outWidth]
      generalize cols.length = k
      cases k with
      | zero => rfl
      | succ k =>
        have : (List.range (k + 1)).max? = some k := by
          rw [List.max?_eq_some_iff]
          simp only [List.mem_range]
          exact ⟨by omega, fun b hb => by omega⟩
        rw [this]; simp
    rw [hw]
    simp only [reorderMatch, Option.some.injEq]
    rw [hc]
    simp only [List.length_range]
    exact (map_assign_range d hr).symm

/-! ## Several alternatives -/

section
variable {α E : Type} [DecidableEq α]

/-- The rows of a stream. -/
def okRows (l : List (Except E α)) : List α := l.filterMap fun
  | .ok r => some r
  | .error _ => none

/-- What is output for the plans that are left when the rows in `seen` have already been output: the first occurrence of each row. -/
def uniqItems (seen : List α) : List (Except E α) → List (Except E α)
  | [] => []
  | .error e :: l => .error e :: uniqItems seen l
  | .ok r :: l => if r ∈ seen then uniqItems seen l else .ok r :: uniqItems (r :: seen) l

theorem planNextMulti_runs (ps : List (List (Except E α))) : ∀ seen, Runs planNextMulti (ps, seen) (uniqItems seen ps.flatten) := by
  induction ps with
  | nil => intro seen; exact .done (s' := ([], seen)) (by rw [planNextMulti])
  | cons p ps ih =>
    induction p with
    | nil =>
      intro seen
      refine Runs.of_next_eq ?_ (ih seen)
      rw [planNextMulti]
    | cons x p ihp =>
      intro seen
      cases x with
      | error e => exact .step (by rw [planNextMulti]) (ihp seen)
      | ok r =>
        by_cases h : r ∈ seen
        · have : uniqItems seen ((Except.ok r :: p) :: ps).flatten = uniqItems seen (p :: ps).flatten := by
            simp [uniqItems, h]
          rw [this]
          refine Runs.of_next_eq ?_ (ihp seen)
          rw [planNextMulti, if_pos h]
        · have : uniqItems seen ((Except.ok r :: p) :: ps).flatten = .ok r :: uniqItems (r :: seen) (p :: ps).flatten := by
            simp [uniqItems, h]
          rw [this]
          refine .step (s' := (p :: ps, r :: seen)) ?_ (ihp _)
          rw [planNextMulti, if_neg h]

theorem uniqItems_rows (l : List (Except E α)) : ∀ seen, (okRows (uniqItems seen l)).Nodup ∧
    ∀ r, r ∈ okRows (uniqItems seen l) ↔ r ∈ okRows l ∧ r ∉ seen := by
  induction l with
  | nil => intro seen; simp [uniqItems, okRows]
  | cons x l ih =>
    intro seen
    cases x with
    | error e => exact ih seen
    | ok y =>
      by_cases h : y ∈ seen
      · obtain ⟨h1, h2⟩ := ih seen
        have he : uniqItems seen (.ok y :: l) = uniqItems seen l := by simp [uniqItems, h]
        rw [he]
        refine ⟨h1, fun r => ?_⟩
        rw [h2]
        have : okRows (.ok y :: l) = y :: okRows l := rfl
        rw [this, List.mem_cons]
        constructor
        · rintro ⟨h3, h4⟩; exact ⟨Or.inr h3, h4⟩
        · rintro ⟨h3, h4⟩
          rcases h3 with rfl | h3
          · exact absurd h h4
          · exact ⟨h3, h4⟩
      · obtain ⟨h1, h2⟩ := ih (y :: seen)
        have he : uniqItems seen (.ok y :: l) = .ok y :: uniqItems (y :: seen) l := by simp [uniqItems, h]
        rw [he]
        have h3 : okRows (Except.ok y :: uniqItems (y :: seen) l) = y :: okRows (uniqItems (y :: seen) l) := rfl
        have h4 : okRows (.ok y :: l) = y :: okRows l := rfl
        rw [h3, h4]
        refine ⟨List.nodup_cons.2 ⟨by rw [h2]; simp, h1⟩, fun r => ?_⟩
        rw [List.mem_cons, List.mem_cons, h2, List.mem_cons]
        by_cases hr : r = y
        · subst hr; simp [h]
        · simp [hr]

/-- With several alternatives the results are the union of the results of the alternatives, each once; and all errors. -/
theorem C44_disjunction (ps : List (List (Except E α))) :
    ∃ out, Runs planNextMulti (ps, []) out ∧ (okRows out).Nodup ∧ ∀ r, r ∈ okRows out ↔ ∃ p ∈ ps, r ∈ okRows p := by
  refine ⟨_, planNextMulti_runs ps [], (uniqItems_rows _ []).1, fun r => ?_⟩
  rw [(uniqItems_rows ps.flatten []).2]
  simp only [List.not_mem_nil, not_false_eq_true, and_true, okRows, List.mem_filterMap, List.mem_flatten]
  constructor
  · rintro ⟨a, ⟨l, hl, ha⟩, h⟩; exact ⟨l, hl, a, ha, h⟩
  · rintro ⟨l, hl, a, ha, h⟩; exact ⟨a, ⟨l, hl, ha⟩, h⟩

/-- With a single alternative the rows of its plan are output unchanged, duplicates included. -/
theorem C44_single (p : List (Except E α)) : Runs planNextProxy p p := by
  induction p with
  | nil => exact .done rfl
  | cons x p ih => exact .step rfl ih

end

/-- A column mapping that has to be inverted, with an optional first node: columns 0 and 1 belong to the nodes 3 and 1. -/
theorem C44_nonvacuous : PosOk [(1, 1), (3, 0)] [3, 1] ∧ reorderMatch 9 (inversePos [(1, 1), (3, 0)]) [30, 10] = some [9, 10, 9, 30] := by
  have h : PosOk [(1, 1), (3, 0)] [3, 1] := by
    refine ⟨by unfold OMap.Sorted; decide, by decide, fun n => ?_⟩
    by_cases h1 : n = 1
    · subst h1; rfl
    · by_cases h3 : n = 3
      · subst h3; rfl
      · rw [if_neg (by simp [h1, h3])]
        simp [OMap.get, Ne.symm h1, Ne.symm h3, h1, h3]
  exact ⟨h, by decide⟩
