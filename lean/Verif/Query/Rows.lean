import Verif.Query.Model
import Verif.Exec.ParallelProps

/-!
# Rows, columns and assignments
-/

set_option linter.unusedSimpArgs false
set_option linter.unusedSectionVars false
set_option linter.unusedVariables false

section
variable {M : Type}

/-- All rows with one candidate for each column; the columns belong to the query nodes in the list. -/
def prodRows (C : Nat → List M) : List Nat → List (List M)
  | [] => [[]]
  | n :: ns => (C n).flatMap fun m => (prodRows C ns).map (m :: ·)

/-- The match for a query node in a row. -/
def colVal (cols : List Nat) (row : List M) (n : Nat) : Option M := row[cols.idxOf n]?

theorem prodRows_append (C : Nat → List M) (a b : List Nat) :
    prodRows C (a ++ b) = (prodRows C a).flatMap fun x => (prodRows C b).map (x ++ ·) := by
  induction a with
  | nil => simp [prodRows]
  | cons n a ih =>
    simp only [List.cons_append, prodRows, ih, List.flatMap_assoc]
    refine List.flatMap_congr fun m _ => ?_
    rw [List.map_flatMap, List.flatMap_map]
    refine List.flatMap_congr fun x _ => ?_
    simp

theorem length_of_mem_prodRows {C : Nat → List M} {cols : List Nat} {row : List M} (h : row ∈ prodRows C cols) :
    row.length = cols.length := by
  induction cols generalizing row with
  | nil => simp [prodRows] at h; simp [h]
  | cons n cols ih =>
    simp only [prodRows, List.mem_flatMap, List.mem_map] at h
    obtain ⟨m, _, r, hr, rfl⟩ := h
    simp [ih hr]

theorem colVal_of_mem {C : Nat → List M} {cols : List Nat} {row : List M} (h : row ∈ prodRows C cols) {n : Nat} (hn : n ∈ cols) :
    ∃ m ∈ C n, colVal cols row n = some m := by
  induction cols generalizing row with
  | nil => simp at hn
  | cons x cols ih =>
    simp only [prodRows, List.mem_flatMap, List.mem_map] at h
    obtain ⟨m, hm, r, hr, rfl⟩ := h
    by_cases hx : n = x
    · subst hx
      exact ⟨m, hm, by simp [colVal]⟩
    · rcases List.mem_cons.1 hn with h1 | h1
      · exact absurd h1 hx
      · obtain ⟨m', h2, h3⟩ := ih hr h1
        refine ⟨m', h2, ?_⟩
        unfold colVal at h3 ⊢
        rw [List.idxOf_cons_ne _ (Ne.symm hx)]
        exact h3

theorem colVal_of_not_mem {cols : List Nat} {row : List M} (h : row.length = cols.length) {n : Nat} (hn : n ∉ cols) :
    colVal cols row n = none := by
  unfold colVal
  rw [List.idxOf_eq_length_iff.2 hn, List.getElem?_eq_none_iff]
  omega

theorem colVal_append_left {a b : List Nat} {x y : List M} (hx : x.length = a.length) {n : Nat} (hn : n ∈ a) :
    colVal (a ++ b) (x ++ y) n = colVal a x n := by
  unfold colVal
  rw [List.idxOf_append_of_mem hn, List.getElem?_append_left]
  rw [hx]; exact List.idxOf_lt_length_iff.2 hn

theorem colVal_append_right {a b : List Nat} {x y : List M} (hx : x.length = a.length) {n : Nat} (hn : n ∉ a) :
    colVal (a ++ b) (x ++ y) n = colVal b y n := by
  unfold colVal
  rw [List.idxOf_append_of_notMem hn, List.getElem?_append_right (by omega), hx]
  congr 1
  omega

/-! ## Permuting columns -/

/-- The assignment of matches to query nodes given by a row. -/
def assign (d : M) (cols : List Nat) (row : List M) (n : Nat) : M := (colVal cols row n).getD d

theorem assign_cons (d : M) (x : Nat) (cols : List Nat) (m : M) (row : List M) :
    assign d (x :: cols) (m :: row) = fun n => if n = x then m else assign d cols row n := by
  funext n
  unfold assign colVal
  by_cases h : n = x
  · subst h; simp
  · rw [List.idxOf_cons_ne _ (Ne.symm h), if_neg h]; rfl

theorem flatMap_comm_perm {α β γ : Type} (l : List α) (l' : List β) (f : α → β → List γ) :
    (l.flatMap fun a => l'.flatMap fun b => f a b).Perm (l'.flatMap fun b => l.flatMap fun a => f a b) := by
  induction l with
  | nil => simp
  | cons a l ih =>
    rw [List.flatMap_cons]
    refine (ih.append_left _).trans ?_
    simp only [List.flatMap_cons]
    exact List.flatMap_append_perm l' (fun b => f a b) (fun b => l.flatMap fun a => f a b)

theorem assign_perm (C : Nat → List M) (d : M) {cols cols' : List Nat} (h : cols.Perm cols') (hn : cols.Nodup) :
    ((prodRows C cols).map (assign d cols)).Perm ((prodRows C cols').map (assign d cols')) := by
  induction h with
  | nil => exact List.Perm.refl _
  | @cons x l l' h ih =>
    have ih := ih (List.nodup_cons.1 hn).2
    simp only [prodRows, List.map_flatMap, List.map_map]
    refine List.Perm.flatMap_left _ fun m _ => ?_
    have : ∀ c : List Nat, (assign d (x :: c) ∘ fun r => m :: r) = (fun g : Nat → M => fun n => if n = x then m else g n) ∘ assign d c := by
      intro c
      funext r
      simp only [Function.comp_apply, assign_cons]
    rw [this, this, ← List.map_map, ← List.map_map]
    exact ih.map _
  | swap x y l =>
    have hxy : y ≠ x := by
      simp only [List.nodup_cons, List.mem_cons, not_or] at hn
      exact hn.1.1
    simp only [prodRows, List.map_flatMap, List.map_map]
    refine (flatMap_comm_perm (C y) (C x) _).trans (List.Perm.of_eq ?_)
    refine List.flatMap_congr fun a _ => List.flatMap_congr fun b _ => List.map_congr_left fun r _ => ?_
    simp only [Function.comp_apply, assign_cons]
    funext n
    by_cases h1 : n = y
    · subst h1; simp [hxy]
    · simp [h1]
  | trans h1 _ ih1 ih2 => exact (ih1 hn).trans (ih2 (h1.nodup_iff.1 hn))

/-- Columns that always have the default do not change the assignments. -/
theorem assign_default (C : Nat → List M) (d : M) (cols : List Nat) (opt : List Nat) (ho : ∀ n ∈ opt, C n = [d] ∧ n ∉ cols) :
    (prodRows C (opt ++ cols)).map (assign d (opt ++ cols)) = (prodRows C cols).map (assign d cols) := by
  induction opt with
  | nil => rfl
  | cons x opt ih =>
    have ih := ih fun n hn => ho n (List.mem_cons_of_mem _ hn)
    rw [List.cons_append, prodRows, (ho x List.mem_cons_self).1]
    simp only [List.flatMap_cons, List.flatMap_nil, List.append_nil, List.map_map]
    rw [← ih]
    refine List.map_congr_left fun r hr => ?_
    simp only [Function.comp_apply, assign_cons]
    funext n
    by_cases h : n = x
    · subst h
      rw [if_pos rfl]
      unfold assign
      by_cases h2 : n ∈ opt ++ cols
      · obtain ⟨m, hm, h3⟩ := colVal_of_mem hr h2
        rw [(ho n List.mem_cons_self).1] at hm
        rw [h3, List.mem_singleton.1 hm]; rfl
      · rw [colVal_of_not_mem (length_of_mem_prodRows hr) h2]; rfl
    · rw [if_neg h]

theorem colVal_range {w : Nat} {row : List M} (h : row.length = w) (n : Nat) : colVal (List.range w) row n = row[n]? := by
  by_cases hn : n < w
  · unfold colVal
    congr 1
    have h1 : (List.range w).idxOf n < (List.range w).length := List.idxOf_lt_length_iff.2 (List.mem_range.2 hn)
    have := List.getElem_idxOf h1
    rw [List.getElem_range] at this
    exact this
  · rw [colVal_of_not_mem (by simp [h]) (by simpa using hn), List.getElem?_eq_none_iff.2 (by omega)]

theorem map_assign_range (d : M) {w : Nat} {row : List M} (h : row.length = w) :
    (List.range w).map (assign d (List.range w) row) = row := by
  refine List.ext_getElem (by simp [h]) fun i h1 h2 => ?_
  rw [List.getElem_map, List.getElem_range]
  unfold assign
  rw [colVal_range h, List.getElem?_eq_getElem h2]; rfl

end
