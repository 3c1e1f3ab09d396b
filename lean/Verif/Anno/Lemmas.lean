import Verif.Anno.Model
import Verif.SymbolTable.Lemmas

set_option linter.unusedSimpArgs false
set_option linter.unusedSectionVars false

namespace AnnoStore

section ByAnno
variable {T : Type} [LinearOrder T]

/-- `m` relates key symbol `k`, value symbol `v` and item `t`. -/
def has (m : ByAnno T) (k v : Nat) (t : T) : Prop :=
  ∃ vm items, m.get k = some vm ∧ vm.get v = some items ∧ items.get t = some ()

structure WF3 (m : ByAnno T) : Prop where
  sorted : m.Sorted
  vm : ∀ k vm, m.get k = some vm → vm.Sorted ∧ vm ≠ []
  items : ∀ k vm v items, m.get k = some vm → vm.get v = some items → items.Sorted ∧ items ≠ []

theorem WF3.nil : WF3 ([] : ByAnno T) := by
  constructor <;> simp [OMap.sorted_nil]

theorem exists_get_of_ne_nil {K V : Type _} [LinearOrder K] {m : OMap K V} (h : m ≠ []) : ∃ k v, m.get k = some v := by
  cases m with
  | nil => exact absurd rfl h
  | cons p r => obtain ⟨k, v⟩ := p; exact ⟨k, v, by simp [OMap.get]⟩

theorem eq_nil_iff_get {K V : Type _} [LinearOrder K] {m : OMap K V} : m = [] ↔ ∀ k, m.get k = none := by
  constructor
  · rintro rfl k; rfl
  · intro h
    by_contra hc
    obtain ⟨k, v, hv⟩ := exists_get_of_ne_nil hc
    rw [h k] at hv; simp at hv

theorem has_add (m : ByAnno T) (k v : Nat) (t : T) (k' v' : Nat) (t' : T) :
    has (addByAnno m k v t) k' v' t' ↔ (k' = k ∧ v' = v ∧ t' = t) ∨ has m k' v' t' := by
  unfold addByAnno has
  by_cases hk : k' = k
  · subst hk
    simp only [OMap.get_insert, if_true]
    by_cases hv : v' = v
    · subst hv
      by_cases ht : t' = t
      · subst ht; simp [OMap.get_insert]
      · simp only [ht, and_false, false_or]
        constructor
        · rintro ⟨vm0, items0, rfl', h2, h3⟩
          cases rfl'
          rw [OMap.get_insert_self] at h2
          cases h2
          rw [OMap.get_insert_ne _ _ ht] at h3
          cases h1 : m.get k' with
          | none => rw [h1] at h3; simp at h3
          | some vm =>
            rw [h1] at h3
            simp only [Option.getD_some] at h3
            cases h2 : vm.get v' with
            | none => rw [h2] at h3; simp at h3
            | some items => rw [h2] at h3; exact ⟨vm, items, rfl, h2, h3⟩
        · rintro ⟨vm, items, h1, h2, h3⟩
          refine ⟨_, _, rfl, OMap.get_insert_self _ _ _, ?_⟩
          rw [OMap.get_insert_ne _ _ ht]
          simp [h1, h2, h3]
    · simp only [Option.some.injEq, exists_eq_left', OMap.get_insert, hv, if_false, false_and, and_false, false_or]
      constructor
      · rintro ⟨vm, items, rfl, h2, h3⟩
        rw [OMap.get_insert_ne _ _ hv] at h2
        cases h1 : m.get k' with
        | none => rw [h1] at h2; simp at h2
        | some vm => rw [h1] at h2; exact ⟨vm, items, rfl, h2, h3⟩
      · rintro ⟨vm, items, h1, h2, h3⟩
        refine ⟨_, items, rfl, ?_, h3⟩
        rw [OMap.get_insert_ne _ _ hv]; simp [h1, h2]
  · simp [OMap.get_insert, hk]

theorem WF3.add {m : ByAnno T} (h : WF3 m) (k v : Nat) (t : T) : WF3 (addByAnno m k v t) := by
  have hvm : ((m.get k).getD []).Sorted := by
    cases h1 : m.get k with
    | none => exact OMap.sorted_nil
    | some vm => exact (h.vm k vm h1).1
  have hit : ((((m.get k).getD []).get v).getD []).Sorted := by
    cases h1 : m.get k with
    | none => exact OMap.sorted_nil
    | some vm =>
      simp only [Option.getD_some]
      cases h2 : vm.get v with
      | none => exact OMap.sorted_nil
      | some items => exact (h.items k vm v items h1 h2).1
  unfold addByAnno
  refine ⟨OMap.sorted_insert h.sorted _ _, ?_, ?_⟩
  · intro k' vm' hg
    rw [OMap.get_insert] at hg
    split at hg
    · injection hg with hg; subst hg
      exact ⟨OMap.sorted_insert hvm _ _, OMap.insert_ne_nil _ _ _⟩
    · exact h.vm k' vm' hg
  · intro k' vm' v' items' hg hg2
    rw [OMap.get_insert] at hg
    split at hg
    · rename_i e; subst e
      injection hg with hg; subst hg
      rw [OMap.get_insert] at hg2
      split at hg2
      · injection hg2 with hg2; subst hg2
        exact ⟨OMap.sorted_insert hit _ _, OMap.insert_ne_nil _ _ _⟩
      · cases h1 : m.get k' with
        | none => rw [h1] at hg2; simp at hg2
        | some vm => rw [h1] at hg2; exact h.items k' vm v' items' h1 hg2
    · exact h.items k' vm' v' items' hg hg2

theorem has_remove {m : ByAnno T} (h : WF3 m) (k v : Nat) (t : T) (k' v' : Nat) (t' : T) :
    has (removeByAnno m k v t) k' v' t' ↔ has m k' v' t' ∧ ¬(k' = k ∧ v' = v ∧ t' = t) := by
  unfold removeByAnno
  split
  · rename_i h1
    constructor
    · intro hh; refine ⟨hh, ?_⟩
      rintro ⟨rfl, rfl, rfl⟩
      obtain ⟨vm, items, h2, _⟩ := hh
      rw [h1] at h2; simp at h2
    · exact And.left
  · rename_i vm h1
    split
    · rename_i h2
      constructor
      · intro hh; refine ⟨hh, ?_⟩
        rintro ⟨rfl, rfl, rfl⟩
        obtain ⟨vm', items, h3, h4, _⟩ := hh
        rw [h1] at h3; injection h3 with h3; subst h3
        rw [h2] at h4; simp at h4
      · exact And.left
    · rename_i items h2
      have hvm := (h.vm k vm h1).1
      have hit := (h.items k vm v items h1 h2).1
      have key : has m k' v' t' ∧ ¬(k' = k ∧ v' = v ∧ t' = t) ↔
          if k' = k then (if v' = v then (items.erase t).get t' = some ()
            else ∃ it, vm.get v' = some it ∧ it.get t' = some ()) else has m k' v' t' := by
        by_cases hk : k' = k
        · subst hk
          by_cases hv : v' = v
          · subst hv
            simp only [if_true, OMap.get_erase hit, has]
            by_cases ht : t' = t
            · simp [ht]
            · simp [ht, h1, h2]
          · simp [hv, has, h1]
        · simp [hk]
      rw [key]
      simp only
      split
      · rename_i e1
        have e1' := eq_nil_iff_get.1 e1
        split
        · rename_i e2
          have e2' := eq_nil_iff_get.1 e2
          unfold has
          rw [OMap.get_erase h.sorted]
          by_cases hk : k' = k
          · subst hk
            simp only [if_true]
            by_cases hv : v' = v
            · simp [hv, e1']
            · have := e2' v'
              rw [OMap.get_erase hvm] at this
              simp [hv] at this
              simp [hv, this]
          · simp [hk]
        · unfold has
          rw [OMap.get_insert]
          by_cases hk : k' = k
          · subst hk
            simp only [if_true, Option.some.injEq]
            by_cases hv : v' = v
            · simp [hv, e1', OMap.get_erase hvm]
            · simp [hv, OMap.get_erase hvm]
          · simp [hk]
      · unfold has
        rw [OMap.get_insert]
        by_cases hk : k' = k
        · subst hk
          simp only [if_true, Option.some.injEq]
          by_cases hv : v' = v
          · simp [hv, OMap.get_insert]
          · simp [hv, OMap.get_insert]
        · simp [hk]

theorem WF3.remove {m : ByAnno T} (h : WF3 m) (k v : Nat) (t : T) : WF3 (removeByAnno m k v t) := by
  unfold removeByAnno
  split
  · exact h
  · rename_i vm h1
    split
    · exact h
    · rename_i items h2
      have hvm := (h.vm k vm h1).1
      have hit := (h.items k vm v items h1 h2).1
      simp only
      split
      · split
        · refine ⟨OMap.sorted_erase h.sorted _, ?_, ?_⟩
          · intro k' vm' hg
            rw [OMap.get_erase h.sorted] at hg
            split at hg
            · simp at hg
            · exact h.vm k' vm' hg
          · intro k' vm' v' items' hg hg2
            rw [OMap.get_erase h.sorted] at hg
            split at hg
            · simp at hg
            · exact h.items k' vm' v' items' hg hg2
        · rename_i hne
          refine ⟨OMap.sorted_insert h.sorted _ _, ?_, ?_⟩
          · intro k' vm' hg
            rw [OMap.get_insert] at hg
            split at hg
            · injection hg with hg; subst hg; exact ⟨OMap.sorted_erase hvm _, hne⟩
            · exact h.vm k' vm' hg
          · intro k' vm' v' items' hg hg2
            rw [OMap.get_insert] at hg
            split at hg
            · injection hg with hg; subst hg
              rw [OMap.get_erase hvm] at hg2
              split at hg2
              · simp at hg2
              · exact h.items k vm v' items' h1 hg2
            · exact h.items k' vm' v' items' hg hg2
      · rename_i hne
        refine ⟨OMap.sorted_insert h.sorted _ _, ?_, ?_⟩
        · intro k' vm' hg
          rw [OMap.get_insert] at hg
          split at hg
          · injection hg with hg; subst hg; exact ⟨OMap.sorted_insert hvm _ _, OMap.insert_ne_nil _ _ _⟩
          · exact h.vm k' vm' hg
        · intro k' vm' v' items' hg hg2
          rw [OMap.get_insert] at hg
          split at hg
          · injection hg with hg; subst hg
            rw [OMap.get_insert] at hg2
            split at hg2
            · injection hg2 with hg2; subst hg2; exact ⟨OMap.sorted_erase hit _, hne⟩
            · exact h.items k vm v' items' h1 hg2
          · exact h.items k' vm' v' items' hg hg2

theorem has_erase {m : ByAnno T} (h : m.Sorted) (k k' v : Nat) (t : T) :
    has (m.erase k) k' v t ↔ k' ≠ k ∧ has m k' v t := by
  unfold has
  rw [OMap.get_erase h]
  by_cases e : k' = k <;> simp [e]

theorem WF3.erase {m : ByAnno T} (h : WF3 m) (k : Nat) : WF3 (m.erase k) := by
  refine ⟨OMap.sorted_erase h.sorted _, ?_, ?_⟩
  · intro k' vm' hg
    rw [OMap.get_erase h.sorted] at hg
    split at hg
    · simp at hg
    · exact h.vm k' vm' hg
  · intro k' vm' v' items' hg hg2
    rw [OMap.get_erase h.sorted] at hg
    split at hg
    · simp at hg
    · exact h.items k' vm' v' items' hg hg2

theorem WF3.exists_item {m : ByAnno T} (h : WF3 m) {k v : Nat} {vm : OMap Nat (OMap T Unit)} {items : OMap T Unit}
    (h1 : m.get k = some vm) (h2 : vm.get v = some items) : ∃ t, has m k v t := by
  obtain ⟨t, u, ht⟩ := exists_get_of_ne_nil (h.items k vm v items h1 h2).2
  exact ⟨t, vm, items, h1, h2, ht⟩

theorem valueUsed_iff {m : ByAnno T} (h : WF3 m) (v : Nat) :
    valueUsed m v = true ↔ ∃ k t, has m k v t := by
  unfold valueUsed
  rw [List.any_eq_true]
  constructor
  · rintro ⟨⟨k, vm⟩, hm, hs⟩
    have h1 := OMap.get_of_mem h.sorted hm
    obtain ⟨items, h2⟩ := Option.isSome_iff_exists.1 hs
    obtain ⟨t, ht⟩ := h.exists_item h1 h2
    exact ⟨k, t, ht⟩
  · rintro ⟨k, t, vm, items, h1, h2, h3⟩
    exact ⟨(k, vm), OMap.mem_of_get h1, by simp [h2]⟩

end ByAnno
end AnnoStore
