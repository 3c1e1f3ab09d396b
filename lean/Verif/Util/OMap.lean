import Mathlib.Tactic.Set
import Mathlib.Order.Nat
import Mathlib.Order.Basic
import Mathlib.Order.BoundedOrder.Basic

/-!
# Finite maps as strictly sorted association lists

Shared container used to model Rust's `BTreeMap`, `BTreeSet` (values of type `Unit`), the sorted vectors of the
annotation storage and, where the iteration order is irrelevant, `HashMap`.  The sortedness invariant is a separate
predicate (`OMap.Sorted`), not a subtype.
-/

abbrev OMap (K V : Type _) := List (K × V)

namespace OMap

variable {K V W : Type _} [LinearOrder K]

/-- Lookup (`BTreeMap::get`). -/
def get : OMap K V → K → Option V
  | [], _ => none
  | (k', v) :: r, k => if k = k' then some v else get r k

/-- Insert or overwrite (`BTreeMap::insert`). -/
def insert : OMap K V → K → V → OMap K V
  | [], k, v => [(k, v)]
  | (k', v') :: r, k, v =>
    if k < k' then (k, v) :: (k', v') :: r
    else if k = k' then (k, v) :: r
    else (k', v') :: insert r k v

/-- Removal (`BTreeMap::remove`, without its result). -/
def erase : OMap K V → K → OMap K V
  | [], _ => []
  | (k', v') :: r, k => if k = k' then r else (k', v') :: erase r k

/-- All keys in ascending order. -/
def keys (m : OMap K V) : List K := m.map Prod.fst

/-- All values, ordered by key. -/
def vals (m : OMap K V) : List V := m.map Prod.snd

/-- Strictly ascending keys. -/
def Sorted (m : OMap K V) : Prop := m.Pairwise (fun a b => a.1 < b.1)

instance [DecidableEq V] (m : OMap K V) : Decidable m.Sorted := by unfold Sorted; infer_instance

@[simp] theorem get_nil (k : K) : get ([] : OMap K V) k = none := rfl

theorem sorted_nil : Sorted ([] : OMap K V) := List.Pairwise.nil

theorem sorted_cons {p : K × V} {r : OMap K V} :
    Sorted (p :: r) ↔ (∀ q ∈ r, p.1 < q.1) ∧ Sorted r := by
  simp [Sorted]

theorem get_eq_none_of_lt {m : OMap K V} {k : K} (h : ∀ q ∈ m, k < q.1) : get m k = none := by
  induction m with
  | nil => rfl
  | cons p r ih =>
    obtain ⟨k', v'⟩ := p
    have h1 : k < k' := h (k', v') (by simp)
    simp only [get, if_neg (ne_of_lt h1)]
    exact ih (fun q hq => h q (List.mem_cons_of_mem _ hq))

theorem mem_of_get {m : OMap K V} {k : K} {v : V} (h : get m k = some v) : (k, v) ∈ m := by
  induction m with
  | nil => simp at h
  | cons p r ih =>
    obtain ⟨k', v'⟩ := p
    simp only [get] at h
    split at h
    · rename_i e; subst e; injection h with h; subst h; simp
    · exact List.mem_cons_of_mem _ (ih h)

theorem get_of_mem {m : OMap K V} (hs : Sorted m) {k : K} {v : V} (h : (k, v) ∈ m) : get m k = some v := by
  induction m with
  | nil => simp at h
  | cons p r ih =>
    obtain ⟨k', v'⟩ := p
    rw [sorted_cons] at hs
    rcases List.mem_cons.1 h with h | h
    · injection h with h1 h2; subst h1; subst h2; simp [get]
    · have := hs.1 _ h
      simp only [get, if_neg (ne_of_gt this)]
      exact ih hs.2 h

theorem mem_iff_get {m : OMap K V} (hs : Sorted m) {k : K} {v : V} : (k, v) ∈ m ↔ get m k = some v :=
  ⟨get_of_mem hs, mem_of_get⟩

theorem mem_keys_iff {m : OMap K V} {k : K} : k ∈ keys m ↔ ∃ v, get m k = some v := by
  induction m with
  | nil => simp [keys]
  | cons p r ih =>
    obtain ⟨k', v'⟩ := p
    simp only [keys, List.map_cons, List.mem_cons, get] at ih ⊢
    by_cases e : k = k'
    · simp [e]
    · simp only [e, false_or, if_false]; exact ih

theorem get_eq_none_iff {m : OMap K V} {k : K} : get m k = none ↔ k ∉ keys m := by
  rw [mem_keys_iff]
  cases get m k <;> simp

theorem mem_insert {m : OMap K V} {k : K} {v : V} {q : K × V} (h : q ∈ insert m k v) :
    q = (k, v) ∨ q ∈ m := by
  induction m with
  | nil => simpa [insert] using h
  | cons p r ih =>
    obtain ⟨k', v'⟩ := p
    simp only [insert] at h
    split at h
    · rcases List.mem_cons.1 h with h | h
      · exact Or.inl h
      · exact Or.inr h
    · split at h
      · rcases List.mem_cons.1 h with h | h
        · exact Or.inl h
        · exact Or.inr (List.mem_cons_of_mem _ h)
      · rcases List.mem_cons.1 h with h | h
        · exact Or.inr (by simp [h])
        · rcases ih h with h | h
          · exact Or.inl h
          · exact Or.inr (List.mem_cons_of_mem _ h)

theorem sorted_insert {m : OMap K V} (hs : Sorted m) (k : K) (v : V) : Sorted (insert m k v) := by
  induction m with
  | nil => simp [insert, Sorted]
  | cons p r ih =>
    obtain ⟨k', v'⟩ := p
    rw [sorted_cons] at hs
    simp only [insert]
    split
    · rename_i hlt
      rw [sorted_cons, sorted_cons]
      refine ⟨?_, hs⟩
      intro q hq
      rcases List.mem_cons.1 hq with h | h
      · subst h; exact hlt
      · exact lt_trans hlt (hs.1 q h)
    · split
      · rename_i e; subst e
        rw [sorted_cons]; exact hs
      · rename_i h1 h2
        rw [sorted_cons]
        refine ⟨?_, ih hs.2⟩
        intro q hq
        rcases mem_insert hq with h | h
        · subst h; exact lt_of_le_of_ne (not_lt.1 h1) (Ne.symm h2)
        · exact hs.1 q h

theorem get_insert (m : OMap K V) (k k2 : K) (v : V) :
    get (insert m k v) k2 = if k2 = k then some v else get m k2 := by
  induction m with
  | nil => simp [insert, get]
  | cons p r ih =>
    obtain ⟨k', v'⟩ := p
    simp only [insert]
    split
    · simp [get]
    · split
      · rename_i e; subst e
        simp only [get]; split <;> rfl
      · rename_i h1 h2
        simp only [get, ih]
        by_cases e : k2 = k'
        · subst e; simp [Ne.symm h2]
        · simp [e]

@[simp] theorem get_insert_self (m : OMap K V) (k : K) (v : V) : get (insert m k v) k = some v := by
  simp [get_insert]

theorem get_insert_ne (m : OMap K V) {k k2 : K} (v : V) (h : k2 ≠ k) :
    get (insert m k v) k2 = get m k2 := by
  simp [get_insert, h]

theorem mem_erase {m : OMap K V} {k : K} {q : K × V} (h : q ∈ erase m k) : q ∈ m := by
  induction m with
  | nil => simp [erase] at h
  | cons p r ih =>
    obtain ⟨k', v'⟩ := p
    simp only [erase] at h
    split at h
    · exact List.mem_cons_of_mem _ h
    · rcases List.mem_cons.1 h with h | h
      · simp [h]
      · exact List.mem_cons_of_mem _ (ih h)

theorem sorted_erase {m : OMap K V} (hs : Sorted m) (k : K) : Sorted (erase m k) := by
  induction m with
  | nil => simp [erase, Sorted]
  | cons p r ih =>
    obtain ⟨k', v'⟩ := p
    rw [sorted_cons] at hs
    simp only [erase]
    split
    · exact hs.2
    · rw [sorted_cons]
      exact ⟨fun q hq => hs.1 q (mem_erase hq), ih hs.2⟩

theorem get_erase {m : OMap K V} (hs : Sorted m) (k k2 : K) :
    get (erase m k) k2 = if k2 = k then none else get m k2 := by
  induction m with
  | nil => simp [erase]
  | cons p r ih =>
    obtain ⟨k', v'⟩ := p
    rw [sorted_cons] at hs
    simp only [erase]
    by_cases e : k = k'
    · subst e
      rw [if_pos rfl]
      by_cases e2 : k2 = k
      · subst e2; simp [get_eq_none_of_lt hs.1]
      · simp [get, e2]
    · rw [if_neg e]
      simp only [get, ih hs.2]
      by_cases e2 : k2 = k'
      · subst e2; simp [Ne.symm e]
      · simp [e2]

theorem get_erase_ne (m : OMap K V) {k k2 : K} (h : k2 ≠ k) :
    get (erase m k) k2 = get m k2 := by
  induction m with
  | nil => simp [erase]
  | cons p r ih =>
    obtain ⟨k', v'⟩ := p
    simp only [erase]
    by_cases e : k = k'
    · subst e; simp [get, h]
    · rw [if_neg e]; simp only [get, ih]

theorem ext {m n : OMap K V} (hm : Sorted m) (hn : Sorted n) (h : ∀ k, get m k = get n k) : m = n := by
  induction m generalizing n with
  | nil =>
    cases n with
    | nil => rfl
    | cons q s => obtain ⟨k, v⟩ := q; have := h k; simp [get] at this
  | cons p r ih =>
    obtain ⟨k, v⟩ := p
    cases n with
    | nil => have := h k; simp [get] at this
    | cons q s =>
      obtain ⟨k', v'⟩ := q
      rw [sorted_cons] at hm hn
      have hk : k = k' := by
        rcases lt_trichotomy k k' with hlt | e | hlt
        · have h1 := h k
          have h2 : get ((k', v') :: s) k = none := get_eq_none_of_lt (by
            intro q hq
            rcases List.mem_cons.1 hq with hq | hq
            · subst hq; exact hlt
            · exact lt_trans hlt (hn.1 q hq))
          rw [h2] at h1; simp [get] at h1
        · exact e
        · have h1 := h k'
          have h2 : get ((k, v) :: r) k' = none := get_eq_none_of_lt (by
            intro q hq
            rcases List.mem_cons.1 hq with hq | hq
            · subst hq; exact hlt
            · exact lt_trans hlt (hm.1 q hq))
          rw [h2] at h1; simp [get] at h1
      subst hk
      have hv : v = v' := by simpa [get] using h k
      subst hv
      congr 1
      apply ih hm.2 hn.2
      intro k2
      by_cases e : k2 = k
      · subst e; rw [get_eq_none_of_lt hm.1, get_eq_none_of_lt hn.1]
      · have := h k2; simpa [get, e] using this

theorem nodup_keys {m : OMap K V} (hs : Sorted m) : (keys m).Nodup := by
  unfold keys List.Nodup
  rw [List.pairwise_map]
  exact hs.imp (fun h => ne_of_lt h)

theorem sorted_keys {m : OMap K V} (hs : Sorted m) : (keys m).Pairwise (· < ·) := by
  unfold keys
  rw [List.pairwise_map]
  exact hs

theorem nodup_of_sorted {m : OMap K V} (hs : Sorted m) : m.Nodup := by
  unfold List.Nodup
  exact hs.imp (fun {a b} h e => by subst e; exact lt_irrefl _ h)

/-- Number of entries satisfying a predicate. -/
def countP (p : K → V → Bool) (m : OMap K V) : Nat := List.countP (fun q => p q.1 q.2) m

theorem countP_insert_none (p : K → V → Bool) (m : OMap K V) (k : K) (v : V) (h : get m k = none) :
    countP p (insert m k v) = countP p m + (if p k v then 1 else 0) := by
  induction m with
  | nil => simp [insert, countP, List.countP_cons]
  | cons q r ih =>
    obtain ⟨k', v'⟩ := q
    simp only [insert]
    split
    · simp [countP, List.countP_cons]
    · split
      · rename_i e; subst e; simp [get] at h
      · rename_i h1 h2
        have h' : get r k = none := by simpa [get, h2] using h
        have := ih h'
        simp only [countP, List.countP_cons] at this ⊢
        omega

theorem countP_insert_some (p : K → V → Bool) (m : OMap K V) (hs : Sorted m) (k : K) (v w : V)
    (h : get m k = some w) :
    countP p (insert m k v) + (if p k w then 1 else 0) = countP p m + (if p k v then 1 else 0) := by
  induction m with
  | nil => simp at h
  | cons q r ih =>
    obtain ⟨k', v'⟩ := q
    rw [sorted_cons] at hs
    simp only [insert]
    split
    · rename_i hlt
      have : get ((k', v') :: r) k = none := get_eq_none_of_lt (by
            intro q hq
            rcases List.mem_cons.1 hq with hq | hq
            · subst hq; exact hlt
            · exact lt_trans hlt (hs.1 q hq))
      rw [this] at h; simp at h
    · split
      · rename_i e; subst e
        have : v' = w := by simpa [get] using h
        subst this
        simp only [countP, List.countP_cons]
        omega
      · rename_i h1 h2
        have h' : get r k = some w := by simpa [get, h2] using h
        have := ih hs.2 h'
        simp only [countP, List.countP_cons] at this ⊢
        omega

theorem countP_erase_some (p : K → V → Bool) (m : OMap K V) (k : K) (w : V)
    (h : get m k = some w) :
    countP p (erase m k) + (if p k w then 1 else 0) = countP p m := by
  induction m with
  | nil => simp at h
  | cons q r ih =>
    obtain ⟨k', v'⟩ := q
    simp only [erase]
    split
    · rename_i e; subst e
      have : v' = w := by simpa [get] using h
      subst this
      simp [countP, List.countP_cons]
    · rename_i h2
      have h' : get r k = some w := by simpa [get, h2] using h
      have := ih h'
      simp only [countP, List.countP_cons] at this ⊢
      omega

theorem erase_of_get_none {m : OMap K V} {k : K} (h : get m k = none) : erase m k = m := by
  induction m with
  | nil => rfl
  | cons q r ih =>
    obtain ⟨k', v'⟩ := q
    simp only [get] at h
    split at h
    · simp at h
    · rename_i e
      simp [erase, e, ih h]

theorem length_insert_none (m : OMap K V) (k : K) (v : V) (h : get m k = none) :
    (insert m k v).length = m.length + 1 := by
  have := countP_insert_none (fun _ _ => true) m k v h
  simpa [countP] using this

theorem length_insert_some (m : OMap K V) (hs : Sorted m) (k : K) (v w : V) (h : get m k = some w) :
    (insert m k v).length = m.length := by
  have := countP_insert_some (fun _ _ => true) m hs k v w h
  simpa [countP] using this

theorem length_erase_some (m : OMap K V) (k : K) (w : V) (h : get m k = some w) :
    (erase m k).length + 1 = m.length := by
  have := countP_erase_some (fun _ _ => true) m k w h
  simpa [countP] using this

theorem ne_nil_of_get {m : OMap K V} {k : K} {v : V} (h : get m k = some v) : m ≠ [] := by
  rintro rfl; simp at h

theorem insert_ne_nil (m : OMap K V) (k : K) (v : V) : insert m k v ≠ [] :=
  ne_nil_of_get (get_insert_self m k v)

theorem countP_pos_iff {p : K → V → Bool} {m : OMap K V} (hs : Sorted m) :
    0 < countP p m ↔ ∃ k v, get m k = some v ∧ p k v = true := by
  unfold countP
  rw [List.countP_pos_iff]
  constructor
  · rintro ⟨⟨k, v⟩, hm, hp⟩; exact ⟨k, v, get_of_mem hs hm, hp⟩
  · rintro ⟨k, v, hg, hp⟩; exact ⟨(k, v), mem_of_get hg, hp⟩

/-- Weighted sum over all entries. -/
def sumBy (f : K → V → Nat) (m : OMap K V) : Nat := (m.map (fun q => f q.1 q.2)).sum

theorem sumBy_insert_none (f : K → V → Nat) (m : OMap K V) (k : K) (v : V) (h : get m k = none) :
    sumBy f (insert m k v) = sumBy f m + f k v := by
  induction m with
  | nil => simp [insert, sumBy]
  | cons q r ih =>
    obtain ⟨k', v'⟩ := q
    simp only [get] at h
    split at h
    · simp at h
    · rename_i hne
      simp only [insert]
      split
      · simp [sumBy]; omega
      · have := ih h
        simp [sumBy] at this ⊢; omega

theorem sumBy_erase_some (f : K → V → Nat) (m : OMap K V) (k : K) (w : V) (h : get m k = some w) :
    sumBy f (erase m k) + f k w = sumBy f m := by
  induction m with
  | nil => simp at h
  | cons q r ih =>
    obtain ⟨k', v'⟩ := q
    simp only [get] at h
    split at h
    · rename_i e; subst e; injection h with h; subst h
      simp [erase, sumBy]; omega
    · rename_i hne
      have := ih h
      simp [erase, hne, sumBy] at this ⊢; omega

theorem insert_eq_insert_erase {m : OMap K V} (hs : Sorted m) (k : K) (v : V) :
    insert m k v = insert (erase m k) k v := by
  apply ext (sorted_insert hs _ _) (sorted_insert (sorted_erase hs _) _ _)
  intro k2
  rw [get_insert, get_insert, get_erase hs]
  split <;> simp_all

theorem sumBy_insert_some (f : K → V → Nat) (m : OMap K V) (hs : Sorted m) (k : K) (v w : V)
    (h : get m k = some w) : sumBy f (insert m k v) + f k w = sumBy f m + f k v := by
  rw [insert_eq_insert_erase hs, sumBy_insert_none _ _ _ _ (by rw [get_erase hs]; simp)]
  have := sumBy_erase_some f m k w h
  omega

end OMap
