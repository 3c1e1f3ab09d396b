import Verif.Est.Examples
import Verif.Anno.Props

/-!
# Guesses for a storage with annotations (C88)

`hist` are the bounds saved for the keys.  They may be outdated: annotations can be added and removed after the calculation of the
statistics, therefore nothing is assumed about them.
-/

set_option linter.unusedSectionVars false
set_option linter.unusedSimpArgs false

namespace Est

open AnnoStore

variable {T N V : Type} [LinearOrder T] [LinearOrder N] [OrderBot N] [LinearOrder V]

/-- The keys used by `guess_max_count` (inmemory.rs 698-716, ondisk.rs 851-867): all keys with the name, without those which have no size. -/
def keyStats (s : AnnoStore T N V) (hist : AnnoKey N → Option (List V)) (ns : Option N) (name : N) : List (KeyStat V) :=
  ((match ns with
    | some ns => [AnnoKey.mk ns name]
    | none => s.qnames name)).filterMap fun k => (s.sizes.get k).map fun n => ⟨n, hist k⟩

/-- `number_of_annotations_by_name(…) - guess_max_count(…)` as calculated for searches with `!=` (nodesearch.rs 636-648, 880-905;
operator.rs 91-101).  `none`: the subtraction overflows. -/
def guessNotValue (R : Rounding) (s : AnnoStore T N V) (hist : AnnoKey N → Option (List V)) (top : N) (ns : Option N) (name : N)
    (val : V) : Option Nat :=
  let total := s.numByName top ns name
  let g := guessMaxCount R val val (keyStats s hist ns name)
  if g ≤ total then some (total - g) else none

theorem sizes_of_keys (s : AnnoStore T N V) (hs : OMap.Sorted s.sizes) (hist : AnnoKey N → Option (List V)) (ks : List (AnnoKey N))
    (hk : ks.Nodup) (q : AnnoKey N → Bool) (hq : ∀ k n, s.sizes.get k = some n → (k ∈ ks ↔ q k = true)) :
    (((ks.filterMap fun k => (s.sizes.get k).map fun n => (⟨n, hist k⟩ : KeyStat V)).map KeyStat.size)).sum =
      ((s.sizes.filter fun p => q p.1).map Prod.snd).sum := by
  have e1 : (ks.filterMap fun k => (s.sizes.get k).map fun n => (⟨n, hist k⟩ : KeyStat V)).map KeyStat.size =
      (ks.filterMap fun k => (s.sizes.get k).map fun n => (k, n)).map Prod.snd := by
    rw [List.map_filterMap, List.map_filterMap]
    congr 1
    funext k
    cases s.sizes.get k <;> rfl
  rw [e1]
  apply List.Perm.sum_eq
  apply List.Perm.map
  rw [List.perm_ext_iff_of_nodup]
  · rintro ⟨k, n⟩
    simp only [List.mem_filterMap, List.mem_filter, Option.map_eq_some_iff, Prod.mk.injEq]
    constructor
    · rintro ⟨k', hk', n', hn, rfl, rfl⟩
      exact ⟨OMap.mem_of_get hn, (hq _ _ hn).1 hk'⟩
    · rintro ⟨hm, hqk⟩
      have hn := OMap.get_of_mem hs hm
      exact ⟨k, (hq _ _ hn).2 hqk, n, hn, rfl, rfl⟩
  · refine List.Nodup.filterMap ?_ hk
    intro a a' b h1 h2
    simp only [Option.mem_def, Option.map_eq_some_iff] at h1 h2
    obtain ⟨_, _, rfl⟩ := h1
    obtain ⟨_, _, h2⟩ := h2
    exact (congrArg Prod.fst h2).symm
  · apply List.Nodup.filter
    exact List.Pairwise.imp (fun h => by rintro rfl; exact absurd h (lt_irrefl _)) hs

/-- The sizes used by a guess belong to the annotations with the name. -/
theorem keyStats_total (ops : List (Op T N V)) (hist : AnnoKey N → Option (List V)) (ns : Option N) (name : N) :
    ∃ L, Enumerates (spec ops) (fun _ key => key.name = name ∧ ∀ n ∈ ns, key.ns = n) L ∧
      ((keyStats (run ops) hist ns name).map KeyStat.size).sum = L.length := by
  have h := (run_refines ops).1
  obtain ⟨L, h1, h2, h3⟩ := sizes_filter_sum h (fun key => decide (key.name = name ∧ ∀ n ∈ ns, key.ns = n))
  simp only [C02_get_value] at h2
  refine ⟨L, ⟨h1, fun t key => by rw [h2, decide_eq_true_eq]⟩, ?_⟩
  rw [← h3]
  unfold keyStats
  apply sizes_of_keys (run ops) h.szSorted hist (q := fun key => decide (key.name = name ∧ ∀ n ∈ ns, key.ns = n))
  · cases ns with
    | none => exact nodup_qnames h name
    | some n => exact List.nodup_singleton _
  · intro k n hn
    cases ns with
    | none =>
      rw [mem_qnames h]
      simp only [Option.mem_def, reduceCtorEq, false_imp_iff, implies_true, and_true, decide_eq_true_eq, and_iff_left_iff_imp]
      intro _
      exact (known_iff h k).1 (OMap.mem_keys_iff.2 ⟨n, hn⟩)
    | some n =>
      simp [key_eq_iff, and_comm]

/-- C88: in every storage, and whatever the saved bounds are, the guess for a range of values is at most the number of annotations with
the (qualified) name. -/
theorem C88_guess_le_number (R : Rounding) (ops : List (Op T N V)) (hist : AnnoKey N → Option (List V)) (lo hi : V) (ns : Option N)
    (name : N) :
    ∃ L, Enumerates (spec ops) (fun _ key => key.name = name ∧ ∀ n ∈ ns, key.ns = n) L ∧
      (L.length < 2 ^ 53 → guessMaxCount R lo hi (keyStats (run ops) hist ns name) ≤ L.length) := by
  obtain ⟨L, h1, h2⟩ := keyStats_total ops hist ns name
  refine ⟨L, h1, fun hL => ?_⟩
  rw [← h2]
  exact C88_guess_le_total R lo hi _ (by rw [h2]; exact hL)

theorem enumerates_length {m : AnnoStore.Spec T N V} {p p' : T → AnnoKey N → Prop} (hp : ∀ t k, (m t k).isSome → (p t k ↔ p' t k))
    {L L' : List (T × AnnoKey N)} (h : Enumerates m p L) (h' : Enumerates m p' L') : L.length = L'.length := by
  apply List.Perm.length_eq
  rw [List.perm_ext_iff_of_nodup h.1 h'.1]
  rintro ⟨t, k⟩
  rw [h.2, h'.2]
  constructor
  · rintro ⟨h1, h2⟩; exact ⟨h1, (hp t k h1).1 h2⟩
  · rintro ⟨h1, h2⟩; exact ⟨h1, (hp t k h1).2 h2⟩

/-- C88 (restricted to names whose namespaces are below the bound used by the code): the number of annotations with another value never
overflows, and together with the guess for the value it is the number of all annotations with the name. -/
theorem C88_not_value_partial (R : Rounding) (ops : List (Op T N V)) (hist : AnnoKey N → Option (List V)) (top : N) (ns : Option N)
    (name : N) (val : V)
    (htop : ns = none → ∀ t key, (spec ops t key).isSome → key.name = name → key.ns < top) :
    ∃ L, Enumerates (spec ops) (fun _ key => key.name = name ∧ ∀ n ∈ ns, key.ns = n) L ∧
      (L.length < 2 ^ 53 → ∃ g, guessNotValue R (run ops) hist top ns name val = some g ∧
        g + guessMaxCount R val val (keyStats (run ops) hist ns name) = L.length) := by
  obtain ⟨L, h1, h2⟩ := C88_guess_le_number R ops hist val val ns name
  refine ⟨L, h1, fun hL => ?_⟩
  have h3 := h2 hL
  have h4 : (run ops).numByName top ns name = L.length := by
    cases ns with
    | none =>
      obtain ⟨L', h5, h6⟩ := C04_number_by_name_partial ops top name (htop rfl)
      rw [h6]
      exact enumerates_length (fun t k _ => by simp) h5 h1
    | some n =>
      obtain ⟨L', h5, h6⟩ := C04_number_by_qname ops top n name
      rw [h6]
      exact enumerates_length (fun t k _ => by simp [and_comm]) h5 h1
  unfold guessNotValue
  simp only [h4, if_pos h3]
  exact ⟨_, rfl, by omega⟩

/-- C88 fails: an annotation whose namespace is not below the bound (here 9) is part of the guess but not of the total number, the
subtraction overflows. -/
theorem C88_not_value_fails :
    let ops : List (Op Nat Nat Nat) := [.insert 1 (AnnoKey.mk 9 7) 3, .insert 2 (AnnoKey.mk 9 7) 3]
    spec ops 1 (AnnoKey.mk 9 7) = some 3 ∧ histogram [3, 3] = some [3, 3] ∧
      ∀ R : Rounding, guessNotValue R (run ops) (fun _ => some [3, 3]) 9 none 7 3 = none := by
  refine ⟨by decide, by decide, fun R => ?_⟩
  have e : keyStats (run [.insert 1 (AnnoKey.mk 9 7) 3, .insert 2 (AnnoKey.mk 9 7) 3] : AnnoStore Nat Nat Nat)
      (fun _ => some [3, 3]) none 7 = [⟨2, some [3, 3]⟩] := by rfl
  have g : guessMaxCount R 3 3 [⟨2, some [3, 3]⟩] = 2 :=
    guess_round R _ 3 3 1 1 2 2 (by decide) (by decide) (by decide) (by decide) (by decide) (by decide) (by decide) (by norm_num)
  have n : (run [.insert 1 (AnnoKey.mk 9 7) 3, .insert 2 (AnnoKey.mk 9 7) 3] : AnnoStore Nat Nat Nat).numByName 9 none 7 = 0 := by
    decide
  simp only [guessNotValue, e, g, n]
  rfl

/-- C88 non-vacuity: two keys with the same name, one value is searched. -/
theorem C88_store_nonvacuous :
    let ops : List (Op Nat Nat Nat) := [.insert 1 (AnnoKey.mk 1 7) 3, .insert 2 (AnnoKey.mk 1 7) 3, .insert 3 (AnnoKey.mk 1 7) 5,
      .insert 3 (AnnoKey.mk 2 7) 8]
    (∀ t ∈ [1, 2, 3], ∀ n ∈ [1, 2], (spec ops t (AnnoKey.mk n 7)).isSome → n < 9) ∧
    histogram [3, 3, 5] = some [3, 3, 5] ∧ histogram [8] = some [] ∧
      ∀ R : Rounding, guessNotValue R (run ops) (fun k => if k.ns = 1 then some [3, 3, 5] else some []) 9 none 7 5 = some 2 := by
  refine ⟨by decide, by decide, by decide, fun R => ?_⟩
  have e : keyStats (run [.insert 1 (AnnoKey.mk 1 7) 3, .insert 2 (AnnoKey.mk 1 7) 3, .insert 3 (AnnoKey.mk 1 7) 5,
      .insert 3 (AnnoKey.mk 2 7) 8] : AnnoStore Nat Nat Nat) (fun k => if k.ns = 1 then some [3, 3, 5] else some []) none 7 =
      [⟨3, some [3, 3, 5]⟩, ⟨1, some []⟩] := by rfl
  have g : guessMaxCount R 5 5 [⟨3, some [3, 3, 5]⟩, ⟨1, some []⟩] = 2 :=
    guess_round R _ 5 5 1 2 4 2 (by decide) (by decide) (by decide) (by decide) (by decide) (by decide) (by decide) (by norm_num)
  have n : (run [.insert 1 (AnnoKey.mk 1 7) 3, .insert 2 (AnnoKey.mk 1 7) 3, .insert 3 (AnnoKey.mk 1 7) 5,
      .insert 3 (AnnoKey.mk 2 7) 8] : AnnoStore Nat Nat Nat).numByName 9 none 7 = 4 := by
    decide
  simp only [guessNotValue, e, g, n]
  rfl

end Est
