import Verif.DiskMap.Model

set_option linter.unusedSimpArgs false
set_option linter.unusedSectionVars false

namespace DiskMap

variable {K V : Type} [LinearOrder K]

theorem get_filter {W : Type} (p : K → Bool) (l : OMap K W) (k : K) :
    OMap.get (l.filter fun q => p q.1) k = if p k then l.get k else none := by
  induction l with
  | nil => simp
  | cons q r ih =>
    obtain ⟨k', w⟩ := q
    by_cases hp : p k' = true
    · simp only [List.filter_cons, hp, if_true, OMap.get]
      by_cases e : k = k'
      · subst e; simp [hp]
      · simp [e, ih]
    · simp only [List.filter_cons, hp, OMap.get]
      by_cases e : k = k'
      · subst e; simp [hp, ih]
      · simp [e, ih]

theorem sorted_filter {W : Type} (p : K × W → Bool) {l : OMap K W} (h : OMap.Sorted l) :
    OMap.Sorted (l.filter p) := List.Pairwise.sublist List.filter_sublist h

theorem sorted_skip {l : OMap K (Option V)} (h : OMap.Sorted l) : OMap.Sorted (skipTombstones l) := by
  unfold skipTombstones OMap.Sorted
  rw [List.pairwise_filterMap]
  refine h.imp ?_
  intro a b hab x hx y hy
  simp only [Option.map_eq_some_iff] at hx hy
  obtain ⟨_, _, rfl⟩ := hx
  obtain ⟨_, _, rfl⟩ := hy
  exact hab

theorem mem_skip {l : OMap K (Option V)} (k : K) (v : V) : (k, v) ∈ skipTombstones l ↔ (k, some v) ∈ l := by
  unfold skipTombstones
  simp only [List.mem_filterMap, Option.map_eq_some_iff, Prod.mk.injEq]
  constructor
  · rintro ⟨⟨k', o⟩, h1, v', h2, rfl, rfl⟩
    simp only at h2; rw [h2] at h1; exact h1
  · intro h; exact ⟨(k, some v), h, v, rfl, rfl, rfl⟩

theorem get_skip {l : OMap K (Option V)} (h : OMap.Sorted l) (k : K) :
    OMap.get (skipTombstones l) k = (l.get k).join := by
  apply Option.ext
  intro v
  rw [← OMap.mem_iff_get (sorted_skip h), mem_skip, OMap.mem_iff_get h]
  cases l.get k <;> simp

theorem dropHead_spec {W : Type} {l : OMap K W} (hs : OMap.Sorted l) {m : K} (hm : ∀ q ∈ l, m ≤ q.1) :
    OMap.Sorted (dropHead m l) ∧ (∀ q ∈ dropHead m l, m < q.1) ∧
    (∀ k, OMap.get (dropHead m l) k = if k = m then none else l.get k) ∧ takeHead m l = l.get m ∧
    (dropHead m l).length ≤ l.length ∧ (takeHead m l ≠ none → (dropHead m l).length < l.length) := by
  cases l with
  | nil => simp [dropHead, takeHead, OMap.sorted_nil]
  | cons p r =>
    obtain ⟨k', w⟩ := p
    have hc := OMap.sorted_cons.1 hs
    by_cases e : k' = m
    · subst e
      simp only [dropHead, takeHead, if_true, OMap.get]
      refine ⟨hc.2, hc.1, ?_, trivial, by simp, by simp⟩
      intro k
      by_cases ek : k = k'
      · subst ek; simp [OMap.get_eq_none_of_lt hc.1]
      · simp [ek]
    · have hlt : m < k' := lt_of_le_of_ne (hm (k', w) (by simp)) (Ne.symm e)
      have hall : ∀ q ∈ (k', w) :: r, m < q.1 := by
        intro q hq
        rcases List.mem_cons.1 hq with rfl | hq
        · exact hlt
        · exact lt_trans hlt (hc.1 q hq)
      simp only [dropHead, takeHead, e, if_false]
      refine ⟨hs, hall, ?_, (OMap.get_eq_none_of_lt hall).symm, le_refl _, by simp⟩
      intro k
      by_cases ek : k = m
      · subst ek; simp [OMap.get_eq_none_of_lt hall]
      · simp [ek]

/-- Layered lookup. -/
def layered (l0 l1 : OMap K (Option V)) (l2 : OMap K V) (k : K) : Option V :=
  match l0.get k with
  | some e => e
  | none =>
    match l1.get k with
    | some e => e
    | none => l2.get k

theorem head_le {W : Type} {l : OMap K W} (hs : OMap.Sorted l) {a : K} (ha : l.head?.map Prod.fst = some a) :
    ∀ q ∈ l, a ≤ q.1 := by
  cases l with
  | nil => simp at ha
  | cons p r =>
    simp only [List.head?_cons, Option.map_some, Option.some.injEq] at ha
    subst ha
    intro q hq
    rcases List.mem_cons.1 hq with rfl | hq
    · exact le_refl _
    · exact le_of_lt ((OMap.sorted_cons.1 hs).1 q hq)

theorem optMin_spec (a b : Option K) :
    (∀ m, optMin a b = some m → (∀ x, a = some x → m ≤ x) ∧ (∀ x, b = some x → m ≤ x) ∧ (a = some m ∨ b = some m)) ∧
    (optMin a b = none → a = none ∧ b = none) := by
  cases a with
  | none => cases b <;> simp [optMin]
  | some x =>
    cases b with
    | none => simp [optMin]
    | some y =>
      simp only [optMin]
      split
      · rename_i h; simp_all
      · rename_i h
        have := le_of_not_ge h
        simp_all

theorem takeHead_of_head {W : Type} {l : OMap K W} {m : K} (h : l.head?.map Prod.fst = some m) :
    takeHead m l ≠ none := by
  cases l with
  | nil => simp at h
  | cons p r => simp at h; simp [takeHead, h]

theorem merge3_spec (fuel : Nat) : ∀ (l0 l1 : OMap K (Option V)) (l2 : OMap K V),
    OMap.Sorted l0 → OMap.Sorted l1 → OMap.Sorted l2 → l0.length + l1.length + l2.length ≤ fuel →
    OMap.Sorted (merge3 fuel l0 l1 l2) ∧
    (∀ k, OMap.get (merge3 fuel l0 l1 l2) k = layered l0 l1 l2 k) := by
  induction fuel with
  | zero =>
    intro l0 l1 l2 _ _ _ hf
    have h0 : l0 = [] := List.length_eq_zero_iff.1 (by omega)
    have h1 : l1 = [] := List.length_eq_zero_iff.1 (by omega)
    have h2 : l2 = [] := List.length_eq_zero_iff.1 (by omega)
    subst h0 h1 h2
    simp [merge3, OMap.sorted_nil, layered]
  | succ fuel ih =>
    intro l0 l1 l2 s0 s1 s2 hf
    simp only [merge3]
    obtain ⟨ha1, ha2⟩ := optMin_spec (l0.head?.map Prod.fst) (l1.head?.map Prod.fst)
    obtain ⟨hb1, hb2⟩ := optMin_spec (optMin (l0.head?.map Prod.fst) (l1.head?.map Prod.fst)) (l2.head?.map Prod.fst)
    split
    · rename_i hn
      obtain ⟨hn1, hn2⟩ := hb2 hn
      obtain ⟨hn3, hn4⟩ := ha2 hn1
      simp only [Option.map_eq_none_iff, List.head?_eq_none_iff] at hn2 hn3 hn4
      subst hn2 hn3 hn4
      simp [OMap.sorted_nil, layered]
    · rename_i m hm
      obtain ⟨hm1, hm2, hm3⟩ := hb1 m hm
      have hle2 : ∀ q ∈ l2, m ≤ q.1 := by
        cases hh : l2.head?.map Prod.fst with
        | none => simp at hh; subst hh; simp
        | some a => intro q hq; exact le_trans (hm2 a hh) (head_le s2 hh q hq)
      have hle01 : (∀ q ∈ l0, m ≤ q.1) ∧ (∀ q ∈ l1, m ≤ q.1) := by
        cases hx : optMin (l0.head?.map Prod.fst) (l1.head?.map Prod.fst) with
        | none =>
          obtain ⟨hn3, hn4⟩ := ha2 hx
          simp at hn3 hn4; subst hn3 hn4; simp
        | some x =>
          obtain ⟨hx1, hx2, _⟩ := ha1 x hx
          have hmx := hm1 x hx
          constructor
          · cases hh : l0.head?.map Prod.fst with
            | none => simp at hh; subst hh; simp
            | some a => intro q hq; exact le_trans (le_trans hmx (hx1 a hh)) (head_le s0 hh q hq)
          · cases hh : l1.head?.map Prod.fst with
            | none => simp at hh; subst hh; simp
            | some a => intro q hq; exact le_trans (le_trans hmx (hx2 a hh)) (head_le s1 hh q hq)
      obtain ⟨d0s, d0l, d0g, d0t, d0n, d0m⟩ := dropHead_spec s0 hle01.1
      obtain ⟨d1s, d1l, d1g, d1t, d1n, d1m⟩ := dropHead_spec s1 hle01.2
      obtain ⟨d2s, d2l, d2g, d2t, d2n, d2m⟩ := dropHead_spec s2 hle2
      have hdec : (dropHead m l0).length + (dropHead m l1).length + (dropHead m l2).length ≤ fuel := by
        rcases hm3 with hm3 | hm3
        · rcases (ha1 m hm3).2.2 with hm4 | hm4
          · have := d0m (takeHead_of_head hm4); omega
          · have := d1m (takeHead_of_head hm4); omega
        · have := d2m (takeHead_of_head hm3); omega
      obtain ⟨rs, rg⟩ := ih _ _ _ d0s d1s d2s hdec
      have rg' : ∀ k, OMap.get (merge3 fuel (dropHead m l0) (dropHead m l1) (dropHead m l2)) k =
          if k = m then none else layered l0 l1 l2 k := by
        intro k
        rw [rg]
        unfold layered
        rw [d0g, d1g, d2g]
        by_cases e : k = m
        · simp [e]
        · simp [e]
      have rlt : ∀ q ∈ merge3 fuel (dropHead m l0) (dropHead m l1) (dropHead m l2), m < q.1 := by
        rintro ⟨k, v⟩ hq
        have hg := OMap.get_of_mem rs hq
        rw [rg] at hg
        unfold layered at hg
        split at hg
        · rename_i e he; exact d0l (k, e) (OMap.mem_of_get he)
        · split at hg
          · rename_i e he; exact d1l (k, e) (OMap.mem_of_get he)
          · exact d2l (k, v) (OMap.mem_of_get hg)
      have hcons : ∀ v, layered l0 l1 l2 m = some v →
          OMap.Sorted ((m, v) :: merge3 fuel (dropHead m l0) (dropHead m l1) (dropHead m l2)) ∧
          ∀ k, OMap.get ((m, v) :: merge3 fuel (dropHead m l0) (dropHead m l1) (dropHead m l2)) k =
            layered l0 l1 l2 k := by
        intro v hv
        refine ⟨OMap.sorted_cons.2 ⟨rlt, rs⟩, ?_⟩
        intro k
        simp only [OMap.get, rg']
        by_cases e : k = m
        · simp [e, hv]
        · simp [e]
      have hskip : layered l0 l1 l2 m = none →
          OMap.Sorted (merge3 fuel (dropHead m l0) (dropHead m l1) (dropHead m l2)) ∧
          ∀ k, OMap.get (merge3 fuel (dropHead m l0) (dropHead m l1) (dropHead m l2)) k =
            layered l0 l1 l2 k := by
        intro hv
        refine ⟨rs, ?_⟩
        intro k
        rw [rg']
        by_cases e : k = m
        · simp [e, hv]
        · simp [e]
      rw [d0t, d1t, d2t]
      split
      · rename_i v he; exact hcons v (by simp [layered, he])
      · rename_i he; exact hskip (by simp [layered, he])
      · rename_i he
        split
        · rename_i v he1; exact hcons v (by simp [layered, he, he1])
        · rename_i he1; exact hskip (by simp [layered, he, he1])
        · rename_i he1
          split
          · rename_i v he2; exact hcons v (by simp [layered, he, he1, he2])
          · rename_i he2; exact hskip (by simp [layered, he, he1, he2])

/-- A seek keeps exactly the entries above the lower bound. -/
theorem seek_eq {t : OMap K V} (hs : OMap.Sorted t) (s : Bnd K) :
    seek s t = t.filter fun p => s.aboveB p.1 := by
  have hinc : ∀ (t : OMap K V), OMap.Sorted t → ∀ k, (t.dropWhile fun p => decide (p.1 < k)) =
      t.filter fun p => decide (k ≤ p.1) := by
    intro t hs k
    induction t with
    | nil => rfl
    | cons p r ih =>
      have hc := OMap.sorted_cons.1 hs
      by_cases h : p.1 < k
      · simp [List.dropWhile_cons, h, List.filter_cons, not_le.2 h, ih hc.2]
      · have hk := not_lt.1 h
        have : r.filter (fun p => decide (k ≤ p.1)) = r := by
          rw [List.filter_eq_self]
          intro q hq
          simpa using le_of_lt (lt_of_le_of_lt hk (hc.1 q hq))
        simp [List.dropWhile_cons, h, List.filter_cons, hk, this]
  cases s with
  | included k => exact hinc t hs k
  | unbounded => exact (List.filter_eq_self.2 (fun _ _ => rfl)).symm
  | excluded k =>
    simp only [seek, Bnd.aboveB]
    rw [hinc t hs k]
    have : (t.filter fun p => decide (k < p.1)) = (t.filter fun p => decide (k ≤ p.1)).filter fun p => decide (k < p.1) := by
      rw [List.filter_filter]
      congr 1
      funext p
      by_cases h : k < p.1
      · simp [h, le_of_lt h]
      · simp [h]
    rw [this]
    have hs' : OMap.Sorted (t.filter fun p => decide (k ≤ p.1)) := sorted_filter _ hs
    have hmem : ∀ q ∈ (t.filter fun p => decide (k ≤ p.1)), k ≤ q.1 := by
      intro q hq; simpa using (List.mem_filter.1 hq).2
    generalize (t.filter fun p => decide (k ≤ p.1)) = l at hs' hmem
    cases l with
    | nil => rfl
    | cons p r =>
      have hc := OMap.sorted_cons.1 hs'
      have hr : r.filter (fun p => decide (k < p.1)) = r := by
        rw [List.filter_eq_self]
        intro q hq
        simpa using lt_of_le_of_lt (hmem p (by simp)) (hc.1 q hq)
      by_cases e : p.1 = k
      · simp [e, List.filter_cons, hr]
      · have : k < p.1 := lt_of_le_of_ne (hmem p (by simp)) (Ne.symm e)
        simp [e, List.filter_cons, hr, this]

theorem belowB_mono (e : Bnd K) {a b : K} (hab : a ≤ b) (h : e.belowB b = true) : e.belowB a = true := by
  cases e with
  | included k => simp [Bnd.belowB] at *; exact le_trans hab h
  | excluded k => simp [Bnd.belowB] at *; exact lt_of_le_of_lt hab h
  | unbounded => rfl

/-- The table range iterator returns exactly the entries in the range. -/
theorem simplifiedRange_eq {t : OMap K V} (hs : OMap.Sorted t) (s e : Bnd K) :
    simplifiedRange s e t = rangeOf s e t := by
  have hrange : rangeOf s e t = (seek s t).filter fun p => e.belowB p.1 := by
    rw [seek_eq hs]
    unfold rangeOf
    rw [List.filter_filter]
    congr 1
    funext p
    rw [Bool.and_comm]
  have hab : ∀ q ∈ seek s t, s.aboveB q.1 = true := by
    rw [seek_eq hs]; intro q hq; exact (List.mem_filter.1 hq).2
  have hl : OMap.Sorted (seek s t) := by rw [seek_eq hs]; exact sorted_filter _ hs
  unfold simplifiedRange
  rw [hrange]
  have hex : ∀ l : OMap K V, OMap.Sorted l → (∀ q ∈ l, s.aboveB q.1 = true) →
      (l.takeWhile fun p => s.aboveB p.1 && e.belowB p.1) = l.filter fun p => e.belowB p.1 := by
    intro l hl hab
    induction l with
    | nil => rfl
    | cons p r ih =>
      have hc := OMap.sorted_cons.1 hl
      have ihr := ih hc.2 (fun q hq => hab q (by simp [hq]))
      by_cases h : e.belowB p.1 = true
      · simp [List.takeWhile_cons, List.filter_cons, h, hab p (by simp), ihr]
      · have : r.filter (fun p => e.belowB p.1) = [] := by
          rw [List.filter_eq_nil_iff]
          intro q hq hb
          exact h (belowB_mono e (le_of_lt (hc.1 q hq)) hb)
        simp [List.takeWhile_cons, List.filter_cons, h, this]
  have hmain := hex _ hl hab
  simp only
  generalize seek s t = l at hmain hab
  cases l with
  | nil => cases s <;> simp
  | cons p r =>
    have hp := hab p (by simp)
    rw [hmain]
    cases s with
    | unbounded => simp
    | included k =>
      simp only [hp]
      by_cases h : e.belowB p.1 = true
      · simp [h]
      · have : (p :: r).filter (fun p => e.belowB p.1) = [] := by
          rw [← hmain, List.takeWhile_cons]; simp [h]
        simp [h, this]
    | excluded k =>
      simp only [hp]
      by_cases h : e.belowB p.1 = true
      · simp [h]
      · have : (p :: r).filter (fun p => e.belowB p.1) = [] := by
          rw [← hmain, List.takeWhile_cons]; simp [h]
        simp [h, this]

structure Inv (d : DiskMap K V) : Prop where
  s0 : d.c0.Sorted
  s1 : ∀ c1, d.c1 = some c1 → c1.Sorted
  s2 : ∀ c2, d.c2 = some c2 → c2.Sorted

theorem get_eq_layered (d : DiskMap K V) (k : K) :
    d.get k = layered d.c0 (d.c1.getD []) (d.c2.getD []) k := by
  unfold get layered
  cases hk : d.c0.get k with
  | some e => rfl
  | none =>
    cases d.c1 with
    | none => cases d.c2 <;> simp
    | some c1 => cases hk1 : c1.get k <;> cases d.c2 <;> simp [hk1]

theorem foldl_insert_spec {W : Type} (l : List (K × W)) : ∀ (m : OMap K W), m.Sorted → OMap.Sorted l →
    (l.foldl (fun m p => m.insert p.1 p.2) m).Sorted ∧
    ∀ k, (l.foldl (fun m p => m.insert p.1 p.2) m).get k = match OMap.get l k with
      | some w => some w
      | none => m.get k := by
  induction l with
  | nil => intro m hm _; simp [hm]
  | cons p r ih =>
    obtain ⟨k', w⟩ := p
    intro m hm hl
    have hc := OMap.sorted_cons.1 hl
    simp only [List.foldl_cons]
    obtain ⟨a, b⟩ := ih (m.insert k' w) (OMap.sorted_insert hm _ _) hc.2
    refine ⟨a, ?_⟩
    intro k
    rw [b, OMap.get_insert]
    simp only [OMap.get]
    by_cases e : k = k'
    · subst e
      rw [OMap.get_eq_none_of_lt hc.1]; simp
    · simp [e]

theorem compact_spec {d : DiskMap K V} (h : Inv d) : Inv d.compact ∧ ∀ k, d.compact.get k = d.get k := by
  have h1 : (d.c1.getD []).Sorted := by
    cases hc : d.c1 with
    | none => exact OMap.sorted_nil
    | some c1 => exact h.s1 c1 hc
  obtain ⟨a, b⟩ := foldl_insert_spec d.c0 (d.c1.getD []) h1 h.s0
  refine ⟨⟨OMap.sorted_nil, ?_, h.s2⟩, ?_⟩
  · intro c1 hc; simp only [compact, Option.some.injEq] at hc; subst hc; exact a
  · intro k
    rw [get_eq_layered, get_eq_layered]
    simp only [compact, Option.getD_some, layered, OMap.get_nil]
    rw [b]
    cases d.c0.get k <;> simp

theorem evict_spec {d : DiskMap K V} (h : Inv d) : Inv d.evict ∧ ∀ k, d.evict.get k = d.get k := by
  unfold evict; split
  · exact compact_spec h
  · exact ⟨h, fun _ => rfl⟩

theorem put_spec {d : DiskMap K V} (h : Inv d) (k : K) (o : Option V) :
    Inv ({ d with c0 := d.c0.insert k o } : DiskMap K V).evict ∧
    ∀ k', ({ d with c0 := d.c0.insert k o } : DiskMap K V).evict.get k' = if k' = k then o else d.get k' := by
  have h' : Inv ({ d with c0 := d.c0.insert k o } : DiskMap K V) := ⟨OMap.sorted_insert h.s0 _ _, h.s1, h.s2⟩
  obtain ⟨a, b⟩ := evict_spec h'
  refine ⟨a, ?_⟩
  intro k'
  rw [b, get_eq_layered, get_eq_layered]
  simp only [layered, OMap.get_insert]
  by_cases e : k' = k
  · simp [e]
  · simp [e]

theorem range_spec {d : DiskMap K V} (h : Inv d) (s e : Bnd K) :
    OMap.Sorted (d.range s e) ∧
    ∀ k, OMap.get (d.range s e) k = if s.aboveB k && e.belowB k then d.get k else none := by
  have h1 : (d.c1.getD []).Sorted := by
    cases hc : d.c1 with
    | none => exact OMap.sorted_nil
    | some c1 => exact h.s1 c1 hc
  have h2 : (d.c2.getD []).Sorted := by
    cases hc : d.c2 with
    | none => exact OMap.sorted_nil
    | some c2 => exact h.s2 c2 hc
  have hcomb : OMap.Sorted (d.combinedRange s e) ∧
      ∀ k, OMap.get (d.combinedRange s e) k = if s.aboveB k && e.belowB k then d.get k else none := by
    unfold combinedRange
    simp only [simplifiedRange_eq h2]
    obtain ⟨a, b⟩ := merge3_spec _ (rangeOf s e d.c0) (rangeOf s e (d.c1.getD [])) (rangeOf s e (d.c2.getD []))
      (sorted_filter _ h.s0) (sorted_filter _ h1) (sorted_filter _ h2) (le_refl _)
    refine ⟨a, ?_⟩
    intro k
    rw [b, get_eq_layered]
    unfold layered rangeOf
    rw [get_filter (fun k => s.aboveB k && e.belowB k), get_filter (fun k => s.aboveB k && e.belowB k),
      get_filter (fun k => s.aboveB k && e.belowB k)]
    by_cases hk : (s.aboveB k && e.belowB k) = true
    · simp only [hk, if_true]
    · simp [hk]
  have hskip : ∀ c : OMap K (Option V), c.Sorted → OMap.Sorted (skipTombstones (rangeOf s e c)) ∧
      ∀ k, OMap.get (skipTombstones (rangeOf s e c)) k = if s.aboveB k && e.belowB k then (c.get k).join else none := by
    intro c hc
    refine ⟨sorted_skip (sorted_filter _ hc), ?_⟩
    intro k
    unfold rangeOf
    rw [get_skip (sorted_filter _ hc)]
    rw [get_filter (fun k => s.aboveB k && e.belowB k)]
    split <;> simp
  unfold range
  split
  · rename_i c1 hc1
    split
    · rename_i hc
      obtain ⟨a, b⟩ := hskip c1 (h.s1 c1 hc1)
      refine ⟨a, ?_⟩
      intro k
      rw [b, get_eq_layered]
      simp only [layered, hc.1, hc.2, hc1, Option.getD_some, Option.getD_none, OMap.get_nil]
      cases c1.get k <;> simp
    · exact hcomb
  · rename_i hc1
    split
    · rename_i c2 hc2
      split
      · rename_i hc0
        rw [simplifiedRange_eq (h.s2 c2 hc2)]
        refine ⟨sorted_filter _ (h.s2 c2 hc2), ?_⟩
        intro k
        unfold rangeOf
        rw [get_filter (fun k => s.aboveB k && e.belowB k), get_eq_layered]
        simp [layered, hc0, hc1, hc2]
      · exact hcomb
    · rename_i hc2
      obtain ⟨a, b⟩ := hskip d.c0 h.s0
      refine ⟨a, ?_⟩
      intro k
      rw [b, get_eq_layered]
      simp only [layered, hc1, hc2, Option.getD_none, OMap.get_nil]
      cases d.c0.get k <;> simp

theorem iter_spec {d : DiskMap K V} (h : Inv d) :
    OMap.Sorted d.iter ∧ ∀ k, OMap.get d.iter k = d.get k := by
  have hr := range_spec h .unbounded .unbounded
  simp only [Bnd.aboveB, Bnd.belowB, Bool.and_self, if_true] at hr
  unfold iter
  split
  · rename_i c1 hc1
    split
    · rename_i hc
      refine ⟨sorted_skip (h.s1 c1 hc1), ?_⟩
      intro k
      rw [get_skip (h.s1 c1 hc1), get_eq_layered]
      simp only [layered, hc.1, hc.2, hc1, Option.getD_some, Option.getD_none, OMap.get_nil]
      cases c1.get k <;> simp
    · exact hr
  · rename_i hc1
    split
    · rename_i c2 hc2
      split
      · rename_i hc0
        refine ⟨h.s2 c2 hc2, ?_⟩
        intro k
        rw [get_eq_layered]; simp [layered, hc0, hc1, hc2]
      · exact hr
    · rename_i hc2
      refine ⟨sorted_skip h.s0, ?_⟩
      intro k
      rw [get_skip h.s0, get_eq_layered]
      simp only [layered, hc1, hc2, Option.getD_none, OMap.get_nil]
      cases d.c0.get k <;> simp

end DiskMap
