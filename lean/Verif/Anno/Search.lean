import Verif.Anno.InvRemove
import Mathlib.Data.List.Nodup

set_option linter.unusedSimpArgs false
set_option linter.unusedSectionVars false

namespace AnnoStore

variable {T N V : Type} [LinearOrder T] [LinearOrder N] [OrderBot N] [LinearOrder V]

theorem key_lt_iff (a b : AnnoKey N) : a < b ↔ a.name < b.name ∨ a.name = b.name ∧ a.ns < b.ns :=
  Prod.Lex.lt_iff

theorem key_eta (k : AnnoKey N) : AnnoKey.mk k.ns k.name = k := rfl

@[simp] theorem name_mk (ns name : N) : (AnnoKey.mk ns name).name = name := rfl
@[simp] theorem ns_mk (ns name : N) : (AnnoKey.mk ns name).ns = ns := rfl

theorem key_eq_iff (a b : AnnoKey N) : a = b ↔ a.name = b.name ∧ a.ns = b.ns := by
  constructor
  · rintro rfl; exact ⟨rfl, rfl⟩
  · rintro ⟨h1, h2⟩
    rw [← key_eta a, ← key_eta b, h1, h2]

/-- The range scan of `get_qnames` on a strictly ascending key list finds exactly the keys with that name. -/
theorem mem_scan (l : List (AnnoKey N)) (hl : l.Pairwise (· < ·)) (name : N) (k : AnnoKey N) :
    k ∈ (l.dropWhile (fun k => decide (k < AnnoKey.mk ⊥ name))).takeWhile (fun k => decide (k.name = name)) ↔
      k ∈ l ∧ k.name = name := by
  induction l with
  | nil => simp
  | cons a r ih =>
    rw [List.pairwise_cons] at hl
    have ih := ih hl.2
    by_cases ha : a < AnnoKey.mk ⊥ name
    · have hn : a.name ≠ name := by
        rw [key_lt_iff] at ha
        rcases ha with ha | ⟨_, ha⟩
        · exact ne_of_lt ha
        · exact absurd ha not_lt_bot
      simp only [List.dropWhile_cons, ha, decide_true, if_true]
      rw [ih]
      constructor
      · rintro ⟨h1, h2⟩; exact ⟨List.mem_cons_of_mem _ h1, h2⟩
      · rintro ⟨h1, h2⟩
        rcases List.mem_cons.1 h1 with rfl | h1
        · exact absurd h2 hn
        · exact ⟨h1, h2⟩
    · have hdrop : r.dropWhile (fun k => decide (k < AnnoKey.mk ⊥ name)) = r := by
        cases r with
        | nil => rfl
        | cons b r' =>
          have hb : ¬ b < AnnoKey.mk ⊥ name := fun hc => ha (lt_trans (hl.1 b (by simp)) hc)
          simp [List.dropWhile_cons, hb]
      rw [hdrop] at ih
      simp only [List.dropWhile_cons, ha, decide_false, Bool.false_eq_true, if_false]
      by_cases hn : a.name = name
      · simp only [List.takeWhile_cons, hn, decide_true, if_true, List.mem_cons]
        rw [ih]
        constructor
        · rintro (rfl | ⟨h1, h2⟩)
          · exact ⟨Or.inl rfl, hn⟩
          · exact ⟨Or.inr h1, h2⟩
        · rintro ⟨h1 | h1, h2⟩
          · exact Or.inl h1
          · exact Or.inr ⟨h1, h2⟩
      · have hgt : name < a.name := by
          rcases lt_trichotomy a.name name with h1 | h1 | h1
          · exact absurd ((key_lt_iff _ _).2 (Or.inl h1)) ha
          · exact absurd h1 hn
          · exact h1
        simp only [List.takeWhile_cons, hn, decide_false, Bool.false_eq_true, if_false, List.not_mem_nil, false_iff]
        rintro ⟨h1, h2⟩
        rcases List.mem_cons.1 h1 with rfl | h1
        · exact hn h2
        · have := hl.1 k h1
          rw [key_lt_iff] at this
          rcases this with h3 | ⟨h3, _⟩
          · rw [h2] at h3; exact lt_asymm hgt h3
          · exact hn (h3.trans h2)

theorem known_iff {s : AnnoStore T N V} (h : Inv s) (key : AnnoKey N) :
    key ∈ s.sizes.keys ↔ ∃ t val, s.getValue t key = some val := by
  rw [OMap.mem_keys_iff]
  constructor
  · rintro ⟨n, hn⟩
    obtain ⟨k, h1, h2, h3⟩ := h.sz _ _ hn
    rw [h2] at h3
    obtain ⟨t, row, h4, h5⟩ := (OMap.countP_pos_iff h.cSorted).1 h3
    obtain ⟨v, hv⟩ := Option.isSome_iff_exists.1 h5
    have hh := (h.mirror k v t).2 (by simp [cell, h4, hv])
    obtain ⟨val, h6⟩ := h.liveV _ _ _ hh
    exact ⟨t, val, (getValue_iff h _ _ _).2 ⟨k, v, (h.keys.sym _ _).1 h1, h6, hh⟩⟩
  · rintro ⟨t, val, hg⟩
    obtain ⟨k, v, h1, h2, h3⟩ := (getValue_iff h _ _ _).1 hg
    exact h.szc key k ((h.keys.sym _ _).2 h1)

theorem mem_qnames {s : AnnoStore T N V} (h : Inv s) (name : N) (key : AnnoKey N) :
    key ∈ s.qnames name ↔ key.name = name ∧ ∃ t val, s.getValue t key = some val := by
  unfold qnames
  rw [mem_scan _ (OMap.sorted_keys h.szSorted), known_iff h]
  tauto

theorem nodup_qnames {s : AnnoStore T N V} (h : Inv s) (name : N) : (s.qnames name).Nodup := by
  unfold qnames
  refine List.Nodup.sublist ?_ (OMap.nodup_keys h.szSorted)
  exact (List.takeWhile_sublist _).trans (List.dropWhile_sublist _)

/-- The namespace restriction of a search. -/
def keyMatches (ns : Option N) (name : N) (key : AnnoKey N) : Prop :=
  key.name = name ∧ ∀ n, ns = some n → key.ns = n

theorem nodup_keyRanges {s : AnnoStore T N V} (h : Inv s) (ns : Option N) (name : N) :
    (s.keyRanges ns name).Nodup := by
  unfold keyRanges
  split
  · simp
  · exact nodup_qnames h name

theorem mem_keyRanges {s : AnnoStore T N V} (h : Inv s) (ns : Option N) (name : N) (key : AnnoKey N)
    (hk : ∃ t val, s.getValue t key = some val) : key ∈ s.keyRanges ns name ↔ keyMatches ns name key := by
  unfold keyRanges keyMatches
  split
  · rename_i n
    simp only [List.mem_singleton, key_eq_iff, name_mk, ns_mk, Option.some.injEq]
    simp
  · rw [mem_qnames h]
    simp [hk]

theorem mem_valueMaps {s : AnnoStore T N V} (h : Inv s) (ns : Option N) (name : N) (key : AnnoKey N)
    (vm : OMap Nat (OMap T Unit)) :
    (key, vm) ∈ s.valueMaps ns name ↔
      keyMatches ns name key ∧ ∃ k, s.keys.getValue k = some key ∧ s.byAnno.get k = some vm := by
  unfold valueMaps
  rw [List.mem_filterMap]
  simp only [bind, Option.bind_eq_some_iff, pure, Option.some.injEq, Prod.mk.injEq]
  constructor
  · rintro ⟨key', h1, k, h2, vm', h3, rfl, rfl⟩
    have h4 := (h.keys.sym _ _).1 h2
    obtain ⟨n, hn⟩ := h.szc _ _ h2
    have hk := (known_iff h key').1 (OMap.mem_keys_iff.2 ⟨n, hn⟩)
    exact ⟨(mem_keyRanges h ns name key' hk).1 h1, k, h4, h3⟩
  · rintro ⟨h1, k, h2, h3⟩
    have h4 := (h.keys.sym _ _).2 h2
    obtain ⟨n, hn⟩ := h.szc _ _ h4
    have hk := (known_iff h key).1 (OMap.mem_keys_iff.2 ⟨n, hn⟩)
    exact ⟨key, (mem_keyRanges h ns name key hk).2 h1, k, h4, vm, h3, rfl, rfl⟩

theorem fst_valueMaps_nodup {s : AnnoStore T N V} (h : Inv s) (ns : Option N) (name : N) :
    (s.valueMaps ns name).Pairwise (fun a b => a.1 ≠ b.1) := by
  have hnd := nodup_keyRanges h ns name
  unfold valueMaps
  rw [List.pairwise_filterMap]
  refine List.Pairwise.imp ?_ hnd
  intro a b hab p hp q hq
  simp only [bind, Option.bind_eq_some_iff, pure, Option.some.injEq, Option.mem_def] at hp hq
  obtain ⟨_, _, _, _, rfl⟩ := hp
  obtain ⟨_, _, _, _, rfl⟩ := hq
  exact hab

theorem mem_allItems {s : AnnoStore T N V} (h : Inv s) (ns : Option N) (name : N) (t : T) (key : AnnoKey N) :
    (t, key) ∈ s.allItems ns name ↔ keyMatches ns name key ∧ ∃ val, s.getValue t key = some val := by
  unfold allItems
  rw [List.mem_flatMap]
  constructor
  · rintro ⟨⟨key', vm⟩, h1, h2⟩
    rw [List.mem_map] at h2
    obtain ⟨t', h2, h3⟩ := h2
    simp only [Prod.mk.injEq] at h3
    obtain ⟨rfl, rfl⟩ := h3
    obtain ⟨h4, k, h5, h6⟩ := (mem_valueMaps h ns name key' vm).1 h1
    rw [List.mem_flatMap] at h2
    obtain ⟨⟨v, items⟩, h7, h8⟩ := h2
    obtain ⟨u, h8⟩ := OMap.mem_keys_iff.1 h8
    have h9 := OMap.get_of_mem (h.byAnno.vm _ _ h6).1 h7
    have hh : has s.byAnno k v t' := ⟨vm, items, h6, h9, h8⟩
    obtain ⟨val, hv⟩ := h.liveV _ _ _ hh
    exact ⟨h4, val, (getValue_iff h _ _ _).2 ⟨k, v, h5, hv, hh⟩⟩
  · rintro ⟨h1, val, h2⟩
    obtain ⟨k, v, h3, h4, vm, items, h5, h6, h7⟩ := (getValue_iff h _ _ _).1 h2
    refine ⟨(key, vm), (mem_valueMaps h ns name key vm).2 ⟨h1, k, h3, h5⟩, ?_⟩
    rw [List.mem_map]
    refine ⟨t, ?_, rfl⟩
    rw [List.mem_flatMap]
    exact ⟨(v, items), OMap.mem_of_get h6, OMap.mem_keys_iff.2 ⟨(), h7⟩⟩

theorem nodup_vmItems {s : AnnoStore T N V} (h : Inv s) {k : Nat} {vm : OMap Nat (OMap T Unit)}
    (hk : s.byAnno.get k = some vm) : (vm.flatMap fun q => q.2.keys).Nodup := by
  have hvs := (h.byAnno.vm _ _ hk).1
  rw [List.nodup_flatMap]
  constructor
  · rintro ⟨v, items⟩ hm
    exact OMap.nodup_keys (h.byAnno.items _ _ _ _ hk (OMap.get_of_mem hvs hm)).1
  · have hp : vm.Pairwise (fun a b => a ∈ vm ∧ b ∈ vm ∧ a.1 < b.1) := by
      have := List.pairwise_iff_getElem.1 hvs
      rw [List.pairwise_iff_getElem]
      intro i j hi hj hij
      exact ⟨List.getElem_mem hi, List.getElem_mem hj, this i j hi hj hij⟩
    refine hp.imp ?_
    rintro ⟨v1, i1⟩ ⟨v2, i2⟩ ⟨m1, m2, hlt⟩ t ht1 ht2
    obtain ⟨_, g1⟩ := OMap.mem_keys_iff.1 ht1
    obtain ⟨_, g2⟩ := OMap.mem_keys_iff.1 ht2
    have := has_unique h ⟨vm, i1, hk, OMap.get_of_mem hvs m1, g1⟩ ⟨vm, i2, hk, OMap.get_of_mem hvs m2, g2⟩
    simp only at hlt
    omega

theorem nodup_allItems {s : AnnoStore T N V} (h : Inv s) (ns : Option N) (name : N) :
    (s.allItems ns name).Nodup := by
  unfold allItems
  rw [List.nodup_flatMap]
  constructor
  · rintro ⟨key, vm⟩ hm
    obtain ⟨_, k, _, hk⟩ := (mem_valueMaps h ns name key vm).1 hm
    refine List.Nodup.map ?_ (nodup_vmItems h hk)
    intro a b hab; simpa using hab
  · refine (fst_valueMaps_nodup h ns name).imp ?_
    intro a b hab p hp hq
    rw [List.mem_map] at hp hq
    obtain ⟨_, _, rfl⟩ := hp
    obtain ⟨_, _, e⟩ := hq
    simp only [Prod.mk.injEq] at e
    exact hab e.2.symm

theorem mem_exact_some {s : AnnoStore T N V} (h : Inv s) (ns : Option N) (name : N) (val : V) (t : T)
    (key : AnnoKey N) :
    (t, key) ∈ s.exactSearch ns name (.some val) ↔ keyMatches ns name key ∧ s.getValue t key = some val := by
  simp only [exactSearch]
  split
  · rename_i v hv
    have hv' := (h.vals.sym _ _).1 hv
    rw [List.mem_flatMap]
    simp only [List.mem_filterMap, List.mem_map, Option.map_eq_some_iff]
    constructor
    · rintro ⟨p, ⟨⟨key', vm⟩, h1, items, h2, rfl⟩, t', h3, h4⟩
      simp only [Prod.mk.injEq] at h4
      obtain ⟨rfl, rfl⟩ := h4
      obtain ⟨h4, k, h5, h6⟩ := (mem_valueMaps h ns name key' vm).1 h1
      obtain ⟨_, h7⟩ := OMap.mem_keys_iff.1 h3
      exact ⟨h4, (getValue_iff h _ _ _).2 ⟨k, v, h5, hv', vm, items, h6, h2, h7⟩⟩
    · rintro ⟨h1, h2⟩
      obtain ⟨k, v', h3, h4, vm, items, h5, h6, h7⟩ := (getValue_iff h _ _ _).1 h2
      have : v' = v := h.vals.unique h4 hv'
      subst this
      exact ⟨(items, key), ⟨(key, vm), (mem_valueMaps h ns name key vm).2 ⟨h1, k, h3, h5⟩, items, h6, rfl⟩, t,
        OMap.mem_keys_iff.2 ⟨(), h7⟩, rfl⟩
  · rename_i hv
    simp only [List.not_mem_nil, false_iff]
    rintro ⟨_, h2⟩
    obtain ⟨k, v', h3, h4, _⟩ := (getValue_iff h _ _ _).1 h2
    rw [← h.vals.sym, hv] at h4; simp at h4

theorem nodup_exact_some {s : AnnoStore T N V} (h : Inv s) (ns : Option N) (name : N) (val : V) :
    (s.exactSearch ns name (.some val)).Nodup := by
  simp only [exactSearch]
  split
  · rename_i v hv
    rw [List.nodup_flatMap]
    constructor
    · rintro ⟨items, key⟩ hm
      simp only [List.mem_filterMap, Option.map_eq_some_iff] at hm
      obtain ⟨⟨key', vm⟩, h1, items', h2, h3⟩ := hm
      simp only [Prod.mk.injEq] at h3
      obtain ⟨rfl, rfl⟩ := h3
      obtain ⟨h4, k, h5, h6⟩ := (mem_valueMaps h ns name key' vm).1 h1
      refine List.Nodup.map ?_ (OMap.nodup_keys (h.byAnno.items _ _ _ _ h6 h2).1)
      intro a b hab; simpa using hab
    · rw [List.pairwise_filterMap]
      refine (fst_valueMaps_nodup h ns name).imp ?_
      intro a b hab p hp q hq x hx hy
      simp only [Option.mem_def, Option.map_eq_some_iff] at hp hq
      obtain ⟨_, _, rfl⟩ := hp
      obtain ⟨_, _, rfl⟩ := hq
      rw [List.mem_map] at hx hy
      obtain ⟨_, _, rfl⟩ := hx
      obtain ⟨_, _, e⟩ := hy
      simp only [Prod.mk.injEq] at e
      exact hab e.2.symm
  · simp

theorem hasValue_iff {s : AnnoStore T N V} (h : Inv s) (t : T) (key : AnnoKey N) :
    s.hasValue t key = true ↔ ∃ val, s.getValue t key = some val := by
  unfold hasValue getValue
  cases h1 : s.keys.getSymbol key with
  | none => simp
  | some k =>
    cases h2 : s.byContainer.get t with
    | none => simp [h2]
    | some row =>
      simp only
      cases h3 : row.get k with
      | none => simp [h2, h3]
      | some v =>
        obtain ⟨val, hv⟩ := h.liveV k v t ((h.mirror _ _ _).2 (by simp [cell, h2, h3]))
        simp [h2, h3, hv]

theorem mem_annosForItem {s : AnnoStore T N V} (h : Inv s) (t : T) (key : AnnoKey N) (val : V) :
    (key, val) ∈ s.annosForItem t ↔ s.getValue t key = some val := by
  rw [getValue_iff h]
  unfold annosForItem
  split
  · rename_i row hr
    rw [List.mem_filterMap]
    constructor
    · rintro ⟨⟨k, v⟩, h1, h2⟩
      simp only [resolve, bind, Option.bind_eq_some_iff, pure, Option.some.injEq, Prod.mk.injEq] at h2
      obtain ⟨_, h2, _, h3, rfl, rfl⟩ := h2
      exact ⟨k, v, h2, h3, (h.mirror _ _ _).2 (by simp [cell, hr, OMap.get_of_mem (h.cRow _ _ hr).1 h1])⟩
    · rintro ⟨k, v, h1, h2, h3⟩
      rw [h.mirror] at h3
      simp only [cell, hr, Option.getD_some] at h3
      exact ⟨(k, v), OMap.mem_of_get h3, by simp [resolve, h1, h2]⟩
  · rename_i hr
    simp only [List.not_mem_nil, false_iff]
    rintro ⟨k, v, h1, h2, h3⟩
    rw [h.mirror] at h3
    simp [cell, hr] at h3

theorem nodup_annosForItem {s : AnnoStore T N V} (h : Inv s) (t : T) :
    ((s.annosForItem t).map Prod.fst).Nodup := by
  unfold annosForItem
  split
  · rename_i row hr
    unfold List.Nodup
    rw [List.pairwise_map, List.pairwise_filterMap]
    refine (h.cRow _ _ hr).1.imp ?_
    rintro ⟨k1, v1⟩ ⟨k2, v2⟩ hlt p hp q hq e
    simp only [resolve, bind, Option.bind_eq_some_iff, pure, Option.some.injEq] at hp hq
    obtain ⟨_, h2, _, h3, rfl⟩ := hp
    obtain ⟨_, h4, _, h5, rfl⟩ := hq
    simp only at e hlt
    subst e
    exact absurd (h.keys.unique h2 h4) (ne_of_lt hlt)
  · simp

theorem mem_allKeysForItem {s : AnnoStore T N V} (h : Inv s) (t : T) (ns name : Option N) (key : AnnoKey N)
    (hns : name = none → ns = none) :
    key ∈ s.allKeysForItem t ns name ↔
      (∃ val, s.getValue t key = some val) ∧ (∀ n, name = some n → key.name = n) ∧ (∀ n, ns = some n → key.ns = n) := by
  unfold allKeysForItem
  split
  · rename_i name
    split
    · rename_i ns
      have := hasValue_iff h t (AnnoKey.mk ns name)
      by_cases hv : s.hasValue t (AnnoKey.mk ns name) = true
      · simp only [hv, if_true, List.mem_singleton]
        constructor
        · rintro rfl
          exact ⟨this.1 hv, by simp, by simp⟩
        · rintro ⟨_, h2, h3⟩
          rw [key_eq_iff]; exact ⟨h2 _ rfl, h3 _ rfl⟩
      · simp only [hv, if_false, List.not_mem_nil, false_iff, Bool.false_eq_true]
        rintro ⟨h1, h2, h3⟩
        have e : key = AnnoKey.mk ns name := by rw [key_eq_iff]; exact ⟨h2 _ rfl, h3 _ rfl⟩
        rw [e] at h1
        exact hv (this.2 h1)
    · simp only [List.mem_filter, mem_qnames h, Option.isSome_iff_exists]
      constructor
      · rintro ⟨⟨h1, _⟩, h2⟩; exact ⟨h2, by simp [h1], by simp⟩
      · rintro ⟨⟨v, h1⟩, h2, _⟩; exact ⟨⟨h2 _ rfl, t, v, h1⟩, v, h1⟩
  · have e := hns rfl
    subst e
    have key' : key ∈ (match s.byContainer.get t with
        | some row => List.filterMap (fun (p : Nat × Nat) => s.keys.getValue p.1) row
        | none => []) ↔ ∃ val, s.getValue t key = some val := by
      simp only [getValue_iff h]
      split
      · rename_i row hr
        rw [List.mem_filterMap]
        constructor
        · rintro ⟨⟨k, v⟩, h1, h2⟩
          have hh := (h.mirror k v t).2 (by simp [cell, hr, OMap.get_of_mem (h.cRow _ _ hr).1 h1])
          obtain ⟨val, h3⟩ := h.liveV _ _ _ hh
          exact ⟨val, k, v, h2, h3, hh⟩
        · rintro ⟨val, k, v, h1, h2, h3⟩
          rw [h.mirror] at h3
          simp only [cell, hr, Option.getD_some] at h3
          exact ⟨(k, v), OMap.mem_of_get h3, h1⟩
      · rename_i hr
        simp only [List.not_mem_nil, false_iff]
        rintro ⟨val, k, v, h1, h2, h3⟩
        rw [h.mirror] at h3
        simp [cell, hr] at h3
    refine key'.trans ?_
    simp

end AnnoStore
