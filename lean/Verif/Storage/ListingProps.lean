import Verif.Storage.Listing
import Verif.Storage.Props
import Verif.OnDisk.Props

/-!
# C110: the lists of annotations and components of a corpus
-/

set_option linter.unusedSimpArgs false
set_option linter.unusedSectionVars false
set_option linter.unusedVariables false

open Keys

/-! ### What the lists should contain -/

section
variable {T N V : Type} [LinearOrder N]

/-- The list of the annotations `m`: with values each pair of a key and a value in use once; with the most frequent values each key in use
once with a value that no other value of this key exceeds in frequency; otherwise each key in use once with the empty value. -/
def Lists (m : T → AnnoKey N → Option V) (values mostFrequent : Bool) (empty : V) (l : List (AnnoKey N × V)) : Prop :=
  if values then
    if mostFrequent then
      (l.map Prod.fst).Nodup ∧ (∀ k, k ∈ l.map Prod.fst ↔ ∃ t v, m t k = some v) ∧
        ∀ p ∈ l, ∃ f, AnnoStore.IsFrequency m p.1 f ∧ 0 < f p.2 ∧ ∀ v, f v ≤ f p.2
    else l.Nodup ∧ ∀ p, p ∈ l ↔ ∃ t, m t p.1 = some p.2
  else l.Nodup ∧ ∀ p, p ∈ l ↔ p.2 = empty ∧ ∃ t v, m t p.1 = some v

/-- As `Lists`, but with a value of least frequency for each key. -/
def ListsRarest (m : T → AnnoKey N → Option V) (l : List (AnnoKey N × V)) : Prop :=
  (l.map Prod.fst).Nodup ∧ (∀ k, k ∈ l.map Prod.fst ↔ ∃ t v, m t k = some v) ∧
    ∀ p ∈ l, ∃ f, AnnoStore.IsFrequency m p.1 f ∧ 0 < f p.2 ∧ ∀ v, 0 < f v → f p.2 ≤ f v

end

namespace Listing

section
variable {T N V : Type} [LinearOrder N]

theorem freq_pos {m : T → AnnoKey N → Option V} {key : AnnoKey N} {f : V → Nat} (hf : AnnoStore.IsFrequency m key f) (v : V) :
    0 < f v ↔ ∃ t, m t key = some v := by
  obtain ⟨I, h1, h2, h3⟩ := hf v
  rw [h3]
  constructor
  · intro h
    obtain ⟨t, ht⟩ := List.exists_mem_of_length_pos h
    exact ⟨t, (h2 t).1 ht⟩
  · rintro ⟨t, ht⟩
    exact List.length_pos_of_mem ((h2 t).2 ht)

variable {m : T → AnnoKey N → Option V} {keys : List (AnnoKey N)} {vals : AnnoKey N → Bool → List V} {empty : V}

/-- The list with the first value of each key. -/
theorem first_keys (hk : ∀ k, k ∈ keys ↔ ∃ t v, m t k = some v) (hv : ∀ k v, v ∈ vals k true ↔ ∃ t, m t k = some v) :
    (listAnnos true true empty keys vals).map Prod.fst = keys ∧
      ∀ p ∈ listAnnos true true empty keys vals, ∃ r, vals p.1 true = p.2 :: r := by
  unfold listAnnos
  have hne : ∀ k ∈ keys, vals k true ≠ [] := by
    intro k hk' he
    obtain ⟨t, v, h⟩ := (hk k).1 hk'
    have := (hv k v).2 ⟨t, h⟩
    rw [he] at this
    simp at this
  clear hk
  induction keys with
  | nil => simp
  | cons k r ih =>
    obtain ⟨h1, h2⟩ := ih fun x hx => hne x (List.mem_cons_of_mem _ hx)
    simp only [if_true] at h1 h2
    cases he : vals k true with
    | nil => exact absurd he (hne k List.mem_cons_self)
    | cons v l =>
      simp only [List.flatMap_cons, he, if_true, List.map_append]
      refine ⟨by rw [h1]; rfl, ?_⟩
      intro p hp
      rcases List.mem_append.1 hp with hp | hp
      · rw [List.mem_singleton] at hp
        subst hp
        exact ⟨l, he⟩
      · exact h2 p hp

theorem lists (hk : ∀ k, k ∈ keys ↔ ∃ t v, m t k = some v) (hkn : keys.Nodup)
    (hv : ∀ k b v, v ∈ vals k b ↔ ∃ t, m t k = some v) (hvn : ∀ k, (vals k false).Nodup)
    (values mostFrequent : Bool) (hfr : (values && mostFrequent) = true → ∀ k v r, vals k true = v :: r →
      ∃ f, AnnoStore.IsFrequency m k f ∧ 0 < f v ∧ ∀ w, f w ≤ f v) :
    Lists m values mostFrequent empty (listAnnos values mostFrequent empty keys vals) := by
  unfold Lists
  cases values with
  | false =>
    have e : listAnnos false mostFrequent empty keys vals = keys.map fun k => (k, empty) := by
      unfold listAnnos
      simp only [Bool.false_eq_true, if_false, List.map_eq_flatMap]
    simp only [Bool.false_eq_true, if_false, e]
    refine ⟨hkn.map fun a b h => by simpa using h, ?_⟩
    rintro ⟨k, v⟩
    rw [List.mem_map]
    constructor
    · rintro ⟨x, hx, he⟩
      cases he
      exact ⟨rfl, (hk _).1 hx⟩
    · rintro ⟨rfl, h⟩
      exact ⟨k, (hk k).2 h, rfl⟩
  | true =>
    cases mostFrequent with
    | false =>
      simp only [if_true, Bool.false_eq_true, if_false]
      have hmem : ∀ p, p ∈ listAnnos true false empty keys vals ↔ p.1 ∈ keys ∧ p.2 ∈ vals p.1 false := by
        rintro ⟨k, v⟩
        unfold listAnnos
        simp only [if_true, Bool.false_eq_true, if_false, List.mem_flatMap, List.mem_map]
        constructor
        · rintro ⟨x, hx, w, hw, he⟩
          cases he
          exact ⟨hx, hw⟩
        · rintro ⟨h1, h2⟩
          exact ⟨k, h1, v, h2, rfl⟩
      refine ⟨?_, ?_⟩
      · unfold listAnnos
        simp only [if_true, Bool.false_eq_true, if_false]
        rw [List.nodup_flatMap]
        refine ⟨fun k _ => (hvn k).map fun a b h => by simpa using h, ?_⟩
        refine hkn.imp ?_
        intro a b hab
        rw [Function.onFun, List.disjoint_left]
        intro p hp hq
        obtain ⟨_, _, rfl⟩ := List.mem_map.1 hp
        obtain ⟨_, _, he⟩ := List.mem_map.1 hq
        cases he
        exact hab rfl
      · intro p
        rw [hmem, hk, hv]
        constructor
        · exact fun h => h.2
        · rintro ⟨t, h⟩
          exact ⟨⟨t, p.2, h⟩, t, h⟩
    | true =>
      simp only [if_true]
      obtain ⟨h1, h2⟩ := first_keys (empty := empty) hk (fun k v => hv k true v)
      rw [h1]
      refine ⟨hkn, hk, fun p hp => ?_⟩
      obtain ⟨r, hr⟩ := h2 p hp
      exact hfr rfl _ _ _ hr

end

section
variable {T N V : Type} [LinearOrder T] [LinearOrder N] [OrderBot N] [LinearOrder V]

/-- C110, the annotations of one storage in memory. -/
theorem store_lists {s : AnnoStore T N V} (h : s.Inv) (values mostFrequent : Bool) (empty : V) :
    Lists (fun t k => s.getValue t k) values mostFrequent empty (s.list values mostFrequent empty) := by
  obtain ⟨h1, h2⟩ := AnnoStore.annotationKeys_exact h
  refine lists h1 (h2.imp ne_of_lt) (fun k b => (AnnoStore.allValues_exact h k b).1) (fun k => (AnnoStore.allValues_exact h k false).2)
    values mostFrequent ?_
  intro _ k v r hr
  obtain ⟨f, hf, hs⟩ := AnnoStore.allValues_frequent h k
  rw [hr, List.pairwise_cons] at hs
  have hex := (AnnoStore.allValues_exact h k true).1
  have hv : 0 < f v := (freq_pos hf v).2 ((hex v).1 (by rw [hr]; exact List.mem_cons_self))
  refine ⟨f, hf, hv, fun w => ?_⟩
  by_cases hw : 0 < f w
  · have := (hex w).2 ((freq_pos hf w).1 hw)
    rw [hr, List.mem_cons] at this
    rcases this with rfl | this
    · exact le_refl _
    · rcases hs.1 w this with h | h <;> omega
  · omega

end

section
variable {T N : Type} [LinearOrder T] [FixedKey T] [LinearOrder N] [OrderBot N]
open DiskAnno

theorem disk_keys {s : DiskAnno T N} (h : DiskAnno.Inv s) (key : AnnoKey N) :
    key ∈ s.annotationKeys ↔ ∃ t v, s.getValue t key = some v := by
  show key ∈ s.sizes.keys ↔ _
  rw [OMap.mem_keys_iff]
  constructor
  · rintro ⟨c, hc⟩
    obtain ⟨h1, k, hk⟩ := h.ssome key c hc
    have h2 := h.sizes k key hk
    rw [hc, Option.getD_some] at h2
    obtain ⟨b, v, hb, hs⟩ := (OMap.countP_pos_iff (DiskMap.iter_spec h.dc).1).1 (h2 ▸ h1 : 0 < cnt T s.byContainer.iter k)
    obtain ⟨t, k', key', rfl, hk'⟩ := h.cont b v hb
    rw [hasSym_ckey t (h.bound _ _ hk) (h.bound _ _ hk'), decide_eq_true_eq] at hs
    subst hs
    exact ⟨t, v, (getValue_iff h t key v).2 ⟨k', hk, hb⟩⟩
  · rintro ⟨t, v, hv⟩
    exact sizes_some_of_value h hv

/-- The entries of the search table for a key. -/
theorem disk_values {s : DiskAnno T N} (h : DiskAnno.Inv s) (hx : Exact s) (hp : Plain fun t k => s.getValue t k) (key : AnnoKey N) :
    ∃ L : List (T × Bytes), L.Nodup ∧ (∀ t v, (t, v) ∈ L ↔ s.getValue t key = some v) ∧ s.valuesOfKey key = L.map Prod.snd := by
  unfold valuesOfKey
  cases hk : s.keys.getSymbol key with
  | none =>
    refine ⟨[], List.nodup_nil, ?_, rfl⟩
    intro t v
    simp [DiskAnno.getValue, hk]
  | some k =>
    simp only
    have hk' := (h.sym.sym _ _).1 hk
    have hb := h.bound _ _ hk'
    have sq := (DiskMap.iter_spec h.dq).1
    have hsize : ∀ t : T, 8 ≤ (FixedKey.enc t).length := fun t => by rw [FixedKey.enc_len]; exact FixedKey.size_ge
    have hR : ∀ p, p ∈ s.byQname.range (.included (byQnameKey minId k [])) (.excluded (byQnameKey maxId k charMax)) ↔
        ∃ t v, p = (qkey t k v, ()) ∧ s.getValue t key = some v := by
      rintro ⟨b, u⟩
      rw [DiskMap.range_spec' h.dq, List.mem_filter, OMap.mem_iff_get sq]
      simp only [Bnd.aboveB, Bnd.belowB, Bool.and_eq_true, decide_eq_true_eq]
      constructor
      · rintro ⟨h1, h2⟩
        obtain ⟨t, k2, key2, v, rfl, hk2, hv⟩ := hx b h1
        have hg := (getValue_iff h t key2 v).2 ⟨k2, hk2, hv⟩
        have hpl := hp t key2 v hg
        have e := (C07_any_range_partial _ (hsize t) hpl.2.2 k k2 hb (h.bound _ _ hk2) v hpl.1 hpl.2.1).1 h2
        subst e
        rw [hk'] at hk2
        cases hk2
        exact ⟨t, v, rfl, hg⟩
      · rintro ⟨t, v, he, hg⟩
        cases he
        obtain ⟨k2, hk2, hv⟩ := (getValue_iff h t key v).1 hg
        have e := h.sym.unique hk2 hk'
        subst e
        have hpl := hp t key v hg
        exact ⟨h.sup t k2 v hb hv, (C07_any_range_partial _ (hsize t) hpl.2.2 k2 k2 hb hb v hpl.1 hpl.2.1).2 rfl⟩
    have hnd : (s.byQname.range (.included (byQnameKey minId k [])) (.excluded (byQnameKey maxId k charMax))).Nodup := by
      rw [DiskMap.range_spec' h.dq]
      exact (OMap.nodup_of_sorted sq).sublist List.filter_sublist
    generalize s.byQname.range (.included (byQnameKey minId k [])) (.excluded (byQnameKey maxId k charMax)) = R at hR hnd ⊢
    let dec : Bytes × Unit → Option (T × Bytes) := fun p =>
      (parseByQnameKey (FixedKey.size T) p.1).bind fun q => (FixedKey.dec q.1 : Option T).map fun t => (t, q.2.2)
    have hdec : ∀ t v, dec (qkey t k v, ()) = some (t, v) := by
      intro t v
      simp [dec, parse_qkey t hb v, FixedKey.dec_enc]
    refine ⟨R.filterMap dec, ?_, ?_, ?_⟩
    · refine List.Pairwise.filterMap _ ?_ (List.Pairwise.and_mem.1 hnd)
      rintro x y ⟨hx', hy', hne⟩ p hp' q hq' he
      obtain ⟨t1, v1, rfl, _⟩ := (hR x).1 hx'
      obtain ⟨t2, v2, rfl, _⟩ := (hR y).1 hy'
      rw [hdec] at hp' hq'
      cases hp'
      cases hq'
      cases he
      exact hne rfl
    · intro t v
      rw [List.mem_filterMap]
      constructor
      · rintro ⟨p, hp', he⟩
        obtain ⟨t1, v1, rfl, hg⟩ := (hR p).1 hp'
        rw [hdec] at he
        cases he
        exact hg
      · intro hg
        exact ⟨_, (hR _).2 ⟨t, v, rfl, hg⟩, hdec t v⟩
    · rw [List.map_filterMap]
      refine List.filterMap_congr fun p hp' => ?_
      obtain ⟨t, v, rfl, _⟩ := (hR p).1 hp'
      rw [hdec]
      simp [parse_qkey t hb v]

theorem disk_all {s : DiskAnno T N} (h : DiskAnno.Inv s) (hx : Exact s) (hp : Plain fun t k => s.getValue t k) (key : AnnoKey N) (b : Bool) :
    (∀ v, v ∈ s.allValues key b ↔ ∃ t, s.getValue t key = some v) ∧ (s.allValues key false).Nodup := by
  obtain ⟨L, h1, h2, h3⟩ := disk_values h hx hp key
  have hm : ∀ v, v ∈ s.valuesOfKey key ↔ ∃ t, s.getValue t key = some v := by
    intro v
    rw [h3, List.mem_map]
    constructor
    · rintro ⟨⟨t, w⟩, ht, rfl⟩
      exact ⟨t, (h2 t w).1 ht⟩
    · rintro ⟨t, ht⟩
      exact ⟨(t, v), (h2 t v).2 ht, rfl⟩
  refine ⟨fun v => ?_, by simp [DiskAnno.allValues, List.nodup_dedup]⟩
  rw [← hm]
  unfold DiskAnno.allValues
  cases b with
  | false => simp
  | true =>
    simp only [if_true, List.mem_map, (List.mergeSort_perm _ _).mem_iff, List.mem_dedup]
    constructor
    · rintro ⟨p, ⟨w, hw, rfl⟩, rfl⟩
      exact hw
    · exact fun hv => ⟨_, ⟨v, hv, rfl⟩, rfl⟩

/-- The first value of a key is one of least frequency. -/
theorem disk_rarest {s : DiskAnno T N} (h : DiskAnno.Inv s) (hx : Exact s) (hp : Plain fun t k => s.getValue t k) (key : AnnoKey N) {v : Bytes}
    {r : List Bytes} (hr : s.allValues key true = v :: r) :
    ∃ f, AnnoStore.IsFrequency (fun t k => s.getValue t k) key f ∧ 0 < f v ∧ ∀ w, 0 < f w → f v ≤ f w := by
  obtain ⟨L, h1, h2, h3⟩ := disk_values h hx hp key
  have hf : AnnoStore.IsFrequency (fun t k => s.getValue t k) key fun v => (s.valuesOfKey key).count v := by
    intro v
    refine ⟨(L.filter fun p => p.2 = v).map Prod.fst, ?_, ?_, ?_⟩
    · refine List.Nodup.map_on ?_ (h1.filter _)
      rintro ⟨a, b⟩ ha ⟨c, d⟩ hc e
      simp only [List.mem_filter, decide_eq_true_eq] at ha hc
      simp only at e
      rw [e, ha.2, hc.2]
    · intro t
      simp only [List.mem_map, List.mem_filter, decide_eq_true_eq]
      constructor
      · rintro ⟨⟨a, b⟩, ⟨h4, rfl⟩, rfl⟩
        exact (h2 a b).1 h4
      · intro h4
        exact ⟨(t, v), ⟨(h2 t v).2 h4, rfl⟩, rfl⟩
    · show List.count v (s.valuesOfKey key) = _
      rw [List.length_map, h3, List.count_eq_countP, List.countP_map, List.countP_eq_length_filter]
      exact congrArg List.length (List.filter_congr fun p _ => Bool.eq_iff_iff.2 (by simp))
  refine ⟨_, hf, ?_, ?_⟩
  · exact (freq_pos hf v).2 (((disk_all h hx hp key true).1 v).1 (by rw [hr]; exact List.mem_cons_self))
  · intro w hw
    have hm := ((disk_all h hx hp key true).1 w).2 ((freq_pos hf w).1 hw)
    unfold DiskAnno.allValues at hr hm
    simp only [if_true] at hr hm
    have hsorted := List.pairwise_mergeSort (le := fun (a b : Nat ×ₗ Bytes) => decide (a ≤ b))
      (by intro a b c; simpa using le_trans) (by intro a b; simpa using le_total a b)
      ((s.valuesOfKey key).dedup.map fun v => toLex ((s.valuesOfKey key).count v, v))
    have hmem : ∀ x ∈ (((s.valuesOfKey key).dedup.map fun v => (toLex ((s.valuesOfKey key).count v, v) : Nat ×ₗ Bytes)).mergeSort
        fun a b => decide (a ≤ b)), (ofLex x).1 = (s.valuesOfKey key).count (ofLex x).2 := by
      intro x hx'
      rw [(List.mergeSort_perm _ _).mem_iff, List.mem_map] at hx'
      obtain ⟨v, _, rfl⟩ := hx'
      rfl
    cases hl : (((s.valuesOfKey key).dedup.map fun v => (toLex ((s.valuesOfKey key).count v, v) : Nat ×ₗ Bytes)).mergeSort
        fun a b => decide (a ≤ b)) with
    | nil => rw [hl] at hr; simp at hr
    | cons x l =>
      rw [hl] at hr hm hmem hsorted
      simp only [List.map_cons, List.cons.injEq] at hr
      obtain ⟨rfl, _⟩ := hr
      rw [List.mem_map] at hm
      obtain ⟨y, hy, rfl⟩ := hm
      rw [← hmem x List.mem_cons_self, ← hmem y hy]
      rw [List.pairwise_cons] at hsorted
      rcases List.mem_cons.1 hy with rfl | hy
      · exact le_refl _
      · have := hsorted.1 y hy
        rw [decide_eq_true_eq, Prod.Lex.le_iff] at this
        rcases this with h | h
        · exact le_of_lt h
        · exact le_of_eq h.1

/-- C110 for one storage on disk, restricted as in C06 to histories without overwritten values and evicted removals, and to values inside of
the key ranges: with all values and without values the lists are right, but the value given as most frequent is a rarest one
(`C110_disk_fails`). -/
theorem C110_disk_partial (n : Nat) (ops : List (DiskAnno.Op T N)) (hlen : ops.length < 256 ^ 8) (hc : DiskAnno.Clean n ops) (hw : WriteOnce ops)
    (hp : Plain (DiskAnno.spec ops)) :
    (∀ mostFrequent, Lists (DiskAnno.spec ops) false mostFrequent [] ((DiskAnno.run n ops).list false mostFrequent)) ∧
    Lists (DiskAnno.spec ops) true false [] ((DiskAnno.run n ops).list true false) ∧
    ListsRarest (DiskAnno.spec ops) ((DiskAnno.run n ops).list true true) := by
  obtain ⟨h, hv, _, hx⟩ := DiskAnno.run_refines n ops hlen hc
  have hx := hx hw
  have e : DiskAnno.spec ops = fun t k => (DiskAnno.run n ops).getValue t k := by funext t k; rw [hv]
  rw [e] at hp ⊢
  have hkn : (DiskAnno.run n ops).annotationKeys.Nodup := OMap.nodup_keys h.ssorted
  have hl : ∀ values mostFrequent, (values && mostFrequent) = false → Lists (fun t k => (DiskAnno.run n ops).getValue t k) values mostFrequent []
      ((DiskAnno.run n ops).list values mostFrequent) := by
    intro values mostFrequent hb
    exact lists (disk_keys h) hkn (fun k b => (disk_all h hx hp k b).1) (fun k => (disk_all h hx hp k false).2) values mostFrequent
      fun hb' => by rw [hb] at hb'; cases hb'
  refine ⟨fun mf => hl false mf rfl, hl true false rfl, ?_⟩
  obtain ⟨h1, h2⟩ := first_keys (empty := ([] : Bytes)) (disk_keys h) (fun k v => (disk_all h hx hp k true).1 v)
  refine ⟨by unfold DiskAnno.list; rw [h1]; exact hkn, by unfold DiskAnno.list; rw [h1]; exact disk_keys h, fun p hp' => ?_⟩
  obtain ⟨r, hr⟩ := h2 p hp'
  exact disk_rarest h hx hp _ hr

end

/-! ### Annotations of graphs -/

section
variable {S V C : Type} [LinearOrder S] [OrderBot S] [LinearOrder V] [LinearOrder C] {nk : AnnoKey S}

/-- The names of the nodes instead of their numbers. -/
theorem lists_names {g : Graph S V C} {m : GSpec S V C} (hI : Graph.Inv nk g) (hR : Graph.Rep nk g m) {values mostFrequent : Bool} {empty : V}
    {l : List (AnnoKey S × V)} (h : Lists (fun t k => g.annos.getValue t k) values mostFrequent empty l) :
    Lists m.label values mostFrequent empty l := by
  have hex : ∀ k v, (∃ t, g.annos.getValue t k = some v) ↔ ∃ n, m.label n k = some v := by
    intro k v
    constructor
    · rintro ⟨t, ht⟩
      obtain ⟨n, hn⟩ := hI.named t k v ht
      exact ⟨n, by rw [← hR.label t n hn k]; exact ht⟩
    · rintro ⟨n, hn⟩
      obtain ⟨i, hi⟩ := (hR.node n).1 (hR.labelN n k v hn)
      exact ⟨i, by rw [hR.label i n hi k]; exact hn⟩
  have hex2 : ∀ k, (∃ t v, g.annos.getValue t k = some v) ↔ ∃ n v, m.label n k = some v := by
    intro k
    rw [exists_comm, exists_comm (α := V) (β := V)]
    exact exists_congr fun v => hex k v
  have hfr : ∀ k f, AnnoStore.IsFrequency (fun t k => g.annos.getValue t k) k f → AnnoStore.IsFrequency m.label k f := by
    intro k f hf v
    obtain ⟨I, h1, h2, h3⟩ := hf v
    refine ⟨I.filterMap fun i => g.annos.getValue i nk, ?_, ?_, ?_⟩
    · refine h1.filterMap ?_
      intro a b n ha hb
      exact hI.uniq a b n (by simpa using ha) (by simpa using hb)
    · intro n
      rw [List.mem_filterMap]
      constructor
      · rintro ⟨i, hi, hn⟩
        rw [← hR.label i n hn k]
        exact (h2 i).1 hi
      · intro hn
        obtain ⟨i, hi⟩ := (hR.node n).1 (hR.labelN n k v hn)
        exact ⟨i, (h2 i).2 (by show g.annos.getValue i k = some v; rw [hR.label i n hi k]; exact hn), hi⟩
    · rw [h3]
      clear h3 h1
      have hs : ∀ i ∈ I, (g.annos.getValue i nk).isSome = true := by
        intro i hi
        obtain ⟨n, hn⟩ := hI.named i k v ((h2 i).1 hi)
        rw [hn]; rfl
      clear h2
      induction I with
      | nil => rfl
      | cons i r ih =>
        obtain ⟨n, hn⟩ := Option.isSome_iff_exists.1 (hs i List.mem_cons_self)
        rw [List.filterMap_cons_some (f := fun i => g.annos.getValue i nk) hn, List.length_cons, List.length_cons, ih fun x hx => hs x (List.mem_cons_of_mem _ hx)]
  unfold Lists at h ⊢
  cases values with
  | false =>
    simp only [Bool.false_eq_true, if_false] at h ⊢
    exact ⟨h.1, fun p => by rw [h.2, hex2]⟩
  | true =>
    cases mostFrequent with
    | false =>
      simp only [Bool.false_eq_true, if_false, if_true] at h ⊢
      exact ⟨h.1, fun p => by rw [h.2, hex]⟩
    | true =>
      simp only [if_true] at h ⊢
      refine ⟨h.1, fun k => by rw [h.2.1, hex2], fun p hp => ?_⟩
      obtain ⟨f, h1, h2⟩ := h.2.2 p hp
      exact ⟨f, hfr _ f h1, h2⟩

end

/-! ### Lists of a corpus -/

section
variable {Nm A C K U S V E : Type} [LinearOrder Nm] [LinearOrder C] [LinearOrder S] [OrderBot S] [LinearOrder V] [LinearOrder E]
variable {o : GraphOps A C K U} {s : Store Nm A C K U} {a : Abs Nm A C K}

theorem node_rel (h : Rel o s a [] []) (annos : A → List (AnnoKey S × V)) (n : Nm) (m1 m2 : Mem)
    (hk : a.corpora.get n ≠ none → s.hasLoaded n ∨ a.pend n ≤ 1) :
    Rel o (s.listNodeAnnos o annos n m1 m2).1 (a.touch n) [] [] ∧
    (s.listNodeAnnos o annos n m1 m2).2 = ((a.corpora.get n).map fun g => annos g.annos).getD [] := by
  unfold Store.listNodeAnnos
  cases hg : a.corpora.get n with
  | none =>
    obtain ⟨s', e1, e2⟩ := h.getLoaded_missing hg m1 m2
    rw [e1]
    exact ⟨e2, rfl⟩
  | some g =>
    obtain ⟨s', p, e1, e2, e3, _⟩ := h.getLoaded_some hg false m1 m2 (hk (by rw [hg]; simp))
    have ht : a.touch n = a := by unfold Abs.touch; rw [hg]; rfl
    rw [e1]
    simp only [e3, ht]
    exact ⟨e2, rfl⟩

theorem edge_rel (h : Rel o s a [] []) (annos : K → List (AnnoKey S × V)) (n : Nm) (c : C) (m1 m2 : Mem)
    (hk : a.corpora.get n ≠ none → s.hasLoaded n ∨ a.pend n ≤ 1) :
    Rel o (s.listEdgeAnnos o annos n c m1 m2).1 (a.touch n) [] [] ∧
    (s.listEdgeAnnos o annos n c m1 m2).2 = (((a.corpora.get n).bind fun g => g.comps.get c).map annos).getD [] := by
  unfold Store.listEdgeAnnos
  cases hg : a.corpora.get n with
  | none =>
    obtain ⟨s', e1, e2⟩ := h.getLoaded_missing hg m1 m2
    rw [e1]
    exact ⟨e2, rfl⟩
  | some g =>
    obtain ⟨s', p, e1, e2, e3, _⟩ := h.getLoaded_some hg false m1 m2 (hk (by rw [hg]; simp))
    have ht : a.touch n = a := by unfold Abs.touch; rw [hg]; rfl
    rw [e1]
    simp only [e3, ht, Option.bind_some]
    cases g.comps.get c with
    | none => exact ⟨e2, rfl⟩
    | some k => exact ⟨e2, rfl⟩

theorem loadComps_keys : ∀ {l : OMap C (Option K)} {r : OMap C K}, loadComps l = some r → l.keys = r.keys := by
  intro l
  induction l with
  | nil => intro r h; cases h; rfl
  | cons p l ih =>
    intro r h
    obtain ⟨c, k⟩ := p
    cases k with
    | none => simp [loadComps] at h
    | some k =>
      rw [loadComps, Option.map_eq_some_iff] at h
      obtain ⟨r', h1, rfl⟩ := h
      show c :: _ = c :: _
      exact congrArg (c :: ·) (ih h1)

/-- The component is one that the filters of `list_components` ask for. -/
def Wanted {Ty Na : Type} (tyOf : C → Ty) (nameOf : C → Na) (ty : Option Ty) (name : Option Na) (c : C) : Prop :=
  (∀ t, ty = some t → tyOf c = t) ∧ ∀ x, name = some x → nameOf c = x

theorem mem_filters {Ty Na : Type} [DecidableEq Ty] [DecidableEq Na] (tyOf : C → Ty) (nameOf : C → Na) (ty : Option Ty) (name : Option Na)
    (l : List C) (c : C) :
    (c ∈ (l.filter fun c => Store.passes ty (tyOf c)).filter fun c => Store.passes name (nameOf c)) ↔ c ∈ l ∧ Wanted tyOf nameOf ty name c := by
  unfold Wanted Store.passes
  cases ty <;> cases name <;> simp [and_assoc, and_comm (a := nameOf c = _)]

theorem components_disk {Ty Na : Type} [DecidableEq Ty] [DecidableEq Na] (h : Rel o s a [] []) (tyOf : C → Ty) (nameOf : C → Na)
    (ty : Option Ty) (name : Option Na) {n : Nm} {g : Content A C K} (hg : a.corpora.get n = some g) (hk : a.pend n ≤ 1) :
    (a.pend n = 0 → ((s.listComponents tyOf nameOf n ty name).2).Nodup) ∧
    ∃ base, (base = g ∨ ∃ u, o.apply base u = (g, true)) ∧ (a.pend n = 0 → base = g) ∧
      ∀ c, c ∈ (s.listComponents tyOf nameOf n ty name).2 ↔ (base.comps.get c).isSome = true ∧ Wanted tyOf nameOf ty name c := by
  obtain ⟨d, hd⟩ := h.disk_some hg
  obtain ⟨hs, ⟨hb, _⟩, h1, h2⟩ := h.disk n d g hd hg
  obtain ⟨f, base, hf, hcs, hbase, h0⟩ : ∃ f base, d.current = some f ∧ loadComps f.files.comps = some base.comps ∧
      (base = g ∨ ∃ u, o.apply base u = (g, true)) ∧ (a.pend n = 0 → base = g) := by
    obtain ⟨_, f, hf, hl⟩ := h1 hk
    unfold loadFiles at hl
    cases han : f.files.annos with
    | absent => rw [han] at hl; cases hl
    | torn => rw [han] at hl; cases hl
    | ok x =>
      rw [han] at hl
      simp only [Option.bind_eq_some_iff] at hl
      obtain ⟨cs, hcs, hl⟩ := hl
      refine ⟨f, ⟨x, cs⟩, hf, hcs, ?_, ?_⟩
      · cases hlog : f.files.log with
        | none => rw [hlog] at hl; left; simpa using hl
        | some u =>
          rw [hlog] at hl
          right
          refine ⟨u, ?_⟩
          simp only at hl
          split at hl
          · rename_i hu
            cases hl
            rw [← hu]
          · cases hl
      · intro hz
        obtain ⟨_, f', hf', _, hlog⟩ := h2 hz
        rw [hf] at hf'
        cases hf'
        rw [hlog] at hl
        simpa using hl
  have hl : (s.listComponents tyOf nameOf n ty name).2 = (f.files.comps.keys.filter fun c => Store.passes ty (tyOf c)).filter
      fun c => Store.passes name (nameOf c) := by
    unfold Store.listComponents
    simp only [hd, Option.bind_some, Store.listFolder, hb, hf]
  refine ⟨?_, base, hbase, h0, fun c => ?_⟩
  · intro hz
    rw [hl, loadComps_keys hcs, h0 hz]
    exact List.Nodup.filter _ (List.Nodup.filter _ (OMap.nodup_keys hs))
  · rw [hl, mem_filters, loadComps_keys hcs, OMap.mem_keys_iff, Option.isSome_iff_exists]

end

variable {Nm A C K U S V E : Type} [LinearOrder Nm] [LinearOrder C] [LinearOrder S] [OrderBot S] [LinearOrder V] [LinearOrder E]

/-- C110, restricted: the list of the node annotations of a corpus after any history consists of the annotations of its nodes.  Missing:
corpora that must be loaded while two or more updates are not written back (`StorageEx.C51_fails`); a corpus that does not exist is
treated like one without annotations. -/
theorem C110_nodes_partial (nk : AnnoKey S) (o : GraphOps (AnnoStore NodeID64 S V) C (Adj NodeID64 S V) U) (hf : o.fresh.comps.Sorted)
    (hsort : ∀ g u, g.comps.Sorted → (o.apply g u).1.comps.Sorted) (disk : OMap Nm (Disk (AnnoStore NodeID64 S V) C (Adj NodeID64 S V) U))
    (corpora : OMap Nm (Content (AnnoStore NodeID64 S V) C (Adj NodeID64 S V))) (hd : Holds o disk corpora)
    (ops : List ((Mem × Mem × Mem) × Store.Op Nm (AnnoStore NodeID64 S V) C (Adj NodeID64 S V) U))
    (ha : Abs.AllSafe o (Store.opened disk) (Abs.mk corpora [] [] fun _ => 0) ops) (n : Nm) (m1 m2 : Mem) (values mostFrequent : Bool)
    (empty : V) :
    let s := (Store.run o (Store.opened disk) ops).1
    let a := ((Abs.mk corpora [] [] fun _ => 0).run o (ops.map Prod.snd)).1
    let r := s.listNodeAnnos o (AnnoStore.list values mostFrequent empty) n m1 m2
    (a.corpora.get n = none → r.2 = []) ∧
    ∀ g m, a.corpora.get n = some g → (s.hasLoaded n ∨ a.pend n ≤ 1) → Graph.Inv nk ⟨g.annos, g.comps, 0⟩ →
      Graph.Rep nk ⟨g.annos, g.comps, 0⟩ m → Lists m.label values mostFrequent empty r.2 := by
  intro s a r
  have h := (run_rel hf hsort ops _ _ (opened_rel hd) ha).1
  refine ⟨fun hg => ?_, fun g m hg hk hI hR => ?_⟩
  · have := (node_rel h (AnnoStore.list values mostFrequent empty) n m1 m2 fun hn => absurd hg hn).2
    rw [hg] at this
    exact this
  · have := (node_rel h (AnnoStore.list values mostFrequent empty) n m1 m2 fun _ => hk).2
    rw [hg] at this
    show Lists _ _ _ _ (Store.listNodeAnnos _ _ _ _ _ _).2
    rw [this]
    exact lists_names hI hR (store_lists hI.an values mostFrequent empty)

/-- C110, restricted in the same way: the list of the edge annotations of a component.  `annosOf` gives the annotation storage of a graph
storage.  A component that does not exist has no annotations. -/
theorem C110_edges_partial (o : GraphOps A C K U) (hf : o.fresh.comps.Sorted)
    (hsort : ∀ g u, g.comps.Sorted → (o.apply g u).1.comps.Sorted) (disk : OMap Nm (Disk A C K U))
    (corpora : OMap Nm (Content A C K)) (hd : Holds o disk corpora) (ops : List ((Mem × Mem × Mem) × Store.Op Nm A C K U))
    (ha : Abs.AllSafe o (Store.opened disk) (Abs.mk corpora [] [] fun _ => 0) ops) (annosOf : K → AnnoStore E S V) (n : Nm) (c : C)
    (m1 m2 : Mem) (values mostFrequent : Bool) (empty : V) :
    let s := (Store.run o (Store.opened disk) ops).1
    let a := ((Abs.mk corpora [] [] fun _ => 0).run o (ops.map Prod.snd)).1
    let r := s.listEdgeAnnos o (fun k => (annosOf k).list values mostFrequent empty) n c m1 m2
    (a.corpora.get n = none → r.2 = []) ∧
    ∀ g, a.corpora.get n = some g → (s.hasLoaded n ∨ a.pend n ≤ 1) →
      (g.comps.get c = none → r.2 = []) ∧
      ∀ k, g.comps.get c = some k → (annosOf k).Inv → Lists (fun e x => (annosOf k).getValue e x) values mostFrequent empty r.2 := by
  intro s a r
  have h := (run_rel hf hsort ops _ _ (opened_rel hd) ha).1
  refine ⟨fun hg => ?_, fun g hg hk => ⟨fun hc => ?_, fun k hc hI => ?_⟩⟩
  · have := (edge_rel h (fun k => (annosOf k).list values mostFrequent empty) n c m1 m2 fun hn => absurd hg hn).2
    rw [hg] at this
    exact this
  · have := (edge_rel h (fun k => (annosOf k).list values mostFrequent empty) n c m1 m2 fun _ => hk).2
    rw [hg, Option.bind_some, hc] at this
    exact this
  · have := (edge_rel h (fun k => (annosOf k).list values mostFrequent empty) n c m1 m2 fun _ => hk).2
    rw [hg, Option.bind_some, hc] at this
    show Lists _ _ _ _ (Store.listEdgeAnnos _ _ _ _ _ _ _).2
    rw [this]
    exact store_lists hI values mostFrequent empty

/-- C110: right after the start, also after a crash that left a backup folder, the listed components are those of the graph that opening
the corpus gives.  If that folder has a log, it is the graph before this update. -/
theorem C110_opened {Ty Na : Type} [DecidableEq Ty] [DecidableEq Na] (o : GraphOps A C K U) (disk : OMap Nm (Disk A C K U)) (n : Nm)
    (d : Disk A C K U) (hd : disk.get n = some d) (g : Content A C K) (steps : List (Fs A C K U))
    (ho : openSteps o.apply d = some (g, steps)) (tyOf : C → Ty) (nameOf : C → Na) (ty : Option Ty) (name : Option Na) :
    ∃ base, (base = g ∨ ∃ u, o.apply base u = (g, true)) ∧
      ((∀ f, d.backup = some f ∨ d.current = some f → f.files.log = none) → base = g) ∧
      ∀ c, c ∈ ((Store.opened disk).listComponents tyOf nameOf n ty name).2 ↔ c ∈ base.comps.keys ∧ Wanted tyOf nameOf ty name c := by
  have key : ∀ f, Store.listFolder d = some f → (d.backup = some f ∨ d.current = some f) → loadFiles o.apply f.files = some g →
      ∃ base, (base = g ∨ ∃ u, o.apply base u = (g, true)) ∧
      ((∀ f, d.backup = some f ∨ d.current = some f → f.files.log = none) → base = g) ∧
      ∀ c, c ∈ ((Store.opened disk).listComponents tyOf nameOf n ty name).2 ↔ c ∈ base.comps.keys ∧ Wanted tyOf nameOf ty name c := by
    intro f hf hdf hl
    unfold loadFiles at hl
    cases han : f.files.annos with
    | absent => rw [han] at hl; cases hl
    | torn => rw [han] at hl; cases hl
    | ok x =>
      rw [han] at hl
      simp only [Option.bind_eq_some_iff] at hl
      obtain ⟨cs, hcs, hl⟩ := hl
      refine ⟨⟨x, cs⟩, ?_, ?_, fun c => ?_⟩
      · cases hlog : f.files.log with
        | none => rw [hlog] at hl; left; simpa using hl
        | some u =>
          rw [hlog] at hl
          right
          refine ⟨u, ?_⟩
          simp only at hl
          split at hl
          · rename_i hu
            cases hl
            rw [← hu]
          · cases hl
      · intro hno
        rw [hno f hdf] at hl
        simpa using hl
      · unfold Store.listComponents
        have hd' : (Store.opened disk : Store Nm A C K U).disk.get n = some d := hd
        simp only [hd', Option.bind_some, hf]
        rw [mem_filters, loadComps_keys hcs]
  unfold openSteps at ho
  cases hb : d.backup with
  | some b =>
    rw [hb] at ho
    simp only [Option.map_eq_some_iff] at ho
    obtain ⟨g', h1, h2⟩ := ho
    cases h2
    have := key b (by simp [Store.listFolder, hb]) (.inl hb) h1
    simpa only [hb] using this
  | none =>
    rw [hb] at ho
    simp only [Option.bind_eq_some_iff, Option.map_eq_some_iff] at ho
    obtain ⟨f, hf, g', h1, h2⟩ := ho
    cases h2
    have := key f (by simp [Store.listFolder, hb, hf]) (.inr hf) h1
    simpa only [hb] using this

/-- C110, restricted: the list of the components.  If all updates of the corpus are written back, it consists of the components of the
corpus that the filters ask for, each once.  Missing: with an update that is not written back these are the components before this update
(`C110_components_fails`). -/
theorem C110_components_partial {Ty Na : Type} [DecidableEq Ty] [DecidableEq Na] (o : GraphOps A C K U) (hf : o.fresh.comps.Sorted)
    (hsort : ∀ g u, g.comps.Sorted → (o.apply g u).1.comps.Sorted) (disk : OMap Nm (Disk A C K U))
    (corpora : OMap Nm (Content A C K)) (hd : Holds o disk corpora) (ops : List ((Mem × Mem × Mem) × Store.Op Nm A C K U))
    (ha : Abs.AllSafe o (Store.opened disk) (Abs.mk corpora [] [] fun _ => 0) ops) (tyOf : C → Ty) (nameOf : C → Na) (n : Nm)
    (ty : Option Ty) (name : Option Na) :
    let s := (Store.run o (Store.opened disk) ops).1
    let a := ((Abs.mk corpora [] [] fun _ => 0).run o (ops.map Prod.snd)).1
    let r := s.listComponents tyOf nameOf n ty name
    (a.corpora.get n = none → r.2 = []) ∧
    ∀ g, a.corpora.get n = some g →
      (a.pend n = 0 → r.2.Nodup ∧ ∀ c, c ∈ r.2 ↔ (g.comps.get c).isSome = true ∧ Wanted tyOf nameOf ty name c) ∧
      (a.pend n = 1 → ∃ base, (base = g ∨ ∃ u, o.apply base u = (g, true)) ∧
        ∀ c, c ∈ r.2 ↔ (base.comps.get c).isSome = true ∧ Wanted tyOf nameOf ty name c) := by
  intro s a r
  have h := (run_rel hf hsort ops _ _ (opened_rel hd) ha).1
  refine ⟨fun hg => ?_, fun g hg => ⟨fun hk => ?_, fun hk => ?_⟩⟩
  · have : s.disk.get n = none := by
      have := h.dom n
      rw [hg] at this
      simpa using this
    show (Store.listComponents _ _ _ _ _ _).2 = []
    unfold Store.listComponents
    simp only [this, Option.bind_none]
  · obtain ⟨h1, base, _, h2, h3⟩ := components_disk h tyOf nameOf ty name hg (hk.trans_le (Nat.zero_le 1))
    rw [h2 hk] at h3
    exact ⟨h1 hk, h3⟩
  · obtain ⟨h1, base, h2, _, h3⟩ := components_disk h tyOf nameOf ty name hg hk.le
    exact ⟨base, h2, h3⟩

/-- C110: listing does not change a corpus.  All results of a later history are those of a storage without cache, in which only the name
of a corpus that was asked for but does not exist is left. -/
theorem C110_unchanged {Ty Na : Type} [DecidableEq Ty] [DecidableEq Na] (o : GraphOps A C K U) (hf : o.fresh.comps.Sorted)
    (hsort : ∀ g u, g.comps.Sorted → (o.apply g u).1.comps.Sorted) (disk : OMap Nm (Disk A C K U))
    (corpora : OMap Nm (Content A C K)) (hd : Holds o disk corpora) (ops : List ((Mem × Mem × Mem) × Store.Op Nm A C K U))
    (ha : Abs.AllSafe o (Store.opened disk) (Abs.mk corpora [] [] fun _ => 0) ops) (annos : A → List (AnnoKey S × V))
    (edgeAnnos : K → List (AnnoKey S × V)) (tyOf : C → Ty) (nameOf : C → Na) (n : Nm) (c : C) (ty : Option Ty) (name : Option Na)
    (m1 m2 : Mem) :
    let s := (Store.run o (Store.opened disk) ops).1
    let a := ((Abs.mk corpora [] [] fun _ => 0).run o (ops.map Prod.snd)).1
    (a.corpora.get n ≠ none → s.hasLoaded n ∨ a.pend n ≤ 1) →
    ∀ s' ∈ [(s.listNodeAnnos o annos n m1 m2).1, (s.listEdgeAnnos o edgeAnnos n c m1 m2).1, (s.listComponents tyOf nameOf n ty name).1],
      ∀ later, Abs.AllSafe o s' (a.touch n) later → (Store.run o s' later).2 = ((a.touch n).run o (later.map Prod.snd)).2 := by
  intro s a hk s' hs later hl
  have h := (run_rel hf hsort ops _ _ (opened_rel hd) ha).1
  have hr : Rel o s' (a.touch n) [] [] := by
    simp only [List.mem_cons, List.not_mem_nil, or_false] at hs
    rcases hs with rfl | rfl | rfl
    · exact (node_rel h annos n m1 m2 hk).1
    · exact (edge_rel h edgeAnnos n c m1 m2 hk).1
    · exact (h.getEntry n).1
  exact (run_rel hf hsort later _ _ hr hl).2

end Listing
