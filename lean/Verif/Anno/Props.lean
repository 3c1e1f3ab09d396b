import Verif.Anno.Search
import Mathlib.Data.List.Perm.Subperm

/-!
# C02–C05: the in-memory annotation storage

Specification: a plain function `item → key → option value`, updated by "last write wins".  The property theorems quantify
over all operation histories and mention only API functions and this specification.
-/

set_option linter.unusedSectionVars false

namespace AnnoStore

variable {T N V : Type} [LinearOrder T] [LinearOrder N] [OrderBot N] [LinearOrder V]

/-- Client operations. -/
inductive Op (T N V : Type)
  | insert (t : T) (key : AnnoKey N) (val : V)
  | removeAnno (t : T) (key : AnnoKey N)
  | removeItem (t : T)
  | clear
  | saveLoad

def step (s : AnnoStore T N V) : Op T N V → AnnoStore T N V
  | .insert t key val => s.insert t key val
  | .removeAnno t key => (s.removeAnno t key).1
  | .removeItem t => (s.removeItem t).1
  | .clear => s.clear
  | .saveLoad => s.saveLoad

def run (ops : List (Op T N V)) : AnnoStore T N V := ops.foldl step new

/-- The abstract annotation map. -/
abbrev Spec (T N V : Type) := T → AnnoKey N → Option V

def specStep (m : Spec T N V) : Op T N V → Spec T N V
  | .insert t key val => fun t' key' => if t' = t ∧ key' = key then some val else m t' key'
  | .removeAnno t key => fun t' key' => if t' = t ∧ key' = key then none else m t' key'
  | .removeItem t => fun t' key' => if t' = t then none else m t' key'
  | .clear => fun _ _ => none
  | .saveLoad => m

def spec (ops : List (Op T N V)) : Spec T N V := ops.foldl specStep (fun _ _ => none)

theorem run_refines (ops : List (Op T N V)) :
    Inv (run ops) ∧ ∀ t key, (run ops).getValue t key = spec ops t key := by
  unfold run spec
  suffices H : ∀ (s : AnnoStore T N V) (m : Spec T N V), Inv s → (∀ t key, s.getValue t key = m t key) →
      Inv (ops.foldl step s) ∧ ∀ t key, (ops.foldl step s).getValue t key = ops.foldl specStep m t key by
    refine H _ _ Inv.new ?_
    intro t key; simp [new, getValue, SymbolTable.new, SymbolTable.getSymbol]
  induction ops with
  | nil => intro s m h hm; exact ⟨h, hm⟩
  | cons op ops ih =>
    intro s m h hm
    simp only [List.foldl_cons]
    apply ih
    · cases op with
      | insert t key val => exact h.insert t key val
      | removeAnno t key => exact (removeAnno_spec h t key).1
      | removeItem t => exact (removeItem_spec h t).1
      | clear => exact Inv.clear s
      | saveLoad => simpa [step, saveLoad_eq h] using h
    · intro t' key'
      cases op with
      | insert t key val => simp only [step, specStep, getValue_insert h, hm]
      | removeAnno t key => simp only [step, specStep, (removeAnno_spec h t key).2.2, hm]
      | removeItem t => simp only [step, specStep, (removeItem_spec h t).2.2, hm]
      | clear => simp [step, specStep, clear, getValue, SymbolTable.clear, SymbolTable.getSymbol]
      | saveLoad => simp only [step, specStep, saveLoad_eq h, hm]

/-! ## C02 -/

/-- **C02** After every history the value lookup equals the abstract map. -/
theorem C02_get_value (ops : List (Op T N V)) (t : T) (key : AnnoKey N) :
    (run ops).getValue t key = spec ops t key := (run_refines ops).2 t key

/-- **C02** `has_value_for_item` agrees with the abstract map. -/
theorem C02_has_value (ops : List (Op T N V)) (t : T) (key : AnnoKey N) :
    (run ops).hasValue t key = (spec ops t key).isSome := by
  have := hasValue_iff (run_refines ops).1 t key
  rw [C02_get_value, ← Option.isSome_iff_exists] at this
  exact Bool.eq_iff_iff.2 this

/-- **C02** `get_annotations_for_item` lists exactly the annotations of the item, each key once. -/
theorem C02_annotations_for_item (ops : List (Op T N V)) (t : T) :
    (∀ key val, (key, val) ∈ (run ops).annosForItem t ↔ spec ops t key = some val) ∧
      (((run ops).annosForItem t).map Prod.fst).Nodup := by
  refine ⟨?_, nodup_annosForItem (run_refines ops).1 t⟩
  intro key val
  rw [mem_annosForItem (run_refines ops).1, C02_get_value]

/-- **C02** `get_all_keys_for_item` lists exactly the keys of the item, optionally restricted to a (qualified) name. -/
theorem C02_keys_for_item (ops : List (Op T N V)) (t : T) (ns name : Option N) (hns : name = none → ns = none)
    (key : AnnoKey N) :
    key ∈ (run ops).allKeysForItem t ns name ↔
      (spec ops t key).isSome ∧ (∀ n, name = some n → key.name = n) ∧ (∀ n, ns = some n → key.ns = n) := by
  rw [mem_allKeysForItem (run_refines ops).1 t ns name key hns, Option.isSome_iff_exists]
  simp only [C02_get_value]

/-- **C02** Removal returns the removed value / whether something was removed. -/
theorem C02_removal_results (ops : List (Op T N V)) (t : T) (key : AnnoKey N) :
    ((run ops).removeAnno t key).2 = spec ops t key ∧
    (((run ops).removeItem t).2 = true ↔ ∃ key, (spec ops t key).isSome) := by
  have h := (run_refines ops).1
  refine ⟨by rw [(removeAnno_spec h t key).2.1, C02_get_value], ?_⟩
  rw [(removeItem_spec h t).2.1]
  simp only [C02_get_value, Option.isSome_iff_exists]

/-! ## C03 -/

/-- Specification of a search hit. -/
def Hit (m : Spec T N V) (ns : Option N) (name : N) (good : V → Prop) (t : T) (key : AnnoKey N) : Prop :=
  key.name = name ∧ (∀ n, ns = some n → key.ns = n) ∧ ∃ val, m t key = some val ∧ good val

/-- The values a `ValueSearch` accepts. -/
def accepts : ValueSearch V → V → Prop
  | .any, _ => True
  | .some w, v => v = w
  | .notSome w, v => v ≠ w

/-- **C03** `exact_anno_search` returns exactly the matching (item, key) pairs and each of them once. -/
theorem C03_exact_search (ops : List (Op T N V)) (ns : Option N) (name : N) (q : ValueSearch V) :
    (∀ t key, (t, key) ∈ (run ops).exactSearch ns name q ↔ Hit (spec ops) ns name (accepts q) t key) ∧
      ((run ops).exactSearch ns name q).Nodup := by
  have h := (run_refines ops).1
  cases q with
  | any =>
    refine ⟨?_, nodup_allItems h ns name⟩
    intro t key
    simp only [exactSearch, mem_allItems h, keyMatches, Hit, accepts, C02_get_value, and_true, and_assoc]
  | some w =>
    refine ⟨?_, nodup_exact_some h ns name w⟩
    intro t key
    rw [mem_exact_some h]
    simp [keyMatches, Hit, accepts, C02_get_value, and_assoc]
  | notSome w =>
    refine ⟨?_, List.Nodup.filter _ (nodup_allItems h ns name)⟩
    intro t key
    simp only [exactSearch, List.mem_filter, mem_allItems h, keyMatches, Hit, accepts, C02_get_value]
    cases hv : spec ops t key <;> simp [and_assoc]

/-- **C03** `regex_anno_search` with a compiled pattern returns exactly the pairs whose value (does not) match, once each;
a pattern that does not compile gives nothing, or everything when negated. -/
theorem C03_regex_search (ops : List (Op T N V)) (ns : Option N) (name : N) (re : Option (V → Bool)) (neg : Bool) :
    (∀ t key, (t, key) ∈ (run ops).regexSearch ns name re neg ↔
      Hit (spec ops) ns name (fun v => match re with | some p => p v = !neg | none => neg = true) t key) ∧
      ((run ops).regexSearch ns name re neg).Nodup := by
  have h := (run_refines ops).1
  cases re with
  | some p =>
    refine ⟨?_, List.Nodup.filter _ (nodup_allItems h ns name)⟩
    intro t key
    simp only [regexSearch, List.mem_filter, mem_allItems h, keyMatches, Hit, C02_get_value]
    cases hv : spec ops t key with
    | none => simp
    | some w => cases neg <;> simp [and_assoc]
  | none =>
    cases neg with
    | true =>
      have := C03_exact_search ops ns name .any
      refine ⟨fun t key => ?_, this.2⟩
      simp only [regexSearch, if_true]
      rw [this.1]; simp [Hit, accepts]
    | false => simp [regexSearch, Hit]

/-- **C03** The candidate names of an unqualified search are exactly the known keys with this name. -/
theorem C03_qnames (ops : List (Op T N V)) (name : N) (key : AnnoKey N) :
    key ∈ (run ops).qnames name ↔ key.name = name ∧ ∃ t, (spec ops t key).isSome := by
  rw [mem_qnames (run_refines ops).1]
  simp only [C02_get_value, Option.isSome_iff_exists]

/-- **C03** `get_keys_for_iterator` returns, for each given item, exactly its matching keys. -/
theorem C03_keys_for_iterator (ops : List (Op T N V)) (ns name : Option N) (hns : name = none → ns = none)
    (it : List T) (t : T) (key : AnnoKey N) :
    (t, key) ∈ (run ops).keysForIterator ns name it ↔
      t ∈ it ∧ (spec ops t key).isSome ∧ (∀ n, name = some n → key.name = n) ∧ (∀ n, ns = some n → key.ns = n) := by
  have h := (run_refines ops).1
  unfold keysForIterator
  split
  · rename_i name
    split
    · rename_i ns
      have hv := hasValue_iff h
      have hkey : ∀ key : AnnoKey N, (∀ n, some name = some n → key.name = n) ∧ (∀ n, some ns = some n → key.ns = n) ↔
          key = AnnoKey.mk ns name := by
        intro key; rw [key_eq_iff]; simp
      rw [hkey, ← C02_has_value]
      split
      · rename_i k hk
        rw [List.mem_filterMap]
        constructor
        · rintro ⟨t', h1, h2⟩
          split at h2
          · rename_i row hr
            split at h2
            · rename_i hs
              simp only [Option.some.injEq, Prod.mk.injEq] at h2
              obtain ⟨rfl, rfl⟩ := h2
              exact ⟨h1, by simp [hasValue, hk, hr, hs], rfl⟩
            · simp at h2
          · simp at h2
        · rintro ⟨h1, h2, rfl⟩
          refine ⟨t, h1, ?_⟩
          simp only [hasValue, hk] at h2
          cases hr : (run ops).byContainer.get t with
          | none => rw [hr] at h2; simp at h2
          | some row => rw [hr] at h2; simp only at h2; simp [h2]
      · rename_i hk
        simp only [List.not_mem_nil, false_iff]
        rintro ⟨_, h2, rfl⟩
        simp [hasValue, hk] at h2
    · rw [← C02_has_value]
      simp only [List.mem_flatMap, List.mem_filterMap, Option.map_eq_some_iff]
      constructor
      · rintro ⟨t', h1, p, ⟨key', h2, k, h3, rfl⟩, h4⟩
        split at h4
        · rename_i row hr
          split at h4
          · rename_i hs
            simp only [Option.some.injEq, Prod.mk.injEq] at h4
            obtain ⟨rfl, rfl⟩ := h4
            refine ⟨h1, by simp only at hs; simp [hasValue, h3, hr, hs], ?_, by simp⟩
            have := ((mem_qnames h _ _).1 h2).1
            simp [this]
          · simp at h4
        · simp at h4
      · rintro ⟨h1, h2, h3, _⟩
        have h2' := h2
        simp only [hasValue] at h2
        cases hk : (run ops).keys.getSymbol key with
        | none => rw [hk] at h2; simp at h2
        | some k =>
          rw [hk] at h2
          refine ⟨t, h1, (k, key), ⟨key, ?_, k, hk, rfl⟩, ?_⟩
          · rw [mem_qnames h]
            obtain ⟨v, hv⟩ := (hasValue_iff h t key).1 h2'
            exact ⟨h3 _ rfl, t, v, hv⟩
          · cases hr : (run ops).byContainer.get t with
            | none => rw [hr] at h2; simp at h2
            | some row => rw [hr] at h2; simp only at h2; simp [h2]
  · have e := hns rfl
    subst e
    simp only [List.mem_flatMap, List.mem_map, Prod.mk.injEq]
    constructor
    · rintro ⟨t', h1, k', h2, rfl, rfl⟩
      rw [C02_keys_for_item ops t' none none (fun _ => rfl)] at h2
      exact ⟨h1, h2⟩
    · rintro ⟨h1, h2⟩
      exact ⟨t, h1, key, (C02_keys_for_item ops t none none (fun _ => rfl) key).2 h2, rfl, rfl⟩

/-- Name lookup for any consistent state. -/
theorem nodeIdFromName_spec {s : AnnoStore T N V} (h : Inv s) (nameKey : AnnoKey N) (val : V) :
    (∀ t, s.nodeIdFromName nameKey val = some t →
      s.getValue t nameKey = some val ∧ ∀ t', s.getValue t' nameKey = some val → t ≤ t') ∧
    (s.nodeIdFromName nameKey val = none ↔ ∀ t, s.getValue t nameKey ≠ some val) ∧
    (s.hasNodeName nameKey val = true ↔ ∃ t, s.getValue t nameKey = some val) := by
  simp only [ne_eq, getValue_iff h]
  unfold nodeIdFromName hasNodeName
  cases hk : s.keys.getSymbol nameKey with
  | none =>
    have hk' : ∀ k, s.keys.getValue k ≠ some nameKey := by
      intro k hc; rw [← h.keys.sym, hk] at hc; simp at hc
    simp [hk']
  | some k =>
    have hk' := (h.keys.sym _ _).1 hk
    cases hv : s.vals.getSymbol val with
    | none =>
      have hv' : ∀ v, s.vals.getValue v ≠ some val := by
        intro v hc; rw [← h.vals.sym, hv] at hc; simp at hc
      simp [hv']
    | some v =>
      have hv' := (h.vals.sym _ _).1 hv
      have hred : ∀ t, (∃ k v, s.keys.getValue k = some nameKey ∧ s.vals.getValue v = some val ∧
          has s.byAnno k v t) ↔ has s.byAnno k v t := by
        intro t
        constructor
        · rintro ⟨k2, v2, a, b, c⟩
          have e1 := h.keys.unique a hk'
          have e2 := h.vals.unique b hv'
          rw [e1, e2] at c; exact c
        · intro c; exact ⟨k, v, hk', hv', c⟩
      simp only [hred, Option.bind_eq_bind, Option.bind_some]
      unfold has
      cases h1 : s.byAnno.get k with
      | none => simp
      | some vm =>
        simp only [Option.bind_some, Option.some.injEq]
        cases h2 : vm.get v with
        | none => simp [h2]
        | some items =>
          have hit := h.byAnno.items _ _ _ _ h1 h2
          cases items with
          | nil => exact absurd rfl hit.2
          | cons p r =>
            obtain ⟨t0, u⟩ := p
            have hs := OMap.sorted_cons.1 hit.1
            refine ⟨?_, ?_, ?_⟩
            · intro t ht
              simp [OMap.keys] at ht
              subst ht
              refine ⟨⟨vm, _, rfl, h2, by simp [OMap.get]⟩, ?_⟩
              rintro t' ⟨vm', items', rfl, h3, h4⟩
              rw [h2] at h3; injection h3 with h3; subst h3
              have := OMap.mem_of_get h4
              rcases List.mem_cons.1 this with e | e
              · simp only [Prod.mk.injEq] at e; exact le_of_eq e.1.symm
              · exact le_of_lt (hs.1 _ e)
            · simp only [Option.bind_some, OMap.keys, List.map_cons, List.head?_cons, reduceCtorEq, false_iff]
              intro hc
              exact hc t0 ⟨vm, _, rfl, h2, by simp [OMap.get]⟩
            · simp only [Option.bind_some, pure, Option.getD_some, decide_eq_true_eq]
              constructor
              · intro _; exact ⟨t0, vm, _, rfl, h2, by simp [OMap.get]⟩
              · intro _; simp

/-- **C03** Name lookup: a hit is the smallest item whose name annotation has that value; a miss means there is none. -/
theorem C03_node_id_from_name (ops : List (Op T N V)) (nameKey : AnnoKey N) (val : V) :
    (∀ t, (run ops).nodeIdFromName nameKey val = some t →
      spec ops t nameKey = some val ∧ ∀ t', spec ops t' nameKey = some val → t ≤ t') ∧
    ((run ops).nodeIdFromName nameKey val = none ↔ ∀ t, spec ops t nameKey ≠ some val) ∧
    ((run ops).hasNodeName nameKey val = true ↔ ∃ t, spec ops t nameKey = some val) := by
  simp only [← C02_get_value]
  exact nodeIdFromName_spec (run_refines ops).1 nameKey val


/-- `insert` never lowers the largest item and covers the new one. -/
theorem largest_insert {s : AnnoStore T N V} (h : Inv s) (t : T) (key : AnnoKey N) (val : V) :
    (∃ l, (s.insert t key val).largest = some l ∧ t ≤ l) ∧
    ∀ l, s.largest = some l → ∃ l', (s.insert t key val).largest = some l' ∧ l ≤ l' := by
  refine ⟨?_, ?_⟩
  · have hg := getValue_insert h t key val t key
    rw [if_pos ⟨rfl, rfl⟩] at hg
    have hI := h.insert t key val
    unfold getValue at hg
    cases hr : (s.insert t key val).byContainer.get t with
    | none => simp [hr] at hg
    | some row => exact hI.larg t row hr
  · intro l hl
    unfold AnnoStore.insert
    simp only
    split
    · split
      · exact ⟨l, hl, le_refl _⟩
      · exact ⟨l, hl, le_refl _⟩
    · simp only [hl]
      split
      · rename_i hlt; exact ⟨t, rfl, le_of_lt hlt⟩
      · exact ⟨l, rfl, le_refl _⟩

theorem largest_dropAnno (s : AnnoStore T N V) (t : T) (k v : Nat) (key : Option (AnnoKey N)) :
    (dropAnno s t k v key).largest = s.largest := by
  unfold dropAnno
  cases key with
  | none => rfl
  | some key =>
    simp only
    split <;> rfl

/-- Removing an annotation keeps the largest item. -/
theorem largest_removeAnno (s : AnnoStore T N V) (t : T) (key : AnnoKey N) : (s.removeAnno t key).1.largest = s.largest := by
  unfold removeAnno
  split
  · rfl
  · split
    · rfl
    · split
      · rfl
      · rename_i k _ _ row _ _ v _; exact largest_dropAnno s t k v (some key)

theorem largest_removeItemLoop (t : T) (row : OMap Nat Nat) : ∀ (s : AnnoStore T N V),
    (removeItemLoop s t row).largest = s.largest := by
  induction row with
  | nil => intro s; rfl
  | cons p r ih =>
    intro s
    obtain ⟨k, v⟩ := p
    unfold removeItemLoop
    rw [ih, largest_dropAnno]

/-- Removing an item keeps the largest item. -/
theorem largest_removeItem (s : AnnoStore T N V) (t : T) : (s.removeItem t).1.largest = s.largest := by
  unfold removeItem
  split
  · rfl
  · exact largest_removeItemLoop _ _ _

/-! ## C04 -/

/-- `L` enumerates without repetition all annotations `(item, key)` of the map that satisfy `p`. -/
def Enumerates (m : Spec T N V) (p : T → AnnoKey N → Prop) (L : List (T × AnnoKey N)) : Prop :=
  L.Nodup ∧ ∀ t key, (t, key) ∈ L ↔ (m t key).isSome ∧ p t key

/-- The enumeration used in the proofs. -/
def enumAll (s : AnnoStore T N V) : List (T × AnnoKey N) :=
  s.byContainer.flatMap fun p => p.2.filterMap fun q => (s.keys.getValue q.1).map fun key => (p.1, key)

theorem length_filterMap_of_some {A B : Type} (f : A → Option B) (l : List A) (h : ∀ a ∈ l, (f a).isSome) :
    (l.filterMap f).length = l.length := by
  induction l with
  | nil => rfl
  | cons a r ih =>
    obtain ⟨b, hb⟩ := Option.isSome_iff_exists.1 (h a (by simp))
    simp [hb, ih (fun x hx => h x (by simp [hx]))]

theorem enumAll_spec {s : AnnoStore T N V} (h : Inv s) :
    (enumAll s).Nodup ∧ (∀ t key, (t, key) ∈ enumAll s ↔ (s.getValue t key).isSome) ∧
      (enumAll s).length = rowSum s.byContainer := by
  have hmem : ∀ {t row}, (t, row) ∈ s.byContainer → s.byContainer.get t = some row :=
    fun hm => OMap.get_of_mem h.cSorted hm
  refine ⟨?_, ?_, ?_⟩
  · unfold enumAll
    rw [List.nodup_flatMap]
    constructor
    · rintro ⟨t, row⟩ hm
      unfold List.Nodup
      rw [List.pairwise_filterMap]
      refine (h.cRow _ _ (hmem hm)).1.imp ?_
      rintro ⟨k1, v1⟩ ⟨k2, v2⟩ hlt p hp q hq e
      simp only [Option.map_eq_some_iff] at hp hq
      obtain ⟨key1, h1, rfl⟩ := hp
      obtain ⟨key2, h2, rfl⟩ := hq
      simp only [Prod.mk.injEq, true_and] at e
      subst e
      exact absurd (h.keys.unique h1 h2) (ne_of_lt hlt)
    · refine h.cSorted.imp ?_
      intro a b hab p hp hq
      simp only [List.mem_filterMap, Option.map_eq_some_iff] at hp hq
      obtain ⟨_, _, _, _, rfl⟩ := hp
      obtain ⟨_, _, _, _, e⟩ := hq
      simp only [Prod.mk.injEq] at e
      exact absurd e.1.symm (ne_of_lt hab)
  · intro t key
    simp only [Option.isSome_iff_exists, getValue_iff h]
    unfold enumAll
    simp only [List.mem_flatMap, List.mem_filterMap, Option.map_eq_some_iff, Prod.mk.injEq]
    constructor
    · rintro ⟨⟨t', row⟩, h1, ⟨k, v⟩, h2, key', h3, rfl, rfl⟩
      have hr := hmem h1
      have hh := (h.mirror k v t').2 (by simp [cell, hr, OMap.get_of_mem (h.cRow _ _ hr).1 h2])
      obtain ⟨val, hv⟩ := h.liveV _ _ _ hh
      exact ⟨val, k, v, h3, hv, hh⟩
    · rintro ⟨val, k, v, h1, h2, h3⟩
      rw [h.mirror] at h3
      unfold cell at h3
      cases hr : s.byContainer.get t with
      | none => rw [hr] at h3; simp at h3
      | some row =>
        rw [hr] at h3
        exact ⟨(t, row), OMap.mem_of_get hr, (k, v), OMap.mem_of_get h3, key, h1, rfl, rfl⟩
  · unfold enumAll rowSum OMap.sumBy
    rw [List.length_flatMap]
    congr 1
    apply List.map_congr_left
    rintro ⟨t, row⟩ hm
    apply length_filterMap_of_some
    rintro ⟨k, v⟩ hkv
    have hr := hmem hm
    obtain ⟨key, hk⟩ := h.liveK k v t
      ((h.mirror k v t).2 (by simp [cell, hr, OMap.get_of_mem (h.cRow _ _ hr).1 hkv]))
    simp [hk]

/-- `total - rowSum` only changes at `clear`. -/
theorem total_inv (ops : List (Op T N V)) :
    rowSum (run ops).byContainer ≤ (run ops).total ∧
      ((∀ op ∈ ops, op ≠ Op.clear) → (run ops).total = rowSum (run ops).byContainer) := by
  unfold run
  suffices H : ∀ (s : AnnoStore T N V), Inv s → rowSum s.byContainer ≤ s.total →
      rowSum (ops.foldl step s).byContainer ≤ (ops.foldl step s).total ∧
      ((∀ op ∈ ops, op ≠ Op.clear) → s.total = rowSum s.byContainer →
        (ops.foldl step s).total = rowSum (ops.foldl step s).byContainer) by
    obtain ⟨a, b⟩ := H new Inv.new (by simp [new, rowSum, OMap.sumBy])
    exact ⟨a, fun h => b h (by simp [new, rowSum, OMap.sumBy])⟩
  induction ops with
  | nil => intro s _ h; exact ⟨h, fun _ h => h⟩
  | cons op ops ih =>
    intro s h hle
    simp only [List.foldl_cons]
    have hI : Inv (s.step op) := by
      cases op with
      | insert t key val => exact h.insert t key val
      | removeAnno t key => exact (removeAnno_spec h t key).1
      | removeItem t => exact (removeItem_spec h t).1
      | clear => exact Inv.clear s
      | saveLoad => simpa [step, saveLoad_eq h] using h
    have hstep : op ≠ Op.clear → (s.step op).total + rowSum s.byContainer = s.total + rowSum (s.step op).byContainer := by
      intro hne
      cases op with
      | insert t key val => exact total_insert h t key val
      | removeAnno t key => exact total_removeAnno h hle t key
      | removeItem t => exact total_removeItem hle t
      | clear => exact absurd rfl hne
      | saveLoad => simp [step, saveLoad]
    have hle' : rowSum (s.step op).byContainer ≤ (s.step op).total := by
      by_cases e : op = Op.clear
      · subst e; simp [step, clear, rowSum, OMap.sumBy]
      · have := hstep e; omega
    obtain ⟨a, b⟩ := ih (s.step op) hI hle'
    refine ⟨a, fun hc heq => b (fun o ho => hc o (by simp [ho])) ?_⟩
    have := hstep (hc op (by simp))
    omega

/-- **C04** (partial: `clear` is excluded) For every history without `clear`, `number_of_annotations` is the number of
annotations and `is_empty` says whether there is none.  Full statement: the same for all histories; it is false, see
`C04_number_of_annotations_fails_after_clear`. -/
theorem C04_number_of_annotations_partial (ops : List (Op T N V)) (hc : ∀ op ∈ ops, op ≠ Op.clear) :
    (∃ L, Enumerates (spec ops) (fun _ _ => True) L ∧ (run ops).numAnnos = L.length) ∧
    ((run ops).isEmpty = true ↔ ∀ t key, spec ops t key = none) := by
  have h := (run_refines ops).1
  obtain ⟨h1, h2, h3⟩ := enumAll_spec h
  have ht := (total_inv ops).2 hc
  simp only [C02_get_value] at h2
  refine ⟨⟨enumAll (run ops), ⟨h1, by simpa using h2⟩, by rw [h3]; exact ht⟩, ?_⟩
  unfold isEmpty
  rw [decide_eq_true_eq, ht, ← h3, List.length_eq_zero_iff, List.eq_nil_iff_forall_not_mem]
  constructor
  · intro hn t key
    have := hn (t, key)
    rw [h2] at this
    cases hs : spec ops t key with
    | none => rfl
    | some v => rw [hs] at this; simp at this
  · rintro hn ⟨t, key⟩ hm
    rw [h2, hn] at hm; simp at hm

/-- **C04** The disagreement found in the code: after `clear` the storage is empty, but `number_of_annotations` still
reports the old number and `is_empty` is false. -/
theorem C04_number_of_annotations_fails_after_clear :
    let ops : List (Op Nat Nat Nat) := [.insert 1 (AnnoKey.mk 0 7) 3, .clear]
    (∀ t key, spec ops t key = none) ∧ (run ops).numAnnos = 1 ∧ (run ops).isEmpty = false := by
  refine ⟨?_, by decide, by decide⟩
  intro t key
  simp [spec, specStep]

/-- **C04** The counter never underflows: in every history the number reported is at least the true number of annotations. -/
theorem C04_no_underflow (ops : List (Op T N V)) :
    ∃ L, Enumerates (spec ops) (fun _ _ => True) L ∧ L.length ≤ (run ops).numAnnos := by
  have h := (run_refines ops).1
  obtain ⟨h1, h2, h3⟩ := enumAll_spec h
  simp only [C02_get_value] at h2
  exact ⟨enumAll (run ops), ⟨h1, by simpa using h2⟩, by rw [h3]; exact (total_inv ops).1⟩

theorem annotationKeys_exact {s : AnnoStore T N V} (h : Inv s) :
    (∀ key, key ∈ s.annotationKeys ↔ ∃ t v, s.getValue t key = some v) ∧ s.annotationKeys.Pairwise (· < ·) := by
  refine ⟨fun key => ?_, OMap.sorted_keys h.szSorted⟩
  have := known_iff h key
  simpa [annotationKeys, Option.isSome_iff_exists] using this

/-- **C04** `annotation_keys` lists exactly the keys in use, each once, in ascending order. -/
theorem C04_annotation_keys (ops : List (Op T N V)) :
    (∀ key, key ∈ (run ops).annotationKeys ↔ ∃ t, (spec ops t key).isSome) ∧
      (run ops).annotationKeys.Pairwise (· < ·) := by
  have h := (run_refines ops).1
  refine ⟨?_, OMap.sorted_keys h.szSorted⟩
  intro key
  have := known_iff h key
  simp only [C02_get_value] at this
  simpa [annotationKeys, Option.isSome_iff_exists] using this

theorem cell_isSome_iff {s : AnnoStore T N V} (h : Inv s) {k : Nat} {key : AnnoKey N} (hk : s.keys.getValue k = some key) {t : T} :
    (cell s.byContainer t k).isSome ↔ (s.getValue t key).isSome := by
  simp only [Option.isSome_iff_exists, getValue_iff h]
  constructor
  · rintro ⟨v, hv⟩
    have hh := (h.mirror _ _ _).2 hv
    obtain ⟨val, h1⟩ := h.liveV _ _ _ hh
    exact ⟨val, k, v, hk, h1, hh⟩
  · rintro ⟨val, k', v, h1, _, h3⟩
    have : k' = k := h.keys.unique h1 hk
    subst this
    exact ⟨v, (h.mirror _ _ _).1 h3⟩

/-- The items with a key symbol. -/
def itemsOf (s : AnnoStore T N V) (k : Nat) : List T :=
  (s.byContainer.filter fun p => (p.2.get k).isSome).map Prod.fst

theorem itemsOf_spec {s : AnnoStore T N V} (h : Inv s) {k : Nat} {key : AnnoKey N} (hk : s.keys.getValue k = some key) :
    (itemsOf s k).Nodup ∧ (∀ t, t ∈ itemsOf s k ↔ (s.getValue t key).isSome) ∧
      cnt s.byContainer k = (itemsOf s k).length := by
  unfold itemsOf
  refine ⟨?_, ?_, ?_⟩
  · exact List.Nodup.sublist (List.Sublist.map _ List.filter_sublist) (OMap.nodup_keys h.cSorted)
  · intro t
    rw [← cell_isSome_iff h hk]
    simp only [List.mem_map, List.mem_filter]
    constructor
    · rintro ⟨⟨t', row⟩, ⟨h1, h2⟩, rfl⟩
      simpa [cell, OMap.get_of_mem h.cSorted h1] using h2
    · intro hc
      unfold cell at hc
      cases hr : s.byContainer.get t with
      | none => rw [hr] at hc; simp at hc
      | some row => rw [hr] at hc; exact ⟨(t, row), ⟨OMap.mem_of_get hr, hc⟩, rfl⟩
  · simp [cnt, OMap.countP, List.countP_eq_length_filter]

theorem sizes_filter_sum {s : AnnoStore T N V} (h : Inv s) (q : AnnoKey N → Bool) :
    ∃ L : List (T × AnnoKey N), L.Nodup ∧ (∀ t key, (t, key) ∈ L ↔ (s.getValue t key).isSome ∧ q key = true) ∧
      ((s.sizes.filter fun p => q p.1).map Prod.snd).sum = L.length := by
  refine ⟨(s.sizes.filter fun p => q p.1).flatMap fun p =>
    match s.keys.getSymbol p.1 with
    | some k => (itemsOf s k).map fun t => (t, p.1)
    | none => [], ?_, ?_, ?_⟩
  · rw [List.nodup_flatMap]
    constructor
    · rintro ⟨key, n⟩ hm
      simp only
      split
      · rename_i k hk
        refine List.Nodup.map ?_ (itemsOf_spec h ((h.keys.sym _ _).1 hk)).1
        intro a b hab; simpa using hab
      · simp
    · refine (List.Pairwise.sublist List.filter_sublist h.szSorted).imp ?_
      intro a b hab x hx hy
      simp only at hx hy
      split at hx
      · split at hy
        · rw [List.mem_map] at hx hy
          obtain ⟨_, _, rfl⟩ := hx
          obtain ⟨_, _, e⟩ := hy
          simp only [Prod.mk.injEq] at e
          exact absurd e.2.symm (ne_of_lt hab)
        · simp at hy
      · simp at hx
  · intro t key
    simp only [List.mem_flatMap, List.mem_filter]
    constructor
    · rintro ⟨⟨key', n⟩, ⟨h1, h2⟩, h3⟩
      simp only at h3
      split at h3
      · rename_i k hk
        rw [List.mem_map] at h3
        obtain ⟨t', h3, e⟩ := h3
        simp only [Prod.mk.injEq] at e
        obtain ⟨rfl, rfl⟩ := e
        exact ⟨((itemsOf_spec h ((h.keys.sym _ _).1 hk)).2.1 t').1 h3, h2⟩
      · simp at h3
    · rintro ⟨h1, h2⟩
      obtain ⟨v, hv⟩ := Option.isSome_iff_exists.1 h1
      obtain ⟨k, _, hk, _, _⟩ := (getValue_iff h _ _ _).1 hv
      have hs := (h.keys.sym _ _).2 hk
      obtain ⟨n, hn⟩ := h.szc _ _ hs
      refine ⟨(key, n), ⟨OMap.mem_of_get hn, h2⟩, ?_⟩
      simp only [hs]
      rw [List.mem_map]
      exact ⟨t, ((itemsOf_spec h hk).2.1 t).2 h1, rfl⟩
  · rw [List.length_flatMap]
    congr 1
    apply List.map_congr_left
    rintro ⟨key, n⟩ hm
    have hn := OMap.get_of_mem h.szSorted (List.mem_filter.1 hm).1
    obtain ⟨k, h1, h2, _⟩ := h.sz _ _ hn
    simp only [h1, List.length_map]
    rw [h2]; exact (itemsOf_spec h ((h.keys.sym _ _).1 h1)).2.2

/-- **C04** `number_of_annotations_by_name` with a namespace is the number of annotations with this qualified name. -/
theorem C04_number_by_qname (ops : List (Op T N V)) (top ns name : N) :
    ∃ L, Enumerates (spec ops) (fun _ key => key.ns = ns ∧ key.name = name) L ∧
      (run ops).numByName top (some ns) name = L.length := by
  have h := (run_refines ops).1
  obtain ⟨L, h1, h2, h3⟩ := sizes_filter_sum h (fun key => decide (key = AnnoKey.mk ns name))
  simp only [C02_get_value] at h2
  refine ⟨L, ⟨h1, ?_⟩, h3⟩
  intro t key
  rw [h2, decide_eq_true_eq, key_eq_iff]
  simp [and_comm]

/-- **C04** (partial: needs all namespaces below the upper bound `char::MAX` used by the code) Without a namespace it is the
number of annotations with this name in any namespace. -/
theorem C04_number_by_name_partial (ops : List (Op T N V)) (top name : N)
    (htop : ∀ t key, (spec ops t key).isSome → key.name = name → key.ns < top) :
    ∃ L, Enumerates (spec ops) (fun _ key => key.name = name) L ∧
      (run ops).numByName top none name = L.length := by
  have h := (run_refines ops).1
  obtain ⟨L, h1, h2, h3⟩ := sizes_filter_sum h
    (fun key => decide (AnnoKey.mk ⊥ name ≤ key ∧ key < AnnoKey.mk top name))
  simp only [C02_get_value] at h2
  refine ⟨L, ⟨h1, ?_⟩, h3⟩
  intro t key
  rw [h2, decide_eq_true_eq]
  constructor
  · rintro ⟨h4, h5, h6⟩
    refine ⟨h4, ?_⟩
    rw [← not_lt] at h5
    rw [key_lt_iff] at h5 h6
    simp only [name_mk, ns_mk, not_or, not_lt] at h5 h6
    rcases h6 with h6 | h6
    · exact absurd h6 (not_lt.2 h5.1)
    · exact h6.1
  · rintro ⟨h4, h5⟩
    refine ⟨h4, ?_, ?_⟩
    · rw [← not_lt, key_lt_iff]
      simp only [name_mk, ns_mk, not_or, not_lt, h5, le_refl, true_and]
      exact bot_le
    · rw [key_lt_iff]
      exact Or.inr ⟨h5, htop t key h4 h5⟩

/-- **C04** The bound matters: an annotation whose namespace is not below the upper bound is not counted. -/
theorem C04_number_by_name_fails_at_bound :
    let ops : List (Op Nat Nat Nat) := [.insert 1 (AnnoKey.mk 9 7) 3]
    spec ops 1 (AnnoKey.mk 9 7) = some 3 ∧ (run ops).numByName 9 none 7 = 0 := by
  decide

/-- **C04** `get_largest_item` is at least every annotated item (after removals it may be larger). -/
theorem C04_largest_item (ops : List (Op T N V)) (t : T) (key : AnnoKey N) (h : (spec ops t key).isSome) :
    ∃ l, (run ops).largestItem = some l ∧ t ≤ l := by
  have hI := (run_refines ops).1
  rw [← C02_get_value] at h
  obtain ⟨val, hv⟩ := Option.isSome_iff_exists.1 h
  unfold getValue at hv
  simp only [bind, Option.bind_eq_some_iff] at hv
  obtain ⟨_, _, row, hr, _⟩ := hv
  exact hI.larg t row hr

/-! ## C05 -/

/-- `f v` is the number of items annotated with `key = v`. -/
def IsFrequency (m : Spec T N V) (key : AnnoKey N) (f : V → Nat) : Prop :=
  ∀ v, ∃ I : List T, I.Nodup ∧ (∀ t, t ∈ I ↔ m t key = some v) ∧ f v = I.length

theorem isFrequency_unique {m : Spec T N V} {key : AnnoKey N} {f g : V → Nat} (hf : IsFrequency m key f)
    (hg : IsFrequency m key g) : f = g := by
  funext v
  obtain ⟨I, h1, h2, h3⟩ := hf v
  obtain ⟨J, h4, h5, h6⟩ := hg v
  rw [h3, h6]
  have h7 : I ⊆ J := fun t ht => (h5 t).2 ((h2 t).1 ht)
  have h8 : J ⊆ I := fun t ht => (h2 t).2 ((h5 t).1 ht)
  exact le_antisymm (List.Nodup.subperm h1 h7).length_le (List.Nodup.subperm h4 h8).length_le

/-- The value/items pairs behind `allValues`. -/
theorem vm_values {s : AnnoStore T N V} (h : Inv s) {k : Nat} {key : AnnoKey N} {vm : OMap Nat (OMap T Unit)}
    (hk : s.keys.getValue k = some key) (hvm : s.byAnno.get k = some vm) :
    (∀ p ∈ vm, ∃ val, s.vals.getValue p.1 = some val ∧ ∀ t, t ∈ p.2.keys ↔ s.getValue t key = some val) ∧
    (∀ t val, s.getValue t key = some val → ∃ p ∈ vm, s.vals.getValue p.1 = some val) := by
  have hs := (h.byAnno.vm _ _ hvm).1
  constructor
  · rintro ⟨v, items⟩ hm
    have hg := OMap.get_of_mem hs hm
    obtain ⟨t0, ht0⟩ := h.byAnno.exists_item hvm hg
    obtain ⟨val, hv⟩ := h.liveV _ _ _ ht0
    refine ⟨val, hv, ?_⟩
    intro t
    rw [OMap.mem_keys_iff, getValue_iff h]
    constructor
    · rintro ⟨u, hu⟩; exact ⟨k, v, hk, hv, vm, items, hvm, hg, hu⟩
    · rintro ⟨k', v', h1, h2, vm', items', h3, h4, h5⟩
      have e1 : k' = k := h.keys.unique h1 hk
      have e2 : v' = v := h.vals.unique h2 hv
      subst e1 e2
      rw [hvm] at h3; injection h3 with h3; subst h3
      rw [hg] at h4; injection h4 with h4; subst h4
      exact ⟨(), h5⟩
  · intro t val hv
    obtain ⟨k', v', h1, h2, vm', items', h3, h4, h5⟩ := (getValue_iff h _ _ _).1 hv
    have e1 : k' = k := h.keys.unique h1 hk
    subst e1
    rw [hvm] at h3; injection h3 with h3; subst h3
    exact ⟨(v', items'), OMap.mem_of_get h4, h2⟩

theorem allValues_exact {s : AnnoStore T N V} (h : Inv s) (key : AnnoKey N) (mff : Bool) :
    (∀ v, v ∈ s.allValues key mff ↔ ∃ t, s.getValue t key = some v) ∧ (s.allValues key mff).Nodup := by
  unfold allValues
  split
  · rename_i hk
    refine ⟨?_, by simp⟩
    intro v
    simp [getValue, hk]
  · rename_i k hk
    have hk' := (h.keys.sym _ _).1 hk
    split
    · rename_i hvm
      refine ⟨?_, by simp⟩
      intro v
      simp only [List.not_mem_nil, false_iff]
      rintro ⟨t, ht⟩
      obtain ⟨k', v', h1, _, vm', _, h3, _⟩ := (getValue_iff h _ _ _).1 ht
      have e1 : k' = k := h.keys.unique h1 hk'
      subst e1
      rw [hvm] at h3; simp at h3
    · rename_i vm hvm
      obtain ⟨h1, h2⟩ := vm_values h hk' hvm
      have hs := (h.byAnno.vm _ _ hvm).1
      have base : (∀ v, v ∈ vm.filterMap (fun p => s.vals.getValue p.1) ↔
          ∃ t, s.getValue t key = some v) ∧ (vm.filterMap (fun p => s.vals.getValue p.1)).Nodup := by
        constructor
        · intro v
          rw [List.mem_filterMap]
          constructor
          · rintro ⟨p, hp, hv⟩
            obtain ⟨val, h3, h4⟩ := h1 p hp
            rw [h3] at hv; injection hv with hv; subst hv
            have hne := (h.byAnno.items _ _ p.1 p.2 hvm (OMap.get_of_mem hs hp)).2
            obtain ⟨t, u, ht⟩ := exists_get_of_ne_nil hne
            exact ⟨t, (h4 t).1 (OMap.mem_keys_iff.2 ⟨u, ht⟩)⟩
          · rintro ⟨t, ht⟩; exact h2 t v ht
        · unfold List.Nodup
          rw [List.pairwise_filterMap]
          refine hs.imp ?_
          intro a b hab x hx y hy e
          subst e
          exact absurd (h.vals.unique hx hy) (ne_of_lt hab)
      split
      · have hperm : ((((vm.filterMap fun p => (s.vals.getValue p.1).map fun v => toLex (p.2.length, v)).mergeSort
            fun a b => decide (a ≤ b)).reverse).map fun p => (ofLex p).2).Perm
            (vm.filterMap (fun p => s.vals.getValue p.1)) := by
          have e : (vm.filterMap fun p => (s.vals.getValue p.1).map fun v => toLex (p.2.length, v)).map
              (fun p => (ofLex p).2) = vm.filterMap (fun p => s.vals.getValue p.1) := by
            rw [List.map_filterMap]
            congr 1
            funext p
            cases s.vals.getValue p.1 <;> simp
          rw [← e]
          exact ((List.reverse_perm _).trans (List.mergeSort_perm _ _)).map _
        refine ⟨fun v => ?_, ?_⟩
        · rw [← base.1 v]; exact hperm.mem_iff
        · exact hperm.nodup_iff.2 base.2
      · exact base

/-- **C05** `get_all_values` lists exactly the values in use for the key, each once (both orders). -/
theorem C05_all_values (ops : List (Op T N V)) (key : AnnoKey N) (mff : Bool) :
    (∀ v, v ∈ (run ops).allValues key mff ↔ ∃ t, spec ops t key = some v) ∧
      ((run ops).allValues key mff).Nodup := by
  simp only [← C02_get_value]
  exact allValues_exact (run_refines ops).1 key mff

theorem allValues_frequent {s : AnnoStore T N V} (h : Inv s) (key : AnnoKey N) :
    ∃ f, IsFrequency (fun t key => s.getValue t key) key f ∧
      (s.allValues key true).Pairwise (fun a b => f b < f a ∨ (f b = f a ∧ b ≤ a)) := by
  cases hk : s.keys.getSymbol key with
  | none =>
    refine ⟨fun _ => 0, ?_, by simp [allValues, hk]⟩
    intro v
    exact ⟨[], by simp, by simp [getValue, hk], rfl⟩
  | some k =>
    have hk' := (h.keys.sym _ _).1 hk
    cases hvm : s.byAnno.get k with
    | none =>
      refine ⟨fun _ => 0, ?_, by simp [allValues, hk, hvm]⟩
      intro v
      refine ⟨[], by simp, ?_, rfl⟩
      intro t
      simp only [List.not_mem_nil, false_iff]
      intro ht
      obtain ⟨k', v', h1, _, vm', _, h3, _⟩ := (getValue_iff h _ _ _).1 ht
      have e1 : k' = k := h.keys.unique h1 hk'
      subst e1
      rw [hvm] at h3; simp at h3
    | some vm =>
      obtain ⟨h1, h2⟩ := vm_values h hk' hvm
      have hs := (h.byAnno.vm _ _ hvm).1
      let f : V → Nat := fun v => match s.vals.getSymbol v with
        | some vs => ((vm.get vs).getD []).length
        | none => 0
      have hf : IsFrequency (fun t key => s.getValue t key) key f := by
        intro v
        cases hv : s.vals.getSymbol v with
        | none =>
          refine ⟨[], by simp, ?_, by simp [f, hv]⟩
          intro t
          simp only [List.not_mem_nil, false_iff]
          intro ht
          obtain ⟨_, v', _, h4, _⟩ := (getValue_iff h _ _ _).1 ht
          rw [← h.vals.sym, hv] at h4; simp at h4
        | some vs =>
          have hv' := (h.vals.sym _ _).1 hv
          cases hg : vm.get vs with
          | none =>
            refine ⟨[], by simp, ?_, by simp [f, hv, hg]⟩
            intro t
            simp only [List.not_mem_nil, false_iff]
            intro ht
            obtain ⟨k', v', h3, h4, vm', items', h5, h6, h7⟩ := (getValue_iff h _ _ _).1 ht
            have e1 : k' = k := h.keys.unique h3 hk'
            have e2 : v' = vs := h.vals.unique h4 hv'
            subst e1 e2
            rw [hvm] at h5; injection h5 with h5; subst h5
            rw [hg] at h6; simp at h6
          | some items =>
            obtain ⟨val, h3, h4⟩ := h1 (vs, items) (OMap.mem_of_get hg)
            have : val = v := by rw [hv'] at h3; injection h3 with h3; exact h3.symm
            subst this
            exact ⟨items.keys, OMap.nodup_keys (h.byAnno.items _ _ _ _ hvm hg).1, h4, by simp [f, hv, hg, OMap.keys]⟩
      refine ⟨f, hf, ?_⟩
      simp only [allValues, hk, hvm, if_true]
      rw [List.pairwise_map, List.pairwise_reverse]
      have hsorted := List.pairwise_mergeSort (le := fun (a b : Nat ×ₗ V) => decide (a ≤ b))
        (by intro a b c; simpa using le_trans) (by intro a b; simpa using le_total a b)
        (vm.filterMap fun p => (s.vals.getValue p.1).map fun v => toLex (p.2.length, v))
      have hmem : ∀ x ∈ ((vm.filterMap fun p => (s.vals.getValue p.1).map fun v =>
          (toLex (p.2.length, v) : Nat ×ₗ V)).mergeSort fun a b => decide (a ≤ b)), (ofLex x).1 = f (ofLex x).2 := by
        intro x hx
        rw [(List.mergeSort_perm _ _).mem_iff, List.mem_filterMap] at hx
        obtain ⟨p, hp, hx⟩ := hx
        rw [Option.map_eq_some_iff] at hx
        obtain ⟨v, hv, rfl⟩ := hx
        have := (h.vals.sym _ _).2 hv
        simp [f, this, OMap.get_of_mem hs hp]
      refine List.Pairwise.imp_of_mem ?_ hsorted
      intro a b ha hb hab
      rw [decide_eq_true_eq] at hab
      rw [← hmem a ha, ← hmem b hb]
      exact Prod.Lex.le_iff.1 hab

/-- **C05** With `most_frequent_first` the values are ordered by descending frequency (ties: descending value). -/
theorem C05_most_frequent_first (ops : List (Op T N V)) (key : AnnoKey N) :
    ∃ f, IsFrequency (spec ops) key f ∧
      ((run ops).allValues key true).Pairwise (fun a b => f b < f a ∨ (f b = f a ∧ b ≤ a)) := by
  have hspec : spec ops = fun t key => (run ops).getValue t key := by funext t key; rw [C02_get_value]
  rw [hspec]
  exact allValues_frequent (run_refines ops).1 key

/-! ## Non-vacuity -/

/-- A concrete history: two items, a replaced value, a key in two namespaces, removals. -/
def demo : List (Op Nat Nat Nat) :=
  [.insert 1 (AnnoKey.mk 0 7) 30, .insert 2 (AnnoKey.mk 0 7) 31, .insert 3 (AnnoKey.mk 5 7) 30,
   .insert 1 (AnnoKey.mk 0 7) 31, .insert 2 (AnnoKey.mk 0 8) 40, .insert 4 (AnnoKey.mk 0 7) 32,
   .removeAnno 2 (AnnoKey.mk 0 8), .saveLoad, .removeItem 3]

example : (run demo).exactSearch none 7 .any = [(1, AnnoKey.mk 0 7), (2, AnnoKey.mk 0 7), (4, AnnoKey.mk 0 7)] ∧
    (run demo).exactSearch (some 0) 7 (.some 31) = [(1, AnnoKey.mk 0 7), (2, AnnoKey.mk 0 7)] ∧
    (run demo).numAnnos = 3 ∧ (run demo).numByName 9 none 7 = 3 ∧
    (run demo).annotationKeys = [AnnoKey.mk 0 7] ∧
    (run demo).nodeIdFromName (AnnoKey.mk 0 7) 31 = some 1 ∧ (run demo).largestItem = some 4 := by
  decide

/-- The hypothesis of `C04_number_of_annotations_partial` is met by the demo history. -/
example : ∀ op ∈ demo, op ≠ Op.clear := by simp [demo]

/-- The hypothesis of `C04_number_by_name_partial` is met by the demo history (bound 9). -/
example : ∀ t key, (spec demo t key).isSome → key.name = 7 → key.ns < 9 := by
  intro t key
  simp only [demo, spec, List.foldl, specStep]
  intro h _
  repeat' split at h
  all_goals first
    | (simp at h; done)
    | (rename_i c; rcases c with ⟨_, rfl⟩; decide)

end AnnoStore
