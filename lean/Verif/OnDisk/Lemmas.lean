import Verif.OnDisk.Model
import Verif.Anno.Props

set_option linter.unusedSimpArgs false
set_option linter.unusedSectionVars false

namespace DiskMap
variable {K V : Type} [LinearOrder K]

theorem insert_spec' {d : DiskMap K V} (h : Inv d) (k : K) (v : V) :
    Inv (d.insert k v) ∧ (d.insert k v).iter = d.iter.insert k v := by
  obtain ⟨a, b⟩ := put_spec h k (some v)
  obtain ⟨c, e⟩ := iter_spec h
  obtain ⟨c', e'⟩ := iter_spec a
  refine ⟨a, ?_⟩
  refine OMap.ext c' (OMap.sorted_insert c _ _) ?_
  intro k'
  refine (e' k').trans ?_
  rw [b, OMap.get_insert, e]

theorem remove_spec' {d : DiskMap K V} (h : Inv d) (k : K) :
    Inv (d.remove k).1 ∧ (d.remove k).1.iter = d.iter.erase k ∧ (d.remove k).2 = d.iter.get k := by
  obtain ⟨c, e⟩ := iter_spec h
  unfold remove
  cases hg : d.get k with
  | none =>
    refine ⟨h, ?_, by rw [e, hg]⟩
    simp only
    rw [OMap.erase_of_get_none]; rw [e, hg]
  | some v =>
    obtain ⟨a, b⟩ := put_spec h k none
    obtain ⟨c', e'⟩ := iter_spec a
    refine ⟨a, ?_, by rw [e, hg]⟩
    simp only
    refine OMap.ext c' (OMap.sorted_erase c _) ?_
    intro k'
    rw [e', b, OMap.get_erase c, e]

theorem clear_spec' (d : DiskMap K V) : Inv d.clear ∧ d.clear.iter = [] :=
  ⟨⟨OMap.sorted_nil, by simp [clear], by simp [clear]⟩, by simp [clear, iter, skipTombstones]⟩

theorem reload_spec' {d : DiskMap K V} (h : Inv d) (n : Nat) :
    Inv (new n (some d.writeTo)) ∧ (new n (some d.writeTo) : DiskMap K V).iter = d.iter := by
  obtain ⟨c, e⟩ := iter_spec h
  refine ⟨⟨OMap.sorted_nil, by simp [new], ?_⟩, by simp [new, iter, writeTo]⟩
  intro c2 hc
  simp only [new, Option.some.injEq] at hc
  subst hc; exact c

theorem range_spec' {d : DiskMap K V} (h : Inv d) (s e : Bnd K) :
    d.range s e = d.iter.filter fun p => s.aboveB p.1 && e.belowB p.1 := by
  obtain ⟨a, b⟩ := range_spec h s e
  obtain ⟨c, g⟩ := iter_spec h
  refine OMap.ext a (sorted_filter _ c) ?_
  intro k
  rw [b, get_filter (fun k => s.aboveB k && e.belowB k), g]

theorem new_spec' (n : Nat) : Inv (new n none : DiskMap K V) ∧ (new n none : DiskMap K V).iter = [] :=
  ⟨⟨OMap.sorted_nil, by simp [new], by simp [new]⟩, by simp [new, iter, skipTombstones]⟩

theorem containsKey_false {d : DiskMap K V} (h : Inv d) {k : K} (hc : d.containsKey k = false) : d.iter.get k = none := by
  obtain ⟨c, g⟩ := iter_spec h
  rw [g]
  unfold containsKey get at *
  split at hc
  · simpa using hc
  · split at hc
    · simp at hc
    · rename_i h1
      rw [Option.not_isSome_iff_eq_none] at h1
      rw [h1]; simpa using hc

end DiskMap

open Keys

namespace DiskAnno

variable {T N : Type} [LinearOrder T] [FixedKey T] [LinearOrder N] [OrderBot N]

theorem ckey_inj {t t' : T} {k k' : Nat} (hk : k < 256 ^ 8) (hk' : k' < 256 ^ 8) (h : ckey t k = ckey t' k') :
    t = t' ∧ k = k' := by
  have := (C07_by_container (FixedKey.size T) _ _ (FixedKey.enc_len t) (FixedKey.enc_len t') k k' hk hk').2.1 h
  refine ⟨?_, this.2⟩
  have e := FixedKey.dec_enc t
  rw [this.1, FixedKey.dec_enc] at e
  injection e with e; exact e.symm

theorem qkey_inj {t t' : T} {k k' : Nat} {v v' : Bytes} (hk : k < 256 ^ 8) (hk' : k' < 256 ^ 8)
    (h : qkey t k v = qkey t' k' v') : t = t' ∧ k = k' ∧ v = v' := by
  have := (C07_by_qname (FixedKey.size T) _ _ (FixedKey.enc_len t) (FixedKey.enc_len t') k k' hk hk' v v').1 h
  refine ⟨?_, this.2⟩
  have e := FixedKey.dec_enc t
  rw [this.1, FixedKey.dec_enc] at e
  injection e with e; exact e.symm

/-- The entry belongs to the symbol. -/
def hasSym (T : Type) [FixedKey T] (k : Nat) (b : Bytes) : Bool := b.drop (FixedKey.size T) = be 8 k

theorem drop_ckey (t : T) (k : Nat) : (ckey t k).drop (FixedKey.size T) = be 8 k := by
  unfold ckey byContainerKey
  have := FixedKey.enc_len t
  rw [List.drop_append_of_le_length (by omega), List.drop_of_length_le (by omega)]; rfl

theorem hasSym_ckey (t : T) {k k' : Nat} (hk : k < 256 ^ 8) (hk' : k' < 256 ^ 8) :
    hasSym T k (ckey t k') = decide (k' = k) := by
  unfold hasSym
  rw [drop_ckey]
  by_cases e : k' = k
  · simp [e]
  · have : be 8 k' ≠ be 8 k := fun h => e (be_inj 8 hk' hk h)
    simp [e, this]

def cnt (T : Type) [FixedKey T] (bc : OMap Bytes Bytes) (k : Nat) : Nat := bc.countP fun b _ => hasSym T k b

structure Inv (s : DiskAnno T N) : Prop where
  dc : s.byContainer.Inv
  dq : s.byQname.Inv
  sym : s.keys.Inv
  bound : ∀ k key, s.keys.getValue k = some key → k < 256 ^ 8
  cont : ∀ b v, s.byContainer.iter.get b = some v → ∃ (t : T) (k : Nat) (key : AnnoKey N), b = ckey t k ∧ s.keys.getValue k = some key
  ssorted : s.sizes.Sorted
  sizes : ∀ k key, s.keys.getValue k = some key → (s.sizes.get key).getD 0 = cnt T s.byContainer.iter k
  ssome : ∀ key n, s.sizes.get key = some n → 0 < n ∧ ∃ k, s.keys.getValue k = some key
  large : ∀ (t : T) (k : Nat) v, k < 256 ^ 8 → s.byContainer.iter.get (ckey t k) = some v →
    ∃ l, s.largest = some l ∧ t ≤ l
  sup : ∀ (t : T) (k : Nat) v, k < 256 ^ 8 → s.byContainer.iter.get (ckey t k) = some v →
    s.byQname.iter.get (qkey t k v) = some ()

/-- The search table has no entries besides the current ones. -/
def Exact (s : DiskAnno T N) : Prop :=
  ∀ b, s.byQname.iter.get b = some () → ∃ (t : T) (k : Nat) (key : AnnoKey N) (v : Bytes), b = qkey t k v ∧
    s.keys.getValue k = some key ∧ s.byContainer.iter.get (ckey t k) = some v

theorem Inv.new (n : Nat) : Inv (new n : DiskAnno T N) where
  dc := (DiskMap.new_spec' n).1
  dq := (DiskMap.new_spec' n).1
  sym := SymbolTable.Inv.new
  bound := by intro k key h; simp [DiskAnno.new, SymbolTable.new, SymbolTable.getValue] at h
  cont := by intro b v h; simp [DiskAnno.new, (DiskMap.new_spec' n).2] at h
  ssorted := OMap.sorted_nil
  sizes := by intro k key h; simp [DiskAnno.new, SymbolTable.new, SymbolTable.getValue] at h
  ssome := by intro k key h; simp [DiskAnno.new] at h
  large := by intro t k v _ h; simp [DiskAnno.new, (DiskMap.new_spec' n).2] at h
  sup := by intro t k v _ h; simp [DiskAnno.new, (DiskMap.new_spec' n).2] at h

theorem getValue_eq {s : DiskAnno T N} (h : Inv s) (t : T) (key : AnnoKey N) :
    s.getValue t key = match s.keys.getSymbol key with
      | some k => s.byContainer.iter.get (ckey t k)
      | none => none := by
  unfold getValue
  cases s.keys.getSymbol key with
  | none => rfl
  | some k => simp only [(DiskMap.iter_spec h.dc).2]

theorem getValue_iff {s : DiskAnno T N} (h : Inv s) (t : T) (key : AnnoKey N) (v : Bytes) :
    s.getValue t key = some v ↔ ∃ k, s.keys.getValue k = some key ∧ s.byContainer.iter.get (ckey t k) = some v := by
  rw [getValue_eq h]
  cases hk : s.keys.getSymbol key with
  | none =>
    simp only [reduceCtorEq, false_iff, not_exists, not_and]
    intro k hk'
    rw [(h.sym.sym key k).2 hk'] at hk; simp at hk
  | some k =>
    have hk' := (h.sym.sym key k).1 hk
    constructor
    · intro hv; exact ⟨k, hk', hv⟩
    · rintro ⟨k2, h2, hv⟩
      rw [h.sym.unique hk' h2]; exact hv

section Insert

variable {s : DiskAnno T N} (h : Inv s) (t : T) (key : AnnoKey N) (v : Bytes)

/-- The existence check is exact if the contained-key test is. -/
theorem existed_iff (hx : ∀ b, s.byContainer.containsKey b = (s.byContainer.iter.get b).isSome) (h : Inv s)
    (k : Nat) (hk : k < 256 ^ 8) :
    s.existed t k = (s.byContainer.iter.get (ckey t k)).isSome := by
  unfold existed
  rw [hx]
  cases hg : s.byContainer.iter.get (ckey t k) with
  | none => simp
  | some w =>
    obtain ⟨l, hl, hle⟩ := h.large t k w hk hg
    simp [hl, hle]

theorem insert_spec (h : Inv s) (hx : ∀ b, s.byContainer.containsKey b = (s.byContainer.iter.get b).isSome)
    (hb : (s.keys.insert key).2 < 256 ^ 8) :
    Inv (s.insert t key v) ∧
    (∀ t' key', (s.insert t key v).getValue t' key' = if t' = t ∧ key' = key then some v else s.getValue t' key') ∧
    (Exact s → (s.getValue t key = none ∨ s.getValue t key = some v) → Exact (s.insert t key v)) := by
  set k := (s.keys.insert key).2 with hk
  obtain ⟨ic, iic⟩ := DiskMap.insert_spec' h.dc (ckey t k) v
  obtain ⟨iq, iiq⟩ := DiskMap.insert_spec' h.dq (qkey t k v) ()
  have sc := (DiskMap.iter_spec h.dc).1
  have sq := (DiskMap.iter_spec h.dq).1
  have symI := h.sym.insert key
  have gv := SymbolTable.getValue_insert h.sym key
  have gs := SymbolTable.getSymbol_insert s.keys key
  have hid := SymbolTable.insert_id h.sym key
  have hkeys : (s.insert t key v).keys = (s.keys.insert key).1 := by unfold insert; simp only; split <;> rfl
  have hbc : (s.insert t key v).byContainer = s.byContainer.insert (ckey t k) v := by
    unfold insert; simp only; split <;> rfl
  have hbq : (s.insert t key v).byQname = s.byQname.insert (qkey t k v) () := by
    unfold insert; simp only; split <;> rfl
  have hold : ∀ k' key', s.keys.getValue k' = some key' → (s.keys.insert key).1.getValue k' = some key' :=
    fun k' key' h' => SymbolTable.getValue_insert_of_live h.sym key h'
  have hnew : (s.keys.insert key).1.getValue k = some key := by rw [gv]; simp [hk]
  have hbound : ∀ k' key', (s.keys.insert key).1.getValue k' = some key' → k' < 256 ^ 8 := by
    intro k' key' h'
    rw [gv] at h'
    split at h'
    · rename_i e; rw [e]; exact hb
    · exact h.bound k' key' h'
  -- the cell has a live symbol
  have hlive : ∀ w, s.byContainer.iter.get (ckey t k) = some w → s.keys.getValue k = some key := by
    intro w hw
    obtain ⟨t2, k2, key2, e, hk2⟩ := h.cont _ _ hw
    have e2 := (ckey_inj hb (h.bound _ _ hk2) e).2
    rw [← e2] at hk2
    rw [hk2]
    rcases hid with h1 | ⟨_, h1⟩
    · have := (h.sym.sym key _).1 h1; rw [← hk] at this; rw [this] at hk2; exact hk2.symm
    · rw [← hk, hk2] at h1; simp at h1
  have hcnt : ∀ k' key', (s.keys.insert key).1.getValue k' = some key' →
      cnt T (s.byContainer.iter.insert (ckey t k) v) k' =
        cnt T s.byContainer.iter k' + (if k' = k ∧ s.byContainer.iter.get (ckey t k) = none then 1 else 0) := by
    intro k' key' h'
    have hk' := hbound k' key' h'
    unfold cnt
    cases hg : s.byContainer.iter.get (ckey t k) with
    | none =>
      rw [OMap.countP_insert_none _ _ _ _ hg]
      simp only [hasSym_ckey t hk' hb]
      by_cases e : k' = k
      · simp [e]
      · simp [e, Ne.symm e]
    | some w =>
      have := OMap.countP_insert_some (fun b _ => hasSym T k' b) _ sc (ckey t k) v w hg
      simp only [reduceCtorEq, and_false, if_false]
      omega
  have hcnt0 : ∀ k', s.keys.getValue k' = none → k' < 256 ^ 8 → cnt T s.byContainer.iter k' = 0 := by
    intro k' hn hk'
    by_contra hc
    obtain ⟨b, w, hw, hp⟩ := (OMap.countP_pos_iff sc).1 (Nat.pos_of_ne_zero hc)
    obtain ⟨t2, k2, key2, e, hk2⟩ := h.cont _ _ hw
    subst e
    rw [hasSym_ckey t2 hk' (h.bound _ _ hk2)] at hp
    simp at hp
    subst hp; rw [hk2] at hn; simp at hn
  have hex := existed_iff t hx h k hb
  have hsz : (s.insert t key v).sizes =
      if (s.byContainer.iter.get (ckey t k)).isSome then s.sizes
      else s.sizes.insert key ((s.sizes.get key).getD 0 + 1) := by
    rw [← hex]; unfold insert; simp only [← hk]; split <;> rfl
  have hlg : ∀ t', (t' = t ∨ ∃ l, s.largest = some l ∧ t' ≤ l) → ∃ l, (s.insert t key v).largest = some l ∧ t' ≤ l := by
    intro t' ht'
    have hl : (s.insert t key v).largest =
      if (s.byContainer.iter.get (ckey t k)).isSome then s.largest
      else match s.largest with
        | some l => if l < t then some t else some l
        | none => some t := by
      rw [← hex]; unfold insert; simp only [← hk]; split <;> rfl
    rw [hl]
    cases hg : s.byContainer.iter.get (ckey t k) with
    | some w =>
      obtain ⟨l, hl', hle⟩ := h.large t k w hb hg
      simp only [Option.isSome_some, if_true]
      rcases ht' with rfl | ht'
      · exact ⟨l, hl', hle⟩
      · exact ht'
    | none =>
      simp only [Option.isSome_none, Bool.false_eq_true, if_false]
      rcases ht' with rfl | ⟨l, hl, hle⟩
      · cases s.largest with
        | none => exact ⟨_, rfl, le_refl _⟩
        | some l =>
          by_cases hlt : l < t'
          · exact ⟨t', by simp [hlt], le_refl _⟩
          · exact ⟨l, by simp [hlt], not_lt.1 hlt⟩
      · rw [hl]
        by_cases hlt : l < t
        · exact ⟨t, by simp [hlt], le_trans hle (le_of_lt hlt)⟩
        · exact ⟨l, by simp [hlt], hle⟩
  have hinv : Inv (s.insert t key v) := by
    refine ⟨by rw [hbc]; exact ic, by rw [hbq]; exact iq, by rw [hkeys]; exact symI, by rw [hkeys]; exact hbound,
      ?_, ?_, ?_, ?_, ?_, ?_⟩
    · intro b w hw
      rw [hbc, iic, OMap.get_insert] at hw
      rw [hkeys]
      split at hw
      · rename_i e; exact ⟨t, k, key, e, hnew⟩
      · obtain ⟨t2, k2, key2, e, hk2⟩ := h.cont _ _ hw
        exact ⟨t2, k2, key2, e, hold _ _ hk2⟩
    · rw [hsz]; split
      · exact h.ssorted
      · exact OMap.sorted_insert h.ssorted _ _
    · intro k' key' hk'
      rw [hkeys] at hk'
      rw [hbc, iic, hcnt k' key' hk', hsz]
      by_cases e : k' = k
      · subst e
        rw [hnew] at hk'
        injection hk' with hk'
        subst hk'
        have hbase : (s.sizes.get key).getD 0 = cnt T s.byContainer.iter k := by
          cases hkv : s.keys.getValue k with
          | some key2 =>
            have := hold _ _ hkv
            rw [hnew] at this; injection this with this; subst this
            exact h.sizes k key hkv
          | none =>
            rw [hcnt0 k hkv hb]
            cases hs : s.sizes.get key with
            | none => rfl
            | some n =>
              obtain ⟨_, k2, hk2⟩ := h.ssome key n hs
              have := hold _ _ hk2
              have := symI.unique this hnew
              subst this; rw [hk2] at hkv; simp at hkv
        cases hg : s.byContainer.iter.get (ckey t k) with
        | some w => simp [hbase]
        | none => simp [OMap.get_insert, hbase]
      · have hk'' : s.keys.getValue k' = some key' := by
          rw [gv] at hk'; rw [if_neg (by rw [← hk]; exact e)] at hk'; exact hk'
        have hne : key' ≠ key := by
          intro he; subst he
          exact e (symI.unique hk' hnew)
        have hb' := h.sizes k' key' hk''
        split
        · simp [e, hb']
        · simp [e, hb', OMap.get_insert, hne]
    · intro key' n hn
      rw [hkeys]
      rw [hsz] at hn
      split at hn
      · obtain ⟨a, k2, hk2⟩ := h.ssome key' n hn
        exact ⟨a, k2, hold _ _ hk2⟩
      · rw [OMap.get_insert] at hn
        split at hn
        · rename_i e; injection hn with hn; subst e
          exact ⟨by omega, k, hnew⟩
        · obtain ⟨a, k2, hk2⟩ := h.ssome key' n hn
          exact ⟨a, k2, hold _ _ hk2⟩
    · intro t' k' w hk' hw
      rw [hbc, iic, OMap.get_insert] at hw
      split at hw
      · rename_i e; exact hlg t' (Or.inl (ckey_inj hk' hb e).1)
      · exact hlg t' (Or.inr (h.large t' k' w hk' hw))
    · intro t' k' w hk' hw
      rw [hbc, iic, OMap.get_insert] at hw
      rw [hbq, iiq, OMap.get_insert]
      split at hw
      · rename_i e
        obtain ⟨rfl, rfl⟩ := ckey_inj hk' hb e
        injection hw with hw; subst hw
        simp
      · split
        · rfl
        · exact h.sup t' k' w hk' hw
  refine ⟨hinv, ?_, ?_⟩
  · intro t' key'
    rw [getValue_eq hinv, getValue_eq h, hkeys, gs, hbc, iic]
    by_cases e : key' = key
    · subst e
      simp only [if_true, OMap.get_insert, ← hk]
      by_cases et : t' = t
      · subst et; simp
      · have hne : ckey t' k ≠ ckey t k := fun hc => et (ckey_inj hb hb hc).1
        simp only [hne, if_false, et, false_and]
        rcases hid with h1 | ⟨h1, h2⟩
        · rw [h1]
        · rw [h1]
          simp only
          rw [← hk] at h2
          cases hg : s.byContainer.iter.get (ckey t' k) with
          | none => rfl
          | some w =>
            obtain ⟨t2, k2, key2, e, hk2⟩ := h.cont _ _ hg
            have := (ckey_inj hb (h.bound _ _ hk2) e).2
            rw [← this, h2] at hk2; simp at hk2
    · simp only [e, if_false, and_false]
      cases hs : s.keys.getSymbol key' with
      | none => rfl
      | some k' =>
        simp only
        have hk' := (h.sym.sym key' k').1 hs
        have hne : ckey t' k' ≠ ckey t k := by
          intro hc
          have := (ckey_inj (h.bound _ _ hk') hb hc).2
          subst this
          have := hold _ _ hk'
          rw [hnew] at this; injection this with this; exact e this.symm
        rw [OMap.get_insert, if_neg hne]
  · intro hexact hov b hbb
    rw [hbq, iiq, OMap.get_insert] at hbb
    rw [hkeys, hbc, iic]
    split at hbb
    · rename_i e
      exact ⟨t, k, key, v, e, hnew, by rw [OMap.get_insert]; simp⟩
    · rename_i hne
      obtain ⟨t2, k2, key2, v2, e, hk2, hv2⟩ := hexact b hbb
      refine ⟨t2, k2, key2, v2, e, hold _ _ hk2, ?_⟩
      rw [OMap.get_insert]
      split
      · rename_i ec
        obtain ⟨rfl, e2⟩ := ckey_inj (h.bound _ _ hk2) hb ec
        rw [e2] at hv2 hk2 e
        have := hlive _ hv2
        have hgv := (getValue_iff h t2 key v2).2 ⟨k, this, hv2⟩
        rcases hov with hov | hov
        · rw [hgv] at hov; simp at hov
        · rw [hgv] at hov; exact hov.symm
      · exact hv2

end Insert

/-- The clean-up of one existing annotation. -/
theorem dropOne_spec {s : DiskAnno T N} (h : Inv s) (t : T) {k : Nat} {key : AnnoKey N} {v : Bytes}
    (hk : s.keys.getValue k = some key) (hv : s.byContainer.iter.get (ckey t k) = some v) :
    Inv (s.dropOne t k key).1 ∧ (s.dropOne t k key).2 = some v ∧
    (s.dropOne t k key).1.byContainer.iter = s.byContainer.iter.erase (ckey t k) ∧
    (∀ k' key', k' ≠ k → s.keys.getValue k' = some key' → (s.dropOne t k key).1.keys.getValue k' = some key') ∧
    (∀ t' key', (s.dropOne t k key).1.getValue t' key' = if t' = t ∧ key' = key then none else s.getValue t' key') ∧
    (Exact s → Exact (s.dropOne t k key).1) := by
  have hkb := h.bound _ _ hk
  obtain ⟨rc, rci, rcv⟩ := DiskMap.remove_spec' h.dc (ckey t k)
  obtain ⟨rq, rqi, _⟩ := DiskMap.remove_spec' h.dq (qkey t k v)
  have sc := (DiskMap.iter_spec h.dc).1
  have sq := (DiskMap.iter_spec h.dq).1
  rw [hv] at rcv
  have hsym : s.keys.getSymbol key = some k := (h.sym.sym key k).2 hk
  have hcnt : ∀ k', k' < 256 ^ 8 → cnt T (s.byContainer.iter.erase (ckey t k)) k' + (if k' = k then 1 else 0) =
      cnt T s.byContainer.iter k' := by
    intro k' hk'
    have := OMap.countP_erase_some (fun b _ => hasSym T k' b) _ (ckey t k) v hv
    simp only [hasSym_ckey t hk' hkb] at this
    unfold cnt
    rw [← this]
    by_cases e : k' = k
    · simp [e]
    · simp [e, Ne.symm e]
  have hpos : 0 < cnt T s.byContainer.iter k := by have := hcnt k hkb; simp at this; omega
  have hsize := h.sizes k key hk
  obtain ⟨n0, hn0⟩ : ∃ n0, s.sizes.get key = some n0 := by
    cases hs : s.sizes.get key with
    | none => rw [hs] at hsize; simp at hsize; omega
    | some n => exact ⟨n, rfl⟩
  rw [hn0] at hsize
  simp only [Option.getD_some] at hsize
  have hc1 := hcnt k hkb
  simp only [if_true] at hc1
  -- the two outcomes
  set s' := (s.dropOne t k key).1 with hs'
  have hres : (s.dropOne t k key).2 = some v := by
    unfold dropOne; simp only [rcv, hn0, Option.elim_some]; split <;> rfl
  have hbc : s'.byContainer = (s.byContainer.remove (ckey t k)).1 := by
    rw [hs']; unfold dropOne; simp only [rcv, hn0, Option.elim_some]; split <;> rfl
  have hbq : s'.byQname = (s.byQname.remove (qkey t k v)).1 := by
    rw [hs']; unfold dropOne; simp only [rcv, hn0, Option.elim_some]; split <;> rfl
  have hlg : s'.largest = s.largest := by
    rw [hs']; unfold dropOne; simp only [rcv, hn0, Option.elim_some]; split <;> rfl
  have hkeys : s'.keys = if n0 - 1 = 0 then (s.keys.remove k).1 else s.keys := by
    rw [hs']; unfold dropOne; simp only [rcv, hn0, Option.elim_some, hsym]; split <;> rfl
  have hsz : s'.sizes = if n0 - 1 = 0 then (s.sizes.insert key (n0 - 1)).erase key else s.sizes.insert key (n0 - 1) := by
    rw [hs']; unfold dropOne; simp only [rcv, hn0, Option.elim_some, hsym]; split <;> rfl
  have hgv : ∀ k', s'.keys.getValue k' = if k' = k ∧ n0 - 1 = 0 then none else s.keys.getValue k' := by
    intro k'
    rw [hkeys]
    by_cases hz : n0 - 1 = 0
    · simp only [hz, if_true, and_true]; rw [SymbolTable.getValue_remove]
    · simp [hz]
  have hsub : ∀ k' key', s'.keys.getValue k' = some key' → s.keys.getValue k' = some key' := by
    intro k' key' h'
    rw [hgv] at h'
    split at h'
    · simp at h'
    · exact h'
  have hsymI : s'.keys.Inv := by
    rw [hkeys]; split
    · exact h.sym.remove k
    · exact h.sym
  -- every remaining entry keeps a live symbol
  have hrest : ∀ b w, (s.byContainer.iter.erase (ckey t k)).get b = some w →
      ∃ (t2 : T) (k2 : Nat) (key2 : AnnoKey N), b = ckey t2 k2 ∧ s'.keys.getValue k2 = some key2 := by
    intro b w hw
    have hw' := hw
    rw [OMap.get_erase sc] at hw
    split at hw
    · simp at hw
    · obtain ⟨t2, k2, key2, e, hk2⟩ := h.cont _ _ hw
      refine ⟨t2, k2, key2, e, ?_⟩
      rw [hgv, if_neg, hk2]
      rintro ⟨rfl, hz⟩
      have h0 : cnt T (s.byContainer.iter.erase (ckey t k2)) k2 = 0 := by omega
      have : 0 < cnt T (s.byContainer.iter.erase (ckey t k2)) k2 := by
        unfold cnt
        rw [OMap.countP_pos_iff (OMap.sorted_erase sc _)]
        exact ⟨b, w, hw', by rw [e, hasSym_ckey t2 hkb hkb]; simp⟩
      omega
  have hinv : Inv s' := by
    refine ⟨by rw [hbc]; exact rc, by rw [hbq]; exact rq, hsymI, fun k' key' h' => h.bound k' key' (hsub _ _ h'),
      ?_, ?_, ?_, ?_, ?_, ?_⟩
    · intro b w hw
      rw [hbc, rci] at hw
      exact hrest b w hw
    · rw [hsz]; split
      · exact OMap.sorted_erase (OMap.sorted_insert h.ssorted _ _) _
      · exact OMap.sorted_insert h.ssorted _ _
    · intro k' key' h'
      have h'' := hsub _ _ h'
      rw [hbc, rci]
      have hc := hcnt k' (h.bound _ _ h'')
      rw [hgv] at h'
      by_cases e : k' = k
      · subst e
        rw [hk] at h''; injection h'' with h''; subst h''
        have hz : ¬ n0 - 1 = 0 := by
          intro hz; simp [hz] at h'
        rw [hsz]; simp only [hz, if_false, OMap.get_insert_self, Option.getD_some]
        omega
      · simp only [e, if_false, Nat.add_zero] at hc
        rw [hc, ← h.sizes k' key' h'']
        have hne : key' ≠ key := by
          intro he; subst he; exact e (h.sym.unique h'' hk)
        rw [hsz]
        split
        · rw [OMap.get_erase_ne _ hne, OMap.get_insert_ne _ _ hne]
        · rw [OMap.get_insert_ne _ _ hne]
    · intro key' n hn
      rw [hsz] at hn
      split at hn
      · rename_i hz
        rw [OMap.get_erase (OMap.sorted_insert h.ssorted _ _)] at hn
        split at hn
        · simp at hn
        · rename_i hne
          rw [OMap.get_insert_ne _ _ hne] at hn
          obtain ⟨a, k2, hk2⟩ := h.ssome key' n hn
          refine ⟨a, k2, ?_⟩
          rw [hgv, if_neg, hk2]
          rintro ⟨rfl, _⟩
          rw [hk] at hk2; injection hk2 with hk2; exact hne hk2.symm
      · rename_i hz
        rw [OMap.get_insert] at hn
        split at hn
        · rename_i e
          injection hn with hn
          exact ⟨by omega, k, by rw [hgv, if_neg (by simp [hz]), hk, e]⟩
        · obtain ⟨a, k2, hk2⟩ := h.ssome key' n hn
          exact ⟨a, k2, by rw [hgv, if_neg (by simp [hz]), hk2]⟩
    · intro t' k' w hk' hw
      rw [hbc, rci, OMap.get_erase sc] at hw
      split at hw
      · simp at hw
      · rw [hlg]; exact h.large t' k' w hk' hw
    · intro t' k' w hk' hw
      rw [hbc, rci, OMap.get_erase sc] at hw
      split at hw
      · simp at hw
      · rename_i hne
        rw [hbq, rqi, OMap.get_erase sq]
        split
        · rename_i e
          obtain ⟨rfl, rfl, _⟩ := qkey_inj hk' hkb e
          exact absurd rfl hne
        · exact h.sup t' k' w hk' hw
  refine ⟨hinv, hres, by rw [hbc, rci], ?_, ?_, ?_⟩
  · intro k' key' hne h'
    rw [hgv, if_neg (by simp [hne]), h']
  · intro t' key'
    apply Option.ext
    intro w
    rw [getValue_iff hinv]
    by_cases e : t' = t ∧ key' = key
    · obtain ⟨rfl, rfl⟩ := e
      simp only [and_self, if_true, reduceCtorEq, iff_false, not_exists, not_and]
      intro k' hk' hw
      have := h.sym.unique (hsub _ _ hk') hk
      subst this
      rw [hbc, rci, OMap.get_erase sc] at hw
      simp at hw
    · rw [if_neg e, getValue_iff h]
      constructor
      · rintro ⟨k', hk', hw⟩
        rw [hbc, rci, OMap.get_erase sc] at hw
        split at hw
        · simp at hw
        · exact ⟨k', hsub _ _ hk', hw⟩
      · rintro ⟨k', hk', hw⟩
        have hne : ckey t' k' ≠ ckey t k := by
          intro hc
          obtain ⟨rfl, rfl⟩ := ckey_inj (h.bound _ _ hk') hkb hc
          rw [hk] at hk'; injection hk' with hk'
          exact e ⟨rfl, hk'.symm⟩
        have hw2 : (s.byContainer.iter.erase (ckey t k)).get (ckey t' k') = some w := by
          rw [OMap.get_erase sc, if_neg hne]; exact hw
        obtain ⟨t2, k2, key2, e2, hk2⟩ := hrest _ _ hw2
        have := (ckey_inj (h.bound _ _ hk') (h.bound _ _ (hsub _ _ hk2)) e2).2
        subst this
        have h3 := hsub _ _ hk2
        rw [hk'] at h3; injection h3 with h3; subst h3
        exact ⟨k', hk2, by rw [hbc, rci]; exact hw2⟩
  · intro hexact b hb
    rw [hbq, rqi, OMap.get_erase sq] at hb
    split at hb
    · simp at hb
    · rename_i hne
      obtain ⟨t2, k2, key2, v2, e, hk2, hv2⟩ := hexact b hb
      have hnc : ckey t2 k2 ≠ ckey t k := by
        intro hc
        obtain ⟨rfl, rfl⟩ := ckey_inj (h.bound _ _ hk2) hkb hc
        rw [hv] at hv2; injection hv2 with hv2; subst hv2
        exact hne e
      have hw2 : (s.byContainer.iter.erase (ckey t k)).get (ckey t2 k2) = some v2 := by
        rw [OMap.get_erase sc, if_neg hnc]; exact hv2
      obtain ⟨t3, k3, key3, e3, hk3⟩ := hrest _ _ hw2
      obtain ⟨rfl, rfl⟩ := ckey_inj (h.bound _ _ hk2) (h.bound _ _ (hsub _ _ hk3)) e3
      exact ⟨t2, k2, key3, v2, e, hk3, by rw [hbc, rci]; exact hw2⟩

theorem removeAnno_spec {s : DiskAnno T N} (h : Inv s) (t : T) (key : AnnoKey N) :
    Inv (s.removeAnno t key).1 ∧ (s.removeAnno t key).2 = s.getValue t key ∧
    (∀ t' key', (s.removeAnno t key).1.getValue t' key' = if t' = t ∧ key' = key then none else s.getValue t' key') ∧
    (Exact s → Exact (s.removeAnno t key).1) := by
  unfold removeAnno
  cases hk : s.keys.getSymbol key with
  | none =>
    refine ⟨h, by rw [getValue_eq h, hk], ?_, fun hx => hx⟩
    intro t' key'
    simp only
    by_cases e : t' = t ∧ key' = key
    · rw [if_pos e, e.2, getValue_eq h, hk]
    · rw [if_neg e]
  | some k =>
    have hkv := (h.sym.sym key k).1 hk
    cases hv : s.byContainer.iter.get (ckey t k) with
    | some v =>
      obtain ⟨a, b, _, _, c, d⟩ := dropOne_spec h t hkv hv
      refine ⟨a, ?_, c, d⟩
      simp only
      rw [b, getValue_eq h, hk]; exact hv.symm
    | none =>
      obtain ⟨rc, rci, rcv⟩ := DiskMap.remove_spec' h.dc (ckey t k)
      rw [hv] at rcv
      have hg : s.byContainer.get (ckey t k) = none := by rw [← (DiskMap.iter_spec h.dc).2]; exact hv
      have heq : s.dropOne t k key = (s, none) := by
        unfold dropOne DiskMap.remove
        simp [hg]
      simp only [heq]
      refine ⟨h, by rw [getValue_eq h, hk]; exact hv.symm, ?_, fun hx => hx⟩
      intro t' key'
      split
      · rename_i e; rw [e.1, e.2, getValue_eq h, hk]; exact hv
      · rfl

/-- The entries of an item. -/
theorem mem_itemRange {s : DiskAnno T N} (h : Inv s) (t : T) (b v : Bytes) :
    (b, v) ∈ s.itemRange t ↔ ∃ k key, b = ckey t k ∧ s.keys.getValue k = some key ∧ s.byContainer.iter.get b = some v := by
  have sc := (DiskMap.iter_spec h.dc).1
  unfold itemRange
  rw [DiskMap.range_spec' h.dc, List.mem_filter, OMap.mem_iff_get sc]
  simp only [Bnd.aboveB, Bnd.belowB, Bool.and_eq_true, decide_eq_true_eq]
  have key : ∀ (t2 : T) (k2 : Nat), k2 < 256 ^ 8 →
      ((ckey t 0 ≤ ckey t2 k2 ∧ ckey t2 k2 ≤ ckey t (256 ^ 8 - 1)) ↔ t2 = t) := by
    intro t2 k2 hk2
    have := C07_by_container_range (FixedKey.size T) _ _ (FixedKey.enc_len t) (FixedKey.enc_len t2) k2 hk2
    unfold ckey
    rw [this]
    constructor
    · intro e
      have e1 := FixedKey.dec_enc t
      rw [← e, FixedKey.dec_enc] at e1
      injection e1
    · rintro rfl; rfl
  constructor
  · rintro ⟨hg, hr⟩
    obtain ⟨t2, k2, key2, e, hk2⟩ := h.cont _ _ hg
    subst e
    have := (key t2 k2 (h.bound _ _ hk2)).1 hr
    subst this
    exact ⟨k2, key2, rfl, hk2, hg⟩
  · rintro ⟨k, key2, rfl, hk, hg⟩
    exact ⟨hg, (key t k (h.bound _ _ hk)).2 rfl⟩

theorem parse_ckey (t : T) {k : Nat} (hk : k < 256 ^ 8) :
    parseByContainerKey (FixedKey.size T) (ckey t k) = some (FixedKey.enc t, k) :=
  (C07_by_container (FixedKey.size T) _ _ (FixedKey.enc_len t) (FixedKey.enc_len t) k k hk hk).2.2

open Classical in
theorem removeItemLoop_spec (t : T) (l : OMap Bytes Bytes) : ∀ (s : DiskAnno T N), Inv s → l.Sorted →
    (∀ b v, (b, v) ∈ l → ∃ k key, b = ckey t k ∧ s.keys.getValue k = some key ∧ s.byContainer.iter.get b = some v) →
    Inv (s.removeItemLoop t l).1 ∧ (s.removeItemLoop t l).2 = decide (l ≠ []) ∧
    (∀ t' key', (s.removeItemLoop t l).1.getValue t' key' =
      if t' = t ∧ (∃ k, s.keys.getValue k = some key' ∧ (l.get (ckey t k)).isSome) then none
      else s.getValue t' key') ∧
    (Exact s → Exact (s.removeItemLoop t l).1) := by
  induction l with
  | nil => intro s h _ _; exact ⟨h, rfl, by intro t' key'; simp [removeItemLoop], fun hx => hx⟩
  | cons p r ih =>
    intro s h hl hmem
    obtain ⟨b, v⟩ := p
    obtain ⟨k, key, rfl, hk, hv⟩ := hmem b v (by simp)
    have hkb := h.bound _ _ hk
    have hc := OMap.sorted_cons.1 hl
    have hkey : s.keyOf k = key := by simp [keyOf, hk]
    simp only [removeItemLoop, parse_ckey t hkb, hkey]
    obtain ⟨a1, a2, a3, a4, a5, a6⟩ := dropOne_spec h t hk hv
    have sc := (DiskMap.iter_spec h.dc).1
    have hmem' : ∀ b v, (b, v) ∈ r → ∃ k' key', b = ckey t k' ∧ (s.dropOne t k key).1.keys.getValue k' = some key' ∧
        (s.dropOne t k key).1.byContainer.iter.get b = some v := by
      intro b' v' hb'
      obtain ⟨k', key', rfl, hk', hv'⟩ := hmem b' v' (by simp [hb'])
      have hlt := hc.1 _ hb'
      have hne : k' ≠ k := by rintro rfl; exact lt_irrefl _ hlt
      refine ⟨k', key', rfl, a4 k' key' hne hk', ?_⟩
      rw [a3, OMap.get_erase sc, if_neg (ne_of_gt hlt)]; exact hv'
    obtain ⟨b1, b2, b3, b4⟩ := ih _ a1 hc.2 hmem'
    refine ⟨b1, ?_, ?_, fun hx => b4 (a6 hx)⟩
    · rw [a2]; simp
    · intro t' key'
      rw [b3, a5]
      by_cases et : t' = t
      · subst et
        simp only [true_and]
        by_cases ek : key' = key
        · subst ek
          have hp : ∃ k_1, s.keys.getValue k_1 = some key' ∧
              (OMap.get ((ckey t' k, v) :: r) (ckey t' k_1)).isSome = true := ⟨k, hk, by simp [OMap.get]⟩
          simp [hp]
        · simp only [ek, if_false]
          have : (∃ k', (s.dropOne t' k key).1.keys.getValue k' = some key' ∧ (OMap.get r (ckey t' k')).isSome = true) ↔
              (∃ k', s.keys.getValue k' = some key' ∧ (OMap.get ((ckey t' k, v) :: r) (ckey t' k')).isSome = true) := by
            constructor
            · rintro ⟨k', h1, h2⟩
              cases hg : OMap.get r (ckey t' k') with
              | none => rw [hg] at h2; simp at h2
              | some w =>
                obtain ⟨k3, key3, e3, h3, _⟩ := hmem (ckey t' k') w (by
                  rw [List.mem_cons]; right; exact OMap.mem_of_get hg)
                have hk3 := (ckey_inj (a1.bound _ _ h1) (h.bound _ _ h3) e3).2
                subst hk3
                have hne : k' ≠ k := by
                  rintro rfl
                  have hlt := hc.1 _ (OMap.mem_of_get hg)
                  exact lt_irrefl _ hlt
                have h4 := a4 k' key3 hne h3
                rw [h1] at h4; injection h4 with h4; subst h4
                refine ⟨k', h3, ?_⟩
                have : ckey t' k' ≠ ckey t' k := fun hc => hne (ckey_inj (h.bound _ _ h3) hkb hc).2
                simp [OMap.get, this, hg]
            · rintro ⟨k', h1, h2⟩
              have hne : k' ≠ k := by
                rintro rfl; rw [hk] at h1; injection h1 with h1; exact ek h1.symm
              have hne2 : ckey t' k' ≠ ckey t' k := fun hc => hne (ckey_inj (h.bound _ _ h1) hkb hc).2
              exact ⟨k', a4 k' key' hne h1, by simpa [OMap.get, hne2] using h2⟩
          simp only [this]
      · simp [et]

theorem removeItem_spec {s : DiskAnno T N} (h : Inv s) (t : T) :
    Inv (s.removeItem t).1 ∧ ((s.removeItem t).2 = true ↔ ∃ key v, s.getValue t key = some v) ∧
    (∀ t' key', (s.removeItem t).1.getValue t' key' = if t' = t then none else s.getValue t' key') ∧
    (Exact s → Exact (s.removeItem t).1) := by
  have sc := (DiskMap.iter_spec h.dc).1
  have hsorted : OMap.Sorted (s.itemRange t) := by
    unfold itemRange; rw [DiskMap.range_spec' h.dc]; exact DiskMap.sorted_filter _ sc
  obtain ⟨a, b, c, d⟩ := removeItemLoop_spec t (s.itemRange t) s h hsorted (fun b v hb => (mem_itemRange h t b v).1 hb)
  refine ⟨a, ?_, ?_, d⟩
  · unfold removeItem
    rw [b]
    simp only [ne_eq, decide_not, Bool.not_eq_eq_eq_not, Bool.not_true, decide_eq_false_iff_not]
    constructor
    · intro hne
      cases hl : s.itemRange t with
      | nil => exact absurd hl hne
      | cons p r =>
        obtain ⟨k, key, _, hk, hv⟩ := (mem_itemRange h t p.1 p.2).1 (by rw [hl]; simp)
        rename_i hb
        rw [hb] at hv
        exact ⟨key, p.2, (getValue_iff h t key p.2).2 ⟨k, hk, hv⟩⟩
    · rintro ⟨key, v, hv⟩ hnil
      obtain ⟨k, hk, hv⟩ := (getValue_iff h t key v).1 hv
      have := (mem_itemRange h t _ v).2 ⟨k, key, rfl, hk, hv⟩
      rw [hnil] at this; simp at this
  · intro t' key'
    unfold removeItem
    rw [c]
    by_cases et : t' = t
    · subst et
      simp only [true_and, if_true]
      split
      · rfl
      · rename_i hn
        cases hg : s.getValue t' key' with
        | none => rfl
        | some v =>
          obtain ⟨k, hk, hv⟩ := (getValue_iff h t' key' v).1 hg
          exfalso
          apply hn
          refine ⟨rfl, k, hk, ?_⟩
          have := (mem_itemRange h t' _ v).2 ⟨k, key', rfl, hk, hv⟩
          rw [OMap.get_of_mem hsorted this]; rfl
    · simp [et]


/-! ## Searches -/

theorem parse_qkey (t : T) {k : Nat} (hk : k < 256 ^ 8) (v : Bytes) :
    parseByQnameKey (FixedKey.size T) (qkey t k v) = some (FixedKey.enc t, k, v) :=
  (C07_by_qname (FixedKey.size T) _ _ (FixedKey.enc_len t) (FixedKey.enc_len t) k k hk hk v v).2

theorem parseEntry_qkey (s : DiskAnno T N) (t : T) {k : Nat} {key : AnnoKey N} (hb : k < 256 ^ 8)
    (hk : s.keys.getValue k = some key) (v : Bytes) : s.parseEntry (qkey t k v) = some (t, key) := by
  unfold parseEntry
  rw [parse_qkey t hb v]
  simp [FixedKey.dec_enc, keyOf, hk]

theorem mem_qnames {s : DiskAnno T N} (h : Inv s) (name : N) (key : AnnoKey N) :
    key ∈ s.qnames name ↔ key.name = name ∧ ∃ n, s.sizes.get key = some n := by
  unfold qnames
  rw [AnnoStore.mem_scan _ (OMap.sorted_keys h.ssorted), OMap.mem_keys_iff, and_comm]

theorem sizes_some_of_value {s : DiskAnno T N} (h : Inv s) {t : T} {key : AnnoKey N} {v : Bytes}
    (hv : s.getValue t key = some v) : ∃ n, s.sizes.get key = some n := by
  obtain ⟨k, hk, hc⟩ := (getValue_iff h t key v).1 hv
  have hb := h.bound _ _ hk
  have hp : 0 < cnt T s.byContainer.iter k := by
    unfold cnt
    rw [OMap.countP_pos_iff (DiskMap.iter_spec h.dc).1]
    exact ⟨_, _, hc, by rw [hasSym_ckey t hb hb]; simp⟩
  have := h.sizes k key hk
  cases hs : s.sizes.get key with
  | none => rw [hs] at this; simp at this; omega
  | some n => exact ⟨n, rfl⟩

theorem mem_keyRanges {s : DiskAnno T N} (h : Inv s) (ns : Option N) (name : N) {t : T} {key : AnnoKey N} {v : Bytes}
    (hv : s.getValue t key = some v) :
    key ∈ s.keyRanges ns name ↔ key.name = name ∧ ∀ n, ns = some n → key.ns = n := by
  unfold keyRanges
  cases ns with
  | none =>
    simp only [reduceCtorEq, false_implies, implies_true, and_true]
    rw [mem_qnames h]
    simp [sizes_some_of_value h hv]
  | some n =>
    simp only [List.mem_singleton, Option.some.injEq, forall_eq']
    rw [AnnoStore.key_eq_iff]; simp

theorem nodup_keyRanges {s : DiskAnno T N} (h : Inv s) (ns : Option N) (name : N) : (s.keyRanges ns name).Nodup := by
  unfold keyRanges
  cases ns with
  | some n => simp
  | none =>
    unfold qnames
    exact ((OMap.nodup_keys h.ssorted).sublist (List.dropWhile_sublist _)).sublist (List.takeWhile_sublist _)

/-- Which entries a bounded scan finds. -/
theorem mem_entriesBetween {s : DiskAnno T N} (h : Inv s) (hexact : Exact s) (ns : Option N) (name : N) (lo hi : Bytes)
    (t : T) (key : AnnoKey N) :
    (t, key) ∈ s.entriesBetween ns name lo hi ↔
      ∃ k v, s.keys.getValue k = some key ∧ s.byContainer.iter.get (ckey t k) = some v ∧
        (∃ k' key', key' ∈ s.keyRanges ns name ∧ s.keys.getSymbol key' = some k' ∧
          byQnameKey minId k' lo ≤ qkey t k v ∧ qkey t k v < byQnameKey maxId k' hi) := by
  have sq := (DiskMap.iter_spec h.dq).1
  unfold entriesBetween
  simp only [List.mem_filterMap, List.mem_flatMap]
  constructor
  · rintro ⟨⟨b, u⟩, ⟨k', ⟨key', hkr, hks⟩, hbr⟩, hp⟩
    rw [DiskMap.range_spec' h.dq, List.mem_filter, OMap.mem_iff_get sq] at hbr
    obtain ⟨hg, hr⟩ := hbr
    simp only [Bnd.aboveB, Bnd.belowB, Bool.and_eq_true, decide_eq_true_eq] at hr
    obtain ⟨t2, k2, key2, v2, e, hk2, hv2⟩ := hexact b hg
    subst e
    rw [parseEntry_qkey s t2 (h.bound _ _ hk2) hk2 v2] at hp
    simp only [Option.some.injEq, Prod.mk.injEq] at hp
    obtain ⟨rfl, rfl⟩ := hp
    exact ⟨k2, v2, hk2, hv2, k', key', hkr, hks, hr.1, hr.2⟩
  · rintro ⟨k, v, hk, hv, k', key', hkr, hks, h1, h2⟩
    refine ⟨(qkey t k v, ()), ⟨k', ⟨key', hkr, hks⟩, ?_⟩, parseEntry_qkey s t (h.bound _ _ hk) hk v⟩
    rw [DiskMap.range_spec' h.dq, List.mem_filter, OMap.mem_iff_get sq]
    refine ⟨h.sup t k v (h.bound _ _ hk) hv, ?_⟩
    simp only [Bnd.aboveB, Bnd.belowB, Bool.and_eq_true, decide_eq_true_eq]
    exact ⟨h1, h2⟩

/-- No pair is found twice, if the scans of different symbols are disjoint. -/
theorem nodup_entriesBetween {s : DiskAnno T N} (h : Inv s) (hexact : Exact s) (ns : Option N) (name : N) (lo hi : Bytes)
    (hdis : ∀ (t : T) k key v k', s.keys.getValue k = some key → s.byContainer.iter.get (ckey t k) = some v → k' < 256 ^ 8 →
      byQnameKey minId k' lo ≤ qkey t k v → qkey t k v < byQnameKey maxId k' hi → k = k') :
    (s.entriesBetween ns name lo hi).Nodup := by
  have sq := (DiskMap.iter_spec h.dq).1
  unfold entriesBetween
  have hnd : (((s.keyRanges ns name).filterMap s.keys.getSymbol).flatMap fun k =>
      s.byQname.range (.included (byQnameKey minId k lo)) (.excluded (byQnameKey maxId k hi))).Nodup := by
    rw [List.nodup_flatMap]
    constructor
    · intro k _
      rw [DiskMap.range_spec' h.dq]
      exact (OMap.nodup_of_sorted sq).sublist List.filter_sublist
    · have hk : ((s.keyRanges ns name).filterMap s.keys.getSymbol).Nodup := by
        refine (nodup_keyRanges h ns name).filterMap ?_
        intro a b k ha hb
        have ha' := (h.sym.sym a k).1 (by simpa using ha)
        have hb' := (h.sym.sym b k).1 (by simpa using hb)
        rw [ha'] at hb'; injection hb'
      refine List.Pairwise.imp_of_mem ?_ hk
      intro a b ha hb hne
      rw [Function.onFun, List.disjoint_left]
      rintro ⟨x, u⟩ hx hy
      rw [DiskMap.range_spec' h.dq, List.mem_filter, OMap.mem_iff_get sq] at hx hy
      simp only [Bnd.aboveB, Bnd.belowB, Bool.and_eq_true, decide_eq_true_eq] at hx hy
      obtain ⟨t2, k2, key2, v2, e, hk2, hv2⟩ := hexact x hx.1
      subst e
      obtain ⟨ka, _, hka⟩ := List.mem_filterMap.1 ha
      obtain ⟨kb, _, hkb⟩ := List.mem_filterMap.1 hb
      have e1 := hdis t2 k2 key2 v2 a hk2 hv2 (h.bound _ _ ((h.sym.sym _ _).1 hka)) hx.2.1 hx.2.2
      have e2 := hdis t2 k2 key2 v2 b hk2 hv2 (h.bound _ _ ((h.sym.sym _ _).1 hkb)) hy.2.1 hy.2.2
      exact hne (e1.symm.trans e2)
  refine List.Pairwise.filterMap _ ?_ (List.Pairwise.and_mem.1 hnd)
  rintro ⟨x, u⟩ ⟨y, w⟩ ⟨hx, hy, hne⟩ p hp q hq
  simp only [List.mem_flatMap] at hx hy
  obtain ⟨_, _, hx⟩ := hx
  obtain ⟨_, _, hy⟩ := hy
  rw [DiskMap.range_spec' h.dq, List.mem_filter, OMap.mem_iff_get sq] at hx hy
  obtain ⟨t2, k2, key2, v2, e, hk2, hv2⟩ := hexact x hx.1
  obtain ⟨t3, k3, key3, v3, e3, hk3, hv3⟩ := hexact y hy.1
  subst e e3
  simp only [parseEntry_qkey s t2 (h.bound _ _ hk2) hk2 v2, parseEntry_qkey s t3 (h.bound _ _ hk3) hk3 v3,
    Option.some.injEq] at hp hq
  subst hp hq
  intro he
  simp only [Prod.mk.injEq] at he
  obtain ⟨rfl, rfl⟩ := he
  have := h.sym.unique hk2 hk3
  subst this
  rw [hv2] at hv3; injection hv3 with hv3; subst hv3
  exact hne rfl

end DiskAnno
