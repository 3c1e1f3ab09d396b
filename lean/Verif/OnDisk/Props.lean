import Verif.OnDisk.Lemmas
import Verif.DiskMap.Props
import Mathlib.Order.Fin.Basic

/-!
# C06: searching the annotation storage on disk

The specification `AnnoStore.spec` is the plain function `item → key → optional value` that was also used for the
in-memory storage.  Full statement of C06: for every history, `exact_anno_search` finds an item with a value exactly if
the value lookup returns this value.  It does not hold (see the `_fails` theorems); the `_partial` theorems state the exact
class of histories for which it was proved.
-/

set_option linter.unusedSimpArgs false
set_option linter.unusedSectionVars false

open Keys

namespace DiskAnno

variable {T N : Type} [LinearOrder T] [FixedKey T] [LinearOrder N] [OrderBot N]

abbrev Op (T N : Type) := AnnoStore.Op T N Bytes
abbrev spec (ops : List (Op T N)) : T → AnnoKey N → Option Bytes := AnnoStore.spec ops

/-- The model executes one operation. -/
def step (s : DiskAnno T N) : Op T N → DiskAnno T N
  | .insert t key val => s.insert t key val
  | .removeAnno t key => (s.removeAnno t key).1
  | .removeItem t => (s.removeItem t).1
  | .clear => s.clear
  | .saveLoad => s.saveLoad

/-- The model executes a history on an empty storage with eviction limit `n`. -/
def run (n : Nat) (ops : List (Op T N)) : DiskAnno T N := ops.foldl step (new n)

/-- No removed entry was evicted to the temporary disk table at any time (see C09 for why this matters). -/
def Clean (n : Nat) (ops : List (Op T N)) : Prop :=
  ∀ pre, pre <+: ops → (run n pre : DiskAnno T N).byContainer.NoC1Tombstone

/-- No annotation is overwritten with another value. -/
def WriteOnce (ops : List (Op T N)) : Prop :=
  ∀ pre t key v, pre ++ [AnnoStore.Op.insert t key v] <+: ops → spec pre t key = none ∨ spec pre t key = some v

theorem Inv.clear {s : DiskAnno T N} (h : Inv s) : Inv s.clear where
  dc := (DiskMap.clear_spec' _).1
  dq := (DiskMap.clear_spec' _).1
  sym := h.sym
  bound := h.bound
  cont := by intro b v hb; simp [DiskAnno.clear, (DiskMap.clear_spec' _).2] at hb
  ssorted := OMap.sorted_nil
  sizes := by intro k key _; simp [DiskAnno.clear, (DiskMap.clear_spec' _).2, cnt, OMap.countP]
  ssome := by intro k key hb; simp [DiskAnno.clear] at hb
  large := by intro t k v _ hb; simp [DiskAnno.clear, (DiskMap.clear_spec' _).2] at hb
  sup := by intro t k v _ hb; simp [DiskAnno.clear, (DiskMap.clear_spec' _).2] at hb

theorem Inv.saveLoad {s : DiskAnno T N} (h : Inv s) : Inv s.saveLoad := by
  have e1 := DiskMap.reload_spec' h.dc s.byContainer.maxItems
  have e2 := DiskMap.reload_spec' h.dq s.byQname.maxItems
  have e3 := SymbolTable.load_store h.sym
  refine ⟨e1.1, e2.1, ?_, ?_, ?_, h.ssorted, ?_, ?_, ?_, ?_⟩
  · simp only [DiskAnno.saveLoad, e3]; exact h.sym
  · simp only [DiskAnno.saveLoad, e3]; exact h.bound
  · simp only [DiskAnno.saveLoad, e3, e1.2]; exact h.cont
  · simp only [DiskAnno.saveLoad, e3, e1.2]; exact h.sizes
  · simp only [DiskAnno.saveLoad, e3]; exact h.ssome
  · simp only [DiskAnno.saveLoad, e1.2]; exact h.large
  · simp only [DiskAnno.saveLoad, e1.2, e2.2]; exact h.sup

theorem getValue_saveLoad {s : DiskAnno T N} (h : Inv s) (t : T) (key : AnnoKey N) :
    s.saveLoad.getValue t key = s.getValue t key := by
  rw [getValue_eq h.saveLoad, getValue_eq h]
  simp only [saveLoad, SymbolTable.load_store h.sym, (DiskMap.reload_spec' h.dc _).2]

theorem getValue_clear {s : DiskAnno T N} (h : Inv s) (t : T) (key : AnnoKey N) : s.clear.getValue t key = none := by
  rw [getValue_eq h.clear]
  simp only [clear, (DiskMap.clear_spec' _).2, OMap.get_nil]
  split <;> rfl

/-! The number of symbols is bounded by the number of operations. -/

theorem symLen_insert {V : Type} [LinearOrder V] (t : SymbolTable V) (v : V) : (t.insert v).1.byId.length ≤ t.byId.length + 1 := by
  unfold SymbolTable.insert
  split
  · simp
  · split
    · simp
    · simp

theorem symLen_remove {V : Type} [LinearOrder V] (t : SymbolTable V) (i : Nat) : (t.remove i).1.byId.length = t.byId.length := by
  unfold SymbolTable.remove
  split <;> simp

theorem symId_lt {V : Type} [LinearOrder V] {t : SymbolTable V} (h : t.Inv) (v : V) :
    (t.insert v).2 < (t.insert v).1.byId.length := by
  have := SymbolTable.getValue_insert h v (t.insert v).2
  simp only [if_true] at this
  by_contra hc
  unfold SymbolTable.getValue at this
  rw [List.getElem?_eq_none (Nat.le_of_not_lt hc)] at this
  simp at this

theorem symLen_dropOne (s : DiskAnno T N) (t : T) (k : Nat) (key : AnnoKey N) :
    (s.dropOne t k key).1.keys.byId.length = s.keys.byId.length := by
  unfold dropOne
  simp only
  split
  · rfl
  · split
    · split
      · exact symLen_remove _ _
      · rfl
    · rfl

theorem symLen_loop (t : T) (l : List (Bytes × Bytes)) : ∀ s : DiskAnno T N,
    (s.removeItemLoop t l).1.keys.byId.length = s.keys.byId.length := by
  induction l with
  | nil => intro s; rfl
  | cons p r ih =>
    intro s
    unfold removeItemLoop
    split
    · exact ih s
    · simp only; rw [ih, symLen_dropOne]

theorem symLen_step {s : DiskAnno T N} (h : Inv s) (op : Op T N) : (s.step op).keys.byId.length ≤ s.keys.byId.length + 1 := by
  cases op with
  | insert t key v =>
    have hkeys : (s.insert t key v).keys = (s.keys.insert key).1 := by unfold insert; simp only; split <;> rfl
    simp only [step, hkeys]; exact symLen_insert _ _
  | removeAnno t key =>
    simp only [step, removeAnno]
    split
    · rw [symLen_dropOne]; omega
    · simp
  | removeItem t => simp only [step, removeItem]; rw [symLen_loop]; omega
  | clear => simp [step, clear]
  | saveLoad => simp [step, saveLoad, SymbolTable.load_store h.sym]

theorem containsKey_exact {s : DiskAnno T N} (h : Inv s) (hc : s.byContainer.NoC1Tombstone) (b : Bytes) :
    s.byContainer.containsKey b = (s.byContainer.iter.get b).isSome := by
  rw [DiskMap.containsKey_eq hc, (DiskMap.iter_spec h.dc).2]

theorem run_snoc (n : Nat) (ops : List (Op T N)) (op : Op T N) : run n (ops ++ [op]) = (run n ops).step op := by
  simp [run]

theorem spec_snoc (ops : List (Op T N)) (op : Op T N) : spec (ops ++ [op]) = AnnoStore.specStep (spec ops) op := by
  simp [spec, AnnoStore.spec]

/-- Induction over a history from the front. -/
theorem history_ind {P : List (Op T N) → Prop} (h0 : P []) (hs : ∀ l op, P l → P (l ++ [op])) (l : List (Op T N)) : P l := by
  rw [← List.reverse_reverse l]
  induction l.reverse with
  | nil => exact h0
  | cons a r ih => rw [List.reverse_cons]; exact hs _ _ ih

theorem run_refines (n : Nat) (ops : List (Op T N)) (hlen : ops.length < 256 ^ 8) (hc : Clean n ops) :
    Inv (run n ops) ∧ (∀ t key, (run n ops).getValue t key = spec ops t key) ∧
    (run n ops).keys.byId.length ≤ ops.length ∧ (WriteOnce ops → Exact (run n ops)) := by
  induction ops using history_ind with
  | h0 =>
    refine ⟨Inv.new n, ?_, by simp [run, new, SymbolTable.new], ?_⟩
    · intro t key
      simp [run, new, getValue, SymbolTable.new, SymbolTable.getSymbol, AnnoStore.spec]
    · intro _ b hb
      simp [run, new, (DiskMap.new_spec' n).2] at hb
  | hs ops op ih =>
    simp only [List.length_append, List.length_singleton] at hlen ⊢
    obtain ⟨h, hv, hl, hx⟩ := ih (by omega) (fun pre hp => hc pre (hp.trans (List.prefix_append _ _)))
    have hnt := hc ops (List.prefix_append _ _)
    have hce := containsKey_exact h hnt
    rw [run_snoc, spec_snoc]
    have hlen' := symLen_step h op
    have hwo : WriteOnce (ops ++ [op]) → WriteOnce ops := fun hw pre t key v hp =>
      hw pre t key v (hp.trans (List.prefix_append _ _))
    cases op with
    | insert t key v =>
      have hb : ((run n ops).keys.insert key).2 < 256 ^ 8 := by
        have := symId_lt h.sym key
        have := symLen_insert (run n ops).keys key
        omega
      obtain ⟨a, b, c⟩ := insert_spec t key v h hce hb
      refine ⟨a, ?_, by simp only [step] at hlen' ⊢; omega, ?_⟩
      · intro t' key'
        simp only [step, AnnoStore.specStep]
        rw [b, hv]
      · intro hw
        refine c (hx (hwo hw)) ?_
        rw [hv]
        exact hw ops t key v (List.prefix_refl _)
    | removeAnno t key =>
      obtain ⟨a, _, b, c⟩ := removeAnno_spec h t key
      refine ⟨a, ?_, by simp only [step] at hlen' ⊢; omega, fun hw => c (hx (hwo hw))⟩
      intro t' key'
      simp only [step, AnnoStore.specStep]
      rw [b, hv]
    | removeItem t =>
      obtain ⟨a, _, b, c⟩ := removeItem_spec h t
      refine ⟨a, ?_, by simp only [step] at hlen' ⊢; omega, fun hw => c (hx (hwo hw))⟩
      intro t' key'
      simp only [step, AnnoStore.specStep]
      rw [b, hv]
    | clear =>
      refine ⟨h.clear, ?_, by simp only [step] at hlen' ⊢; omega, ?_⟩
      · intro t' key'
        simp only [step, AnnoStore.specStep]
        exact getValue_clear h t' key'
      · intro _ b hb
        simp [step, clear, (DiskMap.clear_spec' _).2] at hb
    | saveLoad =>
      refine ⟨h.saveLoad, ?_, by simp only [step] at hlen' ⊢; omega, ?_⟩
      · intro t' key'
        simp only [step, AnnoStore.specStep]
        rw [getValue_saveLoad h, hv]
      · intro hw b hb
        simp only [step, saveLoad, SymbolTable.load_store h.sym, (DiskMap.reload_spec' h.dc _).2,
          (DiskMap.reload_spec' h.dq _).2] at hb ⊢
        exact hx (hwo hw) b hb

/-! ## Two classes of histories without evicted removals -/

/-- The operation does not remove single annotations or items. -/
def NoRemove : Op T N → Prop
  | .removeAnno _ _ => False
  | .removeItem _ => False
  | _ => True

theorem noTomb_step_insert {s : DiskAnno T N} (t : T) (key : AnnoKey N) (v : Bytes) :
    (s.insert t key v).byContainer = s.byContainer.insert (ckey t (s.keys.insert key).2) v := by
  unfold insert; simp only; split <;> rfl

/-- Histories without removals are clean, for every eviction limit. -/
theorem clean_of_noRemove (n : Nat) (ops : List (Op T N)) (h : ∀ op ∈ ops, NoRemove op) : Clean n ops := by
  have key : ∀ ops : List (Op T N), (∀ op ∈ ops, NoRemove op) →
      (run n ops : DiskAnno T N).byContainer.Inv ∧ (run n ops).byContainer.NoC1Tombstone ∧
      ∀ b, (run n ops).byContainer.c0.get b ≠ some none := by
    intro ops
    induction ops using history_ind with
    | h0 =>
      intro _
      exact ⟨(DiskMap.new_spec' n).1, by intro c1 hc; simp [run, new, DiskMap.new] at hc,
        by intro b; simp [run, new, DiskMap.new]⟩
    | hs ops op ih =>
      intro hall
      obtain ⟨a, b, c⟩ := ih (fun o ho => hall o (by simp [ho]))
      have hop := hall op (by simp)
      rw [run_snoc]
      cases op with
      | insert t k v =>
        simp only [step, noTomb_step_insert]
        exact ⟨(DiskMap.insert_spec' a _ _).1, DiskMap.no_tomb_put a b c _ _⟩
      | removeAnno t k => exact hop.elim
      | removeItem t => exact hop.elim
      | clear =>
        exact ⟨(DiskMap.clear_spec' _).1, by intro c1 hc; simp [step, clear, DiskMap.clear] at hc,
          by intro b; simp [step, clear, DiskMap.clear]⟩
      | saveLoad =>
        exact ⟨(DiskMap.reload_spec' a _).1, by intro c1 hc; simp [step, saveLoad, DiskMap.new] at hc,
          by intro b; simp [step, saveLoad, DiskMap.new]⟩
  intro pre hp
  exact (key pre (fun op ho => h op (hp.subset ho))).2.1

theorem dm_put_noevict {K V : Type} [LinearOrder K] {d : DiskMap K V} (k : K) (o : Option V)
    (hl : (d.c0.insert k o).length < d.maxItems) :
    ({ d with c0 := d.c0.insert k o } : DiskMap K V).evict = { d with c0 := d.c0.insert k o } := by
  unfold DiskMap.evict
  rw [if_neg (by simp only; omega)]

theorem omap_length_insert_le {K V : Type} [LinearOrder K] {m : OMap K V} (hs : m.Sorted) (k : K) (v : V) :
    (m.insert k v).length ≤ m.length + 1 := by
  cases hg : m.get k with
  | none => rw [OMap.length_insert_none m k v hg]
  | some w => rw [OMap.length_insert_some m hs k v w hg]; omega

/-- While few entries were written, nothing is evicted. -/
structure Small (n b : Nat) (d : DiskMap Bytes Bytes) : Prop where
  inv : d.Inv
  max : d.maxItems = n
  c1 : d.c1 = none
  len : d.c0.length + d.iter.length ≤ b

theorem Small.insert {n b : Nat} {d : DiskMap Bytes Bytes} (h : Small n b d) (hn : b + 2 < n) (k : Bytes) (v : Bytes) :
    Small n (b + 2) (d.insert k v) := by
  have h1 := omap_length_insert_le h.inv.s0 k (some v)
  have h2 := omap_length_insert_le (DiskMap.iter_spec h.inv).1 k v
  have hi := DiskMap.insert_spec' h.inv k v
  have hl := h.len
  have he : d.insert k v = { d with c0 := d.c0.insert k (some v) } := by
    unfold DiskMap.insert
    exact dm_put_noevict k (some v) (by rw [h.max]; omega)
  refine ⟨hi.1, ?_, ?_, ?_⟩
  · rw [he]; exact h.max
  · rw [he]; exact h.c1
  · rw [hi.2, he]; simp only; omega

theorem Small.remove {n b : Nat} {d : DiskMap Bytes Bytes} (h : Small n b d) (hn : b < n) (k : Bytes) :
    Small n b (d.remove k).1 := by
  obtain ⟨a, c, e⟩ := DiskMap.remove_spec' h.inv k
  have hg := (DiskMap.iter_spec h.inv).2 k
  unfold DiskMap.remove at *
  cases hk : d.get k with
  | none => simp only; exact h
  | some v =>
    simp only [hk] at a c e ⊢
    have h1 := omap_length_insert_le h.inv.s0 k (none : Option Bytes)
    have h3 := OMap.length_erase_some d.iter k v (by rw [hg, hk])
    have hl := h.len
    have he : ({ d with c0 := d.c0.insert k none } : DiskMap Bytes Bytes).evict = { d with c0 := d.c0.insert k none } :=
      dm_put_noevict k none (by rw [h.max]; omega)
    refine ⟨a, ?_, ?_, ?_⟩
    · rw [he]; exact h.max
    · rw [he]; exact h.c1
    · rw [c, he]; simp only; omega

theorem Small.dropOne {n b : Nat} {s : DiskAnno T N} (h : Small n b s.byContainer) (hn : b < n) (t : T) (k : Nat)
    (key : AnnoKey N) : Small n b (s.dropOne t k key).1.byContainer := by
  have : (s.dropOne t k key).1.byContainer = (s.byContainer.remove (ckey t k)).1 := by
    unfold DiskAnno.dropOne; simp only
    split
    · rfl
    · split <;> rfl
  rw [this]; exact h.remove hn _

theorem Small.loop {n b : Nat} (hn : b < n) (t : T) (l : List (Bytes × Bytes)) : ∀ {s : DiskAnno T N},
    Small n b s.byContainer → Small n b (s.removeItemLoop t l).1.byContainer := by
  induction l with
  | nil => intro s h; exact h
  | cons p r ih =>
    intro s h
    unfold removeItemLoop
    split
    · exact ih h
    · exact ih (h.dropOne hn t _ _)

/-- Histories with fewer operations than half of the eviction limit are clean. -/
theorem clean_of_short (n : Nat) (ops : List (Op T N)) (h : 2 * ops.length < n) : Clean n ops := by
  have key : ∀ ops : List (Op T N), 2 * ops.length < n → Small n (2 * ops.length) (run n ops : DiskAnno T N).byContainer := by
    intro ops
    induction ops using history_ind with
    | h0 =>
      intro _
      exact ⟨(DiskMap.new_spec' n).1, rfl, rfl, by
        show (DiskMap.new n none : DiskMap Bytes Bytes).c0.length + (DiskMap.new n none : DiskMap Bytes Bytes).iter.length ≤ _
        rw [(DiskMap.new_spec' n).2]; simp [DiskMap.new]⟩
    | hs ops op ih =>
      intro hl
      simp only [List.length_append, List.length_singleton] at hl ⊢
      have hs := ih (by omega)
      rw [run_snoc]
      have weaken : ∀ {d}, Small n (2 * ops.length) d → Small n (2 * (ops.length + 1)) d := fun {d} hd =>
        ⟨hd.inv, hd.max, hd.c1, by have := hd.len; omega⟩
      cases op with
      | insert t k v =>
        simp only [step, noTomb_step_insert]
        have := hs.insert (by omega) (ckey t ((run n ops).keys.insert k).2) v
        exact ⟨this.inv, this.max, this.c1, by have := this.len; omega⟩
      | removeAnno t k =>
        simp only [step, removeAnno]
        split
        · exact weaken (hs.dropOne (by omega) t _ _)
        · exact weaken hs
      | removeItem t => exact weaken (Small.loop (by omega) t _ hs)
      | clear =>
        refine ⟨(DiskMap.clear_spec' _).1, hs.max, rfl, ?_⟩
        simp only [step, clear, (DiskMap.clear_spec' _).2]
        simp [DiskMap.clear]
      | saveLoad =>
        refine ⟨(DiskMap.reload_spec' hs.inv _).1, hs.max, rfl, ?_⟩
        simp only [step, saveLoad, (DiskMap.reload_spec' hs.inv _).2]
        have := hs.len
        simp only [DiskMap.new, List.length_nil]
        omega
  intro pre hp
  have hle := hp.length_le
  intro c1 hc
  rw [(key pre (by omega)).c1] at hc
  simp at hc

/-! ## Lookups -/

/-- C06/C02 for the storage on disk, restricted: the lookups agree with the specification.  Missing: histories in which an
evicted removal meets a later insert (`C06_annotation_lost_fails`).  `clean_of_noRemove` and `clean_of_short` give two
large classes that satisfy `Clean`. -/
theorem C06_lookup_partial (n : Nat) (ops : List (Op T N)) (hlen : ops.length < 256 ^ 8) (hc : Clean n ops) (t : T)
    (key : AnnoKey N) :
    (run n ops).getValue t key = spec ops t key ∧
    (run n ops).hasValue t key = (spec ops t key).isSome ∧
    ((run n ops).removeAnno t key).2 = spec ops t key ∧
    (((run n ops).removeItem t).2 = true ↔ ∃ key, (spec ops t key).isSome) ∧
    (∀ v, (key, v) ∈ (run n ops).annosForItem t ↔ spec ops t key = some v) := by
  obtain ⟨h, hv, _, _⟩ := run_refines n ops hlen hc
  refine ⟨hv t key, ?_, ?_, ?_, ?_⟩
  · rw [← hv, getValue_eq h]
    unfold hasValue
    cases (run n ops).keys.getSymbol key with
    | none => rfl
    | some k => simp only; rw [containsKey_exact h (hc ops (List.prefix_refl _))]
  · rw [(removeAnno_spec h t key).2.1, hv]
  · rw [(removeItem_spec h t).2.1]
    simp only [hv, Option.isSome_iff_exists]
  · intro v
    rw [← hv, getValue_iff h]
    unfold annosForItem
    rw [List.mem_filterMap]
    constructor
    · rintro ⟨⟨b, w⟩, hb, hp⟩
      obtain ⟨k, key2, rfl, hk, hg⟩ := (mem_itemRange h t b w).1 hb
      simp only [parse_ckey t (h.bound _ _ hk), Option.map_some, keyOf, hk, Option.getD_some, Option.some.injEq,
        Prod.mk.injEq] at hp
      obtain ⟨rfl, rfl⟩ := hp
      exact ⟨k, hk, hg⟩
    · rintro ⟨k, hk, hg⟩
      refine ⟨(ckey t k, v), (mem_itemRange h t _ v).2 ⟨k, key, rfl, hk, hg⟩, ?_⟩
      simp [parse_ckey t (h.bound _ _ hk), keyOf, hk]

/-- Every stored value is free of NUL and not above `char::MAX`, every item is below the largest node ID. -/
def Plain (m : T → AnnoKey N → Option Bytes) : Prop :=
  ∀ t key v, m t key = some v → NoNul v ∧ v ≤ charMax ∧ FixedKey.enc t < maxId

/-- C06, restricted: `exact_anno_search` returns exactly the annotations with the searched value, each once.  Missing:
overwritten values (`C06_search_fails_after_overwrite`), evicted removals, and values or items outside of the key ranges
(`C07_value_range_fails`, `C07_any_range_fails`). -/
theorem C06_exact_search_partial (n : Nat) (ops : List (Op T N)) (hlen : ops.length < 256 ^ 8) (hc : Clean n ops)
    (hw : WriteOnce ops) (hp : Plain (spec ops)) (ns : Option N) (name : N) (q : ValueSearch Bytes)
    (hq : ∀ v, q = .some v → NoNul v) :
    (∀ t key, (t, key) ∈ (run n ops).exactSearch ns name q ↔
      AnnoStore.Hit (spec ops) ns name (AnnoStore.accepts q) t key) ∧
    ((run n ops).exactSearch ns name q).Nodup := by
  obtain ⟨h, hv, _, hx⟩ := run_refines n ops hlen hc
  have hx := hx hw
  set s := run n ops
  have hit : ∀ (t : T) k key v, s.keys.getValue k = some key → s.byContainer.iter.get (ckey t k) = some v →
      spec ops t key = some v := fun t k key v hk hg => by rw [← hv]; exact (getValue_iff h t key v).2 ⟨k, hk, hg⟩
  have hsize : ∀ t : T, 8 ≤ (FixedKey.enc t).length := fun t => by rw [FixedKey.enc_len]; exact FixedKey.size_ge
  -- the scan for one value
  have hone : ∀ v, NoNul v → (∀ t key, (t, key) ∈ s.matchingItems ns name (some v) ↔
      AnnoStore.Hit (spec ops) ns name (fun w => w = v) t key) ∧ (s.matchingItems ns name (some v)).Nodup := by
    intro v hnv
    have hr : ∀ (t : T) k key w k', s.keys.getValue k = some key → s.byContainer.iter.get (ckey t k) = some w →
        k' < 256 ^ 8 → ((byQnameKey minId k' v ≤ qkey t k w ∧ qkey t k w < byQnameKey maxId k' v) ↔ k = k' ∧ w = v) := by
      intro t k key w k' hk hg hk'
      have := hp t key w (hit t k key w hk hg)
      exact C07_value_range_partial _ (hsize t) this.2.2 k' k hk' (h.bound _ _ hk) v w hnv this.1
    refine ⟨?_, nodup_entriesBetween h hx ns name v v
      (fun t k key w k' hk hg hk' h1 h2 => ((hr t k key w k' hk hg hk').1 ⟨h1, h2⟩).1)⟩
    intro t key
    unfold matchingItems
    rw [mem_entriesBetween h hx]
    unfold AnnoStore.Hit
    constructor
    · rintro ⟨k, w, hk, hg, k', key', hkr, hks, h1, h2⟩
      have hk' := (h.sym.sym _ _).1 hks
      obtain ⟨rfl, rfl⟩ := (hr t k key w k' hk hg (h.bound _ _ hk')).1 ⟨h1, h2⟩
      rw [hk] at hk'; injection hk' with hk'; subst hk'
      have hgv := (getValue_iff h t key w).2 ⟨k, hk, hg⟩
      obtain ⟨a, b⟩ := (mem_keyRanges h ns name hgv).1 hkr
      exact ⟨a, b, w, hit t k key w hk hg, rfl⟩
    · rintro ⟨a, b, w, hs, rfl⟩
      rw [← hv] at hs
      obtain ⟨k, hk, hg⟩ := (getValue_iff h t key w).1 hs
      refine ⟨k, w, hk, hg, k, key, (mem_keyRanges h ns name hs).2 ⟨a, b⟩, (h.sym.sym _ _).2 hk, ?_⟩
      exact (hr t k key w k hk hg (h.bound _ _ hk)).2 ⟨rfl, rfl⟩
  -- the scan for all values
  have hany : (∀ t key, (t, key) ∈ s.matchingItems ns name none ↔
      AnnoStore.Hit (spec ops) ns name (fun _ => True) t key) ∧ (s.matchingItems ns name none).Nodup := by
    have hr : ∀ (t : T) k key w k', s.keys.getValue k = some key → s.byContainer.iter.get (ckey t k) = some w →
        k' < 256 ^ 8 → ((byQnameKey minId k' [] ≤ qkey t k w ∧ qkey t k w < byQnameKey maxId k' charMax) ↔ k = k') := by
      intro t k key w k' hk hg hk'
      have := hp t key w (hit t k key w hk hg)
      exact C07_any_range_partial _ (hsize t) this.2.2 k' k hk' (h.bound _ _ hk) w this.1 this.2.1
    refine ⟨?_, nodup_entriesBetween h hx ns name [] charMax
      (fun t k key w k' hk hg hk' h1 h2 => (hr t k key w k' hk hg hk').1 ⟨h1, h2⟩)⟩
    intro t key
    unfold matchingItems
    rw [mem_entriesBetween h hx]
    unfold AnnoStore.Hit
    constructor
    · rintro ⟨k, w, hk, hg, k', key', hkr, hks, h1, h2⟩
      have hk' := (h.sym.sym _ _).1 hks
      have e := (hr t k key w k' hk hg (h.bound _ _ hk')).1 ⟨h1, h2⟩
      subst e
      rw [hk] at hk'; injection hk' with hk'; subst hk'
      have hgv := (getValue_iff h t key w).2 ⟨k, hk, hg⟩
      obtain ⟨a, b⟩ := (mem_keyRanges h ns name hgv).1 hkr
      exact ⟨a, b, w, hit t k key w hk hg, trivial⟩
    · rintro ⟨a, b, w, hs, _⟩
      rw [← hv] at hs
      obtain ⟨k, hk, hg⟩ := (getValue_iff h t key w).1 hs
      refine ⟨k, w, hk, hg, k, key, (mem_keyRanges h ns name hs).2 ⟨a, b⟩, (h.sym.sym _ _).2 hk, ?_⟩
      exact (hr t k key w k hk hg (h.bound _ _ hk)).2 rfl
  cases q with
  | any => exact hany
  | some v => exact hone v (hq v rfl)
  | notSome v =>
    refine ⟨?_, hany.2.sublist List.filter_sublist⟩
    intro t key
    simp only [exactSearch]
    rw [List.mem_filter, hany.1]
    unfold AnnoStore.Hit
    simp only [hv, AnnoStore.accepts]
    constructor
    · rintro ⟨⟨a, b, w, hs, _⟩, hf⟩
      rw [hs] at hf
      exact ⟨a, b, w, hs, by simpa using hf⟩
    · rintro ⟨a, b, w, hs, hne⟩
      refine ⟨⟨a, b, w, hs, trivial⟩, ?_⟩
      rw [hs]; simpa using hne

/-- C06/C03, restricted: both storages return the same search results for the same history.  Missing: as for
`C06_exact_search_partial`. -/
theorem C06_same_as_in_memory_partial (n : Nat) (ops : List (Op T N)) (hlen : ops.length < 256 ^ 8) (hc : Clean n ops)
    (hw : WriteOnce ops) (hp : Plain (spec ops)) (ns : Option N) (name : N) (q : ValueSearch Bytes)
    (hq : ∀ v, q = .some v → NoNul v) (t : T) (key : AnnoKey N) :
    (t, key) ∈ (run n ops).exactSearch ns name q ↔ (t, key) ∈ (AnnoStore.run ops).exactSearch ns name q := by
  rw [(C06_exact_search_partial n ops hlen hc hw hp ns name q hq).1, (AnnoStore.C03_exact_search ops ns name q).1]

/-- C06, restricted: even with overwritten values no match is missed.  Missing: as for `C06_exact_search_partial`, without
the restriction on overwrites. -/
theorem C06_search_complete_partial (n : Nat) (ops : List (Op T N)) (hlen : ops.length < 256 ^ 8) (hc : Clean n ops)
    (ns : Option N) (name : N) (t : T) (key : AnnoKey N) (v : Bytes)
    (hit : AnnoStore.Hit (spec ops) ns name (fun w => w = v) t key) (ht : FixedKey.enc t < maxId) :
    (t, key) ∈ (run n ops).exactSearch ns name (.some v) := by
  obtain ⟨h, hv, _, _⟩ := run_refines n ops hlen hc
  set s := run n ops
  obtain ⟨a, b, w, hs, rfl⟩ := hit
  rw [← hv] at hs
  obtain ⟨k, hk, hg⟩ := (getValue_iff h t key w).1 hs
  have hb := h.bound _ _ hk
  have sq := (DiskMap.iter_spec h.dq).1
  simp only [exactSearch, matchingItems, entriesBetween, List.mem_filterMap, List.mem_flatMap]
  refine ⟨(qkey t k w, ()), ⟨k, ⟨key, (mem_keyRanges h ns name hs).2 ⟨a, b⟩, (h.sym.sym _ _).2 hk⟩, ?_⟩,
    parseEntry_qkey s t hb hk w⟩
  rw [DiskMap.range_spec' h.dq, List.mem_filter, OMap.mem_iff_get sq]
  refine ⟨h.sup t k w hb hg, ?_⟩
  simp only [Bnd.aboveB, Bnd.belowB, Bool.and_eq_true, decide_eq_true_eq]
  have hsize : 8 ≤ (FixedKey.enc t).length := by rw [FixedKey.enc_len]; exact FixedKey.size_ge
  unfold qkey byQnameKey
  constructor
  · rw [← not_lt, lt_append_iff rfl]
    rintro (hh | ⟨_, hh⟩)
    · exact lt_irrefl _ hh
    · rw [List.cons_lt_cons_iff] at hh
      rcases hh with hh | ⟨_, hh⟩
      · exact lt_irrefl _ hh
      · exact absurd hh (not_lt.2 (minId_le _ hsize))
  · rw [lt_append_iff rfl]
    exact Or.inr ⟨rfl, by rw [List.cons_lt_cons_iff]; exact Or.inr ⟨rfl, ht⟩⟩

/-- C06, restricted: a regular expression search returns exactly the annotations whose value matches.  `pre` is a literal
prefix of everything the pattern accepts.  Missing: as for `C06_exact_search_partial`; the part of a matching value behind
the prefix must not be above `char::MAX`. -/
theorem C06_regex_search_partial (n : Nat) (ops : List (Op T N)) (hlen : ops.length < 256 ^ 8) (hc : Clean n ops)
    (hw : WriteOnce ops) (hp : Plain (spec ops)) (ns : Option N) (name : N) (re : Bytes → Bool) (pre : Bytes)
    (hpre : ∀ v, re v = true → pre <+: v) (hnp : NoNul pre)
    (hsuf : ∀ t key w, spec ops t key = some (pre ++ w) → w ≤ charMax) (neg : Bool) :
    ∀ t key, (t, key) ∈ (run n ops).regexSearch ns name (some (re, pre)) neg ↔
      AnnoStore.Hit (spec ops) ns name (fun v => re v = !neg) t key := by
  have hall := C06_exact_search_partial n ops hlen hc hw hp ns name .any (by simp)
  obtain ⟨h, hv, _, hx⟩ := run_refines n ops hlen hc
  have hx := hx hw
  set s := run n ops
  intro t key
  have hsize : 8 ≤ (FixedKey.enc t).length := by rw [FixedKey.enc_len]; exact FixedKey.size_ge
  cases neg with
  | true =>
    simp only [regexSearch, if_true]
    have := hall.1 t key
    simp only [exactSearch] at this
    rw [List.mem_filter, this]
    unfold AnnoStore.Hit
    simp only [hv, AnnoStore.accepts]
    constructor
    · rintro ⟨⟨a, b, w, hs, _⟩, hf⟩
      rw [hs] at hf
      exact ⟨a, b, w, hs, by simpa using hf⟩
    · rintro ⟨a, b, w, hs, hne⟩
      refine ⟨⟨a, b, w, hs, trivial⟩, ?_⟩
      rw [hs]; simpa using hne
  | false =>
    simp only [regexSearch, Bool.false_eq_true, if_false]
    rw [List.mem_filter, mem_entriesBetween h hx]
    unfold AnnoStore.Hit
    have hcm : NoNul (pre ++ charMax) := by
      intro b hb
      rcases List.mem_append.1 hb with hb | hb
      · exact hnp b hb
      · have : NoNul charMax := by unfold NoNul charMax; decide
        exact this b hb
    constructor
    · rintro ⟨⟨k, w, hk, hg, k', key', hkr, hks, h1, h2⟩, hf⟩
      have hgv := (getValue_iff h t key w).2 ⟨k, hk, hg⟩
      have hs : spec ops t key = some w := by rw [← hv]; exact hgv
      simp only [hgv] at hf
      have hplain := hp t key w hs
      have hk' := (h.sym.sym _ _).1 hks
      have hlo : ¬ qkey t k w < byQnameKey minId k' pre := not_lt.2 h1
      unfold qkey at hlo h2
      rw [qname_lt_iff (h.bound _ _ hk) (h.bound _ _ hk') hplain.1 hnp] at hlo
      rw [qname_lt_iff (h.bound _ _ hk) (h.bound _ _ hk') hplain.1 hcm] at h2
      have e : k = k' := by
        rcases h2 with h2 | ⟨h2, _⟩
        · exact absurd (Or.inl h2) hlo
        · exact h2
      subst e
      rw [hk] at hk'; injection hk' with hk'; subst hk'
      obtain ⟨a, b⟩ := (mem_keyRanges h ns name hgv).1 hkr
      exact ⟨a, b, w, hs, by simpa using hf⟩
    · rintro ⟨a, b, w, hs, hre⟩
      simp only [Bool.not_false] at hre
      have hgv : s.getValue t key = some w := by rw [hv]; exact hs
      obtain ⟨k, hk, hg⟩ := (getValue_iff h t key w).1 hgv
      have hplain := hp t key w hs
      have hb := h.bound _ _ hk
      refine ⟨⟨k, w, hk, hg, k, key, (mem_keyRanges h ns name hgv).2 ⟨a, b⟩, (h.sym.sym _ _).2 hk, ?_, ?_⟩,
        by simp [hgv, hre]⟩
      · unfold qkey
        rw [← not_lt, qname_lt_iff hb hb hplain.1 hnp]
        obtain ⟨w', rfl⟩ := hpre w hre
        rintro (hh | ⟨_, hh | ⟨_, hh⟩⟩)
        · exact lt_irrefl _ hh
        · have : pre ++ w' < pre ++ [] := by simpa using hh
          rw [lt_append_iff rfl] at this
          rcases this with hh | ⟨_, hh⟩
          · exact lt_irrefl _ hh
          · simp at hh
        · exact absurd hh (not_lt.2 (minId_le _ hsize))
      · unfold qkey
        rw [qname_lt_iff hb hb hplain.1 hcm]
        obtain ⟨w', rfl⟩ := hpre w hre
        right
        refine ⟨rfl, ?_⟩
        rcases lt_or_eq_of_le (hsuf t key w' hs) with hh | hh
        · left; rw [lt_append_iff rfl]; exact Or.inr ⟨rfl, hh⟩
        · right; exact ⟨by rw [hh], hplain.2.2⟩

/-! ## Counterexamples and non-vacuity -/

/-- C06 fails: after overwriting `a` by `b` (with the real eviction limit) the old value is still found. -/
theorem C06_search_fails_after_overwrite :
    ∃ (ops : List (Op NodeID64 Nat)) (t : NodeID64) (key : AnnoKey Nat),
      (t, key) ∈ (run 10000 ops).exactSearch (some key.ns) key.name (.some [97]) ∧
      (run 10000 ops).getValue t key = some [98] ∧ spec ops t key = some [98] :=
  ⟨[.insert 5 (AnnoKey.mk 1 2) [97], .insert 5 (AnnoKey.mk 1 2) [98]], 5, AnnoKey.mk 1 2, by decide⟩

/-- C06 fails: a stored annotation is lost.  The removed annotation of item 1 was evicted, so inserting it again does not
count; removing the annotation of item 2 then frees the key although item 1 still uses it. -/
theorem C06_annotation_lost_fails :
    ∃ (n : Nat) (ops : List (Op NodeID64 Nat)) (t : NodeID64) (key : AnnoKey Nat),
      (run n ops).getValue t key = none ∧ spec ops t key = some [97] :=
  ⟨1, [.insert 1 (AnnoKey.mk 1 2) [97], .insert 2 (AnnoKey.mk 1 2) [97], .removeAnno 1 (AnnoKey.mk 1 2),
    .insert 1 (AnnoKey.mk 1 2) [97], .removeAnno 2 (AnnoKey.mk 1 2)], 1, AnnoKey.mk 1 2, by decide⟩

/-- C05 fails for the storage on disk: `most_frequent_first` returns the least frequent value first. -/
theorem C05_disk_most_frequent_first_fails :
    let s : DiskAnno NodeID64 Nat := run 10000 [.insert 1 (AnnoKey.mk 1 2) [97], .insert 2 (AnnoKey.mk 1 2) [97],
      .insert 3 (AnnoKey.mk 1 2) [98]]
    s.allValues (AnnoKey.mk 1 2) true = [[98], [97]] ∧
      (s.exactSearch (some 1) 2 (.some [97])).length = 2 ∧ (s.exactSearch (some 1) 2 (.some [98])).length = 1 := by
  intro s
  refine ⟨?_, by decide⟩
  have hv : s.valuesOfKey (AnnoKey.mk 1 2) = [[97], [97], [98]] := by decide
  have hd : ([[97], [97], [98]] : List Bytes).dedup = [[97], [98]] := by decide
  have h1 : ¬ ((toLex (2, [97]) : Nat ×ₗ Bytes) ≤ toLex (1, [98])) := by decide
  simp only [allValues, hv, hd, if_true, List.map_cons, List.map_nil]
  have c1 : ([[97], [97], [98]] : List Bytes).count [97] = 2 := by decide
  have c2 : ([[97], [97], [98]] : List Bytes).count [98] = 1 := by decide
  rw [c1, c2]
  simp [List.mergeSort, List.MergeSort.Internal.splitInTwo, List.merge, h1]

/-- A history that meets the hypotheses of the search theorems, with removals. -/
def demo : List (Op NodeID64 Nat) :=
  [.insert 1 (AnnoKey.mk 1 2) [97], .insert 2 (AnnoKey.mk 1 2) [98], .removeAnno 1 (AnnoKey.mk 1 2), .saveLoad,
    .insert 1 (AnnoKey.mk 1 2) [99]]

theorem demo_clean : Clean 10000 demo := clean_of_short 10000 demo (by decide)

example : (run 10000 demo).exactSearch none 2 .any = [(2, AnnoKey.mk 1 2), (1, AnnoKey.mk 1 2)] := by decide

example : spec demo 1 (AnnoKey.mk 1 2) = some [99] ∧ spec demo 2 (AnnoKey.mk 1 2) = some [98] := by decide

example : WriteOnce demo := by
  intro pre t key v hp
  have hl := hp.length_le
  simp only [demo, List.length_append, List.length_cons, List.length_nil] at hl
  match pre, hp with
  | [], _ => exact Or.inl rfl
  | [a], hp =>
    simp only [demo, List.singleton_append, List.cons_prefix_cons, List.cons_append, List.nil_append] at hp
    obtain ⟨rfl, h, _⟩ := hp
    injection h with h1 h2 h3
    subst h1 h2 h3
    left; decide
  | [a, b], hp => simp [demo, List.cons_prefix_cons] at hp
  | [a, b, c], hp => simp [demo, List.cons_prefix_cons] at hp
  | [a, b, c, d], hp =>
    simp only [demo, List.cons_prefix_cons, List.cons_append, List.nil_append] at hp
    obtain ⟨rfl, rfl, rfl, rfl, h, _⟩ := hp
    injection h with h1 h2 h3
    subst h1 h2 h3
    left; decide
  | a :: b :: c :: d :: e :: r, _ => simp at hl

end DiskAnno
