import Verif.DiskMap.Lemmas

/-!
# C08, C09: the disk map behaves as an ordered map

The specification is a plain function from keys to optional values, updated pointwise (`spec`).  It does not mention the
three levels, tombstones or evictions.
-/

set_option linter.unusedSectionVars false

namespace DiskMap

variable {K V : Type} [LinearOrder K]

/-- Operations of the public API.  `saveReload` is `write_to` followed by opening the written file as a new map. -/
inductive Op (K V : Type)
  | insert (k : K) (v : V)
  | remove (k : K)
  | compact
  | clear
  | saveReload (maxItems : Nat)

/-- The model executes one operation. -/
def step (d : DiskMap K V) : Op K V → DiskMap K V
  | .insert k v => d.insert k v
  | .remove k => (d.remove k).1
  | .compact => d.compact
  | .clear => d.clear
  | .saveReload n => new n (some d.writeTo)

/-- The model executes a history, starting with an empty map that evicts after `n` items. -/
def run (n : Nat) (ops : List (Op K V)) : DiskMap K V := ops.foldl step (new n none)

/-- Specification: what a map is. -/
def specStep (f : K → Option V) : Op K V → K → Option V
  | .insert k v => fun k' => if k' = k then some v else f k'
  | .remove k => fun k' => if k' = k then none else f k'
  | .compact => f
  | .clear => fun _ => none
  | .saveReload _ => f

/-- Specification of a history. -/
def spec (ops : List (Op K V)) : K → Option V := ops.foldl specStep (fun _ => none)

/-- Specification of the range. -/
def InRange (s e : Bnd K) (k : K) : Prop :=
  (match s with
    | .included a => a ≤ k
    | .excluded a => a < k
    | .unbounded => True) ∧
  (match e with
    | .included b => k ≤ b
    | .excluded b => k < b
    | .unbounded => True)

theorem inRange_iff (s e : Bnd K) (k : K) : (s.aboveB k && e.belowB k) = true ↔ InRange s e k := by
  cases s <;> cases e <;> simp [Bnd.aboveB, Bnd.belowB, InRange]

theorem step_spec {d : DiskMap K V} {f : K → Option V} (h : Inv d) (hf : ∀ k, d.get k = f k) (o : Op K V) :
    Inv (step d o) ∧ ∀ k, (step d o).get k = specStep f o k := by
  cases o with
  | insert k v =>
    obtain ⟨a, b⟩ := put_spec h k (some v)
    refine ⟨a, ?_⟩
    intro k'
    simp only [step, specStep, insert]
    rw [b, hf]
  | remove k =>
    simp only [step, specStep, remove]
    cases hg : d.get k with
    | none =>
      refine ⟨h, ?_⟩
      intro k'
      by_cases e : k' = k
      · subst e; simp [hg]
      · simp [e, hf]
    | some v =>
      obtain ⟨a, b⟩ := put_spec h k none
      refine ⟨a, ?_⟩
      intro k'
      simp only
      rw [b, hf]
  | compact =>
    obtain ⟨a, b⟩ := compact_spec h
    exact ⟨a, fun k => by simp only [step, specStep]; rw [b, hf]⟩
  | clear =>
    refine ⟨⟨OMap.sorted_nil, by simp [step, clear], by simp [step, clear]⟩, ?_⟩
    intro k
    simp [step, clear, get, specStep]
  | saveReload n =>
    obtain ⟨a, b⟩ := iter_spec h
    refine ⟨⟨OMap.sorted_nil, by simp [step, new], ?_⟩, ?_⟩
    · intro c2 hc; simp only [step, new, Option.some.injEq] at hc; subst hc; exact a
    · intro k
      simp only [step, specStep, new, get, OMap.get_nil, Option.bind_none, Option.bind_some, writeTo]
      rw [b, hf]

theorem run_spec (n : Nat) (ops : List (Op K V)) :
    Inv (run n ops) ∧ ∀ k, (run n ops).get k = spec ops k := by
  unfold run spec
  have : ∀ (d : DiskMap K V) (f : K → Option V), Inv d → (∀ k, d.get k = f k) →
      Inv (ops.foldl step d) ∧ ∀ k, (ops.foldl step d).get k = ops.foldl specStep f k := by
    induction ops with
    | nil => intro d f h hf; exact ⟨h, hf⟩
    | cons o r ih =>
      intro d f h hf
      obtain ⟨a, b⟩ := step_spec h hf o
      exact ih _ _ a b
  refine this _ _ ⟨OMap.sorted_nil, by simp [new], by simp [new]⟩ ?_
  intro k; simp [new, get]

/-- C08: after every history, `get` returns what the specification map holds, whatever was evicted to which level. -/
theorem C08_get (n : Nat) (ops : List (Op K V)) (k : K) : (run n ops).get k = spec ops k := (run_spec n ops).2 k

/-- C08: `remove` returns the value the map held and nothing else. -/
theorem C08_remove_result (n : Nat) (ops : List (Op K V)) (k : K) : ((run n ops).remove k).2 = spec ops k := by
  rw [← C08_get n ops k]
  unfold remove
  cases (run n ops).get k <;> rfl

/-- C08: `iter` enumerates exactly the live entries in strictly ascending key order. -/
theorem C08_iter (n : Nat) (ops : List (Op K V)) :
    List.Pairwise (fun a b => a.1 < b.1) (run n ops).iter ∧
    ∀ k v, (k, v) ∈ (run n ops).iter ↔ spec ops k = some v := by
  obtain ⟨h, hg⟩ := run_spec n ops
  obtain ⟨a, b⟩ := iter_spec h
  refine ⟨a, ?_⟩
  intro k v
  rw [OMap.mem_iff_get a, b, hg]

/-- C08: `range` enumerates exactly the live entries with a key in the range, in strictly ascending key order. -/
theorem C08_range (n : Nat) (ops : List (Op K V)) (s e : Bnd K) :
    List.Pairwise (fun a b => a.1 < b.1) ((run n ops).range s e) ∧
    ∀ k v, (k, v) ∈ (run n ops).range s e ↔ InRange s e k ∧ spec ops k = some v := by
  obtain ⟨h, hg⟩ := run_spec n ops
  obtain ⟨a, b⟩ := range_spec h s e
  refine ⟨a, ?_⟩
  intro k v
  rw [OMap.mem_iff_get a, b, hg]
  by_cases hr : (s.aboveB k && e.belowB k) = true
  · simp [hr, (inRange_iff s e k).1 hr]
  · have : ¬ InRange s e k := fun hc => hr ((inRange_iff s e k).2 hc)
    simp [hr, this]

/-- C08: `is_empty` holds exactly if there is no live key. -/
theorem C08_is_empty (n : Nat) (ops : List (Op K V)) :
    (run n ops).isEmpty = true ↔ ∀ k, spec ops k = none := by
  obtain ⟨_, hm⟩ := C08_iter n ops
  obtain ⟨_, hg⟩ := run_spec n ops
  unfold isEmpty
  split
  · rename_i hc
    simp only [true_iff]
    intro k
    rw [← hg k]
    simp [get, hc.1, hc.2.1, hc.2.2]
  · rw [List.isEmpty_iff]
    constructor
    · intro h k
      cases hk : spec ops k with
      | none => rfl
      | some v => have := (hm k v).2 hk; simp [h] at this
    · intro h
      cases hl : (run n ops).iter with
      | nil => rfl
      | cons p r =>
        have := (hm p.1 p.2).1 (by rw [hl]; simp)
        simp [h] at this

/-- C08: eviction thresholds are invisible: two runs of the same history with different limits show the same entries. -/
theorem C08_eviction_invisible (n n' : Nat) (ops : List (Op K V)) (s e : Bnd K) :
    (run n ops).iter = (run n' ops).iter ∧ (run n ops).range s e = (run n' ops).range s e := by
  obtain ⟨h, hg⟩ := run_spec n ops
  obtain ⟨h', hg'⟩ := run_spec n' ops
  obtain ⟨a, b⟩ := iter_spec h
  obtain ⟨a', b'⟩ := iter_spec h'
  obtain ⟨c, d⟩ := range_spec h s e
  obtain ⟨c', d'⟩ := range_spec h' s e
  constructor
  · exact OMap.ext a a' (fun k => by rw [b, b', hg, hg'])
  · exact OMap.ext c c' (fun k => by rw [d, d', hg, hg'])

/-- C08 is not vacuous: a history that evicts, deletes, saves, reloads and deletes an entry of the table. -/
def demo : List (Op Nat String) :=
  [.insert 3 "c", .insert 1 "a", .insert 2 "b", .remove 2, .saveReload 2, .insert 4 "d", .remove 3, .insert 1 "x"]

example : (run 2 demo).iter = [(1, "x"), (4, "d")] ∧ (run 2 demo).c1.isSome ∧ (run 2 demo).c2.isSome ∧
    (run 2 demo).c0 ≠ [] ∧ (run 2 demo).range (.excluded 1) (.included 4) = [(4, "d")] := by decide

/-! ## C09 -/

/-- C09 fails: after an eviction, a removed key is still reported to exist. -/
theorem C09_contains_key_fails :
    ∃ (n : Nat) (ops : List (Op Nat Nat)) (k : Nat), (run n ops).containsKey k = true ∧ spec ops k = none :=
  ⟨1, [.insert 7 0, .remove 7], 7, by decide⟩

/-- C09: an existing key is always reported, for every history. -/
theorem C09_no_false_negative (n : Nat) (ops : List (Op K V)) (k : K) (h : (spec ops k).isSome) :
    (run n ops).containsKey k = true := by
  rw [← C08_get n ops k] at h
  unfold containsKey get at *
  split
  · simp_all
  · rename_i h0
    rw [h0] at h
    simp only at h
    split at h
    · rename_i h1; simp [h1]
    · rename_i h1; simp [h1, h]

/-- There is no tombstone in `c1`. -/
def NoC1Tombstone (d : DiskMap K V) : Prop := ∀ c1, d.c1 = some c1 → ∀ k, c1.get k ≠ some none

theorem containsKey_eq {d : DiskMap K V} (h : NoC1Tombstone d) (k : K) : d.containsKey k = (d.get k).isSome := by
  unfold containsKey get
  cases h0 : d.c0.get k with
  | some e => rfl
  | none =>
    simp only
    cases h1 : d.c1 with
    | none => simp
    | some c1 =>
      cases hk : c1.get k with
      | none => simp [hk]
      | some o =>
        cases o with
        | none => exact absurd hk (h c1 h1 k)
        | some v => simp [hk]

theorem no_tomb_put {d : DiskMap K V} (hs : Inv d) (h : NoC1Tombstone d) (h0 : ∀ k, d.c0.get k ≠ some none) (k : K) (v : V) :
    NoC1Tombstone (d.insert k v) ∧ ∀ k', (d.insert k v).c0.get k' ≠ some none := by
  have hc0 : ∀ k', (d.c0.insert k (some v)).get k' ≠ some none := by
    intro k'
    rw [OMap.get_insert]
    split
    · simp
    · exact h0 k'
  have h1 : (d.c1.getD []).Sorted := by
    cases hc : d.c1 with
    | none => exact OMap.sorted_nil
    | some c1 => exact hs.s1 c1 hc
  unfold insert evict
  split
  · refine ⟨?_, by simp [compact]⟩
    intro c1 hc k'
    simp only [compact, Option.some.injEq] at hc
    subst hc
    obtain ⟨_, b⟩ := foldl_insert_spec (d.c0.insert k (some v)) (d.c1.getD []) h1 (OMap.sorted_insert hs.s0 _ _)
    rw [b]
    cases hx : (d.c0.insert k (some v)).get k' with
    | some w => have := hc0 k'; rw [hx] at this; simpa using this
    | none =>
      simp only
      cases hc1 : d.c1 with
      | none => simp
      | some c1 => exact h c1 hc1 k'
  · exact ⟨h, hc0⟩

/-- An operation does not remove. -/
def Op.NoRemove : Op K V → Prop
  | .remove _ => False
  | _ => True

/-- C09, restricted: without removals since the map was created, `contains_key` is exact.  Missing: histories with
removals, where the full statement is false (`C09_contains_key_fails`). -/
theorem C09_contains_key_partial (n : Nat) (ops : List (Op K V)) (hops : ∀ o ∈ ops, o.NoRemove) (k : K) :
    (run n ops).containsKey k = (spec ops k).isSome := by
  rw [← C08_get n ops k]
  apply containsKey_eq
  have : ∀ (ops : List (Op K V)) (d : DiskMap K V), (∀ o ∈ ops, o.NoRemove) → Inv d → NoC1Tombstone d →
      (∀ k, d.c0.get k ≠ some none) → NoC1Tombstone (ops.foldl step d) := by
    intro ops
    induction ops with
    | nil => intro d _ _ h _; exact h
    | cons o r ih =>
      intro d ho hs h h0
      have hi := (step_spec (f := d.get) hs (fun _ => rfl) o).1
      refine ih (step d o) (fun x hx => ho x (by simp [hx])) hi ?_ ?_
      · cases o with
        | insert k v => exact (no_tomb_put hs h h0 k v).1
        | remove k => exact (ho (.remove k) List.mem_cons_self).elim
        | compact =>
          intro c1 hc k'
          have h1 : (d.c1.getD []).Sorted := by
            cases hc : d.c1 with
            | none => exact OMap.sorted_nil
            | some c1 => exact hs.s1 c1 hc
          simp only [step, compact, Option.some.injEq] at hc
          subst hc
          obtain ⟨_, b⟩ := foldl_insert_spec d.c0 (d.c1.getD []) h1 hs.s0
          rw [b]
          cases hx : d.c0.get k' with
          | some w => have := h0 k'; rw [hx] at this; simpa using this
          | none =>
            simp only
            cases hc1 : d.c1 with
            | none => simp
            | some c1 => exact h c1 hc1 k'
        | clear => intro c1 hc; simp [step, clear] at hc
        | saveReload m => intro c1 hc; simp [step, new] at hc
      · cases o with
        | insert k v => exact (no_tomb_put hs h h0 k v).2
        | remove k => exact (ho (.remove k) List.mem_cons_self).elim
        | compact => intro k'; simp [step, compact]
        | clear => intro k'; simp [step, clear]
        | saveReload m => intro k'; simp [step, new]
  exact this ops _ hops ⟨OMap.sorted_nil, by simp [new], by simp [new]⟩ (by intro c1 hc; simp [new] at hc)
    (by intro k; simp [new])

/-- C09: right after saving and reloading, or after `clear`, `contains_key` is exact again for every earlier history. -/
theorem C09_contains_key_after_reload (n m : Nat) (ops : List (Op K V)) (k : K) :
    (run n (ops ++ [.saveReload m])).containsKey k = (spec ops k).isSome ∧
    (run n (ops ++ [.clear])).containsKey k = false := by
  constructor
  · rw [containsKey_eq]
    · rw [C08_get]; simp [spec, List.foldl_append, specStep]
    · intro c1 hc; simp [run, List.foldl_append, step, new] at hc
  · rw [containsKey_eq]
    · rw [C08_get]; simp [spec, List.foldl_append, specStep]
    · intro c1 hc; simp [run, List.foldl_append, step, clear] at hc

/-- The hypothesis of `C09_contains_key_partial` is met by a history that evicts. -/
example : (∀ o ∈ ([.insert 1 2, .insert 3 4, .compact, .insert 5 6] : List (Op Nat Nat)), o.NoRemove) ∧
    (run 2 ([.insert 1 2, .insert 3 4, .compact, .insert 5 6] : List (Op Nat Nat))).containsKey 3 = true := by
  constructor
  · simp [Op.NoRemove]
  · decide

end DiskMap
