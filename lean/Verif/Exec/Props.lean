import Verif.Exec.Parallel
import Mathlib.Data.List.Perm.Basic
import Mathlib.Data.List.Nodup
import Mathlib.Data.List.ProdSigma

/-!
# C42, C43: joins
-/

set_option linter.unusedSimpArgs false
set_option linter.unusedSectionVars false
set_option linter.unusedVariables false

section
variable {N K E : Type} [DecidableEq N] [DecidableEq K]

/-! ## Specification -/

/-- Both matches of a pair differ from each other, or (`global`) from all matches of the other row. -/
def Distinct (global : Bool) (o i : Row N K) (a b : SMatch N K) : Prop :=
  if global then (∀ x ∈ i, a ≠ x) ∧ ∀ x ∈ o, b ≠ x else a ≠ b

instance (global : Bool) (o i : Row N K) (a b : SMatch N K) : Decidable (Distinct global o i a b) := by
  unfold Distinct; infer_instance

/-- All combinations of an outer and an inner row that satisfy `T`. -/
def crossJoin (T : Row N K → Row N K → Bool) (O I : List (Row N K)) : List (Row N K) :=
  O.flatMap fun o => (I.filter (T o)).map (o ++ ·)

theorem differentTo_iff (a b : SMatch N K) : a.differentTo b = true ↔ a ≠ b := by
  unfold SMatch.differentTo
  cases a; cases b
  simp only [ne_eq, decide_not, Bool.or_eq_true, Bool.not_eq_eq_eq_not, Bool.not_true, decide_eq_false_iff_not, SMatch.mk.injEq]
  tauto

theorem differentToAll_iff (a : SMatch N K) (r : Row N K) : a.differentToAll r = true ↔ ∀ x ∈ r, a ≠ x := by
  unfold SMatch.differentToAll
  simp only [Bool.not_eq_eq_eq_not, Bool.not_true, List.any_eq_false, Bool.and_eq_true, decide_eq_true_eq, not_and]
  refine forall₂_congr fun x _ => ?_
  cases a; cases x
  simp only [ne_eq, SMatch.mk.injEq, not_and]

/-! ## Nested loop -/

/-- What a condition gives for one pair. -/
def emit (t : Row N K → Row N K → Except (Fail E) Bool) (o i : Row N K) : List (Item N K E) :=
  match t o i with
  | .error e => [.error e]
  | .ok true => [.ok (o ++ i)]
  | .ok false => []

/-- The rows of a stream without the errors. -/
def oks (l : List (Item N K E)) : List (Row N K) := l.filterMap fun
  | .ok r => some r
  | .error _ => none

@[simp] theorem oks_nil : oks ([] : List (Item N K E)) = [] := rfl
@[simp] theorem oks_ok (r : Row N K) (l : List (Item N K E)) : oks (.ok r :: l) = r :: oks l := rfl
@[simp] theorem oks_error (e : Fail E) (l : List (Item N K E)) : oks (.error e :: l) = oks l := rfl
@[simp] theorem oks_map_ok (l : List (Row N K)) : oks (l.map (Except.ok (ε := Fail E))) = l := by
  induction l with
  | nil => rfl
  | cons a l ih => simp [ih]

/-- The items for the outer rows after the first one. -/
def laterOut (c : NlConf N K E) (I : List (Row N K)) (O : List (Item N K E)) : List (Item N K E) :=
  O.flatMap fun
    | .error e => [.error e]
    | .ok o => I.flatMap (emit c.pairCached o)

/-- The items for the first outer row. -/
def firstOut (c : NlConf N K E) (o : Row N K) (I : List (Item N K E)) : List (Item N K E) :=
  I.flatMap fun
    | .error e => [.error e]
    | .ok i => emit c.pairFirst o i

/-- All items of a nested loop join. -/
def nlOut (c : NlConf N K E) (I : List (Item N K E)) : List (Item N K E) → List (Item N K E)
  | [] => []
  | .error e :: O => .error e :: nlOut c I O
  | .ok o :: O => firstOut c o I ++ laterOut c (oks I) O

theorem scanCache_none (c : NlConf N K E) (o : Row N K) (l : List (Row N K)) (p : Nat) (h : c.scanCache o l p = none) :
    l.flatMap (emit c.pairCached o) = [] := by
  induction l generalizing p with
  | nil => rfl
  | cons i is ih =>
    simp only [NlConf.scanCache] at h
    simp only [List.flatMap_cons, emit]
    cases hp : c.pairCached o i with
    | error e => rw [hp] at h; simp at h
    | ok b =>
      cases b
      · rw [hp] at h
        simp only [List.nil_append]
        exact ih _ h
      · rw [hp] at h; simp at h

theorem scanCache_some (c : NlConf N K E) (o : Row N K) (l : List (Row N K)) (p : Nat) {r : Item N K E} {p' : Nat}
    (h : c.scanCache o l p = some (r, p')) :
    p < p' ∧ p' ≤ p + l.length ∧ l.flatMap (emit c.pairCached o) = r :: (l.drop (p' - p)).flatMap (emit c.pairCached o) := by
  induction l generalizing p with
  | nil => simp [NlConf.scanCache] at h
  | cons i is ih =>
    simp only [NlConf.scanCache] at h
    simp only [List.flatMap_cons, emit]
    cases hp : c.pairCached o i with
    | error e =>
      rw [hp] at h
      simp only [Option.some.injEq, Prod.mk.injEq] at h
      obtain ⟨rfl, rfl⟩ := h
      refine ⟨by omega, by simp, ?_⟩
      rw [show p + 1 - p = 1 by omega]; simp
    | ok b =>
      rw [hp] at h
      cases b
      · simp only at h
        obtain ⟨h1, h2, h3⟩ := ih _ h
        refine ⟨by omega, by simp; omega, ?_⟩
        rw [show p' - p = (p' - (p + 1)) + 1 by omega]
        simp only [List.drop_succ_cons, List.nil_append]
        exact h3
      · simp only [Option.some.injEq, Prod.mk.injEq] at h
        obtain ⟨rfl, rfl⟩ := h
        refine ⟨by omega, by simp, ?_⟩
        rw [show p + 1 - p = 1 by omega]; simp

theorem scanInner_spec (c : NlConf N K E) (o : Row N K) (l : List (Item N K E)) (cache : List (Row N K)) :
    match c.scanInner o l cache with
    | (none, l', cache') => l' = [] ∧ cache' = cache ++ oks l ∧ firstOut c o l = []
    | (some r, l', cache') => l'.length < l.length ∧ cache' ++ oks l' = cache ++ oks l ∧ firstOut c o l = r :: firstOut c o l' := by
  induction l generalizing cache with
  | nil => simp [NlConf.scanInner, firstOut]
  | cons i is ih =>
    cases i with
    | error e => simp [NlConf.scanInner, firstOut]
    | ok i =>
      simp only [NlConf.scanInner]
      cases hp : c.pairFirst o i with
      | error e => simp [firstOut, emit, hp]
      | ok b =>
        cases b
        · have := ih (cache ++ [i])
          simp only
          revert this
          generalize c.scanInner o is (cache ++ [i]) = x
          rcases x with ⟨_ | r, l', cache'⟩
          · rintro ⟨h1, h2, h3⟩
            refine ⟨h1, by simp [h2], ?_⟩
            simp only [firstOut, List.flatMap_cons, emit, hp, List.nil_append]
            exact h3
          · rintro ⟨h1, h2, h3⟩
            refine ⟨by simp; omega, by simp [h2], ?_⟩
            simp only [firstOut, List.flatMap_cons, emit, hp, List.nil_append]
            exact h3
        · simp [firstOut, emit, hp]

theorem runs_cached_row (c : NlConf N K E) (inner : List (Item N K E)) (cache : List (Row N K)) (o : Row N K) (O : List (Item N K E))
    (hO : Runs c.next ⟨O, inner, cache, some 0⟩ (laterOut c cache O)) :
    ∀ n p, cache.length - p = n →
      Runs c.next ⟨.ok o :: O, inner, cache, some p⟩ ((cache.drop p).flatMap (emit c.pairCached o) ++ laterOut c cache O) := by
  intro n
  induction n using Nat.strongRecOn with
  | ind n ih =>
    intro p hp
    cases hs : c.scanCache o (cache.drop p) p with
    | none =>
      rw [scanCache_none c o _ p hs, List.nil_append]
      refine Runs.of_next_eq ?_ hO
      rw [NlConf.next, hs]
    | some x =>
      obtain ⟨r, p'⟩ := x
      obtain ⟨h1, h2, h3⟩ := scanCache_some c o _ p hs
      rw [h3, List.cons_append]
      refine Runs.step (s' := ⟨.ok o :: O, inner, cache, some p'⟩) ?_ ?_
      · rw [NlConf.next, hs]
      · rw [List.drop_drop, show p + (p' - p) = p' by omega]
        simp only [List.length_drop] at h2
        exact ih (cache.length - p') (by omega) p' rfl

theorem runs_cached (c : NlConf N K E) (inner : List (Item N K E)) (cache : List (Row N K)) (O : List (Item N K E)) :
    Runs c.next ⟨O, inner, cache, some 0⟩ (laterOut c cache O) := by
  induction O with
  | nil => exact Runs.done (s' := ⟨[], inner, cache, some 0⟩) (by rw [NlConf.next])
  | cons x O ih =>
    cases x with
    | error e => exact Runs.step (by rw [NlConf.next]) ih
    | ok o => exact runs_cached_row c inner cache o O ih _ 0 rfl

theorem runs_first (c : NlConf N K E) (o : Row N K) (O : List (Item N K E)) :
    ∀ n (inner : List (Item N K E)) (cache : List (Row N K)), inner.length = n →
      Runs c.next ⟨.ok o :: O, inner, cache, none⟩ (firstOut c o inner ++ laterOut c (cache ++ oks inner) O) := by
  intro n
  induction n using Nat.strongRecOn with
  | ind n ih =>
    intro inner cache hn
    have hspec := scanInner_spec c o inner cache
    rcases hs : c.scanInner o inner cache with ⟨_ | r, inner', cache'⟩
    · rw [hs] at hspec
      obtain ⟨h1, h2, h3⟩ := hspec
      rw [h3, List.nil_append, ← h2]
      refine Runs.of_next_eq ?_ (runs_cached c inner' cache' O)
      rw [NlConf.next, hs]
    · rw [hs] at hspec
      obtain ⟨h1, h2, h3⟩ := hspec
      rw [h3, ← h2, List.cons_append]
      refine Runs.step (s' := ⟨.ok o :: O, inner', cache', none⟩) ?_ (ih _ (by omega) inner' cache' rfl)
      rw [NlConf.next, hs]

/-- All items of a nested loop join, errors included: in the first pass the inner stream is read, in the later ones the cache. -/
theorem nestedLoop_items (c : NlConf N K E) (O I : List (Item N K E)) : Runs c.next (nlStart O I) (nlOut c I O) := by
  induction O with
  | nil => exact Runs.done (s' := nlStart [] I) (by rw [nlStart, NlConf.next])
  | cons x O ih =>
    cases x with
    | error e => exact Runs.step (by rw [nlStart, NlConf.next]; rfl) ih
    | ok o =>
      have := runs_first c o O _ I [] rfl
      rw [List.nil_append] at this
      exact this

/-! ### Streams and operators without errors -/

/-- The operator never fails on the matches in the two columns and all rows have the columns the join looks at. -/
structure NlConf.Total (c : NlConf N K E) (H : SMatch N K → SMatch N K → Bool) (O I : List (Row N K)) : Prop where
  outer : ∀ o ∈ O, c.outerIdx < o.length
  inner : ∀ i ∈ I, c.innerIdx < i.length
  holds : ∀ o ∈ O, ∀ i ∈ I, ∀ a b, o[c.outerIdx]? = some a → i[c.innerIdx]? = some b →
    (if c.leftIsOuter then c.op.filter a b else c.op.filter b a) = .ok (H a b)

/-- The join condition: the operator holds for the two columns, and the matches are distinct if the operator is not reflexive. -/
def joinHolds (c : NlConf N K E) (H : SMatch N K → SMatch N K → Bool) (global : Bool) (o i : Row N K) : Bool :=
  match o[c.outerIdx]?, i[c.innerIdx]? with
  | some a, some b => H a b && (c.op.reflexive || decide (Distinct global o i a b))
  | _, _ => false

theorem at'_of_lt {r : Row N K} {i : Nat} (h : i < r.length) : (r.at' i : Except (Fail E) _) = .ok r[i] := by
  unfold Row.at'
  rw [List.getElem?_eq_getElem h]

theorem distinct_false (o i : Row N K) (a b : SMatch N K) : Distinct false o i a b ↔ a ≠ b := by
  unfold Distinct
  rw [if_neg (by simp)]

theorem pairCached_eq {c : NlConf N K E} {H : SMatch N K → SMatch N K → Bool} {O I : List (Row N K)} (h : c.Total H O I)
    {o i : Row N K} (ho : o ∈ O) (hi : i ∈ I) : c.pairCached o i = .ok (joinHolds c H c.globalReflexivity o i) := by
  have h1 := h.outer o ho
  have h2 := h.inner i hi
  have hf : c.filterPair o i = .ok (H o[c.outerIdx] i[c.innerIdx]) := by
    unfold NlConf.filterPair
    rw [at'_of_lt h1, at'_of_lt h2]
    exact h.holds o ho i hi _ _ (List.getElem?_eq_getElem h1) (List.getElem?_eq_getElem h2)
  unfold NlConf.pairCached joinHolds
  rw [hf, at'_of_lt h1, at'_of_lt h2, List.getElem?_eq_getElem h1, List.getElem?_eq_getElem h2]
  simp only [bind, Except.bind, pure, Except.pure, Except.ok.injEq]
  congr 1
  rw [Bool.or_assoc]
  congr 1
  unfold Distinct
  rw [Bool.eq_iff_iff]
  cases c.globalReflexivity
  · simp [differentTo_iff]
  · simp [differentToAll_iff]

theorem pairFirst_eq {c : NlConf N K E} {H : SMatch N K → SMatch N K → Bool} {O I : List (Row N K)} (h : c.Total H O I)
    {o i : Row N K} (ho : o ∈ O) (hi : i ∈ I) : c.pairFirst o i = .ok (joinHolds c H false o i) := by
  have h1 := h.outer o ho
  have h2 := h.inner i hi
  have hf : c.filterPair o i = .ok (H o[c.outerIdx] i[c.innerIdx]) := by
    unfold NlConf.filterPair
    rw [at'_of_lt h1, at'_of_lt h2]
    exact h.holds o ho i hi _ _ (List.getElem?_eq_getElem h1) (List.getElem?_eq_getElem h2)
  unfold NlConf.pairFirst joinHolds
  rw [hf, at'_of_lt h1, at'_of_lt h2, List.getElem?_eq_getElem h1, List.getElem?_eq_getElem h2]
  simp only [bind, Except.bind, pure, Except.pure, Except.ok.injEq]
  congr 1
  rw [Bool.or_assoc]
  congr 1
  exact Bool.eq_iff_iff.2 (by rw [decide_eq_true_iff, distinct_false, ← differentTo_iff]; rfl)

theorem emit_flatMap {t : Row N K → Row N K → Except (Fail E) Bool} {T : Row N K → Bool} {o : Row N K} {I : List (Row N K)}
    (h : ∀ i ∈ I, t o i = .ok (T i)) : I.flatMap (emit t o) = ((I.filter T).map (o ++ ·)).map .ok := by
  induction I with
  | nil => rfl
  | cons i I ih =>
    have ih := ih fun x hx => h x (List.mem_cons_of_mem _ hx)
    simp only [List.flatMap_cons, emit, h i List.mem_cons_self]
    cases hT : T i
    · simp only [List.nil_append, List.filter_cons, hT]; exact ih
    · simp only [List.filter_cons, hT, if_true, List.map_cons, List.singleton_append]; rw [ih]

theorem firstOut_ok {c : NlConf N K E} {T : Row N K → Bool} {o : Row N K} {I : List (Row N K)}
    (h : ∀ i ∈ I, c.pairFirst o i = .ok (T i)) : firstOut c o (I.map .ok) = ((I.filter T).map (o ++ ·)).map .ok := by
  rw [← emit_flatMap h]
  unfold firstOut
  rw [List.flatMap_map]

theorem laterOut_ok {c : NlConf N K E} {T : Row N K → Row N K → Bool} {O I : List (Row N K)}
    (h : ∀ o ∈ O, ∀ i ∈ I, c.pairCached o i = .ok (T o i)) : laterOut c I (O.map .ok) = (crossJoin T O I).map .ok := by
  unfold laterOut crossJoin
  rw [List.flatMap_map, List.map_flatMap]
  refine List.flatMap_congr fun o ho => ?_
  exact emit_flatMap (h o ho)

/-- Without errors a nested loop join gives all combinations of rows that satisfy the join condition, in order and each once; but for
the first outer row the distinctness from the other matches of the rows is not checked. -/
theorem C42_nested_loop (c : NlConf N K E) (H : SMatch N K → SMatch N K → Bool) (O I : List (Row N K)) (h : c.Total H O I) :
    Runs c.next (nlStart (O.map .ok) (I.map .ok))
      ((crossJoin (joinHolds c H false) (O.take 1) I ++ crossJoin (joinHolds c H c.globalReflexivity) (O.drop 1) I).map .ok) := by
  have hr := nestedLoop_items c (O.map .ok) (I.map .ok)
  cases O with
  | nil => exact hr
  | cons o O =>
    simp only [List.map_cons, nlOut, oks_map_ok] at hr
    rw [firstOut_ok (fun i hi => pairFirst_eq h List.mem_cons_self hi),
      laterOut_ok (fun o ho i hi => pairCached_eq h (List.mem_cons_of_mem _ ho) hi), ← List.map_append] at hr
    simpa [crossJoin] using hr

/-- The pairs of rows a join should combine. -/
def joinPairs (T : Row N K → Row N K → Bool) (O I : List (Row N K)) : List (Row N K × Row N K) :=
  (O.product I).filter fun p => T p.1 p.2

theorem crossJoin_eq (T : Row N K → Row N K → Bool) (O I : List (Row N K)) :
    crossJoin T O I = (joinPairs T O I).map fun p => p.1 ++ p.2 := by
  unfold crossJoin joinPairs List.product
  rw [List.filter_flatMap, List.map_flatMap]
  refine List.flatMap_congr fun o _ => ?_
  rw [List.filter_map, List.map_map]
  rfl

theorem product_swap_perm {α β : Type} (l : List α) (l' : List β) : ((l.product l').map Prod.swap).Perm (l'.product l) := by
  induction l with
  | nil =>
    induction l' with
    | nil => exact List.Perm.refl _
    | cons b l' ih => exact ih
  | cons a l ih =>
    have h1 : ((a :: l).product l').map Prod.swap = (l'.map fun b => (b, a)) ++ (l.product l').map Prod.swap := by
      simp only [List.product, List.flatMap_cons, List.map_append, List.map_map]
      rfl
    have h2 : (l'.product (a :: l)).Perm ((l'.map fun b => (b, a)) ++ l'.product l) := by
      have := List.flatMap_append_perm l' (fun b => [(b, a)]) (fun b => l.map (Prod.mk b))
      refine List.Perm.trans (List.Perm.of_eq rfl) (this.symm.trans (List.Perm.of_eq ?_))
      congr 1
      rw [List.map_eq_flatMap]
    rw [h1]
    exact (ih.append_left _).trans h2.symm

theorem joinPairs_swap (T : Row N K → Row N K → Bool) (O I : List (Row N K)) :
    ((joinPairs (fun i o => T o i) I O).map Prod.swap).Perm (joinPairs T O I) := by
  unfold joinPairs
  have h : ((I.product O).map Prod.swap).Perm (O.product I) := product_swap_perm I O
  have := h.filter fun p => T p.1 p.2
  rw [List.filter_map] at this
  exact this

theorem take_one_drop (O : List (Row N K)) (T : Row N K → Row N K → Bool) (I : List (Row N K)) :
    crossJoin T (O.take 1) I ++ crossJoin T (O.drop 1) I = crossJoin T O I := by
  unfold crossJoin
  rw [← List.flatMap_append, List.take_append_drop]

/-- The distinctness check of the first pass is the full one: the operator is reflexive, or only the two matches are compared, or the
rows have a single column. -/
def NlConf.Simple (c : NlConf N K E) (O I : List (Row N K)) : Prop :=
  c.op.reflexive = true ∨ c.globalReflexivity = false ∨ ((∀ o ∈ O, o.length = 1) ∧ ∀ i ∈ I, i.length = 1)

theorem joinHolds_simple {c : NlConf N K E} {H : SMatch N K → SMatch N K → Bool} {O I : List (Row N K)} (h : c.Simple O I)
    {o i : Row N K} (ho : o ∈ O) (hi : i ∈ I) : joinHolds c H false o i = joinHolds c H c.globalReflexivity o i := by
  rcases h with h | h | ⟨h1, h2⟩
  · simp [joinHolds, h]
  · rw [h]
  · obtain ⟨a, rfl⟩ := List.length_eq_one_iff.1 (h1 o ho)
    obtain ⟨b, rfl⟩ := List.length_eq_one_iff.1 (h2 i hi)
    unfold joinHolds
    cases hx : ([a] : Row N K)[c.outerIdx]? with
    | none => rfl
    | some x =>
      cases hy : ([b] : Row N K)[c.innerIdx]? with
      | none => rfl
      | some y =>
        have hxa : x = a := by simpa using List.mem_of_getElem? hx
        have hyb : y = b := by simpa using List.mem_of_getElem? hy
        subst hxa hyb
        congr 2
        rw [Bool.eq_iff_iff]
        simp only [decide_eq_true_eq]
        unfold Distinct
        cases c.globalReflexivity
        · simp
        · simp [ne_comm (a := y)]

/-- Full statement: a nested loop join gives each combination of rows satisfying the join condition once. Missing: the case of the
first outer row when the operator is not reflexive, all matches must be distinct and a row has several columns (`C42_fails`). -/
theorem C42_nested_loop_partial (c : NlConf N K E) (H : SMatch N K → SMatch N K → Bool) (O I : List (Row N K)) (h : c.Total H O I)
    (hs : c.Simple O I) :
    Runs c.next (nlStart (O.map .ok) (I.map .ok))
      (((joinPairs (joinHolds c H c.globalReflexivity) O I).map fun p => p.1 ++ p.2).map .ok) := by
  have hr := C42_nested_loop c H O I h
  have he : crossJoin (joinHolds c H false) (O.take 1) I = crossJoin (joinHolds c H c.globalReflexivity) (O.take 1) I := by
    unfold crossJoin
    refine List.flatMap_congr fun o ho => ?_
    rw [List.filter_congr fun i hi => joinHolds_simple hs (List.mem_of_mem_take ho) hi]
  rw [he, take_one_drop, crossJoin_eq] at hr
  exact hr

/-- The operand that is the outer one only changes the order of columns and rows: with swapped operands the same pairs are combined. -/
theorem C42_swap_partial (c c' : NlConf N K E) (H : SMatch N K → SMatch N K → Bool) (O I : List (Row N K)) (h : c.Total H O I)
    (hs : c.Simple O I) (hop : c'.op = c.op) (hg : c'.globalReflexivity = c.globalReflexivity) (hl : c'.leftIsOuter = !c.leftIsOuter)
    (ho : c'.outerIdx = c.innerIdx) (hi : c'.innerIdx = c.outerIdx) :
    ∃ P P' : List (Row N K × Row N K), P.Perm P' ∧
      Runs c.next (nlStart (O.map .ok) (I.map .ok)) ((P.map fun p => p.1 ++ p.2).map .ok) ∧
      Runs c'.next (nlStart (I.map .ok) (O.map .ok)) ((P'.map fun p => p.2 ++ p.1).map .ok) := by
  have ht : c'.Total (fun a b => H b a) I O := by
    refine ⟨fun i h1 => ho ▸ h.inner i h1, fun o h1 => hi ▸ h.outer o h1, ?_⟩
    intro i h1 o h2 a b h3 h4
    have := h.holds o h2 i h1 b a (hi ▸ h4) (ho ▸ h3)
    rw [hl, hop]
    cases hc : c.leftIsOuter
    · rw [hc] at this; simpa using this
    · rw [hc] at this; simpa using this
  have hs' : c'.Simple I O := by
    unfold NlConf.Simple at hs ⊢
    rw [hop, hg]
    tauto
  have hT : joinHolds c' (fun a b => H b a) c'.globalReflexivity = fun i o => joinHolds c H c.globalReflexivity o i := by
    funext i o
    unfold joinHolds
    rw [ho, hi, hop, hg]
    cases o[c.outerIdx]? with
    | none => cases i[c.innerIdx]? <;> rfl
    | some a =>
      cases i[c.innerIdx]? with
      | none => rfl
      | some b =>
        congr 2
        rw [Bool.eq_iff_iff]
        simp only [decide_eq_true_eq]
        unfold Distinct
        cases c.globalReflexivity
        · simp [ne_comm (a := a)]
        · simp [and_comm]
  refine ⟨_, _, (joinPairs_swap _ O I).symm, C42_nested_loop_partial c H O I h hs, ?_⟩
  have := C42_nested_loop_partial c' _ I O ht hs'
  rw [hT] at this
  rw [List.map_map, List.map_map]
  rw [List.map_map] at this
  exact this

/-- Rows that are different give different combinations, so nothing is output twice. -/
theorem C42_nodup (T : Row N K → Row N K → Bool) (O I : List (Row N K)) (hO : O.Nodup) (hI : I.Nodup) {w : Nat}
    (hw : ∀ o ∈ O, o.length = w) : ((joinPairs T O I).map fun p => p.1 ++ p.2).Nodup := by
  have hp : (joinPairs T O I).Nodup := (List.Nodup.product hO hI).filter _
  refine List.Nodup.map_on ?_ hp
  rintro ⟨o, i⟩ h1 ⟨o', i'⟩ h2 he
  have m1 := List.mem_product.1 (List.mem_filter.1 h1).1
  have m2 := List.mem_product.1 (List.mem_filter.1 h2).1
  obtain ⟨rfl, rfl⟩ := List.append_inj he ((hw o m1.1).trans (hw o' m2.1).symm)
  rfl

end

namespace JoinEx

/-- A non-reflexive operator that holds for all pairs. -/
def opAll : BinOp Nat Nat Unit := ⟨fun _ _ => .ok true, false⟩

def conf : NlConf Nat Nat Unit := ⟨opAll, 1, 0, true, true⟩

def outer : List (Row Nat Nat) := [[⟨1, 0⟩, ⟨2, 0⟩], [⟨1, 0⟩, ⟨2, 0⟩]]
def inner : List (Row Nat Nat) := [[⟨1, 0⟩], [⟨3, 0⟩]]

/-- The two equal outer rows are joined with different inner rows: the first one also with the match it already contains. -/
theorem C42_fails :
    conf.Total (fun _ _ => true) outer inner ∧
    Runs conf.next (nlStart (outer.map .ok) (inner.map .ok))
      [.ok [⟨1, 0⟩, ⟨2, 0⟩, ⟨1, 0⟩], .ok [⟨1, 0⟩, ⟨2, 0⟩, ⟨3, 0⟩], .ok [⟨1, 0⟩, ⟨2, 0⟩, ⟨3, 0⟩]] ∧
    (joinPairs (joinHolds conf (fun _ _ => true) true) outer inner).map (fun p => p.1 ++ p.2) =
      [[⟨1, 0⟩, ⟨2, 0⟩, ⟨3, 0⟩], [⟨1, 0⟩, ⟨2, 0⟩, ⟨3, 0⟩]] := by
  have ht : conf.Total (fun _ _ => true) outer inner := by
    refine ⟨by decide, by decide, ?_⟩
    intros
    rfl
  refine ⟨ht, ?_, by decide⟩
  exact C42_nested_loop conf _ outer inner ht

/-- The partial theorem applies to a join of single columns with a non-reflexive operator. -/
theorem C42_nonvacuous : ∃ (c : NlConf Nat Nat Unit) (O I : List (Row Nat Nat)), c.Total (fun _ _ => true) O I ∧ c.Simple O I ∧
    c.op.reflexive = false ∧ (joinPairs (joinHolds c (fun _ _ => true) c.globalReflexivity) O I).length = 3 :=
  ⟨⟨opAll, 0, 0, false, true⟩, [[⟨1, 0⟩], [⟨2, 0⟩]], [[⟨2, 0⟩], [⟨3, 0⟩]],
    ⟨by decide, by decide, by intros; rfl⟩, Or.inr (Or.inr ⟨by decide, by decide⟩), rfl, by decide⟩

end JoinEx
