import Verif.Exec.Props

/-!
# C42: index joins
-/

set_option linter.unusedSimpArgs false
set_option linter.unusedSectionVars false
set_option linter.unusedVariables false

section
variable {N K E : Type} [DecidableEq N] [DecidableEq K]

/-- The items an index join gives for one left row and a list of candidates. -/
def IjConf.items (c : IjConf N K E) (l : Row N K) : List (SMatch N K) → List (Item N K E)
  | [] => []
  | m :: ms =>
    match allConds m c.cond with
    | .error e => .error e :: c.items l ms
    | .ok false => c.items l ms
    | .ok true =>
      match c.distinct l (c.output m) with
      | .error e => .error e :: c.items l ms
      | .ok true => .ok (l ++ [c.output m]) :: c.items l (c.skip m.node ms)
      | .ok false => c.items l ms
termination_by ms => ms.length
decreasing_by
  all_goals simp_wf
  all_goals
    unfold IjConf.skip
    split
    · exact Nat.lt_succ_of_le (List.dropWhile_sublist _).length_le
    · omega

theorem IjConf.skip_length (c : IjConf N K E) (n : N) (ms : List (SMatch N K)) : (c.skip n ms).length ≤ ms.length := by
  unfold IjConf.skip
  split
  · exact (List.dropWhile_sublist _).length_le
  · exact le_rfl

theorem scan_none (c : IjConf N K E) (l : Row N K) (cs : List (SMatch N K)) (h : c.scan l cs = none) : c.items l cs = [] := by
  induction cs with
  | nil => simp [IjConf.items]
  | cons m ms ih =>
    rw [IjConf.scan] at h
    rw [IjConf.items]
    cases h1 : allConds m c.cond with
    | error e => rw [h1] at h; simp at h
    | ok b =>
      rw [h1] at h
      cases b
      · exact ih h
      · cases h2 : c.distinct l (c.output m) with
        | error e => rw [h2] at h; simp at h
        | ok b =>
          rw [h2] at h
          cases b
          · exact ih h
          · simp at h

theorem scan_some (c : IjConf N K E) (l : Row N K) (cs : List (SMatch N K)) {r : Item N K E} {cs' : List (SMatch N K)}
    (h : c.scan l cs = some (r, cs')) : c.items l cs = r :: c.items l cs' ∧ cs'.length < cs.length := by
  induction cs with
  | nil => simp [IjConf.scan] at h
  | cons m ms ih =>
    rw [IjConf.scan] at h
    rw [IjConf.items]
    cases h1 : allConds m c.cond with
    | error e =>
      rw [h1] at h
      simp only [Option.some.injEq, Prod.mk.injEq] at h
      obtain ⟨rfl, rfl⟩ := h
      exact ⟨rfl, by simp⟩
    | ok b =>
      rw [h1] at h
      cases b
      · obtain ⟨h3, h4⟩ := ih h
        exact ⟨h3, by simp; omega⟩
      · cases h2 : c.distinct l (c.output m) with
        | error e =>
          rw [h2] at h
          simp only [Option.some.injEq, Prod.mk.injEq] at h
          obtain ⟨rfl, rfl⟩ := h
          exact ⟨rfl, by simp⟩
        | ok b =>
          rw [h2] at h
          cases b
          · obtain ⟨h3, h4⟩ := ih h
            exact ⟨h3, by simp; omega⟩
          · simp only [Option.some.injEq, Prod.mk.injEq] at h
            obtain ⟨rfl, rfl⟩ := h
            exact ⟨rfl, by have := c.skip_length m.node ms; simp; omega⟩

/-- `C` gives the candidates of all rows of the stream: the operator does not fail and the rows have the column. -/
def IjConf.Cands (c : IjConf N K E) (C : Row N K → List (SMatch N K)) (lhs : List (Item N K E)) : Prop :=
  ∀ l ∈ oks lhs, c.nextCandidates [.ok l] = .ok (some (C l))

/-- All items of an index join. -/
def ijOut (c : IjConf N K E) (C : Row N K → List (SMatch N K)) (lhs : List (Item N K E)) : List (Item N K E) :=
  lhs.flatMap fun
    | .error e => [.error e]
    | .ok l => c.items l (C l)

theorem nextCandidates_cons (c : IjConf N K E) (x : Item N K E) (ls : List (Item N K E)) :
    c.nextCandidates (x :: ls) = c.nextCandidates [x] := by
  cases x <;> rfl

theorem indexJoin_row (c : IjConf N K E) (C : Row N K → List (SMatch N K)) (l : Row N K) (ls : List (Item N K E))
    (hc : c.Cands C ls) (hls : Runs c.next ⟨ls, none⟩ (ijOut c C ls)) :
    ∀ n (cs : List (SMatch N K)), cs.length = n → Runs c.next ⟨.ok l :: ls, some cs⟩ (c.items l cs ++ ijOut c C ls) := by
  intro n
  induction n using Nat.strongRecOn with
  | ind n ih =>
    intro cs hn
    cases hs : c.scan l cs with
    | none =>
      rw [scan_none c l cs hs, List.nil_append]
      refine Runs.of_next_eq ?_ hls
      have hx : ∃ cand, c.nextCandidates ls = .ok cand := by
        cases ls with
        | nil => exact ⟨none, rfl⟩
        | cons x ls =>
          rw [nextCandidates_cons]
          cases x with
          | error e => exact ⟨none, rfl⟩
          | ok l' => exact ⟨_, hc l' (by simp)⟩
      obtain ⟨cand, hx⟩ := hx
      simp only [IjConf.next]
      rw [IjConf.loop, hs, hx]
    | some x =>
      obtain ⟨r, cs'⟩ := x
      obtain ⟨h1, h2⟩ := scan_some c l cs hs
      rw [h1, List.cons_append]
      refine Runs.step (s' := ⟨.ok l :: ls, some cs'⟩) ?_ (ih _ (by omega) cs' rfl)
      simp only [IjConf.next]
      rw [IjConf.loop, hs]

/-- All items of an index join, errors of the left stream and of the conditions included. -/
theorem indexJoin_items (c : IjConf N K E) (C : Row N K → List (SMatch N K)) (lhs : List (Item N K E)) (hc : c.Cands C lhs) :
    Runs c.next ⟨lhs, none⟩ (ijOut c C lhs) := by
  induction lhs with
  | nil =>
    refine Runs.done (s' := ⟨[], none⟩) ?_
    simp only [IjConf.next, IjConf.nextCandidates]
    rw [IjConf.loop]
  | cons x ls ih =>
    cases x with
    | error e =>
      refine Runs.step (s' := ⟨ls, none⟩) ?_ (ih hc)
      simp only [IjConf.next, IjConf.nextCandidates]
      rw [IjConf.loop]
    | ok l =>
      have hls := ih fun l' h => hc l' (by simp [h])
      have h1 := indexJoin_row c C l ls (fun l' h => hc l' (by simp [h])) hls _ (C l) rfl
      refine Runs.of_next_eq ?_ h1
      simp only [IjConf.next]
      rw [nextCandidates_cons, hc l (by simp)]

/-! ## Streams, operators and conditions without errors -/

/-- What an index join is given: the nodes the operator retrieves for a match, the keys of a node that fit the name of the node search
and if all conditions hold for a candidate. -/
structure IjSpec (N K : Type) where
  nodes : SMatch N K → List N
  keys : N → List K
  cond : SMatch N K → Bool

/-- The candidates for a match (`get_keys_for_iterator`): for each retrieved node its keys. -/
def IjSpec.cands (S : IjSpec N K) (a : SMatch N K) : List (SMatch N K) := (S.nodes a).flatMap fun n => (S.keys n).map (⟨n, ·⟩)

/-- The right matches for a left match: all annotations of the retrieved nodes that satisfy the conditions; with a constant output
each node with such an annotation. -/
def IjSpec.rhs (S : IjSpec N K) (constOutput : Option K) (ns : List N) : List (SMatch N K) :=
  match constOutput with
  | none => ns.flatMap fun n => ((S.keys n).map (⟨n, ·⟩)).filter S.cond
  | some k => (ns.filter fun n => (S.keys n).any fun k => S.cond ⟨n, k⟩).map (⟨·, k⟩)

/-- The index join never fails on the rows and behaves as described by `S`. -/
structure IjConf.Total (c : IjConf N K E) (S : IjSpec N K) (L : List (Row N K)) : Prop where
  width : ∀ l ∈ L, c.lhsIdx < l.length
  candidates : ∀ l ∈ L, ∀ a, l[c.lhsIdx]? = some a → c.candidates a = .ok (S.cands a)
  cond : ∀ m, allConds m c.cond = .ok (S.cond m)

/-- The right match is distinct from the left match or (`global`) from all matches of the left row. -/
def ijDistinct (c : IjConf N K E) (l : Row N K) (m : SMatch N K) : Bool :=
  c.reflexive || decide (if c.globalReflexivity then ∀ x ∈ l, m ≠ x else l[c.lhsIdx]? ≠ some m)

theorem distinct_eq (c : IjConf N K E) {l : Row N K} (h : c.lhsIdx < l.length) (m : SMatch N K) :
    c.distinct l m = .ok (ijDistinct c l m) := by
  unfold IjConf.distinct ijDistinct
  rw [at'_of_lt h, List.getElem?_eq_getElem h]
  cases c.reflexive
  · cases c.globalReflexivity
    · simp only [Bool.false_eq_true, ↓reduceIte, bind, Except.bind, pure, Except.pure, Except.ok.injEq, Bool.false_or]
      rw [Bool.eq_iff_iff, differentTo_iff]
      simp only [ne_eq, Option.some.injEq, decide_not, Bool.not_eq_eq_eq_not, Bool.not_true, decide_eq_false_iff_not]
      exact not_congr eq_comm
    · simp only [Bool.false_eq_true, ↓reduceIte, pure, Except.pure, Except.ok.injEq, Bool.false_or]
      rw [Bool.eq_iff_iff, differentToAll_iff]
      simp
  · simp [pure, Except.pure]

/-- The rows an index join should give for one left row. -/
def ijRows (c : IjConf N K E) (S : IjSpec N K) (l : Row N K) : List (Row N K) :=
  match l[c.lhsIdx]? with
  | none => []
  | some a => ((S.rhs c.constOutput (S.nodes a)).filter (ijDistinct c l)).map (l ++ [·])

theorem items_none (c : IjConf N K E) (S : IjSpec N K) (hk : c.constOutput = none) {l : Row N K} (hw : c.lhsIdx < l.length)
    (hcond : ∀ m, allConds m c.cond = .ok (S.cond m)) (cs : List (SMatch N K)) :
    c.items l cs = ((((cs.filter S.cond)).filter (ijDistinct c l)).map (l ++ [·])).map .ok := by
  induction cs with
  | nil => simp [IjConf.items]
  | cons m ms ih =>
    rw [IjConf.items, hcond]
    have ho : c.output m = m := by simp [IjConf.output, hk]
    have hsk : c.skip m.node ms = ms := by simp [IjConf.skip, hk]
    cases h1 : S.cond m
    · simp only [List.filter_cons, h1]; exact ih
    · simp only [ho, distinct_eq c hw, hsk]
      cases h2 : ijDistinct c l m
      · simp only [List.filter_cons, h1, h2, if_true]; exact ih
      · simp only [List.filter_cons, h1, h2, if_true, List.map_cons]; rw [ih]

theorem items_some_node (c : IjConf N K E) (S : IjSpec N K) {k : K} (hk : c.constOutput = some k) {l : Row N K}
    (hw : c.lhsIdx < l.length) (hcond : ∀ m, allConds m c.cond = .ok (S.cond m)) (n : N) (ks : List K) (rest : List (SMatch N K))
    (hr : ∀ m ∈ rest, m.node ≠ n) :
    c.items l (ks.map (⟨n, ·⟩) ++ rest) =
      if (ks.any fun k => S.cond ⟨n, k⟩) && ijDistinct c l ⟨n, k⟩ then .ok (l ++ [⟨n, k⟩]) :: c.items l rest else c.items l rest := by
  induction ks with
  | nil => simp
  | cons k' ks ih =>
    rw [List.map_cons, List.cons_append, IjConf.items, hcond]
    have ho : c.output ⟨n, k'⟩ = ⟨n, k⟩ := by simp [IjConf.output, hk]
    have hsk : c.skip n (ks.map (⟨n, ·⟩) ++ rest) = rest := by
      simp only [IjConf.skip, hk, Option.isSome_some, if_true]
      have h1 : (ks.map (fun k : K => (⟨n, k⟩ : SMatch N K)) ++ rest).dropWhile (fun m => m.node = n) = rest.dropWhile fun m => m.node = n := by
        refine List.dropWhile_append_of_pos ?_
        intro m hm
        obtain ⟨x, _, rfl⟩ := List.mem_map.1 hm
        simp
      rw [h1]
      cases rest with
      | nil => rfl
      | cons m rest =>
        rw [List.dropWhile_cons_of_neg]
        simpa using hr m List.mem_cons_self
    cases h1 : S.cond ⟨n, k'⟩
    · simp only [List.any_cons, h1, Bool.false_or]; exact ih
    · simp only [ho, distinct_eq c hw]
      cases h2 : ijDistinct c l ⟨n, k⟩
      · simp only [h2, Bool.and_false, Bool.false_eq_true, if_false] at ih ⊢
        exact ih
      · simp only [List.any_cons, h1, Bool.true_or, Bool.and_true, if_true, hsk]

theorem items_some (c : IjConf N K E) (S : IjSpec N K) {k : K} (hk : c.constOutput = some k) {l : Row N K}
    (hw : c.lhsIdx < l.length) (hcond : ∀ m, allConds m c.cond = .ok (S.cond m)) (ns : List N) (hnd : ns.Nodup) :
    c.items l (ns.flatMap fun n => (S.keys n).map (⟨n, ·⟩)) =
      ((((ns.filter fun n => (S.keys n).any fun k => S.cond ⟨n, k⟩).map fun n => (⟨n, k⟩ : SMatch N K)).filter (ijDistinct c l)).map
        (l ++ [·])).map .ok := by
  induction ns with
  | nil => simp [IjConf.items]
  | cons n ns ih =>
    rw [List.nodup_cons] at hnd
    rw [List.flatMap_cons, items_some_node c S hk hw hcond n, ih hnd.2]
    · cases h1 : (S.keys n).any fun k => S.cond ⟨n, k⟩
      · simp [List.filter_cons, h1]
      · cases h2 : ijDistinct c l ⟨n, k⟩
        · simp [List.filter_cons, h1, h2]
        · simp [List.filter_cons, h1, h2]
    · intro m hm
      obtain ⟨n', h1, h2⟩ := List.mem_flatMap.1 hm
      obtain ⟨x, _, rfl⟩ := List.mem_map.1 h2
      rintro rfl
      exact hnd.1 h1

theorem items_eq (c : IjConf N K E) (S : IjSpec N K) {L : List (Row N K)} (h : c.Total S L)
    (hnd : ∀ l ∈ L, ∀ a, l[c.lhsIdx]? = some a → (S.nodes a).Nodup)
    {l : Row N K} (hl : l ∈ L) {a : SMatch N K} (ha : l[c.lhsIdx]? = some a) :
    c.items l (S.cands a) = (ijRows c S l).map .ok := by
  have hw := h.width l hl
  unfold ijRows IjSpec.cands
  rw [ha]
  unfold IjSpec.rhs
  cases hk : c.constOutput with
  | none =>
    rw [items_none c S hk hw h.cond, List.filter_flatMap]
  | some k =>
    exact items_some c S hk hw h.cond _ (hnd l hl a ha)

/-- Without errors an index join gives for each left row, in order, the row extended by each right match once: the matches of the nodes
retrieved by the operator that satisfy the node search and are distinct if the operator is not reflexive. The operator has to retrieve
each node once. -/
theorem C42_index_join (c : IjConf N K E) (S : IjSpec N K) (L : List (Row N K)) (h : c.Total S L)
    (hnd : ∀ l ∈ L, ∀ a, l[c.lhsIdx]? = some a → (S.nodes a).Nodup) :
    Runs c.next ⟨L.map .ok, none⟩ ((L.flatMap (ijRows c S)).map .ok) := by
  have hc : c.Cands (fun l => match l[c.lhsIdx]? with
      | some a => S.cands a
      | none => []) (L.map .ok) := by
    intro l hl
    rw [oks_map_ok] at hl
    have hw := h.width l hl
    simp only [IjConf.nextCandidates, at'_of_lt hw, List.getElem?_eq_getElem hw, bind, Except.bind,
      h.candidates l hl _ (List.getElem?_eq_getElem hw), pure, Except.pure]
  have hr := indexJoin_items c _ _ hc
  have : ijOut c (fun l => match l[c.lhsIdx]? with
      | some a => S.cands a
      | none => []) (L.map .ok) = (L.flatMap (ijRows c S)).map .ok := by
    unfold ijOut
    rw [List.flatMap_map, List.map_flatMap]
    refine List.flatMap_congr fun l hl => ?_
    have hw := h.width l hl
    have ha : l[c.lhsIdx]? = some l[c.lhsIdx] := List.getElem?_eq_getElem hw
    simp only [ha]
    exact items_eq c S h hnd hl ha
  rw [this] at hr
  exact hr

/-! ## Index join and nested loop -/

/-- The operator's filter function accepts exactly those of the nodes that it retrieves. -/
def RetrieveEqFilter (H : SMatch N K → SMatch N K → Bool) (S : IjSpec N K) (all : List N) (a : SMatch N K) : Prop :=
  ∀ m, m.node ∈ all → (H a m = true ↔ m.node ∈ S.nodes a)

theorem filter_rhs_perm (S : IjSpec N K) (k : Option K) {all ns : List N} (hall : all.Nodup) (hns : ns.Nodup)
    (hsub : ∀ n ∈ ns, S.keys n ≠ [] → n ∈ all) {p : SMatch N K → Bool}
    (hp : ∀ m, m.node ∈ all → (p m = true ↔ m.node ∈ ns)) :
    ((S.rhs k all).filter p).Perm (S.rhs k ns) := by
  classical
  have hq : (all.filter (· ∈ ns)).Perm (ns.filter (· ∈ all)) := by
    refine (List.perm_ext_iff_of_nodup (hall.filter _) (hns.filter _)).2 fun n => ?_
    simp [and_comm]
  cases k with
  | none =>
    have h1 : (S.rhs none all).filter p = (all.filter (· ∈ ns)).flatMap fun n => ((S.keys n).map (⟨n, ·⟩)).filter S.cond := by
      simp only [IjSpec.rhs]
      clear hq hsub hall
      induction all with
      | nil => rfl
      | cons n all ih =>
        rw [List.flatMap_cons, List.filter_append, ih fun m hm => hp m (List.mem_cons_of_mem _ hm), List.filter_cons]
        by_cases hn : n ∈ ns
        · rw [if_pos (by simpa using hn), List.flatMap_cons]
          congr 1
          rw [List.filter_eq_self]
          intro m hm
          obtain ⟨x, _, rfl⟩ := List.mem_map.1 (List.mem_filter.1 hm).1
          exact (hp _ List.mem_cons_self).2 hn
        · rw [if_neg (by simpa using hn)]
          have : (((S.keys n).map (fun k : K => (⟨n, k⟩ : SMatch N K))).filter S.cond).filter p = [] := by
            rw [List.filter_eq_nil_iff]
            intro m hm
            obtain ⟨x, _, rfl⟩ := List.mem_map.1 (List.mem_filter.1 hm).1
            rw [hp _ List.mem_cons_self]; exact hn
          rw [this, List.nil_append]
    have h2 : (ns.filter (· ∈ all)).flatMap (fun n => ((S.keys n).map (⟨n, ·⟩)).filter S.cond) = S.rhs none ns := by
      simp only [IjSpec.rhs]
      clear h1 hq hp hns
      induction ns with
      | nil => rfl
      | cons n ns ih =>
        rw [List.flatMap_cons, List.filter_cons]
        have ih := ih fun x hx => hsub x (List.mem_cons_of_mem _ hx)
        by_cases hn : n ∈ all
        · rw [if_pos (by simpa using hn), List.flatMap_cons, ih]
        · rw [if_neg (by simpa using hn), ih]
          have : S.keys n = [] := by
            by_contra hne
            exact hn (hsub n List.mem_cons_self hne)
          rw [this]; rfl
    rw [h1, ← h2]
    exact hq.flatMap_right _
  | some k =>
    have h1 : (S.rhs (some k) all).filter p = ((all.filter (· ∈ ns)).filter fun n => (S.keys n).any fun k => S.cond ⟨n, k⟩).map (⟨·, k⟩) := by
      simp only [IjSpec.rhs]
      rw [List.filter_map, List.filter_filter, List.filter_filter]
      congr 1
      refine List.filter_congr fun n hn => ?_
      rw [Bool.eq_iff_iff]
      simp only [Function.comp_apply, Bool.and_eq_true, hp ⟨n, k⟩ hn, decide_eq_true_eq]
      tauto
    have h2 : (ns.filter (· ∈ all)).filter (fun n => (S.keys n).any fun k => S.cond ⟨n, k⟩) =
        ns.filter fun n => (S.keys n).any fun k => S.cond ⟨n, k⟩ := by
      rw [List.filter_filter]
      refine List.filter_congr fun n hn => ?_
      rw [Bool.eq_iff_iff]
      simp only [Bool.and_eq_true, decide_eq_true_eq]
      refine ⟨fun h => h.1, fun h => ⟨h, hsub n hn ?_⟩⟩
      rintro he
      rw [he] at h
      simp at h
    rw [h1]
    simp only [IjSpec.rhs]
    rw [← h2]
    exact (hq.filter _).map _

/-- Whether an index join or a nested loop join is used does not change the result: if the operator retrieves exactly what its filter
accepts and the inner stream is the node search over all nodes, the pairs of the nested loop join are (up to order) the rows of the index
join. -/
theorem C42_index_eq_nested (c : IjConf N K E) (d : NlConf N K E) (H : SMatch N K → SMatch N K → Bool) (S : IjSpec N K)
    (L : List (Row N K)) (all : List N) (hall : all.Nodup) (hw : ∀ l ∈ L, c.lhsIdx < l.length)
    (hnd : ∀ l ∈ L, ∀ a, l[c.lhsIdx]? = some a → (S.nodes a).Nodup)
    (hsub : ∀ l ∈ L, ∀ a, l[c.lhsIdx]? = some a → ∀ n ∈ S.nodes a, S.keys n ≠ [] → n ∈ all)
    (hret : ∀ l ∈ L, ∀ a, l[c.lhsIdx]? = some a → RetrieveEqFilter H S all a)
    (hi : d.outerIdx = c.lhsIdx) (hj : d.innerIdx = 0) (hr : d.op.reflexive = c.reflexive) (hg : d.globalReflexivity = c.globalReflexivity) :
    ((joinPairs (joinHolds d H d.globalReflexivity) L ((S.rhs c.constOutput all).map fun m => [m])).map fun p => p.1 ++ p.2).Perm
      (L.flatMap (ijRows c S)) := by
  rw [← crossJoin_eq]
  unfold crossJoin
  refine List.Perm.flatMap_left _ fun l hl => ?_
  have hlw := hw l hl
  have ha : l[c.lhsIdx]? = some l[c.lhsIdx] := List.getElem?_eq_getElem hlw
  unfold ijRows
  rw [ha, List.filter_map, List.map_map]
  refine List.Perm.map _ ?_
  have h1 : (S.rhs c.constOutput all).filter (joinHolds d H d.globalReflexivity l ∘ fun m => [m]) =
      ((S.rhs c.constOutput all).filter (H l[c.lhsIdx])).filter (ijDistinct c l) := by
    rw [List.filter_filter]
    refine List.filter_congr fun m _ => ?_
    simp only [Function.comp_apply, joinHolds, hi, hj, ha, List.getElem?_cons_zero]
    rw [Bool.and_comm]
    congr 1
    unfold ijDistinct
    rw [hr, hg]
    congr 1
    rw [Bool.eq_iff_iff, decide_eq_true_iff, decide_eq_true_iff]
    unfold Distinct
    cases c.globalReflexivity
    · simp [ha]
    · rw [if_pos rfl, if_pos rfl]
      constructor
      · exact fun h => h.2
      · intro h
        refine ⟨fun x hx => ?_, h⟩
        rw [List.mem_singleton.1 hx]
        exact (h _ (List.getElem_mem hlw)).symm
  rw [h1]
  exact (filter_rhs_perm S c.constOutput hall (hnd l hl _ ha) (hsub l hl _ ha) (hret l hl _ ha)).filter _

end

namespace JoinEx

/-- An index join over three nodes that retrieves the next node. -/
def ij : IjConf Nat Nat Unit where
  lhsIdx := 0
  reflexive := true
  globalReflexivity := true
  candidates := fun a => .ok [⟨a.node + 1, 0⟩, ⟨a.node + 1, 1⟩]
  cond := [fun _ => .ok true]
  constOutput := some 9

theorem C42_index_nonvacuous :
    Runs ij.next ⟨[[⟨1, 0⟩], [⟨5, 0⟩]].map .ok, none⟩ [.ok [⟨1, 0⟩, ⟨2, 9⟩], .ok [⟨5, 0⟩, ⟨6, 9⟩]] := by
  have h := C42_index_join ij ⟨fun a => [a.node + 1], fun _ => [0, 1], fun _ => true⟩ [[⟨1, 0⟩], [⟨5, 0⟩]]
    ⟨by decide, fun _ _ _ _ => rfl, fun _ => rfl⟩ (by simp)
  exact h

/-- If fetching the candidates fails for the first left row, the same error is returned forever and the join never ends. -/
theorem C42_error_loops : ∃ (c : IjConf Nat Nat Unit) (s : IjState Nat Nat Unit) (e : Fail Unit),
    c.next s = (some (.error e), s) ∧ ∀ l, ¬ Runs c.next s l := by
  let c : IjConf Nat Nat Unit := { ij with candidates := fun _ => .error (.err ()) }
  let s : IjState Nat Nat Unit := ⟨[.ok [⟨1, 0⟩]], none⟩
  have h : c.next s = (some (.error (.err ())), s) := rfl
  refine ⟨c, s, .err (), h, ?_⟩
  intro l
  induction l with
  | nil =>
    intro hr
    cases hr with
    | done h2 => rw [h] at h2; simp at h2
  | cons a l ih =>
    intro hr
    cases hr with
    | step h2 hr =>
      rw [h] at h2
      simp only [Prod.mk.injEq] at h2
      rw [← h2.2] at hr
      exact ih hr

end JoinEx
