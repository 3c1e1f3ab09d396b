import Verif.Find.Model
import Verif.Sort.CompareProps
import Verif.Sort.PermProps

/-!
# Paging (C35), counting (C36) and frequencies (C37)
-/

set_option linter.unusedSimpArgs false
set_option linter.unusedSectionVars false

section
variable {G R : Type}

/-- The specification of paging: a slice of the list of all results. -/
def slice (l : List R) (offset : Nat) (limit : Option Nat) : List R :=
  match limit with
  | some k => (l.drop offset).take k
  | none => l.drop offset

theorem slice_zero_none (l : List R) : slice l 0 none = l := rfl

theorem mapM_drop {α β : Type} (f : α → Option β) : ∀ (l : List α) (r : List β) (n : Nat), l.mapM f = some r →
    (l.drop n).mapM f = some (r.drop n) := by
  intro l
  induction l with
  | nil => intro r n h; simp at h; subst h; simp
  | cons x l ih =>
    intro r n h
    cases n with
    | zero => exact h
    | succ n =>
      rw [List.mapM_cons] at h
      cases hx : f x with
      | none => simp [hx] at h
      | some y =>
        cases hl : l.mapM f with
        | none => simp [hx, hl] at h
        | some ys =>
          simp [hx, hl] at h
          subst h
          simpa using ih ys n hl

theorem mapM_take {α β : Type} (f : α → Option β) : ∀ (l : List α) (r : List β) (n : Nat), l.mapM f = some r →
    (l.take n).mapM f = some (r.take n) := by
  intro l
  induction l with
  | nil => intro r n h; simp at h; subst h; simp
  | cons x l ih =>
    intro r n h
    cases n with
    | zero => simp
    | succ n =>
      rw [List.mapM_cons] at h
      cases hx : f x with
      | none => simp [hx] at h
      | some y =>
        cases hl : l.mapM f with
        | none => simp [hx, hl] at h
        | some ys =>
          simp [hx, hl] at h
          subst h
          simp only [List.take_succ_cons, List.mapM_cons, hx, ih ys n hl]
          rfl

theorem mapM_length {α β : Type} (f : α → Option β) : ∀ (l : List α) (r : List β), l.mapM f = some r → r.length = l.length := by
  intro l
  induction l with
  | nil => intro r h; simp at h; subst h; rfl
  | cons x l ih =>
    intro r h
    rw [List.mapM_cons] at h
    cases hx : f x with
    | none => simp [hx] at h
    | some y =>
      cases hl : l.mapM f with
      | none => simp [hx, hl] at h
      | some ys =>
        simp [hx, hl] at h
        subst h
        simp [ih ys hl]

/-- The output of `mapM id`. -/
theorem mapM_id_iff {l : List (Option G)} {r : List G} : l.mapM id = some r ↔ l = r.map some := by
  induction l generalizing r with
  | nil => cases r <;> simp
  | cons x l ih =>
    rw [List.mapM_cons]
    cases x with
    | none => cases r <;> simp
    | some y =>
      cases r with
      | nil =>
        simp only [id, Option.bind_eq_bind, Option.bind_some, List.map_nil, List.cons_ne_nil, iff_false]
        cases l.mapM id <;> simp
      | cons z r =>
        simp only [id, Option.bind_eq_bind, Option.bind_some, List.map_cons, List.cons.injEq, Option.some.injEq]
        rw [← ih]
        cases hl : l.mapM id with
        | none => simp
        | some ys => simp

theorem mapM_some_bind (l : List G) (f : G → Option R) : (l.map some).mapM (fun m => m.bind f) = l.mapM f := by
  rw [List.mapM_map]
  rfl

/-! ### Several corpora -/

/-- A corpus behaves like a list of results. -/
def Pages (single : Nat → Option Nat → Option (List R × Nat)) (full : List R) : Prop :=
  ∀ o k r, single o k = some r → r = (slice full o k, min o full.length)

variable {C : Type}

theorem findLoop_spec (single : C → Nat → Option Nat → Option (List R × Nat)) (full : C → List R) (offset : Nat) (limit : Option Nat) :
    ∀ (cs : List C) (cur : Nat) (res out : List R), (∀ c ∈ cs, Pages (single c) (full c)) → cur ≤ offset →
      (∀ k, limit = some k → res.length ≤ k) →
      (∀ k, limit = some k → res.length < k ∨ (cs ≠ [] ∨ res.length = k)) →
      findLoop single offset limit cs cur res = some out →
      out = res ++ (match limit with
        | some k => ((cs.flatMap full).drop cur).take (k - res.length)
        | none => (cs.flatMap full).drop cur) := by
  intro cs
  induction cs with
  | nil =>
    intro cur res out _ _ _ _ h
    simp only [findLoop, Option.some.injEq] at h
    subst h
    cases limit <;> simp
  | cons c cs ih =>
    intro cur res out hp hcur hlim _ h
    unfold findLoop at h
    cases hs : single c cur limit with
    | none => simp [hs] at h
    | some p =>
      have hpp := hp c (by simp) cur limit p hs
      subst hpp
      simp only [hs, Option.bind_eq_bind, Option.bind_some] at h
      have hcur' : (if min cur (full c).length < offset then cur - min cur (full c).length else 0) = cur - (full c).length := by
        split <;> omega
      rw [hcur'] at h
      cases limit with
      | none =>
        simp only [slice, reduceCtorEq, if_false] at h
        have := ih (cur - (full c).length) _ out (fun d hd => hp d (List.mem_cons_of_mem _ hd)) (by omega) (by simp) (by simp) h
        simp only at this ⊢
        rw [this, List.flatMap_cons, List.drop_append, List.append_assoc]
      | some k =>
        have hk := hlim k rfl
        have hres' : (if (slice (full c) cur (some k)).length ≤ k - res.length then res ++ slice (full c) cur (some k)
            else res ++ (slice (full c) cur (some k)).take (k - res.length)) =
            res ++ ((full c).drop cur).take (k - res.length) := by
          by_cases hle : (slice (full c) cur (some k)).length ≤ k - res.length
          · rw [if_pos hle]
            congr 1
            simp only [slice, List.length_take, List.length_drop] at hle ⊢
            rw [List.take_eq_take_iff]
            simp only [List.length_drop]
            omega
          · rw [if_neg hle]
            congr 1
            simp only [slice]
            rw [List.take_take, Nat.min_eq_left (by omega)]
        simp only [hres', Option.some.injEq] at h
        have hsplit : ((c :: cs).flatMap full).drop cur = (full c).drop cur ++ (cs.flatMap full).drop (cur - (full c).length) := by
          rw [List.flatMap_cons, List.drop_append]
        simp only
        rw [hsplit, List.take_append]
        by_cases heq : k = (res ++ ((full c).drop cur).take (k - res.length)).length
        · rw [if_pos heq] at h
          simp only [Option.some.injEq] at h
          subst h
          simp only [List.length_append, List.length_take, List.length_drop] at heq
          have : k - res.length - (List.drop cur (full c)).length = 0 := by simp only [List.length_drop]; omega
          rw [this]
          simp
        · have hne := heq
          rw [if_neg heq] at h
          have := ih (cur - (full c).length) _ out (fun d hd => hp d (List.mem_cons_of_mem _ hd)) (by omega)
            (by intro k' e; cases e; simp only [List.length_append, List.length_take, List.length_drop]; omega)
            (by intro k' e; cases e; left; simp only [List.length_append, List.length_take, List.length_drop] at hne ⊢; omega) h
          simp only at this
          rw [this, List.append_assoc]
          congr 2
          simp only [List.length_append, List.length_take, List.length_drop]
          by_cases hc : k - res.length ≤ (full c).length - cur
          · rw [Nat.min_eq_left hc]
            congr 1
            omega
          · rw [Nat.min_eq_right (by omega)]
            congr 1
            omega

/-- Searching several corpora gives the slice of the concatenated results. -/
theorem find_spec (single : C → Nat → Option Nat → Option (List R × Nat)) (full : C → List R) (cs : List C) (offset : Nat)
    (limit : Option Nat) (out : List R) (hp : ∀ c ∈ cs, Pages (single c) (full c)) (h : find single cs offset limit = some out) :
    out = slice (cs.flatMap full) offset limit := by
  unfold find at h
  split at h
  · simp only [Option.some.injEq] at h
    subst h
    cases limit <;> simp [slice]
  · rename_i c
    cases hs : single c offset limit with
    | none => simp [hs] at h
    | some p =>
      have := hp c (by simp) offset limit p hs
      subst this
      simp only [hs, Option.map_some, Option.some.injEq] at h
      subst h
      simp
  · rename_i hne _
    have := findLoop_spec single full offset limit cs offset [] out hp (le_refl _) (by simp)
      (by intro k _; right; left; exact hne) h
    rw [this]
    cases limit <;> simp [slice]

/-! ### A single corpus -/

/-- The matches are ordered by a total order. -/
structure FindCorpus.Total (c : FindCorpus G R) (le : G → G → Prop) : Prop where
  agrees : Agrees c.cmp le
  pre : TotalPre le
  antisymm : ∀ x y, le x y → le y x → x = y

/-- The order that is requested. -/
def leFor (order : ResultOrder) (le : G → G → Prop) (x y : G) : Prop := if order = .inverted then le y x else le x y

theorem FindCorpus.Total.for {c : FindCorpus G R} {le : G → G → Prop} (h : c.Total le) (order : ResultOrder) :
    Agrees (cmpFor order c.cmp) (leFor order le) ∧ TotalPre (leFor order le) ∧
      ∀ x y, leFor order le x y → leFor order le y x → x = y := by
  by_cases ho : order = .inverted
  · subst ho
    refine ⟨?_, ⟨?_, ?_⟩, ?_⟩
    · intro x y o he
      simp only [cmpFor, if_true] at he
      obtain ⟨o', h1, h2⟩ := Option.map_eq_some_iff.1 he
      have := h.agrees x y o' h1
      subst h2
      simp only [leFor, if_true]
      rw [← this.1, ← this.2]
      cases o' <;> simp
    · intro x y z h1 h2; exact h.pre.trans _ _ _ h2 h1
    · intro x y; exact h.pre.total y x
    · intro x y h1 h2; exact h.antisymm x y h2 h1
  · refine ⟨?_, ⟨?_, ?_⟩, ?_⟩
    · intro x y o he
      simp only [cmpFor, ho, if_false] at he
      simpa [leFor, ho] using h.agrees x y o he
    · intro x y z; simpa [leFor, ho] using h.pre.trans x y z
    · intro x y; simpa [leFor, ho] using h.pre.total x y
    · intro x y; simpa [leFor, ho] using h.antisymm x y

/-- All runs of a single corpus return slices of the same list: the list of a run without limit. The runs may use different
random numbers and, when the result is sorted, the plan may return the matches in different orders. -/
theorem findSingle_pages (c1 c2 : FindCorpus G R) (le : G → G → Prop) (ht : c1.Total le) (quirks : Bool) (order : ResultOrder)
    (ho : order ≠ .randomized) (hcmp : c1.cmp = c2.cmp) (hren : c1.render = c2.render) (hsort : c1.sortedByText = c2.sortedByText)
    (hplan : c1.plan.Perm c2.plan)
    (hsame : (order = .notSorted ∨ (order = .normal ∧ c1.sortedByText = true ∧ ¬ quirks = true)) → c1.plan = c2.plan)
    (rnd1 rnd2 : Rnd G) (full : List R) (n : Nat)
    (hfull : findSingle c1 rnd1 quirks order 0 none = some (full, n)) :
    Pages (findSingle c2 rnd2 quirks order) full := by
  intro o k r hr
  unfold findSingle at hfull hr
  have hrest : ∀ (it : List (Option G)) (w : List R), (it.mapM fun m => m.bind c2.render) = some w → w.length = it.length :=
    fun it w h => mapM_length _ _ _ h
  by_cases hc : order = .notSorted ∨ (order = .normal ∧ c1.sortedByText = true ∧ ¬ quirks = true)
  · -- the plan is returned directly
    have hp := hsame hc
    have hc2 : order = .notSorted ∨ (order = .normal ∧ c2.sortedByText = true ∧ ¬ quirks = true) := by rwa [hsort] at hc
    simp only [createFindIterator, hc, hc2, if_true, Option.bind_eq_bind, Option.bind_some, List.drop_zero] at hfull hr
    rw [hp, hren] at hfull
    cases hm : c2.plan.mapM fun m => m.bind c2.render with
    | none => simp [hm] at hfull
    | some w =>
      simp [hm] at hfull
      obtain ⟨rfl, _⟩ := hfull
      cases k with
      | none =>
        simp only [mapM_drop _ _ _ o hm, Option.bind_some, Option.pure_def, Option.some.injEq] at hr
        rw [← hr, slice, hrest _ _ hm]
      | some k =>
        simp only [mapM_take _ _ _ k (mapM_drop _ _ _ o hm), Option.bind_some, Option.pure_def, Option.some.injEq] at hr
        rw [← hr, slice, hrest _ _ hm]
  · have hc2 : ¬ (order = .notSorted ∨ (order = .normal ∧ c2.sortedByText = true ∧ ¬ quirks = true)) := by rwa [hsort] at hc
    simp only [createFindIterator, hc, hc2, ho, if_false, Option.bind_eq_bind] at hfull hr
    cases h1 : c1.plan.mapM id with
    | none => simp [h1] at hfull
    | some a1 =>
    cases h2 : c2.plan.mapM id with
    | none => simp [h2] at hr
    | some a2 =>
    simp only [h1, h2, Option.bind_some, List.drop_zero] at hfull hr
    have hperm : a1.Perm a2 := by
      rw [mapM_id_iff] at h1 h2
      rw [h1, h2] at hplan
      have := hplan.filterMap id
      simpa [List.filterMap_map] using this
    cases hs1 : sortFirstN (cmpFor order c1.cmp) a1.length rnd1.fuel rnd1.pivots a1 with
    | none => simp [hs1] at hfull
    | some s1 =>
    simp only [hs1, Option.bind_some, Option.pure_def, mapM_some_bind] at hfull
    cases hm : s1.mapM c1.render with
    | none => simp [hm] at hfull
    | some w =>
    simp only [hm, Option.bind_some, Option.some.injEq, Prod.mk.injEq] at hfull
    obtain ⟨rfl, _⟩ := hfull
    obtain ⟨g1, g2, g3⟩ := ht.for order
    obtain ⟨p1, q1⟩ := C33_sort_first_n g1 g2 _ _ _ _ _ hs1
    have hlen1 : w.length = s1.length := mapM_length _ _ _ hm
    rw [hcmp] at g1
    cases k with
    | none =>
      simp only at hr
      cases hs2 : sortFirstN (cmpFor order c2.cmp) a2.length rnd2.fuel rnd2.pivots a2 with
      | none => simp [hs2] at hr
      | some s2 =>
      simp only [hs2, Option.bind_some, Option.pure_def] at hr
      obtain ⟨p2, q2⟩ := C33_sort_first_n g1 g2 _ _ _ _ _ hs2
      have heq : s1 = s2 := by
        have := take_eq_of_firstSorted g2 g3 (p1.trans (hperm.trans p2.symm)) (by rw [hperm.length_eq] at q1; exact q1) q2
        rwa [List.take_of_length_le (by rw [p1.length_eq, hperm.length_eq]), List.take_of_length_le (by rw [p2.length_eq])] at this
      subst heq
      rw [← List.map_drop, mapM_some_bind, ← hren, mapM_drop _ _ _ o hm] at hr
      simp only [Option.bind_some, Option.some.injEq, List.length_map] at hr
      rw [← hr, slice, hlen1]
    | some k =>
      simp only at hr
      cases hs2 : sortFirstN (cmpFor order c2.cmp) (o + k) rnd2.fuel rnd2.pivots a2 with
      | none => simp [hs2] at hr
      | some s2 =>
      simp only [hs2, Option.bind_some, Option.pure_def] at hr
      obtain ⟨p2, q2⟩ := C33_sort_first_n g1 g2 _ _ _ _ _ hs2
      have hq1 : FirstSorted (leFor order le) (o + k) s1 := by
        intro i j x y h1 _ h3 h4
        refine q1 i j x y h1 ?_ h3 h4
        have := (List.getElem?_eq_some_iff.1 h3).1
        rw [p1.length_eq] at this
        exact this
      have heq := take_eq_of_firstSorted g2 g3 (p1.trans (hperm.trans p2.symm)) hq1 q2
      have heq2 : (s2.drop o).take k = (s1.drop o).take k := by
        have e : ∀ l : List G, (l.drop o).take k = (l.take (o + k)).drop o := by
          intro l
          rw [List.drop_take, Nat.add_sub_cancel_left]
        rw [e, e, heq]
      rw [← List.map_drop, ← List.map_take, heq2, mapM_some_bind, ← hren, mapM_take _ _ _ k (mapM_drop _ _ _ o hm)] at hr
      simp only [Option.bind_some, Option.some.injEq, List.length_map] at hr
      rw [← hr, slice, hlen1, p1.length_eq, p2.length_eq, hperm.length_eq]

end

section
variable {G R C : Type}

/-- An unlimited search succeeds only if it succeeds in every corpus. -/
theorem findLoop_all (single : C → Nat → Option Nat → Option (List R × Nat)) : ∀ (cs : List C) (res out : List R),
    findLoop single 0 none cs 0 res = some out →
    (∀ c ∈ cs, ∃ p, single c 0 none = some p) ∧ out = res ++ cs.flatMap fun c => ((single c 0 none).getD ([], 0)).1 := by
  intro cs
  induction cs with
  | nil => intro res out h; simp only [findLoop, Option.some.injEq] at h; subst h; simp
  | cons c cs ih =>
    intro res out h
    unfold findLoop at h
    cases hs : single c 0 none with
    | none => simp [hs] at h
    | some p =>
      simp only [hs, Option.bind_eq_bind, Option.bind_some, reduceCtorEq, if_false] at h
      rw [show (if p.2 < 0 then 0 - p.2 else 0) = 0 by split <;> omega] at h
      obtain ⟨h1, h2⟩ := ih _ out h
      refine ⟨?_, ?_⟩
      · intro d hd
        rcases List.mem_cons.1 hd with rfl | hd
        · exact ⟨p, hs⟩
        · exact h1 d hd
      · rw [h2, List.flatMap_cons, hs]
        simp

theorem find_all (single : C → Nat → Option Nat → Option (List R × Nat)) (cs : List C) (out : List R)
    (h : find single cs 0 none = some out) :
    (∀ c ∈ cs, ∃ p, single c 0 none = some p) ∧ out = cs.flatMap fun c => ((single c 0 none).getD ([], 0)).1 := by
  unfold find at h
  split at h
  · simp only [Option.some.injEq] at h
    subst h
    simp
  · rename_i c
    cases hs : single c 0 none with
    | none => simp [hs] at h
    | some p =>
      simp only [hs, Option.map_some, Option.some.injEq] at h
      subst h
      exact ⟨by intro d hd; rw [List.mem_singleton.1 hd]; exact ⟨p, hs⟩, by simp [hs]⟩
  · simpa using findLoop_all single cs [] out h

/-- C35: a page of the results is the corresponding slice of all results, over any number of corpora, whatever the random choices
of the two searches are and whatever the order is in which the plan finds the matches before sorting. The order of the matches has
to be total (C34); the randomized order is excluded. -/
theorem C35_pages (quirks : Bool) (order : ResultOrder) (ho : order ≠ .randomized) (cs : List C)
    (data1 data2 : C → FindCorpus G R) (rnd1 rnd2 : C → Rnd G) (le : C → G → G → Prop)
    (ht : ∀ c ∈ cs, (data1 c).Total (le c))
    (hdata : ∀ c ∈ cs, (data1 c).cmp = (data2 c).cmp ∧ (data1 c).render = (data2 c).render ∧
      (data1 c).sortedByText = (data2 c).sortedByText ∧ (data1 c).plan.Perm (data2 c).plan)
    (hsame : ∀ c ∈ cs, (order = .notSorted ∨ (order = .normal ∧ (data1 c).sortedByText = true ∧ ¬ quirks = true)) →
      (data1 c).plan = (data2 c).plan)
    (all page : List R) (offset : Nat) (limit : Option Nat)
    (hall : find (fun c => findSingle (data1 c) (rnd1 c) quirks order) cs 0 none = some all)
    (hpage : find (fun c => findSingle (data2 c) (rnd2 c) quirks order) cs offset limit = some page) :
    page = slice all offset limit := by
  obtain ⟨h1, h2⟩ := find_all _ cs all hall
  rw [h2]
  refine find_spec _ _ cs offset limit page ?_ hpage
  intro c hc
  obtain ⟨p, hp⟩ := h1 c hc
  obtain ⟨d1, d2, d3, d4⟩ := hdata c hc
  simp only [hp, Option.getD_some]
  exact findSingle_pages (data1 c) (data2 c) (le c) (ht c hc) quirks order ho d1 d2 d3 d4 (hsame c hc) (rnd1 c) (rnd2 c) p.1 p.2 hp

/-- C35: consecutive pages give the longer page. -/
theorem C35_consecutive (all : List R) (offset a b : Nat) :
    slice all offset (some a) ++ slice all (offset + a) (some b) = slice all offset (some (a + b)) ∧
    slice all offset (some a) ++ slice all (offset + a) none = slice all offset none := by
  constructor
  · simp only [slice]
    rw [List.take_add, List.drop_drop]
  · simp only [slice]
    rw [← List.drop_drop, List.take_append_drop]

/-! ### Counting -/

theorem countQuery_eq (plans : List (List (Option G))) : countQuery plans = (plans.map List.length).sum := by
  unfold countQuery
  have : ∀ n, plans.foldl (fun n p => n + p.length) n = n + (plans.map List.length).sum := by
    induction plans with
    | nil => simp
    | cons p r ih => intro n; simp only [List.foldl_cons, ih, List.map_cons, List.sum_cons]; omega
  simpa using this 0

theorem findSingle_length (c : FindCorpus G R) (rnd : Rnd G) (hsh : ∀ l, (rnd.shuffle l).Perm l) (quirks : Bool) (order : ResultOrder)
    (hsort : ∀ n f r l l', sortFirstN (cmpFor order c.cmp) n f r l = some l' → l'.Perm l)
    (p : List R × Nat) (h : findSingle c rnd quirks order 0 none = some p) : p.1.length = c.plan.length := by
  unfold findSingle at h
  cases hi : createFindIterator c rnd quirks order 0 none with
  | none => simp [hi] at h
  | some it =>
    simp only [hi, Option.bind_eq_bind, Option.bind_some, List.drop_zero] at h
    cases hm : it.mapM fun m => m.bind c.render with
    | none => simp [hm] at h
    | some w =>
      simp only [hm, Option.bind_some, Option.pure_def, Option.some.injEq] at h
      subst h
      simp only
      rw [mapM_length _ _ _ hm]
      unfold createFindIterator at hi
      split at hi
      · simp only [Option.some.injEq] at hi
        subst hi
        rfl
      · cases ha : c.plan.mapM id with
        | none => simp [ha] at hi
        | some all =>
          simp only [ha, Option.bind_eq_bind, Option.bind_some] at hi
          rw [← mapM_length _ _ _ ha]
          split at hi
          · simp only [Option.pure_def, Option.some.injEq] at hi
            subst hi
            rw [List.length_map, (hsh all).length_eq]
          · cases hs : sortFirstN (cmpFor order c.cmp) all.length rnd.fuel rnd.pivots all with
            | none => simp [hs] at hi
            | some s =>
              simp only [hs, Option.bind_some, Option.pure_def, Option.some.injEq] at hi
              subst hi
              rw [List.length_map, (hsort _ _ _ _ _ hs).length_eq]

/-- C36, restricted to searches without errors: the count is the number of matches of an unlimited search, for every order.
Missing: errors of the plan are counted as matches (`C36_fails`). -/
theorem C36_count_partial (quirks : Bool) (order : ResultOrder) (cs : List C) (data : C → FindCorpus G R) (rnd : C → Rnd G)
    (hsh : ∀ c l, ((rnd c).shuffle l).Perm l) (out : List R)
    (h : find (fun c => findSingle (data c) (rnd c) quirks order) cs 0 none = some out) :
    countQuery (cs.map fun c => (data c).plan) = out.length := by
  obtain ⟨h1, h2⟩ := find_all _ cs out h
  rw [countQuery_eq, h2]
  clear h2 h
  induction cs with
  | nil => rfl
  | cons c cs ih =>
    obtain ⟨p, hp⟩ := h1 c (by simp)
    simp only [List.map_cons, List.sum_cons, List.flatMap_cons, List.length_append, hp, Option.getD_some]
    rw [findSingle_length (data c) (rnd c) (hsh c) quirks order (fun n f r l l' => C33_keeps_all n f r l l') p hp]
    congr 1
    exact ih fun d hd => h1 d (List.mem_cons_of_mem _ hd)

variable {N : Type} [DecidableEq N]

/-- The documents with a match, each once. -/
def DocList (c : ExtraCorpus G N) (ds : List N) : Prop :=
  ds.Nodup ∧ ∀ x, x ∈ ds ↔ c.isDoc x = true ∧ ∃ m, some m ∈ c.plan ∧ x ∈ c.ancestors m

theorem mapM_id_none {l : List (Option G)} : l.mapM id = none ↔ none ∈ l := by
  induction l with
  | nil => simp
  | cons x l ih =>
    rw [List.mapM_cons]
    cases x with
    | none => simp
    | some y =>
      simp only [id, Option.bind_eq_bind, Option.bind_some, List.mem_cons, reduceCtorEq, false_or]
      rw [← ih]
      cases hl : l.mapM id <;> simp

theorem countExtra_step (c : ExtraCorpus G N) (all : List G) (hm : c.plan.mapM id = some all) (ds : List N) (hd : DocList c ds) :
    ((all.flatMap c.ancestors).dedup.filter c.isDoc).length = ds.length := by
  have he := mapM_id_iff.1 hm
  refine ((List.perm_ext_iff_of_nodup ((List.nodup_dedup _).filter _) hd.1).2 ?_).length_eq
  intro x
  rw [hd.2, List.mem_filter, List.mem_dedup, List.mem_flatMap, he]
  simp only [List.mem_map, Option.some.injEq, exists_eq_right]
  exact And.comm

/-- C36 for `count_extra`: it reports an error iff some plan has an error, and otherwise the number of matches and the number of
documents with a match, summed over the corpora. -/
theorem C36_count_extra (cs : List (ExtraCorpus G N)) (docs : ExtraCorpus G N → List N) (hd : ∀ c ∈ cs, DocList c (docs c)) :
    ((∃ c ∈ cs, none ∈ c.plan) → countExtra cs = none) ∧
    ((∀ c ∈ cs, none ∉ c.plan) →
      countExtra cs = some ((cs.map fun c => c.plan.length).sum, (cs.map fun c => (docs c).length).sum)) := by
  unfold countExtra
  have key : ∀ (cs : List (ExtraCorpus G N)) (s : Nat × Nat), (∀ c ∈ cs, DocList c (docs c)) →
      ((∃ c ∈ cs, none ∈ c.plan) → cs.foldlM (fun s c => do
        let all ← c.plan.mapM id
        let known := (all.flatMap c.ancestors).dedup
        pure (s.1 + all.length, s.2 + (known.filter c.isDoc).length)) s = none) ∧
      ((∀ c ∈ cs, none ∉ c.plan) → cs.foldlM (fun s c => do
        let all ← c.plan.mapM id
        let known := (all.flatMap c.ancestors).dedup
        pure (s.1 + all.length, s.2 + (known.filter c.isDoc).length)) s =
          some (s.1 + (cs.map fun c => c.plan.length).sum, s.2 + (cs.map fun c => (docs c).length).sum)) := by
    intro cs
    induction cs with
    | nil => intro s _; simp
    | cons c cs ih =>
      intro s hd
      rw [List.foldlM_cons]
      cases hm : c.plan.mapM id with
      | none =>
        have hn := mapM_id_none.1 hm
        refine ⟨fun _ => rfl, fun h => absurd hn (h c (by simp))⟩
      | some all =>
        have hn : none ∉ c.plan := fun hc => by rw [mapM_id_none.2 hc] at hm; cases hm
        have h1 := countExtra_step c all hm (docs c) (hd c (by simp))
        have h2 := mapM_length _ _ _ hm
        simp only [Option.bind_eq_bind, Option.bind_some, Option.pure_def] at ih ⊢
        obtain ⟨i1, i2⟩ := ih (s.1 + all.length, s.2 + ((all.flatMap c.ancestors).dedup.filter c.isDoc).length)
          (fun d hd' => hd d (List.mem_cons_of_mem _ hd'))
        constructor
        · rintro ⟨d, hd', hn'⟩
          rcases List.mem_cons.1 hd' with rfl | hd'
          · exact absurd hn' hn
          · exact i1 ⟨d, hd', hn'⟩
        · intro h
          rw [i2 fun d hd' => h d (List.mem_cons_of_mem _ hd'), h1, h2]
          simp [Nat.add_assoc]
  simpa using key cs (0, 0) hd

end

/-! ### Frequencies -/

section
variable {N K : Type}

theorem mem_bump {t : List Str} {l : List (List Str × Nat)} (hn : (l.map Prod.fst).Nodup) :
    ((bump t l).map Prod.fst).Nodup ∧ (∀ x, x ∈ (bump t l).map Prod.fst ↔ x = t ∨ x ∈ l.map Prod.fst) ∧
    ∀ x n, (x, n) ∈ bump t l ↔ if x = t then (if x ∈ l.map Prod.fst then ∃ k, n = k + 1 ∧ (x, k) ∈ l else n = 1) else (x, n) ∈ l := by
  induction l with
  | nil =>
    refine ⟨by simp [bump], by simp [bump], ?_⟩
    intro x n
    by_cases hx : x = t <;> simp [bump, hx]
  | cons p r ih =>
    simp only [List.map_cons, List.nodup_cons] at hn
    obtain ⟨i1, i2, i3⟩ := ih hn.2
    by_cases hp : p.1 = t
    · simp only [bump, hp, if_true]
      refine ⟨by simpa [hp] using hn, by intro x; simp [hp], ?_⟩
      intro x n
      by_cases hx : x = t
      · subst hx
        simp only [List.mem_cons, Prod.mk.injEq, true_and, if_true, List.map_cons, hp, true_or]
        have hnot : ∀ m, (x, m) ∉ r := fun m hm => hn.1 (hp ▸ List.mem_map_of_mem (f := Prod.fst) hm)
        constructor
        · rintro (h | h)
          · exact ⟨p.2, h, Or.inl (by rw [← hp])⟩
          · exact absurd h (hnot _)
        · rintro ⟨k, rfl, h | h⟩
          · left; rw [← h]
          · exact absurd h (hnot _)
      · have : ∀ m, (x, n) ≠ (t, m) := fun m h => hx (Prod.mk.inj h).1
        have h2 : (x, n) ≠ p := fun h => hx (by rw [← hp, ← h])
        simp [hx, this, h2]
    · simp only [bump, hp, if_false]
      refine ⟨?_, ?_, ?_⟩
      · simp only [List.map_cons, List.nodup_cons]
        refine ⟨?_, i1⟩
        rw [i2]
        rintro (h | h)
        · exact hp h
        · exact hn.1 h
      · intro x
        simp only [List.map_cons, List.mem_cons, i2]
        tauto
      · intro x n
        rw [List.mem_cons, i3]
        by_cases hx : x = t
        · subst hx
          have hne : ∀ m, (x, m) ≠ p := fun m h => hp (by rw [← h])
          have hne2 : x ≠ p.1 := Ne.symm hp
          simp only [if_true, hne, false_or, List.map_cons, List.mem_cons, hne2]
        · simp [hx]

theorem perm_sum {a b : List Nat} (h : a.Perm b) : a.sum = b.sum := by
  induction h with
  | nil => rfl
  | cons x _ ih => simp [ih]
  | swap x y l => simp; omega
  | trans _ _ h1 h2 => exact h1.trans h2

/-- The tuples of all matches. -/
def allTuples (cs : List (FreqCorpus N K)) : List (List Str) := cs.flatMap fun c => (c.plan.filterMap id).map (freqTuple c)

theorem table_spec (ts : List (List Str)) : ∀ (l : List (List Str × Nat)) (done : List (List Str)), (l.map Prod.fst).Nodup →
    (∀ x n, (x, n) ∈ l ↔ n = done.count x ∧ 0 < n) →
    let r := ts.foldl (fun t m => bump m t) l
    (r.map Prod.fst).Nodup ∧ ∀ x n, (x, n) ∈ r ↔ n = (done ++ ts).count x ∧ 0 < n := by
  induction ts with
  | nil => intro l done h1 h2; simpa using ⟨h1, h2⟩
  | cons t ts ih =>
    intro l done h1 h2
    obtain ⟨b1, b2, b3⟩ := mem_bump (t := t) h1
    have := ih (bump t l) (done ++ [t]) b1 (by
      intro x n
      rw [b3]
      have hmem : x ∈ l.map Prod.fst ↔ 0 < done.count x := by
        constructor
        · intro h
          obtain ⟨p, hp, rfl⟩ := List.mem_map.1 h
          have := (h2 p.1 p.2).1 hp
          omega
        · intro h
          exact List.mem_map.2 ⟨(x, done.count x), (h2 x _).2 ⟨rfl, h⟩, rfl⟩
      rw [List.count_append, List.count_singleton]
      by_cases hx : x = t
      · subst hx
        simp only [if_true, beq_self_eq_true]
        by_cases hm : x ∈ l.map Prod.fst
        · rw [if_pos hm]
          constructor
          · rintro ⟨k, rfl, hk⟩
            have := (h2 x k).1 hk
            omega
          · rintro ⟨rfl, _⟩
            exact ⟨done.count x, rfl, (h2 x _).2 ⟨rfl, hmem.1 hm⟩⟩
        · rw [if_neg hm]
          rw [hmem] at hm
          omega
      · have : (t == x) = false := by simpa using Ne.symm hx
        simp only [hx, if_false, this, Bool.false_eq_true, Nat.add_zero]
        exact h2 x n)
    simp only [List.foldl_cons]
    simpa using this

theorem foldl_flatMap_bump (c : FreqCorpus N K) (all : List (List N)) (t : List (List Str × Nat)) :
    all.foldl (fun t m => bump (freqTuple c m) t) t = (all.map (freqTuple c)).foldl (fun t m => bump m t) t := by
  rw [List.foldl_map]

/-- The number of matches is the sum of the counts. -/
theorem sum_counts (ts : List (List Str)) : ∀ l : List (List Str × Nat),
    ((ts.foldl (fun t m => bump m t) l).map Prod.snd).sum = (l.map Prod.snd).sum + ts.length := by
  have hb : ∀ (t : List Str) (l : List (List Str × Nat)), ((bump t l).map Prod.snd).sum = (l.map Prod.snd).sum + 1 := by
    intro t l
    induction l with
    | nil => rfl
    | cons p r ih =>
      unfold bump
      split
      · simp only [List.map_cons, List.sum_cons]; omega
      · simp only [List.map_cons, List.sum_cons, ih]; omega
  induction ts with
  | nil => simp
  | cons t ts ih => intro l; simp only [List.foldl_cons, ih, hb, List.length_cons]; omega

/-- C37: a frequency table is only returned when no plan has errors; each tuple of values appears once with the number of the
matches that have this tuple, the counts are in descending order, and they add up to the count of the query. -/
theorem C37_frequency (hashOrder : List (List Str × Nat) → List (List Str × Nat)) (hh : ∀ l, (hashOrder l).Perm l)
    (cs : List (FreqCorpus N K)) :
    ((∃ c ∈ cs, none ∈ c.plan) → frequency hashOrder cs = none) ∧
    ((∀ c ∈ cs, none ∉ c.plan) → ∃ rows, frequency hashOrder cs = some rows ∧
      (rows.map Prod.fst).Nodup ∧ (∀ x n, (x, n) ∈ rows ↔ n = (allTuples cs).count x ∧ 0 < n) ∧
      rows.Pairwise (fun a b => b.2 ≤ a.2) ∧ (rows.map Prod.snd).sum = countQuery (cs.map FreqCorpus.plan)) := by
  have key : ∀ (cs : List (FreqCorpus N K)) (t : List (List Str × Nat)),
      ((∃ c ∈ cs, none ∈ c.plan) → cs.foldlM (fun t c => do
        let all ← c.plan.mapM id
        pure (all.foldl (fun t m => bump (freqTuple c m) t) t)) t = none) ∧
      ((∀ c ∈ cs, none ∉ c.plan) → cs.foldlM (fun t c => do
        let all ← c.plan.mapM id
        pure (all.foldl (fun t m => bump (freqTuple c m) t) t)) t = some ((allTuples cs).foldl (fun t m => bump m t) t)) := by
    intro cs
    induction cs with
    | nil => intro t; simp [allTuples]
    | cons c cs ih =>
      intro t
      rw [List.foldlM_cons]
      cases hm : c.plan.mapM id with
      | none =>
        have hn := mapM_id_none.1 hm
        exact ⟨fun _ => rfl, fun h => absurd hn (h c (by simp))⟩
      | some all =>
        have hn : none ∉ c.plan := fun hc => by rw [mapM_id_none.2 hc] at hm; cases hm
        have he := mapM_id_iff.1 hm
        have hf : c.plan.filterMap id = all := by rw [he]; simp [List.filterMap_map]
        simp only [Option.bind_eq_bind, Option.bind_some, Option.pure_def] at ih ⊢
        obtain ⟨i1, i2⟩ := ih (all.foldl (fun t m => bump (freqTuple c m) t) t)
        constructor
        · rintro ⟨d, hd, hn'⟩
          rcases List.mem_cons.1 hd with rfl | hd
          · exact absurd hn' hn
          · exact i1 ⟨d, hd, hn'⟩
        · intro h
          rw [i2 fun d hd => h d (List.mem_cons_of_mem _ hd), foldl_flatMap_bump]
          simp only [allTuples, List.flatMap_cons, hf, List.foldl_append]
  obtain ⟨k1, k2⟩ := key cs []
  unfold frequency
  constructor
  · intro h
    rw [k1 h]
    rfl
  · intro h
    rw [k2 h]
    simp only [Option.bind_eq_bind, Option.bind_some, Option.pure_def]
    obtain ⟨t1, t2⟩ := table_spec (allTuples cs) [] [] (by simp) (by intro x n; simp)
    have hp : ((hashOrder ((allTuples cs).foldl (fun t m => bump m t) [])).mergeSort fun a b => decide (b.2 ≤ a.2)).Perm
        ((allTuples cs).foldl (fun t m => bump m t) []) := (List.mergeSort_perm _ _).trans (hh _)
    refine ⟨_, rfl, (hp.map Prod.fst).nodup_iff.2 t1, ?_, ?_, ?_⟩
    · intro x n
      rw [hp.mem_iff, t2]
      simp
    · have := List.pairwise_mergeSort (le := fun a b : List Str × Nat => decide (b.2 ≤ a.2))
        (by intro a b c; simp only [decide_eq_true_eq]; omega) (by intro a b; simp only [Bool.or_eq_true, decide_eq_true_eq]; omega)
        (hashOrder ((allTuples cs).foldl (fun t m => bump m t) []))
      simpa using this
    · rw [perm_sum (hp.map Prod.snd), sum_counts, countQuery_eq]
      simp only [List.map_nil, List.sum_nil, Nat.zero_add, List.map_map]
      clear k1 k2 t1 t2 hp key
      induction cs with
      | nil => rfl
      | cons c cs ih =>
        have hn := h c (by simp)
        obtain ⟨all, hm⟩ : ∃ all, c.plan.mapM id = some all := by
          cases hm : c.plan.mapM id with
          | none => exact absurd (mapM_id_none.1 hm) hn
          | some all => exact ⟨all, rfl⟩
        have he := mapM_id_iff.1 hm
        have hl : (c.plan.filterMap id).length = c.plan.length := by rw [he]; simp [List.filterMap_map]
        have := ih fun d hd => h d (List.mem_cons_of_mem _ hd)
        simp only [allTuples, List.flatMap_cons, List.length_append, List.length_map, hl, List.map_cons, List.sum_cons,
          Function.comp] at this ⊢
        rw [this]

/-- C37: an entry with a fully qualified name (a single key) shows the annotation value of the node, or the empty text. -/
theorem C37_value (value : N → K → Option Str) (m : List N) (i : Nat) (k : K) :
    freqValue value m (i, [k]) = ((m[i]?).bind fun n => value n k).getD [] := by
  unfold freqValue
  cases m[i]? <;> simp

end

/-! ### Examples -/

namespace FindEx

def corpus (l : List (Option Nat)) : FindCorpus Nat Nat := ⟨l, false, SortEx.natCmp, some⟩

def rnd : Rnd Nat := ⟨id, 1, []⟩

theorem total (l : List (Option Nat)) : (corpus l).Total (· ≤ ·) :=
  ⟨SortEx.agrees, SortEx.totalPre, fun _ _ => Nat.le_antisymm⟩

/-- C35: three corpora, found in different orders; the second page starts in the first and ends in the third corpus. -/
theorem C35_nonvacuous :
    find (fun l => findSingle (corpus l) rnd false .normal) [[some 3, some 1], [some 2], [some 9, some 8]] 0 none = some [1, 3, 2, 8, 9] ∧
    find (fun l => findSingle (corpus l) rnd false .normal) [[some 1, some 3], [some 2], [some 8, some 9]] 1 (some 3) = some [3, 2, 8] := by
  decide

/-- C36 fails: the plan reports an error, which is counted as a match while `find` fails with every order. -/
theorem C36_fails : countQuery [[some 1, none]] = 2 ∧
    ∀ order, find (fun l => findSingle (corpus l) rnd false order) [[some 1, none]] 0 none = none := by
  refine ⟨rfl, ?_⟩
  intro order
  cases order <;> decide

/-- Skipping an error is not reported either: the page exists although the complete list does not. -/
theorem C35_error_skipped : find (fun l => findSingle (corpus l) rnd false .notSorted) [[none, some 1]] 0 none = none ∧
    find (fun l => findSingle (corpus l) rnd false .notSorted) [[none, some 1]] 1 none = some [1] := by decide

theorem C36_nonvacuous : countQuery [[some 3, some 1], [some 2]] = 3 ∧
    find (fun l => findSingle (corpus l) rnd false .normal) [[some 3, some 1], [some 2]] 0 none = some [1, 3, 2] ∧
    countExtra [(⟨[some 3, some 1], fun _ => [7, 8], fun n => n == 7⟩ : ExtraCorpus Nat Nat)] = some (2, 1) := by decide

theorem C37_nonvacuous : (allTuples [(⟨[some [1], some [2], some [3]], [(0, [5])], fun n _ => if n = 2 then none else some ['x']⟩ : FreqCorpus Nat Nat)]) =
    [[['x']], [[]], [['x']]] := by decide

end FindEx
