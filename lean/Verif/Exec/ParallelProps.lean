import Verif.Exec.IndexProps

/-!
# C43: parallel joins
-/

set_option linter.unusedSimpArgs false
set_option linter.unusedSectionVars false
set_option linter.unusedVariables false

section
variable {N K E : Type} [DecidableEq N] [DecidableEq K]

/-! ## Nested loop -/

/-- The pairs that are still to be checked (streams without errors). -/
def remPairs : List (Row N K) → List (Row N K) → List (Row N K) → Option Nat → List (Row N K × Row N K)
  | [], _, _, _ => []
  | o :: os, _, cache, some p => (cache.drop p).map (Prod.mk o) ++ os.flatMap fun o' => cache.map (Prod.mk o')
  | o :: os, J, cache, none => J.map (Prod.mk o) ++ os.flatMap fun o' => (cache ++ J).map (Prod.mk o')

theorem fillCache_spec (max : Nat) (o : Row N K) (avail : List (Row N K)) (pos : Nat) (b : Block N K E) :
    match fillCache max o avail pos b with
    | (b', some p') => ∃ k, p' = pos + k ∧ b'.pairs = b.pairs ++ (avail.take k).map (Prod.mk o) ∧ max ≤ b'.pairs.length ∧ b'.errs = b.errs
    | (b', none) => b'.pairs = b.pairs ++ avail.map (Prod.mk o) ∧ b'.errs = b.errs ∧ (b.pairs.length < max → b'.pairs.length < max) := by
  induction avail generalizing pos b with
  | nil => simp [fillCache]
  | cons i is ih =>
    rw [fillCache]
    by_cases h : max ≤ (b.pairs ++ [(o, i)]).length
    · simp only [h, if_true]
      exact ⟨1, rfl, by simp, trivial, trivial⟩
    · simp only [h, if_false]
      have := ih (pos + 1) ⟨b.errs, b.pairs ++ [(o, i)]⟩
      revert this
      generalize fillCache max o is (pos + 1) (⟨b.errs, b.pairs ++ [(o, i)]⟩ : Block N K E) = x
      rcases x with ⟨b', _ | p'⟩
      · rintro ⟨h1, h2, h3⟩
        refine ⟨by rw [h1]; simp, h2, fun _ => h3 (not_le.1 h)⟩
      · rintro ⟨k, h1, h2, h3, h4⟩
        refine ⟨k + 1, by omega, by rw [h2]; simp, h3, h4⟩

theorem fillInner_spec (max : Nat) (o : Row N K) (J cache : List (Row N K)) (b : Block N K E) :
    match fillInner max o (J.map .ok) cache b with
    | (b', l, cache', true) => ∃ k, l = (J.drop k).map .ok ∧ cache' = cache ++ J.take k ∧ b'.pairs = b.pairs ++ (J.take k).map (Prod.mk o) ∧
        max ≤ b'.pairs.length ∧ b'.errs = b.errs
    | (b', l, cache', false) => l = [] ∧ cache' = cache ++ J ∧ b'.pairs = b.pairs ++ J.map (Prod.mk o) ∧ b'.errs = b.errs ∧
        (b.pairs.length < max → b'.pairs.length < max) := by
  induction J generalizing cache b with
  | nil => simp [fillInner]
  | cons i is ih =>
    rw [List.map_cons, fillInner]
    by_cases h : max ≤ (b.pairs ++ [(o, i)]).length
    · simp only [h, if_true]
      exact ⟨1, by simp, by simp, by simp, trivial, trivial⟩
    · simp only [h, if_false]
      have := ih (cache ++ [i]) ⟨b.errs, b.pairs ++ [(o, i)]⟩
      revert this
      generalize fillInner max o (is.map .ok) (cache ++ [i]) (⟨b.errs, b.pairs ++ [(o, i)]⟩ : Block N K E) = x
      rcases x with ⟨b', l, cache', _ | _⟩
      · rintro ⟨h0, h1, h2, h3, h4⟩
        refine ⟨h0, by rw [h1]; simp, by rw [h2]; simp, h3, fun _ => h4 (not_le.1 h)⟩
      · rintro ⟨k, h1, h2, h3, h4, h5⟩
        refine ⟨k + 1, by simpa using h1, by rw [h2]; simp, by rw [h3]; simp, h4, h5⟩

theorem nextBlock_spec (max : Nat) (P J cache : List (Row N K)) (pos : Option Nat) (b : Block N K E) (hb : b.errs = []) :
    ∃ b' P' J' cache' pos', nextBlock max ⟨P.map .ok, J.map .ok, cache, pos⟩ b = (b', ⟨P'.map .ok, J'.map .ok, cache', pos'⟩) ∧
      b'.errs = [] ∧ b'.pairs ++ remPairs P' J' cache' pos' = b.pairs ++ remPairs P J cache pos ∧
      (b'.pairs.length < max → remPairs P' J' cache' pos' = []) := by
  induction P generalizing J cache pos b with
  | nil =>
    rw [nextBlock.eq_def]
    split
    · exact ⟨b, [], J, cache, pos, rfl, hb, rfl, fun _ => rfl⟩
    · exact ⟨b, [], J, cache, pos, rfl, hb, rfl, fun _ => rfl⟩
  | cons o os ih =>
    rw [nextBlock.eq_def]
    by_cases hfull : max ≤ b.pairs.length
    · rw [if_pos hfull]
      exact ⟨b, o :: os, J, cache, pos, rfl, hb, rfl, fun h => absurd h (by omega)⟩
    · rw [if_neg hfull]
      cases pos with
      | some p =>
        simp only [List.map_cons]
        have hs := fillCache_spec max o (cache.drop p) p b
        rcases hx : fillCache max o (cache.drop p) p b with ⟨b', _ | p'⟩
        · rw [hx] at hs
          obtain ⟨h1, h2, h3⟩ := hs
          have hrem : b'.pairs ++ remPairs os J cache (some 0) = b.pairs ++ remPairs (o :: os) J cache (some p) := by
            rw [h1]
            cases os <;> simp [remPairs]
          cases os with
          | nil =>
            refine ⟨b', [], J, cache, some 0, rfl, h2.trans hb, hrem, fun _ => rfl⟩
          | cons o' os' =>
            obtain ⟨b'', P', J', cache', pos', e1, e2, e3, e4⟩ := ih J cache (some 0) b' (h2.trans hb)
            exact ⟨b'', P', J', cache', pos', e1, e2, e3.trans hrem, e4⟩
        · rw [hx] at hs
          obtain ⟨k, h1, h2, h3, h4⟩ := hs
          refine ⟨b', o :: os, J, cache, some p', rfl, h4.trans hb, ?_, fun h => absurd h (by omega)⟩
          rw [h2, h1]
          simp only [remPairs]
          rw [← List.drop_drop, List.append_assoc, ← List.append_assoc (List.map _ _), ← List.map_append, List.take_append_drop]
      | none =>
        simp only [List.map_cons]
        have hs := fillInner_spec max o J cache b
        rcases hx : fillInner max o (J.map .ok) cache b with ⟨b', l, cache', _ | _⟩
        · rw [hx] at hs
          obtain ⟨h0, h1, h2, h3, h4⟩ := hs
          subst h0 h1
          have hrem : b'.pairs ++ remPairs os [] (cache ++ J) (some 0) = b.pairs ++ remPairs (o :: os) J cache none := by
            rw [h2]
            cases os <;> simp [remPairs]
          cases os with
          | nil =>
            refine ⟨b', [], [], cache ++ J, some 0, rfl, h3.trans hb, hrem, fun _ => rfl⟩
          | cons o' os' =>
            obtain ⟨b'', P', J', cache', pos', e1, e2, e3, e4⟩ := ih [] (cache ++ J) (some 0) b' (h3.trans hb)
            exact ⟨b'', P', J', cache', pos', e1, e2, e3.trans hrem, e4⟩
        · rw [hx] at hs
          obtain ⟨k, h1, h2, h3, h4, h5⟩ := hs
          subst h1 h2
          refine ⟨b', o :: os, J.drop k, cache ++ J.take k, none, rfl, h5.trans hb, ?_, fun h => absurd h (by omega)⟩
          rw [h3]
          simp only [remPairs]
          rw [List.append_assoc, ← List.append_assoc (List.map _ _), ← List.map_append, List.take_append_drop, List.append_assoc cache,
            List.take_append_drop]

theorem send_eq_emit (c : NlConf N K E) (o i : Row N K) : c.send (o, i) = emit c.pairCached o i := rfl

theorem PnlRuns.perm (c : NlConf N K E) (max : Nat) (hmax : 0 < max) {s : PnlState N K E} {out : List (Item N K E)} (h : PnlRuns c max s out) :
    ∀ P J cache pos, s = ⟨P.map .ok, J.map .ok, cache, pos⟩ → out.Perm ((remPairs P J cache pos).flatMap c.send) := by
  induction h with
  | stop hb hp =>
    intro P J cache pos hs
    subst hs
    obtain ⟨b', P', J', cache', pos', h1, h2, h3, h4⟩ := nextBlock_spec max P J cache pos (⟨[], []⟩ : Block N K E) rfl
    rw [hb] at h1
    simp only [Prod.mk.injEq] at h1
    obtain ⟨rfl, _⟩ := h1
    rw [hp, h4 (by rw [hp]; simpa using hmax)] at h3
    simp only [List.append_nil, List.nil_append] at h3
    rw [← h3]
    exact List.Perm.refl _
  | @block s s' b items rest hb hp hperm _ ih =>
    intro P J cache pos hs
    subst hs
    obtain ⟨b', P', J', cache', pos', h1, h2, h3, h4⟩ := nextBlock_spec max P J cache pos (⟨[], []⟩ : Block N K E) rfl
    rw [hb] at h1
    simp only [Prod.mk.injEq] at h1
    obtain ⟨rfl, h1⟩ := h1
    simp only [List.nil_append] at h3
    rw [h2, ← h3, List.flatMap_append, List.map_nil, List.nil_append]
    exact hperm.append (ih P' J' cache' pos' h1)

theorem PnlRuns.exists (c : NlConf N K E) (max : Nat) (hmax : 0 < max) :
    ∀ n P J cache pos, (remPairs P J cache pos : List (Row N K × Row N K)).length = n →
      ∃ out, PnlRuns c max ⟨P.map .ok, J.map .ok, cache, pos⟩ out := by
  intro n
  induction n using Nat.strongRecOn with
  | ind n ih =>
    intro P J cache pos hn
    obtain ⟨b', P', J', cache', pos', h1, h2, h3, h4⟩ := nextBlock_spec max P J cache pos (⟨[], []⟩ : Block N K E) rfl
    by_cases hp : b'.pairs = []
    · exact ⟨[], .stop h1 hp⟩
    · have hl : (remPairs P' J' cache' pos').length < n := by
        have := congrArg List.length h3
        simp only [List.length_append, List.nil_append, hn] at this
        have : 0 < b'.pairs.length := List.length_pos_iff.2 hp
        omega
      obtain ⟨out, ho⟩ := ih _ hl P' J' cache' pos' rfl
      exact ⟨_, .block h1 hp (List.Perm.refl _) ho⟩

theorem send_all {c : NlConf N K E} {T : Row N K → Row N K → Bool} {O I : List (Row N K)}
    (h : ∀ o ∈ O, ∀ i ∈ I, c.pairCached o i = .ok (T o i)) :
    (O.flatMap fun o => I.map (Prod.mk o)).flatMap c.send = ((joinPairs T O I).map fun p => p.1 ++ p.2).map .ok := by
  rw [← crossJoin_eq, ← laterOut_ok h]
  unfold laterOut
  rw [List.flatMap_assoc, List.flatMap_map]
  refine List.flatMap_congr fun o ho => ?_
  rw [List.flatMap_map]
  rfl

/-- The start of a parallel nested loop join. -/
def pnlStart (O I : List (Row N K)) : PnlState N K E := ⟨O.map .ok, I.map .ok, [], none⟩

/-- For every block size and every schedule a parallel nested loop join gives each combination of rows that satisfies the join condition
once; and it does end. -/
theorem C43_nested_loop (c : NlConf N K E) (H : SMatch N K → SMatch N K → Bool) (O I : List (Row N K)) (h : c.Total H O I)
    (max : Nat) (hmax : 0 < max) :
    (∃ out, PnlRuns c max (pnlStart O I) out) ∧
    ∀ out, PnlRuns c max (pnlStart O I) out →
      out.Perm (((joinPairs (joinHolds c H c.globalReflexivity) O I).map fun p => p.1 ++ p.2).map .ok) := by
  refine ⟨PnlRuns.exists c max hmax _ O I [] none rfl, fun out ho => ?_⟩
  have := ho.perm c max hmax O I [] none rfl
  rw [← send_all fun o ho i hi => pairCached_eq h ho hi]
  cases O with
  | nil => exact this
  | cons o O => simpa only [remPairs, List.nil_append, List.flatMap_cons] using this

/-- The parallel join gives the same rows as the sequential one if the distinctness check of the first pass is the full one. -/
theorem C43_nested_loop_eq_partial (c : NlConf N K E) (H : SMatch N K → SMatch N K → Bool) (O I : List (Row N K)) (h : c.Total H O I)
    (hs : c.Simple O I) (max : Nat) (hmax : 0 < max) {seq par : List (Item N K E)}
    (hseq : Runs c.next (nlStart (O.map .ok) (I.map .ok)) seq) (hpar : PnlRuns c max (pnlStart O I) par) : par.Perm seq := by
  rw [hseq.unique (C42_nested_loop_partial c H O I h hs)]
  exact (C43_nested_loop c H O I h max hmax).2 par hpar

/-! ## Index join -/

theorem allCondsPar_ok {m : SMatch N K} {fs : List (SMatch N K → Except (Fail E) Bool)} {b : Bool} (h : allConds m fs = .ok b) :
    allCondsPar m fs = ([], b) := by
  induction fs with
  | nil => simpa [allConds, allCondsPar] using h
  | cons f fs ih =>
    rw [allConds] at h
    rw [allCondsPar]
    cases hf : f m with
    | error e => rw [hf] at h; simp at h
    | ok x =>
      rw [hf] at h
      cases x
      · simp only [Except.ok.injEq] at h ⊢; rw [← h]
      · exact ih h

theorem sendCands_eq (c : IjConf N K E) (l : Row N K) (hc : ∀ m, ∃ b, allConds m c.cond = .ok b) :
    ∀ n (cs : List (SMatch N K)), cs.length = n → c.sendCands l cs = c.items l cs := by
  intro n
  induction n using Nat.strongRecOn with
  | ind n ih =>
    intro cs hn
    cases cs with
    | nil => simp [IjConf.sendCands, IjConf.items]
    | cons m ms =>
      rw [IjConf.sendCands, IjConf.items]
      obtain ⟨b, hb⟩ := hc m
      have hms := ih ms.length (by rw [← hn]; simp) ms rfl
      have hsk := ih (c.skip m.node ms).length (by have := c.skip_length m.node ms; rw [← hn]; simp; omega) _ rfl
      rw [hb, allCondsPar_ok hb]
      cases b
      · simpa using hms
      · simp only [if_true, List.map_nil, List.nil_append]
        cases c.distinct l (c.output m) with
        | error e => simp only; rw [hms]
        | ok x =>
          cases x
          · simp only; rw [hms]
          · simp only; rw [hsk]

theorem PijRuns.perm (c : IjConf N K E) (max : Nat) (hmax : 0 < max) {lhs out : List (Item N K E)} (h : PijRuns c max lhs out) :
    out.Perm (lhs.flatMap c.send) := by
  induction h with
  | @stop lhs h =>
    cases lhs with
    | nil => exact List.Perm.refl _
    | cons a l => cases max with
      | zero => omega
      | succ n => simp at h
  | @block lhs items rest h hp _ ih =>
    have : lhs.flatMap c.send = (lhs.take max).flatMap c.send ++ (lhs.drop max).flatMap c.send := by
      rw [← List.flatMap_append, List.take_append_drop]
    rw [this]
    exact hp.append ih

theorem PijRuns.exists (c : IjConf N K E) (max : Nat) (hmax : 0 < max) (lhs : List (Item N K E)) : ∃ out, PijRuns c max lhs out := by
  generalize hn : lhs.length = n
  induction n using Nat.strongRecOn generalizing lhs with
  | ind n ih =>
    by_cases h : lhs.take max = []
    · exact ⟨[], .stop h⟩
    · have hl : (lhs.drop max).length < n := by
        have : lhs ≠ [] := by rintro rfl; simp at h
        have := List.length_pos_iff.2 this
        simp only [List.length_drop]
        omega
      obtain ⟨out, ho⟩ := ih _ hl (lhs.drop max) rfl
      exact ⟨_, .block h (List.Perm.refl _) ho⟩

/-- For every block size and every schedule a parallel index join gives the same items as the sequential one: if the operator and the
conditions do not fail (the left stream may contain errors). -/
theorem C43_index_join_partial (c : IjConf N K E) (C : Row N K → List (SMatch N K)) (lhs : List (Item N K E)) (hc : c.Cands C lhs)
    (hcond : ∀ m, ∃ b, allConds m c.cond = .ok b) (max : Nat) (hmax : 0 < max) :
    (∃ par, PijRuns c max lhs par) ∧
    ∀ seq par, Runs c.next ⟨lhs, none⟩ seq → PijRuns c max lhs par → par.Perm seq := by
  refine ⟨PijRuns.exists c max hmax lhs, fun seq par hs hp => ?_⟩
  rw [hs.unique (indexJoin_items c C lhs hc)]
  refine (hp.perm c max hmax).trans (List.Perm.of_eq ?_)
  unfold ijOut
  refine List.flatMap_congr fun x hx => ?_
  cases x with
  | error e => rfl
  | ok l =>
    have hl : l ∈ oks lhs := List.mem_filterMap.2 ⟨_, hx, rfl⟩
    simp only [IjConf.send, hc l hl]
    exact sendCands_eq c l hcond _ _ rfl

end

namespace JoinEx

/-- With the join of `C42_fails` the parallel join gives one row less than the sequential one. -/
theorem C43_fails : ∃ seq par : List (Item Nat Nat Unit), Runs conf.next (nlStart (outer.map .ok) (inner.map .ok)) seq ∧
    PnlRuns conf 1024 (pnlStart outer inner) par ∧ seq.length = 3 ∧ par.length = 2 := by
  have ht : conf.Total (fun _ _ => true) outer inner := C42_fails.1
  obtain ⟨⟨par, hpar⟩, hall⟩ := C43_nested_loop conf _ outer inner ht 1024 (by omega)
  refine ⟨_, par, C42_fails.2.1, hpar, rfl, ?_⟩
  rw [(hall par hpar).length_eq]
  decide

/-- An error of the outer stream is lost if there are no pairs to check. -/
theorem C43_error_lost : ∃ c : NlConf Nat Nat Unit, PnlRuns c 1024 ⟨[.error (.err ())], [], [], none⟩ [] ∧
    Runs c.next (nlStart [.error (.err ())] []) [.error (.err ())] := by
  refine ⟨conf, .stop (s' := ⟨[], [], [], none⟩) (b := ⟨[.err ()], []⟩) ?_ rfl, nestedLoop_items conf _ _⟩
  rw [nextBlock.eq_def]
  rfl

/-- A candidate whose condition fails with an error is still part of the result of the parallel index join. -/
theorem C43_cond_error : ∃ c : IjConf Nat Nat Unit,
    PijRuns c 512 [.ok [⟨1, 0⟩]] [.error (.err ()), .ok [⟨1, 0⟩, ⟨2, 9⟩]] ∧
    Runs c.next ⟨[.ok [⟨1, 0⟩]], none⟩ [.error (.err ())] := by
  let c : IjConf Nat Nat Unit := { ij with candidates := fun _ => .ok [⟨2, 0⟩], cond := [fun _ => .error (.err ())] }
  refine ⟨c, ?_, ?_⟩
  · refine PijRuns.block (items := [.error (.err ()), .ok [⟨1, 0⟩, ⟨2, 9⟩]]) (rest := []) (by simp) ?_ (.stop (by simp))
    refine List.Perm.of_eq ?_
    simp [c, ij, IjConf.send, IjConf.nextCandidates, IjConf.sendCands, Row.at', bind, Except.bind, pure, Except.pure, allCondsPar,
      IjConf.distinct, IjConf.output, IjConf.skip]
  · have h := indexJoin_items c (fun _ => [⟨2, 0⟩]) [.ok [⟨1, 0⟩]] (by intro l hl; simp at hl; subst hl; rfl)
    have he : ijOut c (fun _ => [⟨2, 0⟩]) [.ok [⟨1, 0⟩]] = [.error (.err ())] := by
      simp [ijOut, IjConf.items, c, allConds]
    rw [he] at h
    exact h

theorem C43_nonvacuous : ∃ (c : NlConf Nat Nat Unit) (O I : List (Row Nat Nat)), c.Total (fun _ _ => true) O I ∧ c.Simple O I ∧
    ∃ par, PnlRuns c 1 (pnlStart O I) par ∧ par.length = 3 := by
  obtain ⟨c, O, I, h1, h2, _, h4⟩ := C42_nonvacuous
  obtain ⟨⟨par, hpar⟩, hall⟩ := C43_nested_loop c _ O I h1 1 (by omega)
  refine ⟨c, O, I, h1, h2, par, hpar, ?_⟩
  rw [(hall par hpar).length_eq]
  simpa using h4

end JoinEx
