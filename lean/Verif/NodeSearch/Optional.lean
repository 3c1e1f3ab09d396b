import Verif.NodeSearch.Props
import Verif.Op.OverlapProps

/-!
# C68: optional operands, negated operators and the identity operator

`graphannis/src/annis/db/aql/operators/{non_existing,negated_op,identical_node}.rs`.
-/

set_option linter.unusedSimpArgs false
set_option linter.unusedSectionVars false
set_option linter.unusedVariables false

open AnnoStore

namespace NodeSearch

/-! ## Model -/

section
variable {T N V K E : Type} [LinearOrder T] [LinearOrder N] [OrderBot N] [LinearOrder V]

/-- All filters are asked, there is no early exit (non_existing.rs 160-168). -/
def allFilters (m : SMatch T (AnnoKey N)) : List (SMatch T (AnnoKey N) → Except (Fail E) Bool) → Bool → Except (Fail E) Bool
  | [], acc => .ok acc
  | f :: fs, acc =>
    match f m with
    | .error e => .error e
    | .ok b => allFilters m fs (acc && b)

/-- The loop over the candidates (non_existing.rs 157-174). -/
def noCandidate (filters : List (SMatch T (AnnoKey N) → Except (Fail E) Bool)) : List (SMatch T (AnnoKey N)) → Except (Fail E) Bool
  | [] => .ok true
  | c :: cs =>
    match allFilters c filters true with
    | .error e => .error e
    | .ok true => .ok false
    | .ok false => noCandidate filters cs

/-- `NonExistingUnaryOperatorIndex::filter_match` (non_existing.rs 129-175). A pattern that does not compile gives no filters
(`unwrap_or_default`). -/
def nonExIndex (env : NsEnv N V) (g : NsGraph T N V) (target : NsSpec N V) (ret : SMatch T (AnnoKey N) → Except (Fail E) (List T))
    (m : SMatch T (AnnoKey N)) : Except (Fail E) Bool :=
  match ret m with
  | .error e => .error e
  | .ok nodes =>
    noCandidate ((valueFilters env g target).getD [])
      ((g.annos.keysForIterator (qname env target).1 (some (qname env target).2) nodes).map fun p => ⟨p.1, p.2⟩)

/-- The loops over the node search (non_existing.rs 219-234). -/
def noneHolds (f : SMatch T (AnnoKey N) → Except (Fail E) Bool) : List (SMatch T (AnnoKey N)) → Except (Fail E) Bool
  | [] => .ok true
  | x :: xs =>
    match f x with
    | .error e => .error e
    | .ok true => .ok false
    | .ok false => noneHolds f xs

/-- `NonExistingUnaryOperatorFilter::filter_match` (non_existing.rs 206-239). An error of the search for all tokens is an item of the
search. -/
def nonExFilter (env : NsEnv N V) (g : NsGraph T N V) (target : NsSpec N V) (targetLeft : Bool) (op : BinOp T (AnnoKey N) E)
    (m : SMatch T (AnnoKey N)) : Except (Fail E) Bool :=
  match fromSpec (E := E) env g target with
  | .error .regex => .ok false
  | .error .tokens => .error .panic
  | .ok (rows, _) => noneHolds (fun x => if targetLeft then op.filter x m else op.filter m x) rows

/-- `NonExistingUnaryOperatorSpec::create_operator` (non_existing.rs 89-121) and the filter of the operator it makes. `inv` is the result
of `get_inverse_operator`. Errors while the operator is created are left out. -/
def nonExisting (env : NsEnv N V) (g : NsGraph T N V) (target : NsSpec N V) (targetLeft : Bool) (op : OpImpl T (AnnoKey N) E)
    (inv : Option (OpImpl T (AnnoKey N) E)) (m : SMatch T (AnnoKey N)) : Except (Fail E) Bool :=
  let (op, left) := match targetLeft, inv with
    | true, some i => (i, false)
    | _, _ => (op, targetLeft)
  match left, op.retrieve with
  | false, some ret => nonExIndex env g target ret m
  | _, _ => nonExFilter env g target left op.base m

/-- `NegatedOp` (negated_op.rs 53-84): always without index and without inverse (`BinaryOperator::Base`, operator.rs 137-142). -/
def negOp (op : OpImpl T K E) : OpImpl T K E where
  base := ⟨fun a b => match op.base.filter a b with
    | .ok b => .ok !b
    | .error e => .error e, op.base.reflexive⟩
  retrieve := none

/-- `IdenticalNode` (identical_node.rs 41-77). -/
def identOp [DecidableEq T] : OpImpl T K E where
  base := ⟨fun a b => .ok (decide (a.node = b.node)), true⟩
  retrieve := some fun a => .ok [a.node]

end

/-! ## C68 -/

section
variable {T N V E : Type} [LinearOrder T] [LinearOrder N] [OrderBot N] [LinearOrder V]

/-- The operator decides the relation `H` of nodes, and retrieves for each node all its partners that have annotations. -/
structure Decides (m : Spec T N V) (op : OpImpl T (AnnoKey N) E) (H : T → T → Prop) : Prop where
  filter : ∀ a b, ∃ r, op.base.filter a b = .ok r ∧ (r = true ↔ H a.node b.node)
  retrieve : ∀ ret, op.retrieve = some ret → ∀ a, ∃ l, ret a = .ok l ∧ ∀ n k, (m n k).isSome → (n ∈ l ↔ H a.node n)

theorem noneHolds_spec {f : SMatch T (AnnoKey N) → Except (Fail E) Bool} {P : SMatch T (AnnoKey N) → Prop}
    (h : ∀ x, ∃ r, f x = .ok r ∧ (r = true ↔ P x)) (rows : List (SMatch T (AnnoKey N))) :
    ∃ r, noneHolds f rows = .ok r ∧ (r = true ↔ ∀ x ∈ rows, ¬ P x) := by
  induction rows with
  | nil => exact ⟨true, rfl, by simp⟩
  | cons x rows ih =>
    obtain ⟨r, h1, h2⟩ := h x
    obtain ⟨r', h3, h4⟩ := ih
    cases r with
    | true => exact ⟨false, by simp [noneHolds, h1], by simp [h2.1 rfl]⟩
    | false =>
      have : ¬ P x := fun hp => by simpa using h2.2 hp
      exact ⟨r', by simp [noneHolds, h1, h3], by simp [h4, this]⟩

theorem allFilters_eq {m : SMatch T (AnnoKey N)} : ∀ {fs : List (SMatch T (AnnoKey N) → Except (Fail E) Bool)} {acc : Bool},
    (∀ f ∈ fs, ∃ b, f m = .ok b) → ∀ {r}, allConds m fs = .ok r → allFilters m fs acc = .ok (acc && r) := by
  intro fs
  induction fs with
  | nil =>
    intro acc _ r hr
    simp only [allConds, Except.ok.injEq] at hr
    simp [allFilters, ← hr]
  | cons f fs ih =>
    intro acc hf r hr
    obtain ⟨b, hb⟩ := hf f (by simp)
    have hf' : ∀ f ∈ fs, ∃ b, f m = .ok b := fun f h => hf f (by simp [h])
    rw [allFilters, hb]
    rw [allConds, hb] at hr
    cases b with
    | true => simp only at hr ⊢; rw [ih hf' hr]; simp
    | false =>
      simp only [Except.ok.injEq] at hr
      subst hr
      obtain ⟨r', hr'⟩ : ∃ r', allConds m fs = .ok r' := by
        clear ih hf
        induction fs with
        | nil => exact ⟨true, rfl⟩
        | cons g fs ih =>
          obtain ⟨b, hb⟩ := hf' g (by simp)
          rw [allConds, hb]
          cases b
          · exact ⟨false, rfl⟩
          · exact ih fun f h => hf' f (by simp [h])
      simp only
      rw [ih hf' hr']
      simp

theorem noCandidate_spec {fs : List (SMatch T (AnnoKey N) → Except (Fail E) Bool)} {cond : SMatch T (AnnoKey N) → Bool}
    (hf : ∀ f ∈ fs, ∀ m, ∃ b, f m = .ok b) (hc : ∀ m, allConds m fs = .ok (cond m)) (cs : List (SMatch T (AnnoKey N))) :
    ∃ r, noCandidate fs cs = .ok r ∧ (r = true ↔ ∀ x ∈ cs, cond x = false) := by
  induction cs with
  | nil => exact ⟨true, rfl, by simp⟩
  | cons x cs ih =>
    obtain ⟨r, h1, h2⟩ := ih
    have := allFilters_eq (m := x) (acc := true) (fun f h => hf f h x) (hc x)
    rw [noCandidate, this]
    cases h3 : cond x
    · exact ⟨r, by simpa using h1, by simp [h2, h3]⟩
    · exact ⟨false, by simp, by simp [h3]⟩

/-- No filter fails. -/
theorem filters_total (env : NsEnv N V) (g : NsGraph T N V) (q : NsSpec N V) {fs : List (SMatch T (AnnoKey N) → Except (Fail E) Bool)}
    (h : valueFilters env g q = some fs) : ∀ f ∈ fs, ∀ m, ∃ b, f m = .ok b := by
  have hv : ∀ (p : V → Bool) m, ∃ b, valueFilter (E := E) g p m = .ok b := fun p m => ⟨_, valueFilter_eq g p m⟩
  have hl : ∀ m, ∃ b, leafFilter (E := E) g m = .ok b := fun m => ⟨_, rfl⟩
  have two : ∀ (p : V → Bool) (leafs : Bool), ∀ f ∈ (valueFilter (E := E) g p :: if leafs then [leafFilter g] else []), ∀ m, ∃ b, f m = .ok b := by
    intro p leafs f hf m
    cases leafs with
    | true =>
      simp only [if_true, List.mem_cons, List.not_mem_nil, or_false] at hf
      rcases hf with rfl | rfl
      · exact hv p m
      · exact hl m
    | false =>
      simp only [Bool.false_eq_true, if_false, List.mem_cons, List.not_mem_nil, or_false] at hf
      subst hf
      exact hv p m
  have one : ∀ (f : SMatch T (AnnoKey N) → Except (Fail E) Bool), (∀ m, ∃ b, f m = .ok b) → ∀ f' ∈ [f], ∀ m, ∃ b, f' m = .ok b := by
    intro f hf f' hf' m
    rw [List.mem_singleton] at hf'
    subst hf'
    exact hf m
  cases q with
  | exact ns name v m =>
    cases v <;> (simp only [valueFilters, Option.some.injEq] at h; subst h)
    · intro f hf; cases hf
    · exact one _ (hv _)
  | notExact ns name v m => simp only [valueFilters, Option.some.injEq] at h; subst h; exact one _ (hv _)
  | regex ns name v m => simp only [valueFilters, Option.map_eq_some_iff] at h; obtain ⟨f, _, rfl⟩ := h; exact one _ (hv _)
  | notRegex ns name v m => simp only [valueFilters, Option.map_eq_some_iff] at h; obtain ⟨f, _, rfl⟩ := h; exact one _ (hv _)
  | exactTok v l => simp only [valueFilters, Option.some.injEq] at h; subst h; exact two _ _
  | notExactTok v => simp only [valueFilters, Option.some.injEq] at h; subst h; exact two _ true
  | regexTok v l => simp only [valueFilters, Option.map_eq_some_iff] at h; obtain ⟨f, _, rfl⟩ := h; exact two _ _
  | notRegexTok v => simp only [valueFilters, Option.map_eq_some_iff] at h; obtain ⟨f, _, rfl⟩ := h; exact two _ true
  | anyToken => simp only [valueFilters, Option.some.injEq] at h; subst h; exact one _ hl
  | anyNode => simp only [valueFilters, Option.some.injEq] at h; subst h; exact one _ (hv _)

/-- The filters of the target in the index variant; for all tokens they are not those of the description of the search. -/
theorem filters_spec (ops : List (Op T N V)) (env : NsEnv N V) (g : NsGraph T N V) (hg : g.annos = run ops) {Cov : T → T → Prop}
    (hc : CovOk g Cov) (q : NsSpec N V) {fs : List (SMatch T (AnnoKey N) → Except (Fail E) Bool)} (h : valueFilters env g q = some fs) :
    ∃ cond : SMatch T (AnnoKey N) → Bool, (∀ m, allConds m fs = .ok (cond m)) ∧
      ∀ n k, (k ∈ keysOf g (qname env q) n ∧ cond ⟨n, k⟩ = true) ↔ Wanted env (spec ops) Cov q n k := by
  by_cases hq : q = .anyToken
  · subst hq
    simp only [valueFilters, Option.some.injEq] at h
    subst h
    refine ⟨fun m => isLeaf g m.node, fun m => ?_, fun n k => ?_⟩
    · simp only [allConds, leafFilter]
      cases isLeaf g m.node <;> rfl
    · simp only [qname, mem_keysOf ops g hg, isLeaf_iff hc]
      rfl
  · obtain ⟨cond, h1, h2⟩ := cond_spec (E := E) ops env g hg hc q h
    have : (descOf env g q fs).cond = fs := by
      cases q <;> first | rfl | exact absurd rfl hq
    rw [this] at h1
    exact ⟨cond, h1, h2⟩

/-- C68, restricted: a match passes the filter of an optional operand exactly if no node with a wanted annotation stands in the relation
to it, with and without index and on both sides. Missing: patterns that do not compile (`C68_regex_fails`); the node itself counts as
a partner even for operators that are not reflexive (`C68_self_fails`). -/
theorem C68_optional_partial (ops : List (Op T N V)) (env : NsEnv N V) (g : NsGraph T N V) (hg : g.annos = run ops) {Cov : T → T → Prop}
    (hc : CovOk g Cov) (hx : ExactOk env) (ht : TokensOk env g (spec ops) Cov) (target : NsSpec N V) (targetLeft : Bool)
    (hre : ∀ p, patternOf target = some p → (env.compile p).isSome) (htok : target = .anyToken → g.anyTokens.isSome)
    {H : T → T → Prop} (op : OpImpl T (AnnoKey N) E) (hop : Decides (spec ops) op H) (inv : Option (OpImpl T (AnnoKey N) E))
    (hinv : ∀ i, inv = some i → Decides (spec ops) i fun a b => H b a) (m : SMatch T (AnnoKey N)) :
    ∃ r, nonExisting env g target targetLeft op inv m = .ok r ∧
      (r = true ↔ ¬ ∃ n k, Wanted env (spec ops) Cov target n k ∧ if targetLeft then H n m.node else H m.node n) := by
  have hfs : ∃ fs, valueFilters (E := E) env g target = some fs := by
    rw [← Option.isSome_iff_exists]
    cases target with
    | exact ns name v m => cases v <;> rfl
    | regex ns name v m => simpa [valueFilters] using hre v rfl
    | notRegex ns name v m => simpa [valueFilters] using hre v rfl
    | regexTok v l => simpa [valueFilters] using hre v rfl
    | notRegexTok v => simpa [valueFilters] using hre v rfl
    | _ => rfl
  obtain ⟨fs, hfs⟩ := hfs
  obtain ⟨rows, hrows⟩ : ∃ rows, fromSpec (E := E) env g target = .ok (rows, descOf env g target fs) := by
    obtain ⟨e1, e2⟩ := C66_errors (E := E) env g target
    cases hi : items env g target with
    | some l => exact ⟨l, by simp [fromSpec, hfs, hi]⟩
    | none =>
      have : fromSpec (E := E) env g target = .error .tokens := by simp [fromSpec, hfs, hi]
      obtain ⟨h1, h2⟩ := e2.1 this
      have := htok h1
      rw [h2] at this
      simp at this
  -- a wanted annotation exists
  have hw : ∀ n k, Wanted env (spec ops) Cov target n k → (spec ops n k).isSome := by
    intro n k h
    have key : ∀ {ns name} {P : V → Prop}, Hit (spec ops) ns name P n k → (spec ops n k).isSome := by
      rintro ns name P ⟨_, _, v, hv, _⟩; rw [hv]; rfl
    cases target with
    | exact => exact key h
    | notExact => exact key h
    | regex => exact key h
    | notRegex => exact key h
    | exactTok => exact key h.1
    | notExactTok => exact key h.1
    | regexTok => exact key h.1
    | notRegexTok => exact key h.1
    | anyToken => exact key h.1
    | anyNode => exact key h
  have index : ∀ (G : T → T → Prop) (i : OpImpl T (AnnoKey N) E) ret, Decides (spec ops) i G → i.retrieve = some ret →
      ∃ r, nonExIndex env g target ret m = .ok r ∧ (r = true ↔ ¬ ∃ n k, Wanted env (spec ops) Cov target n k ∧ G m.node n) := by
    intro G i ret hi hret
    obtain ⟨l, h1, h2⟩ := hi.retrieve ret hret m
    obtain ⟨cond, h3, h4⟩ := filters_spec ops env g hg hc target hfs
    unfold nonExIndex
    rw [h1, hfs]
    simp only [Option.getD_some]
    obtain ⟨r, h5, h6⟩ := noCandidate_spec (filters_total env g target hfs) h3
      ((g.annos.keysForIterator (qname env target).1 (some (qname env target).2) l).map fun p => ⟨p.1, p.2⟩)
    refine ⟨r, h5, ?_⟩
    rw [h6, keysForIterator_keysOf]
    simp only [List.mem_map, List.mem_flatMap, forall_exists_index, and_imp, not_exists, not_and]
    constructor
    · intro h n k hwk hG
      have h7 := (h4 n k).2 hwk
      have := h ⟨n, k⟩ (n, k) n ((h2 n k (hw n k hwk)).2 hG) k h7.1 rfl rfl
      rw [this] at h7
      simp at h7
    · rintro h x p n hn k hk rfl rfl
      cases h8 : cond ⟨n, k⟩ with
      | false => rfl
      | true =>
        have hwk := (h4 n k).1 ⟨hk, h8⟩
        exact absurd ((h2 n k (hw n k hwk)).1 hn) (h n k hwk)
  have filt : ∀ (left : Bool), ∃ r, nonExFilter env g target left op.base m = .ok r ∧
      (r = true ↔ ¬ ∃ n k, Wanted env (spec ops) Cov target n k ∧ if left then H n m.node else H m.node n) := by
    intro left
    unfold nonExFilter
    rw [hrows]
    have hmem := C66_search ops env g hg hc hx ht target hrows
    obtain ⟨r, h1, h2⟩ := noneHolds_spec (f := fun x => if left then op.base.filter x m else op.base.filter m x)
      (P := fun x => if left then H x.node m.node else H m.node x.node) (by
        intro x
        cases left
        · simpa using hop.filter m x
        · simpa using hop.filter x m) rows
    refine ⟨r, h1, ?_⟩
    rw [h2]
    simp only [not_exists, not_and]
    constructor
    · intro h n k hwk
      exact h ⟨n, ShownKey env target k⟩ ((hmem _).2 ⟨k, hwk, rfl⟩)
    · intro h x hxr
      obtain ⟨k, hwk, _⟩ := (hmem x).1 hxr
      exact h x.node k hwk
  unfold nonExisting
  cases targetLeft with
  | false =>
    dsimp only
    cases hr : op.retrieve with
    | some ret => simpa using index H op ret hop hr
    | none => exact filt false
  | true =>
    cases inv with
    | none => 
      dsimp only
      exact filt true
    | some i =>
      dsimp only
      have hi := hinv i rfl
      cases hr : i.retrieve with
      | some ret => simpa using index _ i ret hi hr
      | none =>
        dsimp only
        unfold nonExFilter
        rw [hrows]
        have hmem := C66_search ops env g hg hc hx ht target hrows
        obtain ⟨r, h1, h2⟩ := noneHolds_spec (f := fun x => i.base.filter m x) (P := fun x => H x.node m.node)
          (fun x => hi.filter m x) rows
        refine ⟨r, by simpa using h1, ?_⟩
        rw [h2]
        simp only [if_true, not_exists, not_and]
        constructor
        · intro h n k hwk
          exact h ⟨n, ShownKey env target k⟩ ((hmem _).2 ⟨k, hwk, rfl⟩)
        · intro h x hxr
          obtain ⟨k, hwk, _⟩ := (hmem x).1 hxr
          exact h x.node k hwk

/-- C68: a negated operator holds exactly for the pairs for which the operator does not hold (`ImplOk` in C61; a reflexive operator stays
reflexive). -/
theorem C68_negated {N K E : Type} [DecidableEq N] [DecidableEq K] (op : OpImpl N K E) (H : SMatch N K → SMatch N K → Bool)
    (Cl Cr : List (SMatch N K)) (dr : Option (NsDesc N K E)) (global : Bool) (h : ∀ a ∈ Cl, ∀ b ∈ Cr, op.base.filter a b = .ok (H a b))
    (hr : op.base.reflexive = true) : ImplOk (negOp op) (fun a b => !H a b) Cl Cr dr global := by
  refine ⟨fun a ha b hb => ?_, fun ret hret => ?_, Or.inr (Or.inl hr)⟩
  · simp [negOp, h a ha b hb]
  · simp [negOp] at hret

/-- C68: the identity operator, its inverse and its index agree (`OpOk` in C61): it holds exactly for two matches of the same node. -/
theorem C68_identity {N K E : Type} [DecidableEq N] [DecidableEq K] (Cl Cr : List (SMatch N K)) (dr : Option (NsDesc N K E)) (global : Bool)
    (hd : ∀ d, dr = some d → ∃ (cond : SMatch N K → Bool) (all : List N), all.Nodup ∧ (∀ m, allConds m d.cond = .ok (cond m)) ∧
      (∀ n, d.keys n ≠ [] → n ∈ all) ∧ ∀ nodes, Cr.Perm ((IjSpec.mk nodes d.keys cond).rhs d.constOutput all)) :
    ImplOk (identOp (E := E)) (fun a b => decide (a.node = b.node)) Cl Cr dr global := by
  refine ⟨fun a _ b _ => rfl, fun ret hret d hdr => ?_, Or.inr (Or.inl rfl)⟩
  simp only [identOp, Option.some.injEq] at hret
  subst hret
  obtain ⟨cond, all, h1, h2, h3, h4⟩ := hd d hdr
  refine ⟨fun a => [a.node], cond, all, h1, h2, h4 _, fun a _ => ⟨rfl, List.nodup_singleton _, fun n _ hn => h3 n hn, ?_⟩⟩
  intro m _
  simp [eq_comm]

end
end NodeSearch
