import Verif.Op.TextProps

/-!
# Overlap (C46), symmetry of the operators (C47) and concrete token indexes
-/

set_option linter.unusedSimpArgs false
set_option linter.unusedSectionVars false

open TextSpec

variable {N : Type}

namespace TextSpec

/-- Two nodes cover a common token. -/
def Share (tok : N → Prop) (C : N → N → Prop) (l r : N) : Prop := ∃ t, Covers tok C l t ∧ Covers tok C r t

end TextSpec

/-- Coverage without gaps: a node that is no token covers exactly the tokens between its border tokens. -/
structure TokenHelper.Continuous (th : TokenHelper N) (L R O : N → N → Prop) (E : GStore N → N → N → Prop) : Prop where
  reach : ∀ n s e, Border (th.Tok E) L n s → Border (th.Tok E) R n e → Relation.ReflTransGen O s e
  cov : ∀ n s e t, ¬ th.Tok E n → Border (th.Tok E) L n s → Border (th.Tok E) R n e → (th.Cov E n t ↔ Between O s t e)
  border : ∀ n t, th.Cov E n t → ∃ s, Border (th.Tok E) L n s

namespace TextOp

open TokenHelper

section Overlap

variable {th : TokenHelper N} {L R : N → N → Prop} {E : GStore N → N → N → Prop} {order : GStore N} {O : N → N → Prop}
  {D : N → Prop} {Rg : Nat → Bnd Nat → Prop}

theorem overlapToken_spec (h : th.Ok L R E) (t : N) :
    ∃ l, overlapToken th t = some l ∧ ∀ r, r ∈ l ↔ r = t ∨ th.Cov E r t := by
  obtain ⟨l, h1, h2⟩ := flatMapOpt_spec (f := fun c : GStore N => c.inn t) (P := fun c r => E c r t) (l := th.cov) (by
    intro c hc
    obtain ⟨D, Rg, hx, _⟩ := h.cov c hc
    obtain ⟨l, e1, _, e3⟩ := hx.inn t
    exact ⟨l, e1, e3⟩)
  refine ⟨l ++ [t], by simp [overlapToken, h1], fun r => ?_⟩
  rw [List.mem_append, h2, List.mem_singleton, or_comm]
  rfl

/-- C46 for the retrieval of the overlap operator: exactly the nodes that cover a token which is also covered by the left node (and the
left node itself for the reflexive variant), each once. -/
theorem C46_overlap_retrieval [DecidableEq N] (h : th.Ok L R E) (hC : ∀ n t, th.Cov E n t → th.Tok E t) (refl : Bool) (l : N) :
    ∃ res, overlapRetrieve th refl l = some res ∧ res.Nodup ∧
      ∀ r, r ∈ res ↔ (refl = true ∧ r = l) ∨ Share (th.Tok E) (th.Cov E) l r := by
  have hcov : ∀ r t, th.Tok E t → (r = t ∨ th.Cov E r t ↔ Covers (th.Tok E) (th.Cov E) r t) := by
    intro r t ht
    unfold Covers
    constructor
    · rintro (rfl | hx)
      · exact Or.inl ⟨ht, rfl⟩
      · exact Or.inr ⟨fun hr => hr.2 ⟨t, hx⟩, hx⟩
    · rintro (⟨_, rfl⟩ | ⟨_, hx⟩)
      · exact Or.inl rfl
      · exact Or.inr hx
  suffices H : ∃ tok, th.isToken l = some tok ∧ ∃ res, (if tok && th.cov.isEmpty then some [l]
      else flatMapOpt (fun c : GStore N =>
          match if tok then some [l] else c.findConnected l 1 (.included 1) with
          | none => none
          | some ts => flatMapOpt (overlapToken th) ts) th.cov) = some res ∧
      ∀ r, r ∈ res ↔ Share (th.Tok E) (th.Cov E) l r by
    obtain ⟨tok, h1, res, h2, h3⟩ := H
    refine ⟨(if refl then l :: res else res).dedup, ?_, List.nodup_dedup _, fun r => ?_⟩
    · unfold overlapRetrieve
      rw [h1]
      exact congrArg (Option.map fun x => (if refl then l :: x else x).dedup) h2
    · rw [List.mem_dedup, ← h3]
      cases refl <;> simp
  obtain ⟨tok, h1, h2⟩ := isToken_spec h l
  refine ⟨tok, h1, ?_⟩
  cases tok with
  | true =>
    have ht : th.Tok E l := h2.1 rfl
    have hl : ∀ r, Share (th.Tok E) (th.Cov E) l r ↔ r = l ∨ th.Cov E r l := by
      intro r
      rw [hcov r l ht]
      constructor
      · rintro ⟨t, ⟨_, rfl⟩ | ⟨hx, _⟩, hb⟩
        · exact hb
        · exact absurd ht hx
      · intro hb; exact ⟨l, Or.inl ⟨ht, rfl⟩, hb⟩
    by_cases he : th.cov.isEmpty = true
    · refine ⟨[l], by simp [he], fun r => ?_⟩
      rw [hl]
      have : th.cov = [] := by simpa using he
      simp [Cov, this]
    · obtain ⟨x, x1, x2⟩ := overlapToken_spec h l
      obtain ⟨res, r1, r2⟩ := flatMapOpt_spec (f := fun c : GStore N =>
          match if true then some [l] else c.findConnected l 1 (.included 1) with
          | none => none
          | some ts => flatMapOpt (overlapToken th) ts) (P := fun _ r => r = l ∨ th.Cov E r l) (l := th.cov) (by
        intro c _
        exact ⟨x, by simp [flatMapOpt, x1], x2⟩)
      refine ⟨res, ?_, fun r => ?_⟩
      · rw [if_neg (by simpa using he)]; exact r1
      · rw [r2, hl]
        constructor
        · rintro ⟨_, _, hx⟩; exact hx
        · intro hx
          cases hcs : th.cov with
          | nil => simp [hcs] at he
          | cons c _ => exact ⟨c, by simp, hx⟩
  | false =>
    have ht : ¬ th.Tok E l := fun hx => by simpa using h2.2 hx
    obtain ⟨res, r1, r2⟩ := flatMapOpt_spec (f := fun c : GStore N =>
        match if false then some [l] else c.findConnected l 1 (.included 1) with
        | none => none
        | some ts => flatMapOpt (overlapToken th) ts) (P := fun c r => ∃ t, E c l t ∧ (r = t ∨ th.Cov E r t)) (l := th.cov) (by
      intro c hc
      obtain ⟨D, Rg, hx, hg⟩ := h.cov c hc
      obtain ⟨ts, t1, _, t3⟩ := hx.find l 1 (.included 1) hg
      obtain ⟨y, y1, y2⟩ := flatMapOpt_spec (f := overlapToken th) (P := fun t r => r = t ∨ th.Cov E r t) (l := ts)
        (fun t _ => overlapToken_spec h t)
      refine ⟨y, by simp [t1, y1], fun r => ?_⟩
      rw [y2]
      have hedge : ∀ t, t ∈ ts ↔ E c l t := by
        intro t
        rw [t3]
        constructor
        · rintro ⟨_, d, hp, hw1, hw2⟩
          have : d = 1 := by simp only at hw2; omega
          subst this
          exact Walk.walkLen_one.1 hp.walk
        · intro he
          have hne : l ≠ t := by
            rintro rfl
            exact ht (hC _ _ ⟨c, hc, he⟩)
          refine ⟨(hx.dom _ _ he).1, 1, ?_, by simp [Within]⟩
          refine Walk.simple_of_shortest (Walk.walkLen_one.2 he) ?_
          intro d' hw
          cases d' with
          | zero => exact absurd (Walk.walkLen_zero.1 hw) hne
          | succ k => omega
      constructor
      · rintro ⟨t, ht, hr⟩; exact ⟨t, (hedge t).1 ht, hr⟩
      · rintro ⟨t, ht, hr⟩; exact ⟨t, (hedge t).2 ht, hr⟩)
    refine ⟨res, by simpa using r1, fun r => ?_⟩
    rw [r2]
    constructor
    · rintro ⟨c, hc, t, he, hr⟩
      have hct : th.Cov E l t := ⟨c, hc, he⟩
      exact ⟨t, Or.inr ⟨ht, hct⟩, (hcov r t (hC _ _ hct)).1 hr⟩
    · rintro ⟨t, ⟨hx, _⟩ | ⟨_, c, hc, he⟩, hb⟩
      · exact absurd hx ht
      · exact ⟨c, hc, t, he, (hcov r t (hC _ _ ⟨c, hc, he⟩)).2 hb⟩

/-- The decision of the filter: the first token of each node is not behind the last token of the other. -/
theorem overlapFilter_spec (h : th.Ok L R E) (ho : order.Is O D Rg) (refl same : Bool) (l r : N) :
    ∃ b, overlapFilter th order refl same l r = some b ∧ (b = true ↔ (refl = true ∧ same = true) ∨
      ∃ sl el sr er, Border (th.Tok E) L l sl ∧ Border (th.Tok E) R l el ∧ Border (th.Tok E) L r sr ∧ Border (th.Tok E) R r er ∧
        Relation.ReflTransGen O sl er ∧ Relation.ReflTransGen O sr el) := by
  unfold overlapFilter
  by_cases hrs : refl = true ∧ same = true
  · exact ⟨true, by simp [hrs.1, hrs.2], by simp [hrs.1, hrs.2]⟩
  · rw [if_neg (by simpa using hrs)]
    obtain ⟨a, h1, h2⟩ := leftTokenFor_spec h l
    obtain ⟨c, h3, h4⟩ := leftTokenFor_spec h r
    obtain ⟨a', h5, h6⟩ := rightTokenFor_spec h l
    obtain ⟨c', h7, h8⟩ := rightTokenFor_spec h r
    rw [h1, h3, h5, h7]
    simp only [hrs, false_or]
    have hno : (a = none ∨ a' = none ∨ c = none ∨ c' = none) → ¬ ∃ sl el sr er, Border (th.Tok E) L l sl ∧
        Border (th.Tok E) R l el ∧ Border (th.Tok E) L r sr ∧ Border (th.Tok E) R r er ∧
        Relation.ReflTransGen O sl er ∧ Relation.ReflTransGen O sr el := by
      rintro hx ⟨sl, el, sr, er, b1, b2, b3, b4, _⟩
      have b1 := (h2 _).2 b1
      have b2 := (h6 _).2 b2
      have b3 := (h4 _).2 b3
      have b4 := (h8 _).2 b4
      simp [b1, b2, b3, b4] at hx
    cases a with
    | none => exact ⟨false, rfl, iff_of_false (by simp) (hno (by simp))⟩
    | some sl =>
      cases a' with
      | none => exact ⟨false, rfl, iff_of_false (by simp) (hno (by simp))⟩
      | some el =>
        cases c with
        | none => exact ⟨false, rfl, iff_of_false (by simp) (hno (by simp))⟩
        | some sr =>
          cases c' with
          | none => exact ⟨false, rfl, iff_of_false (by simp) (hno (by simp))⟩
          | some er =>
            have key : (∃ sl el sr er, Border (th.Tok E) L l sl ∧ Border (th.Tok E) R l el ∧ Border (th.Tok E) L r sr ∧
                Border (th.Tok E) R r er ∧ Relation.ReflTransGen O sl er ∧ Relation.ReflTransGen O sr el) ↔
                Relation.ReflTransGen O sl er ∧ Relation.ReflTransGen O sr el := by
              constructor
              · rintro ⟨w, x, y, z, b1, b2, b3, b4, hx⟩
                have b1 := (h2 _).2 b1
                have b2 := (h6 _).2 b2
                have b3 := (h4 _).2 b3
                have b4 := (h8 _).2 b4
                simp only [Option.some.injEq] at b1 b2 b3 b4
                subst b1 b2 b3 b4
                exact hx
              · intro hx
                exact ⟨sl, el, sr, er, (h2 _).1 rfl, (h6 _).1 rfl, (h4 _).1 rfl, (h8 _).1 rfl, hx⟩
            rw [key]
            obtain ⟨x, x1, x2, _⟩ := ho.dist sl er
            obtain ⟨y, y1, y2, _⟩ := ho.dist sr el
            rw [Walk.reach_iff_simple, Walk.reach_iff_simple]
            simp only [x1, y1]
            cases x with
            | none => exact ⟨false, rfl, iff_of_false (by simp) fun hx => (x2.1 rfl) hx.1⟩
            | some d =>
              have hx : ∃ d, Walk.SimplePath O sl er d := by
                by_contra hc
                simpa using x2.2 hc
              refine ⟨y.isSome, rfl, ?_⟩
              cases y with
              | none => exact iff_of_false (by simp) fun hx => (y2.1 rfl) hx.2
              | some d' =>
                refine iff_of_true rfl ⟨hx, ?_⟩
                by_contra hc
                simpa using y2.2 hc

theorem covers_iff (hc : th.Continuous L R O E) (hO : Linear.Chains O) {n s e t : N} (hs : Border (th.Tok E) L n s) (he : Border (th.Tok E) R n e) :
    Covers (th.Tok E) (th.Cov E) n t ↔ Between O s t e := by
  unfold Covers
  by_cases hn : th.Tok E n
  · have h1 : s = n := by
      rcases hs with ⟨_, h⟩ | ⟨h, _⟩
      · exact h
      · exact absurd hn h
    have h2 : e = n := by
      rcases he with ⟨_, h⟩ | ⟨h, _⟩
      · exact h
      · exact absurd hn h
    subst h1 h2
    simp only [hn, true_and, not_true_eq_false, false_and, or_false]
    constructor
    · rintro rfl; exact ⟨.refl, .refl⟩
    · rintro ⟨ha, hb⟩
      obtain ⟨i, hi⟩ := Walk.reach_iff_walk.1 ha
      obtain ⟨j, hj⟩ := Walk.reach_iff_walk.1 hb
      have := Walk.walk_self hO.ac (Walk.walkLen_add.2 ⟨_, hi, hj⟩)
      have hi0 : i = 0 := by omega
      subst hi0
      exact (Walk.walkLen_zero.1 hi).symm
  · simpa [hn] using hc.cov n s e t hn hs he

/-- Two intervals of a chain have a common element iff none is completely before the other. -/
theorem intervals (hO : Linear.Chains O) {sl el sr er : N} (hl : Relation.ReflTransGen O sl el) (hr : Relation.ReflTransGen O sr er) :
    (Relation.ReflTransGen O sl er ∧ Relation.ReflTransGen O sr el) ↔ ∃ t, Between O sl t el ∧ Between O sr t er := by
  constructor
  · rintro ⟨h1, h2⟩
    obtain ⟨i, hi⟩ := Walk.reach_iff_walk.1 h1
    obtain ⟨j, hj⟩ := Walk.reach_iff_walk.1 hr
    rcases Nat.le_total j i with hij | hij
    · exact ⟨sr, ⟨chain_after hO hi hj hij, h2⟩, .refl, hr⟩
    · exact ⟨sl, ⟨.refl, hl⟩, chain_after hO hj hi hij, h1⟩
  · rintro ⟨t, ⟨h1, h2⟩, h3, h4⟩
    exact ⟨h1.trans h4, h3.trans h2⟩

/-- C46 for `_o_`, restricted to spans without gaps (missing: spans with gaps, see `C46_overlap_gap_fails`) and to matches that are
compared by their node (missing: `C46_overlap_reflexive_fails`): retrieval and filter agree and both decide whether the nodes cover a
common token. -/
theorem C46_overlap_partial [DecidableEq N] (h : th.Ok L R E) (ho : order.Is O D Rg) (hO : Linear.Chains O)
    (hC : ∀ n t, th.Cov E n t → th.Tok E t) (hc : th.Continuous L R O E) (refl : Bool) (l : N) :
    ∃ res, overlapRetrieve th refl l = some res ∧ res.Nodup ∧
      ∀ r, overlapFilter th order refl (decide (l = r)) l r = some (decide (r ∈ res)) ∧
        (r ∈ res ↔ (refl = true ∧ r = l) ∨ Share (th.Tok E) (th.Cov E) l r) := by
  obtain ⟨res, r1, r2, r3⟩ := C46_overlap_retrieval h hC refl l
  refine ⟨res, r1, r2, fun r => ⟨?_, r3 r⟩⟩
  obtain ⟨b, b1, b2⟩ := overlapFilter_spec h ho refl (decide (l = r)) l r
  refine bool_of_mem b1 b2 ?_
  rw [r3, decide_eq_true_eq, eq_comm (a := r)]
  refine or_congr Iff.rfl ?_
  have hb : ∀ n, (∃ t, Covers (th.Tok E) (th.Cov E) n t) → (∃ s, Border (th.Tok E) L n s) ∧ ∃ e, Border (th.Tok E) R n e := by
    rintro n ⟨t, ht⟩
    have : ∃ s, Border (th.Tok E) L n s := by
      rcases ht with ⟨hx, _⟩ | ⟨_, hx⟩
      · exact ⟨n, Or.inl ⟨hx, rfl⟩⟩
      · exact hc.border n t hx
    exact ⟨this, (h.border_both n).1 this⟩
  constructor
  · rintro ⟨t, ht1, ht2⟩
    obtain ⟨⟨sl, hsl⟩, el, hel⟩ := hb l ⟨t, ht1⟩
    obtain ⟨⟨sr, hsr⟩, er, her⟩ := hb r ⟨t, ht2⟩
    refine ⟨sl, el, sr, er, hsl, hel, hsr, her, ?_⟩
    rw [intervals hO (hc.reach l _ _ hsl hel) (hc.reach r _ _ hsr her)]
    exact ⟨t, (covers_iff hc hO hsl hel).1 ht1, (covers_iff hc hO hsr her).1 ht2⟩
  · rintro ⟨sl, el, sr, er, hsl, hel, hsr, her, hx⟩
    rw [intervals hO (hc.reach l _ _ hsl hel) (hc.reach r _ _ hsr her)] at hx
    obtain ⟨t, ht1, ht2⟩ := hx
    exact ⟨t, (covers_iff hc hO hsl hel).2 ht1, (covers_iff hc hO hsr her).2 ht2⟩

end Overlap

/-! ## Symmetric operators are their own inverse (C47) -/

section Symm

variable {th : TokenHelper N} {L R : N → N → Prop} {E : GStore N → N → N → Prop} {order : GStore N} {O : N → N → Prop}
  {D : N → Prop} {Rg : Nat → Bnd Nat → Prop} {spec : RangeSpec}

/-- C47 for the alignment operators and identical coverage: without any assumption about the graph. -/
theorem C47_alignment [DecidableEq N] (th : TokenHelper N) (a b : N) :
    leftFilter th b a = leftFilter th a b ∧ rightFilter th b a = rightFilter th a b ∧ identFilter th b a = identFilter th a b := by
  refine ⟨?_, ?_, ?_⟩
  · unfold leftFilter
    cases th.leftTokenFor a with
    | none => cases th.leftTokenFor b with
      | none => rfl
      | some y => cases y <;> rfl
    | some x => cases th.leftTokenFor b with
      | none => cases x <;> rfl
      | some y => cases x <;> cases y <;> simp [eq_comm]
  · unfold rightFilter
    cases th.rightTokenFor a with
    | none => cases th.rightTokenFor b with
      | none => rfl
      | some y => cases y <;> rfl
    | some x => cases th.rightTokenFor b with
      | none => cases x <;> rfl
      | some y => cases x <;> cases y <;> simp [eq_comm]
  · unfold identFilter
    generalize th.leftTokenFor a = p
    generalize th.leftTokenFor b = q
    generalize th.rightTokenFor a = r
    generalize th.rightTokenFor b = s
    rcases p with _ | _ | p <;> rcases q with _ | _ | q <;> rcases r with _ | _ | r <;> rcases s with _ | _ | s <;>
      simp [eq_comm]

/-- C47 for near: the operator is its own inverse. -/
theorem C47_near (h : th.Ok L R E) (ho : order.Is O D Rg) (hr : Rg spec.minDist spec.maxDist) (a b : N) :
    nearFilter th order false spec b a = nearFilter th order false spec a b := by
  obtain ⟨x, x1, x2⟩ := nearFilter_spec h ho hr a b
  obtain ⟨y, y1, y2⟩ := nearFilter_spec h ho hr b a
  rw [x1, y1, Option.some.injEq, Bool.eq_iff_iff, x2, y2, or_comm]

/-- C47 for overlap: the operator is its own inverse, also for its retrieval. -/
theorem C47_overlap [DecidableEq N] (h : th.Ok L R E) (ho : order.Is O D Rg) (hC : ∀ n t, th.Cov E n t → th.Tok E t) (refl same : Bool) (a b : N) :
    overlapFilter th order refl same b a = overlapFilter th order refl same a b ∧
      ∀ ra rb, overlapRetrieve th refl a = some ra → overlapRetrieve th refl b = some rb → (b ∈ ra ↔ a ∈ rb) := by
  constructor
  · obtain ⟨x, x1, x2⟩ := overlapFilter_spec h ho refl same a b
    obtain ⟨y, y1, y2⟩ := overlapFilter_spec h ho refl same b a
    rw [x1, y1, Option.some.injEq, Bool.eq_iff_iff, x2, y2]
    refine or_congr Iff.rfl ?_
    constructor
    · rintro ⟨sl, el, sr, er, h1, h2, h3, h4, h5, h6⟩; exact ⟨sr, er, sl, el, h3, h4, h1, h2, h6, h5⟩
    · rintro ⟨sl, el, sr, er, h1, h2, h3, h4, h5, h6⟩; exact ⟨sr, er, sl, el, h3, h4, h1, h2, h6, h5⟩
  · intro ra rb ha hb
    obtain ⟨ra', e1, _, e3⟩ := C46_overlap_retrieval h hC refl a
    obtain ⟨rb', f1, _, f3⟩ := C46_overlap_retrieval h hC refl b
    rw [e1, Option.some.injEq] at ha; subst ha
    rw [f1, Option.some.injEq] at hb; subst hb
    rw [e3, f3, eq_comm (a := b)]
    refine or_congr Iff.rfl ?_
    unfold Share
    constructor
    · rintro ⟨t, h1, h2⟩; exact ⟨t, h2, h1⟩
    · rintro ⟨t, h1, h2⟩; exact ⟨t, h2, h1⟩

/-- C47 for the retrieval of precedence: the inverse operator retrieves `a` for `b` exactly if the operator retrieves `b` for `a`. -/
theorem C47_precedence_retrieval [DecidableEq N] (h : th.Ok L R E) (ho : order.Is O D Rg)
    (hO : ∀ a b, O a b → th.Tok E a ∧ th.Tok E b) (hr : Rg spec.minDist spec.maxDist) (a b : N) :
    ∃ ra rb, precRetrieve th order false spec a = some ra ∧ invPrecRetrieve th order false spec b = some rb ∧ (b ∈ ra ↔ a ∈ rb) := by
  obtain ⟨ra, h1, _, h3⟩ := C45_precedence h ho hO hr a
  obtain ⟨rb, h4, _, h6⟩ := C45_inverse_precedence h ho hO hr b
  refine ⟨ra, rb, h1, h4, ?_⟩
  have e1 := (h3 b).1
  have e2 := (h6 a).1
  rw [invPrecFilter_eq, e1, Option.some.injEq] at e2
  constructor
  · intro hb; simpa [hb] using e2
  · intro hb; simpa [hb] using e2

end Symm

/-! ## Concrete token indexes -/

/-- The edges of an adjacency list that was filled with the edges of a list. -/
def listOps (es : List (NodeID64 × NodeID64)) : List (Adj.Op NodeID64 Nat Nat) := es.map fun e => .addEdge e.1 e.2

/-- A graph storage with the given edges. -/
def listStore (es : List (NodeID64 × NodeID64)) : GStore NodeID64 := (Adj.run (listOps es)).asGStore

theorem listOps_edge (es : List (NodeID64 × NodeID64)) (a b : NodeID64) :
    (Adj.spec (listOps es)).edge a b = true ↔ (a, b) ∈ es ∧ a ≠ b := by
  unfold Adj.spec listOps
  induction es using List.reverseRecOn with
  | nil => simp
  | append_singleton es e ih =>
    rw [List.map_append, List.foldl_append]
    simp only [List.map_cons, List.map_nil, List.foldl_cons, List.foldl_nil, Adj.specStep]
    by_cases hx : a = e.1 ∧ b = e.2 ∧ e.1 ≠ e.2
    · obtain ⟨rfl, rfl, hne⟩ := hx
      simp [hne]
    · rw [if_neg hx, ih, List.mem_append, List.mem_singleton]
      constructor
      · rintro ⟨h1, h2⟩; exact ⟨Or.inl h1, h2⟩
      · rintro ⟨h1 | h1, h2⟩
        · exact ⟨h1, h2⟩
        · subst h1; exact absurd ⟨rfl, rfl, h2⟩ hx

theorem listStore_is (es : List (NodeID64 × NodeID64)) (hs : ∀ e ∈ es, e.1 ≠ e.2) :
    (listStore es).Is (fun a b => (a, b) ∈ es) (fun _ => True) GStore.anyRange := by
  have := Adj.asGStore_is (listOps es)
  have he : (fun a b => (Adj.spec (listOps es)).edge a b = true) = fun a b => (a, b) ∈ es := by
    funext a b
    rw [listOps_edge]
    exact propext ⟨fun h => h.1, fun h => ⟨h, hs _ h⟩⟩
  rw [he] at this
  exact this

/-- Tokens 1, 2, 3; span 10 covers 1 and 2, span 11 covers 2 and 3. -/
def demoTh : TokenHelper NodeID64 :=
  { hasTok := fun n => decide (n ∈ [1, 2, 3])
    left := listStore [(10, 1), (11, 2)]
    right := listStore [(10, 2), (11, 3)]
    cov := [listStore [(10, 1), (10, 2), (11, 2), (11, 3)]] }

/-- The order of the tokens. -/
def demoOrder : GStore NodeID64 := listStore [(1, 2), (2, 3)]

def demoE (_ : GStore NodeID64) (a b : NodeID64) : Prop := (a, b) ∈ [((10 : NodeID64), (1 : NodeID64)), (10, 2), (11, 2), (11, 3)]

theorem demo_tok (n : NodeID64) : demoTh.Tok demoE n ↔ n ∈ ([1, 2, 3] : List NodeID64) := by
  unfold TokenHelper.Tok TokenHelper.Cov demoE
  simp only [demoTh, decide_eq_true_eq]
  constructor
  · exact fun h => h.1
  · intro h
    refine ⟨h, ?_⟩
    rintro ⟨t, c, _, hx⟩
    simp only [List.mem_cons, List.not_mem_nil, or_false, Prod.mk.injEq] at h hx
    rcases h with rfl | rfl | rfl <;> revert hx <;> simp

theorem demo_ok : demoTh.Ok (fun a b => (a, b) ∈ [((10 : NodeID64), (1 : NodeID64)), (11, 2)])
    (fun a b => (a, b) ∈ [((10 : NodeID64), (2 : NodeID64)), (11, 3)]) demoE := by
  refine ⟨?_, ⟨_, _, listStore_is _ (by decide)⟩, ⟨_, _, listStore_is _ (by decide)⟩, ?_, ?_, ?_, ?_, ?_⟩
  · intro c hc
    simp only [demoTh, List.mem_singleton] at hc
    subst hc
    exact ⟨_, _, listStore_is _ (by decide), by simp [GStore.anyRange]⟩
  · intro n s t h1 h2
    simp only [List.mem_cons, List.not_mem_nil, or_false, Prod.mk.injEq] at h1 h2
    rcases h1 with ⟨rfl, rfl⟩ | ⟨rfl, rfl⟩ <;> rcases h2 with ⟨h, rfl⟩ | ⟨h, rfl⟩ <;> first | rfl | exact absurd h (by decide)
  · intro n s t h1 h2
    simp only [List.mem_cons, List.not_mem_nil, or_false, Prod.mk.injEq] at h1 h2
    rcases h1 with ⟨rfl, rfl⟩ | ⟨rfl, rfl⟩ <;> rcases h2 with ⟨h, rfl⟩ | ⟨h, rfl⟩ <;> first | rfl | exact absurd h (by decide)
  · intro n
    constructor
    · rintro ⟨t, h⟩
      simp only [List.mem_cons, List.not_mem_nil, or_false, Prod.mk.injEq] at h
      rcases h with ⟨rfl, rfl⟩ | ⟨rfl, rfl⟩
      · exact ⟨2, by simp⟩
      · exact ⟨3, by simp⟩
    · rintro ⟨t, h⟩
      simp only [List.mem_cons, List.not_mem_nil, or_false, Prod.mk.injEq] at h
      rcases h with ⟨rfl, rfl⟩ | ⟨rfl, rfl⟩
      · exact ⟨1, by simp⟩
      · exact ⟨2, by simp⟩
  · intro n t h
    rw [demo_tok, demo_tok]
    simp only [List.mem_cons, List.not_mem_nil, or_false, Prod.mk.injEq] at h
    rcases h with ⟨rfl, rfl⟩ | ⟨rfl, rfl⟩ <;> decide
  · intro n t h
    rw [demo_tok, demo_tok]
    simp only [List.mem_cons, List.not_mem_nil, or_false, Prod.mk.injEq] at h
    rcases h with ⟨rfl, rfl⟩ | ⟨rfl, rfl⟩ <;> decide

theorem demo_order_tok (a b : NodeID64) (h : (a, b) ∈ [((1 : NodeID64), (2 : NodeID64)), (2, 3)]) :
    demoTh.Tok demoE a ∧ demoTh.Tok demoE b := by
  rw [demo_tok, demo_tok]
  simp only [List.mem_cons, List.not_mem_nil, or_false, Prod.mk.injEq] at h
  rcases h with ⟨rfl, rfl⟩ | ⟨rfl, rfl⟩ <;> decide

theorem demo_order_chains : Linear.Chains fun a b => (a, b) ∈ [((1 : NodeID64), (2 : NodeID64)), (2, 3)] := by
  refine ⟨?_, ?_, ?_⟩
  · intro n s t h1 h2
    simp only [List.mem_cons, List.not_mem_nil, or_false, Prod.mk.injEq] at h1 h2
    rcases h1 with ⟨rfl, rfl⟩ | ⟨rfl, rfl⟩ <;> rcases h2 with ⟨h, rfl⟩ | ⟨h, rfl⟩ <;> first | rfl | exact absurd h (by decide)
  · intro n s t h1 h2
    simp only [List.mem_cons, List.not_mem_nil, or_false, Prod.mk.injEq] at h1 h2
    rcases h1 with ⟨rfl, rfl⟩ | ⟨rfl, rfl⟩ <;> rcases h2 with ⟨rfl, h⟩ | ⟨rfl, h⟩ <;> first | rfl | exact absurd h (by decide)
  · have hlt : ∀ a b, Relation.TransGen (fun a b => (a, b) ∈ [((1 : NodeID64), (2 : NodeID64)), (2, 3)]) a b → a < b := by
      intro a b h
      induction h with
      | single h =>
        simp only [List.mem_cons, List.not_mem_nil, or_false, Prod.mk.injEq] at h
        rcases h with ⟨rfl, rfl⟩ | ⟨rfl, rfl⟩ <;> decide
      | tail _ h ih =>
        refine lt_trans ih ?_
        simp only [List.mem_cons, List.not_mem_nil, or_false, Prod.mk.injEq] at h
        rcases h with ⟨rfl, rfl⟩ | ⟨rfl, rfl⟩ <;> decide
    intro a ha
    exact lt_irrefl _ (hlt a a ha)

/-- The hypotheses of the C45 and C46 theorems hold for the demo index. -/
example : ∃ res, precRetrieve demoTh demoOrder false (.bound 1 1) 1 = some res ∧ res.Nodup ∧ 11 ∈ res ∧ 10 ∉ res := by
  obtain ⟨res, h1, h2, h3⟩ := C45_precedence (spec := .bound 1 1) demo_ok (listStore_is _ (by decide)) demo_order_tok
    (by simp [GStore.anyRange, RangeSpec.maxDist]) 1
  have e : precRetrieve demoTh demoOrder false (.bound 1 1) 1 = some [2, 11] := by decide +kernel
  refine ⟨res, h1, h2, ?_⟩
  unfold demoOrder at e
  rw [e, Option.some.injEq] at h1
  subst h1
  decide

example : ∃ res, inclRetrieve demoTh demoOrder 10 = some res ∧ res.Nodup ∧ res = [1, 10, 2] := by
  obtain ⟨res, h1, h2, h3⟩ := C46_inclusion_partial demo_ok (listStore_is _ (by decide)) demo_order_tok demo_order_chains
    (by intro a b d _; simp [GStore.anyRange]) 10
  have e : inclRetrieve demoTh demoOrder 10 = some [1, 10, 2] := by decide +kernel
  refine ⟨res, h1, h2, ?_⟩
  unfold demoOrder at e
  rw [e, Option.some.injEq] at h1
  exact h1.symm

example : overlapRetrieve demoTh false 10 = some [11, 2, 10, 1] ∧ overlapFilter demoTh demoOrder false false 10 11 = some true ∧
    identRetrieve demoTh 10 = some [10] ∧ leftRetrieve demoTh 2 = some [2, 11] ∧ rightRetrieve demoTh 10 = some [2, 10] ∧
    nearRetrieve demoTh demoOrder false (.bound 1 2) 2 = some [3, 1] := by
  decide +kernel

/-- Concrete case for a segmentation: the span 10 comes before the span 11 in it. Both are no tokens, so the condition holds, and 11 is
found from 10, 10 backwards from 11, and both by nearness. -/
theorem C45_spans_nonvacuous : precRetrieve demoTh (listStore [(10, 11)]) true (.bound 1 1) 10 = some [11] ∧
    (∃ res, precRetrieve demoTh (listStore [(10, 11)]) true (.bound 1 1) 10 = some res ∧ res.Nodup ∧
      ∀ r, precFilter demoTh (listStore [(10, 11)]) true (.bound 1 1) 10 r = some (decide (r ∈ res)) ∧
        (r ∈ res ↔ Ordered (fun a b => (a, b) ∈ [((10 : NodeID64), (11 : NodeID64))]) (.bound 1 1) 10 r)) ∧
    invPrecRetrieve demoTh (listStore [(10, 11)]) true (.bound 1 1) 11 = some [10] ∧
    nearRetrieve demoTh (listStore [(10, 11)]) true (.bound 1 1) 11 = some [10] := by
  refine ⟨by decide +kernel, ?_, by decide +kernel, by decide +kernel⟩
  refine C45_spans_partial demo_ok (listStore_is _ (by decide)) (by simp [GStore.anyRange, RangeSpec.maxDist]) (le_refl 1) ?_ 10
  intro a b x h
  simp only [List.mem_singleton, Prod.mk.injEq] at h
  obtain ⟨rfl, rfl⟩ := h
  simp only [List.mem_cons, List.not_mem_nil, or_false, Prod.mk.injEq, not_or, not_and]
  exact ⟨fun _ => by decide, fun _ => by decide⟩

/-! ## Where the code disagrees -/

/-- C45 fails for a segmentation whose nodes are tokens: the span 11, which starts at token 2, is retrieved for token 1, but the filter
rejects it. -/
theorem C45_segmentation_fails : precRetrieve demoTh demoOrder true (.bound 1 1) 1 = some [2, 11] ∧
    precFilter demoTh demoOrder true (.bound 1 1) 1 11 = some false := by decide +kernel

/-- A token index for the linear ordering of `Linear.demoCopy` (1 → 2 → 3 → 4 and 7 → 8) with the single token 9 of a third text, which is
covered by the span 10. -/
def linTh : TokenHelper NodeID64 :=
  { hasTok := fun n => decide (n ∈ [1, 2, 3, 4, 7, 8, 9])
    left := listStore [(10, 9)]
    right := listStore [(10, 9)]
    cov := [listStore [(10, 9)]] }

/-- C45 fails for empty ranges of a linear ordering: `.1,0` is accepted by the parser, nothing is at a distance of at least 1 and at most
0, and the filter rejects all pairs, but the inverse operator retrieves nodes. -/
theorem C45_empty_range_fails : invPrecRetrieve linTh (Linear.demoCopy.asGStore 255) false (.bound 1 0) 3 = some [3, 4] ∧
    invPrecFilter linTh (Linear.demoCopy.asGStore 255) false (.bound 1 0) 3 4 = some false := by decide +kernel

/-- C46 fails for a text with a single token: the token is not part of the linear ordering, so that the span does not include its token,
in the filter and in the retrieval. The same graph with an adjacency list answers differently. -/
theorem C46_single_token_fails : inclFilter linTh (Linear.demoCopy.asGStore 255) 10 9 = some false ∧
    inclRetrieve linTh (Linear.demoCopy.asGStore 255) 10 = some [] ∧
    inclFilter linTh (Adj.run Linear.demo).asGStore 10 9 = some true ∧
    inclRetrieve linTh (Adj.run Linear.demo).asGStore 10 = some [9, 10] := by decide +kernel

/-- Tokens 1, 2, 3 and a span 12 with a gap that covers 1 and 3. -/
def gapTh : TokenHelper NodeID64 :=
  { hasTok := fun n => decide (n ∈ [1, 2, 3])
    left := listStore [(12, 1)]
    right := listStore [(12, 3)]
    cov := [listStore [(12, 1), (12, 3)]] }

/-- C46 fails for overlap with a span with a gap: the filter accepts the token in the gap, which is not covered and not retrieved. -/
theorem C46_overlap_gap_fails : overlapFilter gapTh demoOrder false false 12 2 = some true ∧
    (overlapRetrieve gapTh false 12).map (fun l => decide (2 ∈ l)) = some false := by decide +kernel

/-- C46 fails for the reflexive overlap of a node without tokens, if the two matches of the node have different annotation keys: the
filter compares the whole match, the retrieval only returns the node. -/
theorem C46_overlap_reflexive_fails : overlapFilter demoTh demoOrder true false 20 20 = some false ∧
    overlapRetrieve demoTh true 20 = some [20] := by decide +kernel

end TextOp
