import Verif.Op.Text

/-!
# Retrieval through the index equals filtering for the operators on the text (C45, C46), and their inverses (C47)

The specification works on relations: `tok` are the tokens, `L` and `R` the edges to the left-most and right-most token of a node, `C`
the coverage edges and `O` the order of the tokens.
-/

set_option linter.unusedSimpArgs false
set_option linter.unusedSectionVars false

namespace TextSpec

variable {N : Type}

/-- The border token of a node: a token is its own border token, other nodes have an edge to it. -/
def Border (tok : N → Prop) (L : N → N → Prop) (n t : N) : Prop := (tok n ∧ t = n) ∨ (¬ tok n ∧ L n t)

/-- There is a path along the order whose length is in the range. -/
def Ordered (O : N → N → Prop) (spec : RangeSpec) (a b : N) : Prop :=
  ∃ d, Walk.SimplePath O a b d ∧ Within spec.minDist spec.maxDist d

/-- The last token of `l` precedes the first token of `r` within the range. -/
def Precedes (tok : N → Prop) (L R O : N → N → Prop) (spec : RangeSpec) (l r : N) : Prop :=
  ∃ s e, Border tok R l s ∧ Border tok L r e ∧ Ordered O spec s e

/-- `b` is between `a` and `c` in the order. -/
def Between (O : N → N → Prop) (a b c : N) : Prop := Relation.ReflTransGen O a b ∧ Relation.ReflTransGen O b c

/-- The border tokens of `r` are between the border tokens of `l`. -/
def Includes (tok : N → Prop) (L R O : N → N → Prop) (l r : N) : Prop :=
  ∃ sl el sr er, Border tok L l sl ∧ Border tok R l el ∧ Border tok L r sr ∧ Border tok R r er ∧
    Between O sl sr el ∧ Between O sl er el

/-- The nodes start and end at the same tokens. -/
def SameBorders (tok : N → Prop) (L R : N → N → Prop) (l r : N) : Prop :=
  (∃ t, Border tok L l t ∧ Border tok L r t) ∧ ∃ t, Border tok R l t ∧ Border tok R r t

/-- `t` is covered by `n`. -/
def Covers (tok : N → Prop) (C : N → N → Prop) (n t : N) : Prop := (tok n ∧ t = n) ∨ (¬ tok n ∧ C n t)

end TextSpec

open TextSpec

variable {N : Type}

theorem flatMapOpt_spec {α β : Type} {f : α → Option (List β)} {P : α → β → Prop} : ∀ {l : List α},
    (∀ x ∈ l, ∃ r, f x = some r ∧ ∀ b, b ∈ r ↔ P x b) →
    ∃ r, flatMapOpt f l = some r ∧ ∀ b, b ∈ r ↔ ∃ x ∈ l, P x b := by
  intro l
  induction l with
  | nil => intro _; exact ⟨[], rfl, by simp⟩
  | cons x l ih =>
    intro h
    obtain ⟨a, h1, h2⟩ := h x (by simp)
    obtain ⟨c, h3, h4⟩ := ih fun y hy => h y (List.mem_cons_of_mem _ hy)
    exact ⟨a ++ c, by simp [flatMapOpt, h1, h3], fun b => by simp [h2, h4]⟩

theorem flatMapOpt_nodup {α β : Type} {f : α → Option (List β)} : ∀ {l : List α} {res : List β}, flatMapOpt f l = some res →
    l.Nodup → (∀ x ∈ l, ∀ r, f x = some r → r.Nodup) →
    (∀ x ∈ l, ∀ y ∈ l, ∀ r s, f x = some r → f y = some s → ∀ b, b ∈ r → b ∈ s → x = y) → res.Nodup := by
  intro l
  induction l with
  | nil => intro res h _ _ _; simp only [flatMapOpt, Option.some.injEq] at h; subst h; exact List.nodup_nil
  | cons x l ih =>
    intro res h hl hf hd
    unfold flatMapOpt at h
    cases h1 : f x with
    | none => rw [h1] at h; simp at h
    | some a =>
      cases h2 : flatMapOpt f l with
      | none => rw [h1, h2] at h; simp at h
      | some c =>
        rw [h1, h2] at h
        simp only [Option.some.injEq] at h
        subst h
        rw [List.nodup_cons] at hl
        rw [List.nodup_append]
        refine ⟨hf x (by simp) a h1, ih h2 hl.2 (fun y hy => hf y (by simp [hy])) (fun y hy z hz => hd y (by simp [hy]) z (by simp [hz])), ?_⟩
        rintro b hb b' hc rfl
        have : ∀ l' : List α, ∀ c', flatMapOpt f l' = some c' → b ∈ c' → ∃ y ∈ l', ∃ s, f y = some s ∧ b ∈ s := by
          intro l'
          induction l' with
          | nil => intro c' h hb; simp only [flatMapOpt, Option.some.injEq] at h; subst h; simp at hb
          | cons y l' ih' =>
            intro c' h hb
            unfold flatMapOpt at h
            cases e1 : f y with
            | none => rw [e1] at h; simp at h
            | some s =>
              cases e2 : flatMapOpt f l' with
              | none => rw [e1, e2] at h; simp at h
              | some t =>
                rw [e1, e2] at h
                simp only [Option.some.injEq] at h
                subst h
                rcases List.mem_append.1 hb with hb | hb
                · exact ⟨y, by simp, s, e1, hb⟩
                · obtain ⟨z, hz, hs⟩ := ih' t e2 hb
                  exact ⟨z, by simp [hz], hs⟩
        obtain ⟨y, hy, s, hs, hbs⟩ := this l c h2 hc
        have := hd x (by simp) y (by simp [hy]) a s h1 hs b hb hbs
        subst this
        exact hl.1 hy

/-! ## A well-formed token index -/

/-- Edges of the coverage components. `E` gives the edges of each storage. -/
def TokenHelper.Cov (th : TokenHelper N) (E : GStore N → N → N → Prop) (a b : N) : Prop := ∃ c ∈ th.cov, E c a b

/-- A token has the token annotation and no outgoing coverage edge. -/
def TokenHelper.Tok (th : TokenHelper N) (E : GStore N → N → N → Prop) (n : N) : Prop :=
  th.hasTok n = true ∧ ¬ ∃ t, th.Cov E n t

/-- The index of the token helper (as created by `calculate_token_alignment`): all storages answer correctly, a node has at most one
left-most and one right-most token, it has both or none, these edges start at nodes that are no tokens and end at tokens. -/
structure TokenHelper.Ok (th : TokenHelper N) (L R : N → N → Prop) (E : GStore N → N → N → Prop) : Prop where
  cov : ∀ c ∈ th.cov, ∃ D Rg, c.Is (E c) D Rg ∧ Rg 1 (.included 1)
  left : ∃ D Rg, th.left.Is L D Rg
  right : ∃ D Rg, th.right.Is R D Rg
  leftFun : ∀ n s t, L n s → L n t → s = t
  rightFun : ∀ n s t, R n s → R n t → s = t
  both : ∀ n, (∃ t, L n t) ↔ ∃ t, R n t
  leftTok : ∀ n t, L n t → ¬ th.Tok E n ∧ th.Tok E t
  rightTok : ∀ n t, R n t → ¬ th.Tok E n ∧ th.Tok E t

namespace TokenHelper

variable {th : TokenHelper N} {L R : N → N → Prop} {E : GStore N → N → N → Prop}

theorem hasCov_spec (n : N) : ∀ {l : List (GStore N)}, (∀ c ∈ l, ∃ D Rg, c.Is (E c) D Rg) →
    ∃ b, hasCov n l = some b ∧ (b = true ↔ ∃ t, ∃ c ∈ l, E c n t) := by
  intro l
  induction l with
  | nil => intro _; exact ⟨false, rfl, by simp⟩
  | cons c l ih =>
    intro h
    obtain ⟨D, Rg, hc⟩ := h c (by simp)
    obtain ⟨r, h1, h2⟩ := hc.hasOut n
    obtain ⟨b, h3, h4⟩ := ih fun x hx => h x (List.mem_cons_of_mem _ hx)
    cases r with
    | true => exact ⟨true, by simp [hasCov, h1], by
        obtain ⟨t, ht⟩ := h2.1 rfl
        simp only [true_iff]; exact ⟨t, c, by simp, ht⟩⟩
    | false =>
      refine ⟨b, by simp [hasCov, h1, h3], ?_⟩
      rw [h4]
      have : ∀ t, ¬ E c n t := fun t ht => by simpa using h2.2 ⟨t, ht⟩
      constructor
      · rintro ⟨t, x, hx, e⟩; exact ⟨t, x, by simp [hx], e⟩
      · rintro ⟨t, x, hx, e⟩
        rcases List.mem_cons.1 hx with rfl | hx
        · exact absurd e (this t)
        · exact ⟨t, x, hx, e⟩

theorem isToken_spec (h : th.Ok L R E) (n : N) : ∃ b, th.isToken n = some b ∧ (b = true ↔ th.Tok E n) := by
  obtain ⟨b, h1, h2⟩ := hasCov_spec (E := E) n (l := th.cov) fun c hc => by
    obtain ⟨D, Rg, hx, _⟩ := h.cov c hc; exact ⟨D, Rg, hx⟩
  unfold isToken Tok Cov
  by_cases ht : th.hasTok n = true
  · refine ⟨!b, by simp [ht, h1], ?_⟩
    rw [← h2]; simp [ht]
  · exact ⟨false, by simp [ht], by simp [ht]⟩

theorem border_of_out {isT : Option Bool} {out : Option (List N)} {tok : N → Prop} {B : N → N → Prop} {n : N}
    (h1 : ∃ b, isT = some b ∧ (b = true ↔ tok n)) (h2 : ∃ l, out = some l ∧ l.Nodup ∧ ∀ b, b ∈ l ↔ B n b)
    (hf : ∀ n s t, B n s → B n t → s = t) :
    ∃ r, (match isT with
      | none => none
      | some true => some (some n)
      | some false => out.map fun l => l.head?) = some r ∧ ∀ t, r = some t ↔ Border tok B n t := by
  obtain ⟨b, rfl, hb⟩ := h1
  obtain ⟨l, rfl, _, hl⟩ := h2
  cases b with
  | true =>
    refine ⟨some n, rfl, fun t => ?_⟩
    have : tok n := hb.1 rfl
    simp [Border, this, eq_comm]
  | false =>
    have ht : ¬ tok n := fun x => by simpa using hb.2 x
    refine ⟨l.head?, rfl, fun t => ?_⟩
    unfold Border
    simp only [ht, false_and, not_false_eq_true, true_and, false_or]
    rw [← hl]
    cases l with
    | nil => simp
    | cons x r =>
      simp only [List.head?_cons, Option.some.injEq]
      constructor
      · rintro rfl; simp
      · intro hx; exact hf n x t ((hl x).1 (by simp)) ((hl t).1 hx)

theorem rightTokenFor_spec (h : th.Ok L R E) (n : N) :
    ∃ r, th.rightTokenFor n = some r ∧ ∀ t, r = some t ↔ Border (th.Tok E) R n t := by
  obtain ⟨D, Rg, hr⟩ := h.right
  exact border_of_out (isToken_spec h n) (hr.out n) h.rightFun

theorem leftTokenFor_spec (h : th.Ok L R E) (n : N) :
    ∃ r, th.leftTokenFor n = some r ∧ ∀ t, r = some t ↔ Border (th.Tok E) L n t := by
  obtain ⟨D, Rg, hr⟩ := h.left
  exact border_of_out (isToken_spec h n) (hr.out n) h.leftFun

theorem leftRightTokenFor_spec (h : th.Ok L R E) (n : N) :
    ∃ a b, th.leftRightTokenFor n = some (a, b) ∧ th.leftTokenFor n = some a ∧ th.rightTokenFor n = some b := by
  obtain ⟨b, h1, h2⟩ := isToken_spec h n
  obtain ⟨D, Rg, hr⟩ := h.left
  obtain ⟨l, h3, _⟩ := hr.out n
  obtain ⟨D', Rg', hr'⟩ := h.right
  obtain ⟨l', h4, _⟩ := hr'.out n
  unfold leftRightTokenFor leftTokenFor rightTokenFor
  rw [h1, h3, h4]
  cases b <;> simp

/-- Border tokens are tokens. -/
theorem Ok.border_left (h : th.Ok L R E) {n t : N} (hb : Border (th.Tok E) L n t) : th.Tok E t := by
  rcases hb with ⟨h1, rfl⟩ | ⟨_, h2⟩
  · exact h1
  · exact (h.leftTok n t h2).2

theorem Ok.border_right (h : th.Ok L R E) {n t : N} (hb : Border (th.Tok E) R n t) : th.Tok E t := by
  rcases hb with ⟨h1, rfl⟩ | ⟨_, h2⟩
  · exact h1
  · exact (h.rightTok n t h2).2

theorem border_fun {tok : N → Prop} {B : N → N → Prop} (hf : ∀ n s t, B n s → B n t → s = t) {n s t : N}
    (h1 : Border tok B n s) (h2 : Border tok B n t) : s = t := by
  rcases h1 with ⟨a, rfl⟩ | ⟨a, b⟩ <;> rcases h2 with ⟨c, rfl⟩ | ⟨c, d⟩
  · rfl
  · exact absurd a c
  · exact absurd c a
  · exact hf _ _ _ b d

theorem Ok.border_both (h : th.Ok L R E) (n : N) : (∃ t, Border (th.Tok E) L n t) ↔ ∃ t, Border (th.Tok E) R n t := by
  unfold Border
  by_cases ht : th.Tok E n
  · simp [ht]
  · simpa [ht] using h.both n

/-- The token itself and the aligned nodes are the nodes with that border token. -/
theorem Ok.aligned_left (h : th.Ok L R E) {t : N} (ht : th.Tok E t) :
    ∃ l, th.left.inn t = some l ∧ (t :: l).Nodup ∧ ∀ n, n ∈ t :: l ↔ Border (th.Tok E) L n t := by
  obtain ⟨D, Rg, hl⟩ := h.left
  obtain ⟨l, h1, h2, h3⟩ := hl.inn t
  refine ⟨l, h1, ?_, fun n => ?_⟩
  · rw [List.nodup_cons]
    refine ⟨fun hm => ?_, h2⟩
    exact (h.leftTok t t ((h3 t).1 hm)).1 ht
  · rw [List.mem_cons, h3]
    unfold Border
    constructor
    · rintro (rfl | hn)
      · exact Or.inl ⟨ht, rfl⟩
      · exact Or.inr ⟨(h.leftTok n t hn).1, hn⟩
    · rintro (⟨_, rfl⟩ | ⟨_, hn⟩)
      · exact Or.inl rfl
      · exact Or.inr hn

theorem Ok.aligned_right (h : th.Ok L R E) {t : N} (ht : th.Tok E t) :
    ∃ l, th.right.inn t = some l ∧ (t :: l).Nodup ∧ ∀ n, n ∈ t :: l ↔ Border (th.Tok E) R n t := by
  obtain ⟨D, Rg, hl⟩ := h.right
  obtain ⟨l, h1, h2, h3⟩ := hl.inn t
  refine ⟨l, h1, ?_, fun n => ?_⟩
  · rw [List.nodup_cons]
    refine ⟨fun hm => ?_, h2⟩
    exact (h.rightTok t t ((h3 t).1 hm)).1 ht
  · rw [List.mem_cons, h3]
    unfold Border
    constructor
    · rintro (rfl | hn)
      · exact Or.inl ⟨ht, rfl⟩
      · exact Or.inr ⟨(h.rightTok n t hn).1, hn⟩
    · rintro (⟨_, rfl⟩ | ⟨_, hn⟩)
      · exact Or.inl rfl
      · exact Or.inr hn

end TokenHelper

namespace TextOp

open TokenHelper

/-! ## Precedence and near (C45) -/

section Order

variable {th : TokenHelper N} {L R : N → N → Prop} {E : GStore N → N → N → Prop} {order : GStore N} {O : N → N → Prop}
  {D : N → Prop} {Rg : Nat → Bnd Nat → Prop} {spec : RangeSpec}

/-- A path of the order between tokens stays on tokens. -/
theorem ord_tok (hO : ∀ a b, O a b → th.Tok E a ∧ th.Tok E b) {a b : N} {d : Nat} (hp : Walk.SimplePath O a b d) :
    th.Tok E a ↔ th.Tok E b := by
  cases d with
  | zero => rw [Walk.walkLen_zero.1 hp.walk]
  | succ d =>
    obtain ⟨c, hc, _⟩ := Walk.walkLen_succ.1 hp.walk
    obtain ⟨c', _, hc'⟩ := Walk.walkLen_snoc.1 hp.walk
    exact ⟨fun _ => (hO _ _ hc').2, fun _ => (hO _ _ hc).1⟩

theorem precFilter_spec (h : th.Ok L R E) (ho : order.Is O D Rg) (hr : Rg spec.minDist spec.maxDist) (l r : N) :
    ∃ b, precFilter th order false spec l r = some b ∧
      (b = true ↔ ∃ s e, Border (th.Tok E) R l s ∧ Border (th.Tok E) L r e ∧ D s ∧ Ordered O spec s e) := by
  obtain ⟨a, h1, h2⟩ := rightTokenFor_spec h l
  obtain ⟨c, h3, h4⟩ := leftTokenFor_spec h r
  unfold precFilter
  rw [h1, h3]
  simp only [Bool.false_eq_true, if_false]
  cases a with
  | none =>
    refine ⟨false, by cases c <;> rfl, iff_of_false (by simp) ?_⟩
    rintro ⟨s, e, hs, _⟩
    simpa using (h2 s).2 hs
  | some s =>
    cases c with
    | none =>
      refine ⟨false, rfl, iff_of_false (by simp) ?_⟩
      rintro ⟨s, e, _, he, _⟩
      simpa using (h4 e).2 he
    | some e =>
      obtain ⟨b, hb1, hb2⟩ := ho.conn s e spec.minDist spec.maxDist hr
      refine ⟨b, hb1, ?_⟩
      rw [hb2]
      constructor
      · rintro ⟨hd, hp⟩; exact ⟨s, e, (h2 s).1 rfl, (h4 e).1 rfl, hd, hp⟩
      · rintro ⟨s', e', hs, he, hd, hp⟩
        have e1 := (h2 s').2 hs
        have e2 := (h4 e').2 he
        simp only [Option.some.injEq] at e1 e2
        subst e1 e2
        exact ⟨hd, hp⟩

theorem invPrecFilter_eq (l r : N) (seg : Bool) : invPrecFilter th order seg spec l r = precFilter th order seg spec r l := by
  unfold invPrecFilter precFilter
  cases seg with
  | true => simp
  | false =>
    simp only [Bool.false_eq_true, if_false]
    cases th.leftTokenFor l with
    | none => cases th.rightTokenFor r with
      | none => rfl
      | some x => cases x <;> rfl
    | some a => cases th.rightTokenFor r with
      | none => cases a <;> rfl
      | some x => cases x <;> cases a <;> rfl

theorem precRetrieve_spec (h : th.Ok L R E) (ho : order.Is O D Rg) (hO : ∀ a b, O a b → th.Tok E a ∧ th.Tok E b)
    (hr : Rg spec.minDist spec.maxDist) (l : N) :
    ∃ res, precRetrieve th order false spec l = some res ∧ res.Nodup ∧
      ∀ r, r ∈ res ↔ ∃ s e, Border (th.Tok E) R l s ∧ Border (th.Tok E) L r e ∧ D s ∧ Ordered O spec s e := by
  obtain ⟨a, h1, h2⟩ := rightTokenFor_spec h l
  unfold precRetrieve
  simp only [Bool.false_eq_true, if_false]
  rw [h1]
  cases a with
  | none =>
    refine ⟨[], rfl, List.nodup_nil, fun r => iff_of_false (by simp) ?_⟩
    rintro ⟨s, e, hs, _⟩
    simpa using (h2 s).2 hs
  | some s =>
    have hs := (h2 s).1 rfl
    have hst := h.border_right hs
    obtain ⟨ts, h3, h4, h5⟩ := ho.find s spec.minDist spec.maxDist hr
    simp only [h3]
    have htok : ∀ t ∈ ts, th.Tok E t := by
      intro t ht
      obtain ⟨_, d, hp, _⟩ := (h5 t).1 ht
      exact (ord_tok hO hp).1 hst
    obtain ⟨res, h6, h7⟩ := flatMapOpt_spec (f := fun t => (th.left.inn t).map fun l => t :: l)
      (P := fun t r => Border (th.Tok E) L r t) (l := ts) (by
        intro t ht
        obtain ⟨l', e1, _, e3⟩ := h.aligned_left (htok t ht)
        exact ⟨t :: l', by simp [e1], e3⟩)
    refine ⟨res, h6, ?_, fun r => ?_⟩
    · refine flatMapOpt_nodup h6 h4 ?_ ?_
      · intro t ht x hx
        obtain ⟨l', e1, e2, _⟩ := h.aligned_left (htok t ht)
        simp only [e1, Option.map_some, Option.some.injEq] at hx
        rw [← hx]; exact e2
      · intro t ht t' ht' x y hx hy b hbx hby
        obtain ⟨l1, e1, _, e3⟩ := h.aligned_left (htok t ht)
        obtain ⟨l2, f1, _, f3⟩ := h.aligned_left (htok t' ht')
        simp only [e1, f1, Option.map_some, Option.some.injEq] at hx hy
        subst hx hy
        exact border_fun h.leftFun ((e3 b).1 hbx) ((f3 b).1 hby)
    · rw [h7]
      constructor
      · rintro ⟨t, ht, hb⟩
        obtain ⟨hd, hp⟩ := (h5 t).1 ht
        exact ⟨s, t, hs, hb, hd, hp⟩
      · rintro ⟨s', e, hs', hb, hd, hp⟩
        have := border_fun h.rightFun hs hs'
        subst this
        exact ⟨e, (h5 e).2 ⟨hd, hp⟩, hb⟩

theorem invPrecRetrieve_spec (h : th.Ok L R E) (ho : order.Is O D Rg) (hO : ∀ a b, O a b → th.Tok E a ∧ th.Tok E b)
    (hr : Rg spec.minDist spec.maxDist) (l : N) :
    ∃ res, invPrecRetrieve th order false spec l = some res ∧ res.Nodup ∧
      ∀ r, r ∈ res ↔ ∃ s e, Border (th.Tok E) R r s ∧ Border (th.Tok E) L l e ∧ D s ∧ Ordered O spec s e := by
  obtain ⟨a, h1, h2⟩ := leftTokenFor_spec h l
  unfold invPrecRetrieve
  simp only [Bool.false_eq_true, if_false]
  rw [h1]
  cases a with
  | none =>
    refine ⟨[], rfl, List.nodup_nil, fun r => iff_of_false (by simp) ?_⟩
    rintro ⟨s, e, _, hs, _⟩
    simpa using (h2 e).2 hs
  | some s =>
    have hs := (h2 s).1 rfl
    have hst := h.border_left hs
    obtain ⟨ts, h3, h4, h5⟩ := ho.findInv s spec.minDist spec.maxDist hr
    simp only [h3]
    have htok : ∀ t ∈ ts, th.Tok E t := by
      intro t ht
      obtain ⟨_, d, hp, _⟩ := (h5 t).1 ht
      exact (ord_tok hO hp).2 hst
    obtain ⟨res, h6, h7⟩ := flatMapOpt_spec (f := fun t => (th.right.inn t).map fun l => t :: l)
      (P := fun t r => Border (th.Tok E) R r t) (l := ts) (by
        intro t ht
        obtain ⟨l', e1, _, e3⟩ := h.aligned_right (htok t ht)
        exact ⟨t :: l', by simp [e1], e3⟩)
    refine ⟨res, h6, ?_, fun r => ?_⟩
    · refine flatMapOpt_nodup h6 h4 ?_ ?_
      · intro t ht x hx
        obtain ⟨l', e1, e2, _⟩ := h.aligned_right (htok t ht)
        simp only [e1, Option.map_some, Option.some.injEq] at hx
        rw [← hx]; exact e2
      · intro t ht t' ht' x y hx hy b hbx hby
        obtain ⟨l1, e1, _, e3⟩ := h.aligned_right (htok t ht)
        obtain ⟨l2, f1, _, f3⟩ := h.aligned_right (htok t' ht')
        simp only [e1, f1, Option.map_some, Option.some.injEq] at hx hy
        subst hx hy
        exact border_fun h.rightFun ((e3 b).1 hbx) ((f3 b).1 hby)
    · rw [h7]
      constructor
      · rintro ⟨t, ht, hb⟩
        obtain ⟨hd, d, hp, hw⟩ := (h5 t).1 ht
        exact ⟨t, s, hb, hs, (ho.dom_path hp).2 hd, d, hp, hw⟩
      · rintro ⟨e, s', hb, hs', hd, d, hp, hw⟩
        have := border_fun h.leftFun hs hs'
        subst this
        exact ⟨e, (h5 e).2 ⟨(ho.dom_path hp).1 hd, d, hp, hw⟩, hb⟩

/-- What the forward operators decide is `Precedes`, if the range excludes distance 0 or the storage knows all tokens. -/
theorem precedes_iff (ho : order.Is O D Rg) (hd : 1 ≤ spec.minDist ∨ ∀ n, th.Tok E n → D n) (h : th.Ok L R E) (l r : N) :
    (∃ s e, Border (th.Tok E) R l s ∧ Border (th.Tok E) L r e ∧ D s ∧ Ordered O spec s e) ↔
      Precedes (th.Tok E) L R O spec l r := by
  constructor
  · rintro ⟨s, e, h1, h2, _, h3⟩; exact ⟨s, e, h1, h2, h3⟩
  · rintro ⟨s, e, h1, h2, d, hp, hw⟩
    refine ⟨s, e, h1, h2, ?_, d, hp, hw⟩
    rcases hd with hd | hd
    · cases d with
      | zero => have := hw.1; omega
      | succ d =>
        obtain ⟨c, hc, _⟩ := Walk.walkLen_succ.1 hp.walk
        exact (ho.dom _ _ hc).1
    · exact hd s (h.border_right h1)

/-- C45 without segmentation: for every well-formed token index and every range handled by the ordering storage, retrieval and filter of the
precedence operator agree with each other, every match is retrieved once, and both decide whether the last token of the left node
precedes the first token of the right node within the range. -/
theorem C45_precedence [DecidableEq N] (h : th.Ok L R E) (ho : order.Is O D Rg) (hO : ∀ a b, O a b → th.Tok E a ∧ th.Tok E b)
    (hr : Rg spec.minDist spec.maxDist) (l : N) :
    ∃ res, precRetrieve th order false spec l = some res ∧ res.Nodup ∧
      ∀ r, precFilter th order false spec l r = some (decide (r ∈ res)) ∧
        ((1 ≤ spec.minDist ∨ ∀ n, th.Tok E n → D n) → (r ∈ res ↔ Precedes (th.Tok E) L R O spec l r)) := by
  obtain ⟨res, h1, h2, h3⟩ := precRetrieve_spec h ho hO hr l
  refine ⟨res, h1, h2, fun r => ⟨?_, fun hd => by rw [h3, precedes_iff ho hd h]⟩⟩
  obtain ⟨b, h4, h5⟩ := precFilter_spec h ho hr l r
  rw [h4, Option.some.injEq, eq_comm]
  rw [← h3] at h5
  by_cases hm : r ∈ res
  · simp [hm, h5.2 hm]
  · cases b with
    | true => exact absurd (h5.1 rfl) hm
    | false => simp [hm]

/-- C45 for the inverse operator. -/
theorem C45_inverse_precedence [DecidableEq N] (h : th.Ok L R E) (ho : order.Is O D Rg) (hO : ∀ a b, O a b → th.Tok E a ∧ th.Tok E b)
    (hr : Rg spec.minDist spec.maxDist) (l : N) :
    ∃ res, invPrecRetrieve th order false spec l = some res ∧ res.Nodup ∧
      ∀ r, invPrecFilter th order false spec l r = some (decide (r ∈ res)) ∧
        ((1 ≤ spec.minDist ∨ ∀ n, th.Tok E n → D n) → (r ∈ res ↔ Precedes (th.Tok E) L R O spec r l)) := by
  obtain ⟨res, h1, h2, h3⟩ := invPrecRetrieve_spec h ho hO hr l
  refine ⟨res, h1, h2, fun r => ⟨?_, fun hd => by rw [h3, precedes_iff ho hd h]⟩⟩
  obtain ⟨b, h4, h5⟩ := precFilter_spec h ho hr r l
  rw [invPrecFilter_eq, h4, Option.some.injEq, eq_comm]
  rw [← h3] at h5
  by_cases hm : r ∈ res
  · simp [hm, h5.2 hm]
  · cases b with
    | true => exact absurd (h5.1 rfl) hm
    | false => simp [hm]

/-- The decision of the near operator. -/
theorem nearFilter_spec (h : th.Ok L R E) (ho : order.Is O D Rg) (hr : Rg spec.minDist spec.maxDist) (l r : N) :
    ∃ b, nearFilter th order false spec l r = some b ∧
      (b = true ↔ (∃ s e, Border (th.Tok E) R l s ∧ Border (th.Tok E) L r e ∧ D s ∧ Ordered O spec s e) ∨
        ∃ s e, Border (th.Tok E) R r s ∧ Border (th.Tok E) L l e ∧ D s ∧ Ordered O spec s e) := by
  obtain ⟨rl, h1, h2⟩ := rightTokenFor_spec h l
  obtain ⟨lr, h3, h4⟩ := leftTokenFor_spec h r
  obtain ⟨ll, h5, h6⟩ := leftTokenFor_spec h l
  obtain ⟨rr, h7, h8⟩ := rightTokenFor_spec h r
  have both : ∀ n (a b : Option N), (∀ t, a = some t ↔ Border (th.Tok E) L n t) → (∀ t, b = some t ↔ Border (th.Tok E) R n t) →
      (a = none ↔ b = none) := by
    intro n a b ha hb
    have := h.border_both n
    cases a with
    | none =>
      cases b with
      | none => simp
      | some y =>
        obtain ⟨t, ht⟩ := this.2 ⟨y, (hb y).1 rfl⟩
        simpa using (ha t).2 ht
    | some x =>
      cases b with
      | some y => simp
      | none =>
        obtain ⟨t, ht⟩ := this.1 ⟨x, (ha x).1 rfl⟩
        simpa using (hb t).2 ht
  have bl := both l ll rl h6 h2
  have br := both r lr rr h4 h8
  unfold nearFilter
  simp only [Bool.false_eq_true, if_false]
  rw [h1, h3, h5, h7]
  cases rl with
  | none =>
    have : ll = none := bl.2 rfl
    subst this
    refine ⟨false, by cases lr <;> rfl, iff_of_false (by simp) ?_⟩
    rintro (⟨s, e, hs, _⟩ | ⟨s, e, _, hs, _⟩)
    · simpa using (h2 s).2 hs
    · simpa using (h6 e).2 hs
  | some s =>
    cases lr with
    | none =>
      have : rr = none := br.1 rfl
      subst this
      refine ⟨false, rfl, iff_of_false (by simp) ?_⟩
      rintro (⟨s, e, _, hs, _⟩ | ⟨s, e, hs, _⟩)
      · simpa using (h4 e).2 hs
      · simpa using (h8 s).2 hs
    | some e =>
      cases ll with
      | none => exact absurd (bl.1 rfl) (by simp)
      | some s' =>
        cases rr with
        | none => exact absurd (br.2 rfl) (by simp)
        | some e' =>
          obtain ⟨b1, hb1, hc1⟩ := ho.conn s e spec.minDist spec.maxDist hr
          obtain ⟨b2, hb2, hc2⟩ := ho.conn e' s' spec.minDist spec.maxDist hr
          have k1 : (∃ s e, Border (th.Tok E) R l s ∧ Border (th.Tok E) L r e ∧ D s ∧ Ordered O spec s e) ↔ b1 = true := by
            rw [hc1]
            constructor
            · rintro ⟨a, c, ha, hc, hd⟩
              have e1 := (h2 a).2 ha
              have e2 := (h4 c).2 hc
              simp only [Option.some.injEq] at e1 e2
              subst e1 e2; exact hd
            · intro hd; exact ⟨s, e, (h2 s).1 rfl, (h4 e).1 rfl, hd⟩
          have k2 : (∃ s e, Border (th.Tok E) R r s ∧ Border (th.Tok E) L l e ∧ D s ∧ Ordered O spec s e) ↔ b2 = true := by
            rw [hc2]
            constructor
            · rintro ⟨a, c, ha, hc, hd⟩
              have e1 := (h8 a).2 ha
              have e2 := (h6 c).2 hc
              simp only [Option.some.injEq] at e1 e2
              subst e1 e2; exact hd
            · intro hd; exact ⟨e', s', (h8 e').1 rfl, (h6 s').1 rfl, hd⟩
          rw [k1, k2]
          simp only [hb1, hb2]
          cases b1 <;> cases b2 <;> simp

/-- C45 for the near operator. -/
theorem C45_near [DecidableEq N] (h : th.Ok L R E) (ho : order.Is O D Rg) (hO : ∀ a b, O a b → th.Tok E a ∧ th.Tok E b)
    (hr : Rg spec.minDist spec.maxDist) (l : N) :
    ∃ res, nearRetrieve th order false spec l = some res ∧ res.Nodup ∧
      ∀ r, nearFilter th order false spec l r = some (decide (r ∈ res)) ∧
        ((1 ≤ spec.minDist ∨ ∀ n, th.Tok E n → D n) →
          (r ∈ res ↔ Precedes (th.Tok E) L R O spec l r ∨ Precedes (th.Tok E) L R O spec r l)) := by
  obtain ⟨f, h1, _, h3⟩ := precRetrieve_spec h ho hO hr l
  obtain ⟨g, h4, _, h6⟩ := invPrecRetrieve_spec h ho hO hr l
  refine ⟨(f ++ g).dedup, by simp [nearRetrieve, h1, h4], List.nodup_dedup _, fun r => ⟨?_, fun hd => ?_⟩⟩
  · obtain ⟨b, h7, h8⟩ := nearFilter_spec h ho hr l r
    rw [h7, Option.some.injEq, eq_comm]
    rw [← h3, ← h6] at h8
    by_cases hm : r ∈ f ∨ r ∈ g
    · simp [hm, h8.2 hm]
    · cases b with
      | true => exact absurd (h8.1 rfl) hm
      | false => simpa using hm
  · rw [List.mem_dedup, List.mem_append, h3, h6, precedes_iff ho hd h, precedes_iff ho hd h]

/-- C45 with a segmentation, restricted: no node is aligned to a node of the segmentation (missing: segmentations that order tokens, see
`C45_segmentation_fails`). -/
theorem C45_segmentation_partial [DecidableEq N] (h : th.Ok L R E) (ho : order.Is O D Rg) (hr : Rg spec.minDist spec.maxDist)
    (hL : ∀ a x, (∃ b, O a b ∨ O b a) → ¬ L x a) (l : N) (hl : ∀ x, ¬ L x l) :
    ∃ res, precRetrieve th order true spec l = some res ∧ res.Nodup ∧
      ∀ r, precFilter th order true spec l r = some (decide (r ∈ res)) := by
  obtain ⟨ts, h3, h4, h5⟩ := ho.find l spec.minDist spec.maxDist hr
  obtain ⟨DL, RL, hleft⟩ := h.left
  have hone : ∀ t ∈ ts, (th.left.inn t).map (fun l => t :: l) = some [t] := by
    intro t ht
    obtain ⟨x, e1, _, e3⟩ := hleft.inn t
    have : x = [] := by
      cases x with
      | nil => rfl
      | cons y x =>
        exfalso
        have hy := (e3 y).1 (by simp)
        obtain ⟨_, d, hp, _⟩ := (h5 t).1 ht
        cases d with
        | zero => exact hl y (Walk.walkLen_zero.1 hp.walk ▸ hy)
        | succ d =>
          obtain ⟨c, _, hc⟩ := Walk.walkLen_snoc.1 hp.walk
          exact hL t y ⟨c, Or.inr hc⟩ hy
    simp [e1, this]
  have hflat : ∀ l' : List N, (∀ t ∈ l', (th.left.inn t).map (fun l => t :: l) = some [t]) →
      flatMapOpt (fun t => (th.left.inn t).map fun l => t :: l) l' = some l' := by
    intro l'
    induction l' with
    | nil => intro _; rfl
    | cons t l' ih =>
      intro hh
      simp [flatMapOpt, hh t (by simp), ih fun x hx => hh x (by simp [hx])]
  refine ⟨ts, by simp [precRetrieve, h3, hflat ts hone], h4, fun r => ?_⟩
  obtain ⟨b, hb1, hb2⟩ := ho.conn l r spec.minDist spec.maxDist hr
  rw [← h5] at hb2
  simp only [precFilter, if_true, hb1, Option.some.injEq]
  by_cases hm : r ∈ ts
  · simp [hm, hb2.2 hm]
  · cases b with
    | true => exact absurd (hb2.1 rfl) hm
    | false => simp [hm]

/-- Nodes that no edge leads to stand alone. -/
theorem aligned_alone {gs : GStore N} {P : N → N → Prop} {D' : N → Prop} {R' : Nat → Bnd Nat → Prop} (hg : gs.Is P D' R') :
    ∀ {ts : List N}, (∀ t ∈ ts, ∀ y, ¬ P y t) → flatMapOpt (fun t => (gs.inn t).map fun l => t :: l) ts = some ts
  | [], _ => rfl
  | t :: ts, hh => by
    obtain ⟨x, e1, _, e3⟩ := hg.inn t
    have : x = [] := List.eq_nil_iff_forall_not_mem.2 fun y hy => hh t (by simp) y ((e3 y).1 hy)
    subst this
    have ih := aligned_alone hg (ts := ts) fun t' ht' => hh t' (List.mem_cons_of_mem _ ht')
    simp [flatMapOpt, e1, ih]

/-- The storage decides whether there is a path in the range, for ranges without the distance 0. -/
theorem ordered_iff (ho : order.Is O D Rg) (hd : 1 ≤ spec.minDist) (a b : N) : (D a ∧ Ordered O spec a b) ↔ Ordered O spec a b := by
  refine ⟨And.right, fun ⟨d, hp, hw⟩ => ⟨?_, d, hp, hw⟩⟩
  cases d with
  | zero => have := hw.1; omega
  | succ d =>
    obtain ⟨c, hc, _⟩ := Walk.walkLen_succ.1 hp.walk
    exact (ho.dom _ _ hc).1

theorem ordered_ends (hd : 1 ≤ spec.minDist) {a b : N} (h : Ordered O spec a b) : (∃ c, O a c) ∧ ∃ c, O c b := by
  obtain ⟨d, hp, hw⟩ := h
  cases d with
  | zero => have := hw.1; omega
  | succ d =>
    obtain ⟨c, hc, _⟩ := Walk.walkLen_succ.1 hp.walk
    obtain ⟨c', _, hc'⟩ := Walk.walkLen_snoc.1 hp.walk
    exact ⟨⟨c, hc⟩, c', hc'⟩

theorem segFilter_spec (ho : order.Is O D Rg) (hr : Rg spec.minDist spec.maxDist) (hd : 1 ≤ spec.minDist) (l r : N) :
    ∃ b, precFilter th order true spec l r = some b ∧ (b = true ↔ Ordered O spec l r) := by
  obtain ⟨b, h1, h2⟩ := ho.conn l r spec.minDist spec.maxDist hr
  exact ⟨b, by simp [precFilter, h1], by rw [h2]; exact ordered_iff ho hd l r⟩

theorem segRetrieve_spec (h : th.Ok L R E) (ho : order.Is O D Rg) (hr : Rg spec.minDist spec.maxDist) (hd : 1 ≤ spec.minDist)
    (hL : ∀ a b x, O a b → ¬ L x b) (l : N) :
    ∃ res, precRetrieve th order true spec l = some res ∧ res.Nodup ∧ ∀ r, r ∈ res ↔ Ordered O spec l r := by
  obtain ⟨ts, h3, h4, h5⟩ := ho.find l spec.minDist spec.maxDist hr
  have h6 : ∀ r, r ∈ ts ↔ Ordered O spec l r := fun r => by rw [h5]; exact ordered_iff ho hd l r
  obtain ⟨DL, RL, hleft⟩ := h.left
  refine ⟨ts, ?_, h4, h6⟩
  simp only [precRetrieve, if_true, h3]
  refine aligned_alone hleft fun t ht y => ?_
  obtain ⟨_, c, hc⟩ := ordered_ends hd ((h6 t).1 ht)
  exact hL c t y hc

theorem segInvRetrieve_spec (h : th.Ok L R E) (ho : order.Is O D Rg) (hr : Rg spec.minDist spec.maxDist) (hd : 1 ≤ spec.minDist)
    (hR : ∀ a b x, O a b → ¬ R x a) (l : N) :
    ∃ res, invPrecRetrieve th order true spec l = some res ∧ res.Nodup ∧ ∀ r, r ∈ res ↔ Ordered O spec r l := by
  obtain ⟨ts, h3, h4, h5⟩ := ho.findInv l spec.minDist spec.maxDist hr
  have h6 : ∀ r, r ∈ ts ↔ Ordered O spec r l := fun r => by
    rw [h5, ← ordered_iff ho hd r l]
    constructor
    · rintro ⟨h1, d, hp, hw⟩; exact ⟨(ho.dom_path hp).2 h1, d, hp, hw⟩
    · rintro ⟨h1, d, hp, hw⟩; exact ⟨(ho.dom_path hp).1 h1, d, hp, hw⟩
  obtain ⟨DR, RR, hright⟩ := h.right
  refine ⟨ts, ?_, h4, h6⟩
  simp only [invPrecRetrieve, if_true, h3]
  refine aligned_alone hright fun t ht y => ?_
  obtain ⟨⟨c, hc⟩, _⟩ := ordered_ends hd ((h6 t).1 ht)
  exact hR t c y hc

theorem segNearFilter_spec (ho : order.Is O D Rg) (hr : Rg spec.minDist spec.maxDist) (hd : 1 ≤ spec.minDist) (l r : N) :
    ∃ b, nearFilter th order true spec l r = some b ∧ (b = true ↔ Ordered O spec l r ∨ Ordered O spec r l) := by
  obtain ⟨b, h1, h2⟩ := ho.conn l r spec.minDist spec.maxDist hr
  obtain ⟨b', h1', h2'⟩ := ho.conn r l spec.minDist spec.maxDist hr
  have h2 : b = true ↔ Ordered O spec l r := by rw [h2]; exact ordered_iff ho hd l r
  have h2' : b' = true ↔ Ordered O spec r l := by rw [h2']; exact ordered_iff ho hd r l
  cases b with
  | true => exact ⟨true, by simp [nearFilter, h1], by simp [h2.1 rfl]⟩
  | false => exact ⟨b', by simp [nearFilter, h1, h1'], by rw [h2', ← h2]; simp⟩

theorem some_decide_of {b : Bool} {P : Prop} {r : N} {res : List N} [DecidableEq N] (h : b = true ↔ P) (hm : r ∈ res ↔ P) :
    some b = some (decide (r ∈ res)) := by
  rw [Option.some.injEq, Bool.eq_iff_iff, h, decide_eq_true_iff, hm]

/-- C45 with a segmentation whose nodes are not first tokens of other nodes (so: spans, not tokens), for ranges without the distance 0:
retrieval and filter of the precedence operator agree, and decide whether there is a path in the segmentation (missing: segmentations that
order tokens, see `C45_segmentation_fails`). -/
theorem C45_spans_partial [DecidableEq N] (h : th.Ok L R E) (ho : order.Is O D Rg) (hr : Rg spec.minDist spec.maxDist) (hd : 1 ≤ spec.minDist)
    (hL : ∀ a b x, O a b → ¬ L x b) (l : N) :
    ∃ res, precRetrieve th order true spec l = some res ∧ res.Nodup ∧
      ∀ r, precFilter th order true spec l r = some (decide (r ∈ res)) ∧ (r ∈ res ↔ Ordered O spec l r) := by
  obtain ⟨res, h1, h2, h3⟩ := segRetrieve_spec h ho hr hd hL l
  refine ⟨res, h1, h2, fun r => ⟨?_, h3 r⟩⟩
  obtain ⟨b, e1, e2⟩ := segFilter_spec (th := th) ho hr hd l r
  rw [e1]
  exact some_decide_of e2 (h3 r)

/-- The same for the inverse operator. -/
theorem C45_spans_inverse_partial [DecidableEq N] (h : th.Ok L R E) (ho : order.Is O D Rg) (hr : Rg spec.minDist spec.maxDist)
    (hd : 1 ≤ spec.minDist) (hR : ∀ a b x, O a b → ¬ R x a) (l : N) :
    ∃ res, invPrecRetrieve th order true spec l = some res ∧ res.Nodup ∧
      ∀ r, invPrecFilter th order true spec l r = some (decide (r ∈ res)) ∧ (r ∈ res ↔ Ordered O spec r l) := by
  obtain ⟨res, h1, h2, h3⟩ := segInvRetrieve_spec h ho hr hd hR l
  refine ⟨res, h1, h2, fun r => ⟨?_, h3 r⟩⟩
  obtain ⟨b, e1, e2⟩ := segFilter_spec (th := th) ho hr hd r l
  rw [invPrecFilter_eq, e1]
  exact some_decide_of e2 (h3 r)

/-- The same for the near operator. -/
theorem C45_spans_near_partial [DecidableEq N] (h : th.Ok L R E) (ho : order.Is O D Rg) (hr : Rg spec.minDist spec.maxDist)
    (hd : 1 ≤ spec.minDist) (hL : ∀ a b x, O a b → ¬ L x b) (hR : ∀ a b x, O a b → ¬ R x a) (l : N) :
    ∃ res, nearRetrieve th order true spec l = some res ∧ res.Nodup ∧
      ∀ r, nearFilter th order true spec l r = some (decide (r ∈ res)) ∧ (r ∈ res ↔ Ordered O spec l r ∨ Ordered O spec r l) := by
  obtain ⟨f, h1, _, h3⟩ := segRetrieve_spec h ho hr hd hL l
  obtain ⟨g, h4, _, h6⟩ := segInvRetrieve_spec h ho hr hd hR l
  have hm : ∀ r, r ∈ (f ++ g).dedup ↔ Ordered O spec l r ∨ Ordered O spec r l := fun r => by rw [List.mem_dedup, List.mem_append, h3, h6]
  refine ⟨(f ++ g).dedup, by simp [nearRetrieve, h1, h4], List.nodup_dedup _, fun r => ⟨?_, hm r⟩⟩
  obtain ⟨b, e1, e2⟩ := segNearFilter_spec (th := th) ho hr hd l r
  rw [e1]
  exact some_decide_of e2 (hm r)

end Order

/-! ## Alignment and identical coverage (C46) -/

section Align

variable {th : TokenHelper N} {L R : N → N → Prop} {E : GStore N → N → N → Prop}

/-- Keeping the elements with a property, as a fallible loop. -/
theorem keep_spec {f : N → Option (List N)} {Q : N → Prop} {l : List N} (hl : l.Nodup)
    (hf : ∀ x ∈ l, (f x = some [x] ∧ Q x) ∨ (f x = some [] ∧ ¬ Q x)) :
    ∃ r, flatMapOpt f l = some r ∧ r.Nodup ∧ ∀ b, b ∈ r ↔ b ∈ l ∧ Q b := by
  obtain ⟨r, h1, h2⟩ := flatMapOpt_spec (f := f) (P := fun x b => b = x ∧ Q x) (l := l) (by
    intro x hx
    rcases hf x hx with ⟨h1, h2⟩ | ⟨h1, h2⟩
    · exact ⟨[x], h1, fun b => by simp [h2]⟩
    · exact ⟨[], h1, fun b => by simp [h2]⟩)
  refine ⟨r, h1, flatMapOpt_nodup h1 hl ?_ ?_, fun b => ?_⟩
  · intro x hx r' hr
    rcases hf x hx with ⟨h1, _⟩ | ⟨h1, _⟩ <;> rw [h1, Option.some.injEq] at hr <;> subst hr <;> simp
  · intro x hx y hy r' s hr hs b hb hb'
    rcases hf x hx with ⟨h1, _⟩ | ⟨h1, _⟩ <;> rw [h1, Option.some.injEq] at hr <;> subst hr
    · rcases hf y hy with ⟨h2, _⟩ | ⟨h2, _⟩ <;> rw [h2, Option.some.injEq] at hs <;> subst hs
      · simp only [List.mem_singleton] at hb hb'; rw [← hb, ← hb']
      · simp at hb'
    · simp at hb
  · rw [h2]
    constructor
    · rintro ⟨x, hx, rfl, hq⟩; exact ⟨hx, hq⟩
    · rintro ⟨hx, hq⟩; exact ⟨b, hx, rfl, hq⟩

theorem bool_of_mem [DecidableEq N] {o : Option Bool} {b : Bool} {r : N} {l : List N} {P : Prop} (h1 : o = some b) (h2 : b = true ↔ P)
    (h3 : r ∈ l ↔ P) : o = some (decide (r ∈ l)) := by
  rw [h1, Option.some.injEq]
  by_cases hm : r ∈ l
  · simp [hm, h2.2 (h3.1 hm)]
  · cases b with
    | true => exact absurd (h3.2 (h2.1 rfl)) hm
    | false => simp [hm]

theorem eqFilter_spec [DecidableEq N] {tok : N → Prop} {B : N → N → Prop} {a b : Option N} {l r : N}
    (ha : ∀ t, a = some t ↔ Border tok B l t) (hb : ∀ t, b = some t ↔ Border tok B r t) :
    ∃ x, (match some a, some b with
      | some (some a), some (some b) => some (decide (a = b))
      | some _, some _ => some false
      | _, _ => none) = some x ∧ (x = true ↔ ∃ t, Border tok B l t ∧ Border tok B r t) := by
  cases a with
  | none =>
    refine ⟨false, by cases b <;> rfl, iff_of_false (by simp) ?_⟩
    rintro ⟨t, h1, _⟩; simpa using (ha t).2 h1
  | some s =>
    cases b with
    | none =>
      refine ⟨false, rfl, iff_of_false (by simp) ?_⟩
      rintro ⟨t, _, h1⟩; simpa using (hb t).2 h1
    | some e =>
      refine ⟨decide (s = e), rfl, ?_⟩
      rw [decide_eq_true_eq]
      constructor
      · rintro rfl; exact ⟨s, (ha s).1 rfl, (hb s).1 rfl⟩
      · rintro ⟨t, h1, h2⟩
        have e1 := (ha t).2 h1
        have e2 := (hb t).2 h2
        simp only [Option.some.injEq] at e1 e2
        rw [e1, e2]

theorem leftFilter_spec [DecidableEq N] (h : th.Ok L R E) (l r : N) :
    ∃ b, leftFilter th l r = some b ∧ (b = true ↔ ∃ t, Border (th.Tok E) L l t ∧ Border (th.Tok E) L r t) := by
  obtain ⟨a, h1, h2⟩ := leftTokenFor_spec h l
  obtain ⟨c, h3, h4⟩ := leftTokenFor_spec h r
  unfold leftFilter
  rw [h1, h3]
  exact eqFilter_spec h2 h4

theorem rightFilter_spec [DecidableEq N] (h : th.Ok L R E) (l r : N) :
    ∃ b, rightFilter th l r = some b ∧ (b = true ↔ ∃ t, Border (th.Tok E) R l t ∧ Border (th.Tok E) R r t) := by
  obtain ⟨a, h1, h2⟩ := rightTokenFor_spec h l
  obtain ⟨c, h3, h4⟩ := rightTokenFor_spec h r
  unfold rightFilter
  rw [h1, h3]
  exact eqFilter_spec h2 h4

/-- C46 for `_l_`: retrieval and filter agree, every node is retrieved once, and both decide whether the nodes start at the same token. -/
theorem C46_left_alignment [DecidableEq N] (h : th.Ok L R E) (l : N) :
    ∃ res, leftRetrieve th l = some res ∧ res.Nodup ∧ ∀ r, leftFilter th l r = some (decide (r ∈ res)) ∧
      (r ∈ res ↔ ∃ t, Border (th.Tok E) L l t ∧ Border (th.Tok E) L r t) := by
  obtain ⟨a, h1, h2⟩ := leftTokenFor_spec h l
  suffices H : ∃ res, leftRetrieve th l = some res ∧ res.Nodup ∧
      ∀ r, r ∈ res ↔ ∃ t, Border (th.Tok E) L l t ∧ Border (th.Tok E) L r t by
    obtain ⟨res, e1, e2, e3⟩ := H
    refine ⟨res, e1, e2, fun r => ⟨?_, e3 r⟩⟩
    obtain ⟨b, h4, h5⟩ := leftFilter_spec h l r
    exact bool_of_mem h4 h5 (e3 r)
  unfold leftRetrieve
  rw [h1]
  cases a with
  | none =>
    refine ⟨[], rfl, List.nodup_nil, fun r => iff_of_false (by simp) ?_⟩
    rintro ⟨t, ht, _⟩; simpa using (h2 t).2 ht
  | some s =>
    have hs := (h2 s).1 rfl
    obtain ⟨x, e1, e2, e3⟩ := h.aligned_left (h.border_left hs)
    refine ⟨s :: x, by simp [e1], e2, fun r => ?_⟩
    rw [e3]
    constructor
    · intro hb; exact ⟨s, hs, hb⟩
    · rintro ⟨t, ht, hb⟩; rw [border_fun h.leftFun hs ht]; exact hb

/-- C46 for `_r_`. -/
theorem C46_right_alignment [DecidableEq N] (h : th.Ok L R E) (l : N) :
    ∃ res, rightRetrieve th l = some res ∧ res.Nodup ∧ ∀ r, rightFilter th l r = some (decide (r ∈ res)) ∧
      (r ∈ res ↔ ∃ t, Border (th.Tok E) R l t ∧ Border (th.Tok E) R r t) := by
  obtain ⟨a, h1, h2⟩ := rightTokenFor_spec h l
  suffices H : ∃ res, rightRetrieve th l = some res ∧ res.Nodup ∧
      ∀ r, r ∈ res ↔ ∃ t, Border (th.Tok E) R l t ∧ Border (th.Tok E) R r t by
    obtain ⟨res, e1, e2, e3⟩ := H
    refine ⟨res, e1, e2, fun r => ⟨?_, e3 r⟩⟩
    obtain ⟨b, h4, h5⟩ := rightFilter_spec h l r
    exact bool_of_mem h4 h5 (e3 r)
  unfold rightRetrieve
  rw [h1]
  cases a with
  | none =>
    refine ⟨[], rfl, List.nodup_nil, fun r => iff_of_false (by simp) ?_⟩
    rintro ⟨t, ht, _⟩; simpa using (h2 t).2 ht
  | some s =>
    have hs := (h2 s).1 rfl
    obtain ⟨x, e1, e2, e3⟩ := h.aligned_right (h.border_right hs)
    refine ⟨s :: x, by simp [e1], e2, fun r => ?_⟩
    rw [e3]
    constructor
    · intro hb; exact ⟨s, hs, hb⟩
    · rintro ⟨t, ht, hb⟩; rw [border_fun h.rightFun hs ht]; exact hb

theorem identFilter_spec [DecidableEq N] (h : th.Ok L R E) (l r : N) :
    ∃ b, identFilter th l r = some b ∧ (b = true ↔ SameBorders (th.Tok E) L R l r) := by
  obtain ⟨a, h1, h2⟩ := leftTokenFor_spec h l
  obtain ⟨c, h3, h4⟩ := leftTokenFor_spec h r
  obtain ⟨a', h5, h6⟩ := rightTokenFor_spec h l
  obtain ⟨c', h7, h8⟩ := rightTokenFor_spec h r
  obtain ⟨x, f1, f2⟩ := leftFilter_spec h l r
  obtain ⟨y, g1, g2⟩ := rightFilter_spec h l r
  unfold SameBorders
  rw [← f2, ← g2]
  unfold leftFilter at f1
  unfold rightFilter at g1
  unfold identFilter
  rw [h1, h3] at f1
  rw [h5, h7] at g1
  rw [h1, h3, h5, h7]
  cases a <;> cases c <;> cases a' <;> cases c' <;> simp_all

/-- C46 for `_=_`. -/
theorem C46_identical_coverage [DecidableEq N] (h : th.Ok L R E) (l : N) :
    ∃ res, identRetrieve th l = some res ∧ res.Nodup ∧ ∀ r, identFilter th l r = some (decide (r ∈ res)) ∧
      (r ∈ res ↔ SameBorders (th.Tok E) L R l r) := by
  suffices H : ∃ res, identRetrieve th l = some res ∧ res.Nodup ∧ ∀ r, r ∈ res ↔ SameBorders (th.Tok E) L R l r by
    obtain ⟨res, e1, e2, e3⟩ := H
    refine ⟨res, e1, e2, fun r => ⟨?_, e3 r⟩⟩
    obtain ⟨b, h4, h5⟩ := identFilter_spec h l r
    exact bool_of_mem h4 h5 (e3 r)
  obtain ⟨a, h1, h2⟩ := leftTokenFor_spec h l
  obtain ⟨b, h3, h4⟩ := rightTokenFor_spec h l
  unfold identRetrieve
  rw [h1, h3]
  cases a with
  | none =>
    refine ⟨[], by cases b <;> rfl, List.nodup_nil, fun r => iff_of_false (by simp) ?_⟩
    rintro ⟨⟨t, ht, _⟩, _⟩; simpa using (h2 t).2 ht
  | some s =>
    cases b with
    | none =>
      refine ⟨[], rfl, List.nodup_nil, fun r => iff_of_false (by simp) ?_⟩
      rintro ⟨_, t, ht, _⟩; simpa using (h4 t).2 ht
    | some e =>
      have hs := (h2 s).1 rfl
      have he := (h4 e).1 rfl
      obtain ⟨cs, e1, e2, e3⟩ := h.aligned_left (h.border_left hs)
      rw [List.nodup_cons] at e2
      have hstok := h.border_left hs
      obtain ⟨k, k1, k2, k3⟩ := keep_spec (Q := fun c => Border (th.Tok E) R c e) (l := cs)
        (f := fun c => match th.rightTokenFor c with
          | none => none
          | some (some x) => if e = x then some [c] else some []
          | some none => some []) e2.2 (by
        intro c _
        obtain ⟨x, x1, x2⟩ := rightTokenFor_spec h c
        simp only [x1]
        cases x with
        | none => right; exact ⟨rfl, fun hb => by simpa using (x2 e).2 hb⟩
        | some x =>
          by_cases hx : e = x
          · left; subst hx; exact ⟨by simp, (x2 e).1 rfl⟩
          · right
            refine ⟨by simp [hx], fun hb => ?_⟩
            have := (x2 e).2 hb
            simp only [Option.some.injEq] at this
            exact hx this.symm)
      refine ⟨if s = e then s :: k else k, ?_, ?_, fun r => ?_⟩
      · show (match th.left.inn s with | none => none | some cs => _) = _
        rw [e1]
        exact congrArg (Option.map fun l => if s = e then s :: l else l) k1
      · split
        · rw [List.nodup_cons]
          exact ⟨fun hm => e2.1 ((k3 s).1 hm).1, k2⟩
        · exact k2
      · have hr : r ∈ (if s = e then s :: k else k) ↔ Border (th.Tok E) L r s ∧ Border (th.Tok E) R r e := by
          rw [← e3, List.mem_cons]
          have hb : Border (th.Tok E) R s e ↔ s = e := by
            unfold Border
            constructor
            · rintro (⟨_, x⟩ | ⟨x, _⟩)
              · exact x.symm
              · exact absurd hstok x
            · rintro rfl; exact Or.inl ⟨hstok, rfl⟩
          split
          · rename_i hse
            rw [List.mem_cons, k3]
            constructor
            · rintro (rfl | ⟨x, y⟩)
              · exact ⟨Or.inl rfl, hb.2 hse⟩
              · exact ⟨Or.inr x, y⟩
            · rintro ⟨rfl | x, y⟩
              · exact Or.inl rfl
              · exact Or.inr ⟨x, y⟩
          · rename_i hse
            rw [k3]
            constructor
            · rintro ⟨x, y⟩; exact ⟨Or.inr x, y⟩
            · rintro ⟨rfl | x, y⟩
              · exact absurd (hb.1 y) hse
              · exact ⟨x, y⟩
        rw [hr]
        constructor
        · rintro ⟨x, y⟩; exact ⟨⟨s, hs, x⟩, e, he, y⟩
        · rintro ⟨⟨t, ht, x⟩, t', ht', y⟩
          rw [border_fun h.leftFun hs ht, border_fun h.rightFun he ht']
          exact ⟨x, y⟩

end Align

/-! ## Inclusion (C46) -/

section Incl

variable {th : TokenHelper N} {L R : N → N → Prop} {E : GStore N → N → N → Prop} {order : GStore N} {O : N → N → Prop}
  {D : N → Prop} {Rg : Nat → Bnd Nat → Prop}

/-- On chains, everything that is not farther from `a` than `b` lies before `b`. -/
theorem chain_before (hc : Linear.Chains O) {a b c : N} {d l : Nat} (h1 : Walk.WalkLen O a b l) (h2 : Walk.WalkLen O a c d) (hd : d ≤ l) :
    Relation.ReflTransGen O c b := by
  obtain ⟨k, rfl⟩ := Nat.exists_eq_add_of_le hd
  obtain ⟨x, hx1, hx2⟩ := Walk.walkLen_add.1 h1
  rw [Walk.walk_functional hc.fn h2 hx1]
  exact Walk.reach_iff_walk.2 ⟨k, hx2⟩

theorem chain_after (hc : Linear.Chains O) {a b c : N} {d l : Nat} (h1 : Walk.WalkLen O a b l) (h2 : Walk.WalkLen O c b d) (hd : d ≤ l) :
    Relation.ReflTransGen O a c := by
  obtain ⟨k, rfl⟩ := Nat.exists_eq_add_of_le hd
  rw [Nat.add_comm] at h1
  obtain ⟨x, hx1, hx2⟩ := Walk.walkLen_add.1 h1
  rw [Walk.walk_injective hc.inj h2 hx2]
  exact Walk.reach_iff_walk.2 ⟨k, hx1⟩

/-- On chains all paths between two nodes have the same length. -/
theorem chain_len (hc : Linear.Chains O) {a b : N} {d l : Nat} (h1 : Walk.WalkLen O a b l) (h2 : Walk.WalkLen O a b d) : d = l := by
  rcases Nat.le_total d l with h | h
  · obtain ⟨k, rfl⟩ := Nat.exists_eq_add_of_le h
    obtain ⟨x, hx1, hx2⟩ := Walk.walkLen_add.1 h1
    rw [← Walk.walk_functional hc.fn h2 hx1] at hx2
    rw [Walk.walk_self hc.ac hx2]; rfl
  · obtain ⟨k, rfl⟩ := Nat.exists_eq_add_of_le h
    obtain ⟨x, hx1, hx2⟩ := Walk.walkLen_add.1 h2
    rw [← Walk.walk_functional hc.fn h1 hx1] at hx2
    rw [Walk.walk_self hc.ac hx2]; rfl

theorem between_len (hc : Linear.Chains O) {a b c : N} {l : Nat} (h : Walk.WalkLen O a c l) (hb : Between O a b c) :
    (∃ d, Walk.SimplePath O a b d ∧ Within 0 (.included l) d) ∧ ∃ d, Walk.SimplePath O b c d ∧ Within 0 (.included l) d := by
  obtain ⟨i, hi⟩ := Walk.reach_iff_walk.1 hb.1
  obtain ⟨j, hj⟩ := Walk.reach_iff_walk.1 hb.2
  have := chain_len hc h (Walk.walkLen_add.2 ⟨b, hi, hj⟩)
  exact ⟨⟨i, Walk.simple_of_acyclic hc.ac hi, by simp [Within]; omega⟩, ⟨j, Walk.simple_of_acyclic hc.ac hj, by simp [Within]; omega⟩⟩

/-- The border tokens `sr` and `er` are between `sl` and `el`, and the storage knows `sl`. -/
theorem incl_core (ho : order.Is O D Rg) (hc : Linear.Chains O) (hr : ∀ a b d, Walk.SimplePath O a b d → Rg 0 (.included d))
    {sl el : N} {l : Nat} (hp : Walk.SimplePath O sl el l) (x : N) :
    (∃ b, order.isConnected sl x 0 (.included l) = some b ∧ (b = true ↔ D sl ∧ Between O sl x el)) ∧
    (∃ b, order.isConnected x el 0 (.included l) = some b ∧ (b = true ↔ D sl ∧ Between O sl x el)) ∧
    ∃ ts, order.findConnected sl 0 (.included l) = some ts ∧ ts.Nodup ∧ ∀ t, t ∈ ts ↔ D sl ∧ Between O sl t el := by
  have fwd : ∀ x, (∃ d, Walk.SimplePath O sl x d ∧ Within 0 (.included l) d) ↔ Between O sl x el := by
    intro x
    constructor
    · rintro ⟨d, hd, _, hw⟩
      exact ⟨Walk.reach_iff_simple.2 ⟨d, hd⟩, chain_before hc hp.walk hd.walk hw⟩
    · intro hb; exact (between_len hc hp.walk hb).1
  refine ⟨?_, ?_, ?_⟩
  · obtain ⟨b, h1, h2⟩ := ho.conn sl x 0 (.included l) (hr _ _ _ hp)
    exact ⟨b, h1, by rw [h2, fwd]⟩
  · obtain ⟨b, h1, h2⟩ := ho.conn x el 0 (.included l) (hr _ _ _ hp)
    refine ⟨b, h1, ?_⟩
    rw [h2]
    constructor
    · rintro ⟨hd, d, hpd, _, hw⟩
      refine ⟨(ho.dom_path hp).2 ((ho.dom_path hpd).1 hd), chain_after hc hp.walk hpd.walk hw, Walk.reach_iff_simple.2 ⟨d, hpd⟩⟩
    · rintro ⟨hd, hb⟩
      obtain ⟨d, hpd, hw⟩ := (between_len hc hp.walk hb).2
      exact ⟨(ho.dom_path hpd).2 ((ho.dom_path hp).1 hd), d, hpd, hw⟩
  · obtain ⟨ts, h1, h2, h3⟩ := ho.find sl 0 (.included l) (hr _ _ _ hp)
    exact ⟨ts, h1, h2, fun t => by rw [h3, fwd]⟩

/-- `Includes` and the storage knows the first token of `l`. -/
def IncludesIn (tok : N → Prop) (L R O : N → N → Prop) (D : N → Prop) (l r : N) : Prop :=
  (∃ s, Border tok L l s ∧ D s) ∧ Includes tok L R O l r

theorem inclFilter_spec (h : th.Ok L R E) (ho : order.Is O D Rg) (hc : Linear.Chains O)
    (hr : ∀ a b d, Walk.SimplePath O a b d → Rg 0 (.included d)) (l r : N) :
    ∃ b, inclFilter th order l r = some b ∧ (b = true ↔ IncludesIn (th.Tok E) L R O D l r) := by
  obtain ⟨sl, el, h0, h1', h2'⟩ := leftRightTokenFor_spec h l
  obtain ⟨sr, er, h3, h4', h5'⟩ := leftRightTokenFor_spec h r
  obtain ⟨_, e1, h1⟩ := leftTokenFor_spec h l
  rw [h1', Option.some.injEq] at e1; subst e1
  obtain ⟨_, e1, h2⟩ := rightTokenFor_spec h l
  rw [h2', Option.some.injEq] at e1; subst e1
  obtain ⟨_, e1, h4⟩ := leftTokenFor_spec h r
  rw [h4', Option.some.injEq] at e1; subst e1
  obtain ⟨_, e1, h5⟩ := rightTokenFor_spec h r
  rw [h5', Option.some.injEq] at e1; subst e1
  have hno : ∀ {P : Prop}, (sl = none ∨ el = none ∨ sr = none ∨ er = none) → P ∨ ¬ IncludesIn (th.Tok E) L R O D l r := by
    intro P hx
    right
    rintro ⟨_, a, b, c, d, ha, hb, hcc, hd, _⟩
    have ha := (h1 a).2 ha
    have hb := (h2 b).2 hb
    have hcc := (h4 c).2 hcc
    have hd := (h5 d).2 hd
    simp [ha, hb, hcc, hd] at hx
  unfold inclFilter
  rw [h0, h3]
  cases sl with
  | none => exact ⟨false, rfl, by simpa using (hno (P := False) (by simp))⟩
  | some sl =>
    cases el with
    | none => exact ⟨false, rfl, by simpa using (hno (P := False) (by simp))⟩
    | some el =>
      cases sr with
      | none => exact ⟨false, rfl, by simpa using (hno (P := False) (by simp))⟩
      | some sr =>
        cases er with
        | none => exact ⟨false, rfl, by simpa using (hno (P := False) (by simp))⟩
        | some er =>
          have hsl := (h1 sl).1 rfl
          have hel := (h2 el).1 rfl
          have hsr := (h4 sr).1 rfl
          have her := (h5 er).1 rfl
          have key : IncludesIn (th.Tok E) L R O D l r ↔ D sl ∧ Between O sl sr el ∧ Between O sl er el := by
            constructor
            · rintro ⟨⟨s, hs, hd⟩, a, b, c, d, ha, hb, hcc, hdd, hx⟩
              rw [border_fun h.leftFun hsl hs] at *
              rw [border_fun h.leftFun hs ha, border_fun h.rightFun hel hb, border_fun h.leftFun hsr hcc,
                border_fun h.rightFun her hdd]
              rw [border_fun h.leftFun hs ha] at hd
              exact ⟨hd, hx⟩
            · rintro ⟨hd, hx⟩
              exact ⟨⟨sl, hsl, hd⟩, sl, el, sr, er, hsl, hel, hsr, her, hx⟩
          rw [key]
          obtain ⟨x, hx1, hx2, hx3⟩ := ho.dist sl el
          simp only [hx1]
          cases x with
          | none =>
            refine ⟨false, rfl, iff_of_false (by simp) ?_⟩
            rintro ⟨_, hb, _⟩
            exact (hx2.1 rfl) (Walk.reach_iff_simple.1 (hb.1.trans hb.2))
          | some d =>
            obtain ⟨⟨b1, c1, c2⟩, _⟩ := incl_core ho hc hr (hx3 d rfl) sr
            obtain ⟨_, ⟨b2, c3, c4⟩, _⟩ := incl_core ho hc hr (hx3 d rfl) er
            simp only [c1, c3]
            cases b1 with
            | false =>
              refine ⟨false, rfl, iff_of_false (by simp) ?_⟩
              rintro ⟨hd, hb, _⟩
              simpa using c2.2 ⟨hd, hb⟩
            | true =>
              obtain ⟨hd, hb⟩ := c2.1 rfl
              exact ⟨b2, rfl, by rw [c4]; simp [hd, hb]⟩

theorem inclRetrieve_spec (h : th.Ok L R E) (ho : order.Is O D Rg) (hO : ∀ a b, O a b → th.Tok E a ∧ th.Tok E b) (hc : Linear.Chains O)
    (hr : ∀ a b d, Walk.SimplePath O a b d → Rg 0 (.included d)) (l : N) :
    ∃ res, inclRetrieve th order l = some res ∧ res.Nodup ∧ ∀ r, r ∈ res ↔ IncludesIn (th.Tok E) L R O D l r := by
  obtain ⟨sl, el, h0, h1', h2'⟩ := leftRightTokenFor_spec h l
  obtain ⟨_, e1, h1⟩ := leftTokenFor_spec h l
  rw [h1', Option.some.injEq] at e1; subst e1
  obtain ⟨_, e1, h2⟩ := rightTokenFor_spec h l
  rw [h2', Option.some.injEq] at e1; subst e1
  unfold inclRetrieve
  rw [h0]
  cases sl with
  | none =>
    refine ⟨[], rfl, List.nodup_nil, fun r => iff_of_false (by simp) ?_⟩
    rintro ⟨⟨s, hs, _⟩, _⟩; simpa using (h1 s).2 hs
  | some sl =>
    cases el with
    | none =>
      refine ⟨[], rfl, List.nodup_nil, fun r => iff_of_false (by simp) ?_⟩
      rintro ⟨_, a, b, c, d, _, hb, _⟩; simpa using (h2 b).2 hb
    | some el =>
      have hsl := (h1 sl).1 rfl
      have hel := (h2 el).1 rfl
      have hsltok := h.border_left hsl
      have key : ∀ r, IncludesIn (th.Tok E) L R O D l r ↔
          ∃ t, (D sl ∧ Between O sl t el) ∧ Border (th.Tok E) L r t ∧ ∃ e, Border (th.Tok E) R r e ∧ Between O sl e el := by
        intro r
        constructor
        · rintro ⟨⟨s, hs, hd⟩, a, b, c, d, ha, hb, hcc, hdd, hx, hy⟩
          rw [← border_fun h.leftFun hsl ha, ← border_fun h.rightFun hel hb] at hx hy
          rw [← border_fun h.leftFun hsl hs] at hd
          exact ⟨c, ⟨hd, hx⟩, hcc, d, hdd, hy⟩
        · rintro ⟨c, ⟨hd, hx⟩, hcc, d, hdd, hy⟩
          exact ⟨⟨sl, hsl, hd⟩, sl, el, c, d, hsl, hel, hcc, hdd, hx, hy⟩
      obtain ⟨x, hx1, hx2, hx3⟩ := ho.dist sl el
      simp only [hx1]
      cases x with
      | none =>
        refine ⟨[], rfl, List.nodup_nil, fun r => iff_of_false (by simp) ?_⟩
        rw [key]
        rintro ⟨t, ⟨_, hb⟩, _⟩
        exact (hx2.1 rfl) (Walk.reach_iff_simple.1 (hb.1.trans hb.2))
      | some d =>
        have hp := hx3 d rfl
        obtain ⟨_, _, ts, t1, t2, t3⟩ := incl_core ho hc hr hp sl
        simp only [t1]
        have htok : ∀ t ∈ ts, th.Tok E t := by
          intro t ht
          obtain ⟨_, hb⟩ := (t3 t).1 ht
          obtain ⟨k, hk⟩ := Walk.reach_iff_simple.1 hb.1
          exact (ord_tok hO hk).1 hsltok
        obtain ⟨DR, RR, hR⟩ := h.right
        have hcand : ∀ t ∈ ts, ∃ r, inclCandidates th order el d t = some r ∧ r.Nodup ∧
            ∀ b, b ∈ r ↔ Border (th.Tok E) L b t ∧ ∃ e, Border (th.Tok E) R b e ∧ Between O sl e el := by
          intro t ht
          obtain ⟨hdt, hbt⟩ := (t3 t).1 ht
          obtain ⟨others, o1, o2, o3⟩ := h.aligned_left (htok t ht)
          rw [List.nodup_cons] at o2
          have hnt : ∀ n ∈ others, ¬ th.Tok E n := by
            intro n hn htn
            have := (o3 n).1 (by simp [hn])
            rcases this with ⟨_, rfl⟩ | ⟨x, _⟩
            · exact o2.1 hn
            · exact x htn
          obtain ⟨k, k1, k2, k3⟩ := keep_spec (Q := fun n => ∃ e, Border (th.Tok E) R n e ∧ Between O sl e el) (l := others)
            (f := fun n => match th.right.out n with
              | none => none
              | some [] => some []
              | some (e :: _) =>
                match order.isConnected e el 0 (.included d) with
                | none => none
                | some true => some [n]
                | some false => some []) o2.2 (by
            intro n hn
            obtain ⟨y, y1, _, y3⟩ := hR.out n
            simp only [y1]
            cases y with
            | nil =>
              right
              refine ⟨rfl, ?_⟩
              rintro ⟨e, ⟨hx, _⟩ | ⟨_, he⟩, _⟩
              · exact hnt n hn hx
              · simpa using (y3 e).2 he
            | cons e y =>
              have hre := (y3 e).1 (by simp)
              have hbe : Border (th.Tok E) R n e := Or.inr ⟨hnt n hn, hre⟩
              obtain ⟨_, ⟨b, b1, b2⟩, _⟩ := incl_core ho hc hr hp e
              simp only [b1]
              cases b with
              | true => left; exact ⟨rfl, e, hbe, (b2.1 rfl).2⟩
              | false =>
                right
                refine ⟨rfl, ?_⟩
                rintro ⟨e', he', hb'⟩
                rw [← border_fun h.rightFun hbe he'] at hb'
                simpa using b2.2 ⟨hdt, hb'⟩)
          refine ⟨t :: k, ?_, ?_, fun b => ?_⟩
          · unfold inclCandidates
            rw [o1]
            exact congrArg (Option.map fun x => t :: x) k1
          · rw [List.nodup_cons]
            exact ⟨fun hm => o2.1 ((k3 t).1 hm).1, k2⟩
          · rw [← o3, List.mem_cons, List.mem_cons, k3]
            constructor
            · rintro (rfl | ⟨hx, hy⟩)
              · exact ⟨Or.inl rfl, b, Or.inl ⟨htok b ht, rfl⟩, hbt⟩
              · exact ⟨Or.inr hx, hy⟩
            · rintro ⟨rfl | hx, hy⟩
              · exact Or.inl rfl
              · exact Or.inr ⟨hx, hy⟩
        obtain ⟨res, r1, r2⟩ := flatMapOpt_spec (f := inclCandidates th order el d)
          (P := fun t b => Border (th.Tok E) L b t ∧ ∃ e, Border (th.Tok E) R b e ∧ Between O sl e el) (l := ts)
          (fun t ht => by obtain ⟨r, a, _, b⟩ := hcand t ht; exact ⟨r, a, b⟩)
        refine ⟨res, r1, flatMapOpt_nodup r1 t2 ?_ ?_, fun r => ?_⟩
        · intro t ht r' hr'
          obtain ⟨r, a, b, _⟩ := hcand t ht
          rw [a, Option.some.injEq] at hr'; rw [← hr']; exact b
        · intro t ht t' ht' x y hx hy b hbx hby
          obtain ⟨x', a, _, c⟩ := hcand t ht
          obtain ⟨y', a', _, c'⟩ := hcand t' ht'
          rw [a, Option.some.injEq] at hx; subst hx
          rw [a', Option.some.injEq] at hy; subst hy
          exact border_fun h.leftFun ((c b).1 hbx).1 ((c' b).1 hby).1
        · rw [r2, key]
          constructor
          · rintro ⟨t, ht, hx⟩; exact ⟨t, (t3 t).1 ht, hx⟩
          · rintro ⟨t, ht, hx⟩; exact ⟨t, (t3 t).2 ht, hx⟩

/-- C46 for `_i_`, restricted to orderings that know all tokens (missing: a text with a single token in a storage that only knows the
nodes of its edges, see `C46_single_token_fails`): retrieval and filter agree, every node is retrieved once, and both decide whether
both border tokens of the right node are between the border tokens of the left node. -/
theorem C46_inclusion_partial [DecidableEq N] (h : th.Ok L R E) (ho : order.Is O D Rg) (hO : ∀ a b, O a b → th.Tok E a ∧ th.Tok E b)
    (hc : Linear.Chains O) (hr : ∀ a b d, Walk.SimplePath O a b d → Rg 0 (.included d)) (l : N) :
    ∃ res, inclRetrieve th order l = some res ∧ res.Nodup ∧ ∀ r, inclFilter th order l r = some (decide (r ∈ res)) ∧
      ((∀ n, th.Tok E n → D n) → (r ∈ res ↔ Includes (th.Tok E) L R O l r)) := by
  obtain ⟨res, e1, e2, e3⟩ := inclRetrieve_spec h ho hO hc hr l
  refine ⟨res, e1, e2, fun r => ⟨?_, fun hd => ?_⟩⟩
  · obtain ⟨b, h4, h5⟩ := inclFilter_spec h ho hc hr l r
    exact bool_of_mem h4 h5 (e3 r)
  · rw [e3]
    constructor
    · exact fun x => x.2
    · intro x
      refine ⟨?_, x⟩
      obtain ⟨s, _, _, _, hs, _⟩ := x
      exact ⟨s, hs, hd s (h.border_left hs)⟩

end Incl

/-! ## Inverses of the operators on the text (C47) -/

/-- C47 for precedence: without any assumption about the graph. -/
theorem C47_precedence (th : TokenHelper N) (order : GStore N) (seg : Bool) (spec : RangeSpec) (a b : N) :
    invPrecFilter th order seg spec b a = precFilter th order seg spec a b := invPrecFilter_eq b a seg

end TextOp
