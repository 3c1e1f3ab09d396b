import Verif.Sort.Compare
import Verif.Sort.Props
import Verif.Anno.Model

/-!
# The order of the results is a total order (C34)
-/

set_option linter.unusedSimpArgs false
set_option linter.unusedSectionVars false

/-! ### Comparison functions on a set of values -/

theorem compare_isLE {α : Type} [LinearOrder α] {a b : α} : (compare a b).isLE = true ↔ a ≤ b := by
  rcases lt_trichotomy a b with h | h | h
  · rw [compare_lt_iff_lt.2 h]; simp [h.le]
  · subst h; rw [compare_eq_iff_eq.2 rfl]; simp
  · rw [compare_gt_iff_gt.2 h]; simp [h]

/-- The comparison is consistent on the values with `P`. -/
structure CmpOrd {α : Type} (P : α → Prop) (cmp : α → α → Ordering) : Prop where
  swap : ∀ a b, P a → P b → cmp a b = (cmp b a).swap
  trans : ∀ a b c, P a → P b → P c → (cmp a b).isLE = true → (cmp b c).isLE = true → (cmp a c).isLE = true

namespace CmpOrd
variable {α : Type} {P : α → Prop} {cmp : α → α → Ordering}

theorem self (h : CmpOrd P cmp) {a : α} (ha : P a) : cmp a a = .eq := by
  have := h.swap a a ha ha
  cases hc : cmp a a <;> rw [hc] at this <;> simp at this <;> rfl

theorem eq_symm (h : CmpOrd P cmp) {a b : α} (ha : P a) (hb : P b) (e : cmp a b = .eq) : cmp b a = .eq := by
  rw [h.swap b a hb ha, e]; rfl

/-- The lexicographic combination, where the second comparison only has to be consistent on values with are equal in the first. -/
theorem andThen {c2 : α → α → Ordering} (h : CmpOrd P cmp)
    (swap2 : ∀ a b, P a → P b → cmp a b = .eq → c2 a b = (c2 b a).swap)
    (trans2 : ∀ a b c, P a → P b → P c → cmp a b = .eq → cmp b c = .eq → cmp a c = .eq →
      (c2 a b).isLE = true → (c2 b c).isLE = true → (c2 a c).isLE = true) :
    CmpOrd P fun a b => (cmp a b).then (c2 a b) := by
  constructor
  · intro a b ha hb
    have h1 := h.swap a b ha hb
    cases hc : cmp a b with
    | lt => rw [hc] at h1; have : cmp b a = .gt := by cases h2 : cmp b a <;> rw [h2] at h1 <;> simp at h1 <;> rfl
            simp [this]
    | gt => rw [hc] at h1; have : cmp b a = .lt := by cases h2 : cmp b a <;> rw [h2] at h1 <;> simp at h1 <;> rfl
            simp [this]
    | eq => rw [h.eq_symm ha hb hc]; simpa using swap2 a b ha hb hc
  · intro a b c ha hb hc h1 h2
    have hab : (cmp a b).isLE = true := by cases e : cmp a b <;> simp [e] at h1 ⊢
    have hbc : (cmp b c).isLE = true := by cases e : cmp b c <;> simp [e] at h2 ⊢
    have hac := h.trans a b c ha hb hc hab hbc
    cases e : cmp a c with
    | lt => rfl
    | gt => rw [e] at hac; simp at hac
    | eq =>
      have hca : (cmp c a).isLE = true := by rw [h.eq_symm ha hc e]; rfl
      have hba : (cmp b a).isLE = true := h.trans b c a hb hc ha hbc hca
      have hcb : (cmp c b).isLE = true := h.trans c a b hc ha hb hca hab
      have e1 : cmp a b = .eq := by
        have := h.swap a b ha hb
        cases e1 : cmp a b <;> cases e2 : cmp b a <;> simp [e1, e2] at hab hba this ⊢
      have e2 : cmp b c = .eq := by
        have := h.swap b c hb hc
        cases e1 : cmp b c <;> cases e2 : cmp c b <;> simp [e1, e2] at hbc hcb this ⊢
      simp only [e1, e2, e, Ordering.then] at h1 h2 ⊢
      exact trans2 a b c ha hb hc e1 e2 e h1 h2

theorem andThen' {c2 : α → α → Ordering} (h : CmpOrd P cmp) (h2 : CmpOrd P c2) : CmpOrd P fun a b => (cmp a b).then (c2 a b) :=
  h.andThen (fun a b ha hb _ => h2.swap a b ha hb) (fun a b c ha hb hc _ _ _ => h2.trans a b c ha hb hc)

theorem on {β : Type} {Q : β → Prop} (h : CmpOrd P cmp) (f : β → α) (hf : ∀ b, Q b → P (f b)) :
    CmpOrd Q fun a b => cmp (f a) (f b) :=
  ⟨fun a b ha hb => h.swap _ _ (hf a ha) (hf b hb), fun a b c ha hb hc => h.trans _ _ _ (hf a ha) (hf b hb) (hf c hc)⟩

theorem linear [LinearOrder α] (P : α → Prop) : CmpOrd P (fun a b => compare a b) := by
  constructor
  · intro a b _ _
    rcases lt_trichotomy a b with h | h | h
    · rw [compare_lt_iff_lt.2 h, compare_gt_iff_gt.2 h]; rfl
    · subst h; rw [compare_eq_iff_eq.2 rfl]; rfl
    · rw [compare_gt_iff_gt.2 h, compare_lt_iff_lt.2 h]; rfl
  · intro a b c _ _ _ h1 h2
    rw [compare_isLE] at h1 h2 ⊢
    exact h1.trans h2

theorem congr {c2 : α → α → Ordering} (h : CmpOrd P cmp) (e : ∀ a b, P a → P b → c2 a b = cmp a b) : CmpOrd P c2 := by
  constructor
  · intro a b ha hb
    rw [e a b ha hb, e b a hb ha]
    exact h.swap a b ha hb
  · intro a b c ha hb hc
    rw [e a b ha hb, e b c hb hc, e a c ha hc]
    exact h.trans a b c ha hb hc

end CmpOrd

/-! ### Sequences -/

section
variable {α : Type} {P : α → Prop} {cmp : α → α → Ordering}

/-- Comparing two sequences by the first difference and then by their length, where `o` is the answer for a proper prefix. -/
def lexLen (cmp : α → α → Ordering) (o : Ordering) : List α → List α → Ordering
  | [], [] => .eq
  | [], _ :: _ => o
  | _ :: _, [] => o.swap
  | x :: a, y :: b => (cmp x y).then (lexLen cmp o a b)

theorem zipCmp_lt (a b : List α) : (zipCmp cmp a b).then (compare a.length b.length) = lexLen cmp .lt a b := by
  induction a generalizing b with
  | nil =>
    cases b with
    | nil => rfl
    | cons y b => simp [zipCmp, lexLen, Ordering.then, Nat.compare_eq_lt.2]
  | cons x a ih =>
    cases b with
    | nil => simp [zipCmp, lexLen, Ordering.then, Nat.compare_eq_gt.2]
    | cons y b =>
      have := ih b
      simp only [zipCmp, List.zipWith_cons_cons, List.foldr_cons, lexLen] at this ⊢
      rw [← this, Ordering.then_assoc]
      congr 2
      simp [Nat.compare_eq_ite_lt]

theorem zipCmp_gt (a b : List α) : (zipCmp cmp a b).then (compare b.length a.length) = lexLen cmp .gt a b := by
  induction a generalizing b with
  | nil =>
    cases b with
    | nil => rfl
    | cons y b => simp [zipCmp, lexLen, Ordering.then, Nat.compare_eq_gt.2]
  | cons x a ih =>
    cases b with
    | nil => simp [zipCmp, lexLen, Ordering.then, Nat.compare_eq_lt.2]
    | cons y b =>
      have := ih b
      simp only [zipCmp, List.zipWith_cons_cons, List.foldr_cons, lexLen] at this ⊢
      rw [← this, Ordering.then_assoc]
      congr 2
      simp [Nat.compare_eq_ite_lt]

theorem lexLen_ord (h : CmpOrd P cmp) (o : Ordering) (ho : o ≠ .eq) : CmpOrd (fun l => ∀ x ∈ l, P x) (lexLen cmp o) := by
  constructor
  · intro a
    induction a with
    | nil => intro b _ _; cases b <;> simp [lexLen]
    | cons x a ih =>
      intro b ha hb
      cases b with
      | nil => simp [lexLen]
      | cons y b =>
        have h1 := h.swap x y (ha x (by simp)) (hb y (by simp))
        have h2 := ih b (fun z hz => ha z (List.mem_cons_of_mem _ hz)) (fun z hz => hb z (List.mem_cons_of_mem _ hz))
        simp only [lexLen]
        rw [h1, h2]
        cases cmp y x <;> simp
  · intro a
    induction a with
    | nil =>
      intro b c _ _ _ h1 h2
      cases b with
      | nil => exact h2
      | cons y b =>
        cases c with
        | nil => rfl
        | cons z c => simpa [lexLen] using h1
    | cons x a ih =>
      intro b c ha hb hc h1 h2
      cases b with
      | nil =>
        cases c with
        | nil => exact h1
        | cons z c =>
          simp only [lexLen] at h1 h2
          cases o <;> simp at h1 h2 ho
      | cons y b =>
        cases c with
        | nil => simpa [lexLen] using h2
        | cons z c =>
          have hr := ih b c (fun w hw => ha w (List.mem_cons_of_mem _ hw)) (fun w hw => hb w (List.mem_cons_of_mem _ hw))
            (fun w hw => hc w (List.mem_cons_of_mem _ hw))
          have px := ha x (by simp)
          have py := hb y (by simp)
          have pz := hc z (by simp)
          simp only [lexLen] at h1 h2 ⊢
          have hxy : (cmp x y).isLE = true := by cases e : cmp x y <;> simp [e] at h1 ⊢
          have hyz : (cmp y z).isLE = true := by cases e : cmp y z <;> simp [e] at h2 ⊢
          have hxz := h.trans x y z px py pz hxy hyz
          cases e : cmp x z with
          | lt => rfl
          | gt => rw [e] at hxz; simp at hxz
          | eq =>
            have hzx : (cmp z x).isLE = true := by rw [h.eq_symm px pz e]; rfl
            have hyx : (cmp y x).isLE = true := h.trans y z x py pz px hyz hzx
            have hzy : (cmp z y).isLE = true := h.trans z x y pz px py hzx hxy
            have e1 : cmp x y = .eq := by
              have := h.swap x y px py
              cases e1 : cmp x y <;> cases e2 : cmp y x <;> simp [e1, e2] at hxy hyx this ⊢
            have e2 : cmp y z = .eq := by
              have := h.swap y z py pz
              cases e1 : cmp y z <;> cases e2 : cmp z y <;> simp [e1, e2] at hyz hzy this ⊢
            simp only [e1, e2, Ordering.then] at h1 h2 ⊢
            exact hr h1 h2

theorem lexLen_eq {o : Ordering} (ho : o ≠ .eq) (he : ∀ x y, P x → P y → cmp x y = .eq → x = y) :
    ∀ a b : List α, (∀ x ∈ a, P x) → (∀ x ∈ b, P x) → lexLen cmp o a b = .eq → a = b := by
  intro a
  induction a with
  | nil => intro b _ _ h; cases b with
    | nil => rfl
    | cons y b => exact absurd h ho
  | cons x a ih =>
    intro b ha hb h
    cases b with
    | nil =>
      simp only [lexLen] at h
      cases o <;> simp at h ho
    | cons y b =>
      simp only [lexLen] at h
      have h1 : cmp x y = .eq := by cases e : cmp x y <;> simp [e] at h ⊢
      rw [h1] at h
      rw [he x y (ha x (by simp)) (hb y (by simp)) h1,
        ih b (fun z hz => ha z (List.mem_cons_of_mem _ hz)) (fun z hz => hb z (List.mem_cons_of_mem _ hz)) h]

end

/-- The default collation is consistent. -/
theorem defaultColl_ord : CmpOrd (fun _ => True) defaultColl := by
  have h := lexLen_ord ((CmpOrd.linear (α := Nat) (fun _ => True)).on (Q := fun _ : Char => True) Char.toNat (by simp)) .lt (by simp)
  have h2 : CmpOrd (fun _ : Str => True) (lexLen (fun x y : Char => compare x.toNat y.toNat) .lt) := h.on (fun s : Str => s) (by simp)
  exact h2.congr fun a b _ _ => zipCmp_lt _ _

/-! ### Matches -/

section
variable {N K : Type} [LinearOrder N] [LinearOrder K] (E : SortEnv N)

/-- The path of a node name. -/
def SortEnv.path (E : SortEnv N) (n : N) : Str := (splitPathName ((E.name n).getD [])).1

/-- The conditions under which the order is consistent on a set of nodes: all nodes have a name, the collation is consistent, the
token ordering has no cycle, and in each document either no node has a token or all tokens are in the same chain. -/
structure SortEnv.Ordered (E : SortEnv N) (S : N → Prop) : Prop where
  coll : CmpOrd (fun _ => True) E.coll
  named : ∀ n, S n → E.name n ≠ none
  irrefl : ∀ t, E.conn t t = false
  trans : ∀ a b c, E.conn a b = true → E.conn b c = true → E.conn a c = true
  chain : ∀ a b, S a → S b → comparePath E (E.path a) (E.path b) = .eq →
    (E.leftTok a = none ∧ E.leftTok b = none) ∨
    ∃ ta tb, E.leftTok a = some ta ∧ E.leftTok b = some tb ∧ (ta = tb ∨ E.conn ta tb = true ∨ E.conn tb ta = true)

theorem comparePath_ord (hc : CmpOrd (fun _ => True) E.coll) : CmpOrd (fun _ => True) (comparePath E) := by
  unfold comparePath
  simp only
  cases hq : E.quirks with
  | false =>
    simp only [Bool.false_eq_true, if_false]
    have h1 := (lexLen_ord hc .lt (by simp)).on (Q := fun _ : Str => True) segments (by simp)
    exact h1.congr fun a b _ _ => zipCmp_lt _ _
  | true =>
    simp only [if_true]
    -- a path without parts is before all others; otherwise the last part is compared first
    have hlen : ∀ p : Str, (segments p).getLast? = none ↔ (segments p).length = 0 := by
      intro p; simp
    constructor
    · intro a b _ _
      have hl : compare (segments a).length (segments b).length = (compare (segments b).length (segments a).length).swap :=
        (Nat.compare_swap _ _).symm
      cases ha : (segments a).getLast? with
      | none =>
        simp only [Ordering.then]
        cases hb : (segments b).getLast? <;> simp only <;> exact hl
      | some d1 =>
        cases hb : (segments b).getLast? with
        | none => simp only [Ordering.then]; exact hl
        | some d2 =>
          simp only
          rw [hc.swap _ _ trivial trivial, hl]
          cases E.coll (pctDecodeStr E.lossy d2) (pctDecodeStr E.lossy d1) <;> simp
    · intro a b c _ _ _ h1 h2
      cases ha : (segments a).getLast? with
      | none =>
        simp only [Ordering.then]
        rw [(hlen a).1 ha]
        rw [compare_isLE]
        omega
      | some d1 =>
        cases hb : (segments b).getLast? with
        | none =>
          simp only [ha, hb, Ordering.then] at h1
          rw [compare_isLE] at h1
          have e1 := (hlen b).1 hb
          have e2 : (segments a).length = 0 := by omega
          rw [← hlen, ha] at e2
          cases e2
        | some d2 =>
          cases hcc : (segments c).getLast? with
          | none =>
            simp only [hb, hcc, Ordering.then] at h2
            rw [compare_isLE] at h2
            have e1 := (hlen c).1 hcc
            have e2 : (segments b).length = 0 := by omega
            rw [← hlen, hb] at e2
            cases e2
          | some d3 =>
            simp only [ha, hb, hcc] at h1 h2 ⊢
            have := ((hc.on (Q := fun _ : Str × Nat => True) (fun p => pctDecodeStr E.lossy p.1) (by simp)).andThen'
              ((CmpOrd.linear (α := Nat) (fun _ => True)).on (fun p : Str × Nat => p.2) (by simp))).trans
              (d1, (segments a).length) (d2, (segments b).length) (d3, (segments c).length) trivial trivial trivial
            exact this h1 h2

variable {E}

/-- The comparison as a lexicographic combination. -/
theorem compareMatch_eq {S : N → Prop} (h : E.Ordered S) (m1 m2 : SMatch N K) (h1 : S m1.node) (h2 : S m2.node) :
    compareMatch E m1 m2 =
      (((((comparePath E (E.path m1.node) (E.path m2.node)).then (compareToken E m1.node m2.node)).then
        (E.coll (splitPathName ((E.name m1.node).getD [])).2 (splitPathName ((E.name m2.node).getD [])).2)).then
        (compare m1.node m2.node)).then (compare m1.key m2.key)) := by
  obtain ⟨a, ha⟩ := Option.ne_none_iff_exists'.1 (h.named _ h1)
  obtain ⟨b, hb⟩ := Option.ne_none_iff_exists'.1 (h.named _ h2)
  unfold compareMatch
  by_cases he : m1.node = m2.node
  · rw [if_pos he, ← he]
    rw [(comparePath_ord E h.coll).self trivial, h.coll.self trivial, (CmpOrd.linear (α := N) (fun _ => True)).self trivial]
    have : compareToken E m1.node m1.node = .eq := by
      unfold compareToken
      split
      · cases E.leftTok m1.node with
        | none => rfl
        | some t => simp [h.irrefl t]
      · rfl
    rw [this]
    rfl
  · rw [if_neg he]
    simp only [ha, hb, SortEnv.path, Option.getD_some, Ordering.then_assoc]
    have hne : compare m1.node m2.node ≠ .eq := fun hc => he (compare_eq_iff_eq.1 hc)
    congr 3
    cases hc : compare m1.node m2.node <;> simp [hc] at hne ⊢

theorem compareToken_swap {S : N → Prop} (h : E.Ordered S) (a b : N) : compareToken E a b = (compareToken E b a).swap := by
  unfold compareToken
  split
  · cases ha : E.leftTok a with
    | none => cases hb : E.leftTok b <;> rfl
    | some ta =>
      cases hb : E.leftTok b with
      | none => rfl
      | some tb =>
        simp only
        cases h1 : E.conn ta tb with
        | true =>
          cases h2 : E.conn tb ta with
          | true => have := h.trans _ _ _ h1 h2; rw [h.irrefl] at this; cases this
          | false => rfl
        | false => cases h2 : E.conn tb ta <;> rfl
  · rfl

/-- C34, restricted to the conditions of `SortEnv.Ordered`: the comparison of matches is total and transitive. -/
theorem compareMatch_ord {S : N → Prop} (h : E.Ordered S) : CmpOrd (fun m : SMatch N K => S m.node) (compareMatch E) := by
  have hp : CmpOrd (fun m : SMatch N K => S m.node) fun m1 m2 => comparePath E (E.path m1.node) (E.path m2.node) :=
    (comparePath_ord E h.coll).on (fun m : SMatch N K => E.path m.node) (by simp)
  have ht : CmpOrd (fun m : SMatch N K => S m.node) fun m1 m2 =>
      (comparePath E (E.path m1.node) (E.path m2.node)).then (compareToken E m1.node m2.node) := by
    refine hp.andThen (fun a b _ _ _ => compareToken_swap h _ _) ?_
    intro a b c ha hb hc e1 e2 e3 h1 h2
    unfold compareToken at h1 h2 ⊢
    split
    · rename_i htx
      simp only [htx, if_true] at h1 h2
      rcases h.chain _ _ ha hb e1 with ⟨n1, n2⟩ | ⟨ta, tb, n1, n2, o1⟩
      · simp [n1]
      · rcases h.chain _ _ hb hc e2 with ⟨n3, n4⟩ | ⟨tb', tc, n3, n4, o2⟩
        · rw [n2] at n3; cases n3
        · rw [n2] at n3
          cases n3
          simp only [n1, n2, n4] at h1 h2 ⊢
          rcases h.chain _ _ ha hc e3 with ⟨n5, _⟩ | ⟨ta', tc', n5, n6, o3⟩
          · rw [n1] at n5; cases n5
          · rw [n1] at n5; rw [n4] at n6
            cases n5; cases n6
            -- the tokens are not behind each other
            have f1 : ta = tb ∨ E.conn ta tb = true := by
              rcases o1 with o | o | o
              · exact Or.inl o
              · exact Or.inr o
              · cases hx : E.conn ta tb with
                | true => exact Or.inr rfl
                | false => simp [hx, o] at h1
            have f2 : tb = tc ∨ E.conn tb tc = true := by
              rcases o2 with o | o | o
              · exact Or.inl o
              · exact Or.inr o
              · cases hx : E.conn tb tc with
                | true => exact Or.inr rfl
                | false => simp [hx, o] at h2
            have f3 : ta = tc ∨ E.conn ta tc = true := by
              rcases f1 with rfl | f1
              · exact f2
              · rcases f2 with rfl | f2
                · exact Or.inr f1
                · exact Or.inr (h.trans _ _ _ f1 f2)
            rcases f3 with rfl | f3
            · simp [h.irrefl]
            · simp [f3]
    · rfl
  have hn := ht.andThen' ((h.coll).on (Q := fun m : SMatch N K => S m.node) (fun m => (splitPathName ((E.name m.node).getD [])).2) (by simp))
  have hi := hn.andThen' ((CmpOrd.linear (α := N) (fun _ => True)).on (Q := fun m : SMatch N K => S m.node) (fun m => m.node) (by simp))
  have hk := hi.andThen' ((CmpOrd.linear (α := K) (fun _ => True)).on (Q := fun m : SMatch N K => S m.node) (fun m => m.key) (by simp))
  exact hk.congr fun a b ha hb => compareMatch_eq h a b ha hb

theorem compareMatch_antisymm {m1 m2 : SMatch N K} (h : compareMatch E m1 m2 = .eq) : m1 = m2 := by
  unfold compareMatch at h
  by_cases he : m1.node = m2.node
  · rw [if_pos he] at h
    have hk : m1.key = m2.key := compare_eq_iff_eq.1 h
    cases m1; cases m2; simp_all
  · rw [if_neg he] at h
    have hne : compare m1.node m2.node ≠ .eq := fun hc => he (compare_eq_iff_eq.1 hc)
    exfalso
    revert h
    cases E.name m1.node with
    | none => exact hne
    | some a =>
      cases E.name m2.node with
      | none => exact hne
      | some b =>
        simp only
        intro h
        simp only [Ordering.then_eq_eq] at h
        exact hne h.2.2.2

/-- C34, restricted to the conditions of `SortEnv.Ordered`: the order of the results is total, transitive, and only equal matches
are equal. Missing: corpora in which these conditions do not hold, e.g. documents with several texts (`C34_fails`). -/
theorem C34_total_order_partial {S : N → Prop} (h : E.Ordered S) :
    CmpOrd (fun g : List (SMatch N K) => ∀ m ∈ g, S m.node) (compareGroup E) ∧
    ∀ g1 g2 : List (SMatch N K), (∀ m ∈ g1, S m.node) → (compareGroup E g1 g2 = .eq ↔ g1 = g2) := by
  have hg := (lexLen_ord (compareMatch_ord (K := K) h) .gt (by simp)).congr fun a b _ _ => zipCmp_gt (cmp := compareMatch E) a b
  refine ⟨hg, ?_⟩
  intro g1 g2 h1
  constructor
  · intro e
    unfold compareGroup at e
    rw [zipCmp_gt] at e
    exact lexLen_eq (P := fun _ => True) (by simp) (fun _ _ _ _ => compareMatch_antisymm) g1 g2 (by simp) (by simp) e
  · rintro rfl
    exact hg.self h1

end

/-! ### The result does not depend on the random numbers -/

/-- With a total order the first `n` entries of a partially sorted permutation are determined. -/
theorem take_eq_of_firstSorted {α : Type} {le : α → α → Prop} (ht : TotalPre le) (ha : ∀ x y, le x y → le y x → x = y)
    {n : Nat} {l1 l2 : List α} (hp : l1.Perm l2) (h1 : FirstSorted le n l1) (h2 : FirstSorted le n l2) : l1.take n = l2.take n := by
  classical
  have sorted : ∀ l : List α, FirstSorted le n l → (l.take n ++ (l.drop n).insertionSort le).Pairwise le := by
    intro l h
    rw [List.pairwise_append]
    refine ⟨?_, ?_, ?_⟩
    · rw [List.pairwise_iff_getElem]
      intro i j hi hj hij
      simp only [List.length_take] at hi hj
      exact h i j _ _ hij (by omega) (by rw [List.getElem_take]; exact List.getElem?_eq_getElem (by omega))
        (by rw [List.getElem_take]; exact List.getElem?_eq_getElem (by omega))
    · haveI : Std.Total le := ⟨ht.total⟩
      haveI : IsTrans α le := ⟨ht.trans⟩
      exact List.pairwise_insertionSort le _
    · intro x hx y hy
      have hy := (List.perm_insertionSort le _).mem_iff.1 hy
      obtain ⟨i, hi, rfl⟩ := List.mem_iff_getElem.1 hx
      obtain ⟨j, hj, rfl⟩ := List.mem_iff_getElem.1 hy
      simp only [List.length_take] at hi
      simp only [List.length_drop] at hj
      exact h i (n + j) _ _ (by omega) (by omega) (by rw [List.getElem_take]; exact List.getElem?_eq_getElem (by omega))
        (by rw [List.getElem_drop]; exact List.getElem?_eq_getElem (by omega))
  have perm : ∀ l : List α, (l.take n ++ (l.drop n).insertionSort le).Perm l := by
    intro l
    conv_rhs => rw [← List.take_append_drop n l]
    exact (List.Perm.refl _).append (List.perm_insertionSort le _)
  have heq := ((perm l1).trans (hp.trans (perm l2).symm)).eq_of_pairwise (fun a b _ _ h1 h2 => ha a b h1 h2) (sorted l1 h1) (sorted l2 h2)
  exact List.append_inj_left heq (by simp [hp.length_eq])

section
variable {N K : Type} [LinearOrder N] [LinearOrder K] {E : SortEnv N}

/-- A group of matches whose nodes are in `S`. -/
abbrev SGroup (K : Type) (S : N → Prop) := { g : List (SMatch N K) // ∀ m ∈ g, S m.node }

/-- The comparison function of the sort for the normal and the inverted order (corpusstorage.rs 1765-1797). -/
def orderFunc (E : SortEnv N) (S : N → Prop) (inverted : Bool) (a b : SGroup K S) : Option Ordering :=
  some (if inverted then (compareGroup E a.1 b.1).swap else compareGroup E a.1 b.1)

/-- The order of the results. -/
def groupLe (E : SortEnv N) (S : N → Prop) (inverted : Bool) (a b : SGroup K S) : Prop :=
  if inverted then (compareGroup E b.1 a.1).isLE = true else (compareGroup E a.1 b.1).isLE = true

theorem groupLe_pre {S : N → Prop} (h : E.Ordered S) (inv : Bool) : TotalPre (groupLe (K := K) E S inv) := by
  have ho := (C34_total_order_partial (K := K) h).1
  have tot : ∀ x y : SGroup K S, (compareGroup E x.1 y.1).isLE = true ∨ (compareGroup E y.1 x.1).isLE = true := by
    intro x y
    have := ho.swap x.1 y.1 x.2 y.2
    cases hc : compareGroup E x.1 y.1 <;> cases hd : compareGroup E y.1 x.1 <;> simp [hc, hd] at this ⊢
  cases inv with
  | false => exact ⟨fun x y z h1 h2 => ho.trans _ _ _ x.2 y.2 z.2 h1 h2, tot⟩
  | true => exact ⟨fun x y z h1 h2 => ho.trans _ _ _ z.2 y.2 x.2 h2 h1, fun x y => (tot x y).symm⟩

theorem groupLe_antisymm {S : N → Prop} (h : E.Ordered S) (inv : Bool) (x y : SGroup K S) (h1 : groupLe E S inv x y)
    (h2 : groupLe E S inv y x) : x = y := by
  have ho := C34_total_order_partial (K := K) h
  have hs := ho.1.swap x.1 y.1 x.2 y.2
  have e : compareGroup E x.1 y.1 = .eq := by
    cases inv <;> simp only [groupLe, Bool.false_eq_true, if_false, if_true] at h1 h2 <;>
      cases hc : compareGroup E x.1 y.1 <;> cases hd : compareGroup E y.1 x.1 <;> simp [hc, hd] at h1 h2 hs ⊢
  exact Subtype.ext ((ho.2 x.1 y.1 x.2).1 e)

theorem orderFunc_agrees {S : N → Prop} (h : E.Ordered S) (inv : Bool) : Agrees (orderFunc (K := K) E S inv) (groupLe E S inv) := by
  intro x y o he
  have hs := (C34_total_order_partial (K := K) h).1.swap y.1 x.1 y.2 x.2
  simp only [orderFunc, Option.some.injEq] at he
  subst he
  cases inv <;> simp only [groupLe, Bool.false_eq_true, if_false, if_true] <;> rw [hs] <;> cases compareGroup E x.1 y.1 <;> simp

/-- C34: under the same conditions the sorted part of the result does not depend on the random numbers of the sort, nor on the
order in which the matches were found. -/
theorem C34_deterministic_partial {S : N → Prop} (h : E.Ordered S) (inv : Bool) (n f1 f2 : Nat) (r1 r2 : List (Nat × Nat × Nat))
    (l1 l2 s1 s2 : List (SGroup K S)) (hp : l1.Perm l2) (h1 : sortFirstN (orderFunc E S inv) n f1 r1 l1 = some s1)
    (h2 : sortFirstN (orderFunc E S inv) n f2 r2 l2 = some s2) : s1.take n = s2.take n := by
  obtain ⟨p1, q1⟩ := C33_sort_first_n (orderFunc_agrees h inv) (groupLe_pre h inv) n f1 r1 l1 s1 h1
  obtain ⟨p2, q2⟩ := C33_sort_first_n (orderFunc_agrees h inv) (groupLe_pre h inv) n f2 r2 l2 s2 h2
  exact take_eq_of_firstSorted (groupLe_pre h inv) (groupLe_antisymm h inv) (p1.trans (hp.trans p2.symm)) q1 q2

end

/-! ### Examples -/

namespace CompareEx

/-- Three nodes of one document: the token of 0 is before the token of 1, node 2 has no token (or one of another text). -/
def env (tok2 : Option Nat) : SortEnv Nat where
  name := fun n => match n with | 0 => some "d#z".toList | 1 => some "d#x".toList | 2 => some "d#y".toList | _ => none
  leftTok := fun n => match n with | 0 => some 0 | 1 => some 1 | _ => tok2
  conn := fun a b => decide (a = 0 ∧ b = 1)
  text := true
  coll := defaultColl
  quirks := false
  lossy := fun _ => []

def m (n : Nat) : List (SMatch Nat Nat) := [⟨n, 0⟩]

/-- C34 fails: 0 < 1 < 2 < 0. The third node has no token, or a token of another text of the same document. -/
theorem C34_fails :
    (compareGroup (env none) (m 0) (m 1) = .lt ∧ compareGroup (env none) (m 1) (m 2) = .lt ∧ compareGroup (env none) (m 2) (m 0) = .lt) ∧
    (compareGroup (env (some 7)) (m 0) (m 1) = .lt ∧ compareGroup (env (some 7)) (m 1) (m 2) = .lt ∧
      compareGroup (env (some 7)) (m 2) (m 0) = .lt) := by decide

/-- The conditions hold for the first two nodes, which are in one text (in the order of the tokens and not of the names), -/
theorem ordered : (env none).Ordered fun n => n = 0 ∨ n = 1 where
  coll := defaultColl_ord
  named := by rintro n (rfl | rfl) <;> simp [env]
  irrefl := by intro t; simp [env]; omega
  trans := by intro a b c h1 h2; simp [env] at h1 h2 ⊢; omega
  chain := by
    rintro a b (rfl | rfl) (rfl | rfl) _
    · exact Or.inr ⟨0, 0, rfl, rfl, Or.inl rfl⟩
    · exact Or.inr ⟨0, 1, rfl, rfl, Or.inr (Or.inl rfl)⟩
    · exact Or.inr ⟨1, 0, rfl, rfl, Or.inr (Or.inr rfl)⟩
    · exact Or.inr ⟨1, 1, rfl, rfl, Or.inl rfl⟩

theorem C34_nonvacuous : compareGroup (env none) (m 0) (m 1) = .lt ∧ compareGroup (env none) (m 0 ++ m 1) (m 0) = .lt := by decide

end CompareEx
