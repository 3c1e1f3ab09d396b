import Verif.Token.Model
import Mathlib.Data.List.Induction
import Verif.Op.TextProps
import Verif.Sort.PermProps

/-!
# C49: the token search returns every token once
-/

set_option linter.unusedSimpArgs false
set_option linter.unusedSectionVars false
set_option linter.unusedVariables false

open Walk

namespace TokenSearch

variable {N : Type}

/-- What the storage of the order of the tokens answers. -/
structure OrderIs (o : OrderStore N) (O : N → N → Prop) (D : N → Prop) : Prop where
  g : ∃ Rg, o.g.Is O D Rg ∧ Rg 0 .unbounded
  hasIn : ∀ n, ∃ b, o.hasIn n = some b ∧ (b = true ↔ ∃ a, O a n)
  roots : ∃ l, o.roots = some l ∧ l.Nodup ∧ ∀ r, r ∈ l ↔ (∃ b, O r b) ∧ ¬ ∃ a, O a r

/-- The node is a token: it has the annotation and no outgoing coverage edge. -/
def IsTok (toks : List N) (Cov : N → N → Prop) (n : N) : Prop := n ∈ toks ∧ ¬ ∃ t, Cov n t

/-- The coverage components answer correctly. -/
def CovIs (cov : List (GStore N)) (Cov : N → N → Prop) : Prop :=
  ∃ E : GStore N → N → N → Prop, (∀ c ∈ cov, ∃ D Rg, c.Is (E c) D Rg) ∧ ∀ a b, Cov a b ↔ ∃ c ∈ cov, E c a b

theorem CovIs.hasCov {cov : List (GStore N)} {Cov : N → N → Prop} (h : CovIs cov Cov) (n : N) :
    ∃ b, TokenHelper.hasCov n cov = some b ∧ (b = true ↔ ∃ t, Cov n t) := by
  obtain ⟨E, h1, h2⟩ := h
  obtain ⟨b, h3, h4⟩ := TokenHelper.hasCov_spec (E := E) n h1
  exact ⟨b, h3, by rw [h4]; simp only [h2]⟩

theorem flatMapOpt_filter {f : N → Option Bool} {P : N → Prop} : ∀ {l : List N},
    (∀ n ∈ l, ∃ b, f n = some b ∧ (b = true ↔ P n)) → l.Nodup →
    ∃ r, flatMapOpt (fun n => (f n).map fun b => if b then [n] else []) l = some r ∧ r.Nodup ∧ ∀ n, n ∈ r ↔ n ∈ l ∧ P n := by
  intro l
  induction l with
  | nil => intro _ _; exact ⟨[], rfl, List.nodup_nil, by simp⟩
  | cons x l ih =>
    intro h hn
    rw [List.nodup_cons] at hn
    obtain ⟨b, h1, h2⟩ := h x (by simp)
    obtain ⟨r, h3, h4, h5⟩ := ih (fun n hn => h n (by simp [hn])) hn.2
    refine ⟨(if b then [x] else []) ++ r, by simp [flatMapOpt, h1, h3], ?_, ?_⟩
    · cases b with
      | false => simpa using h4
      | true =>
        simp only [if_true, List.cons_append, List.nil_append, List.nodup_cons]
        exact ⟨fun hx => hn.1 ((h5 x).1 hx).1, h4⟩
    · intro n
      cases b with
      | false =>
        have : ¬ P x := fun hp => by simpa using h2.2 hp
        simp only [Bool.false_eq_true, if_false, List.nil_append, h5, List.mem_cons]
        constructor
        · rintro ⟨a, b⟩; exact ⟨Or.inr a, b⟩
        · rintro ⟨rfl | a, b⟩
          · exact absurd b this
          · exact ⟨a, b⟩
      | true =>
        have hp := h2.1 rfl
        simp only [if_true, List.cons_append, List.nil_append, List.mem_cons, h5]
        constructor
        · rintro (rfl | ⟨a, b⟩)
          · exact ⟨Or.inl rfl, hp⟩
          · exact ⟨Or.inr a, b⟩
        · rintro ⟨rfl | a, b⟩
          · exact Or.inl rfl
          · exact Or.inr ⟨a, b⟩

/-- The lists of different elements share no entry. -/
theorem flatMapOpt_disjoint {α β : Type} {f : α → Option (List β)} {P : α → β → Prop} (hd : ∀ x y b, P x b → P y b → x = y) :
    ∀ {l : List α}, (∀ x ∈ l, ∃ r, f x = some r ∧ r.Nodup ∧ ∀ b, b ∈ r ↔ P x b) → l.Nodup →
    ∃ r, flatMapOpt f l = some r ∧ r.Nodup ∧ ∀ b, b ∈ r ↔ ∃ x ∈ l, P x b := by
  intro l
  induction l with
  | nil => intro _ _; exact ⟨[], rfl, List.nodup_nil, by simp⟩
  | cons x l ih =>
    intro h hn
    rw [List.nodup_cons] at hn
    obtain ⟨r1, h1, h2, h3⟩ := h x (by simp)
    obtain ⟨r2, h4, h5, h6⟩ := ih (fun n hn => h n (by simp [hn])) hn.2
    refine ⟨r1 ++ r2, by simp [flatMapOpt, h1, h4], ?_, by simp [h3, h6]⟩
    rw [List.nodup_append]
    refine ⟨h2, h5, ?_⟩
    intro b hb c hc
    rintro rfl
    obtain ⟨y, hy, hp⟩ := (h6 b).1 hc
    rw [hd x y b ((h3 b).1 hb) hp] at hn
    exact hn.1 hy

section
variable {o : OrderStore N} {O : N → N → Prop} {D : N → Prop} {cov : List (GStore N)} {Cov : N → N → Prop} {toks : List N}

/-- C49, restricted: if the order links only tokens in disjoint chains, the storage of the order knows all tokens without predecessor
(a linear or pre/post order storage knows only the nodes with an edge), and the statistic is not wrongly true, then every successful
search returns each token once and nothing else.  Missing: `C49_statistic_fails` and `C49_linear_fails`. -/
theorem C49_token_search_partial (ho : OrderIs o O D) (hc : CovIs cov Cov) (hO : Linear.Chains O) (hn : toks.Nodup)
    (hl : ∀ a b, O a b → IsTok toks Cov a ∧ IsTok toks Cov b) {stat : Bool}
    (hs : stat = true → ∀ n, IsTok toks Cov n → ∃ b, O n b ∨ O b n)
    (hd : ∀ n, IsTok toks Cov n → (¬ ∃ a, O a n) → D n)
    (cmp : N → N → Option Ordering) (fuel : Nat) (rs : List (Nat × Nat × Nat)) {res : List N}
    (h : search (some o) (some cov) stat toks cmp fuel rs = some res) :
    res.Nodup ∧ ∀ n, n ∈ res ↔ IsTok toks Cov n := by
  have hroots : ∃ l, rootTokens (some o) (some cov) stat toks = some l ∧ l.Nodup ∧
      ∀ r, r ∈ l ↔ IsTok toks Cov r ∧ ¬ ∃ a, O a r := by
    cases stat with
    | true =>
      obtain ⟨l, h1, h2, h3⟩ := ho.roots
      refine ⟨l, h1, h2, fun r => ?_⟩
      rw [h3]
      constructor
      · rintro ⟨⟨b, hb⟩, h4⟩; exact ⟨(hl r b hb).1, h4⟩
      · rintro ⟨h4, h5⟩
        obtain ⟨b, hb | hb⟩ := hs rfl r h4
        · exact ⟨⟨b, hb⟩, h5⟩
        · exact absurd ⟨b, hb⟩ h5
    | false =>
      obtain ⟨l, h1, h2, h3⟩ := flatMapOpt_filter (f := isRootTok (some o) (some cov))
        (P := fun n => (¬ ∃ t, Cov n t) ∧ ¬ ∃ a, O a n) (l := toks) (by
          intro n _
          obtain ⟨b, h1, h2⟩ := ho.hasIn n
          obtain ⟨c, h3, h4⟩ := hc.hasCov n
          cases b with
          | true => exact ⟨false, by simp [isRootTok, h1], by simp [h2.1 rfl]⟩
          | false =>
            have : ¬ ∃ a, O a n := fun ha => by simpa using h2.2 ha
            refine ⟨!c, by simp [isRootTok, h1, h3], ?_⟩
            rw [← h4]; simp [this]) hn
      refine ⟨l, h1, h2, fun r => ?_⟩
      rw [h3]
      unfold IsTok
      tauto
  obtain ⟨l, h1, h2, h3⟩ := hroots
  obtain ⟨Rg, hg, hR⟩ := ho.g
  unfold search at h
  rw [h1] at h
  simp only [Option.bind_eq_bind, Option.bind_some, Option.bind_eq_some_iff] at h
  obtain ⟨sorted, h4, h5⟩ := h
  have hp := sortAll_perm h4
  obtain ⟨r, h6, h7, h8⟩ := flatMapOpt_disjoint (f := rootIterator (some o))
    (P := fun r b => IsTok toks Cov r ∧ (¬ ∃ a, O a r) ∧ ∃ d, WalkLen O r b d)
    (by
      rintro x y b ⟨_, hx, d, hw⟩ ⟨_, hy, d', hw'⟩
      exact (root_unique hO.inj hw hw' hx hy).1)
    (l := sorted.reverse) (by
      intro x hx
      have hx := (h3 x).1 (hp.mem_iff.1 (List.mem_reverse.1 hx))
      obtain ⟨r, h6, h7, h8⟩ := hg.find x 0 .unbounded hR
      refine ⟨r, h6, h7, fun b => ?_⟩
      rw [h8]
      constructor
      · rintro ⟨_, d, hd, _⟩; exact ⟨hx.1, hx.2, d, hd.walk⟩
      · rintro ⟨_, _, d, hw⟩
        exact ⟨hd x hx.1 hx.2, d, simple_of_acyclic hO.ac hw, by simp [Within]⟩)
    (List.nodup_reverse.2 (hp.nodup_iff.2 h2))
  rw [h5] at h6
  injection h6 with h6
  subst h6
  refine ⟨h7, fun n => ?_⟩
  rw [h8]
  simp only [List.mem_reverse, hp.mem_iff, h3]
  constructor
  · rintro ⟨r, ⟨hr, _⟩, _, _, d, hw⟩
    cases d with
    | zero => rw [← walkLen_zero.1 hw]; exact hr
    | succ d =>
      obtain ⟨c, _, hc⟩ := walkLen_snoc.1 hw
      exact (hl c n hc).2
  · intro ht
    obtain ⟨r, d, hw, hr⟩ := Walk.exists_root hO.ac (V := toks) (fun a b hab => (hl a b hab).2.1) n
    have hrt : IsTok toks Cov r := by
      cases d with
      | zero => rw [walkLen_zero.1 hw]; exact ht
      | succ d =>
        obtain ⟨c, hc, _⟩ := walkLen_succ.1 hw
        exact (hl r c hc).1
    exact ⟨r, ⟨hrt, hr⟩, hrt, hr, d, hw⟩

/-- C49: without an order of tokens all nodes with a token annotation that cover nothing are returned once. -/
theorem C49_no_order (hc : CovIs cov Cov) (hn : toks.Nodup) (stat : Bool) (cmp : N → N → Option Ordering) (fuel : Nat)
    (rs : List (Nat × Nat × Nat)) {res : List N} (h : search none (some cov) stat toks cmp fuel rs = some res) :
    res.Nodup ∧ ∀ n, n ∈ res ↔ IsTok toks Cov n := by
  obtain ⟨l, h1, h2, h3⟩ := flatMapOpt_filter (f := isRootTok none (some cov)) (P := fun n => ¬ ∃ t, Cov n t) (l := toks) (by
    intro n _
    obtain ⟨c, h3, h4⟩ := hc.hasCov n
    refine ⟨!c, by simp [isRootTok, h3], ?_⟩
    rw [← h4]; simp) hn
  have h1 : rootTokens none (some cov) stat toks = some l := by cases stat <;> exact h1
  unfold search at h
  rw [h1] at h
  simp only [Option.bind_eq_bind, Option.bind_some, Option.bind_eq_some_iff] at h
  obtain ⟨sorted, h4, h5⟩ := h
  have hp := sortAll_perm h4
  obtain ⟨r, h6, h7, h8⟩ := flatMapOpt_disjoint (f := rootIterator (none : Option (OrderStore N))) (P := fun x b => b = x)
    (by rintro x y b rfl rfl; rfl) (l := sorted.reverse) (fun x _ => ⟨[x], rfl, List.nodup_singleton x, by simp⟩)
    (List.nodup_reverse.2 (hp.nodup_iff.2 h2))
  rw [h5] at h6
  injection h6 with h6
  subst h6
  refine ⟨h7, fun n => ?_⟩
  rw [h8]
  simp only [List.mem_reverse, hp.mem_iff, exists_eq_right', h3]
  rfl

/-- Specification of the statistic: all tokens are in the order component. -/
def AllOrdered (toks : List N) (Cov O : N → N → Prop) : Prop := ∀ n, IsTok toks Cov n → ∃ b, O n b ∨ O b n

theorem statStep_spec (ho : OrderIs o O D) (hc : CovIs cov Cov) (acc : Bool) (n : N) :
    ∃ b, statStep o cov acc n = some b ∧
      ((∃ t, Cov n t) → b = acc) ∧ ((¬ ∃ t, Cov n t) → (b = true ↔ (acc = true ∧ ∃ b, O n b) ∨ ∃ a, O a n)) := by
  obtain ⟨Rg, hg, _⟩ := ho.g
  obtain ⟨c, h1, h2⟩ := hc.hasCov n
  obtain ⟨x, h3, h4⟩ := hg.hasOut n
  obtain ⟨y, h5, h6⟩ := ho.hasIn n
  unfold statStep
  rw [h1]
  cases c with
  | true => exact ⟨acc, rfl, fun _ => rfl, fun h => absurd (h2.1 rfl) h⟩
  | false =>
    have hno : ¬ ∃ t, Cov n t := fun hh => by simpa using h2.2 hh
    rw [h3, h5]
    cases acc with
    | false => exact ⟨y, rfl, fun h => absurd h hno, fun _ => by simp [h6]⟩
    | true =>
      cases x with
      | true => exact ⟨true, rfl, fun h => absurd h hno, fun _ => by simp [h4.1 rfl]⟩
      | false =>
        refine ⟨y, rfl, fun h => absurd h hno, fun _ => ?_⟩
        have : ¬ ∃ b, O n b := fun hh => by simpa using h4.2 hh
        simp [h6, this]

/-- C49: the exact meaning of the computed statistic.  A token outside of the order makes it false only if no token with a
predecessor follows in the search (`&&` binds stronger than `||`). -/
theorem C49_statistic_meaning (ho : OrderIs o O D) (hc : CovIs cov Cov) :
    ∃ b, statistic (some o) cov toks = some b ∧
      (b = true ↔ ∀ l1 n l2, toks = l1 ++ n :: l2 → (¬ ∃ t, Cov n t) → (∃ b, O n b ∨ O b n) ∨
        ∃ m ∈ l2, (¬ ∃ t, Cov m t) ∧ ∃ a, O a m) := by
  unfold statistic
  simp only
  induction toks using List.reverseRecOn with
  | nil => exact ⟨true, rfl, by simp⟩
  | append_singleton l x ih =>
    obtain ⟨b, h1, h2⟩ := ih
    obtain ⟨b', h3, h4, h5⟩ := statStep_spec ho hc b x
    refine ⟨b', by rw [List.foldlM_append, h1]; simp [h3], ?_⟩
    constructor
    · intro hb l1 n l2 he hn
      rcases List.eq_nil_or_concat l2 with rfl | ⟨l2, y, rfl⟩
      · obtain ⟨rfl, e⟩ := List.append_inj' he rfl
        injection e with e
        subst e
        rcases (h5 hn).1 hb with ⟨_, c, hc⟩ | ⟨a, ha⟩
        · exact Or.inl ⟨c, Or.inl hc⟩
        · exact Or.inl ⟨a, Or.inr ha⟩
      · rw [List.concat_eq_append, show l1 ++ n :: (l2 ++ [y]) = (l1 ++ n :: l2) ++ [y] by simp] at he
        obtain ⟨rfl, e⟩ := List.append_inj' he rfl
        injection e with e
        subst e
        by_cases hx : ∃ t, Cov x t
        · have := h4 hx
          rw [this] at hb
          rcases h2.1 hb l1 n l2 rfl hn with h | ⟨m, hm, h⟩
          · exact Or.inl h
          · exact Or.inr ⟨m, by simp [hm], h⟩
        · rcases (h5 hx).1 hb with ⟨hb, _⟩ | h
          · rcases h2.1 hb l1 n l2 rfl hn with h | ⟨m, hm, h⟩
            · exact Or.inl h
            · exact Or.inr ⟨m, by simp [hm], h⟩
          · exact Or.inr ⟨x, by simp, hx, h⟩
    · intro h
      by_cases hx : ∃ t, Cov x t
      · rw [h4 hx, h2]
        intro l1 n l2 he hn
        rcases h l1 n (l2 ++ [x]) (by simp [he]) hn with h | ⟨m, hm, h6, h7⟩
        · exact Or.inl h
        · simp only [List.mem_append, List.mem_singleton] at hm
          rcases hm with hm | rfl
          · exact Or.inr ⟨m, hm, h6, h7⟩
          · exact absurd hx h6
      · rw [h5 hx]
        rcases h l x [] rfl hx with ⟨c, hc | hc⟩ | ⟨m, hm, _⟩
        · by_cases hi : ∃ a, O a x
          · exact Or.inr hi
          · refine Or.inl ⟨?_, c, hc⟩
            rw [h2]
            intro l1 n l2 he hn
            rcases h l1 n (l2 ++ [x]) (by simp [he]) hn with h | ⟨m, hm, h6, h7⟩
            · exact Or.inl h
            · simp only [List.mem_append, List.mem_singleton] at hm
              rcases hm with hm | rfl
              · exact Or.inr ⟨m, hm, h6, h7⟩
              · exact absurd h7 hi
        · exact Or.inr ⟨c, hc⟩
        · simp at hm

/-- C49: search with the statistic as it is computed, restricted to orders that contain all tokens. -/
theorem C49_all_ordered (ho : OrderIs o O D) (hc : CovIs cov Cov) (hO : Linear.Chains O) (hn : toks.Nodup)
    (hl : ∀ a b, O a b → IsTok toks Cov a ∧ IsTok toks Cov b) (hs : ∀ n, IsTok toks Cov n → ∃ b, O n b ∨ O b n)
    (cmp : N → N → Option Ordering) (fuel : Nat) (rs : List (Nat × Nat × Nat)) :
    ∃ stat, statistic (some o) cov toks = some stat ∧ ∀ res, search (some o) (some cov) stat toks cmp fuel rs = some res →
      res.Nodup ∧ ∀ n, n ∈ res ↔ IsTok toks Cov n := by
  obtain ⟨b, h1, _⟩ := C49_statistic_meaning (toks := toks) ho hc
  obtain ⟨Rg, hg, _⟩ := ho.g
  refine ⟨b, h1, fun res h => C49_token_search_partial ho hc hO hn hl (fun _ => hs) ?_ cmp fuel rs h⟩
  intro n ht _
  obtain ⟨b, hb | hb⟩ := hs n ht
  · exact (hg.dom n b hb).1
  · exact (hg.dom b n hb).2

end

end TokenSearch

/-! ## The storages -/

section
variable {N S W : Type} [LinearOrder N] [LinearOrder S] [OrderBot S] [LinearOrder W]

/-- An adjacency list as storage of the order. -/
def Adj.asOrder (g : Adj N S W) : OrderStore N :=
  { g := g.asGStore, hasIn := fun n => some (!(g.inn n).isEmpty), roots := some g.roots }

/-- A linear storage as storage of the order. -/
def Linear.asOrder (cap : Nat) (g : Linear N S W) : OrderStore N :=
  { g := g.asGStore cap, hasIn := fun n => some (g.hasIn n), roots := some g.roots }

theorem Adj.asOrder_is [U64 N] (ops : List (Adj.Op N S W)) :
    TokenSearch.OrderIs (Adj.run ops).asOrder (fun a b => (Adj.spec ops).edge a b = true) (fun _ => True) := by
  have hs := Adj.asSource_is ops
  refine ⟨⟨_, Adj.asGStore_is ops, by simp [GStore.anyRange]⟩, ?_, ⟨_, rfl, (Adj.C13_edges_in_sync ops).2.2.2.2.2.2.1.filter _, fun r => hs.root_iff r⟩⟩
  intro n
  obtain ⟨l, h1, _, h3⟩ := (Adj.asGStore_is ops).inn n
  refine ⟨_, rfl, ?_⟩
  have : l = (Adj.run ops).inn n := by simpa [Adj.asGStore] using h1.symm
  rw [← this]
  cases l with
  | nil =>
    have : ∀ a, ¬ (Adj.spec ops).edge a n = true := fun a ha => by simpa using (h3 a).2 ha
    simp [this]
  | cons x l => simp only [List.isEmpty_cons, Bool.not_false, true_iff]; exact ⟨x, (h3 x).1 (by simp)⟩

theorem Linear.asOrder_is [U64 N] {o : Source N S W} {E : N → N → Prop} {A : N → N → AnnoKey S → Option W} (h : o.Is E A)
    (hE : Linear.Chains E) {cap : Nat} (hcap : ∀ a b d, Walk.WalkLen E a b d → d < cap) (g0 : Linear N S W) :
    TokenSearch.OrderIs ((Linear.copy cap g0 o).asOrder cap) E (InComp E) := by
  refine ⟨⟨_, Linear.asGStore_is h hE hcap g0, by simp [Linear.range]⟩, ?_, ?_⟩
  · intro n
    exact ⟨_, rfl, (Linear.C14_neighbours h hE hcap g0 n).2.2.2⟩
  · exact ⟨_, rfl, OMap.nodup_keys (Linear.copy_rep h hE hcap g0).cs, fun r => (Linear.C14_nodes h hE hcap g0 r).2⟩

end

namespace TokenSearch

/-- The order of two texts `1 2 3 4` and `7 8`; the token 5 is the only one of its text. -/
def demoToks : List NodeID64 := [5, 1, 2, 3, 4, 7, 8]

/-- A comparison by identifier. -/
def demoCmp (a b : NodeID64) : Option Ordering := some (compare a b)

/-- C49 fails: the statistic is true although the token 5 is not in the order, and the search does not return it. -/
theorem C49_statistic_fails :
    statistic (some (Adj.run Linear.demo).asOrder) [] demoToks = some true ∧
    search (some (Adj.run Linear.demo).asOrder) (some []) true demoToks demoCmp 9 [] = some [1, 2, 3, 4, 7, 8] := by decide +kernel

/-- C49 fails: with a linear storage the token is not returned even if the statistic is not true. -/
theorem C49_linear_fails :
    search (some (Linear.demoCopy.asOrder 255)) (some []) false demoToks demoCmp 9 [] = some [1, 2, 3, 4, 7, 8] := by decide +kernel

/-- With an adjacency list and a correct statistic all tokens are returned. -/
theorem C49_nonvacuous :
    search (some (Adj.run Linear.demo).asOrder) (some []) false demoToks demoCmp 9 [] = some [1, 2, 3, 4, 5, 7, 8] ∧
    (∀ res, search (some (Adj.run Linear.demo).asOrder) (some []) false demoToks demoCmp 9 [] = some res →
      res.Nodup ∧ ∀ n, n ∈ res ↔ IsTok demoToks (fun _ _ => False) n) := by
  refine ⟨by decide +kernel, fun res h => ?_⟩
  refine C49_token_search_partial (Adj.asOrder_is Linear.demo) ⟨fun _ _ _ => False, by simp, by simp⟩ Linear.demo_chains
    (by decide) ?_ (by simp) (by simp) demoCmp 9 [] h
  intro a b hab
  have hE : ∀ a b : NodeID64, (Adj.spec Linear.demo).edge a b = true →
      (a = 1 ∧ b = 2) ∨ (a = 2 ∧ b = 3) ∨ (a = 3 ∧ b = 4) ∨ (a = 7 ∧ b = 8) := Linear.demo_edges
  rcases hE a b hab with ⟨rfl, rfl⟩ | ⟨rfl, rfl⟩ | ⟨rfl, rfl⟩ | ⟨rfl, rfl⟩ <;> exact ⟨⟨by decide, by simp⟩, ⟨by decide, by simp⟩⟩

end TokenSearch
