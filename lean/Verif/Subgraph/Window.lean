import Verif.Subgraph.Model
import Verif.Op.TextProps
import Verif.Sort.Congr
import Verif.Sort.PermProps

/-!
# C55: the nodes of the context
-/

set_option linter.unusedSimpArgs false
set_option linter.unusedSectionVars false
set_option linter.unusedVariables false

open TextSpec

namespace SubgraphSpec

variable {N : Type}

/-- `t` is in the context window of the covered tokens `C`: at most `l` steps before or `r` steps after one of them, or between two of
them. -/
def InWindow (O : N → N → Prop) (C : N → Prop) (l r : Nat) (t : N) : Prop :=
  (∃ c d, C c ∧ d ≤ l ∧ Walk.WalkLen O t c d) ∨ (∃ c d, C c ∧ d ≤ r ∧ Walk.WalkLen O c t d) ∨
    ∃ c c', C c ∧ C c' ∧ Between O c t c'

/-- The tokens that are directly covered by a node. A token covers itself. -/
def CoveredTok (tok : N → Prop) (C : N → N → Prop) (n t : N) : Prop := tok t ∧ Covers tok C n t

/-- The nodes are on one text: any two are connected by the order. -/
def OneText (O : N → N → Prop) (C : N → Prop) : Prop :=
  ∀ a b, C a → C b → Relation.ReflTransGen O a b ∨ Relation.ReflTransGen O b a

/-- `s` is the first of the nodes, `e` the last. -/
def IsFirst (O : N → N → Prop) (P : N → Prop) (s : N) : Prop := P s ∧ ∀ x, P x → Relation.ReflTransGen O s x

def IsLast (O : N → N → Prop) (P : N → Prop) (e : N) : Prop := P e ∧ ∀ x, P x → Relation.ReflTransGen O x e

end SubgraphSpec

open SubgraphSpec

namespace Subgraph

variable {N : Type} [LinearOrder N]

/-! ## Lists -/

theorem filterOpt_spec {α : Type} {p : α → Option Bool} {P : α → Prop} : ∀ {l : List α},
    (∀ x ∈ l, ∃ b, p x = some b ∧ (b = true ↔ P x)) → ∃ r, filterOpt p l = some r ∧ ∀ x, x ∈ r ↔ x ∈ l ∧ P x := by
  intro l
  induction l with
  | nil => intro _; exact ⟨[], rfl, by simp⟩
  | cons y l ih =>
    intro h
    obtain ⟨b, h1, h2⟩ := h y (by simp)
    obtain ⟨r, h3, h4⟩ := ih fun x hx => h x (by simp [hx])
    refine ⟨if b then y :: r else r, by simp [filterOpt, h1, h3], fun x => ?_⟩
    cases b with
    | true =>
      have := h2.1 rfl
      simp only [if_true, List.mem_cons, h4]
      constructor
      · rintro (rfl | ⟨a, b⟩)
        · exact ⟨Or.inl rfl, this⟩
        · exact ⟨Or.inr a, b⟩
      · rintro ⟨rfl | a, b⟩
        · exact Or.inl rfl
        · exact Or.inr ⟨a, b⟩
    | false =>
      have hn : ¬ P y := fun hy => by simpa using h2.2 hy
      simp only [Bool.false_eq_true, if_false, List.mem_cons, h4]
      constructor
      · rintro ⟨a, b⟩; exact ⟨Or.inr a, b⟩
      · rintro ⟨rfl | a, b⟩
        · exact absurd b hn
        · exact ⟨a, b⟩

theorem filterOpt_mem {α : Type} {p : α → Option Bool} : ∀ {l r : List α}, filterOpt p l = some r →
    ∀ x, x ∈ r ↔ x ∈ l ∧ p x = some true := by
  intro l
  induction l with
  | nil => intro r h x; simp only [filterOpt, Option.some.injEq] at h; subst h; simp
  | cons y l ih =>
    intro r h x
    unfold filterOpt at h
    cases h1 : p y with
    | none => rw [h1] at h; simp at h
    | some b =>
      cases h2 : filterOpt p l with
      | none => rw [h1, h2] at h; simp at h
      | some r' =>
        rw [h1, h2] at h
        simp only [Option.some.injEq] at h
        subst h
        have := ih h2 x
        cases b with
        | true =>
          simp only [if_true, List.mem_cons, this]
          constructor
          · rintro (rfl | ⟨a, b⟩)
            · exact ⟨Or.inl rfl, h1⟩
            · exact ⟨Or.inr a, b⟩
          · rintro ⟨rfl | a, b⟩
            · exact Or.inl rfl
            · exact Or.inr ⟨a, b⟩
        | false =>
          simp only [Bool.false_eq_true, if_false, List.mem_cons, this]
          constructor
          · rintro ⟨a, b⟩; exact ⟨Or.inr a, b⟩
          · rintro ⟨rfl | a, b⟩
            · rw [h1] at b; simp at b
            · exact ⟨a, b⟩

theorem flatMapOpt_mem {α β : Type} {f : α → Option (List β)} : ∀ {l : List α} {res : List β}, flatMapOpt f l = some res →
    (∀ x ∈ l, ∃ r, f x = some r) ∧ ∀ b, b ∈ res ↔ ∃ x ∈ l, ∃ r, f x = some r ∧ b ∈ r := by
  intro l
  induction l with
  | nil => intro res h; simp only [flatMapOpt, Option.some.injEq] at h; subst h; simp
  | cons y l ih =>
    intro res h
    unfold flatMapOpt at h
    cases h1 : f y with
    | none => rw [h1] at h; simp at h
    | some a =>
      cases h2 : flatMapOpt f l with
      | none => rw [h1, h2] at h; simp at h
      | some c =>
        rw [h1, h2] at h
        simp only [Option.some.injEq] at h
        subst h
        obtain ⟨i1, i2⟩ := ih h2
        constructor
        · intro x hx
          rcases List.mem_cons.1 hx with rfl | hx
          · exact ⟨a, h1⟩
          · exact i1 x hx
        · intro b
          simp only [List.mem_append, i2, List.mem_cons, exists_eq_or_imp, h1, Option.some.injEq, exists_eq_left']

/-! ## Chains -/

section Chain

variable {O : N → N → Prop}

theorem between_walk (hc : Linear.Chains O) {s t e : N} (h : Between O s t e) : ∃ i j, Walk.WalkLen O s t i ∧ Walk.WalkLen O t e j := by
  obtain ⟨i, hi⟩ := Walk.reach_iff_walk.1 h.1
  obtain ⟨j, hj⟩ := Walk.reach_iff_walk.1 h.2
  exact ⟨i, j, hi, hj⟩

/-- Two nodes after a common node are comparable. -/
theorem comparable_after (hc : Linear.Chains O) {a b c : N} (h1 : Relation.ReflTransGen O a b) (h2 : Relation.ReflTransGen O a c) :
    Relation.ReflTransGen O b c ∨ Relation.ReflTransGen O c b := by
  obtain ⟨i, hi⟩ := Walk.reach_iff_walk.1 h1
  obtain ⟨j, hj⟩ := Walk.reach_iff_walk.1 h2
  rcases Nat.le_total i j with h | h
  · obtain ⟨k, rfl⟩ := Nat.exists_eq_add_of_le h
    exact Or.inl (Walk.reach_iff_walk.2 ⟨k, Walk.walk_between hc.fn hi hj⟩)
  · obtain ⟨k, rfl⟩ := Nat.exists_eq_add_of_le h
    exact Or.inr (Walk.reach_iff_walk.2 ⟨k, Walk.walk_between hc.fn hj hi⟩)

/-- Two nodes before a common node are comparable. -/
theorem comparable_before (hc : Linear.Chains O) {a b c : N} (h1 : Relation.ReflTransGen O b a) (h2 : Relation.ReflTransGen O c a) :
    Relation.ReflTransGen O b c ∨ Relation.ReflTransGen O c b := by
  induction h1 with
  | refl => exact Or.inr h2
  | @tail x y hx hxy ih =>
    rcases Relation.ReflTransGen.cases_tail h2 with rfl | ⟨z, hz, hzy⟩
    · exact Or.inl (hx.tail hxy)
    · rw [hc.inj _ _ _ hzy hxy] at hz
      exact ih hz

theorem reach_antisymm (hc : Linear.Chains O) {a b : N} (h1 : Relation.ReflTransGen O a b) (h2 : Relation.ReflTransGen O b a) : a = b := by
  rcases Relation.reflTransGen_iff_eq_or_transGen.1 h1 with h | h
  · exact h.symm
  · exact absurd (Relation.TransGen.trans_left h h2) (hc.ac a)

theorem walk_len_unique (hc : Linear.Chains O) {a b : N} {i j : Nat} (h1 : Walk.WalkLen O a b i) (h2 : Walk.WalkLen O a b j) : i = j := by
  rcases Nat.le_total i j with h | h
  · obtain ⟨k, rfl⟩ := Nat.exists_eq_add_of_le h
    have := Walk.walk_self hc.ac (Walk.walk_between hc.fn h1 h2)
    omega
  · obtain ⟨k, rfl⟩ := Nat.exists_eq_add_of_le h
    have := Walk.walk_self hc.ac (Walk.walk_between hc.fn h2 h1)
    omega

end Chain

/-! ## The offsets -/

theorem farthest_spec {find : Nat → Option (List N)} {start : N} {P : N → Nat → Prop} (h0 : P start 0) : ∀ {ctx : Nat},
    (∀ i, i ≤ ctx → ∃ l, find i = some l ∧ (∀ x ∈ l, P x i) ∧ (0 < i → l = [] → ∀ x, ¬ P x i)) →
    ∃ e, farthest find start ctx = some e ∧ ∃ d, d ≤ ctx ∧ P e d ∧ ∀ t i, i ≤ ctx → P t i → i ≤ d := by
  intro ctx
  induction ctx with
  | zero =>
    intro h
    obtain ⟨l, h1, h2, _⟩ := h 0 (le_refl _)
    cases l with
    | nil => exact ⟨start, by simp [farthest, h1], 0, le_refl _, h0, fun _ _ hi _ => hi⟩
    | cons x r => exact ⟨x, by simp [farthest, h1], 0, le_refl _, h2 x (by simp), fun _ _ hi _ => hi⟩
  | succ ctx ih =>
    intro h
    obtain ⟨l, h1, h2, h3⟩ := h (ctx + 1) (le_refl _)
    cases l with
    | cons x r => exact ⟨x, by simp [farthest, h1], ctx + 1, le_refl _, h2 x (by simp), fun _ _ hi _ => hi⟩
    | nil =>
      obtain ⟨e, e1, d, e2, e3, e4⟩ := ih fun i hi => h i (by omega)
      refine ⟨e, by simp [farthest, h1, e1], d, by omega, e3, fun t i hi hp => ?_⟩
      rcases Nat.lt_or_ge i (ctx + 1) with hlt | hge
      · exact e4 t i (by omega) hp
      · have : i = ctx + 1 := by omega
        subst this
        exact absurd hp (h3 (by omega) rfl t)

section Offsets

variable {ord : GStore N} {O : N → N → Prop} {D : N → Prop} {Rg : Nat → Bnd Nat → Prop}

theorem offsets_spec (ho : ord.Is O D Rg) (hc : Linear.Chains O) {cl cr : Nat} (hr : ∀ i, i ≤ max cl cr → Rg i (.included i)) (l r : N) :
    ∃ s e, offsets ord cl cr l r = some (s, e) ∧
      (∃ d, d ≤ cl ∧ Walk.WalkLen O s l d ∧ ∀ t i, i ≤ cl → Walk.WalkLen O t l i → i ≤ d) ∧
      (∃ d, d ≤ cr ∧ Walk.WalkLen O r e d ∧ ∀ t i, i ≤ cr → Walk.WalkLen O r t i → i ≤ d) := by
  obtain ⟨s, s1, s2⟩ := farthest_spec (find := fun ctx => ord.findConnectedInverse l ctx (.included ctx)) (start := l)
    (P := fun x d => Walk.WalkLen O x l d) (Walk.walkLen_zero.2 rfl) (ctx := cl) (by
      intro i hi
      obtain ⟨x, x1, _, x3⟩ := ho.findInv l i (.included i) (hr i (by omega))
      refine ⟨x, x1, ?_, ?_⟩
      · intro b hb
        obtain ⟨_, d, hp, hw1, hw2⟩ := (x3 b).1 hb
        have : d = i := le_antisymm hw2 hw1
        exact this ▸ hp.walk
      · rintro hpos rfl b hb
        refine absurd ((x3 b).2 ⟨?_, i, Walk.simple_of_acyclic hc.ac hb, le_refl i, le_refl i⟩) (by simp)
        obtain ⟨j, rfl⟩ : ∃ j, i = j + 1 := ⟨i - 1, by omega⟩
        obtain ⟨c, _, hcl⟩ := Walk.walkLen_snoc.1 hb
        exact (ho.dom _ _ hcl).2)
  obtain ⟨e, e1, e2⟩ := farthest_spec (find := fun ctx => ord.findConnected r ctx (.included ctx)) (start := r)
    (P := fun x d => Walk.WalkLen O r x d) (Walk.walkLen_zero.2 rfl) (ctx := cr) (by
      intro i hi
      obtain ⟨x, x1, _, x3⟩ := ho.find r i (.included i) (hr i (by omega))
      refine ⟨x, x1, ?_, ?_⟩
      · intro b hb
        obtain ⟨_, d, hp, hw1, hw2⟩ := (x3 b).1 hb
        have : d = i := le_antisymm hw2 hw1
        exact this ▸ hp.walk
      · rintro hpos rfl b hb
        refine absurd ((x3 b).2 ⟨?_, i, Walk.simple_of_acyclic hc.ac hb, le_refl i, le_refl i⟩) (by simp)
        obtain ⟨j, rfl⟩ : ∃ j, i = j + 1 := ⟨i - 1, by omega⟩
        obtain ⟨c, hcl, _⟩ := Walk.walkLen_succ.1 hb
        exact (ho.dom _ _ hcl).1)
  exact ⟨s, e, by simp [offsets, s1, e1], s2, e2⟩

/-- The offsets enclose exactly the window. -/
theorem window_iff (hc : Linear.Chains O) {C : N → Prop} {l r s e : N} {cl cr : Nat} (hl : IsFirst O C l) (hr : IsLast O C r)
    (hs : ∃ d, d ≤ cl ∧ Walk.WalkLen O s l d ∧ ∀ t i, i ≤ cl → Walk.WalkLen O t l i → i ≤ d)
    (he : ∃ d, d ≤ cr ∧ Walk.WalkLen O r e d ∧ ∀ t i, i ≤ cr → Walk.WalkLen O r t i → i ≤ d) :
    Relation.ReflTransGen O s e ∧ (∀ t, Between O s t e ↔ InWindow O C cl cr t) ∧ IsFirst O (InWindow O C cl cr) s ∧
      IsLast O (InWindow O C cl cr) e := by
  obtain ⟨ds, s1, s2, s3⟩ := hs
  obtain ⟨de, e1, e2, e3⟩ := he
  have hsl : Relation.ReflTransGen O s l := Walk.reach_iff_walk.2 ⟨_, s2⟩
  have hre : Relation.ReflTransGen O r e := Walk.reach_iff_walk.2 ⟨_, e2⟩
  have hlr := hl.2 r hr.1
  have hse : Relation.ReflTransGen O s e := hsl.trans (hlr.trans hre)
  -- nodes at most `cl` steps before `l` are after `s`
  have hbefore : ∀ t i, i ≤ cl → Walk.WalkLen O t l i → Relation.ReflTransGen O s t := by
    intro t i hi ht
    have hle := s3 t i hi ht
    rcases comparable_before hc hsl (Walk.reach_iff_walk.2 ⟨_, ht⟩) with h | h
    · exact h
    · obtain ⟨k, hk⟩ := Walk.reach_iff_walk.1 h
      have := walk_len_unique hc (Walk.walkLen_add.2 ⟨s, hk, s2⟩) ht
      have : k = 0 := by omega
      subst this
      rw [Walk.walkLen_zero.1 hk]
  have hafter : ∀ t i, i ≤ cr → Walk.WalkLen O r t i → Relation.ReflTransGen O t e := by
    intro t i hi ht
    have hle := e3 t i hi ht
    rcases comparable_after hc hre (Walk.reach_iff_walk.2 ⟨_, ht⟩) with h | h
    · obtain ⟨k, hk⟩ := Walk.reach_iff_walk.1 h
      have := walk_len_unique hc (Walk.walkLen_add.2 ⟨e, e2, hk⟩) ht
      have : k = 0 := by omega
      subst this
      rw [Walk.walkLen_zero.1 hk]
    · exact h
  have key : ∀ t, Between O s t e ↔ InWindow O C cl cr t := by
    intro t
    constructor
    · rintro ⟨h1, h2⟩
      rcases comparable_after hc h1 hsl with h | h
      · -- `t` before `l`
        left
        obtain ⟨i, hi⟩ := Walk.reach_iff_walk.1 h1
        obtain ⟨k, hk⟩ := Walk.reach_iff_walk.1 h
        have := walk_len_unique hc (Walk.walkLen_add.2 ⟨t, hi, hk⟩) s2
        exact ⟨l, k, hl.1, by omega, hk⟩
      · rcases comparable_before hc h2 hre with h' | h'
        · exact Or.inr (Or.inr ⟨l, r, hl.1, hr.1, h, h'⟩)
        · right; left
          obtain ⟨i, hi⟩ := Walk.reach_iff_walk.1 h2
          obtain ⟨k, hk⟩ := Walk.reach_iff_walk.1 h'
          have := walk_len_unique hc (Walk.walkLen_add.2 ⟨t, hk, hi⟩) e2
          exact ⟨r, k, hr.1, by omega, hk⟩
    · rintro (⟨c, d, hC, hd, hw⟩ | ⟨c, d, hC, hd, hw⟩ | ⟨c, c', hC, hC', h1, h2⟩)
      · have hlc := hl.2 c hC
        have hce := (hr.2 c hC).trans hre
        have htc := Walk.reach_iff_walk.2 ⟨_, hw⟩
        refine ⟨?_, htc.trans hce⟩
        rcases comparable_before hc hlc htc with h | h
        · exact hsl.trans h
        · obtain ⟨k, hk⟩ := Walk.reach_iff_walk.1 h
          obtain ⟨j, hj⟩ := Walk.reach_iff_walk.1 hlc
          have := walk_len_unique hc (Walk.walkLen_add.2 ⟨l, hk, hj⟩) hw
          exact hbefore t k (by omega) hk
      · have hcr := hr.2 c hC
        have hsc := hsl.trans (hl.2 c hC)
        have hct := Walk.reach_iff_walk.2 ⟨_, hw⟩
        refine ⟨hsc.trans hct, ?_⟩
        rcases comparable_after hc hcr hct with h | h
        · obtain ⟨k, hk⟩ := Walk.reach_iff_walk.1 h
          obtain ⟨j, hj⟩ := Walk.reach_iff_walk.1 hcr
          have := walk_len_unique hc (Walk.walkLen_add.2 ⟨r, hj, hk⟩) hw
          exact hafter t k (by omega) hk
        · exact h.trans hre
      · exact ⟨hsl.trans ((hl.2 c hC).trans h1), h2.trans ((hr.2 c' hC').trans hre)⟩
  refine ⟨hse, key, ⟨(key s).1 ⟨.refl, hse⟩, fun x hx => ((key x).2 hx).1⟩, ⟨(key e).1 ⟨hse, .refl⟩, fun x hx => ((key x).2 hx).2⟩⟩

/-- Sorting nodes of one text gives their order in the text. -/
theorem sort_order (ho : ord.Is O D Rg) (hc : Linear.Chains O) (h1 : Rg 1 .unbounded) {l l' : List N} {fuel : Nat}
    {rs : List (Nat × Nat × Nat)} (hl : OneText O fun x => x ∈ l) (h : sortAll (orderCmp ord) fuel rs l = some l') :
    l'.Perm l ∧ l'.Pairwise (Relation.ReflTransGen O) := by
  refine C33_sort_on (Relation.ReflTransGen O) (fun x _ y _ z _ a b => a.trans b) (fun x hx y hy => hl x y hx hy) ?_ h
  intro x hx y hy o hcmp
  have hconn : ∀ a b, a ≠ b → ∃ r, ord.isConnected a b 1 .unbounded = some r ∧ (r = true ↔ Relation.ReflTransGen O a b) := by
    intro a b hab
    obtain ⟨r, r1, r2⟩ := ho.conn a b 1 .unbounded h1
    refine ⟨r, r1, r2.trans ?_⟩
    rw [Walk.reach_iff_simple]
    constructor
    · rintro ⟨_, d, hp, _⟩; exact ⟨d, hp⟩
    · rintro ⟨d, hp⟩
      cases d with
      | zero => exact absurd (Walk.walkLen_zero.1 hp.walk) hab
      | succ d =>
        obtain ⟨c, hx, _⟩ := Walk.walkLen_succ.1 hp.walk
        exact ⟨(ho.dom _ _ hx).1, d + 1, hp, by omega, trivial⟩
  unfold orderCmp at hcmp
  by_cases hxy : x = y
  · subst hxy
    rw [if_pos rfl, Option.some.injEq] at hcmp
    subst hcmp
    exact ⟨⟨fun _ => .refl, fun _ => rfl⟩, ⟨fun _ => .refl, fun _ => rfl⟩⟩
  · rw [if_neg hxy] at hcmp
    obtain ⟨r, r1, r2⟩ := hconn x y hxy
    obtain ⟨q, q1, q2⟩ := hconn y x (Ne.symm hxy)
    rw [r1] at hcmp
    cases r with
    | true =>
      simp only [Option.some.injEq] at hcmp
      subst hcmp
      have hr := r2.1 rfl
      exact ⟨⟨fun _ => hr, fun _ => rfl⟩, ⟨(fun h => by cases h), fun h => absurd (reach_antisymm hc hr h) hxy⟩⟩
    | false =>
      have hnr : ¬ Relation.ReflTransGen O x y := fun h => by simpa using r2.2 h
      rw [q1] at hcmp
      have hq := (hl x y hx hy).resolve_left hnr
      have := q2.2 hq
      subst this
      simp only [Option.some.injEq] at hcmp
      subst hcmp
      exact ⟨⟨(fun h => by cases h), fun h => absurd h hnr⟩, ⟨fun _ => hq, fun _ => rfl⟩⟩

theorem first_of_sorted {l : List N} {x : N} (hp : l.Pairwise (Relation.ReflTransGen O)) (h : l.head? = some x) :
    IsFirst O (fun y => y ∈ l) x := by
  cases l with
  | nil => simp at h
  | cons y r =>
    simp only [List.head?_cons, Option.some.injEq] at h
    subst h
    refine ⟨by simp, fun z hz => ?_⟩
    rcases List.mem_cons.1 hz with rfl | hz
    · exact .refl
    · exact (List.pairwise_cons.1 hp).1 z hz

theorem last_of_sorted {l : List N} {x : N} (hp : l.Pairwise (Relation.ReflTransGen O)) (h : l.getLast? = some x) :
    IsLast O (fun y => y ∈ l) x := by
  obtain ⟨r, rfl⟩ := List.getLast?_eq_some_iff.1 h
  refine ⟨by simp, fun z hz => ?_⟩
  rcases List.mem_append.1 hz with hz | hz
  · exact (List.pairwise_append.1 hp).2.2 z hz x (by simp)
  · rw [List.mem_singleton.1 hz]

/-- `get_left_right_token_with_offset_with_token` for sorted tokens. -/
theorem tokenRegion_spec (ho : ord.Is O D Rg) (hc : Linear.Chains O) {cl cr : Nat} (hr : ∀ i, i ≤ max cl cr → Rg i (.included i))
    {l : List N} (hp : l.Pairwise (Relation.ReflTransGen O)) :
    (l = [] ∧ tokenRegion ord cl cr l = some none) ∨
    ∃ s e, tokenRegion ord cl cr l = some (some ⟨s, e⟩) ∧ Relation.ReflTransGen O s e ∧
      ∀ t, Between O s t e ↔ InWindow O (fun x => x ∈ l) cl cr t := by
  cases l with
  | nil => exact Or.inl ⟨rfl, rfl⟩
  | cons x r =>
    right
    obtain ⟨y, hy⟩ : ∃ y, (x :: r).getLast? = some y := ⟨_, List.getLast?_eq_some_getLast (by simp)⟩
    obtain ⟨s, e, h1, h2, h3⟩ := offsets_spec ho hc hr x y
    obtain ⟨w1, w2, _⟩ := window_iff hc (first_of_sorted hp rfl) (last_of_sorted hp hy) h2 h3
    refine ⟨s, e, ?_, w1, w2⟩
    unfold tokenRegion
    rw [hy]
    simp [h1]

end Offsets

/-! ## Covered and covering nodes -/

section Cover

variable {th : TokenHelper N} {L R : N → N → Prop} {E : GStore N → N → N → Prop}

theorem coveredTokens_spec (h : th.Ok L R E) (n : N) :
    ∃ l, coveredTokens th n = some l ∧ l.Nodup ∧ ∀ t, t ∈ l ↔ CoveredTok (th.Tok E) (th.Cov E) n t := by
  obtain ⟨b, b1, b2⟩ := TokenHelper.isToken_spec h n
  unfold coveredTokens
  rw [b1]
  cases b with
  | true =>
    have hn := b2.1 rfl
    refine ⟨[n], rfl, by simp, fun t => ?_⟩
    rw [List.mem_singleton]
    constructor
    · rintro rfl; exact ⟨hn, Or.inl ⟨hn, rfl⟩⟩
    · rintro ⟨_, ⟨_, ht⟩ | ⟨hx, _⟩⟩
      · exact ht
      · exact absurd hn hx
  | false =>
    have hn : ¬ th.Tok E n := fun hx => by simpa using b2.2 hx
    obtain ⟨l, l1, l2⟩ := flatMapOpt_spec (f := coveredIn th n) (P := fun c t => E c n t ∧ th.Tok E t) (l := th.cov) (by
        intro c hcm
        obtain ⟨D, Rg, hx, _⟩ := h.cov c hcm
        obtain ⟨x, x1, _, x3⟩ := hx.out n
        obtain ⟨y, y1, y2⟩ := filterOpt_spec (P := th.Tok E) (l := x) fun z _ => TokenHelper.isToken_spec h z
        exact ⟨y, by rw [coveredIn, x1]; exact y1, fun t => by rw [y2, x3]⟩)
    refine ⟨l.dedup, by simp only [l1, Option.map_some], List.nodup_dedup _, fun t => ?_⟩
    rw [List.mem_dedup, l2]
    unfold CoveredTok Covers
    constructor
    · rintro ⟨c, hcm, e, ht⟩; exact ⟨ht, Or.inr ⟨hn, c, hcm, e⟩⟩
    · rintro ⟨ht, ⟨hx, _⟩ | ⟨_, c, hcm, e⟩⟩
      · exact absurd hx hn
      · exact ⟨c, hcm, e, ht⟩

theorem covering_spec (h : th.Ok L R E) (t : N) : ∃ l, covering th t = some l ∧ l.Nodup ∧ ∀ n, n ∈ l ↔ th.Cov E n t := by
  obtain ⟨l, l1, l2⟩ := flatMapOpt_spec (f := fun c : GStore N => c.inn t) (P := fun c n => E c n t) (l := th.cov) (by
    intro c hcm
    obtain ⟨D, Rg, hx, _⟩ := h.cov c hcm
    obtain ⟨x, x1, _, x3⟩ := hx.inn t
    exact ⟨x, x1, x3⟩)
  exact ⟨l.dedup, by simp only [covering, l1, Option.map_some], List.nodup_dedup _, fun n => by rw [List.mem_dedup, l2]; rfl⟩

/-- The items of the iterator for one token. -/
def block (ch : Choice N) (th : TokenHelper N) (t : N) : List N := ch.hash t ((covering th t).getD []) ++ [t]

/-- The hash sets contain what was inserted. -/
def Choice.Ok (ch : Choice N) : Prop := ∀ n l, (ch.hash n l).Perm l

theorem mem_block (h : th.Ok L R E) {ch : Choice N} (hch : ch.Ok) (t x : N) : x ∈ block ch th t ↔ x = t ∨ th.Cov E x t := by
  obtain ⟨l, l1, _, l3⟩ := covering_spec h t
  unfold block
  rw [l1, List.mem_append, List.mem_singleton, or_comm, Option.getD_some, (hch t l).mem_iff, l3]

variable {ord : GStore N} {O : N → N → Prop} {D : N → Prop} {Rg : Nat → Bnd Nat → Prop}

/-- The iterator goes through all tokens of the region in their order and emits for each the covering nodes and the token. -/
theorem tokenIter_spec (h : th.Ok L R E) (ho : ord.Is O D Rg) (hc : Linear.Chains O) (ch : Choice N) {stop : N} : ∀ {d fuel : Nat}
    {t : N} {l : List N}, Walk.WalkLen O t stop d → tokenIter ch th ord stop fuel t = some l →
    ∃ ts, l = ts.flatMap (block ch th) ∧ List.IsChain O ts ∧ ts.head? = some t ∧ ∀ x, x ∈ ts ↔ Between O t x stop := by
  intro d
  induction d with
  | zero =>
    intro fuel t l hw hi
    have ht := Walk.walkLen_zero.1 hw
    subst ht
    cases fuel with
    | zero => cases hi
    | succ fuel =>
      obtain ⟨c, c1, _⟩ := covering_spec h t
      unfold tokenIter at hi
      rw [c1] at hi
      simp only [if_true, Option.some.injEq] at hi
      refine ⟨[t], by simp [block, c1, hi], by simp, rfl, fun x => ?_⟩
      rw [List.mem_singleton]
      constructor
      · rintro rfl; exact ⟨.refl, .refl⟩
      · rintro ⟨h1, h2⟩; exact reach_antisymm hc h2 h1
  | succ d ih =>
    intro fuel t l hw hi
    cases fuel with
    | zero => cases hi
    | succ fuel =>
      obtain ⟨c, c1, _⟩ := covering_spec h t
      obtain ⟨y, hy, hyw⟩ := Walk.walkLen_succ.1 hw
      have hne : t ≠ stop := by
        rintro rfl
        have := Walk.walk_self hc.ac hw
        omega
      obtain ⟨o, o1, _, o3⟩ := ho.out t
      have ho' : ∃ r, o = y :: r := by
        cases o with
        | nil => exact absurd ((o3 y).2 hy) (by simp)
        | cons z r => exact ⟨r, by rw [hc.fn _ _ _ ((o3 z).1 (by simp)) hy]⟩
      obtain ⟨r, rfl⟩ := ho'
      unfold tokenIter at hi
      rw [c1] at hi
      simp only [if_neg hne, o1] at hi
      obtain ⟨l', hl', hl⟩ := Option.map_eq_some_iff.1 hi
      obtain ⟨ts, t1, t2, t3, t4⟩ := ih hyw hl'
      refine ⟨t :: ts, ?_, ?_, rfl, fun x => ?_⟩
      · rw [← hl, t1]
        simp [block, c1]
      · cases ts with
        | nil => simp at t3
        | cons z zs =>
          simp only [List.head?_cons, Option.some.injEq] at t3
          subst t3
          exact List.isChain_cons_cons.2 ⟨hy, t2⟩
      · rw [List.mem_cons, t4]
        constructor
        · rintro (rfl | ⟨h1, h2⟩)
          · exact ⟨.refl, Walk.reach_iff_walk.2 ⟨_, hw⟩⟩
          · exact ⟨Relation.ReflTransGen.head hy h1, h2⟩
        · rintro ⟨h1, h2⟩
          rcases Relation.ReflTransGen.cases_head h1 with rfl | ⟨z, hz, hzx⟩
          · exact Or.inl rfl
          · rw [hc.fn _ _ _ hz hy] at hzx
            exact Or.inr ⟨hzx, h2⟩

/-! ## The region of a node -/

/-- What the region of a node has to be: missing if the window is empty, otherwise its borders. -/
def IsRegion (O : N → N → Prop) (W : N → Prop) : Option (Region N) → Prop
  | none => ∀ t, ¬ W t
  | some r => Relation.ReflTransGen O r.start r.stop ∧ ∀ t, Between O r.start t r.stop ↔ W t

/-- C55 for the region of a node: it consists of the tokens of the context window. -/
theorem C55_region (h : th.Ok L R E) (ho : ord.Is O D Rg) (hc : Linear.Chains O) (h1 : Rg 1 .unbounded) {cl cr : Nat}
    (hr : ∀ i, i ≤ max cl cr → Rg i (.included i)) {ch : Choice N} (hch : ch.Ok) {n : N}
    (hone : OneText O (CoveredTok (th.Tok E) (th.Cov E) n)) {x : Option (Region N)}
    (hx : fromNode ch th ord none cl cr n = some x) :
    IsRegion O (InWindow O (CoveredTok (th.Tok E) (th.Cov E) n) cl cr) x := by
  obtain ⟨cov, c1, _, c3⟩ := coveredTokens_spec h n
  unfold fromNode at hx
  rw [c1] at hx
  simp only at hx
  cases hs : sortAll (orderCmp ord) ch.fuel (ch.rnd n) (ch.hash n cov) with
  | none => rw [hs] at hx; simp at hx
  | some sorted =>
    rw [hs] at hx
    simp only at hx
    obtain ⟨s1, s2⟩ := sort_order ho hc h1 (by
      intro a b ha hb
      exact hone a b ((c3 a).1 ((hch n cov).mem_iff.1 ha)) ((c3 b).1 ((hch n cov).mem_iff.1 hb))) hs
    have hm : ∀ t, t ∈ sorted ↔ CoveredTok (th.Tok E) (th.Cov E) n t := fun t => by
      rw [s1.mem_iff, (hch n cov).mem_iff, c3]
    have he : (fun t => t ∈ sorted) = CoveredTok (th.Tok E) (th.Cov E) n := funext fun t => propext (hm t)
    rcases tokenRegion_spec ho hc hr s2 with ⟨rfl, hn⟩ | ⟨s, e, he1, he2, he3⟩
    · rw [hn, Option.some.injEq] at hx
      subst hx
      have hno : ∀ t, ¬ CoveredTok (th.Tok E) (th.Cov E) n t := fun t ht => absurd ((hm t).2 ht) (by simp)
      rintro t (⟨c, _, hC, _⟩ | ⟨c, _, hC, _⟩ | ⟨c, _, hC, _⟩) <;> exact hno c hC
    · rw [he1, Option.some.injEq] at hx
      subst hx
      rw [he] at he3
      exact ⟨he2, he3⟩

/-! ## All regions -/

theorem regions_spec {ch : Choice N} {seg : Option (GStore N)} {cl cr : Nat} {W : N → N → Prop} : ∀ {nodes : List N} {rs : List (Region N)},
    (∀ n ∈ nodes, ∀ x, fromNode ch th ord seg cl cr n = some x → IsRegion O (W n) x) →
    regions ch th ord seg cl cr nodes = some rs →
    (∀ r ∈ rs, ∃ n ∈ nodes, IsRegion O (W n) (some r)) ∧ ∀ n ∈ nodes, (∃ t, W n t) → ∃ r ∈ rs, IsRegion O (W n) (some r) := by
  intro nodes
  induction nodes with
  | nil => intro rs _ h; simp only [regions, Option.some.injEq] at h; subst h; simp
  | cons n nodes ih =>
    intro rs hW h
    unfold regions at h
    cases h1 : fromNode ch th ord seg cl cr n with
    | none => rw [h1] at h; simp at h
    | some x =>
      cases h2 : regions ch th ord seg cl cr nodes with
      | none => rw [h1, h2] at h; cases x <;> simp at h
      | some l =>
        obtain ⟨i1, i2⟩ := ih (fun n hn => hW n (by simp [hn])) h2
        have hx := hW n (by simp) x h1
        rw [h1, h2] at h
        cases x with
        | none =>
          simp only [Option.some.injEq] at h
          subst h
          refine ⟨fun r hr => ?_, fun m hm ht => ?_⟩
          · obtain ⟨m, hm, hh⟩ := i1 r hr
            exact ⟨m, by simp [hm], hh⟩
          · rcases List.mem_cons.1 hm with rfl | hm
            · obtain ⟨t, ht⟩ := ht
              exact absurd ht (hx t)
            · exact i2 m hm ht
        | some x =>
          simp only [Option.some.injEq] at h
          subst h
          refine ⟨fun r hr => ?_, fun m hm ht => ?_⟩
          · rcases List.mem_cons.1 hr with rfl | hr
            · exact ⟨n, by simp, hx⟩
            · obtain ⟨m, hm, hh⟩ := i1 r hr
              exact ⟨m, by simp [hm], hh⟩
          · rcases List.mem_cons.1 hm with rfl | hm
            · exact ⟨x, by simp, hx⟩
            · obtain ⟨r, hr, hh⟩ := i2 m hm ht
              exact ⟨r, by simp [hr], hh⟩

/-- The items of all regions: the tokens of each region in the order of the text, with their covering nodes. -/
theorem iterAll_spec (h : th.Ok L R E) (ho : ord.Is O D Rg) (hc : Linear.Chains O) (ch : Choice N) : ∀ {rs : List (Region N)} {l : List N},
    (∀ r ∈ rs, Relation.ReflTransGen O r.start r.stop) →
    flatMapOpt (fun r : Region N => tokenIter ch th ord r.stop ch.fuel r.start) rs = some l →
    ∃ tss : List (List N), l = (tss.flatMap id).flatMap (block ch th) ∧
      List.Forall₂ (fun (r : Region N) ts => List.IsChain O ts ∧ ts.head? = some r.start ∧ ∀ x, x ∈ ts ↔ Between O r.start x r.stop) rs tss := by
  intro rs
  induction rs with
  | nil => intro l _ h; simp only [flatMapOpt, Option.some.injEq] at h; subst h; exact ⟨[], rfl, .nil⟩
  | cons r rs ih =>
    intro l hr hl
    unfold flatMapOpt at hl
    cases h1 : tokenIter ch th ord r.stop ch.fuel r.start with
    | none => rw [h1] at hl; simp at hl
    | some a =>
      cases h2 : flatMapOpt (fun r : Region N => tokenIter ch th ord r.stop ch.fuel r.start) rs with
      | none => rw [h1, h2] at hl; simp at hl
      | some c =>
        rw [h1, h2] at hl
        simp only [Option.some.injEq] at hl
        subst hl
        obtain ⟨d, hd⟩ := Walk.reach_iff_walk.1 (hr r (by simp))
        obtain ⟨ts, t1, t2, t3, t4⟩ := tokenIter_spec h ho hc ch hd h1
        obtain ⟨tss, i1, i2⟩ := ih (fun x hx => hr x (by simp [hx])) h2
        exact ⟨ts :: tss, by simp [t1, i1], .cons ⟨t2, t3, t4⟩ i2⟩

theorem mem_iterAll {O : N → N → Prop} {rs : List (Region N)} {tss : List (List N)}
    (h : List.Forall₂ (fun (r : Region N) ts => List.IsChain O ts ∧ ts.head? = some r.start ∧ ∀ x, x ∈ ts ↔ Between O r.start x r.stop) rs tss)
    (t : N) : t ∈ tss.flatMap id ↔ ∃ r ∈ rs, Between O r.start t r.stop := by
  induction h with
  | nil => simp
  | cons h1 _ ih =>
    simp only [List.flatMap_cons, id_eq, List.mem_append, ih, h1.2.2, List.mem_cons, exists_eq_or_imp]

/-- The nodes of all regions, for the windows `W` of the match nodes. -/
theorem overlapped_spec (h : th.Ok L R E) (ho : ord.Is O D Rg) (hc : Linear.Chains O) {ch : Choice N} (hch : ch.Ok)
    {seg : Option (GStore N)} {cl cr : Nat} {W : N → N → Prop} {nodes l : List N}
    (hW : ∀ n ∈ nodes, ∀ x, fromNode ch th ord seg cl cr n = some x → IsRegion O (W n) x)
    (hl : overlapped ch th ord seg cl cr nodes = some l) (x : N) :
    x ∈ l ↔ ∃ n ∈ nodes, ∃ t, W n t ∧ (x = t ∨ th.Cov E x t) := by
  unfold overlapped at hl
  cases h1 : regions ch th ord seg cl cr nodes with
  | none => rw [h1] at hl; simp at hl
  | some rs =>
    rw [h1] at hl
    simp only at hl
    cases h2 : sortAll (regionCmp ord) ch.fuel ch.rndRegions rs with
    | none => rw [h2] at hl; simp at hl
    | some srt =>
      rw [h2] at hl
      simp only at hl
      obtain ⟨r1, r2⟩ := regions_spec hW h1
      have hp := sortAll_perm h2
      obtain ⟨tss, t1, t2⟩ := iterAll_spec h ho hc ch (fun r hr => by
        obtain ⟨n, _, hn⟩ := r1 r (hp.mem_iff.1 hr)
        exact hn.1) hl
      rw [t1, List.mem_flatMap]
      constructor
      · rintro ⟨t, ht, hx⟩
        obtain ⟨r, hr, hb⟩ := (mem_iterAll t2 t).1 ht
        obtain ⟨n, hn, hreg⟩ := r1 r (hp.mem_iff.1 hr)
        exact ⟨n, hn, t, (hreg.2 t).1 hb, (mem_block h hch t x).1 hx⟩
      · rintro ⟨n, hn, t, ht, hx⟩
        obtain ⟨r, hr, hreg⟩ := r2 n hn ⟨t, ht⟩
        exact ⟨t, (mem_iterAll t2 t).2 ⟨r, hp.mem_iff.2 hr, (hreg.2 t).2 ht⟩, (mem_block h hch t x).2 hx⟩

theorem parents_spec {partOf : GStore N} {P : N → N → Prop} {DP : N → Prop} {RP : Nat → Bnd Nat → Prop} (hp : partOf.Is P DP RP)
    (hr : RP 1 .unbounded) (nodes : List N) :
    ∃ l, parents partOf nodes = some l ∧ ∀ x, x ∈ l ↔ ∃ n ∈ nodes, ∃ d, 0 < d ∧ Walk.SimplePath P n x d := by
  obtain ⟨l, l1, l2⟩ := flatMapOpt_spec (f := fun n => partOf.findConnected n 1 .unbounded)
    (P := fun n x => ∃ d, 0 < d ∧ Walk.SimplePath P n x d) (l := nodes) (by
      intro n _
      obtain ⟨l, l1, _, l3⟩ := hp.find n 1 .unbounded hr
      refine ⟨l, l1, fun x => (l3 x).trans ?_⟩
      constructor
      · rintro ⟨_, d, h1, h2, _⟩; exact ⟨d, h2, h1⟩
      · rintro ⟨d, h1, h2⟩
        obtain ⟨j, rfl⟩ : ∃ j, d = j + 1 := ⟨d - 1, by omega⟩
        obtain ⟨c, hx, _⟩ := Walk.walkLen_succ.1 h2.walk
        exact ⟨(hp.dom _ _ hx).1, _, h2, h1, trivial⟩)
  exact ⟨l.dedup, by simp only [parents, l1, Option.map_some], fun x => by rw [List.mem_dedup, l2]⟩

theorem contextNodes_spec (h : th.Ok L R E) (ho : ord.Is O D Rg) (hc : Linear.Chains O) {ch : Choice N} (hch : ch.Ok)
    {partOf : GStore N} {P : N → N → Prop} {DP : N → Prop} {RP : Nat → Bnd Nat → Prop} (hp : partOf.Is P DP RP) (hrp : RP 1 .unbounded)
    {seg : Option (GStore N)} {cl cr : Nat} {W : N → N → Prop} {nodes l : List N}
    (hW : ∀ n ∈ nodes, ∀ x, fromNode ch th ord seg cl cr n = some x → IsRegion O (W n) x)
    (hself : ∀ n ∈ nodes, th.Tok E n → W n n)
    (hl : contextNodes ch th ord partOf seg cl cr nodes = some l) (x : N) :
    x ∈ l ↔ x ∈ nodes ∨ (∃ n ∈ nodes, ∃ t, W n t ∧ (x = t ∨ th.Cov E x t)) ∨
      ∃ n ∈ nodes, ∃ d, 0 < d ∧ Walk.SimplePath P n x d := by
  unfold contextNodes at hl
  obtain ⟨p, p1, p2⟩ := parents_spec hp hrp nodes
  obtain ⟨m, m1, m2⟩ := filterOpt_spec (p := fun n => (th.isToken n).map fun b => !b) (P := fun n => ¬ th.Tok E n) (l := nodes) (by
    intro n _
    obtain ⟨b, b1, b2⟩ := TokenHelper.isToken_spec h n
    exact ⟨!b, by simp [b1], by rw [← b2]; simp⟩)
  rw [p1, m1] at hl
  cases h1 : overlapped ch th ord seg cl cr nodes with
  | none => rw [h1] at hl; simp at hl
  | some o =>
    rw [h1] at hl
    simp only [Option.some.injEq] at hl
    subst hl
    have := overlapped_spec h ho hc hch hW h1 x
    rw [List.mem_append, List.mem_append, m2, this, p2, or_assoc]
    constructor
    · rintro (⟨hx, _⟩ | hx)
      · exact Or.inl hx
      · exact Or.inr hx
    · rintro (hx | hx)
      · by_cases ht : th.Tok E x
        · exact Or.inr (Or.inl ⟨x, hx, x, hself x hx ht, Or.inl rfl⟩)
        · exact Or.inl ⟨hx, ht⟩
      · exact Or.inr hx

/-- C55 for the nodes of the context: the match nodes, the tokens of their context windows, all nodes covering them, and the parents of
the match nodes in the corpus structure. -/
theorem C55_nodes (h : th.Ok L R E) (ho : ord.Is O D Rg) (hc : Linear.Chains O) (h1 : Rg 1 .unbounded) {cl cr : Nat}
    (hr : ∀ i, i ≤ max cl cr → Rg i (.included i)) {ch : Choice N} (hch : ch.Ok)
    {partOf : GStore N} {P : N → N → Prop} {DP : N → Prop} {RP : Nat → Bnd Nat → Prop} (hp : partOf.Is P DP RP) (hrp : RP 1 .unbounded)
    {nodes l : List N} (hone : ∀ n ∈ nodes, OneText O (CoveredTok (th.Tok E) (th.Cov E) n))
    (hl : contextNodes ch th ord partOf none cl cr nodes = some l) (x : N) :
    x ∈ l ↔ x ∈ nodes ∨
      (∃ n ∈ nodes, ∃ t, InWindow O (CoveredTok (th.Tok E) (th.Cov E) n) cl cr t ∧ (x = t ∨ th.Cov E x t)) ∨
      ∃ n ∈ nodes, ∃ d, 0 < d ∧ Walk.SimplePath P n x d :=
  contextNodes_spec h ho hc hch hp hrp (W := fun n => InWindow O (CoveredTok (th.Tok E) (th.Cov E) n) cl cr)
    (fun n hn x hx => C55_region h ho hc h1 hr hch (hone n hn) hx)
    (fun n _ ht => Or.inl ⟨n, 0, ⟨ht, Or.inl ⟨ht, rfl⟩⟩, Nat.zero_le _, Walk.walkLen_zero.2 rfl⟩) hl x

end Cover

end Subgraph
