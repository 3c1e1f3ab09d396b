import Verif.PrePost.Lemmas
import Verif.Linear.Props

/-!
# C15 and C16: the pre/post-order storage answers like the acyclic graph it was copied from
-/

set_option linter.unusedSimpArgs false
set_option linter.unusedSectionVars false

theorem Walk.isWalk_append {N : Type} {E : N → N → Prop} {a n b : N} {p t : List N} (hp : Walk.IsWalk E a n p) :
    Walk.IsWalk E a b (p ++ t) ↔ Walk.IsWalk E n b (n :: t) := by
  obtain ⟨h1, h2, h3⟩ := hp
  have hne : p ≠ [] := by rintro rfl; simp at h1
  obtain ⟨q, x, rfl⟩ : ∃ q x, p = q ++ [x] := ⟨p.dropLast, p.getLast hne, (List.dropLast_append_getLast hne).symm⟩
  simp only [List.getLast?_append, List.getLast?_singleton, Option.some_or, Option.some.injEq] at h2
  subst h2
  have e : q ++ [x] ++ t = q ++ (x :: t) := by simp
  unfold Walk.IsWalk
  rw [e]
  have hh : (q ++ x :: t).head? = some a := by
    cases q with
    | nil => simpa using h1
    | cons y q => simpa using h1
  have hl : (q ++ x :: t).getLast? = (x :: t).getLast? := by
    rw [List.getLast?_append]
    cases hx : (x :: t).getLast? with
    | none => simp at hx
    | some y => simp
  rw [hh, hl]
  simp only [true_and, List.head?_cons]
  constructor
  · rintro ⟨h4, h5⟩
    exact ⟨h4, (List.isChain_append.1 h5).2.1⟩
  · rintro ⟨h4, h5⟩
    refine ⟨h4, ?_⟩
    rw [List.isChain_append] at h3 ⊢
    refine ⟨h3.1, h5, ?_⟩
    intro y hy z hz
    exact h3.2.2 y hy z (by simpa using hz)

namespace PrePostGs

variable {N S W : Type} [LinearOrder N] [LinearOrder S] [OrderBot S] [LinearOrder W]
variable {o : Source N S W} {E : N → N → Prop} {A : N → N → AnnoKey S → Option W}

theorem Ent.pp_pre (e : Ent N) : e.pp.pre = e.pre := rfl
theorem Ent.pp_post (e : Ent N) : e.pp.post = e.post := rfl
theorem Ent.pp_level (e : Ent N) : e.pp.level = e.path.length - 1 := rfl

theorem mem_firstVisits_map (l : List N) (b : N) : b ∈ firstVisits [] (l.map fun x => (x, 0)) ↔ b ∈ l := by
  rw [mem_firstVisits]
  simp

section
variable (h : o.Is E A) (hac : Walk.Acyclic E) {g : PrePostGs N S W} {l : List (Ent N)}
  (hg : Rep g E A (fun r => r ∈ o.roots) l)
include h hac hg

theorem locate {n : N} (hn : InComp E n) : ∃ e ∈ l, e.node = n := by
  obtain ⟨r, d, hw, hr⟩ := Walk.exists_root hac h.covers n
  have hroot : r ∈ o.roots := by
    rw [h.root_iff]
    refine ⟨?_, hr⟩
    cases d with
    | zero =>
      have e := Walk.walkLen_zero.1 hw
      subst e
      obtain ⟨x, hx | hx⟩ := hn
      · exact ⟨x, hx⟩
      · exact absurd ⟨x, hx⟩ hr
    | succ d =>
      obtain ⟨c, hc, _⟩ := Walk.walkLen_succ.1 hw
      exact ⟨c, hc⟩
  obtain ⟨q, hq, _⟩ := hw
  obtain ⟨e, he, _, hn⟩ := hg.ents.complete r n q hroot hq
  exact ⟨e, he, hn⟩

theorem inComp_of {e : Ent N} (he : e ∈ l) : InComp E e.node := by
  obtain ⟨r, hr, hw⟩ := hg.ents.walk e he
  cases hp : e.path with
  | nil => rw [hp] at hw; simp [Walk.IsWalk] at hw
  | cons x t =>
    have hwl : Walk.WalkLen E r e.node t.length := ⟨_, hw, by rw [hp]; rfl⟩
    cases ht : t.length with
    | zero =>
      rw [ht] at hwl
      rw [← Walk.walkLen_zero.1 hwl]
      obtain ⟨b, hb⟩ := ((h.root_iff r).1 hr).1
      exact ⟨b, Or.inl hb⟩
    | succ d =>
      rw [ht] at hwl
      obtain ⟨c, _, hc⟩ := Walk.walkLen_snoc.1 hwl
      exact ⟨c, Or.inr hc⟩

theorem path_pos {e : Ent N} (he : e ∈ l) : 1 ≤ e.path.length := by
  obtain ⟨r, _, hw⟩ := hg.ents.walk e he
  cases hp : e.path with
  | nil => rw [hp] at hw; simp [Walk.IsWalk] at hw
  | cons x t => simp

/-- Extended paths are walks between the nodes. -/
theorem walk_of_prefix {e f : Ent N} (he : e ∈ l) (hf : f ∈ l) (hp : e.path <+: f.path) :
    Walk.WalkLen E e.node f.node (f.path.length - e.path.length) := by
  obtain ⟨r, _, hw⟩ := hg.ents.walk e he
  obtain ⟨r', _, hw'⟩ := hg.ents.walk f hf
  obtain ⟨t, ht⟩ := hp
  rw [← ht] at hw'
  have hr : r' = r := by
    have h1 := hw.1
    have h2 := hw'.1
    cases hq : e.path with
    | nil => rw [hq] at h1; simp at h1
    | cons x u => rw [hq] at h1 h2; simp at h1 h2; rw [← h1, ← h2]
  subst hr
  refine ⟨_, (Walk.isWalk_append hw).1 hw', ?_⟩
  rw [← ht, List.length_append, List.length_cons]; omega

/-- Walks from a node extend each of its paths. -/
theorem prefix_of_walk {e : Ent N} (he : e ∈ l) {b : N} {d : Nat} (hw : Walk.WalkLen E e.node b d) :
    ∃ f ∈ l, f.node = b ∧ e.path <+: f.path ∧ f.path.length = e.path.length + d := by
  obtain ⟨r, hr, hwe⟩ := hg.ents.walk e he
  obtain ⟨q, hq, hl⟩ := hw
  cases q with
  | nil => simp at hl
  | cons x t =>
    have hx := hq.1
    simp only [List.head?_cons, Option.some.injEq] at hx
    subst hx
    obtain ⟨f, hf, hp, hn⟩ := hg.ents.complete r b _ hr ((Walk.isWalk_append hwe).2 hq)
    refine ⟨f, hf, hn, by rw [hp]; exact List.prefix_append _ _, ?_⟩
    rw [hp, List.length_append]
    simp only [List.length_cons] at hl
    omega

theorem nested_iff {e f : Ent N} (he : e ∈ l) (hf : f ∈ l) : e.path <+: f.path ↔ e.pre ≤ f.pre ∧ f.post ≤ e.post := by
  have b1 := hg.ents.good.bounds e he
  have b2 := hg.ents.good.bounds f hf
  rcases hg.ents.good.lam e he f hf with rfl | ⟨h1, h2, h3⟩ | ⟨h1, h2, h3⟩ | ⟨h1, h2, h3⟩
  · simp
  · exact ⟨fun _ => by omega, fun _ => h1⟩
  · constructor
    · intro hp
      exact absurd (hp.eq_of_length (le_antisymm hp.length_le h1.length_le)) h2
    · intro hx; omega
  · exact ⟨fun hp => absurd hp h1, fun hx => by omega⟩

theorem inside {e f : Ent N} (he : e ∈ l) (hf : f ∈ l) (h1 : e.pre ≤ f.pre) (h2 : f.pre ≤ e.post) : e.path <+: f.path := by
  have b1 := hg.ents.good.bounds e he
  have b2 := hg.ents.good.bounds f hf
  rcases hg.ents.good.lam e he f hf with rfl | ⟨h3, _⟩ | ⟨_, _, h3⟩ | ⟨_, _, h3⟩
  · exact List.prefix_refl _
  · exact h3
  · omega
  · omega

theorem sliceOk_of {e : Ent N} (he : e ∈ l) : g.sliceOk e.pp = true := by
  have b1 := hg.ents.good.bounds e he
  unfold sliceOk
  have pe := path_pos h hac hg he
  simp only [Bool.and_eq_true, List.all_eq_true]
  refine ⟨⟨decide_eq_true b1.2.2, decide_eq_true ?_⟩, ?_⟩
  · rw [Ent.pp_pre, Ent.pp_post]; omega
  intro x hx
  unfold slice at hx
  rw [mem_slice] at hx
  obtain ⟨i, h1, h2, h3⟩ := hx
  cases x with
  | empty => rfl
  | post _ _ _ => rfl
  | pre p v n =>
    obtain ⟨f, hf, hi, hpp, _⟩ := (hg.pre i p v n).1 h3
    have hpre := inside h hac hg he hf (by rw [hi]; exact h1) (by rw [hi]; exact Nat.lt_succ_iff.1 h2)
    unfold Ent.pp at hpp
    injection hpp with _ _ hv
    have := hpre.length_le
    rw [decide_eq_true_eq, Ent.pp_level]
    omega

theorem mem_below {e : Ent N} (he : e ∈ l) (min m : Nat) (b : N) :
    b ∈ (g.slice e.pp).filterMap (below e.pp min m) ↔ ∃ d, Walk.WalkLen E e.node b d ∧ min ≤ d ∧ d ≤ m := by
  rw [List.mem_filterMap]
  have b1 := hg.ents.good.bounds e he
  have pe := path_pos h hac hg he
  constructor
  · rintro ⟨x, hx, hb⟩
    unfold slice at hx
    rw [mem_slice] at hx
    obtain ⟨i, h1, h2, h3⟩ := hx
    cases x with
    | empty => simp [below] at hb
    | post _ _ _ => simp [below] at hb
    | pre p v n =>
      obtain ⟨f, hf, hi, hpp, hn⟩ := (hg.pre i p v n).1 h3
      have hpre := inside h hac hg he hf (by rw [hi]; exact h1) (by rw [hi]; exact Nat.lt_succ_iff.1 h2)
      simp only [below] at hb
      split at hb
      swap
      · cases hb
      rename_i hc
      injection hb with hb
      subst hb
      unfold Ent.pp at hpp hc
      injection hpp with _ _ hv
      simp only at hc
      refine ⟨_, hn ▸ walk_of_prefix h hac hg he hf hpre, ?_, ?_⟩
      · omega
      · omega
  · rintro ⟨d, hw, h1, h2⟩
    obtain ⟨f, hf, hn, hpre, hlen⟩ := prefix_of_walk h hac hg he hw
    obtain ⟨h3, h4⟩ := (nested_iff h hac hg he hf).1 hpre
    have b2 := hg.ents.good.bounds f hf
    refine ⟨.pre f.post (f.path.length - 1) f.node, ?_, ?_⟩
    · unfold slice
      rw [mem_slice]
      refine ⟨f.pre, h3, ?_, (hg.pre _ _ _ _).2 ⟨f, hf, rfl, rfl, rfl⟩⟩
      have : (e.pp).post = e.post := rfl
      omega
    · simp only [below]
      rw [if_pos ⟨h4, by rw [Ent.pp_level]; omega, by rw [Ent.pp_level]; omega⟩, hn]

theorem mem_above {e : Ent N} (he : e ∈ l) (min m : Nat) (b : N) :
    (b ∈ (g.inverseSlice e.pp).filterMap fun p => above (g.usePost e.pp) e.pp min m p.2 p.1) ↔
      ∃ f ∈ l, f.node = b ∧ f.path <+: e.path ∧ min ≤ e.path.length - f.path.length ∧
        e.path.length - f.path.length ≤ m := by
  rw [List.mem_filterMap]
  have b1 := hg.ents.good.bounds e he
  have pe := path_pos h hac hg he
  unfold inverseSlice
  cases hu : g.usePost e.pp with
  | false =>
    simp only [Bool.false_eq_true, if_false]
    constructor
    · rintro ⟨⟨x, i⟩, hx, hb⟩
      have hi : g.order[i]? = some x := by
        have := List.mem_of_mem_take hx
        exact (List.mem_zipIdx_iff_getElem?).1 this
      cases x with
      | empty => simp [above] at hb
      | post _ _ _ => simp [above] at hb
      | pre p v n =>
        obtain ⟨f, hf, hfi, hpp, hn⟩ := (hg.pre i p v n).1 hi
        unfold Ent.pp at hpp hb
        injection hpp with _ hp hv
        simp only [above, true_and] at hb
        split at hb
        swap
        · cases hb
        rename_i hc
        injection hb with hb
        have pf := path_pos h hac hg hf
        have hpre := (nested_iff h hac hg hf he).2 ⟨by omega, by omega⟩
        have := hpre.length_le
        exact ⟨f, hf, hn.trans hb, hpre, by omega, by omega⟩
    · rintro ⟨f, hf, hn, hpre, h1, h2⟩
      have b2 := hg.ents.good.bounds f hf
      obtain ⟨h3, h4⟩ := (nested_iff h hac hg hf he).1 hpre
      have := hpre.length_le
      have pf := path_pos h hac hg hf
      refine ⟨(.pre f.post (f.path.length - 1) f.node, f.pre), ?_, ?_⟩
      · rw [List.mem_iff_getElem?]
        refine ⟨f.pre, ?_⟩
        rw [List.getElem?_take, if_pos (by simp only [Ent.pp]; omega), List.getElem?_zipIdx,
          (hg.pre f.pre f.post (f.path.length - 1) f.node).2 ⟨f, hf, rfl, rfl, rfl⟩]
        simp
      · simp only [above]
        rw [if_pos ⟨trivial, by rw [Ent.pp_level]; omega, h3, h4, by rw [Ent.pp_level]; omega, by rw [Ent.pp_level]; omega⟩, hn]
  | true =>
    simp only [if_true]
    constructor
    · rintro ⟨⟨x, i⟩, hx, hb⟩
      have hi : g.order[i]? = some x := by
        have := List.mem_of_mem_drop hx
        exact (List.mem_zipIdx_iff_getElem?).1 this
      cases x with
      | empty => simp [above] at hb
      | pre _ _ _ => simp [above] at hb
      | post p v n =>
        obtain ⟨f, hf, hfi, hpp, hn⟩ := (hg.post i p v n).1 hi
        unfold Ent.pp at hpp hb
        injection hpp with hp _ hv
        simp only [above, true_and] at hb
        split at hb
        swap
        · cases hb
        rename_i hc
        injection hb with hb
        have pf := path_pos h hac hg hf
        have hpre := (nested_iff h hac hg hf he).2 ⟨by omega, by omega⟩
        have := hpre.length_le
        exact ⟨f, hf, hn.trans hb, hpre, by omega, by omega⟩
    · rintro ⟨f, hf, hn, hpre, h1, h2⟩
      have b2 := hg.ents.good.bounds f hf
      obtain ⟨h3, h4⟩ := (nested_iff h hac hg hf he).1 hpre
      have := hpre.length_le
      have pf := path_pos h hac hg hf
      refine ⟨(.post f.pre (f.path.length - 1) f.node, f.post), ?_, ?_⟩
      · rw [List.mem_iff_getElem?]
        refine ⟨f.post - e.post, ?_⟩
        have e2 : (e.pp).post + (f.post - e.post) = f.post := by simp only [Ent.pp]; omega
        rw [List.getElem?_drop, e2, List.getElem?_zipIdx,
          (hg.post f.post f.pre (f.path.length - 1) f.node).2 ⟨f, hf, rfl, rfl, rfl⟩]
        simp
      · simp only [above]
        rw [if_pos ⟨trivial, by rw [Ent.pp_level]; omega, h3, h4, by rw [Ent.pp_level]; omega, by rw [Ent.pp_level]; omega⟩, hn]

theorem mem_nested (a b : N) (d : Nat) (ha : InComp E a) : d ∈ g.nested a b ↔ Walk.WalkLen E a b d := by
  unfold nested
  constructor
  · intro hd
    cases hx : g.nodeToOrder.get a with
    | none => simp [hx] at hd
    | some oa =>
      cases hy : g.nodeToOrder.get b with
      | none => simp [hx, hy] at hd
      | some ob =>
        simp only [hx, hy, List.mem_flatMap, List.mem_filterMap] at hd
        obtain ⟨x, hxa, y, hyb, hc⟩ := hd
        obtain ⟨e, he, hea, rfl⟩ := (hg.orders a x).1 (by rw [hx]; exact hxa)
        obtain ⟨f, hf, hfb, rfl⟩ := (hg.orders b y).1 (by rw [hy]; exact hyb)
        split at hc
        swap
        · cases hc
        rename_i hcc
        injection hc with hc
        subst hc
        have hpre := (nested_iff h hac hg he hf).2 ⟨hcc.1, hcc.2.1⟩
        have hw := walk_of_prefix h hac hg he hf hpre
        have p1 := path_pos h hac hg he
        rw [hea, hfb] at hw
        have e1 : f.pp.level - e.pp.level = f.path.length - e.path.length := by simp only [Ent.pp]; omega
        rw [e1]; exact hw
  · intro hw
    obtain ⟨e, he, rfl⟩ := locate h hac hg ha
    obtain ⟨f, hf, rfl, hpre, hlen⟩ := prefix_of_walk h hac hg he hw
    obtain ⟨h1, h2⟩ := (nested_iff h hac hg he hf).1 hpre
    have p1 := path_pos h hac hg he
    cases hx : g.nodeToOrder.get e.node with
    | none => have := (hg.isSome e.node).2 ⟨e, he, rfl⟩; simp [hx] at this
    | some oa =>
      cases hy : g.nodeToOrder.get f.node with
      | none => have := (hg.isSome f.node).2 ⟨f, hf, rfl⟩; simp [hy] at this
      | some ob =>
        simp only [List.mem_flatMap, List.mem_filterMap]
        refine ⟨e.pp, ?_, f.pp, ?_, ?_⟩
        · have := (hg.orders e.node e.pp).2 ⟨e, he, rfl, rfl⟩; rw [hx] at this; exact this
        · have := (hg.orders f.node f.pp).2 ⟨f, hf, rfl, rfl⟩; rw [hy] at this; exact this
        · rw [if_pos ⟨h1, h2, by simp only [Ent.pp]; omega⟩]
          simp only [Ent.pp, Option.some.injEq]; omega

theorem not_located {n : N} (hn : ¬ InComp E n) : g.nodeToOrder.get n = none := by
  cases hx : g.nodeToOrder.get n with
  | none => rfl
  | some x =>
    obtain ⟨e, he, rfl⟩ := (hg.isSome n).1 (by rw [hx]; rfl)
    exact absurd (inComp_of h hac hg he) hn

theorem located {n : N} (hn : InComp E n) : ∃ x, g.nodeToOrder.get n = some x := by
  obtain ⟨e, he, rfl⟩ := locate h hac hg hn
  exact Option.isSome_iff_exists.1 ((hg.isSome e.node).2 ⟨e, he, rfl⟩)

end

theorem fold_min (l : List Nat) : ∀ a, (l.foldl Nat.min a) ≤ a ∧ (∀ x ∈ l, l.foldl Nat.min a ≤ x) ∧
    (l.foldl Nat.min a = a ∨ l.foldl Nat.min a ∈ l) := by
  induction l with
  | nil => intro a; simp
  | cons y l ih =>
    intro a
    obtain ⟨h1, h2, h3⟩ := ih (Nat.min a y)
    rw [List.foldl_cons]
    refine ⟨le_trans h1 (Nat.min_le_left _ _), ?_, ?_⟩
    · intro x hx
      rcases List.mem_cons.1 hx with rfl | hx
      · exact le_trans h1 (Nat.min_le_right _ _)
      · exact h2 x hx
    · rcases h3 with h3 | h3
      · rw [h3]
        rcases Nat.le_total a y with hay | hay
        · left; exact Nat.min_eq_left hay
        · right
          have : Nat.min a y = y := Nat.min_eq_right hay
          rw [this]; simp
      · right; exact List.mem_cons_of_mem _ h3

section
variable [U64 N] (h : o.Is E A) (hac : Walk.Acyclic E) {ordCap lvlCap : Nat}
  (hl : ∀ a b d, Walk.WalkLen E a b d → d ≤ lvlCap)
  {g0 g : PrePostGs N S W} (hc : copy ordCap lvlCap g0 o = some g)
include h hac hl hc

omit hl hc in
theorem simple_iff_walk {a b : N} {d : Nat} : Walk.SimplePath E a b d ↔ Walk.WalkLen E a b d :=
  ⟨fun h => h.walk, fun h => Walk.simple_of_acyclic hac h⟩

theorem rep : ∃ l, Rep g E A (fun r => r ∈ o.roots) l := by
  obtain ⟨l, c, _, _, h3⟩ := copy_rep h hac hl g0
  exact ⟨l, (h3 g hc).1⟩

theorem within_iff {min m : Nat} {max : Bnd Nat} (hm : maxDistance max = some m) {a b : N} :
    (∃ d, Walk.WalkLen E a b d ∧ min ≤ d ∧ d ≤ m) ↔ ∃ d, Walk.SimplePath E a b d ∧ Within min max d := by
  constructor
  · rintro ⟨d, h1, h2⟩
    have hs := Walk.simple_of_acyclic hac h1
    exact ⟨d, hs, (Adj.within_max hm (Adj.simplePath_le hs)).1 h2⟩
  · rintro ⟨d, h1, h2⟩
    exact ⟨d, h1.walk, (Adj.within_max hm (Adj.simplePath_le h1)).2 h2⟩

/-- C15 (for every acyclic graph): `find_connected` for all nodes of the component and all bounds except `Excluded(0)`, for
which the code panics. -/
theorem C15_find_connected (n : N) (hn : InComp E n) (min : Nat) (max : Bnd Nat) (hmax : max ≠ .excluded 0) :
    ∃ r, g.findConnected n min max = some r ∧ r.Nodup ∧
      ∀ b, b ∈ r ↔ ∃ d, Walk.SimplePath E n b d ∧ Within min max d := by
  obtain ⟨l, hg⟩ := rep h hac hl hc
  obtain ⟨orders, hx⟩ := located h hac hg hn
  obtain ⟨m, hm⟩ : ∃ m, maxDistance max = some m := by
    cases max with
    | unbounded => exact ⟨_, rfl⟩
    | included d => exact ⟨_, rfl⟩
    | excluded d =>
      have : d ≠ 0 := fun e => hmax (by rw [e])
      exact ⟨d - 1, by simp [maxDistance, this]⟩
  have hord : ∀ x, x ∈ orders ↔ ∃ e ∈ l, e.node = n ∧ e.pp = x := by
    intro x; rw [← hg.orders n x, hx]; rfl
  unfold findConnected
  rw [hx]
  simp only [hm]
  have hok : orders.all g.sliceOk = true := by
    rw [List.all_eq_true]
    intro x hxo
    obtain ⟨e, he, _, rfl⟩ := (hord x).1 hxo
    exact sliceOk_of h hac hg he
  rw [if_pos hok]
  refine ⟨_, rfl, nodup_firstVisits _ _, ?_⟩
  intro b
  rw [mem_firstVisits_map, ← within_iff h hac hl hc hm, List.mem_flatMap]
  constructor
  · intro hb
    obtain ⟨x, hxo, hbx⟩ := hb
    obtain ⟨e, he, rfl, rfl⟩ := (hord x).1 hxo
    exact (mem_below h hac hg he min m b).1 hbx
  · intro hb
    obtain ⟨e, he, rfl⟩ := locate h hac hg hn
    exact ⟨e.pp, (hord _).2 ⟨e, he, rfl, rfl⟩, (mem_below h hac hg he min m b).2 hb⟩

/-- C15 (for every acyclic graph): `find_connected_inverse`. -/
theorem C15_find_connected_inverse (n : N) (hn : InComp E n) (min : Nat) (max : Bnd Nat) (hmax : max ≠ .excluded 0) :
    ∃ r, g.findConnectedInverse n min max = some r ∧ r.Nodup ∧
      ∀ b, b ∈ r ↔ ∃ d, Walk.SimplePath E b n d ∧ Within min max d := by
  obtain ⟨l, hg⟩ := rep h hac hl hc
  obtain ⟨orders, hx⟩ := located h hac hg hn
  obtain ⟨m, hm⟩ : ∃ m, maxDistance max = some m := by
    cases max with
    | unbounded => exact ⟨_, rfl⟩
    | included d => exact ⟨_, rfl⟩
    | excluded d =>
      have : d ≠ 0 := fun e => hmax (by rw [e])
      exact ⟨d - 1, by simp [maxDistance, this]⟩
  have hord : ∀ x, x ∈ orders ↔ ∃ e ∈ l, e.node = n ∧ e.pp = x := by
    intro x; rw [← hg.orders n x, hx]; rfl
  unfold findConnectedInverse
  rw [hx]
  simp only [hm]
  refine ⟨_, rfl, nodup_firstVisits _ _, ?_⟩
  intro b
  rw [mem_firstVisits_map, ← within_iff h hac hl hc hm, List.mem_flatMap]
  constructor
  · intro hb
    obtain ⟨x, hxo, hbx⟩ := hb
    obtain ⟨e, he, rfl, rfl⟩ := (hord x).1 hxo
    obtain ⟨f, hf, rfl, hpre, h1, h2⟩ := (mem_above h hac hg he min m b).1 hbx
    exact ⟨_, walk_of_prefix h hac hg hf he hpre, h1, h2⟩
  · rintro ⟨d, hw, h1, h2⟩
    have hb : InComp E b := by
      cases d with
      | zero => rw [Walk.walkLen_zero.1 hw]; exact hn
      | succ d => obtain ⟨c, hc, _⟩ := Walk.walkLen_succ.1 hw; exact ⟨c, Or.inl hc⟩
    obtain ⟨f, hf, rfl⟩ := locate h hac hg hb
    obtain ⟨e, he, rfl, hpre, hlen⟩ := prefix_of_walk h hac hg hf hw
    exact ⟨e.pp, (hord _).2 ⟨e, he, rfl, rfl⟩,
      (mem_above h hac hg he min m f.node).2 ⟨f, hf, rfl, hpre, by omega, by omega⟩⟩

/-- C15 (for every acyclic graph): `distance` is the length of a shortest path. -/
theorem C15_distance (a b : N) (d : Nat) :
    g.distance a b = some d ↔ Walk.SimplePath E a b d ∧ ∀ d', Walk.WalkLen E a b d' → d ≤ d' := by
  obtain ⟨l, hg⟩ := rep h hac hl hc
  rw [simple_iff_walk h hac]
  unfold distance
  by_cases hab : a = b
  · subst hab
    rw [if_pos rfl]
    constructor
    · intro e; injection e with e; subst e; exact ⟨Walk.walkLen_zero.2 rfl, fun _ _ => Nat.zero_le _⟩
    · rintro ⟨hw, _⟩; rw [Walk.walk_self hac hw]
  · rw [if_neg hab]
    by_cases hn : InComp E a
    · have hmem := mem_nested h hac hg a b
      cases hx : g.nested a b with
      | nil =>
        simp only
        constructor
        · intro e; cases e
        · rintro ⟨hw, _⟩
          have := (hmem d hn).2 hw
          rw [hx] at this; simp at this
      | cons y r =>
        simp only [Option.some.injEq]
        obtain ⟨f1, f2, f3⟩ := fold_min (y :: r) usizeMax
        have f4 : (y :: r).foldl Nat.min usizeMax ∈ y :: r := by
          rcases f3 with f3 | f3
          · have h1 := f2 y (by simp)
            have h2 := Adj.simplePath_le (Walk.simple_of_acyclic hac ((hmem y hn).1 (by rw [hx]; simp)))
            rw [f3] at h1 ⊢
            rw [le_antisymm h1 h2]; simp
          · exact f3
        rw [← hx] at f2 f4 ⊢
        constructor
        · rintro rfl
          exact ⟨(hmem _ hn).1 f4, fun d' hd' => f2 d' ((hmem d' hn).2 hd')⟩
        · rintro ⟨h1, h2⟩
          exact le_antisymm (f2 d ((hmem d hn).2 h1)) (h2 _ ((hmem _ hn).1 f4))
    · have hnone := not_located h hac hg hn
      have : g.nested a b = [] := by unfold nested; rw [hnone]
      rw [this]
      simp only
      constructor
      · intro e; cases e
      · rintro ⟨hw, _⟩
        cases d with
        | zero => exact absurd (Walk.walkLen_zero.1 hw) hab
        | succ d => obtain ⟨c, hc, _⟩ := Walk.walkLen_succ.1 hw; exact absurd ⟨c, Or.inl hc⟩ hn

/-- C15 (for every acyclic graph): outgoing and ingoing neighbours and source nodes, for all nodes. -/
theorem C15_neighbours (n : N) :
    (∃ r, g.out n = some r ∧ r.Nodup ∧ ∀ b, b ∈ r ↔ E n b) ∧ (∃ r, g.inn n = some r ∧ r.Nodup ∧ ∀ b, b ∈ r ↔ E b n) ∧
    (n ∈ g.sources ↔ ∃ b, E n b) := by
  obtain ⟨l, hg⟩ := rep h hac hl hc
  have hone : ∀ a b, (∃ d, Walk.SimplePath E a b d ∧ Within 1 (.included 1) d) ↔ E a b := by
    intro a b
    constructor
    · rintro ⟨d, h1, h2, h3⟩
      simp only at h3
      have : d = 1 := by omega
      subst this
      exact Walk.walkLen_one.1 h1.walk
    · intro hab
      exact ⟨1, Walk.simple_of_acyclic hac (Walk.walkLen_one.2 hab), le_refl _, le_refl _⟩
  have hout : ∀ n, ∃ r, g.out n = some r ∧ r.Nodup ∧ ∀ b, b ∈ r ↔ E n b := by
    intro n
    by_cases hn : InComp E n
    · obtain ⟨r, h1, h2, h3⟩ := C15_find_connected h hac hl hc n hn 1 (.included 1) (by simp)
      exact ⟨r, h1, h2, fun b => by rw [h3, hone]⟩
    · refine ⟨[], ?_, by simp, fun b => ⟨by simp, fun hb => absurd ⟨b, Or.inl hb⟩ hn⟩⟩
      unfold out findConnected
      rw [not_located h hac hg hn]
  refine ⟨hout n, ?_, ?_⟩
  · by_cases hn : InComp E n
    · obtain ⟨r, h1, h2, h3⟩ := C15_find_connected_inverse h hac hl hc n hn 1 (.included 1) (by simp)
      exact ⟨r, h1, h2, fun b => by rw [h3, hone]⟩
    · refine ⟨[], ?_, by simp, fun b => ⟨by simp, fun hb => absurd ⟨b, Or.inr hb⟩ hn⟩⟩
      unfold inn findConnectedInverse
      rw [not_located h hac hg hn]
  · unfold sources
    rw [List.mem_filter, OMap.mem_keys_iff]
    obtain ⟨r, h1, _, h3⟩ := hout n
    rw [h1]
    simp only [bne_iff_ne, ne_eq, Option.some.injEq]
    constructor
    · rintro ⟨_, hne⟩
      cases r with
      | nil => exact absurd rfl hne
      | cons b r => exact ⟨b, (h3 b).1 (by simp)⟩
    · rintro ⟨b, hb⟩
      refine ⟨located h hac hg ⟨b, Or.inl hb⟩, ?_⟩
      rintro rfl
      have := (h3 b).2 hb
      simp at this

/-- C15 (for every acyclic graph): edge annotations. -/
theorem C15_annotations (a b : N) (k : AnnoKey S) : g.annos.getValue (toLex (a, b)) k = A a b k := by
  obtain ⟨l, hg⟩ := rep h hac hl hc
  rw [hg.val]
  cases hA : A a b k with
  | none => simp
  | some v =>
    rw [if_pos (locate h hac hg (n := a) ⟨b, Or.inl (h.anno_dom a b k v hA)⟩)]

/-- C15, C16: if all paths between the two nodes have the same length, `is_connected` is right, for every bound other than
`Excluded(0)`. -/
theorem is_connected_of_unique (a b : N) (ha : InComp E a) (hb : InComp E b) (min : Nat) (max : Bnd Nat)
    (hmax : max ≠ .excluded 0) (hu : ∀ d d', Walk.WalkLen E a b d → Walk.WalkLen E a b d' → d = d') :
    ∃ r, g.isConnected a b min max = some r ∧
      (r = true ↔ ∃ d, Walk.SimplePath E a b d ∧ Within min max d) := by
  obtain ⟨l, hg⟩ := rep h hac hl hc
  obtain ⟨oa, hx⟩ := located h hac hg ha
  obtain ⟨ob, hy⟩ := located h hac hg hb
  obtain ⟨m, hm⟩ : ∃ m, maxDistance max = some m := by
    cases max with
    | unbounded => exact ⟨_, rfl⟩
    | included d => exact ⟨_, rfl⟩
    | excluded d =>
      have : d ≠ 0 := fun e => hmax (by rw [e])
      exact ⟨d - 1, by simp [maxDistance, this]⟩
  unfold isConnected
  rw [hx, hy]
  simp only [hm, Option.map_some]
  refine ⟨_, rfl, ?_⟩
  rw [← within_iff h hac hl hc hm]
  have hmem := mem_nested h hac hg a b
  cases hn : g.nested a b with
  | nil =>
    simp only [Bool.false_eq_true, false_iff, not_exists]
    rintro d ⟨hd, _⟩
    have := (hmem d ha).2 hd
    rw [hn] at this; simp at this
  | cons y r =>
    have hyw := (hmem y ha).1 (by rw [hn]; simp)
    simp only [Bool.and_eq_true, decide_eq_true_eq]
    constructor
    · rintro ⟨h1, h2⟩; exact ⟨y, hyw, h1, h2⟩
    · rintro ⟨d, hd, h1, h2⟩; rw [hu y d hyw hd]; exact ⟨h1, h2⟩

omit hl hc in
/-- In a forest all paths between two nodes have the same length. -/
theorem forest_unique (hi : Walk.InjectiveRel E) {a b : N} {d d' : Nat} (h1 : Walk.WalkLen E a b d)
    (h2 : Walk.WalkLen E a b d') : d = d' := by
  obtain ⟨r, e, hw, hr⟩ := Walk.exists_root hac h.covers a
  have := (Walk.root_unique hi (Walk.walkLen_add.2 ⟨a, hw, h1⟩) (Walk.walkLen_add.2 ⟨a, hw, h2⟩) hr hr).2
  omega

/-- C15: `is_connected` on forests. -/
theorem C15_is_connected (hi : Walk.InjectiveRel E) (a b : N) (ha : InComp E a) (hb : InComp E b) (min : Nat)
    (max : Bnd Nat) (hmax : max ≠ .excluded 0) :
    ∃ r, g.isConnected a b min max = some r ∧ (r = true ↔ ∃ d, Walk.SimplePath E a b d ∧ Within min max d) :=
  is_connected_of_unique h hac hl hc a b ha hb min max hmax fun _ _ => forest_unique h hac hi

/-- C16, restricted: `is_connected` and `find_connected` agree when all paths between the two nodes have the same length.
Missing: nodes that are connected by paths of different length, see `C16_is_connected_fails`. -/
theorem C16_agree_partial (a b : N) (ha : InComp E a) (hb : InComp E b) (min : Nat) (max : Bnd Nat)
    (hmax : max ≠ .excluded 0) (hu : ∀ d d', Walk.WalkLen E a b d → Walk.WalkLen E a b d' → d = d') :
    ∃ r l, g.isConnected a b min max = some r ∧ g.findConnected a min max = some l ∧ (r = true ↔ b ∈ l) := by
  obtain ⟨r, h1, h2⟩ := is_connected_of_unique h hac hl hc a b ha hb min max hmax hu
  obtain ⟨l, h3, _, h4⟩ := C15_find_connected h hac hl hc a ha min max hmax
  exact ⟨r, l, h1, h3, by rw [h2, h4]⟩

/-- C16, restricted: on every acyclic graph `is_connected` is only true for nodes that `find_connected` returns.  Missing:
the converse. -/
theorem C16_sound_partial (a b : N) (ha : InComp E a) (min : Nat) (max : Bnd Nat) (hmax : max ≠ .excluded 0)
    (hr : g.isConnected a b min max = some true) : ∃ l, g.findConnected a min max = some l ∧ b ∈ l := by
  obtain ⟨l, h3, _, h4⟩ := C15_find_connected h hac hl hc a ha min max hmax
  refine ⟨l, h3, ?_⟩
  rw [h4]
  obtain ⟨ll, hg⟩ := rep h hac hl hc
  obtain ⟨oa, hx⟩ := located h hac hg ha
  unfold isConnected at hr
  rw [hx] at hr
  cases hy : g.nodeToOrder.get b with
  | none => simp [hy] at hr
  | some ob =>
    simp only [hy, Option.map_eq_some_iff] at hr
    obtain ⟨m, hm, hr⟩ := hr
    rw [← within_iff h hac hl hc hm]
    cases hn : g.nested a b with
    | nil => simp [hn] at hr
    | cons y r =>
      simp only [hn, Bool.and_eq_true, decide_eq_true_eq] at hr
      exact ⟨y, (mem_nested h hac hg a b y ha).1 (by rw [hn]; simp), hr.1, hr.2⟩

/-- C16, restricted: without an upper bound and with a minimal distance of at most one, `is_connected` and `find_connected`
agree on every acyclic graph (different nodes).  This is the case used for the dominance operator `>*`. -/
theorem C16_unbounded_partial (a b : N) (ha : InComp E a) (hb : InComp E b) (hab : a ≠ b) (min : Nat) (hmin : min ≤ 1) :
    ∃ r l, g.isConnected a b min .unbounded = some r ∧ g.findConnected a min .unbounded = some l ∧ (r = true ↔ b ∈ l) := by
  obtain ⟨l, h3, _, h4⟩ := C15_find_connected h hac hl hc a ha min .unbounded (by simp)
  obtain ⟨ll, hg⟩ := rep h hac hl hc
  obtain ⟨oa, hx⟩ := located h hac hg ha
  obtain ⟨ob, hy⟩ := located h hac hg hb
  unfold isConnected
  rw [hx, hy]
  simp only [maxDistance, Option.map_some]
  refine ⟨_, l, rfl, h3, ?_⟩
  rw [h4, ← within_iff h hac hl hc (max := .unbounded) rfl]
  have hmem := mem_nested h hac hg a b
  cases hn : g.nested a b with
  | nil =>
    simp only [Bool.false_eq_true, false_iff, not_exists]
    rintro d ⟨hd, _⟩
    have := (hmem d ha).2 hd
    rw [hn] at this; simp at this
  | cons y r =>
    have hyw := (hmem y ha).1 (by rw [hn]; simp)
    have hy0 : y ≠ 0 := fun e => hab (Walk.walkLen_zero.1 (e ▸ hyw))
    simp only [Bool.and_eq_true, decide_eq_true_eq]
    constructor
    · rintro ⟨h1, h2⟩; exact ⟨y, hyw, h1, h2⟩
    · rintro _
      exact ⟨by omega, Adj.simplePath_le (Walk.simple_of_acyclic hac hyw)⟩

end

/-! ## Where C16 fails, and non-vacuity -/

/-- A tree with two branches. -/
def demoTree : List (Adj.Op NodeID64 Nat Nat) :=
  [.addEdge 1 2, .addEdge 1 3, .addEdge 3 4, .addAnno 1 3 (AnnoKey.mk 1 2) 5]

/-- A directed acyclic graph where 3 is reachable from 1 with one and with two edges. -/
def demoDag : List (Adj.Op NodeID64 Nat Nat) := [.addEdge 1 2, .addEdge 2 3, .addEdge 1 3]

/-- The copies with 16 bit order numbers and 8 bit levels. -/
def demoCopy (ops : List (Adj.Op NodeID64 Nat Nat)) : Option (PrePostGs NodeID64 Nat Nat) :=
  copy 65535 255 new (Adj.run ops).asSource

theorem demoTree_edges (a b : NodeID64) :
    (Adj.spec demoTree).edge a b = true ↔ (a = 1 ∧ b = 2) ∨ (a = 1 ∧ b = 3) ∨ (a = 3 ∧ b = 4) := by
  simp only [demoTree, Adj.spec, List.foldl_cons, List.foldl_nil, Adj.specStep]
  by_cases h1 : a = 3 ∧ b = 4
  · simp [h1]
  · by_cases h2 : a = 1 ∧ b = 3
    · simp [h2]
    · by_cases h3 : a = 1 ∧ b = 2
      · simp [h3]
      · have e1 : ¬(a = 3 ∧ b = 4 ∧ (3 : NodeID64) ≠ 4) := by tauto
        have e2 : ¬(a = 1 ∧ b = 3 ∧ (1 : NodeID64) ≠ 3) := by tauto
        have e3 : ¬(a = 1 ∧ b = 2 ∧ (1 : NodeID64) ≠ 2) := by tauto
        simp only [e1, e2, e3, h1, h2, h3, if_false, Bool.false_eq_true, false_or]

theorem demoDag_edges (a b : NodeID64) :
    (Adj.spec demoDag).edge a b = true ↔ (a = 1 ∧ b = 2) ∨ (a = 2 ∧ b = 3) ∨ (a = 1 ∧ b = 3) := by
  simp only [demoDag, Adj.spec, List.foldl_cons, List.foldl_nil, Adj.specStep]
  by_cases h1 : a = 1 ∧ b = 3
  · simp [h1]
  · by_cases h2 : a = 2 ∧ b = 3
    · simp [h2]
    · by_cases h3 : a = 1 ∧ b = 2
      · simp [h3]
      · have e1 : ¬(a = 1 ∧ b = 3 ∧ (1 : NodeID64) ≠ 3) := by tauto
        have e2 : ¬(a = 2 ∧ b = 3 ∧ (2 : NodeID64) ≠ 3) := by tauto
        have e3 : ¬(a = 1 ∧ b = 2 ∧ (1 : NodeID64) ≠ 2) := by tauto
        simp only [e1, e2, e3, h1, h2, h3, if_false, Bool.false_eq_true, false_or]

theorem acyclic_of_lt {E : NodeID64 → NodeID64 → Prop} (hE : ∀ a b, E a b → a < b) : Walk.Acyclic E := by
  have : ∀ a b, Relation.TransGen E a b → a < b := by
    intro a b hab
    induction hab with
    | single h => exact hE _ _ h
    | tail _ h ih => exact lt_trans ih (hE _ _ h)
  intro a ha
  exact lt_irrefl _ (this a a ha)

theorem demoTree_acyclic : Walk.Acyclic (fun a b => (Adj.spec demoTree).edge a b = true) := by
  apply acyclic_of_lt
  intro a b hab
  rcases (demoTree_edges a b).1 hab with ⟨rfl, rfl⟩ | ⟨rfl, rfl⟩ | ⟨rfl, rfl⟩ <;> decide

theorem demoDag_acyclic : Walk.Acyclic (fun a b => (Adj.spec demoDag).edge a b = true) := by
  apply acyclic_of_lt
  intro a b hab
  rcases (demoDag_edges a b).1 hab with ⟨rfl, rfl⟩ | ⟨rfl, rfl⟩ | ⟨rfl, rfl⟩ <;> decide

theorem demoTree_forest : Walk.InjectiveRel (fun a b => (Adj.spec demoTree).edge a b = true) := by
  intro x y z h1 h2
  rcases (demoTree_edges _ _).1 h1 with ⟨rfl, rfl⟩ | ⟨rfl, rfl⟩ | ⟨rfl, rfl⟩ <;>
  rcases (demoTree_edges _ _).1 h2 with ⟨rfl, h⟩ | ⟨rfl, h⟩ | ⟨rfl, h⟩ <;> first | rfl | exact absurd h (by decide)

theorem demo_levels (ops : List (Adj.Op NodeID64 Nat Nat)) (hac : Walk.Acyclic (fun a b => (Adj.spec ops).edge a b = true))
    (hlen : (Adj.run ops).asSource.nodes.length ≤ 255) :
    ∀ a b d, Walk.WalkLen (fun a b => (Adj.spec ops).edge a b = true) a b d → d ≤ 255 := by
  intro a b d hw
  have h1 := Walk.walk_le hac (Adj.asSource_is ops).covers hw
  omega

/-- The hypotheses of the C15 theorems hold for the demo tree, and the answers are not trivial. -/
example : ∃ g, demoCopy demoTree = some g ∧ (∀ a b min max, InComp (fun a b => (Adj.spec demoTree).edge a b = true) a →
      InComp (fun a b => (Adj.spec demoTree).edge a b = true) b → max ≠ .excluded 0 →
      ∃ r, g.isConnected a b min max = some r ∧
        (r = true ↔ ∃ d, Walk.SimplePath (fun a b => (Adj.spec demoTree).edge a b = true) a b d ∧ Within min max d)) ∧
    g.isConnected 1 4 2 (.included 2) = some true ∧ g.findConnected 1 1 .unbounded = some [3, 4, 2] ∧
    g.findConnectedInverse 4 1 .unbounded = some [1, 3] ∧ g.distance 1 4 = some 2 ∧ g.distance 2 4 = none ∧
    g.annos.getValue (toLex (1, 3)) (AnnoKey.mk 1 2) = some 5 := by
  have hs : (demoCopy demoTree).isSome = true := by decide
  obtain ⟨g, hg⟩ := Option.isSome_iff_exists.1 hs
  refine ⟨g, hg, ?_, ?_⟩
  · intro a b min max ha hb hmax
    exact C15_is_connected (Adj.asSource_is demoTree) demoTree_acyclic
      (demo_levels demoTree demoTree_acyclic (by decide)) hg demoTree_forest a b ha hb min max hmax
  · have : ∀ g ∈ demoCopy demoTree, g.isConnected 1 4 2 (.included 2) = some true ∧
        g.findConnected 1 1 .unbounded = some [3, 4, 2] ∧ g.findConnectedInverse 4 1 .unbounded = some [1, 3] ∧
        g.distance 1 4 = some 2 ∧ g.distance 2 4 = none ∧ g.annos.getValue (toLex (1, 3)) (AnnoKey.mk 1 2) = some 5 := by
      decide
    exact this g hg

/-- C16 fails: node 3 is a direct child of node 1 and also a grandchild.  `find_connected` finds it for the distance one
and for the distance two, `is_connected` only for one of them. -/
theorem C16_is_connected_fails : ∃ g, demoCopy demoDag = some g ∧
    g.findConnected 1 2 (.included 2) = some [3] ∧ g.findConnected 1 1 (.included 1) = some [3, 2] ∧
    g.isConnected 1 3 1 (.included 1) = some true ∧ g.isConnected 1 3 2 (.included 2) = some false := by
  have hs : (demoCopy demoDag).isSome = true := by decide
  obtain ⟨g, hg⟩ := Option.isSome_iff_exists.1 hs
  refine ⟨g, hg, ?_⟩
  have : ∀ g ∈ demoCopy demoDag, g.findConnected 1 2 (.included 2) = some [3] ∧
      g.findConnected 1 1 (.included 1) = some [3, 2] ∧
      g.isConnected 1 3 1 (.included 1) = some true ∧ g.isConnected 1 3 2 (.included 2) = some false := by decide
  exact this g hg

/-- The hypotheses of the C16 theorems hold for the demo graph with several orders per node. -/
example : ∀ g, demoCopy demoDag = some g → ∃ r l, g.isConnected 1 3 1 .unbounded = some r ∧
    g.findConnected 1 1 .unbounded = some l ∧ (r = true ↔ 3 ∈ l) := by
  intro g hg
  exact C16_unbounded_partial (Adj.asSource_is demoDag) demoDag_acyclic
    (demo_levels demoDag demoDag_acyclic (by decide)) hg 1 3 ⟨2, Or.inl (by decide)⟩ ⟨1, Or.inr (by decide)⟩ (by decide) 1
    (le_refl _)

end PrePostGs
