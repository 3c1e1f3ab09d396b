import Verif.Linear.Lemmas
import Verif.Gs.AdjSource

/-!
# C14: the linear storage answers like the chains it was copied from
-/

set_option linter.unusedSimpArgs false
set_option linter.unusedSectionVars false

/-- The node takes part in an edge. -/
def InComp {N : Type} (E : N → N → Prop) (n : N) : Prop := ∃ x, E n x ∨ E x n

theorem mem_slice {α : Type} (c : List α) (lo hi : Nat) (b : α) :
    b ∈ (c.take hi).drop lo ↔ ∃ d, lo ≤ d ∧ d < hi ∧ c[d]? = some b := by
  rw [List.mem_iff_getElem?]
  constructor
  · rintro ⟨i, hi'⟩
    rw [List.getElem?_drop, List.getElem?_take] at hi'
    split at hi'
    · rename_i hlt; exact ⟨lo + i, by omega, hlt, hi'⟩
    · cases hi'
  · rintro ⟨d, h1, h2, h3⟩
    refine ⟨d - lo, ?_⟩
    have e : lo + (d - lo) = d := by omega
    rw [List.getElem?_drop, List.getElem?_take, e, if_pos h2, h3]

theorem mem_drop_iff {α : Type} (c : List α) (lo : Nat) (b : α) : b ∈ c.drop lo ↔ ∃ d, lo ≤ d ∧ c[d]? = some b := by
  have := mem_slice c lo c.length b
  rw [List.take_length] at this
  rw [this]
  constructor
  · rintro ⟨d, h1, _, h3⟩; exact ⟨d, h1, h3⟩
  · rintro ⟨d, h1, h3⟩; exact ⟨d, h1, (List.getElem?_eq_some_iff.1 h3).1, h3⟩

namespace Linear

variable {N S W : Type} [LinearOrder N] [LinearOrder S] [OrderBot S] [LinearOrder W]
variable {o : Source N S W} {E : N → N → Prop} {A : N → N → AnnoKey S → Option W}

theorem simple_iff_walk (hE : Chains E) {a b : N} {d : Nat} : Walk.SimplePath E a b d ↔ Walk.WalkLen E a b d :=
  ⟨fun h => h.walk, fun h => Walk.simple_of_acyclic hE.ac h⟩

section
variable (h : o.Is E A) (hE : Chains E) {g : Linear N S W} (hg : Rep g E A (fun r => r ∈ o.roots))
include h hE hg

theorem locate {n : N} (hn : InComp E n) : ∃ r d c, r ∈ o.roots ∧ Walk.WalkLen E r n d ∧
    g.nodeToPos.get n = some (r, d) ∧ g.chains.get r = some c ∧ ∀ d b, c[d]? = some b ↔ Walk.WalkLen E r b d := by
  obtain ⟨r, d, hw, hr⟩ := Walk.exists_root hE.ac h.covers n
  have hroot : r ∈ o.roots := by
    rw [h.root_iff]
    refine ⟨?_, hr⟩
    cases d with
    | zero =>
      have e := Walk.walkLen_zero.1 hw
      subst e
      obtain ⟨x, hx | hx⟩ := hn
      · exact ⟨x, hx⟩
      · exact absurd ⟨x, hx⟩ hr
    | succ d =>
      obtain ⟨c, hc, _⟩ := Walk.walkLen_succ.1 hw
      exact ⟨c, hc⟩
  obtain ⟨c, hc⟩ := hg.root r hroot
  exact ⟨r, d, c, hroot, hw, (hg.pos n r d).2 ⟨hroot, hw⟩, hc, (hg.chain r c hc).2⟩

theorem not_located {n : N} (hn : ¬ InComp E n) : g.nodeToPos.get n = none := by
  cases hp : g.nodeToPos.get n with
  | none => rfl
  | some p =>
    obtain ⟨r, d⟩ := p
    obtain ⟨h1, h2⟩ := (hg.pos n r d).1 hp
    exfalso; apply hn
    cases d with
    | zero =>
      rw [← Walk.walkLen_zero.1 h2]
      obtain ⟨b, hb⟩ := ((h.root_iff r).1 h1).1
      exact ⟨b, Or.inl hb⟩
    | succ d =>
      obtain ⟨c, _, hc⟩ := Walk.walkLen_snoc.1 h2
      exact ⟨c, Or.inr hc⟩

theorem chain_nodup {r : N} {c : List N} (hc : ∀ d b, c[d]? = some b ↔ Walk.WalkLen E r b d) : c.Nodup := by
  rw [List.nodup_iff_pairwise_ne, List.pairwise_iff_getElem]
  intro i j hi hj hij heq
  have h1 := (hc i _).1 (List.getElem?_eq_getElem hi)
  have h2 := (hc j _).1 (List.getElem?_eq_getElem hj)
  rw [← heq] at h2
  obtain ⟨k, rfl⟩ := Nat.exists_eq_add_of_lt hij
  rw [Nat.add_assoc] at h2
  have := Walk.walk_self hE.ac (Walk.walk_between hE.fn h1 h2)
  omega

/-- Ancestors of a node are in its chain. -/
theorem ancestor {r n b : N} {i e : Nat} (hr : r ∈ o.roots) (hn : Walk.WalkLen E r n i) (hb : Walk.WalkLen E b n e) :
    e ≤ i ∧ Walk.WalkLen E r b (i - e) := by
  obtain ⟨r', d, hw, hr'⟩ := Walk.exists_root hE.ac h.covers b
  have hw2 : Walk.WalkLen E r' n (d + e) := Walk.walkLen_add.2 ⟨b, hw, hb⟩
  obtain ⟨rfl, rfl⟩ := Walk.root_unique hE.inj hn hw2 ((h.root_iff r).1 hr).2 hr'
  refine ⟨by omega, ?_⟩
  rw [Nat.add_sub_cancel]; exact hw

end

section
variable [U64 N] (h : o.Is E A) (hE : Chains E) {cap : Nat} (hcap : ∀ a b d, Walk.WalkLen E a b d → d < cap)
  (g0 : Linear N S W)
include h hE hcap

/-- C14: outgoing and ingoing neighbours (and the position arithmetic never overflows, as in C19). -/
theorem C14_neighbours (n : N) :
    (∃ l, (copy cap g0 o).out cap n = some l ∧ l.Nodup ∧ ∀ b, b ∈ l ↔ E n b) ∧
    ((copy cap g0 o).inn n).Nodup ∧ (∀ b, b ∈ (copy cap g0 o).inn n ↔ E b n) ∧
    ((copy cap g0 o).hasIn n = true ↔ ∃ b, E b n) := by
  have hg := copy_rep h hE hcap g0
  by_cases hn : InComp E n
  · obtain ⟨r, d, c, hr, hw, hp, hc, hch⟩ := locate h hE hg hn
    refine ⟨?_, ?_, ?_, ?_⟩
    · refine ⟨(c[d + 1]?).toList, ?_, ?_, ?_⟩
      · unfold out
        rw [hp]
        simp only [hc]
        rw [if_pos (Nat.succ_le_of_lt (hcap _ _ _ hw))]
      · cases c[d + 1]? <;> simp
      · intro b
        rw [Option.mem_toList, hch, Walk.walkLen_snoc]
        constructor
        · rintro ⟨x, hx, hxb⟩; rw [Walk.walk_functional hE.fn hw hx]; exact hxb
        · intro hb; exact ⟨n, hw, hb⟩
    · unfold inn
      rw [hp]
      simp only [hc]
      split
      · simp
      · cases c[d - 1]? <;> simp
    · intro b
      unfold inn
      rw [hp]
      simp only [hc]
      constructor
      · intro hb
        split at hb
        · simp at hb
        · rename_i hd
          rw [Option.mem_toList, hch] at hb
          obtain ⟨e, rfl⟩ : ∃ e, d = e + 1 := ⟨d - 1, by omega⟩
          obtain ⟨x, hx, hxn⟩ := Walk.walkLen_snoc.1 hw
          rw [Nat.add_sub_cancel] at hb
          rw [Walk.walk_functional hE.fn hb hx]; exact hxn
      · intro hb
        obtain ⟨h1, h2⟩ := ancestor h hE hg hr hw (Walk.walkLen_one.2 hb)
        rw [if_neg (by omega), Option.mem_toList, hch]
        exact h2
    · unfold hasIn
      rw [hp]
      simp only [bne_iff_ne, ne_eq]
      constructor
      · intro hd
        obtain ⟨e, rfl⟩ : ∃ e, d = e + 1 := ⟨d - 1, by omega⟩
        obtain ⟨x, _, hxn⟩ := Walk.walkLen_snoc.1 hw
        exact ⟨x, hxn⟩
      · rintro ⟨b, hb⟩
        have := (ancestor h hE hg hr hw (Walk.walkLen_one.2 hb)).1
        omega
  · have hp := not_located h hE hg hn
    have h1 : ∀ b, ¬ E n b := fun b hb => hn ⟨b, Or.inl hb⟩
    have h2 : ∀ b, ¬ E b n := fun b hb => hn ⟨b, Or.inr hb⟩
    refine ⟨⟨[], by unfold out; rw [hp], by simp, by simp [h1]⟩, by simp [inn, hp], by simp [inn, hp, h2],
      by simp [hasIn, hp, h2]⟩

/-- C14: source nodes and root nodes. -/
theorem C14_nodes (n : N) :
    (n ∈ (copy cap g0 o).sources ↔ ∃ b, E n b) ∧ (n ∈ (copy cap g0 o).roots ↔ (∃ b, E n b) ∧ ¬ ∃ a, E a n) := by
  have hg := copy_rep h hE hcap g0
  have hroots : n ∈ (copy cap g0 o).roots ↔ n ∈ o.roots := by
    unfold roots
    rw [OMap.mem_keys_iff]
    constructor
    · rintro ⟨c, hc⟩; exact (hg.chain n c hc).1
    · intro hn; exact hg.root n hn
  refine ⟨?_, by rw [hroots, h.root_iff]⟩
  unfold sources OMap.vals
  simp only [List.mem_flatMap, List.mem_map, Prod.exists, exists_eq_right]
  have hlast : ∀ (c : List N), n ∈ c.reverse.drop 1 ↔ ∃ d, c[d]? = some n ∧ d + 1 < c.length := by
    intro c
    rw [List.drop_reverse, List.mem_reverse]
    have := mem_slice c 0 (c.length - 1) n
    rw [List.drop_zero] at this
    rw [this]
    constructor
    · rintro ⟨d, _, h2, h3⟩; exact ⟨d, h3, by omega⟩
    · rintro ⟨d, h1, h2⟩; exact ⟨d, by omega, by omega, h1⟩
  constructor
  · rintro ⟨c, ⟨r, hc⟩, hn⟩
    obtain ⟨d, hd, hlt⟩ := (hlast c).1 hn
    obtain ⟨_, hch⟩ := hg.chain r c ((OMap.mem_iff_get hg.cs).1 hc)
    have hw := (hch d n).1 hd
    have hw2 := (hch (d + 1) _).1 (List.getElem?_eq_getElem hlt)
    obtain ⟨x, hx, hxb⟩ := Walk.walkLen_snoc.1 hw2
    rw [Walk.walk_functional hE.fn hw hx]
    exact ⟨_, hxb⟩
  · rintro ⟨b, hb⟩
    obtain ⟨r, d, c, hr, hw, hp, hc, hch⟩ := locate h hE hg (n := n) ⟨b, Or.inl hb⟩
    refine ⟨c, ⟨r, OMap.mem_of_get hc⟩, (hlast c).2 ⟨d, (hch d n).2 hw, ?_⟩⟩
    have := (hch (d + 1) b).2 (Walk.walkLen_snoc.2 ⟨n, hw, hb⟩)
    exact (List.getElem?_eq_some_iff.1 this).1

/-- C14: edge annotations. -/
theorem C14_annotations (a b : N) (k : AnnoKey S) : (copy cap g0 o).annos.getValue (toLex (a, b)) k = A a b k := by
  have hg := copy_rep h hE hcap g0
  rw [hg.val]
  cases hA : A a b k with
  | none => simp
  | some v =>
    obtain ⟨r, d, c, hr, hw, hp, hc, hch⟩ := locate h hE hg (n := a) ⟨b, Or.inl (h.anno_dom a b k v hA)⟩
    simp [hp]

/-- C14: `find_connected` for all nodes of the component and all bounds.  The bound must leave room for the `usize`
arithmetic. -/
theorem C14_find_connected (n : N) (hn : InComp E n) (min : Nat) (max : Bnd Nat)
    (hmax : ∀ m, max = .included m ∨ max = .excluded m → m + o.nodes.length < usizeMax) :
    ∃ l, (copy cap g0 o).findConnected n min max = some l ∧ l.Nodup ∧
      ∀ b, b ∈ l ↔ ∃ d, Walk.SimplePath E n b d ∧ Within min max d := by
  have hg := copy_rep h hE hcap g0
  obtain ⟨r, i, c, hr, hw, hp, hc, hch⟩ := locate h hE hg hn
  have hcn := chain_nodup h hE hg hch
  have hi := Walk.walk_le hE.ac h.covers hw
  have hlt : ∀ (hi : Nat) (b : N), (∃ d, i + min ≤ d ∧ d < hi ∧ c[d]? = some b) ↔
      ∃ d, Walk.SimplePath E n b d ∧ min ≤ d ∧ i + d < hi := by
    intro hi b
    constructor
    · rintro ⟨d, h1, h2, h3⟩
      refine ⟨d - i, ?_, by omega, by omega⟩
      rw [simple_iff_walk hE]
      apply Walk.walk_between hE.fn hw
      rw [← hch, ← h3]; congr 1; omega
    · rintro ⟨d, h1, h2, h3⟩
      rw [simple_iff_walk hE] at h1
      exact ⟨i + d, by omega, h3, (hch _ b).2 (Walk.walkLen_add.2 ⟨n, hw, h1⟩)⟩
  have hclen : ∀ b d, Walk.SimplePath E n b d → i + d < c.length := by
    intro b d hd
    rw [simple_iff_walk hE] at hd
    exact (List.getElem?_eq_some_iff.1 ((hch _ b).2 (Walk.walkLen_add.2 ⟨n, hw, hd⟩))).1
  unfold findConnected
  rw [hp]
  simp only [hc]
  by_cases hin : i + min < c.length
  · rw [if_pos hin]
    cases max with
    | unbounded =>
      refine ⟨_, rfl, hcn.sublist (List.drop_sublist _ _), ?_⟩
      intro b
      have := hlt c.length b
      rw [← mem_slice, List.take_length] at this
      rw [this]
      constructor
      · rintro ⟨d, h1, h2, _⟩; exact ⟨d, h1, h2, trivial⟩
      · rintro ⟨d, h1, h2, _⟩; exact ⟨d, h1, h2, hclen b d h1⟩
    | included m =>
      have := hmax m (Or.inl rfl)
      simp only
      rw [if_pos (by omega)]
      refine ⟨_, rfl, ?_, ?_⟩
      · split
        · exact hcn.sublist ((List.drop_sublist _ _).trans (List.take_sublist _ _))
        · simp
      · intro b
        rw [show (if i + min < Nat.min c.length (i + m + 1) then
            List.drop (i + min) (List.take (Nat.min c.length (i + m + 1)) c) else []) =
            List.drop (i + min) (List.take (Nat.min c.length (i + m + 1)) c) by
          split
          · rfl
          · rename_i hno
            symm
            rw [List.drop_eq_nil_iff, List.length_take]
            exact Nat.le_trans (Nat.min_le_left _ _) (by omega)]
        rw [mem_slice, hlt]
        constructor
        · rintro ⟨d, h1, h2, h3⟩
          have := lt_of_lt_of_le h3 (Nat.min_le_right _ _)
          exact ⟨d, h1, h2, by simp only; omega⟩
        · rintro ⟨d, h1, h2, h3⟩
          simp only at h3
          exact ⟨d, h1, h2, Nat.lt_min.2 ⟨hclen b d h1, by omega⟩⟩
    | excluded m =>
      have := hmax m (Or.inr rfl)
      simp only
      rw [if_pos (by omega)]
      refine ⟨_, rfl, ?_, ?_⟩
      · split
        · exact hcn.sublist ((List.drop_sublist _ _).trans (List.take_sublist _ _))
        · simp
      · intro b
        rw [show (if i + min < Nat.min c.length (i + m) then
            List.drop (i + min) (List.take (Nat.min c.length (i + m)) c) else []) =
            List.drop (i + min) (List.take (Nat.min c.length (i + m)) c) by
          split
          · rfl
          · rename_i hno
            symm
            rw [List.drop_eq_nil_iff, List.length_take]
            exact Nat.le_trans (Nat.min_le_left _ _) (by omega)]
        rw [mem_slice, hlt]
        constructor
        · rintro ⟨d, h1, h2, h3⟩
          have := lt_of_lt_of_le h3 (Nat.min_le_right _ _)
          exact ⟨d, h1, h2, by simp only; omega⟩
        · rintro ⟨d, h1, h2, h3⟩
          simp only at h3
          exact ⟨d, h1, h2, Nat.lt_min.2 ⟨hclen b d h1, by omega⟩⟩
  · rw [if_neg hin]
    refine ⟨[], rfl, by simp, ?_⟩
    intro b
    simp only [List.not_mem_nil, false_iff, not_exists]
    rintro d ⟨h1, h2, _⟩
    have := hclen b d h1
    omega

/-- C14, restricted: `find_connected_inverse` for unbounded and inclusive ranges that are not empty.  Missing: exclusive
upper bounds and empty ranges, see `C14_inverse_excluded_fails` and `C14_inverse_empty_range_fails`. -/
theorem C14_find_connected_inverse_partial (n : N) (hn : InComp E n) (min : Nat) (max : Bnd Nat)
    (hmax : max = .unbounded ∨ ∃ m, max = .included m ∧ min ≤ m) :
    ((copy cap g0 o).findConnectedInverse n min max).Nodup ∧
    ∀ b, b ∈ (copy cap g0 o).findConnectedInverse n min max ↔ ∃ d, Walk.SimplePath E b n d ∧ Within min max d := by
  have hg := copy_rep h hE hcap g0
  obtain ⟨r, i, c, hr, hw, hp, hc, hch⟩ := locate h hE hg hn
  have hcn := chain_nodup h hE hg hch
  have hil : i < c.length := (List.getElem?_eq_some_iff.1 ((hch i n).2 hw)).1
  have hanc : ∀ b d, Walk.SimplePath E b n d → d ≤ i ∧ c[i - d]? = some b := by
    intro b d hd
    rw [simple_iff_walk hE] at hd
    obtain ⟨h1, h2⟩ := ancestor h hE hg hr hw hd
    exact ⟨h1, (hch _ b).2 h2⟩
  have hback : ∀ b d, d ≤ i → c[d]? = some b → Walk.SimplePath E b n (i - d) := by
    intro b d hd hb
    rw [simple_iff_walk hE]
    apply Walk.walk_between hE.fn ((hch d b).1 hb)
    have e : d + (i - d) = i := by omega
    rw [e]; exact hw
  unfold findConnectedInverse
  rw [hp]
  simp only [hc]
  by_cases hmi : min ≤ i
  · have hlow : lowEnd i max ≤ i - min := by
      rcases hmax with rfl | ⟨m, rfl, hm⟩ <;> simp only [lowEnd] <;> omega
    rw [if_pos hmi, if_pos ⟨by omega, hlow⟩]
    refine ⟨hcn.sublist ((List.drop_sublist _ _).trans (List.take_sublist _ _)), ?_⟩
    intro b
    rw [mem_slice]
    constructor
    · rintro ⟨d, h1, h2, h3⟩
      refine ⟨i - d, hback b d (by omega) h3, by omega, ?_⟩
      rcases hmax with rfl | ⟨m, rfl, hm⟩
      · trivial
      · simp only [lowEnd] at h1 ⊢; omega
    · rintro ⟨d, h1, h2, h3⟩
      obtain ⟨h4, h5⟩ := hanc b d h1
      refine ⟨i - d, ?_, by omega, h5⟩
      rcases hmax with rfl | ⟨m, rfl, hm⟩ <;> simp only [lowEnd] at h3 ⊢ <;> omega
  · rw [if_neg hmi]
    refine ⟨by simp, ?_⟩
    intro b
    simp only [List.not_mem_nil, false_iff, not_exists]
    rintro d ⟨h1, h2, _⟩
    have := (hanc b d h1).1
    omega

/-- C14: `distance` for all nodes. -/
theorem C14_distance (a b : N) (d : Nat) : (copy cap g0 o).distance a b = some d ↔ Walk.SimplePath E a b d := by
  have hg := copy_rep h hE hcap g0
  rw [simple_iff_walk hE]
  unfold distance
  by_cases hab : a = b
  · subst hab
    rw [if_pos rfl]
    constructor
    · intro e; injection e with e; subst e; exact Walk.walkLen_zero.2 rfl
    · intro hw; rw [Walk.walk_self hE.ac hw]
  · rw [if_neg hab]
    constructor
    · intro hd
      cases ha : (copy cap g0 o).nodeToPos.get a with
      | none => simp [ha] at hd
      | some pa =>
        cases hb : (copy cap g0 o).nodeToPos.get b with
        | none => simp [ha, hb] at hd
        | some pb =>
          obtain ⟨ra, ia⟩ := pa
          obtain ⟨rb, ib⟩ := pb
          simp only [ha, hb] at hd
          split at hd
          · rename_i hc
            obtain ⟨rfl, hle⟩ := hc
            injection hd with hd
            subst hd
            have h1 := ((hg.pos a ra ia).1 ha).2
            have h2 := ((hg.pos b ra ib).1 hb).2
            have e : ib = ia + (ib - ia) := by omega
            rw [e] at h2
            exact Walk.walk_between hE.fn h1 h2
          · cases hd
    · intro hw
      have hd0 : d ≠ 0 := by
        rintro rfl
        exact hab (Walk.walkLen_zero.1 hw)
      obtain ⟨e, rfl⟩ : ∃ e, d = e + 1 := ⟨d - 1, by omega⟩
      obtain ⟨x, hx, _⟩ := Walk.walkLen_succ.1 hw
      obtain ⟨r, i, c, hr, hwa, hp, _⟩ := locate h hE hg (n := a) ⟨x, Or.inl hx⟩
      have hb := (hg.pos b r (i + (e + 1))).2 ⟨hr, Walk.walkLen_add.2 ⟨a, hwa, hw⟩⟩
      simp [hp, hb]

/-- C14: `is_connected` for all nodes of the component and all bounds. -/
theorem C14_is_connected (a b : N) (ha : InComp E a) (min : Nat) (max : Bnd Nat) :
    (copy cap g0 o).isConnected a b min max = true ↔ ∃ d, Walk.SimplePath E a b d ∧ Within min max d := by
  have hg := copy_rep h hE hcap g0
  obtain ⟨r, i, c, hr, hwa, hp, _⟩ := locate h hE hg ha
  have hiff : ∀ (rb : N) (ib : Nat), (copy cap g0 o).nodeToPos.get b = some (rb, ib) →
      ∀ d, Walk.SimplePath E a b d ↔ (r = rb ∧ i ≤ ib) ∧ d = ib - i := by
    intro rb ib hb d
    obtain ⟨hrb, hwb⟩ := (hg.pos b rb ib).1 hb
    rw [simple_iff_walk hE]
    constructor
    · intro hw
      have h2 := (hg.pos b r (i + d)).2 ⟨hr, Walk.walkLen_add.2 ⟨a, hwa, hw⟩⟩
      rw [hb] at h2
      injection h2 with h2
      injection h2 with e1 e2
      exact ⟨⟨e1.symm, by omega⟩, by omega⟩
    · rintro ⟨⟨rfl, hle⟩, rfl⟩
      apply Walk.walk_between hE.fn hwa
      have e : i + (ib - i) = ib := by omega
      rw [e]; exact hwb
  unfold isConnected
  rw [hp]
  cases hb : (copy cap g0 o).nodeToPos.get b with
  | none =>
    simp only [Bool.false_eq_true, false_iff, not_exists]
    rintro d ⟨hs, _⟩
    rw [simple_iff_walk hE] at hs
    have h2 := (hg.pos b r (i + d)).2 ⟨hr, Walk.walkLen_add.2 ⟨a, hwa, hs⟩⟩
    rw [hb] at h2
    cases h2
  | some pb =>
    obtain ⟨rb, ib⟩ := pb
    simp only [hiff rb ib hb]
    by_cases hc : r = rb ∧ i ≤ ib
    · rw [if_pos hc]
      cases max <;> simp [Within, hc]
    · rw [if_neg hc]
      simp [hc]

end

/-! ## Where C14 fails, and non-vacuity -/

/-- Two chains 1 → 2 → 3 → 4 and 7 → 8. -/
def demo : List (Adj.Op NodeID64 Nat Nat) :=
  [.addEdge 1 2, .addEdge 2 3, .addEdge 3 4, .addEdge 7 8, .addAnno 2 3 (AnnoKey.mk 1 2) 5]

/-- The copy of the two chains with 8 bit positions. -/
def demoCopy : Linear NodeID64 Nat Nat := copy 255 new (Adj.run demo).asSource

theorem demo_edges (a b : NodeID64) (h : (Adj.spec demo).edge a b = true) :
    (a = 1 ∧ b = 2) ∨ (a = 2 ∧ b = 3) ∨ (a = 3 ∧ b = 4) ∨ (a = 7 ∧ b = 8) := by
  revert h
  simp only [demo, Adj.spec, List.foldl_cons, List.foldl_nil, Adj.specStep]
  by_cases h1 : a = 7 ∧ b = 8
  · tauto
  · by_cases h2 : a = 3 ∧ b = 4
    · tauto
    · by_cases h3 : a = 2 ∧ b = 3
      · tauto
      · by_cases h4 : a = 1 ∧ b = 2
        · tauto
        · have e1 : ¬(a = 7 ∧ b = 8 ∧ (7 : NodeID64) ≠ 8) := by tauto
          have e2 : ¬(a = 3 ∧ b = 4 ∧ (3 : NodeID64) ≠ 4) := by tauto
          have e3 : ¬(a = 2 ∧ b = 3 ∧ (2 : NodeID64) ≠ 3) := by tauto
          have e4 : ¬(a = 1 ∧ b = 2 ∧ (1 : NodeID64) ≠ 2) := by tauto
          simp only [e1, e2, e3, e4, if_false, Bool.false_eq_true, false_implies]

theorem demo_chains : Chains (fun a b => (Adj.spec demo).edge a b = true) := by
  have hE := demo_edges
  refine ⟨?_, ?_, ?_⟩
  · intro x y z h1 h2
    rcases hE _ _ h1 with ⟨rfl, rfl⟩ | ⟨rfl, rfl⟩ | ⟨rfl, rfl⟩ | ⟨rfl, rfl⟩ <;>
    rcases hE _ _ h2 with ⟨h, rfl⟩ | ⟨h, rfl⟩ | ⟨h, rfl⟩ | ⟨h, rfl⟩ <;> first | rfl | exact absurd h (by decide)
  · intro x y z h1 h2
    rcases hE _ _ h1 with ⟨rfl, rfl⟩ | ⟨rfl, rfl⟩ | ⟨rfl, rfl⟩ | ⟨rfl, rfl⟩ <;>
    rcases hE _ _ h2 with ⟨rfl, h⟩ | ⟨rfl, h⟩ | ⟨rfl, h⟩ | ⟨rfl, h⟩ <;> first | rfl | exact absurd h (by decide)
  · have hlt : ∀ a b, Relation.TransGen (fun a b => (Adj.spec demo).edge a b = true) a b → a < b := by
      intro a b hab
      induction hab with
      | single h => rcases hE _ _ h with ⟨rfl, rfl⟩ | ⟨rfl, rfl⟩ | ⟨rfl, rfl⟩ | ⟨rfl, rfl⟩ <;> decide
      | tail _ h ih =>
        refine lt_trans ih ?_
        rcases hE _ _ h with ⟨rfl, rfl⟩ | ⟨rfl, rfl⟩ | ⟨rfl, rfl⟩ | ⟨rfl, rfl⟩ <;> decide
    intro a ha
    exact lt_irrefl _ (hlt a a ha)

example : demoCopy.findConnected 2 1 .unbounded = some [3, 4] ∧ demoCopy.findConnectedInverse 4 1 (.included 2) = [2, 3] ∧
    demoCopy.distance 1 4 = some 3 ∧ demoCopy.out 255 3 = some [4] ∧ demoCopy.inn 8 = [7] ∧ demoCopy.roots = [1, 7] := by
  decide

/-- The hypotheses of the C14 theorems hold for the demo component. -/
example : ∀ b, b ∈ [3, 4] ↔ ∃ d, Walk.SimplePath (fun a b => (Adj.spec demo).edge a b = true) 2 b d ∧
    Within 1 .unbounded d := by
  have hcap : ∀ a b d, Walk.WalkLen (fun a b => (Adj.spec demo).edge a b = true) a b d → d < 255 := by
    intro a b d hw
    have h1 := Walk.walk_le demo_chains.ac (Adj.asSource_is demo).covers hw
    have h2 : (Adj.run demo).asSource.nodes.length = 4 := by decide
    omega
  obtain ⟨l, h1, _, h2⟩ := C14_find_connected (Adj.asSource_is demo) demo_chains hcap new 2 ⟨3, Or.inl (by decide)⟩ 1
    .unbounded (by simp)
  have h3 : demoCopy.findConnected 2 1 .unbounded = some [3, 4] := by decide
  unfold demoCopy at h3
  rw [h3] at h1
  injection h1 with h1
  rw [h1]; exact h2

/-- C14 fails for exclusive upper bounds of the inverse search: nodes with distance in `[1, 2)` of node 4 are only `{3}`,
but nodes 1, 2 and 3 are returned. -/
theorem C14_inverse_excluded_fails : demoCopy.findConnectedInverse 4 1 (.excluded 2) = [1, 2, 3] := by decide

/-- C14 fails for empty ranges of the inverse search: no distance is at least 1 and at most 0, but the node itself and
its descendants are returned. -/
theorem C14_inverse_empty_range_fails : demoCopy.findConnectedInverse 3 1 (.included 0) = [3, 4] := by decide

/-- Both failures contradict the specification that `C14_find_connected_inverse_partial` establishes for other ranges. -/
theorem C14_inverse_failures_are_wrong :
    (¬ ∃ d, Walk.SimplePath (fun a b => (Adj.spec demo).edge a b = true) 1 4 d ∧ Within 1 (.excluded 2) d) ∧
    (¬ ∃ d, Walk.SimplePath (fun a b => (Adj.spec demo).edge a b = true) 3 3 d ∧ Within 1 (.included 0) d) := by
  constructor
  · rintro ⟨d, hp, h1, h2⟩
    simp only at h2
    have : d = 1 := by omega
    subst this
    have := Walk.walkLen_one.1 hp.walk
    revert this
    decide
  · rintro ⟨d, _, h1, h2⟩
    simp only at h2
    omega

end Linear
