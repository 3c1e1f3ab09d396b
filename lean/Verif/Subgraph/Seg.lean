import Verif.Subgraph.Window

/-!
# C55: contexts that are measured in a segmentation
-/

set_option linter.unusedSimpArgs false
set_option linter.unusedSectionVars false
set_option linter.unusedVariables false

open TextSpec

namespace SubgraphSpec

variable {N : Type}

/-- A node of the segmentation `SO` that covers one of the tokens which are covered by `n`. -/
def SegNode (tok : N → Prop) (C SO : N → N → Prop) (n s : N) : Prop :=
  (∃ x, SO s x ∨ SO x s) ∧ ∃ t, CoveredTok tok C n t ∧ C s t

/-- `t` is in the context window that is measured in the segmentation `SO`: between the left-most token of the first and the right-most
token of the last segmentation node of the window.  If no segmentation node covers the match, there is no context. -/
def InSegWindow (tok : N → Prop) (C L R O SO : N → N → Prop) (n : N) (l r : Nat) (t : N) : Prop :=
  ((∀ s, ¬ SegNode tok C SO n s) ∧ InWindow O (CoveredTok tok C n) 0 0 t) ∨
  ∃ s e a b, IsFirst SO (InWindow SO (SegNode tok C SO n) l r) s ∧ IsLast SO (InWindow SO (SegNode tok C SO n) l r) e ∧
    Border tok L s a ∧ Border tok R e b ∧ Between O a t b

/-- A segmentation that fits to the text: its nodes have border tokens which enclose what they cover, and both borders move forward along
the segmentation. -/
structure SegOk (tok : N → Prop) (C L R O SO : N → N → Prop) : Prop where
  left : ∀ x y, SO x y → (∃ t, Border tok L x t) ∧ ∃ t, Border tok L y t
  right : ∀ x y, SO x y → (∃ t, Border tok R x t) ∧ ∃ t, Border tok R y t
  span : ∀ s a b, Border tok L s a → Border tok R s b → Relation.ReflTransGen O a b
  covL : ∀ s t a, C s t → tok t → Border tok L s a → Relation.ReflTransGen O a t
  covR : ∀ s t b, C s t → tok t → Border tok R s b → Relation.ReflTransGen O t b
  monoL : ∀ s u a b, SO s u → Border tok L s a → Border tok L u b → Relation.ReflTransGen O a b
  monoR : ∀ s u a b, SO s u → Border tok R s a → Border tok R u b → Relation.ReflTransGen O a b

end SubgraphSpec

open SubgraphSpec

namespace Subgraph

variable {N : Type} [LinearOrder N]

section

variable {tok : N → Prop} {C L R O SO : N → N → Prop}

theorem SegOk.monoL_reach (h : SegOk tok C L R O SO) {s u a b : N} (hsu : Relation.ReflTransGen SO s u) (ha : Border tok L s a)
    (hb : Border tok L u b) (hfun : ∀ n s t, Border tok L n s → Border tok L n t → s = t) : Relation.ReflTransGen O a b := by
  induction hsu generalizing b with
  | refl => rw [hfun _ _ _ ha hb]
  | tail _ hxy ih =>
    obtain ⟨⟨c, hcx⟩, _⟩ := h.left _ _ hxy
    exact (ih hcx).trans (h.monoL _ _ _ _ hxy hcx hb)

theorem SegOk.monoR_reach (h : SegOk tok C L R O SO) {s u a b : N} (hsu : Relation.ReflTransGen SO s u) (ha : Border tok R s a)
    (hb : Border tok R u b) (hfun : ∀ n s t, Border tok R n s → Border tok R n t → s = t) : Relation.ReflTransGen O a b := by
  induction hsu generalizing b with
  | refl => rw [hfun _ _ _ ha hb]
  | tail _ hxy ih =>
    obtain ⟨⟨c, hcx⟩, _⟩ := h.right _ _ hxy
    exact (ih hcx).trans (h.monoR _ _ _ _ hxy hcx hb)

/-- All nodes of a segmentation window are nodes of the segmentation. -/
theorem inSeg_of_window {P : N → Prop} (hP : ∀ s, P s → ∃ x, SO s x ∨ SO x s) {l r : Nat} {s : N} (h : InWindow SO P l r s) :
    ∃ x, SO s x ∨ SO x s := by
  have hb : ∀ c, P c → Relation.ReflTransGen SO s c → ∃ x, SO s x ∨ SO x s := by
    intro c hc hsc
    rcases Relation.ReflTransGen.cases_head hsc with rfl | ⟨x, hx, _⟩
    · exact hP _ hc
    · exact ⟨x, Or.inl hx⟩
  have ha : ∀ c, P c → Relation.ReflTransGen SO c s → ∃ x, SO s x ∨ SO x s := by
    intro c hc hsc
    rcases Relation.ReflTransGen.cases_tail hsc with rfl | ⟨x, _, hx⟩
    · exact hP _ hc
    · exact ⟨x, Or.inr hx⟩
  rcases h with ⟨c, d, hc, _, hw⟩ | ⟨c, d, hc, _, hw⟩ | ⟨c, _, hc, _, h1, _⟩
  · exact hb c hc (Walk.reach_iff_walk.2 ⟨_, hw⟩)
  · exact ha c hc (Walk.reach_iff_walk.2 ⟨_, hw⟩)
  · exact ha c hc h1

theorem border_fun {B : N → N → Prop} (hf : ∀ n s t, B n s → B n t → s = t) (n s t : N) (h1 : Border tok B n s)
    (h2 : Border tok B n t) : s = t := by
  rcases h1 with ⟨a, rfl⟩ | ⟨a, b⟩ <;> rcases h2 with ⟨c, rfl⟩ | ⟨c, d⟩
  · rfl
  · exact absurd a c
  · exact absurd c a
  · exact hf _ _ _ b d

end

variable {th : TokenHelper N} {L R : N → N → Prop} {E : GStore N → N → N → Prop}
variable {ord : GStore N} {O : N → N → Prop} {D : N → Prop} {Rg : Nat → Bnd Nat → Prop}
variable {seg : GStore N} {SO : N → N → Prop} {SD : N → Prop} {SRg : Nat → Bnd Nat → Prop}

theorem inSeg_spec (hs : seg.Is SO SD SRg) (n : N) : ∃ b, inSeg seg n = some b ∧ (b = true ↔ ∃ x, SO n x ∨ SO x n) := by
  obtain ⟨o, o1, _, o3⟩ := hs.out n
  obtain ⟨i, i1, _, i3⟩ := hs.inn n
  refine ⟨!o.isEmpty || !i.isEmpty, by simp [inSeg, o1, i1], ?_⟩
  rw [Bool.or_eq_true, Bool.not_eq_true', Bool.not_eq_true', List.isEmpty_eq_false_iff_exists_mem, List.isEmpty_eq_false_iff_exists_mem]
  constructor
  · rintro (⟨x, hx⟩ | ⟨x, hx⟩)
    · exact ⟨x, Or.inl ((o3 x).1 hx)⟩
    · exact ⟨x, Or.inr ((i3 x).1 hx)⟩
  · rintro ⟨x, hx | hx⟩
    · exact Or.inl ⟨x, (o3 x).2 hx⟩
    · exact Or.inr ⟨x, (i3 x).2 hx⟩

theorem segNodes_spec (h : th.Ok L R E) (hs : seg.Is SO SD SRg) (covered : List N) :
    ∃ l, segNodes th seg covered = some l ∧ ∀ s, s ∈ l ↔ (∃ x, SO s x ∨ SO x s) ∧ ∃ t ∈ covered, th.Cov E s t := by
  obtain ⟨l, l1, l2⟩ := flatMapOpt_spec (f := fun c : GStore N => flatMapOpt (segIn seg c) covered)
    (P := fun c s => ∃ t ∈ covered, E c s t ∧ ∃ x, SO s x ∨ SO x s) (l := th.cov) (by
      intro c hcm
      obtain ⟨D, Rg, hx, _⟩ := h.cov c hcm
      exact flatMapOpt_spec (P := fun t s => E c s t ∧ ∃ x, SO s x ∨ SO x s) fun t _ => by
        obtain ⟨i, i1, _, i3⟩ := hx.inn t
        obtain ⟨y, y1, y2⟩ := filterOpt_spec (P := fun s => ∃ x, SO s x ∨ SO x s) (l := i) fun z _ => inSeg_spec hs z
        exact ⟨y, by rw [segIn, i1]; exact y1, fun s => by rw [y2, i3]⟩)
  refine ⟨l.dedup, by simp only [segNodes, l1, Option.map_some], fun s => ?_⟩
  rw [List.mem_dedup, l2]
  constructor
  · rintro ⟨c, hcm, t, ht, he, hx⟩; exact ⟨hx, t, ht, c, hcm, he⟩
  · rintro ⟨hx, t, ht, c, hcm, he⟩; exact ⟨c, hcm, t, ht, he, hx⟩

/-- C55 for the region of a node with a context in a segmentation. -/
theorem C55_seg_region (h : th.Ok L R E) (ho : ord.Is O D Rg) (hc : Linear.Chains O) (h1 : Rg 1 .unbounded)
    (hs : seg.Is SO SD SRg) (hsc : Linear.Chains SO) (hs1 : SRg 1 .unbounded) {cl cr : Nat}
    (hr : ∀ i, i ≤ max cl cr → SRg i (.included i)) (hok : SegOk (th.Tok E) (th.Cov E) L R O SO) {ch : Choice N} (hch : ch.Ok) {n : N}
    (hone : OneText O (CoveredTok (th.Tok E) (th.Cov E) n)) (hseg : OneText SO (SegNode (th.Tok E) (th.Cov E) SO n))
    {x : Option (Region N)} (hx : fromNode ch th ord (some seg) cl cr n = some x) :
    IsRegion O (InSegWindow (th.Tok E) (th.Cov E) L R O SO n cl cr) x := by
  obtain ⟨cov, c1, _, c3⟩ := coveredTokens_spec h n
  unfold fromNode at hx
  rw [c1] at hx
  simp only at hx
  cases hso : sortAll (orderCmp ord) ch.fuel (ch.rnd n) (ch.hash n cov) with
  | none => rw [hso] at hx; simp at hx
  | some sorted =>
    rw [hso] at hx
    simp only at hx
    obtain ⟨s1, s2⟩ := sort_order ho hc h1 (by
      intro a b ha hb
      exact hone a b ((c3 a).1 ((hch n cov).mem_iff.1 ha)) ((c3 b).1 ((hch n cov).mem_iff.1 hb))) hso
    have hm : ∀ t, t ∈ sorted ↔ CoveredTok (th.Tok E) (th.Cov E) n t := fun t => by
      rw [s1.mem_iff, (hch n cov).mem_iff, c3]
    have he : (fun t => t ∈ sorted) = CoveredTok (th.Tok E) (th.Cov E) n := funext fun t => propext (hm t)
    unfold segRegion at hx
    cases hh : sorted.head? with
    | none =>
      have hnil : sorted = [] := by cases sorted with
        | nil => rfl
        | cons _ _ => simp at hh
      rw [hh] at hx
      simp only [Option.some.injEq] at hx
      subst hx
      have hno : ∀ t, ¬ CoveredTok (th.Tok E) (th.Cov E) n t := fun t ht => by
        have := (hm t).2 ht
        rw [hnil] at this; simp at this
      have hns : ∀ s, ¬ SegNode (th.Tok E) (th.Cov E) SO n s := by
        rintro s ⟨_, t, ht, _⟩; exact hno t ht
      have hnw : ∀ (O' : N → N → Prop) (P : N → Prop) i j t, (∀ c, ¬ P c) → ¬ InWindow O' P i j t := by
        rintro O' P i j t hP (⟨c, _, hC, _⟩ | ⟨c, _, hC, _⟩ | ⟨c, _, hC, _⟩) <;> exact hP c hC
      rintro t (⟨_, hw⟩ | ⟨s, e, a, b, hf, _⟩)
      · exact hnw _ _ _ _ _ hno hw
      · exact hnw _ _ _ _ _ hns hf.1
    | some l =>
      obtain ⟨r, hl⟩ : ∃ r, sorted.getLast? = some r := by
        cases sorted with
        | nil => simp at hh
        | cons y z => exact ⟨_, List.getLast?_eq_some_getLast (by simp)⟩
      have hfl := first_of_sorted s2 hh
      have hlr := last_of_sorted s2 hl
      rw [he] at hfl hlr
      rw [hh, hl] at hx
      simp only at hx
      obtain ⟨sg, g1, g2⟩ := segNodes_spec h hs sorted
      have hsg : ∀ s, s ∈ sg ↔ SegNode (th.Tok E) (th.Cov E) SO n s := fun s => by
        rw [g2]
        unfold SegNode
        constructor
        · rintro ⟨hx, t, ht, hcv⟩; exact ⟨hx, t, (hm t).1 ht, hcv⟩
        · rintro ⟨hx, t, ht, hcv⟩; exact ⟨hx, t, (hm t).2 ht, hcv⟩
      rw [g1] at hx
      simp only at hx
      cases hss : sortAll (orderCmp seg) ch.fuel (ch.rnd n) (ch.hash n sg) with
      | none => rw [hss] at hx; simp at hx
      | some ssorted =>
        rw [hss] at hx
        simp only at hx
        obtain ⟨q1, q2⟩ := sort_order hs hsc hs1 (by
          intro a b ha hb
          exact hseg a b ((hsg a).1 ((hch n sg).mem_iff.1 ha)) ((hsg b).1 ((hch n sg).mem_iff.1 hb))) hss
        have hqm : ∀ t, t ∈ ssorted ↔ SegNode (th.Tok E) (th.Cov E) SO n t := fun t => by
          rw [q1.mem_iff, (hch n sg).mem_iff, hsg]
        have hqe : (fun t => t ∈ ssorted) = SegNode (th.Tok E) (th.Cov E) SO n := funext fun t => propext (hqm t)
        cases hsh : ssorted.head? with
        | none =>
          have hnil : ssorted = [] := by cases ssorted with
            | nil => rfl
            | cons _ _ => simp at hsh
          have hns : ∀ s, ¬ SegNode (th.Tok E) (th.Cov E) SO n s := fun s hsn => by
            have := (hqm s).2 hsn
            rw [hnil] at this; simp at this
          rw [hsh] at hx
          simp only [Option.some.injEq] at hx
          subst hx
          have h0 : ∀ w : N, ∃ d, d ≤ 0 ∧ Walk.WalkLen O w w d ∧ ∀ t i, i ≤ 0 → Walk.WalkLen O t w i → i ≤ d :=
            fun w => ⟨0, le_refl _, Walk.walkLen_zero.2 rfl, fun _ _ hi _ => hi⟩
          have h0' : ∀ w : N, ∃ d, d ≤ 0 ∧ Walk.WalkLen O w w d ∧ ∀ t i, i ≤ 0 → Walk.WalkLen O w t i → i ≤ d :=
            fun w => ⟨0, le_refl _, Walk.walkLen_zero.2 rfl, fun _ _ hi _ => hi⟩
          obtain ⟨w1, w2, _⟩ := window_iff hc hfl hlr (h0 l) (h0' r)
          refine ⟨w1, fun t => (w2 t).trans ?_⟩
          constructor
          · intro hw; exact Or.inl ⟨hns, hw⟩
          · rintro (⟨_, hw⟩ | ⟨s, e, a, b, hf, _⟩)
            · exact hw
            · exfalso
              rcases hf.1 with ⟨c, _, hC, _⟩ | ⟨c, _, hC, _⟩ | ⟨c, _, hC, _⟩ <;> exact hns c hC
        | some ls =>
          obtain ⟨rs, hsl⟩ : ∃ r, ssorted.getLast? = some r := by
            cases ssorted with
            | nil => simp at hsh
            | cons y z => exact ⟨_, List.getLast?_eq_some_getLast (by simp)⟩
          have hsf := first_of_sorted q2 hsh
          have hsla := last_of_sorted q2 hsl
          rw [hqe] at hsf hsla
          rw [hsh, hsl] at hx
          simp only at hx
          obtain ⟨lc, rc, o1, o2, o3⟩ := offsets_spec hs hsc hr ls rs
          obtain ⟨w1, w2, w3, w4⟩ := window_iff hsc hsf hsla o2 o3
          rw [o1] at hx
          simp only at hx
          obtain ⟨lt, t1, t2⟩ := TokenHelper.leftTokenFor_spec h lc
          obtain ⟨rt, t3, t4⟩ := TokenHelper.rightTokenFor_spec h rc
          have hL := inSeg_of_window (fun s hsn => hsn.1) w3.1
          have hR := inSeg_of_window (fun s hsn => hsn.1) w4.1
          obtain ⟨a, ha⟩ : ∃ a, Border (th.Tok E) L lc a := by
            obtain ⟨x, hx | hx⟩ := hL
            · exact (hok.left _ _ hx).1
            · exact (hok.left _ _ hx).2
          obtain ⟨b, hb⟩ : ∃ b, Border (th.Tok E) R rc b := by
            obtain ⟨x, hx | hx⟩ := hR
            · exact (hok.right _ _ hx).1
            · exact (hok.right _ _ hx).2
          obtain ⟨a', ha'⟩ : ∃ a, Border (th.Tok E) L rc a := by
            obtain ⟨x, hx | hx⟩ := hR
            · exact (hok.left _ _ hx).1
            · exact (hok.left _ _ hx).2
          have e1 : lt = some a := (t2 a).2 ha
          have e2 : rt = some b := (t4 b).2 hb
          rw [t1, t3, e1, e2] at hx
          simp only [Option.getD_some, Option.some.injEq] at hx
          subst hx
          have hab : Relation.ReflTransGen O a b :=
            (SegOk.monoL_reach hok w1 ha ha' (border_fun h.leftFun)).trans (hok.span _ _ _ ha' hb)
          refine ⟨hab, fun t => ?_⟩
          constructor
          · intro hbt; exact Or.inr ⟨lc, rc, a, b, w3, w4, ha, hb, hbt⟩
          · rintro (⟨hns, _⟩ | ⟨s, e, a2, b2, f1, f2, f3, f4, f5⟩)
            · exact absurd hsf.1 (hns ls)
            · have es : s = lc := reach_antisymm hsc (f1.2 lc w3.1) (w3.2 s f1.1)
              have ee : e = rc := reach_antisymm hsc (w4.2 e f2.1) (f2.2 rc w4.1)
              subst es ee
              rw [border_fun h.leftFun _ _ _ ha f3, border_fun h.rightFun _ _ _ hb f4]
              exact f5

/-- A token is in its own window, if its segmentation nodes form one chain and windows are finite. -/
theorem seg_self (h : th.Ok L R E) (hsc : Linear.Chains SO) (hok : SegOk (th.Tok E) (th.Cov E) L R O SO) {cl cr : Nat} {n : N}
    (hn : th.Tok E n) (hex : (∃ s, SegNode (th.Tok E) (th.Cov E) SO n s) →
      ∃ s e, IsFirst SO (InWindow SO (SegNode (th.Tok E) (th.Cov E) SO n) cl cr) s ∧
        IsLast SO (InWindow SO (SegNode (th.Tok E) (th.Cov E) SO n) cl cr) e) :
    InSegWindow (th.Tok E) (th.Cov E) L R O SO n cl cr n := by
  by_cases hsn : ∃ s, SegNode (th.Tok E) (th.Cov E) SO n s
  · right
    obtain ⟨s, e, hs, he⟩ := hex hsn
    obtain ⟨u, hu⟩ := hsn
    have huw : InWindow SO (SegNode (th.Tok E) (th.Cov E) SO n) cl cr u := Or.inl ⟨u, 0, hu, Nat.zero_le _, Walk.walkLen_zero.2 rfl⟩
    have getL : ∀ x, (∃ y, SO x y ∨ SO y x) → ∃ a, Border (th.Tok E) L x a := by
      rintro x ⟨y, hy | hy⟩
      · exact (hok.left _ _ hy).1
      · exact (hok.left _ _ hy).2
    have getR : ∀ x, (∃ y, SO x y ∨ SO y x) → ∃ a, Border (th.Tok E) R x a := by
      rintro x ⟨y, hy | hy⟩
      · exact (hok.right _ _ hy).1
      · exact (hok.right _ _ hy).2
    obtain ⟨a, ha⟩ := getL s (inSeg_of_window (fun _ hx => hx.1) hs.1)
    obtain ⟨b, hb⟩ := getR e (inSeg_of_window (fun _ hx => hx.1) he.1)
    obtain ⟨a', ha'⟩ := getL u hu.1
    obtain ⟨b', hb'⟩ := getR u hu.1
    obtain ⟨t, ⟨ht, hcov⟩, hut⟩ := hu.2
    have htn : t = n := by
      rcases hcov with ⟨_, e⟩ | ⟨hx, _⟩
      · exact e
      · exact absurd hn hx
    subst htn
    refine ⟨s, e, a, b, hs, he, ha, hb, ?_, ?_⟩
    · exact (SegOk.monoL_reach hok (hs.2 u huw) ha ha' (border_fun h.leftFun)).trans (hok.covL _ _ _ hut ht ha')
    · exact (hok.covR _ _ _ hut ht hb').trans (SegOk.monoR_reach hok (he.2 u huw) hb' hb (border_fun h.rightFun))
  · left
    exact ⟨fun s hs => hsn ⟨s, hs⟩, Or.inl ⟨n, 0, ⟨hn, Or.inl ⟨hn, rfl⟩⟩, le_refl _, Walk.walkLen_zero.2 rfl⟩⟩

/-- The window of a segmentation has a first and a last node. -/
theorem seg_ends (h : th.Ok L R E) (hs : seg.Is SO SD SRg) (hsc : Linear.Chains SO) {cl cr : Nat} {n : N}
    (hr : ∀ i, i ≤ max cl cr → SRg i (.included i))
    (hseg : OneText SO (SegNode (th.Tok E) (th.Cov E) SO n)) (hex : ∃ s, SegNode (th.Tok E) (th.Cov E) SO n s) :
    ∃ s e, IsFirst SO (InWindow SO (SegNode (th.Tok E) (th.Cov E) SO n) cl cr) s ∧
      IsLast SO (InWindow SO (SegNode (th.Tok E) (th.Cov E) SO n) cl cr) e := by
  classical
  obtain ⟨cov, c1, _, c3⟩ := coveredTokens_spec h n
  obtain ⟨sg, g1, g2⟩ := segNodes_spec h hs cov
  have hsg : ∀ s, s ∈ sg ↔ SegNode (th.Tok E) (th.Cov E) SO n s := fun s => by
    rw [g2]
    unfold SegNode
    constructor
    · rintro ⟨hx, t, ht, hcv⟩; exact ⟨hx, t, (c3 t).1 ht, hcv⟩
    · rintro ⟨hx, t, ht, hcv⟩; exact ⟨hx, t, (c3 t).2 ht, hcv⟩
  -- a finite set on a chain has a first and a last element
  have fin : ∀ (l : List N), l ≠ [] → OneText SO (fun x => x ∈ l) → ∃ a b, IsFirst SO (fun x => x ∈ l) a ∧ IsLast SO (fun x => x ∈ l) b := by
    intro l
    induction l with
    | nil => intro hne; exact absurd rfl hne
    | cons y r ih =>
      intro _ ht
      by_cases hr : r = []
      · subst hr
        refine ⟨y, y, ⟨by simp, fun x hx => ?_⟩, ⟨by simp, fun x hx => ?_⟩⟩ <;> · rw [List.mem_singleton.1 hx]
      · obtain ⟨a, b, ha, hb⟩ := ih hr fun x z hx hz => ht x z (by simp [hx]) (by simp [hz])
        refine ⟨if Relation.ReflTransGen SO y a then y else a, if Relation.ReflTransGen SO b y then y else b, ⟨?_, ?_⟩, ⟨?_, ?_⟩⟩
        · split
          · simp
          · simp [ha.1]
        · intro x hx
          split
          · rename_i hya
            rcases List.mem_cons.1 hx with rfl | hx
            · exact .refl
            · exact hya.trans (ha.2 x hx)
          · rename_i hya
            rcases List.mem_cons.1 hx with rfl | hx
            · exact (ht _ a (by simp) (by simp [ha.1])).resolve_left hya
            · exact ha.2 x hx
        · split
          · simp
          · simp [hb.1]
        · intro x hx
          split
          · rename_i hya
            rcases List.mem_cons.1 hx with rfl | hx
            · exact .refl
            · exact (hb.2 x hx).trans hya
          · rename_i hya
            rcases List.mem_cons.1 hx with rfl | hx
            · exact (ht _ b (by simp) (by simp [hb.1])).resolve_right hya
            · exact hb.2 x hx
  have hqe : (fun t => t ∈ sg) = SegNode (th.Tok E) (th.Cov E) SO n := funext fun t => propext (hsg t)
  obtain ⟨a, b, ha, hb⟩ := fin sg (by
    obtain ⟨s, hs⟩ := hex
    intro hnil
    have := (hsg s).2 hs
    rw [hnil] at this; simp at this) (by rw [hqe]; exact hseg)
  rw [hqe] at ha hb
  obtain ⟨s, e, _, o2, o3⟩ := offsets_spec hs hsc hr a b
  obtain ⟨_, _, w3, w4⟩ := window_iff hsc ha hb o2 o3
  exact ⟨s, e, w3, w4⟩

/-- C55 for the nodes of a context that is measured in a segmentation. -/
theorem C55_seg_nodes (h : th.Ok L R E) (ho : ord.Is O D Rg) (hc : Linear.Chains O) (h1 : Rg 1 .unbounded)
    (hs : seg.Is SO SD SRg) (hsc : Linear.Chains SO) (hs1 : SRg 1 .unbounded) {cl cr : Nat}
    (hr : ∀ i, i ≤ max cl cr → SRg i (.included i)) (hok : SegOk (th.Tok E) (th.Cov E) L R O SO) {ch : Choice N} (hch : ch.Ok)
    {partOf : GStore N} {P : N → N → Prop} {DP : N → Prop} {RP : Nat → Bnd Nat → Prop} (hp : partOf.Is P DP RP) (hrp : RP 1 .unbounded)
    {nodes l : List N} (hone : ∀ n ∈ nodes, OneText O (CoveredTok (th.Tok E) (th.Cov E) n))
    (hseg : ∀ n ∈ nodes, OneText SO (SegNode (th.Tok E) (th.Cov E) SO n))
    (hl : contextNodes ch th ord partOf (some seg) cl cr nodes = some l) (x : N) :
    x ∈ l ↔ x ∈ nodes ∨
      (∃ n ∈ nodes, ∃ t, InSegWindow (th.Tok E) (th.Cov E) L R O SO n cl cr t ∧ (x = t ∨ th.Cov E x t)) ∨
      ∃ n ∈ nodes, ∃ d, 0 < d ∧ Walk.SimplePath P n x d :=
  contextNodes_spec h ho hc hch hp hrp (W := fun n => InSegWindow (th.Tok E) (th.Cov E) L R O SO n cl cr)
    (fun n hn x hx => C55_seg_region h ho hc h1 hs hsc hs1 hr hok hch (hone n hn) (hseg n hn) hx)
    (fun n hn ht => seg_self h hsc hok ht fun hex => seg_ends h hs hsc hr (hseg n hn) hex) hl x

end Subgraph
