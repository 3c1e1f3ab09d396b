import Verif.Token.Props
import Verif.Sort.CompareProps
import Verif.Sort.Congr
import Verif.Find.Props

/-!
# C74: results that are not sorted again are in the right order

`find` does not sort the results of the search for all tokens (`is_sorted_by_text`, graphannis/src/annis/db/exec/nodesearch.rs
984, 1096-1098; plan.rs 130-138; corpusstorage.rs 1730-1738).
-/

set_option linter.unusedSimpArgs false
set_option linter.unusedSectionVars false
set_option linter.unusedVariables false

open Walk

namespace TokenSearch

variable {N K : Type} [LinearOrder N] [LinearOrder K]

/-- The comparison of two root tokens (tokensearch.rs 128-137): both operands have the same annotation key. -/
def rootCmp (E : SortEnv N) (k : K) (a b : N) : Option Ordering := some (compareMatch E ⟨a, k⟩ ⟨b, k⟩)

/-- The matches of the token search (tokensearch.rs 199-204): the output has the annotation key `annis:node_type`. -/
def group (k : K) (n : N) : List (SMatch N K) := [⟨n, k⟩]

/-- The tokens (with the property `T`) of one document are in one chain of the order `O`, and a chain does not leave its document. -/
structure OneText (E : SortEnv N) (O : N → N → Prop) (T : N → Prop) : Prop where
  coll : CmpOrd (fun _ => True) E.coll
  text : E.text = true
  named : ∀ n, T n → E.name n ≠ none
  left : ∀ n, T n → E.leftTok n = some n
  conn : ∀ a b, E.conn a b = true ↔ ∃ d, WalkLen O a b (d + 1)
  doc : ∀ a b, O a b → comparePath E (E.path a) (E.path b) = .eq
  one : ∀ a b, T a → T b → comparePath E (E.path a) (E.path b) = .eq → a = b ∨ ∃ d, WalkLen O a b (d + 1) ∨ WalkLen O b a (d + 1)

/-- The storage of the order enumerates the nodes by their distance. -/
def InOrder (g : GStore N) (O : N → N → Prop) : Prop :=
  ∀ a l, g.findConnected a 0 .unbounded = some l → ∀ (i : Nat) (b : N), l[i]? = some b → WalkLen O a b i

/-- The comparison asks the storage of the order (sort_matches.rs 134-152). -/
def storeConn (g : GStore N) (a b : N) : Bool := g.isConnected a b 1 .unbounded == some true

theorem storeConn_iff {g : GStore N} {O : N → N → Prop} {D : N → Prop} {Rg : Nat → Bnd Nat → Prop} (h : g.Is O D Rg)
    (hR : Rg 1 .unbounded) (hac : Acyclic O) (a b : N) : storeConn g a b = true ↔ ∃ d, WalkLen O a b (d + 1) := by
  obtain ⟨r, h1, h2⟩ := h.conn a b 1 .unbounded hR
  unfold storeConn
  rw [h1, show ((some r == some true) = true ↔ r = true) by cases r <;> simp, h2]
  constructor
  · rintro ⟨_, d, hd, hw⟩
    have : 1 ≤ d := hw.1
    exact ⟨d - 1, by rw [Nat.sub_add_cancel this]; exact hd.walk⟩
  · rintro ⟨d, hd⟩
    obtain ⟨c, hc, _⟩ := walkLen_succ.1 hd
    exact ⟨(h.dom a c hc).1, d + 1, simple_of_acyclic hac hd, by simp [Within]⟩

theorem cmp_eq_trans {α : Type} {cmp : α → α → Ordering} (h : CmpOrd (fun _ => True) cmp) {a b c : α} (h1 : cmp a b = .eq)
    (h2 : cmp b c = .eq) : cmp a c = .eq := by
  have e1 := h.trans a b c trivial trivial trivial (by simp [h1]) (by simp [h2])
  have e2 := h.trans c b a trivial trivial trivial (by simp [h.eq_symm trivial trivial h2]) (by simp [h.eq_symm trivial trivial h1])
  rw [h.swap c a trivial trivial] at e2
  cases hc : cmp a c <;> simp [hc] at e1 e2 ⊢

theorem cmp_lt_of_eq {α : Type} {cmp : α → α → Ordering} (h : CmpOrd (fun _ => True) cmp) {a b c d : α} (h1 : cmp a b = .eq)
    (h2 : cmp b c = .lt) (h3 : cmp c d = .eq) : cmp a d = .lt := by
  have e1 := h.trans a b c trivial trivial trivial (by simp [h1]) (by simp [h2])
  have e2 := h.trans a c d trivial trivial trivial e1 (by simp [h3])
  cases hc : cmp a d with
  | lt => rfl
  | gt => rw [hc] at e2; simp at e2
  | eq =>
    have e3 := cmp_eq_trans h (cmp_eq_trans h (h.eq_symm trivial trivial h1) hc) (h.eq_symm trivial trivial h3)
    rw [h2] at e3; cases e3

theorem OneText.path {E : SortEnv N} {O : N → N → Prop} {T : N → Prop} (h : OneText E O T) {a b : N} {d : Nat} (hw : WalkLen O a b d) :
    comparePath E (E.path a) (E.path b) = .eq := by
  induction d generalizing b with
  | zero => rw [walkLen_zero.1 hw]; exact (comparePath_ord E h.coll).self trivial
  | succ d ih =>
    obtain ⟨c, h1, h2⟩ := walkLen_snoc.1 hw
    exact cmp_eq_trans (comparePath_ord E h.coll) (ih h1) (h.doc c b h2)

theorem OneText.ordered {E : SortEnv N} {O : N → N → Prop} {T : N → Prop} (h : OneText E O T) (hO : Linear.Chains O) : E.Ordered T where
  coll := h.coll
  named := h.named
  irrefl := by
    intro t
    cases hc : E.conn t t with
    | false => rfl
    | true =>
      obtain ⟨d, hd⟩ := (h.conn t t).1 hc
      have := walk_self hO.ac hd
      omega
  trans := by
    intro a b c h1 h2
    obtain ⟨d, hd⟩ := (h.conn a b).1 h1
    obtain ⟨e, he⟩ := (h.conn b c).1 h2
    refine (h.conn a c).2 ⟨d + 1 + e, ?_⟩
    rw [Nat.add_assoc]
    exact walkLen_add.2 ⟨b, hd, he⟩
  chain := by
    intro a b ha hb hp
    refine Or.inr ⟨a, b, h.left a ha, h.left b hb, ?_⟩
    rcases h.one a b ha hb hp with rfl | ⟨d, hd | hd⟩
    · exact Or.inl rfl
    · exact Or.inr (Or.inl ((h.conn a b).2 ⟨d, hd⟩))
    · exact Or.inr (Or.inr ((h.conn b a).2 ⟨d, hd⟩))

/-- If the lists are sorted and everything of an earlier list is before everything of a later one, the concatenation is sorted. -/
theorem flatMapOpt_pairwise {α β : Type} {f : α → Option (List β)} {R : β → β → Prop} : ∀ {l : List α} {res : List β},
    flatMapOpt f l = some res → (∀ x ∈ l, ∀ r, f x = some r → r.Pairwise R) →
    l.Pairwise (fun x y => ∀ r s, f x = some r → f y = some s → ∀ a ∈ r, ∀ b ∈ s, R a b) →
    res.Pairwise R ∧ ∀ b ∈ res, ∃ x ∈ l, ∃ r, f x = some r ∧ b ∈ r := by
  intro l
  induction l with
  | nil => intro res h _ _; simp [flatMapOpt] at h; subst h; simp
  | cons x l ih =>
    intro res h h1 h2
    rw [List.pairwise_cons] at h2
    unfold flatMapOpt at h
    cases hx : f x with
    | none => simp [hx] at h
    | some r =>
      cases hl : flatMapOpt f l with
      | none => simp [hx, hl] at h
      | some s =>
        simp [hx, hl] at h
        subst h
        obtain ⟨i1, i2⟩ := ih hl (fun y hy => h1 y (by simp [hy])) h2.2
        refine ⟨?_, ?_⟩
        · rw [List.pairwise_append]
          refine ⟨h1 x (by simp) r hx, i1, ?_⟩
          intro a ha b hb
          obtain ⟨y, hy, t, ht, hbt⟩ := i2 b hb
          exact h2.1 y hy r t hx ht a ha b hbt
        · intro b hb
          rcases List.mem_append.1 hb with hb | hb
          · exact ⟨x, by simp, r, hx, hb⟩
          · obtain ⟨y, hy, t, ht, hbt⟩ := i2 b hb
            exact ⟨y, by simp [hy], t, ht, hbt⟩

section
variable {o : OrderStore N} {O : N → N → Prop} {D : N → Prop} {cov : List (GStore N)} {Cov : N → N → Prop} {toks : List N}

/-- The root tokens that are found, in the situation of `C49_token_search_partial`. -/
theorem rootTokens_spec (ho : OrderIs o O D) (hc : CovIs cov Cov) (hn : toks.Nodup)
    (hl : ∀ a b, O a b → IsTok toks Cov a ∧ IsTok toks Cov b) {stat : Bool} :
    ∃ l, rootTokens (some o) (some cov) stat toks = some l ∧ l.Nodup ∧ ∀ r ∈ l, IsTok toks Cov r ∧ ¬ ∃ a, O a r := by
  cases stat with
  | true =>
    obtain ⟨l, h1, h2, h3⟩ := ho.roots
    refine ⟨l, h1, h2, fun r hr => ?_⟩
    obtain ⟨⟨b, hb⟩, h4⟩ := (h3 r).1 hr
    exact ⟨(hl r b hb).1, h4⟩
  | false =>
    obtain ⟨l, h1, h2, h3⟩ := flatMapOpt_filter (f := isRootTok (some o) (some cov))
      (P := fun n => (¬ ∃ t, Cov n t) ∧ ¬ ∃ a, O a n) (l := toks) (by
        intro n _
        obtain ⟨b, h1, h2⟩ := ho.hasIn n
        obtain ⟨c, h3, h4⟩ := hc.hasCov n
        cases b with
        | true => exact ⟨false, by simp [isRootTok, h1], by simp [h2.1 rfl]⟩
        | false =>
          have : ¬ ∃ a, O a n := fun ha => by simpa using h2.2 ha
          refine ⟨!c, by simp [isRootTok, h1, h3], ?_⟩
          rw [← h4]; simp [this]) hn
    refine ⟨l, h1, h2, fun r hr => ?_⟩
    obtain ⟨h4, h5, h6⟩ := (h3 r).1 hr
    exact ⟨⟨h4, h5⟩, h6⟩

/-- Tokens in the same chain compare by their position. -/
theorem OneText.lt_chain {E : SortEnv N} {T : N → Prop} (h : OneText E O T) (hO : Linear.Chains O) {a b : N} {d : Nat} (k : K)
    (ha : T a) (hb : T b) (hw : WalkLen O a b (d + 1)) : compareMatch E ⟨a, k⟩ ⟨b, k⟩ = .lt := by
  rw [compareMatch_eq (h.ordered hO) _ _ ha hb]
  have h1 := h.path hw
  have h2 : compareToken E a b = .lt := by
    unfold compareToken
    rw [h.text, h.left a ha, h.left b hb]
    simp [(h.conn a b).2 ⟨d, hw⟩]
  simp only [h1, h2, Ordering.then]

/-- Tokens of different documents compare by the paths of the documents. -/
theorem OneText.lt_path {E : SortEnv N} {T : N → Prop} (h : OneText E O T) (hO : Linear.Chains O) {a b : N} (k : K)
    (ha : T a) (hb : T b) (hp : comparePath E (E.path a) (E.path b) = .lt) : compareMatch E ⟨a, k⟩ ⟨b, k⟩ = .lt := by
  rw [compareMatch_eq (h.ordered hO) _ _ ha hb]
  simp only [hp, Ordering.then]

/-- C74, restricted to corpora with one text per document: the search for all tokens returns them in strictly ascending order of
their position in the text. -/
theorem C74_ascending_partial (ho : OrderIs o O D) (hi : InOrder o.g O) (hc : CovIs cov Cov) (hO : Linear.Chains O) (hn : toks.Nodup)
    (hl : ∀ a b, O a b → IsTok toks Cov a ∧ IsTok toks Cov b) (stat : Bool) {E : SortEnv N} (hE : OneText E O (IsTok toks Cov)) (k : K)
    (fuel : Nat) (rs : List (Nat × Nat × Nat)) {res : List N}
    (h : search (some o) (some cov) stat toks (rootCmp E k) fuel rs = some res) :
    res.Pairwise (fun a b => compareGroup E (group k a) (group k b) = .lt) ∧ ∀ n ∈ res, IsTok toks Cov n := by
  obtain ⟨l, h1, h2, h3⟩ := rootTokens_spec ho hc hn hl (stat := stat)
  unfold search at h
  rw [h1] at h
  simp only [Option.bind_eq_bind, Option.bind_some, Option.bind_eq_some_iff] at h
  obtain ⟨sorted, h4, h5⟩ := h
  have hord := compareMatch_ord (K := K) (hE.ordered hO)
  have hT : ∀ x ∈ l, IsTok toks Cov x := fun x hx => (h3 x hx).1
  obtain ⟨hp, hs⟩ := C33_sort_on (fun a b => (compareMatch E ⟨b, k⟩ ⟨a, k⟩).isLE = true) (l := l)
    (fun x hx y hy z hz e1 e2 => hord.trans ⟨z, k⟩ ⟨y, k⟩ ⟨x, k⟩ (hT z hz) (hT y hy) (hT x hx) e2 e1)
    (by
      intro x hx y hy
      have := hord.swap ⟨x, k⟩ ⟨y, k⟩ (hT x hx) (hT y hy)
      cases e1 : compareMatch E ⟨x, k⟩ ⟨y, k⟩ <;> cases e2 : compareMatch E ⟨y, k⟩ ⟨x, k⟩ <;> simp [e1, e2] at this ⊢)
    (by
      intro x hx y hy w hw
      simp only [rootCmp, Option.some.injEq] at hw
      subst hw
      have := hord.swap ⟨x, k⟩ ⟨y, k⟩ (hT x hx) (hT y hy)
      cases e1 : compareMatch E ⟨x, k⟩ ⟨y, k⟩ <;> cases e2 : compareMatch E ⟨y, k⟩ ⟨x, k⟩ <;> simp [e1, e2] at this ⊢) h4
  have hmem : ∀ x ∈ sorted.reverse, IsTok toks Cov x ∧ ¬ ∃ a, O a x := fun x hx => h3 x (hp.mem_iff.1 (List.mem_reverse.1 hx))
  have htok : ∀ {r b : N} {d : Nat}, IsTok toks Cov r → WalkLen O r b d → IsTok toks Cov b := by
    intro r b d hr hw
    cases d with
    | zero => rw [← walkLen_zero.1 hw]; exact hr
    | succ d =>
      obtain ⟨c, _, hc⟩ := walkLen_snoc.1 hw
      exact (hl c b hc).2
  obtain ⟨r1, r2⟩ := flatMapOpt_pairwise (R := fun a b => compareMatch E ⟨a, k⟩ ⟨b, k⟩ = .lt) h5
    (by
      intro x hx r hr
      rw [List.pairwise_iff_getElem]
      intro i j hi' hj hij
      have w1 := hi x r hr i _ (List.getElem?_eq_getElem hi')
      have w2 := hi x r hr j _ (List.getElem?_eq_getElem hj)
      obtain ⟨d, rfl⟩ := Nat.exists_eq_add_of_lt hij
      have w3 := walk_between (j := d + 1) hO.fn w1 w2
      exact hE.lt_chain hO k (htok (hmem x hx).1 w1) (htok (hmem x hx).1 w2) w3)
    (by
      rw [List.pairwise_reverse]
      have hnd : sorted.Nodup := hp.nodup_iff.2 h2
      refine List.Pairwise.imp_of_mem ?_ (hs.and hnd)
      rintro y x hy hx ⟨hle, hne⟩ r s hr hs' a ha b hb
      have mx := h3 x (hp.mem_iff.1 hx)
      have my := h3 y (hp.mem_iff.1 hy)
      obtain ⟨i, hi1⟩ := List.mem_iff_getElem?.1 ha
      obtain ⟨j, hj1⟩ := List.mem_iff_getElem?.1 hb
      have w1 := hi x r hr i a hi1
      have w2 := hi y s hs' j b hj1
      have hpo := comparePath_ord E hE.coll
      have hlt : comparePath E (E.path x) (E.path y) = .lt := by
        rw [compareMatch_eq (hE.ordered hO) _ _ mx.1 my.1] at hle
        cases hpc : comparePath E (E.path x) (E.path y) with
        | lt => rfl
        | gt => simp [hpc] at hle
        | eq =>
          exfalso
          rcases hE.one x y mx.1 my.1 hpc with e | ⟨d, hd | hd⟩
          · exact hne e.symm
          · obtain ⟨c, _, hc⟩ := walkLen_snoc.1 hd
            exact my.2 ⟨c, hc⟩
          · obtain ⟨c, _, hc⟩ := walkLen_snoc.1 hd
            exact mx.2 ⟨c, hc⟩
      exact hE.lt_path hO k (htok mx.1 w1) (htok my.1 w2)
        (cmp_lt_of_eq hpo (hpo.eq_symm trivial trivial (hE.path w1)) hlt (hE.path w2)))
  refine ⟨r1.imp ?_, ?_⟩
  · intro a b hab
    simp [compareGroup, group, zipCmp, hab]
  · intro b hb
    obtain ⟨x, hx, r, hr, hbr⟩ := r2 b hb
    obtain ⟨i, hi1⟩ := List.mem_iff_getElem?.1 hbr
    exact htok (hmem x hx).1 (hi x r hr i b hi1)

end

/-- The first `n` entries of a partially sorted permutation of a strictly sorted list. -/
theorem take_of_firstSorted {α : Type} {lt le : α → α → Prop} : ∀ {r l : List α} {n : Nat}, r.Pairwise lt →
    (∀ x ∈ r, ∀ y ∈ r, lt x y → ¬ le y x) → l.Perm r → FirstSorted le n l → l.take n = r.take n := by
  intro r
  induction r with
  | nil => intro l n _ _ hp _; rw [hp.eq_nil]
  | cons x r ih =>
    intro l n hr hlt hp hs
    cases n with
    | zero => simp
    | succ n =>
      cases l with
      | nil => exact absurd hp.symm.eq_nil (by simp)
      | cons y l =>
        rw [List.pairwise_cons] at hr
        have hxy : y = x := by
          by_contra hne
          have hx : x ∈ l := by
            have : x ∈ y :: l := hp.symm.mem_iff.1 (by simp)
            rcases List.mem_cons.1 this with e | e
            · exact absurd e.symm hne
            · exact e
          have hy : y ∈ r := by
            have : y ∈ x :: r := hp.mem_iff.1 (by simp)
            rcases List.mem_cons.1 this with e | e
            · exact absurd e hne
            · exact e
          obtain ⟨j, hj⟩ := List.mem_iff_getElem?.1 hx
          exact hlt x (by simp) y (by simp [hy]) (hr.1 y hy) (hs 0 (j + 1) y x (by omega) (by omega) rfl (by simpa using hj))
        subst hxy
        rw [List.take_succ_cons, List.take_succ_cons]
        congr 1
        refine ih hr.2 (fun a ha b hb => hlt a (by simp [ha]) b (by simp [hb])) (List.perm_cons y |>.1 hp) ?_
        intro i j a b hij hi ha hb
        exact hs (i + 1) (j + 1) a b (by omega) (by omega) (by simpa using ha) (by simpa using hb)

/-- One corpus whose matches are compared by their position in the text.  `sorted` is the answer of `is_sorted_by_text` (plan.rs
130-138): it is true only if the plan consists of a single search for all tokens, or has no alternative and thus no result. -/
def textCorpus {R : Type} (E : SortEnv N) (plan : List (List (SMatch N K))) (sorted : Bool) (render : List (SMatch N K) → Option R) :
    FindCorpus (List (SMatch N K)) R :=
  { plan := plan.map some, sortedByText := sorted, cmp := fun a b => some (compareGroup E a b), render := render }

theorem mapM_some {α : Type} (l : List α) : (l.map some).mapM id = some l := mapM_id_iff.2 rfl

/-- The list of matches which is output if `find` sorts the results. -/
theorem sorted_iterator {R : Type} {E : SortEnv N} {T : N → Prop} (hE : E.Ordered T) (order : ResultOrder)
    (hor : order = .normal ∨ order = .inverted) {plan res : List (List (SMatch N K))} (hp : plan.Perm res)
    (hT : ∀ g ∈ res, ∀ m ∈ g, T m.node) (hr : res.Pairwise fun a b => compareGroup E a b = .lt) (render : List (SMatch N K) → Option R)
    (quirks : Bool) (rnd : Rnd (List (SMatch N K))) (offset : Nat) (limit : Option Nat) {it : List (Option (List (SMatch N K)))}
    (h : createFindIterator (textCorpus E plan false render) rnd quirks order offset limit = some it) :
    it.length = res.length ∧ ∀ n, (∀ k, limit = some k → n ≤ offset + k) →
      it.take n = ((if order = .inverted then res.reverse else res).map some).take n := by
  have ho := (C34_total_order_partial (K := K) hE).1
  have hPl : ∀ g ∈ plan, ∀ m ∈ g, T m.node := fun g hg => hT g (hp.mem_iff.1 hg)
  have hcond : ¬ (order = .notSorted ∨ (order = .normal ∧ (textCorpus E plan false render).sortedByText = true ∧ ¬ quirks = true)) := by
    rcases hor with rfl | rfl <;> simp [textCorpus]
  have hrand : order ≠ .randomized := by rcases hor with rfl | rfl <;> simp
  unfold createFindIterator at h
  rw [if_neg hcond] at h
  simp only [textCorpus, mapM_some, Option.bind_eq_bind, Option.bind_some, if_neg hrand, Option.bind_eq_some_iff, Option.pure_def,
    Option.some.injEq] at h
  obtain ⟨sorted, h1, rfl⟩ := h
  obtain ⟨m, hm1, hm2, h1⟩ : ∃ m, (∀ k, limit = some k → m = offset + k) ∧ (limit = none → m = plan.length) ∧
      sortFirstN (cmpFor order fun a b => some (compareGroup E a b)) m rnd.fuel rnd.pivots plan = some sorted :=
    ⟨_, by rintro k rfl; rfl, by rintro rfl; rfl, h1⟩
  have hsw : ∀ x ∈ plan, ∀ y ∈ plan, compareGroup E x y = (compareGroup E y x).swap := fun x hx y hy =>
    ho.swap x y (hPl x hx) (hPl y hy)
  have key : sorted.Perm plan ∧ FirstSorted (fun x y => (if order = .inverted then compareGroup E y x else compareGroup E x y).isLE = true) m sorted := by
    refine C33_sort_first_n_on (fun x y => (if order = .inverted then compareGroup E y x else compareGroup E x y).isLE = true) ?_ ?_ ?_ h1
    · intro x hx y hy z hz e1 e2
      rcases hor with rfl | rfl
      · simp only [reduceCtorEq, if_false] at e1 e2 ⊢
        exact ho.trans x y z (hPl x hx) (hPl y hy) (hPl z hz) e1 e2
      · simp only [if_true] at e1 e2 ⊢
        exact ho.trans z y x (hPl z hz) (hPl y hy) (hPl x hx) e2 e1
    · intro x hx y hy
      have := hsw x hx y hy
      rcases hor with rfl | rfl <;> simp only [reduceCtorEq, if_false, if_true] <;>
        cases e1 : compareGroup E x y <;> cases e2 : compareGroup E y x <;> simp [e1, e2] at this ⊢
    · intro x hx y hy w hw
      have := hsw x hx y hy
      rcases hor with rfl | rfl <;> simp only [cmpFor, reduceCtorEq, if_false, if_true, Option.map_some, Option.some.injEq] at hw ⊢ <;>
        subst hw <;> cases e1 : compareGroup E x y <;> cases e2 : compareGroup E y x <;> simp [e1, e2] at this ⊢
  obtain ⟨k1, k2⟩ := key
  have hlen : sorted.length = res.length := (k1.trans hp).length_eq
  refine ⟨by simpa using hlen, fun n hn => ?_⟩
  rw [← List.map_take, ← List.map_take]
  congr 1
  have hfs : FirstSorted (fun x y => (if order = .inverted then compareGroup E y x else compareGroup E x y).isLE = true) n sorted := by
    intro i j x y hij hi hx hy
    refine k2 i j x y hij ?_ hx hy
    cases limit with
    | some k => have := hn k rfl; have := hm1 k rfl; omega
    | none =>
      rw [hm2 rfl, ← k1.length_eq]
      exact (List.getElem?_eq_some_iff.1 hx).1
  rcases hor with rfl | rfl
  · simp only [reduceCtorEq, if_false] at hfs ⊢
    refine take_of_firstSorted hr ?_ (k1.trans hp) hfs
    intro x hx y hy hlt hle
    have := ho.swap x y (hT x hx) (hT y hy)
    rw [hlt] at this
    cases e : compareGroup E y x <;> simp [e] at this hle
  · simp only [if_true] at hfs ⊢
    refine take_of_firstSorted (lt := fun a b => compareGroup E b a = .lt) (List.pairwise_reverse.2 hr) ?_
      ((k1.trans hp).trans (List.reverse_perm res).symm) hfs
    intro x hx y hy hlt hle
    have := ho.swap x y (hT x (by simpa using hx)) (hT y (by simpa using hy))
    rw [hlt] at this
    cases e : compareGroup E x y <;> simp [e] at this hle

/-- The results of one corpus are determined by the part of the list that is output. -/
theorem findSingle_eq {G R : Type} {c1 c2 : FindCorpus G R} (hren : c1.render = c2.render) {rnd1 rnd2 : Rnd G} {quirks : Bool}
    {o1 o2 : ResultOrder} {offset : Nat} {limit : Option Nat} {it1 it2 : List (Option G)}
    (h1 : createFindIterator c1 rnd1 quirks o1 offset limit = some it1) (h2 : createFindIterator c2 rnd2 quirks o2 offset limit = some it2)
    (hlen : it1.length = it2.length) (ht : ∀ n, (∀ k, limit = some k → n ≤ offset + k) → it1.take n = it2.take n) :
    findSingle c1 rnd1 quirks o1 offset limit = findSingle c2 rnd2 quirks o2 offset limit := by
  unfold findSingle
  rw [h1, h2, hren]
  simp only [Option.bind_eq_bind, Option.bind_some, hlen]
  cases limit with
  | none =>
    have := ht it1.length (by simp)
    rw [List.take_length, hlen, List.take_length] at this
    rw [this]
  | some k =>
    have := ht (offset + k) (by simp)
    have e : (it1.drop offset).take k = (it2.drop offset).take k := by
      rw [List.take_drop, List.take_drop, this]
    simp only [e]

section
variable {o : OrderStore N} {O : N → N → Prop} {D : N → Prop} {cov : List (GStore N)} {Cov : N → N → Prop} {toks : List N}

/-- C74, restricted to corpora with one text per document: a search for all tokens that is not sorted again gives the same pages as
one that is sorted, whatever the plan and the random choices of the sort are. -/
theorem C74_same_as_sorted_partial {R : Type} (ho : OrderIs o O D) (hi : InOrder o.g O) (hc : CovIs cov Cov) (hO : Linear.Chains O)
    (hn : toks.Nodup) (hl : ∀ a b, O a b → IsTok toks Cov a ∧ IsTok toks Cov b) (stat : Bool) {E : SortEnv N}
    (hE : OneText E O (IsTok toks Cov)) (k : K) (fuel : Nat) (rs : List (Nat × Nat × Nat)) {res : List N}
    (h : search (some o) (some cov) stat toks (rootCmp E k) fuel rs = some res) (render : List (SMatch N K) → Option R)
    (rnd1 rnd2 : Rnd (List (SMatch N K))) (quirks : Bool) (offset : Nat) (limit : Option Nat) {plan : List (List (SMatch N K))}
    (hp : plan.Perm (res.map (group k))) {it : List (Option (List (SMatch N K)))}
    (hs : createFindIterator (textCorpus E plan false render) rnd2 quirks .normal offset limit = some it)
    (hs1 : ∃ it1, createFindIterator (textCorpus E (res.map (group k)) true render) rnd1 quirks .normal offset limit = some it1) :
    findSingle (textCorpus E (res.map (group k)) true render) rnd1 quirks .normal offset limit =
      findSingle (textCorpus E plan false render) rnd2 quirks .normal offset limit := by
  obtain ⟨r1, r2⟩ := C74_ascending_partial ho hi hc hO hn hl stat hE k fuel rs h
  have hT : ∀ g ∈ res.map (group k), ∀ m ∈ g, IsTok toks Cov m.node := by
    intro g hg m hm
    obtain ⟨n, hn, rfl⟩ := List.mem_map.1 hg
    simp only [group, List.mem_singleton] at hm
    subst hm
    exact r2 n hn
  have hpw : (res.map (group k)).Pairwise fun a b => compareGroup E a b = .lt := by
    rw [List.pairwise_map]; exact r1
  obtain ⟨s1, s2⟩ := sorted_iterator (hE.ordered hO) .normal (Or.inl rfl) hp hT hpw render quirks rnd2 offset limit hs
  simp only [reduceCtorEq, if_false] at s2
  obtain ⟨it1, hs1⟩ := hs1
  cases quirks with
  | false =>
    have e : it1 = (res.map (group k)).map some := by
      unfold createFindIterator at hs1
      rw [if_pos (by right; simp [textCorpus])] at hs1
      simpa [textCorpus] using hs1.symm
    subst e
    exact findSingle_eq (c1 := textCorpus E (res.map (group k)) true render) (c2 := textCorpus E plan false render) rfl hs1 hs (by simp [s1]) (fun n hn => (s2 n hn).symm)
  | true =>
    have e : createFindIterator (textCorpus E (res.map (group k)) false render) rnd1 true .normal offset limit = some it1 := by
      rw [← hs1]; unfold createFindIterator; simp [textCorpus]
    obtain ⟨t1, t2⟩ := sorted_iterator (hE.ordered hO) .normal (Or.inl rfl) (List.Perm.refl _) hT hpw render true rnd1 offset limit e
    simp only [reduceCtorEq, if_false] at t2
    exact findSingle_eq (c1 := textCorpus E (res.map (group k)) true render) (c2 := textCorpus E plan false render) rfl hs1 hs (by rw [t1, s1]) (fun n hn => (t2 n hn).trans (s2 n hn).symm)

/-- C74, restricted to corpora with one text per document: the inverted order gives the tokens of the normal order backwards. -/
theorem C74_inverted_partial {R : Type} (ho : OrderIs o O D) (hi : InOrder o.g O) (hc : CovIs cov Cov) (hO : Linear.Chains O)
    (hn : toks.Nodup) (hl : ∀ a b, O a b → IsTok toks Cov a ∧ IsTok toks Cov b) (stat : Bool) {E : SortEnv N}
    (hE : OneText E O (IsTok toks Cov)) (k : K) (fuel : Nat) (rs : List (Nat × Nat × Nat)) {res : List N}
    (h : search (some o) (some cov) stat toks (rootCmp E k) fuel rs = some res) (render : List (SMatch N K) → Option R)
    (rnd1 rnd2 : Rnd (List (SMatch N K))) {it1 it2 : List (Option (List (SMatch N K)))}
    (h1 : createFindIterator (textCorpus E (res.map (group k)) true render) rnd1 false .normal 0 none = some it1)
    (h2 : createFindIterator (textCorpus E (res.map (group k)) true render) rnd2 false .inverted 0 none = some it2) :
    it1 = res.map (fun n => some (group k n)) ∧ it2 = it1.reverse := by
  obtain ⟨r1, r2⟩ := C74_ascending_partial ho hi hc hO hn hl stat hE k fuel rs h
  have hT : ∀ g ∈ res.map (group k), ∀ m ∈ g, IsTok toks Cov m.node := by
    intro g hg m hm
    obtain ⟨n, hn, rfl⟩ := List.mem_map.1 hg
    simp only [group, List.mem_singleton] at hm
    subst hm
    exact r2 n hn
  have hpw : (res.map (group k)).Pairwise fun a b => compareGroup E a b = .lt := by
    rw [List.pairwise_map]; exact r1
  have e1 : it1 = (res.map (group k)).map some := by
    unfold createFindIterator at h1
    rw [if_pos (by right; simp [textCorpus])] at h1
    simpa [textCorpus] using h1.symm
  have e2 : createFindIterator (textCorpus E (res.map (group k)) false render) rnd2 false .inverted 0 none = some it2 := by
    rw [← h2]; unfold createFindIterator; simp [textCorpus]
  obtain ⟨s1, s2⟩ := sorted_iterator (hE.ordered hO) .inverted (Or.inr rfl) (List.Perm.refl _) hT hpw render false rnd2 0 none e2
  have := s2 it2.length (by simp)
  simp only [if_true] at this
  rw [List.take_length, s1, show (res.map (group k)).length = ((res.map (group k)).reverse.map some).length by simp,
    List.take_length] at this
  refine ⟨by rw [e1]; simp, ?_⟩
  rw [this, e1, List.map_reverse]

end

end TokenSearch

/-! ## The storages -/

section
variable {N S W : Type} [LinearOrder N] [LinearOrder S] [OrderBot S] [LinearOrder W]

theorem firstVisits_nodup : ∀ (l : List (N × Nat)) (vis : List N), (l.map Prod.fst).Nodup → (∀ x ∈ l.map Prod.fst, x ∉ vis) →
    firstVisits vis l = l.map Prod.fst := by
  intro l
  induction l with
  | nil => intro _ _ _; rfl
  | cons p l ih =>
    intro vis hn hv
    rw [List.map_cons, List.nodup_cons] at hn
    obtain ⟨n, d⟩ := p
    simp only [firstVisits]
    rw [if_neg (hv n (by simp)), ih (n :: vis) hn.2, List.map_cons]
    intro x hx hx2
    rcases List.mem_cons.1 hx2 with e | e
    · subst e; exact hn.1 hx
    · exact hv x (by simp only [List.map_cons, List.mem_cons, hx, or_true]) e

/-- An adjacency list enumerates a chain in order. -/
theorem Adj.inOrder [U64 N] (ops : List (Adj.Op N S W)) (hO : Linear.Chains fun a b => (Adj.spec ops).edge a b = true) :
    TokenSearch.InOrder (Adj.run ops).asOrder.g (fun a b => (Adj.spec ops).edge a b = true) := by
  intro a l h i b hb
  obtain ⟨c1, _, c3, _⟩ := Adj.C13_edges_in_sync ops
  have hone : ∀ a, ((Adj.run ops).out a).length ≤ 1 := by
    intro a
    have hnd : ((Adj.run ops).out a).Nodup := (c3 a).imp (fun h => ne_of_lt h)
    cases hl : (Adj.run ops).out a with
    | nil => simp
    | cons x r =>
      cases r with
      | nil => simp
      | cons y r =>
        rw [hl] at hnd
        have := hO.fn a x y ((c1 a x).1 (by simp [hl])) ((c1 a y).1 (by simp [hl]))
        subst this
        simp at hnd
  have hV := Adj.covers_out (Adj.run ops)
  have hdist : ∀ (i : Nat) (x : N × Nat), (Dfs.steps (Adj.run ops).out (Adj.targets (Adj.run ops).edges) a 0 usizeMax)[i]? = some x →
      x.2 = i := by
    intro i x hx
    rw [Dfs.steps_eq 0 usizeMax a false hV] at hx
    simpa using Dfs.dist_of_functional hone 0 usizeMax _ [] a i x (by simp) hx
  have hwalk : ∀ (i : Nat) (x : N × Nat), (Dfs.steps (Adj.run ops).out (Adj.targets (Adj.run ops).edges) a 0 usizeMax)[i]? = some x →
      WalkLen (fun a b => (Adj.spec ops).edge a b = true) a x.1 i := by
    intro i x hx
    have := hdist i x hx
    obtain ⟨y, d⟩ := x
    simp only at this
    subst this
    exact ((Adj.mem_steps_out ops a y 0 d usizeMax).1 (List.mem_of_getElem? hx)).1.walk
  simp only [Adj.asOrder, Adj.asGStore, Adj.findConnected, maxDistance, Option.map_some, Option.some.injEq] at h
  rw [firstVisits_nodup] at h
  · subst h
    rw [List.getElem?_map] at hb
    obtain ⟨x, hx, rfl⟩ := Option.map_eq_some_iff.1 hb
    exact hwalk i x hx
  · rw [List.nodup_iff_pairwise_ne, List.pairwise_iff_getElem]
    intro i j hi hj hij heq
    simp only [List.length_map] at hi hj
    simp only [List.getElem_map] at heq
    have w1 := hwalk i _ (List.getElem?_eq_getElem hi)
    have w2 := hwalk j _ (List.getElem?_eq_getElem hj)
    rw [← heq] at w2
    obtain ⟨d, rfl⟩ := Nat.exists_eq_add_of_lt hij
    have := walk_self hO.ac (walk_between (j := d + 1) hO.fn w1 w2)
    omega
  · simp

/-- A linear storage enumerates a chain in order. -/
theorem Linear.inOrder [U64 N] {o : Source N S W} {E : N → N → Prop} {A : N → N → AnnoKey S → Option W} (h : o.Is E A)
    (hE : Linear.Chains E) {cap : Nat} (hcap : ∀ a b d, Walk.WalkLen E a b d → d < cap) (g0 : Linear N S W) :
    TokenSearch.InOrder ((Linear.copy cap g0 o).asOrder cap).g E := by
  intro a l hl i b hb
  have hg := Linear.copy_rep h hE hcap g0
  simp only [Linear.asOrder, Linear.asGStore, Linear.findConnected, Nat.add_zero] at hl
  cases hp : (Linear.copy cap g0 o).nodeToPos.get a with
  | none => rw [hp] at hl; simp at hl; subst hl; simp at hb
  | some x =>
    obtain ⟨root, off⟩ := x
    rw [hp] at hl
    simp only at hl
    cases hch : (Linear.copy cap g0 o).chains.get root with
    | none => rw [hch] at hl; simp at hl; subst hl; simp at hb
    | some chain =>
      rw [hch] at hl
      simp only at hl
      split at hl
      · simp only [Option.some.injEq] at hl
        subst hl
        rw [List.getElem?_drop] at hb
        have w1 := ((hg.pos a root off).1 hp).2
        have w2 := ((hg.chain root chain hch).2 (off + i) b).1 hb
        exact walk_between hE.fn w1 w2
      · simp only [Option.some.injEq] at hl; subst hl; simp at hb

end

namespace TokenSearch

/-! ### Examples -/

/-- The tokens `1 2 3 4` and `7 8` with an order of two chains, the given names and without coverage. -/
def sortEnv (text : Bool) (name : NodeID64 → Option Str) : SortEnv NodeID64 where
  name := name
  leftTok := fun n => some n
  conn := storeConn (Adj.run Linear.demo).asOrder.g
  text := text
  coll := defaultColl
  quirks := false
  lossy := fun _ => []

def sortToks : List NodeID64 := [8, 7, 4, 3, 2, 1]

/-- Two documents; the names of the tokens are not in the order of the text. -/
def twoDocs (n : NodeID64) : Option Str :=
  if n = 1 then some "c/b#9".toList else if n = 2 then some "c/b#8".toList else if n = 3 then some "c/b#7".toList
  else if n = 4 then some "c/b#6".toList else if n = 7 then some "c/a#2".toList else if n = 8 then some "c/a#1".toList else none

/-- One document with two texts. -/
def twoTexts (n : NodeID64) : Option Str :=
  if n = 1 then some "d#a".toList else if n = 2 then some "d#c".toList else if n = 3 then some "d#e".toList
  else if n = 4 then some "d#g".toList else if n = 7 then some "d#b".toList else if n = 8 then some "d#d".toList else none

/-- The first text goes from the document `b` to the document `a`. -/
def crossing (n : NodeID64) : Option Str :=
  if n = 1 then some "b#1".toList else if n = 2 then some "b#2".toList else if n = 3 then some "a#3".toList
  else if n = 4 then some "a#4".toList else if n = 7 then some "c#7".toList else if n = 8 then some "c#8".toList else none

def noRnd : Rnd (List (SMatch NodeID64 Nat)) := ⟨id, 50, []⟩

/-- The result of the token search, and of `find` in the given order for a plan that says that it is sorted or not. -/
def foundTok (E : SortEnv NodeID64) (sorted : Bool) (order : ResultOrder) : Option (List NodeID64) := do
  let res ← search (some (Adj.run Linear.demo).asOrder) (some []) true sortToks (rootCmp E 0) 50 []
  let p ← findSingle (textCorpus E (res.map (group 0)) sorted fun g => g.head?.map SMatch.node) noRnd false order 0 none
  pure p.1

/-- With one text per document the tokens are in the order of the documents and texts in both cases. -/
theorem C74_nonvacuous :
    foundTok (sortEnv true twoDocs) true .normal = some [7, 8, 1, 2, 3, 4] ∧
    foundTok (sortEnv true twoDocs) false .normal = some [7, 8, 1, 2, 3, 4] ∧
    foundTok (sortEnv true twoDocs) true .inverted = some [4, 3, 2, 1, 8, 7] := by decide +kernel

theorem sortToks_conn (text : Bool) (name : NodeID64 → Option Str) (a b : NodeID64) :
    (sortEnv text name).conn a b = true ↔ ∃ d, WalkLen (fun a b => (Adj.spec Linear.demo).edge a b = true) a b (d + 1) :=
  storeConn_iff (Adj.asGStore_is Linear.demo) (by simp [GStore.anyRange]) Linear.demo_chains.ac a b

/-- The conditions of the theorems hold in this corpus. -/
theorem twoDocs_oneText : OneText (sortEnv true twoDocs) (fun a b => (Adj.spec Linear.demo).edge a b = true)
    (IsTok sortToks fun _ _ => False) where
  coll := defaultColl_ord
  text := rfl
  named := by
    rintro n ⟨hn, _⟩
    simp only [sortToks, List.mem_cons, List.not_mem_nil, or_false] at hn
    rcases hn with rfl | rfl | rfl | rfl | rfl | rfl <;> decide
  left := fun _ _ => rfl
  conn := sortToks_conn true twoDocs
  doc := by
    intro a b hab
    have all : ∀ p ∈ [((1 : NodeID64), (2 : NodeID64)), (2, 3), (3, 4), (7, 8)],
        comparePath (sortEnv true twoDocs) ((sortEnv true twoDocs).path p.1) ((sortEnv true twoDocs).path p.2) = .eq := by decide +kernel
    rcases Linear.demo_edges a b hab with ⟨rfl, rfl⟩ | ⟨rfl, rfl⟩ | ⟨rfl, rfl⟩ | ⟨rfl, rfl⟩
    · exact all (1, 2) (by simp)
    · exact all (2, 3) (by simp)
    · exact all (3, 4) (by simp)
    · exact all (7, 8) (by simp)
  one := by
    rintro a b ⟨ha, _⟩ ⟨hb, _⟩ hp
    have key : a = b ∨ (sortEnv true twoDocs).conn a b = true ∨ (sortEnv true twoDocs).conn b a = true := by
      have all : (sortToks.all fun a => sortToks.all fun b =>
          (comparePath (sortEnv true twoDocs) ((sortEnv true twoDocs).path a) ((sortEnv true twoDocs).path b) != .eq) ||
          (a == b || ((sortEnv true twoDocs).conn a b || (sortEnv true twoDocs).conn b a))) = true := by rfl
      have := List.all_eq_true.1 (List.all_eq_true.1 all a ha) b hb
      simpa only [hp, bne_self_eq_false, Bool.false_or, Bool.or_eq_true, beq_iff_eq] using this
    rcases key with e | e | e
    · exact Or.inl e
    · obtain ⟨d, hd⟩ := (sortToks_conn true twoDocs a b).1 e
      exact Or.inr ⟨d, Or.inl hd⟩
    · obtain ⟨d, hd⟩ := (sortToks_conn true twoDocs b a).1 e
      exact Or.inr ⟨d, Or.inr hd⟩

theorem C74_ascending_nonvacuous {res : List NodeID64}
    (h : search (some (Adj.run Linear.demo).asOrder) (some []) true sortToks (rootCmp (sortEnv true twoDocs) 0) 50 [] = some res) :
    res.Pairwise (fun a b => compareGroup (sortEnv true twoDocs) (group 0 a) (group 0 b) = .lt) :=
  (C74_ascending_partial (Adj.asOrder_is Linear.demo) (Adj.inOrder Linear.demo Linear.demo_chains) ⟨fun _ _ _ => False, by simp, by simp⟩
    Linear.demo_chains (by decide)
    (by
      intro a b hab
      rcases Linear.demo_edges a b hab with ⟨rfl, rfl⟩ | ⟨rfl, rfl⟩ | ⟨rfl, rfl⟩ | ⟨rfl, rfl⟩ <;>
        exact ⟨⟨by decide, by simp⟩, ⟨by decide, by simp⟩⟩)
    true twoDocs_oneText 0 50 [] h).1

/-- C74 fails for a document with several texts: without sorting the texts are one after the other, with sorting (and thus in the
inverted order) tokens of different texts are compared by name. -/
theorem C74_texts_fails :
    foundTok (sortEnv true twoTexts) true .normal = some [1, 2, 3, 4, 7, 8] ∧
    foundTok (sortEnv true twoTexts) false .normal = some [1, 7, 2, 8, 3, 4] ∧
    foundTok (sortEnv true twoTexts) true .inverted = some [4, 3, 8, 2, 7, 1] := by decide +kernel

/-- C74 fails if the order of the tokens crosses documents: the token search does not compare the later documents. -/
theorem C74_crossing_fails :
    foundTok (sortEnv true crossing) true .normal = some [1, 2, 3, 4, 7, 8] ∧
    foundTok (sortEnv true crossing) false .normal = some [3, 4, 1, 2, 7, 8] := by decide +kernel

/-- C74 fails if the components for the left- and right-most tokens are missing: the sort compares only names, the token search
still follows the order. -/
theorem C74_no_helper_fails :
    foundTok (sortEnv false twoDocs) true .normal = some [7, 8, 1, 2, 3, 4] ∧
    foundTok (sortEnv false twoDocs) false .normal = some [8, 7, 4, 3, 2, 1] := by decide +kernel

end TokenSearch
