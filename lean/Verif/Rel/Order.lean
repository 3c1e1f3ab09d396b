import Verif.Rel.Graph

/-!
# The order of tokens and segmentation spans after an import (C81)
-/

set_option linter.unusedSimpArgs false
set_option linter.unusedSectionVars false

namespace Rel

open Spec

namespace Spec

/-- Segmentation and index of a token (empty segmentation) or of a span of a segmentation. -/
def position (r : NodeRow) : Option (Str × Nat) :=
  match r.kind with
  | .tok i _ => some ([], i)
  | .seg s i _ => some (s, i)
  | .plain => none

/-- `b` follows directly on `a` in the segmentation `g`: they belong to the same text of the same document, and no row has an
index between them. -/
def Follows (rows : List NodeRow) (g : Str) (a b : NodeRow) : Prop :=
  a.corpus = b.corpus ∧ a.text = b.text ∧ ∃ i j, position a = some (g, i) ∧ position b = some (g, j) ∧ i < j ∧
    ∀ c ∈ rows, ∀ k, c.corpus = a.corpus → c.text = a.text → position c = some (g, k) → ¬ (i < k ∧ k < j)

/-- There is a row in the rank table for this edge. -/
def InRank (t : Tables) (c : CKey Str) (x y : NodeRow) : Prop :=
  ∃ r ∈ t.ranks, ∃ q ∈ t.ranks, ∃ k ∈ t.comps, r.parent = some q.pre ∧ q.node = x.id ∧ r.node = y.id ∧ r.comp = k.id ∧
    c = comp k.type k.layer k.name

/-- The identifiers in the tables are unique, and no two rows have the same place in the order. -/
structure Unique (t : Tables) : Prop where
  nodes : (t.nodes.map NodeRow.id).Nodup
  positions : ∀ a ∈ t.nodes, ∀ b ∈ t.nodes, ∀ p, a.corpus = b.corpus → a.text = b.text → position a = some p → position b = some p → a = b
  pres : (t.ranks.map RankRow.pre).Nodup
  comps : (t.comps.map CompRow.id).Nodup

end Spec

/-! ### Names of rows -/

/-- The name of the node for a row. -/
def nm (T : CTable) (r : NodeRow) : Str := (corpusPath T r.corpus).getD [] ++ '#' :: r.name

theorem Spec.Unique.eq_of_id {t : Tables} (h : Unique t) {a b : NodeRow} (ha : a ∈ t.nodes) (hb : b ∈ t.nodes) (e : a.id = b.id) : a = b :=
  List.inj_on_of_nodup_map h.nodes ha hb e

theorem names_get {ext : Option Str → List (Str × Str)} {t : Tables} {p : Parts} (h : p.Of ext t) (hu : Unique t) {r : NodeRow}
    (hr : r ∈ t.nodes) : (nodeNames p.ns).get r.id = some (nm p.T r) := by
  obtain ⟨n, hn⟩ := mapM_some_of h.ns r hr
  have hn' := (mapM_some_mem h.ns n).2 ⟨r, hr, hn⟩
  rw [Option.map_eq_some_iff] at hn
  obtain ⟨q, hq, rfl⟩ := hn
  refine get_collect hn' (by simp [nm, hq]) ?_
  intro m hm w hw
  obtain ⟨h1, q', h2, h3⟩ := (nameNodes_mem h.ns m).1 hm
  have h4 := congrArg Prod.fst (Option.some.inj hw)
  have h5 := congrArg Prod.snd (Option.some.inj hw)
  simp only at h4 h5
  have := hu.eq_of_id h1 hr h4
  rw [← h5, h3]
  rw [this] at h2 ⊢
  simp [nm, h2]

theorem names_some {ext : Option Str → List (Str × Str)} {t : Tables} {p : Parts} (h : p.Of ext t) (hu : Unique t) {i : Nat} {s : Str}
    (hs : (nodeNames p.ns).get i = some s) : ∃ r ∈ t.nodes, r.id = i ∧ s = nm p.T r := by
  obtain ⟨n, hn, rfl, rfl⟩ := of_nodeNames hs
  obtain ⟨h1, _⟩ := (nameNodes_mem h.ns n).1 hn
  refine ⟨n.1, h1, rfl, ?_⟩
  have := names_get h hu h1
  rw [this] at hs
  exact (Option.some.inj hs).symm

/-! ### The rank table -/

theorem rankEdge_iff {t : Tables} (hu : Unique t) {r : RankRow} {s : Nat} {c : CompRow} (hr : r ∈ t.ranks) :
    rankEdge (preToNode t.ranks) (compTable t.comps) r = some (s, c) ↔
      ∃ q ∈ t.ranks, r.parent = some q.pre ∧ q.node = s ∧ c ∈ t.comps ∧ r.comp = c.id := by
  unfold rankEdge
  constructor
  · intro h
    split at h
    · cases h
    · rename_i pp hp
      split at h
      · rename_i s' c' h1 h2
        cases h
        obtain ⟨q, hq, e⟩ := of_get_collect h1
        obtain ⟨c', hc, e'⟩ := of_get_collect h2
        simp only [Option.some.injEq, Prod.mk.injEq] at e e'
        obtain ⟨e1, e2⟩ := e
        obtain ⟨e3, rfl⟩ := e'
        exact ⟨q, hq, by rw [hp, e1], e2, hc, e3.symm⟩
      · cases h
  · rintro ⟨q, hq, hp, hs, hc, hcc⟩
    have h1 : (preToNode t.ranks).get q.pre = some s := by
      refine get_collect hq (by rw [hs]) ?_
      intro q' hq' w hw
      simp only [Option.some.injEq, Prod.mk.injEq] at hw
      have := List.inj_on_of_nodup_map hu.pres hq' hq hw.1
      rw [← hw.2, this, hs]
    have h2 : (compTable t.comps).get r.comp = some c := by
      refine get_collect hc (by rw [hcc]) ?_
      intro q' hq' w hw
      simp only [Option.some.injEq, Prod.mk.injEq] at hw
      have := List.inj_on_of_nodup_map hu.comps hq' hc (hw.1.trans hcc)
      rw [← hw.2, this]
    rw [hp]
    simp only [h1, h2]

/-- The edge events of the rank table. -/
theorem rank_iff {ext : Option Str → List (Str × Str)} {t : Tables} {p : Parts} (h : p.Of ext t) (hu : Unique t) (x y : Str) (c : CKey Str) :
    (Event.addEdge x y (some c) : Ev) ∈ p.rank ↔
      ∃ a ∈ t.nodes, ∃ b ∈ t.nodes, x = nm p.T a ∧ y = nm p.T b ∧ InRank t c a b := by
  rw [mem_rank h.rank]
  constructor
  · rintro ⟨r, hr, s, k, sn, tn, h1, h2, h3, h4⟩
    simp only [Event.addEdge.injEq, compOf_eq, Option.some.injEq] at h4
    obtain ⟨rfl, rfl, rfl⟩ := h4
    obtain ⟨q, hq, h5, h6, h7, h8⟩ := (rankEdge_iff hu hr).1 h1
    obtain ⟨a, ha, e1, e2⟩ := names_some h hu h2
    obtain ⟨b, hb, e3, e4⟩ := names_some h hu h3
    exact ⟨a, ha, b, hb, e2, e4, r, hr, q, hq, k, h7, h5, by rw [h6, e1], e3.symm, h8, rfl⟩
  · rintro ⟨a, ha, b, hb, rfl, rfl, r, hr, q, hq, k, hk, h1, h2, h3, h4, rfl⟩
    refine ⟨r, hr, a.id, k, _, _, (rankEdge_iff hu hr).2 ⟨q, hq, h1, h2, hk, h4⟩, names_get h hu ha, ?_, rfl⟩
    rw [h3]
    exact names_get h hu hb

/-! ### The order -/

/-- The place of a row in the order. -/
def placeOf (r : NodeRow) : Option TProp := (position r).map fun p => tprop p.1 r.corpus r.text p.2

theorem tokByIndex_eq (rows : List NodeRow) :
    tokByIndex rows = collect (fun r => (placeOf r).map fun p => (p, r.id)) rows := by
  unfold tokByIndex
  congr 1
  funext r
  unfold placeOf position
  cases r.kind <;> rfl

theorem tprop_inj {g g' : Str} {c c' x x' i i' : Nat} (h : tprop g c x i = tprop g' c' x' i') : g = g' ∧ c = c' ∧ x = x' ∧ i = i' := by
  refine ⟨congrArg TProp.seg h, congrArg TProp.corpus h, congrArg TProp.text h, congrArg TProp.val h⟩

theorem placeOf_eq {r : NodeRow} {p : TProp} : placeOf r = some p ↔
    position r = some (p.seg, p.val) ∧ r.corpus = p.corpus ∧ r.text = p.text := by
  unfold placeOf
  rw [Option.map_eq_some_iff]
  constructor
  · rintro ⟨q, hq, rfl⟩
    exact ⟨hq, rfl, rfl⟩
  · rintro ⟨h1, h2, h3⟩
    refine ⟨_, h1, ?_⟩
    rw [h2, h3]
    rfl

theorem Spec.Unique.place {t : Tables} (h : Unique t) {a b : NodeRow} (ha : a ∈ t.nodes) (hb : b ∈ t.nodes) {p : TProp} (h1 : placeOf a = some p)
    (h2 : placeOf b = some p) : a = b := by
  rw [placeOf_eq] at h1 h2
  exact h.positions a ha b hb _ (h1.2.1.trans h2.2.1.symm) (h1.2.2.trans h2.2.2.symm) h1.1 h2.1

theorem index_get {t : Tables} (h : Unique t) {p : TProp} {i : Nat} :
    (tokByIndex t.nodes).get p = some i ↔ ∃ r ∈ t.nodes, r.id = i ∧ placeOf r = some p := by
  rw [tokByIndex_eq]
  constructor
  · intro hg
    obtain ⟨r, hr, e⟩ := of_get_collect hg
    rw [Option.map_eq_some_iff] at e
    obtain ⟨q, hq, e⟩ := e
    cases e
    exact ⟨r, hr, rfl, hq⟩
  · rintro ⟨r, hr, rfl, hp⟩
    refine get_collect hr (by rw [hp]; rfl) ?_
    intro r' hr' w hw
    rw [Option.map_eq_some_iff] at hw
    obtain ⟨q, hq, e⟩ := hw
    cases e
    rw [h.place hr' hr hq hp]

theorem sorted_index (rows : List NodeRow) : OMap.Sorted (tokByIndex rows) := by
  rw [tokByIndex_eq]; exact sorted_collect _ _

theorem tprop_lt_same {p q : TProp} (hs : p.seg = q.seg) (hc : p.corpus = q.corpus) (ht : p.text = q.text) : p < q ↔ p.val < q.val := by
  rw [Prod.Lex.lt_iff, Prod.Lex.lt_iff, Prod.Lex.lt_iff]
  constructor
  · rintro (h | ⟨_, h | ⟨_, h | ⟨_, h⟩⟩⟩)
    · exact absurd hs (ne_of_lt h)
    · exact absurd hc (Nat.ne_of_lt h)
    · exact absurd ht (Nat.ne_of_lt h)
    · exact h
  · intro h
    exact Or.inr ⟨hs, Or.inr ⟨hc, Or.inr ⟨ht, h⟩⟩⟩

theorem sameText_iff {p q : TProp} : sameText p q = true ↔ p.corpus = q.corpus ∧ p.text = q.text ∧ p.seg = q.seg := by
  simp [sameText, and_assoc]

/-- Anything between two places of the same text belongs to this text. -/
theorem between_same {p q r : TProp} (h : sameText p q = true) (h1 : p < r) (h2 : r < q) : sameText p r = true := by
  rw [sameText_iff] at h ⊢
  obtain ⟨hc, ht, hs⟩ := h
  have h1 := le_of_lt h1
  have h2 := le_of_lt h2
  rw [Prod.Lex.le_iff] at h1 h2
  have s1 : p.seg = r.seg := by
    rcases h1 with h1 | ⟨h1, _⟩
    · rcases h2 with h2 | ⟨h2, _⟩
      · exact absurd (lt_trans h1 h2) (by unfold TProp.seg at hs; rw [hs]; exact lt_irrefl _)
      · exact hs.trans h2.symm
    · exact h1
  have s2 : r.seg = q.seg := s1.symm.trans hs
  have h1 := (h1.resolve_left (by unfold TProp.seg at s1; rw [s1]; exact lt_irrefl _)).2
  have h2 := (h2.resolve_left (by unfold TProp.seg at s2; rw [s2]; exact lt_irrefl _)).2
  rw [Prod.Lex.le_iff] at h1 h2
  have c1 : p.corpus = r.corpus := by
    rcases h1 with h1 | ⟨h1, _⟩
    · rcases h2 with h2 | ⟨h2, _⟩
      · exact absurd (lt_trans h1 h2) (by unfold TProp.corpus at hc; rw [hc]; exact lt_irrefl _)
      · exact hc.trans h2.symm
    · exact h1
  have c2 : r.corpus = q.corpus := c1.symm.trans hc
  have h1 := (h1.resolve_left (by unfold TProp.corpus at c1; rw [c1]; exact lt_irrefl _)).2
  have h2 := (h2.resolve_left (by unfold TProp.corpus at c2; rw [c2]; exact lt_irrefl _)).2
  rw [Prod.Lex.le_iff] at h1 h2
  refine ⟨c1, ?_, s1⟩
  rcases h1 with h1 | ⟨h1, _⟩
  · rcases h2 with h2 | ⟨h2, _⟩
    · exact absurd (lt_trans h1 h2) (by unfold TProp.text at ht; rw [ht]; exact lt_irrefl _)
    · exact ht.trans h2.symm
  · exact h1

/-- Neighbours in a sorted map. -/
theorem neighbours {K V : Type} [LinearOrder K] {m : OMap K V} (hs : OMap.Sorted m) {a b : K × V} :
    (∃ p q, m = p ++ a :: b :: q) ↔ a ∈ m ∧ b ∈ m ∧ a.1 < b.1 ∧ ∀ c ∈ m, ¬ (a.1 < c.1 ∧ c.1 < b.1) := by
  constructor
  · rintro ⟨p, q, rfl⟩
    unfold OMap.Sorted at hs
    rw [List.pairwise_append, List.pairwise_cons, List.pairwise_cons] at hs
    obtain ⟨_, ⟨h1, h2, _⟩, h3⟩ := hs
    refine ⟨by simp, by simp, h1 b (by simp), ?_⟩
    rintro c hc ⟨h4, h5⟩
    simp only [List.mem_append, List.mem_cons] at hc
    rcases hc with hc | rfl | rfl | hc
    · exact absurd (h3 c hc a (by simp)) (not_lt.2 (le_of_lt h4))
    · exact lt_irrefl _ h4
    · exact lt_irrefl _ h5
    · exact absurd (h2 c hc) (not_lt.2 (le_of_lt h5))
  · rintro ⟨ha, hb, hlt, hn⟩
    obtain ⟨p, r, rfl⟩ := List.append_of_mem ha
    unfold OMap.Sorted at hs
    rw [List.pairwise_append, List.pairwise_cons] at hs
    obtain ⟨_, ⟨h1, h2⟩, h3⟩ := hs
    have hb' : b ∈ r := by
      simp only [List.mem_append, List.mem_cons] at hb
      rcases hb with hb | rfl | hb
      · exact absurd (h3 b hb a (by simp)) (not_lt.2 (le_of_lt hlt))
      · exact absurd hlt (lt_irrefl _)
      · exact hb
    cases r with
    | nil => cases hb'
    | cons c r =>
      rcases List.mem_cons.1 hb' with rfl | hb'
      · exact ⟨p, r, rfl⟩
      · rw [List.pairwise_cons] at h2
        exact absurd ⟨h1 c (by simp), h2.1 b hb'⟩ (hn c (by simp))

/-- The order events. -/
theorem ord_iff {ext : Option Str → List (Str × Str)} {t : Tables} {p : Parts} (h : p.Of ext t) (hu : Unique t) (x y : Str) (c : CKey Str) :
    (Event.addEdge x y (some c) : Ev) ∈ p.ord ↔
      ∃ g, c = comp .ordering (if g = [] then annisNs else defaultNs) g ∧
        ∃ a ∈ t.nodes, ∃ b ∈ t.nodes, x = nm p.T a ∧ y = nm p.T b ∧ Follows t.nodes g a b := by
  rw [mem_orderFrom h.ord]
  simp only [Option.toList_none, List.nil_append]
  have hs := sorted_index t.nodes
  constructor
  · rintro ⟨l, a, b, q, hl, hsame, s, t', h1, h2, h3⟩
    obtain ⟨ha, hb, hlt, hn⟩ := (neighbours hs).1 ⟨l, q, hl⟩
    simp only [Event.addEdge.injEq, compOf_eq, Option.some.injEq] at h3
    obtain ⟨rfl, rfl, rfl⟩ := h3
    obtain ⟨ra, hra, ea, pa⟩ := (index_get hu).1 ((OMap.mem_iff_get hs).1 ha)
    obtain ⟨rb, hrb, eb, pb⟩ := (index_get hu).1 ((OMap.mem_iff_get hs).1 hb)
    have pa' := placeOf_eq.1 pa
    have pb' := placeOf_eq.1 pb
    obtain ⟨hc, ht, hseg⟩ := sameText_iff.1 hsame
    refine ⟨b.1.seg, rfl, ra, hra, rb, hrb, ?_, ?_, ?_⟩
    · rw [← ea, names_get h hu hra] at h1; exact (Option.some.inj h1).symm
    · rw [← eb, names_get h hu hrb] at h2; exact (Option.some.inj h2).symm
    · refine ⟨by rw [pa'.2.1, pb'.2.1, hc], by rw [pa'.2.2, pb'.2.2, ht], a.1.val, b.1.val, by rw [pa'.1, hseg], pb'.1,
        (tprop_lt_same hseg hc ht).1 hlt, ?_⟩
      rintro r hr k h4 h5 h6 ⟨h7, h8⟩
      have hp : placeOf r = some (tprop b.1.seg a.1.corpus a.1.text k) :=
        placeOf_eq.2 ⟨h6, h4.trans pa'.2.1, h5.trans pa'.2.2⟩
      have hm := (OMap.mem_iff_get hs).2 ((index_get hu).2 ⟨r, hr, rfl, hp⟩)
      refine hn _ hm ⟨?_, ?_⟩
      · exact (tprop_lt_same (q := tprop b.1.seg a.1.corpus a.1.text k) hseg rfl rfl).2 h7
      · exact (tprop_lt_same (p := tprop b.1.seg a.1.corpus a.1.text k) (q := b.1) rfl hc ht).2 h8
  · rintro ⟨g, rfl, a, ha, b, hb, rfl, rfl, hc, ht, i, j, h1, h2, hij, hn⟩
    have pa : placeOf a = some (tprop g a.corpus a.text i) := placeOf_eq.2 ⟨h1, rfl, rfl⟩
    have pb : placeOf b = some (tprop g b.corpus b.text j) := placeOf_eq.2 ⟨h2, rfl, rfl⟩
    have ma := (OMap.mem_iff_get hs).2 ((index_get hu).2 ⟨a, ha, rfl, pa⟩)
    have mb := (OMap.mem_iff_get hs).2 ((index_get hu).2 ⟨b, hb, rfl, pb⟩)
    have hsame : sameText (tprop g a.corpus a.text i) (tprop g b.corpus b.text j) = true := sameText_iff.2 ⟨hc, ht, rfl⟩
    obtain ⟨l, q, hl⟩ := (neighbours hs (a := (tprop g a.corpus a.text i, a.id)) (b := (tprop g b.corpus b.text j, b.id))).2
      ⟨ma, mb, (tprop_lt_same (p := tprop g a.corpus a.text i) (q := tprop g b.corpus b.text j) rfl hc ht).2 hij, by
        rintro c hcm ⟨h3, h4⟩
        obtain ⟨r, hr, _, pr⟩ := (index_get hu).1 ((OMap.mem_iff_get hs).1 hcm)
        have pr' := placeOf_eq.1 pr
        obtain ⟨c1, c2, c3⟩ := sameText_iff.1 (between_same hsame h3 h4)
        refine hn r hr c.1.val (pr'.2.1.trans c1.symm) (pr'.2.2.trans c2.symm) (by rw [pr'.1, ← c3]; rfl) ⟨?_, ?_⟩
        · exact (tprop_lt_same (p := tprop g a.corpus a.text i) c3 c1 c2).1 h3
        · exact (tprop_lt_same (q := tprop g b.corpus b.text j) c3.symm (c1.symm.trans hc) (c2.symm.trans ht)).1 h4⟩
    exact ⟨l, _, _, q, hl, hsame, _, _, names_get h hu ha, names_get h hu hb, rfl⟩

theorem covComp_type (res : RankResult) (n : Nat) : ∃ l g, covComp res n = some (comp .coverage l g) := by
  unfold covComp
  split
  · exact ⟨_, _, rfl⟩
  · split
    · exact ⟨_, _, rfl⟩
    · exact ⟨_, _, rfl⟩

theorem comp_inj {a b : AnnotationComponentType} {l l' n n' : Str} (h : comp a l n = comp b l' n') : a = b ∧ l = l' ∧ n = n' :=
  compOf_inj (by rw [compOf_eq, compOf_eq, h])

/-- C81: in the imported graph, the edges of an ordering component are those from each token (or span of the segmentation) to
the one which follows directly in the same text, and the edges which the rank table gives for this component. -/
theorem C81_order {ext : Option Str → List (Str × Str)} {t : Tables} {name : Str} {evs : List Ev}
    (h : importEvents ext t = some (name, evs)) (hu : Unique t) : ∃ T, parseCorpus t.corpora = some T ∧
      ∀ layer g x y, (graphOf evs).edge (comp .ordering layer g) x y = true ↔ x ≠ y ∧
        ∃ a ∈ t.nodes, ∃ b ∈ t.nodes, x = nm T a ∧ y = nm T b ∧
          ((layer = (if g = [] then "annis".toList else "default_ns".toList) ∧ Follows t.nodes g a b) ∨
            InRank t (comp .ordering layer g) a b) := by
  obtain ⟨p, hp, rfl, rfl⟩ := importEvents_parts h
  refine ⟨p.T, hp.T, ?_⟩
  intro layer g x y
  rw [hp.edge (by rw [← compOf_eq]; intro e; exact absurd (compOf_inj e).1 (by decide)), ord_iff hp hu, rank_iff hp hu]
  have nocov : (Event.addEdge x y (some (comp .ordering layer g)) : Ev) ∉ p.cov := by
    intro hc
    rw [hp.cov] at hc
    obtain ⟨n, _, _, _, _, _, _, _, e⟩ := mem_addCoverage hc
    obtain ⟨l, g', e'⟩ := covComp_type (rankResult (compTable t.comps) t.ranks) n
    simp only [Event.addEdge.injEq] at e
    rw [e', Option.some.injEq] at e
    exact absurd (comp_inj e.2.2).1 (by decide)
  constructor
  · rintro ⟨⟨g', e, a, ha, b, hb, hx, hy, hf⟩ | ⟨a, ha, b, hb, hx, hy, hr⟩ | hc, hne⟩
    · obtain ⟨_, e1, e2⟩ := comp_inj e
      subst e2
      exact ⟨hne, a, ha, b, hb, hx, hy, Or.inl ⟨e1, hf⟩⟩
    · exact ⟨hne, a, ha, b, hb, hx, hy, Or.inr hr⟩
    · exact absurd hc nocov
  · rintro ⟨hne, a, ha, b, hb, hx, hy, ⟨e, hf⟩ | hr⟩
    · exact ⟨Or.inl ⟨g, by rw [e]; rfl, a, ha, b, hb, hx, hy, hf⟩, hne⟩
    · exact ⟨Or.inr (Or.inl ⟨a, ha, b, hb, hx, hy, hr⟩), hne⟩

end Rel
