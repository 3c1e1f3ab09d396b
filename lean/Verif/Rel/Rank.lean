import Verif.Rel.Order

/-!
# Edges and edge annotations of the rank table (C82)
-/

set_option linter.unusedSimpArgs false
set_option linter.unusedSectionVars false

namespace Rel

open Spec

namespace Spec

/-- A value, where NULL stands for a string which is larger than all others. -/
def valueOf : Option Str → Str
  | some v => v
  | none => [Char.ofNat 0x10FFFF]

/-- There is an annotation for a row of the rank table with this edge. -/
def EdgeAnno (t : Tables) (c : CKey Str) (x y : NodeRow) (ns name : Str) (v : Str) : Prop :=
  ∃ r ∈ t.ranks, ∃ q ∈ t.ranks, ∃ k ∈ t.comps, ∃ e ∈ t.edgeAnnos, r.parent = some q.pre ∧ q.node = x.id ∧ r.node = y.id ∧
    r.comp = k.id ∧ c = comp k.type k.layer k.name ∧ e.id = r.pre ∧ e.ns = ns ∧ e.name = name ∧ v = valueOf e.val

end Spec

section
variable {ext : Option Str → List (Str × Str)} {t : Tables} {p : Parts}

theorem rank_byPre (hu : Unique t) {pre s n : Nat} {c : CompRow} :
    (rankResult (compTable t.comps) t.ranks).byPre.get pre = some ((s, n), c) ↔
      ∃ r ∈ t.ranks, r.pre = pre ∧ r.node = n ∧ ∃ q ∈ t.ranks, r.parent = some q.pre ∧ q.node = s ∧ c ∈ t.comps ∧ r.comp = c.id := by
  unfold rankResult
  simp only
  constructor
  · intro h
    obtain ⟨r, hr, e⟩ := of_get_collect h
    rw [Option.map_eq_some_iff] at e
    obtain ⟨⟨s', c'⟩, h1, h2⟩ := e
    simp only [Prod.mk.injEq] at h2
    obtain ⟨rfl, ⟨rfl, rfl⟩, rfl⟩ := h2
    exact ⟨r, hr, rfl, rfl, (rankEdge_iff hu hr).1 h1⟩
  · rintro ⟨r, hr, rfl, rfl, h⟩
    refine get_collect hr (by rw [(rankEdge_iff hu hr).2 h]; rfl) ?_
    intro r' hr' w hw
    rw [Option.map_eq_some_iff] at hw
    obtain ⟨⟨s', c'⟩, h1, h2⟩ := hw
    simp only [Prod.mk.injEq] at h2
    have e := List.inj_on_of_nodup_map hu.pres hr' hr h2.1
    subst e
    rw [(rankEdge_iff hu hr).2 h] at h1
    cases h1
    exact h2.2.symm

theorem eannos_iff (h : p.Of ext t) (hu : Unique t) (x y : Str) (c : CKey Str) (k : AnnoKey Str) (v : Str) :
    (Event.addEdgeLabel x y (some c) k v : Ev) ∈ p.eannos ↔ ∃ a ∈ t.nodes, ∃ b ∈ t.nodes, x = nm p.T a ∧ y = nm p.T b ∧
      ∃ ns name, k = AnnoKey.mk ns name ∧ EdgeAnno t c a b ns name v := by
  rw [mem_eannos h.eannos]
  constructor
  · rintro ⟨e, he, ⟨s, n⟩, k', sn, tn, h1, h2, h3, h4⟩
    simp only [Event.addEdgeLabel.injEq] at h4
    obtain ⟨rfl, rfl, h4, rfl, rfl⟩ := h4
    rw [compOf_eq, Option.some.injEq] at h4
    obtain ⟨a, ha, hai, hax⟩ := names_some h hu h2
    obtain ⟨b, hb, hbi, hbx⟩ := names_some h hu h3
    obtain ⟨r, hr, r1, r2, q, hq, q1, q2, q3, q4⟩ := (rank_byPre hu).1 h1
    refine ⟨a, ha, b, hb, hax, hbx, _, _, rfl, r, hr, q, hq, k', q3, e, he, q1, ?_, ?_, q4, h4, r1.symm, rfl, rfl, ?_⟩
    · rw [q2, hai]
    · rw [r2, hbi]
    · cases e.val <;> rfl
  · rintro ⟨a, ha, b, hb, rfl, rfl, ns, name, rfl, r, hr, q, hq, k', hk, e, he, h1, h2, h3, h4, rfl, h5, rfl, rfl, rfl⟩
    refine ⟨e, he, (a.id, b.id), k', nm p.T a, nm p.T b, ?_, names_get h hu ha, names_get h hu hb, ?_⟩
    · exact (rank_byPre hu).2 ⟨r, hr, h5.symm, h3, q, hq, h1, h2, hk, h4⟩
    · rw [compOf_eq]
      cases e.val <;> rfl

theorem eannos_mem (h : p.Of ext t) {x y : Str} {c : Option (CKey Str)} {k : AnnoKey Str} {v : Str} :
    (Event.addEdgeLabel x y c k v : Ev) ∈ p.events ↔ (Event.addEdgeLabel x y c k v : Ev) ∈ p.eannos := by
  unfold Parts.events
  simp only [List.mem_append]
  constructor
  · rintro (he | (((((he | he) | he) | he) | he) | he) | he)
    · obtain ⟨n, _, he⟩ := List.mem_flatMap.1 he
      rcases adds_nodeEvents he with ⟨_, h⟩ | ⟨_, _, h, _⟩ <;> cases h
    · obtain ⟨_, _, _, _, _, _, _, _, _, _, h⟩ := (mem_orderFrom h.ord _).1 he; cases h
    · obtain ⟨_, _, _, _, _, h | ⟨_, _, _, h⟩⟩ := (mem_nodeAnnos h.annos).1 he <;> cases h
    · rcases kinds_corpora h.corpora he with ⟨_, _, h⟩ | ⟨_, _, _, h⟩ | ⟨_, _, h⟩ <;> cases h
    · rw [h.space] at he
      obtain ⟨_, _, _, _, _, _, h⟩ := mem_addWhitespace he
      cases h
    · obtain ⟨_, _, _, _, _, _, _, _, _, h⟩ := (mem_rank h.rank).1 he; cases h
    · exact he
    · rw [h.cov] at he
      obtain ⟨_, _, _, _, _, _, _, _, h⟩ := mem_addCoverage he
      cases h
  · tauto

theorem eanno_known (h : p.Of ext t) (hu : Unique t) (x y : Str) (c : CKey Str) : EdgeLabelKnown p.events x y c := by
  intro a k v b e
  have hm := (eannos_mem h).1 (show (Event.addEdgeLabel x y (some c) k v : Ev) ∈ p.events by rw [e]; simp)
  obtain ⟨a', ha, b', hb, hx, hy, ns, name, _, r, hr, q, hq, k', hk, e', _, h1, h2, h3, h4, h5, _⟩ := (eannos_iff h hu _ _ _ _ _).1 hm
  have hr' : (Event.addEdge x y (some c) : Ev) ∈ p.rank := (rank_iff h hu x y c).2 ⟨a', ha, b', hb, hx, hy, r, hr, q, hq, k', hk, h1, h2, h3, h4, h5⟩
  unfold Parts.events at e
  have e2 : (p.ns.flatMap nodeEvents ++ p.ord ++ p.annos ++ p.corpora ++ p.space ++ p.rank) ++ (p.eannos ++ p.cov) =
      a ++ Event.addEdgeLabel x y (some c) k v :: b := by rw [← e]; simp
  refine mem_before e2 ?_ _ (by simp [hr'])
  simp only [List.mem_append]
  rintro (((((he | he) | he) | he) | he) | he)
  · obtain ⟨n, _, he⟩ := List.mem_flatMap.1 he
    rcases adds_nodeEvents he with ⟨_, h⟩ | ⟨_, _, h, _⟩ <;> cases h
  · obtain ⟨_, _, _, _, _, _, _, _, _, _, h⟩ := (mem_orderFrom h.ord _).1 he; cases h
  · obtain ⟨_, _, _, _, _, h | ⟨_, _, _, h⟩⟩ := (mem_nodeAnnos h.annos).1 he <;> cases h
  · rcases kinds_corpora h.corpora he with ⟨_, _, h⟩ | ⟨_, _, _, h⟩ | ⟨_, _, h⟩ <;> cases h
  · rw [h.space] at he
    obtain ⟨_, _, _, _, _, _, h⟩ := mem_addWhitespace he
    cases h
  · obtain ⟨_, _, _, _, _, _, _, _, _, h⟩ := (mem_rank h.rank).1 he; cases h

end

/-- C82: in the imported graph the edges of a dominance or pointing component are exactly those of the rank table. -/
theorem C82_edges_partial {ext : Option Str → List (Str × Str)} {t : Tables} {name : Str} {evs : List Ev}
    (h : importEvents ext t = some (name, evs)) (hu : Unique t) : ∃ T, parseCorpus t.corpora = some T ∧
      ∀ ty layer g x y, ty ≠ .ordering → ty ≠ .coverage → ty ≠ .partOf → ((graphOf evs).edge (comp ty layer g) x y = true ↔ x ≠ y ∧
        ∃ a ∈ t.nodes, ∃ b ∈ t.nodes, x = nm T a ∧ y = nm T b ∧ InRank t (comp ty layer g) a b) := by
  obtain ⟨p, hp, rfl, rfl⟩ := importEvents_parts h
  refine ⟨p.T, hp.T, ?_⟩
  intro ty layer g x y h1 h2 h3
  rw [hp.edge (by rw [← compOf_eq]; intro e; exact absurd (compOf_inj e).1 h3), ord_iff hp hu, rank_iff hp hu]
  constructor
  · rintro ⟨⟨g', e, _⟩ | hr | hc, hne⟩
    · exact absurd (comp_inj e).1 h1
    · exact ⟨hne, hr⟩
    · rw [hp.cov] at hc
      obtain ⟨n, _, _, _, _, _, _, _, e⟩ := mem_addCoverage hc
      obtain ⟨l, g', e'⟩ := covComp_type (rankResult (compTable t.comps) t.ranks) n
      simp only [Event.addEdge.injEq] at e
      rw [e', Option.some.injEq] at e
      exact absurd (comp_inj e.2.2).1 h2
  · rintro ⟨hne, hr⟩
    exact ⟨Or.inr (Or.inl hr), hne⟩

/-- C82: the labels of the edges are those of the edge annotations: a label has a value if all annotations for this edge and name
agree on it, and none if there are no such annotations. -/
theorem C82_labels_partial {ext : Option Str → List (Str × Str)} {t : Tables} {name : Str} {evs : List Ev}
    (h : importEvents ext t = some (name, evs)) (hu : Unique t) : ∃ T, parseCorpus t.corpora = some T ∧
      ∀ c x y, some c ≠ partOfComp → x ≠ y → ∀ ns key,
        (∀ v, (∃ a ∈ t.nodes, ∃ b ∈ t.nodes, x = nm T a ∧ y = nm T b ∧ EdgeAnno t c a b ns key v) →
          (∀ a ∈ t.nodes, ∀ b ∈ t.nodes, x = nm T a → y = nm T b → ∀ w, EdgeAnno t c a b ns key w → w = v) →
          (graphOf evs).eanno c x y (AnnoKey.mk ns key) = some v) ∧
        ((∀ a ∈ t.nodes, ∀ b ∈ t.nodes, x = nm T a → y = nm T b → ∀ w, ¬ EdgeAnno t c a b ns key w) →
          (graphOf evs).eanno c x y (AnnoKey.mk ns key) = none) := by
  obtain ⟨p, hp, rfl, rfl⟩ := importEvents_parts h
  refine ⟨p.T, hp.T, ?_⟩
  intro c x y hc hne ns key
  have mem : ∀ w, (Event.addEdgeLabel x y (some c) (AnnoKey.mk ns key) w : Ev) ∈ p.events →
      ∃ a ∈ t.nodes, ∃ b ∈ t.nodes, x = nm p.T a ∧ y = nm p.T b ∧ EdgeAnno t c a b ns key w := by
    intro w hw
    obtain ⟨a, ha, b, hb, hx, hy, ns', key', hk, he⟩ := (eannos_iff hp hu _ _ _ _ _).1 ((eannos_mem hp).1 hw)
    have e1 : ns = ns' := congrArg (fun x : AnnoKey Str => (ofLex x).2) hk
    have e2 : key = key' := congrArg (fun x : AnnoKey Str => (ofLex x).1) hk
    subst e1 e2
    exact ⟨a, ha, b, hb, hx, hy, he⟩
  unfold graphOf
  refine ⟨?_, ?_⟩
  · rintro v ⟨a, ha, b, hb, hx, hy, he⟩ hall
    refine run_eanno hp.adds c x y hne _ v (hp.edge_known hc x y) (eanno_known hp hu x y c) ?_ ?_
    · exact (eannos_mem hp).2 ((eannos_iff hp hu _ _ _ _ _).2 ⟨a, ha, b, hb, hx, hy, ns, key, rfl, he⟩)
    · intro w hw
      obtain ⟨a', ha', b', hb', hx', hy', he'⟩ := mem w hw
      exact hall a' ha' b' hb' hx' hy' w he'
  · intro hno
    refine run_eanno_none hp.adds c x y _ ?_
    intro w hw
    obtain ⟨a', ha', b', hb', hx', hy', he'⟩ := mem w hw
    exact hno a' ha' b' hb' hx' hy' w he'

end Rel
