import Verif.Updated.Corpus
import Verif.Updated.Names

/-!
# C113: queries after a history of updates answer about the nodes and edges that the updates describe
-/

set_option linter.unusedSectionVars false
set_option linter.unusedVariables false

namespace Answer

open Whole TextSpec Graph Graph.Index Transport

variable {C : Type} [LinearOrder C]

/-! ## The graph and the names -/

/-- The node has the name. -/
def HasName (nk : AnnoKey Str) (g : Graph Str Str C) (i : NodeID64) (n : Str) : Prop := g.annos.getValue i nk = some n

section
variable {s : Setting C} {g : Graph Str Str C} {nk tk : AnnoKey Str} {l : List (Event Str Str C)}
variable (hf : Facts s.sc nk tk s.tok l g) (hs : SettingOk s g)
include hf

theorem names_unique : Unique (HasName nk g) :=
  ⟨fun a x y h1 h2 => Option.some.inj (h1.symm.trans h2), fun a b x h1 h2 => hf.inv.uniq a b x h1 h2⟩

/-- Nodes of the abstract graph exist. -/
theorem node_exists {n : Str} (h : (GSpec.empty.run nk tk l : GSpec Str Str C).node n = true) : ∃ i, HasName nk g i n := by
  obtain ⟨m, hr, ha⟩ := hf.rep
  rw [← ha.node] at h
  exact (hr.node n).1 h

theorem label_eq {i : NodeID64} {n : Str} (h : HasName nk g i n) (k : AnnoKey Str) :
    g.annos.getValue i k = (GSpec.empty.run nk tk l : GSpec Str Str C).label n k := by
  obtain ⟨m, hr, ha⟩ := hf.rep
  rw [← ha.label]
  exact hr.label i n h k

theorem label_node {n : Str} {k : AnnoKey Str} {v : Str} (h : (GSpec.empty.run nk tk l : GSpec Str Str C).label n k = some v) :
    ∃ i, HasName nk g i n := by
  obtain ⟨m, hr, ha⟩ := hf.rep
  rw [← ha.label] at h
  exact (hr.node n).1 (hr.labelN n k v h)

theorem edge_fwd {c : C} (hc : c ≠ s.sc.left ∧ c ≠ s.sc.right ∧ c ≠ s.sc.inh) :
    Fwd (HasName nk g) (E g c) fun x y => (GSpec.empty.run nk tk l : GSpec Str Str C).edge c x y = true := by
  intro a b hab
  obtain ⟨⟨x, hx⟩, ⟨y, hy⟩⟩ := hf.ends c a b hab
  obtain ⟨m, hr, ha⟩ := hf.rep
  refine ⟨x, y, hx, hy, ?_⟩
  rw [← ha.edge c hc.1 hc.2.1 hc.2.2]
  exact (hr.edge a b x y hx hy c).1 hab

theorem edge_bwd {c : C} (hc : c ≠ s.sc.left ∧ c ≠ s.sc.right ∧ c ≠ s.sc.inh) :
    Fwd (flip (HasName nk g)) (fun x y => (GSpec.empty.run nk tk l : GSpec Str Str C).edge c x y = true) (E g c) := by
  intro x y hxy
  obtain ⟨m, hr, ha⟩ := hf.rep
  have hxy' : m.edge c x y = true := by rw [ha.edge c hc.1 hc.2.1 hc.2.2]; exact hxy
  obtain ⟨h1, h2⟩ := hr.edgeN c x y hxy'
  obtain ⟨a, hx⟩ := (hr.node x).1 h1
  obtain ⟨b, hy⟩ := (hr.node y).1 h2
  exact ⟨a, b, hx, hy, (hr.edge a b x y hx hy c).2 hxy'⟩

theorem eanno_eq {c : C} (hc : c ≠ s.sc.left ∧ c ≠ s.sc.right ∧ c ≠ s.sc.inh) {a b : NodeID64} {x y : Str} (hx : HasName nk g a x)
    (hy : HasName nk g b y) (k : AnnoKey Str) :
    (g.comp c).annos.getValue (toLex (a, b)) k = (GSpec.empty.run nk tk l : GSpec Str Str C).eanno c x y k := by
  obtain ⟨m, hr, ha⟩ := hf.rep
  rw [← ha.eanno c hc.1 hc.2.1 hc.2.2]
  exact hr.eanno a b x y hx hy c k

include hs

theorem other_kind {c : C} {k : CKind} (h : s.sc.kind c = k) (h1 : k ≠ .leftToken) (h2 : k ≠ .rightToken) (h3 : k ≠ .coverage) :
    c ≠ s.sc.left ∧ c ≠ s.sc.right ∧ c ≠ s.sc.inh := by
  refine ⟨?_, ?_, ?_⟩ <;> rintro rfl
  · exact h1 (h.symm.trans hs.schema.left)
  · exact h2 (h.symm.trans hs.schema.right)
  · exact h3 (h.symm.trans hs.schema.inh)

theorem cov_kind {c : C} (h : s.sc.kind c = .coverage) (hi : c ≠ s.sc.inh) : c ≠ s.sc.left ∧ c ≠ s.sc.right ∧ c ≠ s.sc.inh := by
  refine ⟨?_, ?_, hi⟩ <;> rintro rfl
  · have := h.symm.trans hs.schema.left; cases this
  · have := h.symm.trans hs.schema.right; cases this

theorem direct_fwd : Fwd (HasName nk g) (Index.Direct s.sc g) (Names.Direct s.sc (GSpec.empty.run nk tk l)) := by
  rintro a b ⟨c, h1, h2, h3⟩
  obtain ⟨x, y, h4, h5, h6⟩ := edge_fwd hf (cov_kind hf hs h1 h2) a b h3
  exact ⟨x, y, h4, h5, c, h1, h2, h6⟩

theorem direct_bwd : Fwd (flip (HasName nk g)) (Names.Direct s.sc (GSpec.empty.run nk tk l)) (Index.Direct s.sc g) := by
  rintro a b ⟨c, h1, h2, h3⟩
  obtain ⟨x, y, h4, h5, h6⟩ := edge_bwd hf (cov_kind hf hs h1 h2) a b h3
  exact ⟨x, y, h4, h5, c, h1, h2, h6⟩

theorem below_fwd : Fwd (HasName nk g) (Index.Below s.sc g) (Names.Below s.sc (GSpec.empty.run nk tk l)) := by
  rintro a b (h | ⟨c, h1, h2⟩)
  · obtain ⟨x, y, h4, h5, h6⟩ := direct_fwd hf hs a b h
    exact ⟨x, y, h4, h5, Or.inl h6⟩
  · obtain ⟨x, y, h4, h5, h6⟩ := edge_fwd hf (other_kind hf hs h1 (by decide) (by decide) (by decide)) a b h2
    exact ⟨x, y, h4, h5, Or.inr ⟨c, h1, h6⟩⟩

theorem below_bwd : Fwd (flip (HasName nk g)) (Names.Below s.sc (GSpec.empty.run nk tk l)) (Index.Below s.sc g) := by
  rintro a b (h | ⟨c, h1, h2⟩)
  · obtain ⟨x, y, h4, h5, h6⟩ := direct_bwd hf hs a b h
    exact ⟨x, y, h4, h5, Or.inl h6⟩
  · obtain ⟨x, y, h4, h5, h6⟩ := edge_bwd hf (other_kind hf hs h1 (by decide) (by decide) (by decide)) a b h2
    exact ⟨x, y, h4, h5, Or.inr ⟨c, h1, h6⟩⟩

theorem tok_at {a : NodeID64} {x : Str} (hx : HasName nk g a x) :
    Index.IsTok s.sc s.tok g a ↔ Names.Tok s.sc s.tok (GSpec.empty.run nk tk l) x := by
  unfold Index.IsTok Names.Tok
  rw [label_eq hf hx]
  refine and_congr_right fun _ => not_congr ⟨?_, ?_⟩
  · rintro ⟨b, hb⟩
    obtain ⟨y, _, h⟩ := (direct_fwd hf hs).at (names_unique hf) hx hb
    exact ⟨y, h⟩
  · rintro ⟨b, hb⟩
    obtain ⟨y, _, h⟩ := (direct_bwd hf hs).at (names_unique hf).flip (show flip (HasName nk g) x a from hx) hb
    exact ⟨y, h⟩

theorem tok_fwd : FwdSet (HasName nk g) (Index.IsTok s.sc s.tok g) (Names.Tok s.sc s.tok (GSpec.empty.run nk tk l)) := by
  intro a h
  obtain ⟨v, hv⟩ := Option.isSome_iff_exists.1 h.1
  obtain ⟨x, hx⟩ := hf.inv.named a _ v hv
  exact ⟨x, hx, (tok_at hf hs hx).1 h⟩

theorem tok_bwd : FwdSet (flip (HasName nk g)) (Names.Tok s.sc s.tok (GSpec.empty.run nk tk l)) (Index.IsTok s.sc s.tok g) := by
  intro x h
  obtain ⟨v, hv⟩ := Option.isSome_iff_exists.1 h.1
  obtain ⟨a, hx⟩ := label_node hf hv
  exact ⟨a, hx, (tok_at hf hs hx).2 h⟩

theorem covered_fwd : Fwd (HasName nk g) (Index.Covered s.sc s.tok g) (Names.Covered s.sc s.tok (GSpec.empty.run nk tk l)) := by
  rintro a t ⟨h1, h2, h3⟩
  obtain ⟨x, y, hx, hy, h4⟩ := (below_fwd hf hs).transGen (names_unique hf) a t h3
  exact ⟨x, y, hx, hy, (tok_at hf hs hy).1 h1, fun e => h2 (hf.inv.uniq t a y hy (e ▸ hx)), h4⟩

theorem covered_bwd : Fwd (flip (HasName nk g)) (Names.Covered s.sc s.tok (GSpec.empty.run nk tk l)) (Index.Covered s.sc s.tok g) := by
  rintro x y ⟨h1, h2, h3⟩
  obtain ⟨a, t, hx, hy, h4⟩ := (below_bwd hf hs).transGen (names_unique hf).flip x y h3
  exact ⟨a, t, hx, hy, (tok_at hf hs hy).2 h1, fun e => h2 ((names_unique hf).fn a y x (e ▸ hy) hx), h4⟩

theorem next_fwd : Fwd (HasName nk g) (E g s.sc.order) (Names.Next s.sc (GSpec.empty.run nk tk l)) :=
  edge_fwd hf (other_kind hf hs hs.schema.order (by decide) (by decide) (by decide))

theorem next_bwd : Fwd (flip (HasName nk g)) (Names.Next s.sc (GSpec.empty.run nk tk l)) (E g s.sc.order) :=
  edge_bwd hf (other_kind hf hs hs.schema.order (by decide) (by decide) (by decide))

theorem first_at {a t : NodeID64} {x y : Str} (hx : HasName nk g a x) (hy : HasName nk g t y) :
    Index.First s.sc s.tok g a t ↔ Names.First s.sc s.tok (GSpec.empty.run nk tk l) x y := by
  have hu := names_unique hf
  have ht : ∀ {t t'} {y y'}, HasName nk g t y → HasName nk g t' y' →
      (Before s.sc g t t' ↔ Relation.TransGen (Names.Next s.sc (GSpec.empty.run nk tk l)) y y') := fun hy hy' =>
    ((next_fwd hf hs).transGen hu).iff ((next_bwd hf hs).transGen hu.flip) hu hy hy'
  unfold Index.First Names.First
  refine and_congr ((covered_fwd hf hs).iff (covered_bwd hf hs) hu hx hy) ⟨fun h y' h' => ?_, fun h t' h' => ?_⟩
  · obtain ⟨t', hy', h''⟩ := (covered_bwd hf hs).at hu.flip (show flip (HasName nk g) x a from hx) h'
    rcases h t' h'' with rfl | h3
    · exact Or.inl (hu.fn _ _ _ hy' hy)
    · exact Or.inr ((ht hy hy').1 h3)
  · obtain ⟨y', hy', h''⟩ := (covered_fwd hf hs).at hu hx h'
    rcases h y' h'' with rfl | h3
    · exact Or.inl (hu.inj _ _ _ hy' hy)
    · exact Or.inr ((ht hy hy').2 h3)

theorem last_at {a t : NodeID64} {x y : Str} (hx : HasName nk g a x) (hy : HasName nk g t y) :
    Index.Last s.sc s.tok g a t ↔ Names.Last s.sc s.tok (GSpec.empty.run nk tk l) x y := by
  have hu := names_unique hf
  have ht : ∀ {t t'} {y y'}, HasName nk g t y → HasName nk g t' y' →
      (Before s.sc g t t' ↔ Relation.TransGen (Names.Next s.sc (GSpec.empty.run nk tk l)) y y') := fun hy hy' =>
    ((next_fwd hf hs).transGen hu).iff ((next_bwd hf hs).transGen hu.flip) hu hy hy'
  unfold Index.Last Names.Last
  refine and_congr ((covered_fwd hf hs).iff (covered_bwd hf hs) hu hx hy) ⟨fun h y' h' => ?_, fun h t' h' => ?_⟩
  · obtain ⟨t', hy', h''⟩ := (covered_bwd hf hs).at hu.flip (show flip (HasName nk g) x a from hx) h'
    rcases h t' h'' with rfl | h3
    · exact Or.inl (hu.fn _ _ _ hy' hy)
    · exact Or.inr ((ht hy' hy).1 h3)
  · obtain ⟨y', hy', h''⟩ := (covered_fwd hf hs).at hu hx h'
    rcases h y' h'' with rfl | h3
    · exact Or.inl (hu.inj _ _ _ hy' hy)
    · exact Or.inr ((ht hy' hy).2 h3)

theorem text_fwd : TextFwd (HasName nk g) (relsOf s g).tok (Names.Tok s.sc s.tok (GSpec.empty.run nk tk l)) (relsOf s g).first (relsOf s g).last
    (relsOf s g).next (relsOf s g).cov (Names.First s.sc s.tok (GSpec.empty.run nk tk l)) (Names.Last s.sc s.tok (GSpec.empty.run nk tk l))
    (Names.Next s.sc (GSpec.empty.run nk tk l)) (Names.Cov s.sc s.tok (GSpec.empty.run nk tk l)) where
  tok := tok_fwd hf hs
  first := fun a t h => by
    obtain ⟨x, y, hx, hy, _⟩ := covered_fwd hf hs a t h.1
    exact ⟨x, y, hx, hy, (first_at hf hs hx hy).1 h⟩
  last := fun a t h => by
    obtain ⟨x, y, hx, hy, _⟩ := covered_fwd hf hs a t h.1
    exact ⟨x, y, hx, hy, (last_at hf hs hx hy).1 h⟩
  next := next_fwd hf hs
  cov := fun a t h => by
    rcases h with h | h
    · obtain ⟨x, y, hx, hy, h⟩ := direct_fwd hf hs a t h
      exact ⟨x, y, hx, hy, Or.inl h⟩
    · obtain ⟨x, y, hx, hy, h⟩ := covered_fwd hf hs a t h
      exact ⟨x, y, hx, hy, Or.inr h⟩

theorem text_bwd : TextFwd (flip (HasName nk g)) (Names.Tok s.sc s.tok (GSpec.empty.run nk tk l)) (relsOf s g).tok
    (Names.First s.sc s.tok (GSpec.empty.run nk tk l)) (Names.Last s.sc s.tok (GSpec.empty.run nk tk l))
    (Names.Next s.sc (GSpec.empty.run nk tk l)) (Names.Cov s.sc s.tok (GSpec.empty.run nk tk l)) (relsOf s g).first (relsOf s g).last
    (relsOf s g).next (relsOf s g).cov where
  tok := tok_bwd hf hs
  first := fun x y h => by
    obtain ⟨a, t, hx, hy, _⟩ := covered_bwd hf hs x y h.1
    exact ⟨a, t, hx, hy, (first_at hf hs hx hy).2 h⟩
  last := fun x y h => by
    obtain ⟨a, t, hx, hy, _⟩ := covered_bwd hf hs x y h.1
    exact ⟨a, t, hx, hy, (last_at hf hs hx hy).2 h⟩
  next := next_bwd hf hs
  cov := fun a t h => by
    rcases h with h | h
    · obtain ⟨x, y, hx, hy, h⟩ := direct_bwd hf hs a t h
      exact ⟨x, y, hx, hy, Or.inl h⟩
    · obtain ⟨x, y, hx, hy, h⟩ := covered_bwd hf hs a t h
      exact ⟨x, y, hx, hy, Or.inr h⟩

/-! ## Operators and searches -/

theorem edge_anno_at {c : C} (hc : c ≠ s.sc.left ∧ c ≠ s.sc.right ∧ c ≠ s.sc.inh) {a b : NodeID64} {x y : Str} (hx : HasName nk g a x)
    (hy : HasName nk g b y) : (relsOf s g).anno (storeOf g c) a b = fun k v => (GSpec.empty.run nk tk l : GSpec Str Str C).eanno c x y k = some v := by
  funext k v
  rw [← eanno_eq hf hc hx hy]
  exact propext (anno_storeOf hf.inv c a b k v)

theorem path_at {K : EdgeStore NodeID64 Str Str → Prop} {K' : C → Prop} (hK : ∀ e, K e ↔ ∃ c, K' c ∧ e = storeOf g c)
    (hc : ∀ c, K' c → c ≠ s.sc.left ∧ c ≠ s.sc.right ∧ c ≠ s.sc.inh) (dist : RangeSpec) (anno : Option Parse.EdgeSpec) {a b : NodeID64} {x y : Str}
    (hx : HasName nk g a x) (hy : HasName nk g b y) :
    Path s.env (relsOf s g) K dist anno a b ↔ Names.Path s.env (GSpec.empty.run nk tk l) K' dist anno x y := by
  have hE : ∀ c, (relsOf s g).edge (storeOf g c) = E g c := fun c => funext fun a => funext fun b => propext (edge_storeOf c a b)
  unfold Path Names.Path
  constructor
  · rintro ⟨e, he, ⟨d, h1, h2⟩, h3⟩
    obtain ⟨c, hk, rfl⟩ := (hK e).1 he
    rw [hE] at h1
    refine ⟨c, hk, ⟨d, (simplePath_iff (edge_fwd hf (hc c hk)) (edge_bwd hf (hc c hk)) (names_unique hf) hx hy d).1 h1, h2⟩, fun sp hsp => ?_⟩
    rw [← edge_anno_at hf hs (hc c hk) hx hy]
    exact h3 sp hsp
  · rintro ⟨c, hk, ⟨d, h1, h2⟩, h3⟩
    refine ⟨storeOf g c, (hK _).2 ⟨c, hk, rfl⟩, ⟨d, ?_, h2⟩, fun sp hsp => ?_⟩
    · rw [hE]
      exact (simplePath_iff (edge_fwd hf (hc c hk)) (edge_bwd hf (hc c hk)) (names_unique hf) hx hy d).2 h1
    · rw [edge_anno_at hf hs (hc c hk) hx hy]
      exact h3 sp hsp

theorem mem_dominance (name : Str) (e : EdgeStore NodeID64 Str Str) : (name, e) ∈ (corpusOf s g).db.dominance ↔
    ∃ c, (c ∈ g.comps.keys ∧ s.sc.kind c = .dominance ∧ s.cname c = name) ∧ e = storeOf g c := by
  simp only [corpusOf, Graph.compsOf, List.mem_map, List.mem_filter, decide_eq_true_eq, Prod.mk.injEq]
  constructor
  · rintro ⟨c, ⟨h1, h2⟩, h3, h4⟩; exact ⟨c, ⟨h1, h2, h3⟩, h4.symm⟩
  · rintro ⟨c, ⟨h1, h2, h3⟩, h4⟩; exact ⟨c, ⟨h1, h2⟩, h3, h4.symm⟩

theorem mem_pointing (name : Str) (e : EdgeStore NodeID64 Str Str) : (name, e) ∈ (corpusOf s g).db.pointing ↔
    ∃ c, (c ∈ g.comps.keys ∧ s.sc.kind c = .pointing ∧ s.cname c = name) ∧ e = storeOf g c := by
  simp only [corpusOf, Graph.compsOf, List.mem_map, List.mem_filter, decide_eq_true_eq, Prod.mk.injEq]
  constructor
  · rintro ⟨c, ⟨h1, h2⟩, h3, h4⟩; exact ⟨c, ⟨h1, h2, h3⟩, h4.symm⟩
  · rintro ⟨c, ⟨h1, h2, h3⟩, h4⟩; exact ⟨c, ⟨h1, h2⟩, h3, h4.symm⟩

theorem ordered_at (seg : Str) (range : RangeSpec) {a b : NodeID64} {x y : Str} (hx : HasName nk g a x) (hy : HasName nk g b y) :
    Ordered ((relsOf s g).edge (storeOf g (s.segc seg))) range a b ↔
      Ordered (fun x y => (GSpec.empty.run nk tk l : GSpec Str Str C).edge (s.segc seg) x y = true) range x y := by
  have hE : (relsOf s g).edge (storeOf g (s.segc seg)) = E g (s.segc seg) := funext fun a => funext fun b => propext (edge_storeOf _ a b)
  rw [hE]
  exact exists_congr fun d => and_congr_left fun _ =>
    simplePath_iff (edge_fwd hf (hs.segc seg)) (edge_bwd hf (hs.segc seg)) (names_unique hf) hx hy d

/-- Operators mean the same for nodes and for their names. -/
theorem means_at (op : Aql.BinSpec Parse.OpSpec) {a b : NodeID64} {x y : Str} (hx : HasName nk g a x) (hy : HasName nk g b y) :
    Means (corpusOf s g).db s.env (relsOf s g) op a b ↔
      Names.Means s.sc s.env s.cname s.part s.segc (· ∈ g.comps.keys) (GSpec.empty.run nk tk l) op x y := by
  have hu := names_unique hf
  have hF := text_fwd hf hs
  have hB := text_bwd hf hs
  have hx' : flip (HasName nk g) x a := hx
  have hy' : flip (HasName nk g) y b := hy
  unfold Means Names.Means
  split
  · exact path_at hf hs (mem_dominance hf hs _) (fun c hc => other_kind hf hs hc.2.1 (by decide) (by decide) (by decide)) _ _ hx hy
  · exact path_at hf hs (mem_pointing hf hs _) (fun c hc => other_kind hf hs hc.2.1 (by decide) (by decide) (by decide)) _ _ hx hy
  · exact ⟨precedes_fwd hu hF hB hx hy, precedes_fwd hu.flip hB hF hx' hy'⟩
  · exact or_congr ⟨precedes_fwd hu hF hB hx hy, precedes_fwd hu.flip hB hF hx' hy'⟩
      ⟨precedes_fwd hu hF hB hy hx, precedes_fwd hu.flip hB hF hy' hx'⟩
  · simp only [segment_eq, and_assoc, exists_and_left, exists_eq_left]
    exact and_congr_right fun _ => ordered_at hf hs _ _ hx hy
  · simp only [segment_eq, and_assoc, exists_and_left, exists_eq_left]
    exact and_congr_right fun _ => or_congr (ordered_at hf hs _ _ hx hy) (ordered_at hf hs _ _ hy hx)
  · refine path_at hf hs (fun e => ?_) (fun c hc => ?_) _ _ hx hy
    · show some (storeOf g s.part) = some e ↔ _
      simp [eq_comm]
    · rw [hc]; exact hs.part
  · exact ⟨share_fwd hu hF hB hx hy, share_fwd hu.flip hB hF hx' hy'⟩
  · exact and_congr ⟨common_fwd hu hF hB hF.first hx hy, common_fwd hu.flip hB hF hB.first hx' hy'⟩
      ⟨common_fwd hu hF hB hF.last hx hy, common_fwd hu.flip hB hF hB.last hx' hy'⟩
  · exact ⟨includes_fwd hu hF hB hx hy, includes_fwd hu.flip hB hF hx' hy'⟩
  · exact ⟨common_fwd hu hF hB hF.first hx hy, common_fwd hu.flip hB hF hB.first hx' hy'⟩
  · exact ⟨common_fwd hu hF hB hF.last hx hy, common_fwd hu.flip hB hF hB.last hx' hy'⟩
  · exact ⟨fun e => hu.fn a x y hx (e ▸ hy), fun e => hu.inj a b x hx (e ▸ hy)⟩
  · split <;> simp_all

theorem arity_at (range : RangeSpec) {a : NodeID64} {x : Str} (hx : HasName nk g a x) :
    Arity (corpusOf s g).db (relsOf s g) range a ↔ Names.Arity s.sc (GSpec.empty.run nk tk l) range x := by
  have hu := names_unique hf
  have hchild : ∀ b, (∃ name e, ((name, e) ∈ (corpusOf s g).db.dominance ∨ (name, e) ∈ (corpusOf s g).db.pointing) ∧ (relsOf s g).edge e a b) ↔
      ∃ c, (s.sc.kind c = .dominance ∨ s.sc.kind c = .pointing) ∧ E g c a b := by
    intro b
    simp only [mem_dominance hf hs, mem_pointing hf hs]
    constructor
    · rintro ⟨name, e, ⟨c, ⟨_, h1, _⟩, rfl⟩ | ⟨c, ⟨_, h1, _⟩, rfl⟩, h2⟩
      · exact ⟨c, Or.inl h1, (edge_storeOf c a b).1 h2⟩
      · exact ⟨c, Or.inr h1, (edge_storeOf c a b).1 h2⟩
    · rintro ⟨c, h1 | h1, h2⟩
      · exact ⟨_, _, Or.inl ⟨c, ⟨edge_mem_keys h2, h1, rfl⟩, rfl⟩, (edge_storeOf c a b).2 h2⟩
      · exact ⟨_, _, Or.inr ⟨c, ⟨edge_mem_keys h2, h1, rfl⟩, rfl⟩, (edge_storeOf c a b).2 h2⟩
  have hk : ∀ c, s.sc.kind c = .dominance ∨ s.sc.kind c = .pointing → c ≠ s.sc.left ∧ c ≠ s.sc.right ∧ c ≠ s.sc.inh := by
    rintro c (h | h)
    · exact other_kind hf hs h (by decide) (by decide) (by decide)
    · exact other_kind hf hs h (by decide) (by decide) (by decide)
  unfold Arity Names.Arity
  simp only [hchild]
  constructor
  · rintro ⟨ch, h1, h2, h3⟩
    have hn : ∀ b ∈ ch, ∃ y, HasName nk g b y := by
      intro b hb
      obtain ⟨c, _, hc⟩ := (h2 b).1 hb
      exact (hf.ends c a b hc).2
    obtain ⟨ys, hys⟩ : ∃ ys, List.Forall₂ (HasName nk g) ch ys := by
      clear h1 h2 h3
      induction ch with
      | nil => exact ⟨[], .nil⟩
      | cons b ch ih =>
        obtain ⟨y, hy⟩ := hn b (by simp)
        obtain ⟨ys, hys⟩ := ih fun b hb => hn b (by simp [hb])
        exact ⟨y :: ys, .cons hy hys⟩
    have hmem : ∀ y, y ∈ ys ↔ ∃ b ∈ ch, HasName nk g b y := by
      clear h1 h2 h3 hn
      intro y
      induction hys with
      | nil => simp
      | @cons b y' _ _ e1 _ ih =>
        simp only [List.mem_cons, ih, exists_eq_or_imp]
        exact or_congr ⟨fun h => h ▸ e1, fun h => hu.fn _ _ _ h e1⟩ Iff.rfl
    refine ⟨ys, ?_, fun y => ?_, ?_⟩
    · clear h2 h3 hn hmem
      induction hys with
      | nil => exact List.nodup_nil
      | @cons b y' l1 l2 e1 e2 ih =>
        rw [List.nodup_cons] at h1 ⊢
        refine ⟨fun hm => ?_, ih h1.2⟩
        have : ∃ b' ∈ l1, HasName nk g b' y' := by
          clear ih h1
          induction e2 with
          | nil => cases hm
          | cons e3 e4 ih2 =>
            rcases List.mem_cons.1 hm with rfl | hm
            · exact ⟨_, by simp, e3⟩
            · obtain ⟨b', hb', hh⟩ := ih2 hm
              exact ⟨b', by simp [hb'], hh⟩
        obtain ⟨b', hb', hh⟩ := this
        rw [hu.inj b b' y' e1 hh] at h1
        exact h1.1 hb'
    · rw [hmem]
      constructor
      · rintro ⟨b, hb, hy⟩
        obtain ⟨c, hc, he⟩ := (h2 b).1 hb
        exact ⟨c, hc, ((edge_fwd hf (hk c hc)).iff (edge_bwd hf (hk c hc)) hu hx hy).1 he⟩
      · rintro ⟨c, hc, he⟩
        obtain ⟨b, hy, he'⟩ := (edge_bwd hf (hk c hc)).at hu.flip (show flip (HasName nk g) x a from hx) he
        exact ⟨b, (h2 b).2 ⟨c, hc, he'⟩, hy⟩
    · rw [← hys.length_eq]; exact h3
  · rintro ⟨ys, h1, h2, h3⟩
    have hn : ∀ y ∈ ys, ∃ b, HasName nk g b y := by
      intro y hy
      obtain ⟨c, hc, he⟩ := (h2 y).1 hy
      obtain ⟨b, hb, _⟩ := (edge_bwd hf (hk c hc)).at hu.flip (show flip (HasName nk g) x a from hx) he
      exact ⟨b, hb⟩
    obtain ⟨ch, hys⟩ : ∃ ch, List.Forall₂ (flip (HasName nk g)) ys ch := by
      clear h1 h2 h3
      induction ys with
      | nil => exact ⟨[], .nil⟩
      | cons b ch ih =>
        obtain ⟨y, hy⟩ := hn b (by simp)
        obtain ⟨ys, hys⟩ := ih fun b hb => hn b (by simp [hb])
        exact ⟨y :: ys, .cons hy hys⟩
    have hmem : ∀ b, b ∈ ch ↔ ∃ y ∈ ys, HasName nk g b y := by
      clear h1 h2 h3 hn
      intro y
      induction hys with
      | nil => simp
      | @cons b y' _ _ e1 _ ih =>
        simp only [List.mem_cons, ih, exists_eq_or_imp]
        exact or_congr ⟨fun h => h ▸ e1, fun h => hu.inj _ _ _ h e1⟩ Iff.rfl
    refine ⟨ch, ?_, fun b => ?_, ?_⟩
    · clear h2 h3 hn hmem
      induction hys with
      | nil => exact List.nodup_nil
      | @cons b y' l1 l2 e1 e2 ih =>
        rw [List.nodup_cons] at h1 ⊢
        refine ⟨fun hm => ?_, ih h1.2⟩
        have : ∃ b' ∈ l1, HasName nk g y' b' := by
          clear ih h1
          induction e2 with
          | nil => cases hm
          | cons e3 e4 ih2 =>
            rcases List.mem_cons.1 hm with rfl | hm
            · exact ⟨_, by simp, e3⟩
            · obtain ⟨b', hb', hh⟩ := ih2 hm
              exact ⟨b', by simp [hb'], hh⟩
        obtain ⟨b', hb', hh⟩ := this
        rw [hu.fn y' b b' e1 hh] at h1
        exact h1.1 hb'
    · rw [hmem]
      constructor
      · rintro ⟨y, hy', hy⟩
        obtain ⟨c, hc, he⟩ := (h2 y).1 hy'
        exact ⟨c, hc, ((edge_fwd hf (hk c hc)).iff (edge_bwd hf (hk c hc)) hu hx hy).2 he⟩
      · rintro ⟨c, hc, he⟩
        obtain ⟨y, hy, he'⟩ := (edge_fwd hf (hk c hc)).at hu hx he
        exact ⟨y, (h2 y).2 ⟨c, hc, he'⟩, hy⟩
    · rw [← hys.length_eq]; exact h3

theorem wanted_at {m : AnnoStore.Spec NodeID64 Str Str} (hm : ∀ n k, g.annos.getValue n k = m n k) (sp : NsSpec Str Str) {a : NodeID64} {x : Str}
    (hx : HasName nk g a x) (k : AnnoKey Str) : NodeSearch.Wanted s.env m (relsOf s g).cov sp a k ↔
      NodeSearch.Wanted s.env (GSpec.empty.run nk tk l : GSpec Str Str C).label (Names.Cov s.sc s.tok (GSpec.empty.run nk tk l)) sp x k := by
  have hu := names_unique hf
  have h1 : ∀ k, m a k = (GSpec.empty.run nk tk l : GSpec Str Str C).label x k := fun k => by rw [← hm, label_eq hf hx]
  have h2 : (∃ t, (relsOf s g).cov a t) ↔ ∃ t, Names.Cov s.sc s.tok (GSpec.empty.run nk tk l) x t := by
    constructor
    · rintro ⟨t, ht⟩
      obtain ⟨y, _, h⟩ := (text_fwd hf hs).cov.at hu hx ht
      exact ⟨y, h⟩
    · rintro ⟨t, ht⟩
      obtain ⟨y, _, h⟩ := (text_bwd hf hs).cov.at hu.flip (show flip (HasName nk g) x a from hx) ht
      exact ⟨y, h⟩
  cases sp <;> simp only [NodeSearch.Wanted, AnnoStore.Hit, h1, h2]

end

theorem wanted_label {T : Type} {m : AnnoStore.Spec T Str Str} {Cov : T → T → Prop} {env : NsEnv Str Str} {sp : NsSpec Str Str} {n : T} {k : AnnoKey Str}
    (h : NodeSearch.Wanted env m Cov sp n k) : ∃ v, m n k = some v := by
  cases sp <;> simp only [NodeSearch.Wanted, AnnoStore.Hit] at h <;> grind

/-! ## Results -/

/-- A match with the name of its node. -/
def nameMatch (nk : AnnoKey Str) (g : Graph Str Str C) (x : SMatch NodeID64 (AnnoKey Str)) : NMatch := (g.annos.getValue x.node nk, x.key)

/-- What precedence and nearness in a segmentation need: at least the distance 1, and no nodes of the segmentation that are first or last tokens
of a node (see `SegFits`). -/
def SegUse (s : Setting C) (g : Graph Str Str C) : Aql.BinSpec Parse.OpSpec → Prop
  | .dist (.precedence (some seg)) range =>
    1 ≤ range.minDist ∧ ∀ a b, E g (s.segc seg) a b → ∀ x, ¬ (relsOf s g).first x b ∧ ¬ (relsOf s g).last x a
  | .dist (.near (some seg)) range =>
    1 ≤ range.minDist ∧ ∀ a b, E g (s.segc seg) a b → ∀ x, ¬ (relsOf s g).first x b ∧ ¬ (relsOf s g).last x a
  | _ => True

/-- Assumptions about an alternative of the text (see `AltOk`); operators that are not negated have no optional operands (other texts are not
accepted, C69). Ranges need no assumptions. -/
structure Names.AltOk (s : Setting C) (g : Graph Str Str C) (offset : Nat) (c : List Parse.QLit) (L : List (Aql.Occ (NsSpec Str Str))) : Prop where
  nonempty : ∃ o ∈ L, o.optional = false
  unambiguous : ∀ o ∈ L, o.optional = false → Unambiguous o.spec
  connected : ∀ i j, (∃ a, L[i]? = some a ∧ a.optional = false) → (∃ a, L[j]? = some a ∧ a.optional = false) →
    Relation.EqvGen (fun i j => ∃ lhs op rhs, .bin lhs op rhs false ∈ c ∧ Aql.Denotes offset L lhs i ∧ Aql.Denotes offset L rhs j) i j
  required : ∀ lhs op rhs, .bin lhs op rhs false ∈ c → ∀ i o, Aql.Denotes offset L lhs i ∨ Aql.Denotes offset L rhs i → L[i]? = some o →
    o.optional = false
  supported : ∀ lhs op rhs neg, .bin lhs op rhs neg ∈ c → Supported (corpusOf s g).db neg op
  segments : ∀ lhs op rhs neg, .bin lhs op rhs neg ∈ c → SegUse s g op
  overlap : ∀ lhs rhs neg, .bin lhs (.other .overlap) rhs neg ∈ c → (∀ n t, (relsOf s g).cov n t → (relsOf s g).tok t) ∧
    (corpusOf s g).th.Continuous (relsOf s g).first (relsOf s g).last (relsOf s g).next ownEdges
  arity : ∀ ref range, .un ref range ∈ c → ∀ i o, Aql.DenotesRef offset L ref i → L[i]? = some o → o.optional = false
  patterns : ∀ o ∈ L, (o.optional = true ∨ ∀ l ∈ c, l.isBin = false ∧ l.isUn = false) → ∀ p, NodeSearch.patternOf o.spec = some p →
    s.env.compile p ≠ none
  tokens : ∀ o ∈ L, o.spec = .anyToken → (corpusOf s g).g.anyTokens ≠ none
  replaced : ∀ lhs op rhs neg, .bin lhs op rhs neg ∈ c → ∀ i j a b, Aql.Denotes offset L lhs i → Aql.Denotes offset L rhs j → L[i]? = some a →
    L[j]? = some b → a.optional = false → b.optional = false → Replaceable (corpusOf s g).db s.env (relsOf s g) a.spec op neg

theorem anyRange_ok (r : RangeSpec) : GStore.anyRange r.minDist r.maxDist := by
  cases r <;> simp [GStore.anyRange, RangeSpec.maxDist]

section
variable {s : Setting C} {g : Graph Str Str C} {nk tk : AnnoKey Str} {l : List (Event Str Str C)}
variable (hf : Facts s.sc nk tk s.tok l g) (hs : SettingOk s g) (hd : DataOk s g)
include hf hs

include hd in
theorem altOk {offset : Nat} {c : List Parse.QLit} {L : List (Aql.Occ (NsSpec Str Str))} (h : Names.AltOk s g offset c L) :
    AltOk (corpusOf s g).db (corpusOf s g).env (corpusOf s g).g (relsOf s g) (corpusOf s g).th ownEdges GStore.anyRange (fun _ _ => True)
      (fun _ => GStore.anyRange) offset c L where
  nonempty := h.nonempty
  unambiguous := h.unambiguous
  connected := h.connected
  supported := h.supported
  fits := fun lhs op rhs neg hm => by
    have hseg := h.segments lhs op rhs neg hm
    unfold OpFits
    split
    · exact fun _ _ => ⟨anyRange_ok _, Or.inr fun _ => trivial⟩
    · exact fun _ _ => ⟨anyRange_ok _, Or.inr fun _ => trivial⟩
    · intro c' hc'
      obtain ⟨_, rfl⟩ := segment_eq.1 hc'
      exact ⟨anyRange_ok _, hseg.1, fun a b hab => hseg.2 a b ((edge_storeOf _ a b).1 hab)⟩
    · intro c' hc'
      obtain ⟨_, rfl⟩ := segment_eq.1 hc'
      exact ⟨anyRange_ok _, hseg.1, fun a b hab => hseg.2 a b ((edge_storeOf _ a b).1 hab)⟩
    · exact anyRange_ok _
    · exact fun _ _ => ⟨anyRange_ok _, Or.inr fun _ => trivial⟩
    · exact ⟨hd.chains, fun _ _ _ _ => by simp [GStore.anyRange]⟩
    · refine ⟨hd.chains, fun n t h' => ?_, (h.overlap lhs rhs neg hm).2⟩
      exact (tok_iff hf hs t).1 ((h.overlap lhs rhs neg hm).1 n t ((cov_iff hf hs n t).1 h'))
    · trivial
  arity := h.arity
  patterns := h.patterns
  tokens := h.tokens
  replaced := h.replaced

variable {m : AnnoStore.Spec NodeID64 Str Str} (hm : ∀ n k, g.annos.getValue n k = m n k)
variable {d : SMatch NodeID64 (AnnoKey Str)} {alts : List (List Parse.QLit)} {Ls : List (List (Aql.Occ (NsSpec Str Str)))}
variable (hok : ∀ (i : Nat) c L, alts[i]? = some c → Ls[i]? = some L → Names.AltOk s g (before Ls i) c L)
include hm

/-- Found nodes have names. -/
theorem finds_named {sp : NsSpec Str Str} {x : SMatch NodeID64 (AnnoKey Str)} (h : Finds s.env m (relsOf s g) sp x) : ∃ n, HasName nk g x.node n := by
  obtain ⟨k, h1, _⟩ := h
  obtain ⟨v, hv⟩ := wanted_label h1
  rw [← hm] at hv
  exact hf.inv.named _ _ _ hv

theorem finds_at (sp : NsSpec Str Str) (x : SMatch NodeID64 (AnnoKey Str)) (hx : ∃ n, HasName nk g x.node n) : Finds s.env m (relsOf s g) sp x ↔
    ∃ n k, (nameMatch nk g x).1 = some n ∧ NodeSearch.Wanted s.env (GSpec.empty.run nk tk l : GSpec Str Str C).label
      (Names.Cov s.sc (AnnoKey.mk s.env.annis s.env.tok) (GSpec.empty.run nk tk l)) sp n k ∧ (nameMatch nk g x).2 = NodeSearch.ShownKey s.env sp k := by
  obtain ⟨n, hn⟩ := hx
  unfold Finds nameMatch
  constructor
  · rintro ⟨k, h1, h2⟩
    exact ⟨n, k, hn, (wanted_at hf hs hm sp hn k).1 h1, h2⟩
  · rintro ⟨n', k, h0, h1, h2⟩
    obtain rfl := (names_unique hf).fn _ _ _ hn h0
    exact ⟨k, (wanted_at hf hs hm sp hn k).2 h1, h2⟩

theorem finds_exists (sp : NsSpec Str Str) (y : NMatch) (h : ∃ n k, y.1 = some n ∧ NodeSearch.Wanted s.env (GSpec.empty.run nk tk l : GSpec Str Str C).label
      (Names.Cov s.sc (AnnoKey.mk s.env.annis s.env.tok) (GSpec.empty.run nk tk l)) sp n k ∧ y.2 = NodeSearch.ShownKey s.env sp k) :
    ∃ x : SMatch NodeID64 (AnnoKey Str), (∃ n, HasName nk g x.node n) ∧ nameMatch nk g x = y := by
  obtain ⟨n, k, h0, h1, h2⟩ := h
  obtain ⟨v, hv⟩ := wanted_label h1
  obtain ⟨i, hi⟩ := label_node hf hv
  exact ⟨⟨i, y.2⟩, ⟨n, hi⟩, Prod.ext (hi.trans h0.symm) rfl⟩

theorem means_named (op : Aql.BinSpec Parse.OpSpec) (x y : SMatch NodeID64 (AnnoKey Str)) (hx : ∃ n, HasName nk g x.node n)
    (hy : ∃ n, HasName nk g y.node n) : Means (corpusOf s g).db s.env (relsOf s g) op x.node y.node ↔ ∃ a b, (nameMatch nk g x).1 = some a ∧
      (nameMatch nk g y).1 = some b ∧ Names.Means s.sc s.env s.cname s.part s.segc (· ∈ g.comps.keys) (GSpec.empty.run nk tk l) op a b := by
  obtain ⟨a, ha⟩ := hx
  obtain ⟨b, hb⟩ := hy
  constructor
  · exact fun h => ⟨a, b, ha, hb, (means_at hf hs op ha hb).1 h⟩
  · rintro ⟨a', b', ha', hb', h⟩
    exact (means_at hf hs op ha' hb').2 h

theorem arity_named (range : RangeSpec) (x : SMatch NodeID64 (AnnoKey Str)) (hx : ∃ n, HasName nk g x.node n) :
    Arity (corpusOf s g).db (relsOf s g) range x.node ↔ ∃ a, (nameMatch nk g x).1 = some a ∧ Names.Arity s.sc (GSpec.empty.run nk tk l) range a := by
  obtain ⟨a, ha⟩ := hx
  constructor
  · exact fun h => ⟨a, ha, (arity_at hf hs range ha).1 h⟩
  · rintro ⟨a', ha', h⟩
    exact (arity_at hf hs range ha').2 h

include hok

/-- Answers of the corpus are answers of the abstract graph. -/
theorem answer_fwd {i : Nat} {row : Row NodeID64 (AnnoKey Str)} (h : AnswersAlt (corpusOf s g).db s.env m (relsOf s g) d alts Ls i row) :
    Names.AnswersAlt s.sc s.env s.cname s.part s.segc (· ∈ g.comps.keys) (GSpec.empty.run nk tk l) (nameMatch nk g d) alts Ls i (row.map (nameMatch nk g)) := by
  obtain ⟨c, L, h1, h2, h3⟩ := h
  have ho := hok i c L h1 h2
  refine ⟨c, L, h1, h2, ?_⟩
  exact AnswerBy.map (P := fun x => ∃ n, HasName nk g x.node n) (fun sp x => finds_named hf hs hm) (finds_at hf hs hm) (finds_exists hf hs hm)
    (means_named hf hs hm) (arity_named hf hs hm) ho.required ho.arity ((textAnswer_iff _ _ _ _ _ _ _ _ _).1 h3)

/-- Answers of the abstract graph are answers of the corpus. -/
theorem answer_bwd {i : Nat} {row : List NMatch}
    (h : Names.AnswersAlt s.sc s.env s.cname s.part s.segc (· ∈ g.comps.keys) (GSpec.empty.run nk tk l) (nameMatch nk g d) alts Ls i row) :
    ∃ row', row'.map (nameMatch nk g) = row ∧ AnswersAlt (corpusOf s g).db s.env m (relsOf s g) d alts Ls i row' := by
  obtain ⟨c, L, h1, h2, h3⟩ := h
  have ho := hok i c L h1 h2
  obtain ⟨row', e, h4⟩ := AnswerBy.unmap (P := fun x => ∃ n, HasName nk g x.node n) (f := nameMatch nk g) (finds_at hf hs hm) (finds_exists hf hs hm)
    (fun sp x => finds_named hf hs hm) (means_named hf hs hm) (arity_named hf hs hm) ho.required ho.arity h3
  exact ⟨row', e, c, L, h1, h2, (textAnswer_iff _ _ _ _ _ _ _ _ _).2 h4⟩

/-- Different answers have different names. -/
theorem answer_inj {i j : Nat} {row row' : Row NodeID64 (AnnoKey Str)} (h : AnswersAlt (corpusOf s g).db s.env m (relsOf s g) d alts Ls i row)
    (h' : AnswersAlt (corpusOf s g).db s.env m (relsOf s g) d alts Ls j row') (he : row.map (nameMatch nk g) = row'.map (nameMatch nk g)) : row = row' := by
  have hall : ∀ {i : Nat} {row : Row NodeID64 (AnnoKey Str)}, AnswersAlt (corpusOf s g).db s.env m (relsOf s g) d alts Ls i row →
      ∀ x ∈ row, x = d ∨ ∃ n, HasName nk g x.node n := by
    rintro i row ⟨c, L, h1, h2, h3⟩ x hx
    obtain ⟨n, hn⟩ := List.mem_iff_getElem?.1 hx
    obtain ⟨hlt, _⟩ := List.getElem?_eq_some_iff.1 hn
    obtain ⟨k, o, h4, h5, _⟩ := (h3.length n).1 hlt
    obtain ⟨hlt', _⟩ := List.getElem?_eq_some_iff.1 h5
    have ho : L[n]? = some (L[n]'(by omega)) := List.getElem?_eq_getElem (by omega)
    cases hopt : (L[n]'(by omega)).optional with
    | true => exact Or.inl (h3.default n _ x ho hopt hn)
    | false =>
      obtain ⟨y, h6, h7⟩ := h3.found n _ ho hopt
      rw [hn, Option.some.injEq] at h6
      subst h6
      exact Or.inr (finds_named hf hs hm h7)
  have hinj : ∀ x y : SMatch NodeID64 (AnnoKey Str), (x = d ∨ ∃ n, HasName nk g x.node n) → (y = d ∨ ∃ n, HasName nk g y.node n) →
      nameMatch nk g x = nameMatch nk g y → x = y := by
    intro x y hx hy e
    have e1 : g.annos.getValue x.node nk = g.annos.getValue y.node nk := congrArg Prod.fst e
    have e2 : x.key = y.key := congrArg Prod.snd e
    have fin : (∃ n, HasName nk g x.node n) → x = y := by
      rintro ⟨n, hn⟩
      have hn' : HasName nk g y.node n := e1.symm.trans hn
      have := (names_unique hf).inj _ _ _ hn hn'
      cases x; cases y; simp_all
    rcases hx with rfl | hx
    · rcases hy with rfl | ⟨n, hn⟩
      · rfl
      · exact fin ⟨n, e1.trans hn⟩
    · exact fin hx
  have h1 := hall h
  have h2 := hall h'
  clear h h' hall
  induction row generalizing row' with
  | nil => cases row' with
    | nil => rfl
    | cons => cases he
  | cons x row ih => cases row' with
    | nil => cases he
    | cons y row' =>
      simp only [List.map_cons, List.cons.injEq] at he
      rw [hinj x y (h1 x (by simp)) (h2 y (by simp)) he.1, ih he.2 (fun x hx => h1 x (by simp [hx])) fun x hx => h2 x (by simp [hx])]

end

section
variable {s : Setting C} {g : Graph Str Str C} {nk tk : AnnoKey Str} {l : List (Event Str Str C)} {cap : Nat} {Er : Type}
variable (h : History s.sc nk tk s.tok cap l g) (hne : nk ≠ tk) (hs : SettingOk s g) (hd : DataOk s g)
variable {text : Str} {e : Parse.Q} {ps : List Parse.PTok} {tree : Parse.Disj} (hp : Parse.parseQuery text = .ok e)
  (htree : Parse.Spec.Tree text ps tree) (hflat : Parse.Spec.Flat tree) (doc : NsSpec Str Str) {qs : List QConj}
  (hqs : Aql.parse false doc e = .ok qs) (d : SMatch NodeID64 (AnnoKey Str)) {Ls : List (List (Aql.Occ (NsSpec Str Str)))}
  (hLs : Searches (Aql.alternatives e) Ls) (hnames : ∀ L ∈ Ls, Aql.NamesDistinct L)
  (hok : ∀ (i : Nat) c L, (Aql.alternatives e)[i]? = some c → Ls[i]? = some L → Names.AltOk s g (before Ls i) c L)
  (hdist : ∀ (i : Nat) L row, Ls[i]? = some L → Names.AnswersAlt s.sc s.env s.cname s.part s.segc (· ∈ g.comps.keys) (GSpec.empty.run nk tk l)
    (nameMatch nk g d) (Aql.alternatives e) Ls i row → DistinctBy L row)
include h hne hs hd hp htree hflat hqs hLs hnames hok hdist

/-- **C113**: after a history of updates, the results of a query are, by the names of the nodes, exactly the answers in the graph that the
events of the history describe, each once. -/
theorem C113_results_partial {out : List (Except (Fail Er) (Row NodeID64 (AnnoKey Str)))}
    (hout : Answers (E := Er) (corpusOf s g).env (corpusOf s g).g (corpusOf s g).db (corpusOf s g).th (corpusOf s g).order doc d text out) :
    ∃ rows : List (Row NodeID64 (AnnoKey Str)), out = rows.map .ok ∧ (rows.map (List.map (nameMatch nk g))).Nodup ∧
      ∀ row, row ∈ rows.map (List.map (nameMatch nk g)) ↔ ∃ i, Names.AnswersAlt s.sc s.env s.cname s.part s.segc (· ∈ g.comps.keys)
        (GSpec.empty.run nk tk l) (nameMatch nk g d) (Aql.alternatives e) Ls i row := by
  have hf := history_facts hs.schema hne h
  obtain ⟨ops, ho⟩ := hf.made.annos
  have hm : ∀ n k, g.annos.getValue n k = AnnoStore.spec ops n k := fun n k => by rw [ho, (AnnoStore.run_refines ops).2]
  obtain ⟨rows, h1, h2, h3⟩ := C101_exact_partial (E := Er) (corpus_ok hf hs hd ho) (db_ok hf hs) hp htree hflat doc hqs d hLs
    (fun i c L hc hL => ⟨hnames L (List.mem_of_getElem? hL), altOk hf hs hd (hok i c L hc hL)⟩)
    (by
      intro i L row hL ha i1 j1 x a b hij g1 g2 g3 g4 g5 g6
      exact hdist i L _ hL (answer_fwd hf hs hm hok ha) i1 j1 (nameMatch nk g x) a b hij g1 g2 g3 g4 (by simp [g5]) (by simp [g6])) hout
  refine ⟨rows, h1, ?_, fun row => ?_⟩
  · refine (List.nodup_map_iff_inj_on h2).2 fun a ha b hb he => ?_
    obtain ⟨i, hi⟩ := (h3 a).1 ha
    obtain ⟨j, hj⟩ := (h3 b).1 hb
    exact answer_inj hf hs hm hok hi hj he
  · constructor
    · intro hr
      obtain ⟨r, hr', rfl⟩ := List.mem_map.1 hr
      obtain ⟨i, hi⟩ := (h3 r).1 hr'
      exact ⟨i, answer_fwd hf hs hm hok hi⟩
    · rintro ⟨i, hi⟩
      obtain ⟨r, rfl, hr⟩ := answer_bwd hf hs hm hok hi
      exact List.mem_map.2 ⟨r, (h3 r).2 ⟨i, hr⟩, rfl⟩

/-- **C113**: `count` gives the number of these answers. -/
theorem C113_count_partial {n : Nat} (hc : CountAll Er doc d text [corpusOf s g] n) {N : List (List NMatch)} (hN : N.Nodup)
    (hmem : ∀ row, row ∈ N ↔ ∃ i, Names.AnswersAlt s.sc s.env s.cname s.part s.segc (· ∈ g.comps.keys) (GSpec.empty.run nk tk l) (nameMatch nk g d)
      (Aql.alternatives e) Ls i row) : n = N.length := by
  obtain ⟨outs, ho, rfl⟩ := hc
  cases ho with
  | cons h1 h2 =>
    cases h2
    obtain ⟨qs', alts, ⟨e', p1, p2⟩, p3, p4⟩ := h1
    obtain ⟨rows, rfl, hr1, hr2⟩ := C113_results_partial h hne hs hd hp htree hflat doc hqs d hLs hnames hok hdist (Answers.mk p1 p2 p3 p4)
    rw [countQuery_eq]
    have : (rows.map (List.map (nameMatch nk g))).length = N.length :=
      ((List.perm_ext_iff_of_nodup hr1 hN).2 fun row => (hr2 row).trans (hmem row).symm).length_eq
    simpa [item] using this

end

/-- The identifier of a row of names. -/
def Names.idOf (Ls : List (List (Aql.Occ (NsSpec Str Str)))) (row : List NMatch) : Str :=
  matchId ((visible Ls row).map fun x => ⟨x.2.ns, x.2.name, x.1.getD []⟩)

theorem visible_map {M M' : Type} (f : M → M') (Ls : List (List (Aql.Occ (NsSpec Str Str)))) (row : List M) :
    visible Ls (row.map f) = (visible Ls row).map f := by
  unfold visible
  rw [List.zipIdx_map, List.filter_map, List.map_map, List.map_map]
  rfl

theorem idOf_names {s : Setting C} {g : Graph Str Str C} (Ls : List (List (Aql.Occ (NsSpec Str Str)))) (row : Row NodeID64 (AnnoKey Str)) :
    idOf (corpusOf s g) Ls row = Names.idOf Ls (row.map (nameMatch nameKey g)) := by
  unfold idOf Names.idOf
  rw [visible_map, List.map_map]
  rfl

section
variable {s : Setting C} {g : Graph Str Str C} {tk : AnnoKey Str} {l : List (Event Str Str C)} {cap : Nat} {Er : Type}

/-- **C113**: `find` gives a part of the list of the identifiers of these answers. The conditions for the order of the results are those of C108. -/
theorem C113_find_partial (h : History s.sc nameKey tk s.tok cap l g) (hne : nameKey ≠ tk) (hs : SettingOk s g) (hd : DataOk s g)
    {doc : NsSpec Str Str} {text : Str} {e : Parse.Q} {qs : List QConj} {Ls : List (List (Aql.Occ (NsSpec Str Str)))} {d : SMatch NodeID64 (AnnoKey Str)}
    (ht : QueryText doc text e qs Ls)
    (hok : ∀ (i : Nat) c L, (Aql.alternatives e)[i]? = some c → Ls[i]? = some L → Names.AltOk s g (before Ls i) c L)
    (hfit : (known (history_facts hs.schema hne h) hs hd).Fits d (Aql.alternatives e) Ls)
    {order : ResultOrder} (hor : order = .normal ∨ order = .inverted) {offset : Nat} {limit : Option Nat} {page : List Str}
    (hfind : FindAll Er doc d text [corpusOf s g] order offset limit page) :
    ∃ rows : List (List NMatch), rows.Nodup ∧ (∀ row, row ∈ rows ↔ ∃ i, Names.AnswersAlt s.sc s.env s.cname s.part s.segc (· ∈ g.comps.keys)
        (GSpec.empty.run nameKey tk l) (nameMatch nameKey g d) (Aql.alternatives e) Ls i row) ∧
      page = slice (rows.map (Names.idOf Ls)) offset limit := by
  have hf := history_facts hs.schema hne h
  have hm : ∀ n k, g.annos.getValue n k = AnnoStore.spec hf.made.annos.choose n k := fun n k => by
    rw [← (AnnoStore.run_refines _).2, ← hf.made.annos.choose_spec]
  obtain ⟨rows, hl⟩ := C108_listing_partial ht hfit
  obtain ⟨ks', h1, _, h3⟩ := C108_find_partial (E := Er) ht [known hf hs hd] (by simpa using hfit) (fun _ => rows) (by simpa using hl) hor hfind
  rw [List.perm_singleton] at h1
  subst h1
  have hpage : page = slice (((if order = .inverted then rows.reverse else rows).map (List.map (nameMatch nameKey g))).map (Names.idOf Ls)) offset limit := by
    rw [h3, List.map_map]
    simp only [List.flatMap_cons, List.flatMap_nil, List.append_nil, pageOf]
    congr 1
    exact List.map_congr_left fun row _ => idOf_names Ls row
  have hmem : ∀ row, row ∈ (if order = .inverted then rows.reverse else rows) ↔ row ∈ rows := by
    intro row; split <;> simp
  have hnd : (if order = .inverted then rows.reverse else rows).Nodup := by
    have := hl.nodup hfit
    split
    · exact List.nodup_reverse.2 this
    · exact this
  refine ⟨_, ?_, fun row => ?_, hpage⟩
  · refine (List.nodup_map_iff_inj_on hnd).2 fun a ha b hb he => ?_
    obtain ⟨i, hi⟩ := (hl.mem a).1 ((hmem a).1 ha)
    obtain ⟨j, hj⟩ := (hl.mem b).1 ((hmem b).1 hb)
    exact answer_inj hf hs hm hok hi hj he
  · constructor
    · intro hr
      obtain ⟨r, hr', rfl⟩ := List.mem_map.1 hr
      obtain ⟨i, hi⟩ := (hl.mem r).1 ((hmem r).1 hr')
      exact ⟨i, answer_fwd hf hs hm hok hi⟩
    · rintro ⟨i, hi⟩
      obtain ⟨r, rfl, hr⟩ := answer_bwd hf hs hm hok hi
      exact List.mem_map.2 ⟨r, (hmem r).2 ((hl.mem r).2 ⟨i, hr⟩), rfl⟩

end
end Answer
