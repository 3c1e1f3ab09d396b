import Verif.Queried.Rows
import Verif.Updated.Props

/-!
# The index and the order of tokens after a relANNIS import

An import applies all its events as one update to an empty graph. The conditions under which this update builds the right index (C50) and under
which the token order consists of chains (C113) follow from conditions on the tables.
-/

set_option linter.unusedSimpArgs false
set_option linter.unusedSectionVars false

namespace Rel

open Spec Graph Graph.Index

/-! ### Reading the graph after one update of an empty graph by names -/

/-- Edges outside of the index, names and labels are those of the abstract graph. -/
structure Reads (sc : Schema (CKey Str)) (nk : AnnoKey Str) (g : Graph Str Str (CKey Str)) (m : GSpec Str Str (CKey Str)) : Prop where
  uniq : ∀ i j x, g.annos.getValue i nk = some x → g.annos.getValue j nk = some x → i = j
  edge : ∀ c, c ≠ sc.left → c ≠ sc.right → c ≠ sc.inh → ∀ i j, E g c i j ↔
    ∃ x y, g.annos.getValue i nk = some x ∧ g.annos.getValue j nk = some y ∧ m.edge c x y = true
  node : ∀ c x y, m.edge c x y = true → (∃ i, g.annos.getValue i nk = some x) ∧ ∃ j, g.annos.getValue j nk = some y
  label : ∀ i x, g.annos.getValue i nk = some x → ∀ k, g.annos.getValue i k = m.label x k
  named : ∀ i k v, g.annos.getValue i k = some v → ∃ x, g.annos.getValue i nk = some x

theorem reads_of_update {sc : Schema (CKey Str)} {nk tk tok : AnnoKey Str} (hne : nk ≠ tk) {cap : Nat} {ch : Choices} {u : List (Nat × Ev)}
    {g : Graph Str Str (CKey Str)} (h : update sc nk tk tok cap ch Graph.new u = some g) (hn : ∀ e ∈ evs u, e.NoRename nk)
    (hd : ∀ e ∈ evs u, Adds e) : Reads sc nk g (GSpec.empty.run nk tk (evs u)) := by
  unfold update at h
  simp only [Option.bind_eq_bind, Option.bind_eq_some_iff, Prod.exists] at h
  obtain ⟨g1, x, h1, h2⟩ := h
  obtain ⟨p1, _⟩ := loop_plain cap _ u _ [] _ g1 x h1
  have hr := loop_refines (nk := nk) (tk := tk) hne cap (fun _ _ => true) (Graph.new : Graph Str Str (CKey Str)).comps.keys u Graph.new [] GSpec.empty
    Inv.empty Rep.empty (cacheOk_nil _) hn
  rw [p1] at hr
  obtain ⟨hI, k, hk1, hk2, _⟩ := hr
  have hk := hk2 rfl
  subst hk
  have hlen : u.length = (evs u).length := by unfold evs; rw [List.length_map]
  simp only [hlen, List.take_length] at hk1
  have hd1 := loop_dangling (nk := nk) (tk := tk) hne cap (fun _ _ => true) (Graph.new : Graph Str Str (CKey Str)).comps.keys u Graph.new [] GSpec.empty
    Inv.empty Rep.empty (cacheOk_nil _) hn
    (fun c a b hab => by simp [Graph.new, comp, OMap.get, Adj.new, Adj.out, Graph.comp] at hab)
    (fun l1 l2 n hl => (hd (.deleteNode n) (by rw [hl]; simp)).elim)
  rw [p1] at hd1
  have hF : Same sc g1 g := by
    unfold apply at h2
    exact reindex_same h2
  refine ⟨?_, ?_, ?_, ?_, ?_⟩
  · intro i j x hi hj
    rw [hF.annos] at hi hj
    exact hI.uniq i j x hi hj
  · intro c c1 c2 c3 i j
    unfold E
    rw [hF.comp c c1 c2 c3, hF.annos]
    constructor
    · intro hij
      obtain ⟨⟨x, hx⟩, y, hy⟩ := hd1 c i j hij
      exact ⟨x, y, hx, hy, (hk1.edge i j x y hx hy c).1 hij⟩
    · rintro ⟨x, y, hx, hy, he⟩
      exact (hk1.edge i j x y hx hy c).2 he
  · intro c x y he
    rw [hF.annos]
    obtain ⟨n1, n2⟩ := hk1.edgeN c x y he
    exact ⟨(hk1.node x).1 n1, (hk1.node y).1 n2⟩
  · intro i x hx k
    rw [hF.annos] at hx ⊢
    exact hk1.label i x hx k
  · intro i k v hv
    rw [hF.annos] at hv ⊢
    exact hI.named i k v hv

section
variable {nk : AnnoKey Str} {g : Graph Str Str (CKey Str)} {m : GSpec Str Str (CKey Str)} (hR : Reads schema nk g m)
include hR

theorem not_index {c : CKey Str} (h : schema.kind c ≠ .leftToken) (h' : schema.kind c ≠ .rightToken) (h'' : c ≠ schema.inh) :
    c ≠ schema.left ∧ c ≠ schema.right ∧ c ≠ schema.inh := by
  refine ⟨?_, ?_, h''⟩ <;> rintro rfl
  · exact h rfl
  · exact h' rfl

theorem Reads.direct (i j : NodeID64) : Index.Direct schema g i j ↔
    ∃ x y, g.annos.getValue i nk = some x ∧ g.annos.getValue j nk = some y ∧ Answer.Names.Direct schema m x y := by
  constructor
  · rintro ⟨c, h1, h2, h3⟩
    obtain ⟨c1, c2, c3⟩ := not_index hR (by rw [h1]; decide) (by rw [h1]; decide) h2
    obtain ⟨x, y, hx, hy, he⟩ := (hR.edge c c1 c2 c3 i j).1 h3
    exact ⟨x, y, hx, hy, c, h1, h2, he⟩
  · rintro ⟨x, y, hx, hy, c, h1, h2, he⟩
    obtain ⟨c1, c2, c3⟩ := not_index hR (by rw [h1]; decide) (by rw [h1]; decide) h2
    exact ⟨c, h1, h2, (hR.edge c c1 c2 c3 i j).2 ⟨x, y, hx, hy, he⟩⟩

theorem Reads.below (i j : NodeID64) : Index.Below schema g i j ↔
    ∃ x y, g.annos.getValue i nk = some x ∧ g.annos.getValue j nk = some y ∧ Answer.Names.Below schema m x y := by
  constructor
  · rintro (h | ⟨c, h1, h2⟩)
    · obtain ⟨x, y, hx, hy, he⟩ := (hR.direct i j).1 h
      exact ⟨x, y, hx, hy, Or.inl he⟩
    · obtain ⟨c1, c2, c3⟩ := not_index hR (by rw [h1]; decide) (by rw [h1]; decide) (by rintro rfl; cases h1)
      obtain ⟨x, y, hx, hy, he⟩ := (hR.edge c c1 c2 c3 i j).1 h2
      exact ⟨x, y, hx, hy, Or.inr ⟨c, h1, he⟩⟩
  · rintro ⟨x, y, hx, hy, he | ⟨c, h1, he⟩⟩
    · exact Or.inl ((hR.direct i j).2 ⟨x, y, hx, hy, he⟩)
    · obtain ⟨c1, c2, c3⟩ := not_index hR (by rw [h1]; decide) (by rw [h1]; decide) (by rintro rfl; cases h1)
      exact Or.inr ⟨c, h1, (hR.edge c c1 c2 c3 i j).2 ⟨x, y, hx, hy, he⟩⟩

theorem Reads.next (i j : NodeID64) : E g schema.order i j ↔
    ∃ x y, g.annos.getValue i nk = some x ∧ g.annos.getValue j nk = some y ∧ Answer.Names.Next schema m x y :=
  hR.edge schema.order (by decide) (by decide) (by decide) i j

theorem Reads.direct_ends {x y : Str} (h : Answer.Names.Direct schema m x y) :
    (∃ i, g.annos.getValue i nk = some x) ∧ ∃ j, g.annos.getValue j nk = some y := by
  obtain ⟨c, _, _, he⟩ := h
  exact hR.node c x y he

/-- Walks by identifiers are walks by names. -/
theorem Reads.walk {F : NodeID64 → NodeID64 → Prop} {F' : Str → Str → Prop}
    (hF : ∀ i j, F i j ↔ ∃ x y, g.annos.getValue i nk = some x ∧ g.annos.getValue j nk = some y ∧ F' x y) {i j : NodeID64} (h : Relation.TransGen F i j) :
    ∃ x y, g.annos.getValue i nk = some x ∧ g.annos.getValue j nk = some y ∧ Relation.TransGen F' x y := by
  induction h with
  | single h =>
    obtain ⟨x, y, hx, hy, h⟩ := (hF _ _).1 h
    exact ⟨x, y, hx, hy, .single h⟩
  | tail _ h ih =>
    obtain ⟨x, y, hx, hy, ih⟩ := ih
    obtain ⟨y', z, hy', hz, h⟩ := (hF _ _).1 h
    rw [hy] at hy'
    cases hy'
    exact ⟨x, z, hx, hz, ih.tail h⟩

theorem Reads.walk_back {F : NodeID64 → NodeID64 → Prop} {F' : Str → Str → Prop}
    (hF : ∀ i j, F i j ↔ ∃ x y, g.annos.getValue i nk = some x ∧ g.annos.getValue j nk = some y ∧ F' x y)
    (hn : ∀ x y, F' x y → ∃ j, g.annos.getValue j nk = some y) {x y : Str} (h : Relation.TransGen F' x y) :
    ∀ {i j : NodeID64}, g.annos.getValue i nk = some x → g.annos.getValue j nk = some y → Relation.TransGen F i j := by
  induction h with
  | single h => exact fun hx hy => .single ((hF _ _).2 ⟨_, _, hx, hy, h⟩)
  | tail _ h ih =>
    intro i j hx hz
    rename_i h0
    obtain ⟨b, hb⟩ : ∃ b, g.annos.getValue b nk = some _ := by
      obtain ⟨w, _, h0⟩ := Relation.TransGen.tail'_iff.1 h0
      exact hn _ _ h0
    exact (ih hx hb).tail ((hF _ _).2 ⟨_, _, hb, hz, h⟩)

theorem Reads.tok {tok : AnnoKey Str} {i : NodeID64} {x : Str} (hx : g.annos.getValue i nk = some x) :
    Index.IsTok schema tok g i ↔ Answer.Names.Tok schema tok m x := by
  unfold Index.IsTok Answer.Names.Tok
  rw [hR.label i x hx]
  refine and_congr_right fun _ => not_congr ⟨?_, ?_⟩
  · rintro ⟨b, hb⟩
    obtain ⟨x', y, hx', _, h⟩ := (hR.direct i b).1 hb
    rw [hx] at hx'
    cases hx'
    exact ⟨y, h⟩
  · rintro ⟨y, hy⟩
    obtain ⟨_, j, hj⟩ := hR.direct_ends hy
    exact ⟨j, (hR.direct i j).2 ⟨x, y, hx, hj, hy⟩⟩

theorem Reads.covered {tok : AnnoKey Str} {i j : NodeID64} (h : Index.Covered schema tok g i j) :
    ∃ x y, g.annos.getValue i nk = some x ∧ g.annos.getValue j nk = some y ∧ Answer.Names.Covered schema tok m x y := by
  obtain ⟨h1, h2, h3⟩ := h
  obtain ⟨x, y, hx, hy, hw⟩ := hR.walk hR.below h3
  refine ⟨x, y, hx, hy, (hR.tok hy).1 h1, ?_, hw⟩
  rintro rfl
  exact h2 (hR.uniq j i _ hy hx)

end

/-! ### The conditions -/

section
variable {ext : Option Str → List (Str × Str)} {t : Tables} {tree : CTree} {name : Str} {l : List Ev} {g : Graph Str Str (CKey Str)}

theorem import_reads (h : importEvents ext t = some (name, l)) (hi : Importable tree t) {cap : Nat} {ch : Choices} {u : List (Nat × Ev)}
    (hu : evs u = l) (hup : update schema nameKey typeKey tokKey cap ch Graph.new u = some g) :
    (∀ e ∈ l, e.NoRename nameKey) ∧ (∀ e ∈ l, Adds e) ∧ Reads schema nameKey g (graphOf l) := by
  obtain ⟨p, hp, rfl, rfl⟩ := importEvents_parts h
  have h1 : ∀ e ∈ p.events, e.NoRename nameKey := by
    intro e he
    have ha := hp.adds e he
    cases e with
    | addNodeLabel n k v =>
      intro hk
      exact reserved_keys hp hi.reserved (Or.inl hk) he
    | deleteNodeLabel n k => exact ha.elim
    | _ => trivial
  refine ⟨h1, hp.adds, ?_⟩
  have := reads_of_update (by decide) hup (by rw [hu]; exact h1) (by rw [hu]; exact hp.adds)
  rw [hu] at this
  exact this

variable (h : importEvents ext t = some (name, l)) (hi : Importable tree t) (hR : Reads schema nameKey g (graphOf l))
include h hi hR

theorem import_seg : SegOk schema tokKey g := by
  obtain ⟨T, hT, _⟩ := C81_order h hi.corpus.unique
  intro i b _ hb
  obtain ⟨x, y, hx, hy, hb⟩ := (hR.below i b).1 hb
  obtain ⟨a, ha, b', hb', rfl, rfl, hc⟩ := (below_iff h hi hT x y).1 hb
  have : ∃ c ∈ t.nodes, Covers t a c := by
    rcases hc with hc | hc
    · exact ⟨b', hb', hc⟩
    · exact hi.text.source a ha b' hb' hc
  obtain ⟨c, hc, hcov⟩ := this
  have hd := (direct_iff h hi hT (nm T a) (nm T c)).2 ⟨a, ha, c, hc, rfl, rfl, hcov⟩
  obtain ⟨_, j, hj⟩ := hR.direct_ends hd
  exact ⟨j, (hR.direct i j).2 ⟨_, _, hx, hj, hd⟩⟩

theorem import_order : OrderOk schema tokKey g := by
  obtain ⟨T, hT, _⟩ := C81_order h hi.corpus.unique
  constructor
  · intro a hab
    obtain ⟨x, y, hx, hy, hw⟩ := hR.walk hR.next hab
    rw [hx] at hy
    cases hy
    obtain ⟨a, ha, b, hb, e1, e2, _, i, j, hai, hbj, hij⟩ := before_rows h hi hT hw
    have := nm_inj h hi hT ha hb (e1.symm.trans e2)
    subst this
    rw [hai] at hbj
    cases hbj
    omega
  · intro n a b hna hnb
    obtain ⟨x, y, hx, hy, hc⟩ := hR.covered hna
    obtain ⟨x', z, hx', hz, hc'⟩ := hR.covered hnb
    rw [hx] at hx'
    cases hx'
    obtain ⟨r, hr, p, hp, e1, rfl, hs, hpi⟩ := tok_row h hi hT hc
    obtain ⟨r', hr', q, hq, e1', rfl, hs', hqi⟩ := tok_row h hi hT hc'
    have := nm_inj h hi hT hr hr' (e1.symm.trans e1')
    subst this
    obtain ⟨i, hpi⟩ := Option.isSome_iff_exists.1 hpi
    obtain ⟨j, hqi⟩ := Option.isSome_iff_exists.1 hqi
    have hnext : ∀ x y, Answer.Names.Next schema (graphOf l) x y → ∃ j, g.annos.getValue j nameKey = some y := fun x y h => (hR.node _ x y h).2
    rcases lt_trichotomy i j with hij | rfl | hij
    · exact Or.inr (Or.inl (hR.walk_back hR.next hnext
        (rows_before h hi hT _ hp hq ⟨hs.1.symm.trans hs'.1, hs.2.symm.trans hs'.2⟩ hpi hqi hij (le_refl _)) hy hz))
    · left
      have := hi.corpus.unique.positions p hp q hq ([], i) (hs.1.symm.trans hs'.1) (hs.2.symm.trans hs'.2) ((position_tok hi hp).2 hpi) ((position_tok hi hq).2 hqi)
      subst this
      exact hR.uniq a b _ hy hz
    · exact Or.inr (Or.inr (hR.walk_back hR.next hnext
        (rows_before h hi hT _ hq hp ⟨hs'.1.symm.trans hs.1, hs'.2.symm.trans hs.2⟩ hqi hpi hij (le_refl _)) hz hy))

theorem import_chains : Linear.Chains (E g schema.order) := by
  obtain ⟨T, hT, _⟩ := C81_order h hi.corpus.unique
  have row : ∀ i j, E g schema.order i j → ∃ a ∈ t.nodes, ∃ b ∈ t.nodes, g.annos.getValue i nameKey = some (nm T a) ∧
      g.annos.getValue j nameKey = some (nm T b) ∧ Follows t.nodes [] a b := by
    intro i j hij
    obtain ⟨x, y, hx, hy, hn⟩ := (hR.next i j).1 hij
    obtain ⟨a, ha, b, hb, rfl, rfl, hf⟩ := (next_iff h hi hT x y).1 hn
    exact ⟨a, ha, b, hb, hx, hy, hf⟩
  refine ⟨?_, ?_, (import_order h hi hR).acyclic⟩
  · intro x y z hxy hxz
    obtain ⟨a, ha, b, hb, e1, e2, c1, c2, i, j, p1, p2, p3, p4⟩ := row x y hxy
    obtain ⟨a', ha', c, hc, e1', e2', d1, d2, i', k, q1, q2, q3, q4⟩ := row x z hxz
    rw [e1] at e1'
    have := nm_inj h hi hT ha ha' (Option.some.inj e1')
    subst this
    rw [p1] at q1
    cases q1
    have hjk : j = k := by
      have h1 := p4 c hc k d1.symm d2.symm q2
      have h2 := q4 b hb j c1.symm c2.symm p2
      omega
    subst hjk
    have := hi.corpus.unique.positions b hb c hc _ (c1.symm.trans d1) (c2.symm.trans d2) p2 q2
    subst this
    exact hR.uniq y z _ e2 e2'
  · intro x y z hxz hyz
    obtain ⟨a, ha, c, hc, e1, e2, c1, c2, i, k, p1, p2, p3, p4⟩ := row x z hxz
    obtain ⟨b, hb, c', hc', e1', e2', d1, d2, j, k', q1, q2, q3, q4⟩ := row y z hyz
    rw [e2] at e2'
    have := nm_inj h hi hT hc hc' (Option.some.inj e2')
    subst this
    rw [p2] at q2
    cases q2
    have hij : i = j := by
      have h1 := p4 b hb j (d1.trans c1.symm) (d2.trans c2.symm) q1
      have h2 := q4 a ha i (c1.trans d1.symm) (c2.trans d2.symm) p1
      omega
    subst hij
    have := hi.corpus.unique.positions a ha b hb _ (c1.trans d1.symm) (c2.trans d2.symm) p1 q1
    subst this
    exact hR.uniq x y _ e1 e1'

theorem import_order_tokens {i j : NodeID64} (hij : E g schema.order i j) : IsTok schema tokKey g i ∧ IsTok schema tokKey g j := by
  obtain ⟨T, hT, _⟩ := C81_order h hi.corpus.unique
  obtain ⟨x, y, hx, hy, hn⟩ := (hR.next i j).1 hij
  obtain ⟨a, ha, b, hb, rfl, rfl, _, _, _, _, h1, h2, _⟩ := (next_iff h hi hT x y).1 hn
  exact ⟨(hR.tok hx).2 (row_tok h hi hT ha (by rw [(position_tok hi ha).1 h1]; rfl)),
    (hR.tok hy).2 (row_tok h hi hT hb (by rw [(position_tok hi hb).1 h2]; rfl))⟩

end

/-- **C114**: an import is a history with one update that meets the conditions of C50 (and so all conditions of C113). -/
theorem C114_history_partial {ext : Option Str → List (Str × Str)} {t : Tables} {tree : CTree} {name : Str} {l : List Ev} {g : Graph Str Str (CKey Str)}
    (h : importEvents ext t = some (name, l)) (hi : Importable tree t) {cap : Nat} {ch : Choices} (hch : ∀ l, (ch.iter l).Perm l) {u : List (Nat × Ev)}
    (hu : evs u = l) (hup : update schema nameKey typeKey tokKey cap ch Graph.new u = some g) :
    History schema nameKey typeKey tokKey cap l g ∧ Linear.Chains (E g schema.order) ∧
      ∀ i j, E g schema.order i j → IsTok schema tokKey g i ∧ IsTok schema tokKey g j := by
  obtain ⟨hn, ha, hR⟩ := import_reads h hi hu hup
  have hE : ∀ c a b, ¬ E (Graph.new : Graph Str Str (CKey Str)) c a b := by
    intro c a b h
    simp [E, Graph.new, Graph.comp, OMap.get, Adj.new, Adj.out] at h
  have hV : ∀ i k, (Graph.new : Graph Str Str (CKey Str)).annos.getValue i k = none := by
    intro i k
    simp [Graph.new, AnnoStore.new, AnnoStore.getValue, SymbolTable.new, SymbolTable.getSymbol]
  refine ⟨?_, import_chains h hi hR, fun i j => import_order_tokens h hi hR⟩
  have := History.step (sc := schema) (nk := nameKey) (tk := typeKey) (tok := tokKey) (cap := cap) u ch hch .new hup
    { names := by rw [hu]; exact hn
      labels := by
        rw [hu]
        exact fun e he => ⟨hn e he, fun n v _ i => by rw [hV]; simp, fun n _ i => by rw [hV]; simp⟩
      types := by
        rw [hu]
        rintro e he n rfl
        exact ha _ he
      readd := by
        rw [hu]
        intro l1 n l2 hl
        exact (ha (.deleteNode n) (by rw [hl]; simp)).elim
      named := fun c a b _ hab => absurd hab (hE c a b)
      seg := import_seg h hi hR
      order := import_order h hi hR
      stable := fun a b h1 => by
        have := h1.1
        rw [hV] at this
        cases this }
    (by
      rw [hu]
      intro l1 l2 n hl
      exact (ha (.deleteNode n) (by rw [hl]; simp)).elim)
  rw [hu] at this
  exact this

end Rel
