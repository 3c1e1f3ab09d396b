import Verif.Exported.Doc
import Verif.Queried.History

/-!
# The graph after an export and an import

The conditions of C50 and C113 hold for the imported graph because they hold, by the names of the nodes, for the exported one.
-/

set_option linter.unusedSimpArgs false
set_option linter.unusedSectionVars false

namespace Exported

open Graph Graph.Index
open Rel (Reads schema nameKey typeKey tokKey Adds schema_ok)
open Answer hiding nameKey

variable {nk tk tok : AnnoKey Str} {g : Graph Str Str (CKey Str)} {m m' : GSpec Str Str (CKey Str)}

/-! ### Conditions by names -/

/-- The conditions on the data of C50 and C113, by the names of the nodes. -/
structure TextOk (tok : AnnoKey Str) (m : GSpec Str Str (CKey Str)) : Prop where
  seg : ∀ x y, (m.label x tok).isSome → Names.Below schema m x y → ∃ z, Names.Direct schema m x z
  acyclic : ∀ x, ¬ Relation.TransGen (Names.Next schema m) x x
  total : ∀ n x y, Names.Covered schema tok m n x → Names.Covered schema tok m n y →
    x = y ∨ Relation.TransGen (Names.Next schema m) x y ∨ Relation.TransGen (Names.Next schema m) y x
  fn : ∀ x y z, Names.Next schema m x y → Names.Next schema m x z → y = z
  inj : ∀ x y z, Names.Next schema m x z → Names.Next schema m y z → x = y
  tokens : ∀ x y, Names.Next schema m x y → Names.Tok schema tok m x ∧ Names.Tok schema tok m y

section
variable (hR : Reads schema nk g m)
include hR

theorem next_node : ∀ x y, Names.Next schema m x y → ∃ j, g.annos.getValue j nk = some y := fun x y h => (hR.node _ x y h).2

theorem next_node' : ∀ x y, Names.Next schema m x y → ∃ j, g.annos.getValue j nk = some x := fun x y h => (hR.node _ x y h).1

theorem below_node (x y : Str) (h : Names.Below schema m x y) : (∃ i, g.annos.getValue i nk = some x) ∧ ∃ j, g.annos.getValue j nk = some y := by
  rcases h with h | ⟨c, _, h⟩
  · exact hR.direct_ends h
  · exact hR.node c x y h

theorem walk_ends {F : Str → Str → Prop} (hn : ∀ x y, F x y → (∃ i, g.annos.getValue i nk = some x) ∧ ∃ j, g.annos.getValue j nk = some y) {x y : Str}
    (h : Relation.TransGen F x y) : (∃ i, g.annos.getValue i nk = some x) ∧ ∃ j, g.annos.getValue j nk = some y := by
  induction h with
  | single h => exact hn _ _ h
  | tail _ h ih => exact ⟨ih.1, (hn _ _ h).2⟩

theorem covered_back {x y : Str} {i j : NodeID64} (hx : g.annos.getValue i nk = some x) (hy : g.annos.getValue j nk = some y)
    (h : Names.Covered schema tok m x y) : Index.Covered schema tok g i j := by
  obtain ⟨h1, h2, h3⟩ := h
  refine ⟨(hR.tok hy).2 h1, ?_, hR.walk_back hR.below (fun x y h => (below_node hR x y h).2) h3 hx hy⟩
  rintro rfl
  rw [hx] at hy
  exact h2 (Option.some.inj hy).symm

/-- The conditions on a graph are the conditions by names. -/
theorem textOk_of (h1 : SegOk schema tok g) (h2 : OrderOk schema tok g) (h3 : Linear.Chains (E g schema.order))
    (h4 : ∀ i j, E g schema.order i j → IsTok schema tok g i ∧ IsTok schema tok g j) : TextOk tok m := by
  refine ⟨?_, ?_, ?_, ?_, ?_, ?_⟩
  · intro x y hx hb
    obtain ⟨⟨i, hi⟩, j, hj⟩ := below_node hR x y hb
    obtain ⟨k, hk⟩ := h1 i j (by rw [hR.label i x hi]; exact hx) ((hR.below i j).2 ⟨x, y, hi, hj, hb⟩)
    obtain ⟨x', z, hx', _, hz⟩ := (hR.direct i k).1 hk
    rw [hi] at hx'
    cases hx'
    exact ⟨z, hz⟩
  · intro x hx
    obtain ⟨⟨i, hi⟩, _⟩ := walk_ends hR (fun x y h => hR.node _ x y h) hx
    exact h2.acyclic i (hR.walk_back hR.next (next_node hR) hx hi hi)
  · intro n x y hx hy
    obtain ⟨⟨k, hk⟩, i, hi⟩ := walk_ends hR (below_node hR) hx.2.2
    obtain ⟨_, j, hj⟩ := walk_ends hR (below_node hR) hy.2.2
    rcases h2.total k i j (covered_back hR hk hi hx) (covered_back hR hk hj hy) with rfl | h | h
    · rw [hi] at hj
      exact Or.inl (Option.some.inj hj)
    · obtain ⟨x', y', hx', hy', h⟩ := hR.walk hR.next h
      rw [hi] at hx'
      rw [hj] at hy'
      cases hx'
      cases hy'
      exact Or.inr (Or.inl h)
    · obtain ⟨y', x', hy', hx', h⟩ := hR.walk hR.next h
      rw [hi] at hx'
      rw [hj] at hy'
      cases hx'
      cases hy'
      exact Or.inr (Or.inr h)
  · intro x y z hy hz
    obtain ⟨⟨i, hi⟩, j, hj⟩ := hR.node _ x y hy
    obtain ⟨_, k, hk⟩ := hR.node _ x z hz
    have := h3.fn i j k ((hR.next i j).2 ⟨x, y, hi, hj, hy⟩) ((hR.next i k).2 ⟨x, z, hi, hk, hz⟩)
    subst this
    rw [hj] at hk
    exact Option.some.inj hk
  · intro x y z hx hy
    obtain ⟨⟨i, hi⟩, k, hk⟩ := hR.node _ x z hx
    obtain ⟨⟨j, hj⟩, _⟩ := hR.node _ y z hy
    have := h3.inj i j k ((hR.next i k).2 ⟨x, z, hi, hk, hx⟩) ((hR.next j k).2 ⟨y, z, hj, hk, hy⟩)
    subst this
    rw [hi] at hj
    exact Option.some.inj hj
  · intro x y hxy
    obtain ⟨⟨i, hi⟩, j, hj⟩ := hR.node _ x y hxy
    obtain ⟨t1, t2⟩ := h4 i j ((hR.next i j).2 ⟨x, y, hi, hj, hxy⟩)
    exact ⟨(hR.tok hi).1 t1, (hR.tok hj).1 t2⟩

variable (hT : TextOk tok m)
include hT

theorem textOk_seg : SegOk schema tok g := by
  intro i j hi hb
  obtain ⟨x, y, hx, hy, hb⟩ := (hR.below i j).1 hb
  obtain ⟨z, hz⟩ := hT.seg x y (by rw [← hR.label i x hx]; exact hi) hb
  obtain ⟨_, k, hk⟩ := hR.direct_ends hz
  exact ⟨k, (hR.direct i k).2 ⟨x, z, hx, hk, hz⟩⟩

theorem textOk_order : OrderOk schema tok g := by
  refine ⟨?_, ?_⟩
  · intro i hi
    obtain ⟨x, y, hx, hy, h⟩ := hR.walk hR.next hi
    rw [hx] at hy
    cases hy
    exact hT.acyclic x h
  · intro k i j hi hj
    obtain ⟨n, x, hn, hx, hcx⟩ := hR.covered hi
    obtain ⟨n', y, hn', hy, hcy⟩ := hR.covered hj
    rw [hn] at hn'
    cases hn'
    rcases hT.total n x y hcx hcy with rfl | h | h
    · exact Or.inl (hR.uniq i j x hx hy)
    · exact Or.inr (Or.inl (hR.walk_back hR.next (next_node hR) h hx hy))
    · exact Or.inr (Or.inr (hR.walk_back hR.next (next_node hR) h hy hx))

theorem textOk_chains : Linear.Chains (E g schema.order) := by
  refine ⟨?_, ?_, (textOk_order hR hT).acyclic⟩
  · intro i j k hj hk
    obtain ⟨x, y, hx, hy, h1⟩ := (hR.next i j).1 hj
    obtain ⟨x', z, hx', hz, h2⟩ := (hR.next i k).1 hk
    rw [hx] at hx'
    cases hx'
    have := hT.fn x y z h1 h2
    subst this
    exact hR.uniq j k y hy hz
  · intro i j k hi hj
    obtain ⟨x, z, hx, hz, h1⟩ := (hR.next i k).1 hi
    obtain ⟨y, z', hy, hz', h2⟩ := (hR.next j k).1 hj
    rw [hz] at hz'
    cases hz'
    have := hT.inj x y z h1 h2
    subst this
    exact hR.uniq i j x hx hy

theorem textOk_tokens (i j : NodeID64) (h : E g schema.order i j) : IsTok schema tok g i ∧ IsTok schema tok g j := by
  obtain ⟨x, y, hx, hy, h⟩ := (hR.next i j).1 h
  obtain ⟨t1, t2⟩ := hT.tokens x y h
  exact ⟨(hR.tok hx).2 t1, (hR.tok hy).2 t2⟩

end

/-- An update of an empty graph that only adds elements, and describes a graph with ordered texts, meets the conditions of C50 and C113. -/
theorem history_of_text (hne : nk ≠ tk) {cap : Nat} {ch : Choices} (hch : ∀ l, (ch.iter l).Perm l) {u : List (Nat × Event Str Str (CKey Str))}
    (hup : update schema nk tk tok cap ch Graph.new u = some g) (hn : ∀ e ∈ evs u, e.NoRename nk) (ha : ∀ e ∈ evs u, Adds e)
    (hT : TextOk tok (GSpec.empty.run nk tk (evs u))) :
    History schema nk tk tok cap (evs u) g ∧ Linear.Chains (E g schema.order) ∧
      ∀ i j, E g schema.order i j → IsTok schema tok g i ∧ IsTok schema tok g j := by
  have hR := Rel.reads_of_update hne hup hn ha
  have hE : ∀ c a b, ¬ E (Graph.new : Graph Str Str (CKey Str)) c a b := by
    intro c a b h
    simp [E, Graph.new, Graph.comp, OMap.get, Adj.new, Adj.out] at h
  have hV : ∀ i k, (Graph.new : Graph Str Str (CKey Str)).annos.getValue i k = none := by
    intro i k
    simp [Graph.new, AnnoStore.new, AnnoStore.getValue, SymbolTable.new, SymbolTable.getSymbol]
  refine ⟨?_, textOk_chains hR hT, textOk_tokens hR hT⟩
  have := History.step (sc := schema) (nk := nk) (tk := tk) (tok := tok) (cap := cap) u ch hch .new hup
    { names := hn
      labels := fun e he => ⟨hn e he, fun n v _ i => by rw [hV]; simp, fun n _ i => by rw [hV]; simp⟩
      types := by
        rintro e he n rfl
        exact ha _ he
      readd := fun l1 n l2 hl => (ha (.deleteNode n) (by rw [hl]; simp)).elim
      named := fun c a b _ hab => absurd hab (hE c a b)
      seg := textOk_seg hR hT
      order := textOk_order hR hT
      stable := fun a b h1 => by
        have := h1.1
        rw [hV] at this
        cases this }
    (fun l1 l2 n hl => (ha (.deleteNode n) (by rw [hl]; simp)).elim)
  simpa using this

/-! ### Graphs that agree outside of the index -/

theorem agree_noIndex (m : GSpec Str Str (CKey Str)) : Agree schema (Spec.noIndex schema m) m := by
  refine ⟨rfl, rfl, ?_, ?_⟩
  · intro c h1 h2 h3
    funext x y
    simp only [Spec.noIndex]
    rw [if_neg (by simp [h1, h2, h3])]
  · intro c h1 h2 h3
    funext x y k
    simp only [Spec.noIndex]
    rw [if_neg (by simp [h1, h2, h3])]

theorem kind_not_index {c : CKey Str} (h : schema.kind c ≠ .leftToken) (h' : schema.kind c ≠ .rightToken) (h'' : c ≠ schema.inh) :
    c ≠ schema.left ∧ c ≠ schema.right ∧ c ≠ schema.inh := by
  refine ⟨?_, ?_, h''⟩ <;> rintro rfl
  · exact h rfl
  · exact h' rfl

section
variable (ha : Agree schema m m')
include ha

theorem direct_congr : Names.Direct schema m = Names.Direct schema m' := by
  funext x y
  refine propext (exists_congr fun c => and_congr_right fun h1 => and_congr_right fun h2 => ?_)
  obtain ⟨c1, c2, c3⟩ := kind_not_index (by rw [h1]; decide) (by rw [h1]; decide) h2
  rw [ha.edge c c1 c2 c3]

theorem below_congr : Names.Below schema m = Names.Below schema m' := by
  funext x y
  unfold Names.Below
  rw [direct_congr ha]
  refine propext (or_congr_right (exists_congr fun c => and_congr_right fun h1 => ?_))
  obtain ⟨c1, c2, c3⟩ := kind_not_index (c := c) (by rw [h1]; decide) (by rw [h1]; decide) (by rintro rfl; cases h1)
  rw [ha.edge c c1 c2 c3]

theorem next_congr : Names.Next schema m = Names.Next schema m' := by
  funext x y
  unfold Names.Next
  rw [ha.edge schema.order (by decide) (by decide) (by decide)]

theorem tok_congr : Names.Tok schema tok m = Names.Tok schema tok m' := by
  funext x
  unfold Names.Tok
  rw [direct_congr ha, ha.label]

theorem covered_congr : Names.Covered schema tok m = Names.Covered schema tok m' := by
  funext x y
  unfold Names.Covered
  rw [tok_congr ha, below_congr ha]

theorem textOk_congr (h : TextOk tok m) : TextOk tok m' := by
  refine ⟨?_, ?_, ?_, ?_, ?_, ?_⟩
  · rw [← below_congr ha, ← direct_congr ha, ← ha.label]; exact h.seg
  · rw [← next_congr ha]; exact h.acyclic
  · rw [← next_congr ha, ← covered_congr ha]; exact h.total
  · rw [← next_congr ha]; exact h.fn
  · rw [← next_congr ha]; exact h.inj
  · rw [← next_congr ha, ← tok_congr ha]; exact h.tokens

end

/-- A graph after a history of updates reads like the graph that the events describe. -/
theorem reads_of_facts {l : List (Event Str Str (CKey Str))} (hf : Facts schema nk tk tok l g) :
    Reads schema nk g (Spec.noIndex schema (GSpec.empty.run nk tk l)) := by
  obtain ⟨m, hr, ha⟩ := hf.rep
  have hn := agree_noIndex (GSpec.empty.run nk tk l : GSpec Str Str (CKey Str))
  refine ⟨hf.inv.uniq, ?_, ?_, ?_, hf.inv.named⟩
  · intro c c1 c2 c3 i j
    rw [hn.edge c c1 c2 c3, ← ha.edge c c1 c2 c3]
    constructor
    · intro hij
      obtain ⟨⟨x, hx⟩, y, hy⟩ := hf.ends c i j hij
      exact ⟨x, y, hx, hy, (hr.edge i j x y hx hy c).1 hij⟩
    · rintro ⟨x, y, hx, hy, he⟩
      exact (hr.edge i j x y hx hy c).2 he
  · intro c x y he
    have hc : c ≠ schema.left ∧ c ≠ schema.right ∧ c ≠ schema.inh := by
      by_contra h
      simp only [Spec.noIndex] at he
      rw [if_pos (by by_contra h'; exact h (by simpa [not_or] using h'))] at he
      cases he
    rw [hn.edge c hc.1 hc.2.1 hc.2.2, ← ha.edge c hc.1 hc.2.1 hc.2.2] at he
    obtain ⟨n1, n2⟩ := hr.edgeN c x y he
    exact ⟨(hr.node x).1 n1, (hr.node y).1 n2⟩
  · intro i x hx k
    rw [hn.label, ← ha.label]
    exact hr.label i x hx k

/-! ### The components of the imported graph -/

theorem keys_insert {K W : Type} [LinearOrder K] {o : OMap K W} {k c : K} {w : W} (h : c ∈ (o.insert k w).keys) : c = k ∨ c ∈ o.keys := by
  rw [OMap.mem_keys_iff] at h ⊢
  obtain ⟨x, hx⟩ := h
  rw [OMap.get_insert] at hx
  split at hx
  · exact Or.inl ‹_›
  · exact Or.inr ⟨x, hx⟩

/-- The event names this component. -/
def Uses (c : CKey Str) : Event Str Str (CKey Str) → Prop
  | .addEdge _ _ c' => c' = some c
  | .addEdgeLabel _ _ c' _ _ => c' = some c
  | _ => False

theorem keys_edit {a b : Option NodeID64} {c' : Option (CKey Str)} {f : Adj NodeID64 Str Str → NodeID64 → NodeID64 → Adj NodeID64 Str Str} {c : CKey Str}
    (h : c ∈ (g.editComp a b c' f).comps.keys) : c' = some c ∨ c ∈ g.comps.keys := by
  unfold editComp at h
  split at h
  · rcases keys_insert h with h | h
    · exact Or.inl (by rw [h])
    · exact Or.inr h
  · exact Or.inr h

theorem loop_keys {cap : Nat} {all : List (CKey Str)} {c : CKey Str} : ∀ (u : List (Nat × Event Str Str (CKey Str))) (g : Graph Str Str (CKey Str)) (cache : IdCache Str),
    (∀ e ∈ evs u, Adds e) → c ∈ (applyLoop nk tk cap (fun _ _ => true) all g cache u).1.comps.keys →
      c ∈ g.comps.keys ∨ ∃ e ∈ evs u, Uses c e := by
  intro u
  induction u with
  | nil => exact fun g cache _ h => Or.inl h
  | cons p u ih =>
    obtain ⟨id, e⟩ := p
    intro g cache hA h
    have hAe : Adds e := hA e (by simp [evs])
    have hA' : ∀ e ∈ evs u, Adds e := fun e he => hA e (by unfold evs at he ⊢; simp only [List.map_cons]; exact List.mem_cons_of_mem _ he)
    simp only [applyLoop, if_true] at h
    cases hs : applyEvent nk tk cap all g cache e with
    | none => rw [hs] at h; exact Or.inl h
    | some q =>
      obtain ⟨g', cache'⟩ := q
      rw [hs] at h
      simp only at h
      rcases ih _ cache' hA' h with h | ⟨e', he', h⟩
      · have hk : Uses c e ∨ c ∈ g.comps.keys := by
          have h : c ∈ g'.comps.keys := h
          cases e with
          | addNode n ty =>
            simp only [applyEvent] at hs
            split at hs
            · simp only [Option.some.injEq, Prod.mk.injEq] at hs
              rw [← hs.1] at h; exact Or.inr h
            · rw [Option.map_eq_some_iff] at hs
              obtain ⟨i, _, hs⟩ := hs
              simp only [Prod.mk.injEq] at hs
              rw [← hs.1] at h; exact Or.inr h
          | deleteNode n => exact hAe.elim
          | addNodeLabel n key val =>
            simp only [applyEvent] at hs
            split at hs
            · simp only [Option.some.injEq, Prod.mk.injEq] at hs
              rw [← hs.1] at h; exact Or.inr h
            · simp only [Option.some.injEq, Prod.mk.injEq] at hs
              rw [← hs.1] at h; exact Or.inr h
          | deleteNodeLabel n key => exact hAe.elim
          | addEdge s t c' =>
            simp only [applyEvent, Option.some.injEq, Prod.mk.injEq] at hs
            rw [← hs.1] at h
            exact keys_edit h
          | deleteEdge s t c' => exact hAe.elim
          | addEdgeLabel s t c' key val =>
            simp only [applyEvent, Option.some.injEq, Prod.mk.injEq] at hs
            rw [← hs.1] at h
            exact keys_edit h
          | deleteEdgeLabel s t c' key => exact hAe.elim
        rcases hk with hk | hk
        · exact Or.inr ⟨e, by simp [evs], hk⟩
        · exact Or.inl hk
      · exact Or.inr ⟨e', by unfold evs at he' ⊢; simp only [List.map_cons]; exact List.mem_cons_of_mem _ he', h⟩

section
variable {sc : Schema (CKey Str)} {g1 g' : Graph Str Str (CKey Str)} {x : IndexState Str (CKey Str)}

theorem set_keys {c c' : CKey Str} {a : Adj NodeID64 Str Str} (h : c ∈ (g.setComp c' a).comps.keys) (hc : c ≠ c') : c ∈ g.comps.keys := by
  rcases keys_insert h with h | h
  · exact absurd h hc
  · exact h

theorem clear_keys {c c' : CKey Str} (h : c ∈ (clearComp x g c').comps.keys) (hc : c ≠ c') : c ∈ g.comps.keys := by
  unfold clearComp at h
  split at h <;> exact set_keys h hc

theorem align_keys {ch : Choices} {order : Adj NodeID64 Str Str} {n : NodeID64} {right : Bool} {toks : List NodeID64}
    (ha : align sc tok ch g order n right toks = some g') {c : CKey Str} (hl : c ≠ sc.left) (hr : c ≠ sc.right) (h : c ∈ g'.comps.keys) : c ∈ g.comps.keys := by
  have hc : c ≠ (if right then sc.right else sc.left) := by cases right <;> simp [hl, hr]
  unfold align at ha
  simp only at ha
  generalize (if right then sc.right else sc.left) = c' at ha hc
  split at ha
  · injection ha with ha; rw [← ha] at h; exact h
  · split at ha
    · injection ha with ha; rw [← ha] at h; exact h
    · simp only [Option.bind_eq_bind, Option.bind_eq_some_iff] at ha
      obtain ⟨l, _, ha⟩ := ha
      split at ha
      · injection ha with ha
        rw [← ha] at h
        exact set_keys h hc
      · injection ha with ha; rw [← ha] at h; exact h

theorem reindex_keys {ch : Choices} (h : reindex sc tok ch x g1 = some g') {c : CKey Str} (h1 : c ≠ sc.left) (h2 : c ≠ sc.right) (h3 : c ≠ sc.inh)
    (hc : c ∈ g'.comps.keys) : c ∈ g1.comps.keys := by
  unfold reindex at h
  simp only at h
  have h0 : c ∈ (clear sc x g1).comps.keys → c ∈ g1.comps.keys := by
    intro h
    unfold clear at h
    exact clear_keys (clear_keys (clear_keys h (by assumption)) (by assumption)) (by assumption)
  generalize covComps sc (clear sc x g1) ++ compsOf sc (clear sc x g1) .dominance = text at h
  generalize covComps sc (clear sc x g1) = cov at h
  generalize (clear sc x g1).comp sc.order = order at h
  generalize clear sc x g1 = g at h h0
  generalize x.invalid.keys = ks at h
  induction ks generalizing g with
  | nil =>
    simp only [List.foldlM_nil, Option.pure_def, Option.some.injEq] at h
    subst h; exact h0 hc
  | cons n ks ih =>
    rw [List.foldlM_cons] at h
    obtain ⟨g2, q1, q2⟩ := Option.bind_eq_some_iff.1 h
    refine ih g2 ?_ q2
    intro hk
    unfold reindexNode at q1
    simp only [Option.bind_eq_bind, Option.bind_eq_some_iff] at q1
    obtain ⟨g3, q3, q4⟩ := q1
    exact h0 (set_keys (align_keys q3 h1 h2 (align_keys q4 h1 h2 hk)) h3)

end

theorem update_keys {cap : Nat} {ch : Choices} {u : List (Nat × Event Str Str (CKey Str))} (hup : update schema nk tk tok cap ch Graph.new u = some g)
    (ha : ∀ e ∈ evs u, Adds e) {c : CKey Str} (h1 : c ≠ schema.left) (h2 : c ≠ schema.right) (h3 : c ≠ schema.inh) (hc : c ∈ g.comps.keys) :
    ∃ e ∈ evs u, Uses c e := by
  unfold update at hup
  simp only [Option.bind_eq_bind, Option.bind_eq_some_iff, Prod.exists] at hup
  obtain ⟨g1, x, q1, q2⟩ := hup
  obtain ⟨p1, _⟩ := loop_plain cap _ u _ [] _ g1 x q1
  have hk : c ∈ g1.comps.keys := by
    unfold apply at q2
    exact reindex_keys q2 h1 h2 h3 hc
  have := loop_keys (nk := nk) (tk := tk) (cap := cap) (all := (Graph.new : Graph Str Str (CKey Str)).comps.keys) (c := c) u Graph.new [] ha (by rw [p1]; exact hk)
  rcases this with h | h
  · simp [Graph.new, OMap.keys] at h
  · exact h

end Exported
