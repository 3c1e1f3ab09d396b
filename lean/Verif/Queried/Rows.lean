import Verif.Rel.Labels
import Verif.Updated.Names

/-!
# The text structure of an imported relANNIS corpus, by the rows of its tables

The relations that the text operators of queries use (C113), expressed with the rows of the tables (C79 to C83).
-/

set_option linter.unusedSimpArgs false
set_option linter.unusedSectionVars false

namespace Rel

open Spec Graph

/-- The type of a component as the index distinguishes it (`AnnotationComponentType::from`, aql/model.rs 85-98). -/
def kindOf : AnnotationComponentType → CKind
  | .coverage => .coverage
  | .dominance => .dominance
  | .pointing => .pointing
  | .ordering => .ordering
  | .leftToken => .leftToken
  | .rightToken => .rightToken
  | .partOf => .partOf

/-- What the index needs to know about components, for the components of the code (aql/model.rs 39-98 and 190-215). -/
def schema : Schema (CKey Str) where
  kind c := kindOf (AnnotationComponentType.ofU16 (ofLex c).1)
  unnamed c := (ofLex (ofLex c).2).1 = []
  order := comp .ordering "annis".toList []
  left := comp .leftToken "annis".toList []
  right := comp .rightToken "annis".toList []
  inh := comp .coverage "annis".toList "inherited-coverage".toList

theorem schema_ok : Index.SchemaOk schema := ⟨rfl, rfl, rfl, rfl⟩

theorem kind_comp (ty : AnnotationComponentType) (layer g : Str) : schema.kind (comp ty layer g) = kindOf ty := by
  cases ty <;> rfl

theorem of_kind_coverage {c : CKey Str} (h : schema.kind c = .coverage) : ∃ layer g, c = comp .coverage layer g := by
  refine ⟨(ofLex (ofLex c).2).2, (ofLex (ofLex c).2).1, ?_⟩
  have h0 : (ofLex c).1 = 0 := by
    have h' : kindOf (AnnotationComponentType.ofU16 (ofLex c).1) = .coverage := h
    revert h'
    generalize (ofLex c).1 = n
    unfold AnnotationComponentType.ofU16
    split <;> simp [kindOf]
  show c = toLex (0, toLex ((ofLex (ofLex c).2).1, (ofLex (ofLex c).2).2))
  rw [← h0]
  rfl

theorem of_kind_dominance {c : CKey Str} (h : schema.kind c = .dominance) : ∃ layer g, c = comp .dominance layer g := by
  refine ⟨(ofLex (ofLex c).2).2, (ofLex (ofLex c).2).1, ?_⟩
  have h0 : (ofLex c).1 = 2 := by
    have h' : kindOf (AnnotationComponentType.ofU16 (ofLex c).1) = .dominance := h
    revert h'
    generalize (ofLex c).1 = n
    unfold AnnotationComponentType.ofU16
    split <;> simp [kindOf]
  show c = toLex (2, toLex ((ofLex (ofLex c).2).1, (ofLex (ofLex c).2).2))
  rw [← h0]
  rfl

namespace Spec

/-- A row covers another one, by the rank table or by their positions. -/
def Covers (t : Tables) (a b : NodeRow) : Prop := a ≠ b ∧ (Explicit t a b ∨ Spans t a b)

/-- A row dominates another one by the rank table. -/
def Dominates (t : Tables) (a b : NodeRow) : Prop := a ≠ b ∧ ∃ layer g, InRank t (comp .dominance layer g) a b

/-- Conditions on the hierarchy over the tokens: no row of the component table names a component that the index manages, edges stay in one text, tokens
do not cover anything, a node that dominates something also covers something, and what is covered or dominated is a token or covers something. -/
structure TextRows (t : Tables) : Prop where
  comps : ∀ k ∈ t.comps, ¬ (k.type = .ordering ∧ k.layer = "annis".toList ∧ k.name = []) ∧
    ¬ (k.type = .coverage ∧ k.layer = "annis".toList ∧ k.name = "inherited-coverage".toList)
  same : ∀ a ∈ t.nodes, ∀ b ∈ t.nodes, Covers t a b ∨ Dominates t a b → SameText a b
  tokens : ∀ a ∈ t.nodes, ∀ b ∈ t.nodes, Covers t a b → tokenIndex a = none
  source : ∀ a ∈ t.nodes, ∀ b ∈ t.nodes, Dominates t a b → ∃ c ∈ t.nodes, Covers t a c
  target : ∀ a ∈ t.nodes, ∀ b ∈ t.nodes, Covers t a b ∨ Dominates t a b → (tokenIndex b).isSome ∨ ∃ c ∈ t.nodes, Covers t b c

/-- Everything that is required of the tables. -/
structure Importable (tree : CTree) (t : Tables) : Prop where
  corpus : Spec.Corpus tree t
  hash : NoHash tree
  siblings : tree.SiblingsDiffer
  names : NamesDiffer t
  tokens : Tokens t
  parentless : OneParentless t
  reserved : NoReserved t
  text : TextRows t

end Spec

section
variable {ext : Option Str → List (Str × Str)} {t : Tables} {tree : CTree} {name : Str} {evs : List Ev} {T : CTable}

/-- The nodes of different rows have different names. -/
theorem nm_inj (h : importEvents ext t = some (name, evs)) (hi : Importable tree t) (hT : parseCorpus t.corpora = some T) {a b : NodeRow}
    (ha : a ∈ t.nodes) (hb : b ∈ t.nodes) (e : nm T a = nm T b) : a = b := by
  obtain ⟨p, hp, rfl, rfl⟩ := importEvents_parts h
  rw [hp.T] at hT
  cases hT
  obtain ⟨na, h1⟩ := hi.corpus.nodes a ha
  obtain ⟨nb, h2⟩ := hi.corpus.nodes b hb
  rw [nm_below hp hi.corpus.rows h1, nm_below hp hi.corpus.rows h2] at e
  obtain ⟨e1, e2⟩ := C79_names_partial hi.corpus.rows hi.hash hi.siblings h1 h2 e
  exact hi.names a ha b hb e1 e2

/-- The order of tokens. -/
theorem next_iff (h : importEvents ext t = some (name, evs)) (hi : Importable tree t) (hT : parseCorpus t.corpora = some T) (x y : Str) :
    Answer.Names.Next schema (graphOf evs) x y ↔ ∃ a ∈ t.nodes, ∃ b ∈ t.nodes, x = nm T a ∧ y = nm T b ∧ Follows t.nodes [] a b := by
  obtain ⟨T', hT', hc⟩ := C81_order h hi.corpus.unique
  rw [hT] at hT'
  cases hT'
  unfold Answer.Names.Next
  show (graphOf evs).edge (comp .ordering "annis".toList []) x y = true ↔ _
  rw [hc]
  constructor
  · rintro ⟨_, a, ha, b, hb, hx, hy, ⟨_, hf⟩ | ⟨r, _, q, _, k, hk, _, _, _, _, e⟩⟩
    · exact ⟨a, ha, b, hb, hx, hy, hf⟩
    · have e' := compOf_inj (congrArg some e : compOf .ordering "annis".toList [] = compOf k.type k.layer k.name)
      exact absurd ⟨e'.1.symm, e'.2.1.symm, e'.2.2.symm⟩ (hi.text.comps k hk).1
  · rintro ⟨a, ha, b, hb, hx, hy, hf⟩
    refine ⟨?_, a, ha, b, hb, hx, hy, Or.inl ⟨by simp, hf⟩⟩
    rintro rfl
    have := nm_inj h hi hT ha hb (hx.symm.trans hy)
    subst this
    obtain ⟨_, _, i, j, h1, h2, h3, _⟩ := hf
    rw [h1] at h2
    cases h2
    omega

/-- Direct coverage. -/
theorem direct_iff (h : importEvents ext t = some (name, evs)) (hi : Importable tree t) (hT : parseCorpus t.corpora = some T) (x y : Str) :
    Answer.Names.Direct schema (graphOf evs) x y ↔ ∃ a ∈ t.nodes, ∃ b ∈ t.nodes, x = nm T a ∧ y = nm T b ∧ Covers t a b := by
  obtain ⟨T', hT', hc⟩ := C83_coverage_partial h hi.corpus.unique hi.tokens hi.parentless
  obtain ⟨T'', hT'', hcc⟩ := C83_covered_partial h hi.corpus.unique hi.tokens hi.parentless
  rw [hT] at hT' hT''
  cases hT'
  cases hT''
  constructor
  · rintro ⟨c, h1, _, h3⟩
    obtain ⟨layer, g, rfl⟩ := of_kind_coverage h1
    obtain ⟨hne, a, ha, b, hb, hx, hy, hr⟩ := (hc layer g x y).1 h3
    refine ⟨a, ha, b, hb, hx, hy, ?_, ?_⟩
    · rintro rfl; exact hne (hx.trans hy.symm)
    · rcases hr with hr | hr
      · exact Or.inl ⟨layer, g, hr⟩
      · exact Or.inr hr.1
  · rintro ⟨a, ha, b, hb, hx, hy, hne, hr⟩
    obtain ⟨layer, g, he⟩ := (hcc x y).2 ⟨fun e => hne (nm_inj h hi hT ha hb (hx.symm.trans (e.trans hy))), a, ha, b, hb, hx, hy, hr⟩
    refine ⟨comp .coverage layer g, kind_comp _ _ _, ?_, he⟩
    intro e
    obtain ⟨_, a, ha, b, hb, hx, hy, ⟨r, _, q, _, k, hk, _, _, _, _, e'⟩ | ⟨_, _, e'⟩⟩ := (hc layer g x y).1 he
    · have e2 := compOf_inj (congrArg some (e.symm.trans e') : compOf .coverage "annis".toList "inherited-coverage".toList = compOf k.type k.layer k.name)
      exact (hi.text.comps k hk).2 ⟨e2.1.symm, e2.2.1.symm, e2.2.2.symm⟩
    · have e : comp .coverage layer g = comp .coverage "annis".toList "inherited-coverage".toList := e
      rw [e] at e'
      unfold AutoComp at e'
      split at e'
      · exact absurd (compOf_inj (congrArg some e' : compOf .coverage "annis".toList "inherited-coverage".toList =
          compOf .coverage "annis".toList "autogenerated-coverage".toList)).2.2 (by decide)
      · rcases e' with ⟨k, ⟨r, _, _, _, hk, _, h5⟩, e'⟩ | ⟨_, e'⟩
        · have e2 := compOf_inj (congrArg some e' : compOf .coverage "annis".toList "inherited-coverage".toList = compOf .coverage k.layer k.name)
          exact (hi.text.comps k hk).2 ⟨h5, e2.2.1.symm, e2.2.2.symm⟩
        · exact absurd (compOf_inj (congrArg some e' : compOf .coverage "annis".toList "inherited-coverage".toList = compOf .coverage [] [])).2.2 (by decide)

/-- Coverage and dominance. -/
theorem below_iff (h : importEvents ext t = some (name, evs)) (hi : Importable tree t) (hT : parseCorpus t.corpora = some T) (x y : Str) :
    Answer.Names.Below schema (graphOf evs) x y ↔ ∃ a ∈ t.nodes, ∃ b ∈ t.nodes, x = nm T a ∧ y = nm T b ∧ (Covers t a b ∨ Dominates t a b) := by
  obtain ⟨T', hT', hc⟩ := C82_edges_partial h hi.corpus.unique
  rw [hT] at hT'
  cases hT'
  constructor
  · rintro (hd | ⟨c, h1, h2⟩)
    · obtain ⟨a, ha, b, hb, hx, hy, hr⟩ := (direct_iff h hi hT x y).1 hd
      exact ⟨a, ha, b, hb, hx, hy, Or.inl hr⟩
    · obtain ⟨layer, g, rfl⟩ := of_kind_dominance h1
      obtain ⟨hne, a, ha, b, hb, hx, hy, hr⟩ := (hc .dominance layer g x y (by decide) (by decide) (by decide)).1 h2
      refine ⟨a, ha, b, hb, hx, hy, Or.inr ⟨?_, layer, g, hr⟩⟩
      rintro rfl; exact hne (hx.trans hy.symm)
  · rintro ⟨a, ha, b, hb, hx, hy, hr | ⟨hne, layer, g, hr⟩⟩
    · exact Or.inl ((direct_iff h hi hT x y).2 ⟨a, ha, b, hb, hx, hy, hr⟩)
    · refine Or.inr ⟨comp .dominance layer g, kind_comp _ _ _, (hc .dominance layer g x y (by decide) (by decide) (by decide)).2
        ⟨fun e => hne (nm_inj h hi hT ha hb (hx.symm.trans (e.trans hy))), a, ha, b, hb, hx, hy, hr⟩⟩

theorem position_tok (hi : Importable tree t) {a : NodeRow} (ha : a ∈ t.nodes) {i : Nat} : position a = some ([], i) ↔ tokenIndex a = some i := by
  unfold position tokenIndex
  cases hk : a.kind with
  | tok j s => simp
  | seg g j s =>
    simp only [Option.some.injEq, Prod.mk.injEq, reduceCtorEq, iff_false, not_and]
    rintro rfl
    exact absurd hk (hi.tokens.segs a ha j s)
  | plain => simp

/-- The order of tokens by rows: the index grows. -/
theorem before_rows (h : importEvents ext t = some (name, evs)) (hi : Importable tree t) (hT : parseCorpus t.corpora = some T) {x y : Str}
    (hb : Relation.TransGen (Answer.Names.Next schema (graphOf evs)) x y) :
    ∃ a ∈ t.nodes, ∃ b ∈ t.nodes, x = nm T a ∧ y = nm T b ∧ SameText a b ∧ ∃ i j, tokenIndex a = some i ∧ tokenIndex b = some j ∧ i < j := by
  have one : ∀ x y, Answer.Names.Next schema (graphOf evs) x y → ∃ a ∈ t.nodes, ∃ b ∈ t.nodes, x = nm T a ∧ y = nm T b ∧ SameText a b ∧
      ∃ i j, tokenIndex a = some i ∧ tokenIndex b = some j ∧ i < j := by
    intro x y hxy
    obtain ⟨a, ha, b, hb, hx, hy, h1, h2, i, j, h3, h4, h5, _⟩ := (next_iff h hi hT x y).1 hxy
    exact ⟨a, ha, b, hb, hx, hy, ⟨h1, h2⟩, i, j, (position_tok hi ha).1 h3, (position_tok hi hb).1 h4, h5⟩
  induction hb with
  | single h1 => exact one _ _ h1
  | tail _ h1 ih =>
    obtain ⟨a, ha, b, hb, hx, hy, hs, i, j, hi', hj, hij⟩ := ih
    obtain ⟨b', hb', c, hc, hy', hz, hs', j', k, hj', hk, hjk⟩ := one _ _ h1
    have := nm_inj h hi hT hb hb' (hy.symm.trans hy')
    subst this
    rw [hj] at hj'
    cases hj'
    exact ⟨a, ha, c, hc, hx, hz, ⟨hs.1.trans hs'.1, hs.2.trans hs'.2⟩, i, k, hi', hk, by omega⟩

/-- Tokens of the same text are in the order of their indexes. -/
theorem rows_before (h : importEvents ext t = some (name, evs)) (hi : Importable tree t) (hT : parseCorpus t.corpora = some T) :
    ∀ (n : Nat) {a b : NodeRow} {i j : Nat}, a ∈ t.nodes → b ∈ t.nodes → SameText a b → tokenIndex a = some i → tokenIndex b = some j → i < j → j - i ≤ n →
      Relation.TransGen (Answer.Names.Next schema (graphOf evs)) (nm T a) (nm T b)
  | 0, a, b, i, j, _, _, _, _, _, h1, h2 => by omega
  | n + 1, a, b, i, j, ha, hb, hs, hai, hbj, h1, h2 => by
    by_cases hc : ∃ c ∈ t.nodes, ∃ k, c.corpus = a.corpus ∧ c.text = a.text ∧ position c = some ([], k) ∧ i < k ∧ k < j
    · obtain ⟨c, hc, k, e1, e2, e3, e4, e5⟩ := hc
      have e3 := (position_tok hi hc).1 e3
      exact (rows_before h hi hT n ha hc ⟨e1.symm, e2.symm⟩ hai e3 e4 (by omega)).trans
        (rows_before h hi hT n hc hb ⟨e1.trans hs.1, e2.trans hs.2⟩ e3 hbj e5 (by omega))
    · refine .single ((next_iff h hi hT _ _).2 ⟨a, ha, b, hb, rfl, rfl, hs.1, hs.2, i, j, (position_tok hi ha).2 hai, (position_tok hi hb).2 hbj, h1, ?_⟩)
      intro c hc' k e1 e2 e3 e4
      exact hc ⟨c, hc', k, e1, e2, e3, e4⟩

/-- What a node covers or dominates is in the same text, and it is a token or covers something. -/
theorem below_rows (h : importEvents ext t = some (name, evs)) (hi : Importable tree t) (hT : parseCorpus t.corpora = some T) {x y : Str}
    (hb : Relation.TransGen (Answer.Names.Below schema (graphOf evs)) x y) :
    ∃ a ∈ t.nodes, ∃ b ∈ t.nodes, x = nm T a ∧ y = nm T b ∧ SameText a b ∧ ((tokenIndex b).isSome ∨ ∃ c ∈ t.nodes, Covers t b c) := by
  have one : ∀ x y, Answer.Names.Below schema (graphOf evs) x y →
      ∃ a ∈ t.nodes, ∃ b ∈ t.nodes, x = nm T a ∧ y = nm T b ∧ SameText a b ∧ ((tokenIndex b).isSome ∨ ∃ c ∈ t.nodes, Covers t b c) := by
    intro x y hxy
    obtain ⟨a, ha, b, hb, hx, hy, hr⟩ := (below_iff h hi hT x y).1 hxy
    exact ⟨a, ha, b, hb, hx, hy, hi.text.same a ha b hb hr, hi.text.target a ha b hb hr⟩
  induction hb with
  | single h1 => exact one _ _ h1
  | tail _ h1 ih =>
    obtain ⟨a, ha, b, hb, hx, hy, hs, _⟩ := ih
    obtain ⟨b', hb', c, hc, hy', hz, hs', ht⟩ := one _ _ h1
    have := nm_inj h hi hT hb hb' (hy.symm.trans hy')
    subst this
    exact ⟨a, ha, c, hc, hx, hz, ⟨hs.1.trans hs'.1, hs.2.trans hs'.2⟩, ht⟩

/-- A node that is covered by another one and is a token by its label and its edges is one by its row. -/
theorem tok_row (h : importEvents ext t = some (name, evs)) (hi : Importable tree t) (hT : parseCorpus t.corpora = some T) {x y : Str}
    (hc : Answer.Names.Covered schema tokKey (graphOf evs) x y) :
    ∃ a ∈ t.nodes, ∃ b ∈ t.nodes, x = nm T a ∧ y = nm T b ∧ SameText a b ∧ (tokenIndex b).isSome := by
  obtain ⟨⟨_, h1⟩, _, h2⟩ := hc
  obtain ⟨a, ha, b, hb, hx, hy, hs, ht | ⟨c, hc, hcov⟩⟩ := below_rows h hi hT h2
  · exact ⟨a, ha, b, hb, hx, hy, hs, ht⟩
  · exact absurd ⟨nm T c, (direct_iff h hi hT y _).2 ⟨b, hb, c, hc, hy, rfl, hcov⟩⟩ h1

end

/-! ### The label of a token -/

section
variable {S V C : Type} [LinearOrder S] [OrderBot S] [LinearOrder V] [LinearOrder C] {nk tk : AnnoKey S}

/-- A label which is set by the events exists. -/
theorem run_label_some {evs : List (Event S V C)} (hA : ∀ e ∈ evs, Adds e) (n : V) (k : AnnoKey S) (h : LabelKnown evs n k)
    (hm : ∃ v, Event.addNodeLabel n k v ∈ evs) : (((GSpec.empty : GSpec S V C).run nk tk evs).label n k).isSome := by
  induction evs using List.reverseRecOn with
  | nil => simp at hm
  | append_singleton l e ih =>
    have hA' : ∀ e ∈ l, Adds e := fun e he => hA e (by simp [he])
    have ha := hA e (by simp)
    rw [run_append]
    change ((GSpec.step nk tk _ e).label n k).isSome
    have ih := fun hm => ih hA' h.left hm
    obtain ⟨v, hm⟩ := hm
    simp only [List.mem_append, List.mem_singleton] at hm
    cases e with
    | addNode n' ty =>
      have hm : Event.addNodeLabel n k v ∈ l := by simpa using hm
      have hi := ih ⟨v, hm⟩
      obtain ⟨a, b, hx⟩ := List.append_of_mem hm
      have hn : AddsNode l n := (h.left a v b hx).mono (by rw [hx]; simp; tauto)
      have hn := (run_node (nk := nk) (tk := tk) hA' n).2 hn
      simp only [GSpec.step]
      split
      · exact hi
      · rename_i hh
        simp only []
        rw [if_neg]
        · exact hi
        · rintro rfl; exact hh hn
    | addNodeLabel n' k' v' =>
      simp only [GSpec.step]
      split
      · rfl
      · rename_i hh
        rcases hm with hm | hm
        · exact ih ⟨v, hm⟩
        · simp only [Event.addNodeLabel.injEq] at hm
          obtain ⟨rfl, rfl, rfl⟩ := hm
          exact absurd ⟨rfl, rfl, (run_node (nk := nk) (tk := tk) hA' n).2 (h l v [] rfl)⟩ hh
    | addEdge s t d => exact ih ⟨v, by simpa using hm⟩
    | addEdgeLabel s t d k' v' => exact ih ⟨v, by simpa using hm⟩
    | deleteNode => exact ha.elim
    | deleteNodeLabel => exact ha.elim
    | deleteEdge => exact ha.elim
    | deleteEdgeLabel => exact ha.elim

end

/-- The nodes of token rows are tokens by their label and edges. -/
theorem row_tok {ext : Option Str → List (Str × Str)} {t : Tables} {tree : CTree} {name : Str} {evs : List Ev} {T : CTable}
    (h : importEvents ext t = some (name, evs)) (hi : Importable tree t) (hT : parseCorpus t.corpora = some T) {a : NodeRow} (ha : a ∈ t.nodes)
    (hx : (tokenIndex a).isSome) : Answer.Names.Tok schema tokKey (graphOf evs) (nm T a) := by
  constructor
  · obtain ⟨p, hp, rfl, rfl⟩ := importEvents_parts h
    rw [hp.T] at hT
    cases hT
    refine run_label_some hp.adds _ _ ((closed_events hp hi.corpus).labelKnown _ _) ?_
    obtain ⟨n, hn⟩ := mapM_some_of hp.ns a ha
    have hn' := (mapM_some_mem hp.ns n).2 ⟨a, ha, hn⟩
    rw [Option.map_eq_some_iff] at hn
    obtain ⟨q, hq, rfl⟩ := hn
    have e : nm p.T a = q ++ '#' :: a.name := by simp [nm, hq]
    cases hk : a.kind with
    | tok i s =>
      refine ⟨s, List.mem_append_left _ (List.mem_flatMap.2 ⟨_, hn', ?_⟩)⟩
      unfold nodeEvents
      rw [e]
      simp [hk]
    | seg g i s => simp [tokenIndex, hk] at hx
    | plain => simp [tokenIndex, hk] at hx
  · rintro ⟨y, hy⟩
    obtain ⟨a', ha', b, hb, e, _, hc⟩ := (direct_iff h hi hT _ y).1 hy
    have := nm_inj h hi hT ha ha' e
    subst this
    rw [hi.text.tokens a ha b hb hc] at hx
    cases hx

end Rel
