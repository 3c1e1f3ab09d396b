import Verif.Index.Loop
import Verif.Index.Reindex

/-!
# The text coverage index after updates (C50)
-/

set_option linter.unusedSimpArgs false
set_option linter.unusedSectionVars false
set_option linter.unusedVariables false

namespace Graph

namespace Index

variable {S V C : Type} [LinearOrder S] [OrderBot S] [LinearOrder V] [LinearOrder C]
variable {sc : Schema C} {nk tk tok : AnnoKey S} {g g' g0 g1 : Graph S V C} {x : IndexState V C}

/-- Named dominance edges are repeated in a coverage component or a dominance component without name. -/
def NamedOk (sc : Schema C) (g : Graph S V C) : Prop :=
  ∀ c a b, sc.kind c = .dominance → E g c a b →
    ∃ c', (sc.kind c' = .coverage ∨ sc.kind c' = .dominance ∧ sc.unnamed c' = true) ∧ E g c' a b

/-- The conditions under which one update keeps the index: `g` is the graph before and `g'` the graph after the update. -/
structure UpdateOk (sc : Schema C) (nk tk tok : AnnoKey S) (g : Graph S V C) (u : List (Nat × Event S V C)) (g' : Graph S V C) :
    Prop where
  /-- node names are not changed with label events -/
  names : ∀ e ∈ evs u, e.NoRename nk
  /-- the token label of an existing node is neither added nor removed -/
  labels : ∀ e ∈ evs u, EventOk nk tok g e
  /-- the type of a node is not removed -/
  types : ∀ e ∈ evs u, ∀ n, e ≠ .deleteNodeLabel n tk
  /-- a deleted node is not added again in the same update -/
  readd : NoReadd (evs u)
  /-- edges of named dominance components have a copy, as the importers create it -/
  named : NamedOk sc g
  /-- nodes with token label and outgoing edges have coverage edges -/
  seg : SegOk sc tok g'
  /-- tokens covered by the same node are ordered -/
  order : OrderOk sc tok g'
  /-- old tokens keep their relative order -/
  stable : ∀ a b, IsTok sc tok g a → IsTok sc tok g b → IsTok sc tok g' a → IsTok sc tok g' b → (Before sc g a b ↔ Before sc g' a b)

theorem below_text (hsc : SchemaOk sc) {a b : NodeID64} (h : Below sc g a b) : ∃ c, TextComp sc c ∧ E g c a b := by
  rcases h with ⟨c, hc, _, h⟩ | ⟨c, hc, h⟩
  · exact ⟨c, Or.inl hc, h⟩
  · exact ⟨c, Or.inr hc, h⟩

theorem covered_text (hsc : SchemaOk sc) {a b : NodeID64} (h : Covered sc tok g a b) :
    Relation.TransGen (fun a b => ∃ c, TextComp sc c ∧ E g c a b) a b :=
  Relation.TransGen.mono (fun _ _ h => below_text hsc h) _ _ h.2.2

theorem start_of_ok (hsc : SchemaOk sc) (hI : Inv nk g0) (hok : IndexOk sc nk tok g0) (hn : NamedOk sc g0) : Start sc nk g0 := by
  refine ⟨hI, hn, ?_⟩
  rintro c (rfl | rfl) a b ha hab
  · exact covered_text hsc (((hok a ha).left b).1 hab).1
  · exact covered_text hsc (((hok a ha).right b).1 hab).1

section
variable {rest : List (Event S V C)} (hsc : SchemaOk sc) (hs : Start sc nk g0) (L : LoopInv sc nk tok g0 g1 x rest)
include hsc hs L

theorem same_direct {a : NodeID64} (ha : ¬ Bad x a) (b : NodeID64) : Direct sc g1 a b ↔ Direct sc g0 a b := by
  unfold Direct
  exact exists_congr fun c => and_congr_right fun hc => and_congr_right fun _ => L.edge c (Or.inl hc) a b ha

theorem same_below {a : NodeID64} (ha : ¬ Bad x a) (b : NodeID64) : Below sc g1 a b ↔ Below sc g0 a b := by
  unfold Below
  rw [same_direct hsc hs L ha]
  exact or_congr Iff.rfl (exists_congr fun c => and_congr_right fun hc => L.edge c (Or.inr hc) a b ha)

theorem below_unmarked {a b : NodeID64} (ha : ¬ Bad x a) (h : Below sc g0 a b) : ¬ Bad x b := by
  obtain ⟨c, hc, h⟩ := below_text hsc h
  exact (L.succ hs hc ha ((L.edge c hc a b ha).2 h)).1

theorem same_reach {a b : NodeID64} (ha : ¬ Bad x a) :
    (Relation.TransGen (Below sc g1) a b ↔ Relation.TransGen (Below sc g0) a b) ∧ (Relation.TransGen (Below sc g0) a b → ¬ Bad x b) := by
  have key : Relation.TransGen (Below sc g1) a b → Relation.TransGen (Below sc g0) a b ∧ ¬ Bad x b := by
    intro h
    induction h with
    | single h =>
      rw [same_below hsc hs L ha] at h
      exact ⟨.single h, below_unmarked hsc hs L ha h⟩
    | tail _ h ih =>
      rw [same_below hsc hs L ih.2] at h
      exact ⟨.tail ih.1 h, below_unmarked hsc hs L ih.2 h⟩
  have key' : Relation.TransGen (Below sc g0) a b → Relation.TransGen (Below sc g1) a b ∧ ¬ Bad x b := by
    clear key
    intro h
    induction h with
    | single h => exact ⟨.single ((same_below hsc hs L ha _).2 h), below_unmarked hsc hs L ha h⟩
    | tail _ h ih => exact ⟨.tail ih.1 ((same_below hsc hs L ih.2 _).2 h), below_unmarked hsc hs L ih.2 h⟩
  exact ⟨⟨fun h => (key h).1, fun h => (key' h).1⟩, fun h => (key' h).2⟩

/-- Below a node of the old graph there are only nodes with old identifiers. -/
theorem reach_bound {a b : NodeID64} (h : Relation.TransGen (Below sc g0) a b) : ∃ l, g0.annos.largest = some l ∧ b ≤ l := by
  obtain ⟨c, h⟩ := Relation.TransGen.tail'_iff.1 h
  obtain ⟨d, _, h⟩ := below_text hsc h.2
  obtain ⟨l, h1, _, h2⟩ := hs.inv.bound d c b h
  exact ⟨l, h1, h2⟩

theorem same_isTok {a t : NodeID64} (ha : ¬ Bad x a) (h : Relation.TransGen (Below sc g0) a t) :
    IsTok sc tok g1 t ↔ IsTok sc tok g0 t := by
  have ht := (same_reach hsc hs L ha).2 h
  unfold IsTok
  simp only [same_direct hsc hs L ht]
  refine and_congr_left fun _ => ?_
  -- the node has the same name before and after
  have hname : (Named nk g0 t ∨ Named nk g1 t) → g1.annos.getValue t tok = g0.annos.getValue t tok := by
    intro hn
    have h0 : Named nk g0 t := by
      rcases hn with h' | h'
      · exact h'
      · rcases L.alive t h' with h' | h'
        · exact h'
        · obtain ⟨l, hl, hle⟩ := reach_bound hsc hs L h
          exact absurd (h' l hl) (not_lt.2 hle)
    obtain ⟨n, h0⟩ := h0
    rcases L.name t n h0 with h1 | ⟨h1, _⟩
    · exact L.tok t n h0 h1
    · exact absurd h1 ht
  constructor
  · intro hl
    obtain ⟨v, hv⟩ := Option.isSome_iff_exists.1 hl
    rw [← hname (Or.inr (L.inv.named t tok v hv))]; exact hl
  · intro hl
    obtain ⟨v, hv⟩ := Option.isSome_iff_exists.1 hl
    rw [hname (Or.inl (hs.inv.named t tok v hv))]; exact hl

theorem same_covered {a : NodeID64} (ha : ¬ Bad x a) (t : NodeID64) : Covered sc tok g1 a t ↔ Covered sc tok g0 a t := by
  unfold Covered
  rw [(same_reach hsc hs L ha).1]
  constructor
  · rintro ⟨h1, h2, h3⟩
    exact ⟨(same_isTok hsc hs L ha h3).1 h1, h2, h3⟩
  · rintro ⟨h1, h2, h3⟩
    exact ⟨(same_isTok hsc hs L ha h3).2 h1, h2, h3⟩

end

/-- Nothing is known about new nodes in the old graph. -/
theorem nodeOk_new (hI : Inv nk g0) {a : NodeID64} (ha : ∀ l, g0.annos.largest = some l → l < a) : NodeOk sc tok g0 a := by
  have h1 : ∀ c t, ¬ E g0 c a t := by
    intro c t h
    obtain ⟨l, hl, hle, _⟩ := hI.bound c a t h
    exact absurd (ha l hl) (not_lt.2 hle)
  have h2 : ∀ t, ¬ Covered sc tok g0 a t := by
    intro t h
    obtain ⟨l, hl, hle, _⟩ := covered_bound hI h
    exact absurd (ha l hl) (not_lt.2 hle)
  exact ⟨fun t => ⟨fun h => absurd h (h1 _ _), fun h => absurd h.1 (h2 _)⟩, fun t => ⟨fun h => absurd h (h1 _ _), fun h => absurd h.1 (h2 _)⟩,
    fun t => ⟨fun h => absurd h (h1 _ _), fun h => absurd h.1 (h2 _)⟩⟩

theorem markAll_spec (hI : Inv nk g) (hs : x.invalid.Sorted) :
    (markAll tk x g).invalid.Sorted ∧ ∀ i, (g.annos.getValue i tk).isSome → Bad (markAll tk x g) i := by
  have hfold : ∀ (l : List (NodeID64 × AnnoKey S)) (m : OMap NodeID64 Bool),
      l.foldl (fun m p => m.insert p.1 true) m = (l.map Prod.fst).foldl (fun m i => m.insert i true) m := by
    intro l
    induction l with
    | nil => intro m; rfl
    | cons p l ih => intro m; exact ih _
  unfold markAll Bad
  simp only [hfold]
  obtain ⟨k1, k2⟩ := foldl_insert_get ((g.annos.exactSearch (some tk.ns) tk.name .any).map Prod.fst) x.invalid hs
  refine ⟨k1, fun i hi => ?_⟩
  rw [k2]
  right
  simp only [List.mem_map, Prod.exists, exists_and_right, exists_eq_right]
  refine ⟨tk, ?_⟩
  show (i, tk) ∈ g.annos.allItems (some tk.ns) tk.name
  rw [AnnoStore.mem_allItems hI.an]
  refine ⟨?_, Option.isSome_iff_exists.1 hi⟩
  simp [AnnoStore.keyMatches]

/-- Edges that were not there before the index is calculated lead to covered tokens. -/
theorem new_edges (hF : Same sc g1 g')
    (h2 : ∀ c, c = sc.left ∨ c = sc.right ∨ c = sc.inh → ∀ a b, ¬ Bad x a → (E g' c a b ↔ E g1 c a b ∧ x.empty = false ∧ ¬ Bad x b))
    (h3 : ∀ n, Bad x n → NodeOk sc tok g' n) (c : C) (a b : NodeID64) (h : E g' c a b) : E g1 c a b ∨ Covered sc tok g' a b := by
  by_cases hb : Bad x a
  · by_cases e1 : c = sc.left
    · subst e1; exact Or.inr (((h3 a hb).left b).1 h).1
    by_cases e2 : c = sc.right
    · subst e2; exact Or.inr (((h3 a hb).right b).1 h).1
    by_cases e3 : c = sc.inh
    · subst e3; exact Or.inr (((h3 a hb).inh b).1 h).1
    exact Or.inl ((hF.edge e1 e2 e3 a b).1 h)
  · by_cases e : c = sc.left ∨ c = sc.right ∨ c = sc.inh
    · exact Or.inl ((h2 c e a b hb).1 h).1
    · push Not at e
      exact Or.inl ((hF.edge e.1 e.2.1 e.2.2 a b).1 h)

theorem update_empty (hsc : SchemaOk sc) (hne : nk ≠ tk) {cap : Nat} {ch : Choices} (hch : ∀ l, (ch.iter l).Perm l)
    {u : List (Nat × Event S V C)} (hI : Inv nk g0) (hcount : AnnoStore.rowSum g0.annos.byContainer ≤ g0.annos.total)
    (hok : IndexOk sc nk tok g0) (h1 : loop sc nk tk cap g0.comps.keys g0 [] (init sc g0) u = some (g1, x))
    (h2 : apply sc tk tok ch x g1 = some g') (hu : UpdateOk sc nk tk tok g0 u g') (hemp : g0.annos.isEmpty = true) :
    Inv nk g' ∧ AnnoStore.rowSum g'.annos.byContainer ≤ g'.annos.total ∧ IndexOk sc nk tok g' ∧ ∀ c a b, E g' c a b → E g1 c a b ∨ Covered sc tok g' a b := by
  unfold apply at h2
  have L := loop_empty hne cap g0.comps.keys u g0 [] (init sc g0) (fun e he => ⟨hu.names e he, hu.types e he⟩)
    ⟨hI, hemp, OMap.sorted_nil, (fun i ⟨n, hn⟩ => by rw [no_names hI hcount hemp] at hn; cases hn), hcount⟩ (cacheOk_nil _) g1 x h1
  rw [if_pos L.empty] at h2
  obtain ⟨hs', hbad⟩ := markAll_spec (tk := tk) L.inv L.srt
  have hxe : (markAll tk x g1).empty = true := L.empty
  generalize markAll tk x g1 = x' at h2 hs' hbad hxe
  have hF := reindex_same h2
  obtain ⟨r1, r2, r3⟩ := reindex_spec hsc L.inv hs' (hF.segOk hsc hu.seg) (hF.orderOk hsc hu.order) hch
    (fun i b he => by rw [hxe] at he; cases he) h2
  refine ⟨r1.inv L.inv, by rw [hF.annos]; exact L.count, ?_, new_edges hF r2 r3⟩
  rintro i ⟨n, hn⟩
  rw [hF.annos] at hn
  exact r3 i (hbad i (L.typed i ⟨n, hn⟩))

theorem update_full (hsc : SchemaOk sc) (hne : nk ≠ tk) {cap : Nat} {ch : Choices} (hch : ∀ l, (ch.iter l).Perm l)
    {u : List (Nat × Event S V C)} (hI : Inv nk g0) (hcount : AnnoStore.rowSum g0.annos.byContainer ≤ g0.annos.total)
    (hok : IndexOk sc nk tok g0) (h1 : loop sc nk tk cap g0.comps.keys g0 [] (init sc g0) u = some (g1, x))
    (h2 : apply sc tk tok ch x g1 = some g') (hu : UpdateOk sc nk tk tok g0 u g') (hemp : g0.annos.isEmpty = false) :
    Inv nk g' ∧ AnnoStore.rowSum g'.annos.byContainer ≤ g'.annos.total ∧ IndexOk sc nk tok g' ∧ ∀ c a b, E g' c a b → E g1 c a b ∨ Covered sc tok g' a b := by
  unfold apply at h2
  have hs := start_of_ok hsc hI hok hu.named
  have L := loop_inv hsc hne hs cap g0.comps.keys u g0 [] (init sc g0) hu.readd hu.labels
    (LoopInv.start hI hemp hcount (evs u)) (cacheOk_nil _) g1 x h1
  simp only [L.marks.full, Bool.false_eq_true, if_false] at h2
  have hF := reindex_same h2
  have hseg1 := hF.segOk hsc hu.seg
  have hold : ∀ a, Named nk g1 a → NodeOk sc tok g0 a := by
    intro a ha
    rcases L.alive a ha with h' | h'
    · exact hok a h'
    · exact nodeOk_new hI h'
  obtain ⟨r1, r2, r3⟩ := reindex_spec hsc L.inv L.marks.srt hseg1 (hF.orderOk hsc hu.order) hch
    (by
      intro i b _ hb hl hi
      obtain ⟨v, hv⟩ := Option.isSome_iff_exists.1 hl
      have hn := L.inv.named i tok v hv
      rw [L.edge sc.inh (Or.inl hsc.inh) i b hb] at hi
      obtain ⟨b', hb'⟩ := covered_head (((hold i hn).inh b).1 hi).1
      exact hseg1 i b' hl ((same_below hsc hs L hb b').2 hb')) h2
  refine ⟨r1.inv L.inv, by rw [hF.annos]; exact L.count, ?_, new_edges hF r2 r3⟩
  rintro a ⟨n, hn⟩
  rw [hF.annos] at hn
  by_cases hb : Bad x a
  · exact r3 a hb
  have h0 := hold a ⟨n, hn⟩
  have hal := L.alive a ⟨n, hn⟩
  have hcov : ∀ t, Covered sc tok g' a t ↔ Covered sc tok g0 a t := fun t => by
    rw [hF.covered hsc, same_covered hsc hs L hb]
  have hunm : ∀ t, Covered sc tok g0 a t → ¬ Bad x t := fun t ht => (same_reach hsc hs L hb).2 ht.2.2
  have hbef : ∀ t t', Covered sc tok g0 a t → Covered sc tok g0 a t' → (Before sc g0 t t' ↔ Before sc g' t t') := by
    intro t t' k1 k2
    exact hu.stable t t' k1.1 k2.1 ((hcov t).2 k1).1 ((hcov t').2 k2).1
  refine ⟨fun t => ?_, fun t => ?_, fun t => ?_⟩
  · rw [r2 sc.left (Or.inl rfl) a t hb, L.aux sc.left (Or.inl rfl) a t hal hb, h0.left]
    unfold First
    constructor
    · rintro ⟨⟨k1, k2⟩, _, _⟩
      refine ⟨(hcov t).2 k1, fun t' ht' => ?_⟩
      rw [hcov] at ht'
      rw [← hbef t t' k1 ht']
      exact k2 t' ht'
    · rintro ⟨k1, k2⟩
      rw [hcov] at k1
      refine ⟨⟨k1, fun t' ht' => ?_⟩, L.marks.full, hunm t k1⟩
      rw [hbef t t' k1 ht']
      exact k2 t' ((hcov t').2 ht')
  · rw [r2 sc.right (Or.inr (Or.inl rfl)) a t hb, L.aux sc.right (Or.inr rfl) a t hal hb, h0.right]
    unfold Last
    constructor
    · rintro ⟨⟨k1, k2⟩, _, _⟩
      refine ⟨(hcov t).2 k1, fun t' ht' => ?_⟩
      rw [hcov] at ht'
      rw [← hbef t' t ht' k1]
      exact k2 t' ht'
    · rintro ⟨k1, k2⟩
      rw [hcov] at k1
      refine ⟨⟨k1, fun t' ht' => ?_⟩, L.marks.full, hunm t k1⟩
      rw [hbef t' t ht' k1]
      exact k2 t' ((hcov t').2 ht')
  · rw [r2 sc.inh (Or.inr (Or.inr rfl)) a t hb, L.edge sc.inh (Or.inl hsc.inh) a t hb, h0.inh, hcov, hF.direct hsc,
      same_direct hsc hs L hb]
    constructor
    · rintro ⟨k, _, _⟩; exact k
    · intro k; exact ⟨k, L.marks.full, hunm t k.1⟩

/-- The two steps of an update that meets the conditions. -/
theorem update_steps (hsc : SchemaOk sc) (hne : nk ≠ tk) {cap : Nat} {ch : Choices} (hch : ∀ l, (ch.iter l).Perm l)
    {u : List (Nat × Event S V C)} (hI : Inv nk g0) (hcount : AnnoStore.rowSum g0.annos.byContainer ≤ g0.annos.total)
    (hok : IndexOk sc nk tok g0) (h : update sc nk tk tok cap ch g0 u = some g') (hu : UpdateOk sc nk tk tok g0 u g') :
    ∃ g1 x, loop sc nk tk cap g0.comps.keys g0 [] (init sc g0) u = some (g1, x) ∧ apply sc tk tok ch x g1 = some g' ∧
      Inv nk g' ∧ AnnoStore.rowSum g'.annos.byContainer ≤ g'.annos.total ∧ IndexOk sc nk tok g' ∧
      ∀ c a b, E g' c a b → E g1 c a b ∨ Covered sc tok g' a b := by
  unfold update at h
  simp only [Option.bind_eq_bind, Option.bind_eq_some_iff, Prod.exists] at h
  obtain ⟨g1, x, h1, h2⟩ := h
  refine ⟨g1, x, h1, h2, ?_⟩
  cases hemp : g0.annos.isEmpty with
  | true => exact update_empty hsc hne hch hI hcount hok h1 h2 hu hemp
  | false => exact update_full hsc hne hch hI hcount hok h1 h2 hu hemp

/-- C50: an update that meets the conditions keeps the index.  The conditions are needed (see the counterexamples below), so this
is weaker than the property. -/
theorem C50_update_partial (hsc : SchemaOk sc) (hne : nk ≠ tk) {cap : Nat} {ch : Choices} (hch : ∀ l, (ch.iter l).Perm l)
    {u : List (Nat × Event S V C)} (hI : Inv nk g0) (hcount : AnnoStore.rowSum g0.annos.byContainer ≤ g0.annos.total)
    (hok : IndexOk sc nk tok g0) (h : update sc nk tk tok cap ch g0 u = some g') (hu : UpdateOk sc nk tk tok g0 u g') :
    Inv nk g' ∧ AnnoStore.rowSum g'.annos.byContainer ≤ g'.annos.total ∧ IndexOk sc nk tok g' := by
  obtain ⟨_, _, _, _, h1, h2, h3, _⟩ := update_steps hsc hne hch hI hcount hok h hu
  exact ⟨h1, h2, h3⟩

/-- A history of updates, each of which meets the conditions. -/
inductive Updates (sc : Schema C) (nk tk tok : AnnoKey S) (cap : Nat) : Graph S V C → Graph S V C → Prop
  | nil (g : Graph S V C) : Updates sc nk tk tok cap g g
  | step {g g1 g2 : Graph S V C} (u : List (Nat × Event S V C)) (ch : Choices) (hch : ∀ l, (ch.iter l).Perm l)
      (h : Updates sc nk tk tok cap g g1) (hu : update sc nk tk tok cap ch g1 u = some g2) (hok : UpdateOk sc nk tk tok g1 u g2) :
      Updates sc nk tk tok cap g g2

/-- C50: after every history of updates of a new graph that meet the conditions, the index is right: the left and right token
edges lead to the first and last covered token, and inherited coverage edges to the tokens that are covered indirectly. -/
theorem C50_history_partial (hsc : SchemaOk sc) (hne : nk ≠ tk) {cap : Nat} (h : Updates sc nk tk tok cap (Graph.new : Graph S V C) g) :
    IndexOk sc nk tok g := by
  suffices Inv nk g ∧ AnnoStore.rowSum g.annos.byContainer ≤ g.annos.total ∧ IndexOk sc nk tok g from this.2.2
  induction h with
  | nil =>
    refine ⟨Inv.empty, le_refl _, ?_⟩
    rintro x ⟨n, hx⟩
    simp [Graph.new, AnnoStore.new, AnnoStore.getValue, SymbolTable.new, SymbolTable.getSymbol] at hx
  | step u ch hch _ hu hok ih =>
    obtain ⟨i1, i2, i3⟩ := ih
    exact C50_update_partial hsc hne hch i1 i2 i3 hu hok

end Index

end Graph
