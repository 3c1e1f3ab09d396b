import Verif.Rel.Texts

/-!
# The corpus structure of an imported corpus (C80)
-/

set_option linter.unusedSimpArgs false
set_option linter.unusedSectionVars false

namespace Rel

open Spec

namespace Spec

/-- The corpus with this identifier is below the root and has these names from the root on. -/
def Below (tree : CTree) (id : Nat) (names : List Str) : Prop :=
  ∃ anc s, (anc, s) ∈ tree.subs [] ∧ anc ≠ [] ∧ s.id = id ∧ names = anc ++ [s.name]

/-- Tables of a corpus with this tree of sub-corpora and documents: all nodes and texts are in a corpus below the root, and the
name of the root needs no encoding. -/
structure Corpus (tree : CTree) (t : Tables) : Prop where
  rows : TreeTable 0 tree t.corpora
  top : pctEncode nodeNameSet tree.name = tree.name
  nodes : ∀ r ∈ t.nodes, ∃ names, Below tree r.corpus names
  texts : ∀ x ∈ t.texts, ∀ c, x.corpus = some c → ∃ names, Below tree c names
  text : TextTable t
  unique : Unique t

/-- The edges of the corpus structure: from each corpus to its parent, from the files to their document (or to the corpus), from
the texts to their document and from the nodes to their text. -/
def PartOf (tree : CTree) (ext : Option Str → List (Str × Str)) (t : Tables) (x y : Str) : Prop :=
  (∃ anc s, (anc, s) ∈ tree.subs [] ∧ anc ≠ [] ∧ x = pathName (anc ++ [s.name]) ∧ y = pathName anc) ∨
  (∃ f ∈ ext none, x = pathName [tree.name] ++ '/' :: f.1 ∧ y = pathName [tree.name]) ∨
  (∃ anc s, (anc, s) ∈ tree.subs [] ∧ anc ≠ [] ∧ ∃ f ∈ ext (some s.name), x = pathName (anc ++ [s.name]) ++ '/' :: f.1 ∧
    y = pathName (anc ++ [s.name])) ∨
  (∃ id c name val names, TextIn t id c name val ∧ Below tree c names ∧
    x = pathName names ++ '#' :: pctEncode nodeNameSet name ∧ y = pathName names) ∨
  (∃ id c name val names, TextIn t id c name val ∧ Below tree c names ∧ ∃ r ∈ t.nodes, r.text = id ∧ r.corpus = c ∧
    x = pathName names ++ '#' :: r.name ∧ y = pathName names ++ '#' :: pctEncode nodeNameSet name)

end Spec

/-! ### Parents in the table -/

mutual
theorem rows_parent (k : Nat) (acc : List Str) : ∀ (t : CTree) (anc : List Str) (s : CTree), (anc, s) ∈ t.subs acc →
    ∃ r ∈ t.rows k, RowOf s r ∧ ((anc = acc ∧ s = t ∧ r.pre = k) ∨ (k < r.pre ∧
      ∃ anc' s', (anc', s') ∈ t.subs acc ∧ anc = anc' ++ [s'.name] ∧ ∃ q ∈ t.rows k, RowOf s' q ∧ q.pre < r.pre))
  | .node id name doc ch, anc, s, h => by
    have hroot : RowOf (.node id name doc ch) (⟨id, name, doc, k, k + 1 + 2 * CTree.sizes ch⟩ : CorpusRow) := by
      refine ⟨rfl, rfl, ?_⟩
      rw [CTree.children, ← sizes_eq_zero]; simp only; omega
    rw [CTree.subs, List.mem_cons] at h
    rcases h with h | h
    · cases h
      exact ⟨_, by rw [CTree.rows]; exact List.mem_cons_self, hroot, Or.inl ⟨rfl, rfl, rfl⟩⟩
    · obtain ⟨r, hr, h1, h2⟩ := forestRows_parent (k + 1) (acc ++ [name]) ch anc s h
      have hb := forestRows_bounds _ _ _ hr
      refine ⟨r, by rw [CTree.rows]; exact List.mem_cons_of_mem _ hr, h1, Or.inr ⟨by omega, ?_⟩⟩
      rcases h2 with h2 | ⟨anc', s', h3, h4, q, hq, h5, h6⟩
      · exact ⟨acc, .node id name doc ch, by rw [CTree.subs]; exact List.mem_cons_self, h2, _,
          by rw [CTree.rows]; exact List.mem_cons_self, hroot, by simp only; omega⟩
      · exact ⟨anc', s', by rw [CTree.subs]; exact List.mem_cons_of_mem _ h3, h4, q,
          by rw [CTree.rows]; exact List.mem_cons_of_mem _ hq, h5, h6⟩
theorem forestRows_parent (k : Nat) (acc : List Str) : ∀ (ts : List CTree) (anc : List Str) (s : CTree),
    (anc, s) ∈ CTree.forestSubs acc ts → ∃ r ∈ CTree.forestRows k ts, RowOf s r ∧ (anc = acc ∨
      ∃ anc' s', (anc', s') ∈ CTree.forestSubs acc ts ∧ anc = anc' ++ [s'.name] ∧
        ∃ q ∈ CTree.forestRows k ts, RowOf s' q ∧ q.pre < r.pre)
  | [], anc, s, h => by rw [CTree.forestSubs] at h; cases h
  | t :: ts, anc, s, h => by
    rw [CTree.forestSubs, List.mem_append] at h
    rw [CTree.forestRows, CTree.forestSubs]
    rcases h with h | h
    · obtain ⟨r, hr, h1, h2⟩ := rows_parent k acc t anc s h
      refine ⟨r, by simp [hr], h1, ?_⟩
      rcases h2 with ⟨h2, _⟩ | ⟨_, anc', s', h3, h4, q, hq, h5⟩
      · exact Or.inl h2
      · exact Or.inr ⟨anc', s', by simp [h3], h4, q, by simp [hq], h5⟩
    · obtain ⟨r, hr, h1, h2⟩ := forestRows_parent (k + 2 * t.size) acc ts anc s h
      refine ⟨r, by simp [hr], h1, ?_⟩
      rcases h2 with h2 | ⟨anc', s', h3, h4, q, hq, h5⟩
      · exact Or.inl h2
      · exact Or.inr ⟨anc', s', by simp [h3], h4, q, by simp [hq], h5⟩
end

theorem append_singleton_ne_nil' {X : Type} (l : List X) (x : X) : l ++ [x] ≠ [] := by simp

/-- Every row belongs to a corpus of the tree. -/
theorem TreeTable.sub_of_row {k : Nat} {t : CTree} {rows : List CorpusRow} (h : TreeTable k t rows) {r : CorpusRow} (hr : r ∈ t.rows k) :
    ∃ anc s, (anc, s) ∈ t.subs [] ∧ RowOf s r ∧ ((anc = [] ∧ s = t ∧ r.pre = k) ∨ (k < r.pre ∧
      ∃ anc' s', (anc', s') ∈ t.subs [] ∧ anc = anc' ++ [s'.name] ∧ ∃ q ∈ t.rows k, RowOf s' q ∧ q.pre < r.pre)) := by
  have hm : r.id ∈ (t.subs []).map fun p => p.2.id := by
    rw [← rows_subs_ids k [] t]
    exact List.mem_map_of_mem hr
  obtain ⟨⟨anc, s⟩, hs, e⟩ := List.mem_map.1 hm
  obtain ⟨r', hr', h1, h2⟩ := rows_parent k [] t anc s hs
  have := h.unique_id hr' hr (h1.1.trans e)
  subst this
  exact ⟨anc, s, hs, h1, h2⟩

theorem TreeTable.sub_unique {k : Nat} {t : CTree} {rows : List CorpusRow} (h : TreeTable k t rows) {a b : List Str × CTree}
    (ha : a ∈ t.subs []) (hb : b ∈ t.subs []) (e : a.2.id = b.2.id) : a = b := by
  have := h.ids
  rw [rows_subs_ids k [] t] at this
  exact List.inj_on_of_nodup_map this ha hb e

/-! ### The events of one corpus -/

/-- The events for a corpus below the root. -/
def subList (annos : OMap (Nat ×ₗ AnnoKey Str) Str) (ext : Option Str → List (Str × Str)) (anc : List Str) (s : CTree) : List Ev :=
  [.addNode (pathName (anc ++ [s.name])) "corpus".toList] ++
  (if s.children.isEmpty then [.addNodeLabel (pathName (anc ++ [s.name])) docKey s.name] else []) ++
  metaEvents annos s.id (pathName (anc ++ [s.name])) ++
  [.addEdge (pathName (anc ++ [s.name])) (pathName anc) partOfComp] ++
  fileEvents (pathName (anc ++ [s.name])) (ext (some s.name))

theorem subEvents_root {T : CTable} {annos : OMap (Nat ×ₗ AnnoKey Str) Str} {ext : Option Str → List (Str × Str)} {i : Nat} :
    subEvents T annos ext (0, i) = some [] := rfl

theorem subEvents_below {t : CTree} {rows : List CorpusRow} (h : TreeTable 0 t rows) {T : CTable} (hT : parseCorpus rows = some T)
    {annos : OMap (Nat ×ₗ AnnoKey Str) Str} {ext : Option Str → List (Str × Str)} {r : CorpusRow} (hr : r ∈ t.rows 0) (h0 : 0 < r.pre)
    {anc : List Str} {s : CTree} (hs : (anc, s) ∈ t.subs []) (hrs : RowOf s r) (hne : anc ≠ []) :
    subEvents T annos ext (r.pre, r.id) = some (subList annos ext anc s) := by
  obtain ⟨T1, e1, _, h1, h2⟩ := h.parse
  obtain ⟨T2, e2, _, h3⟩ := C78_parent_path h
  obtain ⟨T3, e3, h4⟩ := C78_corpus_path_partial h
  rw [hT] at e1 e2 e3
  cases e1; cases e2; cases e3
  unfold subEvents
  rw [if_neg (by simp only; omega)]
  have g1 := h2 r hr
  have g2 := h3 anc s hs
  have g3 := h4 anc s hs hne
  rw [← hrs.1] at g2 g3
  simp only [g1, g2, g3, Option.bind_eq_bind, Option.bind_some, Option.pure_def, Option.some.injEq]
  unfold subList
  have hd : (r.pre + 1 = r.post) ↔ s.children.isEmpty = true := by rw [hrs.2.2, List.isEmpty_iff]
  simp only [hd, hrs.1, hrs.2.1]

theorem mapM_eq_map {X Y : Type} {f : X → Option Y} (d : Y) : ∀ {l : List X} {ys : List Y}, l.mapM f = some ys →
    ys = l.map fun x => (f x).getD d
  | [], ys, h => by simp at h; simp [h]
  | x :: l, ys, h => by
    rw [List.mapM_cons] at h
    cases hx : f x with
    | none => rw [hx] at h; cases h
    | some y0 =>
      rw [hx] at h
      cases hl : l.mapM f with
      | none => rw [hl] at h; cases h
      | some ys0 =>
        rw [hl] at h
        cases h
        rw [List.map_cons, hx, ← mapM_eq_map d hl]
        rfl

/-- The events of one row of the corpus table. -/
def rowEvents (T : CTable) (annos : OMap (Nat ×ₗ AnnoKey Str) Str) (ext : Option Str → List (Str × Str)) (r : CorpusRow) : List Ev :=
  (subEvents T annos ext (r.pre, r.id)).getD []

/-- The events of a text. -/
def textList (T : CTable) (names : OMap Nat Str) (byText : OMap (Nat ×ₗ Nat ×ₗ Nat) Unit) (x : TextRow) : List Ev :=
  (textEvents T names byText x).getD []

/-- The events of the corpus structure. -/
theorem corpora_eq {ext : Option Str → List (Str × Str)} {t : Tables} {p : Parts} (hp : p.Of ext t) {k : Nat} {tree : CTree}
    (h : TreeTable k tree t.corpora) : p.corpora = topEvents t.is33 p.T (corpusAnnos t.corpusAnnos) ext ++
      (tree.rows k).flatMap (rowEvents p.T (corpusAnnos t.corpusAnnos) ext) ++
      p.texts.flatMap fun x => textList p.T (nodeNames p.ns) (nodesByText t.nodes) x.2 := by
  have hc := hp.corpora
  simp only [addSubcorpora, Option.bind_eq_bind, Option.bind_eq_some_iff, Option.pure_def, Option.some.injEq] at hc
  obtain ⟨subs, h1, txts, h2, e⟩ := hc
  obtain ⟨T', e', _, h3, _⟩ := h.parse
  rw [hp.T] at e'
  cases e'
  rw [← e, mapM_eq_map [] h1, mapM_eq_map [] h2, h3, List.map_map, ← List.flatMap_def, ← List.flatMap_def]
  rfl

/-! ### All events refer to what exists -/

theorem closed_nodes (ns : List Named) (b : List Ev) : ClosedAfter b (ns.flatMap nodeEvents) := by
  refine closedAfter_flatMap fun n _ => ?_
  unfold nodeEvents
  refine closedAfter_cons trivial trivial (closedAfter_of_known ?_)
  intro e he
  have hn : AddsNode (b ++ [(.addNode n.2 "node".toList : Ev)]) n.2 := ⟨_, by simp; exact Or.inr rfl⟩
  rcases adds_nodeEvents (n := n) (e := e) (by unfold nodeEvents; exact List.mem_cons_of_mem _ he) with ⟨_, rfl⟩ | ⟨_, _, rfl, _⟩
  · exact ⟨trivial, trivial⟩
  · exact ⟨trivial, hn⟩

theorem closed_files {parent : Str} {b : List Ev} (h : AddsNode b parent) (files : List (Str × Str)) :
    ClosedAfter b (fileEvents parent files) := by
  refine closedAfter_flatMap fun f _ => ?_
  refine closedAfter_cons trivial trivial (closedAfter_cons trivial ⟨"file".toList, by simp⟩ (closedAfter_cons trivial
    ⟨⟨"file".toList, by simp⟩, h.mono (by simp; tauto)⟩ (closedAfter_nil _)))

theorem closed_meta {annos : OMap (Nat ×ₗ AnnoKey Str) Str} {cid : Nat} {n : Str} {b : List Ev} (h : AddsNode b n) :
    ClosedAfter b (metaEvents annos cid n) := by
  refine closedAfter_of_known fun e he => ?_
  obtain ⟨_, _, _, rfl⟩ := mem_metaEvents he
  exact ⟨trivial, h⟩

theorem closed_top {is33 : Bool} {T : CTable} {annos : OMap (Nat ×ₗ AnnoKey Str) Str} {ext : Option Str → List (Str × Str)}
    (b : List Ev) : ClosedAfter b (topEvents is33 T annos ext) := by
  unfold topEvents
  refine closedAfter_append (closedAfter_cons trivial trivial (closedAfter_cons trivial ⟨"corpus".toList, by simp⟩ (closedAfter_nil _))) ?_
  have hn : AddsNode (b ++ [(.addNode T.top "corpus".toList : Ev), .addNodeLabel T.top versionKey (if is33 then "3.3".toList else "3.2".toList)]) T.top :=
    ⟨"corpus".toList, by simp⟩
  cases T.byPre.get 0 with
  | some i => exact closedAfter_append (closed_meta hn) (closed_files (hn.mono fun e he => List.mem_append_left _ he) _)
  | none => exact closedAfter_nil _

theorem closed_sub {annos : OMap (Nat ×ₗ AnnoKey Str) Str} {ext : Option Str → List (Str × Str)} {anc : List Str} {s : CTree}
    {b : List Ev} (h : AddsNode b (pathName anc)) : ClosedAfter b (subList annos ext anc s) := by
  unfold subList
  have hn : ∀ l : List Ev, AddsNode (b ++ ([(.addNode (pathName (anc ++ [s.name])) "corpus".toList : Ev)] ++ l))
      (pathName (anc ++ [s.name])) := fun l => ⟨"corpus".toList, by simp⟩
  refine closedAfter_append (closedAfter_append (closedAfter_append (closedAfter_append ?_ ?_) ?_) ?_) ?_
  · exact closedAfter_cons trivial trivial (closedAfter_nil _)
  · refine closedAfter_of_known fun e he => ?_
    split_ifs at he
    · rw [List.mem_singleton] at he
      subst he
      exact ⟨trivial, hn []⟩
    · cases he
  · exact closed_meta (by simpa using hn _)
  · exact closedAfter_cons trivial ⟨by simpa using hn _, h.mono (by simp; tauto)⟩ (closedAfter_nil _)
  · exact closed_files (by simpa using hn _) _

theorem mem_subList_node {annos : OMap (Nat ×ₗ AnnoKey Str) Str} {ext : Option Str → List (Str × Str)} {anc : List Str} {s : CTree} :
    AddsNode (subList annos ext anc s) (pathName (anc ++ [s.name])) := ⟨"corpus".toList, by simp [subList]⟩

theorem closedAfter_ordered {X : Type} {f : X → List Ev} : ∀ {l : List X} {b : List Ev},
    (∀ a x c, l = a ++ x :: c → ClosedAfter (b ++ a.flatMap f) (f x)) → ClosedAfter b (l.flatMap f)
  | [], b, _ => closedAfter_nil b
  | x :: l, b, h => by
    rw [List.flatMap_cons]
    refine closedAfter_append (by simpa using h [] x l rfl) (closedAfter_ordered fun a y c e => ?_)
    have := h (x :: a) y c (by rw [e]; rfl)
    rwa [List.flatMap_cons, ← List.append_assoc] at this

theorem pathName_single {n : Str} (h : pctEncode nodeNameSet n = n) : pathName [n] = n := by
  simp [pathName, joinSlash, h]

section
variable {ext : Option Str → List (Str × Str)} {t : Tables} {p : Parts} {tree : CTree}

/-- The nodes of all corpora of the tree are added. -/
theorem adds_corpora (hp : p.Of ext t) (hw : Spec.Corpus tree t) {anc : List Str} {s : CTree} (hs : (anc, s) ∈ tree.subs []) :
    AddsNode (topEvents t.is33 p.T (corpusAnnos t.corpusAnnos) ext ++
      (tree.rows 0).flatMap (rowEvents p.T (corpusAnnos t.corpusAnnos) ext)) (pathName (anc ++ [s.name])) := by
  obtain ⟨r, hr, h1, h2⟩ := rows_parent 0 [] tree anc s hs
  rcases h2 with ⟨rfl, rfl, _⟩ | ⟨h0, anc', s', _, e, _⟩
  · obtain ⟨T', e', htop, _⟩ := hw.rows.parse
    rw [hp.T] at e'
    cases e'
    refine ⟨"corpus".toList, ?_⟩
    rw [List.nil_append, pathName_single hw.top, ← htop]
    simp [topEvents]
  · have hne : anc ≠ [] := by rw [e]; simp
    refine AddsNode.mono (a := rowEvents p.T (corpusAnnos t.corpusAnnos) ext r) ?_ ?_
    · intro e he
      exact List.mem_append_right _ (List.mem_flatMap.2 ⟨r, hr, he⟩)
    · unfold rowEvents
      rw [subEvents_below hw.rows hp.T hr h0 hs h1 hne]
      exact mem_subList_node

theorem closed_rows (hp : p.Of ext t) (hw : Spec.Corpus tree t) (b : List Ev) :
    ClosedAfter (b ++ topEvents t.is33 p.T (corpusAnnos t.corpusAnnos) ext)
      ((tree.rows 0).flatMap (rowEvents p.T (corpusAnnos t.corpusAnnos) ext)) := by
  refine closedAfter_ordered fun a r c hl => ?_
  have hr : r ∈ tree.rows 0 := by rw [hl]; simp
  obtain ⟨anc, s, hs, hrs, h⟩ := hw.rows.sub_of_row hr
  rcases h with ⟨_, _, h0⟩ | ⟨h0, anc', s', hs', e, q, hq, hqs, hlt⟩
  · unfold rowEvents
    rw [h0, subEvents_root]
    exact closedAfter_nil _
  · have hne : anc ≠ [] := by rw [e]; simp
    unfold rowEvents
    rw [subEvents_below hw.rows hp.T hr h0 hs hrs hne]
    refine closed_sub ?_
    rw [e]
    -- the parent comes before
    have hqa : q ∈ a := by
      rw [hl] at hq
      have hsorted := rows_sorted 0 tree
      rw [hl, List.pairwise_append, List.pairwise_cons] at hsorted
      rcases List.mem_append.1 hq with hq | hq
      · exact hq
      · rcases List.mem_cons.1 hq with rfl | hq
        · omega
        · have := hsorted.2.1.1 q hq
          omega
    obtain ⟨anc2, s2, hs2, hrs2, h'⟩ := hw.rows.sub_of_row hq
    have e2 : (anc2, s2) = (anc', s') := hw.rows.sub_unique hs2 hs' (by rw [← hrs2.1, ← hqs.1])
    cases e2
    rcases h' with ⟨rfl, rfl, _⟩ | ⟨h1, anc3, s3, _, e3, _⟩
    · obtain ⟨T', e', htop, _⟩ := hw.rows.parse
      rw [hp.T] at e'
      cases e'
      refine ⟨"corpus".toList, ?_⟩
      rw [List.nil_append, pathName_single hw.top, ← htop]
      simp [topEvents]
    · refine AddsNode.mono (a := rowEvents p.T (corpusAnnos t.corpusAnnos) ext q) ?_ ?_
      · intro e he
        exact List.mem_append_right _ (List.mem_flatMap.2 ⟨q, hqa, he⟩)
      · unfold rowEvents
        rw [subEvents_below hw.rows hp.T hq h1 hs2 hqs (by rw [e3]; simp)]
        exact mem_subList_node

theorem below_path (hp : p.Of ext t) (hw : TreeTable 0 tree t.corpora) {c : Nat} {names : List Str} (h : Below tree c names) :
    corpusPath p.T c = some (pathName names) := by
  obtain ⟨anc, s, hs, hne, rfl, rfl⟩ := h
  obtain ⟨T', e', h1⟩ := C78_corpus_path_partial hw
  rw [hp.T] at e'
  cases e'
  exact h1 anc s hs hne

theorem below_unique (hw : TreeTable 0 tree t.corpora) {c : Nat} {names names' : List Str} (h : Below tree c names)
    (h' : Below tree c names') : names = names' := by
  obtain ⟨anc, s, hs, hne, e, rfl⟩ := h
  obtain ⟨anc', s', hs', hne', e', rfl⟩ := h'
  cases hw.sub_unique hs hs' (e.trans e'.symm)
  rfl

/-- The name of the node of a row in a corpus below the root. -/
theorem nm_below (hp : p.Of ext t) (hw : TreeTable 0 tree t.corpora) {r : NodeRow} {names : List Str} (h : Below tree r.corpus names) :
    nm p.T r = pathName names ++ '#' :: r.name := by
  unfold nm
  rw [below_path hp hw h]
  rfl

theorem text_below (hw : Spec.Corpus tree t) {id c : Nat} {name val : Str} (h : TextIn t id c name val) : ∃ names, Below tree c names := by
  obtain ⟨x, hx, h1, _, _, h2⟩ := h
  split_ifs at h2
  · exact hw.texts x hx c h2
  · obtain ⟨a, r, b, h3, _, rfl, _⟩ := h2
    exact hw.nodes r (by rw [h3]; simp)

theorem mem_byText {rows : List NodeRow} {x : Nat ×ₗ Nat ×ₗ Nat} {u : Unit} :
    (x, u) ∈ nodesByText rows ↔ ∃ r ∈ rows, x = toLex (r.text, toLex (r.corpus, r.id)) := by
  unfold nodesByText
  rw [mem_collect]
  constructor
  · intro h
    obtain ⟨r, hr, e⟩ := of_get_collect h
    simp only [Option.some.injEq, Prod.mk.injEq] at e
    exact ⟨r, hr, e.1.symm⟩
  · rintro ⟨r, hr, rfl⟩
    exact get_collect hr rfl fun _ _ _ _ => rfl

/-- The events of a text: the text is part of its document, and its nodes are part of it. -/
theorem mem_textList (hp : p.Of ext t) (hw : Spec.Corpus tree t) {k : Nat ×ₗ Nat} {x : TextRow} (hx : (k, x) ∈ p.texts) {c : Nat}
    (hc : x.corpus = some c) {names : List Str} (hb : Below tree c names) :
    ∃ es : List Ev, textList p.T (nodeNames p.ns) (nodesByText t.nodes) x =
      [.addNode (pathName names ++ '#' :: pctEncode nodeNameSet x.name) "datasource".toList,
        .addEdge (pathName names ++ '#' :: pctEncode nodeNameSet x.name) (pathName names) partOfComp] ++ es ∧
      ∀ e, e ∈ es ↔ ∃ r ∈ t.nodes, r.text = x.id ∧ r.corpus = c ∧
        e = .addEdge (pathName names ++ '#' :: r.name) (pathName names ++ '#' :: pctEncode nodeNameSet x.name) partOfComp := by
  have hcorp := hp.corpora
  simp only [addSubcorpora, Option.bind_eq_bind, Option.bind_eq_some_iff, Option.pure_def, Option.some.injEq] at hcorp
  obtain ⟨subs, h1, txts, h2, _⟩ := hcorp
  obtain ⟨l, hl⟩ := mapM_some_of h2 _ hx
  simp only at hl
  have hl' := hl
  unfold textEvents at hl
  rw [hc] at hl
  simp only [below_path hp hw.rows hb, Option.bind_eq_bind, Option.bind_some, Option.bind_eq_some_iff, Option.pure_def,
    Option.some.injEq] at hl
  obtain ⟨es, hes, rfl⟩ := hl
  refine ⟨es, ?_, ?_⟩
  · unfold textList
    rw [hl']
    rfl
  · intro e
    rw [mapM_some_mem hes]
    constructor
    · rintro ⟨⟨q, u⟩, hq, he⟩
      obtain ⟨hq1, hq2⟩ := List.mem_filter.1 hq
      obtain ⟨r, hr, rfl⟩ := mem_byText.1 hq1
      simp only [ofLex_toLex, Bool.and_eq_true, beq_iff_eq] at hq2
      simp only [ofLex_toLex, names_get hp hw.unique hr, Option.map_some, Option.some.injEq] at he
      refine ⟨r, hr, hq2.1, hq2.2, ?_⟩
      rw [← he, nm_below hp hw.rows (by rw [hq2.2]; exact hb)]
      rfl
    · rintro ⟨r, hr, h3, h4, rfl⟩
      refine ⟨(toLex (r.text, toLex (r.corpus, r.id)), ()), List.mem_filter.2 ⟨mem_byText.2 ⟨r, hr, rfl⟩, ?_⟩, ?_⟩
      · simp [h3, h4]
      · simp only [ofLex_toLex, names_get hp hw.unique hr, Option.map_some, Option.some.injEq]
        rw [nm_below hp hw.rows (by rw [h4]; exact hb)]
        rfl

theorem textList_none {T : CTable} {names : OMap Nat Str} {byText : OMap (Nat ×ₗ Nat ×ₗ Nat) Unit} {x : TextRow} (h : x.corpus = none) :
    textList T names byText x = [] := by
  unfold textList textEvents
  rw [h]
  rfl

/-- The document of a text in the completed table. -/
theorem textIn_of_mem (hp : p.Of ext t) (hw : Spec.Corpus tree t) {k : Nat ×ₗ Nat} {x : TextRow} (hx : (k, x) ∈ p.texts) {c : Nat}
    (hc : x.corpus = some c) : TextIn t x.id c x.name x.val :=
  (texts_iff hp hw.text x.id c x.name x.val).1 ⟨k, by rw [← hc]; exact hx⟩

theorem closed_texts (hp : p.Of ext t) (hw : Spec.Corpus tree t) :
    ClosedAfter (p.ns.flatMap nodeEvents ++ (topEvents t.is33 p.T (corpusAnnos t.corpusAnnos) ext ++
      (tree.rows 0).flatMap (rowEvents p.T (corpusAnnos t.corpusAnnos) ext)))
      (p.texts.flatMap fun x => textList p.T (nodeNames p.ns) (nodesByText t.nodes) x.2) := by
  refine closedAfter_flatMap ?_
  rintro ⟨k, x⟩ hx
  cases hc : x.corpus with
  | none => rw [textList_none hc]; exact closedAfter_nil _
  | some c =>
    obtain ⟨names, hb⟩ := text_below hw (textIn_of_mem hp hw hx hc)
    obtain ⟨es, e, hes⟩ := mem_textList hp hw hx hc hb
    simp only
    rw [e]
    obtain ⟨anc, s, hs, hne, e1, e2⟩ := hb
    have hsub : AddsNode (p.ns.flatMap nodeEvents ++ (topEvents t.is33 p.T (corpusAnnos t.corpusAnnos) ext ++
      (tree.rows 0).flatMap (rowEvents p.T (corpusAnnos t.corpusAnnos) ext))) (pathName names) := by
      rw [e2]
      exact (adds_corpora hp hw hs).mono fun e he => List.mem_append_right _ he
    refine closedAfter_append (closedAfter_cons trivial trivial (closedAfter_cons trivial ⟨⟨"datasource".toList, by simp⟩,
      hsub.mono fun e he => List.mem_append_left _ he⟩ (closedAfter_nil _))) (closedAfter_of_known fun e he => ?_)
    obtain ⟨r, hr, h3, h4, rfl⟩ := (hes e).1 he
    refine ⟨trivial, ?_, ⟨"datasource".toList, by simp⟩⟩
    have := names_get hp hw.unique hr
    rw [nm_below hp hw.rows (by rw [h4]; exact ⟨anc, s, hs, hne, e1, e2⟩)] at this
    exact (addsNode_of_names this).mono fun e he => List.mem_append_left _ (List.mem_append_left _ he)

theorem closed_corpora (hp : p.Of ext t) (hw : Spec.Corpus tree t) : ClosedAfter (p.ns.flatMap nodeEvents) p.corpora := by
  rw [corpora_eq hp hw.rows]
  refine closedAfter_append (closedAfter_append (closed_top _) (closed_rows hp hw _)) ?_
  exact closed_texts hp hw

/-- All events of an import refer to nodes and edges which were added before. -/
theorem closed_events (hp : p.Of ext t) (hw : Spec.Corpus tree t) : Closed p.events := by
  have names : ∀ {i : Nat} {s : Str}, (nodeNames p.ns).get i = some s → AddsNode (p.ns.flatMap nodeEvents) s := addsNode_of_names
  refine Closed.of_after ?_
  unfold Parts.events
  refine closedAfter_append (closed_nodes _ _) ?_
  rw [List.nil_append]
  refine closedAfter_append (closedAfter_append (closedAfter_append (closedAfter_append (closedAfter_append (closedAfter_append ?_ ?_) ?_) ?_) ?_) ?_) ?_
  · refine closedAfter_of_known fun e he => ?_
    obtain ⟨_, _, _, _, _, _, s, t, h1, h2, rfl⟩ := (mem_orderFrom hp.ord _).1 he
    exact ⟨trivial, names h1, names h2⟩
  · refine ClosedAfter.mono (a := p.ns.flatMap nodeEvents) (fun e he => by simp [he]) (closedAfter_of_known fun e he => ?_)
    obtain ⟨_, _, _, h1, _, rfl | ⟨_, _, _, rfl⟩⟩ := (mem_nodeAnnos hp.annos).1 he
    · exact ⟨trivial, names h1⟩
    · exact ⟨trivial, names h1⟩
  · exact ClosedAfter.mono (a := p.ns.flatMap nodeEvents) (fun e he => by simp [he]) (closed_corpora hp hw)
  · refine ClosedAfter.mono (a := p.ns.flatMap nodeEvents) (fun e he => by simp [he]) (closedAfter_of_known fun e he => ?_)
    rw [hp.space] at he
    obtain ⟨_, _, _, _, h1, _, rfl⟩ := mem_addWhitespace he
    exact ⟨trivial, names h1⟩
  · refine ClosedAfter.mono (a := p.ns.flatMap nodeEvents) (fun e he => by simp [he]) (closedAfter_of_known fun e he => ?_)
    obtain ⟨_, _, _, _, _, _, _, h1, h2, rfl⟩ := (mem_rank hp.rank).1 he
    exact ⟨trivial, names h1, names h2⟩
  · refine ClosedAfter.mono (a := p.rank) (fun e he => by simp [he]) (closedAfter_of_known fun e he => ?_)
    obtain ⟨a, ha, q, c, sn, tn, h1, h2, h3, rfl⟩ := (mem_eannos hp.eannos).1 he
    refine ⟨trivial, ?_⟩
    obtain ⟨r, hr, e'⟩ := of_get_collect h1
    rw [Option.map_eq_some_iff] at e'
    obtain ⟨⟨s, c'⟩, e1, e2⟩ := e'
    simp only [Prod.mk.injEq] at e2
    obtain ⟨_, rfl, rfl⟩ := e2
    exact (mem_rank hp.rank).2 ⟨r, hr, s, _, sn, tn, e1, h2, h3, rfl⟩
  · refine ClosedAfter.mono (a := p.ns.flatMap nodeEvents) (fun e he => by simp [he]) (closedAfter_of_known fun e he => ?_)
    rw [hp.cov] at he
    obtain ⟨_, _, _, _, _, _, h1, h2, rfl⟩ := mem_addCoverage he
    exact ⟨trivial, names h1, names h2⟩

theorem mem_fileEvents {parent : Str} {files : List (Str × Str)} {x y : Str} {c : Option (CKey Str)} :
    (Event.addEdge x y c : Ev) ∈ fileEvents parent files ↔ c = partOfComp ∧ ∃ f ∈ files, x = parent ++ '/' :: f.1 ∧ y = parent := by
  unfold fileEvents
  simp only [List.mem_flatMap, List.mem_cons, List.not_mem_nil, or_false, reduceCtorEq, false_or, Event.addEdge.injEq]
  constructor
  · rintro ⟨f, hf, rfl, rfl, rfl⟩; exact ⟨rfl, f, hf, rfl, rfl⟩
  · rintro ⟨rfl, f, hf, rfl, rfl⟩; exact ⟨f, hf, rfl, rfl, rfl⟩

theorem edge_not_meta {annos : OMap (Nat ×ₗ AnnoKey Str) Str} {cid : Nat} {n x y : Str} {c : Option (CKey Str)} :
    (Event.addEdge x y c : Ev) ∉ metaEvents annos cid n := by
  intro h
  obtain ⟨_, _, _, h⟩ := mem_metaEvents h
  cases h

theorem edge_mem_subList {annos : OMap (Nat ×ₗ AnnoKey Str) Str} {anc : List Str} {s : CTree} {x y : Str} :
    (Event.addEdge x y partOfComp : Ev) ∈ subList annos ext anc s ↔
      (x = pathName (anc ++ [s.name]) ∧ y = pathName anc) ∨
      ∃ f ∈ ext (some s.name), x = pathName (anc ++ [s.name]) ++ '/' :: f.1 ∧ y = pathName (anc ++ [s.name]) := by
  unfold subList
  simp only [List.mem_append, List.mem_singleton, edge_not_meta, mem_fileEvents, reduceCtorEq, false_or, Event.addEdge.injEq,
    and_true, true_and, or_false]
  refine or_congr ?_ Iff.rfl
  constructor
  · rintro (h | h)
    · split_ifs at h
      · simp at h
      · cases h
    · exact h
  · exact Or.inr

/-- The edges of the corpus structure in the events. -/
theorem partOf_mem (hp : p.Of ext t) (hw : Spec.Corpus tree t) (hc : ∀ c ∈ t.comps, c.type ≠ .partOf) (x y : Str) :
    (Event.addEdge x y partOfComp : Ev) ∈ p.events ↔ PartOf tree ext t x y := by
  have hT : p.T.top = tree.name ∧ ∃ i, p.T.byPre.get 0 = some i := by
    obtain ⟨T', e', htop, hpre, _⟩ := hw.rows.parse
    rw [hp.T] at e'
    cases e'
    refine ⟨htop, ?_⟩
    rw [hpre]
    obtain ⟨id, name, doc, ch⟩ := tree
    exact ⟨id, by simp [CTree.rows, OMap.get]⟩
  have h1 : (Event.addEdge x y partOfComp : Ev) ∈ p.events ↔ (Event.addEdge x y partOfComp : Ev) ∈ p.corpora := by
    unfold Parts.events
    simp only [List.mem_append]
    constructor
    · rintro (he | (((((he | he) | he) | he) | he) | he) | he)
      · exact absurd he edge_not_nodes
      · obtain ⟨_, _, _, _, _, _, _, _, _, _, h⟩ := (mem_orderFrom hp.ord _).1 he
        simp only [Event.addEdge.injEq] at h
        exact absurd (compOf_inj h.2.2).1 (by decide)
      · obtain ⟨_, _, _, _, _, h | ⟨_, _, _, h⟩⟩ := (mem_nodeAnnos hp.annos).1 he <;> cases h
      · exact he
      · rw [hp.space] at he
        obtain ⟨_, _, _, _, _, _, h⟩ := mem_addWhitespace he
        cases h
      · obtain ⟨r, hr, s, c, _, _, h1, _, _, h⟩ := (mem_rank hp.rank).1 he
        simp only [Event.addEdge.injEq] at h
        obtain ⟨_, _, _, _, h2, _⟩ := (rankEdge_iff hw.unique hr).1 h1
        exact absurd (compOf_inj h.2.2).1.symm (hc c h2)
      · obtain ⟨_, _, _, _, _, _, _, _, _, h⟩ := (mem_eannos hp.eannos).1 he; cases h
      · rw [hp.cov] at he
        obtain ⟨n, _, _, _, _, _, _, _, h⟩ := mem_addCoverage he
        obtain ⟨l, g, e⟩ := covComp_type (rankResult (compTable t.comps) t.ranks) n
        simp only [Event.addEdge.injEq] at h
        rw [e] at h
        exact absurd (comp_inj (Option.some.inj h.2.2)).1 (by decide)
    · intro h
      exact Or.inr (Or.inl (Or.inl (Or.inl (Or.inl (Or.inr h)))))
  have htop : (Event.addEdge x y partOfComp : Ev) ∈ topEvents t.is33 p.T (corpusAnnos t.corpusAnnos) ext ↔
      ∃ f ∈ ext none, x = pathName [tree.name] ++ '/' :: f.1 ∧ y = pathName [tree.name] := by
    obtain ⟨e, i, hi⟩ := hT
    unfold topEvents
    rw [hi]
    simp only [List.mem_append, List.mem_cons, List.not_mem_nil, or_false, reduceCtorEq, edge_not_meta, mem_fileEvents, false_or,
      true_and, e, pathName_single hw.top]
  have hrows : (Event.addEdge x y partOfComp : Ev) ∈ (tree.rows 0).flatMap (rowEvents p.T (corpusAnnos t.corpusAnnos) ext) ↔
      ∃ anc s, (anc, s) ∈ tree.subs [] ∧ anc ≠ [] ∧ ((x = pathName (anc ++ [s.name]) ∧ y = pathName anc) ∨
      ∃ f ∈ ext (some s.name), x = pathName (anc ++ [s.name]) ++ '/' :: f.1 ∧ y = pathName (anc ++ [s.name])) := by
    rw [List.mem_flatMap]
    constructor
    · rintro ⟨r, hr, he⟩
      obtain ⟨anc, s, hs, hrs, h⟩ := hw.rows.sub_of_row hr
      unfold rowEvents at he
      rcases h with ⟨_, _, h0⟩ | ⟨h0, anc', s', _, e, _⟩
      · rw [h0, subEvents_root] at he
        cases he
      · have hne : anc ≠ [] := by rw [e]; simp
        rw [subEvents_below hw.rows hp.T hr h0 hs hrs hne] at he
        exact ⟨anc, s, hs, hne, edge_mem_subList.1 he⟩
    · rintro ⟨anc, s, hs, hne, h⟩
      obtain ⟨r, hr, hrs, h'⟩ := rows_parent 0 [] tree anc s hs
      rcases h' with ⟨e, _⟩ | ⟨h0, _⟩
      · exact absurd e hne
      · refine ⟨r, hr, ?_⟩
        unfold rowEvents
        rw [subEvents_below hw.rows hp.T hr h0 hs hrs hne]
        exact edge_mem_subList.2 h
  have htext : (Event.addEdge x y partOfComp : Ev) ∈ (p.texts.flatMap fun x => textList p.T (nodeNames p.ns) (nodesByText t.nodes) x.2) ↔
      (∃ id c name val names, TextIn t id c name val ∧ Below tree c names ∧
        x = pathName names ++ '#' :: pctEncode nodeNameSet name ∧ y = pathName names) ∨
      (∃ id c name val names, TextIn t id c name val ∧ Below tree c names ∧ ∃ r ∈ t.nodes, r.text = id ∧ r.corpus = c ∧
        x = pathName names ++ '#' :: r.name ∧ y = pathName names ++ '#' :: pctEncode nodeNameSet name) := by
    rw [List.mem_flatMap]
    constructor
    · rintro ⟨⟨k, z⟩, hz, he⟩
      simp only at he
      cases hzc : z.corpus with
      | none => rw [textList_none hzc] at he; cases he
      | some c =>
        have hin := textIn_of_mem hp hw hz hzc
        obtain ⟨names, hb⟩ := text_below hw hin
        obtain ⟨es, e, hes⟩ := mem_textList hp hw hz hzc hb
        rw [e, List.mem_append, hes] at he
        rcases he with he | ⟨r, hr, h3, h4, h5⟩
        · simp only [List.mem_cons, reduceCtorEq, List.not_mem_nil, or_false, false_or, Event.addEdge.injEq, and_true] at he
          exact Or.inl ⟨_, _, _, _, names, hin, hb, he.1, he.2⟩
        · simp only [Event.addEdge.injEq, and_true] at h5
          exact Or.inr ⟨_, _, _, _, names, hin, hb, r, hr, h3, h4, h5.1, h5.2⟩
    · rintro (⟨id, c, name, val, names, hin, hb, rfl, rfl⟩ | ⟨id, c, name, val, names, hin, hb, r, hr, h3, h4, rfl, rfl⟩)
      · obtain ⟨k, hk⟩ := (texts_iff hp hw.text _ _ _ _).2 hin
        obtain ⟨es, e, hes⟩ := mem_textList hp hw hk rfl hb
        exact ⟨_, hk, by rw [e]; simp⟩
      · obtain ⟨k, hk⟩ := (texts_iff hp hw.text _ _ _ _).2 hin
        obtain ⟨es, e, hes⟩ := mem_textList hp hw hk rfl hb
        exact ⟨_, hk, by rw [e, List.mem_append, hes]; exact Or.inr ⟨r, hr, h3, h4, rfl⟩⟩
  rw [h1, corpora_eq hp hw.rows, List.mem_append, List.mem_append, htop, hrows, htext]
  unfold PartOf
  constructor
  · rintro ((h | ⟨anc, s, hs, hne, h | h⟩) | h | h)
    · exact Or.inr (Or.inl h)
    · exact Or.inl ⟨anc, s, hs, hne, h⟩
    · exact Or.inr (Or.inr (Or.inl ⟨anc, s, hs, hne, h⟩))
    · exact Or.inr (Or.inr (Or.inr (Or.inl h)))
    · exact Or.inr (Or.inr (Or.inr (Or.inr h)))
  · rintro (⟨anc, s, hs, hne, h⟩ | h | ⟨anc, s, hs, hne, h⟩ | h | h)
    · exact Or.inl (Or.inr ⟨anc, s, hs, hne, Or.inl h⟩)
    · exact Or.inl (Or.inl h)
    · exact Or.inl (Or.inr ⟨anc, s, hs, hne, Or.inr h⟩)
    · exact Or.inr (Or.inl h)
    · exact Or.inr (Or.inr h)

end

/-- C80: in the imported graph the edges of the corpus structure are exactly those from the corpora to their parents, from files
and texts to their documents and from nodes to their texts. -/
theorem C80_part_of_partial {ext : Option Str → List (Str × Str)} {t : Tables} {tree : CTree} {name : Str} {evs : List Ev}
    (h : importEvents ext t = some (name, evs)) (hw : Spec.Corpus tree t) (hc : ∀ c ∈ t.comps, c.type ≠ .partOf) (x y : Str) :
    (graphOf evs).edge (comp .partOf annisNs []) x y = true ↔ x ≠ y ∧ PartOf tree ext t x y := by
  obtain ⟨p, hp, rfl, rfl⟩ := importEvents_parts h
  have hcl := closed_events hp hw
  unfold graphOf
  rw [run_edge hcl.adds _ _ _ (hcl.edgeKnown _ _ _), and_comm]
  refine and_congr Iff.rfl ?_
  exact partOf_mem hp hw hc x y

/-- C80: every corpus below the root is a node and part of its parent. -/
theorem C80_corpora_partial {ext : Option Str → List (Str × Str)} {t : Tables} {tree : CTree} {name : Str} {evs : List Ev}
    (h : importEvents ext t = some (name, evs)) (hw : Spec.Corpus tree t) (hc : ∀ c ∈ t.comps, c.type ≠ .partOf)
    {anc : List Str} {s : CTree} (hs : (anc, s) ∈ tree.subs []) :
    (graphOf evs).node (pathName (anc ++ [s.name])) = true ∧
    (anc ≠ [] → (graphOf evs).edge (comp .partOf annisNs []) (pathName (anc ++ [s.name])) (pathName anc) = true) := by
  refine ⟨?_, fun hne => (C80_part_of_partial h hw hc _ _).2 ⟨?_, Or.inl ⟨anc, s, hs, hne, rfl, rfl⟩⟩⟩
  · obtain ⟨p, hp, rfl, rfl⟩ := importEvents_parts h
    unfold graphOf
    rw [run_node hp.adds]
    refine (adds_corpora hp hw hs).mono fun e he => ?_
    unfold Parts.events
    rw [corpora_eq hp hw.rows]
    simp only [List.mem_append] at he ⊢
    tauto
  · intro e
    have := congrArg List.length (C78_path_injective (by simp) hne e)
    simp at this

end Rel
