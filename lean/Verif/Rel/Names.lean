import Verif.Rel.Struct
import Verif.Graph.Props

/-!
# The nodes of an imported corpus (C79)
-/

set_option linter.unusedSimpArgs false
set_option linter.unusedSectionVars false

namespace Rel

open Spec

namespace Spec

/-- The nodes of an imported corpus and their types. -/
def NodeOf (tree : CTree) (ext : Option Str → List (Str × Str)) (t : Tables) (x ty : Str) : Prop :=
  (∃ r ∈ t.nodes, ∃ names, Below tree r.corpus names ∧ x = pathName names ++ '#' :: r.name ∧ ty = "node".toList) ∨
  (∃ anc s, (anc, s) ∈ tree.subs [] ∧ x = pathName (anc ++ [s.name]) ∧ ty = "corpus".toList) ∨
  (∃ id c name val names, TextIn t id c name val ∧ Below tree c names ∧ x = pathName names ++ '#' :: pctEncode nodeNameSet name ∧
    ty = "datasource".toList) ∨
  (∃ f ∈ ext none, x = pathName [tree.name] ++ '/' :: f.1 ∧ ty = "file".toList) ∨
  (∃ anc s, (anc, s) ∈ tree.subs [] ∧ anc ≠ [] ∧ ∃ f ∈ ext (some s.name), x = pathName (anc ++ [s.name]) ++ '/' :: f.1 ∧
    ty = "file".toList)

/-- No annotation has the name of the labels for the name and the type of a node. -/
def NoReserved (t : Tables) : Prop :=
  ∀ a, a ∈ t.nodeAnnos ∨ a ∈ t.corpusAnnos → ¬ (a.ns = "annis".toList ∧ (a.name = "node_name".toList ∨ a.name = "node_type".toList))

/-- No corpus name contains the character which separates the document from the name of the node. -/
def NoHash (tree : CTree) : Prop := ∀ anc s, (anc, s) ∈ tree.subs [] → '#' ∉ s.name

end Spec

/-! ### The separator in encoded names -/

theorem utf8_ascii_byte {c : Char} {b : UInt8} (h : b ∈ String.utf8EncodeChar c) (hb : b.toNat < 128) : c.toNat = b.toNat := by
  have e : c.toNat = c.val.toNat := rfl
  have hlt := c.valid
  unfold String.utf8EncodeChar at h
  simp only at h
  rw [e]
  generalize c.val.toNat = v at h
  split_ifs at h
  · rw [List.mem_singleton] at h
    subst h
    rw [UInt8.toNat_ofNat']
    omega
  · simp only [List.mem_cons, List.not_mem_nil, or_false] at h
    rcases h with h | h <;> subst h <;> rw [UInt8.toNat_ofNat'] at hb <;> omega
  · simp only [List.mem_cons, List.not_mem_nil, or_false] at h
    rcases h with h | h | h <;> subst h <;> rw [UInt8.toNat_ofNat'] at hb <;> omega
  · simp only [List.mem_cons, List.not_mem_nil, or_false] at h
    rcases h with h | h | h | h <;> subst h <;> rw [UInt8.toNat_ofNat'] at hb <;> omega

theorem not_mem_pctEncode_of_not_mem {set : AsciiSet} {s : Str} {c : Char} (hs : c ∉ s) (h1 : c ≠ '%') (h2 : c ∉ hexDigits) :
    c ∉ pctEncode set s := by
  intro h
  unfold pctEncode at h
  obtain ⟨b, hb, hc⟩ := List.mem_flatMap.1 h
  unfold encByte at hc
  split_ifs at hc with hx
  · simp only [List.mem_cons, List.not_mem_nil, or_false] at hc
    rcases hc with hc | hc | hc
    · exact h1 hc
    · refine h2 (hc ▸ ?_)
      unfold hexDigit
      rw [List.getD_eq_getElem?_getD]
      cases he : hexDigits[b.toNat / 16]? with
      | none => decide
      | some d => exact List.mem_of_getElem? he
    · refine h2 (hc ▸ ?_)
      unfold hexDigit
      rw [List.getD_eq_getElem?_getD]
      cases he : hexDigits[b.toNat % 16]? with
      | none => decide
      | some d => exact List.mem_of_getElem? he
  · rw [List.mem_singleton] at hc
    push Not at hx
    unfold utf8 at hb
    obtain ⟨d, hd, hb⟩ := List.mem_flatMap.1 hb
    have e := utf8_ascii_byte hb hx.1
    refine hs (?_ : c ∈ s)
    rw [hc, ← e, Char.ofNat_toNat]
    exact hd

theorem hash_not_mem_joinSlash : ∀ {l : List Str}, (∀ s ∈ l, '#' ∉ s) → '#' ∉ joinSlash l
  | [], _ => by simp [joinSlash]
  | [s], h => h s (by simp)
  | s :: t :: r, h => by
    rw [joinSlash, List.mem_append, List.mem_cons]
    rintro (h1 | h1 | h1)
    · exact h s (by simp) h1
    · cases h1
    · exact hash_not_mem_joinSlash (l := t :: r) (fun x hx => h x (by simp [hx])) h1

theorem hash_not_mem_pathName {names : List Str} (h : ∀ s ∈ names, '#' ∉ s) : '#' ∉ pathName names := by
  refine hash_not_mem_joinSlash fun s hs => ?_
  obtain ⟨n, hn, rfl⟩ := List.mem_map.1 hs
  exact not_mem_pctEncode_of_not_mem (h n hn) (by decide) (by decide)

mutual
theorem subs_names (acc : List Str) : ∀ (t : CTree) (anc : List Str) (s : CTree), (anc, s) ∈ t.subs acc → ∀ n ∈ anc, n ∈ acc ∨
    ∃ anc' s', (anc', s') ∈ t.subs acc ∧ n = s'.name
  | .node id name doc ch, anc, s, h, n, hn => by
    rw [CTree.subs, List.mem_cons] at h
    rcases h with h | h
    · cases h; exact Or.inl hn
    · rcases forestSubs_names (acc ++ [name]) ch anc s h n hn with h1 | ⟨anc', s', h1, h2⟩
      · rcases List.mem_append.1 h1 with h1 | h1
        · exact Or.inl h1
        · refine Or.inr ⟨acc, .node id name doc ch, by rw [CTree.subs]; exact List.mem_cons_self, ?_⟩
          simpa [CTree.name] using h1
      · exact Or.inr ⟨anc', s', by rw [CTree.subs]; exact List.mem_cons_of_mem _ h1, h2⟩
theorem forestSubs_names (acc : List Str) : ∀ (ts : List CTree) (anc : List Str) (s : CTree), (anc, s) ∈ CTree.forestSubs acc ts →
    ∀ n ∈ anc, n ∈ acc ∨ ∃ anc' s', (anc', s') ∈ CTree.forestSubs acc ts ∧ n = s'.name
  | [], anc, s, h, n, hn => by rw [CTree.forestSubs] at h; cases h
  | t :: ts, anc, s, h, n, hn => by
    rw [CTree.forestSubs, List.mem_append] at h
    rw [CTree.forestSubs]
    rcases h with h | h
    · rcases subs_names acc t anc s h n hn with h1 | ⟨anc', s', h1, h2⟩
      · exact Or.inl h1
      · exact Or.inr ⟨anc', s', by simp [h1], h2⟩
    · rcases forestSubs_names acc ts anc s h n hn with h1 | ⟨anc', s', h1, h2⟩
      · exact Or.inl h1
      · exact Or.inr ⟨anc', s', by simp [h1], h2⟩
end

theorem Spec.NoHash.path {tree : CTree} (h : NoHash tree) {anc : List Str} {s : CTree} (hs : (anc, s) ∈ tree.subs []) :
    '#' ∉ pathName (anc ++ [s.name]) := by
  refine hash_not_mem_pathName fun n hn => ?_
  rcases List.mem_append.1 hn with hn | hn
  · rcases subs_names [] tree anc s hs n hn with h1 | ⟨anc', s', h1, rfl⟩
    · cases h1
    · exact h anc' s' h1
  · rw [List.mem_singleton.1 hn]
    exact h anc s hs

theorem split_hash {a b x y : Str} (ha : '#' ∉ a) (hb : '#' ∉ b) (h : a ++ '#' :: x = b ++ '#' :: y) : a = b ∧ x = y := by
  have h1 := splitOnce_append (c := '#') ha x
  have h2 := splitOnce_append (c := '#') hb y
  rw [h, h2, Option.some.injEq, Prod.mk.injEq] at h1
  exact ⟨h1.1.symm, h1.2.symm⟩

/-- C79: two rows of the node table get the same node name only if they have the same name in the same document, provided that
no corpus name contains `#` and corpora with the same parent have different names. -/
theorem C79_names_partial {tree : CTree} {k : Nat} {rows : List CorpusRow} (hw : TreeTable k tree rows) (hh : NoHash tree)
    (hs : tree.SiblingsDiffer) {a b : NodeRow} {na nb : List Str} (ha : Below tree a.corpus na) (hb : Below tree b.corpus nb)
    (h : pathName na ++ '#' :: a.name = pathName nb ++ '#' :: b.name) : a.corpus = b.corpus ∧ a.name = b.name := by
  obtain ⟨anc, s, h1, h2, h3, rfl⟩ := ha
  obtain ⟨anc', s', h1', h2', h3', rfl⟩ := hb
  obtain ⟨e1, e2⟩ := split_hash (hh.path h1) (hh.path h1') h
  refine ⟨?_, e2⟩
  have e := C78_path_injective (by simp) (by simp) e1
  have := List.inj_on_of_nodup_map (subs_nodup [] tree hs) h1 h1' e
  rw [← h3, ← h3']
  exact congrArg (fun x => x.2.id) this

/-! ### The nodes and their types -/

section
variable {ext : Option Str → List (Str × Str)} {t : Tables} {p : Parts} {tree : CTree}

theorem node_mem_files {parent : Str} {files : List (Str × Str)} {x ty : Str} :
    (Event.addNode x ty : Ev) ∈ fileEvents parent files ↔ ∃ f ∈ files, x = parent ++ '/' :: f.1 ∧ ty = "file".toList := by
  unfold fileEvents
  simp only [List.mem_flatMap, List.mem_cons, List.not_mem_nil, or_false, reduceCtorEq, Event.addNode.injEq]

theorem node_not_meta {annos : OMap (Nat ×ₗ AnnoKey Str) Str} {cid : Nat} {n x ty : Str} :
    (Event.addNode x ty : Ev) ∉ metaEvents annos cid n := by
  intro h
  obtain ⟨_, _, _, h⟩ := mem_metaEvents h
  cases h

theorem node_mem_subList {annos : OMap (Nat ×ₗ AnnoKey Str) Str} {anc : List Str} {s : CTree} {x ty : Str} :
    (Event.addNode x ty : Ev) ∈ subList annos ext anc s ↔ (x = pathName (anc ++ [s.name]) ∧ ty = "corpus".toList) ∨
      ∃ f ∈ ext (some s.name), x = pathName (anc ++ [s.name]) ++ '/' :: f.1 ∧ ty = "file".toList := by
  unfold subList
  simp only [List.mem_append, List.mem_singleton, node_not_meta, node_mem_files, reduceCtorEq, or_false, Event.addNode.injEq]
  refine or_congr ?_ Iff.rfl
  constructor
  · rintro (h | h)
    · exact h
    · split_ifs at h
      · simp at h
      · cases h
  · exact Or.inl

theorem nodes_mem (hp : p.Of ext t) (hw : Spec.Corpus tree t) (x ty : Str) :
    (Event.addNode x ty : Ev) ∈ p.events ↔ NodeOf tree ext t x ty := by
  have hT : p.T.top = tree.name ∧ ∃ i, p.T.byPre.get 0 = some i := by
    obtain ⟨T', e', htop, hpre, _⟩ := hw.rows.parse
    rw [hp.T] at e'
    cases e'
    refine ⟨htop, ?_⟩
    rw [hpre]
    obtain ⟨id, name, doc, ch⟩ := tree
    exact ⟨id, by simp [CTree.rows, OMap.get]⟩
  have hroot : ([], tree) ∈ tree.subs [] := by
    obtain ⟨id, name, doc, ch⟩ := tree
    rw [CTree.subs]
    exact List.mem_cons_self
  have h1 : (Event.addNode x ty : Ev) ∈ p.events ↔ (Event.addNode x ty : Ev) ∈ p.ns.flatMap nodeEvents ∨ (Event.addNode x ty : Ev) ∈ p.corpora := by
    unfold Parts.events
    simp only [List.mem_append]
    constructor
    · rintro (he | (((((he | he) | he) | he) | he) | he) | he)
      · exact Or.inl he
      · obtain ⟨_, _, _, _, _, _, _, _, _, _, h⟩ := (mem_orderFrom hp.ord _).1 he; cases h
      · obtain ⟨_, _, _, _, _, h | ⟨_, _, _, h⟩⟩ := (mem_nodeAnnos hp.annos).1 he <;> cases h
      · exact Or.inr he
      · rw [hp.space] at he
        obtain ⟨_, _, _, _, _, _, h⟩ := mem_addWhitespace he
        cases h
      · obtain ⟨_, _, _, _, _, _, _, _, _, h⟩ := (mem_rank hp.rank).1 he; cases h
      · obtain ⟨_, _, _, _, _, _, _, _, _, h⟩ := (mem_eannos hp.eannos).1 he; cases h
      · rw [hp.cov] at he
        obtain ⟨n, _, _, _, _, _, _, _, h⟩ := mem_addCoverage he
        cases h
    · rintro (h | h)
      · exact Or.inl h
      · exact Or.inr (Or.inl (Or.inl (Or.inl (Or.inl (Or.inr h)))))
  have hns : (Event.addNode x ty : Ev) ∈ p.ns.flatMap nodeEvents ↔
      ∃ r ∈ t.nodes, ∃ names, Below tree r.corpus names ∧ x = pathName names ++ '#' :: r.name ∧ ty = "node".toList := by
    rw [List.mem_flatMap]
    constructor
    · rintro ⟨n, hn, he⟩
      obtain ⟨hr, q, hq, e⟩ := (nameNodes_mem hp.ns n).1 hn
      obtain ⟨names, hb⟩ := hw.nodes n.1 hr
      rw [below_path hp hw.rows hb] at hq
      cases hq
      unfold nodeEvents at he
      rcases List.mem_cons.1 he with he | he
      · simp only [Event.addNode.injEq] at he
        exact ⟨n.1, hr, names, hb, by rw [he.1, e], he.2⟩
      · rcases adds_nodeEvents (n := n) (e := Event.addNode x ty) (by unfold nodeEvents; exact List.mem_cons_of_mem _ he) with h | ⟨_, _, h, _⟩
        · exfalso
          rcases List.mem_append.1 he with he | he
          · cases hl : n.1.layer with
            | none => rw [hl] at he; cases he
            | some l =>
              rw [hl] at he
              simp only at he
              split_ifs at he
              · simp at he
              · cases he
          · cases hk : n.1.kind with
            | tok i sp => rw [hk] at he; simp at he
            | seg g i sp => rw [hk] at he; cases sp <;> simp at he
            | plain => rw [hk] at he; cases he
        · cases h
    · rintro ⟨r, hr, names, hb, rfl, rfl⟩
      refine ⟨(r, pathName names ++ '#' :: r.name), (nameNodes_mem hp.ns _).2 ⟨hr, _, below_path hp hw.rows hb, rfl⟩, ?_⟩
      simp [nodeEvents]
  have htop : (Event.addNode x ty : Ev) ∈ topEvents t.is33 p.T (corpusAnnos t.corpusAnnos) ext ↔
      (x = pathName [tree.name] ∧ ty = "corpus".toList) ∨ ∃ f ∈ ext none, x = pathName [tree.name] ++ '/' :: f.1 ∧ ty = "file".toList := by
    obtain ⟨e, i, hi⟩ := hT
    unfold topEvents
    rw [hi]
    simp only [List.mem_append, List.mem_cons, List.not_mem_nil, or_false, reduceCtorEq, node_not_meta, node_mem_files, false_or,
      Event.addNode.injEq, e, pathName_single hw.top]
  have hrows : (Event.addNode x ty : Ev) ∈ (tree.rows 0).flatMap (rowEvents p.T (corpusAnnos t.corpusAnnos) ext) ↔
      ∃ anc s, (anc, s) ∈ tree.subs [] ∧ anc ≠ [] ∧ ((x = pathName (anc ++ [s.name]) ∧ ty = "corpus".toList) ∨
      ∃ f ∈ ext (some s.name), x = pathName (anc ++ [s.name]) ++ '/' :: f.1 ∧ ty = "file".toList) := by
    rw [List.mem_flatMap]
    constructor
    · rintro ⟨r, hr, he⟩
      obtain ⟨anc, s, hs, hrs, h⟩ := hw.rows.sub_of_row hr
      unfold rowEvents at he
      rcases h with ⟨_, _, h0⟩ | ⟨h0, anc', s', _, e, _⟩
      · rw [h0, subEvents_root] at he
        cases he
      · have hne : anc ≠ [] := by rw [e]; simp
        rw [subEvents_below hw.rows hp.T hr h0 hs hrs hne] at he
        exact ⟨anc, s, hs, hne, node_mem_subList.1 he⟩
    · rintro ⟨anc, s, hs, hne, h⟩
      obtain ⟨r, hr, hrs, h'⟩ := rows_parent 0 [] tree anc s hs
      rcases h' with ⟨e, _⟩ | ⟨h0, _⟩
      · exact absurd e hne
      · refine ⟨r, hr, ?_⟩
        unfold rowEvents
        rw [subEvents_below hw.rows hp.T hr h0 hs hrs hne]
        exact node_mem_subList.2 h
  have htext : (Event.addNode x ty : Ev) ∈ (p.texts.flatMap fun x => textList p.T (nodeNames p.ns) (nodesByText t.nodes) x.2) ↔
      ∃ id c name val names, TextIn t id c name val ∧ Below tree c names ∧
        x = pathName names ++ '#' :: pctEncode nodeNameSet name ∧ ty = "datasource".toList := by
    rw [List.mem_flatMap]
    constructor
    · rintro ⟨⟨k, z⟩, hz, he⟩
      simp only at he
      cases hzc : z.corpus with
      | none => rw [textList_none hzc] at he; cases he
      | some c =>
        have hin := textIn_of_mem hp hw hz hzc
        obtain ⟨names, hb⟩ := text_below hw hin
        obtain ⟨es, e, hes⟩ := mem_textList hp hw hz hzc hb
        rw [e, List.mem_append, hes] at he
        rcases he with he | ⟨r, hr, h3, h4, h5⟩
        · simp only [List.mem_cons, reduceCtorEq, List.not_mem_nil, or_false, false_or, Event.addNode.injEq] at he
          exact ⟨_, _, _, _, names, hin, hb, he.1, he.2⟩
        · cases h5
    · rintro ⟨id, c, name, val, names, hin, hb, rfl, rfl⟩
      obtain ⟨k, hk⟩ := (texts_iff hp hw.text _ _ _ _).2 hin
      obtain ⟨es, e, hes⟩ := mem_textList hp hw hk rfl hb
      exact ⟨_, hk, by rw [e]; simp⟩
  rw [h1, hns, corpora_eq hp hw.rows, List.mem_append, List.mem_append, htop, hrows, htext]
  unfold NodeOf
  refine or_congr Iff.rfl ?_
  constructor
  · rintro (((h | h) | ⟨anc, s, hs, hne, h | h⟩) | h)
    · exact Or.inl ⟨[], tree, hroot, h⟩
    · exact Or.inr (Or.inr (Or.inl h))
    · exact Or.inl ⟨anc, s, hs, h⟩
    · exact Or.inr (Or.inr (Or.inr ⟨anc, s, hs, hne, h⟩))
    · exact Or.inr (Or.inl h)
  · rintro (⟨anc, s, hs, h⟩ | h | h | ⟨anc, s, hs, hne, h⟩)
    · by_cases hne : anc = []
      · subst hne
        obtain ⟨r, _, _, ⟨_, rfl, _⟩ | ⟨_, anc', s', _, e, _⟩⟩ := rows_parent 0 [] tree [] s hs
        · exact Or.inl (Or.inl (Or.inl h))
        · simp at e
      · exact Or.inl (Or.inr ⟨anc, s, hs, hne, Or.inl h⟩)
    · exact Or.inr h
    · exact Or.inl (Or.inl (Or.inr h))
    · exact Or.inl (Or.inr ⟨anc, s, hs, hne, Or.inr h⟩)

/-- The labels which are set by the tables. -/
theorem label_keys (hp : p.Of ext t) {n v : Str} {k : AnnoKey Str} (h : (Event.addNodeLabel n k v : Ev) ∈ p.events) :
    k ∈ [layerKey, tokKey, docKey, versionKey, fileKey, beforeKey, afterKey] ∨
      ∃ a, (a ∈ t.nodeAnnos ∨ a ∈ t.corpusAnnos) ∧ k = AnnoKey.mk a.ns a.name := by
  have hmeta : ∀ {cid : Nat} {m : Str}, (Event.addNodeLabel n k v : Ev) ∈ metaEvents (corpusAnnos t.corpusAnnos) cid m →
      ∃ a, (a ∈ t.nodeAnnos ∨ a ∈ t.corpusAnnos) ∧ k = AnnoKey.mk a.ns a.name := by
    intro cid m hm
    obtain ⟨k', v', h1, h2⟩ := mem_metaEvents hm
    simp only [Event.addNodeLabel.injEq] at h2
    obtain ⟨rfl, rfl, rfl⟩ := h2
    obtain ⟨a, ha, e⟩ := of_get_collect (mem_collect.1 h1)
    simp only [Option.some.injEq, Prod.mk.injEq] at e
    exact ⟨a, Or.inr ha, (congrArg (fun x : Nat ×ₗ AnnoKey Str => (ofLex x).2) e.1).symm⟩
  have hfile : ∀ {parent : Str} {files : List (Str × Str)}, (Event.addNodeLabel n k v : Ev) ∈ fileEvents parent files → k = fileKey := by
    intro parent files hm
    obtain ⟨f, _, hm⟩ := List.mem_flatMap.1 hm
    simp only [List.mem_cons, reduceCtorEq, List.not_mem_nil, or_false, false_or, Event.addNodeLabel.injEq] at hm
    exact hm.2.1
  unfold Parts.events at h
  simp only [List.mem_append] at h
  rcases h with he | (((((he | he) | he) | he) | he) | he) | he
  · obtain ⟨m, _, he⟩ := List.mem_flatMap.1 he
    rcases adds_nodeEvents he with ⟨_, h⟩ | ⟨_, _, h, hk⟩
    · cases h
    · simp only [Event.addNodeLabel.injEq] at h
      rw [h.2.1]
      rcases hk with rfl | rfl <;> simp
  · obtain ⟨_, _, _, _, _, _, _, _, _, _, h⟩ := (mem_orderFrom hp.ord _).1 he; cases h
  · obtain ⟨a, ha, _, _, _, h | ⟨_, _, _, h⟩⟩ := (mem_nodeAnnos hp.annos).1 he
    · simp only [Event.addNodeLabel.injEq] at h
      exact Or.inr ⟨a, Or.inl ha, h.2.1⟩
    · simp only [Event.addNodeLabel.injEq] at h
      rw [h.2.1]; simp
  · have hc := hp.corpora
    simp only [addSubcorpora, Option.bind_eq_bind, Option.bind_eq_some_iff, Option.pure_def, Option.some.injEq] at hc
    obtain ⟨subs, h1, txts, h2, hc⟩ := hc
    rw [← hc] at he
    rcases List.mem_append.1 he with he | he
    · rcases List.mem_append.1 he with he | he
      · unfold topEvents at he
        rcases List.mem_append.1 he with he | he
        · simp only [List.mem_cons, reduceCtorEq, List.not_mem_nil, or_false, false_or, Event.addNodeLabel.injEq] at he
          rw [he.2.1]; simp
        · split at he
          · rcases List.mem_append.1 he with he | he
            · exact Or.inr (hmeta he)
            · rw [hfile he]; simp
          · cases he
      · obtain ⟨l, hl, he⟩ := List.mem_flatten.1 he
        obtain ⟨q, hq, hs⟩ := (mapM_some_mem h1 l).1 hl
        unfold subEvents at hs
        split_ifs at hs
        · cases hs; cases he
        · simp only [Option.bind_eq_bind, Option.bind_eq_some_iff, Option.pure_def, Option.some.injEq] at hs
          obtain ⟨c, hc, full, hfull, parent, hparent, rfl⟩ := hs
          simp only [List.append_assoc] at he
          rcases List.mem_append.1 he with he | he
          · simp at he
          · rcases List.mem_append.1 he with he | he
            · split_ifs at he
              · simp only [List.mem_singleton, Event.addNodeLabel.injEq] at he
                rw [he.2.1]; simp
              · cases he
            · rcases List.mem_append.1 he with he | he
              · exact Or.inr (hmeta he)
              · rcases List.mem_append.1 he with he | he
                · simp at he
                · rw [hfile he]; simp
    · obtain ⟨l, hl, he⟩ := List.mem_flatten.1 he
      obtain ⟨q, hq, hs⟩ := (mapM_some_mem h2 l).1 hl
      unfold textEvents at hs
      split at hs
      · cases hs; cases he
      · simp only [Option.bind_eq_bind, Option.bind_eq_some_iff, Option.pure_def, Option.some.injEq] at hs
        obtain ⟨sub, _, es, hes, rfl⟩ := hs
        rcases List.mem_append.1 he with he | he
        · simp at he
        · obtain ⟨q, _, hq⟩ := (mapM_some_mem hes _).1 he
          rw [Option.map_eq_some_iff] at hq
          obtain ⟨n, _, h⟩ := hq
          cases h
  · rw [hp.space] at he
    obtain ⟨_, _, _, _, _, hk, h⟩ := mem_addWhitespace he
    simp only [Event.addNodeLabel.injEq] at h
    rw [h.2.1]
    rcases hk with rfl | rfl <;> simp
  · obtain ⟨_, _, _, _, _, _, _, _, _, h⟩ := (mem_rank hp.rank).1 he; cases h
  · obtain ⟨_, _, _, _, _, _, _, _, _, h⟩ := (mem_eannos hp.eannos).1 he; cases h
  · rw [hp.cov] at he
    obtain ⟨_, _, _, _, _, _, _, _, h⟩ := mem_addCoverage he
    cases h

theorem annoKey_inj {a b c d : Str} (h : AnnoKey.mk a b = AnnoKey.mk c d) : a = c ∧ b = d :=
  ⟨congrArg (fun x : AnnoKey Str => (ofLex x).2) h, congrArg (fun x : AnnoKey Str => (ofLex x).1) h⟩

theorem reserved_keys (hp : p.Of ext t) (hr : NoReserved t) {n v : Str} {k : AnnoKey Str} (hk : k = nameKey ∨ k = typeKey) :
    (Event.addNodeLabel n k v : Ev) ∉ p.events := by
  intro h
  rcases label_keys hp h with h | ⟨a, ha, e⟩
  · rcases hk with rfl | rfl
    · exact absurd h (by decide)
    · exact absurd h (by decide)
  · refine hr a ha ?_
    rcases hk with rfl | rfl
    · obtain ⟨e1, e2⟩ := annoKey_inj e
      exact ⟨e1.symm, Or.inl e2.symm⟩
    · obtain ⟨e1, e2⟩ := annoKey_inj e
      exact ⟨e1.symm, Or.inr e2.symm⟩

end

/-- C79: the nodes of the imported graph are exactly those of the rows of the node table, the corpora, the texts and the files,
and they have the type which belongs to them (as long as it is unique and no annotation has the name of the type label). -/
theorem C79_nodes_partial {ext : Option Str → List (Str × Str)} {t : Tables} {tree : CTree} {name : Str} {evs : List Ev}
    (h : importEvents ext t = some (name, evs)) (hw : Spec.Corpus tree t) (x : Str) :
    ((graphOf evs).node x = true ↔ ∃ ty, NodeOf tree ext t x ty) ∧
    ∀ ty, NoReserved t → NodeOf tree ext t x ty → (∀ ty', NodeOf tree ext t x ty' → ty' = ty) →
      (graphOf evs).label x typeKey = some ty := by
  obtain ⟨p, hp, rfl, rfl⟩ := importEvents_parts h
  unfold graphOf
  refine ⟨?_, ?_⟩
  · rw [run_node hp.adds]
    unfold AddsNode
    simp only [nodes_mem hp hw]
  · intro ty hr h1 h2
    refine run_type hp.adds (by decide) x ty ((nodes_mem hp hw _ _).2 h1) (fun ty' h' => h2 ty' ((nodes_mem hp hw _ _).1 h')) ?_
    intro w
    exact reserved_keys hp hr (Or.inr rfl)

namespace Spec

/-- No node has the same name as a text of its document (after encoding the latter). -/
def TextsApart (t : Tables) : Prop :=
  ∀ r ∈ t.nodes, ∀ id name val, TextIn t id r.corpus name val → r.name ≠ pctEncode nodeNameSet name

/-- No file has `#` in its name or the path of a corpus. -/
def FilesApart (tree : CTree) (ext : Option Str → List (Str × Str)) : Prop :=
  (∀ o, ∀ f ∈ ext o, '#' ∉ f.1) ∧
  ∀ anc s, (anc, s) ∈ tree.subs [] → ∀ f ∈ ext (if anc = [] then none else some s.name), ∀ anc' s', (anc', s') ∈ tree.subs [] →
    pathName (anc ++ [s.name]) ++ '/' :: f.1 ≠ pathName (anc' ++ [s'.name])

end Spec

theorem hash_not_mem_of_append {a b x : Str} (h : '#' ∉ a) : a ≠ x ++ '#' :: b := by
  rintro rfl
  simp at h

/-- The type of a node is unique. -/
theorem nodeOf_unique {ext : Option Str → List (Str × Str)} {t : Tables} {tree : CTree} (hw : Spec.Corpus tree t) (hh : NoHash tree)
    (hs : tree.SiblingsDiffer) (ht : TextsApart t) (hf : FilesApart tree ext) {x ty ty' : Str} (h : NodeOf tree ext t x ty)
    (h' : NodeOf tree ext t x ty') : ty' = ty := by
  have hroot : ([], tree) ∈ tree.subs [] := by
    obtain ⟨id, name, doc, ch⟩ := tree
    rw [CTree.subs]
    exact List.mem_cons_self
  have bh : ∀ {i names}, Below tree i names → '#' ∉ pathName names := by
    rintro i names ⟨anc, s, h1, _, _, rfl⟩
    exact hh.path h1
  have nt : ∀ {r : NodeRow} {names id c name val names'}, r ∈ t.nodes → Below tree r.corpus names → TextIn t id c name val →
      Below tree c names' → pathName names ++ '#' :: r.name ≠ pathName names' ++ '#' :: pctEncode nodeNameSet name := by
    intro r names id c name val names' hr hb hin hb' e
    obtain ⟨e1, e2⟩ := split_hash (bh hb) (bh hb') e
    obtain ⟨anc, s, h1, h2, h3, rfl⟩ := hb
    obtain ⟨anc', s', h1', h2', h3', rfl⟩ := hb'
    have e3 := List.inj_on_of_nodup_map (subs_nodup [] tree hs) h1 h1' (C78_path_injective (by simp) (by simp) e1)
    have e4 : r.corpus = c := by
      rw [← h3, ← h3']
      exact congrArg (fun x => x.2.id) e3
    exact ht r hr id name val (e4 ▸ hin) e2
  have fh : ∀ {a : Str} {f : Str × Str} {o}, '#' ∉ a → f ∈ ext o → '#' ∉ a ++ '/' :: f.1 := by
    intro a f o h1 h2 h3
    rw [List.mem_append, List.mem_cons] at h3
    rcases h3 with h3 | h3 | h3
    · exact h1 h3
    · cases h3
    · exact hf.1 o f h2 h3
  have toph : '#' ∉ pathName [tree.name] := hh.path (anc := []) hroot
  rcases h with ⟨r, hr, na, hb, rfl, rfl⟩ | ⟨anc, s, hm, rfl, rfl⟩ | ⟨id, c, name, val, na, hin, hb, rfl, rfl⟩ |
    ⟨f, hf1, rfl, rfl⟩ | ⟨anc, s, hm, hne, f, hf1, rfl, rfl⟩ <;>
  rcases h' with ⟨r', hr', na', hb', e, rfl⟩ | ⟨anc', s', hm', e, rfl⟩ | ⟨id', c', name', val', na', hin', hb', e, rfl⟩ |
    ⟨f', hf1', e, rfl⟩ | ⟨anc', s', hm', hne', f', hf1', e, rfl⟩ <;> first | rfl | exfalso
  · exact hash_not_mem_of_append (hh.path hm') e.symm
  · exact nt hr hb hin' hb' e
  · exact hash_not_mem_of_append (fh toph hf1') e.symm
  · exact hash_not_mem_of_append (fh (hh.path hm') hf1') e.symm
  · exact hash_not_mem_of_append (hh.path hm) e
  · exact hash_not_mem_of_append (hh.path hm) e
  · exact hf.2 [] tree hroot f' (by rw [if_pos rfl]; exact hf1') anc s hm e.symm
  · exact hf.2 anc' s' hm' f' (by rw [if_neg hne']; exact hf1') anc s hm e.symm
  · exact nt hr' hb' hin hb e.symm
  · exact hash_not_mem_of_append (hh.path hm') e.symm
  · exact hash_not_mem_of_append (fh toph hf1') e.symm
  · exact hash_not_mem_of_append (fh (hh.path hm') hf1') e.symm
  · exact hash_not_mem_of_append (fh toph hf1) e
  · exact hf.2 [] tree hroot f (by rw [if_pos rfl]; exact hf1) anc' s' hm' e
  · exact hash_not_mem_of_append (fh toph hf1) e
  · exact hash_not_mem_of_append (fh (hh.path hm) hf1) e
  · exact hf.2 anc s hm f (by rw [if_neg hne]; exact hf1) anc' s' hm' e
  · exact hash_not_mem_of_append (fh (hh.path hm) hf1) e

/-- C79: in the imported graph each node has the type that belongs to the table it comes from. -/
theorem C79_types_partial {ext : Option Str → List (Str × Str)} {t : Tables} {tree : CTree} {name : Str} {evs : List Ev}
    (h : importEvents ext t = some (name, evs)) (hw : Spec.Corpus tree t) (hh : NoHash tree) (hs : tree.SiblingsDiffer)
    (ht : TextsApart t) (hf : FilesApart tree ext) (hr : NoReserved t) (x ty : Str) :
    NodeOf tree ext t x ty ↔ (graphOf evs).node x = true ∧ (graphOf evs).label x typeKey = some ty := by
  obtain ⟨h1, h2⟩ := C79_nodes_partial h hw x
  constructor
  · intro hx
    exact ⟨h1.2 ⟨ty, hx⟩, h2 ty hr hx fun ty' h' => nodeOf_unique hw hh hs ht hf hx h'⟩
  · rintro ⟨hx, hl⟩
    obtain ⟨ty', h'⟩ := h1.1 hx
    have := h2 ty' hr h' fun ty'' h'' => nodeOf_unique hw hh hs ht hf h' h''
    rw [hl] at this
    cases this
    exact h'

/-- C79: applying the events of an import (as one update with any identifiers of the changes) leads to a graph which represents
the graph described in C79 to C84. -/
theorem C79_applied {ext : Option Str → List (Str × Str)} {t : Tables} {name : Str} {evs : List Ev}
    (h : importEvents ext t = some (name, evs)) (hr : NoReserved t) (cap : Nat)
    (hook : Graph Str Str (CKey Str) → Ev → Bool) (u : List (Nat × Ev)) (hu : u.map Prod.snd = evs)
    (hok : (Graph.applyAll nameKey typeKey cap hook Graph.new [u]).2 = true) :
    Graph.Rep nameKey (Graph.applyAll nameKey typeKey cap hook Graph.new [u]).1 (graphOf evs) := by
  obtain ⟨p, hp, rfl, rfl⟩ := importEvents_parts h
  have hevs : Graph.evs [u].flatten = p.events := by
    rw [List.flatten_cons, List.flatten_nil, List.append_nil]
    exact hu
  have := Graph.C22_apply_update (nk := nameKey) (tk := typeKey) (by decide) cap hook [u] (by
    intro e he
    rw [hevs] at he
    have ha := hp.adds e he
    cases e with
    | addNodeLabel n k v =>
      intro hk
      exact reserved_keys hp hr (Or.inl hk) he
    | deleteNodeLabel n k => exact ha.elim
    | _ => trivial) hok
  rw [hevs] at this
  exact this

end Rel
