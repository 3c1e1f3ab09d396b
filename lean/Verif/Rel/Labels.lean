import Verif.Rel.Space
import Verif.Rel.Names

/-!
# The labels of an imported corpus (C84 and C85)
-/

set_option linter.unusedSimpArgs false
set_option linter.unusedSectionVars false

namespace Rel

open Spec

namespace Spec

def annisKey (name : String) : AnnoKey Str := AnnoKey.mk "annis".toList name.toList

/-- Annotations which can be imported (`annis:tok` is given by the node table). -/
def IsTok (a : AnnoRow) : Prop := a.ns = "annis".toList ∧ a.name = "tok".toList

/-- The labels of the node for a row: its layer, the text of a token or span (for a span without text that of the annotation with
the name of the segmentation), the annotations and the whitespace. -/
def RowLabel (t : Tables) (r : NodeRow) (k : AnnoKey Str) (v : Str) : Prop :=
  (k = annisKey "layer" ∧ r.layer = some v ∧ v ≠ []) ∨
  (k = annisKey "tok" ∧ ∃ i, r.kind = .tok i v ∨ ∃ g, r.kind = .seg g i (some v)) ∨
  (k = annisKey "tok" ∧ ∃ g i, r.kind = .seg g i none ∧ ∃ a ∈ t.nodeAnnos, a.id = r.id ∧ a.name = g ∧ a.val = some v ∧ ¬ IsTok a) ∨
  (∃ a ∈ t.nodeAnnos, a.id = r.id ∧ ¬ IsTok a ∧ k = AnnoKey.mk a.ns a.name ∧ v = valueOf a.val) ∨
  (k = annisKey "tok-whitespace-after" ∧ SpaceAfter t r v) ∨
  (k = annisKey "tok-whitespace-before" ∧ SpaceBefore t r v)

/-- The labels of a corpus: its metadata, the name for a document (a corpus without parts) and the version for the root. -/
def CorpusLabel (t : Tables) (anc : List Str) (s : CTree) (k : AnnoKey Str) (v : Str) : Prop :=
  (∃ a ∈ t.corpusAnnos, a.id = s.id ∧ k = AnnoKey.mk a.ns a.name ∧ v = valueOf a.val) ∨
  (anc ≠ [] ∧ s.children = [] ∧ k = annisKey "doc" ∧ v = s.name) ∨
  (anc = [] ∧ k = annisKey "relannis-version" ∧ v = if t.is33 = true then "3.3".toList else "3.2".toList)

/-- The labels of an imported corpus. -/
def LabelOf (tree : CTree) (ext : Option Str → List (Str × Str)) (t : Tables) (x : Str) (k : AnnoKey Str) (v : Str) : Prop :=
  (∃ r ∈ t.nodes, ∃ names, Below tree r.corpus names ∧ x = pathName names ++ '#' :: r.name ∧ RowLabel t r k v) ∨
  (∃ anc s, (anc, s) ∈ tree.subs [] ∧ x = pathName (anc ++ [s.name]) ∧ CorpusLabel t anc s k v) ∨
  (∃ anc s, (anc, s) ∈ tree.subs [] ∧ ∃ f ∈ ext (if anc = [] then none else some s.name), x = pathName (anc ++ [s.name]) ++ '/' :: f.1 ∧
    k = annisKey "file" ∧ v = f.2)

/-- A corpus has only one value for a name. -/
def UniqueMeta (t : Tables) : Prop := (t.corpusAnnos.map fun a => (a.id, a.ns, a.name)).Nodup

end Spec

/-! ### Metadata -/

theorem takeWhile_eq_filter {X : Type} {f : X → Bool} : ∀ {l : List X}, l.Pairwise (fun a b => f b = true → f a = true) →
    l.takeWhile f = l.filter f
  | [], _ => rfl
  | x :: l, h => by
    obtain ⟨h1, h2⟩ := List.pairwise_cons.1 h
    rw [List.takeWhile_cons, List.filter_cons]
    split_ifs with hx
    · rw [takeWhile_eq_filter h2]
    · symm
      rw [List.filter_eq_nil_iff]
      intro y hy hf
      exact hx (h1 y hy hf)

theorem mem_metaEvents_iff {annos : OMap (Nat ×ₗ AnnoKey Str) Str} (hs : OMap.Sorted annos) {cid : Nat} {node : Str} {e : Ev} :
    e ∈ metaEvents annos cid node ↔ ∃ k v, annos.get (toLex (cid, k)) = some v ∧ e = .addNodeLabel node k v := by
  constructor
  · intro h
    obtain ⟨k, v, h1, h2⟩ := mem_metaEvents h
    exact ⟨k, v, (OMap.mem_iff_get hs).1 h1, h2⟩
  · rintro ⟨k, v, h1, rfl⟩
    unfold metaEvents
    rw [takeWhile_eq_filter]
    · refine List.mem_map.2 ⟨(toLex (cid, k), v), ?_, rfl⟩
      refine List.mem_filter.2 ⟨List.mem_filter.2 ⟨(OMap.mem_iff_get hs).2 h1, ?_⟩, by simp⟩
      rw [decide_eq_true_iff, Prod.Lex.le_iff]
      refine Or.inr ⟨rfl, ?_⟩
      change toLex (([] : Str), ([] : Str)) ≤ k
      rw [Prod.Lex.le_iff]
      rcases (bot_le : (⊥ : Str) ≤ (ofLex k).1).lt_or_eq with h | h
      · exact Or.inl h
      · exact Or.inr ⟨h, (bot_le : (⊥ : Str) ≤ (ofLex k).2)⟩
    · refine List.Pairwise.imp_of_mem ?_ (List.Pairwise.filter _ hs)
      intro a b ha hb hlt hcb
      have ha' := (List.mem_filter.1 ha).2
      rw [decide_eq_true_iff, Prod.Lex.le_iff] at ha'
      rw [Prod.Lex.lt_iff] at hlt
      have hcb' : (ofLex b.1).1 = cid := by simpa using hcb
      have : (ofLex a.1).1 = cid := by
        have e1 : (ofLex (toLex (cid, AnnoKey.mk ([] : Str) []))).1 = cid := rfl
        rcases ha' with h | ⟨h, _⟩
        · rcases hlt with h' | ⟨h', _⟩
          · rw [e1] at h
            omega
          · exact h'.trans hcb'
        · exact h.symm
      simpa using this

section
variable {ext : Option Str → List (Str × Str)} {t : Tables} {p : Parts} {tree : CTree}

theorem corpusAnnos_get (hm : UniqueMeta t) {cid : Nat} {k : AnnoKey Str} {v : Str} :
    (corpusAnnos t.corpusAnnos).get (toLex (cid, k)) = some v ↔
      ∃ a ∈ t.corpusAnnos, a.id = cid ∧ k = AnnoKey.mk a.ns a.name ∧ v = valueOf a.val := by
  have hv : ∀ o : Option Str, o.getD invalidStr = valueOf o := fun o => by cases o <;> rfl
  constructor
  · intro h
    obtain ⟨a, ha, e⟩ := of_get_collect h
    simp only [Option.some.injEq, Prod.mk.injEq] at e
    have e1 : a.id = cid := congrArg (fun x : Nat ×ₗ AnnoKey Str => (ofLex x).1) e.1
    have e2 : AnnoKey.mk a.ns a.name = k := congrArg (fun x : Nat ×ₗ AnnoKey Str => (ofLex x).2) e.1
    exact ⟨a, ha, e1, e2.symm, by rw [← e.2, hv]⟩
  · rintro ⟨a, ha, rfl, rfl, rfl⟩
    refine get_collect ha (by rw [hv]) ?_
    intro b hb w e
    simp only [Option.some.injEq, Prod.mk.injEq] at e
    have e1 : b.id = a.id := congrArg (fun x : Nat ×ₗ AnnoKey Str => (ofLex x).1) e.1
    have e2 : AnnoKey.mk b.ns b.name = AnnoKey.mk a.ns a.name := congrArg (fun x : Nat ×ₗ AnnoKey Str => (ofLex x).2) e.1
    obtain ⟨e3, e4⟩ := annoKey_inj e2
    have := List.inj_on_of_nodup_map hm hb ha (by simp only [e1, e3, e4])
    rw [← e.2, hv, this]

theorem meta_iff (hm : UniqueMeta t) {cid : Nat} {n x : Str} {k : AnnoKey Str} {v : Str} :
    (Event.addNodeLabel x k v : Ev) ∈ metaEvents (corpusAnnos t.corpusAnnos) cid n ↔ x = n ∧
      ∃ a ∈ t.corpusAnnos, a.id = cid ∧ k = AnnoKey.mk a.ns a.name ∧ v = valueOf a.val := by
  have hs : OMap.Sorted (corpusAnnos t.corpusAnnos) := sorted_collect _ _
  rw [mem_metaEvents_iff hs]
  constructor
  · rintro ⟨k', v', h1, h2⟩
    simp only [Event.addNodeLabel.injEq] at h2
    obtain ⟨rfl, rfl, rfl⟩ := h2
    exact ⟨rfl, (corpusAnnos_get hm).1 h1⟩
  · rintro ⟨rfl, h⟩
    exact ⟨k, v, (corpusAnnos_get hm).2 h, rfl⟩

theorem file_label_iff {parent : Str} {files : List (Str × Str)} {x : Str} {k : AnnoKey Str} {v : Str} :
    (Event.addNodeLabel x k v : Ev) ∈ fileEvents parent files ↔ ∃ f ∈ files, x = parent ++ '/' :: f.1 ∧ k = annisKey "file" ∧ v = f.2 := by
  unfold fileEvents
  simp only [List.mem_flatMap, List.mem_cons, List.not_mem_nil, or_false, false_or, reduceCtorEq, Event.addNodeLabel.injEq]
  rfl

theorem subList_label_iff (hm : UniqueMeta t) {anc : List Str} {s : CTree} {x : Str} {k : AnnoKey Str} {v : Str} :
    (Event.addNodeLabel x k v : Ev) ∈ subList (corpusAnnos t.corpusAnnos) ext anc s ↔
      (x = pathName (anc ++ [s.name]) ∧ ((∃ a ∈ t.corpusAnnos, a.id = s.id ∧ k = AnnoKey.mk a.ns a.name ∧ v = valueOf a.val) ∨
        (s.children = [] ∧ k = annisKey "doc" ∧ v = s.name))) ∨
      ∃ f ∈ ext (some s.name), x = pathName (anc ++ [s.name]) ++ '/' :: f.1 ∧ k = annisKey "file" ∧ v = f.2 := by
  have hdoc : (Event.addNodeLabel x k v : Ev) ∈ (if s.children.isEmpty then [Event.addNodeLabel (pathName (anc ++ [s.name])) docKey s.name] else []) ↔
      x = pathName (anc ++ [s.name]) ∧ (s.children = [] ∧ k = annisKey "doc" ∧ v = s.name) := by
    by_cases hc : s.children = []
    · rw [hc]
      simp only [List.isEmpty_nil, if_true, List.mem_singleton, Event.addNodeLabel.injEq, true_and]
      rfl
    · have hc' : s.children.isEmpty = false := by rw [← Bool.not_eq_true, List.isEmpty_iff]; exact hc
      rw [hc']
      simp [hc]
  unfold subList
  simp only [List.mem_append, List.mem_singleton, reduceCtorEq, false_or, or_false, meta_iff hm, file_label_iff, hdoc]
  constructor
  · rintro ((h | h) | h)
    · exact Or.inl ⟨h.1, Or.inr h.2⟩
    · exact Or.inl ⟨h.1, Or.inl h.2⟩
    · exact Or.inr h
  · rintro (⟨h, h' | h'⟩ | h)
    · exact Or.inl (Or.inr ⟨h, h'⟩)
    · exact Or.inl (Or.inl ⟨h, h'⟩)
    · exact Or.inr h

theorem corpora_label_iff (hp : p.Of ext t) (hw : Spec.Corpus tree t) (hm : UniqueMeta t) {x : Str} {k : AnnoKey Str} {v : Str} :
    (Event.addNodeLabel x k v : Ev) ∈ p.corpora ↔
      (∃ anc s, (anc, s) ∈ tree.subs [] ∧ x = pathName (anc ++ [s.name]) ∧ CorpusLabel t anc s k v) ∨
      (∃ anc s, (anc, s) ∈ tree.subs [] ∧ ∃ f ∈ ext (if anc = [] then none else some s.name), x = pathName (anc ++ [s.name]) ++ '/' :: f.1 ∧
        k = annisKey "file" ∧ v = f.2) := by
  have hT : p.T.top = tree.name ∧ p.T.byPre.get 0 = some tree.id := by
    obtain ⟨T', e', htop, hpre, _⟩ := hw.rows.parse
    rw [hp.T] at e'
    cases e'
    refine ⟨htop, ?_⟩
    rw [hpre]
    obtain ⟨id, name, doc, ch⟩ := tree
    simp [CTree.rows, OMap.get, CTree.id]
  have hroot : ([], tree) ∈ tree.subs [] := by
    obtain ⟨id, name, doc, ch⟩ := tree
    rw [CTree.subs]
    exact List.mem_cons_self
  have rootOnly : ∀ {s : CTree}, ([], s) ∈ tree.subs [] → s = tree := by
    intro s hs
    obtain ⟨r, _, _, ⟨_, rfl, _⟩ | ⟨_, anc', s', _, e, _⟩⟩ := rows_parent 0 [] tree [] s hs
    · rfl
    · simp at e
  have htop : (Event.addNodeLabel x k v : Ev) ∈ topEvents t.is33 p.T (corpusAnnos t.corpusAnnos) ext ↔
      (x = pathName [tree.name] ∧ ((k = annisKey "relannis-version" ∧ v = if t.is33 = true then "3.3".toList else "3.2".toList) ∨
        ∃ a ∈ t.corpusAnnos, a.id = tree.id ∧ k = AnnoKey.mk a.ns a.name ∧ v = valueOf a.val)) ∨
      ∃ f ∈ ext none, x = pathName [tree.name] ++ '/' :: f.1 ∧ k = annisKey "file" ∧ v = f.2 := by
    obtain ⟨e, hi⟩ := hT
    unfold topEvents
    rw [hi]
    simp only [List.mem_append, List.mem_cons, List.not_mem_nil, or_false, reduceCtorEq, meta_iff hm, file_label_iff, false_or,
      Event.addNodeLabel.injEq, e, pathName_single hw.top]
    constructor
    · rintro (⟨h1, h2, h3⟩ | ⟨h1, h2⟩ | h)
      · exact Or.inl ⟨h1, Or.inl ⟨h2, h3⟩⟩
      · exact Or.inl ⟨h1, Or.inr h2⟩
      · exact Or.inr h
    · rintro (⟨h1, ⟨h2, h3⟩ | h2⟩ | h)
      · exact Or.inl ⟨h1, h2, h3⟩
      · exact Or.inr (Or.inl ⟨h1, h2⟩)
      · exact Or.inr (Or.inr h)
  have hrows : (Event.addNodeLabel x k v : Ev) ∈ (tree.rows 0).flatMap (rowEvents p.T (corpusAnnos t.corpusAnnos) ext) ↔
      ∃ anc s, (anc, s) ∈ tree.subs [] ∧ anc ≠ [] ∧ (Event.addNodeLabel x k v : Ev) ∈ subList (corpusAnnos t.corpusAnnos) ext anc s := by
    rw [List.mem_flatMap]
    constructor
    · rintro ⟨r, hr, he⟩
      obtain ⟨anc, s, hs, hrs, h⟩ := hw.rows.sub_of_row hr
      unfold rowEvents at he
      rcases h with ⟨_, _, h0⟩ | ⟨h0, anc', s', _, e, _⟩
      · rw [h0, subEvents_root] at he
        cases he
      · have hne : anc ≠ [] := by rw [e]; simp
        rw [subEvents_below hw.rows hp.T hr h0 hs hrs hne] at he
        exact ⟨anc, s, hs, hne, he⟩
    · rintro ⟨anc, s, hs, hne, h⟩
      obtain ⟨r, hr, hrs, h'⟩ := rows_parent 0 [] tree anc s hs
      rcases h' with ⟨e, _⟩ | ⟨h0, _⟩
      · exact absurd e hne
      · refine ⟨r, hr, ?_⟩
        unfold rowEvents
        rw [subEvents_below hw.rows hp.T hr h0 hs hrs hne]
        exact h
  have htext : (Event.addNodeLabel x k v : Ev) ∉ (p.texts.flatMap fun x => textList p.T (nodeNames p.ns) (nodesByText t.nodes) x.2) := by
    rw [List.mem_flatMap]
    rintro ⟨⟨k, z⟩, hz, he⟩
    simp only at he
    cases hzc : z.corpus with
    | none => rw [textList_none hzc] at he; cases he
    | some c =>
      obtain ⟨names, hb⟩ := text_below hw (textIn_of_mem hp hw hz hzc)
      obtain ⟨es, e, hes⟩ := mem_textList hp hw hz hzc hb
      rw [e, List.mem_append, hes] at he
      rcases he with he | ⟨r, hr, h3, h4, h5⟩
      · simp at he
      · cases h5
  rw [corpora_eq hp hw.rows, List.mem_append, List.mem_append, htop, hrows]
  simp only [htext, or_false, subList_label_iff hm]
  constructor
  · rintro ((⟨h1, h2 | h2⟩ | ⟨f, hf, h⟩) | ⟨anc, s, hs, hne, ⟨h1, h2 | h2⟩ | ⟨f, hf, h⟩⟩)
    · exact Or.inl ⟨[], tree, hroot, h1, Or.inr (Or.inr ⟨rfl, h2⟩)⟩
    · exact Or.inl ⟨[], tree, hroot, h1, Or.inl h2⟩
    · exact Or.inr ⟨[], tree, hroot, f, by rw [if_pos rfl]; exact hf, h⟩
    · exact Or.inl ⟨anc, s, hs, h1, Or.inl h2⟩
    · exact Or.inl ⟨anc, s, hs, h1, Or.inr (Or.inl ⟨hne, h2⟩)⟩
    · exact Or.inr ⟨anc, s, hs, f, by rw [if_neg hne]; exact hf, h⟩
  · rintro (⟨anc, s, hs, h1, h2⟩ | ⟨anc, s, hs, f, hf, h⟩)
    · by_cases hne : anc = []
      · subst hne
        rw [rootOnly hs] at h1 h2
        rcases h2 with h2 | ⟨h2, _⟩ | ⟨_, h2⟩
        · exact Or.inl (Or.inl ⟨h1, Or.inr h2⟩)
        · exact absurd rfl h2
        · exact Or.inl (Or.inl ⟨h1, Or.inl h2⟩)
      · rcases h2 with h2 | ⟨_, h2⟩ | ⟨h2, _⟩
        · exact Or.inr ⟨anc, s, hs, hne, Or.inl ⟨h1, Or.inl h2⟩⟩
        · exact Or.inr ⟨anc, s, hs, hne, Or.inl ⟨h1, Or.inr h2⟩⟩
        · exact absurd h2 hne
    · by_cases hne : anc = []
      · subst hne
        rw [rootOnly hs] at h
        rw [if_pos rfl] at hf
        exact Or.inl (Or.inr ⟨f, hf, h⟩)
      · rw [if_neg hne] at hf
        exact Or.inr ⟨anc, s, hs, hne, Or.inr ⟨f, hf, h⟩⟩

theorem missing_get (hu : Unique t) {r : NodeRow} (hr : r ∈ t.nodes) {g : Str} :
    (missingSpans t.nodes).get r.id = some g ↔ ∃ i, r.kind = .seg g i none := by
  unfold missingSpans
  constructor
  · intro h
    obtain ⟨r', hr', e⟩ := of_get_collect h
    cases hk : r'.kind with
    | tok i s => rw [hk] at e; cases e
    | plain => rw [hk] at e; cases e
    | seg g' i s =>
      cases s with
      | some s => rw [hk] at e; cases e
      | none =>
        rw [hk] at e
        simp only [Option.some.injEq, Prod.mk.injEq] at e
        obtain ⟨e1, rfl⟩ := e
        rw [← hu.eq_of_id hr' hr e1]
        exact ⟨i, hk⟩
  · rintro ⟨i, hk⟩
    refine get_collect hr (by rw [hk]) ?_
    intro r' hr' w e
    cases hk' : r'.kind with
    | tok i s => rw [hk'] at e; cases e
    | plain => rw [hk'] at e; cases e
    | seg g' i' s =>
      cases s with
      | some s => rw [hk'] at e; cases e
      | none =>
        rw [hk'] at e
        simp only [Option.some.injEq, Prod.mk.injEq] at e
        obtain ⟨e1, rfl⟩ := e
        rw [hu.eq_of_id hr' hr e1, hk] at hk'
        cases hk'
        rfl

theorem nodeEvents_label_iff {n : Named} {x : Str} {k : AnnoKey Str} {v : Str} : (Event.addNodeLabel x k v : Ev) ∈ nodeEvents n ↔
    x = n.2 ∧ ((k = annisKey "layer" ∧ n.1.layer = some v ∧ v ≠ []) ∨
      (k = annisKey "tok" ∧ ∃ i, n.1.kind = .tok i v ∨ ∃ g, n.1.kind = .seg g i (some v))) := by
  unfold nodeEvents
  rw [List.mem_cons, List.mem_append]
  simp only [reduceCtorEq, false_or]
  have h1 : (Event.addNodeLabel x k v : Ev) ∈ (match n.1.layer with
      | some l => if l ≠ [] then [Event.addNodeLabel n.2 layerKey l] else []
      | none => []) ↔ x = n.2 ∧ (k = annisKey "layer" ∧ n.1.layer = some v ∧ v ≠ []) := by
    cases n.1.layer with
    | none => simp
    | some l =>
      simp only [Option.some.injEq]
      split_ifs with hl
      · rw [List.mem_singleton, Event.addNodeLabel.injEq]
        constructor
        · rintro ⟨rfl, rfl, rfl⟩; exact ⟨rfl, rfl, rfl, hl⟩
        · rintro ⟨rfl, rfl, rfl, _⟩; exact ⟨rfl, rfl, rfl⟩
      · push Not at hl
        constructor
        · intro h; cases h
        · rintro ⟨_, _, rfl, h⟩; exact absurd hl h
  have h2 : (Event.addNodeLabel x k v : Ev) ∈ (match n.1.kind with
      | .tok _ span => [Event.addNodeLabel n.2 tokKey span]
      | .seg _ _ (some span) => [Event.addNodeLabel n.2 tokKey span]
      | _ => []) ↔ x = n.2 ∧ (k = annisKey "tok" ∧ ∃ i, n.1.kind = .tok i v ∨ ∃ g, n.1.kind = .seg g i (some v)) := by
    cases n.1.kind with
    | plain => simp
    | tok i s =>
      simp only [List.mem_singleton, Event.addNodeLabel.injEq, NodeKind.tok.injEq, reduceCtorEq, exists_false, or_false]
      constructor
      · rintro ⟨rfl, rfl, rfl⟩; exact ⟨rfl, rfl, i, rfl, rfl⟩
      · rintro ⟨rfl, rfl, i', _, rfl⟩; exact ⟨rfl, rfl, rfl⟩
    | seg g i s =>
      cases s with
      | none => simp
      | some s =>
        simp only [List.mem_singleton, Event.addNodeLabel.injEq, NodeKind.seg.injEq, reduceCtorEq, false_or, Option.some.injEq]
        constructor
        · rintro ⟨rfl, rfl, rfl⟩; exact ⟨rfl, rfl, i, g, rfl, rfl, rfl⟩
        · rintro ⟨rfl, rfl, i', g', _, _, rfl⟩; exact ⟨rfl, rfl, rfl⟩
  constructor
  · rintro (h | h)
    · have := h1.1 h; exact ⟨this.1, Or.inl this.2⟩
    · have := h2.1 h; exact ⟨this.1, Or.inr this.2⟩
  · rintro ⟨rfl, h | h⟩
    · exact Or.inl (h1.2 ⟨rfl, h⟩)
    · exact Or.inr (h2.2 ⟨rfl, h⟩)

theorem label_iff (hp : p.Of ext t) (hw : Spec.Corpus tree t) (hm : UniqueMeta t) (hc : CharOrder t) (x : Str) (k : AnnoKey Str) (v : Str) :
    (Event.addNodeLabel x k v : Ev) ∈ p.events ↔ LabelOf tree ext t x k v := by
  have hu := hw.unique
  have hv : ∀ o : Option Str, o.getD invalidStr = valueOf o := fun o => by cases o <;> rfl
  have hnm : ∀ {r : NodeRow}, r ∈ t.nodes → ∃ names, Below tree r.corpus names ∧ nm p.T r = pathName names ++ '#' :: r.name := by
    intro r hr
    obtain ⟨names, hb⟩ := hw.nodes r hr
    exact ⟨names, hb, nm_below hp hw.rows hb⟩
  have h1 : (Event.addNodeLabel x k v : Ev) ∈ p.events ↔ (Event.addNodeLabel x k v : Ev) ∈ p.ns.flatMap nodeEvents ∨
      (Event.addNodeLabel x k v : Ev) ∈ p.annos ∨ (Event.addNodeLabel x k v : Ev) ∈ p.corpora ∨ (Event.addNodeLabel x k v : Ev) ∈ p.space := by
    unfold Parts.events
    simp only [List.mem_append]
    constructor
    · rintro (he | (((((he | he) | he) | he) | he) | he) | he)
      · exact Or.inl he
      · obtain ⟨_, _, _, _, _, _, _, _, _, _, h⟩ := (mem_orderFrom hp.ord _).1 he; cases h
      · exact Or.inr (Or.inl he)
      · exact Or.inr (Or.inr (Or.inl he))
      · exact Or.inr (Or.inr (Or.inr he))
      · obtain ⟨_, _, _, _, _, _, _, _, _, h⟩ := (mem_rank hp.rank).1 he; cases h
      · obtain ⟨_, _, _, _, _, _, _, _, _, h⟩ := (mem_eannos hp.eannos).1 he; cases h
      · rw [hp.cov] at he
        obtain ⟨_, _, _, _, _, _, _, _, h⟩ := mem_addCoverage he
        cases h
    · tauto
  have h2 : (Event.addNodeLabel x k v : Ev) ∈ p.ns.flatMap nodeEvents ↔ ∃ r ∈ t.nodes, x = nm p.T r ∧
      ((k = annisKey "layer" ∧ r.layer = some v ∧ v ≠ []) ∨
      (k = annisKey "tok" ∧ ∃ i, r.kind = .tok i v ∨ ∃ g, r.kind = .seg g i (some v))) := by
    rw [List.mem_flatMap]
    constructor
    · rintro ⟨n, hn, he⟩
      obtain ⟨hr, q, hq, e⟩ := (nameNodes_mem hp.ns n).1 hn
      obtain ⟨hx, h⟩ := nodeEvents_label_iff.1 he
      refine ⟨n.1, hr, ?_, h⟩
      rw [hx, e, nm, hq]
      rfl
    · rintro ⟨r, hr, rfl, h⟩
      obtain ⟨names, hb, _⟩ := hnm hr
      refine ⟨(r, nm p.T r), (nameNodes_mem hp.ns _).2 ⟨hr, _, below_path hp hw.rows hb, ?_⟩, nodeEvents_label_iff.2 ⟨rfl, h⟩⟩
      simp only [nm, below_path hp hw.rows hb]
      rfl
  have h3 : (Event.addNodeLabel x k v : Ev) ∈ p.annos ↔ ∃ r ∈ t.nodes, x = nm p.T r ∧
      ((k = annisKey "tok" ∧ ∃ g i, r.kind = .seg g i none ∧ ∃ a ∈ t.nodeAnnos, a.id = r.id ∧ a.name = g ∧ a.val = some v ∧ ¬ IsTok a) ∨
      (∃ a ∈ t.nodeAnnos, a.id = r.id ∧ ¬ IsTok a ∧ k = AnnoKey.mk a.ns a.name ∧ v = valueOf a.val)) := by
    rw [mem_nodeAnnos hp.annos]
    constructor
    · rintro ⟨a, ha, n, hn, htok, h⟩
      obtain ⟨r, hr, hri, rfl⟩ := names_some hp hu hn
      have htok' : ¬ IsTok a := by
        rintro ⟨e1, e2⟩
        rcases htok with h | h
        · exact h e1
        · exact h e2
      rcases h with h | ⟨w, hw', hmiss, h⟩
      · simp only [Event.addNodeLabel.injEq] at h
        exact ⟨r, hr, h.1, Or.inr ⟨a, ha, hri.symm, htok', h.2.1, by rw [h.2.2, hv]⟩⟩
      · simp only [Event.addNodeLabel.injEq] at h
        rw [← hri] at hmiss
        obtain ⟨i, hi⟩ := (missing_get hu hr).1 hmiss
        exact ⟨r, hr, h.1, Or.inl ⟨h.2.1, a.name, i, hi, a, ha, hri.symm, rfl, by rw [hw', h.2.2], htok'⟩⟩
    · rintro ⟨r, hr, rfl, ⟨hk, g, i, hi, a, ha, hai, rfl, hval, htok⟩ | ⟨a, ha, hai, htok, hk, hval⟩⟩
      · refine ⟨a, ha, nm p.T r, by rw [hai]; exact names_get hp hu hr, ?_, Or.inr ⟨v, hval, ?_, by rw [hk]; rfl⟩⟩
        · by_contra hcon
          push Not at hcon
          exact htok hcon
        · rw [hai]
          exact (missing_get hu hr).2 ⟨i, hi⟩
      · refine ⟨a, ha, nm p.T r, by rw [hai]; exact names_get hp hu hr, ?_, Or.inl (by rw [hk, hval, hv])⟩
        by_contra hcon
        push Not at hcon
        exact htok hcon
  rw [h1, h2, h3, corpora_label_iff hp hw hm, space_iff hp hu hw.text hc]
  unfold LabelOf
  constructor
  · rintro (⟨r, hr, hx, h⟩ | ⟨r, hr, hx, h⟩ | h | ⟨r, hr, w, h⟩)
    · obtain ⟨names, hb, e⟩ := hnm hr
      refine Or.inl ⟨r, hr, names, hb, by rw [hx, e], ?_⟩
      rcases h with h | h
      · exact Or.inl h
      · exact Or.inr (Or.inl h)
    · obtain ⟨names, hb, e⟩ := hnm hr
      refine Or.inl ⟨r, hr, names, hb, by rw [hx, e], ?_⟩
      rcases h with h | h
      · exact Or.inr (Or.inr (Or.inl h))
      · exact Or.inr (Or.inr (Or.inr (Or.inl h)))
    · exact Or.inr h
    · obtain ⟨names, hb, e⟩ := hnm hr
      simp only [Event.addNodeLabel.injEq] at h
      rcases h with ⟨h, h4, h5, h6⟩ | ⟨h, h4, h5, h6⟩
      · subst h6
        exact Or.inl ⟨r, hr, names, hb, by rw [h4, e], Or.inr (Or.inr (Or.inr (Or.inr (Or.inl ⟨h5, h⟩))))⟩
      · subst h6
        exact Or.inl ⟨r, hr, names, hb, by rw [h4, e], Or.inr (Or.inr (Or.inr (Or.inr (Or.inr ⟨h5, h⟩))))⟩
  · rintro (⟨r, hr, names, hb, rfl, h⟩ | h)
    · have e := nm_below hp hw.rows hb
      rcases h with h | h | h | h | ⟨h, h'⟩ | ⟨h, h'⟩
      · exact Or.inl ⟨r, hr, e.symm, Or.inl h⟩
      · exact Or.inl ⟨r, hr, e.symm, Or.inr h⟩
      · exact Or.inr (Or.inl ⟨r, hr, e.symm, Or.inl h⟩)
      · exact Or.inr (Or.inl ⟨r, hr, e.symm, Or.inr h⟩)
      · exact Or.inr (Or.inr (Or.inr ⟨r, hr, v, Or.inl ⟨h', by rw [e, h]; rfl⟩⟩))
      · exact Or.inr (Or.inr (Or.inr ⟨r, hr, v, Or.inr ⟨h', by rw [e, h]; rfl⟩⟩))
    · exact Or.inr (Or.inr (Or.inl h))

end

/-- C85: a label of the imported graph has a value if the tables give this value (and no other) for the name, and no value if they
give none. -/
theorem C85_labels_partial {ext : Option Str → List (Str × Str)} {t : Tables} {tree : CTree} {name : Str} {evs : List Ev}
    (h : importEvents ext t = some (name, evs)) (hw : Spec.Corpus tree t) (hm : UniqueMeta t) (hc : CharOrder t) (x : Str)
    (k : AnnoKey Str) (hk : k ≠ annisKey "node_name" ∧ k ≠ annisKey "node_type") :
    (∀ v, LabelOf tree ext t x k v → (∀ w, LabelOf tree ext t x k w → w = v) → (graphOf evs).label x k = some v) ∧
    ((∀ w, ¬ LabelOf tree ext t x k w) → (graphOf evs).label x k = none) := by
  obtain ⟨p, hp, rfl, rfl⟩ := importEvents_parts h
  unfold graphOf
  refine ⟨fun v hv hall => ?_, fun hno => ?_⟩
  · exact run_label hp.adds x k v ((closed_events hp hw).labelKnown x k) ((label_iff hp hw hm hc x k v).2 hv)
      fun w hw' => hall w ((label_iff hp hw hm hc x k w).1 hw')
  · exact run_label_none hp.adds x k hk.1 hk.2 fun w hw' => hno w ((label_iff hp hw hm hc x k w).1 hw')

namespace Spec

/-- Nodes of the same document have different names. -/
def NamesDiffer (t : Tables) : Prop := ∀ a ∈ t.nodes, ∀ b ∈ t.nodes, a.corpus = b.corpus → a.name = b.name → a = b

/-- The name of the node for a row. -/
def NameOf (tree : CTree) (r : NodeRow) (x : Str) : Prop := ∃ names, Below tree r.corpus names ∧ x = pathName names ++ '#' :: r.name

/-- No annotation has the name of a label for whitespace. -/
def NoSpaceAnnos (t : Tables) : Prop :=
  ∀ a ∈ t.nodeAnnos, ¬ (a.ns = "annis".toList ∧ (a.name = "tok-whitespace-after".toList ∨ a.name = "tok-whitespace-before".toList))

end Spec

section
variable {ext : Option Str → List (Str × Str)} {t : Tables} {tree : CTree}

theorem labelOf_row (hw : Spec.Corpus tree t) (hh : NoHash tree) (hs : tree.SiblingsDiffer) (hf : ∀ o, ∀ f ∈ ext o, '#' ∉ f.1)
    (hn : NamesDiffer t) {r : NodeRow} (hr : r ∈ t.nodes) {x : Str} (hx : NameOf tree r x) {k : AnnoKey Str} {v : Str} :
    LabelOf tree ext t x k v ↔ RowLabel t r k v := by
  obtain ⟨names, hb, rfl⟩ := hx
  constructor
  · rintro (⟨r', hr', names', hb', e, h⟩ | ⟨anc, s, h1, e, _⟩ | ⟨anc, s, h1, f, hf', e, _⟩)
    · obtain ⟨e1, e2⟩ := C79_names_partial hw.rows hh hs hb hb' e
      rw [hn r hr r' hr' e1 e2]
      exact h
    · have := hh.path h1
      rw [← e] at this
      simp at this
    · have h2 := hh.path h1
      have h3 := hf _ f hf'
      have : '#' ∉ pathName (anc ++ [s.name]) ++ '/' :: f.1 := by
        rw [List.mem_append, List.mem_cons]
        rintro (h | h | h)
        · exact h2 h
        · exact absurd h (by decide)
        · exact h3 h
      rw [← e] at this
      simp at this
  · intro h
    exact Or.inl ⟨r, hr, names, hb, rfl, h⟩

theorem textIn_unique (hx : TextTable t) {id c : Nat} {n v n' v' : Str} (h : TextIn t id c n v) (h' : TextIn t id c n' v') : v = v' := by
  obtain ⟨x, h1, rfl, rfl, rfl, h5⟩ := h
  obtain ⟨y, h1', e, rfl, rfl, h5'⟩ := h'
  have : x = y := by
    refine List.inj_on_of_nodup_map hx.keys h1 h1' ?_
    have f1 := hx.format x h1
    have f2 := hx.format y h1'
    cases h33 : t.is33 with
    | true =>
      rw [h33] at h5 h5'
      simp only [if_true] at h5 h5'
      simp only [Prod.mk.injEq]
      exact ⟨e.symm, by rw [h5, h5']⟩
    | false =>
      rw [h33] at f1 f2
      simp only [Prod.mk.injEq]
      refine ⟨e.symm, ?_⟩
      rw [Option.isSome_eq_false_iff, Option.isNone_iff_eq_none] at f1 f2
      rw [f1, f2]
  rw [this]

theorem next_unique (hu : Unique t) {a b c : NodeRow} (hb : b ∈ t.nodes) (hc : c ∈ t.nodes) (h : NextToken t a b) (h' : NextToken t a c) :
    b = c := by
  obtain ⟨s1, i, j, hi, hj, hij, hbt⟩ := h
  obtain ⟨s2, i', j', hi', hj', hij', hbt'⟩ := h'
  rw [hi] at hi'
  cases hi'
  have e : j = j' := by
    rcases Nat.lt_trichotomy j j' with h | h | h
    · exact absurd ⟨hij, h⟩ (hbt' b hb s1 j hj)
    · exact h
    · exact absurd ⟨hij', h⟩ (hbt c hc s2 j' hj')
  subst e
  exact token_eq hu hb hc (s1.symm'.trans' s2) hj hj'

theorem next_not_last {a b : NodeRow} (hb : b ∈ t.nodes) (h : NextToken t a b) : ¬ LastToken t a := by
  rintro ⟨i, hi, hl⟩
  obtain ⟨s1, i', j, hi', hj, hij, _⟩ := h
  rw [hi] at hi'
  cases hi'
  have := hl b hb s1 j hj
  omega

theorem spaceAfter_unique (hu : Unique t) (hx : TextTable t) {a : NodeRow} {v w : Str} (h : SpaceAfter t a v) (h' : SpaceAfter t a w) : w = v := by
  obtain ⟨n, val, h1, h2⟩ := h
  obtain ⟨n', val', h1', h2'⟩ := h'
  have e := textIn_unique hx h1 h1'
  subst e
  rcases h2 with ⟨b, hb, hn, rfl⟩ | ⟨hl, rfl⟩ <;> rcases h2' with ⟨b', hb', hn', rfl⟩ | ⟨hl', rfl⟩
  · rw [next_unique hu hb hb' hn hn']
  · exact absurd hl' (next_not_last hb hn)
  · exact absurd hl (next_not_last hb' hn')
  · rfl

theorem spaceBefore_unique (hx : TextTable t) {a : NodeRow} {v w : Str} (h : SpaceBefore t a v) (h' : SpaceBefore t a w) : w = v := by
  obtain ⟨n, val, h1, h2, h3, rfl⟩ := h
  obtain ⟨n', val', h1', h2', h3', rfl⟩ := h'
  rw [textIn_unique hx h1 h1']

/-- Labels for whitespace come only from the text. -/
theorem rowLabel_after (hns : NoSpaceAnnos t) {r : NodeRow} {v : Str} :
    RowLabel t r (annisKey "tok-whitespace-after") v ↔ SpaceAfter t r v := by
  constructor
  · rintro (⟨h, _⟩ | ⟨h, _⟩ | ⟨h, _⟩ | ⟨a, ha, _, _, h, _⟩ | ⟨_, h⟩ | ⟨h, _⟩)
    · exact absurd h (by decide)
    · exact absurd h (by decide)
    · exact absurd h (by decide)
    · obtain ⟨e1, e2⟩ := annoKey_inj h
      exact absurd ⟨e1.symm, Or.inl e2.symm⟩ (hns a ha)
    · exact h
    · exact absurd h (by decide)
  · intro h
    exact Or.inr (Or.inr (Or.inr (Or.inr (Or.inl ⟨rfl, h⟩))))

theorem rowLabel_before (hns : NoSpaceAnnos t) {r : NodeRow} {v : Str} :
    RowLabel t r (annisKey "tok-whitespace-before") v ↔ SpaceBefore t r v := by
  constructor
  · rintro (⟨h, _⟩ | ⟨h, _⟩ | ⟨h, _⟩ | ⟨a, ha, _, _, h, _⟩ | ⟨h, _⟩ | ⟨_, h⟩)
    · exact absurd h (by decide)
    · exact absurd h (by decide)
    · exact absurd h (by decide)
    · obtain ⟨e1, e2⟩ := annoKey_inj h
      exact absurd ⟨e1.symm, Or.inr e2.symm⟩ (hns a ha)
    · exact absurd h (by decide)
    · exact h
  · intro h
    exact Or.inr (Or.inr (Or.inr (Or.inr (Or.inr ⟨rfl, h⟩))))

end

/-- C85: the labels of the node for a row are those of this row. -/
theorem C85_row_partial {ext : Option Str → List (Str × Str)} {t : Tables} {tree : CTree} {name : Str} {evs : List Ev}
    (h : importEvents ext t = some (name, evs)) (hw : Spec.Corpus tree t) (hm : UniqueMeta t) (hc : CharOrder t) (hh : NoHash tree)
    (hs : tree.SiblingsDiffer) (hf : ∀ o, ∀ f ∈ ext o, '#' ∉ f.1) (hn : NamesDiffer t) {r : NodeRow} (hr : r ∈ t.nodes) {x : Str}
    (hx : NameOf tree r x) (k : AnnoKey Str) (hk : k ≠ annisKey "node_name" ∧ k ≠ annisKey "node_type") :
    (∀ v, RowLabel t r k v → (∀ w, RowLabel t r k w → w = v) → (graphOf evs).label x k = some v) ∧
    ((∀ w, ¬ RowLabel t r k w) → (graphOf evs).label x k = none) := by
  have := C85_labels_partial h hw hm hc x k hk
  simp only [labelOf_row hw hh hs hf hn hr hx] at this
  exact this

/-- C84: the label for the whitespace after a token is the text until the next token (or the end of the text), and other nodes have
no such label. -/
theorem C84_after_partial {ext : Option Str → List (Str × Str)} {t : Tables} {tree : CTree} {name : Str} {evs : List Ev}
    (h : importEvents ext t = some (name, evs)) (hw : Spec.Corpus tree t) (hm : UniqueMeta t) (hc : CharOrder t) (hh : NoHash tree)
    (hs : tree.SiblingsDiffer) (hf : ∀ o, ∀ f ∈ ext o, '#' ∉ f.1) (hn : NamesDiffer t) (hns : NoSpaceAnnos t) {r : NodeRow}
    (hr : r ∈ t.nodes) {x : Str} (hx : NameOf tree r x) (v : Str) :
    (graphOf evs).label x (annisKey "tok-whitespace-after") = some v ↔ SpaceAfter t r v := by
  obtain ⟨h1, h2⟩ := C85_row_partial h hw hm hc hh hs hf hn hr hx (annisKey "tok-whitespace-after") ⟨by decide, by decide⟩
  simp only [rowLabel_after hns] at h1 h2
  constructor
  · intro hl
    by_contra hcon
    by_cases hex : ∃ w, SpaceAfter t r w
    · obtain ⟨w, hw'⟩ := hex
      rw [h1 w hw' fun u hu => spaceAfter_unique hw.unique hw.text hw' hu] at hl
      cases hl
      exact hcon hw'
    · push Not at hex
      rw [h2 hex] at hl
      cases hl
  · intro hv
    exact h1 v hv fun w hw' => spaceAfter_unique hw.unique hw.text hv hw'

/-- C84: the label for the whitespace before the first token of a text.  The last character before the token is missing
(`C84_before_fails`). -/
theorem C84_before_partial {ext : Option Str → List (Str × Str)} {t : Tables} {tree : CTree} {name : Str} {evs : List Ev}
    (h : importEvents ext t = some (name, evs)) (hw : Spec.Corpus tree t) (hm : UniqueMeta t) (hc : CharOrder t) (hh : NoHash tree)
    (hs : tree.SiblingsDiffer) (hf : ∀ o, ∀ f ∈ ext o, '#' ∉ f.1) (hn : NamesDiffer t) (hns : NoSpaceAnnos t) {r : NodeRow}
    (hr : r ∈ t.nodes) {x : Str} (hx : NameOf tree r x) (v : Str) :
    (graphOf evs).label x (annisKey "tok-whitespace-before") = some v ↔ SpaceBefore t r v := by
  obtain ⟨h1, h2⟩ := C85_row_partial h hw hm hc hh hs hf hn hr hx (annisKey "tok-whitespace-before") ⟨by decide, by decide⟩
  simp only [rowLabel_before hns] at h1 h2
  constructor
  · intro hl
    by_contra hcon
    by_cases hex : ∃ w, SpaceBefore t r w
    · obtain ⟨w, hw'⟩ := hex
      rw [h1 w hw' fun u hu => spaceBefore_unique hw.text hw' hu] at hl
      cases hl
      exact hcon hw'
    · push Not at hex
      rw [h2 hex] at hl
      cases hl
  · intro hv
    exact h1 v hv fun w hw' => spaceBefore_unique hw.text hv hw'

/-! ### The text of a document -/

/-- The characters of the tokens and the whitespace after them. -/
theorem slices_join {t : Tables} (hu : Unique t) (hx : TextTable t) (hc : CharOrder t) {n val : Str} {after : NodeRow → Str} :
    ∀ {q : List NodeRow} {a : NodeRow}, (∀ r ∈ a :: q, r ∈ t.nodes ∧ SpaceAfter t r (after r)) → TextIn t a.text a.corpus n val →
      List.IsChain (NextToken t) (a :: q) → LastToken t ((a :: q).getLast (by simp)) →
      (a :: q).flatMap (fun r => slice val r.left r.right ++ after r) = val.drop a.left := by
  intro q
  have hdrop : ∀ {l r : Nat}, l ≤ r → slice val l r ++ val.drop r = val.drop l := by
    intro l r hlr
    unfold slice
    conv_rhs => rw [← List.take_append_drop (r - l) (val.drop l), List.drop_drop]
    congr 2
    omega
  induction q with
  | nil =>
    intro a ha hin _ hl
    obtain ⟨ham, hsp⟩ := ha a (by simp)
    simp only [List.getLast_singleton] at hl
    obtain ⟨i, hi, _⟩ := id hl
    have := spaceAfter_unique hu hx hsp ⟨n, val, hin, Or.inr ⟨hl, rfl⟩⟩
    rw [List.flatMap_singleton, ← this]
    exact hdrop (hc.range a ham (by rw [hi]; rfl))
  | cons b q ih =>
    intro a ha hin hch hl
    obtain ⟨ham, hsp⟩ := ha a (by simp)
    obtain ⟨hbm, hspb⟩ := ha b (by simp)
    rw [List.isChain_cons_cons] at hch
    obtain ⟨hnext, hch⟩ := hch
    obtain ⟨hst, i, j, hi, hj, hij, _⟩ := id hnext
    have hinb : TextIn t b.text b.corpus n val := by
      rw [← hst.1, ← hst.2]
      exact hin
    have e := ih (a := b) (fun r hr => ha r (List.mem_cons_of_mem _ hr)) hinb hch (by rwa [List.getLast_cons_cons] at hl)
    have := spaceAfter_unique hu hx hsp ⟨n, val, hin, Or.inl ⟨b, hbm, hnext, rfl⟩⟩
    rw [List.flatMap_cons, e, ← this, List.append_assoc, hdrop (hc.order a ham b hbm hst i j hi hj hij),
      hdrop (hc.range a ham (by rw [hi]; rfl))]

/-- C84: the text of a document can be read from the graph: for all tokens of a text in their order, the characters of the tokens
followed by their labels for whitespace are the text from the start of the first token on. -/
theorem C84_text_partial {ext : Option Str → List (Str × Str)} {t : Tables} {tree : CTree} {name : Str} {evs : List Ev}
    (h : importEvents ext t = some (name, evs)) (hw : Spec.Corpus tree t) (hm : UniqueMeta t) (hc : CharOrder t) (hh : NoHash tree)
    (hs : tree.SiblingsDiffer) (hf : ∀ o, ∀ f ∈ ext o, '#' ∉ f.1) (hn : NamesDiffer t) (hns : NoSpaceAnnos t) {n val : Str}
    {a : NodeRow} {q : List NodeRow} (hmem : ∀ r ∈ a :: q, r ∈ t.nodes) (hin : TextIn t a.text a.corpus n val)
    (hch : List.IsChain (NextToken t) (a :: q)) (hl : LastToken t ((a :: q).getLast (by simp)))
    (x : NodeRow → Str) (hx : ∀ r ∈ a :: q, NameOf tree r (x r)) :
    ∃ after : NodeRow → Str, (∀ r ∈ a :: q, (graphOf evs).label (x r) (annisKey "tok-whitespace-after") = some (after r)) ∧
      (a :: q).flatMap (fun r => slice val r.left r.right ++ after r) = val.drop a.left := by
  have hex : ∀ (q : List NodeRow) (a : NodeRow), (∀ r ∈ a :: q, r ∈ t.nodes) → TextIn t a.text a.corpus n val →
      List.IsChain (NextToken t) (a :: q) → LastToken t ((a :: q).getLast (by simp)) → ∀ r ∈ a :: q, ∃ v, SpaceAfter t r v := by
    intro q
    induction q with
    | nil =>
      intro a ha hin _ hl r hr
      rw [List.mem_singleton] at hr
      subst hr
      exact ⟨_, n, val, hin, Or.inr ⟨hl, rfl⟩⟩
    | cons b q ih =>
      intro a ha hin hch hl r hr
      rw [List.isChain_cons_cons] at hch
      obtain ⟨hnext, hch⟩ := hch
      have hinb : TextIn t b.text b.corpus n val := by
        rw [← hnext.1.1, ← hnext.1.2]
        exact hin
      rw [List.mem_cons] at hr
      rcases hr with rfl | hr
      · exact ⟨_, n, val, hin, Or.inl ⟨b, ha b (by simp), hnext, rfl⟩⟩
      · exact ih b (fun r hr => ha r (List.mem_cons_of_mem _ hr)) hinb hch (by rwa [List.getLast_cons_cons] at hl) r hr
  have hall := hex q a hmem hin hch hl
  refine ⟨fun r => ((graphOf evs).label (x r) (annisKey "tok-whitespace-after")).getD [], ?_, ?_⟩
  · intro r hr
    obtain ⟨v, hv⟩ := hall r hr
    simp only [(C84_after_partial h hw hm hc hh hs hf hn hns (hmem r hr) (hx r hr) v).2 hv, Option.getD_some]
  · refine slices_join hw.unique hw.text hc ?_ hin hch hl
    intro r hr
    obtain ⟨v, hv⟩ := hall r hr
    refine ⟨hmem r hr, ?_⟩
    rw [(C84_after_partial h hw hm hc hh hs hf hn hns (hmem r hr) (hx r hr) v).2 hv]
    exact hv

end Rel
