import Verif.Rel.Names

/-!
# Examples and counterexamples for the relANNIS import (C79 to C81)
-/

namespace Rel

open Spec

/-- A root with a sub-corpus of two documents and one more document. -/
def exTree2 : CTree := .node 4 "root".toList false
  [.node 5 "s".toList false [.node 2 "d/1".toList true [], .node 0 "d2_duplicated_document_name_2".toList true []],
    .node 6 "d2".toList true []]

/-- Three tokens, a span of the last two, a segmentation span whose text comes from an annotation, a phrase which dominates the
span, and a token in another document. -/
def exTables : Tables where
  is33 := true
  corpora := [⟨2, "d/1".toList, true, 2, 3⟩, ⟨6, "d2".toList, true, 7, 8⟩, ⟨0, "d2".toList, true, 4, 5⟩,
    ⟨5, "s".toList, false, 1, 6⟩, ⟨4, "root".toList, false, 0, 9⟩]
  texts := [⟨0, some 2, "t".toList, "ab  c de ".toList⟩, ⟨0, some 6, "t".toList, "x".toList⟩]
  corpusAnnos := [⟨2, "m".toList, "lang".toList, some "de".toList⟩, ⟨4, "m".toList, "year".toList, none⟩]
  nodes := [⟨1, 0, 2, some "l".toList, "tok1".toList, 0, 2, 0, 0, .tok 0 "ab".toList⟩,
    ⟨3, 0, 2, none, "tok3".toList, 6, 8, 2, 2, .tok 2 "de".toList⟩,
    ⟨2, 0, 2, none, "tok2".toList, 4, 5, 1, 1, .tok 1 "c".toList⟩,
    ⟨4, 0, 2, none, "span".toList, 4, 8, 1, 2, .plain⟩,
    ⟨5, 0, 2, none, "phrase".toList, 0, 8, 0, 2, .plain⟩,
    ⟨6, 0, 2, none, "seg1".toList, 0, 2, 0, 0, .seg "dipl".toList 0 none⟩,
    ⟨7, 0, 2, none, "seg2".toList, 4, 8, 1, 2, .seg "dipl".toList 4 (some "cde".toList)⟩,
    ⟨8, 0, 6, none, "tok1".toList, 0, 1, 0, 0, .tok 0 "x".toList⟩]
  nodeAnnos := [⟨6, "n".toList, "dipl".toList, some "Ab".toList⟩, ⟨2, "n".toList, "pos".toList, some "X".toList⟩]
  comps := [⟨0, .dominance, "l".toList, "edge".toList⟩, ⟨1, .coverage, "l".toList, [] ⟩]
  ranks := [⟨0, 5, 0, none⟩, ⟨1, 4, 0, some 0⟩, ⟨2, 4, 1, none⟩, ⟨3, 2, 1, some 2⟩]
  edgeAnnos := [⟨1, "f".toList, "func".toList, some "HD".toList⟩]

/-- One file for the whole corpus and one for a document. -/
def exFiles : Option Str → List (Str × Str)
  | none => [("readme.txt".toList, "files/readme.txt".toList)]
  | some d => if d = "d2".toList then [("audio.wav".toList, "files/d2/audio.wav".toList)] else []

theorem exTree2_subs : exTree2.subs [] = [([], exTree2), (["root".toList], .node 5 "s".toList false
    [.node 2 "d/1".toList true [], .node 0 "d2_duplicated_document_name_2".toList true []]),
    (["root".toList, "s".toList], .node 2 "d/1".toList true []),
    (["root".toList, "s".toList], .node 0 "d2_duplicated_document_name_2".toList true []),
    (["root".toList], .node 6 "d2".toList true [])] := by
  simp [exTree2, CTree.subs, CTree.forestSubs]

theorem exTree2_below2 : Below exTree2 2 ["root".toList, "s".toList, "d/1".toList] :=
  ⟨["root".toList, "s".toList], .node 2 "d/1".toList true [], by rw [exTree2_subs]; simp, by simp, rfl, rfl⟩

theorem exTree2_below6 : Below exTree2 6 ["root".toList, "d2".toList] :=
  ⟨["root".toList], .node 6 "d2".toList true [], by rw [exTree2_subs]; simp, by simp, rfl, rfl⟩

theorem exTables_unique : Unique exTables where
  nodes := by decide +kernel
  positions := by
    have h : (exTables.nodes.all fun a => exTables.nodes.all fun b =>
      !(a.corpus == b.corpus && a.text == b.text && (position a).isSome && position a == position b) || a == b) = true := by decide +kernel
    intro a ha b hb p h1 h2 h3 h4
    have := List.all_eq_true.1 (List.all_eq_true.1 h a ha) b hb
    simpa [h1, h2, h3, h4] using this
  pres := by decide +kernel
  comps := by decide +kernel

theorem exTables_corpus : Spec.Corpus exTree2 exTables where
  rows := by
    refine ⟨?_, by decide +kernel⟩
    rw [List.perm_iff_count]
    intro a
    have h1 : renameFrom [] exTables.corpora = [⟨2, "d/1".toList, true, 2, 3⟩, ⟨6, "d2".toList, true, 7, 8⟩,
      ⟨0, "d2_duplicated_document_name_2".toList, true, 4, 5⟩, ⟨5, "s".toList, false, 1, 6⟩,
      ⟨4, "root".toList, false, 0, 9⟩] := by decide +kernel
    have h2 : exTree2.rows 0 = [⟨4, "root".toList, false, 0, 9⟩, ⟨5, "s".toList, false, 1, 6⟩, ⟨2, "d/1".toList, true, 2, 3⟩,
      ⟨0, "d2_duplicated_document_name_2".toList, true, 4, 5⟩, ⟨6, "d2".toList, true, 7, 8⟩] := by decide +kernel
    rw [h1, h2]
    simp only [List.count_cons, List.count_nil]
    omega
  top := by decide +kernel
  nodes := by
    have h : ∀ r ∈ exTables.nodes, r.corpus = 2 ∨ r.corpus = 6 := by decide +kernel
    intro r hr
    rcases h r hr with e | e <;> rw [e]
    · exact ⟨_, exTree2_below2⟩
    · exact ⟨_, exTree2_below6⟩
  texts := by
    intro x hx c hc
    simp only [exTables, List.mem_cons, List.not_mem_nil, or_false] at hx
    rcases hx with rfl | rfl
    · cases hc; exact ⟨_, exTree2_below2⟩
    · cases hc; exact ⟨_, exTree2_below6⟩
  text := ⟨by decide +kernel, by decide +kernel⟩
  unique := exTables_unique

/-- The hypotheses of C79 and C80 hold for the example. -/
theorem C79_nonvacuous : Spec.Corpus exTree2 exTables ∧ NoHash exTree2 ∧ exTree2.SiblingsDiffer ∧ TextsApart exTables ∧
    FilesApart exTree2 exFiles ∧ NoReserved exTables ∧
    (importEvents exFiles exTables).map (fun r => (r.1, r.2.filterMap fun
      | .addNode n ty => some (String.ofList n, String.ofList ty)
      | _ => none)) = some ("root".toList, [("root/s/d%2F1#tok1", "node"), ("root/s/d%2F1#tok3", "node"), ("root/s/d%2F1#tok2", "node"),
        ("root/s/d%2F1#span", "node"), ("root/s/d%2F1#phrase", "node"), ("root/s/d%2F1#seg1", "node"), ("root/s/d%2F1#seg2", "node"),
        ("root/d2#tok1", "node"), ("root", "corpus"), ("root/readme.txt", "file"), ("root/s", "corpus"), ("root/s/d%2F1", "corpus"),
        ("root/s/d2_duplicated_document_name_2", "corpus"), ("root/d2", "corpus"), ("root/d2/audio.wav", "file"),
        ("root/s/d%2F1#t", "datasource"), ("root/d2#t", "datasource")]) := by
  have hsubs : (∀ p ∈ exTree2.subs [], '#' ∉ p.2.name) ∧ ∀ p ∈ exTree2.subs [], ∀ f ∈ exFiles (if p.1 = [] then none else some p.2.name),
      ∀ q ∈ exTree2.subs [], pathName (p.1 ++ [p.2.name]) ++ '/' :: f.1 ≠ pathName (q.1 ++ [q.2.name]) := by
    rw [exTree2_subs]
    decide +kernel
  refine ⟨exTables_corpus, fun anc s h => hsubs.1 _ h, ?_, ?_, ⟨?_, fun anc s h f hf anc' s' h' => hsubs.2 _ h f hf _ h'⟩, ?_, by decide +kernel⟩
  · simp only [exTree2, CTree.SiblingsDiffer, CTree.SiblingsDifferAll, and_true]
    decide +kernel
  · have h : ∀ r ∈ exTables.nodes, ∀ x ∈ exTables.texts, r.name ≠ pctEncode nodeNameSet x.name := by decide +kernel
    rintro r hr id name val ⟨x, hx, _, rfl, _⟩
    exact h r hr x hx
  · intro o f hf
    have h : (∀ f ∈ exFiles none, '#' ∉ f.1) ∧ ∀ f ∈ exFiles (some "d2".toList), '#' ∉ f.1 := by decide +kernel
    cases o with
    | none => exact h.1 f hf
    | some d =>
      by_cases e : d = "d2".toList
      · exact h.2 f (e ▸ hf)
      · simp only [exFiles, if_neg e] at hf
        cases hf
  · intro a ha
    have h : ∀ a ∈ exTables.nodeAnnos ++ exTables.corpusAnnos, ¬ (a.ns = "annis".toList ∧ (a.name = "node_name".toList ∨ a.name = "node_type".toList)) := by
      decide +kernel
    exact h a (List.mem_append.2 ha)

/-- C79 fails: `#` is not encoded in the names of documents, so that nodes of different documents can get the same name.  Here
two rows of two documents become one node, which has the token of the second one. -/
theorem C79_hash_fails :
    let rows : List CorpusRow := [⟨0, "c".toList, false, 0, 5⟩, ⟨1, "d".toList, true, 1, 2⟩, ⟨2, "d#b".toList, true, 3, 4⟩]
    let nodes : List NodeRow := [⟨1, 0, 1, none, "b#x".toList, 0, 1, 0, 0, .tok 0 "one".toList⟩,
      ⟨2, 0, 2, none, "x".toList, 0, 1, 0, 0, .tok 0 "two".toList⟩]
    (importEvents (fun _ => []) ⟨true, rows, [], [], nodes, [], [], [], []⟩).map (fun r =>
      (r.2.filterMap (fun
        | .addNode n ty => if ty = "node".toList then some n else none
        | _ => none), (graphOf r.2).label "c/d#b#x".toList tokKey)) =
      some (["c/d#b#x".toList, "c/d#b#x".toList], some "two".toList) := by decide +kernel

/-- C79 fails: a node and a text with the same name in the same document become one node. -/
theorem C79_text_fails :
    let rows : List CorpusRow := [⟨0, "c".toList, false, 0, 3⟩, ⟨1, "d".toList, true, 1, 2⟩]
    let nodes : List NodeRow := [⟨1, 0, 1, none, "t".toList, 0, 1, 0, 0, .tok 0 "x".toList⟩]
    (importEvents (fun _ => []) ⟨true, rows, [⟨0, some 1, "t".toList, "x".toList⟩], [], nodes, [], [], [], []⟩).map (fun r =>
      ((graphOf r.2).label "c/d#t".toList typeKey,
        (graphOf r.2).edge (comp .partOf annisNs []) "c/d#t".toList "c/d#t".toList)) =
      some (some "node".toList, false) := by decide +kernel

/-- C79 fails: an annotation can replace the type of a node. -/
theorem C79_reserved_fails :
    let rows : List CorpusRow := [⟨0, "c".toList, false, 0, 3⟩, ⟨1, "d".toList, true, 1, 2⟩]
    let nodes : List NodeRow := [⟨1, 0, 1, none, "n".toList, 0, 1, 0, 0, .tok 0 "x".toList⟩]
    (importEvents (fun _ => []) ⟨true, rows, [], [], nodes, [⟨1, "annis".toList, "node_type".toList, some "corpus".toList⟩], [], [], []⟩).map
      (fun r => (graphOf r.2).label "c/d#n".toList typeKey) = some (some "corpus".toList) := by decide +kernel

/-- C80: the corpus structure of the example. -/
theorem C80_nonvacuous : Spec.Corpus exTree2 exTables ∧ (∀ c ∈ exTables.comps, c.type ≠ .partOf) ∧
    (importEvents exFiles exTables).map (fun r => r.2.filterMap fun
      | .addEdge x y c => if c = partOfComp then some (String.ofList x, String.ofList y) else none
      | _ => none) = some [("root/readme.txt", "root"), ("root/s", "root"), ("root/s/d%2F1", "root/s"),
        ("root/s/d2_duplicated_document_name_2", "root/s"), ("root/d2", "root"), ("root/d2/audio.wav", "root/d2"),
        ("root/s/d%2F1#t", "root/s/d%2F1"), ("root/s/d%2F1#tok1", "root/s/d%2F1#t"), ("root/s/d%2F1#tok2", "root/s/d%2F1#t"),
        ("root/s/d%2F1#tok3", "root/s/d%2F1#t"), ("root/s/d%2F1#span", "root/s/d%2F1#t"), ("root/s/d%2F1#phrase", "root/s/d%2F1#t"),
        ("root/s/d%2F1#seg1", "root/s/d%2F1#t"), ("root/s/d%2F1#seg2", "root/s/d%2F1#t"), ("root/d2#t", "root/d2"),
        ("root/d2#tok1", "root/d2#t")] :=
  ⟨exTables_corpus, by decide +kernel, by decide +kernel⟩

/-- C80 fails: the node of the top-level corpus gets the name as it is, but its parts are connected with the encoded name, which
is no node.  The documents of this corpus are part of nothing. -/
theorem C80_encoded_top_fails :
    let rows : List CorpusRow := [⟨0, "a b".toList, false, 0, 3⟩, ⟨1, "d".toList, true, 1, 2⟩]
    (importEvents (fun _ => []) ⟨true, rows, [], [], [], [], [], [], []⟩).map (fun r =>
      ((graphOf r.2).node "a b".toList, (graphOf r.2).node "a%20b".toList, (graphOf r.2).node "a%20b/d".toList,
        (graphOf r.2).edge (comp .partOf annisNs []) "a%20b/d".toList "a b".toList,
        (graphOf r.2).edge (comp .partOf annisNs []) "a%20b/d".toList "a%20b".toList)) =
      some (true, false, true, false, false) := by decide +kernel

/-- C80 fails: if the order of the top-level corpus does not start with 0, then there is another node for it, whose name starts
with a slash, and the metadata of the top-level corpus belongs to this node. -/
theorem C80_root_order_fails :
    let rows : List CorpusRow := [⟨0, "c".toList, false, 1, 4⟩, ⟨1, "d".toList, true, 2, 3⟩]
    (importEvents (fun _ => []) ⟨true, rows, [], [⟨0, "m".toList, "k".toList, some "v".toList⟩], [], [], [], [], []⟩).map (fun r =>
      ((graphOf r.2).node "c".toList, (graphOf r.2).node "/c".toList,
        (graphOf r.2).label "c".toList (AnnoKey.mk "m".toList "k".toList),
        (graphOf r.2).label "/c".toList (AnnoKey.mk "m".toList "k".toList))) =
      some (true, true, none, some "v".toList) := by decide +kernel

/-- C81: the order of the example: the tokens by their index, not by their row, and a gap between the indexes of the spans. -/
theorem C81_nonvacuous : Unique exTables ∧
    (importEvents exFiles exTables).map (fun r => (
      (graphOf r.2).edge (comp .ordering "annis".toList []) "root/s/d%2F1#tok1".toList "root/s/d%2F1#tok2".toList,
      (graphOf r.2).edge (comp .ordering "annis".toList []) "root/s/d%2F1#tok2".toList "root/s/d%2F1#tok3".toList,
      (graphOf r.2).edge (comp .ordering "annis".toList []) "root/s/d%2F1#tok3".toList "root/d2#tok1".toList,
      (graphOf r.2).edge (comp .ordering "default_ns".toList "dipl".toList) "root/s/d%2F1#seg1".toList "root/s/d%2F1#seg2".toList)) =
      some (true, true, false, true) :=
  ⟨exTables_unique, by decide +kernel⟩

end Rel
