import Verif.Rel.Labels
import Verif.Rel.Examples

/-!
# Examples and counterexamples for the relANNIS import (C82 to C84 and C85)
-/

namespace Rel

open Spec

def covKey : CKey Str := comp .coverage "l".toList []
def autoKey : CKey Str := comp .coverage "annis".toList "autogenerated-coverage".toList
def noKey : CKey Str := comp .coverage [] []

/-- The coverage edges of the example, with their component. -/
def covEdge : Ev → Option (String × String × Bool × Bool)
  | .addEdge x y c => if c == some covKey || c == some autoKey || c == some noKey then
      some (String.ofList x, String.ofList y, c == some covKey, c == some autoKey) else none
  | _ => none

def isSelfEdge (n : Str) : Ev → Bool
  | .addEdge x y _ => x == n && y == n
  | _ => false

/-- C82: the edge of the example with its annotation. -/
theorem C82_nonvacuous : Unique exTables ∧ (importEvents exFiles exTables).map (fun r => (
      (graphOf r.2).edge (comp .dominance "l".toList "edge".toList) "root/s/d%2F1#phrase".toList "root/s/d%2F1#span".toList,
      (graphOf r.2).eanno (comp .dominance "l".toList "edge".toList) "root/s/d%2F1#phrase".toList "root/s/d%2F1#span".toList
        (AnnoKey.mk "f".toList "func".toList),
      (graphOf r.2).eanno covKey "root/s/d%2F1#span".toList "root/s/d%2F1#tok2".toList (AnnoKey.mk "f".toList "func".toList))) =
      some (true, some "HD".toList, none) :=
  ⟨exTables_unique, by decide +kernel⟩

/-- C82 fails: an edge from a node to itself is lost. -/
theorem C82_self_fails :
    let rows : List CorpusRow := [⟨0, "c".toList, false, 0, 3⟩, ⟨1, "d".toList, true, 1, 2⟩]
    let nodes : List NodeRow := [⟨1, 0, 1, none, "n".toList, 0, 1, 0, 0, .tok 0 "x".toList⟩]
    (importEvents (fun _ => []) ⟨true, rows, [], [], nodes, [], [⟨0, .pointing, "l".toList, "p".toList⟩],
      [⟨0, 1, 0, none⟩, ⟨1, 1, 0, some 0⟩], []⟩).map (fun r =>
        (r.2.any (isSelfEdge "c/d#n".toList),
          (graphOf r.2).edge (comp .pointing "l".toList "p".toList) "c/d#n".toList "c/d#n".toList)) =
      some (true, false) := by decide +kernel

/-- C82 fails: a row of the rank table with an unknown parent (or an unknown component) is ignored without an error. -/
theorem C82_unknown_fails :
    let rows : List CorpusRow := [⟨0, "c".toList, false, 0, 3⟩, ⟨1, "d".toList, true, 1, 2⟩]
    let nodes : List NodeRow := [⟨1, 0, 1, none, "m".toList, 0, 1, 0, 0, .plain⟩, ⟨2, 0, 1, none, "n".toList, 0, 1, 0, 0, .tok 0 "x".toList⟩]
    let comps : List CompRow := [⟨0, .dominance, "l".toList, "p".toList⟩]
    (importEvents (fun _ => []) ⟨true, rows, [], [], nodes, [], comps, [⟨0, 1, 0, none⟩, ⟨1, 2, 0, some 7⟩], []⟩).map (fun r =>
        (graphOf r.2).edge (comp .dominance "l".toList "p".toList) "c/d#m".toList "c/d#n".toList) = some false ∧
    (importEvents (fun _ => []) ⟨true, rows, [], [], nodes, [], comps, [⟨0, 1, 0, none⟩, ⟨1, 2, 3, some 0⟩], []⟩).map (fun r =>
        (graphOf r.2).edge (comp .dominance "l".toList "p".toList) "c/d#m".toList "c/d#n".toList) = some false := by decide +kernel

theorem exTables_tokens : Tokens exTables where
  segs := by
    have h : (exTables.nodes.all fun r => match r.kind with | .seg g _ _ => !g.isEmpty | _ => true) = true := by decide +kernel
    intro r hr i s e
    have := List.all_eq_true.1 h r hr
    rw [e] at this
    cases this
  order := by
    have h : ∀ a ∈ exTables.nodes, ∀ b ∈ exTables.nodes, (tokenIndex a).isSome = true → (tokenIndex b).isSome = true →
      a.corpus = b.corpus → (tokenIndex a).getD 0 < (tokenIndex b).getD 0 → a.la < b.la ∧ a.ra < b.ra := by decide +kernel
    intro a ha b hb hs i j hi hj hij
    exact h a ha b hb (by rw [hi]; rfl) (by rw [hj]; rfl) hs.1 (by rw [hi, hj]; exact hij)
  gaps := by
    have h : ∀ a ∈ exTables.nodes, ∀ b ∈ exTables.nodes, (tokenIndex a).isSome = true → (tokenIndex b).isSome = true →
      a.corpus = b.corpus → ∀ k ∈ List.range 3, (tokenIndex a).getD 0 ≤ k → k ≤ (tokenIndex b).getD 0 →
        (exTables.nodes.any fun c => c.corpus == a.corpus && c.text == a.text && tokenIndex c == some k) = true := by decide +kernel
    have h3 : ∀ b ∈ exTables.nodes, (tokenIndex b).getD 0 < 3 := by decide +kernel
    intro a ha b hb hs i j hi hj k h1 h2
    have hk := h3 b hb
    rw [hj] at hk
    simp only [Option.getD_some] at hk
    have := h a ha b hb (by rw [hi]; rfl) (by rw [hj]; rfl) hs.1 k (List.mem_range.2 (by omega)) (by rw [hi]; exact h1) (by rw [hj]; exact h2)
    obtain ⟨c, hc, h⟩ := List.any_eq_true.1 this
    simp only [Bool.and_eq_true, beq_iff_eq] at h
    exact ⟨c, hc, h.1, h.2⟩

/-- C83: in the example the span covers one token by the rank table and the other one by its position, the phrase covers all
tokens. -/
theorem C83_nonvacuous : Unique exTables ∧ Tokens exTables ∧ OneParentless exTables ∧
    (importEvents exFiles exTables).map (fun r => r.2.filterMap covEdge) = some [("root/s/d%2F1#span", "root/s/d%2F1#tok2", true, false),
        ("root/s/d%2F1#span", "root/s/d%2F1#tok3", false, true), ("root/s/d%2F1#phrase", "root/s/d%2F1#tok1", false, false),
        ("root/s/d%2F1#phrase", "root/s/d%2F1#tok2", false, false), ("root/s/d%2F1#phrase", "root/s/d%2F1#tok3", false, false),
        ("root/s/d%2F1#seg1", "root/s/d%2F1#tok1", false, false), ("root/s/d%2F1#seg2", "root/s/d%2F1#tok2", false, false),
        ("root/s/d%2F1#seg2", "root/s/d%2F1#tok3", false, false)] := by
  refine ⟨exTables_unique, exTables_tokens, ?_, by decide +kernel⟩
  have h : ∀ k ∈ exTables.comps, ∀ k' ∈ exTables.comps, k.type = .coverage → k'.type = .coverage → k = k' := by decide +kernel
  rintro a _ k k' ⟨_, _, _, _, hk, _, ht⟩ ⟨_, _, _, _, hk', _, ht'⟩
  exact h k hk k' hk' ht ht'

/-- C83 fails: a span which ends between the tokens covers only the token at its start. -/
theorem C83_unaligned_fails :
    let rows : List CorpusRow := [⟨0, "c".toList, false, 0, 3⟩, ⟨1, "d".toList, true, 1, 2⟩]
    let nodes : List NodeRow := [⟨1, 0, 1, none, "a".toList, 0, 1, 0, 0, .tok 0 "x".toList⟩,
      ⟨2, 0, 1, none, "b".toList, 1, 2, 1, 1, .tok 1 "y".toList⟩, ⟨3, 0, 1, none, "s".toList, 0, 4, 0, 3, .plain⟩]
    (importEvents (fun _ => []) ⟨true, rows, [], [], nodes, [], [], [], []⟩).map (fun r =>
        ((graphOf r.2).edge noKey "c/d#s".toList "c/d#a".toList, (graphOf r.2).edge noKey "c/d#s".toList "c/d#b".toList)) =
      some (true, false) := by decide +kernel

/-- C83 fails: if the numbers of the tokens have a gap, then a span over this gap covers only the tokens before it. -/
theorem C83_gap_fails :
    let rows : List CorpusRow := [⟨0, "c".toList, false, 0, 3⟩, ⟨1, "d".toList, true, 1, 2⟩]
    let nodes : List NodeRow := [⟨1, 0, 1, none, "a".toList, 0, 1, 0, 0, .tok 0 "x".toList⟩,
      ⟨2, 0, 1, none, "b".toList, 1, 2, 1, 1, .tok 2 "y".toList⟩, ⟨3, 0, 1, none, "s".toList, 0, 2, 0, 1, .plain⟩]
    (importEvents (fun _ => []) ⟨true, rows, [], [], nodes, [], [], [], []⟩).map (fun r =>
        ((graphOf r.2).edge noKey "c/d#s".toList "c/d#a".toList, (graphOf r.2).edge noKey "c/d#s".toList "c/d#b".toList)) =
      some (true, false) := by decide +kernel

theorem exTables_chars : CharOrder exTables where
  segs := exTables_tokens.segs
  range := by
    have h : ∀ a ∈ exTables.nodes, (tokenIndex a).isSome = true → a.left ≤ a.right := by decide +kernel
    exact h
  order := by
    have h : ∀ a ∈ exTables.nodes, ∀ b ∈ exTables.nodes, (tokenIndex a).isSome = true → (tokenIndex b).isSome = true →
      a.corpus = b.corpus → (tokenIndex a).getD 0 < (tokenIndex b).getD 0 → a.right ≤ b.left := by decide +kernel
    intro a ha b hb hs i j hi hj hij
    exact h a ha b hb (by rw [hi]; rfl) (by rw [hj]; rfl) hs.1 (by rw [hi, hj]; exact hij)

def exTok1 : NodeRow := ⟨1, 0, 2, some "l".toList, "tok1".toList, 0, 2, 0, 0, .tok 0 "ab".toList⟩
def exTok2 : NodeRow := ⟨2, 0, 2, none, "tok2".toList, 4, 5, 1, 1, .tok 1 "c".toList⟩
def exTok3 : NodeRow := ⟨3, 0, 2, none, "tok3".toList, 6, 8, 2, 2, .tok 2 "de".toList⟩

/-- C84: the hypotheses hold for the example, whose tokens are a chain, and the labels of the tokens. -/
theorem C84_nonvacuous : UniqueMeta exTables ∧ CharOrder exTables ∧ NamesDiffer exTables ∧ NoSpaceAnnos exTables ∧
    (∀ r ∈ [exTok1, exTok2, exTok3], r ∈ exTables.nodes ∧ NameOf exTree2 r ("root/s/d%2F1#".toList ++ r.name)) ∧
    TextIn exTables 0 2 "t".toList "ab  c de ".toList ∧ FirstToken exTables exTok1 ∧
    List.IsChain (NextToken exTables) [exTok1, exTok2, exTok3] ∧ LastToken exTables exTok3 ∧
    (importEvents exFiles exTables).map (fun r => [exTok1, exTok2, exTok3].map fun a =>
      (graphOf r.2).label ("root/s/d%2F1#".toList ++ a.name) (annisKey "tok-whitespace-after")) =
      some [some "  ".toList, some " ".toList, some " ".toList] := by
  have hup : ∀ c ∈ exTables.nodes, c.corpus = 2 → (tokenIndex c).getD 0 ≤ 2 := by decide +kernel
  have between : ∀ {a b : NodeRow} {i j : Nat}, a.corpus = b.corpus ∧ a.text = b.text → tokenIndex a = some i → tokenIndex b = some j →
      j = i + 1 → NextToken exTables a b := by
    intro a b i j h1 h2 h3 h4
    refine ⟨h1, i, j, h2, h3, by omega, ?_⟩
    intro c _ _ k _
    omega
  refine ⟨by unfold UniqueMeta; decide +kernel, exTables_chars, by unfold NamesDiffer; decide +kernel,
    by unfold NoSpaceAnnos; decide +kernel, ?_, ?_, ?_, ?_, ?_, by decide +kernel⟩
  · intro r hr
    have h : ∀ r ∈ [exTok1, exTok2, exTok3], r ∈ exTables.nodes ∧ r.corpus = 2 := by decide +kernel
    refine ⟨(h r hr).1, _, by rw [(h r hr).2]; exact exTree2_below2, ?_⟩
    have e : pathName ["root".toList, "s".toList, "d/1".toList] = "root/s/d%2F1".toList := by decide +kernel
    rw [e]
    rfl
  · exact ⟨⟨0, some 2, "t".toList, "ab  c de ".toList⟩, by decide +kernel, rfl, rfl, rfl, by rw [if_pos (show exTables.is33 = true from rfl)]⟩
  · exact ⟨0, rfl, fun c _ _ k _ => Nat.zero_le k⟩
  · rw [List.isChain_cons_cons, List.isChain_cons_cons]
    exact ⟨between ⟨rfl, rfl⟩ (i := 0) (j := 1) rfl rfl rfl, between ⟨rfl, rfl⟩ (i := 1) (j := 2) rfl rfl rfl, List.isChain_singleton _⟩
  · refine ⟨2, rfl, ?_⟩
    intro c hc hs k hk
    have := hup c hc hs.1.symm
    rw [hk] at this
    exact this

/-- C84 fails: the label for the whitespace before the first token lacks the last character. -/
theorem C84_before_fails :
    let rows : List CorpusRow := [⟨0, "c".toList, false, 0, 3⟩, ⟨1, "d".toList, true, 1, 2⟩]
    let nodes : List NodeRow := [⟨1, 0, 1, none, "a".toList, 2, 3, 0, 0, .tok 0 "x".toList⟩]
    (importEvents (fun _ => []) ⟨true, rows, [⟨0, some 1, "t".toList, "\t x ".toList⟩], [], nodes, [], [], [], []⟩).map (fun r =>
        ((graphOf r.2).label "c/d#a".toList (annisKey "tok-whitespace-before"),
          (graphOf r.2).label "c/d#a".toList (annisKey "tok-whitespace-after"))) =
      some (some "\t".toList, some " ".toList) := by decide +kernel

/-- C84 fails: with tokens that overlap, the label has the characters after the end of the second one, since the position in the text
is never moved back. -/
theorem C84_overlap_fails :
    let rows : List CorpusRow := [⟨0, "c".toList, false, 0, 3⟩, ⟨1, "d".toList, true, 1, 2⟩]
    let nodes : List NodeRow := [⟨1, 0, 1, none, "a".toList, 0, 4, 0, 0, .tok 0 "abcd".toList⟩,
      ⟨2, 0, 1, none, "b".toList, 1, 2, 1, 1, .tok 1 "b".toList⟩]
    (importEvents (fun _ => []) ⟨true, rows, [⟨0, some 1, "t".toList, "abcdef".toList⟩], [], nodes, [], [], [], []⟩).map (fun r =>
        ((graphOf r.2).label "c/d#a".toList (annisKey "tok-whitespace-after"),
          (graphOf r.2).label "c/d#b".toList (annisKey "tok-whitespace-after"))) =
      some (some [], some "ef".toList) := by decide +kernel

/-- C85: labels of the example: the layer, the text of a token, the text of a span from its annotation, an annotation, metadata
with the string for NULL, the name of a document, the version and the path of a file. -/
theorem C85_nonvacuous : Spec.Corpus exTree2 exTables ∧ UniqueMeta exTables ∧ CharOrder exTables ∧ NamesDiffer exTables ∧
    (importEvents exFiles exTables).map (fun r => [
      (graphOf r.2).label "root/s/d%2F1#tok1".toList (annisKey "layer"), (graphOf r.2).label "root/s/d%2F1#tok3".toList (annisKey "layer"),
      (graphOf r.2).label "root/s/d%2F1#tok1".toList (annisKey "tok"), (graphOf r.2).label "root/s/d%2F1#seg1".toList (annisKey "tok"),
      (graphOf r.2).label "root/s/d%2F1#seg1".toList (AnnoKey.mk "n".toList "dipl".toList),
      (graphOf r.2).label "root/s/d%2F1#tok2".toList (AnnoKey.mk "n".toList "pos".toList),
      (graphOf r.2).label "root".toList (AnnoKey.mk "m".toList "year".toList),
      (graphOf r.2).label "root/s/d%2F1".toList (AnnoKey.mk "m".toList "lang".toList),
      (graphOf r.2).label "root/s/d%2F1".toList (annisKey "doc"), (graphOf r.2).label "root/s".toList (annisKey "doc"),
      (graphOf r.2).label "root".toList (annisKey "relannis-version"),
      (graphOf r.2).label "root/d2/audio.wav".toList (annisKey "file")]) =
      some [some "l".toList, none, some "ab".toList, some "Ab".toList, some "Ab".toList, some "X".toList,
        some [Char.ofNat 0x10FFFF], some "de".toList, some "d/1".toList, none, some "3.3".toList, some "files/d2/audio.wav".toList] :=
  ⟨exTables_corpus, C84_nonvacuous.1, exTables_chars, C84_nonvacuous.2.2.1, by decide +kernel⟩

/-- C85 fails: the annotation `annis:tok` of a node is ignored, also for a node without text. -/
theorem C85_tok_fails :
    let rows : List CorpusRow := [⟨0, "c".toList, false, 0, 3⟩, ⟨1, "d".toList, true, 1, 2⟩]
    let nodes : List NodeRow := [⟨1, 0, 1, none, "a".toList, 2, 3, 0, 0, .plain⟩]
    (importEvents (fun _ => []) ⟨true, rows, [], [], nodes, [⟨1, "annis".toList, "tok".toList, some "x".toList⟩], [], [], []⟩).map (fun r =>
        (graphOf r.2).label "c/d#a".toList (annisKey "tok")) = some none := by decide +kernel

end Rel
