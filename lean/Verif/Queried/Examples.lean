import Verif.Queried.Props
import Verif.Updated.Examples
import Verif.Rel.LabelExamples

/-!
# An example for C114
-/

set_option linter.unusedSimpArgs false
set_option linter.unusedVariables false
set_option maxRecDepth 8000

namespace Rel.QueriedEx

open Spec Graph Graph.Index Answer Answer.Ex Transport Whole TextSpec

/-! ## The tables -/

def qTree : CTree := .node 0 "c".toList false [.node 1 "d".toList true []]

def rowA : NodeRow := ⟨1, 0, 1, none, "a".toList, 0, 1, 0, 0, .tok 0 "a".toList⟩
def rowB : NodeRow := ⟨2, 0, 1, none, "b".toList, 2, 3, 1, 1, .tok 1 "b".toList⟩
def rowC : NodeRow := ⟨3, 0, 1, none, "c".toList, 4, 5, 2, 2, .tok 2 "c".toList⟩
def rowS : NodeRow := ⟨4, 0, 1, none, "s".toList, 2, 5, 1, 2, .plain⟩
def rowV : NodeRow := ⟨5, 0, 1, none, "v".toList, 0, 3, 0, 1, .plain⟩
def rowP : NodeRow := ⟨6, 0, 1, none, "p".toList, 0, 1, 0, 0, .plain⟩

/-- Three tokens; `s` covers `b` and `c`, `v` covers `a` and `b` and points to `s`; `p` covers `a` and dominates `s`. -/
def qTables : Tables where
  is33 := true
  corpora := [⟨0, "c".toList, false, 0, 3⟩, ⟨1, "d".toList, true, 1, 2⟩]
  texts := [⟨0, some 1, "t".toList, "a b c".toList⟩]
  corpusAnnos := []
  nodes := [rowA, rowB, rowC, rowS, rowV, rowP]
  nodeAnnos := [⟨4, "n".toList, "cat".toList, some "S".toList⟩, ⟨5, "n".toList, "cat".toList, some "V".toList⟩]
  comps := [⟨0, .pointing, "l".toList, "dep".toList⟩, ⟨1, .dominance, "l".toList, "edge".toList⟩]
  ranks := [⟨0, 5, 0, none⟩, ⟨1, 4, 0, some 0⟩, ⟨2, 6, 1, none⟩, ⟨3, 4, 1, some 2⟩]
  edgeAnnos := []

theorem qTree_subs : qTree.subs [] = [([], qTree), (["c".toList], .node 1 "d".toList true [])] := by
  simp [qTree, CTree.subs, CTree.forestSubs]

theorem qTree_below : Below qTree 1 ["c".toList, "d".toList] :=
  ⟨["c".toList], .node 1 "d".toList true [], by rw [qTree_subs]; simp, by simp, rfl, rfl⟩

theorem qUnique : Unique qTables where
  nodes := by decide +kernel
  positions := by
    have h : (qTables.nodes.all fun a => qTables.nodes.all fun b =>
      !(a.corpus == b.corpus && a.text == b.text && (position a).isSome && position a == position b) || a == b) = true := by decide +kernel
    intro a ha b hb p h1 h2 h3 h4
    have := List.all_eq_true.1 (List.all_eq_true.1 h a ha) b hb
    simpa [h1, h2, h3, h4] using this
  pres := by decide +kernel
  comps := by decide +kernel

theorem qCorpus : Spec.Corpus qTree qTables where
  rows := by
    refine ⟨?_, by decide +kernel⟩
    rw [List.perm_iff_count]
    intro a
    have h1 : renameFrom [] qTables.corpora = [⟨0, "c".toList, false, 0, 3⟩, ⟨1, "d".toList, true, 1, 2⟩] := by decide +kernel
    have h2 : qTree.rows 0 = [⟨0, "c".toList, false, 0, 3⟩, ⟨1, "d".toList, true, 1, 2⟩] := by decide +kernel
    rw [h1, h2]
  top := by decide +kernel
  nodes := by
    have h : ∀ r ∈ qTables.nodes, r.corpus = 1 := by decide +kernel
    intro r hr
    rw [h r hr]
    exact ⟨_, qTree_below⟩
  texts := by
    intro x hx c hc
    simp only [qTables, List.mem_cons, List.not_mem_nil, or_false] at hx
    subst hx
    cases hc; exact ⟨_, qTree_below⟩
  text := ⟨by decide +kernel, by decide +kernel⟩
  unique := qUnique

theorem qTokens : Tokens qTables where
  segs := by
    have h : (qTables.nodes.all fun r => match r.kind with | .seg g _ _ => !g.isEmpty | _ => true) = true := by decide +kernel
    intro r hr i s e
    have := List.all_eq_true.1 h r hr
    rw [e] at this
    cases this
  order := by
    have h : ∀ a ∈ qTables.nodes, ∀ b ∈ qTables.nodes, (tokenIndex a).isSome = true → (tokenIndex b).isSome = true →
      a.corpus = b.corpus → (tokenIndex a).getD 0 < (tokenIndex b).getD 0 → a.la < b.la ∧ a.ra < b.ra := by decide +kernel
    intro a ha b hb hs i j hi hj hij
    exact h a ha b hb (by rw [hi]; rfl) (by rw [hj]; rfl) hs.1 (by rw [hi, hj]; exact hij)
  gaps := by
    have h : ∀ a ∈ qTables.nodes, ∀ k ∈ List.range 3, (qTables.nodes.any fun c => c.corpus == a.corpus && c.text == a.text && tokenIndex c == some k) = true := by
      decide +kernel
    have h3 : ∀ b ∈ qTables.nodes, (tokenIndex b).getD 0 < 3 := by decide +kernel
    intro a ha b hb hs i j hi hj k h1 h2
    have hk := h3 b hb
    rw [hj] at hk
    simp only [Option.getD_some] at hk
    have := h a ha k (List.mem_range.2 (by omega))
    obtain ⟨c, hc, h⟩ := List.any_eq_true.1 this
    simp only [Bool.and_eq_true, beq_iff_eq] at h
    exact ⟨c, hc, h.1, h.2⟩

/-- Only spans cover by position. -/
theorem qNotExplicit (a b : NodeRow) : ¬ Explicit qTables a b := by
  rintro ⟨layer, g, r, hr, q, hq, k, hk, _, _, _, _, e⟩
  have ht := (compOf_inj (congrArg some e : compOf .coverage layer g = compOf k.type k.layer k.name)).1
  have h : ∀ k ∈ qTables.comps, AnnotationComponentType.coverage ≠ k.type := by decide +kernel
  exact h k hk ht

theorem qDominates {a b : NodeRow} (ha : a ∈ qTables.nodes) (hb : b ∈ qTables.nodes) (h : Dominates qTables a b) : a = rowP ∧ b = rowS := by
  obtain ⟨_, layer, g, r, hr, q, hq, k, hk, h1, h2, h3, h4, e⟩ := h
  have ht := (compOf_inj (congrArg some e : compOf .dominance layer g = compOf k.type k.layer k.name)).1
  have h : ∀ r ∈ qTables.ranks, ∀ q ∈ qTables.ranks, ∀ k ∈ qTables.comps, r.parent = some q.pre → r.comp = k.id → AnnotationComponentType.dominance = k.type →
    q.node = 6 ∧ r.node = 4 := by decide +kernel
  obtain ⟨e1, e2⟩ := h r hr q hq k hk h1 h4 ht
  have hid : ∀ a ∈ qTables.nodes, (a.id = 6 → a = rowP) ∧ (a.id = 4 → a = rowS) := by decide +kernel
  exact ⟨(hid a ha).1 (by rw [← h2, e1]), (hid b hb).2 (by rw [← h3, e2])⟩

instance (t : Tables) (a : NodeRow) : Decidable (StartsAligned t a) := by unfold StartsAligned SameText; infer_instance
instance (t : Tables) (a : NodeRow) : Decidable (EndsAligned t a) := by unfold EndsAligned SameText; infer_instance
instance (t : Tables) (a b : NodeRow) : Decidable (Spans t a b) := by unfold Spans SameText; infer_instance

theorem qCovers {a b : NodeRow} : Covers qTables a b ↔ a ≠ b ∧ Spans qTables a b :=
  ⟨fun h => ⟨h.1, h.2.resolve_left (qNotExplicit a b)⟩, fun h => ⟨h.1, Or.inr h.2⟩⟩

theorem qText : TextRows qTables where
  comps := by decide +kernel
  same := by
    rintro a ha b hb (h | h)
    · exact (qCovers.1 h).2.2.2.1
    · obtain ⟨rfl, rfl⟩ := qDominates ha hb h
      exact ⟨rfl, rfl⟩
  tokens := fun a ha b hb h => (qCovers.1 h).2.1
  source := by
    intro a ha b hb h
    obtain ⟨rfl, rfl⟩ := qDominates ha hb h
    exact ⟨rowA, by decide +kernel, qCovers.2 (by decide +kernel)⟩
  target := by
    rintro a ha b hb (h | h)
    · exact Or.inl (qCovers.1 h).2.2.1
    · obtain ⟨rfl, rfl⟩ := qDominates ha hb h
      exact Or.inr ⟨rowB, by decide +kernel, qCovers.2 (by decide +kernel)⟩

theorem importable : Importable qTree qTables where
  corpus := qCorpus
  hash := by
    have h : ∀ p ∈ qTree.subs [], '#' ∉ p.2.name := by rw [qTree_subs]; decide +kernel
    exact fun anc s hs => h _ hs
  siblings := by
    simp only [qTree, CTree.SiblingsDiffer, CTree.SiblingsDifferAll, and_true]
    decide +kernel
  names := by
    have h : ∀ a ∈ qTables.nodes, ∀ b ∈ qTables.nodes, a.corpus = b.corpus → a.name = b.name → a = b := by decide +kernel
    exact h
  tokens := qTokens
  parentless := by
    have h : ∀ k ∈ qTables.comps, AnnotationComponentType.coverage ≠ k.type := by decide +kernel
    rintro a _ k k' ⟨_, _, _, _, hk, _, ht⟩ _
    exact absurd ht.symm (h k hk)
  reserved := by
    intro a ha
    have h : ∀ a ∈ qTables.nodeAnnos ++ qTables.corpusAnnos, ¬ (a.ns = "annis".toList ∧ (a.name = "node_name".toList ∨ a.name = "node_type".toList)) := by
      decide +kernel
    exact h a (List.mem_append.2 ha)
  text := qText

/-! ## The import -/

def noFiles : Option Str → List (Str × Str) := fun _ => []
def events : List Ev := ((importEvents noFiles qTables).map Prod.snd).getD []
def ch : Choices := ⟨fun l => l, 5, fun _ _ => []⟩
def numbered : List (Nat × Ev) := events.map fun e => (0, e)
def g : Graph Str Str (CKey Str) := (update schema nameKey typeKey tokKey 4 ch Graph.new numbered).getD Graph.new

theorem imported : importEvents noFiles qTables = some ("c".toList, events) := by
  have h : (importEvents noFiles qTables).map Prod.fst = some "c".toList := by decide +kernel
  unfold events
  cases hc : importEvents noFiles qTables with
  | none => rw [hc] at h; cases h
  | some r =>
    rw [hc] at h
    simp only [Option.map_some, Option.some.injEq] at h
    simp [← h]

theorem evs_numbered : evs numbered = events := by simp [evs, numbered]

theorem updated : update schema nameKey typeKey tokKey 4 ch Graph.new numbered = some g := Index.Demo.some_getD (by decide +kernel)

theorem history : History schema nameKey typeKey tokKey 4 events g ∧ Linear.Chains (E g schema.order) ∧
    ∀ i j, E g schema.order i j → IsTok schema tokKey g i ∧ IsTok schema tokKey g j :=
  C114_history_partial imported importable (fun l => List.Perm.refl l) evs_numbered updated

/-! ## The settings -/

/-- The sources of a component, among the nodes of the example. -/
def loadedOf (c : EdgeStore NodeID64 Str Str) : PocStore NodeID64 where
  sources := ([0, 1, 2, 3, 4, 5, 6, 7, 8] : List NodeID64).filter fun n => match c.g.out n with
    | some (_ :: _) => true
    | _ => false
  nodes := none

def depC : CKey Str := comp .pointing "l".toList "dep".toList

def set : Setting (CKey Str) where
  name := "c".toList
  env := env
  sc := schema
  cname c := (ofLex (ofLex c).2).1
  part := comp .partOf "annis".toList []
  segc seg := comp .ordering "default_ns".toList seg
  nodes _ := none
  allOrdered := false
  cmp a b := some (compare a b)
  fuel := 5
  pivots := []
  loaded := loadedOf
  tokenComps _ := []
  cost _ := none

theorem set_tok : set.tok = tokKey := by decide +kernel

theorem facts : Facts set.sc nameKey typeKey set.tok events g := by
  rw [set_tok]
  exact history_facts schema_ok (by decide) history.1

def edgesB (c : CKey Str) (ps : List (NodeID64 × NodeID64)) : Bool := (ends g).all fun a => ((g.comp c).out a).all fun b => decide ((a, b) ∈ ps)

theorem edges_of {c : CKey Str} {ps : List (NodeID64 × NodeID64)} (h : edgesB c ps = true) {a b : NodeID64} (hab : E g c a b) : (a, b) ∈ ps := by
  unfold edgesB at h
  simp only [List.all_eq_true, decide_eq_true_eq] at h
  exact h a (mem_ends hab).1 b hab

def compsB : Bool := g.comps.keys.all fun c =>
  !(decide (schema.kind c = .dominance) || decide (schema.kind c = .pointing) || decide (c = set.part)) ||
    decide ((loadedOf (storeOf g c)).sources = (g.comp c).sources)

theorem set_ok : SettingOk set g where
  schema := schema_ok
  exact := by intro v w; simp [set, env]
  part := by
    have h : set.part ≠ schema.left ∧ set.part ≠ schema.right ∧ set.part ≠ schema.inh := ⟨by decide +kernel, by decide +kernel, by decide +kernel⟩
    exact h
  segc := fun seg => by
    show comp .ordering "default_ns".toList seg ≠ comp .leftToken "annis".toList [] ∧ comp .ordering "default_ns".toList seg ≠ comp .rightToken "annis".toList [] ∧
      comp .ordering "default_ns".toList seg ≠ comp .coverage "annis".toList "inherited-coverage".toList
    refine ⟨?_, ?_, ?_⟩ <;> intro h <;> exact absurd (compOf_inj (congrArg some h : compOf _ _ _ = compOf _ _ _)).1 (by decide)
  nodes := by intro c h; cases h
  allOrdered := by intro h; cases h
  loaded := by
    intro c hc
    by_cases hk : c ∈ g.comps.keys
    · have h : compsB = true := by decide +kernel
      have := List.all_eq_true.1 h c hk
      simp only [Bool.or_eq_true, Bool.not_eq_true', decide_eq_true_eq, Bool.or_eq_false_iff, decide_eq_false_iff_not] at this
      rcases this with h | h
      · rcases hc with hc | hc | hc
        · exact absurd hc h.1.1
        · exact absurd hc h.1.2
        · exact absurd hc h.2
      · exact h
    · have he : g.comp c = Adj.new := by
        unfold Graph.comp
        rw [OMap.get_eq_none_iff.2 hk]; rfl
      change (loadedOf (storeOf g c)).sources = _
      unfold loadedOf storeOf
      rw [he]
      decide +kernel

theorem data_ok : DataOk set g := (import_history imported importable (fun l => List.Perm.refl l) evs_numbered updated rfl set_tok).2

/-! ## The query -/

theorem no_cost {spec : NsSpec Str Str} {op : Aql.BinSpec Parse.OpSpec} {neg : Bool} :
    Replaceable (corpusOf set g).db set.env (relsOf set g) spec op neg := by
  intro est e h; cases h

theorem tokens_found : (corpusOf set g).g.anyTokens ≠ none := by
  have : (corpusOf set g).g.anyTokens.isSome = true := by decide +kernel
  intro h
  rw [h] at this
  cases this

theorem alt1_names : Answer.Names.AltOk set g 0 alt1 list1 where
  nonempty := alt1_ok.nonempty
  unambiguous := alt1_ok.unambiguous
  connected := alt1_ok.connected
  required := by
    intro lhs op rhs h i o hd ho
    simp only [alt1, List.mem_cons, List.not_mem_nil, or_false, Aql.Literal.bin.injEq, Bool.false_eq_true, and_false] at h
    obtain ⟨rfl, rfl, rfl, _⟩ := h
    rw [den1_0, den1_1] at hd
    rcases at1.1 ho with ⟨rfl, rfl⟩ | ⟨rfl, rfl⟩ | ⟨rfl, rfl⟩
    · rfl
    · rfl
    · omega
  supported := by
    intro lhs op rhs neg h
    simp only [alt1, List.mem_cons, List.not_mem_nil, or_false, Aql.Literal.bin.injEq] at h
    rcases h with ⟨_, rfl, _, _⟩ | ⟨_, rfl, _, _⟩ <;> trivial
  segments := by
    intro lhs op rhs neg h
    simp only [alt1, List.mem_cons, List.not_mem_nil, or_false, Aql.Literal.bin.injEq] at h
    rcases h with ⟨_, rfl, _, _⟩ | ⟨_, rfl, _, _⟩ <;> trivial
  overlap := by intro lhs rhs neg h; simp [alt1] at h
  arity := alt1_ok.arity
  patterns := alt1_ok.patterns
  tokens := fun _ _ _ => tokens_found
  replaced := fun _ _ _ _ _ _ _ _ _ _ _ _ _ _ _ => no_cost

theorem alt2_names : Answer.Names.AltOk set g 3 alt2 list2 where
  nonempty := alt2_ok.nonempty
  unambiguous := alt2_ok.unambiguous
  connected := alt2_ok.connected
  required := by
    intro lhs op rhs h i o hd ho
    rcases at2.1 ho with ⟨rfl, rfl⟩ | ⟨rfl, rfl⟩ <;> rfl
  supported := by
    intro lhs op rhs neg h
    simp only [alt2, List.mem_cons, List.not_mem_nil, or_false, Aql.Literal.bin.injEq, reduceCtorEq] at h
    obtain ⟨_, rfl, _, _⟩ := h
    trivial
  segments := by
    intro lhs op rhs neg h
    simp only [alt2, List.mem_cons, List.not_mem_nil, or_false, Aql.Literal.bin.injEq, reduceCtorEq] at h
    obtain ⟨_, rfl, _, _⟩ := h
    trivial
  overlap := by intro lhs rhs neg h; simp [alt2] at h
  arity := alt2_ok.arity
  patterns := alt2_ok.patterns
  tokens := fun _ _ _ => tokens_found
  replaced := fun _ _ _ _ _ _ _ _ _ _ _ _ _ _ _ => no_cost

theorem alts_names (i : Nat) (c : List Parse.QLit) (L : List (Aql.Occ (NsSpec Str Str))) (hc : [alt1, alt2][i]? = some c)
    (hL : [list1, list2][i]? = some L) : Answer.Names.AltOk set g (before [list1, list2] i) c L := by
  match i with
  | 0 => cases hc; cases hL; exact alt1_names
  | 1 => cases hc; cases hL; exact alt2_names
  | n + 2 => simp at hc

/-! ## The answers -/

/-- The graph that the events describe. -/
abbrev spec : GSpec Str Str (CKey Str) := graphOf events

/-- The name of a node. -/
def pre (n : Str) : Str := "c/d#".toList ++ n

theorem name_a : HasName nameKey g 0 (pre ['a']) := by unfold HasName; decide +kernel
theorem name_b : HasName nameKey g 1 (pre ['b']) := by unfold HasName; decide +kernel
theorem name_s : HasName nameKey g 3 (pre ['s']) := by unfold HasName; decide +kernel
theorem name_v : HasName nameKey g 4 (pre ['v']) := by unfold HasName; decide +kernel

theorem dep_free : depC ≠ schema.left ∧ depC ≠ schema.right ∧ depC ≠ schema.inh := ⟨by decide +kernel, by decide +kernel, by decide +kernel⟩

theorem dep_edge {x y : Str} (h : spec.edge depC x y = true) : x = (pre ['v']) ∧ y = (pre ['s']) := by
  obtain ⟨a, b, ha, hb, hab⟩ := edge_bwd (s := set) facts (c := depC) dep_free x y h
  have := edges_of (c := depC) (ps := [(4, 3)]) (by decide +kernel) hab
  simp only [List.mem_singleton, Prod.mk.injEq] at this
  obtain ⟨rfl, rfl⟩ := this
  exact ⟨(names_unique facts).fn _ _ _ ha name_v, (names_unique facts).fn _ _ _ hb name_s⟩

theorem means_dep {x y : Str} : Answer.Names.Means schema env set.cname set.part set.segc (· ∈ g.comps.keys) spec (.join (.pointing dep (.bound 1 1) none)) x y ↔
    x = (pre ['v']) ∧ y = (pre ['s']) := by
  constructor
  · rintro ⟨c, ⟨h1, h2, h3⟩, ⟨n, ⟨p, ⟨g1, g3, g4⟩, _, hl⟩, hw⟩, _⟩
    have hn : n = 1 := by
      obtain ⟨w1, w2⟩ := hw
      simp only [RangeSpec.minDist, RangeSpec.maxDist] at w1 w2
      omega
    subst hn
    have hc : c = depC := by
      have hall : (g.comps.keys.all fun c => !(decide ((ofLex (ofLex c).2).1 = dep)) || decide (c = depC)) = true := by decide +kernel
      have := List.all_eq_true.1 hall c h1
      simp only [Bool.or_eq_true, Bool.not_eq_true', decide_eq_true_eq, decide_eq_false_iff_not] at this
      exact this.resolve_left fun h => h h3
    subst hc
    match p, hl with
    | [x, y], _ =>
      simp at g1 g3
      subst g1 g3
      exact dep_edge (by simpa using g4)
  · rintro ⟨rfl, rfl⟩
    exact ⟨depC, ⟨by show depC ∈ g.comps.keys; decide +kernel, rfl, rfl⟩, ⟨1, ⟨[(pre ['v']), (pre ['s'])], ⟨rfl, rfl, by simp; decide +kernel⟩, by decide, rfl⟩, ⟨le_refl 1, le_refl 1⟩⟩,
      by simp⟩

def catN (n : Str) : NMatch := (some n, AnnoKey.mk ['n'] cat)
def tokN (n : Str) : NMatch := (some n, AnnoKey.mk annis nodeType)

abbrev Found (sp : NsSpec Str Str) (x : NMatch) : Prop :=
  ∃ n k, x.1 = some n ∧ NodeSearch.Wanted env spec.label (Answer.Names.Cov schema tokKey spec) sp n k ∧ x.2 = NodeSearch.ShownKey env sp k

theorem found_cat (n : Str) (h : n = pre ['s'] ∨ n = pre ['v']) : Found catS (catN n) := by
  rcases h with rfl | rfl
  · exact ⟨pre ['s'], AnnoKey.mk ['n'] cat, rfl, ⟨rfl, fun _ h => by simp at h, ['S'], by decide +kernel, by simp⟩, rfl⟩
  · exact ⟨pre ['v'], AnnoKey.mk ['n'] cat, rfl, ⟨rfl, fun _ h => by simp at h, ['V'], by decide +kernel, by simp⟩, rfl⟩

theorem table : ∃ T, parseCorpus qTables.corpora = some T ∧ ∀ r ∈ qTables.nodes, nm T r = pre r.name := by
  have h : (match parseCorpus qTables.corpora with
    | some T => qTables.nodes.all fun r => decide (nm T r = pre r.name)
    | none => false) = true := by decide +kernel
  cases hT : parseCorpus qTables.corpora with
  | none => rw [hT] at h; cases h
  | some T =>
    rw [hT] at h
    refine ⟨T, rfl, fun r hr => ?_⟩
    simpa using List.all_eq_true.1 h r hr

/-- Tokens cover nothing. -/
theorem not_cov {t : Str} : ¬ Answer.Names.Cov schema tokKey spec (pre ['a']) t := by
  obtain ⟨T, hT, hn⟩ := table
  have hrow : ∀ {a}, a ∈ qTables.nodes → pre ['a'] = nm T a → a = rowA := by
    intro a ha e
    exact nm_inj imported importable hT ha (by decide +kernel) (by rw [← e, hn rowA (by decide +kernel)]; rfl)
  rintro (h | h)
  · obtain ⟨a, ha, b, hb, e, _, hc⟩ := (direct_iff imported importable hT _ _).1 h
    have := hrow ha e
    subst this
    exact absurd (qCovers.1 hc).2.1 (by decide)
  · obtain ⟨a, b, e, _, hab⟩ := (covered_iff imported importable hT _ _).1 h
    have := hrow (down_mem hab.2).1 e
    subst this
    obtain ⟨c, hd, _⟩ := Relation.TransGen.head'_iff.1 hab.2
    exact absurd (no_down imported importable hT hd) (by decide)

theorem tok_a : Answer.Names.Tok schema tokKey spec (pre ['a']) := by
  obtain ⟨T, hT, hn⟩ := table
  have := row_tok imported importable hT (a := rowA) (by decide +kernel) rfl
  rwa [hn rowA (by decide +kernel)] at this

theorem found_tok : Found .anyToken (tokN (pre ['a'])) :=
  ⟨pre ['a'], AnnoKey.mk annis tokName, rfl, ⟨⟨rfl, fun _ h => by simpa [env] using h, ['a'], by decide +kernel, trivial⟩, fun ⟨_, h⟩ => not_cov h⟩, rfl⟩

/-- What `v` is above of. -/
theorem above_v {b : NodeRow} (h : Above qTables rowV b) : b = rowA ∨ b = rowB := by
  obtain ⟨_, hw⟩ := h
  have hstep : ∀ b, Down qTables rowV b → b = rowA ∨ b = rowB := by
    rintro b ⟨_, hb, hc | hd⟩
    · have hall : ∀ b ∈ qTables.nodes, Spans qTables rowV b → b = rowA ∨ b = rowB := by decide +kernel
      exact hall b hb (qCovers.1 hc).2
    · exact absurd (qDominates (by decide +kernel) hb hd).1 (by decide)
  rcases Relation.TransGen.head'_iff.1 hw with ⟨c, hc, hr⟩
  rcases Relation.ReflTransGen.cases_head hr with rfl | ⟨e, he, _⟩
  · exact hstep _ hc
  · have hno : tokenIndex c = none := by
      obtain ⟨T, hT, _⟩ := table
      exact no_down imported importable hT he
    rcases hstep c hc with rfl | rfl <;> cases hno

theorem above_v_of {b : NodeRow} (h : b = rowA ∨ b = rowB) : Above qTables rowV b := by
  rcases h with rfl | rfl
  · exact ⟨rfl, .single ⟨by decide +kernel, by decide +kernel, Or.inl (qCovers.2 (by decide +kernel))⟩⟩
  · exact ⟨rfl, .single ⟨by decide +kernel, by decide +kernel, Or.inl (qCovers.2 (by decide +kernel))⟩⟩

theorem first_v : Answer.Names.First schema tokKey spec (pre ['v']) (pre ['a']) := by
  obtain ⟨T, hT, hn⟩ := table
  refine (C114_rows_partial imported importable hT _ _).2.2.2.1.2 ⟨rowV, rowA, (hn rowV (by decide +kernel)).symm, (hn rowA (by decide +kernel)).symm,
    above_v_of (Or.inl rfl), fun c hc => ?_⟩
  rcases above_v hc with rfl | rfl <;> decide
theorem last_v : Answer.Names.Last schema tokKey spec (pre ['v']) (pre ['b']) := by
  obtain ⟨T, hT, hn⟩ := table
  refine (C114_rows_partial imported importable hT _ _).2.2.2.2.2 ⟨rowV, rowB, (hn rowV (by decide +kernel)).symm, (hn rowB (by decide +kernel)).symm,
    above_v_of (Or.inr rfl), fun c hc => ?_⟩
  rcases above_v hc with rfl | rfl <;> decide
theorem not_tok_v : ¬ Answer.Names.Tok schema tokKey spec (pre ['v']) := by
  obtain ⟨T, hT, hn⟩ := table
  rintro ⟨_, hno⟩
  exact hno ⟨pre ['a'], (direct_iff imported importable hT _ _).2 ⟨rowV, by decide +kernel, rowA, by decide +kernel, (hn rowV (by decide +kernel)).symm,
    (hn rowA (by decide +kernel)).symm, qCovers.2 (by decide +kernel)⟩⟩

theorem row1 (d : NMatch) : Answer.Names.AnswersAlt schema env set.cname set.part set.segc (· ∈ g.comps.keys) spec d [alt1, alt2] [list1, list2] 0 [catN (pre ['v']), tokN (pre ['a'])] := by
  refine ⟨alt1, list1, rfl, rfl, ?_⟩
  constructor
  · intro i
    constructor
    · intro h
      simp only [List.length_cons, List.length_nil] at h
      exact ⟨1, ⟨8, .anyToken, none, false⟩, by omega, rfl, rfl⟩
    · rintro ⟨n, o, hi, ho, hopt⟩
      simp only [List.length_cons, List.length_nil]
      rcases at1.1 ho with ⟨rfl, rfl⟩ | ⟨rfl, rfl⟩ | ⟨rfl, rfl⟩
      · omega
      · omega
      · simp at hopt
  · intro n o ho hopt
    rcases at1.1 ho with ⟨rfl, rfl⟩ | ⟨rfl, rfl⟩ | ⟨rfl, rfl⟩
    · exact ⟨_, rfl, found_cat _ (by simp)⟩
    · exact ⟨_, rfl, found_tok⟩
    · simp at hopt
  · intro n o x ho hopt hx
    rcases at1.1 ho with ⟨rfl, rfl⟩ | ⟨rfl, rfl⟩ | ⟨rfl, rfl⟩
    · simp at hopt
    · simp at hopt
    · simp at hx
  · intro lhs op rhs h i j hi hj
    simp only [alt1, List.mem_cons, List.not_mem_nil, or_false, Aql.Literal.bin.injEq, Bool.false_eq_true, and_false] at h
    obtain ⟨rfl, rfl, rfl, _⟩ := h
    rw [show before [list1, list2] 0 = 0 from rfl, den1_0] at hi
    rw [show before [list1, list2] 0 = 0 from rfl, den1_1] at hj
    subst hi hj
    refine ⟨_, _, rfl, rfl, (pre ['v']), (pre ['a']), rfl, rfl, (pre ['a']), (pre ['b']), (pre ['a']), (pre ['a']), Or.inr ⟨not_tok_v, first_v⟩, Or.inr ⟨not_tok_v, last_v⟩, Or.inl ⟨tok_a, rfl⟩,
      Or.inl ⟨tok_a, rfl⟩, ⟨.refl, .single ?_⟩, ⟨.refl, .single ?_⟩⟩ <;> (unfold Answer.Names.Next; decide +kernel)
  · intro lhs op rhs h i j a b hi hj ha hb hoa hob
    simp only [alt1, List.mem_cons, List.not_mem_nil, or_false, Aql.Literal.bin.injEq, Bool.true_eq_false, and_false, false_or] at h
    obtain ⟨rfl, rfl, rfl, _⟩ := h
    rw [show before [list1, list2] 0 = 0 from rfl, den1_2] at hi
    subst hi
    rcases at1.1 ha with ⟨h, _⟩ | ⟨h, _⟩ | ⟨_, rfl⟩
    · omega
    · omega
    · simp at hoa
  · intro lhs op rhs h i j a b hi hj ha hb hoa hob
    simp only [alt1, List.mem_cons, List.not_mem_nil, or_false, Aql.Literal.bin.injEq, Bool.true_eq_false, and_false, false_or] at h
    obtain ⟨rfl, rfl, rfl, _⟩ := h
    rw [show before [list1, list2] 0 = 0 from rfl, den1_2] at hi
    subst hi
    rcases at1.1 ha with ⟨h, _⟩ | ⟨h, _⟩ | ⟨_, rfl⟩
    · omega
    · omega
    · simp at hoa
  · intro lhs op rhs h i j a b hi hj ha hb hoa hob
    simp only [alt1, List.mem_cons, List.not_mem_nil, or_false, Aql.Literal.bin.injEq, Bool.true_eq_false, and_false, false_or] at h
    obtain ⟨rfl, rfl, rfl, _⟩ := h
    rw [show before [list1, list2] 0 = 0 from rfl, den1_ref] at hj
    subst hj
    refine ⟨_, rfl, ?_⟩
    rintro ⟨x, _, a, b, _, hb, hm⟩
    cases hb
    exact absurd (means_dep.1 hm).2 (by decide)
  · intro ref range h; simp [alt1] at h

theorem distinct_names (d : NMatch) (i : Nat) (L : List (Aql.Occ (NsSpec Str Str))) (row : List NMatch) (hL : [list1, list2][i]? = some L)
    (h : Answer.Names.AnswersAlt schema env set.cname set.part set.segc (· ∈ g.comps.keys) spec d [alt1, alt2] [list1, list2] i row) : DistinctBy L row := by
  obtain ⟨c, L', hc, hL', ha⟩ := h
  rw [hL] at hL'
  cases hL'
  match i with
  | 0 =>
    cases hc; cases hL
    obtain ⟨x, hx, _, k, _, hk, hxk⟩ := ha.found 0 _ rfl rfl
    obtain ⟨y, hy, _, k', _, hk', hyk⟩ := ha.found 1 _ rfl rfl
    have hne : x ≠ y := by
      intro e
      subst e
      rw [hxk] at hyk
      have : cat = nodeType := by
        rw [← hk.1]
        exact congrArg AnnoKey.name hyk
      exact absurd this (by decide)
    intro i j z a b hij ha hb hoa hob h1 h2
    rcases at1.1 ha with ⟨rfl, rfl⟩ | ⟨rfl, rfl⟩ | ⟨rfl, rfl⟩ <;> rcases at1.1 hb with ⟨rfl, rfl⟩ | ⟨rfl, rfl⟩ | ⟨rfl, rfl⟩ <;>
      first
      | exact hij rfl
      | (simp at hoa; done)
      | (simp at hob; done)
      | exact hne (Option.some.inj (hx.symm.trans (h1.trans (h2.symm.trans hy))))
      | exact hne (Option.some.inj (hx.symm.trans (h2.trans (h1.symm.trans hy))))
  | 1 =>
    cases hc; cases hL
    obtain ⟨x, y, hx, hy, a, b, hxa, hyb, hm⟩ := ha.holds _ _ _ (by simp only [alt2]; exact List.mem_cons_self) 0 1 (den2_0.2 rfl) (den2_1.2 rfl)
    have hm := means_dep.1 hm
    have hne : x ≠ y := by
      intro e
      subst e
      rw [hxa, hm.1, hm.2] at hyb
      exact absurd hyb (by decide)
    intro i j z a b hij ha hb hoa hob h1 h2
    rcases at2.1 ha with ⟨rfl, rfl⟩ | ⟨rfl, rfl⟩ <;> rcases at2.1 hb with ⟨rfl, rfl⟩ | ⟨rfl, rfl⟩ <;>
      first
      | exact hij rfl
      | exact hne (Option.some.inj (hx.symm.trans (h1.trans (h2.symm.trans hy))))
      | exact hne (Option.some.inj (hx.symm.trans (h2.trans (h1.symm.trans hy))))
  | n + 2 => simp at hc

/-- Concrete case: after the import of the tables the query `cat _i_ tok & cat? !->dep #1 | cat ->dep cat & #4:arity=1` can be executed, and every
execution finds the span `v` with the token `a`. The span `s` with the token `c` is never found, because `v` points to `s`. -/
theorem C114_nonvacuous (doc : NsSpec Str Str) (d : SMatch NodeID64 (AnnoKey Str)) :
    (∃ out, Answers (E := Empty) (corpusOf set g).env (corpusOf set g).g (corpusOf set g).db (corpusOf set g).th (corpusOf set g).order doc d
      text out) ∧
    ∀ out, Answers (E := Empty) (corpusOf set g).env (corpusOf set g).g (corpusOf set g).db (corpusOf set g).th (corpusOf set g).order doc d
      text out → ∃ rows : List (_root_.Row NodeID64 (AnnoKey Str)), out = rows.map .ok ∧
        [catN (pre ['v']), tokN (pre ['a'])] ∈ rows.map (List.map (nameMatch nameKey g)) ∧
        [catN (pre ['s']), tokN (pre ['c'])] ∉ rows.map (List.map (nameMatch nameKey g)) := by
  obtain ⟨e, ps, tree, h1, h2, h3, h4⟩ := text_parsed
  obtain ⟨qs, hqs⟩ := accepted doc h4
  obtain ⟨ops, ho⟩ := facts.made.annos
  obtain ⟨Ls, hLs, _, hex, _⟩ := C101_query_partial (E := Empty) (corpus_ok facts set_ok data_ok ho) (db_ok facts set_ok) h1 h2 h3 doc hqs d (by
    intro Ls hLs i c L hc hL
    rw [h4] at hLs hc
    rw [searches_unique hLs] at hL ⊢
    exact ⟨by
      match i with
      | 0 => cases hL; unfold Aql.NamesDistinct; decide
      | 1 => cases hL; unfold Aql.NamesDistinct; decide
      | n + 2 => simp at hc, altOk facts set_ok data_ok (alts_names i c L hc hL)⟩)
  refine ⟨hex, fun out hout => ?_⟩
  have hLs' := hLs
  rw [h4] at hLs'
  have := searches_unique hLs'
  subst this
  obtain ⟨rows, hr1, _, hr2⟩ := C114_results_partial (Er := Empty) imported importable (fun l => List.Perm.refl l) evs_numbered updated rfl set_tok set_ok h1 h2 h3 doc hqs d hLs
    (by intro L hL; simp only [List.mem_cons, List.not_mem_nil, or_false] at hL; rcases hL with rfl | rfl <;> (unfold Aql.NamesDistinct; decide))
    (by rw [h4]; exact alts_names) (by rw [h4]; exact distinct_names _) hout
  rw [h4] at hr2
  refine ⟨rows, hr1, (hr2 _).2 ⟨0, row1 _⟩, fun hm => ?_⟩
  obtain ⟨i, c, L, hc, hL, ha⟩ := (hr2 _).1 hm
  match i with
  | 0 =>
    cases hc; cases hL
    obtain ⟨y, hy, hn⟩ := ha.missingLeft _ _ _ (by simp only [alt1]; exact List.mem_cons_of_mem _ List.mem_cons_self) 2 0 _ _ (den1_2.2 rfl)
      (den1_ref.2 rfl) rfl rfl rfl rfl
    cases hy
    exact hn ⟨_, found_cat (pre ['v']) (by simp), (pre ['v']), (pre ['s']), rfl, rfl, means_dep.2 ⟨rfl, rfl⟩⟩
  | 1 =>
    cases hc; cases hL
    obtain ⟨x, y, hx, hy, a, b, hxa, _, hm⟩ := ha.holds _ _ _ (by simp only [alt2]; exact List.mem_cons_self) 0 1 (den2_0.2 rfl) (den2_1.2 rfl)
    cases hx
    cases hxa
    exact absurd (means_dep.1 hm).1 (by decide)
  | n + 2 => simp at hc

/-! ## Without the conditions -/

def importOf (t : Tables) : Graph Str Str (CKey Str) :=
  (update schema nameKey typeKey tokKey 4 ch Graph.new ((((importEvents noFiles t).map Prod.snd).getD []).map fun e => (0, e))).getD Graph.new

/-- The first and the last token of the node with this name in the index. -/
def bounds (t : Tables) (n : Str) : List (Option Str) × List (Option Str) :=
  let g := importOf t
  let i := ((ends g).filter fun i => g.annos.getValue i nameKey == some n)
  (i.flatMap fun i => ((g.comp schema.left).out i).map fun j => g.annos.getValue j nameKey,
    i.flatMap fun i => ((g.comp schema.right).out i).map fun j => g.annos.getValue j nameKey)

/-- C114: the index of the example; `p` is only above of `b` and `c` because it dominates `s`. -/
theorem C114_index_nonvacuous : bounds qTables (pre ['v']) = ([some (pre ['a'])], [some (pre ['b'])]) ∧
    bounds qTables (pre ['p']) = ([some (pre ['a'])], [some (pre ['c'])]) := by decide +kernel

/-- The token `a` dominates the token `b`. -/
def domTables : Tables := { qTables with ranks := [⟨2, 1, 1, none⟩, ⟨3, 2, 1, some 2⟩] }

/-- C114 fails: if a token dominates another one, then it is not found as first token any more; `v`, which covers `a` and `b`, begins with `b`. -/
theorem C114_dominating_token_fails : Spans domTables rowV rowA ∧ Spans domTables rowV rowB ∧ tokenIndex rowA = some 0 ∧ tokenIndex rowB = some 1 ∧
    bounds domTables (pre ['v']) = ([some (pre ['b'])], [some (pre ['b'])]) := by decide +kernel

/-- `v` covers also a token of another text. -/
def twoTables : Tables :=
  { qTables with
    nodes := [rowA, rowB, { rowC with text := 1 }, rowS, rowV, rowP]
    comps := [⟨0, .coverage, "l".toList, "".toList⟩]
    ranks := [⟨0, 5, 0, none⟩, ⟨1, 3, 0, some 0⟩] }

/-- C114 fails: if a node covers tokens of two texts, then its first and its last token are of different texts, and the first one is not before the
last one. -/
theorem C114_two_texts_fails : bounds twoTables (pre ['v']) = ([some (pre ['c'])], [some (pre ['b'])]) ∧
    ¬ SameText { rowC with text := 1 } rowB := by
  refine ⟨by decide +kernel, ?_⟩
  rintro ⟨_, h⟩
  cases h

end Rel.QueriedEx
