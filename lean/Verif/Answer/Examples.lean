import Verif.Answer.Main
import Verif.Whole.Examples
import Verif.Parse.Alternatives

/-!
# Examples and failing cases for C101
-/

set_option linter.unusedSimpArgs false
set_option linter.unusedVariables false

open AnnoStore TextOp Whole

namespace Answer.Ex

def annis : Str := "annis".toList
def tokName : Str := "tok".toList
def nodeType : Str := "node_type".toList
def cat : Str := "cat".toList
def dep : Str := "dep".toList

/-- Patterns match only themselves; `(` does not compile. -/
def env : NsEnv Str Str where
  annis := annis
  tok := tokName
  nodeType := nodeType
  nodeVal := "node".toList
  compile p := if p = ['('] then none else some fun w => decide (w = p)
  exact _ := none

/-- The nodes of `TextOp.demoTh` (tokens 1, 2, 3; span 10 covers 1 and 2, span 11 covers 2 and 3); the spans have the annotation `cat`. -/
def changes : List (AnnoStore.Op NodeID64 Str Str) :=
  [.insert 1 (AnnoKey.mk annis tokName) ['a'], .insert 2 (AnnoKey.mk annis tokName) ['b'], .insert 3 (AnnoKey.mk annis tokName) ['c'],
    .insert 10 (AnnoKey.mk [] cat) ['S'], .insert 11 (AnnoKey.mk [] cat) ['V']]

def graph : NsGraph NodeID64 Str Str where
  annos := run changes
  coverage := [(listStore Whole.Ex.covEdges, some 5)]
  anyTokens := some [1, 2, 3]

abbrev depEdges : List (NodeID64 × NodeID64) := [(11, 10)]

/-- A pointing relation `dep` from span 11 to span 10. -/
def depStore : EdgeStore NodeID64 Str Str := { g := listStore depEdges, annos := fun _ _ => some [] }

/-- The sources of a component, among the nodes of the sample, and a statistic. -/
def loadedOf (c : EdgeStore NodeID64 Str Str) : PocStore NodeID64 where
  sources := ([1, 2, 3, 10, 11, 21, 30] : List NodeID64).filter fun n => match c.g.out n with
    | some (_ :: _) => true
    | _ => false
  nodes := some 2

/-- The statistics say that there are 5 nodes with an annotation and 2 nodes in other components than those for tokens: the searches for left
operands of pointing and part-of operators are replaced. -/
def db : Db NodeID64 where
  dominance := []
  pointing := [(dep, depStore)]
  partOf := none
  segment _ := none
  loaded := loadedOf
  tokenComps _ := [some ⟨[10, 11], some 50⟩, some ⟨[10, 11], some 50⟩]
  cost _ := some 5

def rels : Rels NodeID64 Str Str where
  tok n := demoTh.Tok demoE n
  first a b := (a, b) ∈ [((10 : NodeID64), (1 : NodeID64)), (11, 2)]
  last a b := (a, b) ∈ [((10 : NodeID64), (2 : NodeID64)), (11, 3)]
  next a b := (a, b) ∈ [((1 : NodeID64), (2 : NodeID64)), (2, 3)]
  cov a b := (a, b) ∈ Whole.Ex.covEdges
  edge _ a b := (a, b) ∈ depEdges
  anno _ _ _ _ _ := False

theorem corpus_ok : CorpusOk changes env graph rels demoTh demoOrder demoE (fun _ => True) GStore.anyRange where
  annos := rfl
  coverage := by
    refine ⟨fun _ a b => (a, b) ∈ Whole.Ex.covEdges, ?_, ?_⟩
    · intro c hc
      simp only [graph, List.mem_singleton] at hc
      subst hc
      exact ⟨⟨_, _, listStore_is _ (by decide)⟩, by simp⟩
    · intro a b
      simp [graph, rels]
  exact := by intro p v f h; simp [env] at h
  tokens := by
    intro l hl
    simp only [graph, Option.some.injEq] at hl
    subst hl
    refine ⟨by decide, fun n => ?_⟩
    have hk : AnnoKey.mk annis tokName ≠ AnnoKey.mk [] cat := by decide
    simp only [AnnoStore.spec, changes, List.foldl, specStep, env]
    by_cases h1 : n = 1 <;> by_cases h2 : n = 2 <;> by_cases h3 : n = 3 <;> by_cases h4 : n = 10 <;> by_cases h5 : n = 11 <;>
      first
      | (subst h1; clear h2 h3 h4 h5; simp [rels, hk]; try decide)
      | (subst h2; clear h1 h3 h4 h5; simp [rels, hk]; try decide)
      | (subst h3; clear h1 h2 h4 h5; simp [rels, hk]; try decide)
      | (subst h4; clear h1 h2 h3 h5; simp [rels, hk]; try decide)
      | (subst h5; clear h1 h2 h3 h4; simp [rels, hk]; try decide)
      | simp [h1, h2, h3, h4, h5, hk]
  text :=
    { thOk := demo_ok
      isTok := fun _ => Iff.rfl
      isCov := Whole.Ex.cov_iff
      orderOk := listStore_is _ (by decide)
      orderTok := demo_order_tok
      known := fun _ _ => trivial }

theorem db_ok : DbOk db rels (fun _ _ => True) (fun _ => GStore.anyRange) where
  dominance := by simp [db]
  pointing := by
    intro name c h
    simp only [db, List.mem_singleton, Prod.mk.injEq] at h
    obtain ⟨_, rfl⟩ := h
    exact ⟨listStore_is _ (by decide), fun a b => ⟨[], rfl, by simp [rels]⟩⟩
  partOf := by simp [db]
  segment := by simp [db]
  once := fun c _ => List.Nodup.filter _ (by decide)
  sources := by
    rintro c (⟨name, h | h⟩ | h)
    · simp [db] at h
    · simp only [db, List.mem_singleton, Prod.mk.injEq] at h
      obtain ⟨_, rfl⟩ := h
      intro a b hab
      simp only [rels, depEdges, List.mem_singleton, Prod.mk.injEq] at hab
      obtain ⟨rfl, rfl⟩ := hab
      change (11 : NodeID64) ∈ (loadedOf depStore).sources
      decide
    · simp [db] at h

/-! ## A query with two alternatives -/

/-- A span that includes a token and that no span points to, or a span with one child that points to a span. -/
def text : Str := "cat _i_ tok & cat? !->dep #1 | cat ->dep cat & #4:arity=1".toList

def catS : NsSpec Str Str := .exact none cat none false

/-- The alternatives of the text. -/
def alt1 : List Parse.QLit :=
  [.bin (.lit catS 0 none false) (.other .inclusion) (.lit .anyToken 8 none false) false,
    .bin (.lit catS 14 none true) (.join (.pointing dep (.bound 1 1) none)) (.ref (.id 1)) true]
def alt2 : List Parse.QLit :=
  [.bin (.lit catS 31 none false) (.join (.pointing dep (.bound 1 1) none)) (.lit catS 41 none false) false,
    .un (.id 4) (.bound 1 1)]

def list1 : List (Aql.Occ (NsSpec Str Str)) := [⟨0, catS, none, false⟩, ⟨8, .anyToken, none, false⟩, ⟨14, catS, none, true⟩]
def list2 : List (Aql.Occ (NsSpec Str Str)) := [⟨31, catS, none, false⟩, ⟨41, catS, none, false⟩]

def parsed : Option (List (List Parse.QLit)) :=
  match Parse.parseQuery text with
  | .ok e => some (Aql.alternatives e)
  | _ => none

theorem parsed_eq : parsed = some [alt1, alt2] := by decide +kernel

theorem isList1 : Aql.IsNodeList alt1 list1 := by
  refine ⟨by decide, fun o => ?_⟩
  simp [alt1, list1, Aql.Literal.occs, Aql.Operand.occs, or_assoc]

theorem isList2 : Aql.IsNodeList alt2 list2 := by
  refine ⟨by decide, fun o => ?_⟩
  simp [alt2, list2, Aql.Literal.occs, Aql.Operand.occs]

theorem den (offset : Nat) (L : List (Aql.Occ (NsSpec Str Str))) (s : NsSpec Str Str) (p : Nat) (v : Option Str) (o : Bool) (i : Nat) :
    Aql.Denotes offset L (.lit s p v o) i ↔ ∃ x, L[i]? = some x ∧ x.pos = p := Iff.rfl

theorem at1 {i : Nat} {o : Aql.Occ (NsSpec Str Str)} : list1[i]? = some o ↔
    (i = 0 ∧ o = ⟨0, catS, none, false⟩) ∨ (i = 1 ∧ o = ⟨8, .anyToken, none, false⟩) ∨ (i = 2 ∧ o = ⟨14, catS, none, true⟩) := by
  match i with
  | 0 => simp [list1, @eq_comm _ _ o]
  | 1 => simp [list1, @eq_comm _ _ o]
  | 2 => simp [list1, @eq_comm _ _ o]
  | n + 3 => simp [list1]

theorem at2 {i : Nat} {o : Aql.Occ (NsSpec Str Str)} : list2[i]? = some o ↔
    (i = 0 ∧ o = ⟨31, catS, none, false⟩) ∨ (i = 1 ∧ o = ⟨41, catS, none, false⟩) := by
  match i with
  | 0 => simp [list2, eq_comm]
  | 1 => simp [list2, eq_comm]
  | n + 2 => simp [list2]

theorem den1_0 {i : Nat} : Aql.Denotes 0 list1 (.lit catS 0 none false) i ↔ i = 0 := by
  rw [den]
  constructor
  · rintro ⟨x, hx, hp⟩
    rcases at1.1 hx with ⟨rfl, rfl⟩ | ⟨rfl, rfl⟩ | ⟨rfl, rfl⟩ <;> simp at hp ⊢
  · rintro rfl; exact ⟨_, rfl, rfl⟩

theorem den1_1 {i : Nat} : Aql.Denotes 0 list1 (.lit .anyToken 8 none false) i ↔ i = 1 := by
  rw [den]
  constructor
  · rintro ⟨x, hx, hp⟩
    rcases at1.1 hx with ⟨rfl, rfl⟩ | ⟨rfl, rfl⟩ | ⟨rfl, rfl⟩ <;> simp at hp ⊢
  · rintro rfl; exact ⟨_, rfl, rfl⟩

theorem den1_2 {i : Nat} : Aql.Denotes 0 list1 (.lit catS 14 none true) i ↔ i = 2 := by
  rw [den]
  constructor
  · rintro ⟨x, hx, hp⟩
    rcases at1.1 hx with ⟨rfl, rfl⟩ | ⟨rfl, rfl⟩ | ⟨rfl, rfl⟩ <;> simp at hp ⊢
  · rintro rfl; exact ⟨_, rfl, rfl⟩

theorem den1_ref {i : Nat} : Aql.Denotes 0 list1 (.ref (.id 1)) i ↔ i = 0 := by
  simp only [Aql.Denotes, Aql.DenotesRef]
  constructor
  · rintro ⟨x, _, _, hp⟩; omega
  · rintro rfl; exact ⟨_, rfl, rfl, rfl⟩

theorem den2_0 {i : Nat} : Aql.Denotes 3 list2 (.lit catS 31 none false) i ↔ i = 0 := by
  rw [den]
  constructor
  · rintro ⟨x, hx, hp⟩
    rcases at2.1 hx with ⟨rfl, rfl⟩ | ⟨rfl, rfl⟩ <;> simp at hp ⊢
  · rintro rfl; exact ⟨_, rfl, rfl⟩

theorem den2_1 {i : Nat} : Aql.Denotes 3 list2 (.lit catS 41 none false) i ↔ i = 1 := by
  rw [den]
  constructor
  · rintro ⟨x, hx, hp⟩
    rcases at2.1 hx with ⟨rfl, rfl⟩ | ⟨rfl, rfl⟩ <;> simp at hp ⊢
  · rintro rfl; exact ⟨_, rfl, rfl⟩

theorem den2_ref {i : Nat} : Aql.DenotesRef 3 list2 (.id 4) i ↔ i = 0 := by
  simp only [Aql.DenotesRef]
  constructor
  · rintro ⟨x, _, _, hp⟩; omega
  · rintro rfl; exact ⟨_, rfl, rfl, rfl⟩

theorem dep_fits : OpFits db rels demoTh demoE GStore.anyRange (fun _ _ => True) (fun _ => GStore.anyRange) (.join (.pointing dep (.bound 1 1) none)) := by
  intro c _
  exact ⟨by simp [GStore.anyRange, RangeSpec.maxDist], Or.inl (by decide)⟩

theorem dep_replaceable : Replaceable db env rels catS (.join (.pointing dep (.bound 1 1) none)) false :=
  (C101_replaceable (spec := catS) db_ok (dist := .bound 1 1) (show ShowsSearched catS from rfl) (le_refl 1)).2.2 _ _ (by simp [named, db])

theorem alt1_ok : AltOk db env graph rels demoTh demoE GStore.anyRange (fun _ _ => True) (fun _ => GStore.anyRange) 0 alt1 list1 where
  nonempty := ⟨⟨0, catS, none, false⟩, by simp [list1], rfl⟩
  unambiguous := by
    intro o ho _
    simp only [list1, List.mem_cons, List.not_mem_nil, or_false] at ho
    rcases ho with rfl | rfl | rfl <;> trivial
  connected := by
    have h01 : Relation.EqvGen (fun i j => ∃ lhs op rhs, .bin lhs op rhs false ∈ alt1 ∧ Aql.Denotes 0 list1 lhs i ∧ Aql.Denotes 0 list1 rhs j) 0 1 :=
      .rel _ _ ⟨_, _, _, by simp only [alt1]; exact List.mem_cons_self, den1_0.2 rfl, den1_1.2 rfl⟩
    rintro i j ⟨a, ha, hoa⟩ ⟨b, hb, hob⟩
    rcases at1.1 ha with ⟨rfl, rfl⟩ | ⟨rfl, rfl⟩ | ⟨rfl, rfl⟩ <;> rcases at1.1 hb with ⟨rfl, rfl⟩ | ⟨rfl, rfl⟩ | ⟨rfl, rfl⟩ <;>
      first
      | exact .refl _
      | exact h01
      | exact .symm _ _ h01
      | (simp at hoa; done)
      | (simp at hob; done)
  supported := by
    intro lhs op rhs neg h
    simp only [alt1, List.mem_cons, List.not_mem_nil, or_false, Aql.Literal.bin.injEq] at h
    rcases h with ⟨_, rfl, _, _⟩ | ⟨_, rfl, _, _⟩ <;> trivial
  fits := by
    intro lhs op rhs neg h
    simp only [alt1, List.mem_cons, List.not_mem_nil, or_false, Aql.Literal.bin.injEq] at h
    rcases h with ⟨_, rfl, _, _⟩ | ⟨_, rfl, _, _⟩
    · exact ⟨demo_order_chains, fun a b d _ => by simp [GStore.anyRange]⟩
    · exact dep_fits
  arity := by intro ref range h; simp [alt1] at h
  patterns := by
    intro o ho _ p hp
    simp only [list1, List.mem_cons, List.not_mem_nil, or_false] at ho
    rcases ho with rfl | rfl | rfl <;> simp [catS, NodeSearch.patternOf] at hp
  tokens := by intro o _ _; simp [graph]
  replaced := by
    intro lhs op rhs neg h i j a b hi hj ha hb h1 h2
    simp only [alt1, List.mem_cons, List.not_mem_nil, or_false, Aql.Literal.bin.injEq] at h
    rcases h with ⟨_, rfl, _, _⟩ | ⟨rfl, rfl, _, _⟩
    · intro est e he hc hlt
      cases he
      cases hc
      exact absurd hlt (by decide)
    · exfalso
      rcases at1.1 ha with ⟨rfl, rfl⟩ | ⟨rfl, rfl⟩ | ⟨rfl, rfl⟩
      · exact absurd (den1_2.1 hi) (by decide)
      · exact absurd (den1_2.1 hi) (by decide)
      · cases h1

theorem alt2_ok : AltOk db env graph rels demoTh demoE GStore.anyRange (fun _ _ => True) (fun _ => GStore.anyRange) 3 alt2 list2 where
  nonempty := ⟨⟨31, catS, none, false⟩, by simp [list2], rfl⟩
  unambiguous := by
    intro o ho _
    simp only [list2, List.mem_cons, List.not_mem_nil, or_false] at ho
    rcases ho with rfl | rfl <;> trivial
  connected := by
    have h01 : Relation.EqvGen (fun i j => ∃ lhs op rhs, .bin lhs op rhs false ∈ alt2 ∧ Aql.Denotes 3 list2 lhs i ∧ Aql.Denotes 3 list2 rhs j) 0 1 :=
      .rel _ _ ⟨_, _, _, by simp only [alt2]; exact List.mem_cons_self, den2_0.2 rfl, den2_1.2 rfl⟩
    rintro i j ⟨a, ha, hoa⟩ ⟨b, hb, hob⟩
    rcases at2.1 ha with ⟨rfl, rfl⟩ | ⟨rfl, rfl⟩ <;> rcases at2.1 hb with ⟨rfl, rfl⟩ | ⟨rfl, rfl⟩ <;>
      first
      | exact .refl _
      | exact h01
      | exact .symm _ _ h01
  supported := by
    intro lhs op rhs neg h
    simp only [alt2, List.mem_cons, List.not_mem_nil, or_false, Aql.Literal.bin.injEq, reduceCtorEq] at h
    obtain ⟨_, rfl, _, _⟩ := h
    trivial
  fits := by
    intro lhs op rhs neg h
    simp only [alt2, List.mem_cons, List.not_mem_nil, or_false, Aql.Literal.bin.injEq, reduceCtorEq] at h
    obtain ⟨_, rfl, _, _⟩ := h
    exact dep_fits
  arity := by
    intro ref range h i o hd ho
    rcases at2.1 ho with ⟨rfl, rfl⟩ | ⟨rfl, rfl⟩ <;> rfl
  patterns := by
    intro o ho _ p hp
    simp only [list2, List.mem_cons, List.not_mem_nil, or_false] at ho
    rcases ho with rfl | rfl <;> simp [catS, NodeSearch.patternOf] at hp
  tokens := by intro o _ _; simp [graph]
  replaced := by
    intro lhs op rhs neg h i j a b hi hj ha hb h1 h2
    simp only [alt2, List.mem_cons, List.not_mem_nil, or_false, Aql.Literal.bin.injEq, reduceCtorEq] at h
    obtain ⟨_, rfl, _, rfl⟩ := h
    rcases at2.1 ha with ⟨rfl, rfl⟩ | ⟨rfl, rfl⟩
    · exact dep_replaceable
    · exact dep_replaceable

theorem searches_unique {Ls : List (List (Aql.Occ (NsSpec Str Str)))} (h : Searches [alt1, alt2] Ls) : Ls = [list1, list2] := by
  cases h with
  | cons h1 h2 =>
    cases h2 with
    | cons h2 h3 =>
      cases h3
      rw [h1.unique isList1, h2.unique isList2]

theorem accepted (doc : NsSpec Str Str) {e : Parse.Q} (h : Aql.alternatives e = [alt1, alt2]) :
    ∃ qs, Aql.parse false doc e = .ok qs := by
  unfold Aql.parse
  rw [h]
  cases hr : Aql.mapAlternatives false doc (if false = true then Aql.metaSearches [alt1, alt2] else []) [alt1, alt2] 0 with
  | ok qs => exact ⟨qs, rfl⟩
  | error x =>
    exfalso
    have : (Aql.mapAlternatives false doc (if false = true then Aql.metaSearches [alt1, alt2] else []) [alt1, alt2] 0).toOption.isSome = true := by
      rfl
    rw [hr] at this
    simp [Except.toOption] at this

/-- The text is accepted, has no parentheses, and its alternatives are the two conjunctions. -/
theorem text_parsed : ∃ e ps tree, Parse.parseQuery text = .ok e ∧ Parse.Spec.Tree text ps tree ∧ Parse.Spec.Flat tree ∧
    Aql.alternatives e = [alt1, alt2] := by
  have h := parsed_eq
  unfold parsed at h
  split at h
  · rename_i e he
    obtain ⟨ps, d, ht, _⟩ := Parse.ok_tree he
    have hl := (Parse.C91_lex _ _).2 ht.1
    have hn : ((Parse.lex text).toOption.any fun ps => ps.all fun t => decide (t.tk ≠ .kw .lpar)) = true := by decide +kernel
    rw [hl] at hn
    obtain ⟨d, h1, h2⟩ := Parse.C92_no_parens he hl (by simpa [Except.toOption] using hn)
    exact ⟨e, ps, d, he, h1, h2, by simpa using h⟩
  · cases h

/-- A match of a search for `cat`. -/
def catM (n : NodeID64) : SMatch NodeID64 (AnnoKey Str) := ⟨n, AnnoKey.mk [] cat⟩
/-- A match of a search for tokens. -/
def tokM (n : NodeID64) : SMatch NodeID64 (AnnoKey Str) := ⟨n, AnnoKey.mk annis nodeType⟩

theorem finds_cat (n : NodeID64) (h : n = 10 ∨ n = 11) : Finds env (AnnoStore.spec changes) rels catS (catM n) := by
  rcases h with rfl | rfl
  · exact ⟨AnnoKey.mk [] cat, ⟨rfl, fun _ h => by simp at h, ['S'], by decide, by simp⟩, rfl⟩
  · exact ⟨AnnoKey.mk [] cat, ⟨rfl, fun _ h => by simp at h, ['V'], by decide, by simp⟩, rfl⟩

theorem finds_tok : Finds env (AnnoStore.spec changes) rels .anyToken (tokM 2) :=
  ⟨AnnoKey.mk annis tokName, ⟨⟨rfl, fun _ h => by simpa [env] using h, ['b'], by decide, trivial⟩, by simp [rels, tokM]⟩, rfl⟩

theorem means_dep (a b : NodeID64) : Means db env rels (.join (.pointing dep (.bound 1 1) none)) a b ↔ a = 11 ∧ b = 10 := by
  constructor
  · rintro ⟨c, _, ⟨n, ⟨p, ⟨h1, h2, h3⟩, _, hl⟩, hw⟩, _⟩
    have hn : n = 1 := by
      obtain ⟨w1, w2⟩ := hw
      simp only [RangeSpec.minDist, RangeSpec.maxDist] at w1 w2
      omega
    subst hn
    match p, hl with
    | [x, y], _ =>
      simp at h1 h2
      subst h1 h2
      simpa [rels] using h3
  · rintro ⟨rfl, rfl⟩
    exact ⟨depStore, by simp [db], ⟨1, ⟨[11, 10], ⟨rfl, rfl, by simp [rels]⟩, by decide, rfl⟩, ⟨le_refl 1, le_refl 1⟩⟩, by simp⟩

theorem row1 (d : SMatch NodeID64 (AnnoKey Str)) : TextAnswer db env (AnnoStore.spec changes) rels d 0 alt1 list1 [catM 11, tokM 2] where
  length := by
    intro i
    constructor
    · intro h
      simp only [List.length_cons, List.length_nil] at h
      exact ⟨1, ⟨8, .anyToken, none, false⟩, by omega, rfl, rfl⟩
    · rintro ⟨n, o, hi, ho, hopt⟩
      simp only [List.length_cons, List.length_nil]
      rcases at1.1 ho with ⟨rfl, rfl⟩ | ⟨rfl, rfl⟩ | ⟨rfl, rfl⟩
      · omega
      · omega
      · simp at hopt
  found := by
    intro n o ho hopt
    rcases at1.1 ho with ⟨rfl, rfl⟩ | ⟨rfl, rfl⟩ | ⟨rfl, rfl⟩
    · exact ⟨_, rfl, finds_cat 11 (by simp)⟩
    · exact ⟨_, rfl, finds_tok⟩
    · simp at hopt
  default := by
    intro n o x ho hopt hx
    rcases at1.1 ho with ⟨rfl, rfl⟩ | ⟨rfl, rfl⟩ | ⟨rfl, rfl⟩
    · simp at hopt
    · simp at hopt
    · simp at hx
  holds := by
    intro lhs op rhs h i j hi hj
    simp only [alt1, List.mem_cons, List.not_mem_nil, or_false, Aql.Literal.bin.injEq, Bool.false_eq_true, and_false] at h
    obtain ⟨rfl, rfl, rfl, _⟩ := h
    rw [den1_0] at hi
    rw [den1_1] at hj
    subst hi hj
    have n11 : ¬ rels.tok 11 := fun h => absurd ((demo_tok 11).1 h) (by decide)
    have t2 : rels.tok 2 := (demo_tok 2).2 (by decide)
    exact ⟨_, _, rfl, rfl, 2, 3, 2, 2, Or.inr ⟨n11, by simp [rels, catM]⟩, Or.inr ⟨n11, by simp [rels, catM]⟩, Or.inl ⟨t2, rfl⟩, Or.inl ⟨t2, rfl⟩,
      ⟨.refl, .single (by simp [rels])⟩, ⟨.refl, .single (by simp [rels])⟩⟩
  negated := by
    intro lhs op rhs h i j a b hi hj ha hb hoa hob
    simp only [alt1, List.mem_cons, List.not_mem_nil, or_false, Aql.Literal.bin.injEq, Bool.true_eq_false, and_false, false_or] at h
    obtain ⟨rfl, rfl, rfl, _⟩ := h
    rw [den1_2] at hi
    subst hi
    rcases at1.1 ha with ⟨h, _⟩ | ⟨h, _⟩ | ⟨_, rfl⟩
    · omega
    · omega
    · simp at hoa
  missingRight := by
    intro lhs op rhs h i j a b hi hj ha hb hoa hob
    simp only [alt1, List.mem_cons, List.not_mem_nil, or_false, Aql.Literal.bin.injEq, Bool.true_eq_false, and_false, false_or] at h
    obtain ⟨rfl, rfl, rfl, _⟩ := h
    rw [den1_2] at hi
    subst hi
    rcases at1.1 ha with ⟨h, _⟩ | ⟨h, _⟩ | ⟨_, rfl⟩
    · omega
    · omega
    · simp at hoa
  missingLeft := by
    intro lhs op rhs h i j a b hi hj ha hb hoa hob
    simp only [alt1, List.mem_cons, List.not_mem_nil, or_false, Aql.Literal.bin.injEq, Bool.true_eq_false, and_false, false_or] at h
    obtain ⟨rfl, rfl, rfl, _⟩ := h
    rw [den1_ref] at hj
    subst hj
    refine ⟨_, rfl, ?_⟩
    rintro ⟨x, _, hm⟩
    exact absurd ((means_dep _ _).1 hm).2 (by decide)
  arity := by intro ref range h; simp [alt1] at h

theorem row2 (d : SMatch NodeID64 (AnnoKey Str)) : TextAnswer db env (AnnoStore.spec changes) rels d 3 alt2 list2 [catM 11, catM 10] where
  length := by
    intro i
    constructor
    · intro h
      simp only [List.length_cons, List.length_nil] at h
      exact ⟨1, ⟨41, catS, none, false⟩, by omega, rfl, rfl⟩
    · rintro ⟨n, o, hi, ho, hopt⟩
      simp only [List.length_cons, List.length_nil]
      rcases at2.1 ho with ⟨rfl, rfl⟩ | ⟨rfl, rfl⟩ <;> omega
  found := by
    intro n o ho hopt
    rcases at2.1 ho with ⟨rfl, rfl⟩ | ⟨rfl, rfl⟩
    · exact ⟨_, rfl, finds_cat 11 (by simp)⟩
    · exact ⟨_, rfl, finds_cat 10 (by simp)⟩
  default := by
    intro n o x ho hopt hx
    rcases at2.1 ho with ⟨rfl, rfl⟩ | ⟨rfl, rfl⟩ <;> simp at hopt
  holds := by
    intro lhs op rhs h i j hi hj
    simp only [alt2, List.mem_cons, List.not_mem_nil, or_false, Aql.Literal.bin.injEq, reduceCtorEq] at h
    obtain ⟨rfl, rfl, rfl, _⟩ := h
    rw [den2_0] at hi
    rw [den2_1] at hj
    subst hi hj
    exact ⟨_, _, rfl, rfl, (means_dep _ _).2 ⟨rfl, rfl⟩⟩
  negated := by intro lhs op rhs h; simp [alt2] at h
  missingRight := by intro lhs op rhs h; simp [alt2] at h
  missingLeft := by intro lhs op rhs h; simp [alt2] at h
  arity := by
    intro ref range h i hi
    simp only [alt2, List.mem_cons, List.not_mem_nil, or_false, Aql.Literal.un.injEq, reduceCtorEq, false_or] at h
    obtain ⟨rfl, rfl⟩ := h
    rw [den2_ref] at hi
    subst hi
    refine ⟨_, rfl, [10], by simp, ?_, ?_⟩
    · intro b
      simp [db, rels, catM]
    · exact ⟨le_refl 1, le_refl 1⟩

/-- Concrete case: on the example corpus the query
`cat _i_ tok & cat? !->dep #1 | cat ->dep cat & #4:arity=1` has results. Span 11 with token 2 is always one (nothing points to 11), as are the
spans 11 and 10. Span 10 with token 1 never is: 11 points to 10. -/
theorem C101_nonvacuous (doc : NsSpec Str Str) (d : SMatch NodeID64 (AnnoKey Str)) :
    (∃ out, Answers (E := Empty) env graph db demoTh demoOrder doc d text out) ∧
    ∀ out, Answers (E := Empty) env graph db demoTh demoOrder doc d text out →
      .ok [catM 11, tokM 2] ∈ out ∧ .ok [catM 11, catM 10] ∈ out ∧ .ok [catM 10, tokM 1] ∉ out := by
  obtain ⟨e, ps, tree, h1, h2, h3, h4⟩ := text_parsed
  obtain ⟨qs, hqs⟩ := accepted doc h4
  obtain ⟨Ls, hs, _, hex, hall⟩ := C101_query_partial (E := Empty) corpus_ok db_ok h1 h2 h3 doc hqs d (by
    intro Ls hLs i c L hc hL
    rw [h4] at hLs hc
    rw [searches_unique hLs] at hL ⊢
    match i with
    | 0 => cases hc; cases hL; exact ⟨by unfold Aql.NamesDistinct; decide, alt1_ok⟩
    | 1 => cases hc; cases hL; exact ⟨by unfold Aql.NamesDistinct; decide, alt2_ok⟩
    | n + 2 => simp at hc)
  rw [h4] at hs hall
  have hs' := searches_unique hs
  subst hs'
  refine ⟨hex, fun out hout => ?_⟩
  obtain ⟨rows, rfl, _, hr1, hr2⟩ := hall out hout
  refine ⟨List.mem_map.2 ⟨_, hr2 0 list1 _ rfl ⟨alt1, list1, rfl, rfl, row1 d⟩ ?_, rfl⟩,
    List.mem_map.2 ⟨_, hr2 1 list2 _ rfl ⟨alt2, list2, rfl, rfl, row2 d⟩ ?_, rfl⟩, ?_⟩
  · intro i j x a b hij ha hb hoa hob hx hy
    rcases at1.1 ha with ⟨rfl, rfl⟩ | ⟨rfl, rfl⟩ | ⟨rfl, rfl⟩ <;> rcases at1.1 hb with ⟨rfl, rfl⟩ | ⟨rfl, rfl⟩ | ⟨rfl, rfl⟩ <;>
      first
      | exact hij rfl
      | (simp at hx; done)
      | (simp at hy; done)
      | (simp only [List.getElem?_cons_succ, List.getElem?_cons_zero, Option.some.injEq] at hx hy
         subst hx
         exact absurd (congrArg SMatch.node hy) (by decide))
  · intro i j x a b hij ha hb hoa hob hx hy
    rcases at2.1 ha with ⟨rfl, rfl⟩ | ⟨rfl, rfl⟩ <;> rcases at2.1 hb with ⟨rfl, rfl⟩ | ⟨rfl, rfl⟩ <;>
      first
      | exact hij rfl
      | (simp only [List.getElem?_cons_succ, List.getElem?_cons_zero, Option.some.injEq] at hx hy
         subst hx
         exact absurd (congrArg SMatch.node hy) (by decide))
  · rw [List.mem_map]
    rintro ⟨row, hrow, he⟩
    cases he
    obtain ⟨i, c, L, hc, hL, ha⟩ := hr1 _ hrow
    match i with
    | 0 =>
      cases hc; cases hL
      obtain ⟨y, hy, hn⟩ := ha.missingLeft _ _ _ (by simp only [alt1]; exact List.mem_cons_of_mem _ List.mem_cons_self) 2 0 _ _ (den1_2.2 rfl)
        (den1_ref.2 rfl) rfl rfl rfl rfl
      cases hy
      exact hn ⟨_, finds_cat 11 (by simp), (means_dep _ _).2 ⟨rfl, rfl⟩⟩
    | 1 =>
      cases hc; cases hL
      obtain ⟨x, y, hx, hy, hm⟩ := ha.holds _ _ _ (by simp only [alt2]; exact List.mem_cons_self) 0 1 (den2_0.2 rfl) (den2_1.2 rfl)
      cases hx
      exact absurd ((means_dep _ _).1 hm).1 (by decide)
    | n + 2 => simp at hc

/-- The answers to the query of the example never use the same match for two nodes. -/
theorem distinct_answers (d : SMatch NodeID64 (AnnoKey Str)) (i : Nat) (L : List (Aql.Occ (NsSpec Str Str))) (row : Row NodeID64 (AnnoKey Str))
    (hL : [list1, list2][i]? = some L) (h : AnswersAlt db env (AnnoStore.spec changes) rels d [alt1, alt2] [list1, list2] i row) :
    Distinct L row := by
  obtain ⟨c, L', hc, hL', ha⟩ := h
  rw [hL] at hL'
  cases hL'
  match i with
  | 0 =>
    cases hc; cases hL
    obtain ⟨x, hx, k, hk, hxk⟩ := ha.found 0 _ rfl rfl
    obtain ⟨y, hy, k', hk', hyk⟩ := ha.found 1 _ rfl rfl
    have hne : x ≠ y := by
      intro e
      subst e
      rw [hxk] at hyk
      have : cat = nodeType := by
        rw [← hk.1]
        exact congrArg AnnoKey.name hyk
      exact absurd this (by decide)
    intro i j z a b hij ha hb hoa hob h1 h2
    rcases at1.1 ha with ⟨rfl, rfl⟩ | ⟨rfl, rfl⟩ | ⟨rfl, rfl⟩ <;> rcases at1.1 hb with ⟨rfl, rfl⟩ | ⟨rfl, rfl⟩ | ⟨rfl, rfl⟩ <;>
      first
      | exact hij rfl
      | (simp at hoa; done)
      | (simp at hob; done)
      | exact hne (Option.some.inj (hx.symm.trans (h1.trans (h2.symm.trans hy))))
      | exact hne (Option.some.inj (hx.symm.trans (h2.trans (h1.symm.trans hy))))
  | 1 =>
    cases hc; cases hL
    obtain ⟨x, y, hx, hy, hm⟩ := ha.holds _ _ _ (by simp only [alt2]; exact List.mem_cons_self) 0 1 (den2_0.2 rfl) (den2_1.2 rfl)
    have hm := (means_dep _ _).1 hm
    have hne : x ≠ y := by
      intro e
      subst e
      rw [hm.1] at hm
      exact absurd hm.2 (by decide)
    intro i j z a b hij ha hb hoa hob h1 h2
    rcases at2.1 ha with ⟨rfl, rfl⟩ | ⟨rfl, rfl⟩ <;> rcases at2.1 hb with ⟨rfl, rfl⟩ | ⟨rfl, rfl⟩ <;>
      first
      | exact hij rfl
      | exact hne (Option.some.inj (hx.symm.trans (h1.trans (h2.symm.trans hy))))
      | exact hne (Option.some.inj (hx.symm.trans (h2.trans (h1.symm.trans hy))))
  | n + 2 => simp at hc

/-! ## Negated operators without a component -/

theorem allSome_get {α : Type} : ∀ {l : List (Option α)} {r : List α}, allSome l = some r → ∀ x ∈ l, x ≠ none
  | [], _, _, x, hx => by simp at hx
  | none :: l, r, h, x, hx => by simp [allSome] at h
  | some a :: l, r, h, x, hx => by
    rw [allSome, Option.map_eq_some_iff] at h
    obtain ⟨r', h1, _⟩ := h
    rcases List.mem_cons.1 hx with rfl | hx
    · simp
    · exact allSome_get h1 x hx

theorem kind_none {T : Type} {db : Db T} {op : Aql.BinSpec Parse.OpSpec} (h : lacks db op = true)
    (env : NsEnv Str Str) (dec : Bool × Bool) : kindOf db env dec op = none := by
  unfold lacks at h
  split at h
  · rw [Option.isNone_iff_eq_none] at h; simp [kindOf, h]
  · rw [Option.isNone_iff_eq_none] at h; simp [kindOf, h]
  · rw [Option.isNone_iff_eq_none] at h; simp [kindOf, h]
  · cases h

/-- There is no plan for an alternative with an operator that needs a missing component. -/
theorem not_planned {T E : Type} [LinearOrder T] {env : NsEnv Str Str} {g : NsGraph T Str Str} {db : Db T} {th : TokenHelper T} {order : GStore T}
    {d : SMatch T (AnnoKey Str)} {q : QConj} {x : Option (List (Except (Fail E) (Row T (AnnoKey Str))))}
    (hu : lacksAny db q = true) (h : AltRows env g db th order d q x) : x = none := by
  cases h with
  | failed => rfl
  | missing => rfl
  | plan _ _ h1 h2 _ _ _ =>
    exfalso
    unfold lacksAny at hu
    rw [Bool.or_eq_true, List.any_eq_true, List.any_eq_true] at hu
    rcases hu with ⟨b, hb, hu⟩ | ⟨u, hu', hu⟩
    · obtain ⟨i, hi⟩ := List.mem_iff_getElem?.1 hb
      refine allSome_get h2 _ (List.mem_of_getElem? (i := i) (by rw [List.getElem?_mapIdx, hi]; rfl)) ?_
      simp only [binOf]
      split <;> rename_i ho <;> rw [ho] at hu
      · rw [kind_none hu]; rfl
      · rw [kind_none hu]; rfl
      · cases hu
      · simp only [lacks, Option.isNone_iff_eq_none] at hu
        rw [hu]; rfl
    · obtain ⟨i, hi⟩ := List.mem_iff_getElem?.1 hu'
      refine allSome_get h1 _ (List.mem_of_getElem? (i := i) (by rw [List.getElem?_mapIdx, hi]; rfl)) ?_
      simp only [unaryOf]
      split <;> rename_i ho <;> rw [ho] at hu
      · cases hu
      · rw [kind_none hu]; rfl

/-- A span that includes a token which is not a part of it. -/
def text3 : Str := "cat _i_ tok & #1 !@ #2".toList

def alt3 : List Parse.QLit :=
  [.bin (.lit catS 0 none false) (.other .inclusion) (.lit .anyToken 8 none false) false,
    .bin (.ref (.id 1)) (.other (.partOf (.bound 1 1))) (.ref (.id 2)) true]

def list3 : List (Aql.Occ (NsSpec Str Str)) := [⟨0, catS, none, false⟩, ⟨8, .anyToken, none, false⟩]

def parsed3 : Option (List (List Parse.QLit)) :=
  match Parse.parseQuery text3 with
  | .ok e => some (Aql.alternatives e)
  | _ => none

theorem parsed3_eq : parsed3 = some [alt3] := by decide +kernel

theorem isList3 : Aql.IsNodeList alt3 list3 := by
  refine ⟨by decide, fun o => ?_⟩
  simp [alt3, list3, Aql.Literal.occs, Aql.Operand.occs]

theorem at3 {i : Nat} {o : Aql.Occ (NsSpec Str Str)} : list3[i]? = some o ↔
    (i = 0 ∧ o = ⟨0, catS, none, false⟩) ∨ (i = 1 ∧ o = ⟨8, .anyToken, none, false⟩) := by
  match i with
  | 0 => simp [list3, eq_comm]
  | 1 => simp [list3, eq_comm]
  | n + 2 => simp [list3]

theorem den3_0 {i : Nat} : Aql.Denotes 0 list3 (.lit catS 0 none false) i ↔ i = 0 := by
  rw [den]
  constructor
  · rintro ⟨x, hx, hp⟩
    rcases at3.1 hx with ⟨rfl, rfl⟩ | ⟨rfl, rfl⟩ <;> simp at hp ⊢
  · rintro rfl; exact ⟨_, rfl, rfl⟩

theorem den3_1 {i : Nat} : Aql.Denotes 0 list3 (.lit .anyToken 8 none false) i ↔ i = 1 := by
  rw [den]
  constructor
  · rintro ⟨x, hx, hp⟩
    rcases at3.1 hx with ⟨rfl, rfl⟩ | ⟨rfl, rfl⟩ <;> simp at hp ⊢
  · rintro rfl; exact ⟨_, rfl, rfl⟩

theorem den3_ref {i : Nat} (n : Nat) : Aql.Denotes 0 list3 (.ref (.id (n + 1))) i → i = n := by
  simp only [Aql.Denotes, Aql.DenotesRef]
  rintro ⟨x, _, _, hp⟩; omega

theorem row3 (d : SMatch NodeID64 (AnnoKey Str)) : TextAnswer db env (AnnoStore.spec changes) rels d 0 alt3 list3 [catM 11, tokM 2] where
  length := by
    intro i
    constructor
    · intro h
      simp only [List.length_cons, List.length_nil] at h
      exact ⟨1, ⟨8, .anyToken, none, false⟩, by omega, rfl, rfl⟩
    · rintro ⟨n, o, hi, ho, hopt⟩
      simp only [List.length_cons, List.length_nil]
      rcases at3.1 ho with ⟨rfl, rfl⟩ | ⟨rfl, rfl⟩ <;> omega
  found := by
    intro n o ho hopt
    rcases at3.1 ho with ⟨rfl, rfl⟩ | ⟨rfl, rfl⟩
    · exact ⟨_, rfl, finds_cat 11 (by simp)⟩
    · exact ⟨_, rfl, finds_tok⟩
  default := by
    intro n o x ho hopt hx
    rcases at3.1 ho with ⟨rfl, rfl⟩ | ⟨rfl, rfl⟩ <;> simp at hopt
  holds := by
    intro lhs op rhs h i j hi hj
    simp only [alt3, List.mem_cons, List.not_mem_nil, or_false, Aql.Literal.bin.injEq, Bool.false_eq_true, and_false] at h
    obtain ⟨rfl, rfl, rfl, _⟩ := h
    rw [den3_0] at hi
    rw [den3_1] at hj
    subst hi hj
    exact (row1 d).holds _ _ _ (by simp only [alt1]; exact List.mem_cons_self) 0 1 (den1_0.2 rfl) (den1_1.2 rfl)
  negated := by
    intro lhs op rhs h i j a b hi hj ha hb hoa hob
    simp only [alt3, List.mem_cons, List.not_mem_nil, or_false, Aql.Literal.bin.injEq, Bool.true_eq_false, and_false, false_or] at h
    obtain ⟨rfl, rfl, rfl, _⟩ := h
    have := den3_ref 0 hi
    have := den3_ref 1 hj
    subst i j
    refine ⟨_, _, rfl, rfl, ?_⟩
    rintro ⟨c, hc, _⟩
    simp [db] at hc
  missingRight := by
    intro lhs op rhs h i j a b hi hj ha hb hoa hob
    rcases at3.1 hb with ⟨rfl, rfl⟩ | ⟨rfl, rfl⟩ <;> simp at hob
  missingLeft := by
    intro lhs op rhs h i j a b hi hj ha hb hoa hob
    rcases at3.1 ha with ⟨rfl, rfl⟩ | ⟨rfl, rfl⟩ <;> simp at hoa
  arity := by intro ref range h; simp [alt3] at h

/-- A negated part-of operator holds in a corpus without parts, but the query has no results: the component is looked for before, and the
error that it does not exist is dropped for the alternative. The answer would be the span 11 and the token 2. -/
theorem C101_part_of_fails (doc : NsSpec Str Str) (d : SMatch NodeID64 (AnnoKey Str)) :
    (∃ e, Parse.parseQuery text3 = .ok e ∧ Aql.alternatives e = [alt3] ∧ Aql.IsNodeList alt3 list3 ∧
      TextAnswer db env (AnnoStore.spec changes) rels d 0 alt3 list3 [catM 11, tokM 2]) ∧
    (∃ out, Answers (E := Empty) env graph db demoTh demoOrder doc d text3 out) ∧
    ∀ out, Answers (E := Empty) env graph db demoTh demoOrder doc d text3 out → out = [] := by
  have h := parsed3_eq
  unfold parsed3 at h
  split at h
  · rename_i e he
    have ha : Aql.alternatives e = [alt3] := by simpa using h
    have key : ((Aql.parse false doc e).toOption.any fun qs => decide (qs.length = 1) && (qs.all fun q => lacksAny db q && checkConnected (shape q))) = true := by
      unfold Aql.parse
      rw [ha]
      rfl
    have key' : ∃ qs, Aql.parse false doc e = .ok qs := by
      cases hq : Aql.parse false doc e with
      | ok qs => exact ⟨qs, rfl⟩
      | error x => rw [hq] at key; simp [Except.toOption] at key
    obtain ⟨qs, hqs⟩ := key'
    rw [hqs] at key
    simp only [Except.toOption, Option.any_some, Bool.and_eq_true, decide_eq_true_eq, List.all_eq_true] at key
    obtain ⟨hl, hu⟩ := key
    obtain ⟨q, rfl⟩ := List.length_eq_one_iff.1 hl
    refine ⟨⟨e, he, ha, isList3, row3 d⟩, ⟨[], .mk he hqs (.cons (.missing (hu q (by simp)).2 (hu q (by simp)).1) .nil) ?_⟩, ?_⟩
    · exact .done (s' := ([], [])) (by simp [planNextMulti])
    · intro out hout
      cases hout with
      | mk he' hqs' hf ho =>
        rw [he] at he'
        cases he'
        rw [hqs] at hqs'
        cases hqs'
        cases hf with
        | cons h1 h2 =>
          cases h2
          rw [not_planned (hu q (by simp)).1 h1] at ho
          exact ho.unique (.done (s' := ([], [])) (by simp [planNextMulti]))
  · cases h

/-! ## Patterns that do not compile -/

/-- A token with text that matches the pattern `(`, with an operator and alone. -/
def text4 : Str := "/(/ _=_ tok".toList
def text5 : Str := "/(/".toList

def alt4 : List Parse.QLit := [.bin (.lit (.regexTok ['('] false) 0 none false) (.other .identicalCoverage) (.lit .anyToken 8 none false) false]
def alt5 : List Parse.QLit := [.node (.regexTok ['('] false) 0 none false]

def alts (t : Str) : Option (List (List Parse.QLit)) :=
  match Parse.parseQuery t with
  | .ok e => some (Aql.alternatives e)
  | _ => none

theorem alts4 : alts text4 = some [alt4] := by decide +kernel
theorem alts5 : alts text5 = some [alt5] := by decide +kernel

theorem of_alts {t : Str} {l : List (List Parse.QLit)} (h : alts t = some l) : ∃ e, Parse.parseQuery t = .ok e ∧ Aql.alternatives e = l := by
  unfold alts at h
  split at h
  · rename_i e he
    exact ⟨e, he, by simpa using h⟩
  · cases h

/-- The conjunction has a search for a pattern that does not compile. -/
def hasBad (q : QConj) : Bool := q.nodes.any fun n => !n.optional && match n.spec with
  | .regexTok p _ => (env.compile p).isNone
  | _ => false

theorem bad_error {q : QConj} (h : hasBad q = true) (us : List (Nat × (SMatch NodeID64 (AnnoKey Str) → Except (Fail Empty) Bool))) :
    ∃ err, searches (E := Empty) env graph (nodesOf us q) = .error err := by
  cases hS : searches (E := Empty) env graph (nodesOf us q) with
  | error err => exact ⟨err, rfl⟩
  | ok S =>
    exfalso
    unfold hasBad at h
    rw [List.any_eq_true] at h
    obtain ⟨n, hn, h⟩ := h
    rw [Bool.and_eq_true, Bool.not_eq_true'] at h
    obtain ⟨i, hi⟩ := List.mem_iff_getElem?.1 hn
    have hm : some ⟨n.spec, keepOf us i⟩ ∈ nodesOf us q :=
      List.mem_of_getElem? (i := i) (by unfold nodesOf; rw [List.getElem?_mapIdx, hi]; simp [h.1])
    have := (C98_searches.1 ⟨S, hS⟩ _ hm).1
    cases hs : n.spec with
    | regexTok p b =>
      rw [hs] at h this
      exact this p rfl (by simpa using h.2)
    | _ => rw [hs] at h; simp at h

/-- A pattern that does not compile is an error if it is the whole query, but with an operator the query has no results and no error: the
operator finds no execution node for its operand, and this error is dropped. -/
theorem C101_pattern_fails (doc : NsSpec Str Str) (d : SMatch NodeID64 (AnnoKey Str)) :
    env.compile ['('] = none ∧
    (Refused (E := Empty) env graph doc text5 ∧ ∀ out, ¬ Answers (E := Empty) env graph db demoTh demoOrder doc d text5 out) ∧
    (∃ out, Answers (E := Empty) env graph db demoTh demoOrder doc d text4 out) ∧ ¬ Refused (E := Empty) env graph doc text4 ∧
    ∀ out, Answers (E := Empty) env graph db demoTh demoOrder doc d text4 out → out = [] := by
  refine ⟨by decide, ?_, ?_⟩
  · obtain ⟨e, he, ha⟩ := of_alts alts5
    obtain ⟨ps, t, ht, _⟩ := Parse.ok_tree he
    have hl := (Parse.C91_lex _ _).2 ht.1
    have hn : ((Parse.lex text5).toOption.any fun ps => ps.all fun t => decide (t.tk ≠ .kw .lpar)) = true := by decide +kernel
    rw [hl] at hn
    obtain ⟨t, h1, h2⟩ := Parse.C92_no_parens he hl (by simpa [Except.toOption] using hn)
    have hL : Aql.IsNodeList alt5 [⟨0, .regexTok ['('] false, none, false⟩] := by
      refine ⟨by simp, fun o => ?_⟩
      simp [alt5, Aql.Literal.occs]
    exact C101_refused_partial (c := alt5) (p := ['(']) (by simp [graph]) he h1 h2 doc (by
      rw [ha]
      intro c hc
      rw [List.mem_singleton] at hc
      subst hc
      exact ⟨_, hL, by simp [Aql.NamesDistinct]⟩) (by rw [ha]; simp) (by simp [alt5, Aql.Literal.isBin, Aql.Literal.isUn]) hL (List.mem_singleton_self _) rfl rfl
      (by decide) d
  · obtain ⟨e, he, ha⟩ := of_alts alts4
    have key : ((Aql.parse false doc e).toOption.any fun qs => decide (qs.length = 1) && (qs.all fun q => hasBad q && checkConnected (shape q) &&
        (!q.bins.isEmpty && q.uns.isEmpty))) = true := by
      unfold Aql.parse
      rw [ha]
      rfl
    have key' : ∃ qs, Aql.parse false doc e = .ok qs := by
      cases hq : Aql.parse false doc e with
      | ok qs => exact ⟨qs, rfl⟩
      | error x => rw [hq] at key; simp [Except.toOption] at key
    obtain ⟨qs, hqs⟩ := key'
    rw [hqs] at key
    simp only [Except.toOption, Option.any_some, Bool.and_eq_true, decide_eq_true_eq, List.all_eq_true] at key
    obtain ⟨hl, hu⟩ := key
    obtain ⟨q, rfl⟩ := List.length_eq_one_iff.1 hl
    obtain ⟨⟨hb, hc⟩, hbin, hun⟩ := hu q (by simp)
    have hbin' : q.bins ≠ [] := by intro h; rw [h] at hbin; simp at hbin
    have hun' : q.uns = [] := by simpa using hun
    obtain ⟨err, hS⟩ := bad_error hb []
    refine ⟨⟨[], .mk he hqs (.cons (.failed (decU := fun _ => (true, true)) (us := []) hc (by simp [unariesOf, hun', allSome]) hS fun _ => .inl hbin') .nil) ?_⟩, ?_, ?_⟩
    · exact .done (s' := ([], [])) (by simp [planNextMulti])
    · intro hr
      obtain ⟨q', hq', h⟩ := hr e he _ hqs
      rw [List.mem_singleton] at hq'
      subst hq'
      rcases h with h | h
      · rw [hc] at h; cases h
      · exact hbin' h.1
    · intro out hout
      cases hout with
      | mk he' hqs' hf ho =>
        rw [he] at he'
        cases he'
        rw [hqs] at hqs'
        cases hqs'
        cases hf with
        | cons h1 h2 =>
          cases h2
          have hx : ∀ x, AltRows (E := Empty) env graph db demoTh demoOrder d q x → x = none := by
            intro x hx
            cases hx with
            | plan _ _ _ _ _ hS' _ =>
              obtain ⟨err, he⟩ := bad_error hb _
              obtain ⟨_, hS'⟩ := planned_searches hS'
              rw [he] at hS'
              cases hS'
            | failed => rfl
            | missing => rfl
          rw [hx _ h1] at ho
          exact ho.unique (.done (s' := ([], [])) (by simp [planNextMulti]))

end Answer.Ex
