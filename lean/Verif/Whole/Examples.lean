import Verif.Whole.Props
import Verif.NodeSearch.Examples

/-!
# Examples and failing cases for C98
-/

set_option linter.unusedSimpArgs false
set_option linter.unusedVariables false

open AnnoStore TextOp

namespace Whole.Ex

/-- The nodes of `TextOp.demoTh` (tokens 1, 2, 3; span 10 covers 1 and 2, span 11 covers 2 and 3) with their types and tokens; the spans
have the annotation 6 in the namespace 4. -/
def changes : List (AnnoStore.Op NodeID64 Nat Nat) :=
  [.insert 1 (AnnoKey.mk 1 3) 7, .insert 2 (AnnoKey.mk 1 3) 7, .insert 3 (AnnoKey.mk 1 3) 7, .insert 10 (AnnoKey.mk 1 3) 7,
    .insert 11 (AnnoKey.mk 1 3) 7, .insert 1 (AnnoKey.mk 1 2) 21, .insert 2 (AnnoKey.mk 1 2) 22, .insert 3 (AnnoKey.mk 1 2) 23,
    .insert 10 (AnnoKey.mk 4 6) 8, .insert 11 (AnnoKey.mk 4 6) 9]

abbrev covEdges : List (NodeID64 × NodeID64) := [(10, 1), (10, 2), (11, 2), (11, 3)]

def graph : NsGraph NodeID64 Nat Nat where
  annos := run changes
  coverage := [(listStore covEdges, some 5)]
  anyTokens := some [1, 2, 3]

/-- A pointing relation from span 11 to span 10. -/
def pointing : List (Adj.Op NodeID64 Nat Nat) := [.addEdge 11 10]

def rels : Rels NodeID64 Nat Nat where
  tok n := demoTh.Tok demoE n
  first a b := (a, b) ∈ [((10 : NodeID64), (1 : NodeID64)), (11, 2)]
  last a b := (a, b) ∈ [((10 : NodeID64), (2 : NodeID64)), (11, 3)]
  next a b := (a, b) ∈ [((1 : NodeID64), (2 : NodeID64)), (2, 3)]
  cov a b := (a, b) ∈ covEdges
  edge _ a b := (Adj.spec pointing).edge a b = true
  anno _ a b k v := (Adj.spec pointing).anno a b k = some v

theorem cov_iff (a b : NodeID64) : rels.cov a b ↔ demoTh.Cov demoE a b := by
  unfold TokenHelper.Cov demoE
  simp [rels, demoTh]

theorem corpus_ok : CorpusOk changes NodeSearch.Ex.env graph rels demoTh demoOrder demoE (fun _ => True) GStore.anyRange where
  annos := rfl
  coverage := by
    refine ⟨fun _ a b => (a, b) ∈ covEdges, ?_, ?_⟩
    · intro c hc
      simp only [graph, List.mem_singleton] at hc
      subst hc
      exact ⟨⟨_, _, listStore_is _ (by decide)⟩, by simp⟩
    · intro a b
      simp [graph, rels]
  exact := NodeSearch.Ex.exact_ok
  tokens := by
    intro l hl
    simp only [graph, Option.some.injEq] at hl
    subst hl
    refine ⟨by decide, fun n => ?_⟩
    simp only [spec, changes, List.foldl, specStep, NodeSearch.Ex.env, AnnoKey.mk]
    by_cases h1 : n = 1 <;> by_cases h2 : n = 2 <;> by_cases h3 : n = 3 <;> by_cases h4 : n = 10 <;> by_cases h5 : n = 11 <;>
      first
      | (subst h1; clear h2 h3 h4 h5; simp [rels]; try decide)
      | (subst h2; clear h1 h3 h4 h5; simp [rels]; try decide)
      | (subst h3; clear h1 h2 h4 h5; simp [rels]; try decide)
      | (subst h4; clear h1 h2 h3 h5; simp [rels]; try decide)
      | (subst h5; clear h1 h2 h3 h4; simp [rels]; try decide)
      | simp [h1, h2, h3, h4, h5]
  text :=
    { thOk := demo_ok
      isTok := fun _ => Iff.rfl
      isCov := cov_iff
      orderOk := listStore_is _ (by decide)
      orderTok := demo_order_tok
      known := fun _ _ => trivial }

/-- A span, an optional node, a token with a unary operator, a second span. -/
def nodes : List (Option (Node NodeID64 Nat Nat)) :=
  [some ⟨.exact none 6 none false, none⟩, none, some ⟨.anyToken, some fun x => decide (x.node ≠ 3)⟩, some ⟨.exact (some 4) 6 none false, none⟩]

/-- `#1 _i_ #3 & #4 -> #1 & #3 . #4 & #1 !_ident_ #4`. -/
def bins : List (Bin NodeID64 Nat Nat) :=
  [⟨.inclusion, 0, 2⟩, ⟨.edge [EdgeOp.ofAdj (Adj.run pointing)] (.bound 1 1) none true true true, 3, 0⟩,
    ⟨.precedence (.bound 1 1) true, 2, 3⟩, ⟨.negated .identicalNode, 0, 3⟩]

theorem query_ok : QueryOk NodeSearch.Ex.env (spec changes) rels demoTh demoE GStore.anyRange (fun _ _ => True) (fun _ => GStore.anyRange)
    nodes bins where
  nonempty := ⟨0, _, rfl⟩
  unambiguous := by
    intro nd h
    simp only [nodes, List.mem_cons, List.not_mem_nil, or_false, Option.some.injEq, reduceCtorEq, false_or] at h
    rcases h with rfl | rfl | rfl <;> trivial
  operands := by
    intro b hb
    simp only [bins, List.mem_cons, List.not_mem_nil, or_false] at hb
    rcases hb with rfl | rfl | rfl | rfl <;> exact ⟨⟨_, rfl⟩, _, rfl⟩
  connected := by decide
  fits := by
    intro b hb
    simp only [bins, List.mem_cons, List.not_mem_nil, or_false] at hb
    rcases hb with rfl | rfl | rfl | rfl
    · exact ⟨demo_order_chains, fun a b d _ => by simp [GStore.anyRange]⟩
    · refine ⟨fun c hc => ?_, Or.inl (by decide)⟩
      simp only [List.mem_singleton] at hc
      subst hc
      exact ⟨EdgeOp.ofAdj_ok pointing, by simp [GStore.anyRange, RangeSpec.maxDist]⟩
    · simp [Fits, GStore.anyRange, RangeSpec.maxDist]
    · trivial

/-- The nodes of the results of the searches. -/
def found : Option (List (Option (List NodeID64))) :=
  match searches (E := Unit) NodeSearch.Ex.env graph nodes with
  | .ok l => some (l.map fun o => o.map fun p => p.1.map SMatch.node)
  | .error _ => none

/-- The assumptions of C98 hold for a corpus with three tokens and two spans and a query with four nodes and four operators. -/
theorem C98_nonvacuous :
    CorpusOk changes NodeSearch.Ex.env graph rels demoTh demoOrder demoE (fun _ => True) GStore.anyRange ∧
    QueryOk NodeSearch.Ex.env (spec changes) rels demoTh demoE GStore.anyRange (fun _ _ => True) (fun _ => GStore.anyRange) nodes bins ∧
    found = some [some [10, 11], none, some [1, 2], some [10, 11]] := ⟨corpus_ok, query_ok, by decide +kernel⟩

/-- The span 10 includes token 1, span 11 points to it and starts one token later: the combination is in the results of all plans. -/
theorem C98_example (d : SMatch NodeID64 (AnnoKey Nat)) (global : Bool) {bins' : List (Bin NodeID64 Nat Nat)} (hp : bins'.Perm bins)
    {S : List (Option (List (SMatch NodeID64 (AnnoKey Nat)) × Option (NsDesc NodeID64 (AnnoKey Nat) Unit)))}
    (hS : searches NodeSearch.Ex.env graph nodes = .ok S) (e : Exec NodeID64 (AnnoKey Nat) Unit)
    (he : MakePlan S (bins'.map (Bin.toQ demoTh demoOrder global)) e) :
    some [⟨10, AnnoKey.mk 4 6⟩, d, ⟨1, AnnoKey.mk 1 3⟩, ⟨11, AnnoKey.mk 4 6⟩] ∈ e.rows.map (reorderMatch d (inversePos e.pos)) := by
  obtain ⟨rows, h1, _, _, h4⟩ := (C98_conjunction corpus_ok query_ok hS d global hp).2 e he
  rw [h1]
  refine List.mem_map_of_mem (h4 _ ⟨?_, ?_, ?_, ?_⟩ ?_)
  · intro i
    constructor
    · intro hi
      simp only [List.length_cons, List.length_nil] at hi
      exact ⟨3, _, by omega, rfl⟩
    · rintro ⟨n, nd, hi, hn⟩
      have := (List.getElem?_eq_some_iff.1 hn).1
      simp only [nodes, List.length_cons, List.length_nil] at this ⊢
      omega
  · intro n nd hn
    have hlt := (List.getElem?_eq_some_iff.1 hn).1
    simp only [nodes, List.length_cons, List.length_nil] at hlt
    have : n = 0 ∨ n = 1 ∨ n = 2 ∨ n = 3 := by omega
    rcases this with rfl | rfl | rfl | rfl
    · simp only [nodes, List.getElem?_cons_zero, Option.some.injEq] at hn
      subst hn
      refine ⟨_, rfl, ⟨AnnoKey.mk 4 6, ⟨rfl, by simp, 8, by decide, by simp⟩, rfl⟩, by simp⟩
    · simp [nodes] at hn
    · simp only [nodes, List.getElem?_cons_succ, List.getElem?_cons_zero, Option.some.injEq] at hn
      subst hn
      refine ⟨_, rfl, ⟨AnnoKey.mk 1 2, ⟨⟨rfl, fun _ h => by injection h, 21, by decide, trivial⟩, by simp [rels]⟩, rfl⟩, ?_⟩
      intro p hp
      simp only [Option.some.injEq] at hp
      subst hp
      decide
    · simp only [nodes, List.getElem?_cons_succ, List.getElem?_cons_zero, Option.some.injEq] at hn
      subst hn
      refine ⟨_, rfl, ⟨AnnoKey.mk 4 6, ⟨rfl, fun _ h => by simpa using h, 9, by decide, by simp⟩, rfl⟩, by simp⟩
  · intro n x hn hx
    have hlt := (List.getElem?_eq_some_iff.1 hn).1
    simp only [nodes, List.length_cons, List.length_nil] at hlt
    have : n = 0 ∨ n = 1 ∨ n = 2 ∨ n = 3 := by omega
    rcases this with rfl | rfl | rfl | rfl
    · simp [nodes] at hn
    · simpa using hx.symm
    · simp [nodes] at hn
    · simp [nodes] at hn
  · have t1 : rels.tok 1 := (demo_tok 1).2 (by decide)
    have n10 : ¬ rels.tok 10 := fun h => absurd ((demo_tok 10).1 h) (by decide)
    have n11 : ¬ rels.tok 11 := fun h => absurd ((demo_tok 11).1 h) (by decide)
    intro b hb
    simp only [bins, List.mem_cons, List.not_mem_nil, or_false] at hb
    rcases hb with rfl | rfl | rfl | rfl
    · exact ⟨_, _, rfl, rfl, 1, 2, 1, 1, Or.inr ⟨n10, by simp [rels]⟩, Or.inr ⟨n10, by simp [rels]⟩, Or.inl ⟨t1, rfl⟩, Or.inl ⟨t1, rfl⟩,
        ⟨.refl, .single (by simp [rels])⟩, ⟨.refl, .single (by simp [rels])⟩⟩
    · exact ⟨_, _, rfl, rfl, _, List.mem_singleton_self _, ⟨1, ⟨[11, 10], ⟨rfl, rfl, by simp [rels]; decide⟩, by decide, rfl⟩, ⟨le_refl 1, le_refl 1⟩⟩, trivial⟩
    · exact ⟨_, _, rfl, rfl, 1, 2, Or.inl ⟨t1, rfl⟩, Or.inr ⟨n11, by simp [rels]⟩, 1, ⟨[1, 2], ⟨rfl, rfl, by simp [rels]⟩, by decide, rfl⟩, ⟨le_refl 1, le_refl 1⟩⟩
    · refine ⟨_, _, rfl, rfl, ?_⟩
      simp [Holds]
  · intro i j x nd nd' hij hi hj hx hy
    have h1 := (List.getElem?_eq_some_iff.1 hi).1
    have h2 := (List.getElem?_eq_some_iff.1 hj).1
    simp only [nodes, List.length_cons, List.length_nil] at h1 h2
    have a1 : i = 0 ∨ i = 1 ∨ i = 2 ∨ i = 3 := by omega
    have a2 : j = 0 ∨ j = 1 ∨ j = 2 ∨ j = 3 := by omega
    rcases a1 with rfl | rfl | rfl | rfl <;> rcases a2 with rfl | rfl | rfl | rfl <;>
      first
      | exact hij rfl
      | (simp [nodes] at hi; done)
      | (simp [nodes] at hj; done)
      | (simp only [List.getElem?_cons_succ, List.getElem?_cons_zero, Option.some.injEq] at hx hy
         subst hx
         exact absurd (congrArg SMatch.node hy) (by decide))

/-! ## Comparison of values

The index join keeps only the nodes of the matches that an operator retrieves (indexjoin.rs 88-116), and combines them with all
annotations of the node search. `==` compares the annotations. -/

/-- Token 1 has the annotation 9:6 with the value 7, token 2 has 4:6 with the value 7 and 5:6 with the value 8. -/
def valueChanges : List (AnnoStore.Op NodeID64 Nat Nat) :=
  [.insert 1 (AnnoKey.mk 9 6) 7, .insert 2 (AnnoKey.mk 4 6) 7, .insert 2 (AnnoKey.mk 5 6) 8]

def valueGraph : NsGraph NodeID64 Nat Nat := ⟨run valueChanges, [], some []⟩

/-- The searches `9:6` and `6`. -/
def leftSpec : NsSpec Nat Nat := .exact (some 9) 6 none false
def rightSpec : NsSpec Nat Nat := .exact none 6 none false

abbrev Ms := SMatch NodeID64 (AnnoKey Nat)
abbrev Desc := NsDesc NodeID64 (AnnoKey Nat) Unit

def valueSearches : List (Option (List Ms × Option Desc)) :=
  [leftSpec, rightSpec].map fun sp => match NodeSearch.fromSpec NodeSearch.Ex.env valueGraph sp with
    | .ok (l, d) => some (l, some d)
    | .error _ => none

/-- `#1 == #2` (equal_value.rs 37-65, 121-203). -/
def equal : QOp NodeID64 (AnnoKey Nat) Unit where
  left := 0
  right := 1
  globalReflexivity := false
  fwd :=
    { base := ⟨fun a b => .ok (EqualValue.filter (run valueChanges) (NodeSearch.tokKey NodeSearch.Ex.env) (.anno (some 9) 6) (.anno none 6)
        false (a.node, a.key) (b.node, b.key)), true⟩
      retrieve := some fun a => .ok ((EqualValue.retrieve (run valueChanges) (NodeSearch.tokKey NodeSearch.Ex.env) (.anno (some 9) 6)
        (.anno none 6) false (a.node, a.key)).map Prod.fst) }
  inv := none
  inv2 := none

/-- `#1 . #2`. -/
def before : QOp NodeID64 (AnnoKey Nat) Unit := Bin.toQ demoTh demoOrder false (⟨.precedence (.bound 1 1) false, 0, 1⟩ : Bin NodeID64 Nat Nat)

def rightDesc : Desc := NodeSearch.descOf NodeSearch.Ex.env valueGraph rightSpec []

def l1 : Ms := ⟨1, AnnoKey.mk 9 6⟩
def r1 : Ms := ⟨2, AnnoKey.mk 4 6⟩
def r2 : Ms := ⟨2, AnnoKey.mk 5 6⟩

theorem index_rows (op : QOp NodeID64 (AnnoKey Nat) Unit) (ret : Ms → Except (Fail Unit) (List NodeID64)) (ns : List NodeID64)
    (h : ret l1 = .ok ns) (hn : ns.Nodup) (hr : op.fwd.base.reflexive = true) {rows : List (Row NodeID64 (AnnoKey Nat))}
    (hrows : (ns.flatMap fun n => (rightDesc.keys n).map fun k => [l1, ⟨n, k⟩]) = rows) :
    IndexRows (ijConf op.fwd ret rightDesc false 0) [[l1]] rows := by
  have := C42_index_join (ijConf op.fwd ret rightDesc false 0) ⟨fun _ => ns, rightDesc.keys, fun _ => true⟩ [[l1]]
    ⟨by simp [ijConf], fun l hl a ha => by
      rw [List.mem_singleton.1 hl] at ha
      obtain rfl : l1 = a := Option.some.inj ha
      simp only [ijConf, h]; rfl, fun m => rfl⟩ fun _ _ _ _ => hn
  have e : [[l1]].flatMap (ijRows (ijConf op.fwd ret rightDesc false 0) ⟨fun _ => ns, rightDesc.keys, fun _ => true⟩) = rows := by
    rw [← hrows]
    have hd : ∀ m, ijDistinct (ijConf op.fwd ret rightDesc false 0) [l1] m = true := fun m => by
      simp [ijDistinct, ijConf, hr]
    have hc : (ijConf op.fwd ret rightDesc false 0).constOutput = none := rfl
    have hi : ([l1] : Row NodeID64 (AnnoKey Nat))[(ijConf op.fwd ret rightDesc false 0).lhsIdx]? = some l1 := rfl
    simp only [List.flatMap_cons, List.flatMap_nil, List.append_nil, ijRows, hi, IjSpec.rhs, hc]
    rw [List.filter_eq_self.2 fun m _ => hd m, List.map_flatMap]
    simp [Function.comp_def]
  rw [e] at this
  exact Or.inl this

/-- The same two operators in two orders. With `==` first, its index join also gives the annotation 5:6, which has another value. With `==`
second it filters the rows. -/
theorem C98_equal_value_fails : ∃ e e', MakePlan valueSearches [equal, before] e ∧ MakePlan valueSearches [before, equal] e' ∧
    e.rows = [[l1, r1], [l1, r2]] ∧ e'.rows = [[l1, r1]] ∧ equal.fwd.base.filter l1 r2 = .ok false := by
  refine ⟨_, _,
    .mk (.cons (.join (switch := false) rfl rfl rfl (by decide) rfl rfl rfl rfl (.index rfl rfl (index_rows equal _ [2, 1] (by decide +kernel) (by decide) rfl (rows := [[l1, r1], [l1, r2], [l1, l1]]) (by decide +kernel))))
      (.cons (.filter (switch := false) rfl rfl rfl rfl rfl rfl (rows := [[l1, r1], [l1, r2]]) (by decide +kernel)) .nil)) rfl,
    .mk (.cons (.join (switch := false) rfl rfl rfl (by decide) rfl rfl rfl rfl (.index rfl rfl (index_rows before _ [2, 11] (by decide +kernel) (by decide) rfl (rows := [[l1, r1], [l1, r2]]) (by decide +kernel))))
      (.cons (.filter (switch := false) rfl rfl rfl rfl rfl rfl (rows := [[l1, r1]]) (by decide +kernel)) .nil)) rfl, rfl, rfl, by decide +kernel⟩

end Whole.Ex
