import Verif.Whole.Replace
import Verif.Whole.Examples

/-!
# C98 with replaced node searches: samples
-/

set_option linter.unusedSimpArgs false

open AnnoStore TextOp

namespace Whole.Ex

/-! ## A replaced search -/

/-- Five matches are expected for each search; the pointing component has two nodes, the components for tokens have more. -/
def someSizes : Sizes NodeID64 where
  est _ := some 5
  comps i := if i = 1 then [some ⟨[11], some 2⟩] else if i = 3 then [] else [some ⟨[10, 11], some 50⟩, some ⟨[10, 11], some 50⟩]

theorem sizes_ok : SizesOk NodeSearch.Ex.env (spec changes) rels someSizes nodes bins := by
  intro i b hb nd hnd est e h1 h2 h3
  have hlt := (List.getElem?_eq_some_iff.1 hb).1
  simp only [bins, List.length_cons, List.length_nil] at hlt
  have : i = 0 ∨ i = 1 ∨ i = 2 ∨ i = 3 := by omega
  rcases this with rfl | rfl | rfl | rfl
  · cases h1; cases h2; exact absurd h3 (by decide)
  · cases hb
    cases hnd
    refine ⟨?_, ⟨?_, by simp [someSizes]⟩, rfl⟩
    · rintro x y _ ⟨c, _, ⟨k, hp, hw⟩, _⟩
      have hk : 1 ≤ k := hw.1
      obtain ⟨k', rfl⟩ : ∃ k', k = k' + 1 := ⟨k - 1, by omega⟩
      obtain ⟨z, hz, _⟩ := Walk.walkLen_succ.1 hp.walk
      have : x.node = 11 := by
        have h := hz
        simp only [rels, pointing, Adj.spec, List.foldl, Adj.specStep, Adj.spec] at h
        by_contra hne
        simp [hne] at h
      exact ⟨⟨[11], some 2⟩, by simp [someSizes], by simp [this]⟩
    · intro s hs
      simp only [someSizes, if_true, List.mem_singleton, Option.some.injEq] at hs
      subst hs
      exact List.nodup_singleton _
  · cases h1; cases h2; exact absurd h3 (by decide)
  · simp [someSizes, NodeSearch.pocEstimate] at h2

/-- The search for the fourth node is replaced by the source nodes of the pointing component: it finds one span instead of two. The
assumptions of `C98_replaced` hold. -/
theorem C98_replaced_nonvacuous :
    CorpusOk changes NodeSearch.Ex.env graph rels demoTh demoOrder demoE (fun _ => True) GStore.anyRange ∧
    QueryOk NodeSearch.Ex.env (spec changes) rels demoTh demoE GStore.anyRange (fun _ _ => True) (fun _ => GStore.anyRange) nodes bins ∧
    SizesOk NodeSearch.Ex.env (spec changes) rels someSizes nodes bins ∧ someSizes.chosen bins 3 = some [some ⟨[11], some 2⟩] ∧
    ∀ x : List (SMatch NodeID64 (AnnoKey Nat)) × Option (NsDesc NodeID64 (AnnoKey Nat) Unit),
      (⟨.exact (some 4) 6 none false, none⟩ : Node NodeID64 Nat Nat).Planned NodeSearch.Ex.env graph someSizes bins 3 x →
      x.1 = [⟨11, AnnoKey.mk 4 6⟩] := by
  refine ⟨corpus_ok, query_ok, sizes_ok, rfl, fun x hx => ?_⟩
  have hc : someSizes.chosen bins 3 = some [some ⟨[11], some 2⟩] := rfl
  cases hx with
  | search h => rw [hc] at h; cases h
  | partOf h hf hp =>
    rw [hc] at h
    cases h
    simp only [NodeSearch.fromSpec, NodeSearch.valueFilters, NodeSearch.items, Except.ok.injEq, Prod.mk.injEq] at hf
    obtain ⟨_, rfl⟩ := hf
    have h1 : NodeSearch.partOf (NodeSearch.descOf (E := Unit) NodeSearch.Ex.env graph (.exact (some 4) 6 none false) [])
        [some ⟨[11], some 2⟩] = [⟨11, AnnoKey.mk 4 6⟩].map .ok := by rfl
    exact ok_inj (hp.symm.trans h1)

/-! ## Tokens

`tok -> tok` with one edge from token 1 to token 2. -/

def tokPointing : List (Adj.Op NodeID64 Nat Nat) := [.addEdge 1 2]

def tokRels : Rels NodeID64 Nat Nat :=
  { rels with edge := fun _ a b => (Adj.spec tokPointing).edge a b = true, anno := fun _ a b k v => (Adj.spec tokPointing).anno a b k = some v }

def tokNodes : List (Option (Node NodeID64 Nat Nat)) := [some ⟨.anyToken, none⟩, some ⟨.anyToken, none⟩]

def tokBins : List (Bin NodeID64 Nat Nat) := [⟨.edge [EdgeOp.ofAdj (Adj.run tokPointing)] (.bound 1 1) none true true true, 0, 1⟩]

/-- There are three tokens and two nodes in the pointing component. -/
def tokSizes : Sizes NodeID64 where
  est _ := some 3
  comps _ := [some ⟨[1], some 2⟩]

def tokDesc : Desc := NodeSearch.descOf NodeSearch.Ex.env graph .anyToken []

/-- The searches in the plan: the first one is replaced. -/
def tokSearches : List (Option (List Ms × Option Desc)) :=
  [some ([⟨1, AnnoKey.mk 1 2⟩], some tokDesc), some ([⟨1, AnnoKey.mk 1 3⟩, ⟨2, AnnoKey.mk 1 3⟩, ⟨3, AnnoKey.mk 1 3⟩], some tokDesc)]

theorem tok_planned : PlannedAll NodeSearch.Ex.env graph tokSizes tokBins tokNodes tokSearches where
  length := rfl
  optional := by
    intro n hn
    have hlt := (List.getElem?_eq_some_iff.1 hn).1
    simp only [tokNodes, List.length_cons, List.length_nil] at hlt
    have : n = 0 ∨ n = 1 := by omega
    rcases this with rfl | rfl <;> cases hn
  node := by
    intro n nd hn
    have hf : NodeSearch.fromSpec (E := Unit) NodeSearch.Ex.env graph .anyToken =
        .ok ([⟨1, AnnoKey.mk 1 3⟩, ⟨2, AnnoKey.mk 1 3⟩, ⟨3, AnnoKey.mk 1 3⟩], tokDesc) := rfl
    have hlt := (List.getElem?_eq_some_iff.1 hn).1
    simp only [tokNodes, List.length_cons, List.length_nil] at hlt
    have : n = 0 ∨ n = 1 := by omega
    rcases this with rfl | rfl <;> cases hn
    · exact ⟨_, rfl, .partOf (nd := ⟨.anyToken, none⟩) (comps := [some ⟨[1], some 2⟩]) (rows' := [⟨1, AnnoKey.mk 1 2⟩]) rfl hf rfl⟩
    · exact ⟨_, rfl, .search (nd := ⟨.anyToken, none⟩) rfl hf⟩

abbrev tokOp : QOp NodeID64 (AnnoKey Nat) Unit := Bin.toQ demoTh demoOrder true (⟨.edge [EdgeOp.ofAdj (Adj.run tokPointing)] (.bound 1 1) none true true true, 0, 1⟩ : Bin NodeID64 Nat Nat)

def tokRow : Row NodeID64 (AnnoKey Nat) := [⟨1, AnnoKey.mk 1 2⟩, ⟨2, AnnoKey.mk 1 3⟩]

/-- The node has no outgoing coverage edges. -/
def bare (m : Ms) : Bool :=
  match (listStore covEdges).out m.node with
  | some [] => true
  | _ => false

theorem tok_index (ret : Ms → Except (Fail Unit) (List NodeID64)) (h : ret ⟨1, AnnoKey.mk 1 2⟩ = .ok [2]) :
    IndexRows (ijConf tokOp.fwd ret tokDesc false 0) [[⟨1, AnnoKey.mk 1 2⟩]] [tokRow] := by
  have := C42_index_join (ijConf tokOp.fwd ret tokDesc false 0) ⟨fun _ => [2], tokDesc.keys, bare⟩
    [[⟨1, AnnoKey.mk 1 2⟩]]
    ⟨by simp [ijConf], fun l hl a ha => by
      rw [List.mem_singleton.1 hl] at ha
      obtain rfl : (⟨1, AnnoKey.mk 1 2⟩ : Ms) = a := Option.some.inj ha
      simp only [ijConf, h]; rfl, fun m => by
        have ho : (listStore covEdges).out m.node ≠ none := fun hn => by cases hn
        show allConds m [NodeSearch.anyTokenFilter [listStore covEdges]] = _
        unfold bare
        simp only [allConds, NodeSearch.anyTokenFilter]
        rcases hc : (listStore covEdges).out m.node with _ | ⟨_ | ⟨y, ys⟩⟩
        · exact absurd hc ho
        · rfl
        · rfl⟩ fun _ _ _ _ => List.nodup_singleton _
  have e : [[(⟨1, AnnoKey.mk 1 2⟩ : Ms)]].flatMap (ijRows (ijConf tokOp.fwd ret tokDesc false 0) ⟨fun _ => [2], tokDesc.keys, bare⟩) = [tokRow] := by
    rfl
  rw [e] at this
  exact Or.inl this

theorem tok_edge : (Adj.spec tokPointing).edge 1 2 = true := by decide

/-- A token that points to another one, shown by its node type, is an answer for `tok -> tok`. With two nodes in the pointing component and
three tokens, the search of the first operand is replaced, and the only result of the plan shows the annotation `annis:tok` instead, which
is not an answer (`SearchFilter::new_from_spec`, see also `C67_output_fails`). -/
theorem C98_replaced_fails :
    (∃ (S' : List (Option (List Ms × Option Desc))) (e : Exec NodeID64 (AnnoKey Nat) Unit), PlannedAll NodeSearch.Ex.env graph tokSizes tokBins tokNodes S' ∧ MakePlan S' (tokBins.map (Bin.toQ demoTh demoOrder false)) e ∧
      e.rows = [tokRow]) ∧
    IsAnswer NodeSearch.Ex.env (spec changes) tokRels (⟨0, AnnoKey.mk 1 3⟩ : Ms) tokNodes tokBins [⟨1, AnnoKey.mk 1 3⟩, ⟨2, AnnoKey.mk 1 3⟩] ∧
    DistinctRow tokNodes [(⟨1, AnnoKey.mk 1 3⟩ : Ms), ⟨2, AnnoKey.mk 1 3⟩] ∧
    ¬ IsAnswer NodeSearch.Ex.env (spec changes) tokRels (⟨0, AnnoKey.mk 1 3⟩ : Ms) tokNodes tokBins tokRow := by
  refine ⟨⟨tokSearches, _, tok_planned,
    .mk (.cons (.join (switch := false) rfl rfl rfl (by decide) rfl rfl rfl rfl (.index rfl rfl (tok_index _ (by decide +kernel)))) .nil) rfl, rfl⟩, ?_, ?_, ?_⟩
  · constructor
    · intro i
      constructor
      · intro hi
        exact ⟨1, _, by simp only [List.length_cons, List.length_nil] at hi; omega, rfl⟩
      · rintro ⟨n, nd, hn, h⟩
        have := (List.getElem?_eq_some_iff.1 h).1
        simp only [tokNodes, List.length_cons, List.length_nil] at this ⊢
        omega
    · intro n nd hn
      have hlt := (List.getElem?_eq_some_iff.1 hn).1
      simp only [tokNodes, List.length_cons, List.length_nil] at hlt
      have : n = 0 ∨ n = 1 := by omega
      rcases this with rfl | rfl <;> cases hn
      · refine ⟨_, rfl, ⟨AnnoKey.mk 1 2, ⟨⟨rfl, fun _ h => by injection h, 21, by decide, trivial⟩, by simp [tokRels, rels]⟩, rfl⟩, by simp⟩
      · refine ⟨_, rfl, ⟨AnnoKey.mk 1 2, ⟨⟨rfl, fun _ h => by injection h, 22, by decide, trivial⟩, by simp [tokRels, rels]⟩, rfl⟩, by simp⟩
    · intro n x hn hx
      have hlt := (List.getElem?_eq_some_iff.1 hn).1
      simp only [tokNodes, List.length_cons, List.length_nil] at hlt
      have : n = 0 ∨ n = 1 := by omega
      rcases this with rfl | rfl <;> cases hn
    · intro b hb
      simp only [tokBins, List.mem_singleton] at hb
      subst hb
      exact ⟨_, _, rfl, rfl, _, List.mem_singleton_self _, ⟨1, ⟨[1, 2], ⟨rfl, rfl, by simp [tokRels]; decide⟩, by decide, rfl⟩, ⟨le_refl 1, le_refl 1⟩⟩, trivial⟩
  · intro i j x nd nd' hij hi hj hx hy
    have h1 := (List.getElem?_eq_some_iff.1 hi).1
    have h2 := (List.getElem?_eq_some_iff.1 hj).1
    simp only [tokNodes, List.length_cons, List.length_nil] at h1 h2
    have a1 : i = 0 ∨ i = 1 := by omega
    have a2 : j = 0 ∨ j = 1 := by omega
    rcases a1 with rfl | rfl <;> rcases a2 with rfl | rfl
    · exact hij rfl
    · cases hx; cases hy
    · cases hx; cases hy
    · exact hij rfl
  · intro h
    obtain ⟨x, hx, ⟨k, _, hk⟩, _⟩ := h.found 0 ⟨.anyToken, none⟩ rfl
    cases hx
    have hk' : AnnoKey.mk 1 2 = AnnoKey.mk 1 3 := hk
    exact absurd hk' (by decide)

end Whole.Ex
