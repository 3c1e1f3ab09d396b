import Verif.Subgraph.Props

/-!
# C55: examples
-/

set_option linter.unusedSimpArgs false
set_option linter.unusedSectionVars false
set_option linter.unusedVariables false

open TextSpec SubgraphSpec Subgraph TextOp

namespace SubgraphEx

/-- Hash sets are iterated in the order of insertion, the sorts end. -/
def ch : Choice NodeID64 := ⟨fun _ l => l, 100, fun _ => [], []⟩

theorem ch_ok : ch.Ok := fun _ l => List.Perm.refl l

def covComp : Component CKind := ⟨.coverage, [], []⟩
def partComp : Component CKind := ⟨.partOf, "annis".toList, []⟩
def leftComp : Component CKind := ⟨.leftToken, "annis".toList, []⟩

def partEdges : List (NodeID64 × NodeID64) := [(1, 30), (2, 30), (3, 30), (10, 30), (11, 30)]
def covEdges : List (NodeID64 × NodeID64) := [(10, 1), (10, 2), (11, 2), (11, 3)]
def leftEdges : List (NodeID64 × NodeID64) := [(10, 1), (11, 2)]

def label : AnnoKey Nat := toLex (1, 0)

/-- Every node has one label, the coverage edges have a label, and there are components for coverage, corpus structure and index. -/
def src : Src NodeID64 Nat Nat :=
  { annos := fun _ => [(label, 7)]
    comps := [(covComp, listStore covEdges, fun a b => if (a, b) ∈ covEdges then [(label, 8)] else []),
      (partComp, listStore partEdges, fun _ _ => []),
      (leftComp, listStore leftEdges, fun _ _ => [])] }

def edges (c : Component CKind) : List (NodeID64 × NodeID64) :=
  if c = covComp then covEdges else if c = partComp then partEdges else if c = leftComp then leftEdges else []

theorem src_is : src.Is (fun _ k v => k = label ∧ v = 7) (fun c a b => (a, b) ∈ edges c)
    (fun c a b k v => c = covComp ∧ (a, b) ∈ covEdges ∧ k = label ∧ v = 8) := by
  have hp : (partComp = covComp) = False := eq_false (by decide)
  have hl : (leftComp = covComp) = False := eq_false (by decide)
  have hlp : (leftComp = partComp) = False := eq_false (by decide)
  refine ⟨?_, ?_, ?_, ?_, ?_, ?_, ?_, ?_⟩
  · intro n k v; simp [src]
  · rintro n k v v' ⟨_, rfl⟩ ⟨_, rfl⟩; rfl
  · intro c hc
    simp only [src, List.mem_cons, List.not_mem_nil, or_false] at hc
    rcases hc with rfl | rfl | rfl
    · exact ⟨_, _, by simpa [edges] using listStore_is covEdges (by decide)⟩
    · exact ⟨_, _, by simpa [edges, hp] using listStore_is partEdges (by decide)⟩
    · exact ⟨_, _, by simpa [edges, hl, hlp] using listStore_is leftEdges (by decide)⟩
  · intro c hc a b k v
    simp only [src, List.mem_cons, List.not_mem_nil, or_false] at hc
    rcases hc with rfl | rfl | rfl
    · simp only [true_and]
      split <;> rename_i h <;> simp [h]
    · simp [hp]
    · simp [hl]
  · rintro c a b k v v' ⟨_, _, _, rfl⟩ ⟨_, _, _, rfl⟩; rfl
  · rintro c a b k v ⟨rfl, h, _, _⟩; simpa [edges] using h
  · intro c a h
    unfold edges at h
    split at h
    · exact absurd rfl ((by decide : ∀ e ∈ covEdges, e.1 ≠ e.2) _ h)
    · split at h
      · exact absurd rfl ((by decide : ∀ e ∈ partEdges, e.1 ≠ e.2) _ h)
      · split at h
        · exact absurd rfl ((by decide : ∀ e ∈ leftEdges, e.1 ≠ e.2) _ h)
        · simp at h
  · intro c a b h
    unfold edges at h
    split at h
    · rename_i e; exact ⟨_, List.mem_cons_self, e.symm⟩
    · split at h
      · rename_i e; exact ⟨_, List.mem_cons_of_mem _ List.mem_cons_self, e.symm⟩
      · split at h
        · rename_i e; exact ⟨_, List.mem_cons_of_mem _ (List.mem_cons_of_mem _ List.mem_cons_self), e.symm⟩
        · simp at h

theorem demo_edge_lt (a b : NodeID64) (h : (a, b) ∈ [((1 : NodeID64), (2 : NodeID64)), (2, 3)]) : a < b := by
  simp only [List.mem_cons, List.not_mem_nil, or_false, Prod.mk.injEq] at h
  rcases h with ⟨rfl, rfl⟩ | ⟨rfl, rfl⟩ <;> decide

theorem demo_reach (a b : NodeID64) (ha : a ∈ ([1, 2, 3] : List NodeID64)) (hb : b ∈ ([1, 2, 3] : List NodeID64)) (h : a ≤ b) :
    Relation.ReflTransGen (fun a b => (a, b) ∈ [((1 : NodeID64), (2 : NodeID64)), (2, 3)]) a b := by
  have h12 : (fun a b => (a, b) ∈ [((1 : NodeID64), (2 : NodeID64)), (2, 3)]) 1 2 := by simp
  have h23 : (fun a b => (a, b) ∈ [((1 : NodeID64), (2 : NodeID64)), (2, 3)]) 2 3 := by simp
  simp only [List.mem_cons, List.not_mem_nil, or_false] at ha hb
  rcases ha with rfl | rfl | rfl <;> rcases hb with rfl | rfl | rfl <;>
    first | exact .refl | exact .single h12 | exact .single h23 | exact (Relation.ReflTransGen.single h12).tail h23 |
      exact absurd h (by decide)

/-- The hypotheses of `C55_subgraph_partial` hold for the first and the last of three tokens without context: the result has an edge for
the gap, the spans, the document and their edges, but not the token in the middle and no edges of the index. -/
theorem C55_nonvacuous : ∃ g, Subgraph.subgraph ch src demoTh demoOrder (listStore partEdges) none 0 0 [1, 3] = some g ∧
    3 ∈ (g.comps gapComp).out 1 ∧ 1 ∈ (g.comps covComp).out 10 ∧ 2 ∉ (g.comps covComp).out 10 ∧ 1 ∉ (g.comps leftComp).out 10 ∧
    30 ∈ (g.comps partComp).out 11 ∧ (g.comps covComp).annos.getValue (toLex (10, 1)) label = some 8 ∧
    g.annos.getValue 30 label = some 7 ∧ g.annos.getValue 2 label = none := by
  have e : (Subgraph.subgraph ch src demoTh demoOrder (listStore partEdges) none 0 0 [1, 3]).isSome = true := by decide +kernel
  obtain ⟨g, hg⟩ := Option.isSome_iff_exists.1 e
  have hone : ∀ n ∈ ([1, 3] : List NodeID64), OneText (fun a b => (a, b) ∈ [((1 : NodeID64), (2 : NodeID64)), (2, 3)])
      (CoveredTok (demoTh.Tok demoE) (demoTh.Cov demoE) n) := by
    intro n _ a b ha hb
    rcases le_total a b with h | h
    · exact Or.inl (demo_reach a b ((demo_tok a).1 ha.1) ((demo_tok b).1 hb.1) h)
    · exact Or.inr (demo_reach b a ((demo_tok b).1 hb.1) ((demo_tok a).1 ha.1) h)
  have H := C55_subgraph_partial src_is demo_ok (listStore_is _ (by decide)) demo_order_chains (by simp [GStore.anyRange])
    (cl := 0) (cr := 0) (by intro i _; simp [GStore.anyRange]) demo_order_tok ch_ok (listStore_is partEdges (by decide))
    (by simp [GStore.anyRange])
    (by
      intro a b hab
      rw [demo_tok]
      have : ∀ e ∈ partEdges, e.2 ∉ ([1, 2, 3] : List NodeID64) := by decide
      exact this _ hab)
    hone demo_edge_lt
    (by
      intro a b c ha hb hc h1 h2 _
      rw [demo_tok] at ha hb hc
      exact ⟨demo_reach a b ha hb h1.le, demo_reach b c hb hc h2.le⟩)
    (by intro x _; exact ⟨label, 7, rfl, rfl⟩) hg
  have e2 : (Subgraph.subgraph ch src demoTh demoOrder (listStore partEdges) none 0 0 [1, 3]).map
      (fun g => ([decide (3 ∈ (g.comps gapComp).out 1), decide (1 ∈ (g.comps covComp).out 10), decide (2 ∈ (g.comps covComp).out 10),
        decide (1 ∈ (g.comps leftComp).out 10), decide (30 ∈ (g.comps partComp).out 11)],
        [(g.comps covComp).annos.getValue (toLex (10, 1)) label, g.annos.getValue 30 label, g.annos.getValue 2 label])) =
      some ([true, true, false, false, true], [some 8, some 7, none]) := by decide +kernel
  rw [hg, Option.map_some, Option.some.injEq] at e2
  simp only [Prod.mk.injEq, List.cons.injEq, decide_eq_true_eq, decide_eq_false_iff_not, and_true] at e2
  obtain ⟨⟨a1, a2, a3, a4, a5⟩, a6, a7, a8⟩ := e2
  -- the gap edge as the theorem describes it
  have := (H.edge gapComp 1 3).1 a1
  exact ⟨g, hg, a1, a2, a3, a4, a5, a6, a7, a8⟩

/-! ## Where the code disagrees -/

/-- The text 30 → 10 → 20, a span 40 for all of it. -/
def revTh : TokenHelper NodeID64 :=
  { hasTok := fun n => decide (n ∈ [10, 20, 30])
    left := listStore [(40, 30)]
    right := listStore [(40, 20)]
    cov := [listStore [(40, 30), (40, 10), (40, 20)]] }

def revOrder : GStore NodeID64 := listStore [(30, 10), (10, 20)]

/-- C55 fails for overlapping regions if the ids are not in the order of the text: the result contains all three tokens and nevertheless an
edge for a gap between the first and the last. -/
theorem C55_overlap_fails : (Subgraph.subgraph ch src revTh revOrder (listStore []) none 0 0 [10, 40]).map
    (fun g => (decide (20 ∈ (g.comps gapComp).out 30), [10, 20, 30].map fun n => g.annos.getValue n label)) =
    some (true, [some 7, some 7, some 7]) := by decide +kernel

/-- The texts 1 → 2 → 3 and 5 → 6, and a span 10 that covers 1 and 5. -/
def twoTh : TokenHelper NodeID64 :=
  { hasTok := fun n => decide (n ∈ [1, 2, 3, 5, 6])
    left := listStore [(10, 1)]
    right := listStore [(10, 5)]
    cov := [listStore [(10, 1), (10, 5)]] }

def twoOrder : GStore NodeID64 := listStore [(1, 2), (2, 3), (5, 6)]

/-- C55 fails for a node that covers tokens of two texts: the region runs to the end of the first text, the covered token 5 is missing,
and the tokens 2 and 3 are included although no context was requested. -/
theorem C55_two_texts_fails : Subgraph.contextNodes ch twoTh twoOrder (listStore []) none 0 0 [10] = some [10, 10, 1, 2, 3] := by
  decide +kernel

/-- The texts 1 → 3 → 5 and 2 → 4. -/
def mixTh : TokenHelper NodeID64 :=
  { hasTok := fun n => decide (n ∈ [1, 2, 3, 4, 5]), left := listStore [], right := listStore [], cov := [] }

def mixOrder : GStore NodeID64 := listStore [(1, 3), (3, 5), (2, 4)]

/-- C55 fails for texts with interleaved ids: with the match nodes 1 and 5 there is an edge for the gap at 3, but with the additional
match node 2 of another text there is none. -/
theorem C55_interleaved_fails :
    (Subgraph.subgraph ch src mixTh mixOrder (listStore []) none 0 0 [1, 5]).map (fun g => decide (5 ∈ (g.comps gapComp).out 1)) = some true ∧
    (Subgraph.subgraph ch src mixTh mixOrder (listStore []) none 0 0 [1, 2, 5]).map (fun g => decide (5 ∈ (g.comps gapComp).out 1)) =
      some false := by decide +kernel

def userComp : Component CKind := ⟨.coverage, "annis".toList, "user".toList⟩

/-- A graph with a coverage component of the user in the layer `annis`. -/
def userSrc : Src NodeID64 Nat Nat :=
  { annos := fun _ => [(label, 7)], comps := [(userComp, listStore covEdges, fun _ _ => [])] }

/-- C55 fails for a coverage component with a name in the layer `annis`: its edges are taken for the index and dropped. -/
theorem C55_layer_fails : (Subgraph.subgraph ch userSrc demoTh demoOrder (listStore []) none 0 0 [10]).map
    (fun g => (g.annos.getValue 10 label, g.annos.getValue 1 label, decide (1 ∈ (g.comps userComp).out 10))) =
    some (some 7, some 7, false) := by decide +kernel

end SubgraphEx
