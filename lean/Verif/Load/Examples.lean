import Verif.Load.Save
import Verif.Subgraph.Examples

/-!
# C75 and C76: examples and disagreements

Strings are numbers: `0` is the empty string, `1` is `annis` and `2` is `default_ns`.
-/

set_option linter.unusedSimpArgs false

namespace Load.Ex

open AnnotationComponentType TextSpec SubgraphSpec TextOp

def nm : Names Nat := ⟨1, 2⟩

def ordC : CKey Nat := comp .ordering 1 0
def leftC : CKey Nat := comp .leftToken 1 0
def rightC : CKey Nat := comp .rightToken 1 0
def covC : CKey Nat := comp .coverage 2 0
def pointC : CKey Nat := comp .pointing 2 5
def domC : CKey Nat := comp .dominance 2 6

/-- A corpus with six components, of which the storages are numbers here. -/
def all : List (CKey Nat × Nat) := [(ordC, 100), (leftC, 101), (rightC, 102), (covC, 103), (pointC, 104), (domC, 105)]

def disk (c : CKey Nat) : Except Unit Nat :=
  match all.find? fun e => e.1 = c with
  | some e => .ok e.2
  | none => .error ()

/-- Only the pointing component is loaded. -/
def g0 : Comps Nat Nat := all.foldl (fun g e => OMap.insert g e.1 (if e.1 = pointC then some e.2 else none)) []

def full : Comps Nat Nat := all.foldl (fun g e => OMap.insert g e.1 (some e.2)) []

theorem g0_wf : WF g0 := by
  refine ⟨by unfold OMap.Sorted; decide, fun c hc => ?_⟩
  have h : ∀ c ∈ OMap.keys g0, c ∈ all.map Prod.fst := by decide
  simp only [all, List.map_cons, List.map_nil, List.mem_cons, List.not_mem_nil, or_false] at h
  rcases h c hc with rfl | rfl | rfl | rfl | rfl | rfl
  · exact ⟨.ordering, rfl⟩
  · exact ⟨.leftToken, rfl⟩
  · exact ⟨.rightToken, rfl⟩
  · exact ⟨.coverage, rfl⟩
  · exact ⟨.pointing, rfl⟩
  · exact ⟨.dominance, rfl⟩

/-- `tok . tok & tok ->5 tok`. -/
def q : List (Conj Nat Nat Nat Nat) := [⟨[.anyToken, .anyToken], [], [.precedence none 0, .pointing 5 0]⟩]

/-- As answer, the storages of the token search and of the operators. -/
def ev (cs : List (ConjInst Nat Nat)) (_ : ExtraInst Nat Nat) : List (List (Option Nat) × List (List Nat × Option Nat)) :=
  cs.map fun c => (c.nodes.map NodeInst.order, c.binary.filterMap fun b => b.1.toOption.map fun o => (o.edges, o.helper.map Helper.right))

def g2 : Comps Nat Nat := (prepare nm disk id g0 q .count).1

/-- The hypotheses of `C75_like_complete_partial` and `C75_loads` hold: the query loads order, left and right tokens and coverage but not
the dominance component; the answer is the one of the completely loaded corpus, and before loading it would have been another one. -/
theorem C75_nonvacuous : WF g0 ∧ (prepare nm disk id g0 q .count).2.toOption.isSome = true ∧ Complete disk g2 full ∧
    answer nm (fun _ => none) ev g2 q .count = [([some 100, some 100], [([], some 102), ([104], none)])] ∧
    answer nm (fun _ => none) ev g0 q .count = [([none, none], [([104], none)])] ∧ OMap.get g2 domC = some none := by
  refine ⟨g0_wf, by decide +kernel, ⟨by unfold OMap.Sorted; decide +kernel, fun c => ?_⟩, by decide +kernel, by decide +kernel, by decide +kernel⟩
  have hk : ∀ c ∈ all.map Prod.fst, (match OMap.get g2 c with
      | none => decide (OMap.get full c = none)
      | some (some s) => decide (OMap.get full c = some (some s))
      | some none => match disk c with
        | .ok s => decide (OMap.get full c = some (some s))
        | .error _ => false) = true := by decide +kernel
  have h2 : OMap.keys g2 ⊆ all.map Prod.fst := by unfold HasSubset.Subset List.instHasSubset List.Subset; decide +kernel
  have hf : OMap.keys full ⊆ all.map Prod.fst := by unfold HasSubset.Subset List.instHasSubset List.Subset; decide +kernel
  cases hg : OMap.get g2 c with
  | none =>
    by_cases hc : c ∈ all.map Prod.fst
    · have := hk c hc
      rw [hg] at this
      simpa using this
    · exact OMap.get_eq_none_iff.2 fun h => hc (hf h)
  | some v =>
    have := hk c (h2 (OMap.mem_keys_iff.2 ⟨_, hg⟩))
    rw [hg] at this
    cases v with
    | some s => simpa using this
    | none =>
      cases hd : disk c with
      | error e => simp [hd] at this
      | ok s => exact ⟨s, rfl, by simpa [hd] using this⟩

/-- `C75_on_graph` has both cases. -/
theorem C75_on_graph_nonvacuous : executeOnGraph nm (fun _ => none) ev full q = some [([some 100, some 100], [([], some 102), ([104], none)])] ∧
    executeOnGraph nm (fun _ => none) ev g0 q = none := by decide +kernel

/-! ### Where the code disagrees -/

open Subgraph in
/-- The subgraph of the tokens 1 and 3 of `SubgraphEx.demoTh` (text 1 → 2 → 3) without edges; tells if there is an edge for the gap. -/
def gapEv (_ : List (ConjInst Nat (GStore NodeID64))) (x : ExtraInst Nat (GStore NodeID64)) : Option Bool :=
  (create (S := Nat) (W := Nat) { annos := fun _ => [(SubgraphEx.label, 7)], comps := [] }
    (x.helper.map fun h => { hasTok := demoTh.hasTok, left := h.left, right := h.right, cov := h.cov }) x.order [0]
    [[((1 : NodeID64), ())], [(3, ())]]).map fun g => decide (3 ∈ (g.comps gapComp).out 1)

/-- The components of `SubgraphEx.demoTh`. -/
def stores : List (CKey Nat × GStore NodeID64) :=
  [(ordC, demoOrder), (leftC, demoTh.left), (rightC, demoTh.right), (covC, listStore SubgraphEx.covEdges), (pointC, listStore [])]

def sdisk (c : CKey Nat) : Except Unit (GStore NodeID64) :=
  match stores.find? fun e => e.1 = c with
  | some e => .ok e.2
  | none => .error ()

def fresh : Comps Nat (GStore NodeID64) := stores.foldl (fun g e => OMap.insert g e.1 none) []

/-- C75 fails for a subgraph with one type of components: with `Some(Pointing)` the order of the tokens and the token helper are not
loaded but used if they happen to be loaded.  For the same query and corpus the result has an edge for the gap between the tokens or not. -/
theorem C75_subgraph_filter_fails :
    (prepare (P := Nat) (N := Nat) (V := Nat) nm sdisk id fresh [⟨[.anyNode], [], []⟩] (.subgraph (some .pointing))).2.toOption.isSome = true ∧
    answer (P := Nat) (N := Nat) (V := Nat) nm (fun _ => none) gapEv
      (prepare (P := Nat) (N := Nat) (V := Nat) nm sdisk id fresh [⟨[.anyNode], [], []⟩] (.subgraph (some .pointing))).1
      [⟨[.anyNode], [], []⟩] (.subgraph (some .pointing)) = some false ∧
    answer (P := Nat) (N := Nat) (V := Nat) nm (fun _ => none) gapEv (ensureLoadedAll sdisk fresh).1
      [⟨[.anyNode], [], []⟩] (.subgraph (some .pointing)) = some true := by
  decide +kernel

/-! ### C76 -/

def c1 : CKey Nat := domC
def c2 : CKey Nat := pointC
def c3 : CKey Nat := covC

/-- Two components on disk, the first is loaded. -/
def st0 : St Nat Nat :=
  { disk := OMap.insert (OMap.insert [] c1 10) c2 20, log := none, mem := OMap.insert (OMap.insert [] c1 (some 10)) c2 none, jobs := 0 }

theorem st0_inv : Inv st0 :=
  ⟨by unfold OMap.Sorted; decide, by unfold OMap.Sorted; decide, by decide, fun h => absurd rfl h⟩

theorem st0_content : content st0 = stored st0 := by
  funext c
  by_cases h1 : c = c1
  · subst h1; decide
  · by_cases h2 : c = c2
    · subst h2; decide
    · unfold content stored st0
      simp only [OMap.get_insert_ne _ _ h2, OMap.get_insert_ne _ _ h1]
      rfl

/-- No read errors. -/
def fine : CKey Nat → Bool := fun _ => false

/-- A query that cannot read, an update with a new component, a failing update, and the background thread. -/
def ops : List (Op Nat Nat) :=
  [.load (fun c => c = c2) [c2], .update fine [(c3, 30), (c1, 11)] true, .update fine [(c1, 12)] false]

/-- The hypotheses of `C76_kept_partial`, `C76_saved_partial` and `C76_content_partial` hold. -/
theorem C76_nonvacuous : Inv st0 ∧ content st0 = stored st0 ∧ (∀ op ∈ ops, ReloadOk op) ∧ Waits () st0 ops ∧ (run () st0 ops).jobs ≠ 0 ∧
    ([c1, c2, c3].map (OMap.get (run () st0 (ops ++ [.sync])).disk)) = [some 11, some 20, some 30] := by
  refine ⟨st0_inv, st0_content, ?_, ?_, by decide +kernel, by decide +kernel⟩
  · intro op hop
    simp only [ops, List.mem_cons, List.not_mem_nil, or_false] at hop
    rcases hop with rfl | rfl | rfl
    · trivial
    · trivial
    · exact fun _ => rfl
  · refine ⟨by simp, fun _ _ _ => ?_, by simp, trivial⟩
    decide +kernel

/-- `C76_optimized` applies to a corpus that is not completely loaded. -/
theorem C76_optimized_nonvacuous : (step () st0 (.optimize fine fun _ s => s + 1)).2.toOption = some () ∧
    [c1, c2].map (OMap.get (step () st0 (.optimize fine fun _ s => s + 1)).1.disk) = [some 11, some 21] := by decide +kernel

/-- C76 fails if reading fails after a failed update: an update succeeds, the next one fails and the corpus cannot be read again, and then
the background thread of the first saves the corpus without the component, which is lost. -/
theorem C76_reload_fails :
    [c1, c2].map (OMap.get (run () st0 [.update fine [(c1, 11)] true, .update (fun c => c = c2) [] false, .sync]).disk) =
      [some 10, none] := by decide +kernel

/-- C76 fails if an update does not wait for the background thread of the one before: a failed third update takes back the first, which
returned `Ok`, and both background threads save the result. -/
theorem C76_two_updates_fails :
    [c1, c2].map (content (run () st0 [.update fine [(c1, 11)] true, .update fine [(c2, 21)] true])) = [some 11, some 21] ∧
    [c1, c2].map (OMap.get (run () st0 [.update fine [(c1, 11)] true, .update fine [(c2, 21)] true, .update fine [] false, .sync, .sync]).disk) =
      [some 10, some 21] := by decide +kernel

end Load.Ex
