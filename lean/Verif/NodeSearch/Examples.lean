import Verif.NodeSearch.Optional
import Verif.NodeSearch.PartOf

/-!
# Examples and failing cases for C66 to C68
-/

set_option linter.unusedSimpArgs false
set_option linter.unusedVariables false

open AnnoStore TextOp

namespace NodeSearch.Ex

/-- Pattern 0 does not compile, pattern 5 is replaced by the value 5, pattern 9 matches all values from 20. -/
def env : NsEnv Nat Nat where
  annis := 1
  tok := 2
  nodeType := 3
  nodeVal := 7
  compile p := if p = 0 then none else if p = 9 then some (fun w => decide (20 ≤ w)) else some fun w => decide (w = p)
  exact p := if p = 5 then some 5 else none

/-- Nodes 1, 2, 3 and 10 of type "node", the first three are tokens, 10 covers 1 and 2, has the token annotation 20 and the annotation 6
in the namespaces 4 and 5. The annotation of node 11 was removed. -/
def changes : List (Op NodeID64 Nat Nat) :=
  [.insert 1 (AnnoKey.mk 1 3) 7, .insert 2 (AnnoKey.mk 1 3) 7, .insert 3 (AnnoKey.mk 1 3) 7, .insert 10 (AnnoKey.mk 1 3) 7,
    .insert 1 (AnnoKey.mk 1 2) 21, .insert 2 (AnnoKey.mk 1 2) 22, .insert 3 (AnnoKey.mk 1 2) 5, .insert 10 (AnnoKey.mk 1 2) 20,
    .insert 10 (AnnoKey.mk 4 6) 8, .insert 10 (AnnoKey.mk 5 6) 8, .insert 11 (AnnoKey.mk 1 2) 21, .removeItem 11, .insert 2 (AnnoKey.mk 4 6) 9]

def graph : NsGraph NodeID64 Nat Nat where
  annos := run changes
  coverage := [(listStore [(10, 1), (10, 2)], some 3), (listStore [], some 0)]
  anyTokens := some [1, 2, 3]

def Cov (a b : NodeID64) : Prop := (a, b) ∈ [((10 : NodeID64), (1 : NodeID64)), (10, 2)]

theorem cov_ok : CovOk graph Cov := by
  refine ⟨fun c a b => c.2 = some 3 ∧ Cov a b, ?_, ?_⟩
  · intro c hc
    simp only [graph, List.mem_cons, List.not_mem_nil, or_false] at hc
    rcases hc with rfl | rfl
    · refine ⟨⟨fun _ => True, GStore.anyRange, ?_⟩, by simp⟩
      have := listStore_is [((10 : NodeID64), (1 : NodeID64)), (10, 2)] (by decide)
      simpa [Cov] using this
    · refine ⟨⟨fun _ => True, GStore.anyRange, ?_⟩, by simp⟩
      have := listStore_is [] (by decide)
      simpa using this
  · intro a b
    simp [graph]

theorem exact_ok : ExactOk env := by
  intro p v f h1 h2 w
  simp only [env] at h1 h2
  split at h1
  · rename_i hp
    subst hp
    simp only [Option.some.injEq] at h1
    subst h1
    simp only [show (5 : Nat) ≠ 0 by decide, show (5 : Nat) ≠ 9 by decide, if_false, Option.some.injEq] at h2
    subst h2
    simp
  · simp at h1

theorem tokens_ok : TokensOk env graph (spec changes) Cov := by
  intro l hl
  simp only [graph, Option.some.injEq] at hl
  subst hl
  refine ⟨by decide, fun n => ?_⟩
  simp only [spec, changes, List.foldl, specStep, env, AnnoKey.mk]
  by_cases h1 : n = 1 <;> by_cases h2 : n = 2 <;> by_cases h3 : n = 3 <;> by_cases h4 : n = 10 <;> by_cases h5 : n = 11 <;>
    first
    | (subst h1; clear h2 h3 h4 h5; simp [Cov]; try decide)
    | (subst h2; clear h1 h3 h4 h5; simp [Cov]; try decide)
    | (subst h3; clear h1 h2 h4 h5; simp [Cov]; try decide)
    | (subst h4; clear h1 h2 h3 h5; simp [Cov]; try decide)
    | (subst h5; clear h1 h2 h3 h4; simp [Cov]; try decide)
    | simp [h1, h2, h3, h4, h5]

/-- The rows of a search. -/
def rowsOf (q : NsSpec Nat Nat) : Option (List (NodeID64 × Nat × Nat)) :=
  match fromSpec (E := Unit) env graph q with
  | .ok (rows, _) => some (rows.map fun m => (m.node, m.key.ns, m.key.name))
  | .error _ => none

/-- C66 on the sample: leaves only, all nodes with a token annotation, a search by name in all namespaces, and the replaced pattern. -/
theorem C66_nonvacuous : run changes = graph.annos ∧ CovOk graph Cov ∧ ExactOk env ∧ TokensOk env graph (spec changes) Cov ∧
    rowsOf (.regexTok 9 true) = some [(1, 1, 3), (2, 1, 3)] ∧ rowsOf (.regexTok 9 false) = some [(1, 1, 3), (2, 1, 3), (10, 1, 3)] ∧
    rowsOf (.notExactTok 21) = some [(2, 1, 3), (3, 1, 3)] ∧ rowsOf (.exact none 6 none false) = some [(10, 4, 6), (2, 4, 6), (10, 5, 6)] ∧
    rowsOf (.regex none 2 5 false) = some [(3, 1, 2)] ∧ rowsOf (.regex (some 4) 6 0 true) = none ∧
    rowsOf .anyToken = some [(1, 1, 3), (2, 1, 3), (3, 1, 3)] :=
  ⟨rfl, cov_ok, exact_ok, tokens_ok, by decide +kernel, by decide +kernel, by decide +kernel, by decide +kernel, by decide +kernel,
    by decide +kernel, by decide +kernel⟩

/-- The matches an index join accepts for a search without conditions, among the nodes 1, 2, 3 and 10. -/
def indexOf (q : NsSpec Nat Nat) : Option (List (NodeID64 × Nat × Nat)) :=
  match fromSpec (E := Unit) env graph q with
  | .ok (_, d) => some (((IjSpec.mk (fun _ => []) d.keys fun _ => true).rhs d.constOutput [1, 2, 3, 10]).map fun m =>
      (m.node, m.key.ns, m.key.name))
  | .error _ => none

/-- C66 fails for metadata without a namespace: a node with the annotation in two namespaces is found twice with the same key, since
duplicates are removed before the key is replaced. In an index join it is found once. -/
theorem C66_meta_fails : rowsOf (.exact none 6 none true) = some [(10, 1, 3), (2, 1, 3), (10, 1, 3)] ∧
    indexOf (.exact none 6 none true) = some [(2, 1, 3), (10, 1, 3)] := by
  constructor <;> decide +kernel

/-! ## C67 -/

/-- Nodes 1, 2, 3 with one key. -/
def desc : NsDesc Nat Nat Unit := ⟨fun n => if n ∈ [1, 2, 3] then [0] else [], [], none⟩

def ms : List (SMatch Nat Nat) := [⟨1, 0⟩, ⟨2, 0⟩, ⟨3, 0⟩]

def searches : List (Option (List (SMatch Nat Nat) × Option (NsDesc Nat Nat Unit))) := [some (ms, some desc), some (ms, some desc)]

/-- The edge 1 → 2. -/
def edgeImpl : OpImpl Nat Nat Unit := ⟨⟨fun a b => .ok (decide (a.node = 1 ∧ b.node = 2)), true⟩, none⟩

def edgeOp : QOp Nat Nat Unit := ⟨0, 1, false, edgeImpl, none, none⟩

def negEdgeOp : QOp Nat Nat Unit := ⟨0, 1, false, negOp edgeImpl, none, none⟩

def holds (o : QOp Nat Nat Unit) (a b : SMatch Nat Nat) : Bool :=
  match o.fwd.base.filter a b with
  | .ok b => b
  | .error _ => false

/-- The component with this edge. -/
def comp : List (Option (PocStore Nat)) := [some ⟨[1], some 2⟩, none]

def okRows (l : List (Except (Fail Unit) (SMatch Nat Nat))) : List (SMatch Nat Nat) := l.filterMap fun x => x.toOption

/-- C67 on a sample: the search is replaced and the answers are the same. -/
theorem C67_nonvacuous : ∃ rows, partOf desc comp = rows.map .ok ∧ rows = [⟨1, 0⟩] ∧
    (answers ⟨0, 0⟩ (searches.set 0 (some (rows, some desc))) holds [edgeOp]).Perm (answers ⟨0, 0⟩ searches holds [edgeOp]) ∧
    answers ⟨0, 0⟩ searches holds [edgeOp] = [[⟨1, 0⟩, ⟨2, 0⟩]] := by
  obtain ⟨rows, h1, h2⟩ := C67_part_of_partial ⟨0, 0⟩ searches holds [edgeOp] (n := 0) (ms := ms) (desc := desc) rfl
    (cond := fun _ => true) (all := [1, 2, 3]) (by decide) (fun m => rfl) (by
      intro n h
      by_contra hn
      exact h (by simp only [desc]; rw [if_neg hn])) (by
      have : ms = (IjSpec.mk (fun _ => []) desc.keys fun _ => true).rhs desc.constOutput [1, 2, 3] := by decide
      exact List.Perm.of_eq this) (fun _ => comp) (by decide) (by
      intro o ho _ a _ b hb
      rw [List.mem_singleton] at ho
      subst ho
      simp only [holds, edgeOp, edgeImpl, decide_eq_true_eq] at hb
      rw [hb.1]
      exact mem_pocSources.1 (by decide)) (fun _ _ _ => ⟨by
        intro s hs
        simp only [comp, List.mem_cons, Option.some.injEq, reduceCtorEq, List.not_mem_nil, or_false] at hs
        subst hs
        decide, by simp [comp]⟩) (by simp [desc]) (est := 3) (comps := comp) (by rfl)
  have hp : partOf desc comp = ([⟨1, 0⟩] : List (SMatch Nat Nat)).map .ok := rfl
  have hr : rows = [⟨1, 0⟩] := by
    rw [hp] at h1
    exact (List.map_injective_iff.2 (fun a b h => by injection h) h1).symm
  exact ⟨rows, h1, hr, h2, by decide⟩

/-- C67 fails for negated operators: all nodes that are not source nodes of the component are lost, although the negated operator holds
for them. -/
theorem C67_negated_fails : optimize 3 0 [⟨0, comp⟩] = some comp ∧
    answers ⟨0, 0⟩ (searches.set 0 (some (okRows (partOf desc comp), some desc))) holds [negEdgeOp] = [[⟨1, 0⟩, ⟨1, 0⟩], [⟨1, 0⟩, ⟨3, 0⟩]] ∧
    (answers ⟨0, 0⟩ searches holds [negEdgeOp]).length = 8 := by
  refine ⟨rfl, by decide, by decide⟩

/-- C67 fails if a node is a source node of two components: it is found twice and so are the answers with it. -/
theorem C67_duplicate_fails :
    answers ⟨0, 0⟩ (searches.set 0 (some (okRows (partOf desc [some ⟨[1], some 2⟩, some ⟨[1], some 2⟩]), some desc))) holds [edgeOp] =
      [[⟨1, 0⟩, ⟨2, 0⟩], [⟨1, 0⟩, ⟨2, 0⟩]] ∧
    answers ⟨0, 0⟩ searches holds [edgeOp] = [[⟨1, 0⟩, ⟨2, 0⟩]] := by
  constructor <;> decide

/-- C67 fails for the operator `^`: the last token of a text is near its predecessor, but it is no source node of the order of the tokens
or of the coverage components. -/
theorem C67_near_fails : nearFilter demoTh demoOrder false (.bound 1 1) 3 2 = some true ∧
    optimize 20 0 [⟨0, [some ⟨[1, 2], some 3⟩, some ⟨[10, 11], some 4⟩, some ⟨[10, 11], some 4⟩, some ⟨[10, 11], some 5⟩]⟩] =
      some [some ⟨[1, 2], some 3⟩, some ⟨[10, 11], some 4⟩, some ⟨[10, 11], some 4⟩, some ⟨[10, 11], some 5⟩] ∧
    (∀ n, (demoOrder.out n).any (· ≠ []) = true → n ∈ ([1, 2] : List NodeID64)) ∧
    ¬ IsSource [some ⟨[1, 2], some 3⟩, some ⟨[10, 11], some 4⟩, some ⟨[10, 11], some 4⟩, some ⟨[10, 11], some 5⟩] (3 : NodeID64) := by
  refine ⟨by decide +kernel, rfl, ?_, fun h => absurd (mem_pocSources.2 h) (by decide)⟩
  intro n hn
  obtain ⟨l, h1, h2⟩ := (listStore_is [((1 : NodeID64), (2 : NodeID64)), (2, 3)] (by decide)).out n
  unfold demoOrder at hn
  rw [h1] at hn
  obtain ⟨b, hb⟩ := List.exists_mem_of_ne_nil l (by simpa using hn)
  have := h2.2 b |>.1 hb
  simp only [List.mem_cons, List.not_mem_nil, or_false, Prod.mk.injEq] at this ⊢
  tauto

/-- The rows of the replaced search. -/
def partRows (q : NsSpec Nat Nat) (comps : List (Option (PocStore NodeID64))) : Option (List (NodeID64 × Nat × Nat)) :=
  match fromSpec (E := Unit) env graph q with
  | .ok (_, d) => some ((partOf d comps).filterMap fun x => x.toOption.map fun m => (m.node, m.key.ns, m.key.name))
  | .error _ => none

/-- C67 fails for searches with a constant output: the tokens are given with the key `annis::tok` instead of the key of the node type. The
names of the matches of a query change with it. -/
theorem C67_output_fails : rowsOf .anyToken = some [(1, 1, 3), (2, 1, 3), (3, 1, 3)] ∧
    partRows .anyToken [some ⟨[1, 2, 3], some 3⟩] = some [(1, 1, 2), (2, 1, 2), (3, 1, 2)] := by
  constructor <;> decide +kernel

/-! ## C68 -/

/-- Coverage as an operator. -/
def covImpl (index : Bool) : OpImpl NodeID64 (AnnoKey Nat) Unit where
  base := ⟨fun a b => .ok (decide (a.node = 10 ∧ (b.node = 1 ∨ b.node = 2))), true⟩
  retrieve := if index then some fun a => .ok (if a.node = 10 then [1, 2] else []) else none

def CovRel (a b : NodeID64) : Prop := a = 10 ∧ (b = 1 ∨ b = 2)

theorem covImpl_decides (index : Bool) : Decides (spec changes) (covImpl index) CovRel := by
  refine ⟨fun a b => ⟨_, rfl, by simp [CovRel]⟩, ?_⟩
  intro ret hret a
  cases index with
  | false => simp [covImpl] at hret
  | true =>
    simp only [covImpl, if_true, Option.some.injEq] at hret
    subst hret
    refine ⟨_, rfl, fun n k _ => ?_⟩
    by_cases h : a.node = 10 <;> simp [CovRel, h]

/-- The filter of an optional operand on the sample. -/
def opt (index targetLeft : Bool) (target : NsSpec Nat Nat) (n : NodeID64) : Option Bool :=
  (nonExisting env graph target targetLeft (covImpl index) none ⟨n, AnnoKey.mk 1 3⟩).toOption

/-- C68 on the sample: "no token 22 is covered by #1" holds for the token 3 but not for the span, with and without index; "#1 is not
covered by a node with annotation 6" holds for the token 3 but not for the token 1. -/
theorem C68_nonvacuous : (∀ index, Decides (spec changes) (covImpl index) CovRel) ∧
    (∀ index, opt index false (.exactTok 22 true) 10 = some false ∧ opt index false (.exactTok 22 true) 3 = some true ∧
      opt index false (.exactTok 5 true) 10 = some true) ∧
    opt true true (.exact none 6 none false) 1 = some false ∧ opt true true (.exact none 6 none false) 3 = some true := by
  refine ⟨covImpl_decides, ?_, by decide +kernel, by decide +kernel⟩
  decide +kernel

/-- C68 fails for patterns that do not compile. No token has a value that matches, so that every match should pass (or the query should
fail); without index none passes, with index the value is not checked. -/
theorem C68_regex_fails : (∀ n k, ¬ Wanted env (spec changes) Cov (.regexTok 0 true) n k) ∧
    opt false false (.regexTok 0 true) 3 = some false ∧ opt true false (.regexTok 0 true) 3 = some true ∧
    opt true false (.regexTok 0 true) 10 = some false := by
  refine ⟨?_, by decide +kernel, by decide +kernel, by decide +kernel⟩
  rintro n k ⟨⟨_, _, v, _, f, hf, _⟩, _⟩
  simp [env] at hf

/-- The operator `_=_` on the sample of C46: it is not reflexive. -/
def identImpl : OpImpl NodeID64 (AnnoKey Nat) Unit where
  base := ⟨fun a b => match identFilter demoTh a.node b.node with
    | some b => .ok b
    | none => .error .panic, false⟩
  retrieve := some fun a => match identRetrieve demoTh a.node with
    | some l => .ok l
    | none => .error .panic

/-- C68: the match itself counts as its own partner. The span 10 is the only node with identical coverage, and a query for two different
matches with identical coverage does not find it, but "there is no node with identical coverage" does not hold for it. -/
theorem C68_self_fails : identImpl.base.reflexive = false ∧ identRetrieve demoTh 10 = some [10] ∧
    (nonExisting env graph (.exact (some 4) 6 none false) false identImpl none ⟨10, AnnoKey.mk 4 6⟩).toOption = some false := by
  refine ⟨rfl, by decide +kernel, by decide +kernel⟩

end NodeSearch.Ex
