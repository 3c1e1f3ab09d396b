import Verif.Index.Check

/-!
# The text coverage index: examples and counterexamples (C50)

In the names of the components of the examples 0 is coverage, 1 a named and 6 an unnamed dominance component.
-/

set_option linter.unusedSimpArgs false
set_option linter.unusedSectionVars false
set_option linter.unusedVariables false

namespace Graph

namespace Index

/-! ## Checking the conditions of an update -/

section
variable {S V C : Type} [LinearOrder S] [OrderBot S] [LinearOrder V] [LinearOrder C]

def eventB (nk tk tok : AnnoKey S) (g : Graph S V C) : Event S V C → Bool
  | .addNodeLabel n k _ => decide (k ≠ nk) && (decide (k ≠ tok) || decide (g.annos.nodeIdFromName nk n = none))
  | .deleteNodeLabel n k => decide (k ≠ nk) && decide (k ≠ tk) && (decide (k ≠ tok) || decide (g.annos.nodeIdFromName nk n = none))
  | _ => true

/-- Only additions: nothing is deleted. -/
def addsOnly : Event S V C → Bool
  | .deleteNode _ => false
  | _ => true

variable {sc : Schema C} {nk tk tok : AnnoKey S} {g g' : Graph S V C} {u : List (Nat × Event S V C)}

theorem updateOk_of (hI : Inv nk g) (h1 : ((evs u).all fun e => eventB nk tk tok g e && addsOnly e) = true) (h2 : namedB sc g = true)
    (h3 : segB sc tok g' = true) (h4 : orderB sc tok g' = true) (h5 : stableB sc tok g g' = true) : UpdateOk sc nk tk tok g u g' := by
  simp only [List.all_eq_true, Bool.and_eq_true] at h1
  have key : ∀ e ∈ evs u, e.NoRename nk ∧ EventOk nk tok g e ∧ ∀ n, e ≠ .deleteNodeLabel n tk := by
    intro e he
    have h := (h1 e he).1
    cases e with
    | addNodeLabel n k v =>
      simp only [eventB, Bool.and_eq_true, Bool.or_eq_true, decide_eq_true_eq] at h
      refine ⟨h.1, ⟨h.1, ?_, by simp⟩, by simp⟩
      rintro n' v' e i hi
      injection e with e1 e2 e3
      subst e1; subst e2
      rcases h.2 with h | h
      · exact h rfl
      · rw [(idOf_iff hI n i).2 hi] at h; cases h
    | deleteNodeLabel n k =>
      simp only [eventB, Bool.and_eq_true, Bool.or_eq_true, decide_eq_true_eq] at h
      refine ⟨h.1.1, ⟨h.1.1, by simp, ?_⟩, fun n' e => by injection e with _ e; exact h.1.2 e⟩
      rintro n' e i hi
      injection e with e1 e2
      subst e1; subst e2
      rcases h.2 with h | h
      · exact h rfl
      · rw [(idOf_iff hI n i).2 hi] at h; cases h
    | addNode n ty => exact ⟨trivial, ⟨trivial, by simp, by simp⟩, by simp⟩
    | deleteNode n => exact ⟨trivial, ⟨trivial, by simp, by simp⟩, by simp⟩
    | addEdge s t c => exact ⟨trivial, ⟨trivial, by simp, by simp⟩, by simp⟩
    | deleteEdge s t c => exact ⟨trivial, ⟨trivial, by simp, by simp⟩, by simp⟩
    | addEdgeLabel s t c k v => exact ⟨trivial, ⟨trivial, by simp, by simp⟩, by simp⟩
    | deleteEdgeLabel s t c k => exact ⟨trivial, ⟨trivial, by simp, by simp⟩, by simp⟩
  refine ⟨fun e he => (key e he).1, fun e he => (key e he).2.1, fun e he => (key e he).2.2, ?_, namedOk_of h2, segOk_of h3, orderOk_of h4,
    fun a b => stable_of h5 a b⟩
  intro l1 n l2 hl
  have := (h1 (.deleteNode n) (by rw [hl]; simp)).2
  cases this

end

/-! ## Example graphs -/

namespace Demo

def sc : Schema Nat :=
  { kind := fun c => match c with
      | 0 => .coverage | 1 => .dominance | 2 => .ordering | 3 => .leftToken | 4 => .rightToken | 5 => .coverage | 6 => .dominance
      | _ => .pointing
    unnamed := fun c => c ≠ 1 ∧ c ≠ 5
    order := 2, left := 3, right := 4, inh := 5 }

def nk : AnnoKey Nat := AnnoKey.mk 0 1
def tk : AnnoKey Nat := AnnoKey.mk 0 2
def tok : AnnoKey Nat := AnnoKey.mk 0 3
def ch : Choices := ⟨fun l => l, 5, fun _ _ => []⟩

theorem sc_ok : SchemaOk sc := ⟨rfl, rfl, rfl, rfl⟩
theorem nk_tk : nk ≠ tk := by decide
theorem ch_ok : ∀ l, (ch.iter l).Perm l := fun l => List.Perm.refl l

def node (n : Nat) : Event Nat Nat Nat := .addNode n 0
def token (n : Nat) : List (Event Nat Nat Nat) := [.addNode n 0, .addNodeLabel n tok n]
def edge (s t c : Nat) : Event Nat Nat Nat := .addEdge s t (some c)
def number (l : List (Event Nat Nat Nat)) : List (Nat × Event Nat Nat Nat) := l.map fun e => (0, e)
def run (g : Graph Nat Nat Nat) (l : List (Event Nat Nat Nat)) : Option (Graph Nat Nat Nat) := update sc nk tk tok 4 ch g (number l)

/-- One update of a new graph. -/
theorem first_update {l : List (Event Nat Nat Nat)} {g : Graph Nat Nat Nat} (h : run Graph.new l = some g)
    (h1 : ((evs (number l)).all fun e => eventB nk tk tok (Graph.new : Graph Nat Nat Nat) e && addsOnly e) = true)
    (h2 : (segB sc tok g && orderB sc tok g) = true) (h3 : stableB sc tok Graph.new g = true) :
    Updates sc nk tk tok 4 Graph.new g ∧ Inv nk g := by
  rw [Bool.and_eq_true] at h2
  have hu := updateOk_of (sc := sc) (nk := nk) (tk := tk) (tok := tok) (u := number l) Inv.empty h1 (by decide) h2.1 h2.2 h3
  refine ⟨.step _ ch ch_ok (.nil _) h hu, (C50_update_partial sc_ok nk_tk ch_ok Inv.empty (le_refl _) ?_ h hu).1⟩
  rintro x ⟨n, hx⟩
  simp [Graph.new, AnnoStore.new, AnnoStore.getValue, SymbolTable.new, SymbolTable.getSymbol] at hx

theorem not_ok {g : Graph Nat Nat Nat} (x : NodeID64) (n : Nat) (h1 : g.annos.getValue x nk = some n) (h2 : nodeB sc tok g x = false) :
    ¬ IndexOk sc nk tok g := by
  intro h
  rw [nodeB_of x (h x ⟨n, h1⟩)] at h2
  cases h2

/-- Six tokens in a chain and a span over the second and the fifth. -/
def chain : List (Event Nat Nat Nat) :=
  [1, 2, 3, 4, 5, 6].flatMap token ++ [node 7] ++ [edge 1 2 2, edge 2 3 2, edge 3 4 2, edge 4 5 2, edge 5 6 2, edge 7 2 0, edge 7 5 0]

def build (l : List (Event Nat Nat Nat)) : Graph Nat Nat Nat := (run Graph.new l).getD Graph.new
def then' (l l' : List (Event Nat Nat Nat)) : Graph Nat Nat Nat := (run (build l) l').getD Graph.new


theorem some_getD {α : Type} {o : Option α} {d : α} (h : o.isSome = true) : o = some (o.getD d) := by
  cases o with
  | none => cases h
  | some x => rfl

/-- All conditions for the first update. -/
def firstB' (l : List (Event Nat Nat Nat)) : Bool :=
  (run Graph.new l).isSome && (((evs (number l)).all fun e => eventB nk tk tok (Graph.new : Graph Nat Nat Nat) e && addsOnly e) &&
    (segB sc tok (build l) && orderB sc tok (build l)) && stableB sc tok Graph.new (build l))

theorem build_ok {l : List (Event Nat Nat Nat)} (h : firstB' l = true) : Updates sc nk tk tok 4 Graph.new (build l) ∧ Inv nk (build l) := by
  unfold firstB' at h
  rw [Bool.and_eq_true, Bool.and_eq_true, Bool.and_eq_true] at h
  exact first_update (some_getD h.1) h.2.1.1 h.2.1.2 h.2.2

/-- The index is wrong for the node with this ID after the second update. -/
theorem second_fails {l l' : List (Event Nat Nat Nat)} (x : NodeID64) (n : Nat)
    (h : (firstB' l && ((run (build l) l').isSome && (decide ((then' l l').annos.getValue x nk = some n) && !nodeB sc tok (then' l l') x))) = true) :
    ∃ g g', Updates sc nk tk tok 4 Graph.new g ∧ run g l' = some g' ∧ ¬ IndexOk sc nk tok g' := by
  simp only [Bool.and_eq_true, decide_eq_true_eq, Bool.not_eq_true'] at h
  exact ⟨build l, then' l l', (build_ok h.1).1, some_getD h.2.1, not_ok x n h.2.2.1 h.2.2.2⟩

/-- C50 fails if the order of the tokens is changed: the edge events only concern tokens next to the covered ones, so the span is not
marked and its left token is no longer the first one. -/
theorem C50_order_fails : ∃ g g', Updates sc nk tk tok 4 Graph.new g ∧
    run g [.deleteEdge 3 4 (some 2), edge 6 1 2] = some g' ∧ ¬ IndexOk sc nk tok g' :=
  second_fails (l := chain) 6 7 (by decide +kernel)

/-- C50 fails if an existing node becomes a token: label events do not mark nodes. -/
theorem C50_label_fails : ∃ g g', Updates sc nk tk tok 4 Graph.new g ∧
    run g [.addNodeLabel 3 tok 0] = some g' ∧ ¬ IndexOk sc nk tok g' :=
  second_fails (l := token 1 ++ [node 2, node 3, edge 2 3 0, edge 2 1 0, edge 1 3 2]) 1 2 (by decide +kernel)

/-- C50 fails for a dominance component with a name: its edges are followed by the recomputation but not by the marking. -/
theorem C50_named_fails : ∃ g g', Updates sc nk tk tok 4 Graph.new g ∧
    run g [edge 3 1 0] = some g' ∧ ¬ IndexOk sc nk tok g' :=
  second_fails (l := token 1 ++ [node 2, node 3, edge 2 3 1]) 1 2 (by decide +kernel)

/-- C50 fails if a node is deleted and added again in one update: the events of the new node mark the old one. -/
theorem C50_readd_fails : ∃ g g', Updates sc nk tk tok 4 Graph.new g ∧
    run g [.deleteNode 2, node 2, edge 2 1 0] = some g' ∧ ¬ IndexOk sc nk tok g' :=
  second_fails (l := token 1 ++ [node 2, edge 2 1 0]) 2 2 (by decide +kernel)

/-- C50 fails for nodes with the token label that have dominance edges only: they are tokens until their own inherited coverage has
been computed, so the result depends on the order of the node IDs. -/
theorem C50_segmentation_fails :
    (∃ g, run Graph.new (token 1 ++ token 2 ++ [node 3, edge 1 2 2, edge 2 1 6, edge 3 2 6]) = some g ∧ ¬ IndexOk sc nk tok g) ∧
    (∃ g, run Graph.new ([node 3] ++ token 1 ++ token 2 ++ [edge 1 2 2, edge 2 1 6, edge 3 2 6]) = some g ∧ nodeB sc tok g 0 = true) := by
  constructor
  · refine ⟨build (token 1 ++ token 2 ++ [node 3, edge 1 2 2, edge 2 1 6, edge 3 2 6]), some_getD (by decide +kernel),
      not_ok 2 3 (by decide +kernel) (by decide +kernel)⟩
  · exact ⟨build ([node 3] ++ token 1 ++ token 2 ++ [edge 1 2 2, edge 2 1 6, edge 3 2 6]), some_getD (by decide +kernel),
      by decide +kernel⟩

/-- An update of a graph with nodes fails as a whole if it deletes a node that does not exist. -/
theorem C50_unknown_fails : run (build (token 1)) [.deleteNode 2] = none ∧ (run Graph.new [.deleteNode 2]).isSome = true := by
  decide +kernel

/-- The conditions of `C50_history_partial` are met by a history of two updates, with a span that is extended by a new token. -/
theorem C50_nonvacuous : ∃ g : Graph Nat Nat Nat, Updates sc nk tk tok 4 Graph.new g ∧ (E g sc.left 6 1 ∧ E g sc.right 6 7 ∧ E g sc.inh 8 4) := by
  have h : firstB' chain = true := by decide +kernel
  obtain ⟨h1, h2⟩ := build_ok h
  let l : List (Event Nat Nat Nat) := token 8 ++ [edge 6 8 2, edge 7 8 0, node 9, edge 9 7 6]
  refine ⟨then' chain l, .step (number l) ch ch_ok h1 (some_getD (by decide +kernel)) (updateOk_of h2 ?_ ?_ ?_ ?_ ?_), ?_⟩
  · decide +kernel
  · decide +kernel
  · decide +kernel
  · decide +kernel
  · decide +kernel
  · unfold E
    decide +kernel

end Demo

end Index

end Graph
