import Verif.Graph.Model
import Verif.Union.Model
import Verif.Sort.Model

/-!
# Model of the text coverage index (graphannis/src/annis/db/aql/model.rs 123-580)

The left token, right token and inherited coverage components are maintained by hooks of `apply_update_in_memory`
(core/src/graph/mod.rs 397-647).  `none` is an error.  Simplified:

* all components use the adjacency list storage, also the order component which the code optimises first (564-575),
* components without a storage answer like empty ones, and the order component exists (a default component, 409-411),
* the filter of coverage components by their statistics (token_helper.rs 58-64) is not modelled,
* the on-disk maps for the name cache and the invalid nodes are maps (C06),
* the iteration order of hash sets and the random numbers of the sort are arguments.
-/

/-- `AnnotationComponentType` (model.rs 62-77). -/
inductive CKind
  | coverage | dominance | pointing | ordering | leftToken | rightToken | partOf
  deriving DecidableEq

/-- What the index needs to know about a component: its type, whether its name is empty, and the special components
`Ordering/annis/`, `LeftToken/annis/`, `RightToken/annis/` and `Coverage/annis/inherited-coverage`. -/
structure Schema (C : Type) where
  kind : C → CKind
  unnamed : C → Bool
  order : C
  left : C
  right : C
  inh : C

/-- `AQLUpdateGraphIndex` (model.rs 172-179). -/
structure IndexState (V C : Type) where
  cache : OMap V NodeID64
  empty : Bool
  invalid : OMap NodeID64 Bool
  text : List C

/-- The choices that the code does not determine: iteration of a hash set, and fuel and pivots for the sort. -/
structure Choices where
  iter : List NodeID64 → List NodeID64
  fuel : Nat
  pivots : NodeID64 → CKind → List (Nat × Nat × Nat)

namespace Graph

variable {S V C : Type} [LinearOrder S] [OrderBot S] [LinearOrder V] [LinearOrder C]

/-- A component as edge container. -/
def container (g : Graph S V C) (c : C) : Container Empty NodeID64 :=
  ⟨fun n => ((g.comp c).out n).map .ok, fun n => ((g.comp c).inn n).map .ok, (g.comp c).sources.map .ok⟩

/-- `get_all_components` with a type (core/src/graph/mod.rs 1086-1131), as a filter of the map. -/
def compsOf (sc : Schema C) (g : Graph S V C) (k : CKind) : List C := g.comps.keys.filter fun c => sc.kind c = k

namespace Index

/-- `init_update_graph_index` (model.rs 432-465). -/
def init (sc : Schema C) (g : Graph S V C) : IndexState V C :=
  { cache := []
    empty := g.annos.isEmpty
    invalid := []
    text := (g.compsOf sc .dominance).filter (fun c => sc.unnamed c) ++ g.compsOf sc .coverage }

/-- `get_cached_node_id_from_name` (model.rs 186-200). -/
def nodeId (nk : AnnoKey S) (g : Graph S V C) (x : IndexState V C) (n : V) : Option (NodeID64 × IndexState V C) :=
  match x.cache.get n with
  | some i => some (i, x)
  | none => (g.annos.nodeIdFromName nk n).map fun i => (i, { x with cache := x.cache.insert n i })

/-- All nodes from which the node can be reached with edges of the components. -/
def upwards (g : Graph S V C) (cs : List C) (n : NodeID64) : List NodeID64 :=
  (Dfs.steps (fun m => Container.oks (UnionContainer.inn (cs.map g.container) m))
    (cs.flatMap fun c => Adj.targets (g.comp c).inverse) n 0 usizeMax true).map Prod.fst

/-- `calculate_invalidated_nodes_by_coverage` (model.rs 202-223). -/
def invalidate (g : Graph S V C) (x : IndexState V C) (n : NodeID64) : IndexState V C :=
  { x with invalid := (upwards g x.text n).foldl (fun m i => m.insert i true) x.invalid }

/-- The edges of these component types are followed by an invalidation (model.rs 487-492, 534-539). -/
def affects : CKind → Bool
  | .coverage | .dominance | .ordering | .leftToken | .rightToken => true
  | _ => false

/-- The common part of edge events (model.rs 486-503, 533-550). -/
def touchEdge (sc : Schema C) (nk : AnnoKey S) (g : Graph S V C) (x : IndexState V C) (s t : V) (c : C) :
    Option (IndexState V C) :=
  (if affects (sc.kind c) then (nodeId nk g x s).map fun r => invalidate g r.2 r.1 else some x).bind fun x =>
    if sc.kind c = .ordering then (nodeId nk g x t).map fun r => invalidate g r.2 r.1 else some x

/-- `before_update_event` (model.rs 467-511). -/
def before (sc : Schema C) (nk : AnnoKey S) (g : Graph S V C) (x : IndexState V C) : Event S V C → Option (IndexState V C)
  | .deleteNode n =>
    if x.empty then some x
    else (nodeId nk g x n).map fun r => if (r.2.invalid.get r.1).isSome then r.2 else invalidate g r.2 r.1
  | .deleteEdge s t (some c) => if x.empty then some x else touchEdge sc nk g x s t c
  | _ => some x

/-- `after_update_event` (model.rs 513-558). -/
def after (sc : Schema C) (nk : AnnoKey S) (g : Graph S V C) (x : IndexState V C) : Event S V C → Option (IndexState V C)
  | .addEdge s t (some c) =>
    let x := if (sc.kind c = .dominance ∨ sc.kind c = .coverage) ∧ sc.unnamed c then { x with text := c :: x.text } else x
    if x.empty then some x else touchEdge sc nk g x s t c
  | _ => some x

/-- The event loop of `apply_update_in_memory` with the hooks (core/src/graph/mod.rs 415-636). -/
def loop (sc : Schema C) (nk tk : AnnoKey S) (cap : Nat) (all : List C) :
    Graph S V C → IdCache V → IndexState V C → List (Nat × Event S V C) → Option (Graph S V C × IndexState V C)
  | g, _, x, [] => some (g, x)
  | g, cache, x, (id, e) :: r => do
    let x ← before sc nk g x e
    let (g, cache) ← applyEvent nk tk cap all g cache e
    let x ← after sc nk g x e
    loop sc nk tk cap all { g with changeId := id } cache x r

/-- Removing the old entries of one index component (model.rs 244-273). -/
def clearComp (x : IndexState V C) (g : Graph S V C) (c : C) : Graph S V C :=
  if x.empty then g.setComp c (g.comp c).clear
  else g.setComp c (x.invalid.keys.foldl (fun a n => a.deleteNode n) (g.comp c))

/-- `clear_left_right_token` (model.rs 225-275). -/
def clear (sc : Schema C) (x : IndexState V C) (g : Graph S V C) : Graph S V C :=
  clearComp x (clearComp x (clearComp x g sc.left) sc.right) sc.inh

/-- `TokenHelper::is_token` (token_helper.rs 53-65, 93-112). -/
def isToken (sc : Schema C) (tok : AnnoKey S) (g : Graph S V C) (i : NodeID64) : Bool :=
  (g.annos.getValue i tok).isSome && !(g.compsOf sc .coverage).any fun c => (g.comp c).hasOut i

/-- The coverage components without the index (model.rs 289-293). -/
def covComps (sc : Schema C) (g : Graph S V C) : List C := (g.compsOf sc .coverage).filter fun c => c ≠ sc.inh

/-- The covered tokens of a node (model.rs 130-150); the duplicates of a traversal are removed by the hash set. -/
def covered (sc : Schema C) (tok : AnnoKey S) (g : Graph S V C) (text : List C) (n : NodeID64) : List NodeID64 :=
  setExtend [] (((Dfs.steps (fun m => Container.oks (UnionContainer.out (text.map g.container) m))
    (text.flatMap fun c => Adj.targets (g.comp c).edges) n 1 usizeMax).map Prod.fst).filter fun i => isToken sc tok g i)

/-- `calculate_inherited_coverage_edges` (model.rs 123-170). -/
def inherit (sc : Schema C) (tok : AnnoKey S) (g : Graph S V C) (cov text : List C) (n : NodeID64) :
    Graph S V C × List NodeID64 :=
  let toks := covered sc tok g text n
  let direct := cov.flatMap fun c => (g.comp c).out n
  (g.setComp sc.inh (toks.foldl (fun a t => if n ≠ t ∧ t ∉ direct then a.addEdge n t else a) (g.comp sc.inh)), toks)

/-- The comparison of two tokens by the order component (model.rs 366-376). -/
def orderCmp (gs : Adj NodeID64 S V) (a b : NodeID64) : Option Ordering :=
  if a = b then some .eq
  else
    match gs.isConnected a b 1 .unbounded with
    | none => none
    | some true => some .lt
    | some false =>
      match gs.isConnected b a 1 .unbounded with
      | none => none
      | some true => some .gt
      | some false => some .eq

/-- `calculate_token_alignment` (model.rs 334-395); `right` selects the type. -/
def align (sc : Schema C) (tok : AnnoKey S) (ch : Choices) (g : Graph S V C) (order : Adj NodeID64 S V) (n : NodeID64)
    (right : Bool) (toks : List NodeID64) : Option (Graph S V C) :=
  let c := if right then sc.right else sc.left
  if (g.annos.getValue n tok).isSome && toks.isEmpty then some g
  else if !((g.comp c).out n).isEmpty then some g
  else do
    let sorted ← sortAll (orderCmp order) ch.fuel (ch.pivots n (sc.kind c)) (ch.iter toks)
    match (if right then sorted.getLast? else sorted.head?) with
    | some t => some (g.setComp c ((g.comp c).addEdge n t))
    | none => some g

/-- The loop body of `reindex_inherited_coverage` (model.rs 307-329). -/
def reindexNode (sc : Schema C) (tok : AnnoKey S) (ch : Choices) (cov text : List C) (order : Adj NodeID64 S V)
    (g : Graph S V C) (n : NodeID64) : Option (Graph S V C) := do
  let r := inherit sc tok g cov text n
  let g ← align sc tok ch r.1 order n false r.2
  align sc tok ch g order n true r.2

/-- `reindex_inherited_coverage` (model.rs 277-332). -/
def reindex (sc : Schema C) (tok : AnnoKey S) (ch : Choices) (x : IndexState V C) (g : Graph S V C) : Option (Graph S V C) :=
  let g := clear sc x g
  let cov := covComps sc g
  x.invalid.keys.foldlM (reindexNode sc tok ch cov (cov ++ g.compsOf sc .dominance) (g.comp sc.order)) g

/-- In a graph that was empty all nodes with a type are marked (model.rs 564-578). -/
def markAll (tk : AnnoKey S) (x : IndexState V C) (g : Graph S V C) : IndexState V C :=
  { x with invalid := (g.annos.exactSearch (some tk.ns) tk.name .any).foldl (fun m p => m.insert p.1 true) x.invalid }

/-- `apply_update_graph_index` (model.rs 560-601); `tk` is the key of the node type. -/
def apply (sc : Schema C) (tk tok : AnnoKey S) (ch : Choices) (x : IndexState V C) (g : Graph S V C) : Option (Graph S V C) :=
  reindex sc tok ch (if x.empty then markAll tk x g else x) g

/-- `apply_update_in_memory` (core/src/graph/mod.rs 397-647) with the index. -/
def update (sc : Schema C) (nk tk tok : AnnoKey S) (cap : Nat) (ch : Choices) (g : Graph S V C) (u : List (Nat × Event S V C)) :
    Option (Graph S V C) := do
  let (g', x) ← loop sc nk tk cap g.comps.keys g [] (init sc g) u
  apply sc tk tok ch x g'

end Index

end Graph
