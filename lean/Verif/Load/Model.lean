import Verif.NodeSearch.Model
import Verif.Text.Model
import Verif.Util.OMap

/-!
# Loading the components that a query needs

`ensure_loaded_parallel`, `ensure_loaded_all`, `get_graphstorage` (core/src/graph/mod.rs 900-979, 1056-1071), `prepare_query`
(graphannis/src/annis/db/corpusstorage.rs 1437-1489), `necessary_components` of node searches, operators, conjunctions and disjunctions
(graphannis/src/annis/db/), and all places where planning or executing a query takes graph storages out of the graph.

A storage is a value of an arbitrary type; of its statistics only the number of nodes is visible here.  The node annotations are loaded with
the corpus and never change by loading components, so they are left out.  Strings are any linear order with the empty string as smallest
element, as in C31.
-/

namespace Load

open AnnotationComponentType

variable {S σ E P N V : Type} [LinearOrder S] [OrderBot S]

/-- `Graph::components` (core/src/graph/mod.rs 181): `some none` is a known component that is not loaded. -/
abbrev Comps (S σ : Type) := OMap (CKey S) (Option σ)

/-- `ANNIS_NS` and `DEFAULT_NS` (core/src/graph/mod.rs 27-28). -/
structure Names (S : Type) where
  annis : S
  dflt : S

/-- `Component::new` (core/src/types.rs 215-222) as a key. -/
def comp (t : AnnotationComponentType) (layer name : S) : CKey S := toLex (t.toU16, toLex (name, layer))

/-- `get_graphstorage` and `get_graphstorage_as_ref` (core/src/graph/mod.rs 1056-1071). -/
def getGs (g : Comps S σ) (c : CKey S) : Option σ :=
  match OMap.get g c with
  | some (some s) => some s
  | _ => none

/-- `get_all_components` on the keys of the map (core/src/graph/mod.rs 1086-1132; C31). -/
def allComps (g : Comps S σ) (t : Option AnnotationComponentType) (name : Option S) : List (CKey S) :=
  getAllComponents toU16 ofU16 (OMap.keys g) t name

/-! ### Loading -/

/-- The second loop of `ensure_loaded_parallel` (core/src/graph/mod.rs 972-978): an error ends the loop, what was inserted before stays. -/
def insertLoaded (g : Comps S σ) : List (CKey S × Except E σ) → Comps S σ × Except E (List (CKey S))
  | [] => (g, .ok [])
  | (_, .error e) :: _ => (g, .error e)
  | (c, .ok s) :: r =>
    match insertLoaded (OMap.insert g c (some s)) r with
    | (g', .ok l) => (g', .ok (c :: l))
    | (g', .error e) => (g', .error e)

/-- `ensure_loaded_parallel` (core/src/graph/mod.rs 938-979); `disk c` is the outcome of reading the files of the component. -/
def ensureLoaded (disk : CKey S → Except E σ) (g : Comps S σ) (cs : List (CKey S)) : Comps S σ × Except E (List (CKey S)) :=
  insertLoaded g ((cs.filter fun c => match OMap.get g c with
    | some none => true
    | _ => false).map fun c => (c, disk c))

/-- `ensure_loaded_all` (core/src/graph/mod.rs 900-912). -/
def ensureLoadedAll (disk : CKey S → Except E σ) (g : Comps S σ) : Comps S σ × Except E (List (CKey S)) :=
  ensureLoaded disk g ((g.filter fun e => e.2.isNone).map Prod.fst)

/-! ### Specifications of a query, with everything that is not a component as one value of type `P` -/

/-- The specifications of binary operators (graphannis/src/annis/db/aql/operators/). -/
inductive BinSpec (S P : Type)
  | dominance (name : S) (p : P)
  | pointing (name : S) (p : P)
  | partOf (p : P)
  | precedence (seg : Option S) (p : P)
  | near (seg : Option S) (p : P)
  | inclusion
  | overlap (reflexive : Bool)
  | identCov
  | leftAlign
  | rightAlign
  | equalValue (p : P)
  | identNode
  | negated (op : BinSpec S P)

/-- The specifications of unary operators (aql/operators/arity.rs, non_existing.rs). -/
inductive UnSpec (S P N V : Type)
  | arity (p : P)
  | nonExisting (op : BinSpec S P) (target : NsSpec N V) (targetLeft : Bool)

/-- What `necessary_components` and the execution use of a conjunction (aql/conjunction.rs 92-104). -/
structure Conj (S P N V : Type) where
  nodes : List (NsSpec N V)
  unary : List (UnSpec S P N V)
  binary : List (BinSpec S P)

/-! ### Necessary components.  Sets are lists, nothing depends on their order. -/

section
variable (nm : Names S)

/-- `COMPONENT_LEFT` (token_helper.rs 25-32). -/
def leftComp : CKey S := comp .leftToken nm.annis ⊥
/-- `COMPONENT_RIGHT` (token_helper.rs 33-39). -/
def rightComp : CKey S := comp .rightToken nm.annis ⊥
/-- `COMPONENT_ORDER` (tokensearch.rs 35-43 and the operators). -/
def orderComp : CKey S := comp .ordering nm.annis ⊥

/-- `token_helper::necessary_components` (token_helper.rs 42-50). -/
def helperNeeds (g : Comps S σ) : List (CKey S) := leftComp nm :: rightComp nm :: allComps g (some .coverage) none

/-- `component_order` of `.` and `^` (precedence.rs 52-62, near.rs 41-53): layer `annis`, or `default_ns` for a segmentation. -/
def segOrder : Option S → CKey S
  | none => comp .ordering nm.annis ⊥
  | some s => comp .ordering nm.dflt s

/-- `NodeSearchSpec::necessary_components` (nodesearch.rs 91-110) and `AnyTokenSearch::necessary_components` (tokensearch.rs 61-67). -/
def nodeNeeds (g : Comps S σ) : NsSpec N V → List (CKey S)
  | .anyToken => orderComp nm :: helperNeeds nm g
  | .exactTok _ true => allComps g (some .coverage) none
  | .regexTok _ true => allComps g (some .coverage) none
  | .notExactTok _ => allComps g (some .coverage) none
  | .notRegexTok _ => allComps g (some .coverage) none
  | _ => []

/-- `BinaryOperatorSpec::necessary_components` (edge_op.rs 620-627, 667-674, 713-724; precedence.rs 51-69; near.rs 37-58; inclusion.rs,
overlap.rs, identical_cov.rs, leftalignment.rs, rightalignment.rs, equal_value.rs, identical_node.rs, negated_op.rs). -/
def binNeeds (g : Comps S σ) : BinSpec S P → List (CKey S)
  | .dominance n _ => allComps g (some .dominance) (some n)
  | .pointing n _ => allComps g (some .pointing) (some n)
  | .partOf _ => [comp .partOf nm.annis ⊥]
  | .precedence seg _ => segOrder nm seg :: leftComp nm :: rightComp nm :: helperNeeds nm g
  | .near seg _ => segOrder nm seg :: helperNeeds nm g
  | .inclusion => orderComp nm :: helperNeeds nm g
  | .overlap _ => orderComp nm :: helperNeeds nm g
  | .identCov => leftComp nm :: orderComp nm :: helperNeeds nm g
  | .leftAlign => helperNeeds nm g
  | .rightAlign => helperNeeds nm g
  | .equalValue _ => []
  | .identNode => []
  | .negated op => binNeeds g op

/-- `UnaryOperatorSpec::necessary_components` (arity.rs 24-32; non_existing.rs 73-84).  The subquery of an operator with an optional operand
has a search for the name of a node, which needs nothing, the target and the operator; making it cannot fail because both of its
variables were just added. -/
def unNeeds (g : Comps S σ) : UnSpec S P N V → List (CKey S)
  | .arity _ => allComps g (some .dominance) none ++ allComps g (some .pointing) none
  | .nonExisting op target _ => binNeeds nm g op ++ nodeNeeds nm g target

/-- `Conjunction::necessary_components` (aql/conjunction.rs 424-443). -/
def conjNeeds (g : Comps S σ) (q : Conj S P N V) : List (CKey S) :=
  q.unary.flatMap (unNeeds nm g) ++ q.binary.flatMap (binNeeds nm g) ++ q.nodes.flatMap (nodeNeeds nm g)

/-- `Disjunction::necessary_components` (aql/disjunction.rs 16-27). -/
def queryNeeds (g : Comps S σ) (q : List (Conj S P N V)) : List (CKey S) := q.flatMap (conjNeeds nm g)

/-- What a query is run for. -/
inductive Purpose
  /-- `count`, `plan`, `validate_query` and `frequency` (corpusstorage.rs 1545, 1575, 1597, 2288). -/
  | count
  /-- `count_extra` (1619-1685). -/
  | countExtra
  /-- `find` (1848-1869); `sorted` for `ResultOrder::Normal` and `Inverted`. -/
  | find (sorted : Bool)
  /-- `subgraph_for_query` (2120-2147). -/
  | subgraph (filter : Option AnnotationComponentType)

/-- The callback for additional components (corpusstorage.rs 1634-1636, 1855-1869, 2127-2129). -/
def additional (g : Comps S σ) : Purpose → List (CKey S)
  | .count => []
  | .countExtra => allComps g (some .partOf) none
  | .find sorted => orderComp nm :: if sorted then helperNeeds nm g else []
  | .subgraph t => allComps g t none

/-- `missing_components` of `prepare_query` (corpusstorage.rs 1458-1474): only the loaded ones of the query itself are removed. -/
def missing (g : Comps S σ) (q : List (Conj S P N V)) (p : Purpose) : List (CKey S) :=
  (queryNeeds nm g q ++ additional nm g p).filter fun c => !(decide (c ∈ queryNeeds nm g q) && (getGs g c).isSome)

/-- The state of a corpus after `prepare_query` (corpusstorage.rs 1447-1488), or the error.  `ord` is the iteration order of the hash set. -/
def prepare (disk : CKey S → Except E σ) (ord : List (CKey S) → List (CKey S)) (g : Comps S σ) (q : List (Conj S P N V)) (p : Purpose) :
    Comps S σ × Except E (List (CKey S)) :=
  ensureLoaded disk g (ord (missing nm g q p))

/-! ### The storages that planning and execution take out of the graph -/

/-- `TokenHelper` (token_helper.rs 17-23). -/
structure Helper (σ : Type) where
  left : σ
  right : σ
  cov : List σ

/-- The error for a component that is not available (`MissingComponent` and `ImpossibleSearch`). -/
inductive Err (S : Type)
  | missing (c : CKey S)

variable (nodes : σ → Option Nat)

/-- The loaded coverage storages with nodes (token_helper.rs 54-65, nodesearch.rs 355-367, 838-849, 941-952). -/
def covGs (g : Comps S σ) : List σ :=
  ((allComps g (some .coverage) none).filterMap (getGs g)).filter fun s =>
    match nodes s with
    | some n => n > 0
    | none => true

/-- `get_graphstorage(..).ok_or_else(..)?`. -/
def need (g : Comps S σ) (c : CKey S) : Except (Err S) σ :=
  match getGs g c with
  | some s => .ok s
  | none => .error (.missing c)

/-- `TokenHelper::new` (token_helper.rs 53-80). -/
def newHelper (g : Comps S σ) : Except (Err S) (Helper σ) := do
  let l ← need g (leftComp nm)
  let r ← need g (rightComp nm)
  return ⟨l, r, covGs nodes g⟩

/-- The storages of a node search: for the filter of tokens without coverage edges, and of the search for all tokens. -/
structure NodeInst (σ : Type) where
  leafs : List σ
  order : Option σ
  helper : Option (Helper σ)

/-- `NodeSearch::from_spec` and `get_value_filter` (nodesearch.rs 136-290, 379-563, 786-990), `AnyTokenSearch::new` (tokensearch.rs
46-59) and line 125 there. -/
def nodeInst (g : Comps S σ) : NsSpec N V → NodeInst σ
  | .anyToken => ⟨covGs nodes g, getGs g (orderComp nm), (newHelper nm nodes g).toOption⟩
  | .exactTok _ true => ⟨covGs nodes g, none, none⟩
  | .regexTok _ true => ⟨covGs nodes g, none, none⟩
  | .notExactTok _ => ⟨covGs nodes g, none, none⟩
  | .notRegexTok _ => ⟨covGs nodes g, none, none⟩
  | _ => ⟨[], none, none⟩

/-- The storages of a binary operator. -/
structure OpInst (σ : Type) where
  edges : List σ
  order : Option σ
  left : Option σ
  right : Option σ
  helper : Option (Helper σ)

/-- `create_operator` of the operators (edge_op.rs 38-56, 629-650, 676-699, 726-760; precedence.rs 108-149; near.rs 91-118; inclusion.rs,
overlap.rs, identical_cov.rs, leftalignment.rs, rightalignment.rs, equal_value.rs, identical_node.rs, negated_op.rs). -/
def createOp (g : Comps S σ) : BinSpec S P → Except (Err S) (OpInst σ)
  | .dominance n _ => do
    let gs ← (allComps g (some .dominance) (some n)).mapM (need g)
    return ⟨gs, none, none, none, none⟩
  | .pointing n _ => do
    let gs ← (allComps g (some .pointing) (some n)).mapM (need g)
    return ⟨gs, none, none, none, none⟩
  | .partOf _ => do
    let gs ← [comp .partOf nm.annis ⊥].mapM (need g)
    return ⟨gs, none, none, none, none⟩
  | .precedence seg _ => do
    let o ← need g (segOrder nm seg)
    let l ← need g (leftComp nm)
    let r ← need g (rightComp nm)
    let h ← newHelper nm nodes g
    return ⟨[], some o, some l, some r, some h⟩
  | .near seg _ => do
    let o ← need g (segOrder nm seg)
    let h ← newHelper nm nodes g
    return ⟨[], some o, none, none, some h⟩
  | .inclusion => do
    let o ← need g (orderComp nm)
    let h ← newHelper nm nodes g
    return ⟨[], some o, none, none, some h⟩
  | .overlap _ => do
    let o ← need g (orderComp nm)
    let h ← newHelper nm nodes g
    return ⟨[], some o, none, none, some h⟩
  | .identCov => do
    let l ← need g (leftComp nm)
    let o ← need g (orderComp nm)
    let h ← newHelper nm nodes g
    return ⟨[], some o, some l, none, some h⟩
  | .leftAlign => do
    let h ← newHelper nm nodes g
    return ⟨[], none, none, none, some h⟩
  | .rightAlign => do
    let h ← newHelper nm nodes g
    return ⟨[], none, none, none, some h⟩
  | .equalValue _ => return ⟨[], none, none, none, none⟩
  | .identNode => return ⟨[], none, none, none, none⟩
  | .negated op => createOp g op

/-- The helper that `get_inverse_operator` makes again from the graph (near.rs 185-195, precedence.rs 192-210, overlap.rs, identical_cov.rs,
leftalignment.rs, rightalignment.rs); all its other storages are those of the operator. -/
def inverseHelper (g : Comps S σ) : BinSpec S P → Option (Except (Err S) (Helper σ))
  | .precedence _ _ => some (newHelper nm nodes g)
  | .near _ _ => some (newHelper nm nodes g)
  | .overlap _ => some (newHelper nm nodes g)
  | .identCov => some (newHelper nm nodes g)
  | .leftAlign => some (newHelper nm nodes g)
  | .rightAlign => some (newHelper nm nodes g)
  | _ => none

/-- The storages of a unary operator: of `ArityOperator` (arity.rs 34-55), or of `NonExistingUnaryOperatorSpec::create_operator` with the
filters and the search of the target, which are made from the graph for every candidate (non_existing.rs 86-126, 160-166, 221-228). -/
inductive UnInst (S σ : Type)
  | arity (gs : List σ)
  | nonExisting (op : Except (Err S) (OpInst σ)) (inverse : Option (Except (Err S) (Helper σ))) (target : NodeInst σ)

/-- `UnaryOperatorSpec::create_operator` (arity.rs 34-55; non_existing.rs 86-126). -/
def createUn (g : Comps S σ) : UnSpec S P N V → UnInst S σ
  | .arity _ => .arity ((allComps g (some .dominance) none).filterMap (getGs g) ++ (allComps g (some .pointing) none).filterMap (getGs g))
  | .nonExisting op target _ => .nonExisting (createOp nm nodes g op) (inverseHelper nm nodes g op) (nodeInst nm nodes g target)

/-- All storages of a conjunction: of the nodes, of the unary and of the binary operators with their inverse (aql/conjunction.rs 616-900),
and those of the components of a binary operator that may replace a node search (551-614; nodesearch.rs 995-1030). -/
structure ConjInst (S σ : Type) where
  nodes : List (NodeInst σ)
  unary : List (UnInst S σ)
  binary : List (Except (Err S) (OpInst σ) × Option (Except (Err S) (Helper σ)) × List (CKey S × Option σ))

/-- The storages taken by `Conjunction::make_exec_plan_with_order` (aql/conjunction.rs 551-900). -/
def conjInst (g : Comps S σ) (q : Conj S P N V) : ConjInst S σ :=
  { nodes := q.nodes.map (nodeInst nm nodes g)
    unary := q.unary.map (createUn nm nodes g)
    binary := q.binary.map fun op =>
      (createOp nm nodes g op, inverseHelper nm nodes g op, (binNeeds nm g op).map fun c => (c, getGs g c)) }

/-- What a purpose takes out of the graph besides the query: `count_extra` (corpusstorage.rs 1647-1655), sorting (1770-1783), and
`create_subgraph_for_iterator` with `create_subgraph_edge` (corpusstorage/subgraph.rs 473-492, 531, 556-571). -/
structure ExtraInst (S σ : Type) where
  order : Option σ
  helper : Option (Helper σ)
  comps : List (CKey S × Option σ)

/-- The storages taken by `count_extra`, `find` and `subgraph_for_query` (corpusstorage.rs 1647-1655, 1770-1783;
corpusstorage/subgraph.rs 473-492, 531, 556-571). -/
def extraInst (g : Comps S σ) : Purpose → ExtraInst S σ
  | .count => ⟨none, none, []⟩
  | .countExtra => ⟨none, none, (allComps g (some .partOf) none).map fun c => (c, getGs g c)⟩
  | .find sorted => if sorted then ⟨getGs g (orderComp nm), (newHelper nm nodes g).toOption, []⟩ else ⟨none, none, []⟩
  | .subgraph t =>
    ⟨getGs g (orderComp nm), (newHelper nm nodes g).toOption, (allComps g t none).map fun c => (c, getGs g c)⟩

/-- The answer to a query.  Everything but the choice of storages is an arbitrary function `ev`: planning, execution, sorting and output. -/
def answer {R : Type} (ev : List (ConjInst S σ) → ExtraInst S σ → R) (g : Comps S σ) (q : List (Conj S P N V)) (p : Purpose) : R :=
  ev (q.map (conjInst nm nodes g)) (extraInst nm nodes g p)

/-- `execute_query_on_graph` (aql/mod.rs 64-104): an error unless all components are loaded. -/
def executeOnGraph {R : Type} (ev : List (ConjInst S σ) → ExtraInst S σ → R) (g : Comps S σ) (q : List (Conj S P N V)) : Option R :=
  if (allComps g none none).all fun c => (getGs g c).isSome then some (answer nm nodes ev g q .count) else none

end

end Load
