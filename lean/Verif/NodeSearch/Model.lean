import Verif.Anno.Props
import Verif.Query.PlanOrder
import Verif.Token.Props

/-!
# Searches for annotated nodes

`graphannis/src/annis/db/exec/nodesearch.rs`, `optimize_node_search_by_operator` (graphannis/src/annis/db/aql/conjunction.rs 551-614) and
the operators for optional operands (aql/operators/non_existing.rs).

Left out: estimates of result sizes (arguments here), timeouts, descriptions for output, and errors of the annotation storage (the
storage in memory gives none).
-/

/-- Names and regular expressions as the searches use them: `ANNIS_NS`, the names of `TOKEN_KEY` and `NODE_TYPE_KEY`, the value "node",
`regex::Regex::new(&regex_full_match(p))` and `exact_value_for_regex` (graphannis/src/annis/util/mod.rs; see C57). -/
structure NsEnv (N V : Type) where
  annis : N
  tok : N
  nodeType : N
  nodeVal : V
  compile : V → Option (V → Bool)
  exact : V → Option V

/-- `NodeSearchSpec` (nodesearch.rs 47-88). -/
inductive NsSpec (N V : Type)
  | exact (ns : Option N) (name : N) (val : Option V) (isMeta : Bool)
  | notExact (ns : Option N) (name : N) (val : V) (isMeta : Bool)
  | regex (ns : Option N) (name : N) (val : V) (isMeta : Bool)
  | notRegex (ns : Option N) (name : N) (val : V) (isMeta : Bool)
  | exactTok (val : V) (leafsOnly : Bool)
  | notExactTok (val : V)
  | regexTok (val : V) (leafsOnly : Bool)
  | notRegexTok (val : V)
  | anyToken
  | anyNode

/-- What the searches use of a graph: node annotations, the loaded coverage components with the number of nodes of their statistics, and
the result of iterating `AnyTokenSearch` (`TokenSearch.search`; `none` is an error). -/
structure NsGraph (T N V : Type) where
  annos : AnnoStore T N V
  coverage : List (GStore T × Option Nat)
  anyTokens : Option (List T)

namespace NodeSearch

variable {T N V E : Type} [LinearOrder T] [LinearOrder N] [OrderBot N] [LinearOrder V]

/-- `TOKEN_KEY` and `NODE_TYPE_KEY`. -/
def tokKey (env : NsEnv N V) : AnnoKey N := AnnoKey.mk env.annis env.tok
def typeKey (env : NsEnv N V) : AnnoKey N := AnnoKey.mk env.annis env.nodeType

/-- `get_anno_qname` (nodesearch.rs 113-133). The name is never missing. -/
def qname (env : NsEnv N V) : NsSpec N V → Option N × N
  | .exact ns name _ _ => (ns, name)
  | .notExact ns name _ _ => (ns, name)
  | .regex ns name _ _ => (ns, name)
  | .notRegex ns name _ _ => (ns, name)
  | .exactTok _ _ => (some env.annis, env.tok)
  | .notExactTok _ => (some env.annis, env.tok)
  | .regexTok _ _ => (some env.annis, env.tok)
  | .notRegexTok _ => (some env.annis, env.tok)
  | .anyToken => (some env.annis, env.tok)
  | .anyNode => (some env.annis, env.nodeType)

/-- The coverage components that are asked (nodesearch.rs 356-367, 842-854). -/
def covStores (g : NsGraph T N V) : List (GStore T) :=
  (g.coverage.filter fun c => match c.2 with
    | some nodes => nodes > 0
    | none => true).map Prod.fst

/-- `create_token_leaf_filter` (nodesearch.rs 355-378) and the filter of `new_tokensearch` (856-863); an error item also counts as an edge. -/
def isLeaf (g : NsGraph T N V) (n : T) : Bool :=
  (covStores g).all fun c => match c.out n with
    | some l => l.isEmpty
    | none => false

/-- A filter of `get_value_filter` on the value of the annotation: `false` if there is none. -/
def valueFilter (g : NsGraph T N V) (p : V → Bool) (m : SMatch T (AnnoKey N)) : Except (Fail E) Bool :=
  match g.annos.getValue m.node m.key with
  | some v => .ok (p v)
  | none => .ok false

/-- The leaf filter as a filter function. -/
def leafFilter (g : NsGraph T N V) (m : SMatch T (AnnoKey N)) : Except (Fail E) Bool := .ok (isLeaf g m.node)

/-- `get_value_filter` (nodesearch.rs 136-295); `none` is the error for a pattern that does not compile. -/
def valueFilters (env : NsEnv N V) (g : NsGraph T N V) : NsSpec N V → Option (List (SMatch T (AnnoKey N) → Except (Fail E) Bool))
  | .exact _ _ (some v) _ => some [valueFilter g fun w => w = v]
  | .exact _ _ none _ => some []
  | .notExact _ _ v _ => some [valueFilter g fun w => w ≠ v]
  | .regex _ _ p _ => (env.compile p).map fun f => [valueFilter g f]
  | .notRegex _ _ p _ => (env.compile p).map fun f => [valueFilter g fun w => !f w]
  | .exactTok v leafs => some (valueFilter g (fun w => w = v) :: if leafs then [leafFilter g] else [])
  | .notExactTok v => some [valueFilter g fun w => w ≠ v, leafFilter g]
  | .regexTok p leafs => (env.compile p).map fun f => valueFilter g f :: if leafs then [leafFilter g] else []
  | .notRegexTok p => (env.compile p).map fun f => [valueFilter g fun w => !f w, leafFilter g]
  | .anyToken => some [leafFilter g]
  | .anyNode => some [valueFilter g fun w => w = env.nodeVal]

/-- The filter of `new_anytoken_search` (nodesearch.rs 955-963): like the leaf filter, but errors are passed on. -/
def anyTokenFilter (stores : List (GStore T)) (m : SMatch T (AnnoKey N)) : Except (Fail E) Bool :=
  match stores with
  | [] => .ok true
  | c :: r =>
    match c.out m.node with
    | none => .error .panic
    | some [] => anyTokenFilter r m
    | some (_ :: _) => .ok false

/-- The keys of a node for the qualified name, as `get_keys_for_iterator` gives them for each node (see `keysForIterator_eq`). -/
def keysOf (g : NsGraph T N V) (q : Option N × N) (n : T) : List (AnnoKey N) :=
  (g.annos.keysForIterator q.1 (some q.2) [n]).map Prod.snd

/-- itertools' `unique_by` with the match itself as the key. -/
def uniq {A : Type} [DecidableEq A] (l : List A) : List A := l.foldl (fun acc a => if a ∈ acc then acc else acc ++ [a]) []

/-- The part of `new_annosearch_exact` and `new_annosearch_regex` after the search in the storage (nodesearch.rs 573-621, 692-735). -/
def annoOutput (env : NsEnv N V) (g : NsGraph T N V) (name : N) (isMeta : Bool) (base : List (T × AnnoKey N)) :
    List (SMatch T (AnnoKey N)) :=
  if isMeta then
    if (g.annos.qnames name).length ≤ 1 then base.map fun m => ⟨m.1, typeKey env⟩
    else (uniq base).map fun m => ⟨m.1, typeKey env⟩
  else base.map fun m => ⟨m.1, m.2⟩

/-- `const_output` of the description. -/
def constOutput (env : NsEnv N V) : NsSpec N V → Option (AnnoKey N)
  | .exact _ _ _ m => if m then some (typeKey env) else none
  | .notExact _ _ _ m => if m then some (typeKey env) else none
  | .regex _ _ _ m => if m then some (typeKey env) else none
  | .notRegex _ _ _ m => if m then some (typeKey env) else none
  | _ => some (typeKey env)

/-- The search of `new_tokensearch` (nodesearch.rs 786-875) after the search in the storage. -/
def tokenSearch (env : NsEnv N V) (g : NsGraph T N V) (base : List (T × AnnoKey N)) (leafs : Bool) : List (SMatch T (AnnoKey N)) :=
  (if leafs then base.filter fun m => isLeaf g m.1 else base).map fun m => ⟨m.1, typeKey env⟩

/-- `ValueSearch::from(Option)` (core/src/annostorage/mod.rs 141-148). -/
def optSearch : Option V → ValueSearch V
  | some v => .some v
  | none => .any

/-- The items a node search gives (nodesearch.rs 381-563); `none` is an error of the search for all tokens. -/
def items (env : NsEnv N V) (g : NsGraph T N V) : NsSpec N V → Option (List (SMatch T (AnnoKey N)))
  | .exact ns name v m => some (annoOutput env g name m (g.annos.exactSearch ns name (optSearch v)))
  | .notExact ns name v m => some (annoOutput env g name m (g.annos.exactSearch ns name (.notSome v)))
  | .regex ns name p m =>
    match env.exact p with
    | some v => some (annoOutput env g name m (g.annos.exactSearch ns name (.some v)))
    | none => some (annoOutput env g name m (g.annos.regexSearch ns name (env.compile p) false))
  | .notRegex ns name p m =>
    match env.exact p with
    | some v => some (annoOutput env g name m (g.annos.exactSearch ns name (.notSome v)))
    | none => some (annoOutput env g name m (g.annos.regexSearch ns name (env.compile p) true))
  | .exactTok v leafs => some (tokenSearch env g (g.annos.exactSearch (some env.annis) env.tok (.some v)) leafs)
  | .notExactTok v => some (tokenSearch env g (g.annos.exactSearch (some env.annis) env.tok (.notSome v)) true)
  | .regexTok p leafs => some (tokenSearch env g (g.annos.regexSearch (some env.annis) env.tok (env.compile p) false) leafs)
  | .notRegexTok p => some (tokenSearch env g (g.annos.regexSearch (some env.annis) env.tok (env.compile p) true) true)
  | .anyToken => g.anyTokens.map fun l => l.map fun n => ⟨n, typeKey env⟩
  | .anyNode => some ((g.annos.exactSearch (some env.annis) env.nodeType (.some env.nodeVal)).map fun m => ⟨m.1, m.2⟩)

/-- `NodeSearchDesc` of a search (nodesearch.rs 550-557, 673-677, 776-780, 924-928, 979-983), with the filters of `from_spec`. -/
def descOf (env : NsEnv N V) (g : NsGraph T N V) (spec : NsSpec N V) (filters : List (SMatch T (AnnoKey N) → Except (Fail E) Bool)) :
    NsDesc T (AnnoKey N) E where
  keys := keysOf g (qname env spec)
  cond := match spec with
    | .anyToken => [anyTokenFilter (covStores g)]
    | _ => filters
  constOutput := constOutput env spec

/-- The two ways a search can fail: a pattern that does not compile, or an error of the search for all tokens. -/
inductive NsError | regex | tokens
deriving DecidableEq

/-- `NodeSearch::from_spec` (nodesearch.rs 381-563): the items of the search and its description. -/
def fromSpec (env : NsEnv N V) (g : NsGraph T N V) (spec : NsSpec N V) :
    Except NsError (List (SMatch T (AnnoKey N)) × NsDesc T (AnnoKey N) E) :=
  match valueFilters (E := E) env g spec with
  | none => .error .regex
  | some filters =>
    match items env g spec with
    | none => .error .tokens
    | some l => .ok (l, descOf env g spec filters)

end NodeSearch
