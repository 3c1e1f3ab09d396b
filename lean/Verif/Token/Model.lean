import Verif.Op.Text
import Verif.Sort.Model

/-!
# The search for all tokens

`graphannis/src/annis/db/exec/tokensearch.rs` and `calculate_global_statistics` (graphannis/src/annis/db/aql/model.rs 623-683).

`none` is an error of a storage or of the sort.  Simplified: in the code an error is an item of the output.
-/

/-- The storage of the component `Ordering/annis/` with the methods that only the token search uses: `has_ingoing_edges` and
`root_nodes` (core/src/graph/storage/mod.rs 100-134). -/
structure OrderStore (N : Type) where
  g : GStore N
  hasIn : N → Option Bool
  roots : Option (List N)

namespace TokenSearch

variable {N : Type}

/-- Loop body for one node with the annotation `annis:tok` (aql/model.rs 645-656); `&&` binds stronger than `||` in line
650-652. -/
def statStep (o : OrderStore N) (cov : List (GStore N)) (acc : Bool) (n : N) : Option Bool :=
  match TokenHelper.hasCov n cov with
  | none => none
  | some true => some acc
  | some false =>
    match acc, o.g.hasOut n with
    | true, none => none
    | true, some true => some true
    | _, _ => o.hasIn n

/-- `all_token_in_order_component` of `calculate_global_statistics` (aql/model.rs 636-658); `toks` are the nodes with the annotation
`annis:tok` in the order of the search. -/
def statistic (order : Option (OrderStore N)) (cov : List (GStore N)) (toks : List N) : Option Bool :=
  match order with
  | none => some false
  | some o => toks.foldlM (statStep o cov) true

/-- `is_root_tok` (tokensearch.rs 66-83). `cov` is missing if there is no token helper. -/
def isRootTok (order : Option (OrderStore N)) (cov : Option (List (GStore N))) (n : N) : Option Bool :=
  match (match order with | some o => o.hasIn n | none => some false) with
  | none => none
  | some true => some false
  | some false =>
    match cov with
    | some cov => (TokenHelper.hasCov n cov).map fun b => !b
    | none => some true

/-- The root tokens before sorting (tokensearch.rs 88-124). -/
def rootTokens (order : Option (OrderStore N)) (cov : Option (List (GStore N))) (stat : Bool) (toks : List N) : Option (List N) :=
  match order, stat with
  | some o, true => o.roots
  | order, _ => flatMapOpt (fun n => (isRootTok order cov n).map fun b => if b then [n] else []) toks

/-- The nodes reached from a root token (tokensearch.rs 142-149). -/
def rootIterator (order : Option (OrderStore N)) (r : N) : Option (List N) :=
  match order with
  | some o => o.g.findConnected r 0 .unbounded
  | none => some [r]

/-- All results of `AnyTokenSearch` (tokensearch.rs 85-153, 189-209).  The roots are sorted with the operands of the comparison
exchanged and the iterators are used from the end of the vector. -/
def search (order : Option (OrderStore N)) (cov : Option (List (GStore N))) (stat : Bool) (toks : List N)
    (cmp : N → N → Option Ordering) (fuel : Nat) (rs : List (Nat × Nat × Nat)) : Option (List N) := do
  let roots ← rootTokens order cov stat toks
  let sorted ← sortAll (fun a b => cmp b a) fuel rs roots
  flatMapOpt (rootIterator order) sorted.reverse

end TokenSearch
