import Verif.Answer.Find
import Verif.Subgraph.Props

/-!
# Graphs for queries: `subgraph_for_query`, `subcorpus_graph` and `corpus_graph`

`graphannis/src/annis/db/corpusstorage.rs` 2114-2265 and 2719-2745. The results of the query (C101) are given to the extraction of a
subgraph (C55). Left out: loading of the corpus, time outs (there are none for these functions), and errors about the semantics of the
query (`Refused`), which end the function.
-/

namespace Answer

open Whole

/-- The items of an iterator up to the end, or nothing if there is an error (`r?`, subgraph.rs 492). -/
def allOk {A F : Type} : List (Except F A) → Option (List A)
  | [] => some []
  | .ok a :: r => (allOk r).map (a :: ·)
  | .error _ :: _ => none

/-- `get_all_components(component_type_filter, None)` (subgraph.rs 525, core/src/graph/mod.rs 1086-1132; C31): the components whose edges are
copied. -/
def onlyType {T : Type} (ty : Option CKind) (src : Subgraph.Src T Str Str) : Subgraph.Src T Str Str :=
  { src with comps := src.comps.filter fun c => ty.all fun t => decide (c.1.ty = t) }

/-- What the extraction reads of the corpus: labels and components, the token helper if it could be created, and the ordering component if
it is loaded (subgraph.rs 476-486). -/
structure Orig (T : Type) where
  src : Subgraph.Src T Str Str
  th : Option (TokenHelper T)
  ord : Option (GStore T)

section
variable {T E : Type} [LinearOrder T] (c : Corpus T) (o : Orig T) (d : SMatch T (AnnoKey Str))

/-- `create_subgraph_for_iterator` (subgraph.rs 461-533) for the items of a plan. -/
def extractRows (idx : List Nat) (ty : Option CKind) (out : List (Except (Fail E) (Row T (AnnoKey Str)))) : Option (Subgraph.Sub T Str Str) :=
  match allOk out with
  | none => none
  | some rows => Subgraph.create (onlyType ty o.src) o.th o.ord idx (rows.map fun row => row.map fun m => (m.node, m.key))

/-- `extract_subgraph_by_query` (corpusstorage.rs 2719-2745). -/
inductive Extracted (qs : List QConj) (idx : List Nat) (ty : Option CKind) : Option (Subgraph.Sub T Str Str) → Prop
  | mk {alts} {out : List (Except (Fail E) (Row T (AnnoKey Str)))} : List.Forall₂ (AltRows c.env c.g c.db c.th c.order d) qs alts →
      Output (alts.filterMap id) out → Extracted qs idx ty (extractRows o idx ty out)

/-- The largest number of nodes of an alternative (corpusstorage.rs 2132-2135). -/
def maxNodes : List QConj → Nat
  | [] => 0
  | q :: r => max q.nodes.length (maxNodes r)

/-- `subgraph_for_query` (corpusstorage.rs 2120-2147). -/
inductive SubgraphForQuery (doc : NsSpec Str Str) (text : Str) (ty : Option CKind) : Option (Subgraph.Sub T Str Str) → Prop
  | mk {e qs res} : Parse.parseQuery text = .ok e → Aql.parse false doc e = .ok qs →
      Extracted (E := E) c o d qs (List.range (maxNodes qs)) ty res → SubgraphForQuery doc text ty res

/-- `strip_prefix("salt:/").unwrap_or(..)` (corpusstorage.rs 2165-2167). -/
def stripSalt (id : Str) : Str :=
  if "salt:/".toList.isPrefixOf id then id.drop 6 else id

/-- The search for a value of an annotation in the namespace `annis` (corpusstorage.rs 2172-2177, 2193-2198, 2203-2208). -/
def annisSpec (name val : Str) : NsSpec Str Str := .exact (some annisNs) name (some val) false

/-- One alternative of `subcorpus_graph` (corpusstorage.rs 2170-2189, 2191-2219): nodes found by `spec` that are part of the node with the
given name. The operator also has the searches of its operands, which this operator does not use (`Aql.Made`). -/
def partQuery (id : Str) (spec : NsSpec Str Str) : Except Aql.Err QConj :=
  let (q, corpus) := (Aql.Conj.empty 0 : QConj).addNode (annisSpec "node_name".toList id) none true false
  let (q, any) := q.addNode spec none true false
  q.addOperator (.plain ⟨.other (.partOf .unbound), spec, annisSpec "node_name".toList id⟩) any corpus true

/-- The query of `subcorpus_graph` (corpusstorage.rs 2159-2221). -/
def subcorpusQuery : List Str → Except Aql.Err (List QConj)
  | [] => .ok []
  | id :: ids =>
    match partQuery (stripSalt id) .anyNode, partQuery (stripSalt id) (annisSpec "node_type".toList "datasource".toList), subcorpusQuery ids with
    | .ok a, .ok b, .ok r => .ok (a :: b :: r)
    | .error e, _, _ => .error e
    | _, .error e, _ => .error e
    | _, _, .error e => .error e

/-- `subcorpus_graph` (corpusstorage.rs 2152-2232). -/
inductive SubcorpusGraph (ids : List Str) : Option (Subgraph.Sub T Str Str) → Prop
  | mk {qs res} : subcorpusQuery ids = .ok qs → Extracted (E := E) c o d qs [1] none res → SubcorpusGraph ids res

/-- The query of `corpus_graph` (corpusstorage.rs 2247-2257). -/
def corpusQuery : QConj := ((Aql.Conj.empty 0 : QConj).addNode (annisSpec "node_type".toList "corpus".toList) none true false).1

/-- `corpus_graph` (corpusstorage.rs 2235-2265). -/
def CorpusGraph (res : Option (Subgraph.Sub T Str Str)) : Prop := Extracted (E := E) c o d [corpusQuery] [0] (some .partOf) res

end
end Answer
