import Verif.Answer.Main
import Verif.Token.Sorted
import Verif.Text.Props

/-!
# From the text of a query to the pages of `find`

This puts the results of a query (C101), the order of the results (C34, C74), paging over several corpora (C35) and the match identifiers
(C39, C70) together. Left out: quirks mode, time outs, errors of storages while results are sorted.
-/

namespace Answer

open Whole

/-- A corpus that is completely loaded, as far as a query reads it. -/
structure Corpus (T : Type) where
  name : Str
  env : NsEnv Str Str
  g : NsGraph T Str Str
  db : Db T
  th : TokenHelper T
  order : GStore T

/-- `NODE_NAME_KEY` (core/src/graph/mod.rs 37-40). -/
def nameKey : AnnoKey Str := AnnoKey.mk annisNs "node_name".toList

section
variable {T E : Type} [LinearOrder T]

/-- `get_value_for_item(node, NODE_NAME_KEY)`. -/
def Corpus.nodeName (c : Corpus T) (n : T) : Option Str := c.g.annos.getValue n nameKey

/-- What the comparison of matches reads (corpusstorage.rs 1757-1797, sort_matches.rs 39-169), with the default collation. Errors of storages
count as no answer. -/
def Corpus.sortEnv (c : Corpus T) : SortEnv T where
  name := c.nodeName
  leftTok n := (c.th.leftTokenFor n).getD none
  conn a b := c.order.isConnected a b 1 .unbounded == some true
  text := true
  coll := defaultColl
  quirks := false
  lossy _ := []

/-- A match in the output (corpusstorage.rs 1927-1966). A missing name adds nothing. -/
def Corpus.outMatch (c : Corpus T) (m : SMatch T (AnnoKey Str)) : OutMatch := ⟨m.key.ns, m.key.name, (c.nodeName m.node).getD []⟩

/-- The plan of a conjunction is a single search for all tokens (nodesearch.rs 984, 1096-1098; all other execution nodes have the default
`false`, exec/mod.rs 207-209). -/
def tokenPlan (q : QConj) : Bool :=
  q.bins.isEmpty && q.uns.isEmpty && (q.nodes.find? fun n => !n.optional).any fun n => match n.spec with
    | .anyToken => true
    | _ => false

/-- `ExecutionPlan::is_sorted_by_text` (plan.rs 130-138) for the alternatives and their plans. Without any plan there is one for the empty
result, which is not sorted (plan.rs 76-81). -/
def sortedByText {A : Type} (qs : List QConj) (alts : List (Option A)) : Bool :=
  match (qs.zip alts).filter fun p => p.2.isSome with
  | [p] => tokenPlan p.1
  | _ => false

/-- An item of the plan as it is used by `find`. -/
def item {A : Type} : Except (Fail E) A → Option A
  | .ok a => some a
  | .error _ => none

/-- What `find_in_single_corpus` works on (corpusstorage.rs 1691-1845, 1896-1969). -/
def Corpus.toFind (c : Corpus T) (qs : List QConj) (sorted : Bool) (out : List (Except (Fail E) (Row T (AnnoKey Str)))) :
    FindCorpus (Row T (AnnoKey Str)) Str where
  plan := out.map item
  sortedByText := sorted
  cmp a b := some (compareGroup c.sortEnv a b)
  render row := some (matchId ((Aql.shown qs row).map c.outMatch))

/-- The plans of a query in one corpus, and the output of their iteration (see `Answers`). -/
structure Planned (doc : NsSpec Str Str) (d : SMatch T (AnnoKey Str)) (text : Str) (c : Corpus T) (qs : List QConj)
    (alts : List (Option (List (Except (Fail E) (Row T (AnnoKey Str)))))) (out : List (Except (Fail E) (Row T (AnnoKey Str)))) : Prop where
  translated : ∃ e, Parse.parseQuery text = .ok e ∧ Aql.parse false doc e = .ok qs
  rows : List.Forall₂ (AltRows c.env c.g c.db c.th c.order d) qs alts
  output : Output (alts.filterMap id) out

/-- `find_in_single_corpus` (corpusstorage.rs 1847-1981) with any plan and any random numbers. -/
def FindOne (E : Type) (doc : NsSpec Str Str) (d : SMatch T (AnnoKey Str)) (text : Str) (c : Corpus T) (order : ResultOrder) (offset : Nat)
    (limit : Option Nat) (res : List Str × Nat) : Prop :=
  ∃ (qs : List QConj) (alts : List (Option (List (Except (Fail E) (Row T (AnnoKey Str)))))) (out : List (Except (Fail E) (Row T (AnnoKey Str))))
    (rnd : Rnd (Row T (AnnoKey Str))), Planned doc d text c qs alts out ∧ (∀ l, (rnd.shuffle l).Perm l) ∧
    findSingle (c.toFind qs (sortedByText qs alts) out) rnd false order offset limit = some res

/-- The order in which the corpora are searched (corpusstorage.rs 2017-2033). -/
def searchOrder (order : ResultOrder) (shuffle : List (Corpus T) → List (Corpus T)) (cs : List (Corpus T)) : List (Corpus T) :=
  if cs.length ≤ 1 then cs
  else match order with
    | .randomized => shuffle cs
    | .inverted => (cs.mergeSort fun a b => decide (a.name ≤ b.name)).reverse
    | _ => cs.mergeSort fun a b => decide (a.name ≤ b.name)

/-- `find` (corpusstorage.rs 1994-2072): each corpus is searched with its own plan and random numbers. -/
def FindAll (E : Type) (doc : NsSpec Str Str) (d : SMatch T (AnnoKey Str)) (text : Str) (cs : List (Corpus T)) (order : ResultOrder) (offset : Nat)
    (limit : Option Nat) (page : List Str) : Prop :=
  ∃ (shuffle : List (Corpus T) → List (Corpus T)) (runs : List (Corpus T × (Nat → Option Nat → Option (List Str × Nat)))),
    (∀ l, (shuffle l).Perm l) ∧ runs.map Prod.fst = searchOrder order shuffle cs ∧
    (∀ p ∈ runs, ∀ o l res, p.2 o l = some res → FindOne E doc d text p.1 order o l res) ∧
    find (fun p => p.2) runs offset limit = some page

/-- `count` (corpusstorage.rs 1592-1617). -/
def CountAll (E : Type) (doc : NsSpec Str Str) (d : SMatch T (AnnoKey Str)) (text : Str) (cs : List (Corpus T)) (n : Nat) : Prop :=
  ∃ outs : List (List (Except (Fail E) (Row T (AnnoKey Str)))),
    List.Forall₂ (fun c out => ∃ qs alts, Planned doc d text c qs alts out) cs outs ∧ n = countQuery (outs.map fun o => o.map item)

end

/-! ## Specification -/

section
variable {T : Type} [LinearOrder T]

/-- What is known about a corpus: its annotations are the result of some changes, its storages and indexes are correct for some relations. -/
structure Known (T : Type) [LinearOrder T] where
  c : Corpus T
  ops : List (AnnoStore.Op T Str Str)
  r : Rels T Str Str
  Ec : GStore T → T → T → Prop
  D : T → Prop
  Rg : Nat → Bnd Nat → Prop
  De : EdgeStore T Str Str → T → Prop
  Re : EdgeStore T Str Str → Nat → Bnd Nat → Prop
  corpus : CorpusOk ops c.env c.g r c.th c.order Ec D Rg
  db : DbOk c.db r De Re

/-- A row is an answer to the query in this corpus. -/
def Known.Answer (k : Known T) (d : SMatch T (AnnoKey Str)) (alts : List (List Parse.QLit)) (Ls : List (List (Aql.Occ (NsSpec Str Str))))
    (row : Row T (AnnoKey Str)) : Prop :=
  ∃ i, AnswersAlt k.c.db k.c.env (AnnoStore.spec k.ops) k.r d alts Ls i row

/-- All answers in this corpus, ordered by their position in the text. -/
structure Known.Listing (k : Known T) (d : SMatch T (AnnoKey Str)) (alts : List (List Parse.QLit)) (Ls : List (List (Aql.Occ (NsSpec Str Str))))
    (rows : List (Row T (AnnoKey Str))) : Prop where
  ascending : rows.Pairwise fun a b => compareGroup k.c.sortEnv a b = .lt
  mem : ∀ row, row ∈ rows ↔ k.Answer d alts Ls row

/-- The columns of a row that are shown: those of node searches that are not optional. -/
def visible {M : Type} (Ls : List (List (Aql.Occ (NsSpec Str Str)))) (row : List M) : List M :=
  (row.zipIdx.filter fun p => match Ls with
    | [L] => (L[p.2]?).any fun o => !o.optional
    | _ => true).map Prod.fst

/-- The identifier of a row. -/
def idOf (c : Corpus T) (Ls : List (List (Aql.Occ (NsSpec Str Str)))) (row : Row T (AnnoKey Str)) : Str :=
  matchId ((visible Ls row).map c.outMatch)

/-- Conditions on the query: its text has no parentheses, it is accepted, no name is used twice, and either it has only one alternative
or no node search is optional (`C70_alternatives_fails`). -/
structure QueryText (doc : NsSpec Str Str) (text : Str) (e : Parse.Q) (qs : List QConj) (Ls : List (List (Aql.Occ (NsSpec Str Str)))) : Prop where
  parsed : Parse.parseQuery text = .ok e
  flat : ∃ ps tree, Parse.Spec.Tree text ps tree ∧ Parse.Spec.Flat tree
  translated : Aql.parse false doc e = .ok qs
  searches : Searches (Aql.alternatives e) Ls
  names : ∀ L ∈ Ls, Aql.NamesDistinct L
  columns : Ls.length = 1 ∨ ∀ L ∈ Ls, ∀ o ∈ L, o.optional = false

/-- Conditions on the query in a corpus: the operators fit, different node searches have different matches, the order of the results is
consistent on the nodes that are shown (C34), and the search for all tokens gives them in the order of the text (C74). -/
structure Known.Fits (k : Known T) (d : SMatch T (AnnoKey Str)) (alts : List (List Parse.QLit)) (Ls : List (List (Aql.Occ (NsSpec Str Str)))) : Prop where
  alternatives : ∀ (i : Nat) c L, alts[i]? = some c → Ls[i]? = some L →
    AltOk k.c.db k.c.env k.c.g k.r k.c.th k.Ec k.Rg k.De k.Re (before Ls i) c L
  distinct : ∀ (i : Nat) L row, Ls[i]? = some L → AnswersAlt k.c.db k.c.env (AnnoStore.spec k.ops) k.r d alts Ls i row → Distinct L row
  ordered : ∃ S : T → Prop, k.c.sortEnv.Ordered S ∧ ∀ row, k.Answer d alts Ls row → ∀ m ∈ visible Ls row, S m.node
  tokens : (∃ L ∈ Ls, ∃ o ∈ L, o.spec = .anyToken) → ∀ l, k.c.g.anyTokens = some l →
    l.Pairwise fun a b => compareMatch k.c.sortEnv (⟨a, NodeSearch.typeKey k.c.env⟩ : SMatch T (AnnoKey Str)) ⟨b, NodeSearch.typeKey k.c.env⟩ = .lt

end
end Answer
