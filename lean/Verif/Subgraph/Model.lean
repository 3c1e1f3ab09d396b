import Verif.Op.Text
import Verif.Sort.Model
import Verif.Index.Model
import Verif.Text.Model

/-!
# Model of the context subgraph (graphannis/src/annis/db/corpusstorage/subgraph.rs)

`none` is an error of a graph storage, a panic, or a run that does not end within the given fuel.  Simplified:

* the token helper and the storages of the components are arguments; missing components (`MissingComponent`) and the lookup of the node
  names (`NoSuchNodeID`) are not modelled,
* an iterator of a graph storage is the list of its items, so that an error after the first item is an error at once,
* the iteration order of the hash sets and the random numbers of the sort are arguments (`Choice`).
-/

namespace Subgraph

variable {N : Type} [LinearOrder N]

/-- The choices that the code does not determine: the iteration order of the hash set that belongs to a node, and fuel and random numbers
of the sort that belongs to a node, or of the sort of the regions. -/
structure Choice (N : Type) where
  hash : N → List N → List N
  fuel : Nat
  rnd : N → List (Nat × Nat × Nat)
  rndRegions : List (Nat × Nat × Nat)

/-- The items with a property whose test can fail. -/
def filterOpt {α : Type} (p : α → Option Bool) : List α → Option (List α)
  | [] => some []
  | x :: r =>
    match p x, filterOpt p r with
    | some b, some l => some (if b then x :: l else l)
    | _, _ => none

/-- The comparison by position (subgraph.rs 174-184, 266-276). -/
def orderCmp (ord : GStore N) (a b : N) : Option Ordering :=
  if a = b then some .eq
  else match ord.isConnected a b 1 .unbounded with
    | none => none
    | some true => some .lt
    | some false =>
      match ord.isConnected b a 1 .unbounded with
      | none => none
      | some true => some .gt
      | some false => some (compare a b)

/-- The tokens that are covered by a node in one component (subgraph.rs 256-261). -/
def coveredIn (th : TokenHelper N) (n : N) (c : GStore N) : Option (List N) :=
  match c.out n with
  | none => none
  | some l => filterOpt th.isToken l

/-- The covered tokens of a node (subgraph.rs 250-263), as the set that the code collects. -/
def coveredTokens (th : TokenHelper N) (n : N) : Option (List N) :=
  match th.isToken n with
  | none => none
  | some true => some [n]
  | some false => (flatMapOpt (coveredIn th n) th.cov).map List.dedup

/-- The loops that find the largest possible context (subgraph.rs 104-113, 114-127, 195-204, 205-213): try `ctx`, `ctx - 1`, … 0. -/
def farthest (find : Nat → Option (List N)) (start : N) : Nat → Option N
  | 0 =>
    match find 0 with
    | none => none
    | some (x :: _) => some x
    | some [] => some start
  | ctx + 1 =>
    match find (ctx + 1) with
    | none => none
    | some (x :: _) => some x
    | some [] => farthest find start ctx

/-- The nodes `ctxLeft` steps before `l` and `ctxRight` steps after `r` (the two loops). -/
def offsets (ord : GStore N) (ctxLeft ctxRight : Nat) (l r : N) : Option (N × N) :=
  match farthest (fun ctx => ord.findConnectedInverse l ctx (.included ctx)) l ctxLeft with
  | none => none
  | some s =>
    match farthest (fun ctx => ord.findConnected r ctx (.included ctx)) r ctxRight with
    | none => none
    | some e => some (s, e)

/-- A token region (subgraph.rs 224-230). -/
structure Region (N : Type) where
  start : N
  stop : N
deriving DecidableEq

/-- `get_left_right_token_with_offset_with_token` (subgraph.rs 88-129).  The inner `none` is `NoCoveredTokenForSubgraph`. -/
def tokenRegion (ord : GStore N) (ctxLeft ctxRight : Nat) (covered : List N) : Option (Option (Region N)) :=
  match covered.head?, covered.getLast? with
  | some l, some r => (offsets ord ctxLeft ctxRight l r).map fun p => some ⟨p.1, p.2⟩
  | _, _ => some none

/-- A node has an edge of the segmentation (subgraph.rs 162-168). -/
def inSeg (seg : GStore N) (n : N) : Option Bool :=
  match seg.out n, seg.inn n with
  | some o, some i => some (!o.isEmpty || !i.isEmpty)
  | _, _ => none

/-- The segmentation nodes that cover a token in one component (subgraph.rs 160-169). -/
def segIn (seg c : GStore N) (t : N) : Option (List N) :=
  match c.inn t with
  | none => none
  | some l => filterOpt (inSeg seg) l

/-- The segmentation nodes that cover one of the tokens (subgraph.rs 157-171), as the set that the code collects. -/
def segNodes (th : TokenHelper N) (seg : GStore N) (covered : List N) : Option (List N) :=
  (flatMapOpt (fun c : GStore N => flatMapOpt (segIn seg c) covered) th.cov).map List.dedup

/-- `get_left_right_token_with_offset_with_segmentation` (subgraph.rs 131-222) for the node `n`.  The inner `none` is
`NoCoveredTokenForSubgraph`. -/
def segRegion (ch : Choice N) (th : TokenHelper N) (seg : GStore N) (n : N) (ctxLeft ctxRight : Nat) (covered : List N) :
    Option (Option (Region N)) :=
  match covered.head?, covered.getLast? with
  | some l, some r =>
    match segNodes th seg covered with
    | none => none
    | some segs =>
      match sortAll (orderCmp seg) ch.fuel (ch.rnd n) (ch.hash n segs) with
      | none => none
      | some sorted =>
        match sorted.head?, sorted.getLast? with
        | some ls, some rs =>
          match offsets seg ctxLeft ctxRight ls rs with
          | none => none
          | some (lc, rc) =>
            match th.leftTokenFor lc, th.rightTokenFor rc with
            | some lt, some rt => some (some ⟨lt.getD l, rt.getD r⟩)
            | _, _ => none
        | _, _ => some (some ⟨l, r⟩)
  | _, _ => some none

/-- `TokenRegion::from_node_with_context` (subgraph.rs 233-303). `seg` is the ordering component of the segmentation. -/
def fromNode (ch : Choice N) (th : TokenHelper N) (ord : GStore N) (seg : Option (GStore N)) (ctxLeft ctxRight : Nat) (n : N) :
    Option (Option (Region N)) :=
  match coveredTokens th n with
  | none => none
  | some cov =>
    match sortAll (orderCmp ord) ch.fuel (ch.rnd n) (ch.hash n cov) with
    | none => none
    | some sorted =>
      match seg with
      | some seg => segRegion ch th seg n ctxLeft ctxRight sorted
      | none => tokenRegion ord ctxLeft ctxRight sorted

/-- `calculate_covering_nodes` (subgraph.rs 31-46), as the set that the code collects. -/
def covering (th : TokenHelper N) (t : N) : Option (List N) :=
  (flatMapOpt (fun c : GStore N => c.inn t) th.cov).map List.dedup

/-- All items of the `TokenIterator` (subgraph.rs 49-86) from a current token: the covering nodes, the token, and so on with the next
token, until the end token or the end of the chain. -/
def tokenIter (ch : Choice N) (th : TokenHelper N) (ord : GStore N) (stop : N) : Nat → N → Option (List N)
  | 0, _ => none
  | fuel + 1, t =>
    match covering th t with
    | none => none
    | some c =>
      if t = stop then some (ch.hash t c ++ [t])
      else match ord.out t with
        | none => none
        | some [] => some (ch.hash t c ++ [t])
        | some (x :: _) => (tokenIter ch th ord stop fuel x).map fun r => ch.hash t c ++ [t] ++ r

/-- The comparison of regions (subgraph.rs 354-374). -/
def regionCmp (ord : GStore N) (a b : Region N) : Option Ordering :=
  if a.start = b.start ∧ a.stop = b.stop then some .eq
  else match ord.isConnected a.stop b.start 1 .unbounded with
    | none => none
    | some true => some .lt
    | some false =>
      match ord.isConnected b.stop a.start 1 .unbounded with
      | none => none
      | some true => some .gt
      | some false => some ((compare a.start b.start).then (compare a.stop b.stop))

/-- The regions of the match nodes; nodes without covered token are ignored (subgraph.rs 326-344). -/
def regions (ch : Choice N) (th : TokenHelper N) (ord : GStore N) (seg : Option (GStore N)) (ctxLeft ctxRight : Nat) :
    List N → Option (List (Region N))
  | [] => some []
  | n :: r =>
    match fromNode ch th ord seg ctxLeft ctxRight n, regions ch th ord seg ctxLeft ctxRight r with
    | some (some x), some l => some (x :: l)
    | some none, some l => some l
    | _, _ => none

/-- `new_overlapped_nodes_iterator` (subgraph.rs 319-383). -/
def overlapped (ch : Choice N) (th : TokenHelper N) (ord : GStore N) (seg : Option (GStore N)) (ctxLeft ctxRight : Nat)
    (nodes : List N) : Option (List N) :=
  match regions ch th ord seg ctxLeft ctxRight nodes with
  | none => none
  | some rs =>
    match sortAll (regionCmp ord) ch.fuel ch.rndRegions rs with
    | none => none
    | some sorted => flatMapOpt (fun r : Region N => tokenIter ch th ord r.stop ch.fuel r.start) sorted

/-- `new_parent_nodes_iterator` (subgraph.rs 387-407), as the set that the code collects. -/
def parents (partOf : GStore N) (nodes : List N) : Option (List N) :=
  (flatMapOpt (fun n => partOf.findConnected n 1 .unbounded) nodes).map List.dedup

/-- `new_subgraph_iterator` (subgraph.rs 409-459) without the annotation key, which is always `annis::node_name`. -/
def contextNodes (ch : Choice N) (th : TokenHelper N) (ord partOf : GStore N) (seg : Option (GStore N)) (ctxLeft ctxRight : Nat)
    (nodes : List N) : Option (List N) :=
  match overlapped ch th ord seg ctxLeft ctxRight nodes, parents partOf nodes,
      filterOpt (fun n => (th.isToken n).map fun b => !b) nodes with
  | some o, some p, some m => some (m ++ o ++ p)
  | _, _, _ => none

/-! ## Extraction -/

section Extract

variable {S W K : Type} [LinearOrder S] [OrderBot S] [LinearOrder W] [DecidableEq K]

/-- The component `Ordering/annis/datasource-gap` (subgraph.rs 481-485). -/
def gapComp : Component CKind := ⟨.ordering, "annis".toList, "datasource-gap".toList⟩

/-- Components that are not copied (subgraph.rs 554-560). -/
def isIndexComp (c : Component CKind) : Bool :=
  (c.ty = .coverage && c.layer = "annis".toList && !c.name.isEmpty) || c.ty = .rightToken || c.ty = .leftToken

/-- The original graph: the annotations of the nodes, and for each component (after the filter by type) its storage and the annotations
of its edges. -/
structure Src (N S W : Type) where
  annos : N → List (AnnoKey S × W)
  comps : List (Component CKind × GStore N × (N → N → List (AnnoKey S × W)))

/-- The resulting graph in main memory.  A component that was never written is empty. -/
structure Sub (N S W : Type) [LinearOrder N] [LinearOrder S] [LinearOrder W] where
  annos : AnnoStore N S W
  comps : Component CKind → Adj N S W

/-- `AnnotationGraph::new` (core/src/graph/mod.rs 177-196). -/
def Sub.new : Sub N S W := ⟨AnnoStore.new, fun _ => Adj.new⟩

/-- Changing a component (`get_or_create_writable`, which does not fail in main memory). -/
def Sub.modify (g : Sub N S W) (c : Component CKind) (f : Adj N S W → Adj N S W) : Sub N S W :=
  { g with comps := Function.update g.comps c (f (g.comps c)) }

/-- `create_subgraph_node` (subgraph.rs 535-545). -/
def createNode (src : Src N S W) (g : Sub N S W) (n : N) : Sub N S W :=
  { g with annos := (src.annos n).foldl (fun s a => s.insert n a.1 a.2) g.annos }

/-- The state of the first loop of `create_subgraph_for_iterator`: the extracted matches, the previous token and the result. -/
structure State (N S W K : Type) [LinearOrder N] [LinearOrder S] [LinearOrder W] where
  seen : List (N × K)
  prev : Option N
  g : Sub N S W

/-- The edge for a gap before the token `n` (subgraph.rs 504-516). -/
def addGap (ord : Option (GStore N)) (prev : Option N) (n : N) (g : Sub N S W) : Option (Sub N S W) :=
  match ord, prev with
  | some ord, some p =>
    match ord.distance p n with
    | none => none
    | some (some d) => some (if d > 1 then g.modify gapComp fun a => a.addEdge p n else g)
    | some none => some g
  | _, _ => some g

/-- One match of the first loop (subgraph.rs 496-521).  `th` is `none` if the token helper could not be created. -/
def extract (src : Src N S W) (th : Option (TokenHelper N)) (ord : Option (GStore N)) (st : State N S W K) (m : N × K) :
    Option (State N S W K) :=
  if m ∈ st.seen then some st
  else match th with
    | none => some ⟨m :: st.seen, st.prev, createNode src st.g m.1⟩
    | some th =>
      match th.isToken m.1 with
      | none => none
      | some false => some ⟨m :: st.seen, st.prev, createNode src st.g m.1⟩
      | some true =>
        match addGap ord st.prev m.1 st.g with
        | none => none
        | some g => some ⟨m :: st.seen, some m.1, createNode src g m.1⟩

/-- Copying one edge (subgraph.rs 563-585). -/
def copyEdge (c : Component CKind) (annos : N → N → List (AnnoKey S × W)) (a : N) (g : Sub N S W) (b : N) : Sub N S W :=
  if (g.annos.allKeysForItem b none none).isEmpty then g
  else g.modify c fun s => (annos a b).foldl (fun s x => s.addAnno a b x.1 x.2) (s.addEdge a b)

/-- `create_subgraph_edge` for one component (subgraph.rs 552-590). -/
def copyComp (a : N) (g : Sub N S W) (c : Component CKind × GStore N × (N → N → List (AnnoKey S × W))) : Option (Sub N S W) :=
  if isIndexComp c.1 then some g
  else match c.2.1.out a with
    | none => none
    | some l => some (l.foldl (copyEdge c.1 c.2.2 a) g)

/-- `create_subgraph_edge` (subgraph.rs 546-592). -/
def createEdges (src : Src N S W) (g : Sub N S W) (a : N) : Option (Sub N S W) := src.comps.foldlM (copyComp a) g

/-- The matches at the selected positions of the groups (subgraph.rs 491-496). -/
def selected (idx : List Nat) (it : List (List (N × K))) : List (N × K) := it.flatMap fun r => idx.filterMap fun i => r[i]?

/-- `create_subgraph_for_iterator` (subgraph.rs 461-533).  Simplified: the second loop uses the reversed order of extraction instead of
the order of the B-tree set. -/
def create (src : Src N S W) (th : Option (TokenHelper N)) (ord : Option (GStore N)) (idx : List Nat) (it : List (List (N × K))) :
    Option (Sub N S W) :=
  match (selected idx it).foldlM (extract src th ord) ⟨[], none, Sub.new⟩ with
  | none => none
  | some st => (st.seen.map Prod.fst).foldlM (createEdges src) st.g

/-- `CorpusStorage::subgraph` (corpusstorage.rs 2094-2112) after the nodes have been looked up. -/
def subgraph (ch : Choice N) (src : Src N S W) (th : TokenHelper N) (ord partOf : GStore N) (seg : Option (GStore N))
    (ctxLeft ctxRight : Nat) (nodes : List N) : Option (Sub N S W) :=
  match contextNodes ch th ord partOf seg ctxLeft ctxRight nodes with
  | none => none
  | some l => create src (some th) (some ord) [0] (l.map fun n => [(n, ())])

end Extract

end Subgraph
