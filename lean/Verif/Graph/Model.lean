import Verif.Adj.Model
import Verif.OnDisk.Model
import Mathlib.Order.Fin.Basic

/-!
# Model of applying updates to a graph (core/src/graph/mod.rs, core/src/graph/update.rs)

Generic in the type `S` of annotation namespaces and names, the type `V` of annotation values and node names, and the type
`C` of components.  Simplified:

* every component uses the writable adjacency list storage (`get_or_create_writable` copies a component of another
  implementation into it, which is C17 and C18), and all components are loaded,
* the node annotation storage is the main memory one,
* the model specific hooks (`before_update_event` and so on) can reject an event but their index components are not part
  of this model,
* statistics and progress messages are not modelled.
-/

/-- `UpdateEvent` (update.rs 21-79).  Type, layer and name of a component are one value; `none` is a type string that cannot
be parsed. -/
inductive Event (S V C : Type)
  | addNode (name type : V)
  | deleteNode (name : V)
  | addNodeLabel (name : V) (key : AnnoKey S) (val : V)
  | deleteNodeLabel (name : V) (key : AnnoKey S)
  | addEdge (source target : V) (comp : Option C)
  | deleteEdge (source target : V) (comp : Option C)
  | addEdgeLabel (source target : V) (comp : Option C) (key : AnnoKey S) (val : V)
  | deleteEdgeLabel (source target : V) (comp : Option C) (key : AnnoKey S)

/-- `Graph` (graph/mod.rs 38-58) as far as updates are concerned. -/
structure Graph (S V C : Type) where
  annos : AnnoStore NodeID64 S V
  comps : OMap C (Adj NodeID64 S V)
  changeId : Nat

/-- `CLruCache` of the clru crate, the most recently used entry first. -/
abbrev IdCache (V : Type) := List (V × Option NodeID64)

namespace IdCache

variable {V : Type} [DecidableEq V]

/-- `get`: a hit becomes the most recently used entry. -/
def get (c : IdCache V) (n : V) : Option (Option NodeID64 × IdCache V) :=
  (c.find? fun p => p.1 = n).map fun p => (p.2, p :: c.filter fun q => q.1 ≠ n)

/-- `put`: the least recently used entry is dropped if the capacity is exceeded. -/
def put (cap : Nat) (c : IdCache V) (n : V) (id : Option NodeID64) : IdCache V :=
  ((n, id) :: c.filter fun q => q.1 ≠ n).take cap

end IdCache

namespace Graph

variable {S V C : Type} [LinearOrder S] [OrderBot S] [LinearOrder V] [LinearOrder C]

/-- `new` (graph/mod.rs, with an empty annotation storage). -/
def new : Graph S V C := ⟨AnnoStore.new, [], 0⟩

/-- The storage of a component; a missing one is created empty (`get_or_create_writable`, graph/mod.rs 859-912). -/
def comp (g : Graph S V C) (c : C) : Adj NodeID64 S V := (g.comps.get c).getD Adj.new

/-- Writing a component. -/
def setComp (g : Graph S V C) (c : C) (a : Adj NodeID64 S V) : Graph S V C := { g with comps := g.comps.insert c a }

/-- `get_cached_node_id_from_name` (graph/mod.rs 382-394). -/
def cachedId (nk : AnnoKey S) (cap : Nat) (g : Graph S V C) (cache : IdCache V) (n : V) : Option NodeID64 × IdCache V :=
  match cache.get n with
  | some r => r
  | none =>
    let id := g.annos.nodeIdFromName nk n
    (id, cache.put cap n id)

/-- The new node ID (graph/mod.rs 426-431); `none` is the overflow of `id + 1`. -/
def newId (g : Graph S V C) : Option NodeID64 :=
  match g.annos.largestItem with
  | some l => if h : l.val + 1 < 256 ^ 8 then some ⟨l.val + 1, h⟩ else none
  | none => some ⟨0, by decide⟩

/-- Both end points of an edge event (graph/mod.rs 513-520 and the same lines for the other events). -/
def cachedEnds (nk : AnnoKey S) (cap : Nat) (g : Graph S V C) (cache : IdCache V) (s t : V) :
    Option NodeID64 × Option NodeID64 × IdCache V :=
  let (a, cache) := cachedId nk cap g cache s
  let (b, cache) := cachedId nk cap g cache t
  (a, b, cache)

/-- Changing the component of an edge event, if both nodes are known and the component type can be parsed
(graph/mod.rs 522-528, 545-552, 572-576, 608-612). -/
def editComp (g : Graph S V C) (a b : Option NodeID64) (c : Option C)
    (f : Adj NodeID64 S V → NodeID64 → NodeID64 → Adj NodeID64 S V) : Graph S V C :=
  match a, b, c with
  | some a, some b, some c => g.setComp c (f (g.comp c) a b)
  | _, _, _ => g

/-- The `match` of `apply_update_in_memory` (graph/mod.rs 419-624).  `all` are the components which existed before the first
event (line 406).  `none` is an overflow of the node ID. -/
def applyEvent (nk tk : AnnoKey S) (cap : Nat) (all : List C) (g : Graph S V C) (cache : IdCache V) :
    Event S V C → Option (Graph S V C × IdCache V)
  | .addNode n ty =>
    if g.annos.hasNodeName nk n then some (g, cache)
    else g.newId.map fun id =>
      ({ g with annos := (g.annos.insert id nk n).insert id tk ty }, cache.put cap n (some id))
  | .deleteNode n =>
    match cachedId nk cap g cache n with
    | (some id, cache) =>
      let g := { g with annos := (g.annos.removeItem id).1 }
      some (all.foldl (fun g c => g.setComp c ((g.comp c).deleteNode id)) g, cache.put cap n none)
    | (none, cache) => some (g, cache)
  | .addNodeLabel n key val =>
    match cachedId nk cap g cache n with
    | (some id, cache) => some ({ g with annos := g.annos.insert id key val }, cache)
    | (none, cache) => some (g, cache)
  | .deleteNodeLabel n key =>
    match cachedId nk cap g cache n with
    | (some id, cache) => some ({ g with annos := (g.annos.removeAnno id key).1 }, cache)
    | (none, cache) => some (g, cache)
  | .addEdge s t c =>
    let (a, b, cache) := cachedEnds nk cap g cache s t
    some (g.editComp a b c fun gs a b => gs.addEdge a b, cache)
  | .deleteEdge s t c =>
    let (a, b, cache) := cachedEnds nk cap g cache s t
    some (g.editComp a b c fun gs a b => gs.deleteEdge a b, cache)
  | .addEdgeLabel s t c key val =>
    let (a, b, cache) := cachedEnds nk cap g cache s t
    some (g.editComp a b c fun gs a b =>
      if gs.isConnected a b 1 (.included 1) = some true then gs.addAnno a b key val else gs, cache)
  | .deleteEdgeLabel s t c key =>
    let (a, b, cache) := cachedEnds nk cap g cache s t
    some (g.editComp a b c fun gs a b =>
      if gs.isConnected a b 1 (.included 1) = some true then gs.deleteAnno a b key else gs, cache)

/-- The loop of `apply_update_in_memory` (graph/mod.rs 415-636).  `hook` decides whether the model specific code accepts an
event (lines 418 and 625).  The Boolean is false if the update was aborted; the graph is then in the state at that moment. -/
def applyLoop (nk tk : AnnoKey S) (cap : Nat) (hook : Graph S V C → Event S V C → Bool) (all : List C) :
    Graph S V C → IdCache V → List (Nat × Event S V C) → Graph S V C × Bool
  | g, _, [] => (g, true)
  | g, cache, (id, e) :: r =>
    if hook g e then
      match applyEvent nk tk cap all g cache e with
      | some (g, cache) => applyLoop nk tk cap hook all { g with changeId := id } cache r
      | none => (g, false)
    else (g, false)

/-- `apply_update_in_memory` (graph/mod.rs 397-647). -/
def applyInMemory (nk tk : AnnoKey S) (cap : Nat) (hook : Graph S V C → Event S V C → Bool) (g : Graph S V C)
    (u : List (Nat × Event S V C)) : Graph S V C × Bool :=
  applyLoop nk tk cap hook g.comps.keys g [] u

end Graph
