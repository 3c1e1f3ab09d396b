import Verif.Adj.Model

/-!
# Model of `core/src/graph/storage/linear.rs` (`LinearGraphStorage<PosT>`)

The position type `PosT` (`u8`, `u16`, `u32` or `u64`) is represented by its largest value `cap`.  Serialisation (lines
167-201) and statistics are not modelled.
-/

/-- `LinearGraphStorage` (linear.rs 24-30) without `stats`. -/
structure Linear (N S W : Type) where
  nodeToPos : OMap N (N × Nat)
  chains : OMap N (List N)
  annos : AnnoStore (N ×ₗ N) S W

namespace Linear

variable {N S W : Type} [LinearOrder N] [LinearOrder S] [OrderBot S] [LinearOrder W]

/-- `new` (linear.rs 36-43). -/
def new : Linear N S W := ⟨[], [], AnnoStore.new⟩

/-- `clear` (linear.rs 45-51). -/
def clear (g : Linear N S W) : Linear N S W := ⟨[], [], g.annos.clear⟩

/-- `get_outgoing_edges` (linear.rs 89-105).  `none` is the overflow of the addition in the position type. -/
def out (cap : Nat) (g : Linear N S W) (n : N) : Option (List N) :=
  match g.nodeToPos.get n with
  | none => some []
  | some (root, pos) =>
    match g.chains.get root with
    | none => some []
    | some chain => if pos + 1 ≤ cap then some (chain[pos + 1]?).toList else none

/-- `get_ingoing_edges` (linear.rs 107-121).  The index `chain[previous_pos]` is never out of range in a copied storage
(`Linear.C14_neighbours` shows that a value is returned). -/
def inn (g : Linear N S W) (n : N) : List N :=
  match g.nodeToPos.get n with
  | none => []
  | some (root, pos) =>
    match g.chains.get root with
    | none => []
    | some chain => if pos = 0 then [] else (chain[pos - 1]?).toList

/-- `has_ingoing_edges` (linear.rs 123-130). -/
def hasIn (g : Linear N S W) (n : N) : Bool :=
  match g.nodeToPos.get n with
  | none => false
  | some (_, pos) => pos != 0

/-- `source_nodes` (linear.rs 132-143). -/
def sources (g : Linear N S W) : List N := g.chains.vals.flatMap fun chain => chain.reverse.drop 1

/-- `root_nodes` (linear.rs 145-148). -/
def roots (g : Linear N S W) : List N := g.chains.keys

/-- `find_connected` (linear.rs 203-229).  `none` is the overflow of `offset + max_distance (+ 1)`. -/
def findConnected (g : Linear N S W) (n : N) (min : Nat) (max : Bnd Nat) : Option (List N) :=
  match g.nodeToPos.get n with
  | none => some []
  | some (root, offset) =>
    match g.chains.get root with
    | none => some []
    | some chain =>
      if offset + min < chain.length then
        match max with
        | .unbounded => some (chain.drop (offset + min))
        | .included m =>
          if offset + m + 1 ≤ usizeMax then
            some (if offset + min < Nat.min chain.length (offset + m + 1) then
              (chain.take (Nat.min chain.length (offset + m + 1))).drop (offset + min) else [])
          else none
        | .excluded m =>
          if offset + m ≤ usizeMax then
            some (if offset + min < Nat.min chain.length (offset + m) then
              (chain.take (Nat.min chain.length (offset + m))).drop (offset + min) else [])
          else none
      else some []

/-- The lower end computed by `find_connected_inverse` (linear.rs 241-245).  The addition `max_distance + 1` is taken as
exact (it overflows only for `Excluded(usize::MAX)`). -/
def lowEnd (offset : Nat) : Bnd Nat → Nat
  | .unbounded => 0
  | .included m => offset - m
  | .excluded m => offset - (m + 1)

/-- `find_connected_inverse` (linear.rs 231-258). -/
def findConnectedInverse (g : Linear N S W) (n : N) (min : Nat) (max : Bnd Nat) : List N :=
  match g.nodeToPos.get n with
  | none => []
  | some (root, offset) =>
    match g.chains.get root with
    | none => []
    | some chain =>
      if min ≤ offset then
        if offset - min < chain.length ∧ lowEnd offset max ≤ offset - min then
          (chain.take (offset - min + 1)).drop (lowEnd offset max)
        else if lowEnd offset max < chain.length then chain.drop (lowEnd offset max)
        else []
      else []

/-- `distance` (linear.rs 260-276). -/
def distance (g : Linear N S W) (a b : N) : Option Nat :=
  if a = b then some 0 else
    match g.nodeToPos.get a, g.nodeToPos.get b with
    | some (r1, p1), some (r2, p2) => if r1 = r2 ∧ p1 ≤ p2 then some (p2 - p1) else none
    | _, _ => none

/-- `is_connected` (linear.rs 278-307). -/
def isConnected (g : Linear N S W) (a b : N) (min : Nat) (max : Bnd Nat) : Bool :=
  match g.nodeToPos.get a, g.nodeToPos.get b with
  | some (r1, p1), some (r2, p2) =>
    if r1 = r2 ∧ p1 ≤ p2 then
      match max with
      | .unbounded => decide (min ≤ p2 - p1)
      | .included m => decide (min ≤ p2 - p1) && decide (p2 - p1 ≤ m)
      | .excluded m => decide (min ≤ p2 - p1) && decide (p2 - p1 < m)
    else false
  | _, _ => false

/-- Loop body for one step of the traversal in `copy` (linear.rs 332-345) without the annotations. -/
def copyStep (cap : Nat) (root : N) (st : OMap N (N × Nat) × List N) (n : N) : OMap N (N × Nat) × List N :=
  (if st.2.length ≤ cap then OMap.insert st.1 n (root, st.2.length) else st.1, st.2 ++ [n])

/-- Loop body for one root in `copy` (linear.rs 320-348).  The annotations are copied in the same order as in the code, but
after the positions, which they do not depend on. -/
def copyRoot (cap : Nat) (o : Source N S W) (g : Linear N S W) (root : N) : Linear N S W :=
  let nodes := (Dfs.steps o.out o.nodes root 1 usizeMax).map fun s => s.1
  let r := nodes.foldl (copyStep cap root) (g.nodeToPos.insert root (root, 0), [root])
  { nodeToPos := r.1, chains := g.chains.insert root r.2,
    annos := (root :: nodes).foldl (fun s a => o.copyNodeAnnos s a) g.annos }

/-- `copy` (linear.rs 309-357).  The roots are visited in the iteration order of a hash set; the list of roots of the
source is arbitrary. -/
def copy (cap : Nat) (g : Linear N S W) (o : Source N S W) : Linear N S W := o.roots.foldl (copyRoot cap o) g.clear

end Linear
