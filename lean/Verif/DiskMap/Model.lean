import Verif.Util.OMap
import Verif.Util.Bnd

/-!
# Model of `core/src/util/disk_collections.rs` (`DiskMap`)

`c0` is the in-memory tree, `c1` the temporary on-disk B-tree (crate `transient_btree_index`), `c2` the immutable sorted
string table (crate `sstable`).  The two external crates are trusted to be ordered maps.  Keys are kept as values of the key
type: property C07 shows that the byte encoding used for `c2` is injective and order preserving.  `c2` only ever holds
`Some` values, because `write_to` skips tombstones (lines 320-325).  I/O errors are not modelled.
-/

/-- `DiskMap` (disk_collections.rs 34-47). `maxItems` is the `EvictionStrategy`. -/
structure DiskMap (K V : Type) where
  maxItems : Nat
  c0 : OMap K (Option V)
  c1 : Option (OMap K (Option V))
  c2 : Option (OMap K V)

namespace DiskMap

variable {K V : Type} [LinearOrder K]

/-- `new` (disk_collections.rs 59-84): `file` is the content of the persisted table, if there is one. -/
def new (maxItems : Nat) (file : Option (OMap K V)) : DiskMap K V := ⟨maxItems, [], none, file⟩

/-- `compact` (disk_collections.rs 332-350): all entries of `c0` are inserted into `c1`. -/
def compact (d : DiskMap K V) : DiskMap K V :=
  { d with c0 := [], c1 := some (d.c0.foldl (fun m p => m.insert p.1 p.2) (d.c1.getD [])) }

/-- `evict_c0_if_necessary` (disk_collections.rs 352-362). -/
def evict (d : DiskMap K V) : DiskMap K V := if d.maxItems ≤ d.c0.length then d.compact else d

/-- `insert` (disk_collections.rs 102-108). -/
def insert (d : DiskMap K V) (k : K) (v : V) : DiskMap K V :=
  ({ d with c0 := d.c0.insert k (some v) } : DiskMap K V).evict

/-- `get` (disk_collections.rs 110-149). -/
def get (d : DiskMap K V) (k : K) : Option V :=
  match d.c0.get k with
  | some entry => entry
  | none =>
    match d.c1.bind (fun c1 => c1.get k) with
    | some entry => entry
    | none => d.c2.bind (fun c2 => c2.get k)

/-- `contains_key` (disk_collections.rs 151-183).  The `c1` branch does not look at the value (line 164-167). -/
def containsKey (d : DiskMap K V) (k : K) : Bool :=
  match d.c0.get k with
  | some entry => entry.isSome
  | none =>
    if (d.c1.bind (fun c1 => c1.get k)).isSome then true
    else (d.c2.bind (fun c2 => c2.get k)).isSome

/-- `remove` (disk_collections.rs 185-195). -/
def remove (d : DiskMap K V) (k : K) : DiskMap K V × Option V :=
  match d.get k with
  | some v => (({ d with c0 := d.c0.insert k none } : DiskMap K V).evict, some v)
  | none => (d, none)

/-- Drop the tombstones (disk_collections.rs 203, 223, 245, 277). -/
def skipTombstones (l : List (K × Option V)) : List (K × V) :=
  l.filterMap fun p => p.2.map fun v => (p.1, v)

/-- `BTreeMap::range` / `BtreeIndex::range` (external). -/
def rangeOf {W : Type} (s e : Bnd K) (l : List (K × W)) : List (K × W) :=
  l.filter fun p => s.aboveB p.1 && e.belowB p.1

/-- Position the table iterator (`seek`, disk_collections.rs 605, 640-653, 691). -/
def seek (s : Bnd K) (t : List (K × V)) : List (K × V) :=
  match s with
  | .included k => t.dropWhile fun p => p.1 < k
  | .excluded k =>
    let l := t.dropWhile fun p => p.1 < k
    match l with
    | p :: r => if p.1 = k then r else p :: r
    | [] => []
  | .unbounded => t

/-- `SimplifiedRange` (disk_collections.rs 571-760): seek, check the first entry, then stop at the first entry outside. -/
def simplifiedRange (s e : Bnd K) (t : List (K × V)) : List (K × V) :=
  let l := seek s t
  let exhausted : Bool :=
    match s with
    | .unbounded => l.isEmpty
    | _ =>
      match l with
      | p :: _ => !(s.aboveB p.1) || !(e.belowB p.1)
      | [] => true
  if exhausted then [] else l.takeWhile fun p => s.aboveB p.1 && e.belowB p.1

/-- Smaller of two optional keys (`flatten().min()`, disk_collections.rs 488). -/
def optMin : Option K → Option K → Option K
  | some a, some b => if a ≤ b then some a else some b
  | some a, none => some a
  | none, o => o

/-- Advance an iterator when its next key is the minimum (disk_collections.rs 490-509). -/
def dropHead {W : Type} (m : K) : List (K × W) → List (K × W)
  | [] => []
  | p :: r => if p.1 = m then r else p :: r

/-- The entry taken from an iterator when its next key is the minimum. -/
def takeHead {W : Type} (m : K) : List (K × W) → Option W
  | [] => none
  | p :: _ => if p.1 = m then some p.2 else none

/-- `CombinedRange::next` until exhaustion (disk_collections.rs 472-546). `fuel` is the total number of entries. -/
def merge3 : Nat → List (K × Option V) → List (K × Option V) → List (K × V) → List (K × V)
  | 0, _, _, _ => []
  | fuel + 1, l0, l1, l2 =>
    match optMin (optMin (l0.head?.map Prod.fst) (l1.head?.map Prod.fst)) (l2.head?.map Prod.fst) with
    | none => []
    | some m =>
      let rest := merge3 fuel (dropHead m l0) (dropHead m l1) (dropHead m l2)
      match takeHead m l0 with
      | some (some v) => (m, v) :: rest
      | some none => rest
      | none =>
        match takeHead m l1 with
        | some (some v) => (m, v) :: rest
        | some none => rest
        | none =>
          match takeHead m l2 with
          | some v => (m, v) :: rest
          | none => rest

/-- `CombinedRange::new` (disk_collections.rs 421-461). -/
def combinedRange (d : DiskMap K V) (s e : Bnd K) : List (K × V) :=
  let l0 := rangeOf s e d.c0
  let l1 := rangeOf s e (d.c1.getD [])
  let l2 := simplifiedRange s e (d.c2.getD [])
  merge3 (l0.length + l1.length + l2.length) l0 l1 l2

/-- `range` (disk_collections.rs 232-291).  For an inverted range the standard library panics (`BTreeMap::range`); such
ranges are rejected inputs of this function (the model returns an empty list). -/
def range (d : DiskMap K V) (s e : Bnd K) : OMap K V :=
  match d.c1 with
  | some c1 =>
    if d.c0 = [] ∧ d.c2 = none then skipTombstones (rangeOf s e c1) else d.combinedRange s e
  | none =>
    match d.c2 with
    | some c2 => if d.c0 = [] then simplifiedRange s e c2 else d.combinedRange s e
    | none => skipTombstones (rangeOf s e d.c0)

/-- `iter` (disk_collections.rs 197-229). -/
def iter (d : DiskMap K V) : OMap K V :=
  match d.c1 with
  | some c1 => if d.c0 = [] ∧ d.c2 = none then skipTombstones c1 else d.range .unbounded .unbounded
  | none =>
    match d.c2 with
    | some c2 => if d.c0 = [] then c2 else d.range .unbounded .unbounded
    | none => skipTombstones d.c0

/-- `is_empty` (disk_collections.rs 293-299). -/
def isEmpty (d : DiskMap K V) : Bool :=
  if d.c0 = [] ∧ d.c1 = none ∧ d.c2 = none then true else List.isEmpty d.iter

/-- `clear` (disk_collections.rs 301-305). -/
def clear (d : DiskMap K V) : DiskMap K V := { d with c0 := [], c1 := none, c2 := none }

/-- `write_to` (disk_collections.rs 307-329): the table file holds the iterated entries. -/
def writeTo (d : DiskMap K V) : OMap K V := d.iter

end DiskMap
