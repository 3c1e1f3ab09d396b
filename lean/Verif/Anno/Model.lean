import Verif.SymbolTable.Model
import Mathlib.Data.Prod.Lex

/-!
# Model of `core/src/annostorage/inmemory.rs` (`AnnoStorageImpl`)

Generic in the item type `T` (node id or edge), the string type `N` of names and namespaces (linear order with least
element, the empty string) and the value type `V`.  Histograms (lines 36-38, 693-868, 910-980) are only used for estimates
and are not modelled.  `Result` is dropped: the only error of the modelled operations is the symbol table overflow.
Hash maps are `OMap`s; no property theorem depends on their iteration order.
-/

/-- `AnnoKey` (core/src/types.rs), ordered by name, then namespace. -/
abbrev AnnoKey (N : Type) := N ×ₗ N

namespace AnnoKey
variable {N : Type}
def mk (ns name : N) : AnnoKey N := toLex (name, ns)
def name (k : AnnoKey N) : N := (ofLex k).1
def ns (k : AnnoKey N) : N := (ofLex k).2
end AnnoKey

/-- `by_anno` (inmemory.rs 24, 30): key symbol ↦ value symbol ↦ set of items. -/
abbrev ByAnno (T : Type) := OMap Nat (OMap Nat (OMap T Unit))

/-- `AnnoStorageImpl` (inmemory.rs 26-41) without `histogram_bounds`.
The sorted vector of sparse annotations of an item is an `OMap` from key symbol to value symbol. -/
structure AnnoStore (T N V : Type) where
  byContainer : OMap T (OMap Nat Nat)
  byAnno : ByAnno T
  sizes : OMap (AnnoKey N) Nat
  keys : SymbolTable (AnnoKey N)
  vals : SymbolTable V
  largest : Option T
  total : Nat

/-- `ValueSearch` (core/src/annostorage/mod.rs). -/
inductive ValueSearch (V : Type)
  | any
  | some (v : V)
  | notSome (v : V)

namespace AnnoStore

variable {T N V : Type} [LinearOrder T] [LinearOrder N] [OrderBot N] [LinearOrder V]

/-- `new` (inmemory.rs 46-57). -/
def new : AnnoStore T N V := ⟨[], [], [], SymbolTable.new, SymbolTable.new, none, 0⟩

/-- `clear` / `clear_internal` (inmemory.rs 59-67, 349-352).  `total_number_of_annos` is not reset by the code. -/
def clear (s : AnnoStore T N V) : AnnoStore T N V :=
  { s with byContainer := [], byAnno := [], keys := s.keys.clear, sizes := [], largest := none,
           vals := s.vals.clear }

/-- `remove_element_from_by_anno` (inmemory.rs 86-108) on the `by_anno` field. -/
def removeByAnno (m : ByAnno T) (k v : Nat) (item : T) : ByAnno T :=
  match m.get k with
  | none => m
  | some vm =>
    match vm.get v with
    | none => m
    | some items =>
      let items' := items.erase item
      if items' = [] then
        let vm' := vm.erase v
        if vm' = [] then m.erase k else m.insert k vm'
      else m.insert k (vm.insert v items')

/-- The entry insertion of `insert` (inmemory.rs 233-239). -/
def addByAnno (m : ByAnno T) (k v : Nat) (item : T) : ByAnno T :=
  let vm := (m.get k).getD []
  let items := (vm.get v).getD []
  m.insert k (vm.insert v (items.insert item ()))

/-- The test of `check_and_remove_value_symbol` (inmemory.rs 110-121). -/
def valueUsed (m : ByAnno T) (v : Nat) : Bool := m.any (fun p => (p.2.get v).isSome)

/-- `insert` (inmemory.rs 198-258). -/
def insert (s : AnnoStore T N V) (item : T) (key : AnnoKey N) (val : V) : AnnoStore T N V :=
  let (keys, k) := s.keys.insert key
  let (vals, v) := s.vals.insert val
  let s := { s with keys := keys, vals := vals }
  let row := (s.byContainer.get item).getD []
  match row.get k with
  | some old =>
    if old = v then s
    else
      { s with byContainer := s.byContainer.insert item (row.insert k v),
               byAnno := addByAnno (removeByAnno s.byAnno k old item) k v item }
  | none =>
    { s with byContainer := s.byContainer.insert item (row.insert k v),
             byAnno := addByAnno s.byAnno k v item,
             total := s.total + 1,
             largest := match s.largest with
               | some l => if l < item then some item else some l
               | none => some item,
             sizes := s.sizes.insert key ((s.sizes.get key).getD 0 + 1) }

/-- The per-annotation clean-up shared by `remove_annotation_for_item` (inmemory.rs 276-304) and `remove_item`
(inmemory.rs 321-342): `key` is the resolved annotation key. `by_container` is handled by the callers.
The `usize` subtractions are truncated here; `C04_no_underflow` shows that they never go below zero. -/
def dropAnno (s : AnnoStore T N V) (item : T) (k v : Nat) (key : Option (AnnoKey N)) : AnnoStore T N V :=
  let byAnno := removeByAnno s.byAnno k v item
  let s := { s with byAnno := byAnno }
  let s :=
    match key with
    | none => s
    | some key =>
      let n := (s.sizes.get key).elim 0 (· - 1)
      let sizes := match s.sizes.get key with
        | some _ => s.sizes.insert key n
        | none => s.sizes
      if n = 0 then
        { s with byAnno := s.byAnno.erase k, sizes := sizes.erase key, keys := (s.keys.remove k).1 }
      else { s with sizes := sizes }
  let vals := if valueUsed s.byAnno v then s.vals else (s.vals.remove v).1
  { s with vals := vals, total := s.total - 1 }

/-- Put a row back, or drop the item when the row is empty (inmemory.rs 269, 307-309). -/
def putRow (m : OMap T (OMap Nat Nat)) (item : T) (row : OMap Nat Nat) : OMap T (OMap Nat Nat) :=
  if row = [] then m.erase item else m.insert item row

/-- `remove_annotation_for_item` (inmemory.rs 260-313). -/
def removeAnno (s : AnnoStore T N V) (item : T) (key : AnnoKey N) : AnnoStore T N V × Option V :=
  match s.keys.getSymbol key with
  | none => (s, none)
  | some k =>
    match s.byContainer.get item with
    | none => (s, none)
    | some row =>
      match row.get k with
      | none => ({ s with byContainer := putRow s.byContainer item row }, none)
      | some v =>
        ({ dropAnno s item k v (some key) with byContainer := putRow s.byContainer item (row.erase k) },
          s.vals.getValue v)

/-- The loop of `remove_item` (inmemory.rs 319-343). -/
def removeItemLoop (s : AnnoStore T N V) (item : T) : OMap Nat Nat → AnnoStore T N V
  | [] => s
  | (k, v) :: rest => removeItemLoop (dropAnno s item k v (s.keys.getValue k)) item rest

/-- `remove_item` (inmemory.rs 315-347). -/
def removeItem (s : AnnoStore T N V) (item : T) : AnnoStore T N V × Bool :=
  match s.byContainer.get item with
  | none => (s, false)
  | some row =>
    (removeItemLoop { s with byContainer := s.byContainer.erase item } item row, row ≠ [])

/-- `get_qnames` (inmemory.rs 354-370): a range scan that stops at the first other name. -/
def qnames (s : AnnoStore T N V) (name : N) : List (AnnoKey N) :=
  ((s.sizes.keys.dropWhile (fun k => k < AnnoKey.mk ⊥ name)).takeWhile (fun k => k.name = name))

/-- `create_annotation_from_sparse` (inmemory.rs 76-84). -/
def resolve (s : AnnoStore T N V) (p : Nat × Nat) : Option (AnnoKey N × V) := do
  let k ← s.keys.getValue p.1
  let v ← s.vals.getValue p.2
  pure (k, v)

/-- `get_annotations_for_item` (inmemory.rs 372-384). -/
def annosForItem (s : AnnoStore T N V) (item : T) : List (AnnoKey N × V) :=
  match s.byContainer.get item with
  | some row => row.filterMap s.resolve
  | none => []

/-- `number_of_annotations` (inmemory.rs 386-388). -/
def numAnnos (s : AnnoStore T N V) : Nat := s.total

/-- `is_empty` (inmemory.rs 390-392). -/
def isEmpty (s : AnnoStore T N V) : Bool := s.total = 0

/-- `get_value_for_item` (inmemory.rs 394-406). -/
def getValue (s : AnnoStore T N V) (item : T) (key : AnnoKey N) : Option V := do
  let k ← s.keys.getSymbol key
  let row ← s.byContainer.get item
  let v ← row.get k
  s.vals.getValue v

/-- `has_value_for_item` (inmemory.rs 408-418). -/
def hasValue (s : AnnoStore T N V) (item : T) (key : AnnoKey N) : Bool :=
  match s.keys.getSymbol key, s.byContainer.get item with
  | some k, some row => (row.get k).isSome
  | _, _ => false

/-- The candidate keys of a search (inmemory.rs 135-146, 526-537). -/
def keyRanges (s : AnnoStore T N V) (ns : Option N) (name : N) : List (AnnoKey N) :=
  match ns with
  | some ns => [AnnoKey.mk ns name]
  | none => s.qnames name

/-- The value maps of the candidate keys (inmemory.rs 147-157, 538-548). -/
def valueMaps (s : AnnoStore T N V) (ns : Option N) (name : N) :
    List (AnnoKey N × OMap Nat (OMap T Unit)) :=
  (s.keyRanges ns name).filterMap fun key => do
    let k ← s.keys.getSymbol key
    let vm ← s.byAnno.get k
    pure (key, vm)

/-- All items below a key (inmemory.rs 178-187, 570-578). -/
def allItems (s : AnnoStore T N V) (ns : Option N) (name : N) : List (T × AnnoKey N) :=
  (s.valueMaps ns name).flatMap fun p => (p.2.flatMap fun q => q.2.keys).map fun t => (t, p.1)

/-- `exact_anno_search` (inmemory.rs 520-600). -/
def exactSearch (s : AnnoStore T N V) (ns : Option N) (name : N) : ValueSearch V → List (T × AnnoKey N)
  | .some val =>
    match s.vals.getSymbol val with
    | some v =>
      ((s.valueMaps ns name).filterMap fun p => (p.2.get v).map fun items => (items, p.1)).flatMap
        fun p => p.1.keys.map fun t => (t, p.2)
    | none => []
  | .notSome val =>
    (s.allItems ns name).filter fun p =>
      match s.getValue p.1 p.2 with
      | some w => w ≠ val
      | none => false
  | .any => s.allItems ns name

/-- `regex_anno_search` (inmemory.rs 602-639).  The compiled pattern is a predicate, `none` when it does not compile. -/
def regexSearch (s : AnnoStore T N V) (ns : Option N) (name : N) (re : Option (V → Bool)) (negated : Bool) :
    List (T × AnnoKey N) :=
  match re with
  | some re =>
    (s.allItems ns name).filter fun p =>
      match s.getValue p.1 p.2 with
      | some w => if negated then !re w else re w
      | none => false
  | none => if negated then s.exactSearch ns name .any else []

/-- `get_all_keys_for_item` (inmemory.rs 641-691). -/
def allKeysForItem (s : AnnoStore T N V) (item : T) (ns name : Option N) : List (AnnoKey N) :=
  match name with
  | some name =>
    match ns with
    | some ns => if s.hasValue item (AnnoKey.mk ns name) then [AnnoKey.mk ns name] else []
    | none => (s.qnames name).filter fun k => (s.getValue item k).isSome
  | none =>
    match s.byContainer.get item with
    | some row => row.filterMap fun p => s.keys.getValue p.1
    | none => []

/-- `get_keys_for_iterator` (inmemory.rs 420-489). -/
def keysForIterator (s : AnnoStore T N V) (ns name : Option N) (it : List T) : List (T × AnnoKey N) :=
  match name with
  | some name =>
    match ns with
    | some ns =>
      match s.keys.getSymbol (AnnoKey.mk ns name) with
      | some k =>
        it.filterMap fun t =>
          match s.byContainer.get t with
          | some row => if (row.get k).isSome then some (t, AnnoKey.mk ns name) else none
          | none => none
      | none => []
    | none =>
      let ks := (s.qnames name).filterMap fun key => (s.keys.getSymbol key).map fun k => (k, key)
      it.flatMap fun t => ks.filterMap fun p =>
        match s.byContainer.get t with
        | some row => if (row.get p.1).isSome then some (t, p.2) else none
        | none => none
  | none => it.flatMap fun t => (s.allKeysForItem t none none).map fun k => (t, k)

/-- `number_of_annotations_by_name` (inmemory.rs 491-518).  `top` is the exclusive upper bound of the namespace
(`char::MAX` as a string) used when no namespace is given. -/
def numByName (s : AnnoStore T N V) (top : N) (ns : Option N) (name : N) : Nat :=
  match ns with
  | some ns => ((s.sizes.filter fun p => p.1 = AnnoKey.mk ns name).map Prod.snd).sum
  | none =>
    ((s.sizes.filter fun p => AnnoKey.mk ⊥ name ≤ p.1 ∧ p.1 < AnnoKey.mk top name).map Prod.snd).sum

/-- `get_all_values` (inmemory.rs 870-900): `.sorted().rev()` on (count, value) pairs. -/
def allValues (s : AnnoStore T N V) (key : AnnoKey N) (mostFrequentFirst : Bool) : List V :=
  match s.keys.getSymbol key with
  | none => []
  | some k =>
    match s.byAnno.get k with
    | none => []
    | some vm =>
      if mostFrequentFirst then
        let counted : List (Nat ×ₗ V) :=
          vm.filterMap fun p => (s.vals.getValue p.1).map fun v => toLex (p.2.length, v)
        ((counted.mergeSort fun a b => decide (a ≤ b)).reverse).map fun p => (ofLex p).2
      else vm.filterMap fun p => s.vals.getValue p.1

/-- `annotation_keys` (inmemory.rs 902-904). -/
def annotationKeys (s : AnnoStore T N V) : List (AnnoKey N) := s.sizes.keys

/-- `get_largest_item` (inmemory.rs 906-908). -/
def largestItem (s : AnnoStore T N V) : Option T := s.largest

/-- `get_node_id_from_name` (inmemory.rs 1012-1023); `nameKey` is `NODE_NAME_KEY`. -/
def nodeIdFromName (s : AnnoStore T N V) (nameKey : AnnoKey N) (val : V) : Option T := do
  let k ← s.keys.getSymbol nameKey
  let v ← s.vals.getSymbol val
  let vm ← s.byAnno.get k
  let items ← vm.get v
  items.keys.head?

/-- `has_node_name` (inmemory.rs 1025-1036). -/
def hasNodeName (s : AnnoStore T N V) (nameKey : AnnoKey N) (val : V) : Bool :=
  ((do
    let k ← s.keys.getSymbol nameKey
    let v ← s.vals.getSymbol val
    let vm ← s.byAnno.get k
    let items ← vm.get v
    pure (items ≠ [] : Bool)) : Option Bool).getD false

/-- Save and load (inmemory.rs 982-1008): bincode keeps all fields but the skipped `by_value` maps, which
`after_deserialization` rebuilds. -/
def saveLoad (s : AnnoStore T N V) : AnnoStore T N V :=
  { s with keys := SymbolTable.load s.keys.store, vals := SymbolTable.load s.vals.store }

end AnnoStore
