import Verif.DiskMap.Lemmas
import Verif.Keys.Props
import Verif.Anno.Model
import Verif.SymbolTable.Lemmas

/-!
# Model of `core/src/annostorage/ondisk.rs` (`AnnoStorageImpl`)

Built from the models of `DiskMap`, `SymbolTable` and the binary keys.  Values are byte strings (UTF-8).
Histograms (843-1013, 1060-1116) only feed estimates and are not modelled.  I/O errors are not modelled.
The eviction limit (line 26, 10 000 items) is a parameter.
-/

open Keys

/-- `FixedSizeKeySerializer` (serializer.rs 14-16) for item types, with the laws proved in `Verif.Keys`. -/
class FixedKey (T : Type) where
  size : Nat
  enc : T → Bytes
  dec : Bytes → Option T
  size_ge : 8 ≤ size
  enc_len : ∀ t, (enc t).length = size
  dec_enc : ∀ t, dec (enc t) = some t

/-- Node IDs (`NodeID = u64`, types.rs 21). -/
abbrev NodeID64 := Fin (256 ^ 8)

/-- Serializer of `NodeID` (serializer.rs 113-129). -/
instance : FixedKey NodeID64 where
  size := 8
  enc t := be 8 t.val
  dec b := (parseBe 8 b).bind fun n => if h : n < 256 ^ 8 then some ⟨n, h⟩ else none
  size_ge := Nat.le_refl 8
  enc_len t := be_length 8 t.val
  dec_enc t := by
    have := parseBe_be 8 t.val t.isLt []
    rw [List.append_nil] at this
    simp only [this, Option.bind_some]
    rw [dif_pos t.isLt]

/-- Serializer of `Edge` (types.rs 73-94). -/
instance : FixedKey (NodeID64 × NodeID64) where
  size := 16
  enc e := edgeKey ⟨e.1.val, e.2.val⟩
  dec b := (parseEdge b).bind fun e =>
    if h : e.source < 256 ^ 8 ∧ e.target < 256 ^ 8 then some (⟨e.source, h.1⟩, ⟨e.target, h.2⟩) else none
  size_ge := by decide
  enc_len e := by simp [edgeKey, be_length]
  dec_enc e := by
    have h : (⟨e.1.val, e.2.val⟩ : Keys.Edge).Valid := ⟨e.1.isLt, e.2.isLt⟩
    have := (C07_edge ⟨e.1.val, e.2.val⟩ ⟨e.1.val, e.2.val⟩ h h).2.2
    simp only [this, Option.bind_some]
    rw [dif_pos ⟨e.1.isLt, e.2.isLt⟩]

/-- `AnnoStorageImpl` (ondisk.rs 30-57) without histograms and file locations. -/
structure DiskAnno (T N : Type) where
  byContainer : DiskMap Bytes Bytes
  byQname : DiskMap Bytes Unit
  keys : SymbolTable (AnnoKey N)
  sizes : OMap (AnnoKey N) Nat
  largest : Option T

namespace DiskAnno

variable {T N : Type} [LinearOrder T] [FixedKey T] [LinearOrder N] [OrderBot N]

/-- `new` for a temporary storage (ondisk.rs 145-168). -/
def new (n : Nat) : DiskAnno T N := ⟨DiskMap.new n none, DiskMap.new n none, SymbolTable.new, [], none⟩

/-- `create_by_container_key` (ondisk.rs 65-69). -/
def ckey (t : T) (k : Nat) : Bytes := byContainerKey (FixedKey.enc t) k

/-- `create_by_anno_qname_key` (ondisk.rs 80-94). -/
def qkey (t : T) (k : Nat) (v : Bytes) : Bytes := byQnameKey (FixedKey.enc t) k v

/-- The existence check of `insert` (ondisk.rs 363-368), skipped for items behind the largest one. -/
def existed (s : DiskAnno T N) (item : T) (k : Nat) : Bool :=
  (match s.largest with
    | none => true
    | some l => decide (item ≤ l)) && s.byContainer.containsKey (ckey item k)

/-- `insert` (ondisk.rs 353-394).  An overwritten value keeps its entry in `by_anno_qname`. -/
def insert (s : DiskAnno T N) (item : T) (key : AnnoKey N) (val : Bytes) : DiskAnno T N :=
  let r := s.keys.insert key
  let k := r.2
  let s' : DiskAnno T N := { s with
    keys := r.1
    byContainer := s.byContainer.insert (ckey item k) val
    byQname := s.byQname.insert (qkey item k val) () }
  if s.existed item k then s'
  else { s' with
    largest := match s.largest with
      | some l => if l < item then some item else some l
      | none => some item
    sizes := s.sizes.insert key ((s.sizes.get key).getD 0 + 1) }

/-- The part shared by `remove_item` (ondisk.rs 429-457) and `remove_annotation_for_item` (ondisk.rs 472-500).
The subtraction of the counter is truncated here (the code would panic or wrap at zero). -/
def dropOne (s : DiskAnno T N) (item : T) (k : Nat) (key : AnnoKey N) : DiskAnno T N × Option Bytes :=
  let r := s.byContainer.remove (ckey item k)
  match r.2 with
  | none => ({ s with byContainer := r.1 }, none)
  | some val =>
    let byQname := (s.byQname.remove (qkey item k val)).1
    let n := (s.sizes.get key).elim 0 (· - 1)
    let sizes := match s.sizes.get key with
      | some _ => s.sizes.insert key n
      | none => s.sizes
    if n = 0 then
      let keys := match s.keys.getSymbol key with
        | some id => (s.keys.remove id).1
        | none => s.keys
      ({ s with byContainer := r.1, byQname := byQname, sizes := sizes.erase key, keys := keys }, some val)
    else ({ s with byContainer := r.1, byQname := byQname, sizes := sizes }, some val)

/-- `remove_annotation_for_item` (ondisk.rs 464-504). -/
def removeAnno (s : DiskAnno T N) (item : T) (key : AnnoKey N) : DiskAnno T N × Option Bytes :=
  match s.keys.getSymbol key with
  | some k => s.dropOne item k key
  | none => (s, none)

/-- The entries of an item (ondisk.rs 398-400, 416-420, 636-638). -/
def itemRange (s : DiskAnno T N) (item : T) : List (Bytes × Bytes) :=
  s.byContainer.range (.included (ckey item 0)) (.included (ckey item (256 ^ 8 - 1)))

/-- `get_value(symbol).unwrap_or_default()` (ondisk.rs 219-222, 290-292, 424-427). -/
def keyOf (s : DiskAnno T N) (k : Nat) : AnnoKey N := (s.keys.getValue k).getD (AnnoKey.mk ⊥ ⊥)

/-- The loop of `remove_item` (ondisk.rs 422-459) over the collected entries. -/
def removeItemLoop (s : DiskAnno T N) (item : T) : List (Bytes × Bytes) → DiskAnno T N × Bool
  | [] => (s, false)
  | p :: rest =>
    match parseByContainerKey (FixedKey.size T) p.1 with
    | none => removeItemLoop s item rest
    | some (_, k) =>
      let r := s.dropOne item k (s.keyOf k)
      let r' := removeItemLoop r.1 item rest
      (r'.1, r.2.isSome || r'.2)

/-- `remove_item` (ondisk.rs 413-462). -/
def removeItem (s : DiskAnno T N) (item : T) : DiskAnno T N × Bool := s.removeItemLoop item (s.itemRange item)

/-- `clear` (ondisk.rs 506-515): the symbols stay. -/
def clear (s : DiskAnno T N) : DiskAnno T N :=
  { s with byContainer := s.byContainer.clear, byQname := s.byQname.clear, largest := none, sizes := [] }

/-- `save_annotations_to` followed by loading the location (ondisk.rs 107-144, 1118-1166). -/
def saveLoad (s : DiskAnno T N) : DiskAnno T N :=
  { s with byContainer := DiskMap.new s.byContainer.maxItems (some s.byContainer.writeTo)
           byQname := DiskMap.new s.byQname.maxItems (some s.byQname.writeTo)
           keys := SymbolTable.load s.keys.store }

/-- `get_qnames` (ondisk.rs 517-533). -/
def qnames (s : DiskAnno T N) (name : N) : List (AnnoKey N) :=
  ((s.sizes.keys.dropWhile (fun k => k < AnnoKey.mk ⊥ name)).takeWhile (fun k => k.name = name))

/-- `get_value_for_item` (ondisk.rs 544-557). -/
def getValue (s : DiskAnno T N) (item : T) (key : AnnoKey N) : Option Bytes :=
  match s.keys.getSymbol key with
  | some k => s.byContainer.get (ckey item k)
  | none => none

/-- `has_value_for_item` (ondisk.rs 559-568). -/
def hasValue (s : DiskAnno T N) (item : T) (key : AnnoKey N) : Bool :=
  match s.keys.getSymbol key with
  | some k => s.byContainer.containsKey (ckey item k)
  | none => false

/-- `get_annotations_for_item` (ondisk.rs 396-411). -/
def annosForItem (s : DiskAnno T N) (item : T) : List (AnnoKey N × Bytes) :=
  (s.itemRange item).filterMap fun p =>
    (parseByContainerKey (FixedKey.size T) p.1).map fun q => (s.keyOf q.2, p.2)

/-- `number_of_annotations` (ondisk.rs 535-538). -/
def numAnnos (s : DiskAnno T N) : Nat := s.byContainer.iter.length

/-- Parse an entry of `by_anno_qname` (ondisk.rs 214-226, 298-322). -/
def parseEntry (s : DiskAnno T N) (b : Bytes) : Option (T × AnnoKey N) :=
  match parseByQnameKey (FixedKey.size T) b with
  | some (i, k, _) => (FixedKey.dec i : Option T).map fun t => (t, s.keyOf k)
  | none => none

/-- Candidate keys (ondisk.rs 180-191). -/
def keyRanges (s : DiskAnno T N) (ns : Option N) (name : N) : List (AnnoKey N) :=
  match ns with
  | some ns => [AnnoKey.mk ns name]
  | none => s.qnames name

/-- The entries between two values for each candidate key (ondisk.rs 195-212, 253-264): the bounds use the smallest and
largest *node* ID, whatever the item type is; the upper bound is excluded. -/
def entriesBetween (s : DiskAnno T N) (ns : Option N) (name : N) (lo hi : Bytes) : List (T × AnnoKey N) :=
  (((s.keyRanges ns name).filterMap s.keys.getSymbol).flatMap fun k =>
    s.byQname.range (.included (byQnameKey minId k lo)) (.excluded (byQnameKey maxId k hi))).filterMap
      fun p => s.parseEntry p.1

/-- `matching_items` (ondisk.rs 171-229). -/
def matchingItems (s : DiskAnno T N) (ns : Option N) (name : N) (value : Option Bytes) : List (T × AnnoKey N) :=
  match value with
  | some v => s.entriesBetween ns name v v
  | none => s.entriesBetween ns name [] charMax

/-- `exact_anno_search` (ondisk.rs 677-718). -/
def exactSearch (s : DiskAnno T N) (ns : Option N) (name : N) : ValueSearch Bytes → List (T × AnnoKey N)
  | .any => s.matchingItems ns name none
  | .some v => s.matchingItems ns name (some v)
  | .notSome v => (s.matchingItems ns name none).filter fun p =>
      match s.getValue p.1 p.2 with
      | some w => w ≠ v
      | none => false

/-- `regex_anno_search` (ondisk.rs 720-788).  The compiled pattern is a predicate together with the literal prefix that
`regex_syntax` extracts, `none` when it does not compile. -/
def regexSearch (s : DiskAnno T N) (ns : Option N) (name : N) (re : Option ((Bytes → Bool) × Bytes)) (negated : Bool) :
    List (T × AnnoKey N) :=
  match re with
  | some (re, pre) =>
    if negated then
      (s.matchingItems ns name none).filter fun p =>
        match s.getValue p.1 p.2 with
        | some w => !re w
        | none => false
    else
      (s.entriesBetween ns name pre (pre ++ charMax)).filter fun p =>
        match s.getValue p.1 p.2 with
        | some w => re w
        | none => false
  | none => if negated then s.exactSearch ns name .any else []

/-- The values of the entries of a key (ondisk.rs 324-338, 1022-1024). -/
def valuesOfKey (s : DiskAnno T N) (key : AnnoKey N) : List Bytes :=
  match s.keys.getSymbol key with
  | some k =>
    (s.byQname.range (.included (byQnameKey minId k [])) (.excluded (byQnameKey maxId k charMax))).filterMap
      fun p => (parseByQnameKey (FixedKey.size T) p.1).map fun q => q.2.2
  | none => []

/-- `get_all_values` (ondisk.rs 1015-1050): sorted by ascending count when the most frequent ones should be first. -/
def allValues (s : DiskAnno T N) (key : AnnoKey N) (mostFrequentFirst : Bool) : List Bytes :=
  let vals := s.valuesOfKey key
  let uniq := vals.dedup
  if mostFrequentFirst then
    let counted : List (Nat ×ₗ Bytes) := uniq.map fun v => toLex (vals.count v, v)
    (counted.mergeSort fun a b => decide (a ≤ b)).map fun p => (ofLex p).2
  else uniq

/-- `annotation_keys` (ondisk.rs 1052-1054). -/
def annotationKeys (s : DiskAnno T N) : List (AnnoKey N) := s.sizes.keys

/-- `get_node_id_from_name` (ondisk.rs 1170-1183). -/
def nodeIdFromName (s : DiskAnno T N) (nameKey : AnnoKey N) (v : Bytes) : Option T :=
  match s.keys.getSymbol nameKey with
  | some k =>
    match (s.byQname.range (.included (byQnameKey minId k v)) (.included (byQnameKey maxId k v))).head? with
    | some p => (s.parseEntry p.1).map Prod.fst
    | none => none
  | none => none

/-- `has_node_name` (ondisk.rs 1185-1194). -/
def hasNodeName (s : DiskAnno T N) (nameKey : AnnoKey N) (v : Bytes) : Bool :=
  match s.keys.getSymbol nameKey with
  | some k => !(s.byQname.range (.included (byQnameKey minId k v)) (.included (byQnameKey maxId k v))).isEmpty
  | none => false

end DiskAnno
