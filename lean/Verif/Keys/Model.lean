import Mathlib.Data.List.Lex
import Mathlib.Order.Nat
import Mathlib.Data.Prod.Lex

/-!
# Model of `core/src/serializer.rs` and the binary keys of `core/src/annostorage/ondisk.rs`

A byte is a natural number below 256, a byte string is a `List Nat`, compared like Rust compares slices, i.e.
lexicographically (a proper prefix is smaller).  Machine integers are natural numbers below `256 ^ w`.
`usize` has eight bytes (64-bit platforms).
-/

namespace Keys

/-- A byte string. -/
abbrev Bytes := List Nat

/-- `to_be_bytes` of an unsigned integer with `w` bytes, `create_key` of u8/u16/u32/u64/u128/usize
(serializer.rs 60-62, 78-80, 96-98, 114-116, 132-134, 150-152). -/
def be : Nat → Nat → Bytes
  | 0, _ => []
  | w + 1, n => (n / 256 ^ w) % 256 :: be w n

/-- `from_be_bytes` on the first `w` bytes, `parse_key` (serializer.rs 64-68 and the other integer types).
`none`: slicing panics if there are fewer than `w` bytes. -/
def parseBe (w : Nat) (b : Bytes) : Option Nat :=
  if w ≤ b.length then some ((b.take w).foldl (fun acc x => acc * 256 + x) 0) else none

/-- `to_be_bytes` of a signed integer with `w` bytes: two's complement (serializer.rs 162-164 etc.). -/
def beSigned (w : Nat) (z : Int) : Bytes := be w (z % (256 ^ w : Int)).toNat

/-- `Edge` (types.rs 44-51). -/
structure Edge where
  source : Nat
  target : Nat
deriving DecidableEq

/-- The derived `Ord` of `Edge`: source first, then target (types.rs 44-46). -/
def Edge.Lt (a b : Edge) : Prop := a.source < b.source ∨ a.source = b.source ∧ a.target < b.target

/-- `create_key` of `Edge` (types.rs 74-79). -/
def edgeKey (e : Edge) : Bytes := be 8 e.source ++ be 8 e.target

/-- `parse_key` of `Edge` (types.rs 81-87); the rest after the source must have exactly eight bytes. -/
def parseEdge (b : Bytes) : Option Edge :=
  match parseBe 8 (b.take 8), parseBe 8 (b.drop 8) with
  | some s, some t => if b.length = 16 then some ⟨s, t⟩ else none
  | _, _ => none

/-- `create_by_container_key` (ondisk.rs 65-69). -/
def byContainerKey (item : Bytes) (symbol : Nat) : Bytes := item ++ be 8 symbol

/-- `parse_by_container_key` (ondisk.rs 284-295), `size` is the key size of the item type. -/
def parseByContainerKey (size : Nat) (b : Bytes) : Option (Bytes × Nat) :=
  (parseBe 8 (b.drop size)).map fun s => (b.take size, s)

/-- `create_by_anno_qname_key` (ondisk.rs 80-94). -/
def byQnameKey (item : Bytes) (symbol : Nat) (value : Bytes) : Bytes := be 8 symbol ++ value ++ 0 :: item

/-- `parse_by_anno_qname_key` (ondisk.rs 298-322): item from the end, drop the separator, symbol from the front. -/
def parseByQnameKey (size : Nat) (b : Bytes) : Option (Bytes × Nat × Bytes) :=
  let item := b.drop (b.length - size)
  let data := (b.take (b.length - size)).dropLast
  (parseBe 8 (data.take 8)).map fun s => (item, s, data.drop 8)

/-- `std::char::MAX` in UTF-8. -/
def charMax : Bytes := [0xF4, 0x8F, 0xBF, 0xBF]

/-- `NodeID::MIN.create_key()`. -/
def minId : Bytes := be 8 0

/-- `NodeID::MAX.create_key()`. -/
def maxId : Bytes := be 8 (256 ^ 8 - 1)

end Keys
