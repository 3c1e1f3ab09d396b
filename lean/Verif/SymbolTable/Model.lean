import Verif.Util.OMap

/-!
# Model of `core/src/annostorage/symboltable.rs`

Simplifications: `Arc` sharing is invisible; the hash map `by_value` is an `OMap` (only lookups are used, so its order does
not matter); the overflow branch (`by_id.len() == usize::MAX`, lines 61-63) is not modelled because a vector of that
length cannot exist in memory.
-/

/-- `SymbolTable<T>` (symboltable.rs 8-17).  `emptySlots` is the stack of free slots, top first. -/
structure SymbolTable (V : Type _) where
  byId : List (Option V)
  byValue : OMap V Nat
  emptySlots : List Nat

namespace SymbolTable

variable {V : Type _} [LinearOrder V]

/-- `new` (symboltable.rs 23-30). -/
def new : SymbolTable V := ⟨[], [], []⟩

/-- `get_value` / `get_value_ref` (symboltable.rs 85-101): `None` when out of range or the slot is empty. -/
def getValue (t : SymbolTable V) (id : Nat) : Option V := (t.byId[id]?).join

/-- `get_symbol` (symboltable.rs 103-105). -/
def getSymbol (t : SymbolTable V) (v : V) : Option Nat := t.byValue.get v

/-- `insert` / `insert_shared` (symboltable.rs 42-67): existing id, else a popped free slot, else a new slot. -/
def insert (t : SymbolTable V) (v : V) : SymbolTable V × Nat :=
  match t.byValue.get v with
  | some id => (t, id)
  | none =>
    match t.emptySlots with
    | slot :: rest =>
      ({ byId := t.byId.set slot (some v), byValue := t.byValue.insert v slot, emptySlots := rest }, slot)
    | [] =>
      ({ byId := t.byId ++ [some v], byValue := t.byValue.insert v t.byId.length, emptySlots := [] },
        t.byId.length)

/-- `remove` (symboltable.rs 69-83). -/
def remove (t : SymbolTable V) (id : Nat) : SymbolTable V × Option V :=
  match (t.byId[id]?).join with
  | some v =>
    ({ byId := t.byId.set id none, byValue := t.byValue.erase v, emptySlots := id :: t.emptySlots }, some v)
  | none => (t, none)

/-- `clear` (symboltable.rs 115-119). -/
def clear (_ : SymbolTable V) : SymbolTable V := ⟨[], [], []⟩

/-- What serde writes (symboltable.rs 8-17): `by_value` is skipped. -/
structure Stored (V : Type _) where
  byId : List (Option V)
  emptySlots : List Nat

def store (t : SymbolTable V) : Stored V := ⟨t.byId, t.emptySlots⟩

/-- The loop of `after_deserialization` (symboltable.rs 32-40) starting at index `i`. -/
def rebuild : List (Option V) → Nat → OMap V Nat → OMap V Nat
  | [], _, m => m
  | some v :: r, i, m => rebuild r (i + 1) (m.insert v i)
  | none :: r, i, m => rebuild r (i + 1) m

/-- Deserialisation followed by `after_deserialization` (symboltable.rs 32-40; `by_value` starts empty by `serde(skip)`). -/
def load (s : Stored V) : SymbolTable V := ⟨s.byId, rebuild s.byId 0 [], s.emptySlots⟩

end SymbolTable
