import Verif.Util.OMap

/-!
# Model of the update log (core/src/graph/update.rs)

A change set is a table of (id, event) pairs in the order in which they were written.  Simplified: the events are not encoded
to bytes (bincode is trusted to be a bijection) and the ids are numbers instead of their big endian encoding, whose order and
round trip are C07.  The counter does not overflow 64 bits.
-/

/-- `ChangeSet` (update.rs 81-89). -/
inductive ChangeSet (Ev : Type)
  | inProgress (table : List (Nat × Ev))
  | finished (table : List (Nat × Ev))

/-- `GraphUpdate` (update.rs 92-96). -/
structure GraphUpdate (Ev : Type) where
  sets : List (ChangeSet Ev)
  counter : Nat

/-- `TableBuilder::add` of the sstable crate: the keys have to be added in ascending order, `none` is its panic. -/
def tableAdd {Ev : Type} (t : List (Nat × Ev)) (id : Nat) (e : Ev) : Option (List (Nat × Ev)) :=
  match t.getLast? with
  | some (last, _) => if last < id then some (t ++ [(id, e)]) else none
  | none => some [(id, e)]

namespace GraphUpdate

variable {Ev : Type}

/-- `new` (update.rs 106-112). -/
def new : GraphUpdate Ev := ⟨[], 0⟩

/-- `current_inprogress_changeset` (update.rs 172-197): the finished part and the table of the last, writable change set. -/
def current (sets : List (ChangeSet Ev)) : List (ChangeSet Ev) × List (Nat × Ev) :=
  match sets.getLast? with
  | some (.inProgress t) => (sets.dropLast, t)
  | _ => (sets, [])

/-- `add_event` (update.rs 115-127). -/
def addEvent (u : GraphUpdate Ev) (e : Ev) : Option (GraphUpdate Ev) :=
  let (front, t) := current u.sets
  (tableAdd t (u.counter + 1) e).map fun t => ⟨front ++ [.inProgress t], u.counter + 1⟩

/-- `is_empty` (update.rs 136-138). -/
def isEmpty (u : GraphUpdate Ev) : Bool := u.counter = 0

/-- `len` (update.rs 141-144). -/
def len (u : GraphUpdate Ev) : Nat := u.counter

/-- `finish_all_changesets` (update.rs 147-170). -/
def finishAll (sets : List (ChangeSet Ev)) : List (ChangeSet Ev) :=
  sets.map fun c => match c with
    | .inProgress t => .finished t
    | .finished t => .finished t

/-- The table iterators of `GraphUpdateIterator::new` (update.rs 206-227). -/
def iterators (sets : List (ChangeSet Ev)) : List (List (Nat × Ev)) :=
  sets.filterMap fun c => match c with
    | .inProgress _ => none
    | .finished t => some t

/-- `GraphUpdateIterator::next` (update.rs 233-256): exhausted iterators are removed, then the first one is advanced. -/
def next (its : List (List (Nat × Ev))) : Option ((Nat × Ev) × List (List (Nat × Ev))) :=
  match its.filter (fun t => !t.isEmpty) with
  | (x :: t) :: r => some (x, t :: r)
  | _ => none

/-- Calling `next` up to `n` times. -/
def collect : Nat → List (List (Nat × Ev)) → List (Nat × Ev)
  | 0, _ => []
  | n + 1, its =>
    match next its with
    | some (x, its) => x :: collect n its
    | none => []

/-- `iter` (update.rs 130-133): finishing the change sets is a side effect on the log.  The events are those of all calls to
`next`; the number of calls is bounded by the size of the tables. -/
def iter (u : GraphUpdate Ev) : GraphUpdate Ev × List (Nat × Ev) :=
  let sets := finishAll u.sets
  let its := iterators sets
  (⟨sets, u.counter⟩, collect ((its.map List.length).sum + 1) its)

/-- `visit_map` (update.rs 296-329). -/
def deserialize (entries : List (Nat × Ev)) : Option (GraphUpdate Ev) :=
  (entries.foldlM (fun (acc : List (Nat × Ev) × Nat) (x : Nat × Ev) => (tableAdd acc.1 x.1 x.2).map fun t => (t, x.1)) ([], 0)).map
    fun r => ⟨finishAll [.inProgress r.1], r.2⟩

/-- `Serialize for GraphUpdate` (update.rs 267-285) followed by `Deserialize` (332-338). -/
def saveLoad (u : GraphUpdate Ev) : Option (GraphUpdate Ev) := deserialize u.iter.2

end GraphUpdate
