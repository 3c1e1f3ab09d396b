import Verif.Dfs.Model

/-!
# Model of the union of edge containers

core/src/graph/storage/union.rs 8-79 and the provided methods of `EdgeContainer` (core/src/graph/storage/mod.rs 86-134).
The hash sets are lists without duplicates in order of first insertion; no theorem depends on the order.
-/

/-- `trait EdgeContainer` (storage/mod.rs 76-134): iterators over results, `ε` is the error type. -/
structure Container (ε N : Type) where
  out : N → List (Except ε N)
  inn : N → List (Except ε N)
  sources : List (Except ε N)

/-- `iter.collect::<Result<Vec<_>>>()`: the values, or the first error. -/
def collectResults {ε N : Type} : List (Except ε N) → Except ε (List N)
  | [] => .ok []
  | .error e :: _ => .error e
  | .ok x :: r => (collectResults r).map fun l => x :: l

/-- `HashSet::extend`. -/
def setExtend {N : Type} [DecidableEq N] (s l : List N) : List N :=
  l.foldl (fun s x => if x ∈ s then s else s ++ [x]) s

namespace UnionContainer

variable {ε N : Type} [DecidableEq N]

/-- Loop body of `get_outgoing_edges` and `get_ingoing_edges` (union.rs 29-35, 53-59). -/
def mergeStep (acc : List N × List ε) (edges : List (Except ε N)) : List N × List ε :=
  match collectResults edges with
  | .ok l => (setExtend acc.1 l, acc.2)
  | .error e => (acc.1, acc.2 ++ [e])

/-- The common body of the two methods (union.rs 25-41, 49-65). -/
def merge (lists : List (List (Except ε N))) : List (Except ε N) :=
  let r := lists.foldl mergeStep ([], [])
  if r.2.isEmpty then r.1.map .ok else r.2.map .error

/-- `get_outgoing_edges` (union.rs 19-42). -/
def out (cs : List (Container ε N)) (n : N) : List (Except ε N) := merge (cs.map fun c => c.out n)

/-- `get_ingoing_edges` (union.rs 44-66). -/
def inn (cs : List (Container ε N)) (n : N) : List (Except ε N) := merge (cs.map fun c => c.inn n)

/-- `source_nodes` (union.rs 68-79): stops at the first error. -/
def sources (cs : List (Container ε N)) : List (Except ε N) :=
  match collectResults (cs.flatMap fun c => c.sources) with
  | .ok l => (setExtend [] l).map .ok
  | .error e => [.error e]

/-- The union as an edge container. -/
def union (cs : List (Container ε N)) : Container ε N := ⟨out cs, inn cs, sources cs⟩

end UnionContainer

namespace Container

variable {ε N : Type}

/-- The body of `has_outgoing_edges` and `has_ingoing_edges` (storage/mod.rs 86-93, 102-109). -/
def hasAny : List (Except ε N) → Except ε Bool
  | [] => .ok false
  | .ok _ :: _ => .ok true
  | .error e :: _ => .error e

def hasOut (c : Container ε N) (n : N) : Except ε Bool := hasAny (c.out n)

def hasIn (c : Container ε N) (n : N) : Except ε Bool := hasAny (c.inn n)

/-- `root_nodes` (storage/mod.rs 119-133). -/
def roots (c : Container ε N) : List (Except ε N) :=
  c.sources.filterMap fun x =>
    match x with
    | .error e => some (.error e)
    | .ok n =>
      match c.hasIn n with
      | .error e => some (.error e)
      | .ok b => if b then none else some (.ok n)

/-- The successful entries, as seen by a traversal. -/
def oks (l : List (Except ε N)) : List N := l.filterMap fun x => match x with
  | .ok n => some n
  | .error _ => none

/-- No call on the container fails. -/
def NoError (c : Container ε N) : Prop :=
  (∀ n, ∀ x ∈ c.out n, ∃ y, x = .ok y) ∧ (∀ n, ∀ x ∈ c.inn n, ∃ y, x = .ok y) ∧ ∀ x ∈ c.sources, ∃ y, x = .ok y

end Container
