import Verif.Util.Runs
import Verif.Sort.Compare

/-!
# Joins

`graphannis/src/annis/db/exec/{nestedloop,indexjoin,filter}.rs` and `exec/parallel/{nestedloop,indexjoin}.rs`.

A stream of an execution node is a list of rows or errors. Costs and descriptions for output are left out; they are only used to
choose which operand is the outer one. Timeouts are left out.
-/

/-- `Err` items and panics. A panic ends the query; in the model it is an item of the output, what follows it has no meaning. -/
inductive Fail (E : Type) | err (e : E) | panic
deriving DecidableEq

section
variable {N K E : Type} [DecidableEq N] [DecidableEq K]

/-- `MatchGroup` (core/src/annostorage/mod.rs): one match for each query node. -/
abbrev Row (N K : Type) := List (SMatch N K)

/-- `Result<MatchGroup>`. -/
abbrev Item (N K E : Type) := Except (Fail E) (Row N K)

/-- `different_to` (core/src/annostorage/mod.rs 111-113). -/
def SMatch.differentTo (m o : SMatch N K) : Bool := m.node ≠ o.node || m.key ≠ o.key

/-- `different_to_all` (core/src/annostorage/mod.rs 99-106). -/
def SMatch.differentToAll (m : SMatch N K) (r : Row N K) : Bool := !r.any fun o => m.node = o.node && m.key = o.key

/-- `row[idx]`; panics if there is no such column. -/
def Row.at' (r : Row N K) (i : Nat) : Except (Fail E) (SMatch N K) :=
  match r[i]? with
  | some m => .ok m
  | none => .error .panic

/-- A binary operator: `filter_match` and `is_reflexive` (graphannis/src/annis/operator.rs 129-135). -/
structure BinOp (N K E : Type) where
  filter : SMatch N K → SMatch N K → Except (Fail E) Bool
  reflexive : Bool

/-- The fixed part of a nested loop join (exec/nestedloop.rs 10-23; `outer` is the right operand if not `leftIsOuter`). -/
structure NlConf (N K E : Type) where
  op : BinOp N K E
  outerIdx : Nat
  innerIdx : Nat
  leftIsOuter : Bool
  globalReflexivity : Bool

/-- The operator applied to a pair of rows (exec/nestedloop.rs 122-128, 149-155). -/
def NlConf.filterPair (c : NlConf N K E) (o i : Row N K) : Except (Fail E) Bool := do
  let a ← o.at' c.outerIdx
  let b ← i.at' c.innerIdx
  if c.leftIsOuter then c.op.filter a b else c.op.filter b a

/-- The condition for a pair of rows when the inner rows come from the cache (exec/nestedloop.rs 122-138). -/
def NlConf.pairCached (c : NlConf N K E) (o i : Row N K) : Except (Fail E) Bool := do
  let f ← c.filterPair o i
  let a ← o.at' c.outerIdx
  let b ← i.at' c.innerIdx
  pure (f && (c.op.reflexive || (c.globalReflexivity && a.differentToAll i && b.differentToAll o) ||
    (!c.globalReflexivity && a.differentTo b)))

/-- The condition for a pair of rows in the first pass (exec/nestedloop.rs 149-164). -/
def NlConf.pairFirst (c : NlConf N K E) (o i : Row N K) : Except (Fail E) Bool := do
  let f ← c.filterPair o i
  let a ← o.at' c.outerIdx
  let b ← i.at' c.innerIdx
  pure (f && (c.op.reflexive || a.node ≠ b.node || a.key ≠ b.key))

/-- The state of a nested loop join. `outer` and `inner` are what is left of the streams (peeking does not change this). -/
structure NlState (N K E : Type) where
  outer : List (Item N K E)
  inner : List (Item N K E)
  cache : List (Row N K)
  pos : Option Nat

/-- The loop over the cached inner rows (exec/nestedloop.rs 118-143): the item to return and the new position, if any. -/
def NlConf.scanCache (c : NlConf N K E) (o : Row N K) : List (Row N K) → Nat → Option (Item N K E × Nat)
  | [], _ => none
  | i :: is, pos =>
    match c.pairCached o i with
    | .error e => some (.error e, pos + 1)
    | .ok true => some (.ok (o ++ i), pos + 1)
    | .ok false => c.scanCache o is (pos + 1)

/-- The loop over the inner stream in the first pass (exec/nestedloop.rs 145-170): the item to return (if any), what is left of
the stream and the cache. -/
def NlConf.scanInner (c : NlConf N K E) (o : Row N K) :
    List (Item N K E) → List (Row N K) → Option (Item N K E) × List (Item N K E) × List (Row N K)
  | [], cache => (none, [], cache)
  | .error e :: is, cache => (some (.error e), is, cache)
  | .ok i :: is, cache =>
    match c.pairFirst o i with
    | .error e => (some (.error e), is, cache ++ [i])
    | .ok true => (some (.ok (o ++ i)), is, cache ++ [i])
    | .ok false => c.scanInner o is (cache ++ [i])

/-- `NestedLoop::next` (exec/nestedloop.rs 114-183). -/
def NlConf.next (c : NlConf N K E) (s : NlState N K E) : Option (Item N K E) × NlState N K E :=
  match s with
  | ⟨[], inner, cache, pos⟩ => (none, ⟨[], inner, cache, pos⟩)
  | ⟨.error e :: os, inner, cache, pos⟩ => (some (.error e), ⟨os, inner, cache, pos⟩)
  | ⟨.ok o :: os, inner, cache, some p⟩ =>
    match c.scanCache o (cache.drop p) p with
    | some (r, p') => (some r, ⟨.ok o :: os, inner, cache, some p'⟩)
    | none => c.next ⟨os, inner, cache, some 0⟩
  | ⟨.ok o :: os, inner, cache, none⟩ =>
    match c.scanInner o inner cache with
    | (some r, inner', cache') => (some r, ⟨.ok o :: os, inner', cache', none⟩)
    | (none, inner', cache') => c.next ⟨os, inner', cache', some 0⟩
termination_by s.outer.length

/-- `NestedLoop::new` (exec/nestedloop.rs 26-106) for the given streams: nothing is read yet. -/
def nlStart (outer inner : List (Item N K E)) : NlState N K E := ⟨outer, inner, [], none⟩

/-- The fixed part of an index join (exec/indexjoin.rs 17-26). `candidates` is `next_candidates` for a row
(exec/indexjoin.rs 90-116): the keys of the node search for all nodes the operator retrieves for the match in column `lhsIdx`.
`cond` and `constOutput` come from the description of the node search (exec/mod.rs 193-197). -/
structure IjConf (N K E : Type) where
  lhsIdx : Nat
  reflexive : Bool
  globalReflexivity : Bool
  candidates : SMatch N K → Except (Fail E) (List (SMatch N K))
  cond : List (SMatch N K → Except (Fail E) Bool)
  constOutput : Option K

/-- `for f in &node_search_desc.cond` (exec/indexjoin.rs 139-146). -/
def allConds (m : SMatch N K) : List (SMatch N K → Except (Fail E) Bool) → Except (Fail E) Bool
  | [] => .ok true
  | f :: fs =>
    match f m with
    | .error e => .error e
    | .ok false => .ok false
    | .ok true => allConds m fs

/-- Replacing the annotation with the constant one (exec/indexjoin.rs 150-152). -/
def IjConf.output (c : IjConf N K E) (m : SMatch N K) : SMatch N K :=
  match c.constOutput with
  | some k => ⟨m.node, k⟩
  | none => m

/-- The check for equal matches (exec/indexjoin.rs 155-158). -/
def IjConf.distinct (c : IjConf N K E) (l : Row N K) (m : SMatch N K) : Except (Fail E) Bool := do
  if c.reflexive then pure true
  else if c.globalReflexivity then pure (m.differentToAll l)
  else do
    let a ← l.at' c.lhsIdx
    pure (m.differentTo a)

/-- Skipping the candidates with the same node (exec/indexjoin.rs 164-176). -/
def IjConf.skip (c : IjConf N K E) (n : N) (cs : List (SMatch N K)) : List (SMatch N K) :=
  if c.constOutput.isSome then cs.dropWhile fun m => m.node = n else cs

/-- The loop over the candidates (exec/indexjoin.rs 136-181): the item to return and the candidates that are left. -/
def IjConf.scan (c : IjConf N K E) (l : Row N K) : List (SMatch N K) → Option (Item N K E × List (SMatch N K))
  | [] => none
  | m :: ms =>
    match allConds m c.cond with
    | .error e => some (.error e, ms)
    | .ok false => c.scan l ms
    | .ok true =>
      match c.distinct l (c.output m) with
      | .error e => some (.error e, ms)
      | .ok true => some (.ok (l ++ [c.output m]), c.skip m.node ms)
      | .ok false => c.scan l ms

/-- The state of an index join: what is left of the left stream and of the candidates (`rhs_candidate`). -/
structure IjState (N K E : Type) where
  lhs : List (Item N K E)
  cand : Option (List (SMatch N K))

/-- `next_candidates` (exec/indexjoin.rs 90-116). -/
def IjConf.nextCandidates (c : IjConf N K E) : List (Item N K E) → Except (Fail E) (Option (List (SMatch N K)))
  | .ok l :: _ => do
    let a ← l.at' c.lhsIdx
    let r ← c.candidates a
    pure (some r)
  | _ => .ok none

/-- The loop of `IndexJoin::next` (exec/indexjoin.rs 133-192). -/
def IjConf.loop (c : IjConf N K E) (s : IjState N K E) : Option (Item N K E) × IjState N K E :=
  match s with
  | ⟨[], cand⟩ => (none, ⟨[], cand⟩)
  | ⟨.error e :: ls, cand⟩ => (some (.error e), ⟨ls, cand⟩)
  | ⟨.ok l :: ls, none⟩ => (none, ⟨.ok l :: ls, none⟩)
  | ⟨.ok l :: ls, some cs⟩ =>
    match c.scan l cs with
    | some (r, cs') => (some r, ⟨.ok l :: ls, some cs'⟩)
    | none =>
      match c.nextCandidates ls with
      | .error e => (some (.error e), ⟨ls, some []⟩)
      | .ok cand => c.loop ⟨ls, cand⟩
termination_by s.lhs.length

/-- `IndexJoin::next` (exec/indexjoin.rs 127-194). -/
def IjConf.next (c : IjConf N K E) (s : IjState N K E) : Option (Item N K E) × IjState N K E :=
  match s.cand with
  | some _ => c.loop s
  | none =>
    match c.nextCandidates s.lhs with
    | .error e => (some (.error e), s)
    | .ok cand => c.loop ⟨s.lhs, cand⟩

/-- `Filter::new_binary` (exec/filter.rs 43-88): the rows for which the operator holds for two columns. -/
def filterBinary (op : BinOp N K E) (lhsIdx rhsIdx : Nat) (rows : List (Item N K E)) : List (Item N K E) :=
  rows.filterMap fun r =>
    match (do let t ← r; let a ← t.at' lhsIdx; let b ← t.at' rhsIdx; let f ← op.filter a b; pure (t, f) : Except (Fail E) _) with
    | .error e => some (.error e)
    | .ok (t, true) => some (.ok t)
    | .ok (_, false) => none

/-- `Filter::new_unary` (exec/filter.rs 90-137). -/
def filterUnary (p : SMatch N K → Except (Fail E) Bool) (idx : Nat) (rows : List (Item N K E)) : List (Item N K E) :=
  rows.filterMap fun r =>
    match (do let t ← r; let a ← t.at' idx; let f ← p a; pure (t, f) : Except (Fail E) _) with
    | .error e => some (.error e)
    | .ok (t, true) => some (.ok t)
    | .ok (_, false) => none

end
