import Verif.Exec.Model

/-!
# Parallel joins

`graphannis/src/annis/db/exec/parallel/{nestedloop,indexjoin}.rs`. A block of candidates is collected by one thread; the candidates
are then checked by a thread pool that sends its results into a channel. The order in which the results of a block arrive is
arbitrary. All workers have finished before the first result of the block is read (`for_each` blocks).
-/

section
variable {N K E : Type} [DecidableEq N] [DecidableEq K]

/-- The state of a parallel nested loop join. `pending` is `current_outer` (if any) followed by what is left of the outer stream:
`peek_outer` leaves a row there and takes an error away. -/
structure PnlState (N K E : Type) where
  pending : List (Item N K E)
  inner : List (Item N K E)
  cache : List (Row N K)
  pos : Option Nat

/-- What a block collects: errors already sent and pairs of an outer and an inner row. -/
structure Block (N K E : Type) where
  errs : List (Fail E)
  pairs : List (Row N K × Row N K)

/-- Filling the block from the cache (parallel/nestedloop.rs 146-162): the new block and the position, if the block is full. -/
def fillCache (max : Nat) (o : Row N K) : List (Row N K) → Nat → Block N K E → Block N K E × Option Nat
  | [], _, b => (b, none)
  | i :: is, pos, b =>
    let b' : Block N K E := ⟨b.errs, b.pairs ++ [(o, i)]⟩
    if max ≤ b'.pairs.length then (b', some (pos + 1)) else fillCache max o is (pos + 1) b'

/-- Filling the block from the inner stream (parallel/nestedloop.rs 163-190): the new block, what is left of the stream, the cache
and if the block is full. -/
def fillInner (max : Nat) (o : Row N K) : List (Item N K E) → List (Row N K) → Block N K E →
    Block N K E × List (Item N K E) × List (Row N K) × Bool
  | [], cache, b => (b, [], cache, false)
  | .error e :: is, cache, b => fillInner max o is cache ⟨b.errs ++ [e], b.pairs⟩
  | .ok i :: is, cache, b =>
    let b' : Block N K E := ⟨b.errs, b.pairs ++ [(o, i)]⟩
    if max ≤ b'.pairs.length then (b', is, cache ++ [i], true) else fillInner max o is (cache ++ [i]) b'

/-- `next_match_buffer` (parallel/nestedloop.rs 137-214) with the block collected so far. After each outer row the next one is
peeked (199-212). -/
def nextBlock (max : Nat) (s : PnlState N K E) (b : Block N K E) : Block N K E × PnlState N K E :=
  if max ≤ b.pairs.length then (b, s)
  else
    match s with
    | ⟨[], inner, cache, pos⟩ => (b, ⟨[], inner, cache, pos⟩)
    | ⟨.error e :: os, inner, cache, pos⟩ =>
      let b : Block N K E := ⟨b.errs ++ [e], b.pairs⟩
      match os with
      | [] => (b, ⟨[], inner, cache, pos⟩)
      | .error e' :: os' => nextBlock max ⟨os', inner, cache, pos⟩ ⟨b.errs ++ [e'], b.pairs⟩
      | .ok o' :: os' => nextBlock max ⟨.ok o' :: os', inner, cache, pos⟩ b
    | ⟨.ok o :: os, inner, cache, some p⟩ =>
      match fillCache max o (cache.drop p) p b with
      | (b, some p') => (b, ⟨.ok o :: os, inner, cache, some p'⟩)
      | (b, none) =>
        match os with
        | [] => (b, ⟨[], inner, cache, some 0⟩)
        | .error e' :: os' => nextBlock max ⟨os', inner, cache, some 0⟩ ⟨b.errs ++ [e'], b.pairs⟩
        | .ok o' :: os' => nextBlock max ⟨.ok o' :: os', inner, cache, some 0⟩ b
    | ⟨.ok o :: os, inner, cache, none⟩ =>
      match fillInner max o inner cache b with
      | (b, inner', cache', true) => (b, ⟨.ok o :: os, inner', cache', none⟩)
      | (b, inner', cache', false) =>
        match os with
        | [] => (b, ⟨[], inner', cache', some 0⟩)
        | .error e' :: os' => nextBlock max ⟨os', inner', cache', some 0⟩ ⟨b.errs ++ [e'], b.pairs⟩
        | .ok o' :: os' => nextBlock max ⟨.ok o' :: os', inner', cache', some 0⟩ b
termination_by s.pending.length

/-- What the worker sends for a pair (parallel/nestedloop.rs 233-268). -/
def NlConf.send (c : NlConf N K E) (p : Row N K × Row N K) : List (Item N K E) :=
  match c.pairCached p.1 p.2 with
  | .error e => [.error e]
  | .ok true => [.ok (p.1 ++ p.2)]
  | .ok false => []

/-- The items a parallel nested loop join gives until its end (parallel/nestedloop.rs 216-312). If a block has no pairs, the join
ends; errors of that block are dropped together with the channel (221-223). Otherwise the errors come first, followed by the results
of the workers in any order. -/
inductive PnlRuns (c : NlConf N K E) (max : Nat) : PnlState N K E → List (Item N K E) → Prop
  | stop {s s' : PnlState N K E} {b : Block N K E} : nextBlock max s ⟨[], []⟩ = (b, s') → b.pairs = [] → PnlRuns c max s []
  | block {s s' : PnlState N K E} {b : Block N K E} {items rest : List (Item N K E)} :
      nextBlock max s ⟨[], []⟩ = (b, s') → b.pairs ≠ [] → List.Perm items (b.pairs.flatMap c.send) → PnlRuns c max s' rest →
      PnlRuns c max s (b.errs.map Except.error ++ items ++ rest)

/-- `for f in &node_search_desc.cond` in a worker (parallel/indexjoin.rs 128-147): an error is sent and the check goes on. -/
def allCondsPar (m : SMatch N K) : List (SMatch N K → Except (Fail E) Bool) → List (Fail E) × Bool
  | [] => ([], true)
  | f :: fs =>
    match f m with
    | .error e => let r := allCondsPar m fs; (e :: r.1, r.2)
    | .ok false => ([], false)
    | .ok true => allCondsPar m fs

/-- The loop over the candidates in a worker (parallel/indexjoin.rs 122-187): the items that are sent, in order. -/
def IjConf.sendCands (c : IjConf N K E) (l : Row N K) : List (SMatch N K) → List (Item N K E)
  | [] => []
  | m :: ms =>
    let r := allCondsPar m c.cond
    let errs : List (Item N K E) := r.1.map .error
    if r.2 then
      match c.distinct l (c.output m) with
      | .error e => errs ++ .error e :: c.sendCands l ms
      | .ok true => errs ++ .ok (l ++ [c.output m]) :: c.sendCands l (c.skip m.node ms)
      | .ok false => errs ++ c.sendCands l ms
    else errs ++ c.sendCands l ms
termination_by ms => ms.length
decreasing_by
  all_goals simp_wf
  all_goals
    unfold IjConf.skip
    split
    · exact Nat.lt_succ_of_le (List.dropWhile_sublist _).length_le
    · omega

/-- What a worker sends for an item of the left stream (parallel/indexjoin.rs 119-205). -/
def IjConf.send (c : IjConf N K E) : Item N K E → List (Item N K E)
  | .error e => [.error e]
  | .ok l =>
    match c.nextCandidates [.ok l] with
    | .error e => [.error e]
    | .ok none => []
    | .ok (some cs) => c.sendCands l cs

/-- The items a parallel index join gives until its end (parallel/indexjoin.rs 87-205, 245-277): blocks of at most `max` items of the
left stream; the items sent for one block arrive in any order (the order of the items of one worker is kept by the channel, which
is not needed here). -/
inductive PijRuns (c : IjConf N K E) (max : Nat) : List (Item N K E) → List (Item N K E) → Prop
  | stop {lhs : List (Item N K E)} : lhs.take max = [] → PijRuns c max lhs []
  | block {lhs items rest : List (Item N K E)} : lhs.take max ≠ [] → List.Perm items ((lhs.take max).flatMap c.send) →
      PijRuns c max (lhs.drop max) rest → PijRuns c max lhs (items ++ rest)

end
