import Verif.Exec.Parallel
import Verif.Query.Reorder
import Verif.Find.Model

/-!
# Time limits

`TimeoutCheck` (graphannis/src/annis/util/mod.rs 111-139), the check in `NodeSearch::next` (exec/nodesearch.rs 1101-1110) and the
iterators and loops above it. The time is given by the number of checks made so far: `late n` says if the check with number `n` finds
that the limit is exceeded. The time between two checks is arbitrary, so `late` is any function that stays true once it is true
(`Clock`). Iterators are relations: there is a result for a call of `next` only if the call returns.
-/

namespace Timed

/-- `GraphAnnisError::Timeout` and all other errors. -/
inductive TErr (E : Type) | timeout | other (e : E)
deriving DecidableEq

/-- `Result<_>` for an item with the time out error. -/
abbrev TItem (R E : Type) := Except (Fail (TErr E)) R

/-- `Err(GraphAnnisError::Timeout)`. -/
abbrev timeout {R E : Type} : TItem R E := .error (.err .timeout)

/-- `Instant::elapsed` never decreases, so the limit stays exceeded (util/mod.rs 125-138). -/
def Clock (late : Nat → Bool) : Prop := ∀ i j, i ≤ j → late i = true → late j = true

/-- An iterator: `M s n x s' n'` says that `next` in the state `s` after `n` checks returns `x` and leaves the state `s'` after `n'`
checks. -/
abbrev Mach (S A : Type) := S → Nat → Option A → S → Nat → Prop

section
variable {S So Si N K E R A : Type}

/-- `NodeSearch::next` (exec/nodesearch.rs 1104-1109): the items are those of the search without a limit. -/
def searchNext (late : Nat → Bool) (s : List (TItem R E)) (n : Nat) : Option (TItem R E) × List (TItem R E) × Nat :=
  if late n then (some timeout, s, n + 1) else (s.head?, s.tail, n + 1)

/-- `Peekable::peek`: the state holds the item that was peeked, if any. -/
inductive Peek (M : Mach S A) : S × Option (Option A) → Nat → Option A → S × Option (Option A) → Nat → Prop
  | peeked {s x n} : Peek M (s, some x) n x (s, some x) n
  | fetch {s x n s' n'} : M s n x s' n' → Peek M (s, none) n x (s', some x) n'

/-- `Peekable::next`. -/
inductive PNext (M : Mach S A) : S × Option (Option A) → Nat → Option A → S × Option (Option A) → Nat → Prop
  | peeked {s x n} : PNext M (s, some x) n x (s, none) n
  | fetch {s x n s' n'} : M s n x s' n' → PNext M (s, none) n x (s', none) n'

/-- The item is a row. -/
def isRow : Option (TItem R E) → Bool
  | some (.ok _) => true
  | _ => false

/-- A filter (exec/filter.rs 64-83, 111-131): `f` is applied to the items (`map` and `filter_map_ok`). -/
inductive FilterNext (f : A → Option A) (M : Mach S A) : Mach S A
  | stop {s n s' n'} : M s n none s' n' → FilterNext f M s n none s' n'
  | hit {s n x y s' n'} : M s n (some x) s' n' → f x = some y → FilterNext f M s n (some y) s' n'
  | miss {s n x s1 n1 r s' n'} : M s n (some x) s1 n1 → f x = none → FilterNext f M s1 n1 r s' n' → FilterNext f M s n r s' n'

variable [DecidableEq N] [DecidableEq K]

/-- What `Filter::new_binary` does with an item (exec/filter.rs 64-72). -/
def binStep (op : BinOp N K (TErr E)) (lhsIdx rhsIdx : Nat) (r : Item N K (TErr E)) : Option (Item N K (TErr E)) :=
  match (do let t ← r; let a ← t.at' lhsIdx; let b ← t.at' rhsIdx; let f ← op.filter a b; pure (t, f) :
    Except (Fail (TErr E)) _) with
  | .error e => some (.error e)
  | .ok (t, true) => some (.ok t)
  | .ok (_, false) => none

/-- What `Filter::new_unary` does with an item (exec/filter.rs 118-127). -/
def unStep (p : SMatch N K → Except (Fail (TErr E)) Bool) (idx : Nat) (r : Item N K (TErr E)) : Option (Item N K (TErr E)) :=
  match (do let t ← r; let a ← t.at' idx; let f ← p a; pure (t, f) : Except (Fail (TErr E)) _) with
  | .error e => some (.error e)
  | .ok (t, true) => some (.ok t)
  | .ok (_, false) => none

/-- The state of a nested loop join (exec/nestedloop.rs 10-23). -/
structure TNl (So Si N K E : Type) where
  outer : So × Option (Option (Item N K (TErr E)))
  inner : Si
  cache : List (Row N K)
  pos : Option Nat

/-- The loop over the inner stream in the first pass (exec/nestedloop.rs 145-170). The result is `none` if the stream has ended. -/
inductive ScanInner (c : NlConf N K (TErr E)) (Mi : Mach Si (Item N K (TErr E))) (o : Row N K) :
    Si → List (Row N K) → Nat → Option (Item N K (TErr E)) → Si → List (Row N K) → Nat → Prop
  | stop {s cache n s' n'} : Mi s n none s' n' → ScanInner c Mi o s cache n none s' cache n'
  | err {s cache n e s' n'} : Mi s n (some (.error e)) s' n' → ScanInner c Mi o s cache n (some (.error e)) s' cache n'
  | fail {s cache n i e s' n'} : Mi s n (some (.ok i)) s' n' → c.pairFirst o i = .error e →
      ScanInner c Mi o s cache n (some (.error e)) s' (cache ++ [i]) n'
  | hit {s cache n i s' n'} : Mi s n (some (.ok i)) s' n' → c.pairFirst o i = .ok true →
      ScanInner c Mi o s cache n (some (.ok (o ++ i))) s' (cache ++ [i]) n'
  | miss {s cache n i s1 n1 r s' cache' n'} : Mi s n (some (.ok i)) s1 n1 → c.pairFirst o i = .ok false →
      ScanInner c Mi o s1 (cache ++ [i]) n1 r s' cache' n' → ScanInner c Mi o s cache n r s' cache' n'

/-- The part of the loop of `NestedLoop::next` before the next outer row is consumed (exec/nestedloop.rs 116-173): the item that is
returned, if any. The loop over the cache makes no checks. -/
inductive NlBody (c : NlConf N K (TErr E)) (Mo : Mach So (Item N K (TErr E))) (Mi : Mach Si (Item N K (TErr E))) :
    TNl So Si N K E → Nat → Option (Item N K (TErr E)) → TNl So Si N K E → Nat → Prop
  | cacheHit {outer inner cache p n o outer' n' r p'} : Peek Mo outer n (some (.ok o)) outer' n' →
      c.scanCache o (cache.drop p) p = some (r, p') →
      NlBody c Mo Mi ⟨outer, inner, cache, some p⟩ n (some r) ⟨outer', inner, cache, some p'⟩ n'
  | cacheEnd {outer inner cache p n o outer' n'} : Peek Mo outer n (some (.ok o)) outer' n' →
      c.scanCache o (cache.drop p) p = none →
      NlBody c Mo Mi ⟨outer, inner, cache, some p⟩ n none ⟨outer', inner, cache, some 0⟩ n'
  | innerHit {outer inner cache n o outer' n1 r inner' cache' n'} : Peek Mo outer n (some (.ok o)) outer' n1 →
      ScanInner c Mi o inner cache n1 (some r) inner' cache' n' →
      NlBody c Mo Mi ⟨outer, inner, cache, none⟩ n (some r) ⟨outer', inner', cache', none⟩ n'
  | innerEnd {outer inner cache n o outer' n1 inner' cache' n'} : Peek Mo outer n (some (.ok o)) outer' n1 →
      ScanInner c Mi o inner cache n1 none inner' cache' n' →
      NlBody c Mo Mi ⟨outer, inner, cache, none⟩ n none ⟨outer', inner', cache', some 0⟩ n'
  | skip {outer inner cache pos n x outer' n'} : Peek Mo outer n x outer' n' → isRow x = false →
      NlBody c Mo Mi ⟨outer, inner, cache, pos⟩ n none ⟨outer', inner, cache, pos⟩ n'

/-- `NestedLoop::next` (exec/nestedloop.rs 114-183). -/
inductive NlNext (c : NlConf N K (TErr E)) (Mo : Mach So (Item N K (TErr E))) (Mi : Mach Si (Item N K (TErr E))) :
    Mach (TNl So Si N K E) (Item N K (TErr E))
  | ret {s n r s' n'} : NlBody c Mo Mi s n (some r) s' n' → NlNext c Mo Mi s n (some r) s' n'
  | stop {s n outer inner cache pos n1 outer' n'} : NlBody c Mo Mi s n none ⟨outer, inner, cache, pos⟩ n1 →
      PNext Mo outer n1 none outer' n' → NlNext c Mo Mi s n none ⟨outer', inner, cache, pos⟩ n'
  | err {s n outer inner cache pos n1 e outer' n'} : NlBody c Mo Mi s n none ⟨outer, inner, cache, pos⟩ n1 →
      PNext Mo outer n1 (some (.error e)) outer' n' → NlNext c Mo Mi s n (some (.error e)) ⟨outer', inner, cache, pos⟩ n'
  | again {s n outer inner cache pos n1 o outer' n2 r s' n'} : NlBody c Mo Mi s n none ⟨outer, inner, cache, pos⟩ n1 →
      PNext Mo outer n1 (some (.ok o)) outer' n2 → NlNext c Mo Mi ⟨outer', inner, cache, pos⟩ n2 r s' n' →
      NlNext c Mo Mi s n r s' n'

/-- The state of an index join (exec/indexjoin.rs 17-26). -/
structure TIj (S N K E : Type) where
  lhs : S × Option (Option (Item N K (TErr E)))
  cand : Option (List (SMatch N K))

/-- The loop of `IndexJoin::next` (exec/indexjoin.rs 133-192). -/
inductive IjLoop (c : IjConf N K (TErr E)) (M : Mach S (Item N K (TErr E))) : Mach (TIj S N K E) (Item N K (TErr E))
  | noCand {lhs n l lhs' n'} : Peek M lhs n (some (.ok l)) lhs' n' → IjLoop c M ⟨lhs, none⟩ n none ⟨lhs', none⟩ n'
  | hit {lhs n l lhs' n' cs r cs'} : Peek M lhs n (some (.ok l)) lhs' n' → c.scan l cs = some (r, cs') →
      IjLoop c M ⟨lhs, some cs⟩ n (some r) ⟨lhs', some cs'⟩ n'
  | nextRow {lhs n l lhs1 n1 cs o lhs2 n2 x lhs3 n3 cand r s' n'} : Peek M lhs n (some (.ok l)) lhs1 n1 → c.scan l cs = none →
      PNext M lhs1 n1 (some (.ok o)) lhs2 n2 → Peek M lhs2 n2 x lhs3 n3 → c.nextCandidates x.toList = .ok cand →
      IjLoop c M ⟨lhs3, cand⟩ n3 r s' n' → IjLoop c M ⟨lhs, some cs⟩ n r s' n'
  | candErr {lhs n l lhs1 n1 cs o lhs2 n2 x lhs3 n3 e} : Peek M lhs n (some (.ok l)) lhs1 n1 → c.scan l cs = none →
      PNext M lhs1 n1 (some (.ok o)) lhs2 n2 → Peek M lhs2 n2 x lhs3 n3 → c.nextCandidates x.toList = .error e →
      IjLoop c M ⟨lhs, some cs⟩ n (some (.error e)) ⟨lhs3, some []⟩ n3
  | stop {lhs cand n x lhs1 n1 lhs2 n2} : Peek M lhs n x lhs1 n1 → isRow x = false → PNext M lhs1 n1 none lhs2 n2 →
      IjLoop c M ⟨lhs, cand⟩ n none ⟨lhs2, cand⟩ n2
  | err {lhs cand n x lhs1 n1 e lhs2 n2} : Peek M lhs n x lhs1 n1 → isRow x = false → PNext M lhs1 n1 (some (.error e)) lhs2 n2 →
      IjLoop c M ⟨lhs, cand⟩ n (some (.error e)) ⟨lhs2, cand⟩ n2

/-- `IndexJoin::next` (exec/indexjoin.rs 127-194). -/
inductive IjNext (c : IjConf N K (TErr E)) (M : Mach S (Item N K (TErr E))) : Mach (TIj S N K E) (Item N K (TErr E))
  | run {lhs cs n r s' n'} : IjLoop c M ⟨lhs, some cs⟩ n r s' n' → IjNext c M ⟨lhs, some cs⟩ n r s' n'
  | init {lhs n x lhs1 n1 cand r s' n'} : Peek M lhs n x lhs1 n1 → c.nextCandidates x.toList = .ok cand →
      IjLoop c M ⟨lhs1, cand⟩ n1 r s' n' → IjNext c M ⟨lhs, none⟩ n r s' n'
  | initErr {lhs n x lhs1 n1 e} : Peek M lhs n x lhs1 n1 → c.nextCandidates x.toList = .error e →
      IjNext c M ⟨lhs, none⟩ n (some (.error e)) ⟨lhs1, none⟩ n1

end

/-- A tree of execution nodes without parallel joins (plan.rs, exec/). -/
inductive Tree (N K E : Type)
  | search (items : List (Item N K (TErr E)))
  | filterBin (op : BinOp N K (TErr E)) (lhsIdx rhsIdx : Nat) (t : Tree N K E)
  | filterUn (p : SMatch N K → Except (Fail (TErr E)) Bool) (idx : Nat) (t : Tree N K E)
  | nested (c : NlConf N K (TErr E)) (outer inner : Tree N K E)
  | index (c : IjConf N K (TErr E)) (lhs : Tree N K E)

section
variable {N K E : Type} [DecidableEq N] [DecidableEq K]

/-- The states of the iterators of a tree. -/
def Tree.St : Tree N K E → Type
  | .search _ => List (Item N K (TErr E))
  | .filterBin _ _ _ t => t.St
  | .filterUn _ _ t => t.St
  | .nested _ o i => TNl o.St i.St N K E
  | .index _ l => TIj l.St N K E

/-- The state before the first call of `next` (nothing is read when the nodes are created). -/
def Tree.start : (t : Tree N K E) → t.St
  | .search l => l
  | .filterBin _ _ _ t => t.start
  | .filterUn _ _ t => t.start
  | .nested _ o i => ⟨(o.start, none), i.start, [], none⟩
  | .index _ l => ⟨(l.start, none), none⟩

/-- `next` of the root. -/
def Tree.next (late : Nat → Bool) : (t : Tree N K E) → Mach t.St (Item N K (TErr E))
  | .search _ => fun (s : List _) n x (s' : List _) n' => searchNext late s n = (x, s', n')
  | .filterBin op i j t => FilterNext (binStep op i j) (t.next late)
  | .filterUn p i t => FilterNext (unStep p i) (t.next late)
  | .nested c o i => NlNext c (o.next late) (i.next late)
  | .index c l => IjNext c (l.next late)

/-- What the tree gives without a time limit: the nested loop and the index join are those of C42, the filters are those of C42 as
well. -/
inductive Tree.Full : Tree N K E → List (Item N K (TErr E)) → Prop
  | search (l) : Full (.search l) l
  | filterBin {op i j t l} : Full t l → Full (.filterBin op i j t) (filterBinary op i j l)
  | filterUn {p i t l} : Full t l → Full (.filterUn p i t) (filterUnary p i l)
  | nested {c o i lo li l} : Full o lo → Full i li → Runs c.next (nlStart lo li) l → Full (.nested c o i) l
  | index {c t lt l} : Full t lt → Runs c.next ⟨lt, none⟩ l → Full (.index c t) l

end

/-! ## The plan -/

section
variable {S R E : Type} [DecidableEq R]

/-- `ExecutionPlan::next` (plan.rs 169-204) for the plans that are left, each with the function that reorders its rows
(`reorder_match`), and the rows that were given so far. With one plan (`proxy_mode`) no set of results is kept; `proxy` says if this is
the case. -/
inductive PlanNext (proxy : Bool) (M : Mach S (TItem R E)) : Mach (List ((R → R) × S) × List R) (TItem R E)
  | stop {seen n} : PlanNext proxy M ([], seen) n none ([], seen) n
  | proxyEnd {f s ps seen n s' n'} : proxy = true → M s n none s' n' →
      PlanNext proxy M ((f, s) :: ps, seen) n none ((f, s') :: ps, seen) n'
  | proxyRow {f s ps seen n r s' n'} : proxy = true → M s n (some (.ok r)) s' n' →
      PlanNext proxy M ((f, s) :: ps, seen) n (some (.ok (f r))) ((f, s') :: ps, seen) n'
  | err {f s ps seen n e s' n'} : M s n (some (.error e)) s' n' →
      PlanNext proxy M ((f, s) :: ps, seen) n (some (.error e)) ((f, s') :: ps, seen) n'
  | done {f s ps seen n s1 n1 r st n'} : proxy = false → M s n none s1 n1 → PlanNext proxy M (ps, seen) n1 r st n' →
      PlanNext proxy M ((f, s) :: ps, seen) n r st n'
  | new {f s ps seen n r s' n'} : proxy = false → M s n (some (.ok r)) s' n' → f r ∉ seen →
      PlanNext proxy M ((f, s) :: ps, seen) n (some (.ok (f r))) ((f, s') :: ps, f r :: seen) n'
  | dup {f s ps seen n r s1 n1 x st n'} : proxy = false → M s n (some (.ok r)) s1 n1 → f r ∈ seen →
      PlanNext proxy M ((f, s1) :: ps, seen) n1 x st n' → PlanNext proxy M ((f, s) :: ps, seen) n x st n'

/-- The items of the plan without a limit (`planNextProxy`, `planNextMulti`, C44). -/
def planItems (proxy : Bool) (ls : List ((R → R) × List (TItem R E))) : List (TItem R E) :=
  let all := ls.map fun p => p.2.map (Except.map p.1)
  if proxy then all.headD [] else uniqItems [] all.flatten

end

/-! ## The queries -/

section
variable {S C R E V N : Type}

/-- `TIMEOUT_CHECK_TUPLE_COUNT` (corpusstorage.rs 73) and the literal `1_000` in `find_in_single_corpus`. -/
def every : Nat := 1000

/-- The loop over the items of a plan of `count` (corpusstorage.rs 1605-1610). -/
inductive CountPlan (late : Nat → Bool) (M : Mach S (TItem R E)) : S → Nat → Nat → TItem Nat E → Nat → Prop
  | stop {s tot n s' n'} : M s n none s' n' → CountPlan late M s tot n (.ok tot) n'
  | item {s tot n x s1 n1 r n'} : M s n (some x) s1 n1 → (tot + 1) % every ≠ 0 → CountPlan late M s1 (tot + 1) n1 r n' →
      CountPlan late M s tot n r n'
  | check {s tot n x s1 n1 r n'} : M s n (some x) s1 n1 → (tot + 1) % every = 0 → late n1 = false →
      CountPlan late M s1 (tot + 1) (n1 + 1) r n' → CountPlan late M s tot n r n'
  | late {s tot n x s1 n1} : M s n (some x) s1 n1 → (tot + 1) % every = 0 → late n1 = true →
      CountPlan late M s tot n timeout (n1 + 1)

/-- `count` (corpusstorage.rs 1592-1617); the corpora are given by the plans for them. -/
inductive Count (late : Nat → Bool) (M : Mach S (TItem R E)) : List S → Nat → Nat → TItem Nat E → Nat → Prop
  | done {tot n} : Count late M [] tot n (.ok tot) n
  | fail {s ss tot n e n'} : CountPlan late M s tot n (.error e) n' → Count late M (s :: ss) tot n (.error e) n'
  | late {s ss tot n t n1} : CountPlan late M s tot n (.ok t) n1 → late n1 = true → Count late M (s :: ss) tot n timeout (n1 + 1)
  | next {s ss tot n t n1 r n'} : CountPlan late M s tot n (.ok t) n1 → late n1 = false → Count late M ss t (n1 + 1) r n' →
      Count late M (s :: ss) tot n r n'

/-- A loop that returns the first error and looks at all rows of the plan (`for m in plan { let m = m?; … }`). `chk` says for which
numbers of rows so far the time is checked: `count_extra` (corpusstorage.rs 1657-1678), `frequency` (corpusstorage.rs 2317-2341) and,
without checks, `create_find_iterator_for_query` (corpusstorage.rs 1752-1770). What is done with the rows is left to the caller. -/
inductive Collect (late : Nat → Bool) (chk : Nat → Bool) (M : Mach S (TItem R E)) : S → List R → Nat → TItem (List R) E → Nat → Prop
  | stop {s acc n s' n'} : M s n none s' n' → Collect late chk M s acc n (.ok acc) n'
  | err {s acc n e s' n'} : M s n (some (.error e)) s' n' → Collect late chk M s acc n (.error e) n'
  | item {s acc n x s1 n1 r n'} : M s n (some (.ok x)) s1 n1 → chk (acc.length + 1) = false →
      Collect late chk M s1 (acc ++ [x]) n1 r n' → Collect late chk M s acc n r n'
  | check {s acc n x s1 n1 r n'} : M s n (some (.ok x)) s1 n1 → chk (acc.length + 1) = true → late n1 = false →
      Collect late chk M s1 (acc ++ [x]) (n1 + 1) r n' → Collect late chk M s acc n r n'
  | late {s acc n x s1 n1} : M s n (some (.ok x)) s1 n1 → chk (acc.length + 1) = true → late n1 = true →
      Collect late chk M s acc n timeout (n1 + 1)

/-- The loop over the corpora of `frequency` (corpusstorage.rs 2284-2342): the number of rows starts with 0 for each corpus and the
time is not checked at the end. `step` adds the rows of a corpus to the table. -/
inductive Freq (late : Nat → Bool) (M : Mach S (TItem R E)) (step : C → V → List R → V) :
    List (C × S) → V → Nat → TItem V E → Nat → Prop
  | done {v n} : Freq late M step [] v n (.ok v) n
  | fail {c s ss v n e n'} : Collect late (fun k => k % every = 0) M s [] n (.error e) n' →
      Freq late M step ((c, s) :: ss) v n (.error e) n'
  | next {c s ss v n rows n1 r n'} : Collect late (fun k => k % every = 0) M s [] n (.ok rows) n1 →
      Freq late M step ss (step c v rows) n1 r n' → Freq late M step ((c, s) :: ss) v n r n'

/-- The loop over the corpora of `count_extra` (corpusstorage.rs 1632-1683): the number of rows `v.1` goes on and the time is checked
after each corpus. `docs` is the number of documents for the rows of a corpus. -/
inductive Extra (late : Nat → Bool) (M : Mach S (TItem R E)) (docs : C → List R → Nat) :
    List (C × S) → Nat × Nat → Nat → TItem (Nat × Nat) E → Nat → Prop
  | done {v n} : Extra late M docs [] v n (.ok v) n
  | fail {c s ss v n e n'} : Collect late (fun k => (v.1 + k) % every = 0) M s [] n (.error e) n' →
      Extra late M docs ((c, s) :: ss) v n (.error e) n'
  | late {c s ss v n rows n1} : Collect late (fun k => (v.1 + k) % every = 0) M s [] n (.ok rows) n1 → late n1 = true →
      Extra late M docs ((c, s) :: ss) v n timeout (n1 + 1)
  | next {c s ss v n rows n1 r n'} : Collect late (fun k => (v.1 + k) % every = 0) M s [] n (.ok rows) n1 → late n1 = false →
      Extra late M docs ss (v.1 + rows.length, v.2 + docs c rows) (n1 + 1) r n' → Extra late M docs ((c, s) :: ss) v n r n'

/-- The loop that skips the first results (corpusstorage.rs 1900-1907): the state after it and the number of skipped items. -/
inductive Skip (late : Nat → Bool) (M : Mach S (TItem R E)) (offset : Nat) : S → Nat → Nat → TItem (S × Nat) E → Nat → Prop
  | enough {s k n} : offset ≤ k → Skip late M offset s k n (.ok (s, k)) n
  | stop {s k n s' n'} : k < offset → M s n none s' n' → Skip late M offset s k n (.ok (s', k)) n'
  | item {s k n x s1 n1 r n'} : k < offset → M s n (some x) s1 n1 → (k + 1) % every ≠ 0 → Skip late M offset s1 (k + 1) n1 r n' →
      Skip late M offset s k n r n'
  | check {s k n x s1 n1 r n'} : k < offset → M s n (some x) s1 n1 → (k + 1) % every = 0 → late n1 = false →
      Skip late M offset s1 (k + 1) (n1 + 1) r n' → Skip late M offset s k n r n'
  | late {s k n x s1 n1} : k < offset → M s n (some x) s1 n1 → (k + 1) % every = 0 → late n1 = true →
      Skip late M offset s k n timeout (n1 + 1)

/-- The loop over the results (corpusstorage.rs 1908-1978): `limit` is the number of results that may still be taken, `acc` are the
results so far. -/
inductive Page (late : Nat → Bool) (M : Mach S (TItem R E)) (render : R → TItem V E) :
    S → Option Nat → List V → Nat → TItem (List V) E → Nat → Prop
  | full {s acc n} : Page late M render s (some 0) acc n (.ok acc) n
  | stop {s limit acc n s' n'} : limit ≠ some 0 → M s n none s' n' → Page late M render s limit acc n (.ok acc) n'
  | err {s limit acc n e s' n'} : limit ≠ some 0 → M s n (some (.error e)) s' n' → Page late M render s limit acc n (.error e) n'
  | renderErr {s limit acc n x e s' n'} : limit ≠ some 0 → M s n (some (.ok x)) s' n' → render x = .error e →
      Page late M render s limit acc n (.error e) n'
  | item {s limit acc n x v s1 n1 r n'} : limit ≠ some 0 → M s n (some (.ok x)) s1 n1 → render x = .ok v →
      acc.length % every ≠ 0 → Page late M render s1 (limit.map (· - 1)) (acc ++ [v]) n1 r n' →
      Page late M render s limit acc n r n'
  | check {s limit acc n x v s1 n1 r n'} : limit ≠ some 0 → M s n (some (.ok x)) s1 n1 → render x = .ok v →
      acc.length % every = 0 → late n1 = false → Page late M render s1 (limit.map (· - 1)) (acc ++ [v]) (n1 + 1) r n' →
      Page late M render s limit acc n r n'
  | late {s limit acc n x v s1 n1} : limit ≠ some 0 → M s n (some (.ok x)) s1 n1 → render x = .ok v →
      acc.length % every = 0 → late n1 = true → Page late M render s limit acc n timeout (n1 + 1)

/-- Skipping and taking (corpusstorage.rs 1899-1980). -/
inductive Slice (late : Nat → Bool) (M : Mach S (TItem R E)) (render : R → TItem V E) (offset : Nat) (limit : Option Nat) :
    S → Nat → TItem (List V × Nat) E → Nat → Prop
  | skipErr {s n e n'} : Skip late M offset s 0 n (.error e) n' → Slice late M render offset limit s n (.error e) n'
  | pageErr {s n s1 k n1 e n'} : Skip late M offset s 0 n (.ok (s1, k)) n1 → Page late M render s1 limit [] n1 (.error e) n' →
      Slice late M render offset limit s n (.error e) n'
  | ok {s n s1 k n1 vs n'} : Skip late M offset s 0 n (.ok (s1, k)) n1 → Page late M render s1 limit [] n1 (.ok vs) n' →
      Slice late M render offset limit s n (.ok (vs, k)) n'

/-- The iterator over a collected and sorted result (corpusstorage.rs 1817-1833): there is no check of the time. -/
def listNext (s : List (TItem R E)) (n : Nat) (x : Option (TItem R E)) (s' : List (TItem R E)) (n' : Nat) : Prop :=
  x = s.head? ∧ s' = s.tail ∧ n' = n

/-- One corpus as seen by `find`: if the plan can be used directly (corpusstorage.rs 1719-1733), what is done with the collected rows
(shuffling or sorting; the time is not checked, an error is returned), and the text of a match. -/
structure FCorpus (R E V : Type) where
  direct : Bool
  arrange : Nat → Option Nat → List R → TItem (List R) E
  render : R → TItem V E

/-- `find_in_single_corpus` (corpusstorage.rs 1847-1981). -/
inductive Single (late : Nat → Bool) (M : Mach S (TItem R E)) (c : FCorpus R E V) (offset : Nat) (limit : Option Nat) :
    S → Nat → TItem (List V × Nat) E → Nat → Prop
  | direct {s n r n'} : c.direct = true → Slice late M c.render offset limit s n r n' → Single late M c offset limit s n r n'
  | collectErr {s n e n'} : c.direct = false → Collect late (fun _ => false) M s [] n (.error e) n' →
      Single late M c offset limit s n (.error e) n'
  | arrangeErr {s n rows n' e} : c.direct = false → Collect late (fun _ => false) M s [] n (.ok rows) n' →
      c.arrange offset limit rows = .error e → Single late M c offset limit s n (.error e) n'
  | sorted {s n rows n1 rows' r n'} : c.direct = false → Collect late (fun _ => false) M s [] n (.ok rows) n1 →
      c.arrange offset limit rows = .ok rows' → Slice late listNext c.render offset limit (rows'.map .ok) n1 r n' →
      Single late M c offset limit s n r n'

/-- What is added to the results of the corpora before (corpusstorage.rs 2038-2051). -/
def addPage (limit : Option Nat) (res sr : List V) : List V :=
  match limit with
  | some k => if sr.length ≤ k - res.length then res ++ sr else res ++ sr.take (k - res.length)
  | none => res ++ sr

/-- The loop over several corpora of `find` (corpusstorage.rs 2033-2069). -/
inductive FindLoop (late : Nat → Bool) (M : Mach S (TItem R E)) (offset : Nat) (limit : Option Nat) :
    List (FCorpus R E V × S) → Nat → List V → Nat → TItem (List V) E → Nat → Prop
  | done {cur res n} : FindLoop late M offset limit [] cur res n (.ok res) n
  | fail {c s cs cur res n e n'} : Single late M c cur limit s n (.error e) n' →
      FindLoop late M offset limit ((c, s) :: cs) cur res n (.error e) n'
  | full {c s cs cur res n sr k n'} : Single late M c cur limit s n (.ok (sr, k)) n' → limit = some (addPage limit res sr).length →
      FindLoop late M offset limit ((c, s) :: cs) cur res n (.ok (addPage limit res sr)) n'
  | late {c s cs cur res n sr k n1} : Single late M c cur limit s n (.ok (sr, k)) n1 → limit ≠ some (addPage limit res sr).length →
      late n1 = true → FindLoop late M offset limit ((c, s) :: cs) cur res n timeout (n1 + 1)
  | next {c s cs cur res n sr k n1 r n'} : Single late M c cur limit s n (.ok (sr, k)) n1 →
      limit ≠ some (addPage limit res sr).length → late n1 = false →
      FindLoop late M offset limit cs (if k < offset then cur - k else 0) (addPage limit res sr) (n1 + 1) r n' →
      FindLoop late M offset limit ((c, s) :: cs) cur res n r n'

/-- `find` (corpusstorage.rs 1994-2072); the corpora are given in the order in which they are searched. -/
inductive Find (late : Nat → Bool) (M : Mach S (TItem R E)) (offset : Nat) (limit : Option Nat) :
    List (FCorpus R E V × S) → Nat → TItem (List V) E → Nat → Prop
  | none {n} : Find late M offset limit [] n (.ok []) n
  | one {c s n sr k n'} : Single late M c offset limit s n (.ok (sr, k)) n' → Find late M offset limit [(c, s)] n (.ok sr) n'
  | oneErr {c s n e n'} : Single late M c offset limit s n (.error e) n' → Find late M offset limit [(c, s)] n (.error e) n'
  | many {cs n r n'} : 2 ≤ cs.length → FindLoop late M offset limit cs offset [] n r n' → Find late M offset limit cs n r n'

/-! ## The parallel nested loop -/

/-- The state of a parallel nested loop join (exec/parallel/nestedloop.rs 20-37): `cur` is `current_outer`. -/
structure TPnl (So Si N K : Type) where
  outer : So
  cur : Option (Row N K)
  inner : Si
  cache : List (Row N K)
  pos : Option Nat

variable {So Si K : Type}

/-- `peek_outer` (exec/parallel/nestedloop.rs 118-135): an error or the current outer row, if there is one. -/
inductive PeekOuter (Mo : Mach So (Item N K (TErr E))) :
    So × Option (Row N K) → Nat → Except (Fail (TErr E)) (Option (Row N K)) → So × Option (Row N K) → Nat → Prop
  | have {s o n} : PeekOuter Mo (s, some o) n (.ok (some o)) (s, some o) n
  | row {s n o s' n'} : Mo s n (some (.ok o)) s' n' → PeekOuter Mo (s, none) n (.ok (some o)) (s', some o) n'
  | stop {s n s' n'} : Mo s n none s' n' → PeekOuter Mo (s, none) n (.ok none) (s', none) n'
  | err {s n e s' n'} : Mo s n (some (.error e)) s' n' → PeekOuter Mo (s, none) n (.error e) (s', none) n'

/-- The loop over the inner stream (exec/parallel/nestedloop.rs 163-187) with the block collected so far; the last result says if the
block is full. Sending an error never fails, because the receiver lives until the block is complete. -/
inductive FillInner (max : Nat) (Mi : Mach Si (Item N K (TErr E))) (o : Row N K) :
    Si → List (Row N K) → Block N K (TErr E) → Nat → Si → List (Row N K) → Block N K (TErr E) → Bool → Nat → Prop
  | stop {s cache b n s' n'} : Mi s n none s' n' → FillInner max Mi o s cache b n s' cache b false n'
  | err {s cache b n e s1 n1 s' cache' b' full n'} : Mi s n (some (.error e)) s1 n1 →
      FillInner max Mi o s1 cache ⟨b.errs ++ [e], b.pairs⟩ n1 s' cache' b' full n' →
      FillInner max Mi o s cache b n s' cache' b' full n'
  | full {s cache b n i s' n'} : Mi s n (some (.ok i)) s' n' → max ≤ b.pairs.length + 1 →
      FillInner max Mi o s cache b n s' (cache ++ [i]) ⟨b.errs, b.pairs ++ [(o, i)]⟩ true n'
  | row {s cache b n i s1 n1 s' cache' b' full n'} : Mi s n (some (.ok i)) s1 n1 → ¬ max ≤ b.pairs.length + 1 →
      FillInner max Mi o s1 (cache ++ [i]) ⟨b.errs, b.pairs ++ [(o, i)]⟩ n1 s' cache' b' full n' →
      FillInner max Mi o s cache b n s' cache' b' full n'

/-- The part of the loop of `next_match_buffer` before the next outer row is consumed (exec/parallel/nestedloop.rs 141-197). -/
inductive FillBody (max : Nat) (Mo : Mach So (Item N K (TErr E))) (Mi : Mach Si (Item N K (TErr E))) :
    TPnl So Si N K → Block N K (TErr E) → Nat → TPnl So Si N K → Block N K (TErr E) → Bool → Nat → Prop
  | err {outer cur inner cache pos b n e outer' cur' n'} : PeekOuter Mo (outer, cur) n (.error e) (outer', cur') n' →
      FillBody max Mo Mi ⟨outer, cur, inner, cache, pos⟩ b n ⟨outer', cur', inner, cache, pos⟩ ⟨b.errs ++ [e], b.pairs⟩ false n'
  | none {outer cur inner cache pos b n outer' cur' n'} : PeekOuter Mo (outer, cur) n (.ok none) (outer', cur') n' →
      FillBody max Mo Mi ⟨outer, cur, inner, cache, pos⟩ b n ⟨outer', cur', inner, cache, pos⟩ b false n'
  | cacheFull {outer cur inner cache p b n o outer' cur' n' b' p'} : PeekOuter Mo (outer, cur) n (.ok (some o)) (outer', cur') n' →
      fillCache max o (cache.drop p) p b = (b', some p') →
      FillBody max Mo Mi ⟨outer, cur, inner, cache, some p⟩ b n ⟨outer', cur', inner, cache, some p'⟩ b' true n'
  | cacheEnd {outer cur inner cache p b n o outer' cur' n' b'} : PeekOuter Mo (outer, cur) n (.ok (some o)) (outer', cur') n' →
      fillCache max o (cache.drop p) p b = (b', Option.none) →
      FillBody max Mo Mi ⟨outer, cur, inner, cache, some p⟩ b n ⟨outer', cur', inner, cache, some 0⟩ b' false n'
  | inner {outer cur inner cache b n o outer' cur' n1 inner' cache' b' full n'} :
      PeekOuter Mo (outer, cur) n (.ok (some o)) (outer', cur') n1 →
      FillInner max Mi o inner cache b n1 inner' cache' b' full n' →
      FillBody max Mo Mi ⟨outer, cur, inner, cache, Option.none⟩ b n
        ⟨outer', cur', inner', cache', if full then Option.none else some 0⟩ b' full n'

/-- `next_match_buffer` (exec/parallel/nestedloop.rs 137-214) with the block collected so far. -/
inductive NextBuffer (max : Nat) (Mo : Mach So (Item N K (TErr E))) (Mi : Mach Si (Item N K (TErr E))) :
    TPnl So Si N K → Block N K (TErr E) → Nat → TPnl So Si N K → Block N K (TErr E) → Nat → Prop
  | max {s b n} : max ≤ b.pairs.length → NextBuffer max Mo Mi s b n s b n
  | full {s b n s' b' n'} : ¬ max ≤ b.pairs.length → FillBody max Mo Mi s b n s' b' true n' → NextBuffer max Mo Mi s b n s' b' n'
  | stop {s b n outer cur inner cache pos b' n1 outer' cur' n'} : ¬ max ≤ b.pairs.length →
      FillBody max Mo Mi s b n ⟨outer, cur, inner, cache, pos⟩ b' false n1 →
      PeekOuter Mo (outer, none) n1 (.ok none) (outer', cur') n' →
      NextBuffer max Mo Mi s b n ⟨outer', cur', inner, cache, pos⟩ b' n'
  | row {s b n outer cur inner cache pos b1 n1 o outer1 cur1 n2 s' b' n'} : ¬ max ≤ b.pairs.length →
      FillBody max Mo Mi s b n ⟨outer, cur, inner, cache, pos⟩ b1 false n1 →
      PeekOuter Mo (outer, none) n1 (.ok (some o)) (outer1, cur1) n2 →
      NextBuffer max Mo Mi ⟨outer1, cur1, inner, cache, pos⟩ b1 n2 s' b' n' → NextBuffer max Mo Mi s b n s' b' n'
  | err {s b n outer cur inner cache pos b1 n1 e outer1 cur1 n2 s' b' n'} : ¬ max ≤ b.pairs.length →
      FillBody max Mo Mi s b n ⟨outer, cur, inner, cache, pos⟩ b1 false n1 →
      PeekOuter Mo (outer, none) n1 (.error e) (outer1, cur1) n2 →
      NextBuffer max Mo Mi ⟨outer1, cur1, inner, cache, pos⟩ ⟨b1.errs ++ [e], b1.pairs⟩ n2 s' b' n' →
      NextBuffer max Mo Mi s b n s' b' n'

end

end Timed
