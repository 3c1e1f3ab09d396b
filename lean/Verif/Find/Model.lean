import Verif.Sort.Model
import Verif.Text.Percent
import Mathlib.Data.List.Dedup

/-!
# Finding, counting and frequency tables

`graphannis/src/annis/db/corpusstorage.rs`. The output of an execution plan is a list of matches or errors (`none`). Timeouts are
left out, offsets and limits are natural numbers (the sum of both can overflow in the code).
-/

/-- `ResultOrder` (corpusstorage.rs 145-158). -/
inductive ResultOrder | normal | inverted | randomized | notSorted
deriving DecidableEq

/-- One corpus as seen by a query: the output of the execution plan, if that is already sorted (`is_sorted_by_text`), the
comparison of matches, and the text that is output for a match. -/
structure FindCorpus (G R : Type) where
  plan : List (Option G)
  sortedByText : Bool
  cmp : G → G → Option Ordering
  render : G → Option R

/-- Random choices: the permutation for the randomized order, the pivots and a bound for the steps of the sort. -/
structure Rnd (G : Type) where
  shuffle : List G → List G
  fuel : Nat
  pivots : List (Nat × Nat × Nat)

variable {G R : Type}

/-- The comparison for the requested order (corpusstorage.rs 1773-1797). -/
def cmpFor (order : ResultOrder) (cmp : G → G → Option Ordering) (a b : G) : Option Ordering :=
  if order = .inverted then (cmp a b).map Ordering.swap else cmp a b

/-- `create_find_iterator_for_query` (corpusstorage.rs 1691-1845). -/
def createFindIterator (c : FindCorpus G R) (rnd : Rnd G) (quirks : Bool) (order : ResultOrder) (offset : Nat) (limit : Option Nat) :
    Option (List (Option G)) :=
  if order = .notSorted ∨ (order = .normal ∧ c.sortedByText ∧ ¬ quirks) then some c.plan
  else do
    let all ← c.plan.mapM id
    if order = .randomized then pure ((rnd.shuffle all).map some)
    else do
      let n := match limit with
        | some k => offset + k
        | none => all.length
      let sorted ← sortFirstN (cmpFor order c.cmp) n rnd.fuel rnd.pivots all
      pure (sorted.map some)

/-- `find_in_single_corpus` (corpusstorage.rs 1847-1981): the results and the number of skipped ones. Skipping does not look at
errors. -/
def findSingle (c : FindCorpus G R) (rnd : Rnd G) (quirks : Bool) (order : ResultOrder) (offset : Nat) (limit : Option Nat) :
    Option (List R × Nat) := do
  let it ← createFindIterator c rnd quirks order offset limit
  let rest := it.drop offset
  let rest := match limit with
    | some k => rest.take k
    | none => rest
  let res ← rest.mapM fun m => m.bind c.render
  pure (res, min offset it.length)

/-- The loop over several corpora of `find` (corpusstorage.rs 2034-2069). -/
def findLoop {C : Type} (single : C → Nat → Option Nat → Option (List R × Nat)) (offset : Nat) (limit : Option Nat) :
    List C → Nat → List R → Option (List R)
  | [], _, res => some res
  | c :: cs, cur, res => do
    let (sr, skipped) ← single c cur limit
    let res' := match limit with
      | some k => if sr.length ≤ k - res.length then res ++ sr else res ++ sr.take (k - res.length)
      | none => res ++ sr
    if limit = some res'.length then some res'
    else findLoop single offset limit cs (if skipped < offset then cur - skipped else 0) res'

/-- `find` (corpusstorage.rs 1994-2072); the corpora are given in the order in which they are searched. -/
def find {C : Type} (single : C → Nat → Option Nat → Option (List R × Nat)) (cs : List C) (offset : Nat) (limit : Option Nat) :
    Option (List R) :=
  match cs with
  | [] => some []
  | [c] => (single c offset limit).map Prod.fst
  | cs => findLoop single offset limit cs offset []

/-- `count` (corpusstorage.rs 1592-1617): every item of the plan is counted, also the errors. -/
def countQuery (plans : List (List (Option G))) : Nat := plans.foldl (fun n p => n + p.length) 0

/-! ### Counting documents -/

/-- What `count_extra` reads: the plan, the ancestors of the first matched node in all part-of components, the nodes with an
`annis:doc` annotation. -/
structure ExtraCorpus (G N : Type) where
  plan : List (Option G)
  ancestors : G → List N
  isDoc : N → Bool

/-- `count_extra` (corpusstorage.rs 1622-1689): the number of matches and documents. -/
def countExtra {N : Type} [DecidableEq N] (cs : List (ExtraCorpus G N)) : Option (Nat × Nat) :=
  cs.foldlM (fun s c => do
    let all ← c.plan.mapM id
    let known := (all.flatMap c.ancestors).dedup
    pure (s.1 + all.length, s.2 + (known.filter c.isDoc).length)) (0, 0)

/-! ### Frequency tables -/

/-- What `frequency` reads from one corpus: the plan, and for each entry of the definition the position of its node and its
annotation keys (corpusstorage.rs 2292-2312), and the annotation values. -/
structure FreqCorpus (N K : Type) where
  plan : List (Option (List N))
  keys : List (Nat × List K)
  value : N → K → Option Str

variable {N K : Type}

/-- The value for one entry of the definition (corpusstorage.rs 2324-2332): the last annotation key with a value is used. -/
def freqValue (value : N → K → Option Str) (m : List N) (e : Nat × List K) : Str :=
  match m[e.1]? with
  | some n => e.2.foldl (fun v k => (value n k).getD v) []
  | none => []

/-- The tuple of a match. -/
def freqTuple (c : FreqCorpus N K) (m : List N) : List Str := c.keys.map (freqValue c.value m)

/-- `*tuple_frequency.entry(tuple).or_insert(0) += 1`. -/
def bump (t : List Str) : List (List Str × Nat) → List (List Str × Nat)
  | [] => [(t, 1)]
  | p :: r => if p.1 = t then (p.1, p.2 + 1) :: r else p :: bump t r

/-- `frequency` (corpusstorage.rs 2274-2356); `hashOrder` is the unknown order of the entries of the hash map. -/
def frequency (hashOrder : List (List Str × Nat) → List (List Str × Nat)) (cs : List (FreqCorpus N K)) :
    Option (List (List Str × Nat)) := do
  let table ← cs.foldlM (fun t c => do
    let all ← c.plan.mapM id
    pure (all.foldl (fun t m => bump (freqTuple c m) t) t)) []
  pure ((hashOrder table).mergeSort fun a b => decide (b.2 ≤ a.2))
