/-!
# Sorting the results

`graphannis/src/annis/util/quicksort.rs`. A sortable container (a vector or a temporary B-tree) is a list with fallible access by
index; `none` is an error of the container, an index out of range, or an error of the comparison. The random numbers are a list of
triples which is consumed by the recursion; the recursion depth is bounded by a fuel argument because the code does not terminate
for every sequence of random numbers (`C33_diverges`).
-/

variable {α : Type}

/-- `SortableContainer::try_swap` (sortablecontainer.rs). -/
def swapAt (l : List α) (i j : Nat) : Option (List α) := do
  let a ← l[i]?
  let b ← l[j]?
  pure ((l.set i b).set j a)

/-- The inner loop of `insertion_sort` (quicksort.rs 52-58) for the remaining indices `start .. start + k` in descending order. -/
def sinkDown (cmp : α → α → Option Ordering) (start : Nat) : Nat → List α → Option (List α)
  | 0, l => some l
  | k + 1, l => do
    let a ← l[start + k]?
    let b ← l[start + k + 1]?
    let o ← cmp a b
    if o.isGE then do
      let l' ← swapAt l (start + k) (start + k + 1)
      sinkDown cmp start k l'
    else some l

/-- `insertion_sort` (quicksort.rs 42-61). -/
def insertionSort (cmp : α → α → Option Ordering) (a b : Nat) (l : List α) : Option (List α) :=
  (List.range' a (b - a)).foldlM (fun l i => sinkDown cmp a (i - a) l) l

/-- One step of the loop of `partition` (quicksort.rs 155-166); the state is the container and `i`. -/
def partitionStep (cmp : α → α → Option Ordering) (itemR : α) (s : List α × Nat) (j : Nat) : Option (List α × Nat) := do
  let x ← s.1[j]?
  let o ← cmp x itemR
  if o.isLE then do
    let l' ← swapAt s.1 s.2 j
    pure (l', s.2 + 1)
  else pure s

/-- `partition` (quicksort.rs 141-171). -/
def partitionRange (cmp : α → α → Option Ordering) (a b : Nat) (l : List α) : Option (List α × Nat) := do
  let itemR ← l[b - 1]?
  let s ← (List.range' a (b - 1 - a)).foldlM (partitionStep cmp itemR) (l, a)
  let l' ← swapAt s.1 s.2 (b - 1)
  pure (l', s.2)

/-- The median of three (quicksort.rs 115-134): the position of the pivot. -/
def medianPos (cmp : α → α → Option Ordering) (v1 v2 v3 : Nat × α) : Option Nat := do
  let o ← cmp v2.2 v1.2
  let (low, mid) := if o.isLT then (v2, v1) else (v1, v2)
  let o ← cmp v3.2 low.2
  let (_low, high) := if o.isLT then (v3, low) else (low, v3)
  let o ← cmp mid.2 high.2
  let (_mid, high) := if o.isLT then (high, mid) else (mid, high)
  pure high.1

/-- `randomized_partition` (quicksort.rs 98-139); the three random numbers are taken from the range by a remainder. -/
def randomizedPartition (cmp : α → α → Option Ordering) (r : Nat × Nat × Nat) (a b : Nat) (l : List α) :
    Option (List α × Nat) :=
  if b - a = 1 then some (l, a)
  else do
    let i1 := a + r.1 % (b - a)
    let i2 := a + r.2.1 % (b - a)
    let i3 := a + r.2.2 % (b - a)
    let x1 ← l[i1]?
    let x2 ← l[i2]?
    let x3 ← l[i3]?
    let p ← medianPos cmp (i1, x1) (i2, x2) (i3, x3)
    let l' ← swapAt l (b - 1) p
    partitionRange cmp a b l'

/-- `quicksort` (quicksort.rs 69-96) for the range `a..b` with `max_size = n`. The result contains the unused random numbers. -/
def quicksort (cmp : α → α → Option Ordering) (n : Nat) :
    Nat → Nat → Nat → List α → List (Nat × Nat × Nat) → Option (List α × List (Nat × Nat × Nat))
  | 0, _, _, _, _ => none
  | fuel + 1, a, b, l, rs =>
    if b - a > 1 then
      if b - a ≤ 20 then (insertionSort cmp a b l).map fun l' => (l', rs)
      else match rs with
        | [] => none
        | r :: rs => do
          let (l1, q) ← randomizedPartition cmp r a b l
          let (l2, rs2) ← quicksort cmp n fuel a q l1 rs
          if q < n then quicksort cmp n fuel q b l2 rs2 else some (l2, rs2)
    else some (l, rs)

/-- `sort_first_n_items` (quicksort.rs 27-40). -/
def sortFirstN (cmp : α → α → Option Ordering) (n : Nat) (fuel : Nat) (rs : List (Nat × Nat × Nat)) (l : List α) :
    Option (List α) :=
  if l.length > 0 then (quicksort cmp n fuel 0 l.length l rs).map Prod.fst else some l

/-- `sort` (quicksort.rs 10-20). -/
def sortAll (cmp : α → α → Option Ordering) (fuel : Nat) (rs : List (Nat × Nat × Nat)) (l : List α) : Option (List α) :=
  sortFirstN cmp l.length fuel rs l
