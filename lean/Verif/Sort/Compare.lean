import Verif.Text.Model
import Mathlib.Data.Char
import Mathlib.Data.List.Lex

/-!
# The order of the results

`graphannis/src/annis/db/sort_matches.rs`. The caches of `SortCache` only remember answers for the same corpus and are left out.
-/

/-- What the comparison reads from the corpus: node names, the left-most covered token, `is_connected(_, _, 1, Unbounded)` of the
token ordering, whether a token helper and an ordering component exist, the collation, and the quirks mode. -/
structure SortEnv (N : Type) where
  name : N → Option Str
  leftTok : N → Option N
  conn : N → N → Bool
  text : Bool
  coll : Str → Str → Ordering
  quirks : Bool
  lossy : List UInt8 → Str

/-- A match (`graph::Match`): a node and the annotation that was matched. -/
structure SMatch (N K : Type) where
  node : N
  key : K
deriving DecidableEq

/-- `split_path_and_nodename` (sort_matches.rs 172-176). -/
def splitPathName (s : Str) : Str × Str :=
  match splitOnce '#' s.reverse with
  | none => (s, [])
  | some (a, b) => (b.reverse, a.reverse)

/-- The non-empty parts of a path. -/
def segments (p : Str) : List Str := (splitAll '/' p).filter fun s => s ≠ []

/-- The first difference of two sequences which are walked in parallel (sort_matches.rs 48-59, 203-208). -/
def zipCmp {α : Type} (cmp : α → α → Ordering) (a b : List α) : Ordering :=
  (List.zipWith cmp a b).foldr Ordering.then .eq

/-- `compare_string` with the default collation (sort_matches.rs 219-222): `str::cmp` compares the UTF-8 bytes, which gives the
order of the code points. The other collation is the C function `strcoll`, an arbitrary function here. -/
def defaultColl (a b : Str) : Ordering :=
  (zipCmp (fun x y : Char => compare x.toNat y.toNat) a b).then (compare a.length b.length)

/-- `compare_document_path` (sort_matches.rs 178-217). -/
def comparePath {N : Type} (E : SortEnv N) (p1 p2 : Str) : Ordering :=
  let a := segments p1
  let b := segments p2
  (if E.quirks then
    match a.getLast?, b.getLast? with
    | some d1, some d2 => E.coll (pctDecodeStr E.lossy d1) (pctDecodeStr E.lossy d2)
    | _, _ => .eq
  else zipCmp E.coll a b).then (compare a.length b.length)

/-- The comparison of the token positions (sort_matches.rs 113-155); `eq` means that it gives no decision. -/
def compareToken {N : Type} (E : SortEnv N) (n1 n2 : N) : Ordering :=
  if E.text then
    match E.leftTok n1, E.leftTok n2 with
    | some t1, some t2 => if E.conn t1 t2 then .lt else if E.conn t2 t1 then .gt else .eq
    | _, _ => .eq
  else .eq

/-- `compare_match_by_text_pos` (sort_matches.rs 68-169). -/
def compareMatch {N K : Type} [LinearOrder N] [LinearOrder K] (E : SortEnv N) (m1 m2 : SMatch N K) : Ordering :=
  if m1.node = m2.node then compare m1.key m2.key
  else match E.name m1.node, E.name m2.node with
    | some a, some b =>
      (comparePath E (splitPathName a).1 (splitPathName b).1).then <|
      (compareToken E m1.node m2.node).then <|
      (E.coll (splitPathName a).2 (splitPathName b).2).then (compare m1.node m2.node)
    | _, _ => compare m1.node m2.node

/-- `compare_matchgroup_by_text_pos` (sort_matches.rs 39-66). -/
def compareGroup {N K : Type} [LinearOrder N] [LinearOrder K] (E : SortEnv N) (m1 m2 : List (SMatch N K)) : Ordering :=
  (zipCmp (compareMatch E) m1 m2).then (compare m2.length m1.length)
