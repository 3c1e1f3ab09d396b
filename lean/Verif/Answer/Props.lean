import Verif.Answer.Model

/-!
# C101: the results of a query are the combinations of nodes that its text describes
-/

set_option linter.unusedSectionVars false

namespace Answer

open Whole TextSpec

/-! ## Specification -/

section
variable {T : Type} [LinearOrder T]

/-- The annotation that an edge must have, for the set `A` of its annotations. -/
def EdgeAnno (env : NsEnv Str Str) (A : AnnoKey Str → Str → Prop) : Parse.EdgeSpec → Prop
  | .exact ns name val => ∃ k v, A k v ∧ k.name = name ∧ (∀ n, ns = some n → k.ns = n) ∧ ∀ w, val = some w → v = w
  | .notExact ns name val => ∃ k v, A k v ∧ k.name = name ∧ (∀ n, ns = some n → k.ns = n) ∧ v ≠ val
  | .regex ns name p => ∃ f, env.compile p = some f ∧ ∃ k v, A k v ∧ k.name = name ∧ (∀ n, ns = some n → k.ns = n) ∧ f v = true
  | .notRegex ns name p => ∃ f, env.compile p = some f ∧ ∃ k v, A k v ∧ k.name = name ∧ (∀ n, ns = some n → k.ns = n) ∧ f v = false

/-- A path of an allowed length in one of the components, and an edge between its ends with the annotation. -/
def Path (env : NsEnv Str Str) (r : Rels T Str Str) (C : EdgeStore T Str Str → Prop) (dist : RangeSpec) (anno : Option Parse.EdgeSpec)
    (a b : T) : Prop :=
  ∃ c, C c ∧ (∃ d, Walk.SimplePath (r.edge c) a b d ∧ Within dist.minDist dist.maxDist d) ∧ ∀ s, anno = some s → EdgeAnno env (r.anno c a b) s

/-- What an operator of the text means; operators that are not modelled are never fulfilled (see `Supported`). -/
def Means (db : Db T) (env : NsEnv Str Str) (r : Rels T Str Str) : Aql.BinSpec Parse.OpSpec → T → T → Prop
  | .join (.dominance name dist anno), a, b => Path env r (fun c => (name, c) ∈ db.dominance) dist anno a b
  | .join (.pointing name dist anno), a, b => Path env r (fun c => (name, c) ∈ db.pointing) dist anno a b
  | .dist (.precedence none) range, a, b => Precedes r.tok r.first r.last r.next range a b
  | .dist (.near none) range, a, b =>
    Precedes r.tok r.first r.last r.next range a b ∨ Precedes r.tok r.first r.last r.next range b a
  | .dist (.precedence (some seg)) range, a, b => ∃ c, db.segment seg = some c ∧ Ordered (r.edge c) range a b
  | .dist (.near (some seg)) range, a, b => ∃ c, db.segment seg = some c ∧ (Ordered (r.edge c) range a b ∨ Ordered (r.edge c) range b a)
  | .other (.partOf dist), a, b => Path env r (fun c => db.partOf = some c) dist none a b
  | .other .overlap, a, b => Share r.tok r.cov a b
  | .other .identicalCoverage, a, b => SameBorders r.tok r.first r.last a b
  | .other .inclusion, a, b => Includes r.tok r.first r.last r.next a b
  | .other .leftAlignment, a, b => ∃ t, Border r.tok r.first a t ∧ Border r.tok r.first b t
  | .other .rightAlignment, a, b => ∃ t, Border r.tok r.last a t ∧ Border r.tok r.last b t
  | .other .identicalNode, a, b => a = b
  | _, _, _ => False

/-- The number of children of a node over all components of dominance and pointing is in the range; no limits mean at least one. -/
def Arity (db : Db T) (r : Rels T Str Str) (range : RangeSpec) (n : T) : Prop :=
  ∃ children : List T, children.Nodup ∧ (∀ b, b ∈ children ↔ ∃ name c, ((name, c) ∈ db.dominance ∨ (name, c) ∈ db.pointing) ∧ r.edge c n b) ∧
    match range with
    | .bound min max => min ≤ children.length ∧ children.length ≤ max
    | .unbound => 1 ≤ children.length

/-- A node search in the text finds a match. -/
def Finds (env : NsEnv Str Str) (m : AnnoStore.Spec T Str Str) (r : Rels T Str Str) (s : NsSpec Str Str) (x : SMatch T (AnnoKey Str)) : Prop :=
  ∃ k, NodeSearch.Wanted env m r.cov s x.node k ∧ x.key = NodeSearch.ShownKey env s k

/-- A row is an answer to an alternative `c` of the text, with the node searches `L` and `offset` node searches before. It has a match for
each node search up to the last one that is not optional. Operators between nodes that are not optional hold, negated operators do not hold.
A negated operator with an optional operand says that there is no such node. -/
structure TextAnswer (db : Db T) (env : NsEnv Str Str) (m : AnnoStore.Spec T Str Str) (r : Rels T Str Str) (d : SMatch T (AnnoKey Str))
    (offset : Nat) (c : List Parse.QLit) (L : List (Aql.Occ (NsSpec Str Str))) (row : Row T (AnnoKey Str)) : Prop where
  length : ∀ i, i < row.length ↔ ∃ (n : Nat) (o : Aql.Occ (NsSpec Str Str)), i ≤ n ∧ L[n]? = some o ∧ o.optional = false
  found : ∀ (n : Nat) o, L[n]? = some o → o.optional = false → ∃ x, row[n]? = some x ∧ Finds env m r o.spec x
  default : ∀ (n : Nat) o x, L[n]? = some o → o.optional = true → row[n]? = some x → x = d
  holds : ∀ lhs op rhs, .bin lhs op rhs false ∈ c → ∀ i j, Aql.Denotes offset L lhs i → Aql.Denotes offset L rhs j →
    ∃ x y, row[i]? = some x ∧ row[j]? = some y ∧ Means db env r op x.node y.node
  negated : ∀ lhs op rhs, .bin lhs op rhs true ∈ c → ∀ i j a b, Aql.Denotes offset L lhs i → Aql.Denotes offset L rhs j →
    L[i]? = some a → L[j]? = some b → a.optional = false → b.optional = false →
    ∃ x y, row[i]? = some x ∧ row[j]? = some y ∧ ¬ Means db env r op x.node y.node
  missingRight : ∀ lhs op rhs, .bin lhs op rhs true ∈ c → ∀ i j a b, Aql.Denotes offset L lhs i → Aql.Denotes offset L rhs j →
    L[i]? = some a → L[j]? = some b → a.optional = false → b.optional = true →
    ∃ x, row[i]? = some x ∧ ¬ ∃ y, Finds env m r b.spec y ∧ Means db env r op x.node y.node
  missingLeft : ∀ lhs op rhs, .bin lhs op rhs true ∈ c → ∀ i j a b, Aql.Denotes offset L lhs i → Aql.Denotes offset L rhs j →
    L[i]? = some a → L[j]? = some b → a.optional = true → b.optional = false →
    ∃ y, row[j]? = some y ∧ ¬ ∃ x, Finds env m r a.spec x ∧ Means db env r op x.node y.node
  arity : ∀ ref range, .un ref range ∈ c → ∀ i, Aql.DenotesRef offset L ref i → ∃ x, row[i]? = some x ∧ Arity db r range x.node

/-- Different node searches have different matches, optional ones aside. -/
def Distinct (L : List (Aql.Occ (NsSpec Str Str))) (row : Row T (AnnoKey Str)) : Prop :=
  ∀ (i j : Nat) x a b, i ≠ j → L[i]? = some a → L[j]? = some b → a.optional = false → b.optional = false → row[i]? = some x → row[j]? ≠ some x

/-! ## Assumptions -/

/-- Operators that are modelled: no comparison of values; for negated part-of operators and negated operators on segmentations the component
exists. -/
def Supported (db : Db T) (neg : Bool) : Aql.BinSpec Parse.OpSpec → Prop
  | .join (.dominance _ _ _) => True
  | .join (.pointing _ _ _) => True
  | .dist (.precedence none) _ => True
  | .dist (.near none) _ => True
  | .dist (.precedence (some seg)) _ => neg = true → db.segment seg ≠ none
  | .dist (.near (some seg)) _ => neg = true → db.segment seg ≠ none
  | .other (.partOf _) => neg = true → db.partOf ≠ none
  | .other .overlap => True
  | .other .identicalCoverage => True
  | .other .inclusion => True
  | .other .leftAlignment => True
  | .other .rightAlignment => True
  | .other .identicalNode => True
  | _ => False

/-- What precedence and nearness in a segmentation need: a range that the storage handles, at least the distance 1, and no nodes of the
segmentation that are first or last tokens of a node (`C45_segmentation_fails`, `C45_spans_partial`). -/
structure SegFits (r : Rels T Str Str) (Re : EdgeStore T Str Str → Nat → Bnd Nat → Prop) (c : EdgeStore T Str Str) (dist : RangeSpec) : Prop where
  range : Re c dist.minDist dist.maxDist
  min : 1 ≤ dist.minDist
  spans : ∀ a b, r.edge c a b → ∀ x, ¬ r.first x b ∧ ¬ r.last x a

/-- What an operator needs of the storages (see `Whole.Fits`): a range that they handle; for inclusion and overlap texts that are chains; for
overlap coverage without gaps; for operators on edges correct storages, that know all nodes if a path may have the length 0. For
segmentations see `SegFits`. -/
def OpFits (db : Db T) (r : Rels T Str Str) (th : TokenHelper T) (Ec : GStore T → T → T → Prop) (Rg : Nat → Bnd Nat → Prop)
    (De : EdgeStore T Str Str → T → Prop) (Re : EdgeStore T Str Str → Nat → Bnd Nat → Prop) : Aql.BinSpec Parse.OpSpec → Prop
  | .join (.dominance name dist _) => ∀ c, (name, c) ∈ db.dominance → Re c dist.minDist dist.maxDist ∧ (1 ≤ dist.minDist ∨ ∀ n, De c n)
  | .join (.pointing name dist _) => ∀ c, (name, c) ∈ db.pointing → Re c dist.minDist dist.maxDist ∧ (1 ≤ dist.minDist ∨ ∀ n, De c n)
  | .dist (.precedence (some seg)) range => ∀ c, db.segment seg = some c → SegFits r Re c range
  | .dist (.near (some seg)) range => ∀ c, db.segment seg = some c → SegFits r Re c range
  | .dist _ range => Rg range.minDist range.maxDist
  | .other (.partOf dist) => ∀ c, db.partOf = some c → Re c dist.minDist dist.maxDist ∧ (1 ≤ dist.minDist ∨ ∀ n, De c n)
  | .other .inclusion => Linear.Chains r.next ∧ ∀ a b d, Walk.SimplePath r.next a b d → Rg 0 (.included d)
  | .other .overlap => Linear.Chains r.next ∧ (∀ n t, th.Cov Ec n t → th.Tok Ec t) ∧ th.Continuous r.first r.last r.next Ec
  | _ => True

/-- The components are correct, and the replacement of searches gets their source nodes, each once. -/
structure DbOk (db : Db T) (r : Rels T Str Str) (De : EdgeStore T Str Str → T → Prop) (Re : EdgeStore T Str Str → Nat → Bnd Nat → Prop) :
    Prop where
  dominance : ∀ name c, (name, c) ∈ db.dominance → EdgeOp.CompOk c (r.edge c) (r.anno c) (De c) (Re c)
  pointing : ∀ name c, (name, c) ∈ db.pointing → EdgeOp.CompOk c (r.edge c) (r.anno c) (De c) (Re c)
  partOf : ∀ c, db.partOf = some c → EdgeOp.CompOk c (r.edge c) (r.anno c) (De c) (Re c)
  segment : ∀ seg c, db.segment seg = some c → c.g.Is (r.edge c) (De c) (Re c)
  once : ∀ c, (∃ name, (name, c) ∈ db.dominance ∨ (name, c) ∈ db.pointing) ∨ db.partOf = some c → (db.loaded c).sources.Nodup
  sources : ∀ c, (∃ name, (name, c) ∈ db.dominance ∨ (name, c) ∈ db.pointing) ∨ db.partOf = some c →
    ∀ a b, r.edge c a b → a ∈ (db.loaded c).sources

/-- If the components of an operator are smaller than its left operand, the search for this operand is replaced. Then the matches must show
the annotation that is searched, no node may be a source node of two of the components, the operator must not be negated, and it may only
hold for source nodes (see `C67_negated_fails`, `C67_duplicate_fails`, `C67_near_fails` and `C67_output_fails`). -/
def Replaceable (db : Db T) (env : NsEnv Str Str) (r : Rels T Str Str) (spec : NsSpec Str Str) (op : Aql.BinSpec Parse.OpSpec) (neg : Bool) : Prop :=
  ∀ est e, db.cost spec = some est → NodeSearch.pocEstimate (db.comps op) = some e → e < est →
    ShowsSearched spec ∧ NodeSearch.SourcesOnce (db.comps op) ∧ neg = false ∧ ∀ x y, Means db env r op x y → NodeSearch.IsSource (db.comps op) x

/-- Assumptions about an alternative of the text. -/
structure AltOk (db : Db T) (env : NsEnv Str Str) (g : NsGraph T Str Str) (r : Rels T Str Str) (th : TokenHelper T)
    (Ec : GStore T → T → T → Prop) (Rg : Nat → Bnd Nat → Prop) (De : EdgeStore T Str Str → T → Prop)
    (Re : EdgeStore T Str Str → Nat → Bnd Nat → Prop) (offset : Nat) (c : List Parse.QLit) (L : List (Aql.Occ (NsSpec Str Str))) : Prop where
  nonempty : ∃ o ∈ L, o.optional = false
  unambiguous : ∀ o ∈ L, o.optional = false → Unambiguous o.spec
  connected : ∀ i j, (∃ a, L[i]? = some a ∧ a.optional = false) → (∃ a, L[j]? = some a ∧ a.optional = false) →
    Relation.EqvGen (fun i j => ∃ lhs op rhs, .bin lhs op rhs false ∈ c ∧ Aql.Denotes offset L lhs i ∧ Aql.Denotes offset L rhs j) i j
  supported : ∀ lhs op rhs neg, .bin lhs op rhs neg ∈ c → Supported db neg op
  fits : ∀ lhs op rhs neg, .bin lhs op rhs neg ∈ c → OpFits db r th Ec Rg De Re op
  arity : ∀ ref range, .un ref range ∈ c → ∀ i o, Aql.DenotesRef offset L ref i → L[i]? = some o → o.optional = false
  patterns : ∀ o ∈ L, (o.optional = true ∨ ∀ l ∈ c, l.isBin = false ∧ l.isUn = false) → ∀ p, NodeSearch.patternOf o.spec = some p → env.compile p ≠ none
  tokens : ∀ o ∈ L, o.spec = .anyToken → g.anyTokens ≠ none
  replaced : ∀ lhs op rhs neg, .bin lhs op rhs neg ∈ c → ∀ i j a b, Aql.Denotes offset L lhs i → Aql.Denotes offset L rhs j → L[i]? = some a →
    L[j]? = some b → a.optional = false → b.optional = false → Replaceable db env r a.spec op neg

end
end Answer
