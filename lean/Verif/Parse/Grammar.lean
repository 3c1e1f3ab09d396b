import Verif.Parse.Lex
import Verif.Aql.Spec
import Verif.NodeSearch.Model

/-!
# The grammar of queries

`graphannis/src/annis/db/aql/parser.lalrpop` 42-531: syntax trees with one constructor for each alternative of a rule, the tokens of a tree
(which are the rules, read from the right to the left), a parser, and the actions that build the tree of literals of `Verif.Aql`.  The parser LALRPOP
generates is a table-driven one; the parser here goes from the top to the bottom with one token of lookahead.  `C92_parse` shows that it gives
exactly the trees of the grammar, so it is not trusted.
-/

namespace Parse

/-! ### Syntax trees -/

/-- `QName` (parser.lalrpop 528-531). -/
structure QN where
  ns : Option Str
  name : Str
deriving DecidableEq, Repr

/-- `ComparisonOperator` (parser.lalrpop 457-460) and `FilterOpSpec` (441-444). -/
inductive Cmp
  | eq
  | ne
deriving DecidableEq, Repr

/-- `TextSearch` (parser.lalrpop 462-467). -/
inductive Txt
  | exact (s : Str)
  | regex (s : Str)
deriving DecidableEq, Repr

/-- `NodeSearch` (parser.lalrpop 195-310). -/
inductive NS
  | node
  | tok
  | tokCmp (c : Cmp) (t : Txt)
  | txt (t : Txt)
  | named (q : QN) (c : Cmp) (t : Txt)
  | name (q : QN)
deriving DecidableEq, Repr

/-- A node search with the name of a variable and a question mark (parser.lalrpop 69, 185). -/
structure Search where
  var : Option Str
  spec : NS
  opt : Bool
deriving DecidableEq, Repr

/-- `NodeRef` (parser.lalrpop 314-317). -/
inductive Ref
  | num (s : Str)
  | var (s : Str)
deriving DecidableEq, Repr

/-- `Operand` (parser.lalrpop 183-192). -/
inductive Opd
  | ref (r : Ref)
  | search (s : Search)
deriving DecidableEq, Repr

/-- `RangeSpec` (parser.lalrpop 515-526); the comma before the numbers is optional. -/
inductive Rng
  | two (comma : Bool) (a b : Str)
  | one (comma : Bool) (a : Str)
  | star
deriving DecidableEq, Repr

/-- `EdgeAnno` (parser.lalrpop 469-513). -/
structure EA where
  q : QN
  c : Cmp
  t : Txt
deriving DecidableEq, Repr

/-- What follows the name of dominance and pointing operators (parser.lalrpop 322-373). -/
inductive Tail
  | none
  | rng (r : Rng)
  | anno (a : EA)
deriving DecidableEq, Repr

/-- `BinaryOpSpec` (parser.lalrpop 320-438). -/
inductive BOp
  | dom (n : Str) (t : Tail)
  | point (n : Str) (t : Tail)
  | prec (n : Str) (r : Option Rng)
  | near (n : Str) (r : Option Rng)
  | partOf (r : Option Rng)
  | overlap
  | cov
  | incl
  | left
  | right
  | ident
deriving DecidableEq, Repr

/-- An operator with its right operand (parser.lalrpop 75): whether it is negated, the operator and the operand. -/
structure Link where
  neg : Bool
  op : BOp
  rhs : Opd
deriving DecidableEq, Repr

/-- `Literal` (parser.lalrpop 67-181). -/
inductive Lit
  | search (s : Search)
  | chain (lhs : Opd) (x : Link) (rest : List Link)
  | filter (lhs : Ref) (x : Cmp × Ref) (rest : List (Cmp × Ref))
  | arity (r : Ref) (g : Rng)
  | metaQ (q : QN) (c : Cmp) (t : Txt)
deriving DecidableEq, Repr

mutual
/-- `Disjunction` (parser.lalrpop 42-50): the conjunction at the head and those of the tail. -/
inductive Disj
  | one (c : Conj)
  | more (c : Conj) (d : Disj)
/-- `Conjunction` (parser.lalrpop 52-60). -/
inductive Conj
  | one (f : Fac)
  | more (f : Fac) (c : Conj)
/-- `Factor` (parser.lalrpop 62-65). -/
inductive Fac
  | lit (l : Lit)
  | paren (d : Disj)
end

/-! ### The rules: the tokens of a tree -/

/-- parser.lalrpop 528-531. -/
def QN.yield : QN → List Tk
  | ⟨none, n⟩ => [.id n]
  | ⟨some ns, n⟩ => [.id ns, .kw .colon, .id n]

/-- parser.lalrpop 457-460. -/
def Cmp.yield : Cmp → List Tk
  | .eq => [.kw .eq]
  | .ne => [.kw .neq]

/-- parser.lalrpop 441-444. -/
def Cmp.filterYield : Cmp → List Tk
  | .eq => [.kw .eqeq]
  | .ne => [.kw .neq]

/-- parser.lalrpop 462-467. -/
def Txt.yield : Txt → List Tk
  | .exact s => [.quoted s]
  | .regex s => [.regex s]

/-- parser.lalrpop 195-310. -/
def NS.yield : NS → List Tk
  | .node => [.kw .node]
  | .tok => [.kw .tok]
  | .tokCmp c t => .kw .tok :: (c.yield ++ t.yield)
  | .txt t => t.yield
  | .named q c t => q.yield ++ (c.yield ++ t.yield)
  | .name q => q.yield

/-- `(VARIABLE_DEF)?`. -/
def varYield : Option Str → List Tk
  | none => []
  | some v => [.varDef v]

/-- `<var:(VARIABLE_DEF)?> <spec:NodeSearch> <optional:"?"?>` (parser.lalrpop 69, 185). -/
def Search.yield (s : Search) : List Tk :=
  varYield s.var ++ (s.spec.yield ++ (if s.opt then [.kw .quest] else []))

/-- parser.lalrpop 314-317. -/
def Ref.yield : Ref → List Tk
  | .num s => [.nodeRef s]
  | .var s => [.varRef s]

/-- parser.lalrpop 183-192. -/
def Opd.yield : Opd → List Tk
  | .ref r => r.yield
  | .search s => s.yield

/-- `(",")?`. -/
def optComma (b : Bool) : List Tk := if b then [.kw .comma] else []

/-- parser.lalrpop 515-526. -/
def Rng.yield : Rng → List Tk
  | .two b x y => optComma b ++ [.digits x, .kw .comma, .digits y]
  | .one b x => optComma b ++ [.digits x]
  | .star => [.kw .star]

/-- parser.lalrpop 470. -/
def EA.yield (a : EA) : List Tk := .kw .lbr :: (a.q.yield ++ (a.c.yield ++ (a.t.yield ++ [.kw .rbr])))

/-- parser.lalrpop 322, 331, 348, 357. -/
def Tail.yield : Tail → List Tk
  | .none => []
  | .rng r => r.yield
  | .anno a => a.yield

/-- `(RangeSpec)?`. -/
def rngYield : Option Rng → List Tk
  | none => []
  | some r => r.yield

/-- parser.lalrpop 320-438. -/
def BOp.yield : BOp → List Tk
  | .dom n t => .dom n :: t.yield
  | .point n t => .point n :: t.yield
  | .prec n r => .prec n :: rngYield r
  | .near n r => .near n :: rngYield r
  | .partOf r => .kw .at_ :: rngYield r
  | .overlap => [.kw .overlap]
  | .cov => [.kw .identCov]
  | .incl => [.kw .inclusion]
  | .left => [.kw .leftAligned]
  | .right => [.kw .rightAligned]
  | .ident => [.kw .identNode]

/-- `"!"? BinaryOpSpec Operand` (parser.lalrpop 75). -/
def Link.yield (x : Link) : List Tk := (if x.neg then [.kw .bang] else []) ++ (x.op.yield ++ x.rhs.yield)

/-- `FilterOpSpec NodeRef` (parser.lalrpop 101). -/
def filterLink (x : Cmp × Ref) : List Tk := x.1.filterYield ++ x.2.yield

/-- parser.lalrpop 69, 75, 101, 128, 133, 449. -/
def Lit.yield : Lit → List Tk
  | .search s => s.yield
  | .chain l x r => l.yield ++ (x.yield ++ r.flatMap Link.yield)
  | .filter l x r => l.yield ++ (filterLink x ++ r.flatMap filterLink)
  | .arity r g => r.yield ++ (.kw .arity :: .kw .eq :: g.yield)
  | .metaQ q c t => .kw .metaK :: (q.yield ++ (c.yield ++ t.yield))

mutual
/-- parser.lalrpop 43. -/
def Disj.yield : Disj → List Tk
  | .one c => c.yield
  | .more c d => c.yield ++ .kw .bar :: d.yield
/-- parser.lalrpop 53. -/
def Conj.yield : Conj → List Tk
  | .one f => f.yield
  | .more f c => f.yield ++ .kw .amp :: c.yield
/-- parser.lalrpop 63-64. -/
def Fac.yield : Fac → List Tk
  | .lit l => l.yield
  | .paren d => .kw .lpar :: (d.yield ++ [.kw .rpar])
end

/-! ### The parser -/

/-- A parser reads a tree from the front of the tokens. -/
abbrev P (A : Type) := List Tk → Option (A × List Tk)

/-- parser.lalrpop 528-531. -/
def pQN : P QN
  | .id a :: .kw .colon :: r =>
    match r with
    | .id b :: r => some (⟨some a, b⟩, r)
    | _ => none
  | .id a :: r => some (⟨none, a⟩, r)
  | _ => none

/-- parser.lalrpop 457-460. -/
def pCmp : P Cmp
  | .kw .eq :: r => some (.eq, r)
  | .kw .neq :: r => some (.ne, r)
  | _ => none

/-- parser.lalrpop 441-444. -/
def pFilter : P Cmp
  | .kw .eqeq :: r => some (.eq, r)
  | .kw .neq :: r => some (.ne, r)
  | _ => none

/-- parser.lalrpop 462-467. -/
def pTxt : P Txt
  | .quoted s :: r => some (.exact s, r)
  | .regex s :: r => some (.regex s, r)
  | _ => none

/-- A comparison with a value, which is there if the next token is a comparison operator. -/
def pVal (ts : List Tk) : Option (Option (Cmp × Txt) × List Tk) :=
  match pCmp ts with
  | none => some (none, ts)
  | some (c, r) =>
    match pTxt r with
    | none => none
    | some (t, r) => some (some (c, t), r)

/-- parser.lalrpop 195-310. -/
def pNS (ts : List Tk) : Option (NS × List Tk) :=
  match ts with
  | .kw .node :: r => some (.node, r)
  | .kw .tok :: r =>
    match pVal r with
    | none => none
    | some (none, r) => some (.tok, r)
    | some (some (c, t), r) => some (.tokCmp c t, r)
  | ts =>
    match pTxt ts with
    | some (t, r) => some (.txt t, r)
    | none =>
      match pQN ts with
      | none => none
      | some (q, r) =>
        match pVal r with
        | none => none
        | some (none, r) => some (.name q, r)
        | some (some (c, t), r) => some (.named q c t, r)

/-- `(VARIABLE_DEF)?`. -/
def pVar : List Tk → Option Str × List Tk
  | .varDef v :: r => (some v, r)
  | r => (none, r)

/-- `"?"?`. -/
def pQuest : List Tk → Bool × List Tk
  | .kw .quest :: r => (true, r)
  | r => (false, r)

/-- parser.lalrpop 69, 185. -/
def pSearch (ts : List Tk) : Option (Search × List Tk) :=
  match pNS (pVar ts).2 with
  | none => none
  | some (s, r) => some (⟨(pVar ts).1, s, (pQuest r).1⟩, (pQuest r).2)

/-- parser.lalrpop 314-317. -/
def pRef : P Ref
  | .nodeRef s :: r => some (.num s, r)
  | .varRef s :: r => some (.var s, r)
  | _ => none

/-- parser.lalrpop 183-192. -/
def pOpd (ts : List Tk) : Option (Opd × List Tk) :=
  match pRef ts with
  | some (r, rest) => some (.ref r, rest)
  | none => (pSearch ts).map fun x => (.search x.1, x.2)

/-- The numbers of a range (parser.lalrpop 516-523). -/
def pNums (b : Bool) : P Rng
  | .digits x :: .kw .comma :: r =>
    match r with
    | .digits y :: r => some (.two b x y, r)
    | _ => none
  | .digits x :: r => some (.one b x, r)
  | _ => none

/-- parser.lalrpop 515-526. -/
def pRng : P Rng
  | .kw .star :: r => some (.star, r)
  | .kw .comma :: r => pNums true r
  | ts => pNums false ts

/-- Whether a range begins with the next token. -/
def startsRng : List Tk → Bool
  | .kw .star :: _ => true
  | .kw .comma :: _ => true
  | .digits _ :: _ => true
  | _ => false

/-- `(RangeSpec)?`. -/
def pOptRng (ts : List Tk) : Option (Option Rng × List Tk) :=
  if startsRng ts then (pRng ts).map fun x => (some x.1, x.2) else some (none, ts)

/-- parser.lalrpop 470. -/
def pEA (ts : List Tk) : Option (EA × List Tk) :=
  match pQN ts with
  | none => none
  | some (q, r) =>
    match pCmp r with
    | none => none
    | some (c, r) =>
      match pTxt r with
      | some (t, .kw .rbr :: r) => some (⟨q, c, t⟩, r)
      | _ => none

/-- parser.lalrpop 322, 331, 348, 357. -/
def pTail : P Tail
  | .kw .lbr :: r => (pEA r).map fun x => (.anno x.1, x.2)
  | ts => (pOptRng ts).map fun x => (match x.1 with | none => .none | some r => .rng r, x.2)

/-- parser.lalrpop 320-438. -/
def pBOp : P BOp
  | .dom n :: r => (pTail r).map fun x => (.dom n x.1, x.2)
  | .point n :: r => (pTail r).map fun x => (.point n x.1, x.2)
  | .prec n :: r => (pOptRng r).map fun x => (.prec n x.1, x.2)
  | .near n :: r => (pOptRng r).map fun x => (.near n x.1, x.2)
  | .kw .at_ :: r => (pOptRng r).map fun x => (.partOf x.1, x.2)
  | .kw .overlap :: r => some (.overlap, r)
  | .kw .identCov :: r => some (.cov, r)
  | .kw .inclusion :: r => some (.incl, r)
  | .kw .leftAligned :: r => some (.left, r)
  | .kw .rightAligned :: r => some (.right, r)
  | .kw .identNode :: r => some (.ident, r)
  | _ => none

/-- Whether an operator with an optional exclamation mark begins with the next token. -/
def startsLink : List Tk → Bool
  | .dom _ :: _ => true
  | .point _ :: _ => true
  | .prec _ :: _ => true
  | .near _ :: _ => true
  | .kw .at_ :: _ => true
  | .kw .overlap :: _ => true
  | .kw .identCov :: _ => true
  | .kw .inclusion :: _ => true
  | .kw .leftAligned :: _ => true
  | .kw .rightAligned :: _ => true
  | .kw .identNode :: _ => true
  | .kw .bang :: _ => true
  | _ => false

/-- `"!"?`. -/
def pBang : List Tk → Bool × List Tk
  | .kw .bang :: r => (true, r)
  | r => (false, r)

/-- parser.lalrpop 75. -/
def pLink (ts : List Tk) : Option (Link × List Tk) :=
  match pBOp (pBang ts).2 with
  | none => none
  | some (op, r) =>
    match pOpd r with
    | none => none
    | some (x, r) => some (⟨(pBang ts).1, op, x⟩, r)

/-- The tail of operators (parser.lalrpop 75); the number bounds the length of the tail. -/
def pLinks : Nat → P (List Link)
  | 0, ts => some ([], ts)
  | n + 1, ts =>
    if startsLink ts then
      match pLink ts with
      | none => none
      | some (x, r) =>
        match pLinks n r with
        | none => none
        | some (xs, r) => some (x :: xs, r)
    else some ([], ts)

/-- The tail of comparisons (parser.lalrpop 101). -/
def pFilters : Nat → P (List (Cmp × Ref))
  | 0, ts => some ([], ts)
  | n + 1, ts =>
    match pFilter ts with
    | none => some ([], ts)
    | some (c, r) =>
      match pRef r with
      | none => none
      | some (x, r) =>
        match pFilters n r with
        | none => none
        | some (xs, r) => some ((c, x) :: xs, r)

/-- One operator and its tail. -/
def pChain (l : Opd) (ts : List Tk) : Option (Lit × List Tk) :=
  match pLink ts with
  | none => none
  | some (x, r) =>
    match pLinks r.length r with
    | none => none
    | some (xs, r) => some (.chain l x xs, r)

/-- A literal after a reference that is no operand of a filter (parser.lalrpop 75, 128, 449). -/
def pAfterRef (x : Ref) : P Lit
  | .kw .arity :: r =>
    match r with
    | .kw .eq :: r => (pRng r).map fun z => (.arity x z.1, z.2)
    | _ => none
  | r => pChain (.ref x) r

/-- A literal that begins with a reference or a node search (parser.lalrpop 69-131). -/
def pOpLit (ts : List Tk) : Option (Lit × List Tk) :=
  match pRef ts with
  | some (x, r) =>
    match pFilter r with
    | some (c, r) =>
      match pRef r with
      | none => none
      | some (y, r) => (pFilters r.length r).map fun z => (.filter x (c, y) z.1, z.2)
    | none => pAfterRef x r
  | none =>
    match pSearch ts with
    | none => none
    | some (s, r) => if startsLink r then pChain (.search s) r else some (.search s, r)

/-- parser.lalrpop 67-181. -/
def pLit : P Lit
  | .kw .metaK :: r =>
    match pQN r with
    | none => none
    | some (q, r) =>
      match pCmp r with
      | none => none
      | some (c, r) => (pTxt r).map fun x => (.metaQ q c x.1, x.2)
  | ts => pOpLit ts

mutual
/-- parser.lalrpop 42-50.  The number bounds the depth; three times the number of tokens is enough. -/
def pDisj : Nat → P Disj
  | 0, _ => none
  | n + 1, ts =>
    match pConj n ts with
    | none => none
    | some (c, .kw .bar :: r) => (pDisj n r).map fun x => (.more c x.1, x.2)
    | some (c, r) => some (.one c, r)
/-- parser.lalrpop 52-60. -/
def pConj : Nat → P Conj
  | 0, _ => none
  | n + 1, ts =>
    match pFac n ts with
    | none => none
    | some (f, .kw .amp :: r) => (pConj n r).map fun x => (.more f x.1, x.2)
    | some (f, r) => some (.one f, r)
/-- parser.lalrpop 62-65. -/
def pFac : Nat → P Fac
  | 0, _ => none
  | n + 1, .kw .lpar :: r =>
    match pDisj n r with
    | some (d, .kw .rpar :: r) => some (.paren d, r)
    | _ => none
  | _ + 1, ts => (pLit ts).map fun x => (.lit x.1, x.2)
end

/-- The tree of a list of tokens. -/
def parseTree (ts : List Tk) : Option Disj :=
  match pDisj (3 * ts.length) ts with
  | some (d, []) => some d
  | _ => none

end Parse
