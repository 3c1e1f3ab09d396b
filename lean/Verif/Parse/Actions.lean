import Verif.Parse.GrammarLemmas
import Verif.Parse.LexProps
import Verif.Aql.Props

/-!
# The actions of the grammar

`graphannis/src/annis/db/aql/parser.lalrpop` 42-531: the code in braces, which builds the tree of literals (aql/ast.rs).  The tree is the one
of `Verif.Aql`, which keeps the start of the position of node searches and no other positions.
-/

namespace Parse

/-- `EdgeAnnoSearchSpec` (graphannis/src/annis/operator.rs 8-29). -/
inductive EdgeSpec
  | exact (ns : Option Str) (name : Str) (val : Option Str)
  | notExact (ns : Option Str) (name : Str) (val : Str)
  | regex (ns : Option Str) (name : Str) (val : Str)
  | notRegex (ns : Option Str) (name : Str) (val : Str)
deriving DecidableEq

/-- `ast::BinaryOpSpec` (aql/ast.rs 96-109); the ranges of precedence and near are kept apart (see `Aql.BinSpec`). -/
inductive OpSpec
  | dominance (name : Str) (dist : RangeSpec) (anno : Option EdgeSpec)
  | pointing (name : Str) (dist : RangeSpec) (anno : Option EdgeSpec)
  | precedence (segmentation : Option Str)
  | near (segmentation : Option Str)
  | partOf (dist : RangeSpec)
  | overlap
  | identicalCoverage
  | inclusion
  | leftAlignment
  | rightAlignment
  | identicalNode
  | valueComparison (c : Cmp)
deriving DecidableEq

deriving instance DecidableEq for NsSpec
deriving instance DecidableEq for Aql.Operand
deriving instance DecidableEq for Aql.Literal

/-- `ast::Literal`. -/
abbrev QLit := Aql.Literal (NsSpec Str Str) OpSpec RangeSpec

/-- `ast::Operand`. -/
abbrev QOpd := Aql.Operand (NsSpec Str Str)

/-- `ast::Expr`. -/
abbrev Q := Aql.Expr QLit

/-- The value of decimal digits. -/
def natOf (s : Str) : Nat := s.foldl (fun n c => 10 * n + (c.toNat - 48)) 0

/-- `parse::<usize>()` of a text of digits on a machine with 64 bits: an error if the number is too large. -/
def usize (s : Str) : Option Nat := if natOf s < 2 ^ 64 then some (natOf s) else none

/-- parser.lalrpop 315-316; `none` is the panic of `unwrap`. -/
def Ref.act : Ref → Option Aql.Ref
  | .num s => (usize s).map .id
  | .var s => some (.name s)

/-- parser.lalrpop 516-524: a number that is too large becomes 0 (`unwrap_or_default`). -/
def Rng.act : Rng → RangeSpec
  | .two _ a b => .bound ((usize a).getD 0) ((usize b).getD 0)
  | .one _ a => .bound ((usize a).getD 0) ((usize a).getD 0)
  | .star => .unbound

/-- The default of a missing range (parser.lalrpop 342, 368, 389, 409, 421). -/
def rngAct : Option Rng → RangeSpec
  | none => .bound 1 1
  | some r => r.act

/-- The search for a named annotation with a value (parser.lalrpop 133-180, 255-299). -/
def valueSpec (q : QN) (c : Cmp) (isMeta : Bool) : Txt → NsSpec Str Str
  | .exact v => match c with | .eq => .exact q.ns q.name (some v) isMeta | .ne => .notExact q.ns q.name v isMeta
  | .regex v => match c with | .eq => .regex q.ns q.name v isMeta | .ne => .notRegex q.ns q.name v isMeta

/-- parser.lalrpop 195-310. -/
def NS.act : NS → NsSpec Str Str
  | .node => .anyNode
  | .tok => .anyToken
  | .tokCmp .eq (.exact v) => .exactTok v true
  | .tokCmp .ne (.exact v) => .notExactTok v
  | .tokCmp .eq (.regex v) => .regexTok v true
  | .tokCmp .ne (.regex v) => .notRegexTok v
  | .txt (.exact v) => .exactTok v false
  | .txt (.regex v) => .regexTok v false
  | .named q c t => valueSpec q c false t
  | .name q => .exact q.ns q.name none false

/-- parser.lalrpop 470-512. -/
def EA.act (a : EA) : EdgeSpec :=
  match a.t, a.c with
  | .exact v, .eq => .exact a.q.ns a.q.name (some v)
  | .exact v, .ne => .notExact a.q.ns a.q.name v
  | .regex v, .eq => .regex a.q.ns a.q.name v
  | .regex v, .ne => .notRegex a.q.ns a.q.name v

/-- The range and the annotation after the name of an operator on edges (parser.lalrpop 322-373). -/
def Tail.act : Tail → RangeSpec × Option EdgeSpec
  | .none => (.bound 1 1, Option.none)
  | .rng r => (r.act, Option.none)
  | .anno a => (.bound 1 1, some a.act)

/-- An empty name is no name (parser.lalrpop 376-380, 396-400). -/
def segName (s : Str) : Option Str := if s.isEmpty then none else some s

/-- parser.lalrpop 320-438. -/
def BOp.act : BOp → Aql.BinSpec OpSpec
  | .dom n t => .join (.dominance n t.act.1 t.act.2)
  | .point n t => .join (.pointing n t.act.1 t.act.2)
  | .prec n r => .dist (.precedence (segName n)) (rngAct r)
  | .near n r => .dist (.near (segName n)) (rngAct r)
  | .partOf r => .other (.partOf (rngAct r))
  | .overlap => .other .overlap
  | .cov => .other .identicalCoverage
  | .incl => .other .inclusion
  | .left => .other .leftAlignment
  | .right => .other .rightAlignment
  | .ident => .other .identicalNode

/-- `@L`: the position of the first token of a rule. -/
def startOf : List PTok → Nat
  | [] => 0
  | t :: _ => t.start

/-- parser.lalrpop 183-192; `ps` are the tokens from the first one of the operand. -/
def Opd.act (ps : List PTok) : Opd → Option QOpd
  | .ref r => r.act.map .ref
  | .search s => some (.lit s.spec.act (startOf ps) s.var s.opt)

/-- The number of tokens before the operand of a link. -/
def Link.opLen (x : Link) : Nat := (if x.neg then 1 else 0) + x.op.yield.length

/-- The loop over the tail of operators (parser.lalrpop 85-97). -/
def chainAct (last : QOpd) (ps : List PTok) (e : Q) : List Link → Option Q
  | [] => some e
  | x :: xs =>
    match x.rhs.act (ps.drop x.opLen) with
    | none => none
    | some o => chainAct o (ps.drop x.yield.length) (.and e (.term (.bin last x.op.act o x.neg))) xs

/-- The loop over the tail of comparisons (parser.lalrpop 113-124). -/
def filterAct (last : Aql.Ref) (e : Q) : List (Cmp × Ref) → Option Q
  | [] => some e
  | x :: xs =>
    match x.2.act with
    | none => none
    | some o => filterAct o (.and e (.term (.bin (.ref last) (.other (.valueComparison x.1)) (.ref o) false))) xs

/-- parser.lalrpop 67-181. -/
def Lit.act (ps : List PTok) : Lit → Option Q
  | .search s => some (.term (.node s.spec.act (startOf ps) s.var s.opt))
  | .chain l x xs =>
    match l.act ps, x.rhs.act (ps.drop (l.yield.length + x.opLen)) with
    | some a, some b => chainAct b (ps.drop (l.yield.length + x.yield.length)) (.term (.bin a x.op.act b x.neg)) xs
    | _, _ => none
  | .filter l x xs =>
    match l.act, x.2.act with
    | some a, some b => filterAct b (.term (.bin (.ref a) (.other (.valueComparison x.1)) (.ref b) false)) xs
    | _, _ => none
  | .arity r g => r.act.map fun r => .term (.un r g.act)
  | .metaQ q c t => some (.term (.legacyMeta (valueSpec q c true t)))

/-- `expr = ast::Expr::or(expr, t.1)` (parser.lalrpop 46); at the head there is no expression yet (44). -/
def orWith : Option Q → Q → Q
  | none, e => e
  | some a, e => .or a e

/-- `expr = ast::Expr::and(expr, t.1)` (parser.lalrpop 54-56). -/
def andWith : Option Q → Q → Q
  | none, e => e
  | some a, e => .and a e

mutual
/-- parser.lalrpop 42-50. -/
def Disj.act : Disj → List PTok → Option Q → Option Q
  | .one c, ps, acc => (c.act ps none).map (orWith acc)
  | .more c d, ps, acc =>
    match c.act ps none with
    | none => none
    | some e => d.act (ps.drop (c.yield.length + 1)) (some (orWith acc e))
/-- parser.lalrpop 52-60. -/
def Conj.act : Conj → List PTok → Option Q → Option Q
  | .one f, ps, acc => (f.act ps).map (andWith acc)
  | .more f c, ps, acc =>
    match f.act ps with
    | none => none
    | some e => c.act (ps.drop (f.yield.length + 1)) (some (andWith acc e))
/-- parser.lalrpop 62-65. -/
def Fac.act : Fac → List PTok → Option Q
  | .lit l, ps => l.act ps
  | .paren d, ps => d.act (ps.drop 1) none
end

/-- What parsing a query gives. -/
inductive Outcome
  | ok (e : Q)
  | syntaxError
  | panic
deriving DecidableEq

/-- `DisjunctionParser::new().parse(query)` (aql/mod.rs 496-498).  The actions run while the tokens are read, so for a text with an error after a
reference `#n` with a number that is too large the program panics instead of giving the error; here it is `syntaxError`. -/
def parseQuery (s : Str) : Outcome :=
  match lex s with
  | .error _ => .syntaxError
  | .ok ps =>
    match parseTree (ps.map (·.tk)) with
    | none => .syntaxError
    | some d =>
      match d.act ps none with
      | none => .panic
      | some e => .ok e

/-! ### Specification -/

namespace Spec

/-- The operands of a chain, each at its place. -/
def operand (l : Opd) (xs : List Link) (ps : List PTok) : Nat → Option QOpd
  | 0 => l.act ps
  | i + 1 =>
    match xs[i]? with
    | none => none
    | some x => x.rhs.act (ps.drop (l.yield.length + ((xs.take i).flatMap Link.yield).length + x.opLen))

/-- When a literal holds: a chain means the conjunction of its operators, each between the two operands next to it. -/
def LitHolds (v : QLit → Bool) (ps : List PTok) : Lit → Prop
  | .search s => v (.node s.spec.act (startOf ps) s.var s.opt) = true
  | .chain l x xs => ∀ (i : Nat) (y : Link) (a b : QOpd), (x :: xs)[i]? = some y → operand l (x :: xs) ps i = some a →
      operand l (x :: xs) ps (i + 1) = some b → v (.bin a y.op.act b y.neg) = true
  | .filter l x xs => ∀ (i : Nat) (c : Cmp) (r r' : Ref) (a b : Aql.Ref), (x :: xs)[i]? = some (c, r') →
      (l :: (x :: xs).map (·.2))[i]? = some r → r.act = some a → r'.act = some b →
      v (.bin (.ref a) (.other (.valueComparison c)) (.ref b) false) = true
  | .arity r g => ∀ a, r.act = some a → v (.un a g.act) = true
  | .metaQ q c t => v (.legacyMeta (valueSpec q c true t)) = true

mutual
/-- A disjunction holds if one of its conjunctions does. -/
def DisjHolds (v : QLit → Bool) : Disj → List PTok → Prop
  | .one c, ps => ConjHolds v c ps
  | .more c d, ps => ConjHolds v c ps ∨ DisjHolds v d (ps.drop (c.yield.length + 1))
/-- A conjunction holds if all of its factors do. -/
def ConjHolds (v : QLit → Bool) : Conj → List PTok → Prop
  | .one f, ps => FacHolds v f ps
  | .more f c, ps => FacHolds v f ps ∧ ConjHolds v c (ps.drop (f.yield.length + 1))
/-- A factor is a literal or a disjunction in parentheses. -/
def FacHolds (v : QLit → Bool) : Fac → List PTok → Prop
  | .lit l, ps => LitHolds v ps l
  | .paren d, ps => DisjHolds v d (ps.drop 1)
end

/-- The references with numbers in a list of tokens are not too large. -/
def RefsFit (ts : List Tk) : Prop := ∀ s, Tk.nodeRef s ∈ ts → natOf s < 2 ^ 64

end Spec

end Parse
