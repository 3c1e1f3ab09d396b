import Verif.Parse.Actions
import Verif.Text.Location

/-!
# The texts of operators in the explanation of a query (C120)

`Display` of the operators (graphannis/src/annis/db/aql/operators/*.rs) and of `EdgeAnnoSearchSpec` (graphannis/src/annis/operator.rs 31-74), which
are parts of the text that `CorpusStorage::plan` gives.  The operators on optional nodes (non_existing.rs) and `:arity` are left out.
-/

namespace Explain

open Parse

/-- `Display` of `RangeSpec` (operators/mod.rs 25-38). -/
def rangeText : RangeSpec → Str
  | .bound a b => if a = 1 ∧ b = 1 then [] else Nat.toDigits 10 a ++ ',' :: Nat.toDigits 10 b
  | .unbound => ['*']

/-- The qualified name in `Display` of `EdgeAnnoSearchSpec` (operator.rs 35-39, 47-51, 55-59, 64-68). -/
def qnameText : Option Str → Str → Str
  | some ns, name => ns ++ ':' :: name
  | none, name => name

/-- `Display` of `EdgeAnnoSearchSpec` (operator.rs 31-74). -/
def annoText : EdgeSpec → Str
  | .exact ns name (some val) => qnameText ns name ++ '=' :: '"' :: (val ++ ['"'])
  | .exact ns name none => qnameText ns name
  | .notExact ns name val => qnameText ns name ++ '!' :: '=' :: '"' :: (val ++ ['"'])
  | .regex ns name val => qnameText ns name ++ '=' :: '/' :: (val ++ ['/'])
  | .notRegex ns name val => qnameText ns name ++ '!' :: '=' :: '/' :: (val ++ ['/'])

/-- The combining arrow `\u{20D6}` of inverse operators. -/
def arrow : Char := '⃖'

/-- `anno_frag` (edge_op.rs 268-272). -/
def annoFrag : Option EdgeSpec → Str
  | some e => '[' :: (annoText e ++ [']'])
  | none => []

/-- The operators without arguments: overlap.rs 90-98 (with `reflexive`), identical_cov.rs 101-105, inclusion.rs 89-93, leftalignment.rs
59-63, rightalignment.rs, identical_node.rs 44-48, equal_value.rs 68-76 (with `negated`). -/
inductive Simple
  | overlap (reflexive : Bool)
  | identicalCoverage
  | inclusion
  | leftAlignment
  | rightAlignment
  | identicalNode
  | equalValue (negated : Bool)
  deriving DecidableEq

def Simple.text : Simple → Str
  | .overlap true => "_o_reflexive_".toList
  | .overlap false => "_o_".toList
  | .identicalCoverage => "_=_".toList
  | .inclusion => "_i_".toList
  | .leftAlignment => "_l_".toList
  | .rightAlignment => "_r_".toList
  | .identicalNode => "_ident_".toList
  | .equalValue true => "!=".toList
  | .equalValue false => "==".toList

/-- An operator as it is executed: a specification, and whether it is the inverse operator. -/
inductive Oper
  | dominance (name : Str) (inverse : Bool) (dist : RangeSpec) (anno : Option EdgeSpec)
  | pointing (name : Str) (inverse : Bool) (dist : RangeSpec) (anno : Option EdgeSpec)
  | partOf (inverse : Bool) (dist : RangeSpec)
  | precedence (inverse : Bool) (segmentation : Option Str) (dist : RangeSpec)
  | near (segmentation : Option Str) (dist : RangeSpec)
  | simple (o : Simple)
  | negated (o : Oper)

/-- `op_str` without its first characters (edge_op.rs 641-645, 692-696). -/
def nameText (name : Str) : Str := if name = [] then [] else name ++ [' ']

/-- `Display` of `PrecedenceSpec` and `NearSpec` (precedence.rs 92-100, near.rs 82-90). -/
def distText : Option Str → RangeSpec → Str
  | some seg, dist => seg ++ ' ' :: rangeText dist
  | none, dist => rangeText dist

def arrowText (inverse : Bool) : Str := if inverse then [arrow] else []

/-- `Display` of operators: `BaseEdgeOp` (edge_op.rs 266-284, 641-645, 692-696, 758), `Precedence` and `InversePrecedence` (precedence.rs
145, 270), `Near` (near.rs 121-125), `NegatedOp` (negated_op.rs 57-63). -/
def Oper.text : Oper → Str
  | .dominance name inverse dist anno => '>' :: (nameText name ++ (arrowText inverse ++ (rangeText dist ++ annoFrag anno)))
  | .pointing name inverse dist anno => '-' :: '>' :: (nameText name ++ (arrowText inverse ++ (rangeText dist ++ annoFrag anno)))
  | .partOf inverse dist => '@' :: (arrowText inverse ++ rangeText dist)
  | .precedence inverse seg dist => '.' :: (arrowText inverse ++ distText seg dist)
  | .near seg dist => '^' :: distText seg dist
  | .simple o => o.text
  | .negated o => '!' :: o.text

end Explain
