import Verif.Aql.Model

/-!
# What the translation of a query should give

Written against the literals of the query, without the functions of the model.
-/

namespace Aql

variable {S O U : Type}

/-! ## Trees -/

/-- The truth value of a tree. -/
def Expr.eval {L : Type} (v : L → Bool) : Expr L → Bool
  | .term l => v l
  | .const b => b
  | .not a => !a.eval v
  | .and a b => a.eval v && b.eval v
  | .or a b => a.eval v || b.eval v

/-- A tree of conjunctions of literals. -/
inductive IsConj {L : Type} : Expr L → Prop
  | term (l : L) : IsConj (.term l)
  | and {a b : Expr L} : IsConj a → IsConj b → IsConj (.and a b)

/-- A tree in disjunctive normal form, without negation and constants (the grammar of queries has none). -/
inductive IsDnf {L : Type} : Expr L → Prop
  | conj {a : Expr L} : IsConj a → IsDnf a
  | or {a b : Expr L} : IsDnf a → IsDnf b → IsDnf (.or a b)

/-! ## Node searches -/

/-- A node search in the text of a query. -/
structure Occ (S : Type) where
  pos : Nat
  spec : S
  vname : Option (List Char)
  optional : Bool
deriving DecidableEq

/-- The node searches written in an operand. -/
def Operand.occs : Operand S → List (Occ S)
  | .ref _ => []
  | .lit spec pos vname optional => [⟨pos, spec, vname, optional⟩]

/-- The node searches written in a literal. -/
def Literal.occs : Literal S O U → List (Occ S)
  | .node spec pos vname optional => [⟨pos, spec, vname, optional⟩]
  | .bin lhs _ rhs _ => lhs.occs ++ rhs.occs
  | .un _ _ => []
  | .legacyMeta _ => []

/-- The node searches of a conjunction in the order of the text, each once. There is one if searches at the same position are the same
search (they come from the same text). -/
structure IsNodeList (c : List (Literal S O U)) (L : List (Occ S)) : Prop where
  sorted : L.Pairwise fun a b => a.pos < b.pos
  mem : ∀ o, o ∈ L ↔ ∃ l ∈ c, o ∈ l.occs

/-- No two node searches have the same name. -/
def NamesDistinct (L : List (Occ S)) : Prop := (L.filterMap Occ.vname).Nodup

/-- The variable of the `i`-th node of a conjunction with `offset` nodes before it. -/
def varOf (offset i : Nat) : Option (List Char) → Var
  | some s => .name s
  | none => .num (offset + i + 1)

/-- The node a reference means. -/
def DenotesRef (offset : Nat) (L : List (Occ S)) (r : Ref) (i : Nat) : Prop :=
  ∃ o, L[i]? = some o ∧
    match r with
    | .id n => o.vname = none ∧ n = offset + i + 1
    | .name s => o.vname = some s

/-- The node an operand means. -/
def Denotes (offset : Nat) (L : List (Occ S)) (x : Operand S) (i : Nat) : Prop :=
  match x with
  | .ref r => DenotesRef offset L r i
  | .lit _ pos _ _ => ∃ o, L[i]? = some o ∧ o.pos = pos

/-! ## Operators -/

/-- The operator as it is used: in quirks mode unlimited distances are limited to 50. -/
inductive OpUsed (quirks : Bool) : BinSpec O → BinSpec O → Prop
  | normal (op : BinSpec O) : quirks = false → OpUsed quirks op op
  | limited (o : O) : quirks = true → OpUsed quirks (.dist o .unbound) (.dist o (.bound 1 50))
  | bounded (o : O) (min max : Nat) : quirks = true → OpUsed quirks (.dist o (.bound min max)) (.dist o (.bound min max))
  | join (o : O) : quirks = true → OpUsed quirks (.join o) (.join o)
  | other (o : O) : quirks = true → OpUsed quirks (.other o) (.other o)

/-- What a binary operator of the text becomes: an operator between two nodes, or a condition on one node if the other one is optional. -/
inductive Effect (quirks : Bool) (offset : Nat) (L : List (Occ S)) : Literal S O U → BinEntry S O ⊕ UnEntry S O U → Prop
  | plain {lhs rhs op op' i j a b} : Denotes offset L lhs i → Denotes offset L rhs j → L[i]? = some a → L[j]? = some b →
      a.optional = false → b.optional = false → OpUsed quirks op op' →
      Effect quirks offset L (.bin lhs op rhs false) (.inl ⟨.plain ⟨op', a.spec, b.spec⟩, offset + i, offset + j, !quirks⟩)
  | negated {lhs rhs op op' i j a b} : Denotes offset L lhs i → Denotes offset L rhs j → L[i]? = some a → L[j]? = some b →
      a.optional = false → b.optional = false → OpUsed quirks op op' →
      Effect quirks offset L (.bin lhs op rhs true) (.inl ⟨.negated ⟨op', a.spec, b.spec⟩, offset + i, offset + j, !quirks⟩)
  | leftMissing {lhs rhs op op' i j a b} : Denotes offset L lhs i → Denotes offset L rhs j → L[i]? = some a → L[j]? = some b →
      a.optional = true → b.optional = false → OpUsed quirks op op' →
      Effect quirks offset L (.bin lhs op rhs true) (.inr ⟨.nonExisting ⟨op', a.spec, b.spec⟩ a.spec true, j⟩)
  | rightMissing {lhs rhs op op' i j a b} : Denotes offset L lhs i → Denotes offset L rhs j → L[i]? = some a → L[j]? = some b →
      a.optional = false → b.optional = true → OpUsed quirks op op' →
      Effect quirks offset L (.bin lhs op rhs true) (.inr ⟨.nonExisting ⟨op', a.spec, b.spec⟩ b.spec false, i⟩)

/-- What a unary operator of the text becomes. -/
inductive UnEffect (offset : Nat) (L : List (Occ S)) : Literal S O U → UnEntry S O U → Prop
  | mk {r u i} : DenotesRef offset L r i → UnEffect offset L (.un r u) ⟨.user u, i⟩

def Literal.isBin : Literal S O U → Bool
  | .bin _ _ _ _ => true
  | _ => false

def Literal.isUn : Literal S O U → Bool
  | .un _ _ => true
  | _ => false

def Literal.isMeta : Literal S O U → Bool
  | .legacyMeta _ => true
  | _ => false

/-- A conjunction that says the same as the text. -/
structure Translated (quirks : Bool) (offset : Nat) (c : List (Literal S O U)) (L : List (Occ S)) (q : Conj S O U) : Prop where
  offset_eq : q.offset = offset
  nodes : q.nodes = L.mapIdx fun i o => ⟨varOf offset i o.vname, o.spec, o.optional⟩
  operators : ∃ (us : List (UnEntry S O U)) (es : List (BinEntry S O ⊕ UnEntry S O U)),
    List.Forall₂ (UnEffect offset L) (c.filter Literal.isUn) us ∧
    List.Forall₂ (Effect quirks offset L) (c.filter Literal.isBin) es ∧
    q.bins = es.filterMap Sum.getLeft? ∧ q.uns = us ++ es.filterMap Sum.getRight?
  vars : ∀ v p, q.vars v = some p ↔ ∃ o, L[p]? = some o ∧ v = varOf offset p o.vname
  out : ∀ v, v ∈ q.out ↔ ∃ p o, L[p]? = some o ∧ v = varOf offset p o.vname ∧ o.optional = false

/-- Artificial nodes: for each index of the list one more node with the same search, which must be the identical node. -/
inductive Copies (offset : Nat) (L : List (Occ S)) : Conj S O U → List Nat → Conj S O U → Prop
  | nil (q) : Copies offset L q [] q
  | cons {q i r q' o} : L[i]? = some o →
      Copies offset L { q with
        nodes := q.nodes ++ [⟨.num (offset + q.nodes.length + 1), o.spec, false⟩]
        vars := fun v => if v = .num (offset + q.nodes.length + 1) then some q.nodes.length else q.vars v
        out := .num (offset + q.nodes.length + 1) :: q.out
        bins := q.bins ++ [⟨.ident, offset + i, offset + q.nodes.length, false⟩] } r q' →
      Copies offset L q (i :: r) q'

/-- The number of times a node is an operand of dominance or pointing. -/
noncomputable def joinsOf (offset : Nat) (L : List (Occ S)) (i : Nat) (c : List (Literal S O U)) : Nat := by
  classical
  exact (c.map fun l => match l with
    | .bin lhs (.join _) rhs _ => (if Denotes offset L lhs i then 1 else 0) + (if Denotes offset L rhs i then 1 else 0)
    | _ => 0).sum

/-- Everything in the text has a meaning. -/
structure WellFormed (quirks : Bool) (offset : Nat) (c : List (Literal S O U)) (L : List (Occ S)) : Prop where
  metas : quirks = false → ∀ l ∈ c, l.isMeta = false
  uns : ∀ l ∈ c, l.isUn = true → ∃ u, UnEffect offset L l u
  bins : ∀ l ∈ c, l.isBin = true → ∃ e, Effect quirks offset L l e

end Aql
