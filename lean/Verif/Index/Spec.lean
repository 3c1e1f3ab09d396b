import Verif.Index.Lemmas

/-!
# What the text coverage index should contain

The specification only uses the edges of the graph and the token label.
-/

namespace Graph

namespace Index

variable {S V C : Type} [LinearOrder S] [OrderBot S] [LinearOrder V] [LinearOrder C]

/-- The node is connected to the other one by a coverage edge that is not part of the index. -/
def Direct (sc : Schema C) (g : Graph S V C) (a b : NodeID64) : Prop := ∃ c, sc.kind c = .coverage ∧ c ≠ sc.inh ∧ E g c a b

/-- The edges that are followed to find the covered tokens. -/
def Below (sc : Schema C) (g : Graph S V C) (a b : NodeID64) : Prop := Direct sc g a b ∨ ∃ c, sc.kind c = .dominance ∧ E g c a b

/-- A token has the token label and does not cover anything. -/
def IsTok (sc : Schema C) (tok : AnnoKey S) (g : Graph S V C) (i : NodeID64) : Prop :=
  (g.annos.getValue i tok).isSome ∧ ¬ ∃ b, Direct sc g i b

/-- The node covers the token, directly or by way of other nodes. -/
def Covered (sc : Schema C) (tok : AnnoKey S) (g : Graph S V C) (x t : NodeID64) : Prop :=
  IsTok sc tok g t ∧ t ≠ x ∧ Relation.TransGen (Below sc g) x t

/-- The token comes before the other one. -/
def Before (sc : Schema C) (g : Graph S V C) (a b : NodeID64) : Prop := Relation.TransGen (E g sc.order) a b

/-- The first token that is covered by the node. -/
def First (sc : Schema C) (tok : AnnoKey S) (g : Graph S V C) (x t : NodeID64) : Prop :=
  Covered sc tok g x t ∧ ∀ t', Covered sc tok g x t' → t' = t ∨ Before sc g t t'

/-- The last token that is covered by the node. -/
def Last (sc : Schema C) (tok : AnnoKey S) (g : Graph S V C) (x t : NodeID64) : Prop :=
  Covered sc tok g x t ∧ ∀ t', Covered sc tok g x t' → t' = t ∨ Before sc g t' t

/-- The index of one node is right. -/
structure NodeOk (sc : Schema C) (tok : AnnoKey S) (g : Graph S V C) (x : NodeID64) : Prop where
  left : ∀ t, E g sc.left x t ↔ First sc tok g x t
  right : ∀ t, E g sc.right x t ↔ Last sc tok g x t
  inh : ∀ t, E g sc.inh x t ↔ Covered sc tok g x t ∧ ¬ Direct sc g x t

/-- The index is right for all nodes that exist. -/
def IndexOk (sc : Schema C) (nk tok : AnnoKey S) (g : Graph S V C) : Prop := ∀ x, Named nk g x → NodeOk sc tok g x

/-- The index components are of the right type. -/
structure SchemaOk (sc : Schema C) : Prop where
  order : sc.kind sc.order = .ordering
  left : sc.kind sc.left = .leftToken
  right : sc.kind sc.right = .rightToken
  inh : sc.kind sc.inh = .coverage

/-- Two tokens that are covered by the same node are ordered. -/
structure OrderOk (sc : Schema C) (tok : AnnoKey S) (g : Graph S V C) : Prop where
  acyclic : ∀ a, ¬ Before sc g a a
  total : ∀ x a b, Covered sc tok g x a → Covered sc tok g x b → a = b ∨ Before sc g a b ∨ Before sc g b a

/-- A node with the token label that has coverage or dominance edges has coverage edges. -/
def SegOk (sc : Schema C) (tok : AnnoKey S) (g : Graph S V C) : Prop :=
  ∀ i b, (g.annos.getValue i tok).isSome → Below sc g i b → ∃ b', Direct sc g i b'

end Index

end Graph
