import Verif.Whole.Model

/-!
# C98: the results of a conjunction are the combinations of nodes that the query describes
-/

set_option linter.unusedSimpArgs false
set_option linter.unusedSectionVars false
set_option linter.unusedVariables false

namespace Whole

open TextSpec

variable {T N V E : Type} [LinearOrder T] [LinearOrder N] [OrderBot N] [LinearOrder V]

/-! ## Specification -/

/-- The relations of a corpus: tokens, first and last token of a node, order of the tokens, covered tokens, and the edges with their
annotations in the components of edge operators and segmentations. -/
structure Rels (T N V : Type) where
  tok : T → Prop
  first : T → T → Prop
  last : T → T → Prop
  next : T → T → Prop
  cov : T → T → Prop
  edge : EdgeStore T N V → T → T → Prop
  anno : EdgeStore T N V → T → T → AnnoKey N → V → Prop

/-- What an operator means. -/
def Holds (r : Rels T N V) : OpKind T N V → T → T → Prop
  | .precedence dist _, a, b => Precedes r.tok r.first r.last r.next dist a b
  | .near dist, a, b => Precedes r.tok r.first r.last r.next dist a b ∨ Precedes r.tok r.first r.last r.next dist b a
  | .segPrecedence c dist _, a, b => Ordered (r.edge c) dist a b
  | .segNear c dist, a, b => Ordered (r.edge c) dist a b ∨ Ordered (r.edge c) dist b a
  | .inclusion, a, b => Includes r.tok r.first r.last r.next a b
  | .overlap _, a, b => Share r.tok r.cov a b
  | .leftAlignment, a, b => ∃ t, Border r.tok r.first a t ∧ Border r.tok r.first b t
  | .rightAlignment, a, b => ∃ t, Border r.tok r.last a t ∧ Border r.tok r.last b t
  | .identicalCoverage, a, b => SameBorders r.tok r.first r.last a b
  | .identicalNode, a, b => a = b
  | .edge gs dist anno _ _ _, a, b => EdgeOp.Related r.edge r.anno gs dist anno a b
  | .negated op, a, b => ¬ Holds r op a b

/-- A match for a node of the query: the node has a wanted annotation, the match shows it, and the unary operators accept it. -/
def Found (env : NsEnv N V) (m : AnnoStore.Spec T N V) (Cov : T → T → Prop) (nd : Node T N V) (x : SMatch T (AnnoKey N)) : Prop :=
  (∃ k, NodeSearch.Wanted env m Cov nd.spec x.node k ∧ x.key = NodeSearch.ShownKey env nd.spec k) ∧ ∀ p, nd.keep = some p → p x = true

/-- A row is an answer: it reaches to the last node of the query that is not optional, the nodes that are not optional have a match, all
operators hold, and optional nodes have the default match. -/
structure IsAnswer (env : NsEnv N V) (m : AnnoStore.Spec T N V) (r : Rels T N V) (d : SMatch T (AnnoKey N)) (nodes : List (Option (Node T N V)))
    (bins : List (Bin T N V)) (row : Row T (AnnoKey N)) : Prop where
  length : ∀ i, i < row.length ↔ ∃ (n : Nat) (nd : Node T N V), i ≤ n ∧ nodes[n]? = some (some nd)
  found : ∀ (n : Nat) nd, nodes[n]? = some (some nd) → ∃ x, row[n]? = some x ∧ Found env m r.cov nd x
  default : ∀ (n : Nat) x, nodes[n]? = some none → row[n]? = some x → x = d
  holds : ∀ b ∈ bins, ∃ x y, row[b.left]? = some x ∧ row[b.right]? = some y ∧ Holds r b.kind x.node y.node

/-- The matches of two different nodes that are not optional are different. -/
def DistinctRow (nodes : List (Option (Node T N V))) (row : Row T (AnnoKey N)) : Prop :=
  ∀ (i j : Nat) x nd nd', i ≠ j → nodes[i]? = some (some nd) → nodes[j]? = some (some nd') → row[i]? = some x → row[j]? ≠ some x

/-! ## Assumptions -/

/-- The index of the corpus is correct: the index of the token helper, and an order that knows all tokens and only orders tokens. -/
structure TextOk (r : Rels T N V) (th : TokenHelper T) (order : GStore T) (Ec : GStore T → T → T → Prop) (D : T → Prop)
    (Rg : Nat → Bnd Nat → Prop) : Prop where
  thOk : th.Ok r.first r.last Ec
  isTok : ∀ n, r.tok n ↔ th.Tok Ec n
  isCov : ∀ a b, r.cov a b ↔ th.Cov Ec a b
  orderOk : order.Is r.next D Rg
  orderTok : ∀ a b, r.next a b → th.Tok Ec a ∧ th.Tok Ec b
  known : ∀ n, th.Tok Ec n → D n

/-- What precedence and nearness in a segmentation need. -/
structure SegOk (r : Rels T N V) (De : EdgeStore T N V → T → Prop) (Re : EdgeStore T N V → Nat → Bnd Nat → Prop) (c : EdgeStore T N V)
    (dist : RangeSpec) : Prop where
  store : c.g.Is (r.edge c) (De c) (Re c)
  range : Re c dist.minDist dist.maxDist
  min : 1 ≤ dist.minDist
  spans : ∀ a b, r.edge c a b → ∀ x, ¬ r.first x b ∧ ¬ r.last x a

/-- What an operator needs in addition. `C` are the nodes of the matches of its operands. Precedence and nearness: a range that the storage of the
order handles. With a segmentation also: a correct storage, at least the distance 1, and no nodes of the segmentation that are first or last
tokens of a node. Inclusion: texts that are chains. Overlap: coverage without gaps, and operands that cover tokens if it is reflexive. Edge
operators: correct storages, ranges that they handle, and storages that know all nodes if a path may have the length 0. -/
def Fits (r : Rels T N V) (th : TokenHelper T) (Ec : GStore T → T → T → Prop) (Rg : Nat → Bnd Nat → Prop)
    (De : EdgeStore T N V → T → Prop) (Re : EdgeStore T N V → Nat → Bnd Nat → Prop) (C : T → Prop) : OpKind T N V → Prop
  | .precedence dist _ => Rg dist.minDist dist.maxDist
  | .near dist => Rg dist.minDist dist.maxDist
  | .segPrecedence c dist _ => SegOk r De Re c dist
  | .segNear c dist => SegOk r De Re c dist
  | .inclusion => Linear.Chains r.next ∧ ∀ a b d, Walk.SimplePath r.next a b d → Rg 0 (.included d)
  | .overlap refl => Linear.Chains r.next ∧ (∀ n t, th.Cov Ec n t → th.Tok Ec t) ∧ th.Continuous r.first r.last r.next Ec ∧
      (refl = true → ∀ n, C n → ∃ t, Covers r.tok r.cov n t)
  | .edge gs dist _ _ _ _ => (∀ c ∈ gs, EdgeOp.CompOk c (r.edge c) (r.anno c) (De c) (Re c) ∧ Re c dist.minDist dist.maxDist) ∧
      (1 ≤ dist.minDist ∨ ∀ c ∈ gs, ∀ n, De c n)
  | .negated op => Fits r th Ec Rg De Re C op
  | _ => True

/-! ## Operators -/

/-- Truth value of a proposition. -/
noncomputable def bl (p : Prop) : Bool := @decide p (Classical.propDecidable p)

theorem bl_iff {p : Prop} : bl p = true ↔ p := by unfold bl; exact @decide_eq_true_iff p (Classical.propDecidable p)

theorem bl_eq {p : Prop} {b : Bool} (h : b = true ↔ p) : b = bl p := by rw [Bool.eq_iff_iff, h, bl_iff]

/-- What the candidates and the description of a node search have to do with each other (C66). -/
def DescOk (C : List (SMatch T (AnnoKey N))) (dr : Option (NsDesc T (AnnoKey N) E)) : Prop :=
  ∀ d, dr = some d → ∃ (cond : SMatch T (AnnoKey N) → Bool) (all : List T), all.Nodup ∧ (∀ m, allConds m d.cond = .ok (cond m)) ∧
    (∀ n, d.keys n ≠ [] → n ∈ all) ∧ ∀ nodes, C.Perm ((IjSpec.mk nodes d.keys cond).rhs d.constOutput all)

theorem implOk {op : OpImpl T (AnnoKey N) E} {H : T → T → Prop} {Cl Cr : List (SMatch T (AnnoKey N))} {dr : Option (NsDesc T (AnnoKey N) E)}
    {global strict : Bool} (hf : ∀ a ∈ Cl, ∀ b ∈ Cr, op.base.filter a b = .ok (bl (H a.node b.node)))
    (hr : ∀ ret, op.retrieve = some ret → ∀ a ∈ Cl, ∃ l, ret a = .ok l ∧ l.Nodup ∧ ∀ n, n ∈ l ↔ H a.node n) (hd : DescOk Cr dr)
    (hs : strict = true ∨ op.base.reflexive = true) : ImplOk op (fun a b => bl (H a.node b.node)) Cl Cr dr global strict := by
  refine ⟨hf, fun ret hret d hdr => ?_, hs.imp id Or.inl⟩
  obtain ⟨cond, all, h1, h2, h3, h4⟩ := hd d hdr
  refine ⟨fun a => match ret a with | .ok l => l | .error _ => [], cond, all, h1, h2, h4 _, fun a ha => ?_⟩
  obtain ⟨l, e1, e2, e3⟩ := hr ret hret a ha
  simp only [e1]
  refine ⟨trivial, e2, fun n _ hn => h3 n hn, fun m _ => ?_⟩
  show _ ↔ m.node ∈ (match ret a with | .ok l => l | .error _ => [])
  rw [e1, bl_iff]
  exact (e3 _).symm

section Ops
variable {r : Rels T N V} {th : TokenHelper T} {order : GStore T} {Ec : GStore T → T → T → Prop} {D : T → Prop} {Rg : Nat → Bnd Nat → Prop}
  {De : EdgeStore T N V → T → Prop} {Re : EdgeStore T N V → Nat → Bnd Nat → Prop}

/-- Filter and retrieval of an implementation decide a relation, for the given left candidates. -/
structure Decided (op : OpImpl T (AnnoKey N) E) (H : T → T → Prop) (Cl Cr : List (SMatch T (AnnoKey N))) : Prop where
  filter : ∀ a ∈ Cl, ∀ b ∈ Cr, op.base.filter a b = .ok (bl (H a.node b.node))
  retrieve : ∀ ret, op.retrieve = some ret → ∀ a ∈ Cl, ∃ l, ret a = .ok l ∧ l.Nodup ∧ ∀ n, n ∈ l ↔ H a.node n

theorem decided_nodeOp {f : T → T → Option Bool} {refl : Bool} {ret : T → Option (List T)} {H : T → T → Prop}
    {Cl Cr : List (SMatch T (AnnoKey N))}
    (h : ∀ l, ∃ res, ret l = some res ∧ res.Nodup ∧ ∀ n, f l n = some (decide (n ∈ res)) ∧ (n ∈ res ↔ H l n)) :
    Decided (nodeOp (N := N) (E := E) f refl ret) H Cl Cr := by
  constructor
  · intro a _ b _
    obtain ⟨res, _, _, h3⟩ := h a.node
    simp only [nodeOp, (h3 b.node).1, lift, Except.ok.injEq]
    exact bl_eq (by rw [decide_eq_true_iff]; exact (h3 b.node).2)
  · intro rt hrt a _
    simp only [nodeOp, Option.some.injEq] at hrt
    subst hrt
    obtain ⟨res, h1, h2, h3⟩ := h a.node
    exact ⟨res, by simp [h1, lift], h2, fun n => (h3 n).2⟩

theorem tok_eq (h : TextOk r th order Ec D Rg) : r.tok = th.Tok Ec := funext fun n => propext (h.isTok n)

theorem cov_eq (h : TextOk r th order Ec D Rg) : r.cov = th.Cov Ec := funext fun a => funext fun b => propext (h.isCov a b)

theorem decided_fwd (h : TextOk r th order Ec D Rg) {C : T → Prop} {Cl Cr : List (SMatch T (AnnoKey N))} (hC : ∀ a ∈ Cl, C a.node) :
    ∀ (q : OpKind T N V), Fits r th Ec Rg De Re C q →
    Decided (E := E) (fwd th order q) (Holds r q) Cl Cr
  | .precedence dist i, hq => by
    refine decided_nodeOp fun l => ?_
    obtain ⟨res, h1, h2, h3⟩ := TextOp.C45_precedence h.thOk h.orderOk h.orderTok hq l
    exact ⟨res, h1, h2, fun n => ⟨(h3 n).1, by rw [(h3 n).2 (Or.inr h.known), Holds, tok_eq h]⟩⟩
  | .near dist, hq => by
    refine decided_nodeOp fun l => ?_
    obtain ⟨res, h1, h2, h3⟩ := TextOp.C45_near h.thOk h.orderOk h.orderTok hq l
    exact ⟨res, h1, h2, fun n => ⟨(h3 n).1, by rw [(h3 n).2 (Or.inr h.known), Holds, tok_eq h]⟩⟩
  | .segPrecedence c dist i, hq => by
    refine decided_nodeOp fun l => ?_
    exact TextOp.C45_spans_partial h.thOk hq.store hq.range hq.min (fun a b x hab => (hq.spans a b hab x).1) l
  | .segNear c dist, hq => by
    refine decided_nodeOp fun l => ?_
    exact TextOp.C45_spans_near_partial h.thOk hq.store hq.range hq.min (fun a b x hab => (hq.spans a b hab x).1)
      (fun a b x hab => (hq.spans a b hab x).2) l
  | .inclusion, hq => by
    refine decided_nodeOp fun l => ?_
    obtain ⟨res, h1, h2, h3⟩ := TextOp.C46_inclusion_partial h.thOk h.orderOk h.orderTok hq.1 hq.2 l
    exact ⟨res, h1, h2, fun n => ⟨(h3 n).1, by rw [(h3 n).2 h.known, Holds, tok_eq h]⟩⟩
  | .overlap refl, hq => by
    obtain ⟨hch, hcvt, hcont, hcv⟩ := hq
    have hself : refl = true → ∀ a ∈ Cl, Share (th.Tok Ec) (th.Cov Ec) a.node a.node := fun hr a ha => by
      obtain ⟨t, ht⟩ := hcv hr a.node (hC a ha)
      rw [tok_eq h, cov_eq h] at ht
      exact ⟨t, ht, ht⟩
    constructor
    · intro a ha b _
      simp only [fwd, Holds, tok_eq h, cov_eq h]
      obtain ⟨res, h1, h2, h3⟩ := TextOp.C46_overlap_partial h.thOk h.orderOk hch hcvt hcont false a.node
      have hx := (h3 b.node).1
      have hy := (h3 b.node).2
      simp only [Bool.false_eq_true, false_and, false_or] at hy
      by_cases hs : refl = true ∧ a = b
      · obtain ⟨hr, rfl⟩ := hs
        subst hr
        simp only [TextOp.overlapFilter, decide_true, Bool.and_self, if_true, lift, Except.ok.injEq]
        exact bl_eq (by simpa using hself rfl a ha)
      · have : TextOp.overlapFilter th order refl (decide (a = b)) a.node b.node =
            TextOp.overlapFilter th order false (decide (a.node = b.node)) a.node b.node := by
          have e : (refl && decide (a = b)) = false := by
            cases refl
            · rfl
            · simpa using hs
          simp only [TextOp.overlapFilter, e, Bool.false_and, Bool.false_eq_true, if_false]
        rw [this, hx]
        simp only [lift, Except.ok.injEq]
        exact bl_eq (by rw [decide_eq_true_iff]; exact hy)
    · intro rt hrt a ha
      simp only [fwd, Option.some.injEq] at hrt
      subst hrt
      obtain ⟨res, h1, h2, h3⟩ := TextOp.C46_overlap_retrieval h.thOk hcvt refl a.node
      refine ⟨res, by simp [h1, lift], h2, fun n => ?_⟩
      simp only [Holds, tok_eq h, cov_eq h]
      rw [h3]
      constructor
      · rintro (⟨hr, rfl⟩ | hx)
        · exact hself hr a ha
        · exact hx
      · exact Or.inr
  | .leftAlignment, _ => by
    refine decided_nodeOp fun l => ?_
    obtain ⟨res, h1, h2, h3⟩ := TextOp.C46_left_alignment h.thOk l
    exact ⟨res, h1, h2, fun n => ⟨(h3 n).1, by rw [(h3 n).2, Holds, tok_eq h]⟩⟩
  | .rightAlignment, _ => by
    refine decided_nodeOp fun l => ?_
    obtain ⟨res, h1, h2, h3⟩ := TextOp.C46_right_alignment h.thOk l
    exact ⟨res, h1, h2, fun n => ⟨(h3 n).1, by rw [(h3 n).2, Holds, tok_eq h]⟩⟩
  | .identicalCoverage, _ => by
    refine decided_nodeOp fun l => ?_
    obtain ⟨res, h1, h2, h3⟩ := TextOp.C46_identical_coverage h.thOk l
    exact ⟨res, h1, h2, fun n => ⟨(h3 n).1, by rw [(h3 n).2, Holds, tok_eq h]⟩⟩
  | .identicalNode, _ => by
    constructor
    · intro a _ b _
      simp only [fwd, NodeSearch.identOp, Except.ok.injEq]
      exact bl_eq (by simp [Holds])
    · intro rt hrt a _
      simp only [fwd, NodeSearch.identOp, Option.some.injEq] at hrt
      subst hrt
      exact ⟨[a.node], rfl, List.nodup_singleton _, fun n => by simp [Holds, eq_comm]⟩
  | .edge gs dist anno refl i i2, hq => by
    refine decided_nodeOp fun l => ?_
    obtain ⟨res, h1, h2, h3⟩ := EdgeOp.C48_edge_operators_partial (spec := anno) hq.1 false l
    exact ⟨res, h1, h2, fun n => ⟨(h3 n).1, by rw [(h3 n).2 hq.2]; simp [Holds]⟩⟩
  | .negated op, hq => by
    have ih := decided_fwd h (Cl := Cl) (Cr := Cr) hC op hq
    constructor
    · intro a ha b hb
      simp only [fwd, NodeSearch.negOp, ih.filter a ha b hb, Except.ok.injEq]
      refine bl_eq ?_
      rw [Bool.not_eq_true', Holds, ← Bool.not_eq_true, bl_iff]
    · intro rt hrt
      simp [fwd, NodeSearch.negOp] at hrt

theorem decided_inv (h : TextOk r th order Ec D Rg) {C : T → Prop} {Cl Cr : List (SMatch T (AnnoKey N))} (hC : ∀ a ∈ Cr, C a.node)
    (q : OpKind T N V) (hq : Fits r th Ec Rg De Re C q)
    (i : OpImpl T (AnnoKey N) E) (hi : inv th order q = some i) :
    Decided i (fun a b => Holds r q b a) Cr Cl ∧ i.base.reflexive = (fwd (E := E) th order q).base.reflexive := by
  -- a symmetric operator is its own inverse
  have symm : (∀ a b, Holds r q a b ↔ Holds r q b a) → some (fwd (E := E) th order q) = some i →
      Decided i (fun a b => Holds r q b a) Cr Cl ∧ i.base.reflexive = (fwd (E := E) th order q).base.reflexive := by
    intro hs hx
    simp only [Option.some.injEq] at hx
    subst hx
    have := decided_fwd (E := E) h (Cl := Cr) (Cr := Cl) hC q hq
    have e : (fun a b => Holds r q b a) = Holds r q := funext fun a => funext fun b => propext (hs b a)
    rw [e]
    exact ⟨this, rfl⟩
  cases q with
  | precedence dist j =>
    cases j with
    | false => simp [inv] at hi
    | true =>
      simp only [inv, if_true, Option.some.injEq] at hi
      subst hi
      refine ⟨decided_nodeOp fun l => ?_, rfl⟩
      obtain ⟨res, h1, h2, h3⟩ := TextOp.C45_inverse_precedence h.thOk h.orderOk h.orderTok hq l
      exact ⟨res, h1, h2, fun n => ⟨(h3 n).1, by rw [(h3 n).2 (Or.inr h.known), Holds, tok_eq h]⟩⟩
  | segPrecedence c dist j =>
    cases j with
    | false => simp [inv] at hi
    | true =>
      simp only [inv, if_true, Option.some.injEq] at hi
      subst hi
      refine ⟨decided_nodeOp fun l => ?_, rfl⟩
      exact TextOp.C45_spans_inverse_partial h.thOk hq.store hq.range hq.min (fun a b x hab => (hq.spans a b hab x).2) l
  | segNear c dist => exact symm (fun a b => by simp only [Holds]; exact or_comm) hi
  | near dist => exact symm (fun a b => by simp only [Holds]; exact or_comm) hi
  | inclusion => simp [inv] at hi
  | overlap refl =>
    exact symm (fun a b => by
      simp only [Holds, Share]
      exact ⟨fun ⟨t, x, y⟩ => ⟨t, y, x⟩, fun ⟨t, x, y⟩ => ⟨t, y, x⟩⟩) hi
  | leftAlignment => exact symm (fun a b => by simp only [Holds]; exact ⟨fun ⟨t, x, y⟩ => ⟨t, y, x⟩, fun ⟨t, x, y⟩ => ⟨t, y, x⟩⟩) hi
  | rightAlignment => exact symm (fun a b => by simp only [Holds]; exact ⟨fun ⟨t, x, y⟩ => ⟨t, y, x⟩, fun ⟨t, x, y⟩ => ⟨t, y, x⟩⟩) hi
  | identicalCoverage =>
    exact symm (fun a b => by
      simp only [Holds, SameBorders]
      exact ⟨fun ⟨⟨t, x, y⟩, ⟨t', x', y'⟩⟩ => ⟨⟨t, y, x⟩, ⟨t', y', x'⟩⟩, fun ⟨⟨t, x, y⟩, ⟨t', x', y'⟩⟩ => ⟨⟨t, y, x⟩, ⟨t', y', x'⟩⟩⟩) hi
  | identicalNode => exact symm (fun a b => by simp only [Holds]; exact eq_comm) hi
  | edge gs dist anno refl j j2 =>
    cases j with
    | false => simp [inv] at hi
    | true =>
      simp only [inv, if_true, Option.some.injEq] at hi
      subst hi
      refine ⟨decided_nodeOp fun l => ?_, rfl⟩
      obtain ⟨res, h1, h2, h3⟩ := EdgeOp.C48_edge_operators_partial (spec := anno) hq.1 true l
      exact ⟨res, h1, h2, fun n => ⟨(h3 n).1, by rw [(h3 n).2 hq.2]; simp [Holds]⟩⟩
  | negated op => simp [inv] at hi

theorem inv2_eq (q : OpKind T N V) (i : OpImpl T (AnnoKey N) E) (hi : inv2 th order q = some i) : i = fwd th order q := by
  cases q with
  | precedence dist j => cases j <;> simp_all [inv2]
  | segPrecedence c dist j => cases j <;> simp_all [inv2]
  | segNear c dist => simpa [inv2, inv, eq_comm] using hi
  | edge gs dist anno refl j j2 => cases j <;> cases j2 <;> simp_all [inv2]
  | inclusion => simp [inv2, inv] at hi
  | negated op => simp [inv2, inv] at hi
  | near dist => simpa [inv2, inv, eq_comm] using hi
  | overlap refl => simpa [inv2, inv, eq_comm] using hi
  | leftAlignment => simpa [inv2, inv, eq_comm] using hi
  | rightAlignment => simpa [inv2, inv, eq_comm] using hi
  | identicalCoverage => simpa [inv2, inv, eq_comm] using hi
  | identicalNode => simpa [inv2, inv, eq_comm] using hi

/-- `is_reflexive` of the operator in the plan. -/
def reflexive : OpKind T N V → Bool
  | .precedence _ _ => true
  | .near _ => true
  | .segPrecedence _ _ _ => true
  | .segNear _ _ => true
  | .identicalNode => true
  | .overlap refl => refl
  | .edge _ _ _ refl _ _ => refl
  | .negated op => reflexive op
  | _ => false

theorem reflexive_eq : ∀ q : OpKind T N V, (fwd (E := E) th order q).base.reflexive = reflexive q
  | .precedence _ _ => rfl
  | .near _ => rfl
  | .segPrecedence _ _ _ => rfl
  | .segNear _ _ => rfl
  | .inclusion => rfl
  | .overlap _ => rfl
  | .leftAlignment => rfl
  | .rightAlignment => rfl
  | .identicalCoverage => rfl
  | .identicalNode => rfl
  | .edge _ _ _ _ _ _ => rfl
  | .negated op => by
    have := reflexive_eq op
    simpa [fwd, NodeSearch.negOp, reflexive] using this

theorem opOk (h : TextOk r th order Ec D Rg) (C : Nat → List (SMatch T (AnnoKey N))) (Ds : Nat → Option (NsDesc T (AnnoKey N) E))
    (b : Bin T N V) (global : Bool) {strict : Bool} {P : T → Prop} (hl : ∀ a ∈ C b.left, P a.node) (hr : ∀ a ∈ C b.right, P a.node)
    (hb : Fits r th Ec Rg De Re P b.kind) (dl : DescOk (C b.left) (Ds b.left)) (dr : DescOk (C b.right) (Ds b.right))
    (hs : strict = true ∨ reflexive b.kind = true) :
    OpOk C Ds (fun x y => bl (Holds r b.kind x.node y.node)) (b.toQ th order global) strict := by
  have hf := decided_fwd (E := E) h (Cl := C b.left) (Cr := C b.right) hl b.kind hb
  have hs' : strict = true ∨ (fwd (E := E) th order b.kind).base.reflexive = true := by rw [reflexive_eq]; exact hs
  refine ⟨implOk hf.filter hf.retrieve dr hs', fun i hi => ?_, fun i hi => ?_⟩
  · obtain ⟨h1, h2⟩ := decided_inv (E := E) h (Cl := C b.left) (Cr := C b.right) hr b.kind hb i hi
    exact implOk (H := fun x y => Holds r b.kind y x) h1.filter h1.retrieve dl (by rw [h2]; exact hs')
  · have := inv2_eq b.kind i hi
    subst this
    exact implOk hf.filter hf.retrieve dr hs'

end Ops

/-! ## Searches -/

/-- Not metadata without a namespace. -/
def Unambiguous : NsSpec N V → Prop
  | .exact none _ _ true => False
  | .notExact none _ _ true => False
  | .regex none _ _ true => False
  | .notRegex none _ _ true => False
  | _ => True

theorem unambiguous (ops : List (AnnoStore.Op T N V)) (env : NsEnv N V) {Cov : T → T → Prop} {q : NsSpec N V} (hq : Unambiguous q) (n : T)
    (k k' : AnnoKey N) (h : NodeSearch.Wanted env (AnnoStore.spec ops) Cov q n k) (h' : NodeSearch.Wanted env (AnnoStore.spec ops) Cov q n k')
    (hs : NodeSearch.ShownKey env q k = NodeSearch.ShownKey env q k') : k = k' := by
  refine NodeSearch.C66_unique ops env q ?_ n k k' h h' hs
  cases q with
  | exact ns _ _ m => cases ns <;> cases m <;> simp_all [Unambiguous]
  | notExact ns _ _ m => cases ns <;> cases m <;> simp_all [Unambiguous]
  | regex ns _ _ m => cases ns <;> cases m <;> simp_all [Unambiguous]
  | notRegex ns _ _ m => cases ns <;> cases m <;> simp_all [Unambiguous]
  | exactTok _ _ => trivial
  | notExactTok _ => trivial
  | regexTok _ _ => trivial
  | notRegexTok _ => trivial
  | anyToken => trivial
  | anyNode => trivial

section Searches
variable (ops : List (AnnoStore.Op T N V)) (env : NsEnv N V) (g : NsGraph T N V) (hg : g.annos = AnnoStore.run ops) {Cov : T → T → Prop}
  (hc : NodeSearch.CovOk g Cov) (hx : NodeSearch.ExactOk env) (ht : NodeSearch.TokensOk env g (AnnoStore.spec ops) Cov)

include hg hc hx ht in
theorem search_spec {nd : Node T N V} {rows : List (SMatch T (AnnoKey N))} {dr : Option (NsDesc T (AnnoKey N) E)}
    (h : nd.search env g = .ok (rows, dr)) (hu : Unambiguous nd.spec) :
    (∀ x, x ∈ rows ↔ Found env (AnnoStore.spec ops) Cov nd x) ∧ rows.Nodup ∧ DescOk rows dr := by
  unfold Node.search at h
  cases hf : NodeSearch.fromSpec (E := E) env g nd.spec with
  | error e => rw [hf] at h; simp at h
  | ok res =>
    obtain ⟨l, d⟩ := res
    rw [hf] at h
    have h1 := NodeSearch.C66_search ops env g hg hc hx ht nd.spec hf
    have hu' := unambiguous ops env (Cov := Cov) hu
    have h2 := NodeSearch.C66_nodup_partial ops env g hg hc hx ht nd.spec hf hu'
    have h3 := NodeSearch.C66_index_partial ops env g hg hc hx ht nd.spec hf hu'
    cases hk : nd.keep with
    | none =>
      simp only [hk, Except.ok.injEq, Prod.mk.injEq] at h
      obtain ⟨rfl, rfl⟩ := h
      refine ⟨fun x => ?_, h2, fun d' hd' => ?_⟩
      · rw [h1, Found, hk]; simp
      · simp only [Option.some.injEq] at hd'
        subst hd'
        exact h3
    | some p =>
      simp only [hk, Except.ok.injEq, Prod.mk.injEq] at h
      obtain ⟨rfl, rfl⟩ := h
      refine ⟨fun x => ?_, h2.filter _, fun d' hd' => by simp at hd'⟩
      rw [List.mem_filter, h1, Found, hk]
      simp

theorem searches_get : ∀ {nodes : List (Option (Node T N V))} {S : List (Option (List (SMatch T (AnnoKey N)) × Option (NsDesc T (AnnoKey N) E)))},
    searches env g nodes = .ok S → S.length = nodes.length ∧ ∀ n : Nat, (nodes[n]? = some none → S[n]? = some none) ∧
      ∀ nd, nodes[n]? = some (some nd) → ∃ x, nd.search env g = .ok x ∧ S[n]? = some (some x)
  | [], S, h => by
    simp only [searches, Except.ok.injEq] at h
    subst h
    simp
  | none :: r, S, h => by
    rw [searches] at h
    cases hr : searches (E := E) env g r with
    | error e => rw [hr] at h; simp at h
    | ok l =>
      rw [hr] at h
      simp only [Except.ok.injEq] at h
      subst h
      obtain ⟨h1, h2⟩ := searches_get hr
      refine ⟨by simp [h1], fun n => ?_⟩
      cases n with
      | zero => simp
      | succ n => simpa using h2 n
  | some nd :: r, S, h => by
    rw [searches] at h
    cases hn : nd.search (E := E) env g with
    | error e => rw [hn] at h; simp at h
    | ok x =>
      rw [hn] at h
      cases hr : searches (E := E) env g r with
      | error e => rw [hr] at h; simp at h
      | ok l =>
        rw [hr] at h
        simp only [Except.ok.injEq] at h
        subst h
        obtain ⟨h1, h2⟩ := searches_get hr
        refine ⟨by simp [h1], fun n => ?_⟩
        cases n with
        | zero => simp [hn]
        | succ n => simpa using h2 n

variable {nodes : List (Option (Node T N V))} {S : List (Option (List (SMatch T (AnnoKey N)) × Option (NsDesc T (AnnoKey N) E)))}

theorem mem_mandatory_iff (h : searches env g nodes = .ok S) (n : Nat) : n ∈ mandatory S ↔ ∃ nd, nodes[n]? = some (some nd) := by
  obtain ⟨h1, h2⟩ := searches_get env g h
  unfold mandatory
  rw [List.mem_filter, List.mem_range]
  constructor
  · rintro ⟨hn, hx⟩
    rw [h1] at hn
    cases hq : nodes[n] with
    | none =>
      have := (h2 n).1 (by rw [List.getElem?_eq_getElem hn, hq])
      rw [this] at hx
      simp at hx
    | some nd => exact ⟨nd, by rw [List.getElem?_eq_getElem hn, hq]⟩
  · rintro ⟨nd, hnd⟩
    obtain ⟨x, _, hx⟩ := (h2 n).2 nd hnd
    refine ⟨(List.getElem?_eq_some_iff.1 hx).1, by rw [hx]⟩

theorem isNone_eq (h : searches env g nodes = .ok S) : S.map Option.isNone = nodes.map Option.isNone := by
  obtain ⟨h1, h2⟩ := searches_get env g h
  refine List.ext_getElem? fun n => ?_
  rw [List.getElem?_map, List.getElem?_map]
  cases hq : nodes[n]? with
  | none =>
    rw [List.getElem?_eq_none_iff] at hq
    rw [List.getElem?_eq_none (by omega)]
    rfl
  | some o =>
    cases o with
    | none =>
      rw [(h2 n).1 hq]
      rfl
    | some nd =>
      obtain ⟨x, _, hx⟩ := (h2 n).2 nd hq
      rw [hx]
      rfl

end Searches

/-! ## Rows -/

theorem mem_prodRows {M : Type} {C : Nat → List M} {cols : List Nat} {row : List M} :
    row ∈ prodRows C cols ↔ List.Forall₂ (fun x n => x ∈ C n) row cols := by
  induction cols generalizing row with
  | nil => simp [prodRows]
  | cons n cols ih =>
    simp only [prodRows, List.mem_flatMap, List.mem_map, List.forall₂_cons_right_iff, ih]
    constructor
    · rintro ⟨m, hm, r, hr, rfl⟩; exact ⟨m, r, hm, hr, rfl⟩
    · rintro ⟨m, r, hm, hr, rfl⟩; exact ⟨m, hm, r, hr, rfl⟩

theorem mem_prodRows_range {M : Type} {C : Nat → List M} {w : Nat} {row : List M} :
    row ∈ prodRows C (List.range w) ↔ row.length = w ∧ ∀ (i : Nat) x, row[i]? = some x → x ∈ C i := by
  rw [mem_prodRows, List.forall₂_iff_get]
  constructor
  · rintro ⟨h1, h2⟩
    rw [List.length_range] at h1
    refine ⟨h1, fun i x hx => ?_⟩
    obtain ⟨hi, rfl⟩ := List.getElem?_eq_some_iff.1 hx
    simpa using h2 i hi (by simpa [← h1] using hi)
  · rintro ⟨h1, h2⟩
    refine ⟨by simpa using h1, fun i hi hi' => ?_⟩
    simpa using h2 i _ (List.getElem?_eq_getElem hi)

theorem lt_outWidth_iff {cols : List Nat} {i : Nat} : i < outWidth cols ↔ ∃ n ∈ cols, i ≤ n := by
  constructor
  · intro h
    unfold outWidth at h
    cases hm : cols.max? with
    | none => rw [hm] at h; simp at h
    | some m =>
      rw [hm] at h
      exact ⟨m, (List.max?_eq_some_iff.1 hm).1, by simp only at h; omega⟩
  · rintro ⟨n, hn, hi⟩
    exact lt_of_le_of_lt hi (lt_outWidth hn)

/-! ## C98 -/

/-- Assumptions about the corpus: annotations after any history of changes, correct coverage storages, search patterns, search for tokens
and index of the token helper. -/
structure CorpusOk (ops : List (AnnoStore.Op T N V)) (env : NsEnv N V) (g : NsGraph T N V) (r : Rels T N V) (th : TokenHelper T)
    (order : GStore T) (Ec : GStore T → T → T → Prop) (D : T → Prop) (Rg : Nat → Bnd Nat → Prop) : Prop where
  annos : g.annos = AnnoStore.run ops
  coverage : NodeSearch.CovOk g r.cov
  exact : NodeSearch.ExactOk env
  tokens : NodeSearch.TokensOk env g (AnnoStore.spec ops) r.cov
  text : TextOk r th order Ec D Rg

/-- Negated operators do not bind their operands (negated_op.rs 19-21, operator.rs 237-239). -/
def binding : OpKind T N V → Bool
  | .negated _ => false
  | _ => true

/-- Assumptions about the query: operators between nodes that are not optional, connected by operators that are not negated, no search for
metadata without a namespace, and operators that fit. -/
structure QueryOk (env : NsEnv N V) (m : AnnoStore.Spec T N V) (r : Rels T N V) (th : TokenHelper T) (Ec : GStore T → T → T → Prop)
    (Rg : Nat → Bnd Nat → Prop) (De : EdgeStore T N V → T → Prop) (Re : EdgeStore T N V → Nat → Bnd Nat → Prop)
    (nodes : List (Option (Node T N V))) (bins : List (Bin T N V)) : Prop where
  nonempty : ∃ (n : Nat) (nd : Node T N V), nodes[n]? = some (some nd)
  unambiguous : ∀ nd, some nd ∈ nodes → Unambiguous nd.spec
  operands : ∀ b ∈ bins, (∃ nd, nodes[b.left]? = some (some nd)) ∧ ∃ nd, nodes[b.right]? = some (some nd)
  connected : checkConnected ⟨nodes.map Option.isNone, 0, bins.map fun b => (b.left, b.right, binding b.kind)⟩ = true
  fits : ∀ b ∈ bins, Fits r th Ec Rg De Re
    (fun n => ∃ nd x, (nodes[b.left]? = some (some nd) ∨ nodes[b.right]? = some (some nd)) ∧ Found env m r.cov nd x ∧ x.node = n) b.kind

section Main
variable {ops : List (AnnoStore.Op T N V)} {env : NsEnv N V} {g : NsGraph T N V} {r : Rels T N V} {th : TokenHelper T}
  {order : GStore T} {Ec : GStore T → T → T → Prop} {D : T → Prop} {Rg : Nat → Bnd Nat → Prop}
  {De : EdgeStore T N V → T → Prop} {Re : EdgeStore T N V → Nat → Bnd Nat → Prop}
  {nodes : List (Option (Node T N V))} {bins : List (Bin T N V)}
  {S : List (Option (List (SMatch T (AnnoKey N)) × Option (NsDesc T (AnnoKey N) E)))}

theorem candidates (hco : CorpusOk ops env g r th order Ec D Rg) (hq : QueryOk env (AnnoStore.spec ops) r th Ec Rg De Re nodes bins)
    (hS : searches env g nodes = .ok S) (d : SMatch T (AnnoKey N)) (n : Nat) :
    (∀ nd, nodes[n]? = some (some nd) →
      (∀ x, x ∈ candidatesOf d S n ↔ Found env (AnnoStore.spec ops) r.cov nd x) ∧ DescOk (candidatesOf d S n) (descOf S n)) ∧
    (nodes[n]? = some none → candidatesOf d S n = [d]) ∧ (candidatesOf d S n).Nodup := by
  obtain ⟨h1, h2⟩ := searches_get env g hS
  have key : ∀ nd, nodes[n]? = some (some nd) → (∀ x, x ∈ candidatesOf d S n ↔ Found env (AnnoStore.spec ops) r.cov nd x) ∧
      (candidatesOf d S n).Nodup ∧ DescOk (candidatesOf d S n) (descOf S n) := by
    intro nd hnd
    obtain ⟨⟨rows, dr⟩, hx, hs⟩ := (h2 n).2 nd hnd
    have := search_spec ops env g hco.annos hco.coverage hco.exact hco.tokens hx (hq.unambiguous nd (List.mem_of_getElem? hnd))
    have e1 : candidatesOf d S n = rows := by simp [candidatesOf, hs]
    have e2 : descOf S n = dr := by simp [descOf, hs]
    rw [e1, e2]
    exact this
  refine ⟨fun nd hnd => ⟨(key nd hnd).1, (key nd hnd).2.2⟩, fun hn => by simp [candidatesOf, (h2 n).1 hn], ?_⟩
  cases hn : nodes[n]? with
  | none =>
    rw [List.getElem?_eq_none_iff] at hn
    have : S[n]? = none := List.getElem?_eq_none (by omega)
    simp [candidatesOf, this]
  | some o =>
    cases o with
    | none => simp [candidatesOf, (h2 n).1 hn]
    | some nd => exact (key nd hn).2.1

open Classical in
/-- The relation of an operator of the plan. -/
noncomputable def rel (r : Rels T N V) (th : TokenHelper T) (order : GStore T) (global : Bool) (bins : List (Bin T N V)) (o : QOp T (AnnoKey N) E)
    (x y : SMatch T (AnnoKey N)) : Bool :=
  if h : ∃ b ∈ bins, b.toQ th order global = o then bl (Holds r h.choose.kind x.node y.node) else false

theorem operand_sub (hco : CorpusOk ops env g r th order Ec D Rg) (hq : QueryOk env (AnnoStore.spec ops) r th Ec Rg De Re nodes bins)
    (hS : searches env g nodes = .ok S) (d : SMatch T (AnnoKey N)) {b : Bin T N V} (hb : b ∈ bins) :
    (∀ a ∈ candidatesOf d S b.left, ∃ nd x, (nodes[b.left]? = some (some nd) ∨ nodes[b.right]? = some (some nd)) ∧
      Found env (AnnoStore.spec ops) r.cov nd x ∧ x.node = a.node) ∧
    ∀ a ∈ candidatesOf d S b.right, ∃ nd x, (nodes[b.left]? = some (some nd) ∨ nodes[b.right]? = some (some nd)) ∧
      Found env (AnnoStore.spec ops) r.cov nd x ∧ x.node = a.node := by
  obtain ⟨⟨nl, hl⟩, nr, hr⟩ := hq.operands b hb
  exact ⟨fun a ha => ⟨nl, a, Or.inl hl, (((candidates hco hq hS d b.left).1 nl hl).1 a).1 ha, rfl⟩,
    fun a ha => ⟨nr, a, Or.inr hr, (((candidates hco hq hS d b.right).1 nr hr).1 a).1 ha, rfl⟩⟩

theorem rel_ok (hco : CorpusOk ops env g r th order Ec D Rg) (hq : QueryOk env (AnnoStore.spec ops) r th Ec Rg De Re nodes bins)
    (hS : searches env g nodes = .ok S) (d : SMatch T (AnnoKey N)) (global : Bool) {strict : Bool}
    (hs : strict = true ∨ ∀ b ∈ bins, reflexive b.kind = true) (o : QOp T (AnnoKey N) E) (ho : o ∈ bins.map (Bin.toQ th order global)) :
    OpOk (candidatesOf d S) (descOf S) (rel r th order global bins o) o strict := by
  have hex : ∃ b ∈ bins, b.toQ th order global = o := by simpa using ho
  obtain ⟨hm, he⟩ := hex.choose_spec
  have e : rel r th order global bins o = fun x y => bl (Holds r hex.choose.kind x.node y.node) := by
    funext x y; rw [rel, dif_pos hex]
  rw [e]
  conv => arg 4; rw [← he]
  obtain ⟨⟨nl, hl⟩, nr, hr⟩ := hq.operands _ hm
  obtain ⟨s1, s2⟩ := operand_sub hco hq hS d hm
  exact opOk hco.text _ _ _ global s1 s2 (hq.fits _ hm) ((candidates hco hq hS d _).1 nl hl).2
    ((candidates hco hq hS d _).1 nr hr).2 (hs.imp id fun h => h _ hm)

/-- On matches of its operands the relation of an operator is what the operator means. -/
theorem rel_holds (hco : CorpusOk ops env g r th order Ec D Rg) (hq : QueryOk env (AnnoStore.spec ops) r th Ec Rg De Re nodes bins)
    (hS : searches env g nodes = .ok S) (d : SMatch T (AnnoKey N)) (global : Bool) {b : Bin T N V} (hb : b ∈ bins)
    {x y : SMatch T (AnnoKey N)} (hx : x ∈ candidatesOf d S b.left) (hy : y ∈ candidatesOf d S b.right) :
    rel (E := E) r th order global bins (b.toQ th order global) x y = true ↔ Holds r b.kind x.node y.node := by
  have hex : ∃ b' ∈ bins, b'.toQ th order global = b.toQ (E := E) th order global := ⟨b, hb, rfl⟩
  obtain ⟨hm, he⟩ := hex.choose_spec
  rw [rel, dif_pos hex, bl_iff]
  generalize hex.choose = b' at hm he
  have hl : b'.left = b.left := congrArg QOp.left he
  have hr : b'.right = b.right := congrArg QOp.right he
  have hf : fwd (E := E) th order b'.kind = fwd th order b.kind := congrArg QOp.fwd he
  obtain ⟨s1, _⟩ := operand_sub hco hq hS d hm
  obtain ⟨t1, _⟩ := operand_sub hco hq hS d hb
  have e1 := (decided_fwd (E := E) hco.text (Cr := candidatesOf d S b'.right) s1 b'.kind (hq.fits _ hm)).filter x (hl ▸ hx) y (hr ▸ hy)
  have e2 := (decided_fwd (E := E) hco.text (Cr := candidatesOf d S b.right) t1 b.kind (hq.fits _ hb)).filter x hx y hy
  rw [hf, e2, Except.ok.injEq] at e1
  exact (bl_iff (p := Holds r b'.kind x.node y.node)).symm.trans (e1 ▸ bl_iff)

theorem mem_answers (hco : CorpusOk ops env g r th order Ec D Rg) (hq : QueryOk env (AnnoStore.spec ops) r th Ec Rg De Re nodes bins)
    (hS : searches env g nodes = .ok S) (d : SMatch T (AnnoKey N)) (global : Bool) (row : Row T (AnnoKey N)) :
    row ∈ answers d S (rel r th order global bins) (bins.map (Bin.toQ th order global)) ↔
      IsAnswer env (AnnoStore.spec ops) r d nodes bins row := by
  have hmand := mem_mandatory_iff (E := E) env g hS
  have hlen : (∀ i, i < row.length ↔ ∃ (n : Nat) (nd : Node T N V), i ≤ n ∧ nodes[n]? = some (some nd)) ↔
      row.length = outWidth (mandatory S) := by
    have hw : ∀ i, i < outWidth (mandatory S) ↔ ∃ (n : Nat) (nd : Node T N V), i ≤ n ∧ nodes[n]? = some (some nd) := by
      intro i
      rw [lt_outWidth_iff]
      constructor
      · rintro ⟨n, hn, hi⟩
        obtain ⟨nd, hnd⟩ := (hmand n).1 hn
        exact ⟨n, nd, hi, hnd⟩
      · rintro ⟨n, nd, hi, hnd⟩
        exact ⟨n, (hmand n).2 ⟨nd, hnd⟩, hi⟩
    constructor
    · intro h
      have h1 := fun i => (h i).trans (hw i).symm
      have h2 := h1 row.length
      have h3 := h1 (outWidth (mandatory S))
      omega
    · intro h i
      rw [h]
      exact hw i
  unfold answers
  rw [List.mem_filter, mem_prodRows_range]
  constructor
  · rintro ⟨⟨h1, h2⟩, h3⟩
    have hget : ∀ (n : Nat) nd, nodes[n]? = some (some nd) → ∃ x, row[n]? = some x ∧ x ∈ candidatesOf d S n := by
      intro n nd hnd
      have hlt : n < row.length := (hlen.2 h1 n).2 ⟨n, nd, Nat.le_refl _, hnd⟩
      exact ⟨_, List.getElem?_eq_getElem hlt, h2 n _ (List.getElem?_eq_getElem hlt)⟩
    refine ⟨hlen.2 h1, fun n nd hnd => ?_, fun n x hn hx => ?_, fun b hb => ?_⟩
    · obtain ⟨x, e1, e2⟩ := hget n nd hnd
      exact ⟨x, e1, (((candidates hco hq hS d n).1 nd hnd).1 x).1 e2⟩
    · have := h2 n x hx
      rw [(candidates hco hq hS d n).2.1 hn] at this
      simpa using this
    · obtain ⟨⟨nl, hl⟩, nr, hr⟩ := hq.operands b hb
      obtain ⟨x, e1, e2⟩ := hget _ nl hl
      obtain ⟨y, f1, f2⟩ := hget _ nr hr
      have := List.all_eq_true.1 h3 (b.toQ th order global) (List.mem_map_of_mem hb)
      simp only [Bin.toQ, e1, f1] at this
      exact ⟨x, y, e1, f1, (rel_holds hco hq hS d global hb e2 f2).1 this⟩
  · intro ha
    refine ⟨⟨hlen.1 ha.length, fun i x hx => ?_⟩, ?_⟩
    · obtain ⟨hi, _⟩ := List.getElem?_eq_some_iff.1 hx
      obtain ⟨n, nd, hin, hn⟩ := (ha.length i).1 hi
      have hlt : i < nodes.length := lt_of_le_of_lt hin (List.getElem?_eq_some_iff.1 hn).1
      cases hq' : nodes[i] with
      | none =>
        have e : nodes[i]? = some none := by rw [List.getElem?_eq_getElem hlt, hq']
        rw [ha.default i x e hx, (candidates hco hq hS d i).2.1 e]
        simp
      | some nd' =>
        have e : nodes[i]? = some (some nd') := by rw [List.getElem?_eq_getElem hlt, hq']
        obtain ⟨x', hx', hf⟩ := ha.found i nd' e
        rw [hx, Option.some.injEq] at hx'
        subst hx'
        exact (((candidates hco hq hS d i).1 nd' e).1 x).2 hf
    · rw [List.all_eq_true]
      intro o ho
      obtain ⟨b, hb, rfl⟩ := List.mem_map.1 ho
      obtain ⟨x, y, h1, h2, h3⟩ := ha.holds b hb
      have mem : ∀ (i : Nat) nd z, nodes[i]? = some (some nd) → row[i]? = some z → z ∈ candidatesOf d S i := by
        intro i nd z hi hz
        obtain ⟨z', hz', hf⟩ := ha.found i nd hi
        rw [hz, Option.some.injEq] at hz'
        subst hz'
        exact (((candidates hco hq hS d i).1 nd hi).1 z).2 hf
      obtain ⟨⟨nl, hl⟩, nr, hr⟩ := hq.operands b hb
      have := (rel_holds hco hq hS d global hb (mem _ _ _ hl h1) (mem _ _ _ hr h2)).2 h3
      simp only [Bin.toQ, h1, h2]
      exact this

theorem binding_eq (th : TokenHelper T) (order : GStore T) (q : OpKind T N V) : (fwd (E := E) th order q).retrieve.isSome = binding q := by
  cases q <;> rfl

theorem distinct_of (hS : searches env g nodes = .ok S) (d : SMatch T (AnnoKey N)) {m : AnnoStore.Spec T N V} {row : Row T (AnnoKey N)}
    (ha : IsAnswer env m r d nodes bins row) (hd : DistinctRow nodes row) : distinctAnswer d S row := by
  have hmand := mem_mandatory_iff (E := E) env g hS
  unfold distinctAnswer
  have hn : (mandatory S).Nodup := (List.nodup_range).filter _
  rw [List.nodup_map_iff_inj_on hn]
  intro i hi j hj he
  obtain ⟨ni, hni⟩ := (hmand i).1 hi
  obtain ⟨nj, hnj⟩ := (hmand j).1 hj
  obtain ⟨x, hx, _⟩ := ha.found i ni hni
  obtain ⟨y, hy, _⟩ := ha.found j nj hnj
  by_contra hne
  refine hd i j x ni nj hne hni hnj hx ?_
  rw [List.getD_eq_getElem?_getD, List.getD_eq_getElem?_getD, hx, hy] at he
  simp only [Option.getD_some] at he
  rw [hy, he]

theorem connected_of (hq : QueryOk env (AnnoStore.spec ops) r th Ec Rg De Re nodes bins) (hS : searches env g nodes = .ok S) (global : Bool) :
    checkConnected (shapeOf S (bins.map (Bin.toQ (E := E) th order global)) (fun o => o.fwd.retrieve.isSome) 0) = true := by
  have := hq.connected
  unfold shapeOf
  rw [isNone_eq env g hS, List.map_map]
  have e : ((fun o : QOp T (AnnoKey N) E => (0 + o.left, 0 + o.right, o.fwd.retrieve.isSome)) ∘ Bin.toQ th order global) =
      fun b : Bin T N V => (b.left, b.right, binding b.kind) := by
    funext b
    simp [Bin.toQ, binding_eq]
  rw [e]
  exact this

theorem operands_of (hq : QueryOk env (AnnoStore.spec ops) r th Ec Rg De Re nodes bins) (hS : searches env g nodes = .ok S) (global : Bool)
    (o : QOp T (AnnoKey N) E) (ho : o ∈ bins.map (Bin.toQ th order global)) : o.left ∈ mandatory S ∧ o.right ∈ mandatory S := by
  obtain ⟨b, hb, rfl⟩ := List.mem_map.1 ho
  obtain ⟨h1, h2⟩ := hq.operands b hb
  exact ⟨(mem_mandatory_iff env g hS _).2 h1, (mem_mandatory_iff env g hS _).2 h2⟩

theorem nonempty_of (hq : QueryOk env (AnnoStore.spec ops) r th Ec Rg De Re nodes bins) (hS : searches env g nodes = .ok S) :
    mandatory S ≠ [] := by
  obtain ⟨n, h⟩ := hq.nonempty
  exact List.ne_nil_of_mem ((mem_mandatory_iff env g hS n).2 h)

/-- **C98**: a conjunction of node searches and operators on a corpus. If the searches succeed then there is a plan for every order of the
operators, and for every plan (any order, all choices between join implementations, operands and inverse operators, with or without global
distinctness) its results, in the order of the query nodes, are combinations of nodes that the query describes, none twice, and all those
combinations in which different nodes of the query have different matches are among them. -/
theorem C98_conjunction (hco : CorpusOk ops env g r th order Ec D Rg) (hq : QueryOk env (AnnoStore.spec ops) r th Ec Rg De Re nodes bins)
    (hS : searches env g nodes = .ok S) (d : SMatch T (AnnoKey N)) (global : Bool) {bins' : List (Bin T N V)} (hp : bins'.Perm bins) :
    (∃ e, MakePlan S (bins'.map (Bin.toQ th order global)) e) ∧
    ∀ e, MakePlan S (bins'.map (Bin.toQ th order global)) e →
      ∃ rows : List (Row T (AnnoKey N)), e.rows.map (reorderMatch d (inversePos e.pos)) = rows.map some ∧ rows.Nodup ∧
        (∀ row ∈ rows, IsAnswer env (AnnoStore.spec ops) r d nodes bins row) ∧
        ∀ row, IsAnswer env (AnnoStore.spec ops) r d nodes bins row → DistinctRow nodes row → row ∈ rows := by
  have hnd := C61_nodup d S (rel r th order global bins) (bins.map (Bin.toQ th order global)) fun n => (candidates hco hq hS d n).2.2
  obtain ⟨h1, h2⟩ := C61_between d S (rel r th order global bins) _ (rel_ok hco hq hS d global (Or.inl rfl)) (operands_of hq hS global)
    (nonempty_of hq hS) _ 0 (connected_of hq hS global) _ (hp.map _)
  refine ⟨h1, fun e he => ?_⟩
  obtain ⟨rows, e1, e2, e3⟩ := h2 e he
  obtain ⟨l, hl, hsub⟩ := e3
  refine ⟨rows, e1, hl.nodup_iff.1 (hsub.nodup hnd), fun row hr => ?_, fun row ha hd => ?_⟩
  · exact (mem_answers hco hq hS d global row).1 (hsub.subset (hl.mem_iff.2 hr))
  · refine e2.subset ?_
    unfold distinctAnswers
    rw [List.mem_filter, decide_eq_true_iff]
    exact ⟨(mem_answers hco hq hS d global row).2 ha, distinct_of hS d ha hd⟩

/-- **C98**: if all operators are reflexive then the results are exactly the combinations that the query describes, each once. Missing:
the other operators, for which results with the same match for two nodes depend on the plan (`C61_fails`). -/
theorem C98_reflexive_partial (hco : CorpusOk ops env g r th order Ec D Rg)
    (hq : QueryOk env (AnnoStore.spec ops) r th Ec Rg De Re nodes bins) (hS : searches env g nodes = .ok S) (d : SMatch T (AnnoKey N))
    (global : Bool) (hr : ∀ b ∈ bins, reflexive b.kind = true) {bins' : List (Bin T N V)} (hp : bins'.Perm bins) :
    ∀ e, MakePlan S (bins'.map (Bin.toQ th order global)) e →
      ∃ rows : List (Row T (AnnoKey N)), e.rows.map (reorderMatch d (inversePos e.pos)) = rows.map some ∧ rows.Nodup ∧
        ∀ row, row ∈ rows ↔ IsAnswer env (AnnoStore.spec ops) r d nodes bins row := by
  have hnd := C61_nodup d S (rel r th order global bins) (bins.map (Bin.toQ th order global)) fun n => (candidates hco hq hS d n).2.2
  obtain ⟨_, h2⟩ := C61_join_order_partial d S (rel r th order global bins) _ (rel_ok hco hq hS d global (Or.inr hr)) (operands_of hq hS global)
    (nonempty_of hq hS) _ 0 (connected_of hq hS global) _ (hp.map _)
  intro e he
  obtain ⟨rows, e1, e2⟩ := h2 e he
  exact ⟨rows, e1, e2.nodup_iff.2 hnd, fun row => e2.mem_iff.trans (mem_answers hco hq hS d global row)⟩

/-- **C98**: if different nodes of the query have different matches in all combinations that the query describes then the results are
exactly these, each once, whatever the operators say about reflexivity. -/
theorem C98_distinct_partial (hco : CorpusOk ops env g r th order Ec D Rg)
    (hq : QueryOk env (AnnoStore.spec ops) r th Ec Rg De Re nodes bins) (hS : searches env g nodes = .ok S) (d : SMatch T (AnnoKey N))
    (global : Bool) (hd : ∀ row, IsAnswer env (AnnoStore.spec ops) r d nodes bins row → DistinctRow nodes row)
    {bins' : List (Bin T N V)} (hp : bins'.Perm bins) :
    ∀ e, MakePlan S (bins'.map (Bin.toQ th order global)) e →
      ∃ rows : List (Row T (AnnoKey N)), e.rows.map (reorderMatch d (inversePos e.pos)) = rows.map some ∧ rows.Nodup ∧
        ∀ row, row ∈ rows ↔ IsAnswer env (AnnoStore.spec ops) r d nodes bins row := by
  intro e he
  obtain ⟨rows, h1, h2, h3, h4⟩ := (C98_conjunction hco hq hS d global hp).2 e he
  exact ⟨rows, h1, h2, fun row => ⟨h3 row, fun h => h4 row h (hd row h)⟩⟩

/-- **C98**: the search for a node fails only for a pattern that does not compile or if the search for all tokens fails. -/
theorem C98_searches : (∃ S : List (Option (List (SMatch T (AnnoKey N)) × Option (NsDesc T (AnnoKey N) E))), searches env g nodes = .ok S) ↔
    ∀ nd, some nd ∈ nodes → (∀ p, NodeSearch.patternOf nd.spec = some p → env.compile p ≠ none) ∧ (nd.spec = .anyToken → g.anyTokens ≠ none) := by
  have one : ∀ nd : Node T N V, (∃ x, nd.search (E := E) env g = .ok x) ↔
      (∀ p, NodeSearch.patternOf nd.spec = some p → env.compile p ≠ none) ∧ (nd.spec = .anyToken → g.anyTokens ≠ none) := by
    intro nd
    obtain ⟨h1, h2⟩ := NodeSearch.C66_errors (E := E) env g nd.spec
    unfold Node.search
    cases hf : NodeSearch.fromSpec (E := E) env g nd.spec with
    | error e =>
      rw [hf] at h1 h2
      constructor
      · rintro ⟨x, hx⟩; simp at hx
      · rintro ⟨h3, h4⟩
        cases e with
        | regex => obtain ⟨p, hp, hc⟩ := h1.1 rfl; exact absurd hc (h3 p hp)
        | tokens => obtain ⟨hp, hc⟩ := h2.1 rfl; exact absurd hc (h4 hp)
    | ok res =>
      rw [hf] at h1 h2
      refine iff_of_true ?_ ⟨fun p hp hc => ?_, fun hp hc => ?_⟩
      · cases hk : nd.keep <;> simp
      · exact absurd (h1.2 ⟨p, hp, hc⟩) (by simp)
      · exact absurd (h2.2 ⟨hp, hc⟩) (by simp)
  induction nodes with
  | nil => simp [searches]
  | cons o nodes ih =>
    cases o with
    | none =>
      have : (∃ S : List (Option (List (SMatch T (AnnoKey N)) × Option (NsDesc T (AnnoKey N) E))), searches env g (none :: nodes) = .ok S) ↔
          ∃ S : List (Option (List (SMatch T (AnnoKey N)) × Option (NsDesc T (AnnoKey N) E))), searches env g nodes = .ok S := by
        rw [searches]
        cases searches (E := E) env g nodes <;> simp
      refine this.trans (ih.trans ?_)
      simp
    | some nd =>
      have : (∃ S : List (Option (List (SMatch T (AnnoKey N)) × Option (NsDesc T (AnnoKey N) E))), searches env g (some nd :: nodes) = .ok S) ↔
          (∃ x, nd.search (E := E) env g = .ok x) ∧
          ∃ S : List (Option (List (SMatch T (AnnoKey N)) × Option (NsDesc T (AnnoKey N) E))), searches env g nodes = .ok S := by
        rw [searches]
        cases nd.search (E := E) env g <;> cases searches (E := E) env g nodes <;> simp
      refine this.trans ((and_congr (one nd) ih).trans ?_)
      simp only [List.mem_cons, Option.some.injEq, forall_eq_or_imp]

end Main

end Whole
