import Verif.Aql.Lemmas

set_option linter.unusedSimpArgs false
set_option linter.unusedVariables false

/-!
# C69 and C70: query trees become conjunctions, and their nodes get numbers and columns
-/

namespace Aql

variable {S O U : Type}

/-! ## C69 -/

theorem andChildren_eval {L : Type} (v : L → Bool) {e : Expr L} (h : IsConj e) : (andChildren e).all v = e.eval v := by
  induction h with
  | term l => simp [andChildren, Expr.eval]
  | and _ _ ih1 ih2 => simp [andChildren, Expr.eval, ih1, ih2]

theorem orChildren_spec {L : Type} (v : L → Bool) {e : Expr L} (h : IsDnf e) :
    ((orChildren e).filterMap alternativeOf).any (fun c => c.all v) = e.eval v := by
  induction h with
  | conj h =>
    cases h with
    | term l => simp [orChildren, alternativeOf, Expr.eval]
    | and h1 h2 =>
      have := andChildren_eval v (.and h1 h2)
      simp [orChildren, alternativeOf, this]
  | or _ _ ih1 ih2 => simp [orChildren, Expr.eval, ← ih1, ← ih2, List.filterMap_append]

/-- C69: a tree in disjunctive normal form is true exactly if all literals of one of its alternatives are. Missing: trees that are not in this
form, see `C69_not_dnf_fails`; that `simplify_via_laws` (of another crate) makes them is not proved. -/
theorem C69_alternatives_partial {L : Type} (v : L → Bool) (e : Expr L) (h : IsDnf e) :
    (alternatives e).any (fun c => c.all v) = e.eval v := by
  cases h with
  | conj h =>
    cases h with
    | term l => simp [alternatives, Expr.eval]
    | and h1 h2 =>
      have := andChildren_eval v (.and h1 h2)
      simp [alternatives, this]
  | or h1 h2 => simpa [alternatives] using orChildren_spec v (.or h1 h2)

/-- C69: the literals of the alternatives are the literals of the tree. -/
def Expr.literals {L : Type} : Expr L → List L
  | .term l => [l]
  | .const _ => []
  | .not a => a.literals
  | .and a b => a.literals ++ b.literals
  | .or a b => a.literals ++ b.literals

theorem andChildren_literals {L : Type} {e : Expr L} (h : IsConj e) : andChildren e = e.literals := by
  induction h with
  | term l => rfl
  | and _ _ ih1 ih2 => simp [andChildren, Expr.literals, ih1, ih2]

theorem orChildren_literals {L : Type} {e : Expr L} (h : IsDnf e) : ((orChildren e).filterMap alternativeOf).flatten = e.literals := by
  induction h with
  | conj h =>
    cases h with
    | term l => simp [orChildren, alternativeOf, Expr.literals]
    | and h1 h2 =>
      have := andChildren_literals (.and h1 h2)
      simp [orChildren, alternativeOf, this]
  | or _ _ ih1 ih2 => simp [orChildren, Expr.literals, ← ih1, ← ih2, List.filterMap_append]

/-- C69: no literal of the text is lost or repeated, and their order is kept. -/
theorem C69_literals_partial {L : Type} (e : Expr L) (h : IsDnf e) : (alternatives e).flatten = e.literals := by
  cases h with
  | conj h =>
    cases h with
    | term l => simp [alternatives, Expr.literals]
    | and h1 h2 =>
      have := andChildren_literals (.and h1 h2)
      simp [alternatives, this]
  | or h1 h2 => simpa [alternatives] using orChildren_literals (.or h1 h2)

/-- C69: there is exactly one list of node searches, if searches at the same position are the same. -/
theorem C69_node_list (c : List (Literal S O U)) (h : Consistent c) : ∃! L, IsNodeList c L := by
  obtain ⟨L, hL⟩ := exists_nodeList c h
  exact ⟨L, hL, fun L' hL' => hL'.unique hL⟩

/-- C69, restricted to queries without repeated names: the conjunction has the node searches of the text in their order and each operator
of the text between the nodes it means. Missing: `C69_same_name_fails`. -/
theorem C69_translation_partial (c : List (Literal S O U)) (offset : Nat) (L : List (Occ S)) (hL : IsNodeList c L) (hn : NamesDistinct L)
    (q : Conj S O U) (h : mapConjunction c offset false = .ok q) : Translated false offset c L q := by
  obtain ⟨base, h1, h2, _⟩ := (mapConjunction_base false offset c L hL hn).2 q h
  rw [h2 rfl]
  exact h1

/-- C69: a conjunction is accepted exactly if there is no `meta::` search, all references are references to a node of the conjunction, and
optional nodes are only operands of negated operators with another operand that is not optional. -/
theorem C69_accepted_partial (c : List (Literal S O U)) (offset : Nat) (quirks : Bool) (L : List (Occ S)) (hL : IsNodeList c L)
    (hn : NamesDistinct L) : (∃ q, mapConjunction c offset quirks = .ok q) ↔ WellFormed quirks offset c L :=
  (mapConjunction_base quirks offset c L hL hn).1

/-- C69 in quirks mode: distances are limited to 50, the same match may be used twice, and for each use of a node as an operand of
dominance or pointing after the first there is an artificial node. -/
theorem C69_quirks_partial (c : List (Literal S O U)) (offset : Nat) (L : List (Occ S)) (hL : IsNodeList c L) (hn : NamesDistinct L)
    (q : Conj S O U) (h : mapConjunction c offset true = .ok q) : ∃ base, Translated true offset c L base ∧
      Copies offset L base ((List.range L.length).flatMap fun i => List.replicate (joinsOf offset L i c - 1) i) q := by
  obtain ⟨base, h1, _, h2⟩ := (mapConjunction_base true offset c L hL hn).2 q h
  exact ⟨base, h1, h2 rfl⟩

/-- C69: what the text says is unambiguous: there is at most one translation (up to the order in the output set). -/
theorem C69_unique (quirks : Bool) (c : List (Literal S O U)) (offset : Nat) (L : List (Occ S)) (hs : L.Pairwise fun a b => a.pos < b.pos)
    (hn : NamesDistinct L) (q q' : Conj S O U) (h : Translated quirks offset c L q) (h' : Translated quirks offset c L q') :
    q.nodes = q'.nodes ∧ q.bins = q'.bins ∧ q.uns = q'.uns ∧ q.vars = q'.vars ∧ q.offset = q'.offset := by
  obtain ⟨us, es, a1, a2, a3, a4⟩ := h.operators
  obtain ⟨us', es', b1, b2, b3, b4⟩ := h'.operators
  have hu : us = us' := by
    clear a3 a4 b3 b4
    revert us'
    generalize c.filter Literal.isUn = cs at a1
    induction a1 with
    | nil => intro us' hb; cases hb; rfl
    | cons h1 _ ih =>
      intro us' hb
      cases hb with
      | cons h2 hr =>
        rw [ih _ hr]
        congr 1
        cases h1 with
        | mk d1 =>
          cases h2 with
          | mk d2 => rw [denotes_unique (x := .ref _) hn hs d1 d2]
  have he : es = es' := by
    clear a3 a4 b3 b4
    revert es'
    generalize c.filter Literal.isBin = cs at a2
    induction a2 with
    | nil => intro es' hb; cases hb; rfl
    | cons h1 _ ih =>
      intro es' hb
      cases hb with
      | cons h2 hr =>
        rw [ih _ hr]
        congr 1
        have fin : ∀ {lhs rhs : Operand S} {i j i' j' : Nat} {a b a' b' : Occ S}, Denotes offset L lhs i → Denotes offset L rhs j →
            L[i]? = some a → L[j]? = some b → Denotes offset L lhs i' → Denotes offset L rhs j' → L[i']? = some a' → L[j']? = some b' →
            i = i' ∧ j = j' ∧ a = a' ∧ b = b' := by
          intro lhs rhs i j i' j' a b a' b' d1 d2 g1 g2 d1' d2' g1' g2'
          have e1 := denotes_unique hn hs d1 d1'
          have e2 := denotes_unique hn hs d2 d2'
          subst e1; subst e2
          rw [g1] at g1'; rw [g2] at g2'
          cases g1'; cases g2'
          exact ⟨rfl, rfl, rfl, rfl⟩
        cases h1 with
        | plain x1 x2 x3 x4 x5 x6 x7 =>
          cases h2 with
          | plain y1 y2 y3 y4 y5 y6 y7 =>
            obtain ⟨rfl, rfl, rfl, rfl⟩ := fin x1 x2 x3 x4 y1 y2 y3 y4
            rw [opUsed_iff] at x7 y7
            rw [x7, y7]
        | negated x1 x2 x3 x4 x5 x6 x7 =>
          cases h2 with
          | negated y1 y2 y3 y4 y5 y6 y7 =>
            obtain ⟨rfl, rfl, rfl, rfl⟩ := fin x1 x2 x3 x4 y1 y2 y3 y4
            rw [opUsed_iff] at x7 y7
            rw [x7, y7]
          | leftMissing y1 y2 y3 y4 y5 y6 y7 =>
            obtain ⟨rfl, rfl, rfl, rfl⟩ := fin x1 x2 x3 x4 y1 y2 y3 y4
            simp [x5] at y5
          | rightMissing y1 y2 y3 y4 y5 y6 y7 =>
            obtain ⟨rfl, rfl, rfl, rfl⟩ := fin x1 x2 x3 x4 y1 y2 y3 y4
            simp [x6] at y6
        | leftMissing x1 x2 x3 x4 x5 x6 x7 =>
          cases h2 with
          | negated y1 y2 y3 y4 y5 y6 y7 =>
            obtain ⟨rfl, rfl, rfl, rfl⟩ := fin x1 x2 x3 x4 y1 y2 y3 y4
            simp [x5] at y5
          | leftMissing y1 y2 y3 y4 y5 y6 y7 =>
            obtain ⟨rfl, rfl, rfl, rfl⟩ := fin x1 x2 x3 x4 y1 y2 y3 y4
            rw [opUsed_iff] at x7 y7
            rw [x7, y7]
          | rightMissing y1 y2 y3 y4 y5 y6 y7 =>
            obtain ⟨rfl, rfl, rfl, rfl⟩ := fin x1 x2 x3 x4 y1 y2 y3 y4
            simp [x6] at y6
        | rightMissing x1 x2 x3 x4 x5 x6 x7 =>
          cases h2 with
          | negated y1 y2 y3 y4 y5 y6 y7 =>
            obtain ⟨rfl, rfl, rfl, rfl⟩ := fin x1 x2 x3 x4 y1 y2 y3 y4
            simp [x6] at y6
          | leftMissing y1 y2 y3 y4 y5 y6 y7 =>
            obtain ⟨rfl, rfl, rfl, rfl⟩ := fin x1 x2 x3 x4 y1 y2 y3 y4
            simp [x6] at y6
          | rightMissing y1 y2 y3 y4 y5 y6 y7 =>
            obtain ⟨rfl, rfl, rfl, rfl⟩ := fin x1 x2 x3 x4 y1 y2 y3 y4
            rw [opUsed_iff] at x7 y7
            rw [x7, y7]
  subst hu; subst he
  refine ⟨by rw [h.nodes, h'.nodes], by rw [a3, b3], by rw [a4, b4], ?_, by rw [h.offset_eq, h'.offset_eq]⟩
  funext v
  apply Option.ext
  intro p
  rw [h.vars, h'.vars]

theorem mapIdx_congr' {A B : Type} {f g : Nat → A → B} (l : List A) (h : ∀ i x, f i x = g i x) : l.mapIdx f = l.mapIdx g := by
  have : f = g := by funext i x; exact h i x
  rw [this]

/-- The state after some metadata searches. -/
theorem addMeta_rest {offset : Nat} (doc : S) (fn : Option Var) (f : Var) (k : Nat) (r : List S) : ∀ (q : Conj S O U), Numbered offset q →
    q.vars f = some k → (∀ m, f = .num m → m ≤ offset + q.nodes.length) →
    ∃ q', addMeta doc fn r (some f) q = .ok q' ∧ q'.out = q.out ∧ q'.uns = q.uns ∧
      q'.nodes = q.nodes ++ r.mapIdx (fun j s => ⟨.num (offset + q.nodes.length + j + 1), s, false⟩) ∧
      q'.bins = q.bins ++ r.mapIdx (fun j _ => ⟨.ident, offset + k, offset + q.nodes.length + j, true⟩) := by
  induction r with
  | nil => intro q _ _ _; exact ⟨q, rfl, rfl, rfl, by simp, by simp⟩
  | cons s r ih =>
    intro q hq hf hlt
    have hq1 := hq.addNode s false q.bins
    have hx : { (q.addNode s none false false).1 with bins := q.bins } = (q.addNode s none false false).1 := rfl
    rw [hx] at hq1
    have hf1 : (q.addNode s none false false).1.vars f = some k := by
      simp only [Conj.addNode, Function.update_apply]
      rw [if_neg, hf]
      intro e
      have := hlt _ e
      rw [hq.offset_eq] at this
      omega
    have hadd := addOperator_ok hq1 .ident (v := f) (w := (q.addNode s none false false).2) (i := k) (j := q.nodes.length) true hf1
      ((hq1.vars _ _).2 ⟨_, by simp only [Conj.addNode, getElem?_snoc]; exact .inr ⟨trivial, rfl⟩, rfl⟩)
    have hq2 := hq.addNode s false (q.bins ++ [⟨.ident, offset + k, offset + q.nodes.length, true⟩])
    obtain ⟨q', h1, h2, h3, h4, h5⟩ := ih _ hq2 hf1 (fun m e => by have := hlt m e; simp [Conj.addNode]; omega)
    refine ⟨q', ?_, ?_, ?_, ?_, ?_⟩
    · simp only [addMeta]
      rw [hadd]
      exact h1
    · rw [h2]; simp [Conj.addNode]
    · rw [h3]; rfl
    · rw [h4]
      simp only [Conj.addNode, List.length_append, List.length_cons, List.length_nil, List.mapIdx_cons, List.append_assoc,
        List.cons_append, List.nil_append, hq.offset_eq, Nat.zero_add, Nat.add_zero]
      congr 2
      apply mapIdx_congr'
      intro i x
      congr 2
      omega
    · rw [h5]
      simp only [Conj.addNode, List.length_append, List.length_cons, List.length_nil, List.mapIdx_cons, List.append_assoc,
        List.cons_append, List.nil_append, hq.offset_eq, Nat.zero_add, Nat.add_zero]
      congr 2
      apply mapIdx_congr'
      intro i x
      congr 1
      omega

theorem addMeta_spec {offset : Nat} (doc s : S) (r : List S) (first : Var) (i : Nat) (q : Conj S O U) (hq : Numbered offset q)
    (hfirst : q.vars first = some i) : ∃ q', addMeta doc (some first) (s :: r) none q = .ok q' ∧ q'.out = q.out ∧ q'.uns = q.uns ∧
      q'.nodes = q.nodes ++ (s :: doc :: r).mapIdx (fun j s => ⟨.num (offset + q.nodes.length + j + 1), s, false⟩) ∧
      q'.bins = q.bins ++ ⟨.partOf, offset + i, offset + q.nodes.length, true⟩ ::
        (doc :: r).mapIdx (fun j _ => ⟨.ident, offset + q.nodes.length, offset + q.nodes.length + j + 1, true⟩) := by
  have hq1 := hq.addNode s false q.bins
  have hx : { (q.addNode s none false false).1 with bins := q.bins } = (q.addNode s none false false).1 := rfl
  rw [hx] at hq1
  obtain ⟨e, he, hev⟩ := (hq.vars _ _).1 hfirst
  have hf1 : (q.addNode s none false false).1.vars first = some i :=
    (hq1.vars _ _).2 ⟨e, by simp only [Conj.addNode, getElem?_snoc]; exact .inl he, hev⟩
  have hv1 : (q.addNode s none false false).1.vars (q.addNode s none false false).2 = some q.nodes.length :=
    (hq1.vars _ _).2 ⟨_, by simp only [Conj.addNode, getElem?_snoc]; exact .inr ⟨trivial, rfl⟩, rfl⟩
  have hadd := addOperator_ok hq1 .partOf true hf1 hv1
  have hq2 := hq.addNode s false (q.bins ++ [⟨.partOf, offset + i, offset + q.nodes.length, true⟩])
  generalize hQ : ({ (q.addNode s none false false).1 with bins := q.bins ++ [⟨.partOf, offset + i, offset + q.nodes.length, true⟩] } :
    Conj S O U) = Q at hq2
  have hQn : Q.nodes = q.nodes ++ [⟨.num (offset + q.nodes.length + 1), s, false⟩] := by rw [← hQ]; simp [Conj.addNode, hq.offset_eq]
  have hQb : Q.bins = q.bins ++ [⟨.partOf, offset + i, offset + q.nodes.length, true⟩] := by rw [← hQ]
  have hQo : Q.out = q.out := by rw [← hQ]; simp [Conj.addNode]
  have hQu : Q.uns = q.uns := by rw [← hQ]; rfl
  have hw : (q.addNode s none false false).2 = .num (offset + q.nodes.length + 1) := by simp [Conj.addNode, hq.offset_eq]
  have hQv : Q.vars (.num (offset + q.nodes.length + 1)) = some q.nodes.length :=
    (hq2.vars _ _).2 ⟨_, by rw [hQn, getElem?_snoc]; exact .inr ⟨rfl, rfl⟩, rfl⟩
  have hq3 := hq2.addNode doc false Q.bins
  have hx3 : { (Q.addNode doc none false false).1 with bins := Q.bins } = (Q.addNode doc none false false).1 := rfl
  rw [hx3] at hq3
  have hvm : (Q.addNode doc none false false).1.vars (.num (offset + q.nodes.length + 1)) = some q.nodes.length :=
    (hq3.vars _ _).2 ⟨⟨.num (offset + q.nodes.length + 1), s, false⟩, by
      simp only [Conj.addNode, getElem?_snoc]; rw [hQn, getElem?_snoc]; exact .inl (.inr ⟨rfl, rfl⟩), rfl⟩
  have hvd : (Q.addNode doc none false false).1.vars (Q.addNode doc none false false).2 = some (q.nodes.length + 1) :=
    (hq3.vars _ _).2 ⟨_, by simp only [Conj.addNode, getElem?_snoc]; exact .inr ⟨by rw [hQn]; simp, rfl⟩, rfl⟩
  have hadd2 := addOperator_ok hq3 .ident true hvm hvd
  have hq4 := hq2.addNode doc false (Q.bins ++ [⟨.ident, offset + q.nodes.length, offset + (q.nodes.length + 1), true⟩])
  obtain ⟨q', h1, h2, h3, h4, h5⟩ := addMeta_rest doc (some first) (.num (offset + q.nodes.length + 1)) q.nodes.length r _ hq4 hvm (by
    intro m e; cases e; simp [Conj.addNode, hQn]; omega)
  refine ⟨q', ?_, ?_, ?_, ?_, ?_⟩
  · simp only [addMeta]
    rw [hadd]
    have hQ' : ({ (q.addNode s none false false).1 with
        bins := (q.addNode s none false false).1.bins ++ [⟨.partOf, offset + i, offset + q.nodes.length, true⟩] } : Conj S O U) = Q := hQ
    dsimp only at hQ' ⊢
    rw [hQ', hw, hadd2]
    exact h1
  · rw [h2]; simp [Conj.addNode, hQo]
  · rw [h3]; exact hQu
  · rw [h4]
    simp only [Conj.addNode, hQn, List.length_append, List.length_cons, List.length_nil, List.mapIdx_cons, List.append_assoc,
      List.cons_append, List.nil_append, hq2.offset_eq, Nat.zero_add, Nat.add_zero]
    congr 3
    apply mapIdx_congr'
    intro i x
    congr 2
    omega
  · rw [h5]
    simp only [Conj.addNode, hQn, hQb, List.length_append, List.length_cons, List.length_nil, List.mapIdx_cons, List.append_assoc,
      List.cons_append, List.nil_append, hq2.offset_eq, Nat.zero_add, Nat.add_zero]
    congr 3
    apply mapIdx_congr'
    intro i x
    congr 1
    omega

theorem Copies.numbered {offset : Nat} {L : List (Occ S)} {q q' : Conj S O U} {l : List Nat} (h : Copies offset L q l q')
    (hq : Numbered offset q) : Numbered offset q' ∧ (∀ (p : Nat) (e : NodeEntry S), q.nodes[p]? = some e → q'.nodes[p]? = some e) := by
  induction h with
  | nil q => exact ⟨hq, fun _ _ h => h⟩
  | @cons q i r q' o ho _ ih =>
    have h1 := hq.addNode o.spec true (q.bins ++ [⟨.ident, offset + i, offset + q.nodes.length, false⟩])
    have h2 := ih (by
      convert h1 using 1
      simp only [Conj.addNode, hq.offset_eq, Bool.true_and, Bool.not_false, if_true]
      congr 1
      funext w
      rw [Function.update_apply])
    refine ⟨h2.1, fun p e hp => h2.2 p e ?_⟩
    rw [getElem?_snoc]
    exact .inl hp

/-- C69 in quirks mode, restricted to alternatives with a node search: a document node is added for each `meta::` search of the whole query. The
first one contains the first node of the alternative, all are the same node, and this node is a document. None of them is part of the
output. Missing: `C69_meta_only_fails`, `C69_meta_scope_fails`. -/
theorem C69_meta_partial (c : List (Literal S O U)) (offset : Nat) (L : List (Occ S)) (hL : IsNodeList c L) (hn : NamesDistinct L) (hne : L ≠ [])
    (q : Conj S O U) (h : mapConjunction c offset true = .ok q) (doc s : S) (r : List S) :
    ∃ q', addMeta doc (q.varByNr offset) (s :: r) none q = .ok q' ∧ q'.out = q.out ∧ q'.uns = q.uns ∧
      q'.nodes = q.nodes ++ (s :: doc :: r).mapIdx (fun j s => ⟨.num (offset + q.nodes.length + j + 1), s, false⟩) ∧
      q'.bins = q.bins ++ ⟨.partOf, offset, offset + q.nodes.length, true⟩ ::
        (doc :: r).mapIdx (fun j _ => ⟨.ident, offset + q.nodes.length, offset + q.nodes.length + j + 1, true⟩) := by
  obtain ⟨base, h1, h2⟩ := C69_quirks_partial c offset L hL hn q h
  have hb : Numbered offset base := (Nodes.mk h1.offset_eq h1.nodes h1.vars h1.out).numbered
  obtain ⟨hq, hkeep⟩ := h2.numbered hb
  obtain ⟨o, ho⟩ : ∃ o, L[0]? = some o := by
    cases L with
    | nil => exact absurd rfl hne
    | cons o _ => exact ⟨o, rfl⟩
  have h0 : q.nodes[0]? = some ⟨varOf offset 0 o.vname, o.spec, o.optional⟩ := hkeep _ _ (by rw [h1.nodes]; simp [ho])
  have hv : q.varByNr offset = some (varOf offset 0 o.vname) := by
    simp [Conj.varByNr, hq.offset_eq, h0]
  rw [hv]
  have := addMeta_spec doc s r (varOf offset 0 o.vname) 0 q hq ((hq.vars _ _).2 ⟨_, h0, rfl⟩)
  simpa using this

/-! ## C70: numbers -/

/-- Numbers of nodes are their positions in the whole query. -/
structure NumOk (offset : Nat) (q : Conj S O U) : Prop where
  offset_eq : q.offset = offset
  nums : ∀ p n m, q.nodes[p]? = some n → n.var = .num m → m = offset + p + 1

theorem NumOk.addNode {offset : Nat} {q : Conj S O U} (h : NumOk offset q) (spec : S) (vn : Option (List Char)) (b o : Bool) :
    NumOk offset (q.addNode spec vn b o).1 := by
  refine ⟨h.offset_eq, fun p n m hp hm => ?_⟩
  simp only [Conj.addNode, getElem?_snoc] at hp
  rcases hp with hp | ⟨rfl, rfl⟩
  · exact h.nums p n m hp hm
  · cases vn with
    | none => simp only [h.offset_eq, Var.num.injEq] at hm; omega
    | some s => simp at hm

theorem NumOk.congr {offset : Nat} {q q' : Conj S O U} (h : NumOk offset q) (h1 : q'.nodes = q.nodes) (h2 : q'.offset = q.offset) :
    NumOk offset q' := by
  refine ⟨h2.trans h.offset_eq, ?_⟩
  rw [h1]
  exact h.nums

theorem addUnary_same {q q' : Conj S O U} {op : UOp S O U} {v : Var} (h : q.addUnary op v = .ok q') :
    q'.nodes = q.nodes ∧ q'.offset = q.offset := by
  simp only [Conj.addUnary] at h
  split at h
  · cases h; exact ⟨rfl, rfl⟩
  · cases h

theorem addOperator_same {q q' : Conj S O U} {op : BOp S O} {v w : Var} {g : Bool} (h : q.addOperator op v w g = .ok q') :
    q'.nodes = q.nodes ∧ q'.offset = q.offset := by
  simp only [Conj.addOperator] at h
  split at h
  · cases h
  · split at h
    · cases h
    · cases h; exact ⟨rfl, rfl⟩

theorem addNodes_num {offset : Nat} (m : PosMap S) : ∀ (q : Conj S O U) (ids : OMap Nat Var), NumOk offset q →
    NumOk offset (addNodes m q ids).1 := by
  induction m with
  | nil => exact fun q ids h => h
  | cons e r ih =>
    obtain ⟨pos, spec, vn, o⟩ := e
    exact fun q ids h => ih _ _ (h.addNode _ _ _ _)

theorem addUnaries_num {offset : Nat} (c : List (Literal S O U)) : ∀ (q q' : Conj S O U), NumOk offset q → addUnaries c q = .ok q' →
    NumOk offset q' := by
  induction c with
  | nil => intro q q' h e; cases e; exact h
  | cons l r ih =>
    intro q q' h e
    cases l with
    | un rf u =>
      simp only [addUnaries] at e
      split at e
      · cases e
      · rename_i q1 h1
        exact ih _ _ (h.congr (addUnary_same h1).1 (addUnary_same h1).2) e
    | _ => exact ih _ _ h (by simpa only [addUnaries] using e)

theorem operandVar_num {offset : Nat} {q : Conj S O U} (h : NumOk offset q) (ids : OMap Nat Var) (x : Operand S) :
    NumOk offset (operandVar q ids x).1 := by
  cases x with
  | ref r => exact h
  | lit spec pos vn o =>
    simp only [operandVar]
    split
    · exact h
    · exact h.addNode spec none true false

theorem addBinary_same {q q' : Conj S O U} {op : BinSpec O} {neg quirks : Bool} {l r : Var} {nl nr : NodeEntry S}
    (h : addBinary q op neg quirks l r nl nr = .ok q') : q'.nodes = q.nodes ∧ q'.offset = q.offset := by
  simp only [addBinary] at h
  split at h
  · split at h
    · exact addOperator_same h
    · split at h
      · cases h
      · split at h
        · exact addUnary_same h
        · exact addUnary_same h
  · split at h
    · cases h
    · exact addOperator_same h

theorem addBinaries_num {offset : Nat} (quirks : Bool) (c : List (Literal S O U)) : ∀ (q : Conj S O U) (ids : OMap Nat Var)
    (counts : Var → Nat) (x : Conj S O U × OMap Nat Var × (Var → Nat)), NumOk offset q → addBinaries quirks c q ids counts = .ok x →
    NumOk offset x.1 := by
  induction c with
  | nil => intro q ids counts x h e; cases e; exact h
  | cons l r ih =>
    intro q ids counts x h e
    cases l with
    | bin lhs op rhs neg =>
      simp only [addBinaries] at e
      have h1 := operandVar_num h ids lhs
      have h2 := operandVar_num h1 (operandVar q ids lhs).2.1 rhs
      split at e
      · cases e
      · split at e
        · cases e
        · split at e
          · cases e
          · rename_i q1 hq1
            exact ih _ _ _ _ (h2.congr (addBinary_same hq1).1 (addBinary_same hq1).2) e
    | _ => exact ih _ _ _ _ h (by simpa only [addBinaries] using e)

theorem addCopies_num {offset : Nat} (v : Var) (n : Nat) : ∀ (q q' : Conj S O U), NumOk offset q → addCopies v n q = .ok q' →
    NumOk offset q' := by
  induction n with
  | zero => intro q q' h e; cases e; exact h
  | succ n ih =>
    intro q q' h e
    simp only [addCopies] at e
    split at e
    · exact ih _ _ h e
    · split at e
      · cases e
      · rename_i q1 h1
        exact ih _ _ ((h.addNode _ _ _ _).congr (addOperator_same h1).1 (addOperator_same h1).2) e

theorem addAllCopies_num {offset : Nat} (counts : Var → Nat) (ids : List (Nat × Var)) : ∀ (q q' : Conj S O U), NumOk offset q →
    addAllCopies counts ids q = .ok q' → NumOk offset q' := by
  induction ids with
  | nil => intro q q' h e; cases e; exact h
  | cons x r ih =>
    intro q q' h e
    obtain ⟨p, v⟩ := x
    simp only [addAllCopies] at e
    split at e
    · cases e
    · rename_i q1 h1
      exact ih _ _ (addCopies_num _ _ _ _ h h1) e

theorem mapConjunction_num {offset : Nat} {quirks : Bool} {c : List (Literal S O U)} {q : Conj S O U}
    (h : mapConjunction c offset quirks = .ok q) : NumOk offset q := by
  simp only [mapConjunction] at h
  split at h
  · cases h
  · rename_i m hm
    have h1 : NumOk offset (addNodes m (Conj.empty offset : Conj S O U) []).1 :=
      addNodes_num m _ _ ⟨rfl, by intro p n k hp; simp [Conj.empty] at hp⟩
    split at h
    · cases h
    · rename_i q1 hq1
      have h2 := addUnaries_num _ _ _ h1 hq1
      split at h
      · cases h
      · rename_i q2 ids counts hq2
        have h3 := addBinaries_num _ _ _ _ _ _ h2 hq2
        split at h
        · exact addAllCopies_num _ _ _ _ h3 h
        · cases h; exact h3

theorem addMeta_num {offset : Nat} (doc : S) (fn : Option Var) (ms : List S) : ∀ (fm : Option Var) (q q' : Conj S O U), NumOk offset q →
    addMeta doc fn ms fm q = .ok q' → NumOk offset q' := by
  induction ms with
  | nil => intro fm q q' h e; cases e; exact h
  | cons s r ih =>
    intro fm q q' h e
    simp only [addMeta] at e
    split at e
    · split at e
      · cases e
      · rename_i q1 h1
        exact ih _ _ _ ((h.addNode _ _ _ _).congr (addOperator_same h1).1 (addOperator_same h1).2) e
    · split at e
      · exact ih _ _ _ (h.addNode _ _ _ _) e
      · split at e
        · cases e
        · rename_i q1 h1
          have h2 := (h.addNode s none false false).congr (addOperator_same h1).1 (addOperator_same h1).2
          split at e
          · cases e
          · rename_i q2 h3
            exact ih _ _ _ ((h2.addNode _ _ _ _).congr (addOperator_same h3).1 (addOperator_same h3).2) e

/-- Each alternative starts where the one before ends. -/
inductive Chained : Nat → List (Conj S O U) → Prop
  | nil (o) : Chained o []
  | cons {o q r} : NumOk o q → Chained (o + q.nodes.length) r → Chained o (q :: r)

theorem mapAlternatives_chained (quirks : Bool) (doc : S) (metas : List S) (alts : List (List (Literal S O U))) : ∀ (o : Nat)
    (d : List (Conj S O U)), mapAlternatives quirks doc metas alts o = .ok d → Chained o d ∧ d.length = alts.length := by
  induction alts with
  | nil => intro o d h; cases h; exact ⟨.nil o, rfl⟩
  | cons c r ih =>
    intro o d h
    simp only [mapAlternatives] at h
    split at h
    · cases h
    · rename_i q hq
      have h1 := mapConjunction_num hq
      split at h
      · cases h
      · rename_i q' hq'
        have h2 : NumOk o q' := by
          split at hq'
          · exact addMeta_num _ _ _ _ _ _ h1 hq'
          · cases hq'; exact h1
        split at h
        · cases h
        · rename_i qs hqs
          cases h
          obtain ⟨i1, i2⟩ := ih _ _ hqs
          exact ⟨.cons h2 i1, by simp [i2]⟩

theorem chained_varByNr {o : Nat} {d : List (Conj S O U)} (h : Chained o d) (n : Nat) :
    varByNr d n = if o ≤ n then ((d.flatMap Conj.nodes)[n - o]?).map NodeEntry.var else none := by
  induction h with
  | nil o => simp [varByNr]
  | @cons o q r hq _ ih =>
    simp only [varByNr, List.findSome?_cons, Conj.varByNr, hq.offset_eq, List.flatMap_cons]
    simp only [varByNr, Conj.varByNr] at ih
    by_cases ho : o ≤ n
    · rw [if_pos ho, if_pos ho]
      by_cases hlt : n - o < q.nodes.length
      · rw [List.getElem?_append_left hlt, List.getElem?_eq_getElem hlt]
        rfl
      · rw [List.getElem?_eq_none (by omega), List.getElem?_append_right (by omega)]
        simp only [Option.map_none]
        rw [ih, if_pos (by omega)]
        congr 2
        omega
    · rw [if_neg ho, if_neg ho]
      dsimp only
      rw [ih, if_neg (by omega)]

/-- C70: the nodes of all alternatives are numbered one after the other: the variable with the number `n` is that of the `n`-th node of the
whole query (from 0), and if this node has no name, then it is called `n + 1`. This includes artificial nodes in quirks mode. -/
theorem C70_numbering (quirks : Bool) (doc : S) (e : Expr (Literal S O U)) (d : List (Conj S O U)) (h : parse quirks doc e = .ok d) :
    d.length = (alternatives e).length ∧
    (∀ n, varByNr d n = ((d.flatMap Conj.nodes)[n]?).map NodeEntry.var) ∧
    ∀ n m, varByNr d n = some (.num m) → m = n + 1 := by
  obtain ⟨hc, hl⟩ := mapAlternatives_chained _ _ _ _ _ _ h
  have h1 : ∀ n, varByNr d n = ((d.flatMap Conj.nodes)[n]?).map NodeEntry.var := fun n => by
    rw [chained_varByNr hc n]; simp
  refine ⟨hl, h1, ?_⟩
  intro n m hv
  rw [h1] at hv
  have gen : ∀ (o : Nat) (d : List (Conj S O U)), Chained o d → ∀ n m, ((d.flatMap Conj.nodes)[n]?).map NodeEntry.var = some (.num m) →
      m = o + n + 1 := by
    intro o d hc
    induction hc with
    | nil o => intro n m h; simp at h
    | @cons o q r hq _ ih =>
      intro n m h
      rw [List.flatMap_cons] at h
      by_cases hlt : n < q.nodes.length
      · rw [List.getElem?_append_left hlt, Option.map_eq_some_iff] at h
        obtain ⟨x, hx, e⟩ := h
        exact hq.nums n x m hx e
      · rw [List.getElem?_append_right (by omega)] at h
        have := ih _ _ h
        omega
  have := gen 0 d hc n m hv
  omega

/-- C70: so numbers are never used twice. -/
theorem C70_numbers_unique (quirks : Bool) (doc : S) (e : Expr (Literal S O U)) (d : List (Conj S O U)) (h : parse quirks doc e = .ok d)
    (n n' m : Nat) (h1 : varByNr d n = some (.num m)) (h2 : varByNr d n' = some (.num m)) : n = n' := by
  obtain ⟨_, _, hn⟩ := C70_numbering quirks doc e d h
  have := hn n m h1
  have := hn n' m h2
  omega

/-! ## C70: columns -/

theorem zipIdx_filter_true {M : Type} (row : List M) : (row.zipIdx.filter fun _ => true).map Prod.fst = row := by
  simp

/-- C70, restricted to queries with one alternative and without `meta::` in quirks mode: the output has exactly the columns of nodes
that are not optional, in the order of the text. Missing: `C70_alternatives_fails`. -/
theorem C70_columns_partial {M : Type} (c : List (Literal S O U)) (L : List (Occ S)) (hL : IsNodeList c L) (hn : NamesDistinct L)
    (q : Conj S O U) (h : mapConjunction c 0 false = .ok q) (row : List M) :
    shown [q] row = (row.zipIdx.filter fun p => match L[p.2]? with
      | some o => !o.optional
      | none => false).map Prod.fst := by
  have tr := C69_translation_partial c 0 L hL hn q h
  unfold shown
  congr 1
  refine List.filter_congr fun p _ => ?_
  obtain ⟨m, i⟩ := p
  simp only [columnShown, varByNr, List.findSome?_cons, List.findSome?_nil, Conj.varByNr, tr.offset_eq, Nat.zero_le, if_true, Nat.sub_zero,
    tr.nodes, List.getElem?_mapIdx]
  cases hi : L[i]? with
  | none => simp
  | some o =>
    simp only [Option.map_some, inOutput, List.any_cons, List.any_nil, Bool.or_false, Conj.inOutput]
    rw [Bool.eq_iff_iff, decide_eq_true_eq, tr.out]
    constructor
    · rintro ⟨p, o', ho', e, hopt⟩
      have := varOf_inj hn hi ho' e
      subst this
      rw [hi] at ho'
      cases ho'
      simp [hopt]
    · intro hopt
      exact ⟨i, o, hi, rfl, by simpa using hopt⟩

theorem le_sum_of_mem {l : List Nat} {x : Nat} (h : x ∈ l) : x ≤ l.sum := by
  induction l with
  | nil => simp at h
  | cons a r ih =>
    rw [List.sum_cons]
    rcases List.mem_cons.1 h with rfl | h
    · omega
    · have := ih h; omega

/-- All nodes of all alternatives are in the output. -/
def AllOut (d : List (Conj S O U)) : Prop := ∀ q ∈ d, ∀ n ∈ q.nodes, n.var ∈ q.out

theorem all_shown {M : Type} (d : List (Conj S O U)) (h : AllOut d) (hv : ∀ n, varByNr d n = ((d.flatMap Conj.nodes)[n]?).map NodeEntry.var)
    (row : List M) (hr : row.length ≤ (d.flatMap Conj.nodes).length) : shown d row = row := by
  have : ∀ p ∈ row.zipIdx, columnShown d p.2 = true := by
    rintro ⟨m, i⟩ hp
    have hi : i < row.length := (List.getElem?_eq_some_iff.1 (List.mem_zipIdx_iff_getElem?.1 hp)).1
    simp only [columnShown, hv]
    rw [List.getElem?_eq_getElem (by omega)]
    simp only [Option.map_some, inOutput, List.any_eq_true, Conj.inOutput, decide_eq_true_eq]
    have hm : (d.flatMap Conj.nodes)[i]'(by omega) ∈ d.flatMap Conj.nodes := List.getElem_mem _
    obtain ⟨q, hq, hnq⟩ := List.mem_flatMap.1 hm
    exact ⟨q, hq, h q hq _ hnq⟩
  unfold shown
  rw [List.filter_eq_self.2 this, List.zipIdx_map_fst]

/-- C70, restricted: without optional nodes and outside of quirks mode, the rows of all alternatives are shown completely. -/
theorem C70_complete_partial {M : Type} (doc : S) (e : Expr (Literal S O U)) (d : List (Conj S O U)) (h : parse false doc e = .ok d)
    (hc : ∀ c ∈ alternatives e, ∃ L, IsNodeList c L ∧ NamesDistinct L ∧ ∀ o ∈ L, o.optional = false) (row : List M)
    (hr : ∃ q ∈ d, row.length = q.nodes.length) : shown d row = row := by
  obtain ⟨_, hv, _⟩ := C70_numbering false doc e d h
  refine all_shown d ?_ hv row ?_
  · have gen : ∀ (alts : List (List (Literal S O U))) (o : Nat) (metas : List S) (d : List (Conj S O U)),
        (∀ c ∈ alts, ∃ L, IsNodeList c L ∧ NamesDistinct L ∧ ∀ o ∈ L, o.optional = false) →
        mapAlternatives false doc metas alts o = .ok d → AllOut d := by
      intro alts
      induction alts with
      | nil => intro o metas d _ h; cases h; intro q hq; simp at hq
      | cons c r ih =>
        intro o metas d hc h
        simp only [mapAlternatives, Bool.false_eq_true, if_false] at h
        split at h
        · cases h
        · rename_i q hq
          split at h
          · cases h
          · rename_i qs hqs
            cases h
            obtain ⟨L, hL, hn, hopt⟩ := hc c (by simp)
            have tr := C69_translation_partial c o L hL hn q hq
            intro q' hq' n hn'
            rcases List.mem_cons.1 hq' with rfl | hq'
            · rw [tr.nodes] at hn'
              obtain ⟨i, hi⟩ := List.mem_iff_getElem?.1 hn'
              rw [List.getElem?_mapIdx, Option.map_eq_some_iff] at hi
              obtain ⟨x, hx, rfl⟩ := hi
              exact (tr.out _).2 ⟨i, x, hx, rfl, hopt x (List.mem_of_getElem? hx)⟩
            · exact ih _ _ _ (fun c hc' => hc c (by simp [hc'])) hqs q' hq' n hn'
    exact gen _ _ _ _ hc h
  · obtain ⟨q, hq, hlen⟩ := hr
    rw [hlen, List.length_flatMap]
    exact le_sum_of_mem (List.mem_map.2 ⟨q, hq, rfl⟩)

/-- C70, restricted to queries with one alternative without repeated names: a frequency definition takes the column of the node it names. Missing:
`C70_frequency_fails`. -/
theorem C70_frequency_partial {M : Type} (c : List (Literal S O U)) (L : List (Occ S)) (hL : IsNodeList c L) (hn : NamesDistinct L)
    (q : Conj S O U) (h : mapConjunction c 0 false = .ok q) (v : Var) (i : Nat) (o : Occ S) (hi : L[i]? = some o) (hv : v = varOf 0 i o.vname)
    (row : List M) : freqMatches [q] [v] row = [row[i]?] := by
  have tr := C69_translation_partial c 0 L hL hn q h
  have : q.vars v = some i := (tr.vars v i).2 ⟨o, hi, hv⟩
  simp [freqMatches, freqColumns, variablePos, Conj.resolvePos, this, tr.offset_eq]

end Aql
