import Verif.Query.PlanOrder

/-!
# C61: which combinations the operators that are not reflexive leave out

Without the global distinctness rule, a join by an operator that is not reflexive leaves out the rows in which both operands have the same
match; an operator between nodes that are already joined does not. This gives the exact rows for every order of the operators, and an
order-independent result for queries whose operators form a tree.
-/

set_option linter.unusedSimpArgs false
set_option linter.unusedSectionVars false
set_option linter.unusedVariables false

section
variable {N K E : Type} [DecidableEq N] [DecidableEq K]

/-- The operands are connected by the operators. -/
def Linked (ops : List (QOp N K E)) : Nat → Nat → Prop := Relation.EqvGen fun a b => ∃ o ∈ ops, o.left = a ∧ o.right = b

/-- The row has different matches for the operands of all operators that are not reflexive and whose operands are not yet connected by the
operators before them in the order. -/
def Differ (order : List (QOp N K E)) (row : Row N K) : Prop :=
  ∀ before o after, order = before ++ o :: after → o.fwd.base.reflexive = false → ¬ Linked before o.left o.right →
    row[o.left]? ≠ row[o.right]?

/-- No operator connects nodes that the other operators connect. -/
def Acyclic (ops : List (QOp N K E)) : Prop := ∀ l o r, ops = l ++ o :: r → ¬ Linked (l ++ r) o.left o.right

/-- The row has different matches for the operands of all operators that are not reflexive. -/
def DifferAll (ops : List (QOp N K E)) (row : Row N K) : Prop :=
  ∀ o ∈ ops, o.fwd.base.reflexive = false → row[o.left]? ≠ row[o.right]?

theorem Linked.mono {a b : List (QOp N K E)} (h : ∀ o ∈ a, o ∈ b) {x y : Nat} (hl : Linked a x y) : Linked b x y := by
  induction hl with
  | rel x y hxy => obtain ⟨o, ho, h1⟩ := hxy; exact .rel _ _ ⟨o, h o ho, h1⟩
  | refl x => exact .refl x
  | symm x y _ ih => exact .symm _ _ ih
  | trans x y z _ _ ih1 ih2 => exact .trans _ _ _ ih1 ih2

/-! ## Joins -/

/-- The relation a join by an operator decides. -/
def strong (refl : Bool) (H : SMatch N K → SMatch N K → Bool) (a b : SMatch N K) : Bool := H a b && (refl || decide (a ≠ b))

theorem joinHolds_eq_strong (c : NlConf N K E) (H : SMatch N K → SMatch N K → Bool) :
    joinHolds c H false = colsHold (strong c.op.reflexive H) c.outerIdx c.innerIdx := by
  funext o i
  unfold joinHolds colsHold strong
  cases o[c.outerIdx]? <;> cases i[c.innerIdx]? <;> simp [distinct_false]

theorem Between.of_perm {T : Row N K → Row N K → Bool} {O I rows : List (Row N K)}
    (h : rows.Perm ((joinPairs T O I).map fun p => p.1 ++ p.2)) : Between false T O I rows := by
  refine ⟨?_, h.subperm⟩
  have : (fun x y => T x y && apart false x y) = T := by funext x y; simp [apart]
  rw [this]
  exact h.symm.subperm

theorem nested_exact {c : NlConf N K E} {H : SMatch N K → SMatch N K → Bool} {O I : List (Row N K)} {C C' : List (SMatch N K)}
    (hO : ColIn O c.outerIdx C) (hI : ColIn I c.innerIdx C') (hg : c.globalReflexivity = false)
    (hf : ∀ a ∈ C, ∀ b ∈ C', (if c.leftIsOuter then c.op.filter a b else c.op.filter b a) = .ok (H a b)) {rows : List (Row N K)}
    (hr : NestedRows c O I rows) : Between false (colsHold (strong c.op.reflexive H) c.outerIdx c.innerIdx) O I rows := by
  have ht : c.Total H O I := by
    refine ⟨lt_of_colIn hO, lt_of_colIn hI, ?_⟩
    intro o ho i hi a b h1 h2
    obtain ⟨a', ha', h1'⟩ := hO o ho
    obtain ⟨b', hb', h2'⟩ := hI i hi
    rw [h1] at h1'
    rw [h2] at h2'
    simp only [Option.some.injEq] at h1' h2'
    subst h1' h2'
    exact hf a ha' b hb'
  refine Between.of_perm ?_
  rcases hr with h | h
  · rw [map_ok_inj (h.unique (C42_nested_loop c H O I ht)), hg, joinHolds_eq_strong, take_one_drop, crossJoin_eq]
  · have := map_ok_perm ((C43_nested_loop c H O I ht 1024 (by omega)).2 _ h)
    rwa [hg, joinHolds_eq_strong] at this

theorem index_exact {op : OpImpl N K E} {H : SMatch N K → SMatch N K → Bool} {Cl Cr : List (SMatch N K)} {d : NsDesc N K E}
    {strict : Bool} (hop : ImplOk op H Cl Cr (some d) false strict) {ret : SMatch N K → Except (Fail E) (List N)} (hret : op.retrieve = some ret)
    {L : List (Row N K)} {i : Nat} (hL : ColIn L i Cl) {rows : List (Row N K)} (hr : IndexRows (ijConf op ret d false i) L rows) :
    Between false (colsHold (strong op.base.reflexive H) i 0) L (Cr.map fun m => [m]) rows := by
  obtain ⟨nodes, cond, all, hall, hcond, hperm, hspec⟩ := hop.index ret hret d rfl
  let S : IjSpec N K := ⟨nodes, d.keys, cond⟩
  let c := ijConf op ret d false i
  have hcol : ∀ l ∈ L, ∀ a, l[i]? = some a → a ∈ Cl := by
    intro l hl a ha
    obtain ⟨m, hm, h1⟩ := hL l hl
    rw [ha] at h1
    simp only [Option.some.injEq] at h1
    rw [h1]; exact hm
  have hcand : ∀ l ∈ L, ∀ a, l[c.lhsIdx]? = some a → c.candidates a = .ok (S.cands a) := by
    intro l hl a ha
    have := (hspec a (hcol l hl a ha)).1
    simp only [c, ijConf]
    rw [this]; rfl
  have ht : c.Total S L := ⟨lt_of_colIn hL, hcand, hcond⟩
  have hnd : ∀ l ∈ L, ∀ a, l[c.lhsIdx]? = some a → (S.nodes a).Nodup := fun l hl a ha => (hspec a (hcol l hl a ha)).2.1
  have hseq := C42_index_join c S L ht hnd
  let n : NlConf N K E := ⟨op.base, i, 0, true, false⟩
  have heq := C42_index_eq_nested c n H S L all hall (lt_of_colIn hL) hnd
    (fun l hl a ha => (hspec a (hcol l hl a ha)).2.2.1) (fun l hl a ha => (hspec a (hcol l hl a ha)).2.2.2) rfl rfl rfl rfl
  have hcr := hperm.map fun m => [m]
  have hfin : (L.flatMap (ijRows c S)).Perm ((joinPairs (colsHold (strong op.base.reflexive H) i 0) L (Cr.map fun m => [m])).map fun p => p.1 ++ p.2) := by
    have he : joinHolds n H n.globalReflexivity = colsHold (strong op.base.reflexive H) i 0 := joinHolds_eq_strong n H
    rw [he] at heq
    exact heq.symm.trans ((joinPairs_perm _ (List.Perm.refl L) hcr.symm).map _)
  refine Between.of_perm ?_
  rcases hr with h | h
  · rw [map_ok_inj (h.unique hseq)]; exact hfin
  · have hC : c.Cands (fun l => match l[c.lhsIdx]? with
        | some a => S.cands a
        | none => []) (L.map .ok) := by
      intro l hl
      rw [oks_map_ok] at hl
      have hw := ht.width l hl
      simp only [IjConf.nextCandidates, at'_of_lt hw, List.getElem?_eq_getElem hw, bind, Except.bind,
        ht.candidates l hl _ (List.getElem?_eq_getElem hw), pure, Except.pure]
    have := (C43_index_join_partial c _ (L.map .ok) hC (fun m => ⟨_, hcond m⟩) 512 (by omega)).2 _ _ hseq h
    exact (map_ok_perm this).trans hfin

theorem strong_swap (refl : Bool) (H : SMatch N K → SMatch N K → Bool) :
    strong refl (fun a b => H b a) = fun a b => strong refl H b a := by
  funext a b
  unfold strong
  simp only [ne_comm]

theorem createJoin_exact {op : OpImpl N K E} {inv : Option (OpImpl N K E)} {strict : Bool} {L R : Exec N K E} {iL iR : Nat}
    {H : SMatch N K → SMatch N K → Bool} {Cl Cr : List (SMatch N K)} {dl dr : Option (NsDesc N K E)} {refl : Bool}
    (hop : ImplOk op H Cl Cr dr false strict) (hinv : ∀ i, inv = some i → ImplOk i (fun a b => H b a) Cr Cl dl false strict)
    (hrop : op.base.reflexive = refl) (hrinv : ∀ i, inv = some i → i.base.reflexive = refl)
    (hL : ColIn L.rows iL Cl) (hR : ColIn R.rows iR Cr)
    (hLn : ∀ d, L.ns = some d → dl = some d ∧ iL = 0 ∧ L.rows = Cl.map fun m => [m])
    (hRn : ∀ d, R.ns = some d → dr = some d ∧ iR = 0 ∧ R.rows = Cr.map fun m => [m]) {new : Exec N K E}
    (hn : CreateJoin op inv false L R iL iR new) : JoinOk false (strong refl H) L R iL iR new := by
  cases hn with
  | index hr ho hrows =>
    obtain ⟨h2, h3, h4⟩ := hRn _ hr
    rw [h2] at hop
    have := index_exact hop ho hL hrows
    refine ⟨rfl, Or.inl ⟨rfl, rfl, ?_⟩⟩
    rw [h4, h3, ← hrop]; exact this
  | indexInv h1 hl hi hr hrows =>
    obtain ⟨h2, h3, h4⟩ := hLn _ hl
    have hio := hinv _ hi
    rw [h2] at hio
    have := index_exact hio hr hR hrows
    refine ⟨rfl, Or.inr ⟨rfl, rfl, ?_⟩⟩
    rw [h4, h3, ← strong_swap, ← hrinv _ hi]; exact this
  | nestedLR h1 h2 hrows =>
    refine ⟨rfl, Or.inl ⟨rfl, rfl, ?_⟩⟩
    have := nested_exact (c := ⟨op.base, iL, iR, true, false⟩) (H := H) hL hR rfl (fun a ha b hb => hop.filter a ha b hb) hrows
    rw [← hrop]; exact this
  | nestedRL h1 h2 hrows =>
    refine ⟨rfl, Or.inr ⟨rfl, rfl, ?_⟩⟩
    have := nested_exact (c := ⟨op.base, iR, iL, false, false⟩) (H := fun a b => H b a) hR hL rfl (fun a ha b hb => hop.filter b hb a ha) hrows
    rw [← strong_swap, ← hrop]; exact this

/-! ## Plans -/

/-- An operator that stands for a relation between two nodes. -/
def con (l r : Nat) (h : SMatch N K → SMatch N K → Bool) : QOp N K E where
  left := l
  right := r
  globalReflexivity := false
  fwd := ⟨⟨fun a b => .ok (h a b), true⟩, none⟩
  inv := none
  inv2 := none

/-- The relation of `con`. -/
def conRel (o : QOp N K E) (a b : SMatch N K) : Bool :=
  match o.fwd.base.filter a b with
  | .ok x => x
  | .error _ => false

/-- The relation an operator has decided, depending on whether it was used as a join. -/
def mark (H : QOp N K E → SMatch N K → SMatch N K → Bool) (p : QOp N K E × Bool) : QOp N K E :=
  con p.1.left p.1.right (strong (p.1.fwd.base.reflexive || !p.2) (H p.1))

theorem conRel_con (l r : Nat) (h : SMatch N K → SMatch N K → Bool) : conRel (con (E := E) l r h) = h := rfl

theorem opHolds_swap (G : SMatch N K → SMatch N K → Bool) (l r : Nat) (cols : List Nat) (row : Row N K) :
    opHolds G l r cols row = opHolds (fun a b => G b a) r l cols row := by
  unfold opHolds
  cases colVal cols row l <;> cases colVal cols row r <;> rfl

theorem oriented_cases {o : QOp N K E} {switch : Bool} {op : OpImpl N K E} {inv : Option (OpImpl N K E)} {l r : Nat}
    (ho : o.oriented switch = (op, inv, l, r)) :
    (op = o.fwd ∧ inv = o.inv ∧ l = o.left ∧ r = o.right) ∨ (o.inv = some op ∧ inv = o.inv2 ∧ l = o.right ∧ r = o.left) := by
  unfold QOp.oriented at ho
  cases hi : o.inv with
  | none =>
    rw [hi] at ho
    simp only [Prod.mk.injEq] at ho
    obtain ⟨rfl, rfl, rfl, rfl⟩ := ho
    exact Or.inl ⟨rfl, rfl, rfl, rfl⟩
  | some i =>
    rw [hi] at ho
    cases switch
    · simp only [Bool.false_eq_true, if_false, Prod.mk.injEq] at ho
      obtain ⟨rfl, rfl, rfl, rfl⟩ := ho
      exact Or.inl ⟨rfl, rfl, rfl, rfl⟩
    · simp only [if_true, Prod.mk.injEq] at ho
      obtain ⟨rfl, rfl, rfl, rfl⟩ := ho
      exact Or.inr ⟨rfl, rfl, rfl, rfl⟩

/-- The operator and its inverse say the same about reflexivity. -/
def SameReflexive (o : QOp N K E) : Prop := ∀ i, o.inv = some i ∨ o.inv2 = some i → i.base.reflexive = o.fwd.base.reflexive

/-- The operators of the order so far, each with whether it was a join. -/
structure Marked (marks : List (QOp N K E × Bool)) (n2c : OMap Nat Nat) : Prop where
  joins : ∀ after o j before, marks = after ++ (o, j) :: before → (j = true ↔ ¬ Linked (before.map Prod.fst) o.left o.right)
  linked : ∀ a b c, n2c.get a = some c → n2c.get b = some c → Linked (marks.map Prod.fst) a b

theorem sameComp {C : Nat → List (SMatch N K)} {D : Nat → Option (NsDesc N K E)} {H : QOp N K E → SMatch N K → SMatch N K → Bool}
    {nodes : List Nat} {marks : List (QOp N K E × Bool)} {s : PlanState N K E} (h : PlanInv false C D conRel nodes (marks.map (mark H)) s)
    {a b : Nat} (hl : Linked (marks.map Prod.fst) a b) : s.n2c.get a = s.n2c.get b := by
  induction hl with
  | rel x y hxy =>
    obtain ⟨o, ho, rfl, rfl⟩ := hxy
    obtain ⟨p, hp, rfl⟩ := List.mem_map.1 ho
    exact (h.done (mark H p) (List.mem_map.2 ⟨p, hp, rfl⟩)).2.2
  | refl x => rfl
  | symm x y _ ih => exact ih.symm
  | trans x y z _ _ ih1 ih2 => exact ih1.trans ih2

theorem Marked.step {marks : List (QOp N K E × Bool)} {n2c n2c' : OMap Nat Nat} (h : Marked marks n2c) {o : QOp N K E} {j : Bool}
    (hj : j = true ↔ ¬ Linked (marks.map Prod.fst) o.left o.right)
    (hl : ∀ a b c, n2c'.get a = some c → n2c'.get b = some c → Linked ((o :: marks.map Prod.fst)) a b) : Marked ((o, j) :: marks) n2c' := by
  refine ⟨fun after o' j' before he => ?_, hl⟩
  cases after with
  | nil =>
    simp only [List.nil_append, List.cons.injEq, Prod.mk.injEq] at he
    obtain ⟨⟨rfl, rfl⟩, rfl⟩ := he
    exact hj
  | cons p after =>
    simp only [List.cons_append, List.cons.injEq] at he
    exact h.joins after o' j' before he.2

theorem Marked.addOp {C : Nat → List (SMatch N K)} {D : Nat → Option (NsDesc N K E)} {H : QOp N K E → SMatch N K → SMatch N K → Bool}
    {nodes : List Nat} {marks : List (QOp N K E × Bool)} {s s' : PlanState N K E} (h : PlanInv false C D conRel nodes (marks.map (mark H)) s)
    (hm : Marked marks s.n2c) {o : QOp N K E} {strict : Bool} (hop : OpOk C D (H o) o strict) (hg : o.globalReflexivity = false)
    (hsame : SameReflexive o) (ha : AddOp o s s') :
    ∃ j, PlanInv false C D conRel nodes (((o, j) :: marks).map (mark H)) s' ∧ Marked ((o, j) :: marks) s'.n2c := by
  cases ha with
  | @filter switch op inv l r cl L iL iR rows hor hl hr hL hiL hiR hrows =>
    have hcases := oriented_cases hor
    have hlink : Linked (marks.map Prod.fst) o.left o.right := by
      rcases hcases with ⟨_, _, rfl, rfl⟩ | ⟨_, _, rfl, rfl⟩
      · exact hm.linked _ _ _ hl hr
      · exact hm.linked _ _ _ hr hl
    have hLc : L.comp = cl := by
      obtain ⟨cols, hc⟩ := h.ok _ _ hL
      exact hc.comp
    have hst : strong (o.fwd.base.reflexive || !false) (H o) = H o := by
      funext a b; simp [strong]
    refine ⟨false, ?_, hm.step (by simp [hlink]) ?_⟩
    · rcases hcases with ⟨rfl, _, rfl, rfl⟩ | ⟨hi, _, rfl, rfl⟩
      · obtain ⟨_, _, h2⟩ := h.filterUpdate (o := mark H (o, false)) (op := o.fwd) (G := H o) hop.fwd.filter
          (fun cols row => by show opHolds (strong _ _) o.left o.right _ _ = _; rw [hst]) (Or.inl ⟨rfl, rfl⟩) hl hr hL hiL hiR
        exact h2 _ hrows
      · obtain ⟨_, _, h2⟩ := h.filterUpdate (o := mark H (o, false)) (op := op) (G := fun a b => H o b a) (hop.inv _ hi).filter
          (fun cols row => by
            show opHolds (strong _ _) o.left o.right _ _ = opHolds _ o.right o.left _ _
            rw [hst, opHolds_swap]) (Or.inr ⟨rfl, rfl⟩) hl hr hL hiL hiR
        exact h2 _ hrows
    · intro a b c h1 h2
      simp only [n2c_after h.n2cSorted cl cl L.comp (Or.inl hLc)] at h1 h2
      have hid : ∀ n, (s.n2c.get n).map (fun c => if c = cl ∨ c = cl then L.comp else c) = s.n2c.get n := by
        intro n
        cases s.n2c.get n with
        | none => rfl
        | some x => by_cases hx : x = cl <;> simp [hx, hLc]
      rw [hid] at h1 h2
      exact (hm.linked a b c h1 h2).mono fun o ho => List.mem_cons_of_mem _ ho
  | @join switch op inv l r cl cr L R iL iR new hor hl hr hne hL hiL hR hiR hj =>
    rw [hg] at hj
    have hcases := oriented_cases hor
    have hget : s.n2c.get o.left ≠ s.n2c.get o.right := by
      rcases hcases with ⟨_, _, rfl, rfl⟩ | ⟨_, _, rfl, rfl⟩
      · rw [hl, hr]; simpa using hne
      · rw [hl, hr]; simpa using hne.symm
    have hnl : ¬ Linked (marks.map Prod.fst) o.left o.right := fun hk => hget (sameComp h hk)
    obtain ⟨A, hA⟩ := h.ok cl L hL
    obtain ⟨B, hB⟩ := h.ok cr R hR
    obtain ⟨hlm, hli, hlc⟩ := hA.colIn hiL
    obtain ⟨hrm, hri, hrc⟩ := hB.colIn hiR
    have hns1 : ∀ d, L.ns = some d → D l = some d ∧ iL = 0 ∧ L.rows = (C l).map fun m => [m] := fun d hd => by rw [hli]; exact hA.nsOk hlm d hd
    have hns2 : ∀ d, R.ns = some d → D r = some d ∧ iR = 0 ∧ R.rows = (C r).map fun m => [m] := fun d hd => by rw [hri]; exact hB.nsOk hrm d hd
    have hst : strong (o.fwd.base.reflexive || !true) (H o) = strong o.fwd.base.reflexive (H o) := by simp
    have hcomp : new.comp = cl ∨ new.comp = cr := by
      have : new.comp = L.comp ∨ new.comp = R.comp := by cases hj <;> simp
      rwa [hA.comp, hB.comp] at this
    refine ⟨true, ?_, hm.step (by simp [hnl]) ?_⟩
    · have hf := hop.fwd
      rw [hg] at hf
      have hi' := hop.inv
      rw [hg] at hi'
      have hi2 := hop.inv2
      rw [hg] at hi2
      rcases hcases with ⟨rfl, rfl, rfl, rfl⟩ | ⟨hi, rfl, rfl, rfl⟩
      · have := createJoin_exact (refl := o.fwd.base.reflexive) hf hi' rfl (fun i hi => hsame i (Or.inl hi)) hlc hrc hns1 hns2 hj
        exact h.joinUpdate (o := mark H (o, true)) (G := strong o.fwd.base.reflexive (H o))
          (fun cols row => by show opHolds (strong _ _) o.left o.right _ _ = opHolds _ o.left o.right _ _; rw [hst]) (Or.inl ⟨rfl, rfl⟩) hl hr hne hL hR hiL hiR this
      · have := createJoin_exact (refl := o.fwd.base.reflexive) (hi' _ hi) hi2 (hsame _ (Or.inl hi)) (fun i hi => hsame i (Or.inr hi)) hlc hrc
          hns1 hns2 hj
        refine h.joinUpdate (o := mark H (o, true)) (G := strong o.fwd.base.reflexive (fun a b => H o b a))
          (fun cols row => ?_) (Or.inr ⟨rfl, rfl⟩) hl hr hne hL hR hiL hiR this
        show opHolds (strong _ _) o.left o.right _ _ = opHolds _ o.right o.left _ _
        rw [hst, opHolds_swap, strong_swap]
    · intro a b c h1 h2
      simp only [n2c_after h.n2cSorted cl cr new.comp hcomp] at h1 h2
      have hstep : Linked (o :: marks.map Prod.fst) l r := by
        have e : Linked (o :: marks.map Prod.fst) o.left o.right := .rel _ _ ⟨o, List.mem_cons_self, rfl, rfl⟩
        rcases hcases with ⟨_, _, rfl, rfl⟩ | ⟨_, _, rfl, rfl⟩
        · exact e
        · exact .symm _ _ e
      have old : ∀ {x y c}, s.n2c.get x = some c → s.n2c.get y = some c → Linked (o :: marks.map Prod.fst) x y := fun h3 h4 =>
        (hm.linked _ _ _ h3 h4).mono fun o ho => List.mem_cons_of_mem _ ho
      have part : ∀ x, (s.n2c.get x).map (fun c => if c = cl ∨ c = cr then new.comp else c) = some c →
          (c = new.comp ∧ (s.n2c.get x = some cl ∨ s.n2c.get x = some cr)) ∨ (c ≠ new.comp ∧ s.n2c.get x = some c) := by
        intro x hx
        cases hc : s.n2c.get x with
        | none => rw [hc] at hx; simp at hx
        | some z =>
          rw [hc] at hx
          simp only [Option.map_some, Option.some.injEq] at hx
          by_cases hz : z = cl ∨ z = cr
          · rw [if_pos hz] at hx
            refine Or.inl ⟨hx.symm, ?_⟩
            rcases hz with rfl | rfl
            · exact Or.inl rfl
            · exact Or.inr rfl
          · rw [if_neg hz] at hx
            refine Or.inr ⟨?_, by rw [hx]⟩
            rw [← hx]
            intro e
            rw [e] at hz
            exact hz hcomp
      have toL : ∀ x, (s.n2c.get x = some cl ∨ s.n2c.get x = some cr) → Linked (o :: marks.map Prod.fst) x l := by
        intro x hx
        rcases hx with hx | hx
        · exact old hx hl
        · exact .trans _ _ _ (old hx hr) (.symm _ _ hstep)
      rcases part a h1 with ⟨e1, p1⟩ | ⟨e1, p1⟩
      · rcases part b h2 with ⟨e2, p2⟩ | ⟨e2, p2⟩
        · exact .trans _ _ _ (toL a p1) (.symm _ _ (toL b p2))
        · exact absurd e1 e2
      · rcases part b h2 with ⟨e2, p2⟩ | ⟨e2, p2⟩
        · exact absurd e2 e1
        · exact old p1 p2

theorem Marked.addOps {C : Nat → List (SMatch N K)} {D : Nat → Option (NsDesc N K E)} {H : QOp N K E → SMatch N K → SMatch N K → Bool}
    {nodes : List Nat} {strict : Bool} {ops : List (QOp N K E)} {s s' : PlanState N K E} (ha : AddOps ops s s') :
    ∀ {marks : List (QOp N K E × Bool)}, PlanInv false C D conRel nodes (marks.map (mark H)) s → Marked marks s.n2c →
      (∀ o ∈ ops, OpOk C D (H o) o strict ∧ o.globalReflexivity = false ∧ SameReflexive o) →
      ∃ marks' : List (QOp N K E × Bool), marks'.map Prod.fst = ops.reverse ++ marks.map Prod.fst ∧
        PlanInv false C D conRel nodes (marks'.map (mark H)) s' ∧ Marked marks' s'.n2c := by
  induction ha with
  | nil => intro marks h hm _; exact ⟨marks, by simp, h, hm⟩
  | @cons o os s s' s'' h1 _ ih =>
    intro marks h hm hop
    obtain ⟨a, b, c⟩ := hop o List.mem_cons_self
    obtain ⟨j, h2, h3⟩ := hm.addOp h a b c h1
    obtain ⟨m', h4, h5⟩ := ih h2 h3 fun o ho => hop o (List.mem_cons_of_mem _ ho)
    exact ⟨m', by simpa using h4, h5⟩

open Classical in
/-- **C61**: without the global distinctness rule, the rows of every plan for every order of the operators are exactly (each once) the
answers of the conjunction in which the operands of all operators that are not reflexive differ, except for operators whose operands are
connected by the operators before them in the order. -/
theorem C61_exact (d : SMatch N K) (searches : List (Option (List (SMatch N K) × Option (NsDesc N K E))))
    (H : QOp N K E → SMatch N K → SMatch N K → Bool) (ops : List (QOp N K E))
    (hok : ∀ o ∈ ops, OpOk (candidatesOf d searches) (descOf searches) (H o) o true)
    (hglobal : ∀ o ∈ ops, o.globalReflexivity = false) (hsame : ∀ o ∈ ops, SameReflexive o)
    (hin : ∀ o ∈ ops, o.left ∈ mandatory searches ∧ o.right ∈ mandatory searches)
    (binding : QOp N K E → Bool) (offset : Nat) (hconn : checkConnected (shapeOf searches ops binding offset) = true)
    (order : List (QOp N K E)) (horder : order.Perm ops) :
    ∀ e, MakePlan searches order e →
      ∃ rows : List (Row N K), e.rows.map (reorderMatch d (inversePos e.pos)) = rows.map some ∧
        rows.Perm ((answers d searches H ops).filter fun row => decide (Differ order row)) := by
  intro e he
  cases he with
  | @mk s p hs hp =>
    have hinit := initPlan_inv (strict := false) d searches (conRel (E := E))
    have hm0 : Marked ([] : List (QOp N K E × Bool)) (initPlan searches).n2c := by
      refine ⟨fun after o j before he => by simp at he, fun a b c h1 h2 => ?_⟩
      obtain ⟨_, _, h3⟩ := initPlan_get searches
      have self : ∀ n c, (initPlan searches).n2c.get n = some c → n = c := by
        intro n c hn
        rw [(h3 n).2] at hn
        cases hs : searches[n]? with
        | none => rw [hs] at hn; simp at hn
        | some x =>
          cases x with
          | none => rw [hs] at hn; simp at hn
          | some q => rw [hs] at hn; simpa using hn
      rw [self a c h1, self b c h2]
      exact .refl _
    obtain ⟨marks, hmk, hfin, hmarks⟩ := Marked.addOps (H := H) (strict := true) hs (marks := []) hinit hm0
      fun o ho => ⟨hok o (horder.mem_iff.1 ho), hglobal o (horder.mem_iff.1 ho), hsame o (horder.mem_iff.1 ho)⟩
    simp only [List.map_nil, List.append_nil] at hmk
    have hsameC : ∀ a b, Relation.EqvGen (shapeOf searches ops binding offset).Edge a b → s.n2c.get (a - offset) = s.n2c.get (b - offset) := by
      intro a b hab
      induction hab with
      | rel x y hxy =>
        obtain ⟨h1, _, _⟩ := hxy
        obtain ⟨o, ho, h2⟩ := List.mem_map.1 h1
        simp only [Prod.mk.injEq] at h2
        obtain ⟨rfl, rfl, _⟩ := h2
        rw [Nat.add_sub_cancel_left, Nat.add_sub_cancel_left]
        refine sameComp hfin (.rel _ _ ⟨o, ?_, rfl, rfl⟩)
        rw [hmk, List.mem_reverse]
        exact horder.mem_iff.2 ho
      | refl x => rfl
      | symm x y _ ih => exact ih.symm
      | trans x y z _ _ ih1 ih2 => exact ih1.trans ih2
    have hcon := (C41_connected _).1 hconn
    obtain ⟨rows, h1, h2, h3⟩ := hfin.result d hp fun a ha b hb => by
      have := hsameC (offset + a) (offset + b)
        (hcon _ ((nodes_shapeOf searches ops binding offset _).2 ⟨a, ha, rfl⟩) _
          ((nodes_shapeOf searches ops binding offset _).2 ⟨b, hb, rfl⟩))
      rwa [Nat.add_sub_cancel_left, Nat.add_sub_cancel_left] at this
    simp only [Bool.not_false, Bool.true_or, List.filter_true] at h2
    refine ⟨rows, h1, (h3.antisymm h2).trans (List.Perm.of_eq ?_)⟩
    -- the relations of the marks are the operators and the differences
    unfold answers
    rw [List.filter_filter]
    refine List.filter_congr fun row hr => ?_
    have hlen := length_of_mem_prodRows hr
    rw [List.length_range] at hlen
    have hget : ∀ n ∈ mandatory searches, ∃ m, row[n]? = some m := fun n hn =>
      ⟨row[n]'(by rw [hlen]; exact lt_outWidth hn), List.getElem?_eq_getElem _⟩
    rw [Bool.eq_iff_iff, Bool.and_eq_true, List.all_eq_true, List.all_eq_true, decide_eq_true_eq]
    have hmem : ∀ p ∈ marks, p.1 ∈ ops := fun p hp => by
      have : p.1 ∈ marks.map Prod.fst := List.mem_map_of_mem hp
      rw [hmk, List.mem_reverse] at this
      exact horder.mem_iff.1 this
    constructor
    · intro h
      constructor
      · intro before o after ho hrefl hnl
        have hsp : marks.map Prod.fst = after.reverse ++ o :: before.reverse := by rw [hmk, ho]; simp
        obtain ⟨m1, m2, e1, e2, e3⟩ := List.map_eq_append_iff.1 hsp
        obtain ⟨q, m3, rfl, e4, e5⟩ := List.map_eq_cons_iff.1 e3
        obtain ⟨o', j⟩ := q
        obtain rfl : o' = o := e4
        have hj : j = true := (hmarks.joins m1 o' j m3 e1).2 fun hk => hnl (hk.mono fun x hx => by rw [e5] at hx; simpa using hx)
        have hq := h (mark H (o', j)) (List.mem_map.2 ⟨_, by rw [e1]; simp, rfl⟩)
        obtain ⟨ha, hb⟩ := hin o' (hmem (o', j) (by rw [e1]; simp))
        obtain ⟨a, ea⟩ := hget _ ha
        obtain ⟨b, eb⟩ := hget _ hb
        simp only [mark, con, ea, eb] at hq
        have hq' : strong (o'.fwd.base.reflexive || !j) (H o') a b = true := hq
        rw [ea, eb]
        simpa [strong, hrefl, hj] using (Bool.and_eq_true_iff.1 hq').2
      · intro o ho
        have : o ∈ marks.map Prod.fst := by rw [hmk, List.mem_reverse]; exact horder.mem_iff.2 ho
        obtain ⟨q, hq, rfl⟩ := List.mem_map.1 this
        have hq' := h (mark H q) (List.mem_map.2 ⟨q, hq, rfl⟩)
        obtain ⟨ha, hb⟩ := hin q.1 ho
        obtain ⟨a, ea⟩ := hget _ ha
        obtain ⟨b, eb⟩ := hget _ hb
        simp only [mark, con, ea, eb] at hq' ⊢
        have hq'' : strong (q.1.fwd.base.reflexive || !q.2) (H q.1) a b = true := hq'
        exact (Bool.and_eq_true_iff.1 hq'').1
    · rintro ⟨hdiff, hall⟩ x hx
      obtain ⟨q, hq, rfl⟩ := List.mem_map.1 hx
      obtain ⟨o, j⟩ := q
      have ho := hmem _ hq
      obtain ⟨ha, hb⟩ := hin o ho
      obtain ⟨a, ea⟩ := hget _ ha
      obtain ⟨b, eb⟩ := hget _ hb
      have h4 := hall o ho
      simp only [mark, con, ea, eb] at h4 ⊢
      show strong (o.fwd.base.reflexive || !j) (H o) a b = true
      unfold strong
      rw [h4, Bool.true_and, Bool.or_eq_true, Bool.or_eq_true]
      by_cases hr : o.fwd.base.reflexive = true
      · exact Or.inl (Or.inl hr)
      · cases j with
        | false => exact Or.inl (Or.inr rfl)
        | true =>
          refine Or.inr (decide_eq_true ?_)
          obtain ⟨m1, m2, e1⟩ := List.append_of_mem hq
          have hnl := (hmarks.joins m1 o true m2 e1).1 rfl
          have hord : order = (m2.map Prod.fst).reverse ++ o :: (m1.map Prod.fst).reverse := by
            have : order.reverse = m1.map Prod.fst ++ o :: m2.map Prod.fst := by rw [← hmk, e1]; simp
            rw [← List.reverse_reverse order, this]; simp
          have := hdiff _ o _ hord (by simpa using hr) fun hk => hnl (hk.mono fun x hx => by simpa using hx)
          rw [ea, eb] at this
          simpa using this

theorem differ_acyclic {ops order : List (QOp N K E)} (h : Acyclic ops) (hp : order.Perm ops) (row : Row N K) :
    Differ order row ↔ DifferAll ops row := by
  constructor
  · intro hd o ho hr
    obtain ⟨a, b, e⟩ := List.append_of_mem (hp.mem_iff.2 ho)
    obtain ⟨l, r, e'⟩ := List.append_of_mem ho
    refine hd a o b e hr fun hk => h l o r e' (hk.mono fun x hx => ?_)
    have h1 : (o :: (a ++ b)).Perm (o :: (l ++ r)) := by
      refine (List.perm_middle.symm.trans ?_).trans List.perm_middle
      rw [← e, ← e']; exact hp
    exact h1.cons_inv.mem_iff.1 (List.mem_append_left _ hx)
  · intro hd a o b e hr _
    exact hd o (hp.mem_iff.1 (by rw [e]; simp)) hr

open Classical in
/-- **C61**: if no operator connects nodes that the other operators connect then, without the global distinctness rule, the rows of every
plan for every order of the operators are exactly (each once) the answers in which the operands of the operators that are not reflexive
differ. So the result does not depend on the order. -/
theorem C61_tree (d : SMatch N K) (searches : List (Option (List (SMatch N K) × Option (NsDesc N K E))))
    (H : QOp N K E → SMatch N K → SMatch N K → Bool) (ops : List (QOp N K E))
    (hok : ∀ o ∈ ops, OpOk (candidatesOf d searches) (descOf searches) (H o) o true)
    (hglobal : ∀ o ∈ ops, o.globalReflexivity = false) (hsame : ∀ o ∈ ops, SameReflexive o) (hac : Acyclic ops)
    (hin : ∀ o ∈ ops, o.left ∈ mandatory searches ∧ o.right ∈ mandatory searches)
    (binding : QOp N K E → Bool) (offset : Nat) (hconn : checkConnected (shapeOf searches ops binding offset) = true)
    (order : List (QOp N K E)) (horder : order.Perm ops) :
    ∀ e, MakePlan searches order e →
      ∃ rows : List (Row N K), e.rows.map (reorderMatch d (inversePos e.pos)) = rows.map some ∧
        rows.Perm ((answers d searches H ops).filter fun row => decide (DifferAll ops row)) := by
  intro e he
  obtain ⟨rows, h1, h2⟩ := C61_exact d searches H ops hok hglobal hsame hin binding offset hconn order horder e he
  refine ⟨rows, h1, h2.trans (List.Perm.of_eq (List.filter_congr fun row _ => ?_))⟩
  rw [Bool.eq_iff_iff, decide_eq_true_eq, decide_eq_true_eq, differ_acyclic hac horder]

end
