import Verif.Query.Reorder
import Verif.Query.Connected

/-!
# C61: the result of a conjunction does not depend on the order of the operators
-/

set_option linter.unusedSimpArgs false
set_option linter.unusedSectionVars false
set_option linter.unusedVariables false

section
variable {N K E : Type} [DecidableEq N] [DecidableEq K]

/-! ## What is assumed about node searches and operators -/

/-- The retrieval of an operator gives exactly the nodes accepted by its filter `H`, each once, for all left candidates; the right
candidates are the result of the node search over all nodes. -/
def IndexOk (ret : SMatch N K → Except (Fail E) (List N)) (H : SMatch N K → SMatch N K → Bool) (Cl Cr : List (SMatch N K))
    (d : NsDesc N K E) : Prop :=
  ∃ (nodes : SMatch N K → List N) (cond : SMatch N K → Bool) (all : List N),
    all.Nodup ∧ (∀ m, allConds m d.cond = .ok (cond m)) ∧ Cr.Perm ((IjSpec.mk nodes d.keys cond).rhs d.constOutput all) ∧
    ∀ a ∈ Cl, ret a = .ok (nodes a) ∧ (nodes a).Nodup ∧ (∀ n ∈ nodes a, d.keys n ≠ [] → n ∈ all) ∧
      RetrieveEqFilter H (IjSpec.mk nodes d.keys cond) all a

/-- An implementation of an operator decides `H` on the candidates of its operands. If it is not reflexive, only the two operands have to
be distinct and `H` does not hold for equal matches. With `strict` nothing is assumed about the distinctness of matches. -/
structure ImplOk (op : OpImpl N K E) (H : SMatch N K → SMatch N K → Bool) (Cl Cr : List (SMatch N K)) (dr : Option (NsDesc N K E))
    (global : Bool) (strict : Bool := false) : Prop where
  filter : ∀ a ∈ Cl, ∀ b ∈ Cr, op.base.filter a b = .ok (H a b)
  index : ∀ ret, op.retrieve = some ret → ∀ d, dr = some d → IndexOk ret H Cl Cr d
  distinct : strict = true ∨ op.base.reflexive = true ∨ (global = false ∧ ∀ a ∈ Cl, ∀ b ∈ Cr, H a b = true → a ≠ b)

/-- The operator, its inverse and the inverse of the inverse decide `H`. `C` gives the candidates of a query node and `D` the description
of its node search. -/
structure OpOk (C : Nat → List (SMatch N K)) (D : Nat → Option (NsDesc N K E)) (H : SMatch N K → SMatch N K → Bool) (o : QOp N K E)
    (strict : Bool := false) : Prop where
  fwd : ImplOk o.fwd H (C o.left) (C o.right) (D o.right) o.globalReflexivity strict
  inv : ∀ i, o.inv = some i → ImplOk i (fun a b => H b a) (C o.right) (C o.left) (D o.left) o.globalReflexivity strict
  inv2 : ∀ i, o.inv2 = some i → ImplOk i H (C o.left) (C o.right) (D o.right) o.globalReflexivity strict

/-! ## Joins -/

/-- The operator holds between two columns of two rows. -/
def colsHold (H : SMatch N K → SMatch N K → Bool) (i j : Nat) (x y : Row N K) : Bool :=
  match x[i]?, y[j]? with
  | some a, some b => H a b
  | _, _ => false

theorem joinPairs_congr {T T' : Row N K → Row N K → Bool} {O I : List (Row N K)} (h : ∀ o ∈ O, ∀ i ∈ I, T o i = T' o i) :
    joinPairs T O I = joinPairs T' O I := by
  unfold joinPairs
  refine List.filter_congr fun p hp => ?_
  have := List.mem_product.1 hp
  exact h _ this.1 _ this.2

theorem product_perm_right {α β : Type} (l : List α) {a b : List β} (h : a.Perm b) : (l.product a).Perm (l.product b) := by
  unfold List.product
  exact List.Perm.flatMap_left _ fun x _ => h.map _

theorem product_perm_left {α β : Type} {a b : List α} (h : a.Perm b) (l : List β) : (a.product l).Perm (b.product l) := by
  unfold List.product
  exact h.flatMap_right _

theorem joinPairs_perm (T : Row N K → Row N K → Bool) {O O' I I' : List (Row N K)} (hO : O.Perm O') (hI : I.Perm I') :
    (joinPairs T O I).Perm (joinPairs T O' I') := by
  unfold joinPairs
  exact ((product_perm_left hO I).trans (product_perm_right O' hI)).filter _

/-- The rows have their match for the operand in the given column. -/
def ColIn (rows : List (Row N K)) (i : Nat) (C : List (SMatch N K)) : Prop := ∀ r ∈ rows, ∃ m ∈ C, r[i]? = some m

theorem map_ok_inj {a b : List (Row N K)} (h : a.map (Except.ok (ε := Fail E)) = b.map .ok) : a = b :=
  List.map_injective_iff.2 (fun x y hxy => by simpa using hxy) h

theorem map_ok_perm {a b : List (Row N K)} (h : (a.map (Except.ok (ε := Fail E))).Perm (b.map .ok)) : a.Perm b := by
  have := h.filterMap fun x => match x with
    | .ok r => some r
    | .error _ => none
  simpa [List.filterMap_map, Function.comp_def] using this

/-- The rows have no match in common; only demanded with `strict`. -/
def apart (strict : Bool) (x y : Row N K) : Bool := !strict || decide (∀ m ∈ x, m ∉ y)

/-- Rows that contain all combinations which satisfy `T` and have no match twice (without `strict`: all that satisfy `T`), and only
combinations that satisfy `T`. -/
structure Between (strict : Bool) (T : Row N K → Row N K → Bool) (O I rows : List (Row N K)) : Prop where
  lower : ((joinPairs (fun x y => T x y && apart strict x y) O I).map fun p => p.1 ++ p.2).Subperm rows
  upper : rows.Subperm ((joinPairs T O I).map fun p => p.1 ++ p.2)

theorem joinPairs_sub {T T' : Row N K → Row N K → Bool} {O I : List (Row N K)} (h : ∀ o ∈ O, ∀ i ∈ I, T o i = true → T' o i = true) :
    (joinPairs T O I).Sublist (joinPairs T' O I) := by
  have : joinPairs T O I = (joinPairs T' O I).filter fun p => T p.1 p.2 := by
    unfold joinPairs
    rw [List.filter_filter]
    refine List.filter_congr fun p hp => ?_
    have := List.mem_product.1 hp
    cases hT : T p.1 p.2
    · rfl
    · rw [h _ this.1 _ this.2 hT]; rfl
  rw [this]
  exact List.filter_sublist

theorem joinHolds_upper {c : NlConf N K E} {H : SMatch N K → SMatch N K → Bool} (g : Bool) (o i : Row N K)
    (h : joinHolds c H g o i = true) : colsHold H c.outerIdx c.innerIdx o i = true := by
  unfold joinHolds at h
  unfold colsHold
  cases h1 : o[c.outerIdx]? <;> cases h2 : i[c.innerIdx]? <;> simp only [h1, h2] at h ⊢ <;> simp_all

theorem joinHolds_lower {c : NlConf N K E} {H : SMatch N K → SMatch N K → Bool} {O I : List (Row N K)} {C C' : List (SMatch N K)}
    (hO : ColIn O c.outerIdx C) (hI : ColIn I c.innerIdx C') {strict : Bool}
    (hd : strict = true ∨ c.op.reflexive = true ∨ (c.globalReflexivity = false ∧ ∀ a ∈ C, ∀ b ∈ C', H a b = true → a ≠ b)) {g : Bool}
    (hg : g = false ∨ g = c.globalReflexivity) : ∀ o ∈ O, ∀ i ∈ I,
      (colsHold H c.outerIdx c.innerIdx o i && apart strict o i) = true → joinHolds c H g o i = true := by
  intro o ho i hi h
  obtain ⟨a, ha, h1⟩ := hO o ho
  obtain ⟨b, hb, h2⟩ := hI i hi
  unfold joinHolds
  unfold colsHold at h
  rw [h1, h2] at h ⊢
  simp only [Bool.and_eq_true] at h ⊢
  refine ⟨h.1, ?_⟩
  rw [Bool.or_eq_true, decide_eq_true_eq]
  rcases hd with rfl | hd | ⟨hgl, hd⟩
  · refine .inr ?_
    have hap := h.2
    simp only [apart, Bool.not_true, Bool.false_or, decide_eq_true_eq] at hap
    have ma : a ∈ o := List.mem_of_getElem? h1
    have mb : b ∈ i := List.mem_of_getElem? h2
    unfold Distinct
    cases g
    · rw [if_neg (by simp)]
      rintro rfl; exact hap a ma mb
    · rw [if_pos rfl]
      exact ⟨fun x hx e => hap a ma (e ▸ hx), fun x hx e => hap x hx (e ▸ mb)⟩
  · exact .inl hd
  · refine .inr ?_
    have : g = false := by rcases hg with h | h <;> simp_all
    rw [this, distinct_false]
    exact hd a ha b hb h.1

theorem lt_of_colIn {rows : List (Row N K)} {i : Nat} {C : List (SMatch N K)} (h : ColIn rows i C) : ∀ r ∈ rows, i < r.length := by
  intro r hr
  obtain ⟨m, _, hm⟩ := h r hr
  exact (List.getElem?_eq_some_iff.1 hm).1

theorem nested_spec {c : NlConf N K E} {H : SMatch N K → SMatch N K → Bool} {O I : List (Row N K)} {C C' : List (SMatch N K)}
    (hO : ColIn O c.outerIdx C) (hI : ColIn I c.innerIdx C') {strict : Bool}
    (hf : ∀ a ∈ C, ∀ b ∈ C', (if c.leftIsOuter then c.op.filter a b else c.op.filter b a) = .ok (H a b))
    (hd : strict = true ∨ c.op.reflexive = true ∨ (c.globalReflexivity = false ∧ ∀ a ∈ C, ∀ b ∈ C', H a b = true → a ≠ b)) :
    (∃ rows, NestedRows c O I rows) ∧
    ∀ rows, NestedRows c O I rows → Between strict (colsHold H c.outerIdx c.innerIdx) O I rows := by
  have ht : c.Total H O I := by
    refine ⟨lt_of_colIn hO, lt_of_colIn hI, ?_⟩
    intro o ho i hi a b h1 h2
    obtain ⟨a', ha', h1'⟩ := hO o ho
    obtain ⟨b', hb', h2'⟩ := hI i hi
    rw [h1] at h1'
    rw [h2] at h2'
    simp only [Option.some.injEq] at h1' h2'
    subst h1' h2'
    exact hf a ha' b hb'
  have hseq := C42_nested_loop c H O I ht
  refine ⟨⟨_, Or.inl hseq⟩, fun rows hr => ?_⟩
  rcases hr with h | h
  · rw [map_ok_inj (h.unique hseq)]
    have up : ∀ g (X : List (Row N K)), (∀ x ∈ X, x ∈ O) →
        (crossJoin (joinHolds c H g) X I).Sublist (crossJoin (colsHold H c.outerIdx c.innerIdx) X I) := by
      intro g X hX
      rw [crossJoin_eq, crossJoin_eq]
      exact (joinPairs_sub fun o _ i _ => joinHolds_upper g o i).map _
    have lo : ∀ g, (g = false ∨ g = c.globalReflexivity) → ∀ (X : List (Row N K)), (∀ x ∈ X, x ∈ O) →
        (crossJoin (fun x y => colsHold H c.outerIdx c.innerIdx x y && apart strict x y) X I).Sublist (crossJoin (joinHolds c H g) X I) := by
      intro g hg X hX
      rw [crossJoin_eq, crossJoin_eq]
      exact (joinPairs_sub fun o ho i hi => joinHolds_lower hO hI hd hg o (hX o ho) i hi).map _
    constructor
    · rw [← crossJoin_eq, ← take_one_drop O]
      exact ((lo _ (.inl rfl) _ fun x hx => List.mem_of_mem_take hx).append (lo _ (.inr rfl) _ fun x hx => List.mem_of_mem_drop hx)).subperm
    · rw [← crossJoin_eq, ← take_one_drop O (colsHold H c.outerIdx c.innerIdx)]
      exact ((up _ _ fun x hx => List.mem_of_mem_take hx).append (up _ _ fun x hx => List.mem_of_mem_drop hx)).subperm
  · have hp := map_ok_perm ((C43_nested_loop c H O I ht 1024 (by omega)).2 _ h)
    constructor
    · exact (((joinPairs_sub (joinHolds_lower hO hI hd (.inr rfl))).map _).subperm).trans hp.symm.subperm
    · exact hp.subperm.trans ((joinPairs_sub fun o _ i _ => joinHolds_upper _ o i).map _).subperm

theorem index_spec {op : OpImpl N K E} {H : SMatch N K → SMatch N K → Bool} {Cl Cr : List (SMatch N K)} {d : NsDesc N K E}
    {global strict : Bool} (hop : ImplOk op H Cl Cr (some d) global strict) {ret : SMatch N K → Except (Fail E) (List N)} (hret : op.retrieve = some ret)
    {L : List (Row N K)} {i : Nat} (hL : ColIn L i Cl) :
    (∃ rows, IndexRows (ijConf op ret d global i) L rows) ∧
    ∀ rows, IndexRows (ijConf op ret d global i) L rows → Between strict (colsHold H i 0) L (Cr.map fun m => [m]) rows := by
  obtain ⟨nodes, cond, all, hall, hcond, hperm, hspec⟩ := hop.index ret hret d rfl
  let S : IjSpec N K := ⟨nodes, d.keys, cond⟩
  let c := ijConf op ret d global i
  have hcol : ∀ l ∈ L, ∀ a, l[i]? = some a → a ∈ Cl := by
    intro l hl a ha
    obtain ⟨m, hm, h1⟩ := hL l hl
    rw [ha] at h1
    simp only [Option.some.injEq] at h1
    rw [h1]; exact hm
  have hcand : ∀ l ∈ L, ∀ a, l[c.lhsIdx]? = some a → c.candidates a = .ok (S.cands a) := by
    intro l hl a ha
    have := (hspec a (hcol l hl a ha)).1
    simp only [c, ijConf]
    rw [this]; rfl
  have ht : c.Total S L := ⟨lt_of_colIn hL, hcand, hcond⟩
  have hnd : ∀ l ∈ L, ∀ a, l[c.lhsIdx]? = some a → (S.nodes a).Nodup := fun l hl a ha => (hspec a (hcol l hl a ha)).2.1
  have hseq := C42_index_join c S L ht hnd
  -- the nested loop join with the same rows
  let n : NlConf N K E := ⟨op.base, i, 0, true, global⟩
  have hI : ColIn (((S.rhs c.constOutput all).map fun m => [m]) : List (Row N K)) 0 Cr := by
    intro r hr
    obtain ⟨m, hm, rfl⟩ := List.mem_map.1 hr
    exact ⟨m, hperm.mem_iff.2 hm, rfl⟩
  have heq := C42_index_eq_nested c n H S L all hall (lt_of_colIn hL) hnd
    (fun l hl a ha => (hspec a (hcol l hl a ha)).2.2.1) (fun l hl a ha => (hspec a (hcol l hl a ha)).2.2.2) rfl rfl rfl rfl
  have hcr := hperm.map fun m => [m]
  have hfin : Between strict (colsHold H i 0) L (Cr.map fun m => [m]) (L.flatMap (ijRows c S)) := by
    constructor
    · refine (((joinPairs_perm _ (List.Perm.refl L) hcr).map _).subperm).trans ?_
      exact (((joinPairs_sub (joinHolds_lower (c := n) hL hI hop.distinct (.inr rfl))).map _).subperm).trans heq.subperm
    · refine heq.symm.subperm.trans ?_
      refine (((joinPairs_sub fun o _ j _ => joinHolds_upper (c := n) _ o j).map _).subperm).trans ?_
      exact ((joinPairs_perm _ (List.Perm.refl L) hcr.symm).map _).subperm
  refine ⟨⟨_, Or.inl hseq⟩, fun rows hr => ?_⟩
  rcases hr with h | h
  · rw [map_ok_inj (h.unique hseq)]; exact hfin
  · have hC : c.Cands (fun l => match l[c.lhsIdx]? with
        | some a => S.cands a
        | none => []) (L.map .ok) := by
      intro l hl
      rw [oks_map_ok] at hl
      have hw := ht.width l hl
      simp only [IjConf.nextCandidates, at'_of_lt hw, List.getElem?_eq_getElem hw, bind, Except.bind,
        ht.candidates l hl _ (List.getElem?_eq_getElem hw), pure, Except.pure]
    have := (C43_index_join_partial c _ (L.map .ok) hC (fun m => ⟨_, hcond m⟩) 512 (by omega)).2 _ _ hseq h
    have hp := map_ok_perm this
    exact ⟨hfin.lower.trans hp.symm.subperm, hp.subperm.trans hfin.upper⟩

theorem colsHold_swap (H : SMatch N K → SMatch N K → Bool) (i j : Nat) :
    colsHold (fun a b => H b a) j i = fun y x : Row N K => colsHold H i j x y := by
  funext y x
  unfold colsHold
  cases x[i]? <;> cases y[j]? <;> rfl

/-- What a join of two execution nodes may look like. -/
structure JoinOk (strict : Bool) (H : SMatch N K → SMatch N K → Bool) (L R : Exec N K E) (iL iR : Nat) (new : Exec N K E) : Prop where
  ns : new.ns = none
  rows : (new.comp = L.comp ∧ new.pos = joinPos L.pos R.pos ∧ Between strict (colsHold H iL iR) L.rows R.rows new.rows) ∨
    (new.comp = R.comp ∧ new.pos = joinPos R.pos L.pos ∧ Between strict (colsHold (fun a b => H b a) iR iL) R.rows L.rows new.rows)

theorem createJoin_spec {op : OpImpl N K E} {inv : Option (OpImpl N K E)} {global strict : Bool} {L R : Exec N K E} {iL iR : Nat}
    {H : SMatch N K → SMatch N K → Bool} {Cl Cr : List (SMatch N K)} {dl dr : Option (NsDesc N K E)}
    (hop : ImplOk op H Cl Cr dr global strict) (hinv : ∀ i, inv = some i → ImplOk i (fun a b => H b a) Cr Cl dl global strict)
    (hL : ColIn L.rows iL Cl) (hR : ColIn R.rows iR Cr)
    (hLn : ∀ d, L.ns = some d → dl = some d ∧ iL = 0 ∧ L.rows = Cl.map fun m => [m])
    (hRn : ∀ d, R.ns = some d → dr = some d ∧ iR = 0 ∧ R.rows = Cr.map fun m => [m]) :
    (∃ new, CreateJoin op inv global L R iL iR new) ∧ ∀ new, CreateJoin op inv global L R iL iR new → JoinOk strict H L R iL iR new := by
  have hnLR := nested_spec (c := ⟨op.base, iL, iR, true, global⟩) hL hR (H := H) (fun a ha b hb => hop.filter a ha b hb) hop.distinct
  have hnRL := nested_spec (c := ⟨op.base, iR, iL, false, global⟩) hR hL (H := fun a b => H b a) (fun a ha b hb => hop.filter b hb a ha)
    (by
      rcases hop.distinct with h | h | ⟨h, h2⟩
      · exact Or.inl h
      · exact Or.inr (Or.inl h)
      · exact Or.inr (Or.inr ⟨h, fun a ha b hb hH => (h2 b hb a ha hH).symm⟩))
  refine ⟨?_, fun new hn => ?_⟩
  · have hfall : (R.ns = none ∨ op.retrieve = none) → (L.ns = none ∨ ∀ o, inv = some o → o.retrieve = none) →
        ∃ new, CreateJoin op inv global L R iL iR new := by
      intro h1 h2
      obtain ⟨rows, hr⟩ := hnLR.1
      exact ⟨_, .nestedLR h1 h2 hr⟩
    have hinvcase : (R.ns = none ∨ op.retrieve = none) → ∃ new, CreateJoin op inv global L R iL iR new := by
      intro h1
      cases hl : L.ns with
      | none => exact hfall h1 (Or.inl hl)
      | some d =>
        cases hi : inv with
        | none => rw [← hi]; exact hfall h1 (Or.inr fun o ho => by rw [hi] at ho; simp at ho)
        | some o =>
          rw [← hi]
          cases hr : o.retrieve with
          | none => exact hfall h1 (Or.inr fun o' ho => by rw [hi] at ho; simp only [Option.some.injEq] at ho; rw [← ho]; exact hr)
          | some ret =>
            obtain ⟨h2, h3, h4⟩ := hLn d hl
            have hio := hinv o hi
            rw [h2] at hio
            obtain ⟨rows, hrows⟩ := (index_spec hio hr hR).1
            exact ⟨_, .indexInv h1 hl hi hr hrows⟩
    cases hr : R.ns with
    | none => exact hinvcase (Or.inl hr)
    | some d =>
      cases ho : op.retrieve with
      | none => exact hinvcase (Or.inr ho)
      | some ret =>
        obtain ⟨h2, h3, h4⟩ := hRn d hr
        rw [h2] at hop
        obtain ⟨rows, hrows⟩ := (index_spec hop ho hL).1
        exact ⟨_, .index hr ho hrows⟩
  · cases hn with
    | index hr ho hrows =>
      obtain ⟨h2, h3, h4⟩ := hRn _ hr
      rw [h2] at hop
      have := (index_spec hop ho hL).2 _ hrows
      refine ⟨rfl, Or.inl ⟨rfl, rfl, ?_⟩⟩
      rw [h4, h3]; exact this
    | indexInv h1 hl hi hr hrows =>
      obtain ⟨h2, h3, h4⟩ := hLn _ hl
      have hio := hinv _ hi
      rw [h2] at hio
      have := (index_spec hio hr hR).2 _ hrows
      refine ⟨rfl, Or.inr ⟨rfl, rfl, ?_⟩⟩
      rw [h4, h3]; exact this
    | nestedLR h1 h2 hrows => exact ⟨rfl, Or.inl ⟨rfl, rfl, hnLR.2 _ hrows⟩⟩
    | nestedRL h1 h2 hrows => exact ⟨rfl, Or.inr ⟨rfl, rfl, hnRL.2 _ hrows⟩⟩

end
