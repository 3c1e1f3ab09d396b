import Verif.Op.Edge

/-!
# Edge operators (C47, C48), comparison of values (C47, C62) and arity (C56)
-/

set_option linter.unusedSimpArgs false
set_option linter.unusedSectionVars false

/-- The annotation condition on an edge, for the set `A` of its annotations. -/
def EdgeAnnoSpec.Holds {S W : Type} (spec : Option (EdgeAnnoSpec S W)) (A : AnnoKey S → W → Prop) : Prop :=
  match spec with
  | none => True
  | some (.exact ns name val) => ∃ k v, A k v ∧ k.name = name ∧ (∀ n, ns = some n → k.ns = n) ∧ ∀ w, val = some w → v = w
  | some (.notExact ns name val) => ∃ k v, A k v ∧ k.name = name ∧ (∀ n, ns = some n → k.ns = n) ∧ v ≠ val
  | some (.regex ns name re) => ∃ p, re = some p ∧ ∃ k v, A k v ∧ k.name = name ∧ (∀ n, ns = some n → k.ns = n) ∧ p v = true
  | some (.notRegex ns name re) => ∃ p, re = some p ∧ ∃ k v, A k v ∧ k.name = name ∧ (∀ n, ns = some n → k.ns = n) ∧ p v = false

namespace EdgeOp

variable {N S W : Type} [DecidableEq S] [DecidableEq W]

/-- One component: a correct graph storage for the edges `E` with annotations `A`. -/
structure CompOk (e : EdgeStore N S W) (E : N → N → Prop) (A : N → N → AnnoKey S → W → Prop) (D : N → Prop)
    (R : Nat → Bnd Nat → Prop) : Prop where
  g : e.g.Is E D R
  annos : ∀ a b, ∃ l, e.annos a b = some l ∧ ∀ k v, (k, v) ∈ l ↔ A a b k v

theorem keyFits_iff (ns : Option S) (name : S) (k : AnnoKey S) :
    keyFits ns name k = true ↔ k.name = name ∧ ∀ n, ns = some n → k.ns = n := by
  unfold keyFits
  cases ns with
  | none => simp [eq_comm (a := name)]
  | some n => simp [eq_comm (a := name), eq_comm (a := n)]

theorem checkAnno_spec {e : EdgeStore N S W} {A : N → N → AnnoKey S → W → Prop} {s t : N}
    (h : ∃ l, e.annos s t = some l ∧ ∀ k v, (k, v) ∈ l ↔ A s t k v) (spec : Option (EdgeAnnoSpec S W)) :
    ∃ b, checkAnno spec e s t = some b ∧ (b = true ↔ EdgeAnnoSpec.Holds spec (A s t)) := by
  obtain ⟨l, h1, h2⟩ := h
  have hany : ∀ {p : AnnoKey S × W → Bool} {P : AnnoKey S → W → Prop}, (∀ k v, p (k, v) = true ↔ P k v) →
      (l.any p = true ↔ ∃ k v, A s t k v ∧ P k v) := by
    intro p P hp
    rw [List.any_eq_true]
    constructor
    · rintro ⟨⟨k, v⟩, hm, hx⟩; exact ⟨k, v, (h2 k v).1 hm, (hp k v).1 hx⟩
    · rintro ⟨k, v, hm, hx⟩; exact ⟨(k, v), (h2 k v).2 hm, (hp k v).2 hx⟩
  unfold checkAnno EdgeAnnoSpec.Holds
  rcases spec with _ | ⟨ns, name, val⟩ | ⟨ns, name, val⟩ | ⟨ns, name, re⟩ | ⟨ns, name, re⟩
  · exact ⟨true, rfl, by simp⟩
  · refine ⟨_, by simp only [h1, Option.map_some]; rfl, hany fun k v => ?_⟩
    rw [Bool.and_eq_true, keyFits_iff, and_assoc]
    cases val <;> simp [eq_comm]
  · refine ⟨_, by simp only [h1, Option.map_some]; rfl, hany fun k v => ?_⟩
    rw [Bool.and_eq_true, keyFits_iff, and_assoc]
    simp only [Bool.not_eq_true', decide_eq_false_iff_not, ne_eq, eq_comm (a := val)]
  · cases re with
    | none => exact ⟨false, rfl, by simp⟩
    | some p =>
      refine ⟨_, by simp only [h1, Option.map_some]; rfl, ?_⟩
      simp only [Option.some.injEq, exists_eq_left']
      exact hany fun k v => by rw [Bool.and_eq_true, keyFits_iff, and_assoc]
  · cases re with
    | none => exact ⟨false, rfl, by simp⟩
    | some p =>
      refine ⟨_, by simp only [h1, Option.map_some]; rfl, ?_⟩
      simp only [Option.some.injEq, exists_eq_left']
      exact hany fun k v => by rw [Bool.and_eq_true, keyFits_iff, and_assoc]; simp

variable {E : EdgeStore N S W → N → N → Prop} {A : EdgeStore N S W → N → N → AnnoKey S → W → Prop} {D : EdgeStore N S W → N → Prop}
  {R : EdgeStore N S W → Nat → Bnd Nat → Prop} {gs : List (EdgeStore N S W)} {dist : RangeSpec} {spec : Option (EdgeAnnoSpec S W)}

/-- The specification: some component has a path of an allowed length from `a` to `b`, and an edge between them with the annotation. -/
def Related (E : EdgeStore N S W → N → N → Prop) (A : EdgeStore N S W → N → N → AnnoKey S → W → Prop) (gs : List (EdgeStore N S W))
    (dist : RangeSpec) (spec : Option (EdgeAnnoSpec S W)) (a b : N) : Prop :=
  ∃ c ∈ gs, (∃ d, Walk.SimplePath (E c) a b d ∧ Within dist.minDist dist.maxDist d) ∧ EdgeAnnoSpec.Holds spec (A c a b)

/-- `Related` in a component that knows the node. -/
def RelatedIn (E : EdgeStore N S W → N → N → Prop) (A : EdgeStore N S W → N → N → AnnoKey S → W → Prop) (D : EdgeStore N S W → N → Prop)
    (dist : RangeSpec) (spec : Option (EdgeAnnoSpec S W)) (a b : N) (c : EdgeStore N S W) : Prop :=
  D c a ∧ (∃ d, Walk.SimplePath (E c) a b d ∧ Within dist.minDist dist.maxDist d) ∧ EdgeAnnoSpec.Holds spec (A c a b)

theorem filter_spec (l r : N) (inv : Bool) : ∀ {gs : List (EdgeStore N S W)}, (∀ c ∈ gs, CompOk c (E c) (A c) (D c) (R c) ∧
      R c dist.minDist dist.maxDist) →
    ∃ b, filter dist spec inv l r gs = some b ∧
      (b = true ↔ ∃ c ∈ gs, RelatedIn E A D dist spec (if inv then r else l) (if inv then l else r) c) := by
  intro gs
  induction gs with
  | nil => intro _; exact ⟨false, rfl, by simp⟩
  | cons c gs ih =>
    intro h
    obtain ⟨hc, hr⟩ := h c (by simp)
    obtain ⟨b, hb1, hb2⟩ := ih fun x hx => h x (List.mem_cons_of_mem _ hx)
    generalize hs : (if inv then r else l) = s at *
    generalize ht : (if inv then l else r) = t at *
    obtain ⟨x, x1, x2⟩ := hc.g.conn s t dist.minDist dist.maxDist hr
    obtain ⟨y, y1, y2⟩ := checkAnno_spec (hc.annos s t) spec
    have hex : (∃ c' ∈ c :: gs, RelatedIn E A D dist spec s t c') ↔ (x = true ∧ y = true) ∨ b = true := by
      rw [hb2, List.exists_mem_cons_iff, x2, y2]
      unfold RelatedIn
      rw [and_assoc]
    rw [hex]
    unfold filter
    simp only [hs, ht, x1]
    cases x with
    | false => exact ⟨b, hb1, by simp⟩
    | true =>
      simp only [y1]
      cases y with
      | false => exact ⟨b, hb1, by simp⟩
      | true => exact ⟨true, rfl, by simp⟩

theorem candidates_spec (l : N) (inv : Bool) {c : EdgeStore N S W} (hc : CompOk c (E c) (A c) (D c) (R c))
    (hr : R c dist.minDist dist.maxDist) :
    ∃ res, candidates dist spec inv l c = some res ∧ res.Nodup ∧
      ∀ r, r ∈ res ↔ RelatedIn E A D dist spec (if inv then r else l) (if inv then l else r) c := by
  cases inv with
  | false =>
    obtain ⟨ts, t1, t2, t3⟩ := hc.g.find l dist.minDist dist.maxDist hr
    obtain ⟨k, k1, k2, k3⟩ := TextOp.keep_spec (Q := fun r => EdgeAnnoSpec.Holds spec (A c l r)) (l := ts)
      (f := keepCandidate spec false l c) t2 (by
      intro r _
      obtain ⟨y, y1, y2⟩ := checkAnno_spec (hc.annos l r) spec
      simp only [keepCandidate, Bool.false_eq_true, if_false, y1]
      cases y with
      | true => exact Or.inl ⟨rfl, y2.1 rfl⟩
      | false => exact Or.inr ⟨rfl, fun hx => by simpa using y2.2 hx⟩)
    refine ⟨k, ?_, k2, fun r => ?_⟩
    · unfold candidates
      simp only [Bool.false_eq_true, if_false, t1]
      exact k1
    · rw [k3, t3]
      simp only [RelatedIn, Bool.false_eq_true, if_false, and_assoc]
  | true =>
    obtain ⟨ts, t1, t2, t3⟩ := hc.g.findInv l dist.minDist dist.maxDist hr
    obtain ⟨k, k1, k2, k3⟩ := TextOp.keep_spec (Q := fun r => EdgeAnnoSpec.Holds spec (A c r l)) (l := ts)
      (f := keepCandidate spec true l c) t2 (by
      intro r _
      obtain ⟨y, y1, y2⟩ := checkAnno_spec (hc.annos r l) spec
      simp only [keepCandidate, if_true, y1]
      cases y with
      | true => exact Or.inl ⟨rfl, y2.1 rfl⟩
      | false => exact Or.inr ⟨rfl, fun hx => by simpa using y2.2 hx⟩)
    refine ⟨k, ?_, k2, fun r => ?_⟩
    · unfold candidates
      simp only [if_true, t1]
      exact k1
    · rw [k3, t3]
      simp only [RelatedIn, if_true]
      constructor
      · rintro ⟨⟨hd, d, hp, hw⟩, ha⟩; exact ⟨(hc.g.dom_path hp).2 hd, ⟨d, hp, hw⟩, ha⟩
      · rintro ⟨hd, ⟨d, hp, hw⟩, ha⟩; exact ⟨⟨(hc.g.dom_path hp).1 hd, d, hp, hw⟩, ha⟩

theorem mem_dedupAdj [DecidableEq N] (x : N) : ∀ l : List N, x ∈ dedupAdj l ↔ x ∈ l := by
  intro l
  induction l with
  | nil => simp [dedupAdj]
  | cons y l ih =>
    unfold dedupAdj
    cases h : dedupAdj l with
    | nil => rw [h] at ih; simp [← ih]
    | cons z r =>
      rw [h] at ih
      simp only
      split
      · rename_i hyz; subst hyz
        rw [List.mem_cons (a := x) (l := l), ← ih]; simp
      · rw [List.mem_cons, ih, List.mem_cons]

theorem head_dedupAdj [DecidableEq N] : ∀ l : List N, (dedupAdj l).head? = l.head? := by
  intro l
  cases l with
  | nil => rfl
  | cons y l =>
    unfold dedupAdj
    cases dedupAdj l with
    | nil => rfl
    | cons z r => simp only; split <;> simp_all

theorem sorted_dedupAdj [LinearOrder N] : ∀ l : List N, l.Pairwise (· ≤ ·) → (dedupAdj l).Pairwise (· < ·) := by
  intro l
  induction l with
  | nil => intro _; simp [dedupAdj]
  | cons y l ih =>
    intro hp
    rw [List.pairwise_cons] at hp
    have hl := ih hp.2
    unfold dedupAdj
    have hm := fun x => mem_dedupAdj x l
    cases h : dedupAdj l with
    | nil => simp
    | cons z r =>
      rw [h] at hl hm
      simp only
      split
      · exact hl
      · rename_i hne
        rw [List.pairwise_cons]
        refine ⟨fun x hx => ?_, hl⟩
        have hz : y < z := lt_of_le_of_ne (hp.1 z ((hm z).1 (by simp))) hne
        rcases List.mem_cons.1 hx with rfl | hx
        · exact hz
        · exact lt_trans hz ((List.pairwise_cons.1 hl).1 x hx)

/-- C48, restricted to correct graph storages and ranges they handle (missing: `C48_dag_fails` and `C48_empty_range_fails`): for every
family of components, retrieval returns exactly the nodes accepted by the filter, each once, in both directions; if the range excludes
distance 0 (or the storages know all nodes) both decide `Related`. -/
theorem C48_edge_operators_partial [LinearOrder N] (h : ∀ c ∈ gs, CompOk c (E c) (A c) (D c) (R c) ∧ R c dist.minDist dist.maxDist)
    (inv : Bool) (l : N) :
    ∃ res, retrieve dist spec inv gs l = some res ∧ res.Nodup ∧
      ∀ r, filter dist spec inv l r gs = some (decide (r ∈ res)) ∧
        ((1 ≤ dist.minDist ∨ ∀ c ∈ gs, ∀ n, D c n) →
          (r ∈ res ↔ Related E A gs dist spec (if inv then r else l) (if inv then l else r))) := by
  have hrel : ∀ a b, (1 ≤ dist.minDist ∨ ∀ c ∈ gs, ∀ n, D c n) →
      ((∃ c ∈ gs, RelatedIn E A D dist spec a b c) ↔ Related E A gs dist spec a b) := by
    intro a b hd
    constructor
    · rintro ⟨c, hc, _, hx⟩; exact ⟨c, hc, hx⟩
    · rintro ⟨c, hc, ⟨d, hp, hw⟩, ha⟩
      refine ⟨c, hc, ?_, ⟨d, hp, hw⟩, ha⟩
      rcases hd with hd | hd
      · cases d with
        | zero => have := hw.1; omega
        | succ d =>
          obtain ⟨x, hx, _⟩ := Walk.walkLen_succ.1 hp.walk
          exact ((h c hc).1.g.dom _ _ hx).1
      · exact hd c hc a
  suffices H : ∃ res, retrieve dist spec inv gs l = some res ∧ res.Nodup ∧
      ∀ r, r ∈ res ↔ ∃ c ∈ gs, RelatedIn E A D dist spec (if inv then r else l) (if inv then l else r) c by
    obtain ⟨res, e1, e2, e3⟩ := H
    refine ⟨res, e1, e2, fun r => ⟨?_, fun hd => by rw [e3, hrel _ _ hd]⟩⟩
    obtain ⟨b, b1, b2⟩ := filter_spec (spec := spec) l r inv h
    exact TextOp.bool_of_mem b1 b2 (e3 r)
  have hmany : ∃ res, (flatMapOpt (candidates dist spec inv l) gs).map (fun l => dedupAdj (l.mergeSort (fun a b => decide (a ≤ b)))) =
      some res ∧ res.Nodup ∧
      ∀ r, r ∈ res ↔ ∃ c ∈ gs, RelatedIn E A D dist spec (if inv then r else l) (if inv then l else r) c := by
    obtain ⟨res, r1, r2⟩ := flatMapOpt_spec (f := candidates dist spec inv l)
      (P := fun c r => RelatedIn E A D dist spec (if inv then r else l) (if inv then l else r) c) (l := gs) (by
        intro c hc
        obtain ⟨x, x1, _, x3⟩ := candidates_spec (spec := spec) l inv (h c hc).1 (h c hc).2
        exact ⟨x, x1, x3⟩)
    refine ⟨_, by rw [r1]; rfl, ?_, fun r => ?_⟩
    · refine (sorted_dedupAdj _ ?_).imp (fun hx => ne_of_lt hx)
      have := List.pairwise_mergeSort (le := fun a b : N => decide (a ≤ b))
        (fun a b c h1 h2 => by simp only [decide_eq_true_eq] at *; exact le_trans h1 h2)
        (fun a b => by simpa using le_total a b) res
      exact this.imp (fun h => by simpa using h)
    · rw [mem_dedupAdj, List.mem_mergeSort, r2]
  match gs, h, hmany with
  | [], _, hmany => exact hmany
  | [c], h, _ =>
    obtain ⟨x, x1, x2, x3⟩ := candidates_spec (spec := spec) l inv (h c (by simp)).1 (h c (by simp)).2
    exact ⟨x, x1, x2, fun r => by rw [x3]; simp⟩
  | c :: c' :: gs', _, hmany => exact hmany

/-- C47 for edge operators: without any assumption about the storages. -/
theorem C47_edge (dist : RangeSpec) (spec : Option (EdgeAnnoSpec S W)) (inv : Bool) (gs : List (EdgeStore N S W)) (a b : N) :
    filter dist spec (!inv) b a gs = filter dist spec inv a b gs := by
  induction gs with
  | nil => rfl
  | cons c gs ih => cases inv <;> simp only [filter, Bool.not_true, Bool.not_false, Bool.false_eq_true, if_true, if_false] at * <;> rw [ih]

/-- C47 for the retrieval of edge operators. -/
theorem C47_edge_retrieval_partial [LinearOrder N]
    (h : ∀ c ∈ gs, CompOk c (E c) (A c) (D c) (R c) ∧ R c dist.minDist dist.maxDist) (inv : Bool) (a b : N) :
    ∃ ra rb, retrieve dist spec inv gs a = some ra ∧ retrieve dist spec (!inv) gs b = some rb ∧ (b ∈ ra ↔ a ∈ rb) := by
  obtain ⟨ra, h1, _, h3⟩ := C48_edge_operators_partial (spec := spec) h inv a
  obtain ⟨rb, h4, _, h6⟩ := C48_edge_operators_partial (spec := spec) h (!inv) b
  refine ⟨ra, rb, h1, h4, ?_⟩
  have e1 := (h3 b).1
  have e2 := (h6 a).1
  rw [C47_edge, e1, Option.some.injEq] at e2
  exact decide_eq_decide.1 e2

/-! ### Concrete components -/

/-- An adjacency list as a component of an edge operator. -/
def ofAdj (g : Adj NodeID64 Nat Nat) : EdgeStore NodeID64 Nat Nat :=
  { g := g.asGStore, annos := fun a b => some (g.annos.annosForItem (toLex (a, b))) }

theorem ofAdj_ok (ops : List (Adj.Op NodeID64 Nat Nat)) :
    CompOk (ofAdj (Adj.run ops)) (fun a b => (Adj.spec ops).edge a b = true) (fun a b k v => (Adj.spec ops).anno a b k = some v)
      (fun _ => True) GStore.anyRange := by
  refine ⟨Adj.asGStore_is ops, fun a b => ⟨_, rfl, fun k v => ?_⟩⟩
  obtain ⟨h, _, r2⟩ := Adj.run_refines ops
  rw [AnnoStore.mem_annosForItem h.anno, r2]

/-- Two dominance components: 1 → 2 → 3 with an annotation on 1 → 2, and 1 → 2, 1 → 4. -/
def demo1 : List (Adj.Op NodeID64 Nat Nat) := [.addEdge 1 2, .addEdge 2 3, .addAnno 1 2 (AnnoKey.mk 5 6) 7]

def demo2 : List (Adj.Op NodeID64 Nat Nat) := [.addEdge 1 2, .addEdge 1 4]

/-- The hypotheses of C48 hold for one component. -/
example : ∃ res, retrieve (.bound 1 2) none false [ofAdj (Adj.run demo1)] 1 = some res ∧ res.Nodup ∧ 3 ∈ res := by
  obtain ⟨res, h1, h2, h3⟩ := C48_edge_operators_partial (spec := none) (dist := .bound 1 2) (gs := [ofAdj (Adj.run demo1)])
    (E := fun _ a b => (Adj.spec demo1).edge a b = true) (A := fun _ a b k v => (Adj.spec demo1).anno a b k = some v)
    (D := fun _ _ => True) (R := fun _ => GStore.anyRange) (by
      intro c hc
      simp only [List.mem_singleton] at hc
      subst hc
      exact ⟨ofAdj_ok demo1, by simp [GStore.anyRange, RangeSpec.maxDist]⟩) false 1
  refine ⟨res, h1, h2, ?_⟩
  have e : retrieve (.bound 1 2) none false [ofAdj (Adj.run demo1)] 1 = some [2, 3] := by decide +kernel
  rw [e, Option.some.injEq] at h1
  subst h1
  decide

example : filter (.bound 1 2) none false 1 4 [ofAdj (Adj.run demo1), ofAdj (Adj.run demo2)] = some true ∧
    filter (.bound 1 1) (some (.exact none 6 (some 7))) false 1 2 [ofAdj (Adj.run demo2), ofAdj (Adj.run demo1)] = some true ∧
    filter (.bound 1 1) (some (.notExact none 6 7)) false 1 2 [ofAdj (Adj.run demo2), ofAdj (Adj.run demo1)] = some false := by
  decide +kernel

/-- A pre/post order storage as a component of an edge operator. -/
def ofPrePost (g : PrePostGs NodeID64 Nat Nat) : EdgeStore NodeID64 Nat Nat :=
  { g := g.asGStore, annos := fun a b => some (g.annos.annosForItem (toLex (a, b))) }

/-- C48 fails for a pre/post order storage of a graph where a node has two parents: `>2` retrieves node 3 for node 1, and the filter
rejects it. -/
theorem C48_dag_fails : ∃ g, PrePostGs.demoCopy PrePostGs.demoDag = some g ∧
    retrieve (.bound 2 2) none false [ofPrePost g] 1 = some [3] ∧ filter (.bound 2 2) none false 1 3 [ofPrePost g] = some false := by
  have hs : (PrePostGs.demoCopy PrePostGs.demoDag).isSome = true := by decide
  obtain ⟨g, hg⟩ := Option.isSome_iff_exists.1 hs
  refine ⟨g, hg, ?_⟩
  have : ∀ g ∈ PrePostGs.demoCopy PrePostGs.demoDag, retrieve (.bound 2 2) none false [ofPrePost g] 1 = some [3] ∧
    filter (.bound 2 2) none false 1 3 [ofPrePost g] = some false := by decide +kernel
  exact this g hg

/-- C48 fails for empty ranges of a linear storage (`>1,0` is accepted by the parser): the inverse operator retrieves nodes that the
filter rejects. -/
theorem C48_empty_range_fails :
    retrieve (S := Nat) (W := Nat) (.bound 1 0) none true [⟨Linear.demoCopy.asGStore 255, fun _ _ => some []⟩] (3 : NodeID64) = some [3, 4] ∧
    filter (S := Nat) (W := Nat) (.bound 1 0) none true (3 : NodeID64) 4 [⟨Linear.demoCopy.asGStore 255, fun _ _ => some []⟩] = some false := by
  decide +kernel

end EdgeOp

/-! ## Arity (C56) -/

/-- C56: for every family of correct graph storages, the operator accepts a node exactly if the number of its distinct children over all
components is in the range; an unrestricted range means at least one. -/
theorem C56_arity {N : Type} [DecidableEq N] {gs : List (GStore N)} {E : GStore N → N → N → Prop}
    (h : ∀ g ∈ gs, ∃ D R, g.Is (E g) D R) (range : RangeSpec) (n : N) (children : List N) (hn : children.Nodup)
    (hc : ∀ b, b ∈ children ↔ ∃ g ∈ gs, E g n b) :
    ∃ b, arityFilter gs range n = some b ∧ (b = true ↔ match range with
      | .bound min max => min ≤ children.length ∧ children.length ≤ max
      | .unbound => 1 ≤ children.length) := by
  obtain ⟨l, h1, h2⟩ := flatMapOpt_spec (f := fun g : GStore N => g.out n) (P := fun g b => E g n b) (l := gs) (by
    intro g hg
    obtain ⟨D, R, hx⟩ := h g hg
    obtain ⟨l, e1, _, e3⟩ := hx.out n
    exact ⟨l, e1, e3⟩)
  have hlen : l.dedup.length = children.length := by
    refine List.Perm.length_eq ?_
    rw [List.perm_ext_iff_of_nodup (List.nodup_dedup _) hn]
    intro b
    rw [List.mem_dedup, h2, hc]
  refine ⟨_, by unfold arityFilter; rw [h1]; rfl, ?_⟩
  simp only [hlen]
  cases range with
  | bound min max =>
    simp only [RangeSpec.minDist, RangeSpec.maxDist]
    by_cases hm : min ≤ children.length <;> simp [hm]
  | unbound =>
    simp only [RangeSpec.minDist, RangeSpec.maxDist]
    by_cases hm : 1 ≤ children.length <;> simp [hm]

/-- A node with the children 2 (twice) and 4. -/
example : arityFilter [(Adj.run EdgeOp.demo1).asGStore, (Adj.run EdgeOp.demo2).asGStore] (.bound 2 2) 1 = some true ∧
    arityFilter [(Adj.run EdgeOp.demo1).asGStore, (Adj.run EdgeOp.demo2).asGStore] (.bound 3 3) 1 = some false ∧
    arityFilter [(Adj.run EdgeOp.demo1).asGStore] .unbound 3 = some false := by decide +kernel

/-- The hypotheses of `C56_arity` hold for two components. -/
example : ∃ b, arityFilter [(Adj.run EdgeOp.demo1).asGStore, (Adj.run EdgeOp.demo1).asGStore] (.bound 1 1) 1 = some b ∧
    (b = true ↔ 1 ≤ [(2 : NodeID64)].length ∧ [(2 : NodeID64)].length ≤ 1) := by
  refine C56_arity (E := fun _ a b => (Adj.spec EdgeOp.demo1).edge a b = true) (range := .bound 1 1) ?_ 1 [2] (by simp) ?_
  · intro g hg
    simp only [List.mem_cons, List.not_mem_nil, or_false, or_self] at hg
    subst hg
    exact ⟨_, _, Adj.asGStore_is EdgeOp.demo1⟩
  · intro b
    simp only [List.mem_cons, List.not_mem_nil, or_false, or_self, exists_eq_left]
    simp only [EdgeOp.demo1, Adj.spec, List.foldl_cons, List.foldl_nil, Adj.specStep]
    by_cases h : b = 2
    · simp [h]
    · simp [h]

/-! ## Comparison of values (C47, C62) -/

namespace EqualValue

variable {T S V : Type} [LinearOrder T] [LinearOrder S] [OrderBot S] [LinearOrder V]

/-- The value an operand contributes, in the abstract annotations `m`. -/
def SpecValue (m : T → AnnoKey S → Option V) (tokKey : AnnoKey S) (spec : ValueSpec S) (t : T) (k : AnnoKey S) : Option V :=
  match spec with
  | .anno _ _ => m t k
  | .token => m t tokKey
  | .anyNode => none

/-- The keys of the matches of an operand. -/
def KeyOf (tokKey : AnnoKey S) (spec : ValueSpec S) (k : AnnoKey S) : Prop :=
  match spec with
  | .anno ns name => k.name = name ∧ ∀ n, ns = some n → k.ns = n
  | .token => k = tokKey
  | .anyNode => False

/-- C62: for every annotation storage reached by updates, the comparison operators `==` and `!=` retrieve exactly the matches of the right
operand that their filter accepts, each once, and the filter compares the values of the two matches. -/
theorem C62_equal_value [DecidableEq T] (ops : List (AnnoStore.Op T S V)) (tokKey : AnnoKey S) (left right : ValueSpec S) (neg : Bool) (l : T × AnnoKey S) :
    (retrieve (AnnoStore.run ops) tokKey left right neg l).Nodup ∧
    (∀ r, r ∈ retrieve (AnnoStore.run ops) tokKey left right neg l ↔
      KeyOf tokKey right r.2 ∧ filter (AnnoStore.run ops) tokKey left right neg l r = true) ∧
    ∀ r, filter (AnnoStore.run ops) tokKey left right neg l r = true ↔
      ∃ a b, SpecValue (AnnoStore.spec ops) tokKey left l.1 l.2 = some a ∧
        SpecValue (AnnoStore.spec ops) tokKey right r.1 r.2 = some b ∧ (if neg then a ≠ b else a = b) := by
  have hv : ∀ spec (m : T × AnnoKey S), value (AnnoStore.run ops) tokKey spec m = SpecValue (AnnoStore.spec ops) tokKey spec m.1 m.2 := by
    intro spec m
    cases spec <;> simp [value, SpecValue, AnnoStore.C02_get_value]
  have hf : ∀ r, filter (AnnoStore.run ops) tokKey left right neg l r = true ↔
      ∃ a b, SpecValue (AnnoStore.spec ops) tokKey left l.1 l.2 = some a ∧
        SpecValue (AnnoStore.spec ops) tokKey right r.1 r.2 = some b ∧ (if neg then a ≠ b else a = b) := by
    intro r
    unfold filter
    rw [hv, hv]
    cases SpecValue (AnnoStore.spec ops) tokKey left l.1 l.2 with
    | none => simp
    | some a =>
      cases SpecValue (AnnoStore.spec ops) tokKey right r.1 r.2 with
      | none => simp
      | some b => cases neg <;> simp
  refine ⟨?_, ?_, hf⟩
  · unfold retrieve
    cases value (AnnoStore.run ops) tokKey left l with
    | none => exact List.nodup_nil
    | some v =>
      cases annoDef tokKey right with
      | none => exact List.nodup_nil
      | some p => exact (AnnoStore.C03_exact_search ops p.1 p.2 _).2
  · intro r
    rw [hf]
    unfold retrieve
    rw [hv]
    cases SpecValue (AnnoStore.spec ops) tokKey left l.1 l.2 with
    | none => simp
    | some v =>
      obtain ⟨t, k⟩ := r
      cases right with
      | anyNode => simp [annoDef, KeyOf]
      | anno ns name =>
        simp only [annoDef]
        rw [(AnnoStore.C03_exact_search ops ns name _).1]
        unfold AnnoStore.Hit KeyOf SpecValue
        cases neg <;> simp [AnnoStore.accepts, and_assoc, eq_comm] <;> aesop
      | token =>
        simp only [annoDef]
        rw [(AnnoStore.C03_exact_search ops _ _ _).1]
        unfold AnnoStore.Hit KeyOf SpecValue
        have hk : ∀ k : AnnoKey S, (k.name = tokKey.name ∧ ∀ n, some tokKey.ns = some n → k.ns = n) ↔ k = tokKey := by
          intro k
          constructor
          · rintro ⟨h1, h2⟩
            have h2 := h2 _ rfl
            exact Prod.ext h1 h2
          · rintro rfl; simp
        rw [← and_assoc, hk]
        constructor
        · rintro ⟨rfl, b, hb, hx⟩
          refine ⟨rfl, v, b, rfl, hb, ?_⟩
          cases neg with
          | true => simpa [AnnoStore.accepts, eq_comm] using hx
          | false => simpa [AnnoStore.accepts, eq_comm] using hx
        · rintro ⟨rfl, a, b, ha, hb, hx⟩
          rw [Option.some.injEq] at ha
          subst ha
          refine ⟨rfl, b, hb, ?_⟩
          cases neg with
          | true => simpa [AnnoStore.accepts, eq_comm] using hx
          | false => simpa [AnnoStore.accepts, eq_comm] using hx

/-- C47 for the comparison of values, restricted to two operands of the same kind: then the inverse, which is the same operator, relates
the exchanged operands. Missing: operands of different kind, see `C47_equal_value_fails`. -/
theorem C47_equal_value_partial (s : AnnoStore T S V) (tokKey : AnnoKey S) (left right : ValueSpec S) (neg : Bool) (a b : T × AnnoKey S)
    (h : (left = .token ∧ right = .token) ∨ (∃ ns name ns' name', left = .anno ns name ∧ right = .anno ns' name') ∨
      (left = .anyNode ∧ right = .anyNode)) :
    filter s tokKey (inverseSpecs left right).1 (inverseSpecs left right).2 neg b a = filter s tokKey left right neg a b := by
  have key : ∀ f : T × AnnoKey S → Option V,
      (match f b, f a with | some x, some y => if neg then !decide (x = y) else decide (x = y) | _, _ => false) =
      (match f a, f b with | some x, some y => if neg then !decide (x = y) else decide (x = y) | _, _ => false) := by
    intro f
    cases f a <;> cases f b <;> simp [eq_comm]
  rcases h with ⟨rfl, rfl⟩ | ⟨ns, name, ns', name', rfl, rfl⟩ | ⟨rfl, rfl⟩
  · exact key fun m => s.getValue m.1 tokKey
  · exact key fun m => s.getValue m.1 m.2
  · rfl

/-- Token 1 with the value 7 and a span 2 that has the annotation 20 with the same value. -/
def demo : AnnoStore Nat Nat Nat := AnnoStore.run [.insert 1 (AnnoKey.mk 0 10) 7, .insert 2 (AnnoKey.mk 0 20) 7]

/-- C47 fails for `anno == tok`: the operator relates the span to the token, the inverse operator does not relate the token to the span,
and it does not retrieve the span either. -/
theorem C47_equal_value_fails :
    filter demo (AnnoKey.mk 0 10) (.anno none 20) .token false (2, AnnoKey.mk 0 20) (1, AnnoKey.mk 0 10) = true ∧
    filter demo (AnnoKey.mk 0 10) (inverseSpecs (.anno none 20) .token).1 (inverseSpecs (.anno none 20) .token).2 false
      (1, AnnoKey.mk 0 10) (2, AnnoKey.mk 0 20) = false ∧
    retrieve demo (AnnoKey.mk 0 10) (inverseSpecs (.anno none 20) .token).1 (inverseSpecs (.anno none 20) .token).2 false
      (1, AnnoKey.mk 0 10) = [(1, AnnoKey.mk 0 10)] := by decide +kernel

/-- C47 fails for two annotations with different names: the inverse operator searches the name of the wrong operand. -/
theorem C47_equal_value_names_fails :
    (2, AnnoKey.mk 0 20) ∈ retrieve demo (AnnoKey.mk 0 30) (.anno none 10) (.anno none 20) false (1, AnnoKey.mk 0 10) ∧
    (1, AnnoKey.mk 0 10) ∉ retrieve demo (AnnoKey.mk 0 30) (inverseSpecs (.anno none 10) (.anno none 20)).1
      (inverseSpecs (.anno none 10) (.anno none 20)).2 false (2, AnnoKey.mk 0 20) := by decide +kernel

/-- The operands of C62. -/
example : retrieve demo (AnnoKey.mk 0 10) (.anno none 20) .token false (2, AnnoKey.mk 0 20) = [(1, AnnoKey.mk 0 10)] ∧
    retrieve demo (AnnoKey.mk 0 10) (.anno none 20) .token true (2, AnnoKey.mk 0 20) = [] := by decide +kernel

end EqualValue
