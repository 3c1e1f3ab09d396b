import Verif.NodeSearch.Props
import Verif.Op.EdgeProps

/-!
# C67: replacing a node search by a search in the components of an operator

`NodeSearch::new_partofcomponentsearch` (graphannis/src/annis/db/exec/nodesearch.rs 989-1076) and `optimize_node_search_by_operator`
(graphannis/src/annis/db/aql/conjunction.rs 551-614).
-/

set_option linter.unusedSimpArgs false
set_option linter.unusedSectionVars false
set_option linter.unusedVariables false

/-! ## Model -/

/-- A loaded component as the optimisation sees it: `source_nodes` and `get_statistics().nodes`. -/
structure PocStore (T : Type) where
  sources : List T
  nodes : Option Nat

/-- An operator of the conjunction as the optimisation sees it: the number of its left operand and its `necessary_components`, `none` for
one that is not loaded. The order of the hash set is arbitrary. -/
structure PocOp (T : Type) where
  left : Nat
  comps : List (Option (PocStore T))

namespace NodeSearch

section
variable {T K E : Type}

/-- The sum of the numbers of nodes of the loaded components, if at least one is known (conjunction.rs 568-586). Left out: estimates by
edge annotations, since no operator of a query has them: `get_edge_anno_spec` is only implemented for `BaseEdgeOpSpec`, which is made
inside `create_operator` of the dominance, pointing and part-of operators (edge_op.rs 118-120, 646-657, 698-709, 757-764). -/
def pocEstimate (comps : List (Option (PocStore T))) : Option Nat :=
  let known := comps.filterMap fun c => c.bind fun s => s.nodes
  if known.isEmpty then none else some known.sum

/-- `optimize_node_search_by_operator` (conjunction.rs 551-614): the components of the first operator with this node as its left operand
and a smaller estimate than that of the node search. -/
def optimize (est nodeNr : Nat) : List (PocOp T) → Option (List (Option (PocStore T)))
  | [] => none
  | o :: os =>
    if o.left = nodeNr then
      match pocEstimate o.comps with
      | some e => if est > e then some o.comps else optimize est nodeNr os
      | none => optimize est nodeNr os
    else optimize est nodeNr os

/-- The source nodes in the order they are visited (nodesearch.rs 1002-1032). -/
def pocSources (comps : List (Option (PocStore T))) : List T :=
  comps.flatMap fun c => match c with
    | some s => s.sources
    | none => []

/-- The items of the search in the components (nodesearch.rs 1002-1064): the constant output of the description is not used. -/
def partOf (d : NsDesc T K E) (comps : List (Option (PocStore T))) : List (Except (Fail E) (SMatch T K)) :=
  (pocSources comps).flatMap fun n => (d.keys n).filterMap fun k =>
    match allConds ⟨n, k⟩ d.cond with
    | .error e => some (.error e)
    | .ok true => some (.ok ⟨n, k⟩)
    | .ok false => none

end

/-! ## Specification -/

/-- The node is a source node of one of the loaded components. -/
def IsSource {T : Type} (comps : List (Option (PocStore T))) (a : T) : Prop := ∃ s, some s ∈ comps ∧ a ∈ s.sources

/-- Each loaded component gives its source nodes once, and no node is a source node of two of them. -/
structure SourcesOnce {T : Type} (comps : List (Option (PocStore T))) : Prop where
  each : ∀ s, some s ∈ comps → s.sources.Nodup
  apart : comps.Pairwise fun c c' => ∀ s s', c = some s → c' = some s' → ∀ a ∈ s.sources, a ∉ s'.sources

/-! ## Lemmas -/

theorem mem_pocSources {T : Type} {comps : List (Option (PocStore T))} {a : T} : a ∈ pocSources comps ↔ IsSource comps a := by
  unfold pocSources IsSource
  rw [List.mem_flatMap]
  constructor
  · rintro ⟨c, hc, ha⟩
    cases c with
    | none => simp at ha
    | some s => exact ⟨s, hc, ha⟩
  · rintro ⟨s, hs, ha⟩
    exact ⟨some s, hs, ha⟩

theorem pocSources_nodup {T : Type} {comps : List (Option (PocStore T))} (h : SourcesOnce comps) : (pocSources comps).Nodup := by
  unfold pocSources
  rw [List.nodup_flatMap]
  refine ⟨fun c hc => ?_, h.apart.imp fun {c c'} hcc => ?_⟩
  · cases c with
    | none => exact List.nodup_nil
    | some s => exact h.each s hc
  · cases c with
    | none => intro a ha; simp at ha
    | some s =>
      cases c' with
      | none => intro a _ ha; simp at ha
      | some s' => exact fun a ha ha' => hcc s s' rfl rfl a ha ha'

section
variable {T K E : Type} [DecidableEq T] [DecidableEq K]

theorem partOf_eq (d : NsDesc T K E) (comps : List (Option (PocStore T))) {cond : SMatch T K → Bool}
    (hc : ∀ m, allConds m d.cond = .ok (cond m)) (nodes : SMatch T K → List T) :
    partOf d comps = ((IjSpec.mk nodes d.keys cond).rhs none (pocSources comps)).map .ok := by
  unfold partOf IjSpec.rhs
  simp only [List.map_flatMap]
  refine List.flatMap_congr fun n _ => ?_
  induction d.keys n with
  | nil => rfl
  | cons k ks ih =>
    rw [List.filterMap_cons, hc]
    cases h : cond ⟨n, k⟩
    · simp [h, ih]
    · simp [h, ih]

theorem optimize_spec {est n : Nat} {ops : List (PocOp T)} {comps : List (Option (PocStore T))} (h : optimize est n ops = some comps) :
    ∃ o ∈ ops, o.left = n ∧ o.comps = comps := by
  induction ops with
  | nil => simp [optimize] at h
  | cons o os ih =>
    rw [optimize] at h
    split at h
    · rename_i hl
      split at h
      · split at h
        · simp only [Option.some.injEq] at h; exact ⟨o, by simp, hl, h⟩
        · obtain ⟨o', h1, h2⟩ := ih h; exact ⟨o', by simp [h1], h2⟩
      · obtain ⟨o', h1, h2⟩ := ih h; exact ⟨o', by simp [h1], h2⟩
    · obtain ⟨o', h1, h2⟩ := ih h; exact ⟨o', by simp [h1], h2⟩

theorem prodRows_perm {M : Type} {C C' : Nat → List M} (cols : List Nat) (h : ∀ n ∈ cols, (C n).Perm (C' n)) :
    (prodRows C cols).Perm (prodRows C' cols) := by
  induction cols with
  | nil => exact .refl _
  | cons n cols ih =>
    simp only [prodRows]
    have h1 := ih fun m hm => h m (by simp [hm])
    refine ((h n (by simp)).flatMap_right _).trans ?_
    exact List.Perm.flatMap_left _ fun m _ => h1.map _

theorem prodRows_congr {M : Type} {C C' : Nat → List M} (cols : List Nat) (h : ∀ n ∈ cols, C n = C' n) :
    prodRows C cols = prodRows C' cols := by
  induction cols with
  | nil => rfl
  | cons n cols ih => simp only [prodRows]; rw [h n (by simp), ih fun m hm => h m (by simp [hm])]

theorem filter_prodRows {M : Type} {C C' : Nat → List M} {n : Nat} {p : M → Bool} (hn : C' n = (C n).filter p)
    (hne : ∀ m, m ≠ n → C' m = C m) (cols : List Nat) :
    prodRows C' cols = (prodRows C cols).filter fun row => (cols.zip row).all fun x => x.1 ≠ n || p x.2 := by
  induction cols with
  | nil => simp [prodRows]
  | cons c cols ih =>
    simp only [prodRows, ih, List.filter_flatMap]
    by_cases hcn : c = n
    · subst hcn
      rw [hn]
      generalize C c = L
      induction L with
      | nil => rfl
      | cons m L ihL =>
        rw [List.flatMap_cons, ← ihL, List.filter_cons]
        cases hp : p m
        · simp [List.filter_map, Function.comp_def, hp]
        · simp [List.filter_map, Function.comp_def, hp]
    · rw [hne c hcn]
      refine List.flatMap_congr fun m _ => ?_
      rw [List.filter_map]
      congr 1
      refine List.filter_congr fun row _ => ?_
      simp [hcn]

theorem zip_range_all {M : Type} {n : Nat} {p : M → Bool} {w : Nat} {row : List M} (hl : row.length = w) :
    ((List.range w).zip row).all (fun x => x.1 ≠ n || p x.2) = true ↔ ∀ a, row[n]? = some a → p a = true := by
  rw [List.all_eq_true]
  constructor
  · intro h a ha
    obtain ⟨hlt, hget⟩ := List.getElem?_eq_some_iff.1 ha
    have := h (n, a) (by
      rw [List.mem_iff_getElem]
      refine ⟨n, by simp [hl]; omega, ?_⟩
      simp [List.getElem_zip, hget])
    simpa using this
  · rintro h ⟨i, a⟩ hm
    obtain ⟨j, hj, he⟩ := List.mem_iff_getElem.1 hm
    simp only [List.getElem_zip, Prod.mk.injEq, List.getElem_range] at he
    obtain ⟨rfl, he⟩ := he
    by_cases hjn : j = n
    · subst hjn
      simp only [ne_eq, not_true_eq_false, decide_false, Bool.false_or]
      refine h a ?_
      rw [← he, List.getElem?_eq_getElem]
    · simp [hjn]

theorem mandatory_set (searches : List (Option (List (SMatch T K) × Option (NsDesc T K E)))) {n : Nat}
    {x : List (SMatch T K) × Option (NsDesc T K E)} (hx : searches[n]? = some (some x))
    (y : List (SMatch T K) × Option (NsDesc T K E)) : mandatory (searches.set n (some y)) = mandatory searches := by
  unfold mandatory
  rw [List.length_set]
  refine List.filter_congr fun i _ => ?_
  by_cases h : i = n
  · subst h
    have hlt : i < searches.length := (List.getElem?_eq_some_iff.1 hx).1
    rw [List.getElem?_set_self hlt, hx]
  · rw [List.getElem?_set_ne (Ne.symm h)]

/-- Leaving out candidates of a node for which one operator never holds does not change the answers. -/
theorem answers_restrict (d : SMatch T K) (searches : List (Option (List (SMatch T K) × Option (NsDesc T K E))))
    (H : QOp T K E → SMatch T K → SMatch T K → Bool) (ops : List (QOp T K E)) {n : Nat} {ms : List (SMatch T K)}
    {dd : Option (NsDesc T K E)} (hn : searches[n]? = some (some (ms, dd))) {p : SMatch T K → Bool} {rows : List (SMatch T K)}
    (hr : (ms.filter p).Perm rows) {o : QOp T K E} (ho : o ∈ ops) (hol : o.left = n) (hor : o.right ∈ mandatory searches)
    (hp : ∀ a ∈ ms, ∀ b, H o a b = true → p a = true) (dd' : Option (NsDesc T K E)) :
    (answers d (searches.set n (some (rows, dd'))) H ops).Perm (answers d searches H ops) := by
  have hlt : n < searches.length := (List.getElem?_eq_some_iff.1 hn).1
  have hnm : n ∈ mandatory searches := by
    unfold mandatory
    rw [List.mem_filter, hn]
    exact ⟨List.mem_range.2 hlt, rfl⟩
  unfold answers
  rw [mandatory_set searches hn]
  generalize hw : outWidth (mandatory searches) = w
  have hnw : n < w := hw ▸ lt_outWidth hnm
  have hrw : o.right < w := hw ▸ lt_outWidth hor
  set C := candidatesOf d searches with hC
  let C' : Nat → List (SMatch T K) := fun m => if m = n then ms.filter p else C m
  have hCn : C n = ms := by simp [hC, candidatesOf, hn]
  have h1 : (prodRows (candidatesOf d (searches.set n (some (rows, dd')))) (List.range w)).Perm (prodRows C' (List.range w)) := by
    refine prodRows_perm _ fun m _ => ?_
    by_cases hm : m = n
    · subst hm
      simp only [C', if_true, candidatesOf, List.getElem?_set_self hlt]
      exact hr.symm
    · simp only [C', if_neg hm, candidatesOf, List.getElem?_set_ne (Ne.symm hm), hC]
      exact .refl _
  have h2 : prodRows C' (List.range w) =
      (prodRows C (List.range w)).filter fun row => ((List.range w).zip row).all fun x => x.1 ≠ n || p x.2 :=
    filter_prodRows (by simp [C', hCn]) (fun m hm => by simp [C', hm]) _
  refine (h1.filter _).trans ?_
  rw [h2, List.filter_filter]
  refine List.Perm.of_eq (List.filter_congr fun row hrow => ?_)
  have hlen : row.length = w := by simpa using length_of_mem_prodRows hrow
  rw [Bool.and_eq_left_iff_imp]
  intro hall
  rw [zip_range_all hlen]
  intro a ha
  obtain ⟨m, hm, hcv⟩ := colVal_of_mem hrow (n := n) (by simpa using hnw)
  have hidx : (List.range w).idxOf n = n := by
    have := (List.nodup_range (n := w)).idxOf_getElem n (by simpa using hnw)
    simpa using this
  unfold colVal at hcv
  rw [hidx, ha] at hcv
  injection hcv with hcv
  subst hcv
  rw [hCn] at hm
  have := List.all_eq_true.1 hall o ho
  obtain ⟨b, hb⟩ : ∃ b, row[o.right]? = some b := ⟨_, List.getElem?_eq_getElem (by omega)⟩
  rw [hol, ha, hb] at this
  exact hp a hm b this

/-! ## C67 -/

/-- C67, restricted: if a node search is replaced by the search in the components of an operator, the conjunction has the same answers,
provided that the operator only holds for left operands that are source nodes of its components, no node is a source node of two of
them, and the constant output of the search, if there is one, is the key it looks for. Missing: `C67_negated_fails`, `C67_near_fails`,
`C67_duplicate_fails`, `C67_output_fails`. -/
theorem C67_part_of_partial (d : SMatch T K) (searches : List (Option (List (SMatch T K) × Option (NsDesc T K E))))
    (H : QOp T K E → SMatch T K → SMatch T K → Bool) (ops : List (QOp T K E)) {n : Nat} {ms : List (SMatch T K)}
    {desc : NsDesc T K E} (hn : searches[n]? = some (some (ms, some desc)))
    -- what C66 says about the search
    {cond : SMatch T K → Bool} {all : List T} (hall : all.Nodup) (hcond : ∀ m, allConds m desc.cond = .ok (cond m))
    (hkeys : ∀ n, desc.keys n ≠ [] → n ∈ all) (hms : ms.Perm ((IjSpec.mk (fun _ => []) desc.keys cond).rhs desc.constOutput all))
    -- what is known about the operators
    (poc : QOp T K E → List (Option (PocStore T))) (hor : ∀ o ∈ ops, o.left = n → o.right ∈ mandatory searches)
    (hsrc : ∀ o ∈ ops, o.left = n → ∀ a ∈ ms, ∀ b, H o a b = true → IsSource (poc o) a.node)
    (hnd : ∀ o ∈ ops, o.left = n → SourcesOnce (poc o))
    (hout : ∀ c, desc.constOutput = some c → ∀ n, desc.keys n = [] ∨ desc.keys n = [c])
    {est : Nat} {comps : List (Option (PocStore T))} (hopt : optimize est n (ops.map fun o => ⟨o.left, poc o⟩) = some comps) :
    ∃ rows, partOf desc comps = rows.map .ok ∧
      (answers d (searches.set n (some (rows, some desc))) H ops).Perm (answers d searches H ops) := by
  obtain ⟨po, hpo, hpl, hpc⟩ := optimize_spec hopt
  obtain ⟨o, ho, rfl⟩ := List.mem_map.1 hpo
  simp only at hpl hpc
  subst hpc
  refine ⟨_, partOf_eq desc (poc o) hcond fun _ => [], ?_⟩
  refine answers_restrict d searches H ops hn (p := fun a => decide (a.node ∈ pocSources (poc o))) ?_ ho hpl (hor o ho hpl)
    (fun a ha b hb => by simpa using mem_pocSources.2 (hsrc o ho hpl a ha b hb)) _
  have hrhs : (IjSpec.mk (fun _ => []) desc.keys cond).rhs desc.constOutput all = (IjSpec.mk (fun _ => []) desc.keys cond).rhs none all := by
    cases hco : desc.constOutput with
    | none => rfl
    | some c =>
      unfold IjSpec.rhs
      dsimp only
      clear hms hkeys hall
      induction all with
      | nil => rfl
      | cons x all ih =>
        rw [List.flatMap_cons, ← ih, List.filter_cons]
        rcases hout c hco x with h | h
        · simp [h]
        · simp only [h, List.any_cons, List.any_nil, Bool.or_false, List.map_cons, List.map_nil, List.filter_cons, List.filter_nil]
          cases cond ⟨x, c⟩ <;> simp
  rw [hrhs] at hms
  exact (hms.filter _).trans (filter_rhs_perm _ none hall (pocSources_nodup (hnd o ho hpl)) (fun m _ hm => hkeys m hm) (fun m _ => by simp))

end

/-- C67: the condition on source nodes holds for dominance, pointing and part-of operators with a distance of at least 1. -/
theorem C67_edge_sources {T S W : Type} [DecidableEq S] [DecidableEq W] {gs : List (EdgeStore T S W)}
    {Ed : EdgeStore T S W → T → T → Prop} {A : EdgeStore T S W → T → T → AnnoKey S → W → Prop} {D : EdgeStore T S W → T → Prop}
    {R : EdgeStore T S W → Nat → Bnd Nat → Prop} {dist : RangeSpec} {spec : Option (EdgeAnnoSpec S W)}
    (h : ∀ c ∈ gs, EdgeOp.CompOk c (Ed c) (A c) (D c) (R c) ∧ R c dist.minDist dist.maxDist) (hd : 1 ≤ dist.minDist)
    (stores : List (Option (PocStore T))) (hs : ∀ c ∈ gs, ∀ a, (∃ b, Ed c a b) → IsSource stores a)
    {a b : T} (hab : EdgeOp.filter dist spec false a b gs = some true) : IsSource stores a := by
  obtain ⟨r, h1, h2⟩ := EdgeOp.filter_spec (spec := spec) a b false h
  rw [hab] at h1
  injection h1 with h1
  obtain ⟨c, hc, _, ⟨k, hp, hw⟩, _⟩ := h2.1 h1.symm
  have hk : 1 ≤ k := by
    have := hw.1
    omega
  obtain ⟨k', rfl⟩ : ∃ k', k = k' + 1 := ⟨k - 1, by omega⟩
  obtain ⟨x, hx, _⟩ := Walk.walkLen_succ.1 hp.walk
  exact hs c hc a ⟨x, hx⟩

end NodeSearch
