import Verif.Whole.Props
import Verif.NodeSearch.PartOf
import Verif.Query.Replaced

/-!
# C98 with replaced node searches

Before the operators are added to the plan, `add_node_to_exec_plan` (graphannis/src/annis/db/aql/conjunction.rs 616-687) may replace the search
for a node by a search for the source nodes of the components of an operator (C67). Here the results of the plans with these searches are
compared with what the query describes.
-/

set_option linter.unusedSimpArgs false
set_option linter.unusedSectionVars false
set_option linter.unusedVariables false

namespace Whole

section
variable {T N V E : Type} [LinearOrder T] [LinearOrder N] [OrderBot N] [LinearOrder V]

/-! ## Model -/

/-- The unary operators of a node on the matches of its search; the description is lost with them (conjunction.rs 616-718). -/
def Node.kept (nd : Node T N V) (rows : List (SMatch T (AnnoKey N))) (d : NsDesc T (AnnoKey N) E) :
    List (SMatch T (AnnoKey N)) × Option (NsDesc T (AnnoKey N) E) :=
  match nd.keep with
  | none => (rows, some d)
  | some p => (rows.filter p, none)

/-- What is known about the sizes when a plan is made: the estimated number of matches of the search for a node, `none` if there is no
estimate, and the `necessary_components` of the operators, by their position in the conjunction. -/
structure Sizes (T : Type) where
  est : Nat → Option Nat
  comps : Nat → List (Option (PocStore T))

/-- The components whose source nodes are searched instead, if the search for the node is replaced (conjunction.rs 551-614). -/
def Sizes.chosen (z : Sizes T) (bins : List (Bin T N V)) (n : Nat) : Option (List (Option (PocStore T))) :=
  match z.est n with
  | none => none
  | some est => NodeSearch.optimize est n (bins.mapIdx fun i b => ⟨b.left, z.comps i⟩)

/-- `add_node_to_exec_plan` (conjunction.rs 616-687) for a node of the query, and its unary operators: the matches and the description of the
search in the plan. An error while the new search is iterated is not one of these cases (see `C98_replaced`, which shows that there is
none). -/
inductive Node.Planned (env : NsEnv N V) (g : NsGraph T N V) (z : Sizes T) (bins : List (Bin T N V)) (n : Nat) (nd : Node T N V) :
    List (SMatch T (AnnoKey N)) × Option (NsDesc T (AnnoKey N) E) → Prop
  | search {rows d} : z.chosen bins n = none → NodeSearch.fromSpec env g nd.spec = .ok (rows, d) → Planned env g z bins n nd (nd.kept rows d)
  | partOf {rows d comps rows'} : z.chosen bins n = some comps → NodeSearch.fromSpec env g nd.spec = .ok (rows, d) →
      NodeSearch.partOf d comps = rows'.map .ok → Planned env g z bins n nd (nd.kept rows' d)

/-- The searches in the plan for all nodes that are not optional (conjunction.rs 844-851). -/
structure PlannedAll (env : NsEnv N V) (g : NsGraph T N V) (z : Sizes T) (bins : List (Bin T N V)) (nodes : List (Option (Node T N V)))
    (S' : List (Option (List (SMatch T (AnnoKey N)) × Option (NsDesc T (AnnoKey N) E)))) : Prop where
  length : S'.length = nodes.length
  optional : ∀ n : Nat, nodes[n]? = some none → S'[n]? = some none
  node : ∀ (n : Nat) nd, nodes[n]? = some (some nd) → ∃ x, S'[n]? = some (some x) ∧ nd.Planned env g z bins n x

/-! ## Specification -/

/-- The matches of a search show the annotation that is searched: for other searches, namely those for tokens and metadata, the new search
shows another annotation (`C67_output_fails`). -/
def ShowsSearched : NsSpec N V → Prop
  | .exact _ _ _ m => m = false
  | .notExact _ _ _ m => m = false
  | .regex _ _ _ m => m = false
  | .notRegex _ _ _ m => m = false
  | .anyNode => True
  | _ => False

/-- An operator whose components are searched instead of its left operand: the operator only holds for source nodes of its components, each
of them is the source node of one component, and the matches show the annotation that is searched. -/
structure Replaces (env : NsEnv N V) (m : AnnoStore.Spec T N V) (r : Rels T N V) (comps : List (Option (PocStore T))) (nd : Node T N V)
    (b : Bin T N V) : Prop where
  source : ∀ x y, Found env m r.cov nd x → Holds r b.kind x.node y → NodeSearch.IsSource comps x.node
  once : NodeSearch.SourcesOnce comps
  shows : ShowsSearched nd.spec

/-- Operators with smaller components than their left operand can replace its search; nothing is said about the others. -/
def SizesOk (env : NsEnv N V) (m : AnnoStore.Spec T N V) (r : Rels T N V) (z : Sizes T) (nodes : List (Option (Node T N V)))
    (bins : List (Bin T N V)) : Prop :=
  ∀ (i : Nat) b, bins[i]? = some b → ∀ nd, nodes[b.left]? = some (some nd) → ∀ est e, z.est b.left = some est →
    NodeSearch.pocEstimate (z.comps i) = some e → e < est → Replaces env m r (z.comps i) nd b

/-! ## Lemmas -/

theorem search_kept (env : NsEnv N V) (g : NsGraph T N V) {nd : Node T N V} {rows : List (SMatch T (AnnoKey N))} {d : NsDesc T (AnnoKey N) E}
    (h : NodeSearch.fromSpec env g nd.spec = .ok (rows, d)) : nd.search env g = .ok (nd.kept rows d) := by
  unfold Node.search Node.kept
  rw [h]
  cases nd.keep <;> rfl

theorem optimize_chosen {est n : Nat} {ops : List (PocOp T)} {comps : List (Option (PocStore T))}
    (h : NodeSearch.optimize est n ops = some comps) :
    ∃ o ∈ ops, o.left = n ∧ o.comps = comps ∧ ∃ e, NodeSearch.pocEstimate comps = some e ∧ e < est := by
  induction ops with
  | nil => simp [NodeSearch.optimize] at h
  | cons o os ih =>
    rw [NodeSearch.optimize] at h
    split at h
    · rename_i hl
      split at h
      · rename_i e he
        split at h
        · rename_i hlt
          simp only [Option.some.injEq] at h
          subst h
          exact ⟨o, by simp, hl, rfl, e, he, hlt⟩
        · obtain ⟨o', h1, h2⟩ := ih h; exact ⟨o', by simp [h1], h2⟩
      · obtain ⟨o', h1, h2⟩ := ih h; exact ⟨o', by simp [h1], h2⟩
    · obtain ⟨o', h1, h2⟩ := ih h; exact ⟨o', by simp [h1], h2⟩

theorem chosen_spec {z : Sizes T} {bins : List (Bin T N V)} {n : Nat} {comps : List (Option (PocStore T))}
    (h : z.chosen bins n = some comps) :
    ∃ (i : Nat) (b : Bin T N V), bins[i]? = some b ∧ b.left = n ∧ z.comps i = comps ∧ ∃ est e, z.est n = some est ∧ NodeSearch.pocEstimate comps = some e ∧ e < est := by
  unfold Sizes.chosen at h
  cases he : z.est n with
  | none => rw [he] at h; simp at h
  | some est =>
    rw [he] at h
    obtain ⟨o, ho, h1, h2, e, h3, h4⟩ := optimize_chosen h
    obtain ⟨i, hi, rfl⟩ := List.mem_mapIdx.1 ho
    exact ⟨i, bins[i], List.getElem?_eq_getElem hi, h1, h2, est, e, rfl, h3, h4⟩

theorem keys_shown (ops : List (AnnoStore.Op T N V)) {env : NsEnv N V} {g : NsGraph T N V} (hg : g.annos = AnnoStore.run ops) {q : NsSpec N V}
    (hs : ShowsSearched q) (c : AnnoKey N) (hc : NodeSearch.constOutput env q = some c) (n : T) :
    NodeSearch.keysOf g (NodeSearch.qname env q) n = [] ∨ NodeSearch.keysOf g (NodeSearch.qname env q) n = [c] := by
  cases q <;> simp only [ShowsSearched] at hs <;> simp only [NodeSearch.constOutput, hs, Bool.false_eq_true, if_false, reduceCtorEq] at hc
  simp only [Option.some.injEq] at hc
  subst hc
  have h1 := NodeSearch.nodup_keysOf ops g hg (some env.annis) env.nodeType n
  have h2 : ∀ k ∈ NodeSearch.keysOf g (some env.annis, env.nodeType) n, k = NodeSearch.typeKey env := by
    intro k hk
    obtain ⟨h3, h4, _⟩ := (NodeSearch.mem_keysOf ops g hg _ _ n k).1 hk
    exact Prod.ext h3 (h4 _ rfl)
  simp only [NodeSearch.qname]
  generalize NodeSearch.keysOf g (some env.annis, env.nodeType) n = l at h1 h2
  cases l with
  | nil => exact Or.inl rfl
  | cons a l =>
    right
    have ha := h2 a (by simp)
    cases l with
    | nil => rw [ha]
    | cons b l =>
      have hb := h2 b (by simp)
      rw [ha, hb] at h1
      simp at h1

theorem ok_inj {F A : Type} {l l' : List A} (h : l.map (Except.ok (ε := F)) = l'.map .ok) : l = l' :=
  List.map_injective_iff.2 (fun _ _ h => by injection h) h

/-- The new search gives those matches of the original search whose nodes are source nodes. -/
theorem partOf_rows {d : NsDesc T (AnnoKey N) E} {rows : List (SMatch T (AnnoKey N))} (hd : DescOk rows (some d))
    (hout : ∀ c, d.constOutput = some c → ∀ n, d.keys n = [] ∨ d.keys n = [c]) {comps : List (Option (PocStore T))}
    (hso : NodeSearch.SourcesOnce comps) :
    ∃ rows', NodeSearch.partOf d comps = rows'.map .ok ∧
      (rows.filter fun x => decide (x.node ∈ NodeSearch.pocSources comps)).Perm rows' := by
  obtain ⟨cond, all, hall, hcond, hkeys, hms⟩ := hd d rfl
  refine ⟨_, NodeSearch.partOf_eq d comps hcond fun _ => [], ?_⟩
  replace hms := hms fun _ => []
  have hrhs : (IjSpec.mk (fun _ => []) d.keys cond).rhs d.constOutput all = (IjSpec.mk (fun _ => []) d.keys cond).rhs none all := by
    cases hco : d.constOutput with
    | none => rfl
    | some c =>
      unfold IjSpec.rhs
      dsimp only
      clear hms hkeys hall
      induction all with
      | nil => rfl
      | cons x all ih =>
        rw [List.flatMap_cons, ← ih, List.filter_cons]
        rcases hout c hco x with h | h
        · simp [h]
        · simp only [h, List.any_cons, List.any_nil, Bool.or_false, List.map_cons, List.map_nil, List.filter_cons, List.filter_nil]
          cases cond ⟨x, c⟩ <;> simp
  rw [hrhs] at hms
  exact (hms.filter _).trans (filter_rhs_perm _ none hall (NodeSearch.pocSources_nodup hso) (fun m _ hm => hkeys m hm) (fun m _ => by simp))

end

section Main
variable {T N V E : Type} [LinearOrder T] [LinearOrder N] [OrderBot N] [LinearOrder V]
  {ops : List (AnnoStore.Op T N V)} {env : NsEnv N V} {g : NsGraph T N V} {r : Rels T N V} {th : TokenHelper T}
  {order : GStore T} {Ec : GStore T → T → T → Prop} {D : T → Prop} {Rg : Nat → Bnd Nat → Prop}
  {De : EdgeStore T N V → T → Prop} {Re : EdgeStore T N V → Nat → Bnd Nat → Prop}
  {nodes : List (Option (Node T N V))} {bins : List (Bin T N V)} {z : Sizes T}
  {S S' : List (Option (List (SMatch T (AnnoKey N)) × Option (NsDesc T (AnnoKey N) E)))}

/-- The matches of the search in the plan are matches of the original search, and those that are missing are not accepted by an operator. -/
theorem planned_spec (hco : CorpusOk ops env g r th order Ec D Rg) {n : Nat} {nd : Node T N V} (hu : Unambiguous nd.spec)
    (hz : ∀ (i : Nat) b, bins[i]? = some b → b.left = n → ∀ est e, z.est b.left = some est → NodeSearch.pocEstimate (z.comps i) = some e →
      e < est → Replaces env (AnnoStore.spec ops) r (z.comps i) nd b)
    {rows : List (SMatch T (AnnoKey N))} {d : NsDesc T (AnnoKey N) E} (hf : NodeSearch.fromSpec env g nd.spec = .ok (rows, d)) :
    (∃ x : List (SMatch T (AnnoKey N)) × Option (NsDesc T (AnnoKey N) E), nd.Planned env g z bins n x) ∧
    ∀ x : List (SMatch T (AnnoKey N)) × Option (NsDesc T (AnnoKey N) E), nd.Planned env g z bins n x → x.2 = (nd.kept rows d).2 ∧ x.1.Subperm (nd.kept rows d).1 ∧
      ∀ a ∈ (nd.kept rows d).1, a ∉ x.1 → ∃ b ∈ bins, b.left = n ∧ ∀ y, ¬ Holds r b.kind a.node y := by
  have hfound := (search_spec ops env g hco.annos hco.coverage hco.exact hco.tokens (search_kept env g hf) hu).1
  have hd : DescOk rows (some d) := by
    have h0 : ({ nd with keep := none } : Node T N V).search env g = .ok (rows, some d) := search_kept (nd := { nd with keep := none }) env g hf
    exact (search_spec ops env g hco.annos hco.coverage hco.exact hco.tokens h0 hu).2.2
  have hdesc : ∀ n, d.keys n = NodeSearch.keysOf g (NodeSearch.qname env nd.spec) n := by
    unfold NodeSearch.fromSpec at hf
    split at hf
    · simp at hf
    · split at hf
      · simp at hf
      · simp only [Except.ok.injEq, Prod.mk.injEq] at hf
        obtain ⟨_, rfl⟩ := hf
        intro n; rfl
  have hcst : d.constOutput = NodeSearch.constOutput env nd.spec := by
    unfold NodeSearch.fromSpec at hf
    split at hf
    · simp at hf
    · split at hf
      · simp at hf
      · simp only [Except.ok.injEq, Prod.mk.injEq] at hf
        obtain ⟨_, rfl⟩ := hf
        rfl
  cases hch : z.chosen bins n with
  | none =>
    refine ⟨⟨_, .search hch hf⟩, fun x hx => ?_⟩
    cases hx with
    | search _ h2 =>
      rw [hf] at h2
      simp only [Except.ok.injEq, Prod.mk.injEq] at h2
      obtain ⟨rfl, rfl⟩ := h2
      exact ⟨rfl, List.Subperm.refl _, fun a ha hna => absurd ha hna⟩
    | partOf h1 => rw [hch] at h1; simp at h1
  | some comps =>
    obtain ⟨i, b, hi, hbl, rfl, est, e, h1, h2, h3⟩ := chosen_spec hch
    have hb := List.mem_of_getElem? hi
    have hrep := hz i b hi hbl est e (by rw [hbl]; exact h1) h2 h3
    obtain ⟨rows', hp, hperm⟩ := partOf_rows hd
      (fun c hc n => by rw [hdesc]; exact keys_shown ops hco.annos hrep.shows c (hcst ▸ hc) n) hrep.once
    refine ⟨⟨_, .partOf hch hf hp⟩, fun x hx => ?_⟩
    cases hx with
    | search h1 => rw [hch] at h1; simp at h1
    | partOf h1' h2' h3' =>
      rw [hch, Option.some.injEq] at h1'
      subst h1'
      rw [hf] at h2'
      simp only [Except.ok.injEq, Prod.mk.injEq] at h2'
      obtain ⟨rfl, rfl⟩ := h2'
      have := ok_inj (hp.symm.trans h3')
      subst this
      have hmiss : ∀ a ∈ (nd.kept rows d).1, a ∈ rows → a ∉ rows' → ∃ b ∈ bins, b.left = n ∧ ∀ y, ¬ Holds r b.kind a.node y := by
        intro a ha har hna
        refine ⟨b, hb, hbl, fun y hy => hna ?_⟩
        have := NodeSearch.mem_pocSources.2 (hrep.source a y ((hfound a).1 ha) hy)
        exact hperm.mem_iff.1 (List.mem_filter.2 ⟨har, by simpa using this⟩)
      have hsub : rows'.Subperm rows := hperm.symm.subperm.trans List.filter_sublist.subperm
      unfold Node.kept at hmiss ⊢
      cases hk : nd.keep with
      | none =>
        simp only [hk] at hmiss ⊢
        exact ⟨trivial, hsub, fun a ha hna => hmiss a ha ha hna⟩
      | some p =>
        simp only [hk] at hmiss ⊢
        refine ⟨trivial, List.Subperm.filter _ hsub, fun a ha hna => hmiss a ha (List.mem_filter.1 ha).1 fun h => hna ?_⟩
        exact List.mem_filter.2 ⟨h, (List.mem_filter.1 ha).2⟩

theorem planned_all (hco : CorpusOk ops env g r th order Ec D Rg) (hq : QueryOk env (AnnoStore.spec ops) r th Ec Rg De Re nodes bins)
    (hz : SizesOk env (AnnoStore.spec ops) r z nodes bins) (hS : searches env g nodes = .ok S) (d : SMatch T (AnnoKey N)) :
    (∃ S' : List (Option (List (SMatch T (AnnoKey N)) × Option (NsDesc T (AnnoKey N) E))), PlannedAll env g z bins nodes S') ∧
    ∀ S' : List (Option (List (SMatch T (AnnoKey N)) × Option (NsDesc T (AnnoKey N) E))), PlannedAll env g z bins nodes S' → Fewer S' S ∧
      ∀ (n : Nat) nd, nodes[n]? = some (some nd) → ∀ a ∈ candidatesOf d S n, a ∉ candidatesOf d S' n →
        ∃ b ∈ bins, b.left = n ∧ ∀ y, ¬ Holds r b.kind a.node y := by
  obtain ⟨hlen, hget⟩ := searches_get env g hS
  have one : ∀ (n : Nat) nd, nodes[n]? = some (some nd) → ∃ rows dd, NodeSearch.fromSpec (E := E) env g nd.spec = .ok (rows, dd) ∧
      S[n]? = some (some (nd.kept rows dd)) := by
    intro n nd hnd
    obtain ⟨x, hx, hs⟩ := (hget n).2 nd hnd
    cases hf : NodeSearch.fromSpec (E := E) env g nd.spec with
    | error e => rw [Node.search, hf] at hx; simp at hx
    | ok res =>
      obtain ⟨rows, dd⟩ := res
      rw [search_kept env g hf] at hx
      injection hx with hx
      subst hx
      exact ⟨rows, dd, rfl, hs⟩
  have hzn : ∀ (n : Nat) nd, nodes[n]? = some (some nd) → ∀ (i : Nat) b, bins[i]? = some b → b.left = n → ∀ est e, z.est b.left = some est →
      NodeSearch.pocEstimate (z.comps i) = some e → e < est → Replaces env (AnnoStore.spec ops) r (z.comps i) nd b := by
    intro n nd hnd i b hb hbl
    exact hz i b hb nd (by rw [hbl]; exact hnd)
  constructor
  · have hex : ∀ i : Fin nodes.length, ∃ o : Option (List (SMatch T (AnnoKey N)) × Option (NsDesc T (AnnoKey N) E)),
        (nodes[i] = none → o = none) ∧ ∀ nd, nodes[i] = some nd → ∃ x, o = some x ∧ nd.Planned env g z bins i x := by
      intro i
      cases hn : nodes[i] with
      | none => exact ⟨none, fun _ => rfl, fun nd h => by simp at h⟩
      | some nd =>
        have hnd : nodes[(i : Nat)]? = some (some nd) := by rw [List.getElem?_eq_getElem i.2]; exact congrArg some hn
        obtain ⟨rows, dd, hf, _⟩ := one i nd hnd
        obtain ⟨⟨x, hx⟩, _⟩ := planned_spec (bins := bins) (n := i) hco (hq.unambiguous nd (List.mem_of_getElem? hnd)) (hzn i nd hnd) hf
        refine ⟨some x, fun h => by simp at h, fun nd' h => ?_⟩
        simp only [Option.some.injEq] at h
        subst h
        exact ⟨x, rfl, hx⟩
    choose f hf using hex
    refine ⟨List.ofFn f, by simp, fun n hn => ?_, fun n nd hn => ?_⟩
    · obtain ⟨hlt, he⟩ := List.getElem?_eq_some_iff.1 hn
      rw [List.getElem?_eq_getElem (by simpa using hlt), List.getElem_ofFn]
      exact congrArg some ((hf ⟨n, hlt⟩).1 he)
    · obtain ⟨hlt, he⟩ := List.getElem?_eq_some_iff.1 hn
      obtain ⟨x, hx1, hx2⟩ := (hf ⟨n, hlt⟩).2 nd he
      refine ⟨x, ?_, hx2⟩
      rw [List.getElem?_eq_getElem (by simpa using hlt), List.getElem_ofFn]
      exact congrArg some hx1
  · intro S' hS'
    refine ⟨⟨by rw [hS'.length, hlen], fun n => ⟨fun hn => ?_, fun ms dd hn => ?_⟩⟩, fun n nd hnd a ha hna => ?_⟩
    · have hlt : n < nodes.length := by rw [← hlen]; exact (List.getElem?_eq_some_iff.1 hn).1
      cases he : nodes[n] with
      | none => exact hS'.optional n (by rw [List.getElem?_eq_getElem hlt, he])
      | some nd =>
        obtain ⟨_, _, _, h⟩ := one n nd (by rw [List.getElem?_eq_getElem hlt, he])
        rw [hn] at h; simp at h
    · have hlt : n < nodes.length := by rw [← hlen]; exact (List.getElem?_eq_some_iff.1 hn).1
      cases he : nodes[n] with
      | none =>
        rw [(hget n).1 (by rw [List.getElem?_eq_getElem hlt, he])] at hn; simp at hn
      | some nd =>
        have hnd : nodes[n]? = some (some nd) := by rw [List.getElem?_eq_getElem hlt, he]
        obtain ⟨rows, d', hf, h⟩ := one n nd hnd
        rw [hn] at h
        simp only [Option.some.injEq] at h
        obtain ⟨x, hx, hpl⟩ := hS'.node n nd hnd
        obtain ⟨h1, h2, _⟩ := (planned_spec (bins := bins) (n := n) hco (hq.unambiguous nd (List.mem_of_getElem? hnd)) (hzn n nd hnd) hf).2 x hpl
        refine ⟨x.1, ?_, ?_⟩
        · rw [hx, show dd = x.2 by rw [h1, ← h]]
        · rw [← h] at h2; exact h2
    · obtain ⟨rows, d', hf, h⟩ := one n nd hnd
      obtain ⟨x, hx, hpl⟩ := hS'.node n nd hnd
      refine ((planned_spec (bins := bins) (n := n) hco (hq.unambiguous nd (List.mem_of_getElem? hnd)) (hzn n nd hnd) hf).2 x hpl).2.2 a ?_ ?_
      · have : candidatesOf d S n = (nd.kept rows d').1 := by unfold candidatesOf; rw [h]
        rw [← this]; exact ha
      · have : candidatesOf d S' n = x.1 := by unfold candidatesOf; rw [hx]
        rw [← this]; exact hna

/-- A search in the plan is made from the search for the node. -/
theorem planned_searches (hS' : PlannedAll env g z bins nodes S') :
    ∃ S : List (Option (List (SMatch T (AnnoKey N)) × Option (NsDesc T (AnnoKey N) E))), searches env g nodes = .ok S := by
  have h : ∀ nd, some nd ∈ nodes → ∃ x, nd.search (E := E) env g = .ok x := by
    intro nd hnd
    obtain ⟨n, hn⟩ := List.mem_iff_getElem?.1 hnd
    obtain ⟨x, _, hx⟩ := hS'.node n nd hn
    cases hx with
    | search _ hf => exact ⟨_, search_kept env g hf⟩
    | partOf _ hf _ => exact ⟨_, search_kept env g hf⟩
  clear hS'
  induction nodes with
  | nil => exact ⟨_, rfl⟩
  | cons nd r ih =>
    obtain ⟨l, hl⟩ := ih fun nd' h' => h nd' (List.mem_cons_of_mem _ h')
    cases nd with
    | none => exact ⟨none :: l, by rw [searches, hl]⟩
    | some nd =>
      obtain ⟨x, hx⟩ := h nd (by simp)
      exact ⟨some x :: l, by rw [searches, hx, hl]⟩

/-- Without operators no search is replaced. -/
theorem planned_nil (hS' : PlannedAll env g z [] nodes S') : searches env g nodes = .ok S' := by
  obtain ⟨S, hS⟩ := planned_searches hS'
  obtain ⟨hlen, hget⟩ := searches_get env g hS
  have : S = S' := by
    refine List.ext_getElem? fun n => ?_
    rcases hn : nodes[n]? with _ | _ | nd
    · rw [List.getElem?_eq_none_iff] at hn
      rw [List.getElem?_eq_none_iff.2 (by rw [hlen]; exact hn), List.getElem?_eq_none_iff.2 (by rw [hS'.length]; exact hn)]
    · rw [(hget n).1 hn, hS'.optional n hn]
    · obtain ⟨x, hx, h1⟩ := (hget n).2 nd hn
      obtain ⟨y, hy, h2⟩ := hS'.node n nd hn
      rw [h1, hy]
      cases h2 with
      | search _ hf =>
        rw [search_kept env g hf] at hx
        injection hx with hx
        rw [hx]
      | partOf hc => simp only [Sizes.chosen, List.mapIdx_nil, NodeSearch.optimize] at hc; split at hc <;> simp at hc
  rw [hS, this]

/-- The searches in the plan have the same answers as the original ones. -/
theorem answers_planned (hco : CorpusOk ops env g r th order Ec D Rg) (hq : QueryOk env (AnnoStore.spec ops) r th Ec Rg De Re nodes bins)
    (hz : SizesOk env (AnnoStore.spec ops) r z nodes bins) (hS : searches env g nodes = .ok S) (hS' : PlannedAll env g z bins nodes S')
    (d : SMatch T (AnnoKey N)) (global : Bool) :
    (answers d S' (rel r th order global bins) (bins.map (Bin.toQ th order global))).Perm
      (answers d S (rel r th order global bins) (bins.map (Bin.toQ th order global))) := by
  obtain ⟨hfew, hmiss⟩ := (planned_all hco hq hz hS d).2 S' hS'
  have hn : ∀ n, (candidatesOf d S n).Nodup := fun n => (candidates hco hq hS d n).2.2
  have hn' : ∀ n, (candidatesOf d S' n).Nodup := by
    intro n
    obtain ⟨l, h1, h2⟩ := hfew.candidates d n
    exact h1.nodup_iff.1 (h2.nodup (hn n))
  refine (List.perm_ext_iff_of_nodup (C61_nodup d S' _ _ hn') (C61_nodup d S _ _ hn)).2 fun row => ?_
  unfold answers
  rw [List.mem_filter, List.mem_filter, mem_prodRows_range, mem_prodRows_range, hfew.mandatory]
  constructor
  · rintro ⟨⟨h1, h2⟩, h3⟩
    exact ⟨⟨h1, fun i x hx => (hfew.candidates d i).subset (h2 i x hx)⟩, h3⟩
  · rintro ⟨⟨h1, h2⟩, h3⟩
    refine ⟨⟨h1, fun i x hx => ?_⟩, h3⟩
    by_contra hna
    rcases hnd : nodes[i]? with _ | _ | nd
    · -- not a node
      refine hna ?_
      have : S'[i]? = none := by
        rw [List.getElem?_eq_none_iff] at hnd ⊢
        rw [hS'.length]; exact hnd
      have hS0 : S[i]? = none := by
        rw [List.getElem?_eq_none_iff] at this ⊢
        rw [← hfew.length]; exact this
      have := h2 i x hx
      unfold candidatesOf at this ⊢
      rw [hS0] at this
      rw [‹S'[i]? = none›]; exact this
    · have h4 := h2 i x hx
      rw [(candidates hco hq hS d i).2.1 hnd] at h4
      refine hna ?_
      unfold candidatesOf
      rw [hS'.optional i hnd]; exact h4
    · obtain ⟨b, hb, hbl, hno⟩ := hmiss i nd hnd x (h2 i x hx) hna
      have := List.all_eq_true.1 h3 (b.toQ th order global) (List.mem_map_of_mem hb)
      obtain ⟨_, nr, hr⟩ := hq.operands b hb
      have hrm : b.right ∈ mandatory S := (mem_mandatory_iff env g hS _).2 ⟨nr, hr⟩
      have hlt : b.right < row.length := by rw [h1]; exact lt_outWidth hrm
      have hy := List.getElem?_eq_getElem hlt
      simp only [Bin.toQ, hbl, hx, hy] at this
      subst hbl
      exact hno _ ((rel_holds hco hq hS d global hb (h2 _ _ hx) (h2 _ _ hy)).1 this)

/-- **C98**, with replaced node searches: if the operators whose components are smaller than the matches of their left operand only hold
for source nodes of these components, the components do not share source nodes, and the operand is not a token or metadata, then the
searches in the plan succeed if the original ones do, there is a plan for every order of the operators, and the results of every plan are
the same combinations as without the replacement. -/
theorem C98_replaced (hco : CorpusOk ops env g r th order Ec D Rg) (hq : QueryOk env (AnnoStore.spec ops) r th Ec Rg De Re nodes bins)
    (hz : SizesOk env (AnnoStore.spec ops) r z nodes bins) (hS : searches env g nodes = .ok S) (d : SMatch T (AnnoKey N)) (global : Bool)
    {bins' : List (Bin T N V)} (hp : bins'.Perm bins) :
    (∃ S' : List (Option (List (SMatch T (AnnoKey N)) × Option (NsDesc T (AnnoKey N) E))), PlannedAll env g z bins nodes S') ∧
    ∀ S' : List (Option (List (SMatch T (AnnoKey N)) × Option (NsDesc T (AnnoKey N) E))), PlannedAll env g z bins nodes S' →
      (∃ e, MakePlan S' (bins'.map (Bin.toQ th order global)) e) ∧
      ∀ e, MakePlan S' (bins'.map (Bin.toQ th order global)) e →
        ∃ rows : List (Row T (AnnoKey N)), e.rows.map (reorderMatch d (inversePos e.pos)) = rows.map some ∧ rows.Nodup ∧
          (∀ row ∈ rows, IsAnswer env (AnnoStore.spec ops) r d nodes bins row) ∧
          ∀ row, IsAnswer env (AnnoStore.spec ops) r d nodes bins row → DistinctRow nodes row → row ∈ rows := by
  refine ⟨(planned_all hco hq hz hS d).1, fun S' hS' => ?_⟩
  obtain ⟨hfew, _⟩ := (planned_all hco hq hz hS d).2 S' hS'
  have hperm := answers_planned hco hq hz hS hS' d global
  have hnd := C61_nodup d S (rel r th order global bins) (bins.map (Bin.toQ th order global)) fun n => (candidates hco hq hS d n).2.2
  obtain ⟨h1, h2⟩ := plan_fewer hfew d (rel r th order global bins) _ (rel_ok hco hq hS d global (Or.inl rfl)) (operands_of hq hS global)
    (nonempty_of hq hS) _ 0 (connected_of hq hS global) _ (hp.map _)
  refine ⟨h1, fun e he => ?_⟩
  obtain ⟨rows, e1, e2, e3⟩ := h2 e he
  obtain ⟨l, hl, hsub⟩ := e3
  refine ⟨rows, e1, hl.nodup_iff.1 (hsub.nodup hnd), fun row hr => ?_, fun row ha hd => ?_⟩
  · exact (mem_answers hco hq hS d global row).1 (hsub.subset (hl.mem_iff.2 hr))
  · refine e2.subset ?_
    rw [List.mem_filter]
    refine ⟨hperm.mem_iff.2 ((mem_answers hco hq hS d global row).2 ha), ?_⟩
    have := distinct_of hS d ha hd
    have h3 : distinctAnswer d S' row := by
      unfold distinctAnswer at this ⊢
      rw [hfew.mandatory]
      exact this
    simpa using h3

end Main

end Whole
