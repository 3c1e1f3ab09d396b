import Verif.Updated.Made
import Verif.Answer.FindProps
import Verif.Token.Props

/-!
# The corpus that a query reads from a graph

After updates all changed components are adjacency lists. Simplified: all components of the corpus are.
-/

set_option linter.unusedSimpArgs false
set_option linter.unusedSectionVars false
set_option linter.unusedVariables false

namespace Answer

open Whole Graph Graph.Index

variable {C : Type} [LinearOrder C]

/-- What a query uses besides the graph: the name of the corpus, patterns and constants, types and names of components, the component
`PartOf/annis/` (a default component, aql/model.rs 428), the components `Ordering/default_ns/name` for segmentations, statistics (number of nodes in a component, all tokens are in the order component),
the comparison, fuel and random numbers for sorting tokens, and the estimations for the replacement of searches. -/
structure Setting (C : Type) where
  name : Str
  env : NsEnv Str Str
  sc : Schema C
  cname : C → Str
  part : C
  segc : Str → C
  nodes : C → Option Nat
  allOrdered : Bool
  cmp : NodeID64 → NodeID64 → Option Ordering
  fuel : Nat
  pivots : List (Nat × Nat × Nat)
  loaded : EdgeStore NodeID64 Str Str → PocStore NodeID64
  tokenComps : Aql.BinSpec Parse.OpSpec → List (Option (PocStore NodeID64))
  cost : NsSpec Str Str → Option Nat

/-- A component as edge operators use it. -/
def storeOf (g : Graph Str Str C) (c : C) : EdgeStore NodeID64 Str Str :=
  { g := (g.comp c).asGStore, annos := fun a b => some ((g.comp c).annos.annosForItem (toLex (a, b))) }

/-- The coverage components that are not empty by their statistics (token_helper.rs 54-65, nodesearch.rs 842-854). -/
def covOf (s : Setting C) (g : Graph Str Str C) : List (GStore NodeID64) :=
  ((g.compsOf s.sc .coverage).filter fun c => match s.nodes c with
    | some n => n > 0
    | none => true).map fun c => (g.comp c).asGStore

/-- The corpus (see `Corpus`): node annotations and coverage components for the node searches, all tokens (tokensearch.rs 44-58, 85-153), named
components for edge operators, `TokenHelper::new` (token_helper.rs 53-91), and the order component. -/
def corpusOf (s : Setting C) (g : Graph Str Str C) : Corpus NodeID64 where
  name := s.name
  env := s.env
  g :=
    { annos := g.annos
      coverage := (g.compsOf s.sc .coverage).map fun c => ((g.comp c).asGStore, s.nodes c)
      anyTokens := TokenSearch.search (some (g.comp s.sc.order).asOrder) (some (covOf s g)) s.allOrdered
        ((g.annos.exactSearch (some s.env.annis) s.env.tok .any).map Prod.fst) s.cmp s.fuel s.pivots }
  db :=
    { dominance := (g.compsOf s.sc .dominance).map fun c => (s.cname c, storeOf g c)
      pointing := (g.compsOf s.sc .pointing).map fun c => (s.cname c, storeOf g c)
      partOf := some (storeOf g s.part)
      segment := fun seg => if s.segc seg ∈ g.comps.keys then some (storeOf g (s.segc seg)) else none
      loaded := s.loaded
      tokenComps := s.tokenComps
      cost := s.cost }
  th :=
    { hasTok := fun n => (g.annos.getValue n (AnnoKey.mk s.env.annis s.env.tok)).isSome
      left := (g.comp s.sc.left).asGStore
      right := (g.comp s.sc.right).asGStore
      cov := covOf s g }
  order := (g.comp s.sc.order).asGStore

/-- The relations that the operators talk about, read from the edges and labels without the index. -/
def relsOf (s : Setting C) (g : Graph Str Str C) : Rels NodeID64 Str Str where
  tok := IsTok s.sc (AnnoKey.mk s.env.annis s.env.tok) g
  first := First s.sc (AnnoKey.mk s.env.annis s.env.tok) g
  last := Last s.sc (AnnoKey.mk s.env.annis s.env.tok) g
  next := E g s.sc.order
  cov a b := Direct s.sc g a b ∨ Covered s.sc (AnnoKey.mk s.env.annis s.env.tok) g a b
  edge e a b := ∃ l, e.g.out a = some l ∧ b ∈ l
  anno e a b k v := ∃ l, e.annos a b = some l ∧ (k, v) ∈ l

/-- Conditions on the settings for this graph: the pattern that stands for a value (C57), the statistics are not too small (C89), components are
loaded with their source nodes. -/
structure SettingOk (s : Setting C) (g : Graph Str Str C) : Prop where
  schema : SchemaOk s.sc
  exact : NodeSearch.ExactOk s.env
  part : s.part ≠ s.sc.left ∧ s.part ≠ s.sc.right ∧ s.part ≠ s.sc.inh
  segc : ∀ seg, s.segc seg ≠ s.sc.left ∧ s.segc seg ≠ s.sc.right ∧ s.segc seg ≠ s.sc.inh
  nodes : ∀ c, s.nodes c = some 0 → ∀ a b, ¬ E g c a b
  allOrdered : s.allOrdered = true → ∀ n, IsTok s.sc (AnnoKey.mk s.env.annis s.env.tok) g n → ∃ b, E g s.sc.order n b ∨ E g s.sc.order b n
  loaded : ∀ c, s.sc.kind c = .dominance ∨ s.sc.kind c = .pointing ∨ c = s.part → (s.loaded (storeOf g c)).sources = (g.comp c).sources

/-- Conditions on the data: the order component links only tokens, in disjoint chains. -/
structure DataOk (s : Setting C) (g : Graph Str Str C) : Prop where
  chains : Linear.Chains (E g s.sc.order)
  tokens : ∀ a b, E g s.sc.order a b →
    IsTok s.sc (AnnoKey.mk s.env.annis s.env.tok) g a ∧ IsTok s.sc (AnnoKey.mk s.env.annis s.env.tok) g b

section
variable {s : Setting C} {g : Graph Str Str C} {nk tk : AnnoKey Str} {l : List (Event Str Str C)}

theorem edge_storeOf (c : C) (a b : NodeID64) : (relsOf s g).edge (storeOf g c) a b ↔ E g c a b := by
  simp [relsOf, storeOf, Adj.asGStore, E]

theorem gstore_is (h : Made g) (c : C) : (g.comp c).asGStore.Is (E g c) (fun _ => True) GStore.anyRange := by
  obtain ⟨ops, ho⟩ := h.comp c
  have := Adj.asGStore_is ops
  have hE : E g c = fun a b => (Adj.spec ops).edge a b = true := by
    funext a b
    unfold E
    rw [ho]
    exact propext ((Adj.run_refines ops).2.1 a b)
  rw [hE, ho]
  exact this

theorem order_is (h : Made g) (c : C) : TokenSearch.OrderIs (g.comp c).asOrder (E g c) (fun _ => True) := by
  obtain ⟨ops, ho⟩ := h.comp c
  have := Adj.asOrder_is ops
  have hE : E g c = fun a b => (Adj.spec ops).edge a b = true := by
    funext a b
    unfold E
    rw [ho]
    exact propext ((Adj.run_refines ops).2.1 a b)
  rw [hE, ho]
  exact this

theorem comp_ok (h : Made g) (hI : Inv nk g) (c : C) :
    EdgeOp.CompOk (storeOf g c) ((relsOf s g).edge (storeOf g c)) ((relsOf s g).anno (storeOf g c)) (fun _ => True) GStore.anyRange := by
  refine ⟨?_, fun a b => ⟨_, rfl, fun k v => ?_⟩⟩
  · have : (relsOf s g).edge (storeOf g c) = E g c := funext fun a => funext fun b => propext (edge_storeOf c a b)
    rw [this]
    exact gstore_is h c
  · simp [relsOf, storeOf]

/-- The annotations of an edge. -/
theorem anno_storeOf (hI : Inv nk g) (c : C) (a b : NodeID64) (k : AnnoKey Str) (v : Str) :
    (relsOf s g).anno (storeOf g c) a b k v ↔ (g.comp c).annos.getValue (toLex (a, b)) k = some v := by
  simp only [relsOf, storeOf, Option.some.injEq, exists_eq_left']
  rw [AnnoStore.mem_annosForItem (hI.ci c).anno]

end

section
variable {s : Setting C} {g : Graph Str Str C} {nk tk : AnnoKey Str} {l : List (Event Str Str C)}

/-- The token label. -/
abbrev Setting.tok (s : Setting C) : AnnoKey Str := AnnoKey.mk s.env.annis s.env.tok

/-- The edges that a storage has by itself. -/
def ownEdges (c : GStore NodeID64) (a b : NodeID64) : Prop := ∃ l, c.out a = some l ∧ b ∈ l

theorem ownEdges_comp (c : C) : ownEdges (g.comp c).asGStore = E g c := by
  funext a b
  simp [ownEdges, Adj.asGStore, E]

variable (hf : Facts s.sc nk tk s.tok l g) (hs : SettingOk s g) (hd : DataOk s g)
include hf hs

/-- The coverage components contain the direct and the indirect coverage. -/
theorem cov_iff (a b : NodeID64) : (∃ c ∈ covOf s g, ownEdges c a b) ↔ (relsOf s g).cov a b := by
  have h1 : (∃ c ∈ covOf s g, ownEdges c a b) ↔ ∃ c, s.sc.kind c = .coverage ∧ E g c a b := by
    unfold covOf Graph.compsOf
    constructor
    · rintro ⟨c, hc, hab⟩
      obtain ⟨d, hd, rfl⟩ := List.mem_map.1 hc
      rw [ownEdges_comp] at hab
      rw [List.mem_filter, List.mem_filter] at hd
      exact ⟨d, by simpa using hd.1.2, hab⟩
    · rintro ⟨c, hc, hab⟩
      refine ⟨_, List.mem_map.2 ⟨c, List.mem_filter.2 ⟨List.mem_filter.2 ⟨edge_mem_keys hab, by simpa using hc⟩, ?_⟩, rfl⟩, ?_⟩
      · cases hn : s.nodes c with
        | none => rfl
        | some n =>
          cases n with
          | zero => exact absurd hab (hs.nodes c hn a b)
          | succ n => simp
      · rw [ownEdges_comp]; exact hab
  rw [h1]
  show _ ↔ Direct s.sc g a b ∨ Covered s.sc s.tok g a b
  constructor
  · rintro ⟨c, hc, hab⟩
    by_cases hi : c = s.sc.inh
    · subst hi
      exact Or.inr (((hf.index a (hf.ends _ a b hab).1).inh b).1 hab).1
    · exact Or.inl ⟨c, hc, hi, hab⟩
  · rintro (⟨c, hc, _, hab⟩ | h)
    · exact ⟨c, hc, hab⟩
    · by_cases hdir : Direct s.sc g a b
      · obtain ⟨c, hc, _, hab⟩ := hdir
        exact ⟨c, hc, hab⟩
      · obtain ⟨b', hb⟩ := covered_head h
        have hn : Named nk g a := by
          rcases hb with ⟨c, _, _, hb⟩ | ⟨c, _, hb⟩ <;> exact (hf.ends c a b' hb).1
        exact ⟨s.sc.inh, hs.schema.inh, ((hf.index a hn).inh b).2 ⟨h, hdir⟩⟩

/-- A node with the label is a token if and only if the coverage components have no edge for it. -/
theorem no_cov_iff {n : NodeID64} (hl : (g.annos.getValue n s.tok).isSome) :
    (¬ ∃ t, (relsOf s g).cov n t) ↔ IsTok s.sc s.tok g n := by
  constructor
  · exact fun h => ⟨hl, fun ⟨b, hb⟩ => h ⟨b, Or.inl hb⟩⟩
  · rintro ⟨_, h⟩ ⟨t, hb | hc⟩
    · exact h ⟨t, hb⟩
    · obtain ⟨b, hb⟩ := covered_head hc
      exact h (hf.seg n b hl hb)

theorem tok_iff (n : NodeID64) : (relsOf s g).tok n ↔ (corpusOf s g).th.Tok ownEdges n := by
  show IsTok s.sc s.tok g n ↔ (g.annos.getValue n s.tok).isSome = true ∧ ¬ ∃ t, ∃ c ∈ covOf s g, ownEdges c n t
  simp only [cov_iff hf hs]
  constructor
  · exact fun h => ⟨h.1, (no_cov_iff hf hs h.1).2 h⟩
  · exact fun h => (no_cov_iff hf hs h.1).1 h.2

theorem not_tok_of_covered {n t : NodeID64} (h : Covered s.sc s.tok g n t) : ¬ IsTok s.sc s.tok g n := by
  intro hn
  obtain ⟨b, hb⟩ := covered_head h
  exact hn.2 (hf.seg n b hn.1 hb)

/-- The tokens that a node covers, as a list. -/
theorem covered_list (n : NodeID64) : ∃ ts : List NodeID64, ∀ t, t ∈ ts ↔ Covered s.sc s.tok g n t := by
  classical
  refine ⟨((g.annos.exactSearch (some s.env.annis) s.env.tok .any).map Prod.fst).filter fun t => decide (Covered s.sc s.tok g n t), fun t => ?_⟩
  rw [List.mem_filter, decide_eq_true_eq]
  refine ⟨fun h => h.2, fun h => ⟨?_, h⟩⟩
  simp only [List.mem_map, Prod.exists, exists_and_right, exists_eq_right]
  refine ⟨s.tok, ?_⟩
  show (t, s.tok) ∈ g.annos.allItems (some s.env.annis) s.env.tok
  rw [AnnoStore.mem_allItems hf.inv.an]
  refine ⟨?_, Option.isSome_iff_exists.1 h.1.1⟩
  exact ⟨rfl, fun _ h => Option.some.inj h⟩

end

/-- A list that is not empty has a least and a greatest element if its elements are ordered. -/
theorem least_exists {T : Type} {B : T → T → Prop} (htr : ∀ a b c, B a b → B b c → B a c) : ∀ (ts : List T),
    (∀ a ∈ ts, ∀ b ∈ ts, a = b ∨ B a b ∨ B b a) → ts ≠ [] → ∃ t ∈ ts, ∀ t' ∈ ts, t' = t ∨ B t t' := by
  intro ts
  induction ts with
  | nil => intro _ h; exact absurd rfl h
  | cons a ts ih =>
    intro h _
    by_cases he : ts = []
    · subst he; exact ⟨a, by simp, by simp⟩
    · obtain ⟨t, ht, hm⟩ := ih (fun x hx y hy => h x (List.mem_cons_of_mem _ hx) y (List.mem_cons_of_mem _ hy)) he
      rcases h a (by simp) t (List.mem_cons_of_mem _ ht) with rfl | hat | hta
      · refine ⟨a, by simp, fun t' ht' => ?_⟩
        rcases List.mem_cons.1 ht' with rfl | ht'
        · exact Or.inl rfl
        · exact hm t' ht'
      · refine ⟨a, by simp, fun t' ht' => ?_⟩
        rcases List.mem_cons.1 ht' with rfl | ht'
        · exact Or.inl rfl
        · rcases hm t' ht' with rfl | h'
          · exact Or.inr hat
          · exact Or.inr (htr _ _ _ hat h')
      · refine ⟨t, List.mem_cons_of_mem _ ht, fun t' ht' => ?_⟩
        rcases List.mem_cons.1 ht' with rfl | ht'
        · exact Or.inr hta
        · exact hm t' ht'

section
variable {s : Setting C} {g : Graph Str Str C} {nk tk : AnnoKey Str} {l : List (Event Str Str C)}
variable (hf : Facts s.sc nk tk s.tok l g) (hs : SettingOk s g) (hd : DataOk s g)
include hf hs

theorem first_exists {n t : NodeID64} (h : Covered s.sc s.tok g n t) : ∃ t', First s.sc s.tok g n t' := by
  obtain ⟨ts, hts⟩ := covered_list hf hs n
  obtain ⟨t', h1, h2⟩ := least_exists (B := Before s.sc g) (fun _ _ _ h1 h2 => h1.trans h2) ts
    (fun a ha b hb => hf.order.total n a b ((hts a).1 ha) ((hts b).1 hb)) (fun e => by have := (hts t).2 h; rw [e] at this; cases this)
  exact ⟨t', (hts t').1 h1, fun x hx => h2 x ((hts x).2 hx)⟩

theorem last_exists {n t : NodeID64} (h : Covered s.sc s.tok g n t) : ∃ t', Last s.sc s.tok g n t' := by
  obtain ⟨ts, hts⟩ := covered_list hf hs n
  obtain ⟨t', h1, h2⟩ := least_exists (B := fun a b => Before s.sc g b a) (fun _ _ _ h1 h2 => h2.trans h1) ts
    (fun a ha b hb => by
      rcases hf.order.total n a b ((hts a).1 ha) ((hts b).1 hb) with h | h | h
      · exact Or.inl h
      · exact Or.inr (Or.inr h)
      · exact Or.inr (Or.inl h)) (fun e => by have := (hts t).2 h; rw [e] at this; cases this)
  exact ⟨t', (hts t').1 h1, fun x hx => h2 x ((hts x).2 hx)⟩

theorem first_unique {n t t' : NodeID64} (h : First s.sc s.tok g n t) (h' : First s.sc s.tok g n t') : t = t' := by
  rcases h.2 t' h'.1 with e | h1
  · exact e.symm
  rcases h'.2 t h.1 with e | h2
  · exact e
  exact absurd (h1.trans h2) (hf.order.acyclic t)

theorem last_unique {n t t' : NodeID64} (h : Last s.sc s.tok g n t) (h' : Last s.sc s.tok g n t') : t = t' := by
  rcases h.2 t' h'.1 with e | h1
  · exact e.symm
  rcases h'.2 t h.1 with e | h2
  · exact e
  exact absurd (h1.trans h2) (hf.order.acyclic t')

theorem left_is : E g s.sc.left = First s.sc s.tok g := by
  funext n t
  refine propext ⟨fun h => ((hf.index n (hf.ends _ n t h).1).left t).1 h, fun h => ?_⟩
  obtain ⟨b, hb⟩ := covered_head h.1
  have hn : Named nk g n := by
    rcases hb with ⟨c, _, _, hb⟩ | ⟨c, _, hb⟩ <;> exact (hf.ends c n b hb).1
  exact ((hf.index n hn).left t).2 h

theorem right_is : E g s.sc.right = Last s.sc s.tok g := by
  funext n t
  refine propext ⟨fun h => ((hf.index n (hf.ends _ n t h).1).right t).1 h, fun h => ?_⟩
  obtain ⟨b, hb⟩ := covered_head h.1
  have hn : Named nk g n := by
    rcases hb with ⟨c, _, _, hb⟩ | ⟨c, _, hb⟩ <;> exact (hf.ends c n b hb).1
  exact ((hf.index n hn).right t).2 h

theorem cov_store {c : GStore NodeID64} (hc : c ∈ covOf s g) : c.Is (ownEdges c) (fun _ => True) GStore.anyRange := by
  unfold covOf at hc
  obtain ⟨d, _, rfl⟩ := List.mem_map.1 hc
  rw [ownEdges_comp]
  exact gstore_is hf.made d

include hd in
theorem text_ok : TextOk (relsOf s g) (corpusOf s g).th (corpusOf s g).order ownEdges (fun _ => True) GStore.anyRange where
  thOk :=
    { cov := fun c hc => ⟨_, _, cov_store hf hs hc, by simp [GStore.anyRange]⟩
      left := ⟨_, _, by
        show (g.comp s.sc.left).asGStore.Is (First s.sc s.tok g) _ _
        rw [← left_is hf hs]
        exact gstore_is hf.made _⟩
      right := ⟨_, _, by
        show (g.comp s.sc.right).asGStore.Is (Last s.sc s.tok g) _ _
        rw [← right_is hf hs]
        exact gstore_is hf.made _⟩
      leftFun := fun n a b => first_unique hf hs
      rightFun := fun n a b => last_unique hf hs
      both := fun n => ⟨fun ⟨t, h⟩ => last_exists hf hs h.1, fun ⟨t, h⟩ => first_exists hf hs h.1⟩
      leftTok := fun n t h => ⟨fun h' => not_tok_of_covered hf hs h.1 ((tok_iff hf hs n).2 h'), (tok_iff hf hs t).1 h.1.1⟩
      rightTok := fun n t h => ⟨fun h' => not_tok_of_covered hf hs h.1 ((tok_iff hf hs n).2 h'), (tok_iff hf hs t).1 h.1.1⟩ }
  isTok := tok_iff hf hs
  isCov := fun a b => (cov_iff hf hs a b).symm
  orderOk := gstore_is hf.made _
  orderTok := fun a b h => ⟨(tok_iff hf hs a).1 (hd.tokens a b h).1, (tok_iff hf hs b).1 (hd.tokens a b h).2⟩
  known := fun _ _ => trivial

theorem key_of_toks {n : NodeID64} {k : AnnoKey Str} (h : (n, k) ∈ g.annos.exactSearch (some s.env.annis) s.env.tok .any) : k = s.tok := by
  have h' : (n, k) ∈ g.annos.allItems (some s.env.annis) s.env.tok := h
  rw [AnnoStore.mem_allItems hf.inv.an] at h'
  exact NodeSearch.AnnoKey.eq_mk h'.1.1 (h'.1.2 _ rfl)

theorem toks_iff (n : NodeID64) : n ∈ (g.annos.exactSearch (some s.env.annis) s.env.tok .any).map Prod.fst ↔ (g.annos.getValue n s.tok).isSome := by
  simp only [List.mem_map, Prod.exists, exists_and_right, exists_eq_right]
  constructor
  · rintro ⟨k, hk⟩
    have := key_of_toks hf hs hk
    subst this
    have h' : (n, s.tok) ∈ g.annos.allItems (some s.env.annis) s.env.tok := hk
    rw [AnnoStore.mem_allItems hf.inv.an] at h'
    exact Option.isSome_iff_exists.2 h'.2
  · intro h
    refine ⟨s.tok, ?_⟩
    show (n, s.tok) ∈ g.annos.allItems (some s.env.annis) s.env.tok
    rw [AnnoStore.mem_allItems hf.inv.an]
    exact ⟨⟨rfl, fun _ h => Option.some.inj h⟩, Option.isSome_iff_exists.1 h⟩

theorem toks_nodup : ((g.annos.exactSearch (some s.env.annis) s.env.tok .any).map Prod.fst).Nodup := by
  have h : (g.annos.exactSearch (some s.env.annis) s.env.tok .any).Nodup := AnnoStore.nodup_allItems hf.inv.an _ _
  refine (List.nodup_map_iff_inj_on h).2 ?_
  rintro ⟨n, k⟩ h1 ⟨n', k'⟩ h2 e
  have e1 := key_of_toks hf hs h1
  have e2 := key_of_toks hf hs h2
  simp at e
  rw [e, e1, e2]

theorem isTok_iff (n : NodeID64) : TokenSearch.IsTok ((g.annos.exactSearch (some s.env.annis) s.env.tok .any).map Prod.fst) (relsOf s g).cov n ↔
    IsTok s.sc s.tok g n := by
  unfold TokenSearch.IsTok
  rw [toks_iff hf hs]
  exact ⟨fun h => (no_cov_iff hf hs h.1).1 h.2, fun h => ⟨h.1, (no_cov_iff hf hs h.1).2 h⟩⟩

theorem cov_ok : NodeSearch.CovOk (corpusOf s g).g (relsOf s g).cov := by
  refine ⟨fun c => ownEdges c.1, ?_, fun a b => ?_⟩
  · intro c hc
    obtain ⟨d, hd, rfl⟩ := List.mem_map.1 hc
    refine ⟨⟨fun _ => True, GStore.anyRange, ?_⟩, fun h0 => ?_⟩
    · show (g.comp d).asGStore.Is (ownEdges (g.comp d).asGStore) _ _
      rw [ownEdges_comp]
      exact gstore_is hf.made d
    · show ∀ a b, ¬ ownEdges (g.comp d).asGStore a b
      rw [ownEdges_comp]
      exact hs.nodes d h0
  · rw [← cov_iff hf hs]
    constructor
    · rintro ⟨c, hc, h⟩
      unfold covOf at hc
      obtain ⟨d, hd, rfl⟩ := List.mem_map.1 hc
      exact ⟨_, List.mem_map.2 ⟨d, (List.mem_filter.1 hd).1, rfl⟩, h⟩
    · rintro ⟨c, hc, h⟩
      obtain ⟨d, hd, rfl⟩ := List.mem_map.1 hc
      refine ⟨_, List.mem_map.2 ⟨d, List.mem_filter.2 ⟨hd, ?_⟩, rfl⟩, h⟩
      have h' : ownEdges (g.comp d).asGStore a b := h
      rw [ownEdges_comp] at h'
      cases hn : s.nodes d with
      | none => rfl
      | some n =>
        cases n with
        | zero => exact absurd h' (hs.nodes d hn a b)
        | succ n => simp

include hd in
theorem tokens_ok {m : AnnoStore.Spec NodeID64 Str Str} (hm : ∀ n k, g.annos.getValue n k = m n k) :
    NodeSearch.TokensOk s.env (corpusOf s g).g m (relsOf s g).cov := by
  intro res hres
  have hcov : TokenSearch.CovIs (covOf s g) (relsOf s g).cov :=
    ⟨ownEdges, fun c hc => ⟨_, _, cov_store hf hs hc⟩, fun a b => (cov_iff hf hs a b).symm⟩
  obtain ⟨h1, h2⟩ := TokenSearch.C49_token_search_partial (order_is hf.made s.sc.order) hcov hd.chains (toks_nodup hf hs)
    (fun a b h => ⟨(isTok_iff hf hs a).2 (hd.tokens a b h).1, (isTok_iff hf hs b).2 (hd.tokens a b h).2⟩)
    (stat := s.allOrdered) (fun h n hn => hs.allOrdered h n ((isTok_iff hf hs n).1 hn)) (fun _ _ _ => trivial) s.cmp s.fuel s.pivots hres
  refine ⟨h1, fun n => ?_⟩
  rw [h2]
  unfold TokenSearch.IsTok
  rw [toks_iff hf hs, hm]

include hd in
theorem corpus_ok {ops : List (AnnoStore.Op NodeID64 Str Str)} (ho : g.annos = AnnoStore.run ops) :
    CorpusOk ops (corpusOf s g).env (corpusOf s g).g (relsOf s g) (corpusOf s g).th (corpusOf s g).order ownEdges (fun _ => True) GStore.anyRange where
  annos := ho
  coverage := cov_ok hf hs
  exact := hs.exact
  tokens := tokens_ok hf hs hd fun n k => by rw [ho, (AnnoStore.run_refines ops).2]
  text := text_ok hf hs hd

/-- The components that edge operators use. -/
theorem db_comp {c : EdgeStore NodeID64 Str Str}
    (h : (∃ name, (name, c) ∈ (corpusOf s g).db.dominance ∨ (name, c) ∈ (corpusOf s g).db.pointing) ∨ (corpusOf s g).db.partOf = some c) :
    ∃ d, c = storeOf g d ∧ (s.sc.kind d = .dominance ∨ s.sc.kind d = .pointing ∨ d = s.part) := by
  rcases h with ⟨name, h | h⟩ | h
  · obtain ⟨d, hd, e⟩ := List.mem_map.1 h
    obtain ⟨rfl, rfl⟩ := Prod.mk.inj e
    exact ⟨d, rfl, Or.inl (by simpa using (List.mem_filter.1 hd).2)⟩
  · obtain ⟨d, hd, e⟩ := List.mem_map.1 h
    obtain ⟨rfl, rfl⟩ := Prod.mk.inj e
    exact ⟨d, rfl, Or.inr (Or.inl (by simpa using (List.mem_filter.1 hd).2))⟩
  · exact ⟨s.part, (Option.some.inj h).symm, Or.inr (Or.inr rfl)⟩

theorem sources_ok (c : C) : (g.comp c).sources.Nodup ∧ ∀ a b, E g c a b → a ∈ (g.comp c).sources := by
  obtain ⟨ops, ho⟩ := hf.made.comp c
  unfold E
  rw [ho]
  obtain ⟨c1, _, _, _, _, c6, c7, _⟩ := Adj.C13_edges_in_sync ops
  exact ⟨c7, fun a b h => (c6 a).2 ⟨b, (c1 a b).1 h⟩⟩

omit hf hs in
theorem segment_eq {seg : Str} {c : EdgeStore NodeID64 Str Str} : (corpusOf s g).db.segment seg = some c ↔
    s.segc seg ∈ g.comps.keys ∧ c = storeOf g (s.segc seg) := by
  change (if s.segc seg ∈ g.comps.keys then some (storeOf g (s.segc seg)) else none) = some c ↔ _
  split
  · rename_i h; simp [h, eq_comm]
  · rename_i h; simp [h]

theorem db_ok : DbOk (corpusOf s g).db (relsOf s g) (fun _ _ => True) (fun _ => GStore.anyRange) where
  dominance := fun name c hc => by
    obtain ⟨d, rfl, _⟩ := db_comp hf hs (Or.inl ⟨name, Or.inl hc⟩)
    exact comp_ok hf.made hf.inv d
  pointing := fun name c hc => by
    obtain ⟨d, rfl, _⟩ := db_comp hf hs (Or.inl ⟨name, Or.inr hc⟩)
    exact comp_ok hf.made hf.inv d
  partOf := fun c hc => by
    obtain ⟨d, rfl, _⟩ := db_comp hf hs (Or.inr hc)
    exact comp_ok hf.made hf.inv d
  segment := fun seg c hc => by
    obtain ⟨_, rfl⟩ := segment_eq.1 hc
    exact (comp_ok hf.made hf.inv (s.segc seg)).g
  once := fun c hc => by
    obtain ⟨d, rfl, hk⟩ := db_comp hf hs hc
    rw [show (corpusOf s g).db.loaded = s.loaded from rfl, hs.loaded d hk]
    exact (sources_ok hf hs d).1
  sources := fun c hc a b hab => by
    obtain ⟨d, rfl, hk⟩ := db_comp hf hs hc
    rw [show (corpusOf s g).db.loaded = s.loaded from rfl, hs.loaded d hk]
    exact (sources_ok hf hs d).2 a b ((edge_storeOf d a b).1 hab)

end

/-- The corpus with the relations that its graph has. -/
noncomputable def known {s : Setting C} {g : Graph Str Str C} {nk tk : AnnoKey Str} {l : List (Event Str Str C)}
    (hf : Facts s.sc nk tk s.tok l g) (hs : SettingOk s g) (hd : DataOk s g) : Known NodeID64 where
  c := corpusOf s g
  ops := hf.made.annos.choose
  r := relsOf s g
  Ec := ownEdges
  D := fun _ => True
  Rg := GStore.anyRange
  De := fun _ _ => True
  Re := fun _ => GStore.anyRange
  corpus := corpus_ok hf hs hd hf.made.annos.choose_spec
  db := db_ok hf hs

end Answer
