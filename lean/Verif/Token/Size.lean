import Verif.Token.Props
import Verif.Est.Stats
import Verif.Text.Percent

/-!
# The size of a corpus (C97)

`calculate_global_statistics` (graphannis/src/annis/db/aql/model.rs 623-683) and `CorpusStorage::update_corpus_size_info`
(graphannis/src/annis/db/corpusstorage.rs 867-914), which is used by the import (983) and by `reoptimize_implementation` (1519-1535).
-/

set_option linter.unusedSectionVars false
set_option linter.unusedSimpArgs false

namespace SizeInfo

open TokenSearch

/-- A component of the type `Ordering`; `nodes` is the number in its statistics, which is missing if the component is not loaded or has no
statistics. -/
structure Seg where
  layer : Str
  name : Str
  nodes : Option Nat
deriving DecidableEq

/-- `AQLGlobalStatistics` with `CorpusSize::Token` (aql/model.rs 100-121).  The map is given by its entries in the order of insertion, the
last entry of a name is the valid one. -/
structure Stats where
  allInOrder : Bool
  tokens : Nat
  segs : List (Str × Nat)

/-- `CorpusSizeUnit` (graphannis/src/annis/types.rs 83-89). -/
inductive Unit' where
  | tokens
  | segmentation (name : Str)
deriving DecidableEq

/-- The parts of `CorpusConfiguration` that are used: the size with its unit, and `view.base_text_segmentation`. -/
structure Config where
  size : Option (Nat × Unit')
  baseSeg : Option Str
deriving DecidableEq

variable {N : Type}

/-- The counter of the tokens (aql/model.rs 636-657). -/
def countTokens (order : Option (OrderStore N)) (cov : List (GStore N)) (toks : List N) : Option Nat :=
  match order with
  | none => some 0
  | some _ => toks.foldlM (fun k n => (TokenHelper.hasCov n cov).map fun b => if b then k else k + 1) 0

/-- The sizes of the components with a name (aql/model.rs 659-670). -/
def segTable (comps : List Seg) : List (Str × Nat) :=
  comps.filterMap fun s => if s.name = [] then none else s.nodes.map fun n => (s.name, n)

/-- `calculate_global_statistics` (aql/model.rs 623-683); `shuffle` is the order of the hash map of components. -/
def calcStats (order : Option (OrderStore N)) (cov : List (GStore N)) (toks : List N) (comps : List Seg)
    (shuffle : List (Str × Nat) → List (Str × Nat)) : Option Stats :=
  match statistic order cov toks, countTokens order cov toks with
  | some f, some k => some ⟨f, k, shuffle (segTable comps)⟩
  | _, _ => none

/-- `segmentation_count.get`. -/
def Stats.get (s : Stats) (name : Str) : Option Nat := (s.segs.reverse.find? fun x => x.1 = name).map Prod.snd

/-- The choice of the unit (corpusstorage.rs 882-893). -/
def unitOf (cfg : Config) : Unit' :=
  match cfg.size with
  | some (_, u) => u
  | none =>
    match cfg.baseSeg with
    | some s => .segmentation s
    | none => .tokens

/-- `update_corpus_size_info` (corpusstorage.rs 867-914).  Simplified: there are no statistics with `CorpusSize::Unknown`, which only old
files have and which change nothing. -/
def update (cfg : Config) (stats : Option Stats) : Config × Bool :=
  match stats with
  | none => (cfg, false)
  | some s =>
    match unitOf cfg with
    | .tokens => ({ cfg with size := some (s.tokens, .tokens) }, true)
    | .segmentation seg => ({ cfg with size := (s.get seg).map fun n => (n, .segmentation seg) }, true)

/-! ### Specification -/

namespace Spec

/-- `n` is the number of the `x` with `P x`. -/
def Count (P : N → Prop) (n : Nat) : Prop := ∃ L : List N, L.Nodup ∧ (∀ x, x ∈ L ↔ P x) ∧ L.length = n

/-- The unit in which the size is wanted: the one configured before, or the base segmentation, or tokens. -/
inductive Wanted : Config → Unit' → Prop
  | configured (n : Nat) (u : Unit') (b : Option Str) : Wanted ⟨some (n, u), b⟩ u
  | base (s : Str) : Wanted ⟨none, some s⟩ (.segmentation s)
  | tokens : Wanted ⟨none, none⟩ .tokens

end Spec

open Spec

theorem unitOf_wanted {cfg : Config} {u : Unit'} (h : Wanted cfg u) : unitOf cfg = u := by cases h <;> rfl

theorem wanted_unitOf (cfg : Config) : Wanted cfg (unitOf cfg) := by
  rcases cfg with ⟨_ | ⟨n, u⟩, _ | s⟩
  · exact .tokens
  · exact .base s
  · exact .configured n u _
  · exact .configured n u _

theorem countTokens_spec {o : OrderStore N} {cov : List (GStore N)} {Cov : N → N → Prop} (hc : CovIs cov Cov) {toks : List N}
    (hn : toks.Nodup) : ∃ k, countTokens (some o) cov toks = some k ∧ Count (IsTok toks Cov) k := by
  have key : ∀ (l : List N) (k : Nat), l.Nodup → ∃ L : List N, L.Nodup ∧ (∀ x, x ∈ L ↔ IsTok l Cov x) ∧
      l.foldlM (fun k n => (TokenHelper.hasCov n cov).map fun b => if b then k else k + 1) k = some (k + L.length) := by
    intro l
    induction l with
    | nil => exact fun k _ => ⟨[], by simp, by simp [IsTok], rfl⟩
    | cons x l ih =>
      intro k hn
      rw [List.nodup_cons] at hn
      obtain ⟨b, h1, h2⟩ := hc.hasCov x
      rw [List.foldlM_cons, h1]
      cases b with
      | true =>
        obtain ⟨L, l1, l2, l3⟩ := ih k hn.2
        refine ⟨L, l1, fun y => ?_, l3⟩
        rw [l2]
        constructor
        · exact fun h => ⟨List.mem_cons_of_mem _ h.1, h.2⟩
        · rintro ⟨hy, hc⟩
          rcases List.mem_cons.1 hy with rfl | hy
          · exact absurd (h2.1 rfl) hc
          · exact ⟨hy, hc⟩
      | false =>
        obtain ⟨L, l1, l2, l3⟩ := ih (k + 1) hn.2
        refine ⟨x :: L, ?_, fun y => ?_, ?_⟩
        · rw [List.nodup_cons]
          exact ⟨fun hm => hn.1 ((l2 x).1 hm).1, l1⟩
        · rw [List.mem_cons, l2]
          constructor
          · rintro (rfl | h)
            · exact ⟨List.mem_cons_self, fun ht => by simpa using h2.2 ht⟩
            · exact ⟨List.mem_cons_of_mem _ h.1, h.2⟩
          · rintro ⟨hy, hc⟩
            rcases List.mem_cons.1 hy with rfl | hy
            · exact .inl rfl
            · exact .inr ⟨hy, hc⟩
        · simp only [Option.map_some, Bool.false_eq_true, if_false]
          show List.foldlM _ (k + 1) l = _
          rw [l3, List.length_cons]
          congr 1
          omega
  obtain ⟨L, l1, l2, l3⟩ := key toks 0 hn
  exact ⟨L.length, by simpa [countTokens] using l3, L, l1, l2, rfl⟩

/-- The statistics exist and contain the number of tokens, if there is an order of the tokens. -/
theorem C97_token_count {o : OrderStore N} {O : N → N → Prop} {Dm : N → Prop} (ho : OrderIs o O Dm) {cov : List (GStore N)}
    {Cov : N → N → Prop} (hc : CovIs cov Cov) {toks : List N} (hn : toks.Nodup) (comps : List Seg)
    (shuffle : List (Str × Nat) → List (Str × Nat)) :
    ∃ s, calcStats (some o) cov toks comps shuffle = some s ∧ Count (IsTok toks Cov) s.tokens ∧ s.segs = shuffle (segTable comps) := by
  obtain ⟨k, h1, h2⟩ := countTokens_spec (o := o) hc hn
  have hs : ∃ b, statistic (some o) cov toks = some b := by
    unfold statistic
    simp only
    have : ∀ (l : List N) (acc : Bool), ∃ b, l.foldlM (statStep o cov) acc = some b := by
      intro l
      induction l with
      | nil => exact fun acc => ⟨acc, rfl⟩
      | cons x l ih =>
        intro acc
        obtain ⟨b, e1, -⟩ := hc.hasCov x
        obtain ⟨b1, e2, -⟩ := ho.hasIn x
        obtain ⟨Rg, hg, -⟩ := ho.g
        obtain ⟨b2, e3, -⟩ := hg.hasOut x
        have hstep : ∃ b, statStep o cov acc x = some b := by
          unfold statStep
          rw [e1]
          cases b with
          | true => exact ⟨_, rfl⟩
          | false =>
            simp only [e3]
            cases acc <;> cases b2 <;> simp [e2]
        obtain ⟨b3, e4⟩ := hstep
        rw [List.foldlM_cons, e4]
        exact ih b3
    exact this toks true
  obtain ⟨f, hf⟩ := hs
  refine ⟨⟨f, k, shuffle (segTable comps)⟩, by unfold calcStats; rw [hf, h1], h2, rfl⟩

/-- **C97**: measured in tokens, the size is the number of nodes with the annotation `annis:tok` that cover no other node. -/
theorem C97_tokens {o : OrderStore N} {O : N → N → Prop} {Dm : N → Prop} (ho : OrderIs o O Dm) {cov : List (GStore N)}
    {Cov : N → N → Prop} (hc : CovIs cov Cov) {toks : List N} (hn : toks.Nodup) (comps : List Seg)
    (shuffle : List (Str × Nat) → List (Str × Nat)) {cfg : Config} (hu : Wanted cfg .tokens) :
    ∃ k, Count (IsTok toks Cov) k ∧
      (update cfg (calcStats (some o) cov toks comps shuffle)).1 = { cfg with size := some (k, .tokens) } := by
  obtain ⟨s, h1, h2, -⟩ := C97_token_count ho hc hn comps shuffle
  refine ⟨s.tokens, h2, ?_⟩
  rw [h1]
  unfold update
  simp only [unitOf_wanted hu]

/-- What the map contains if the names of the components are different. -/
theorem get_unique {s : Stats} {comps : List Seg} {shuffle : List (Str × Nat) → List (Str × Nat)} (hs : ∀ l, (shuffle l).Perm l)
    (hseg : s.segs = shuffle (segTable comps)) {x : Seg} (hx : x ∈ comps) (hne : x.name ≠ []) {m : Nat} (hm : x.nodes = some m)
    (hu : ∀ y ∈ comps, y.name = x.name → y.nodes = some m ∨ y.nodes = none) : s.get x.name = some m := by
  have hmem : ∀ p, p ∈ s.segs ↔ p ∈ segTable comps := fun p => by rw [hseg]; exact (hs _).mem_iff
  have hin : (x.name, m) ∈ s.segs := by
    rw [hmem]
    unfold segTable
    rw [List.mem_filterMap]
    exact ⟨x, hx, by rw [if_neg hne, hm]; rfl⟩
  have hall : ∀ p ∈ s.segs, p.1 = x.name → p.2 = m := by
    intro p hp he
    rw [hmem] at hp
    unfold segTable at hp
    rw [List.mem_filterMap] at hp
    obtain ⟨y, hy, e⟩ := hp
    split at e
    · cases e
    · cases hyn : y.nodes with
      | none => rw [hyn] at e; cases e
      | some n =>
        rw [hyn] at e
        simp only [Option.map_some, Option.some.injEq] at e
        subst e
        rcases hu y hy he with h | h
        · rw [hyn] at h; exact Option.some.inj h
        · rw [hyn] at h; cases h
  unfold Stats.get
  cases hf : s.segs.reverse.find? (fun p => p.1 = x.name) with
  | none =>
    rw [List.find?_eq_none] at hf
    exact absurd (by simp) (hf (x.name, m) (List.mem_reverse.2 hin))
  | some p =>
    have h1 := List.find?_some hf
    have h2 := List.mem_reverse.1 (List.mem_of_find?_eq_some hf)
    simp only [Option.map_some, Option.some.injEq]
    exact hall p h2 (by simpa using h1)

section
variable {S W : Type} [LinearOrder N] [LinearOrder S] [OrderBot S] [LinearOrder W]

/-- **C97**: measured in a segmentation, the size is the number of nodes of the order with this name.  Missing are nodes without a
successor and predecessor (`C97_single_fails`), orders with the same name in several layers (`C97_same_name_fails`), and orders from which
edges have been deleted (C89). -/
theorem C97_segmentation_partial {o : OrderStore N} {O : N → N → Prop} {Dm : N → Prop} (ho : OrderIs o O Dm) {cov : List (GStore N)}
    {Cov : N → N → Prop} (hc : CovIs cov Cov) {toks : List N} (hn : toks.Nodup) {comps : List Seg}
    {shuffle : List (Str × Nat) → List (Str × Nat)} (hs : ∀ l, (shuffle l).Perm l) {name layer : Str} (hne : name ≠ [])
    {ops : List (Adj.Op N S W)} (hdel : Adj.Spec.noDeletion ops = true) (hx : ⟨layer, name, some (Adj.run ops).stats.nodes⟩ ∈ comps)
    (hu : ∀ y ∈ comps, y.name = name → y = ⟨layer, name, some (Adj.run ops).stats.nodes⟩)
    {cfg : Config} (hw : Wanted cfg (.segmentation name)) :
    ∃ k, Count (fun n => ∃ m, (Adj.spec ops).edge n m = true ∨ (Adj.spec ops).edge m n = true) k ∧
      (update cfg (calcStats (some o) cov toks comps shuffle)).1 = { cfg with size := some (k, .segmentation name) } := by
  obtain ⟨s, h1, -, h3⟩ := C97_token_count ho hc hn comps shuffle
  obtain ⟨L, ⟨l1, l2⟩, l3⟩ := Adj.C89_nodes_partial ops hdel
  refine ⟨(Adj.run ops).stats.nodes, ⟨L, l1, l2, l3.symm⟩, ?_⟩
  rw [h1]
  unfold update
  simp only [unitOf_wanted hw]
  rw [get_unique (x := ⟨layer, name, some (Adj.run ops).stats.nodes⟩) hs h3 hx hne rfl (fun y hy e => .inl (by rw [hu y hy e]))]
  rfl

end

/-- **C97**: a size that is set is measured in the wanted unit, and the rest of the configuration is unchanged. -/
theorem C97_unit (cfg : Config) (stats : Stats) :
    (update cfg (some stats)).1.baseSeg = cfg.baseSeg ∧
    ∀ n u, (update cfg (some stats)).1.size = some (n, u) → Wanted cfg u := by
  have hw := wanted_unitOf cfg
  unfold update
  cases hu : unitOf cfg with
  | tokens =>
    rw [hu] at hw
    refine ⟨rfl, fun n u h => ?_⟩
    cases h
    exact hw
  | segmentation seg =>
    rw [hu] at hw
    refine ⟨rfl, fun n u h => ?_⟩
    simp only at h
    cases hg : stats.get seg with
    | none => rw [hg] at h; cases h
    | some m =>
      rw [hg] at h
      cases h
      exact hw

/-- **C97**: repeating the update changes nothing, if the size was set.  Missing are updates that remove the size
(`C97_again_fails`). -/
theorem C97_again_partial (cfg : Config) (stats : Option Stats) (h : (update cfg stats).1.size.isSome) :
    (update (update cfg stats).1 stats).1 = (update cfg stats).1 := by
  cases stats with
  | none => rfl
  | some s =>
    unfold update at h ⊢
    cases hu : unitOf cfg with
    | tokens => rfl
    | segmentation seg =>
      rw [hu] at h
      simp only at h ⊢
      cases hg : s.get seg with
      | none => rw [hg] at h; cases h
      | some m =>
        simp only [Option.map_some, unitOf, hg]

/-- Without statistics nothing is changed. -/
theorem C97_no_statistics (cfg : Config) : update cfg none = (cfg, false) := rfl

/-! ### Examples -/

private def st (s : String) : Str := s.toList

/-- **C97** fails: a corpus without an order of tokens, such as one with a single token, has the size 0. -/
theorem C97_no_order_fails :
    update ⟨none, none⟩ (calcStats (N := Nat) none [] [5] [] id) = (⟨some (0, .tokens), none⟩, true) ∧
    IsTok [5] (fun _ _ => False) 5 := ⟨rfl, by simp [IsTok]⟩

/-- **C97** fails: a segmentation that is missing in the statistics, such as one with a single node, has no size, and the configured unit
is lost; the next update uses another unit. -/
theorem C97_again_fails :
    let s : Stats := ⟨true, 7, []⟩
    let c1 := (update ⟨some (3, .segmentation (st "dipl")), none⟩ (some s)).1
    c1 = ⟨none, none⟩ ∧ (update c1 (some s)).1 = ⟨some (7, .tokens), none⟩ := by decide

/-- **C97** fails: a segmentation of one node has no edge, so the component is empty or missing. -/
theorem C97_single_fails :
    (Adj.run ([] : List (Adj.Op Nat Nat Nat))).stats.nodes = 0 ∧
    (update ⟨none, some (st "dipl")⟩ (some ⟨true, 1, segTable [⟨st "default_ns", st "dipl", some 0⟩]⟩)).1.size =
      some (0, .segmentation (st "dipl")) ∧
    (update ⟨none, some (st "dipl")⟩ (some ⟨true, 1, segTable []⟩)).1.size = none := by decide

/-- **C97** fails: of two orders with the same name in different layers an arbitrary one is used. -/
theorem C97_same_name_fails :
    let comps : List Seg := [⟨st "l1", st "dipl", some 10⟩, ⟨st "l2", st "dipl", some 20⟩]
    (update ⟨none, some (st "dipl")⟩ (some ⟨true, 1, id (segTable comps)⟩)).1.size = some (20, .segmentation (st "dipl")) ∧
    (update ⟨none, some (st "dipl")⟩ (some ⟨true, 1, (segTable comps).reverse⟩)).1.size = some (10, .segmentation (st "dipl")) := by
  decide

/-- **C97** fails: the function returns that the size was changed though it is the same. -/
theorem C97_changed_fails :
    update ⟨some (7, .tokens), none⟩ (some ⟨true, 7, []⟩) = (⟨some (7, .tokens), none⟩, true) := by decide

/-- The hypotheses are met by the order of two texts with seven tokens, and by a segmentation of these nodes. -/
theorem C97_nonvacuous :
    OrderIs (Adj.run Linear.demo).asOrder (fun a b => (Adj.spec Linear.demo).edge a b = true) (fun _ => True) ∧
    CovIs ([] : List (GStore NodeID64)) (fun _ _ => False) ∧ demoToks.Nodup ∧ Adj.Spec.noDeletion Linear.demo = true ∧
    update ⟨none, none⟩ (calcStats (some (Adj.run Linear.demo).asOrder) [] demoToks
      [⟨st "annis", [], some (Adj.run Linear.demo).stats.nodes⟩, ⟨st "l", st "dipl", some (Adj.run Linear.demo).stats.nodes⟩] id) =
      (⟨some (7, .tokens), none⟩, true) ∧
    update ⟨none, some (st "dipl")⟩ (calcStats (some (Adj.run Linear.demo).asOrder) [] demoToks
      [⟨st "annis", [], some (Adj.run Linear.demo).stats.nodes⟩, ⟨st "l", st "dipl", some (Adj.run Linear.demo).stats.nodes⟩] id) =
      (⟨some (6, .segmentation (st "dipl")), some (st "dipl")⟩, true) :=
  ⟨Adj.asOrder_is Linear.demo, ⟨fun _ _ _ => False, by simp, by simp⟩, by decide, by decide +kernel, by decide +kernel, by decide +kernel⟩

end SizeInfo
