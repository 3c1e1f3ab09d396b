import Verif.Linear.Props
import Verif.PrePost.Props
import Verif.Single.Props
import Verif.DiskAdj.Props
import Verif.Gs.AdjSource

/-!
# Graph storages as the operators see them

The operators of the query language only use the trait `GraphStorage`.  `GStore` is that interface and `GStore.Is` is what a correct
implementation answers; the storages of the core crate are shown to be instances (with their restrictions).
-/

set_option linter.unusedSectionVars false

/-- `dyn GraphStorage` as used by the operators (core/src/graph/storage/mod.rs 78-173).  `none` is a panic or an error. -/
structure GStore (N : Type) where
  /-- `get_outgoing_edges` -/
  out : N → Option (List N)
  /-- `get_ingoing_edges` -/
  inn : N → Option (List N)
  /-- `has_outgoing_edges` -/
  hasOut : N → Option Bool
  findConnected : N → Nat → Bnd Nat → Option (List N)
  findConnectedInverse : N → Nat → Bnd Nat → Option (List N)
  isConnected : N → N → Nat → Bnd Nat → Option Bool
  distance : N → N → Option (Option Nat)

namespace GStore

variable {N : Type}

/-- `has_outgoing_edges`, default implementation (core/src/graph/storage/mod.rs 86-93). -/
def defaultHasOut (out : N → Option (List N)) (n : N) : Option Bool := (out n).map fun l => !l.isEmpty

/-- What the storage of the edges `E` answers.  `D` are the nodes it knows: for other nodes a path of length 0 is not found by some
storages.  `R` are the distance ranges it handles. -/
structure Is (g : GStore N) (E : N → N → Prop) (D : N → Prop) (R : Nat → Bnd Nat → Prop) : Prop where
  dom : ∀ a b, E a b → D a ∧ D b
  out : ∀ a, ∃ l, g.out a = some l ∧ l.Nodup ∧ ∀ b, b ∈ l ↔ E a b
  inn : ∀ a, ∃ l, g.inn a = some l ∧ l.Nodup ∧ ∀ b, b ∈ l ↔ E b a
  hasOut : ∀ a, ∃ r, g.hasOut a = some r ∧ (r = true ↔ ∃ b, E a b)
  find : ∀ a min max, R min max → ∃ l, g.findConnected a min max = some l ∧ l.Nodup ∧
    ∀ b, b ∈ l ↔ D a ∧ ∃ d, Walk.SimplePath E a b d ∧ Within min max d
  findInv : ∀ a min max, R min max → ∃ l, g.findConnectedInverse a min max = some l ∧ l.Nodup ∧
    ∀ b, b ∈ l ↔ D a ∧ ∃ d, Walk.SimplePath E b a d ∧ Within min max d
  conn : ∀ a b min max, R min max → ∃ r, g.isConnected a b min max = some r ∧
    (r = true ↔ D a ∧ ∃ d, Walk.SimplePath E a b d ∧ Within min max d)
  dist : ∀ a b, ∃ r, g.distance a b = some r ∧ (r = none ↔ ¬ ∃ d, Walk.SimplePath E a b d) ∧
    ∀ d, r = some d → Walk.SimplePath E a b d

/-- The two ends of a path are both known or both unknown. -/
theorem Is.dom_path {g : GStore N} {E : N → N → Prop} {D : N → Prop} {R : Nat → Bnd Nat → Prop} (h : g.Is E D R) {a b : N} {d : Nat}
    (hp : Walk.SimplePath E a b d) : D a ↔ D b := by
  have hw := hp.walk
  cases d with
  | zero => rw [Walk.walkLen_zero.1 hw]
  | succ d =>
    obtain ⟨c, hc, _⟩ := Walk.walkLen_succ.1 hw
    obtain ⟨c', _, hc'⟩ := Walk.walkLen_snoc.1 hw
    exact ⟨fun _ => (h.dom _ _ hc').2, fun _ => (h.dom _ _ hc).1⟩

theorem defaultHasOut_spec {out : N → Option (List N)} {a : N} {P : N → Prop}
    (h : ∃ l, out a = some l ∧ l.Nodup ∧ ∀ b, b ∈ l ↔ P b) :
    ∃ r, defaultHasOut out a = some r ∧ (r = true ↔ ∃ b, P b) := by
  obtain ⟨l, h1, _, h2⟩ := h
  refine ⟨!l.isEmpty, by simp [defaultHasOut, h1], ?_⟩
  cases l with
  | nil =>
    simp only [List.isEmpty_nil, Bool.not_true, Bool.false_eq_true, false_iff]
    rintro ⟨b, hb⟩
    exact absurd ((h2 b).2 hb) (by simp)
  | cons x r => simp only [List.isEmpty_cons, Bool.not_false, true_iff]; exact ⟨x, (h2 x).1 (by simp)⟩

/-- Every range except `..0` (which panics, C11). -/
def anyRange (_ : Nat) (max : Bnd Nat) : Prop := max ≠ .excluded 0

end GStore

/-! ## The storages of the core crate -/

section Instances

variable {N S W : Type} [LinearOrder N] [LinearOrder S] [OrderBot S] [LinearOrder W]

/-- `AdjacencyListStorage` as `dyn GraphStorage`. -/
def Adj.asGStore (g : Adj N S W) : GStore N :=
  { out := fun n => some (g.out n)
    inn := fun n => some (g.inn n)
    hasOut := fun n => some (g.hasOut n)
    findConnected := g.findConnected
    findConnectedInverse := g.findConnectedInverse
    isConnected := g.isConnected
    distance := fun a b => some (g.distance a b) }

/-- The adjacency list answers all queries for all nodes. -/
theorem Adj.asGStore_is [U64 N] (ops : List (Adj.Op N S W)) :
    (Adj.run ops).asGStore.Is (fun a b => (Adj.spec ops).edge a b = true) (fun _ => True) GStore.anyRange := by
  obtain ⟨c1, c2, c3, c4, c5, _⟩ := Adj.C13_edges_in_sync ops
  refine ⟨by simp, ?_, ?_, ?_, ?_, ?_, ?_, ?_⟩
  · intro a
    exact ⟨_, rfl, (c3 a).imp (fun h => ne_of_lt h), fun b => c1 a b⟩
  · intro a
    exact ⟨_, rfl, (c4 a).imp (fun h => ne_of_lt h), fun b => c2 b a⟩
  · intro a; exact ⟨_, rfl, c5 a⟩
  · intro a min max hm
    obtain ⟨l, h1, h2, h3⟩ := Adj.C11_find_connected ops a min max hm
    exact ⟨l, h1, h2, fun b => by rw [h3]; simp⟩
  · intro a min max hm
    obtain ⟨l, h1, h2, h3⟩ := Adj.C11_find_connected_inverse ops a min max hm
    exact ⟨l, h1, h2, fun b => by rw [h3]; simp⟩
  · intro a b min max hm
    obtain ⟨r, h1, h2⟩ := Adj.C11_is_connected ops a b min max hm
    exact ⟨r, h1, by rw [h2]; simp⟩
  · intro a b
    obtain ⟨h1, h2⟩ := Adj.C12_distance_partial ops a b
    refine ⟨_, rfl, ?_, h2⟩
    rw [h1, Walk.reach_iff_simple]

/-- `LinearGraphStorage` as `dyn GraphStorage`. -/
def Linear.asGStore (cap : Nat) (g : Linear N S W) : GStore N :=
  { out := g.out cap
    inn := fun n => some (g.inn n)
    hasOut := GStore.defaultHasOut (g.out cap)
    findConnected := g.findConnected
    findConnectedInverse := fun n min max => some (g.findConnectedInverse n min max)
    isConnected := fun a b min max => some (g.isConnected a b min max)
    distance := fun a b => some (g.distance a b) }

/-- The ranges handled by a linear storage: a non-empty range with an included end, or without end, such that positions do not
overflow (C14). -/
def Linear.range (len min : Nat) (max : Bnd Nat) : Prop :=
  max = .unbounded ∨ ∃ m, max = .included m ∧ min ≤ m ∧ m + len < usizeMax

/-- A filled linear storage only knows the nodes of its chains: a path of length 0 from another node is not found. -/
theorem Linear.asGStore_is [U64 N] {o : Source N S W} {E : N → N → Prop} {A : N → N → AnnoKey S → Option W} (h : o.Is E A)
    (hE : Chains E) {cap : Nat} (hcap : ∀ a b d, Walk.WalkLen E a b d → d < cap) (g0 : Linear N S W) :
    ((Linear.copy cap g0 o).asGStore cap).Is E (InComp E) (Linear.range o.nodes.length) := by
  have hg := Linear.copy_rep h hE hcap g0
  refine ⟨fun a b hab => ⟨⟨b, Or.inl hab⟩, ⟨a, Or.inr hab⟩⟩, ?_, ?_, ?_, ?_, ?_, ?_, ?_⟩
  · intro a; exact (Linear.C14_neighbours h hE hcap g0 a).1
  · intro a
    obtain ⟨_, h2, h3, _⟩ := Linear.C14_neighbours h hE hcap g0 a
    exact ⟨_, rfl, h2, h3⟩
  · intro a; exact GStore.defaultHasOut_spec (Linear.C14_neighbours h hE hcap g0 a).1
  · intro a min max hm
    by_cases ha : InComp E a
    · obtain ⟨l, h1, h2, h3⟩ := Linear.C14_find_connected h hE hcap g0 a ha min max (by
        rintro m (hh | hh) <;> rcases hm with hm | ⟨m', hm, _, hl⟩ <;> rw [hm] at hh <;> injection hh <;> omega)
      exact ⟨l, h1, h2, fun b => by rw [h3]; simp [ha]⟩
    · refine ⟨[], ?_, List.nodup_nil, by simp [ha]⟩
      have := Linear.not_located h hE hg ha
      simp [Linear.asGStore, Linear.findConnected, this]
  · intro a min max hm
    by_cases ha : InComp E a
    · obtain ⟨h2, h3⟩ := Linear.C14_find_connected_inverse_partial h hE hcap g0 a ha min max (by
        rcases hm with hm | ⟨m, hm, hl, _⟩
        · exact Or.inl hm
        · exact Or.inr ⟨m, hm, hl⟩)
      exact ⟨_, rfl, h2, fun b => by rw [h3]; simp [ha]⟩
    · refine ⟨[], ?_, List.nodup_nil, by simp [ha]⟩
      have := Linear.not_located h hE hg ha
      simp [Linear.asGStore, Linear.findConnectedInverse, this]
  · intro a b min max hm
    by_cases ha : InComp E a
    · exact ⟨_, rfl, by rw [Linear.C14_is_connected h hE hcap g0 a b ha]; simp [ha]⟩
    · refine ⟨false, ?_, by simp [ha]⟩
      have := Linear.not_located h hE hg ha
      simp [Linear.asGStore, Linear.isConnected, this]
  · intro a b
    refine ⟨_, rfl, ?_, fun d hd => (Linear.C14_distance h hE hcap g0 a b d).1 hd⟩
    constructor
    · rintro hn ⟨d, hd⟩
      rw [(Linear.C14_distance h hE hcap g0 a b d).2 hd] at hn
      cases hn
    · intro hn
      cases hd : (Linear.copy cap g0 o).distance a b with
      | none => rfl
      | some d => exact absurd ⟨d, (Linear.C14_distance h hE hcap g0 a b d).1 hd⟩ hn

/-- `PrePostOrderStorage` as `dyn GraphStorage`. -/
def PrePostGs.asGStore (g : PrePostGs N S W) : GStore N :=
  { out := g.out
    inn := g.inn
    hasOut := GStore.defaultHasOut g.out
    findConnected := g.findConnected
    findConnectedInverse := g.findConnectedInverse
    isConnected := g.isConnected
    distance := fun a b => some (g.distance a b) }

/-- A filled pre/post order storage on a forest. For other acyclic graphs `is_connected` is wrong (C16). -/
theorem PrePostGs.asGStore_is [U64 N] {o : Source N S W} {E : N → N → Prop} {A : N → N → AnnoKey S → Option W} (h : o.Is E A)
    (hac : Walk.Acyclic E) (hi : Walk.InjectiveRel E) {ordCap lvlCap : Nat} (hl : ∀ a b d, Walk.WalkLen E a b d → d ≤ lvlCap)
    {g0 g : PrePostGs N S W} (hc : PrePostGs.copy ordCap lvlCap g0 o = some g) :
    g.asGStore.Is E (InComp E) GStore.anyRange := by
  obtain ⟨l, hg⟩ := PrePostGs.rep h hac hl hc
  refine ⟨fun a b hab => ⟨⟨b, Or.inl hab⟩, ⟨a, Or.inr hab⟩⟩, ?_, ?_, ?_, ?_, ?_, ?_, ?_⟩
  · intro a; exact (PrePostGs.C15_neighbours h hac hl hc a).1
  · intro a; exact (PrePostGs.C15_neighbours h hac hl hc a).2.1
  · intro a; exact GStore.defaultHasOut_spec (PrePostGs.C15_neighbours h hac hl hc a).1
  · intro a min max hm
    by_cases ha : InComp E a
    · obtain ⟨l, h1, h2, h3⟩ := PrePostGs.C15_find_connected h hac hl hc a ha min max hm
      exact ⟨l, h1, h2, fun b => by rw [h3]; simp [ha]⟩
    · refine ⟨[], ?_, List.nodup_nil, by simp [ha]⟩
      have := PrePostGs.not_located h hac hg ha
      simp [PrePostGs.asGStore, PrePostGs.findConnected, this]
  · intro a min max hm
    by_cases ha : InComp E a
    · obtain ⟨l, h1, h2, h3⟩ := PrePostGs.C15_find_connected_inverse h hac hl hc a ha min max hm
      exact ⟨l, h1, h2, fun b => by rw [h3]; simp [ha]⟩
    · refine ⟨[], ?_, List.nodup_nil, by simp [ha]⟩
      have := PrePostGs.not_located h hac hg ha
      simp [PrePostGs.asGStore, PrePostGs.findConnectedInverse, this]
  · intro a b min max hm
    by_cases ha : InComp E a
    · by_cases hb : InComp E b
      · obtain ⟨r, h1, h2⟩ := PrePostGs.C15_is_connected h hac hl hc hi a b ha hb min max hm
        exact ⟨r, h1, by rw [h2]; simp [ha]⟩
      · refine ⟨false, ?_, ?_⟩
        · have := PrePostGs.not_located h hac hg hb
          simp [PrePostGs.asGStore, PrePostGs.isConnected, this]
        · refine iff_of_false (by simp) ?_
          rintro ⟨_, d, hp, _⟩
          cases d with
          | zero => exact hb (Walk.walkLen_zero.1 hp.walk ▸ ha)
          | succ d =>
            obtain ⟨c, _, hc⟩ := Walk.walkLen_snoc.1 hp.walk
            exact hb ⟨c, Or.inr hc⟩
    · refine ⟨false, ?_, by simp [ha]⟩
      have := PrePostGs.not_located h hac hg ha
      simp [PrePostGs.asGStore, PrePostGs.isConnected, this]
  · intro a b
    refine ⟨_, rfl, ?_, fun d hd => ((PrePostGs.C15_distance h hac hl hc a b d).1 hd).1⟩
    constructor
    · rintro hn ⟨d, hd⟩
      have := (PrePostGs.C15_distance h hac hl hc a b d).2
        ⟨hd, fun d' hd' => (PrePostGs.forest_unique h hac hi hd.walk hd').le⟩
      rw [this] at hn; cases hn
    · intro hn
      cases hd : g.distance a b with
      | none => rfl
      | some d => exact absurd ⟨d, ((PrePostGs.C15_distance h hac hl hc a b d).1 hd).1⟩ hn

/-- `DiskAdjacencyListStorage` as `dyn GraphStorage`. -/
def DiskAdj.asGStore (g : DiskAdj S W) : GStore NodeID64 :=
  { out := fun n => some (g.out n)
    inn := fun n => some (g.inn n)
    hasOut := fun n => some (g.hasOut n)
    findConnected := g.findConnected
    findConnectedInverse := g.findConnectedInverse
    isConnected := g.isConnected
    distance := fun a b => some (g.distance a b) }

/-- The adjacency list on disk (without the largest node number, C60). -/
theorem DiskAdj.asGStore_is (ops : List (Adj.Op NodeID64 S W)) (hs : ∀ op ∈ ops, DiskAdj.Small op) :
    (DiskAdj.run ops).asGStore.Is (fun a b => (Adj.spec ops).edge a b = true) (fun _ => True) GStore.anyRange := by
  obtain ⟨c1, c2, c3, c4, _⟩ := DiskAdj.C60_edges_in_sync_partial ops hs
  refine ⟨by simp, ?_, ?_, ?_, ?_, ?_, ?_, ?_⟩
  · intro a; exact ⟨_, rfl, (c3 a).1, fun b => c1 a b⟩
  · intro a; exact ⟨_, rfl, (c3 a).2, fun b => c2 b a⟩
  · intro a; exact ⟨_, rfl, c4 a⟩
  · intro a min max hm
    obtain ⟨l, h1, h2, h3⟩ := (DiskAdj.C60_queries_partial ops hs a a min max hm).1
    exact ⟨l, h1, h2, fun b => by rw [h3]; simp⟩
  · intro a min max hm
    obtain ⟨l, h1, h2, h3⟩ := (DiskAdj.C60_queries_partial ops hs a a min max hm).2.1
    exact ⟨l, h1, h2, fun b => by rw [h3]; simp⟩
  · intro a b min max hm
    obtain ⟨r, h1, h2⟩ := (DiskAdj.C60_queries_partial ops hs a b min max hm).2.2.1
    exact ⟨r, h1, by rw [h2]; simp⟩
  · intro a b
    obtain ⟨_, _, _, h1, h2⟩ := DiskAdj.C60_queries_partial ops hs a b 0 .unbounded (by simp)
    exact ⟨_, rfl, h1, h2⟩

/-- `DenseAdjacencyListStorage` as `dyn GraphStorage`. -/
def Dense.asGStore (g : Dense S W) : GStore NodeID64 :=
  { out := fun n => some (g.out n)
    inn := fun n => some (g.inn n)
    hasOut := GStore.defaultHasOut fun n => some (g.out n)
    findConnected := g.findConnected
    findConnectedInverse := g.findConnectedInverse
    isConnected := g.isConnected
    distance := fun a b => some (g.distance a b) }

/-- The dense adjacency list for functional edges. -/
theorem Dense.asGStore_is {o : Source NodeID64 S W} {E : NodeID64 → NodeID64 → Prop}
    {A : NodeID64 → NodeID64 → AnnoKey S → Option W} (h : o.Is E A) (hf : Walk.Functional E) (l : NodeID64)
    (hl : ∀ a b, E a b → a ≤ l) (g0 g : Dense S W) (hc : Dense.copy (some l) g0 o = some g) :
    g.asGStore.Is E (fun _ => True) GStore.anyRange := by
  have key : ∀ {P : Dense S W → Prop}, (∃ g, Dense.copy (some l) g0 o = some g ∧ P g) → P g := by
    rintro P ⟨g', h1, h2⟩
    rw [hc] at h1; cases h1; exact h2
  obtain ⟨c1, c2, _⟩ := key (Dense.C17_dense h hf l hl g0)
  refine ⟨by simp, ?_, ?_, ?_, ?_, ?_, ?_, ?_⟩
  · intro a; exact ⟨_, rfl, c1 a⟩
  · intro a; exact ⟨_, rfl, c2 a⟩
  · intro a; exact GStore.defaultHasOut_spec (out := fun n => some (g.out n)) ⟨_, rfl, c1 a⟩
  · intro a min max hm
    obtain ⟨l, h1, h2, h3⟩ := (key (Dense.C59_dense_find_connected h hf l hl g0 a min max hm)).1
    exact ⟨l, h1, h2, fun b => by rw [h3]; simp⟩
  · intro a min max hm
    obtain ⟨l, h1, h2, h3⟩ := (key (Dense.C59_dense_find_connected h hf l hl g0 a min max hm)).2
    exact ⟨l, h1, h2, fun b => by rw [h3]; simp⟩
  · intro a b min max hm
    obtain ⟨r, h1, h2⟩ := (key (Dense.C59_dense_distance h hf l hl g0 a b)).2 min max hm
    exact ⟨r, h1, by rw [h2]; simp⟩
  · intro a b
    have hd := (key (Dense.C59_dense_distance h hf l hl g0 a b)).1
    refine ⟨_, rfl, ?_, fun d => (hd d).1⟩
    constructor
    · rintro hn ⟨d, hp⟩
      rw [(hd d).2 hp] at hn; cases hn
    · intro hn
      cases hx : g.distance a b with
      | none => rfl
      | some d => exact absurd ⟨d, (hd d).1 hx⟩ hn

end Instances
