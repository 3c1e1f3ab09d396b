import Verif.Adj.Lemmas
import Verif.OnDisk.Model
import Mathlib.Order.Fin.Basic
import Mathlib.Data.Fintype.Card

/-!
# C11, C12, C13: the adjacency list storage
-/

set_option linter.unusedSimpArgs false
set_option linter.unusedSectionVars false

/-- Distance `d` is within the requested range. -/
def Within (min : Nat) (max : Bnd Nat) (d : Nat) : Prop :=
  min ≤ d ∧ match max with
    | .unbounded => True
    | .included m => d ≤ m
    | .excluded m => d < m

/-- There are at most `2^64` node IDs. -/
class U64 (N : Type) : Prop where
  bound : ∀ p : List N, p.Nodup → p.length ≤ usizeMax + 1

instance : U64 NodeID64 where
  bound := by
    intro p hp
    have h := hp.length_le_card
    rw [Fintype.card_fin] at h
    have e : (256 : Nat) ^ 8 = usizeMax + 1 := by decide
    omega

namespace Adj

variable {N S W : Type} [LinearOrder N] [LinearOrder S] [OrderBot S] [LinearOrder W]

/-- Client operations. -/
inductive Op (N S W : Type)
  | addEdge (a b : N)
  | addAnno (a b : N) (key : AnnoKey S) (val : W)
  | deleteEdge (a b : N)
  | deleteAnno (a b : N) (key : AnnoKey S)
  | deleteNode (n : N)
  | clear

def step (g : Adj N S W) : Op N S W → Adj N S W
  | .addEdge a b => g.addEdge a b
  | .addAnno a b key val => g.addAnno a b key val
  | .deleteEdge a b => g.deleteEdge a b
  | .deleteAnno a b key => g.deleteAnno a b key
  | .deleteNode n => g.deleteNode n
  | .clear => g.clear

def run (ops : List (Op N S W)) : Adj N S W := ops.foldl step new

/-- Specification: a set of edges and a map from edges to annotations. -/
structure Spec (N S W : Type) where
  edge : N → N → Bool
  anno : N → N → AnnoKey S → Option W

def specStep (m : Spec N S W) : Op N S W → Spec N S W
  | .addEdge a b => { m with edge := fun x y => if x = a ∧ y = b ∧ a ≠ b then true else m.edge x y }
  | .addAnno a b key val =>
    { m with anno := fun x y k => if x = a ∧ y = b ∧ k = key ∧ m.edge a b then some val else m.anno x y k }
  | .deleteEdge a b =>
    { edge := fun x y => if x = a ∧ y = b then false else m.edge x y
      anno := fun x y k => if x = a ∧ y = b then none else m.anno x y k }
  | .deleteAnno a b key => { m with anno := fun x y k => if x = a ∧ y = b ∧ k = key then none else m.anno x y k }
  | .deleteNode n =>
    { edge := fun x y => if x = n ∨ y = n then false else m.edge x y
      anno := fun x y k => if x = n ∨ y = n then none else m.anno x y k }
  | .clear => ⟨fun _ _ => false, fun _ _ _ => none⟩

def spec (ops : List (Op N S W)) : Spec N S W := ops.foldl specStep ⟨fun _ _ => false, fun _ _ _ => none⟩

/-- The state represents the abstract graph. -/
def Rep (g : Adj N S W) (m : Spec N S W) : Prop :=
  (∀ a b, b ∈ g.out a ↔ m.edge a b = true) ∧ ∀ a b key, g.annos.getValue (toLex (a, b)) key = m.anno a b key

theorem step_refines {g : Adj N S W} {m : Spec N S W} (h : Inv g) (hr : Rep g m) (op : Op N S W) :
    Inv (g.step op) ∧ Rep (g.step op) (specStep m op) := by
  obtain ⟨r1, r2⟩ := hr
  cases op with
  | addEdge a b =>
    refine ⟨h.addEdge a b, ?_, ?_⟩
    · intro x y
      simp only [step, specStep]
      rw [mem_out_addEdge, r1]
      by_cases hc : x = a ∧ y = b ∧ a ≠ b
      · simp [hc]
      · simp [hc]
    · intro x y k
      simp only [step, specStep, annos_addEdge, r2]
  | addAnno a b key val =>
    refine ⟨h.addAnno a b key val, ?_, ?_⟩
    · intro x y
      simp only [step, specStep, addAnno_eq]
      split <;> exact r1 x y
    · intro x y k
      simp only [step, specStep, addAnno_eq]
      by_cases hb : b ∈ g.out a
      · have he := (r1 a b).1 hb
        simp only [hb, if_true]
        rw [AnnoStore.getValue_insert h.anno, r2]
        simp only [toLex_inj, Prod.mk.injEq, he, and_true, and_assoc]
      · have he : m.edge a b = false := by
          cases e : m.edge a b with
          | false => rfl
          | true => exact absurd ((r1 a b).2 e) hb
        simp only [hb, if_false, he, Bool.false_eq_true, and_false, r2]
  | deleteEdge a b =>
    refine ⟨h.deleteEdge a b, ?_, ?_⟩
    · intro x y
      simp only [step, specStep]
      rw [mem_out_deleteEdge h, r1]
      by_cases hc : x = a ∧ y = b <;> simp [hc]
    · intro x y k
      simp only [step, specStep]
      rw [getValue_deleteEdge h, r2]
  | deleteAnno a b key =>
    refine ⟨h.deleteAnno a b key, fun x y => r1 x y, ?_⟩
    intro x y k
    simp only [step, specStep, deleteAnno]
    rw [(AnnoStore.removeAnno_spec h.anno _ _).2.2, r2]
    simp only [toLex_inj, Prod.mk.injEq, and_assoc]
  | deleteNode n =>
    obtain ⟨i1, i2, i3⟩ := deleteNode_spec h n
    refine ⟨i1, ?_, ?_⟩
    · intro x y
      simp only [step, specStep]
      rw [i2, r1]
      by_cases h1 : x = n <;> by_cases h2 : y = n <;> simp [h1, h2]
    · intro x y k
      simp only [step, specStep]
      rw [i3, r2]
  | clear =>
    refine ⟨Inv.clear g, ?_, ?_⟩
    · intro x y; simp [step, specStep, clear, out]
    · intro x y k; simp only [step, specStep, clear, getValue_clear]

theorem run_refines (ops : List (Op N S W)) : Inv (run ops) ∧ Rep (run ops) (spec ops) := by
  unfold run spec
  suffices H : ∀ (g : Adj N S W) (m : Spec N S W), Inv g → Rep g m →
      Inv (ops.foldl step g) ∧ Rep (ops.foldl step g) (ops.foldl specStep m) by
    refine H _ _ Inv.new ⟨?_, ?_⟩
    · intro a b; simp [new, out]
    · intro a b key; simp [new, AnnoStore.new, AnnoStore.getValue, SymbolTable.new, SymbolTable.getSymbol]
  induction ops with
  | nil => intro g m h hr; exact ⟨h, hr⟩
  | cons op ops ih =>
    intro g m h hr
    obtain ⟨a, b⟩ := step_refines h hr op
    exact ih _ _ a b

/-! ## C13 -/

/-- C13: `b` is an outgoing neighbour of `a` iff `a` is an ingoing neighbour of `b` iff the edge is in the specification;
the neighbour lists are strictly ascending; there are no self loops. -/
theorem C13_edges_in_sync (ops : List (Op N S W)) :
    (∀ a b, b ∈ (run ops).out a ↔ (spec ops).edge a b = true) ∧
    (∀ a b, a ∈ (run ops).inn b ↔ (spec ops).edge a b = true) ∧
    (∀ a, ((run ops).out a).Pairwise (· < ·)) ∧ (∀ a, ((run ops).inn a).Pairwise (· < ·)) ∧
    (∀ a, (run ops).hasOut a = true ↔ ∃ b, (spec ops).edge a b = true) ∧
    (∀ a, a ∈ (run ops).sources ↔ ∃ b, (spec ops).edge a b = true) ∧ (run ops).sources.Nodup ∧
    (∀ a, (spec ops).edge a a = false) := by
  obtain ⟨h, r1, r2⟩ := run_refines ops
  refine ⟨r1, fun a b => by rw [← h.sync, r1], h.eo, h.io, ?_, ?_, ?_, ?_⟩
  · intro a
    simp only [← r1]
    unfold hasOut out
    cases (run ops).edges.get a with
    | none => simp
    | some l => cases l <;> simp
  · intro a
    simp only [← r1]
    unfold sources out
    simp only [List.mem_map, List.mem_filter, Prod.exists, exists_and_right, exists_eq_right]
    constructor
    · rintro ⟨l, hl, hne⟩
      rw [OMap.mem_iff_get h.es] at hl
      rw [hl]
      cases l with
      | nil => simp at hne
      | cons x r => exact ⟨x, by simp⟩
    · rintro ⟨b, hb⟩
      cases hg : (run ops).edges.get a with
      | none => simp [hg] at hb
      | some l =>
        rw [hg] at hb
        refine ⟨l, (OMap.mem_iff_get h.es).2 hg, ?_⟩
        cases l with
        | nil => simp at hb
        | cons x r => simp
  · have hk := OMap.nodup_keys h.es
    unfold OMap.keys at hk
    exact hk.sublist (List.filter_sublist.map _)
  · intro a
    cases he : (spec ops).edge a a with
    | false => rfl
    | true => exact absurd ((r1 a a).2 he) (h.irr a)

/-- C13: edge annotations are those of the specification, and they exist only for existing edges. -/
theorem C13_annotations (ops : List (Op N S W)) (a b : N) (key : AnnoKey S) :
    (run ops).annos.getValue (toLex (a, b)) key = (spec ops).anno a b key ∧
    (((run ops).annos.getValue (toLex (a, b)) key).isSome → (spec ops).edge a b = true) := by
  obtain ⟨h, r1, r2⟩ := run_refines ops
  exact ⟨r2 a b key, fun hk => (r1 a b).1 (h.edge a b key hk)⟩

/-! ## C11 -/

theorem within_max {max : Bnd Nat} {m : Nat} (hm : maxDistance max = some m) {min d : Nat} (hd : d ≤ usizeMax) :
    min ≤ d ∧ d ≤ m ↔ Within min max d := by
  unfold maxDistance at hm
  unfold Within
  cases max with
  | unbounded => simp at hm; subst hm; simp [hd]
  | included k => simp at hm; subst hm; rfl
  | excluded k =>
    simp only at hm
    split at hm
    · cases hm
    · injection hm with hm; subst hm; simp only; omega

theorem simplePath_le [U64 N] {E : N → N → Prop} {a b : N} {d : Nat} (h : Walk.SimplePath E a b d) : d ≤ usizeMax := by
  obtain ⟨p, _, hn, hl⟩ := h
  have := U64.bound p hn
  omega

theorem simplePath_congr {E F : N → N → Prop} (hEF : ∀ a b, E a b ↔ F a b) {a b : N} {d : Nat} :
    Walk.SimplePath E a b d ↔ Walk.SimplePath F a b d := by
  have : E = F := by funext x y; exact propext (hEF x y)
  rw [this]

section
variable [U64 N] (ops : List (Op N S W))

theorem mem_steps_out (a b : N) (min d m : Nat) :
    (b, d) ∈ Dfs.steps (run ops).out (targets (run ops).edges) a min m ↔
      Walk.SimplePath (fun x y => (spec ops).edge x y = true) a b d ∧ min ≤ d ∧ d ≤ m := by
  rw [Dfs.C10_steps min m a false (covers_out _)]
  rw [simplePath_congr (E := Dfs.Edge (run ops).out) (fun x y => (run_refines ops).2.1 x y)]

theorem mem_steps_inn (a b : N) (min d m : Nat) :
    (b, d) ∈ Dfs.steps (run ops).inn (targets (run ops).inverse) a min m true ↔
      Walk.SimplePath (fun x y => (spec ops).edge x y = true) b a d ∧ min ≤ d ∧ d ≤ m := by
  rw [Dfs.C10_steps min m a true (covers_inn _), ← Walk.simplePath_flip (a := b)]
  rw [simplePath_congr (E := Dfs.Edge (run ops).inn) (F := fun x y => (spec ops).edge y x = true)]
  intro x y
  unfold Dfs.Edge
  rw [← (run_refines ops).1.sync, (run_refines ops).2.1]

/-- C11: `find_connected` returns exactly the nodes with a simple path whose length is in the range, each once.  The only
rejected input is the bound `Excluded(0)`. -/
theorem C11_find_connected (a : N) (min : Nat) (max : Bnd Nat) (hmax : max ≠ .excluded 0) :
    ∃ l, (run ops).findConnected a min max = some l ∧ l.Nodup ∧
      ∀ b, b ∈ l ↔ ∃ d, Walk.SimplePath (fun x y => (spec ops).edge x y = true) a b d ∧ Within min max d := by
  obtain ⟨m, hm⟩ : ∃ m, maxDistance max = some m := by
    unfold maxDistance
    cases max with
    | unbounded => exact ⟨_, rfl⟩
    | included k => exact ⟨_, rfl⟩
    | excluded k =>
      simp only
      have : k ≠ 0 := fun e => hmax (by rw [e])
      exact ⟨k - 1, by simp [this]⟩
  refine ⟨_, by unfold findConnected; rw [hm]; rfl, nodup_firstVisits _ _, ?_⟩
  intro b
  rw [mem_firstVisits]
  simp only [List.not_mem_nil, not_false_eq_true, true_and, mem_steps_out]
  constructor
  · rintro ⟨d, hp, hc⟩; exact ⟨d, hp, (within_max hm (simplePath_le hp)).1 hc⟩
  · rintro ⟨d, hp, hc⟩; exact ⟨d, hp, (within_max hm (simplePath_le hp)).2 hc⟩

/-- C11: the inverse search is the same relation with the arguments exchanged. -/
theorem C11_find_connected_inverse (a : N) (min : Nat) (max : Bnd Nat) (hmax : max ≠ .excluded 0) :
    ∃ l, (run ops).findConnectedInverse a min max = some l ∧ l.Nodup ∧
      ∀ b, b ∈ l ↔ ∃ d, Walk.SimplePath (fun x y => (spec ops).edge x y = true) b a d ∧ Within min max d := by
  obtain ⟨m, hm⟩ : ∃ m, maxDistance max = some m := by
    unfold maxDistance
    cases max with
    | unbounded => exact ⟨_, rfl⟩
    | included k => exact ⟨_, rfl⟩
    | excluded k =>
      simp only
      have : k ≠ 0 := fun e => hmax (by rw [e])
      exact ⟨k - 1, by simp [this]⟩
  refine ⟨_, by unfold findConnectedInverse; rw [hm]; rfl, nodup_firstVisits _ _, ?_⟩
  intro b
  rw [mem_firstVisits]
  simp only [List.not_mem_nil, not_false_eq_true, true_and, mem_steps_inn]
  constructor
  · rintro ⟨d, hp, hc⟩; exact ⟨d, hp, (within_max hm (simplePath_le hp)).1 hc⟩
  · rintro ⟨d, hp, hc⟩; exact ⟨d, hp, (within_max hm (simplePath_le hp)).2 hc⟩

/-- C11: `is_connected` holds iff there is a simple path whose length is in the range. -/
theorem C11_is_connected (a b : N) (min : Nat) (max : Bnd Nat) (hmax : max ≠ .excluded 0) :
    ∃ r, (run ops).isConnected a b min max = some r ∧
      (r = true ↔ ∃ d, Walk.SimplePath (fun x y => (spec ops).edge x y = true) a b d ∧ Within min max d) := by
  obtain ⟨m, hm⟩ : ∃ m, maxDistance max = some m := by
    unfold maxDistance
    cases max with
    | unbounded => exact ⟨_, rfl⟩
    | included k => exact ⟨_, rfl⟩
    | excluded k =>
      simp only
      have : k ≠ 0 := fun e => hmax (by rw [e])
      exact ⟨k - 1, by simp [this]⟩
  refine ⟨_, by unfold isConnected; rw [hm]; rfl, ?_⟩
  rw [List.any_eq_true]
  constructor
  · rintro ⟨⟨n, d⟩, hp, hc⟩
    simp only [decide_eq_true_eq] at hc
    subst hc
    rw [mem_steps_out] at hp
    exact ⟨d, hp.1, (within_max hm (simplePath_le hp.1)).1 hp.2⟩
  · rintro ⟨d, hp, hc⟩
    exact ⟨(b, d), (mem_steps_out ops a b min d m).2 ⟨hp, (within_max hm (simplePath_le hp)).2 hc⟩, by simp⟩

/-- C11: without bounds `find_connected` is reachability. -/
theorem C11_unbounded_is_reachability (a : N) :
    ∃ l, (run ops).findConnected a 0 .unbounded = some l ∧
      ∀ b, b ∈ l ↔ Relation.ReflTransGen (fun x y => (spec ops).edge x y = true) a b := by
  obtain ⟨l, h1, _, h2⟩ := C11_find_connected ops a 0 .unbounded (by simp)
  refine ⟨l, h1, ?_⟩
  intro b
  rw [h2, Walk.reach_iff_simple]
  simp [Within]

/-- C11 fails for the bound `Excluded(0)` (an empty range): the subtraction underflows instead of an empty result. -/
theorem C11_excluded_zero_fails (g : Adj N S W) (a : N) (min : Nat) : g.findConnected a min (.excluded 0) = none := rfl

/-! ## C12 -/

/-- C12, restricted: `distance` is `None` iff the target is not reachable; otherwise it is the length of some simple path,
so at least the shortest distance.  Missing: it need not be the shortest one (`C12_distance_fails`). -/
theorem C12_distance_partial (a b : N) :
    ((run ops).distance a b = none ↔ ¬ Relation.ReflTransGen (fun x y => (spec ops).edge x y = true) a b) ∧
    ∀ d, (run ops).distance a b = some d → Walk.SimplePath (fun x y => (spec ops).edge x y = true) a b d := by
  constructor
  · unfold distance
    rw [Option.map_eq_none_iff, List.find?_eq_none, Walk.reach_iff_simple]
    constructor
    · rintro h ⟨d, hp⟩
      have := h (b, d) ((mem_steps_out ops a b 0 d usizeMax).2 ⟨hp, Nat.zero_le _, simplePath_le hp⟩)
      simp at this
    · rintro h ⟨n, d⟩ hx
      simp only [decide_eq_true_eq]
      rintro rfl
      exact h ⟨d, ((mem_steps_out ops a b 0 d usizeMax).1 hx).1⟩
  · intro d hd
    unfold distance at hd
    rw [Option.map_eq_some_iff] at hd
    obtain ⟨⟨n, e⟩, hf, rfl⟩ := hd
    have h1 := List.mem_of_find?_eq_some hf
    have h2 := List.find?_some hf
    simp only [decide_eq_true_eq] at h2
    subst h2
    exact ((mem_steps_out ops a b 0 e usizeMax).1 h1).1

/-- In a relation with at most one predecessor per node, simple paths between two nodes have the same length. -/
theorem simplePath_unique {E : N → N → Prop} (hE : ∀ x y z, E x z → E y z → x = y) :
    ∀ (d e : Nat) (a b : N), Walk.SimplePath E a b d → Walk.SimplePath E a b e → d = e := by
  have key : ∀ (d e : Nat) (a b : N), d < e → Walk.SimplePath E a b d → Walk.SimplePath E a b e → False := by
    rintro d e a b hlt ⟨p, ⟨p1, p2, p3⟩, pn, pl⟩ ⟨q, ⟨q1, q2, q3⟩, qn, ql⟩
    -- going backwards from the end both paths agree
    have agree : ∀ i, i ≤ d → p[d - i]? = q[e - i]? := by
      intro i
      induction i with
      | zero =>
        intro _
        rw [List.getLast?_eq_getElem?] at p2 q2
        rw [pl] at p2; rw [ql] at q2
        simp only [Nat.add_sub_cancel] at p2 q2
        rw [Nat.sub_zero, Nat.sub_zero, p2, q2]
      | succ i ih =>
        intro hi
        have h1 := ih (by omega)
        have a1 := List.isChain_iff_getElem.1 p3 (d - (i + 1)) (by omega)
        have a2 := List.isChain_iff_getElem.1 q3 (e - (i + 1)) (by omega)
        have e1 : d - (i + 1) + 1 = d - i := by omega
        have e2 : e - (i + 1) + 1 = e - i := by omega
        simp only [e1] at a1
        simp only [e2] at a2
        rw [List.getElem?_eq_getElem (by omega), List.getElem?_eq_getElem (by omega)] at h1
        injection h1 with h1
        rw [h1] at a1
        rw [List.getElem?_eq_getElem (by omega), List.getElem?_eq_getElem (by omega)]
        rw [hE _ _ _ a1 a2]
    have h0 := agree d (Nat.le_refl d)
    rw [Nat.sub_self] at h0
    rw [List.head?_eq_getElem?] at p1 q1
    rw [p1, ← q1] at h0
    rw [List.getElem?_eq_getElem (by omega), List.getElem?_eq_getElem (by omega)] at h0
    injection h0 with h0
    have := (List.Nodup.getElem_inj_iff qn).1 h0
    omega
  intro d e a b h1 h2
  rcases Nat.lt_trichotomy d e with h | h | h
  · exact (key d e a b h h1 h2).elim
  · exact h
  · exact (key e d a b h h2 h1).elim

/-- C12 holds if no node has two ingoing edges: `distance` is the length of a shortest walk. -/
theorem C12_distance_shortest_partial
    (hE : ∀ x y z, (spec ops).edge x z = true → (spec ops).edge y z = true → x = y) (a b : N) (d : Nat)
    (hd : (run ops).distance a b = some d) :
    Walk.WalkLen (fun x y => (spec ops).edge x y = true) a b d ∧
    ∀ e, Walk.WalkLen (fun x y => (spec ops).edge x y = true) a b e → d ≤ e := by
  have hs := (C12_distance_partial ops a b).2 d hd
  refine ⟨hs.walk, ?_⟩
  intro e he
  classical
  have hex : ∃ e, Walk.WalkLen (fun x y => (spec ops).edge x y = true) a b e := ⟨e, he⟩
  have hm := Walk.simple_of_shortest (Nat.find_spec hex) (fun d' hd => Nat.find_min' hex hd)
  rw [simplePath_unique hE _ _ _ _ hs hm]
  exact Nat.find_min' hex he

end

/-- C12 fails: in the graph 0 → 1, 0 → 2, 2 → 1 the distance from 0 to 1 is reported as 2. -/
theorem C12_distance_fails :
    let ops : List (Op NodeID64 Nat Nat) := [.addEdge 0 1, .addEdge 0 2, .addEdge 2 1]
    (run ops).distance 0 1 = some 2 ∧ Walk.WalkLen (fun x y => (spec ops).edge x y = true) 0 1 1 := by
  refine ⟨by decide, ?_⟩
  rw [Walk.walkLen_succ]
  exact ⟨1, by decide, Walk.walkLen_zero.2 rfl⟩

/-! ## Non-vacuity -/

def demo : List (Op NodeID64 Nat Nat) :=
  [.addEdge 0 1, .addEdge 1 2, .addEdge 2 0, .addEdge 3 4, .addAnno 0 1 (AnnoKey.mk 1 2) 9, .addEdge 1 5, .deleteEdge 1 5,
    .deleteNode 4, .addEdge 7 7]

example : (run demo).findConnected 0 1 .unbounded = some [1, 2] ∧ (run demo).findConnectedInverse 0 1 (.excluded 2) = some [2] ∧
    (run demo).distance 0 2 = some 2 ∧ (spec demo).edge 2 0 = true ∧ (spec demo).edge 3 4 = false ∧
    (run demo).annos.getValue (toLex (0, 1)) (AnnoKey.mk 1 2) = some 9 := by decide

end Adj
