import Verif.Graph.Model
import Verif.Adj.Props
import Verif.Anno.Props

/-!
# Applying updates: the abstract graph and the refinement
-/

set_option linter.unusedSimpArgs false
set_option linter.unusedSectionVars false

/-- Specification: a graph whose nodes are their names. -/
structure GSpec (S V C : Type) where
  node : V → Bool
  label : V → AnnoKey S → Option V
  edge : C → V → V → Bool
  eanno : C → V → V → AnnoKey S → Option V

namespace GSpec

variable {S V C : Type} [LinearOrder S] [OrderBot S] [LinearOrder V] [LinearOrder C]

/-- The graph without nodes. -/
def empty : GSpec S V C := ⟨fun _ => false, fun _ _ => none, fun _ _ _ => false, fun _ _ _ _ => none⟩

/-- Specification of the events: a new node has its name and its type as labels; labels and edges are only added to existing
nodes, edge labels only to existing edges; there are no self edges; a deletion removes exactly the named element. -/
def step (nk tk : AnnoKey S) (m : GSpec S V C) : Event S V C → GSpec S V C
  | .addNode n ty =>
    if m.node n then m
    else { m with
      node := fun x => if x = n then true else m.node x
      label := fun x k => if x = n then (if k = nk then some n else if k = tk then some ty else none) else m.label x k }
  | .deleteNode n =>
    { node := fun x => if x = n then false else m.node x
      label := fun x k => if x = n then none else m.label x k
      edge := fun c x y => if x = n ∨ y = n then false else m.edge c x y
      eanno := fun c x y k => if x = n ∨ y = n then none else m.eanno c x y k }
  | .addNodeLabel n key val =>
    { m with label := fun x k => if x = n ∧ k = key ∧ m.node n then some val else m.label x k }
  | .deleteNodeLabel n key => { m with label := fun x k => if x = n ∧ k = key then none else m.label x k }
  | .addEdge s t c =>
    { m with edge := fun d x y => if some d = c ∧ x = s ∧ y = t ∧ m.node s ∧ m.node t ∧ s ≠ t then true else m.edge d x y }
  | .deleteEdge s t c =>
    { m with
      edge := fun d x y => if some d = c ∧ x = s ∧ y = t then false else m.edge d x y
      eanno := fun d x y k => if some d = c ∧ x = s ∧ y = t then none else m.eanno d x y k }
  | .addEdgeLabel s t c key val =>
    { m with eanno := fun d x y k => if some d = c ∧ x = s ∧ y = t ∧ k = key ∧ m.edge d s t then some val else m.eanno d x y k }
  | .deleteEdgeLabel s t c key =>
    { m with eanno := fun d x y k => if some d = c ∧ x = s ∧ y = t ∧ k = key then none else m.eanno d x y k }

def run (nk tk : AnnoKey S) (m : GSpec S V C) (u : List (Event S V C)) : GSpec S V C := u.foldl (step nk tk) m

end GSpec

/-- The event does not touch the label which holds the node names. -/
def Event.NoRename {S V C : Type} (nk : AnnoKey S) : Event S V C → Prop
  | .addNodeLabel _ key _ => key ≠ nk
  | .deleteNodeLabel _ key => key ≠ nk
  | _ => True

namespace Graph

variable {S V C : Type} [LinearOrder S] [OrderBot S] [LinearOrder V] [LinearOrder C]

/-- One edge operation on a consistent adjacency storage. -/
theorem adj_step {a : Adj NodeID64 S V} (h : Adj.Inv a) (op : Adj.Op NodeID64 S V) :
    Adj.Inv (a.step op) ∧
    Adj.Rep (a.step op) (Adj.specStep ⟨fun x y => decide (y ∈ a.out x), fun x y k => a.annos.getValue (toLex (x, y)) k⟩ op) :=
  Adj.step_refines h ⟨fun x y => by simp, fun _ _ _ => rfl⟩ op

/-- A path of length one is an edge. -/
theorem isConnected_one {a : Adj NodeID64 S V} (h : Adj.Inv a) (x y : NodeID64) :
    a.isConnected x y 1 (.included 1) = some true ↔ y ∈ a.out x := by
  unfold Adj.isConnected maxDistance
  simp only [Option.map_some, Option.some.injEq, List.any_eq_true, decide_eq_true_eq, Prod.exists]
  constructor
  · rintro ⟨n, d, hm, rfl⟩
    rw [Dfs.C10_steps 1 1 x false (Adj.covers_out a)] at hm
    obtain ⟨hp, h1, h2⟩ := hm
    have : d = 1 := by omega
    subst this
    obtain ⟨c, hc, he⟩ := Walk.walkLen_succ.1 hp.walk
    rw [Walk.walkLen_zero] at he
    rw [← he]
    exact hc
  · intro he
    refine ⟨y, 1, ?_, rfl⟩
    rw [Dfs.C10_steps 1 1 x false (Adj.covers_out a)]
    refine ⟨⟨[x, y], ?_, ?_, rfl⟩, le_refl _, le_refl _⟩
    · exact ⟨rfl, rfl, by simpa [Dfs.Edge] using he⟩
    · have : x ≠ y := fun e => h.irr x (by rw [← e] at he; exact he)
      simp [this]

variable (nk tk : AnnoKey S)

structure Inv (g : Graph S V C) : Prop where
  an : g.annos.Inv
  cs : g.comps.Sorted
  ci : ∀ c, Adj.Inv (g.comp c)
  uniq : ∀ i j n, g.annos.getValue i nk = some n → g.annos.getValue j nk = some n → i = j
  named : ∀ i k v, g.annos.getValue i k = some v → ∃ n, g.annos.getValue i nk = some n
  bound : ∀ c a b, b ∈ (g.comp c).out a → ∃ l, g.annos.largest = some l ∧ a ≤ l ∧ b ≤ l

/-- The graph represents the abstract graph. -/
structure Rep (g : Graph S V C) (m : GSpec S V C) : Prop where
  node : ∀ n, m.node n = true ↔ ∃ i, g.annos.getValue i nk = some n
  label : ∀ i n, g.annos.getValue i nk = some n → ∀ k, g.annos.getValue i k = m.label n k
  labelN : ∀ n k v, m.label n k = some v → m.node n = true
  edge : ∀ i j n n', g.annos.getValue i nk = some n → g.annos.getValue j nk = some n' →
    ∀ c, j ∈ (g.comp c).out i ↔ m.edge c n n' = true
  edgeN : ∀ c n n', m.edge c n n' = true → m.node n = true ∧ m.node n' = true
  eanno : ∀ i j n n', g.annos.getValue i nk = some n → g.annos.getValue j nk = some n' →
    ∀ c k, (g.comp c).annos.getValue (toLex (i, j)) k = m.eanno c n n' k
  eannoN : ∀ c n n' k v, m.eanno c n n' k = some v → m.edge c n n' = true

variable {nk tk} {g : Graph S V C} {m : GSpec S V C}

theorem idOf_iff (h : Inv nk g) (n : V) (i : NodeID64) :
    g.annos.nodeIdFromName nk n = some i ↔ g.annos.getValue i nk = some n := by
  obtain ⟨h1, h2, _⟩ := AnnoStore.nodeIdFromName_spec h.an nk n
  constructor
  · intro h; exact (h1 i h).1
  · intro hi
    cases hc : g.annos.nodeIdFromName nk n with
    | none => exact absurd hi (h2.1 hc i)
    | some j => rw [h.uniq i j n hi (h1 j hc).1]

theorem idOf_none (h : Inv nk g) (n : V) :
    g.annos.nodeIdFromName nk n = none ↔ ∀ i, g.annos.getValue i nk ≠ some n :=
  (AnnoStore.nodeIdFromName_spec h.an nk n).2.1

theorem has_iff (h : Inv nk g) (n : V) : g.annos.hasNodeName nk n = true ↔ ∃ i, g.annos.getValue i nk = some n :=
  (AnnoStore.nodeIdFromName_spec h.an nk n).2.2

theorem comp_setComp (g : Graph S V C) (c : C) (a : Adj NodeID64 S V) (d : C) :
    (g.setComp c a).comp d = if d = c then a else g.comp d := by
  unfold setComp comp
  simp only [OMap.get_insert]
  split <;> rfl

theorem le_largest (h : Inv nk g) {i : NodeID64} {k : AnnoKey S} {v : V} (hv : g.annos.getValue i k = some v) :
    ∃ l, g.annos.largest = some l ∧ i ≤ l := by
  obtain ⟨k, v, h1, h2, h3⟩ := (AnnoStore.getValue_iff h.an _ _ _).1 hv
  rw [h.an.mirror] at h3
  unfold AnnoStore.cell at h3
  cases hr : g.annos.byContainer.get i with
  | none => rw [hr] at h3; simp at h3
  | some row => exact h.an.larg i row hr

theorem rep_setComp (hI : Inv nk g) (hR : Rep nk g m) {c0 : C} {gs : Adj NodeID64 S V} (hA : Adj.Inv gs)
    (hb : ∀ a b, b ∈ gs.out a → b ∈ (g.comp c0).out a ∨
      (∃ n, g.annos.getValue a nk = some n) ∧ ∃ n, g.annos.getValue b nk = some n)
    (m' : GSpec S V C) (hnode : m'.node = m.node) (hlabel : m'.label = m.label)
    (hother : ∀ c, c ≠ c0 → m'.edge c = m.edge c ∧ m'.eanno c = m.eanno c)
    (he : ∀ i j n n', g.annos.getValue i nk = some n → g.annos.getValue j nk = some n' →
      (j ∈ gs.out i ↔ m'.edge c0 n n' = true))
    (ha : ∀ i j n n', g.annos.getValue i nk = some n → g.annos.getValue j nk = some n' →
      ∀ k, gs.annos.getValue (toLex (i, j)) k = m'.eanno c0 n n' k)
    (heN : ∀ n n', m'.edge c0 n n' = true → m.node n = true ∧ m.node n' = true)
    (haN : ∀ n n' k v, m'.eanno c0 n n' k = some v → m'.edge c0 n n' = true) :
    Inv nk (g.setComp c0 gs) ∧ Rep nk (g.setComp c0 gs) m' := by
  constructor
  · refine ⟨hI.an, OMap.sorted_insert hI.cs _ _, ?_, hI.uniq, hI.named, ?_⟩
    · intro c
      rw [comp_setComp]
      split
      · exact hA
      · exact hI.ci c
    · intro c a b hab
      rw [comp_setComp] at hab
      show ∃ l, g.annos.largest = some l ∧ _
      split at hab
      · rcases hb a b hab with h | ⟨⟨n, h1⟩, ⟨n', h2⟩⟩
        · exact hI.bound c0 a b h
        · obtain ⟨l, hl, h3⟩ := le_largest hI h1
          obtain ⟨l', hl', h4⟩ := le_largest hI h2
          rw [hl] at hl'
          obtain rfl := Option.some.inj hl'
          exact ⟨l, hl, h3, h4⟩
      · exact hI.bound c a b hab
  · refine ⟨by rw [hnode]; exact hR.node, by rw [hlabel]; exact hR.label, by rw [hlabel, hnode]; exact hR.labelN, ?_, ?_, ?_, ?_⟩
    · intro i j n n' h1 h2 c
      rw [comp_setComp]
      by_cases hc : c = c0
      · subst hc; rw [if_pos rfl]; exact he i j n n' h1 h2
      · rw [if_neg hc, (hother c hc).1]; exact hR.edge i j n n' h1 h2 c
    · intro c n n' h
      rw [hnode]
      by_cases hc : c = c0
      · subst hc; exact heN n n' h
      · rw [(hother c hc).1] at h; exact hR.edgeN c n n' h
    · intro i j n n' h1 h2 c
      rw [comp_setComp]
      by_cases hc : c = c0
      · subst hc; rw [if_pos rfl]; exact ha i j n n' h1 h2
      · rw [if_neg hc, (hother c hc).2]; exact hR.eanno i j n n' h1 h2 c
    · intro c n n' k v h
      by_cases hc : c = c0
      · subst hc; exact haN n n' k v h
      · rw [(hother c hc).2] at h
        rw [(hother c hc).1]; exact hR.eannoN c n n' k v h

/-- The effect of one event without the cache. -/
def core (nk tk : AnnoKey S) (all : List C) (g : Graph S V C) (e : Event S V C) : Option (Graph S V C) :=
  (applyEvent nk tk 0 all g [] e).map Prod.fst

theorem cachedId_nil (n : V) : cachedId nk 0 g [] n = (g.annos.nodeIdFromName nk n, []) := by
  simp [cachedId, IdCache.get, IdCache.put]

theorem cachedEnds_nil (s t : V) :
    cachedEnds nk 0 g [] s t = (g.annos.nodeIdFromName nk s, g.annos.nodeIdFromName nk t, []) := by
  simp [cachedEnds, cachedId_nil]

/-- An edge event. -/
theorem edit_step (hI : Inv nk g) (hR : Rep nk g m) (s t : V) (c : Option C)
    (f : Adj NodeID64 S V → NodeID64 → NodeID64 → Adj NodeID64 S V) (m' : GSpec S V C)
    (hnode : m'.node = m.node) (hlabel : m'.label = m.label)
    (hnone : (∀ c0 i j, c = some c0 → g.annos.getValue i nk = some s → g.annos.getValue j nk = some t → False) →
      m'.edge = m.edge ∧ m'.eanno = m.eanno)
    (hother : ∀ d, some d ≠ c → m'.edge d = m.edge d ∧ m'.eanno d = m.eanno d)
    (hf : ∀ c0 i j, c = some c0 → g.annos.getValue i nk = some s → g.annos.getValue j nk = some t →
      Adj.Inv (f (g.comp c0) i j) ∧
      (∀ a b, b ∈ (f (g.comp c0) i j).out a → b ∈ (g.comp c0).out a ∨ (a = i ∧ b = j)) ∧
      (∀ a b n n', g.annos.getValue a nk = some n → g.annos.getValue b nk = some n' →
        (b ∈ (f (g.comp c0) i j).out a ↔ m'.edge c0 n n' = true)) ∧
      (∀ a b n n', g.annos.getValue a nk = some n → g.annos.getValue b nk = some n' →
        ∀ k, (f (g.comp c0) i j).annos.getValue (toLex (a, b)) k = m'.eanno c0 n n' k))
    (heN : ∀ d n n', m'.edge d n n' = true → m.node n = true ∧ m.node n' = true)
    (haN : ∀ d n n' k v, m'.eanno d n n' k = some v → m'.edge d n n' = true) :
    Inv nk (g.editComp (g.annos.nodeIdFromName nk s) (g.annos.nodeIdFromName nk t) c f) ∧
    Rep nk (g.editComp (g.annos.nodeIdFromName nk s) (g.annos.nodeIdFromName nk t) c f) m' := by
  have same : (∀ c0 i j, c = some c0 → g.annos.getValue i nk = some s → g.annos.getValue j nk = some t → False) →
      Inv nk g ∧ Rep nk g m' := by
    intro h
    obtain ⟨h1, h2⟩ := hnone h
    refine ⟨hI, ?_⟩
    constructor
    · rw [hnode]; exact hR.node
    · rw [hlabel]; exact hR.label
    · rw [hlabel, hnode]; exact hR.labelN
    · rw [h1]; exact hR.edge
    · rw [h1, hnode]; exact hR.edgeN
    · rw [h2]; exact hR.eanno
    · rw [h1, h2]; exact hR.eannoN
  unfold editComp
  cases h1 : g.annos.nodeIdFromName nk s with
  | none =>
    simp only
    exact same fun _ i _ _ h _ => (idOf_none hI s).1 h1 i h
  | some i =>
    cases h2 : g.annos.nodeIdFromName nk t with
    | none =>
      simp only
      exact same fun _ _ j _ _ h => (idOf_none hI t).1 h2 j h
    | some j =>
      cases c with
      | none =>
        simp only
        exact same fun _ _ _ h _ _ => by cases h
      | some c0 =>
        simp only
        rw [idOf_iff hI] at h1 h2
        obtain ⟨f1, f2, f3, f4⟩ := hf c0 i j rfl h1 h2
        refine rep_setComp hI hR f1 ?_ m' hnode hlabel (fun c hc => hother c (by simpa using hc)) f3 f4 (heN c0) (haN c0)
        intro a b hab
        rcases f2 a b hab with h | ⟨rfl, rfl⟩
        · exact Or.inl h
        · exact Or.inr ⟨⟨_, h1⟩, ⟨_, h2⟩⟩

theorem foldl_deleteNode (hI : Inv nk g) (i : NodeID64) (all : List C) :
    let g' := all.foldl (fun g c => g.setComp c ((g.comp c).deleteNode i)) g
    g'.annos = g.annos ∧ g'.changeId = g.changeId ∧ g'.comps.Sorted ∧ (∀ c, Adj.Inv (g'.comp c)) ∧
    (∀ c a b, b ∈ (g'.comp c).out a ↔ b ∈ (g.comp c).out a ∧ ¬ (c ∈ all ∧ (a = i ∨ b = i))) ∧
    (∀ c a b k, (g'.comp c).annos.getValue (toLex (a, b)) k =
      if c ∈ all ∧ (a = i ∨ b = i) then none else (g.comp c).annos.getValue (toLex (a, b)) k) := by
  have H : ∀ (all : List C) (g : Graph S V C), g.comps.Sorted → (∀ c, Adj.Inv (g.comp c)) →
      let g' := all.foldl (fun g c => g.setComp c ((g.comp c).deleteNode i)) g
      g'.annos = g.annos ∧ g'.changeId = g.changeId ∧ g'.comps.Sorted ∧ (∀ c, Adj.Inv (g'.comp c)) ∧
      (∀ c a b, b ∈ (g'.comp c).out a ↔ b ∈ (g.comp c).out a ∧ ¬ (c ∈ all ∧ (a = i ∨ b = i))) ∧
      (∀ c a b k, (g'.comp c).annos.getValue (toLex (a, b)) k =
        if c ∈ all ∧ (a = i ∨ b = i) then none else (g.comp c).annos.getValue (toLex (a, b)) k) := by
    intro all
    induction all with
    | nil => intro g hs hc; exact ⟨rfl, rfl, hs, hc, by simp, by simp⟩
    | cons c0 r ih =>
      intro g hs hc
      obtain ⟨s1, s2, s3⟩ := adj_step (hc c0) (.deleteNode i)
      have hs' : (g.setComp c0 ((g.comp c0).deleteNode i)).comps.Sorted := OMap.sorted_insert hs _ _
      have hc' : ∀ c, Adj.Inv ((g.setComp c0 ((g.comp c0).deleteNode i)).comp c) := by
        intro c
        rw [comp_setComp]
        split
        · exact s1
        · exact hc c
      obtain ⟨r1, r2, r3, r4, r5, r6⟩ := ih _ hs' hc'
      refine ⟨r1, r2, r3, r4, ?_, ?_⟩
      · intro c a b
        simp only [List.foldl_cons]
        rw [r5, comp_setComp]
        by_cases e : c = c0
        · subst e
          rw [if_pos rfl]
          have := s2 a b
          simp only [Adj.step, Adj.specStep] at this
          rw [this]
          by_cases h : a = i ∨ b = i
          · simp [h]
          · simp [h]
        · rw [if_neg e]; simp [e]
      · intro c a b k
        simp only [List.foldl_cons]
        rw [r6, comp_setComp]
        by_cases e : c = c0
        · subst e
          rw [if_pos rfl]
          have := s3 a b k
          simp only [Adj.step, Adj.specStep] at this
          rw [this]
          by_cases h : a = i ∨ b = i
          · simp [h]
          · simp [h]
        · rw [if_neg e]; simp [e]
  exact H all g hI.cs hI.ci

end Graph
