import Verif.Rel.Model

/-!
# Event lists without deletions, and maps filled from tables
-/

set_option linter.unusedSimpArgs false
set_option linter.unusedSectionVars false

namespace Rel

section
variable {S V C : Type} [LinearOrder S] [OrderBot S] [LinearOrder V] [LinearOrder C] {nk tk : AnnoKey S}

/-- The event adds something. -/
def Adds : Event S V C → Prop
  | .addNode .. => True
  | .addNodeLabel .. => True
  | .addEdge .. => True
  | .addEdgeLabel .. => True
  | _ => False

/-- A node with this name is added. -/
def AddsNode (evs : List (Event S V C)) (n : V) : Prop := ∃ ty, Event.addNode n ty ∈ evs

/-- The nodes (and edges) which an event refers to were added by the events before. -/
def Known (before : List (Event S V C)) : Event S V C → Prop
  | .addNodeLabel n _ _ => AddsNode before n
  | .addEdge s t _ => AddsNode before s ∧ AddsNode before t
  | .addEdgeLabel s t c _ _ => Event.addEdge s t c ∈ before
  | _ => True

/-- Every event only adds, and refers to what exists at that moment. -/
def Closed (evs : List (Event S V C)) : Prop := ∀ a e b, evs = a ++ e :: b → Adds e ∧ Known a e

/-- The same, after other events. -/
def ClosedAfter (before evs : List (Event S V C)) : Prop := ∀ a e b, evs = a ++ e :: b → Adds e ∧ Known (before ++ a) e

theorem Closed.of_after {evs : List (Event S V C)} (h : ClosedAfter [] evs) : Closed evs := h

theorem AddsNode.mono {a b : List (Event S V C)} (h : ∀ e ∈ a, e ∈ b) {n : V} : AddsNode a n → AddsNode b n := by
  rintro ⟨ty, hm⟩; exact ⟨ty, h _ hm⟩

theorem Known.mono {a b : List (Event S V C)} (h : ∀ e ∈ a, e ∈ b) {e : Event S V C} (hk : Known a e) : Known b e := by
  cases e with
  | addNodeLabel n k v => exact AddsNode.mono h hk
  | addEdge s t c => exact ⟨AddsNode.mono h hk.1, AddsNode.mono h hk.2⟩
  | addEdgeLabel s t c k v => exact h _ hk
  | _ => trivial

theorem closedAfter_nil (b : List (Event S V C)) : ClosedAfter b [] := fun a e c h => by simp at h

theorem closedAfter_append {b x y : List (Event S V C)} (h1 : ClosedAfter b x) (h2 : ClosedAfter (b ++ x) y) :
    ClosedAfter b (x ++ y) := by
  intro a e c h
  rw [List.append_eq_append_iff] at h
  rcases h with ⟨a', h3, h4⟩ | ⟨c', h3, h4⟩
  · subst h3
    have := h2 a' e c h4
    rwa [List.append_assoc] at this
  · cases c' with
    | nil =>
      have := h2 [] e c (by simpa using h4.symm)
      simp at h3
      subst h3
      simpa using this
    | cons e' c' =>
      rw [List.cons_append, List.cons.injEq] at h4
      obtain ⟨rfl, h4⟩ := h4
      exact h1 a e c' h3

theorem closedAfter_cons {b y : List (Event S V C)} {e : Event S V C} (h1 : Adds e) (h2 : Known b e)
    (h3 : ClosedAfter (b ++ [e]) y) : ClosedAfter b (e :: y) := by
  have : e :: y = [e] ++ y := rfl
  rw [this]
  refine closedAfter_append ?_ h3
  intro a f c h
  cases a with
  | nil =>
    simp at h
    obtain ⟨rfl, _⟩ := h
    exact ⟨h1, by simpa using h2⟩
  | cons g a => simp at h

/-- If the events only refer to what was added before all of them, they can be in any order. -/
theorem closedAfter_of_known {b x : List (Event S V C)} (h : ∀ e ∈ x, Adds e ∧ Known b e) : ClosedAfter b x := by
  intro a e c hx
  have := h e (by rw [hx]; simp)
  exact ⟨this.1, this.2.mono fun f hf => by simp [hf]⟩

theorem closedAfter_flatMap {X : Type} {b : List (Event S V C)} {l : List X} {f : X → List (Event S V C)}
    (h : ∀ x ∈ l, ClosedAfter b (f x)) : ClosedAfter b (l.flatMap f) := by
  induction l generalizing b with
  | nil => exact closedAfter_nil b
  | cons x l ih =>
    rw [List.flatMap_cons]
    refine closedAfter_append (h x (by simp)) (ih fun y hy => ?_)
    intro a e c hx
    have := h y (by simp [hy]) a e c hx
    exact ⟨this.1, this.2.mono fun f hf => by simp at hf ⊢; tauto⟩

theorem ClosedAfter.mono {a b x : List (Event S V C)} (h : ∀ e ∈ a, e ∈ b) (hc : ClosedAfter a x) : ClosedAfter b x := by
  intro p e c hx
  have := hc p e c hx
  exact ⟨this.1, this.2.mono fun f hf => by simp at hf ⊢; rcases hf with hf | hf; exact Or.inl (h _ hf); exact Or.inr hf⟩

/-! ### The resulting graph -/

theorem step_node (m : GSpec S V C) {e : Event S V C} (h : Adds e) (x : V) :
    (m.step nk tk e).node x = true ↔ m.node x = true ∨ AddsNode [e] x := by
  cases e with
  | addNode n ty =>
    simp only [GSpec.step]
    split
    · rename_i hm
      constructor
      · exact Or.inl
      · rintro (h | ⟨t, ht⟩)
        · exact h
        · simp at ht; rw [ht.1]; exact hm
    · simp only []
      split
      · rename_i e
        subst e
        simp [AddsNode]
      · rename_i hx
        constructor
        · exact Or.inl
        · rintro (h | ⟨t, ht⟩)
          · exact h
          · simp at ht; exact absurd ht.1 hx
  | addNodeLabel n k v => simp [GSpec.step, AddsNode]
  | addEdge s t c => simp [GSpec.step, AddsNode]
  | addEdgeLabel s t c k v => simp [GSpec.step, AddsNode]
  | deleteNode => exact h.elim
  | deleteNodeLabel => exact h.elim
  | deleteEdge => exact h.elim
  | deleteEdgeLabel => exact h.elim

theorem run_append (m : GSpec S V C) (a b : List (Event S V C)) : m.run nk tk (a ++ b) = (m.run nk tk a).run nk tk b := by
  unfold GSpec.run; rw [List.foldl_append]

theorem run_node {evs : List (Event S V C)} (h : ∀ e ∈ evs, Adds e) (x : V) :
    ((GSpec.empty : GSpec S V C).run nk tk evs).node x = true ↔ AddsNode evs x := by
  induction evs using List.reverseRecOn with
  | nil => simp [GSpec.run, GSpec.empty, AddsNode]
  | append_singleton l e ih =>
    rw [run_append]
    change (GSpec.step nk tk _ e).node x = true ↔ _
    rw [step_node _ (h e (by simp)), ih fun f hf => h f (by simp [hf])]
    unfold AddsNode
    simp only [List.mem_append, List.mem_singleton]
    constructor
    · rintro (⟨t, ht⟩ | ⟨t, ht⟩)
      · exact ⟨t, Or.inl ht⟩
      · exact ⟨t, Or.inr ht⟩
    · rintro ⟨t, ht | ht⟩
      · exact Or.inl ⟨t, ht⟩
      · exact Or.inr ⟨t, ht⟩

theorem Closed.adds {evs : List (Event S V C)} (h : Closed evs) : ∀ e ∈ evs, Adds e := by
  intro e he
  obtain ⟨a, b, hx⟩ := List.append_of_mem he
  exact (h a e b hx).1

theorem Closed.left {a b : List (Event S V C)} (h : Closed (a ++ b)) : Closed a := by
  intro p e q hx
  exact h p e (q ++ b) (by rw [hx]; simp)

/-- All edge events for this edge come after their nodes. -/
def EdgeKnown (evs : List (Event S V C)) (x y : V) (c : C) : Prop :=
  ∀ a b, evs = a ++ Event.addEdge x y (some c) :: b → AddsNode a x ∧ AddsNode a y

/-- All label events for this node and key come after the node. -/
def LabelKnown (evs : List (Event S V C)) (n : V) (k : AnnoKey S) : Prop :=
  ∀ a v b, evs = a ++ Event.addNodeLabel n k v :: b → AddsNode a n

/-- All label events for this edge come after the edge. -/
def EdgeLabelKnown (evs : List (Event S V C)) (x y : V) (c : C) : Prop :=
  ∀ a k v b, evs = a ++ Event.addEdgeLabel x y (some c) k v :: b → Event.addEdge x y (some c) ∈ a

theorem EdgeKnown.left {a b : List (Event S V C)} {x y : V} {c : C} (h : EdgeKnown (a ++ b) x y c) : EdgeKnown a x y c :=
  fun p q e => h p (q ++ b) (by rw [e]; simp)

theorem LabelKnown.left {a b : List (Event S V C)} {n : V} {k : AnnoKey S} (h : LabelKnown (a ++ b) n k) : LabelKnown a n k :=
  fun p v q e => h p v (q ++ b) (by rw [e]; simp)

theorem EdgeLabelKnown.left {a b : List (Event S V C)} {x y : V} {c : C} (h : EdgeLabelKnown (a ++ b) x y c) :
    EdgeLabelKnown a x y c :=
  fun p k v q e => h p k v (q ++ b) (by rw [e]; simp)

theorem Closed.edgeKnown {evs : List (Event S V C)} (h : Closed evs) (x y : V) (c : C) : EdgeKnown evs x y c :=
  fun a b e => (h a _ b e).2

theorem Closed.labelKnown {evs : List (Event S V C)} (h : Closed evs) (n : V) (k : AnnoKey S) : LabelKnown evs n k :=
  fun a _ b e => (h a _ b e).2

theorem Closed.edgeLabelKnown {evs : List (Event S V C)} (h : Closed evs) (x y : V) (c : C) : EdgeLabelKnown evs x y c :=
  fun a _ _ b e => (h a _ b e).2

/-- An event which does not occur in the first part comes after all of it. -/
theorem mem_before {X : Type} {p r a b : List X} {e : X} (h : p ++ r = a ++ e :: b) (he : e ∉ p) : ∀ z ∈ p, z ∈ a := by
  intro z hz
  rw [List.append_eq_append_iff] at h
  rcases h with ⟨a', h3, h4⟩ | ⟨c', h3, h4⟩
  · rw [h3]; simp [hz]
  · cases c' with
    | nil => rw [List.append_nil] at h3; rw [← h3]; exact hz
    | cons w c' =>
      rw [List.cons_append, List.cons.injEq] at h4
      exact absurd (by rw [h3, ← h4.1]; simp) he

/-- In the graph there are exactly the edges of the events, except self edges. -/
theorem run_edge {evs : List (Event S V C)} (hA : ∀ e ∈ evs, Adds e) (c : C) (x y : V) (h : EdgeKnown evs x y c) :
    ((GSpec.empty : GSpec S V C).run nk tk evs).edge c x y = true ↔ Event.addEdge x y (some c) ∈ evs ∧ x ≠ y := by
  induction evs using List.reverseRecOn with
  | nil => simp [GSpec.run, GSpec.empty]
  | append_singleton l e ih =>
    have hA' : ∀ e ∈ l, Adds e := fun e he => hA e (by simp [he])
    have ih := ih hA' h.left
    have ha := hA e (by simp)
    rw [run_append]
    change (GSpec.step nk tk _ e).edge c x y = true ↔ _
    cases e with
    | addNode n ty =>
      refine Iff.trans ?_ (ih.trans (by simp))
      simp only [GSpec.step]
      split <;> rfl
    | addNodeLabel n k v => exact Iff.trans Iff.rfl (ih.trans (by simp))
    | addEdgeLabel s t d k v => exact Iff.trans Iff.rfl (ih.trans (by simp))
    | addEdge s t d =>
      simp only [GSpec.step]
      split
      · rename_i hh
        obtain ⟨rfl, rfl, rfl, _, _, hne⟩ := hh
        simp [hne]
      · rename_i hh
        rw [ih]
        simp only [List.mem_append, List.mem_singleton, Event.addEdge.injEq]
        constructor
        · rintro ⟨h3, h4⟩; exact ⟨Or.inl h3, h4⟩
        · rintro ⟨h3 | ⟨rfl, rfl, rfl⟩, h4⟩
          · exact ⟨h3, h4⟩
          · have hk := h l [] rfl
            exact absurd ⟨rfl, rfl, rfl, (run_node (nk := nk) (tk := tk) hA' x).2 hk.1,
              (run_node (nk := nk) (tk := tk) hA' y).2 hk.2, h4⟩ hh
    | deleteNode => exact ha.elim
    | deleteNodeLabel => exact ha.elim
    | deleteEdge => exact ha.elim
    | deleteEdgeLabel => exact ha.elim

/-- A label which is set by the events to one value has this value. -/
theorem run_label {evs : List (Event S V C)} (hA : ∀ e ∈ evs, Adds e) (n : V) (k : AnnoKey S) (v : V) (h : LabelKnown evs n k)
    (hm : Event.addNodeLabel n k v ∈ evs) (hu : ∀ w, Event.addNodeLabel n k w ∈ evs → w = v) :
    ((GSpec.empty : GSpec S V C).run nk tk evs).label n k = some v := by
  induction evs using List.reverseRecOn with
  | nil => simp at hm
  | append_singleton l e ih =>
    have hA' : ∀ e ∈ l, Adds e := fun e he => hA e (by simp [he])
    have ha := hA e (by simp)
    rw [run_append]
    change (GSpec.step nk tk _ e).label n k = some v
    have hu' : ∀ w, Event.addNodeLabel n k w ∈ l → w = v := fun w hw => hu w (by simp [hw])
    have ih := fun hm => ih hA' h.left hm hu'
    simp only [List.mem_append, List.mem_singleton] at hm
    cases e with
    | addNode n' ty =>
      have hm : Event.addNodeLabel n k v ∈ l := by simpa using hm
      have hi := ih hm
      obtain ⟨a, b, hx⟩ := List.append_of_mem hm
      have hn : AddsNode l n := (h.left a v b hx).mono (by rw [hx]; simp; tauto)
      have hn := (run_node (nk := nk) (tk := tk) hA' n).2 hn
      simp only [GSpec.step]
      split
      · exact hi
      · rename_i hh
        simp only []
        rw [if_neg]
        · exact hi
        · rintro rfl; exact hh hn
    | addNodeLabel n' k' v' =>
      simp only [GSpec.step]
      split
      · rename_i hh
        obtain ⟨rfl, rfl, _⟩ := hh
        rw [hu v' (by simp)]
      · rename_i hh
        rcases hm with hm | hm
        · exact ih hm
        · simp only [Event.addNodeLabel.injEq] at hm
          obtain ⟨rfl, rfl, rfl⟩ := hm
          exact absurd ⟨rfl, rfl, (run_node (nk := nk) (tk := tk) hA' n).2 (h l v [] rfl)⟩ hh
    | addEdge s t d => exact ih (by simpa using hm)
    | addEdgeLabel s t d k' v' => exact ih (by simpa using hm)
    | deleteNode => exact ha.elim
    | deleteNodeLabel => exact ha.elim
    | deleteEdge => exact ha.elim
    | deleteEdgeLabel => exact ha.elim

/-- A label which no event sets does not exist, unless it is the name or the type. -/
theorem run_label_none {evs : List (Event S V C)} (hA : ∀ e ∈ evs, Adds e) (n : V) (k : AnnoKey S) (h1 : k ≠ nk) (h2 : k ≠ tk)
    (hu : ∀ w, Event.addNodeLabel n k w ∉ evs) : ((GSpec.empty : GSpec S V C).run nk tk evs).label n k = none := by
  induction evs using List.reverseRecOn with
  | nil => rfl
  | append_singleton l e ih =>
    have hA' : ∀ e ∈ l, Adds e := fun e he => hA e (by simp [he])
    have ha := hA e (by simp)
    have hi := ih hA' fun w hw => hu w (by simp [hw])
    rw [run_append]
    change (GSpec.step nk tk _ e).label n k = none
    cases e with
    | addNode n' ty =>
      simp only [GSpec.step]
      split
      · exact hi
      · simp only []
        split
        · simp [h1, h2]
        · exact hi
    | addNodeLabel n' k' v' =>
      simp only [GSpec.step]
      rw [if_neg]
      · exact hi
      · rintro ⟨rfl, rfl, _⟩; exact hu v' (by simp)
    | addEdge s t d => exact hi
    | addEdgeLabel s t d k' v' => exact hi
    | deleteNode => exact ha.elim
    | deleteNodeLabel => exact ha.elim
    | deleteEdge => exact ha.elim
    | deleteEdgeLabel => exact ha.elim

/-- The type of a node is the one of its only `addNode` type, if no label event changes it. -/
theorem run_type {evs : List (Event S V C)} (hA : ∀ e ∈ evs, Adds e) (hne : nk ≠ tk) (n ty : V) (hm : Event.addNode n ty ∈ evs)
    (hu : ∀ t, Event.addNode n t ∈ evs → t = ty) (hl : ∀ w, Event.addNodeLabel n tk w ∉ evs) :
    ((GSpec.empty : GSpec S V C).run nk tk evs).label n tk = some ty := by
  induction evs using List.reverseRecOn with
  | nil => simp at hm
  | append_singleton l e ih =>
    have hA' : ∀ e ∈ l, Adds e := fun e he => hA e (by simp [he])
    have ha := hA e (by simp)
    rw [run_append]
    change (GSpec.step nk tk _ e).label n tk = some ty
    have hu' : ∀ t, Event.addNode n t ∈ l → t = ty := fun w hw => hu w (by simp [hw])
    have hl' : ∀ w, Event.addNodeLabel n tk w ∉ l := fun w hw => hl w (by simp [hw])
    have ih := fun hm => ih hA' hm hu' hl'
    simp only [List.mem_append, List.mem_singleton] at hm
    cases e with
    | addNode n' ty' =>
      simp only [GSpec.step]
      split
      · rename_i hh
        rcases hm with hm | hm
        · exact ih hm
        · simp at hm
          obtain ⟨rfl, rfl⟩ := hm
          obtain ⟨t, ht⟩ := (run_node (nk := nk) (tk := tk) hA' n).1 hh
          have := hu' t ht
          subst this
          exact ih ht
      · rename_i hh
        simp only []
        split
        · rename_i e
          subst e
          simp [Ne.symm hne, hu ty' (by simp)]
        · rename_i e
          rcases hm with hm | hm
          · exact ih hm
          · simp at hm; exact absurd hm.1 e
    | addNodeLabel n' k' v' =>
      simp only [GSpec.step]
      rw [if_neg]
      · exact ih (by simpa using hm)
      · rintro ⟨rfl, rfl, _⟩; exact hl v' (by simp)
    | addEdge s t d => exact ih (by simpa using hm)
    | addEdgeLabel s t d k' v' => exact ih (by simpa using hm)
    | deleteNode => exact ha.elim
    | deleteNodeLabel => exact ha.elim
    | deleteEdge => exact ha.elim
    | deleteEdgeLabel => exact ha.elim

/-- An edge label which is set by the events to one value has this value. -/
theorem run_eanno {evs : List (Event S V C)} (hA : ∀ e ∈ evs, Adds e) (c : C) (x y : V) (hxy : x ≠ y) (k : AnnoKey S) (v : V)
    (h : EdgeKnown evs x y c) (h' : EdgeLabelKnown evs x y c)
    (hm : Event.addEdgeLabel x y (some c) k v ∈ evs) (hu : ∀ w, Event.addEdgeLabel x y (some c) k w ∈ evs → w = v) :
    ((GSpec.empty : GSpec S V C).run nk tk evs).eanno c x y k = some v := by
  induction evs using List.reverseRecOn with
  | nil => simp at hm
  | append_singleton l e ih =>
    have hA' : ∀ e ∈ l, Adds e := fun e he => hA e (by simp [he])
    have ha := hA e (by simp)
    rw [run_append]
    change (GSpec.step nk tk _ e).eanno c x y k = some v
    have hu' : ∀ w, Event.addEdgeLabel x y (some c) k w ∈ l → w = v := fun w hw => hu w (by simp [hw])
    have ih := fun hm => ih hA' h.left h'.left hm hu'
    simp only [List.mem_append, List.mem_singleton] at hm
    cases e with
    | addNode n' ty =>
      have := ih (by simpa using hm)
      simp only [GSpec.step]
      split <;> exact this
    | addNodeLabel n' k' v' => exact ih (by simpa using hm)
    | addEdge s t d => exact ih (by simpa using hm)
    | addEdgeLabel s t d k' v' =>
      simp only [GSpec.step]
      split
      · rename_i hh
        obtain ⟨rfl, rfl, rfl, rfl, _⟩ := hh
        rw [hu v' (by simp)]
      · rename_i hh
        rcases hm with hm | hm
        · exact ih hm
        · simp only [Event.addEdgeLabel.injEq] at hm
          obtain ⟨rfl, rfl, rfl, rfl, rfl⟩ := hm
          exact absurd ⟨rfl, rfl, rfl, rfl, (run_edge hA' c x y h.left).2 ⟨h' l _ _ [] rfl, hxy⟩⟩ hh
    | deleteNode => exact ha.elim
    | deleteNodeLabel => exact ha.elim
    | deleteEdge => exact ha.elim
    | deleteEdgeLabel => exact ha.elim

theorem run_eanno_none {evs : List (Event S V C)} (hA : ∀ e ∈ evs, Adds e) (c : C) (x y : V) (k : AnnoKey S)
    (hu : ∀ w, Event.addEdgeLabel x y (some c) k w ∉ evs) : ((GSpec.empty : GSpec S V C).run nk tk evs).eanno c x y k = none := by
  induction evs using List.reverseRecOn with
  | nil => rfl
  | append_singleton l e ih =>
    have hA' : ∀ e ∈ l, Adds e := fun e he => hA e (by simp [he])
    have ha := hA e (by simp)
    have hi := ih hA' fun w hw => hu w (by simp [hw])
    rw [run_append]
    change (GSpec.step nk tk _ e).eanno c x y k = none
    cases e with
    | addNode n' ty => simp only [GSpec.step]; split <;> exact hi
    | addNodeLabel n' k' v' => exact hi
    | addEdge s t d => exact hi
    | addEdgeLabel s t d k' v' =>
      simp only [GSpec.step]
      rw [if_neg]
      · exact hi
      · rintro ⟨rfl, rfl, rfl, rfl, _⟩; exact hu v' (by simp)
    | deleteNode => exact ha.elim
    | deleteNodeLabel => exact ha.elim
    | deleteEdge => exact ha.elim
    | deleteEdgeLabel => exact ha.elim

end

/-! ### Maps filled in a loop -/

section
variable {R K V : Type} [LinearOrder K] {f : R → Option (K × V)}

theorem collect_append (f : R → Option (K × V)) (a : List R) (r : R) :
    collect f (a ++ [r]) = match f r with
      | some p => (collect f a).insert p.1 p.2
      | none => collect f a := by
  unfold collect; rw [List.foldl_append]; rfl

theorem sorted_collect (f : R → Option (K × V)) (rows : List R) : OMap.Sorted (collect f rows) := by
  induction rows using List.reverseRecOn with
  | nil => exact OMap.sorted_nil
  | append_singleton l r ih =>
    rw [collect_append]
    split
    · exact OMap.sorted_insert ih _ _
    · exact ih

/-- A value in the map comes from a row. -/
theorem of_get_collect {rows : List R} {k : K} {v : V} (h : (collect f rows).get k = some v) : ∃ r ∈ rows, f r = some (k, v) := by
  induction rows using List.reverseRecOn with
  | nil => simp [collect] at h
  | append_singleton l r ih =>
    rw [collect_append] at h
    split at h
    · rename_i p hp
      rw [OMap.get_insert] at h
      split at h
      · rename_i e
        refine ⟨r, by simp, ?_⟩
        rw [hp, e]
        cases h
        rfl
      · obtain ⟨r', hr, hf⟩ := ih h
        exact ⟨r', by simp [hr], hf⟩
    · obtain ⟨r', hr, hf⟩ := ih h
      exact ⟨r', by simp [hr], hf⟩

/-- If all rows with this key agree, the map has their value. -/
theorem get_collect {rows : List R} {r : R} (hr : r ∈ rows) {k : K} {v : V} (hf : f r = some (k, v))
    (hu : ∀ r' ∈ rows, ∀ w, f r' = some (k, w) → w = v) : (collect f rows).get k = some v := by
  cases h : (collect f rows).get k with
  | some w =>
    obtain ⟨r', hr', hf'⟩ := of_get_collect h
    rw [hu r' hr' w hf']
  | none =>
    exfalso
    clear hu
    induction rows using List.reverseRecOn with
    | nil => simp at hr
    | append_singleton l x ih =>
      rw [collect_append] at h
      simp only [List.mem_append, List.mem_singleton] at hr
      split at h
      · rename_i p hp
        rw [OMap.get_insert] at h
        split at h
        · cases h
        · rename_i hne
          rcases hr with hr | rfl
          · exact ih hr h
          · rw [hf] at hp; cases hp; exact hne rfl
      · rename_i hp
        rcases hr with hr | rfl
        · exact ih hr h
        · rw [hf] at hp; cases hp

theorem get_collect_none {rows : List R} {k : K} (h : ∀ r ∈ rows, ∀ v, f r ≠ some (k, v)) : (collect f rows).get k = none := by
  cases hg : (collect f rows).get k with
  | none => rfl
  | some v =>
    obtain ⟨r, hr, hf⟩ := of_get_collect hg
    exact absurd hf (h r hr v)

theorem mem_collect {rows : List R} {k : K} {v : V} : (k, v) ∈ collect f rows ↔ (collect f rows).get k = some v :=
  OMap.mem_iff_get (sorted_collect f rows)

end

theorem mapM_some_mem {X Y : Type} {f : X → Option Y} : ∀ {l : List X} {ys : List Y}, l.mapM f = some ys →
    ∀ y, y ∈ ys ↔ ∃ x ∈ l, f x = some y
  | [], ys, h, y => by
    simp at h
    subst h
    simp
  | x :: l, ys, h, y => by
    rw [List.mapM_cons] at h
    cases hx : f x with
    | none => rw [hx] at h; cases h
    | some y0 =>
      rw [hx] at h
      cases hl : l.mapM f with
      | none => rw [hl] at h; cases h
      | some ys0 =>
        rw [hl] at h
        cases h
        have ih := mapM_some_mem hl y
        simp only [List.mem_cons, ih, exists_eq_or_imp, hx, Option.some.injEq]
        constructor
        · rintro (rfl | h)
          · exact Or.inl rfl
          · exact Or.inr h
        · rintro (rfl | h)
          · exact Or.inl rfl
          · exact Or.inr h

theorem mapM_some_of {X Y : Type} {f : X → Option Y} : ∀ {l : List X} {ys : List Y}, l.mapM f = some ys → ∀ x ∈ l, ∃ y, f x = some y
  | [], _, _, x, hx => by cases hx
  | a :: l, ys, h, x, hx => by
    rw [List.mapM_cons] at h
    cases ha : f a with
    | none => rw [ha] at h; cases h
    | some y0 =>
      rw [ha] at h
      cases hl : l.mapM f with
      | none => rw [hl] at h; cases h
      | some ys0 =>
        rcases List.mem_cons.1 hx with rfl | hx
        · exact ⟨y0, ha⟩
        · exact mapM_some_of hl x hx

theorem mapM_exists {X Y : Type} {f : X → Option Y} : ∀ {l : List X}, (∀ x ∈ l, ∃ y, f x = some y) → ∃ ys, l.mapM f = some ys
  | [], _ => ⟨[], rfl⟩
  | a :: l, h => by
    obtain ⟨y, hy⟩ := h a (by simp)
    obtain ⟨ys, hys⟩ := mapM_exists (f := f) (l := l) fun x hx => h x (by simp [hx])
    exact ⟨y :: ys, by rw [List.mapM_cons, hy, hys]; rfl⟩

end Rel
