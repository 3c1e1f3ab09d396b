import Verif.Index.Model
import Verif.Graph.Props
import Verif.Union.Props
import Verif.Sort.PermProps

/-!
# The text coverage index: effect of one event and of the invalidation
-/

set_option linter.unusedSimpArgs false
set_option linter.unusedSectionVars false
set_option linter.unusedVariables false

namespace Graph

variable {S V C : Type} [LinearOrder S] [OrderBot S] [LinearOrder V] [LinearOrder C]
variable {nk tk : AnnoKey S} {g g' : Graph S V C}

/-- The edges of a component. -/
def E (g : Graph S V C) (c : C) (a b : NodeID64) : Prop := b ∈ (g.comp c).out a

/-- The node exists. -/
def Named (nk : AnnoKey S) (g : Graph S V C) (i : NodeID64) : Prop := ∃ n, g.annos.getValue i nk = some n

/-- Every consistent graph represents some abstract graph. -/
theorem rep_exists (hI : Inv nk g) : ∃ m, Rep nk g m := by
  classical
  refine ⟨⟨fun n => decide (∃ i, g.annos.getValue i nk = some n),
    fun n k => (g.annos.nodeIdFromName nk n).bind fun i => g.annos.getValue i k,
    fun c n n' => decide (∃ i j, g.annos.getValue i nk = some n ∧ g.annos.getValue j nk = some n' ∧ j ∈ (g.comp c).out i),
    fun c n n' k => (g.annos.nodeIdFromName nk n).bind fun i => (g.annos.nodeIdFromName nk n').bind fun j =>
      (g.comp c).annos.getValue (toLex (i, j)) k⟩, ?_, ?_, ?_, ?_, ?_, ?_, ?_⟩
  · intro n; simp
  · intro i n hi k
    simp [(idOf_iff hI n i).2 hi]
  · intro n k v h
    simp only [Option.bind_eq_some_iff] at h
    obtain ⟨i, hi, _⟩ := h
    simp only [decide_eq_true_eq]
    exact ⟨i, (idOf_iff hI n i).1 hi⟩
  · intro i j n n' hi hj c
    simp only [decide_eq_true_eq]
    constructor
    · intro h; exact ⟨i, j, hi, hj, h⟩
    · rintro ⟨i', j', hi', hj', h⟩
      rw [hI.uniq i i' n hi hi', hI.uniq j j' n' hj hj']; exact h
  · intro c n n' h
    simp only [decide_eq_true_eq] at h ⊢
    obtain ⟨i, j, hi, hj, _⟩ := h
    exact ⟨⟨i, hi⟩, ⟨j, hj⟩⟩
  · intro i j n n' hi hj c k
    simp [(idOf_iff hI n i).2 hi, (idOf_iff hI n' j).2 hj]
  · intro c n n' k v h
    simp only [Option.bind_eq_some_iff] at h
    obtain ⟨i, hi, j, hj, h⟩ := h
    simp only [decide_eq_true_eq]
    exact ⟨i, j, (idOf_iff hI n i).1 hi, (idOf_iff hI n' j).1 hj, (hI.ci c).edge i j k (by rw [h]; rfl)⟩

/-- What one event changes. -/
structure Effect (nk tk : AnnoKey S) (g g' : Graph S V C) (e : Event S V C) : Prop where
  plus : ∀ c a b, E g' c a b → E g c a b ∨ ∃ s t, e = .addEdge s t (some c) ∧ g.annos.getValue a nk = some s ∧
    g.annos.getValue b nk = some t
  minus : ∀ c a b, E g c a b → E g' c a b ∨
    (∃ s t, e = .deleteEdge s t (some c) ∧ g.annos.getValue a nk = some s ∧ g.annos.getValue b nk = some t) ∨
    ∃ n i, e = .deleteNode n ∧ g.annos.getValue i nk = some n ∧ (a = i ∨ b = i)
  name : ∀ i n, g'.annos.getValue i nk = some n → g.annos.getValue i nk = some n ∨
    (∃ ty, e = .addNode n ty) ∧ (∀ j, g.annos.getValue j nk ≠ some n) ∧ (∀ l, g.annos.largest = some l → l < i) ∧
      (g'.annos.getValue i tk).isSome
  keep : ∀ i n, g.annos.getValue i nk = some n → g'.annos.getValue i nk = some n ∨ e = .deleteNode n
  label : ∀ i n k, g.annos.getValue i nk = some n → g'.annos.getValue i nk = some n →
    g'.annos.getValue i k = g.annos.getValue i k ∨ (∃ v, e = .addNodeLabel n k v ∧ g'.annos.getValue i k = some v) ∨
      e = .deleteNodeLabel n k
  gone : ∀ n, e = .deleteNode n → ∀ i, g'.annos.getValue i nk ≠ some n
  larg : ∀ l, g.annos.largest = some l → ∃ l', g'.annos.largest = some l' ∧ l ≤ l'
  count : AnnoStore.rowSum g.annos.byContainer ≤ g.annos.total → AnnoStore.rowSum g'.annos.byContainer ≤ g'.annos.total

theorem Effect.refl (e : Event S V C) (he : ∀ n, e = .deleteNode n → ∀ i, g.annos.getValue i nk ≠ some n) :
    Effect nk tk g g e where
  plus _ _ _ h := Or.inl h
  minus _ _ _ h := Or.inl h
  name _ _ h := Or.inl h
  keep _ _ h := Or.inl h
  label _ _ _ _ _ := Or.inl rfl
  gone := he
  larg l h := ⟨l, h, le_refl _⟩
  count h := h

/-- An edge event. -/
theorem effect_edit (hI : Inv nk g) {e : Event S V C} (he : ∀ n, e ≠ .deleteNode n) (s t : V) (c : Option C)
    (f : Adj NodeID64 S V → NodeID64 → NodeID64 → Adj NodeID64 S V)
    (hp : ∀ c0 i j, c = some c0 → g.annos.getValue i nk = some s → g.annos.getValue j nk = some t →
      (∀ a b, b ∈ (f (g.comp c0) i j).out a → b ∈ (g.comp c0).out a ∨ (a = i ∧ b = j ∧ e = .addEdge s t (some c0))) ∧
      ∀ a b, b ∈ (g.comp c0).out a → b ∈ (f (g.comp c0) i j).out a ∨ (a = i ∧ b = j ∧ e = .deleteEdge s t (some c0))) :
    Effect nk tk g (g.editComp (g.annos.nodeIdFromName nk s) (g.annos.nodeIdFromName nk t) c f) e := by
  unfold editComp
  cases h1 : g.annos.nodeIdFromName nk s with
  | none => exact Effect.refl e fun n h => absurd h (he n)
  | some i =>
    cases h2 : g.annos.nodeIdFromName nk t with
    | none => exact Effect.refl e fun n h => absurd h (he n)
    | some j =>
      cases c with
      | none => exact Effect.refl e fun n h => absurd h (he n)
      | some c0 =>
        simp only
        rw [idOf_iff hI] at h1 h2
        obtain ⟨p1, p2⟩ := hp c0 i j rfl h1 h2
        refine ⟨?_, ?_, fun _ _ h => Or.inl h, fun _ _ h => Or.inl h, fun _ _ _ _ _ => Or.inl rfl, fun n h => absurd h (he n),
          fun l h => ⟨l, h, le_refl _⟩, fun h => h⟩
        · intro d a b h
          unfold E at h ⊢
          rw [comp_setComp] at h
          by_cases hd : d = c0
          · subst hd; rw [if_pos rfl] at h
            rcases p1 a b h with h | ⟨rfl, rfl, h'⟩
            · exact Or.inl h
            · exact Or.inr ⟨s, t, h', h1, h2⟩
          · rw [if_neg hd] at h; exact Or.inl h
        · intro d a b h
          unfold E at h ⊢
          rw [comp_setComp]
          by_cases hd : d = c0
          · subst hd; rw [if_pos rfl]
            rcases p2 a b h with h | ⟨rfl, rfl, h'⟩
            · exact Or.inl h
            · exact Or.inr (Or.inl ⟨s, t, h', h1, h2⟩)
          · rw [if_neg hd]; exact Or.inl h

/-- Every event without renaming has this effect. -/
theorem event_effect (hI : Inv nk g) (hne : nk ≠ tk) {all : List C} {e : Event S V C} (he : e.NoRename nk)
    (hg : core nk tk all g e = some g') : Effect nk tk g g' e := by
  cases e with
  | addNode n ty =>
    unfold core applyEvent at hg
    simp only at hg
    split at hg
    · obtain rfl := Option.some.inj hg
      exact Effect.refl _ fun n h => by cases h
    · rename_i hn
      cases hi : g.newId with
      | none => rw [hi] at hg; cases hg
      | some i =>
        rw [hi] at hg
        obtain rfl := Option.some.inj hg
        have hfresh : ∀ l, g.annos.largest = some l → l < i := fun l hl => newId_fresh hi l hl
        have hno : ∀ k v, g.annos.getValue i k ≠ some v := by
          intro k v hv
          obtain ⟨l, hl, hle⟩ := le_largest hI hv
          exact absurd (hfresh l hl) (not_lt.2 hle)
        have hv : ∀ j k, ((g.annos.insert i nk n).insert i tk ty).getValue j k =
            if j = i ∧ k = tk then some ty else if j = i ∧ k = nk then some n else g.annos.getValue j k := by
          intro j k
          rw [AnnoStore.getValue_insert (hI.an.insert i nk n), AnnoStore.getValue_insert hI.an]
        have hnn : ∀ j, g.annos.getValue j nk ≠ some n := fun j hj => hn ((has_iff hI n).2 ⟨j, hj⟩)
        refine ⟨fun _ _ _ h => Or.inl h, fun _ _ _ h => Or.inl h, ?_, ?_, ?_, (fun _ h => by cases h), ?_, ?_⟩
        · intro j x h
          simp only [hv, hne, and_false, if_false, and_true] at h
          by_cases hj : j = i
          · rw [if_pos hj] at h
            obtain rfl := Option.some.inj h
            refine Or.inr ⟨⟨ty, rfl⟩, hnn, fun l hl => hj ▸ hfresh l hl, ?_⟩
            simp [hv, hj]
          · rw [if_neg hj] at h; exact Or.inl h
        · intro j x h
          simp only [hv, hne, and_false, if_false, and_true]
          have hj : j ≠ i := fun e => hno nk x (e ▸ h)
          rw [if_neg hj]; exact Or.inl h
        · intro j x k h _
          have hj : j ≠ i := fun e => hno nk x (e ▸ h)
          simp only [hv, hj, false_and, if_false]
          exact Or.inl trivial
        · intro l hl
          obtain ⟨l1, h1, h2⟩ := (AnnoStore.largest_insert hI.an i nk n).2 l hl
          obtain ⟨l2, h3, h4⟩ := (AnnoStore.largest_insert (hI.an.insert i nk n) i tk ty).2 l1 h1
          exact ⟨l2, h3, le_trans h2 h4⟩
        · intro h
          have e1 := AnnoStore.total_insert hI.an i nk n
          have e2 := AnnoStore.total_insert (hI.an.insert i nk n) i tk ty
          simp only
          omega
  | deleteNode n =>
    unfold core at hg
    simp only [applyEvent, cachedId_nil] at hg
    cases hi : g.annos.nodeIdFromName nk n with
    | none =>
      rw [hi] at hg
      obtain rfl := Option.some.inj hg
      refine Effect.refl _ ?_
      rintro x h
      injection h with h
      subst h
      exact (idOf_none hI n).1 hi
    | some i =>
      rw [hi] at hg
      obtain rfl := Option.some.inj hg
      have hin := (idOf_iff hI n i).1 hi
      obtain ⟨a1, _, a3⟩ := AnnoStore.removeItem_spec hI.an i
      have hI0 : Inv nk { g with annos := (g.annos.removeItem i).1 } := by
        refine ⟨a1, hI.cs, hI.ci, ?_, ?_, ?_⟩
        · intro a b x h1 h2
          simp only [a3] at h1 h2
          split at h1
          · cases h1
          · split at h2
            · cases h2
            · exact hI.uniq a b x h1 h2
        · intro a k v h
          simp only [a3] at h ⊢
          split at h
          · cases h
          · rename_i e
            obtain ⟨x, hx⟩ := hI.named a k v h
            exact ⟨x, by rw [if_neg e]; exact hx⟩
        · intro c a b h
          show ∃ l, (g.annos.removeItem i).1.largest = some l ∧ _
          rw [AnnoStore.largest_removeItem]
          exact hI.bound c a b h
      obtain ⟨f1, _, _, _, f5, _⟩ := foldl_deleteNode hI0 i all
      simp only at f1 f5
      refine ⟨fun c a b h => Or.inl ((f5 c a b).1 h).1, ?_, ?_, ?_, ?_, ?_, ?_, ?_⟩
      · intro c a b h
        by_cases hab : a = i ∨ b = i
        · exact Or.inr (Or.inr ⟨n, i, rfl, hin, hab⟩)
        · exact Or.inl ((f5 c a b).2 ⟨h, fun h => hab h.2⟩)
      · intro j x h
        rw [f1, a3] at h
        split at h
        · cases h
        · exact Or.inl h
      · intro j x h
        rw [f1, a3]
        by_cases hj : j = i
        · rw [hj, hin] at h
          injection h with h
          exact Or.inr (by rw [h])
        · rw [if_neg hj]; exact Or.inl h
      · intro j x k h h'
        rw [f1, a3] at h' ⊢
        split at h'
        · cases h'
        · rename_i hj; rw [if_neg hj]; exact Or.inl rfl
      · intro x hx j h
        injection hx with hx
        subst hx
        rw [f1, a3] at h
        split at h
        · cases h
        · rename_i hj; exact hj (hI.uniq j i n h hin)
      · intro l hl
        rw [f1, AnnoStore.largest_removeItem]
        exact ⟨l, hl, le_refl _⟩
      · intro h
        rw [f1]
        have := AnnoStore.total_removeItem h i
        omega
  | addNodeLabel n key val =>
    unfold core at hg
    simp only [applyEvent, cachedId_nil] at hg
    cases hi : g.annos.nodeIdFromName nk n with
    | none =>
      rw [hi] at hg; obtain rfl := Option.some.inj hg
      exact Effect.refl _ fun n h => by cases h
    | some i =>
      rw [hi] at hg
      obtain rfl := Option.some.inj hg
      have hin := (idOf_iff hI n i).1 hi
      have hk : nk ≠ key := Ne.symm he
      have hv := AnnoStore.getValue_insert hI.an i key val
      refine ⟨fun _ _ _ h => Or.inl h, fun _ _ _ h => Or.inl h, ?_, ?_, ?_, (fun _ h => by cases h), ?_, ?_⟩
      · intro j x h; simp only [hv, hk, and_false, if_false] at h; exact Or.inl h
      · intro j x h; simp only [hv, hk, and_false, if_false]; exact Or.inl h
      · intro j x k h _
        simp only [hv]
        by_cases hj : j = i ∧ k = key
        · rw [hj.1, hin] at h
          injection h with h
          subst h
          exact Or.inr (Or.inl ⟨val, by rw [hj.2], by rw [if_pos hj]⟩)
        · rw [if_neg hj]; exact Or.inl rfl
      · exact (AnnoStore.largest_insert hI.an i key val).2
      · intro h
        have := AnnoStore.total_insert hI.an i key val
        simp only
        omega
  | deleteNodeLabel n key =>
    unfold core at hg
    simp only [applyEvent, cachedId_nil] at hg
    cases hi : g.annos.nodeIdFromName nk n with
    | none =>
      rw [hi] at hg; obtain rfl := Option.some.inj hg
      exact Effect.refl _ fun n h => by cases h
    | some i =>
      rw [hi] at hg
      obtain rfl := Option.some.inj hg
      have hin := (idOf_iff hI n i).1 hi
      have hk : nk ≠ key := Ne.symm he
      have hv := (AnnoStore.removeAnno_spec hI.an i key).2.2
      refine ⟨fun _ _ _ h => Or.inl h, fun _ _ _ h => Or.inl h, ?_, ?_, ?_, (fun _ h => by cases h), ?_, ?_⟩
      · intro j x h; simp only [hv, hk, and_false, if_false] at h; exact Or.inl h
      · intro j x h; simp only [hv, hk, and_false, if_false]; exact Or.inl h
      · intro j x k h _
        simp only [hv]
        by_cases hj : j = i ∧ k = key
        · rw [hj.1, hin] at h
          injection h with h
          subst h
          exact Or.inr (Or.inr (by rw [hj.2]))
        · rw [if_neg hj]; exact Or.inl rfl
      · intro l hl
        simp only [AnnoStore.largest_removeAnno]
        exact ⟨l, hl, le_refl _⟩
      · intro h
        have := AnnoStore.total_removeAnno hI.an h i key
        simp only
        omega
  | addEdge s t c =>
    unfold core at hg
    simp only [applyEvent, cachedEnds_nil, Option.map_some, Option.some.injEq] at hg
    subst hg
    refine effect_edit hI (by simp) s t c _ ?_
    rintro c0 i j rfl hi hj
    obtain ⟨_, s2, _⟩ := adj_step (hI.ci c0) (.addEdge i j)
    simp only [Adj.step, Adj.specStep] at s2
    constructor
    · intro a b hab
      rw [s2] at hab
      split at hab
      · rename_i h; exact Or.inr ⟨h.1, h.2.1, rfl⟩
      · exact Or.inl (by simpa using hab)
    · intro a b hab
      rw [s2]
      left
      split
      · rfl
      · simpa using hab
  | deleteEdge s t c =>
    unfold core at hg
    simp only [applyEvent, cachedEnds_nil, Option.map_some, Option.some.injEq] at hg
    subst hg
    refine effect_edit hI (by simp) s t c _ ?_
    rintro c0 i j rfl hi hj
    obtain ⟨_, s2, _⟩ := adj_step (hI.ci c0) (.deleteEdge i j)
    simp only [Adj.step, Adj.specStep] at s2
    constructor
    · intro a b hab
      rw [s2] at hab
      split at hab
      · cases hab
      · exact Or.inl (by simpa using hab)
    · intro a b hab
      rw [s2]
      split
      · rename_i h; exact Or.inr ⟨h.1, h.2, rfl⟩
      · exact Or.inl (by simpa using hab)
  | addEdgeLabel s t c key val =>
    unfold core at hg
    simp only [applyEvent, cachedEnds_nil, Option.map_some, Option.some.injEq] at hg
    subst hg
    refine effect_edit hI (by simp) s t c _ ?_
    rintro c0 i j rfl hi hj
    have key : ∀ a b, b ∈ (if (g.comp c0).isConnected i j 1 (.included 1) = some true then (g.comp c0).addAnno i j key val
        else g.comp c0).out a ↔ b ∈ (g.comp c0).out a := by
      intro a b
      split
      · obtain ⟨_, s2, _⟩ := adj_step (hI.ci c0) (.addAnno i j key val)
        simp only [Adj.step, Adj.specStep] at s2
        rw [s2]; simp
      · rfl
    exact ⟨fun a b h => Or.inl ((key a b).1 h), fun a b h => Or.inl ((key a b).2 h)⟩
  | deleteEdgeLabel s t c key =>
    unfold core at hg
    simp only [applyEvent, cachedEnds_nil, Option.map_some, Option.some.injEq] at hg
    subst hg
    refine effect_edit hI (by simp) s t c _ ?_
    rintro c0 i j rfl hi hj
    have key : ∀ a b, b ∈ (if (g.comp c0).isConnected i j 1 (.included 1) = some true then (g.comp c0).deleteAnno i j key
        else g.comp c0).out a ↔ b ∈ (g.comp c0).out a := by
      intro a b
      split
      · obtain ⟨_, s2, _⟩ := adj_step (hI.ci c0) (.deleteAnno i j key)
        simp only [Adj.step, Adj.specStep] at s2
        rw [s2]; simp
      · rfl
    exact ⟨fun a b h => Or.inl ((key a b).1 h), fun a b h => Or.inl ((key a b).2 h)⟩

/-- Without annotations there is no node. -/
theorem no_names (hI : Inv nk g) (hc : AnnoStore.rowSum g.annos.byContainer ≤ g.annos.total) (h : g.annos.isEmpty = true)
    (i : NodeID64) (k : AnnoKey S) : g.annos.getValue i k = none := by
  obtain ⟨_, h2, h3⟩ := AnnoStore.enumAll_spec hI.an
  have ht : g.annos.total = 0 := by simpa [AnnoStore.isEmpty] using h
  have : AnnoStore.enumAll g.annos = [] := List.length_eq_zero_iff.1 (by omega)
  cases hv : g.annos.getValue i k with
  | none => rfl
  | some v => have := (h2 i k).2 (by rw [hv]; rfl); simp_all

/-! ## Invalidation -/

namespace Index

variable {sc : Schema C}

theorem mem_container_out (g : Graph S V C) (c : C) (a b : NodeID64) : .ok b ∈ (g.container c).out a ↔ E g c a b := by
  unfold container E
  simp

theorem mem_upwards (hI : Inv nk g) (cs : List C) (n i : NodeID64) :
    i ∈ upwards g cs n ↔ Relation.ReflTransGen (fun a b => ∃ c ∈ cs, E g c a b) i n := by
  have hn : ∀ c ∈ cs.map g.container, c.NoError := by
    intro c hc
    obtain ⟨c, _, rfl⟩ := List.mem_map.1 hc
    unfold container Container.NoError
    refine ⟨?_, ?_, ?_⟩ <;> simp
  have hE : ∀ a b, b ∈ Container.oks (UnionContainer.inn (cs.map g.container) a) ↔ ∃ c ∈ cs, E g c b a := by
    intro a b
    rw [mem_oks]
    have := ((UnionContainer.C20_union (cs.map g.container) hn).2.2.1 a).2 b
    rw [show (UnionContainer.union (cs.map g.container)).inn a = UnionContainer.inn (cs.map g.container) a from rfl] at this
    rw [this]
    simp only [List.mem_map, exists_exists_and_eq_and]
    unfold container E
    simp [(hI.ci _).sync]
  unfold upwards
  simp only [List.mem_map, Prod.exists, exists_and_right, exists_eq_right]
  rw [show (∃ d, (i, d) ∈ Dfs.steps (fun m => Container.oks (UnionContainer.inn (cs.map g.container) m))
    (cs.flatMap fun c => Adj.targets (g.comp c).inverse) n 0 usizeMax true) ↔
    ∃ d, Walk.SimplePath (fun a b => ∃ c ∈ cs, E g c b a) n i d from ?_]
  · rw [← Walk.reach_iff_simple, ← Relation.reflTransGen_swap]
  · have hV : ∀ a b, b ∈ Container.oks (UnionContainer.inn (cs.map g.container) a) →
        b ∈ cs.flatMap fun c => Adj.targets (g.comp c).inverse := by
      intro a b hb
      obtain ⟨c, hc, h⟩ := (hE a b).1 hb
      exact List.mem_flatMap.2 ⟨c, hc, Adj.covers_inn (g.comp c) a b (((hI.ci c).sync b a).1 h)⟩
    constructor
    · rintro ⟨d, h⟩
      exact ⟨d, ((DfsQuery.mem_steps hV hE true n i 0 d usizeMax).1 h).1⟩
    · rintro ⟨d, h⟩
      exact ⟨d, (DfsQuery.mem_steps hV hE true n i 0 d usizeMax).2 ⟨h, Nat.zero_le _, Adj.simplePath_le h⟩⟩

/-- The node is marked. -/
def Bad (x : IndexState V C) (i : NodeID64) : Prop := (x.invalid.get i).isSome

theorem foldl_insert_get (l : List NodeID64) : ∀ (m : OMap NodeID64 Bool), m.Sorted →
    (l.foldl (fun m i => m.insert i true) m).Sorted ∧
    ∀ i, ((l.foldl (fun m i => m.insert i true) m).get i).isSome ↔ (m.get i).isSome ∨ i ∈ l := by
  induction l with
  | nil => intro m hm; exact ⟨hm, by simp⟩
  | cons a l ih =>
    intro m hm
    obtain ⟨h1, h2⟩ := ih (m.insert a true) (OMap.sorted_insert hm _ _)
    refine ⟨h1, fun i => ?_⟩
    simp only [List.foldl_cons]
    rw [h2, OMap.get_insert]
    by_cases e : i = a
    · simp [e]
    · simp [e]

theorem bad_invalidate (hI : Inv nk g) {x : IndexState V C} (hx : x.invalid.Sorted) (n : NodeID64) :
    (invalidate g x n).invalid.Sorted ∧ ∀ i, Bad (invalidate g x n) i ↔ Bad x i ∨
      Relation.ReflTransGen (fun a b => ∃ c ∈ x.text, E g c a b) i n := by
  obtain ⟨h1, h2⟩ := foldl_insert_get (upwards g x.text n) x.invalid hx
  refine ⟨h1, fun i => ?_⟩
  unfold Bad
  rw [← mem_upwards hI]
  exact h2 i

end Index

end Graph
