import Verif.Index.Spec

/-!
# The text coverage index: invariants of the event loop
-/

set_option linter.unusedSimpArgs false
set_option linter.unusedSectionVars false
set_option linter.unusedVariables false

namespace Graph

namespace Index

variable {S V C : Type} [LinearOrder S] [OrderBot S] [LinearOrder V] [LinearOrder C]
variable {sc : Schema C} {nk tk tok : AnnoKey S} {g g' g0 : Graph S V C} {x x' x0 : IndexState V C}

/-- The component has coverage or dominance edges. -/
def TextComp (sc : Schema C) (c : C) : Prop := sc.kind c = .coverage ∨ sc.kind c = .dominance

/-- No name is added again after it was deleted. -/
def NoReadd (l : List (Event S V C)) : Prop :=
  ∀ l1 n l2, l = l1 ++ .deleteNode n :: l2 → ∀ ty, .addNode n ty ∉ l2

theorem NoReadd.tail {e : Event S V C} {l : List (Event S V C)} (h : NoReadd (e :: l)) : NoReadd l :=
  fun l1 n l2 hl => h (e :: l1) n l2 (by rw [hl]; rfl)

theorem NoReadd.head {n : V} {l : List (Event S V C)} (h : NoReadd (.deleteNode n :: l)) (ty : V) : .addNode n ty ∉ l :=
  h [] n l rfl ty

/-- The names in the cache of the index: the node still exists, or the name does not and will not come back. -/
def CacheI (nk : AnnoKey S) (g : Graph S V C) (x : IndexState V C) (rest : List (Event S V C)) : Prop :=
  ∀ n i, x.cache.get n = some i → g.annos.getValue i nk = some n ∨
    (∀ ty, .addNode n ty ∉ rest) ∧ ∀ j, g.annos.getValue j nk ≠ some n

theorem nodeId_spec (hI : Inv nk g) {rest : List (Event S V C)} (hc : CacheI nk g x rest) {n : V} {i : NodeID64}
    (h : nodeId nk g x n = some (i, x')) :
    x'.invalid = x.invalid ∧ x'.text = x.text ∧ x'.empty = x.empty ∧ CacheI nk g x' rest ∧
    ∀ j, g.annos.getValue j nk = some n → j = i := by
  unfold nodeId at h
  cases hget : x.cache.get n with
  | some k =>
    rw [hget] at h
    simp only [Option.some.injEq, Prod.mk.injEq] at h
    obtain ⟨rfl, rfl⟩ := h
    refine ⟨rfl, rfl, rfl, hc, fun j hj => ?_⟩
    rcases hc n k hget with h | ⟨_, h⟩
    · exact hI.uniq j k n hj h
    · exact absurd hj (h j)
  | none =>
    rw [hget] at h
    simp only [Option.map_eq_some_iff, Prod.mk.injEq] at h
    obtain ⟨k, hk, rfl, rfl⟩ := h
    rw [idOf_iff hI] at hk
    refine ⟨rfl, rfl, rfl, ?_, fun j hj => hI.uniq j k n hj hk⟩
    intro m j hm
    simp only [OMap.get_insert] at hm
    split at hm
    · rename_i e
      subst e
      injection hm with hm
      subst hm
      exact Or.inl hk
    · exact hc m j hm

/-- Marked nodes are closed under the edges of the text components. -/
def Up (g : Graph S V C) (x : IndexState V C) : Prop := ∀ c ∈ x.text, ∀ a b, E g c a b → Bad x b → Bad x a

/-- After marking a node only its ingoing edges could leave the marked nodes. -/
theorem up_invalidate (hI : Inv nk g) (hs : x.invalid.Sorted) (n : NodeID64)
    (hu : ∀ c ∈ x.text, ∀ a b, E g c a b → Bad x b → Bad x a ∨ a = n) : Up g (invalidate g x n) := by
  obtain ⟨_, h2⟩ := bad_invalidate hI hs n
  intro c hc a b hab hb
  have hc : c ∈ x.text := hc
  rw [h2] at hb ⊢
  rcases hb with hb | hb
  · rcases hu c hc a b hab hb with h | rfl
    · exact Or.inl h
    · exact Or.inr Relation.ReflTransGen.refl
  · exact Or.inr (Relation.ReflTransGen.head ⟨c, hc, hab⟩ hb)

/-- The effect of marking for an edge event. -/
theorem touchEdge_spec (hI : Inv nk g) {rest : List (Event S V C)} (hc : CacheI nk g x rest) (hs : x.invalid.Sorted) {s t : V} {c : C}
    (hu : ∀ d ∈ x.text, ∀ a b, E g d a b → Bad x b → Bad x a ∨ affects (sc.kind c) = true ∧ g.annos.getValue a nk = some s)
    (h : touchEdge sc nk g x s t c = some x') :
    x'.invalid.Sorted ∧ x'.text = x.text ∧ x'.empty = x.empty ∧ CacheI nk g x' rest ∧ Up g x' ∧ (∀ i, Bad x i → Bad x' i) ∧
    (affects (sc.kind c) = true → ∀ i, g.annos.getValue i nk = some s → Bad x' i) := by
  unfold touchEdge at h
  simp only [Option.bind_eq_bind, Option.bind_eq_some_iff] at h
  obtain ⟨x1, h1, h2⟩ := h
  have k1 : x1.invalid.Sorted ∧ x1.text = x.text ∧ x1.empty = x.empty ∧ CacheI nk g x1 rest ∧ Up g x1 ∧
      (∀ i, Bad x i → Bad x1 i) ∧ (affects (sc.kind c) = true → ∀ i, g.annos.getValue i nk = some s → Bad x1 i) := by
    by_cases ha : affects (sc.kind c) = true
    · rw [if_pos ha] at h1
      simp only [Option.map_eq_some_iff, Prod.exists] at h1
      obtain ⟨i, y, h3, rfl⟩ := h1
      obtain ⟨e1, e2, e3, e4, e5⟩ := nodeId_spec hI hc h3
      have hb : ∀ i, Bad y i ↔ Bad x i := fun i => by unfold Bad; rw [e1]
      have hs' : y.invalid.Sorted := by rw [e1]; exact hs
      obtain ⟨b1, b2⟩ := bad_invalidate hI hs' i
      refine ⟨b1, e2, e3, e4, ?_, fun j hj => (b2 j).2 (Or.inl ((hb j).2 hj)), fun _ j hj => (b2 j).2 (Or.inr ?_)⟩
      · refine up_invalidate hI hs' i ?_
        intro d hd a b hab hbad
        rw [e2] at hd
        rcases hu d hd a b hab ((hb b).1 hbad) with h | ⟨_, h⟩
        · exact Or.inl ((hb a).2 h)
        · exact Or.inr (e5 a h)
      · rw [e5 j hj]
    · rw [if_neg ha] at h1
      injection h1 with h1
      subst h1
      refine ⟨hs, rfl, rfl, hc, ?_, fun _ h => h, fun h => absurd h ha⟩
      intro d hd a b hab hb
      rcases hu d hd a b hab hb with h | ⟨h, _⟩
      · exact h
      · exact absurd h ha
  obtain ⟨a1, a2, a3, a4, a5, a6, a7⟩ := k1
  by_cases ho : sc.kind c = .ordering
  · rw [if_pos ho] at h2
    simp only [Option.map_eq_some_iff, Prod.exists] at h2
    obtain ⟨i, y, h3, rfl⟩ := h2
    obtain ⟨e1, e2, e3, e4, e5⟩ := nodeId_spec hI a4 h3
    have hb : ∀ i, Bad y i ↔ Bad x1 i := fun i => by unfold Bad; rw [e1]
    have hs' : y.invalid.Sorted := by rw [e1]; exact a1
    obtain ⟨b1, b2⟩ := bad_invalidate hI hs' i
    have lift : ∀ j, Bad x1 j → Bad (invalidate g y i) j := fun j hj => (b2 j).2 (Or.inl ((hb j).2 hj))
    refine ⟨b1, e2.trans a2, e3.trans a3, e4, ?_, fun j hj => lift j (a6 j hj), fun h j hj => lift j (a7 h j hj)⟩
    refine up_invalidate hI hs' i ?_
    intro d hd a b hab hbad
    rw [e2] at hd
    exact Or.inl ((hb a).2 (a5 d hd a b hab ((hb b).1 hbad)))
  · rw [if_neg ho] at h2
    injection h2 with h2
    subst h2
    exact ⟨a1, a2, a3, a4, a5, a6, a7⟩

/-- The part of the invariant that concerns the marked nodes. -/
structure Marks (nk : AnnoKey S) (g : Graph S V C) (x : IndexState V C) (rest : List (Event S V C)) : Prop where
  full : x.empty = false
  srt : x.invalid.Sorted
  cache : CacheI nk g x rest
  up : Up g x

/-- `before_update_event` marks what is going to be removed. -/
theorem before_spec (hI : Inv nk g) {e : Event S V C} {rest : List (Event S V C)} (hm : Marks nk g x rest)
    (h : before sc nk g x e = some x') :
    Marks nk g x' rest ∧ x'.text = x.text ∧ (∀ i, Bad x i → Bad x' i) ∧
    (∀ n i, e = .deleteNode n → g.annos.getValue i nk = some n → Bad x' i) ∧
    (∀ s t c i, e = .deleteEdge s t (some c) → affects (sc.kind c) = true → g.annos.getValue i nk = some s → Bad x' i) := by
  have triv : x = x' → (∀ n, e ≠ .deleteNode n) → (∀ s t c, e ≠ .deleteEdge s t (some c)) → Marks nk g x' rest ∧
      x'.text = x.text ∧ (∀ i, Bad x i → Bad x' i) ∧
      (∀ n i, e = .deleteNode n → g.annos.getValue i nk = some n → Bad x' i) ∧
      (∀ s t c i, e = .deleteEdge s t (some c) → affects (sc.kind c) = true → g.annos.getValue i nk = some s → Bad x' i) := by
    rintro rfl h1 h2
    exact ⟨hm, rfl, fun _ h => h, fun n _ he => absurd he (h1 n), fun s t c _ he => absurd he (h2 s t c)⟩
  cases e with
  | deleteNode n =>
    unfold before at h
    simp only [hm.full, Bool.false_eq_true, if_false, Option.map_eq_some_iff, Prod.exists] at h
    obtain ⟨i, y, h1, rfl⟩ := h
    obtain ⟨e1, e2, e3, e4, e5⟩ := nodeId_spec hI hm.cache h1
    have hb : ∀ i, Bad y i ↔ Bad x i := fun i => by unfold Bad; rw [e1]
    have hs' : y.invalid.Sorted := by rw [e1]; exact hm.srt
    have hup : Up g y := by
      intro d hd a b hab hbad
      rw [e2] at hd
      exact (hb a).2 (hm.up d hd a b hab ((hb b).1 hbad))
    by_cases hi : (y.invalid.get i).isSome
    · rw [if_pos hi]
      refine ⟨⟨e3.trans hm.full, hs', e4, hup⟩, e2, fun j hj => (hb j).2 hj, ?_, fun s t c i he => by cases he⟩
      rintro m j he hj
      injection he with he
      subst he
      rw [e5 j hj]; exact hi
    · rw [if_neg hi]
      obtain ⟨b1, b2⟩ := bad_invalidate hI hs' i
      refine ⟨⟨e3.trans hm.full, b1, e4, ?_⟩, e2, fun j hj => (b2 j).2 (Or.inl ((hb j).2 hj)), ?_, fun s t c i he => by cases he⟩
      · exact up_invalidate hI hs' i fun c hc a b hab hbad => Or.inl (hup c hc a b hab hbad)
      · rintro m j he hj
        injection he with he
        subst he
        rw [e5 j hj]
        exact (b2 i).2 (Or.inr Relation.ReflTransGen.refl)
  | deleteEdge s t c =>
    cases c with
    | none => exact triv (Option.some.inj h) (by simp) (by simp)
    | some c =>
      unfold before at h
      simp only [hm.full, Bool.false_eq_true, if_false] at h
      obtain ⟨a1, a2, a3, a4, a5, a6, a7⟩ := touchEdge_spec hI hm.cache hm.srt
        (fun d hd a b hab hb => Or.inl (hm.up d hd a b hab hb)) h
      refine ⟨⟨a3.trans hm.full, a1, a4, a5⟩, a2, a6, (fun n i he => by cases he), ?_⟩
      rintro s' t' c' i he
      injection he with h1 h2 h3
      injection h3 with h3
      subst h1; subst h3
      exact fun h => a7 h i
  | addNode n ty => exact triv (Option.some.inj h) (by simp) (by simp)
  | addNodeLabel n k v => exact triv (Option.some.inj h) (by simp) (by simp)
  | deleteNodeLabel n k => exact triv (Option.some.inj h) (by simp) (by simp)
  | addEdge s t c => exact triv (Option.some.inj h) (by simp) (by simp)
  | addEdgeLabel s t c k v => exact triv (Option.some.inj h) (by simp) (by simp)
  | deleteEdgeLabel s t c k => exact triv (Option.some.inj h) (by simp) (by simp)

/-- The cache of the index after an event. -/
theorem CacheI.step {e : Event S V C} {rest : List (Event S V C)} (hc : CacheI nk g x (e :: rest)) (hr : NoReadd (e :: rest))
    (hf : Effect nk tk g g' e) : CacheI nk g' x rest := by
  intro n i hn
  rcases hc n i hn with h | ⟨h1, h2⟩
  · rcases hf.keep i n h with h | rfl
    · exact Or.inl h
    · exact Or.inr ⟨hr.head, hf.gone n rfl⟩
  · refine Or.inr ⟨fun ty hm => h1 ty (by simp [hm]), fun j hj => ?_⟩
    rcases hf.name j n hj with h | ⟨⟨ty, rfl⟩, _⟩
    · exact h2 j h
    · exact h1 ty (by simp)

/-- The invariant of the loop for a graph that was not empty. -/
structure LoopInv (sc : Schema C) (nk tok : AnnoKey S) (g0 g : Graph S V C) (x : IndexState V C) (rest : List (Event S V C)) : Prop where
  inv : Inv nk g
  marks : Marks nk g x rest
  sub : ∀ c ∈ (init sc g0 : IndexState V C).text, c ∈ x.text
  kinds : ∀ c ∈ x.text, TextComp sc c
  unnamed : ∀ c ∈ x.text, c ∉ (init sc g0 : IndexState V C).text → sc.unnamed c = true
  edge : ∀ c, TextComp sc c → ∀ a b, ¬ Bad x a → (E g c a b ↔ E g0 c a b)
  aux : ∀ c, c = sc.left ∨ c = sc.right → ∀ a b, (Named nk g0 a ∨ ∀ l, g0.annos.largest = some l → l < a) → ¬ Bad x a →
    (E g c a b ↔ E g0 c a b)
  alive : ∀ i, Named nk g i → Named nk g0 i ∨ ∀ l, g0.annos.largest = some l → l < i
  larg : ∀ l, g0.annos.largest = some l → ∃ l', g.annos.largest = some l' ∧ l ≤ l'
  name : ∀ i n, g0.annos.getValue i nk = some n → g.annos.getValue i nk = some n ∨ Bad x i ∧ ¬ Named nk g i
  tok : ∀ i n, g0.annos.getValue i nk = some n → g.annos.getValue i nk = some n → g.annos.getValue i tok = g0.annos.getValue i tok
  count : AnnoStore.rowSum g.annos.byContainer ≤ g.annos.total

/-- What is required of the graph before the update. -/
structure Start (sc : Schema C) (nk : AnnoKey S) (g0 : Graph S V C) : Prop where
  inv : Inv nk g0
  dup : ∀ c a b, sc.kind c = .dominance → E g0 c a b → ∃ c', (sc.kind c' = .coverage ∨ sc.kind c' = .dominance ∧ sc.unnamed c' = true) ∧
    E g0 c' a b
  left : ∀ c, c = sc.left ∨ c = sc.right → ∀ a b, Named nk g0 a → E g0 c a b →
    Relation.TransGen (fun a b => ∃ c, TextComp sc c ∧ E g0 c a b) a b

theorem mem_keys_of_edge (g : Graph S V C) {c : C} {a b : NodeID64} (h : E g c a b) : c ∈ g.comps.keys := by
  rw [OMap.mem_keys_iff]
  unfold E comp at h
  cases hc : g.comps.get c with
  | none => rw [hc] at h; simp [Adj.new, Adj.out, OMap.get] at h
  | some a => exact ⟨a, rfl⟩

theorem mem_init_text {c : C} : c ∈ (init sc g0 : IndexState V C).text ↔
    c ∈ g0.comps.keys ∧ (sc.kind c = .coverage ∨ sc.kind c = .dominance ∧ sc.unnamed c = true) := by
  unfold init compsOf
  simp only [List.mem_append, List.mem_filter, decide_eq_true_eq]
  tauto

/-- Edges of the text components of an unmarked node lead to unmarked nodes. -/
theorem LoopInv.succ {rest : List (Event S V C)} (h : LoopInv sc nk tok g0 g x rest) (hs : Start sc nk g0) {c : C} (hc : TextComp sc c)
    {a b : NodeID64} (ha : ¬ Bad x a) (hab : E g c a b) : ¬ Bad x b ∧ E g0 c a b := by
  have h0 := (h.edge c hc a b ha).1 hab
  refine ⟨fun hb => ha ?_, h0⟩
  obtain ⟨c', hk, h1⟩ : ∃ c', (sc.kind c' = .coverage ∨ sc.kind c' = .dominance ∧ sc.unnamed c' = true) ∧ E g0 c' a b := by
    rcases hc with hc | hc
    · exact ⟨c, Or.inl hc, h0⟩
    · exact hs.dup c a b hc h0
  have ht : TextComp sc c' := hk.imp id And.left
  refine h.marks.up c' (h.sub c' (mem_init_text.2 ⟨mem_keys_of_edge g0 h1, hk⟩)) a b ?_ hb
  exact (h.edge c' ht a b ha).2 h1

theorem LoopInv.reach {rest : List (Event S V C)} (h : LoopInv sc nk tok g0 g x rest) (hs : Start sc nk g0) {a b : NodeID64}
    (hab : Relation.TransGen (fun a b => ∃ c, TextComp sc c ∧ E g0 c a b) a b) (ha : ¬ Bad x a) : ¬ Bad x b := by
  induction hab with
  | single hab => obtain ⟨c, hc, hab⟩ := hab; exact (h.succ hs hc ha ((h.edge c hc _ _ ha).2 hab)).1
  | tail _ hbc ih => obtain ⟨c, hc, hbc⟩ := hbc; exact (h.succ hs hc ih ((h.edge c hc _ _ ih).2 hbc)).1

/-- The invariant holds before the first event. -/
theorem LoopInv.start (hI : Inv nk g0) (hfull : g0.annos.isEmpty = false)
    (hcount : AnnoStore.rowSum g0.annos.byContainer ≤ g0.annos.total) (rest : List (Event S V C)) :
    LoopInv sc nk tok g0 g0 (init sc g0) rest where
  inv := hI
  marks := ⟨hfull, OMap.sorted_nil, fun n i h => by simp [init, OMap.get] at h, fun _ _ _ _ _ hb => by simp [Bad, init, OMap.get] at hb⟩
  sub _ h := h
  kinds c h := (mem_init_text.1 h).2.imp id And.left
  unnamed _ h h' := absurd h h'
  edge _ _ _ _ _ := Iff.rfl
  aux _ _ _ _ _ _ := Iff.rfl
  alive _ h := Or.inl h
  larg l h := ⟨l, h, le_refl _⟩
  name _ _ h := Or.inl h
  tok _ _ _ _ := rfl
  count := hcount

/-- What is required of an event: no renaming, and the token label of a node that existed before is not changed. -/
def EventOk (nk tok : AnnoKey S) (g0 : Graph S V C) (e : Event S V C) : Prop :=
  e.NoRename nk ∧ (∀ n v, e = .addNodeLabel n tok v → ∀ i, g0.annos.getValue i nk ≠ some n) ∧
  ∀ n, e = .deleteNodeLabel n tok → ∀ i, g0.annos.getValue i nk ≠ some n

theorem affects_text {c : C} (h : TextComp sc c) : affects (sc.kind c) = true := by
  rcases h with h | h <;> rw [h] <;> rfl

/-- One event keeps the invariant. -/
theorem LoopInv.step (hsc : SchemaOk sc) (hne : nk ≠ tk) (hs : Start sc nk g0) {all : List C} {e : Event S V C}
    {rest : List (Event S V C)} (hr : NoReadd (e :: rest)) (he : EventOk nk tok g0 e)
    (h : LoopInv sc nk tok g0 g x (e :: rest)) {x1 x2 : IndexState V C} (h1 : before sc nk g x e = some x1)
    (hg : core nk tk all g e = some g') (hI' : Inv nk g') (h2 : after sc nk g' x1 e = some x2) :
    LoopInv sc nk tok g0 g' x2 rest := by
  have hf := event_effect h.inv hne he.1 hg
  obtain ⟨m1, m2, m3, m4, m5⟩ := before_spec h.inv h.marks h1
  -- the invariant with the additional marks
  have hx1 : LoopInv sc nk tok g0 g x1 (e :: rest) := by
    refine ⟨h.inv, m1, fun c hc => by rw [m2]; exact h.sub c hc, fun c hc => by rw [m2] at hc; exact h.kinds c hc,
      fun c hc => by rw [m2] at hc; exact h.unnamed c hc, ?_, ?_, h.alive, h.larg, ?_, h.tok, h.count⟩
    · intro c hc a b ha; exact h.edge c hc a b fun hb => ha (m3 a hb)
    · intro c hc a b hl ha; exact h.aux c hc a b hl fun hb => ha (m3 a hb)
    · intro i n hi
      rcases h.name i n hi with h | ⟨h, h'⟩
      · exact Or.inl h
      · exact Or.inr ⟨m3 i h, h'⟩
  -- removed edges have a marked source
  have hminus : ∀ c, affects (sc.kind c) = true → ∀ a b, E g c a b → ¬ E g' c a b → ¬ Bad x1 a →
      (TextComp sc c ∨ (c = sc.left ∨ c = sc.right) ∧ (Named nk g0 a ∨ ∀ l, g0.annos.largest = some l → l < a)) → False := by
    intro c haf a b hab hno ha hc
    rcases hf.minus c a b hab with h' | ⟨s, t, rfl, hs', _⟩ | ⟨n, i, rfl, hi, hia⟩
    · exact hno h'
    · exact ha (m5 s t c a rfl haf hs')
    · have hbi := m4 n i rfl hi
      rcases hia with rfl | rfl
      · exact ha hbi
      · rcases hc with hc | ⟨hc, hal⟩
        · exact (hx1.succ hs hc ha hab).1 hbi
        · have h0 := (hx1.aux c hc a b hal ha).1 hab
          have hn : Named nk g0 a := by
            rcases hal with h | h
            · exact h
            · obtain ⟨l, hl, h3, _⟩ := hs.inv.bound c a b h0
              exact absurd (h l hl) (not_lt.2 h3)
          exact hx1.reach hs (hs.left c hc a b hn h0) ha hbi
  have hcache : CacheI nk g' x1 rest := m1.cache.step hr hf
  -- the graph has changed; a new edge can have an unmarked source
  have hup1 : ∀ c ∈ x1.text, ∀ a b, E g' c a b → Bad x1 b → Bad x1 a ∨
      ∃ s t, e = .addEdge s t (some c) ∧ g.annos.getValue a nk = some s := by
    intro c hc a b hab hb
    rcases hf.plus c a b hab with h' | ⟨s, t, h3, h4, _⟩
    · exact Or.inl (m1.up c hc a b h' hb)
    · exact Or.inr ⟨s, t, h3, h4⟩
  -- the rest does not depend on the marks
  have halive : ∀ i, Named nk g' i → Named nk g0 i ∨ ∀ l, g0.annos.largest = some l → l < i := by
    rintro i ⟨n, hn⟩
    rcases hf.name i n hn with h' | ⟨_, _, h', _⟩
    · exact h.alive i ⟨n, h'⟩
    · right
      intro l hl
      obtain ⟨l', hl', hle⟩ := h.larg l hl
      exact lt_of_le_of_lt hle (h' l' hl')
  have hlarg : ∀ l, g0.annos.largest = some l → ∃ l', g'.annos.largest = some l' ∧ l ≤ l' := by
    intro l hl
    obtain ⟨l1, h3, h4⟩ := h.larg l hl
    obtain ⟨l2, h5, h6⟩ := hf.larg l1 h3
    exact ⟨l2, h5, le_trans h4 h6⟩
  have old : ∀ i n, g0.annos.getValue i nk = some n → ∀ m, g'.annos.getValue i nk = some m → g.annos.getValue i nk = some m := by
    intro i n hi m hm
    rcases hf.name i m hm with h' | ⟨_, _, h', _⟩
    · exact h'
    · exfalso
      obtain ⟨l, hl, hle⟩ := le_largest hs.inv hi
      obtain ⟨l', hl', hle'⟩ := h.larg l hl
      exact absurd (h' l' hl') (not_lt.2 (le_trans hle hle'))
  have hname : ∀ i n, g0.annos.getValue i nk = some n → g'.annos.getValue i nk = some n ∨ Bad x1 i ∧ ¬ Named nk g' i := by
    intro i n hi
    rcases hx1.name i n hi with h' | ⟨h', h''⟩
    · rcases hf.keep i n h' with h3 | rfl
      · exact Or.inl h3
      · refine Or.inr ⟨m4 n i rfl h', ?_⟩
        rintro ⟨m, hm⟩
        have := old i n hi m hm
        rw [h'] at this
        injection this with this
        subst this
        exact hf.gone n rfl i hm
    · exact Or.inr ⟨h', fun ⟨m, hm⟩ => h'' ⟨m, old i n hi m hm⟩⟩
  have htok : ∀ i n, g0.annos.getValue i nk = some n → g'.annos.getValue i nk = some n →
      g'.annos.getValue i tok = g0.annos.getValue i tok := by
    intro i n hi hi'
    have hg1 := old i n hi n hi'
    rcases hf.label i n tok hg1 hi' with h' | ⟨v, h', _⟩ | h'
    · rw [h']; exact h.tok i n hi hg1
    · exact absurd hi (he.2.1 n v h' i)
    · exact absurd hi (he.2.2 n h' i)
  -- the state after the second hook
  have final : ∀ {y : IndexState V C}, Marks nk g' y rest → (∀ i, Bad x1 i → Bad y i) → (∀ c ∈ x1.text, c ∈ y.text) →
      (∀ c ∈ y.text, c ∉ x1.text → TextComp sc c ∧ sc.unnamed c = true) →
      (∀ c a s t, e = .addEdge s t (some c) → affects (sc.kind c) = true → g.annos.getValue a nk = some s → Bad y a) →
      LoopInv sc nk tok g0 g' y rest := by
    intro y hy hmono htext hnew hadd
    have hedge : ∀ c, affects (sc.kind c) = true → ∀ a b, ¬ Bad y a →
        (TextComp sc c ∨ (c = sc.left ∨ c = sc.right) ∧ (Named nk g0 a ∨ ∀ l, g0.annos.largest = some l → l < a)) →
        (E g' c a b ↔ E g c a b) := by
      intro c haf a b ha hc
      constructor
      · intro hab
        rcases hf.plus c a b hab with h' | ⟨s, t, h3, h4, _⟩
        · exact h'
        · exact absurd (hadd c a s t h3 haf h4) ha
      · intro hab
        by_contra hno
        exact hminus c haf a b hab hno (fun hb => ha (hmono a hb)) hc
    refine ⟨hI', hy, fun c hc => htext c (hx1.sub c hc), ?_, ?_, ?_, ?_, halive, hlarg, ?_, htok, hf.count h.count⟩
    · intro c hc
      by_cases hx : c ∈ x1.text
      · exact hx1.kinds c hx
      · exact (hnew c hc hx).1
    · intro c hc h0
      by_cases hx : c ∈ x1.text
      · exact hx1.unnamed c hx h0
      · exact (hnew c hc hx).2
    · intro c hc a b ha
      rw [hedge c (affects_text hc) a b ha (Or.inl hc)]
      exact hx1.edge c hc a b fun hb => ha (hmono a hb)
    · intro c hc a b hal ha
      have haf : affects (sc.kind c) = true := by
        rcases hc with rfl | rfl
        · rw [hsc.left]; rfl
        · rw [hsc.right]; rfl
      rw [hedge c haf a b ha (Or.inr ⟨hc, hal⟩)]
      exact hx1.aux c hc a b hal fun hb => ha (hmono a hb)
    · intro i n hi
      rcases hname i n hi with h' | ⟨h', h''⟩
      · exact Or.inl h'
      · exact Or.inr ⟨hmono i h', h''⟩
  have triv : x1 = x2 → (∀ s t c, e ≠ .addEdge s t (some c)) → LoopInv sc nk tok g0 g' x2 rest := by
    rintro rfl hno
    refine final ⟨m1.full, m1.srt, hcache, ?_⟩ (fun _ h => h) (fun _ h => h) (fun c h h' => absurd h h') ?_
    · intro c hc a b hab hb
      rcases hup1 c hc a b hab hb with h' | ⟨s, t, h', _⟩
      · exact h'
      · exact absurd h' (hno s t c)
    · intro c a s t h'
      exact absurd h' (hno s t c)
  cases e with
  | addEdge s t c =>
    cases c with
    | none => exact triv (Option.some.inj h2) (by simp)
    | some c =>
      unfold after at h2
      simp only at h2
      have hann : g'.annos = g.annos := by
        unfold core at hg
        simp only [applyEvent, cachedEnds_nil, Option.map_some, Option.some.injEq] at hg
        rw [← hg, editComp_annos]
      generalize hy : (if (sc.kind c = .dominance ∨ sc.kind c = .coverage) ∧ sc.unnamed c = true then
        { x1 with text := c :: x1.text } else x1) = y at h2
      have hyi : y.invalid = x1.invalid ∧ y.empty = x1.empty ∧ y.cache = x1.cache := by
        rw [← hy]; split <;> exact ⟨rfl, rfl, rfl⟩
      have hyt : (∀ d ∈ x1.text, d ∈ y.text) ∧ ∀ d ∈ y.text, d ∉ x1.text → d = c ∧ TextComp sc d ∧ sc.unnamed d = true := by
        rw [← hy]
        split
        · rename_i hc
          refine ⟨fun d hd => by simp [hd], fun d hd hd' => ?_⟩
          simp only [List.mem_cons] at hd
          rcases hd with rfl | hd
          · exact ⟨rfl, hc.1.symm, hc.2⟩
          · exact absurd hd hd'
        · exact ⟨fun _ h => h, fun d hd hd' => absurd hd hd'⟩
      have hby : ∀ i, Bad y i ↔ Bad x1 i := fun i => by unfold Bad; rw [hyi.1]
      rw [hyi.2.1, m1.full] at h2
      simp only [Bool.false_eq_true, if_false] at h2
      have hcy : CacheI nk g' y rest := by
        intro n i hn; rw [hyi.2.2] at hn; exact hcache n i hn
      have huy : ∀ d ∈ y.text, ∀ a b, E g' d a b → Bad y b → Bad y a ∨ affects (sc.kind c) = true ∧
          g'.annos.getValue a nk = some s := by
        intro d hd a b hab hb
        rw [hby] at hb ⊢
        rw [hann]
        by_cases hx : d ∈ x1.text
        · rcases hup1 d hx a b hab hb with h' | ⟨s', t', h3, h4⟩
          · exact Or.inl h'
          · injection h3 with e1 e2 e3
            injection e3 with e3
            subst e1; subst e3
            exact Or.inr ⟨affects_text (hx1.kinds _ hx), h4⟩
        · obtain ⟨rfl, ht, hun⟩ := hyt.2 d hd hx
          rcases hf.plus d a b hab with h' | ⟨s', t', h3, h4, _⟩
          · left
            by_contra hba
            have h0 := (hx1.edge d ht a b hba).1 h'
            refine hx (hx1.sub d (mem_init_text.2 ⟨mem_keys_of_edge g0 h0, ?_⟩))
            exact ht.imp id fun h => ⟨h, hun⟩
          · injection h3 with e1 e2 e3
            subst e1
            exact Or.inr ⟨affects_text ht, h4⟩
      obtain ⟨a1, a2, a3, a4, a5, a6, a7⟩ := touchEdge_spec hI' hcy (by rw [hyi.1]; exact m1.srt) huy h2
      refine final ⟨by rw [a3, hyi.2.1]; exact m1.full, a1, a4, a5⟩ (fun i hi => a6 i ((hby i).2 hi))
        (fun d hd => by rw [a2]; exact hyt.1 d hd) (fun d hd hd' => by rw [a2] at hd; exact (hyt.2 d hd hd').2) ?_
      rintro d a s' t' h3 haf ha
      injection h3 with e1 e2 e3
      injection e3 with e3
      subst e1; subst e3
      exact a7 haf a (by rw [hann]; exact ha)
  | deleteNode n => exact triv (Option.some.inj h2) (by simp)
  | deleteEdge s t c => exact triv (Option.some.inj h2) (by simp)
  | addNode n ty => exact triv (Option.some.inj h2) (by simp)
  | addNodeLabel n k v => exact triv (Option.some.inj h2) (by simp)
  | deleteNodeLabel n k => exact triv (Option.some.inj h2) (by simp)
  | addEdgeLabel s t c k v => exact triv (Option.some.inj h2) (by simp)
  | deleteEdgeLabel s t c k => exact triv (Option.some.inj h2) (by simp)

/-- The loop for a graph that was not empty. -/
theorem loop_inv (hsc : SchemaOk sc) (hne : nk ≠ tk) (hs : Start sc nk g0) (cap : Nat) (all : List C) :
    ∀ (u : List (Nat × Event S V C)) (g : Graph S V C) (cache : IdCache V) (x : IndexState V C), NoReadd (evs u) →
      (∀ e ∈ evs u, EventOk nk tok g0 e) → LoopInv sc nk tok g0 g x (evs u) → CacheOk nk g cache →
      ∀ g' x', loop sc nk tk cap all g cache x u = some (g', x') → LoopInv sc nk tok g0 g' x' [] := by
  intro u
  induction u with
  | nil =>
    intro g cache x _ _ h _ g' x' hl
    simp only [loop, Option.some.injEq, Prod.mk.injEq] at hl
    obtain ⟨rfl, rfl⟩ := hl
    exact h
  | cons p u ih =>
    intro g cache x hr hok h hc g' x' hl
    obtain ⟨id, e⟩ := p
    simp only [loop, Option.bind_eq_bind, Option.bind_eq_some_iff, Prod.exists] at hl
    obtain ⟨x1, h1, g1, cache1, h2, x2, h3, h4⟩ := hl
    obtain ⟨m, hR⟩ := rep_exists h.inv
    have he : EventOk nk tok g0 e := hok e (by simp [evs])
    obtain ⟨i1, _, i3, i4⟩ := (event_step h.inv hR hne (cap := cap) (all := all) hc he.1).1 g1 cache1 h2
    have := h.step hsc hne hs (tk := tk) hr he h1 i4 i1 h3
    refine ih { g1 with changeId := id } cache1 x2 hr.tail (fun e' h' => hok e' (by simp [evs] at h' ⊢; exact Or.inr h')) ?_ i3 g' x' h4
    exact ⟨this.inv.changeId id, ⟨this.marks.full, this.marks.srt, this.marks.cache, this.marks.up⟩, this.sub, this.kinds,
      this.unnamed, this.edge, this.aux, this.alive, this.larg, this.name, this.tok, this.count⟩

/-- The invariant of the loop for an empty graph. -/
structure LoopEmpty (nk tk : AnnoKey S) (g : Graph S V C) (x : IndexState V C) : Prop where
  inv : Inv nk g
  empty : x.empty = true
  srt : x.invalid.Sorted
  typed : ∀ i, Named nk g i → (g.annos.getValue i tk).isSome
  count : AnnoStore.rowSum g.annos.byContainer ≤ g.annos.total

theorem loop_empty (hne : nk ≠ tk) (cap : Nat) (all : List C) :
    ∀ (u : List (Nat × Event S V C)) (g : Graph S V C) (cache : IdCache V) (x : IndexState V C),
      (∀ e ∈ evs u, e.NoRename nk ∧ ∀ n, e ≠ .deleteNodeLabel n tk) → LoopEmpty nk tk g x → CacheOk nk g cache →
      ∀ g' x', loop sc nk tk cap all g cache x u = some (g', x') → LoopEmpty nk tk g' x' := by
  intro u
  induction u with
  | nil =>
    intro g cache x _ h _ g' x' hl
    simp only [loop, Option.some.injEq, Prod.mk.injEq] at hl
    obtain ⟨rfl, rfl⟩ := hl
    exact h
  | cons p u ih =>
    intro g cache x hok h hc g' x' hl
    obtain ⟨id, e⟩ := p
    simp only [loop, Option.bind_eq_bind, Option.bind_eq_some_iff, Prod.exists] at hl
    obtain ⟨x1, h1, g1, cache1, h2, x2, h3, h4⟩ := hl
    obtain ⟨m, hR⟩ := rep_exists h.inv
    have he := hok e (by simp [evs])
    obtain ⟨i1, _, i3, i4⟩ := (event_step h.inv hR hne (cap := cap) (all := all) hc he.1).1 g1 cache1 h2
    have hf := event_effect h.inv hne he.1 i4
    have e1 : x1.empty = true ∧ x1.invalid.Sorted := by
      unfold before at h1
      split at h1
      · rw [if_pos h.empty] at h1; injection h1 with h1; rw [← h1]; exact ⟨h.empty, h.srt⟩
      · rw [if_pos h.empty] at h1; injection h1 with h1; rw [← h1]; exact ⟨h.empty, h.srt⟩
      · injection h1 with h1; rw [← h1]; exact ⟨h.empty, h.srt⟩
    have e2 : x2.empty = true ∧ x2.invalid.Sorted := by
      unfold after at h3
      split at h3
      · simp only at h3
        generalize hy : (if (sc.kind _ = .dominance ∨ sc.kind _ = .coverage) ∧ sc.unnamed _ = true then
          { x1 with text := _ :: x1.text } else x1) = y at h3
        have hyi : y.invalid = x1.invalid ∧ y.empty = x1.empty := by
          rw [← hy]; split <;> exact ⟨rfl, rfl⟩
        rw [hyi.2, if_pos e1.1] at h3
        injection h3 with h3
        rw [← h3, hyi.1, hyi.2]; exact e1
      · injection h3 with h3; rw [← h3]; exact e1
    refine ih { g1 with changeId := id } cache1 x2 (fun e' h' => hok e' (by simp [evs] at h' ⊢; exact Or.inr h')) ?_ i3 g' x' h4
    refine ⟨i1.changeId id, e2.1, e2.2, ?_, hf.count h.count⟩
    rintro i ⟨n, hn⟩
    have hn : g1.annos.getValue i nk = some n := hn
    show (g1.annos.getValue i tk).isSome
    rcases hf.name i n hn with h' | ⟨_, _, _, h'⟩
    · rcases hf.label i n tk h' hn with h'' | ⟨v, h'', h3⟩ | h''
      · rw [h'']; exact h.typed i ⟨n, h'⟩
      · rw [h3]; rfl
      · exact absurd h'' (he.2 n)
    · exact h'

end Index

end Graph
