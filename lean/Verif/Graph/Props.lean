import Verif.Graph.Update
import Mathlib.Data.List.Induction

/-!
# Properties of applying updates (C22, C23, C24, C25)
-/

set_option linter.unusedSimpArgs false
set_option linter.unusedSectionVars false

namespace Graph

variable {S V C : Type} [LinearOrder S] [OrderBot S] [LinearOrder V] [LinearOrder C]
variable {nk tk : AnnoKey S}

/-- The events of an update. -/
def evs (u : List (Nat × Event S V C)) : List (Event S V C) := u.map Prod.snd

theorem Inv.changeId {g : Graph S V C} (h : Inv nk g) (k : Nat) : Inv nk { g with changeId := k } :=
  ⟨h.an, h.cs, h.ci, h.uniq, h.named, h.bound⟩

theorem Rep.changeId {g : Graph S V C} {m : GSpec S V C} (h : Rep nk g m) (k : Nat) : Rep nk { g with changeId := k } m :=
  ⟨h.node, h.label, h.labelN, h.edge, h.edgeN, h.eanno, h.eannoN⟩

/-- The effect of an event on the node annotations alone. -/
def annoStep (nk tk : AnnoKey S) (s : AnnoStore NodeID64 S V) : Event S V C → Option (AnnoStore NodeID64 S V)
  | .addNode n ty =>
    if s.hasNodeName nk n then some s
    else (newId (⟨s, [], 0⟩ : Graph S V C)).map fun id => (s.insert id nk n).insert id tk ty
  | .deleteNode n => some (match s.nodeIdFromName nk n with
    | some id => (s.removeItem id).1
    | none => s)
  | .addNodeLabel n key val => some (match s.nodeIdFromName nk n with
    | some id => s.insert id key val
    | none => s)
  | .deleteNodeLabel n key => some (match s.nodeIdFromName nk n with
    | some id => (s.removeAnno id key).1
    | none => s)
  | _ => some s

theorem foldl_setComp_annos (f : Graph S V C → C → Adj NodeID64 S V) (all : List C) (g : Graph S V C) :
    (all.foldl (fun g c => g.setComp c (f g c)) g).annos = g.annos := by
  induction all generalizing g with
  | nil => rfl
  | cons c r ih => simp only [List.foldl_cons]; rw [ih]; rfl

/-- The node annotations do not depend on the components. -/
theorem core_annos (all : List C) (g : Graph S V C) (e : Event S V C) :
    (core nk tk all g e).map (fun g => g.annos) = annoStep nk tk g.annos e := by
  unfold core
  cases e with
  | addNode n ty =>
    simp only [applyEvent, annoStep]
    split
    · rfl
    · have : g.newId = newId (⟨g.annos, [], 0⟩ : Graph S V C) := rfl
      rw [this]
      cases newId (⟨g.annos, [], 0⟩ : Graph S V C) <;> rfl
  | deleteNode n =>
    simp only [applyEvent, annoStep, cachedId_nil]
    cases g.annos.nodeIdFromName nk n with
    | none => rfl
    | some i => simp only [Option.map_some]; rw [foldl_setComp_annos]
  | addNodeLabel n key val =>
    simp only [applyEvent, annoStep, cachedId_nil]
    cases g.annos.nodeIdFromName nk n <;> rfl
  | deleteNodeLabel n key =>
    simp only [applyEvent, annoStep, cachedId_nil]
    cases g.annos.nodeIdFromName nk n <;> rfl
  | addEdge s t c => simp [applyEvent, annoStep, cachedEnds_nil, editComp_annos]
  | deleteEdge s t c => simp [applyEvent, annoStep, cachedEnds_nil, editComp_annos]
  | addEdgeLabel s t c key val => simp [applyEvent, annoStep, cachedEnds_nil, editComp_annos]
  | deleteEdgeLabel s t c key => simp [applyEvent, annoStep, cachedEnds_nil, editComp_annos]

/-- An update, aborted or not, refines a prefix of its events. -/
theorem loop_refines (hne : nk ≠ tk) (cap : Nat) (hook : Graph S V C → Event S V C → Bool) (all : List C) :
    ∀ (u : List (Nat × Event S V C)) (g : Graph S V C) (cache : IdCache V) (m : GSpec S V C), Inv nk g → Rep nk g m →
      CacheOk nk g cache → (∀ e ∈ evs u, e.NoRename nk) →
      let r := applyLoop nk tk cap hook all g cache u
      Inv nk r.1 ∧ ∃ k, Rep nk r.1 (m.run nk tk ((evs u).take k)) ∧ (r.2 = true → k = u.length) ∧
        ((evs u).take k).foldlM (annoStep nk tk) g.annos = some r.1.annos ∧
        (r.2 = false → (∃ g e, hook g e = false) ∨ (evs u).foldlM (annoStep nk tk) g.annos = none) := by
  intro u
  induction u with
  | nil => intro g cache m hI hR _ _; exact ⟨hI, 0, hR, fun _ => rfl, rfl, fun h => by cases h⟩
  | cons x u ih =>
    intro g cache m hI hR hc hu
    obtain ⟨id, e⟩ := x
    have he : e.NoRename nk := hu e (by simp [evs])
    simp only [applyLoop]
    by_cases hh : hook g e = true
    · rw [if_pos hh]
      obtain ⟨h1, h2⟩ := event_step hI hR hne (cap := cap) (all := all) hc he
      cases ha : applyEvent nk tk cap all g cache e with
      | none =>
        refine ⟨hI, 0, hR, fun h => (by cases h), rfl, fun _ => Or.inr ?_⟩
        have h3 := core_annos (nk := nk) (tk := tk) all g e
        rw [(h2 ha).2] at h3
        simp only [evs, List.map_cons, List.foldlM_cons, ← h3]
        rfl
      | some r =>
        obtain ⟨g', cache'⟩ := r
        obtain ⟨r1, r2, r3, r4⟩ := h1 g' cache' ha
        have h3 := core_annos (nk := nk) (tk := tk) all g e
        rw [r4] at h3
        obtain ⟨s1, k, s2, s3, s4, s5⟩ := ih _ cache' (m.step nk tk e) (r1.changeId id) (r2.changeId id) r3
          (fun e' h' => hu e' (by simp [evs] at h' ⊢; exact Or.inr h'))
        refine ⟨s1, k + 1, s2, fun h => by rw [s3 h]; rfl, ?_, ?_⟩
        · simp only [evs, List.map_cons, List.take_succ_cons, List.foldlM_cons, ← h3]
          exact s4
        · intro h
          rcases s5 h with h | h
          · exact Or.inl h
          · right
            simp only [evs, List.map_cons, List.foldlM_cons, ← h3]
            exact h
    · rw [if_neg hh]
      exact ⟨hI, 0, hR, fun h => (by cases h), rfl, fun _ => Or.inl ⟨g, e, by simpa using hh⟩⟩

theorem cacheOk_nil (g : Graph S V C) : CacheOk nk g [] := fun _ h => by cases h

/-- A series of updates; the first one that fails ends it. -/
def applyAll (nk tk : AnnoKey S) (cap : Nat) (hook : Graph S V C → Event S V C → Bool) (g : Graph S V C) :
    List (List (Nat × Event S V C)) → Graph S V C × Bool
  | [] => (g, true)
  | u :: r =>
    if (applyInMemory nk tk cap hook g u).2 then applyAll nk tk cap hook (applyInMemory nk tk cap hook g u).1 r
    else ((applyInMemory nk tk cap hook g u).1, false)

theorem all_refines (hne : nk ≠ tk) (cap : Nat) (hook : Graph S V C → Event S V C → Bool)
    (us : List (List (Nat × Event S V C))) (g : Graph S V C) (m : GSpec S V C) (hI : Inv nk g) (hR : Rep nk g m)
    (hu : ∀ e ∈ evs us.flatten, e.NoRename nk) :
    let r := applyAll nk tk cap hook g us
    Inv nk r.1 ∧ (∃ k, Rep nk r.1 (m.run nk tk ((evs us.flatten).take k)) ∧ (r.2 = true → k = us.flatten.length) ∧
      ((evs us.flatten).take k).foldlM (annoStep nk tk) g.annos = some r.1.annos ∧
      (r.2 = false → (∃ g e, hook g e = false) ∨ (evs us.flatten).foldlM (annoStep nk tk) g.annos = none)) := by
  induction us generalizing g m with
  | nil => exact ⟨hI, 0, hR, fun _ => rfl, rfl, fun h => by cases h⟩
  | cons u r ih =>
    have hsplit : evs (u :: r).flatten = evs u ++ evs r.flatten := by simp [evs]
    rw [hsplit] at hu
    obtain ⟨h1, k, h2, h3, h4, h5⟩ := loop_refines hne cap hook g.comps.keys u g [] m hI hR (cacheOk_nil g)
      (fun e h => hu e (List.mem_append_left _ h))
    unfold applyAll
    change Inv nk (applyInMemory nk tk cap hook g u).1 at h1
    change Rep nk (applyInMemory nk tk cap hook g u).1 _ at h2
    change (applyInMemory nk tk cap hook g u).2 = true → _ at h3
    change _ = some (applyInMemory nk tk cap hook g u).1.annos at h4
    change (applyInMemory nk tk cap hook g u).2 = false → _ at h5
    by_cases hs : (applyInMemory nk tk cap hook g u).2 = true
    · rw [if_pos hs]
      obtain rfl := h3 hs
      have hlen : u.length = (evs u).length := by simp [evs]
      rw [hlen, List.take_length] at h2 h4
      obtain ⟨i1, k', i2, i3, i4, i5⟩ := ih _ _ h1 h2 (fun e h => hu e (List.mem_append_right _ h))
      refine ⟨i1, u.length + k', ?_, ?_, ?_, ?_⟩
      · rw [hsplit, hlen, List.take_length_add_append]
        simpa [GSpec.run, List.foldl_append] using i2
      · intro h
        rw [i3 h]
        simp
      · rw [hsplit, hlen, List.take_length_add_append, List.foldlM_append, h4]
        exact i4
      · intro h
        rcases i5 h with h | h
        · exact Or.inl h
        · right
          rw [hsplit, List.foldlM_append, h4]
          exact h
    · rw [if_neg hs]
      have : (evs (u :: r).flatten).take (min k u.length) = (evs u).take k := by
        rw [hsplit, List.take_append_of_le_length (by simp [evs]), List.take_eq_take_iff]
        simp [evs]
      refine ⟨h1, min k u.length, ?_, fun h => (by cases h), ?_, ?_⟩
      · rw [this]; exact h2
      · rw [this]; exact h4
      · intro _
        rcases h5 (by simpa using hs) with h | h
        · exact Or.inl h
        · right
          rw [hsplit, List.foldlM_append, h]
          rfl

/-- C22: whatever the history of updates since the empty graph (as long as no event touches the name label itself), after a
successful series of updates the nodes, labels, edges and edge labels are those which the event list prescribes.  Every node ID
with a name represents the node of that name. -/
theorem C22_apply_update (hne : nk ≠ tk) (cap : Nat) (hook : Graph S V C → Event S V C → Bool)
    (us : List (List (Nat × Event S V C))) (hu : ∀ e ∈ evs us.flatten, e.NoRename nk)
    (hok : (applyAll nk tk cap hook Graph.new us).2 = true) :
    Rep nk (applyAll nk tk cap hook Graph.new us).1 (GSpec.empty.run nk tk (evs us.flatten)) := by
  obtain ⟨_, k, h2, h3, _, _⟩ := all_refines hne cap hook us Graph.new GSpec.empty Inv.empty Rep.empty hu
  rw [h3 hok] at h2
  have : us.flatten.length = (evs us.flatten).length := by unfold evs; rw [List.length_map]
  rw [this, List.take_length] at h2
  exact h2

/-- An aborted update has applied a prefix of its events. -/
theorem C22_aborted (hne : nk ≠ tk) (cap : Nat) (hook : Graph S V C → Event S V C → Bool)
    (us : List (List (Nat × Event S V C))) (hu : ∀ e ∈ evs us.flatten, e.NoRename nk) :
    ∃ k, Rep nk (applyAll nk tk cap hook Graph.new us).1 (GSpec.empty.run nk tk ((evs us.flatten).take k)) := by
  obtain ⟨_, k, h2, _, _, _⟩ := all_refines hne cap hook us Graph.new GSpec.empty Inv.empty Rep.empty hu
  exact ⟨k, h2⟩

/-! ### No failure without a rejecting hook -/

/-- Number of node IDs used at most. -/
def Few (s : AnnoStore NodeID64 S V) (n : Nat) : Prop := ∀ l, s.largest = some l → l.val < n

theorem newId_of_few {g : Graph S V C} {n : Nat} (h : Few g.annos n) (hn : n < 256 ^ 8) : ∃ i, g.newId = some i ∧ i.val ≤ n := by
  unfold newId AnnoStore.largestItem
  cases hl : g.annos.largest with
  | none => exact ⟨_, rfl, Nat.zero_le _⟩
  | some l =>
    have := h l hl
    simp only
    rw [dif_pos (by omega)]
    exact ⟨_, rfl, by show l.val + 1 ≤ n; omega⟩

/-- The largest item after an insertion. -/
theorem largest_insert_le {s : AnnoStore NodeID64 S V} {t : NodeID64} {key : AnnoKey S} {val : V} {l : NodeID64}
    (hl : (s.insert t key val).largest = some l) : l = t ∨ s.largest = some l := by
  unfold AnnoStore.insert at hl
  simp only at hl
  split at hl
  · split at hl
    · exact Or.inr hl
    · exact Or.inr hl
  · simp only at hl
    cases h : s.largest with
    | none => rw [h] at hl; simp at hl; exact Or.inl hl.symm
    | some l0 =>
      rw [h] at hl
      simp only at hl
      split at hl
      · exact Or.inl (Option.some.inj hl).symm
      · exact Or.inr hl

theorem le_largest' {s : AnnoStore NodeID64 S V} (h : s.Inv) {i : NodeID64} {k : AnnoKey S} {v : V}
    (hv : s.getValue i k = some v) : ∃ l, s.largest = some l ∧ i ≤ l := by
  obtain ⟨k, v, h1, h2, h3⟩ := (AnnoStore.getValue_iff h _ _ _).1 hv
  rw [h.mirror] at h3
  unfold AnnoStore.cell at h3
  cases hr : s.byContainer.get i with
  | none => rw [hr] at h3; simp at h3
  | some row => exact h.larg i row hr

/-- Number of `AddNode` events. -/
def adds (l : List (Event S V C)) : Nat := (l.filter fun e => match e with
  | .addNode _ _ => true
  | _ => false).length

/-- One event on the node annotations: consistency, number of IDs, and names of used IDs. -/
theorem annoStep_spec {s : AnnoStore NodeID64 S V} (h : s.Inv) (hne : nk ≠ tk) (e : Event S V C) {n : Nat} (hf : Few s n) :
    (n < 256 ^ 8 → ∃ s', annoStep nk tk s e = some s') ∧
    ∀ s', annoStep nk tk s e = some s' →
      s'.Inv ∧ Few s' (n + adds [e]) ∧ (∀ l, s.largest = some l → ∃ l', s'.largest = some l' ∧ l ≤ l') ∧
      (e.NoRename nk → ∀ l i x, s.largest = some l → i ≤ l → s'.getValue i nk = some x → s.getValue i nk = some x) := by
  have triv : ∀ n', n ≤ n' → s.Inv ∧ Few s n' ∧ (∀ l, s.largest = some l → ∃ l', s.largest = some l' ∧ l ≤ l') ∧
      (e.NoRename nk → ∀ l i x, s.largest = some l → i ≤ l → s.getValue i nk = some x → s.getValue i nk = some x) :=
    fun n' hn => ⟨h, fun l hl => lt_of_lt_of_le (hf l hl) hn, fun l hl => ⟨l, hl, le_refl _⟩, fun _ _ _ _ _ _ hx => hx⟩
  cases e with
  | addNode x ty =>
    simp only [annoStep]
    by_cases hh : s.hasNodeName nk x = true
    · simp only [hh, if_true]
      refine ⟨fun _ => ⟨_, rfl⟩, ?_⟩
      rintro s' hs
      obtain rfl := Option.some.inj hs
      exact triv _ (by omega)
    · simp only [hh, if_false, Bool.false_eq_true]
      refine ⟨?_, ?_⟩
      · intro hn
        obtain ⟨i, hi, _⟩ := newId_of_few (g := (⟨s, [], 0⟩ : Graph S V C)) hf hn
        rw [hi]
        exact ⟨_, rfl⟩
      · intro s' hs
        cases hi : newId (⟨s, [], 0⟩ : Graph S V C) with
        | none => rw [hi] at hs; cases hs
        | some i =>
          rw [hi] at hs
          obtain rfl := Option.some.inj hs
          have hA1 := h.insert i nk x
          have hle : i.val < n + adds [(.addNode x ty : Event S V C)] := by
            have : adds [(.addNode x ty : Event S V C)] = 1 := rfl
            rw [this]
            unfold newId AnnoStore.largestItem at hi
            cases hl : s.largest with
            | none =>
              simp only [hl, Option.some.injEq] at hi
              rw [← hi]
              show 0 < n + 1
              omega
            | some l =>
              have h2 := hf l hl
              simp only [hl] at hi
              split at hi
              · obtain rfl := Option.some.inj hi
                show l.val + 1 < n + 1
                omega
              · cases hi
          refine ⟨hA1.insert i tk ty, ?_, ?_, ?_⟩
          · intro l hl
            rcases largest_insert_le hl with rfl | hl
            · exact hle
            · rcases largest_insert_le hl with rfl | hl
              · exact hle
              · have := hf l hl; omega
          · intro l hl
            obtain ⟨l1, h1, h2⟩ := (AnnoStore.largest_insert h i nk x).2 l hl
            obtain ⟨l2, h3, h4⟩ := (AnnoStore.largest_insert hA1 i tk ty).2 l1 h1
            exact ⟨l2, h3, le_trans h2 h4⟩
          · intro _ l j y hl hj hv
            have hij : j ≠ i := by
              rintro rfl
              exact absurd (newId_fresh (g := (⟨s, [], 0⟩ : Graph S V C)) hi l hl) (not_lt.2 hj)
            rw [AnnoStore.getValue_insert hA1, AnnoStore.getValue_insert h] at hv
            simpa [hij] using hv
  | deleteNode x =>
    simp only [annoStep]
    refine ⟨fun _ => ⟨_, rfl⟩, ?_⟩
    rintro s' hs
    obtain rfl := Option.some.inj hs
    cases hi : s.nodeIdFromName nk x with
    | none => exact triv _ (by omega)
    | some i =>
      simp only
      obtain ⟨a1, _, a3⟩ := AnnoStore.removeItem_spec h i
      have hl := AnnoStore.largest_removeItem s i
      refine ⟨a1, ?_, ?_, ?_⟩
      · intro l h1; rw [hl] at h1; have := hf l h1; omega
      · intro l h1; exact ⟨l, by rw [hl]; exact h1, le_refl _⟩
      · intro _ l j y _ _ hv
        rw [a3] at hv
        split at hv
        · cases hv
        · exact hv
  | addNodeLabel x key val =>
    simp only [annoStep]
    refine ⟨fun _ => ⟨_, rfl⟩, ?_⟩
    rintro s' hs
    obtain rfl := Option.some.inj hs
    cases hi : s.nodeIdFromName nk x with
    | none => exact triv _ (by omega)
    | some i =>
      simp only
      refine ⟨h.insert i key val, ?_, (AnnoStore.largest_insert h i key val).2, ?_⟩
      · intro l h1
        rcases largest_insert_le h1 with rfl | h1
        · obtain ⟨l', h2, h3⟩ := le_largest' h ((AnnoStore.nodeIdFromName_spec h nk x).1 l hi).1
          have := hf l' h2
          have : l.val ≤ l'.val := h3
          omega
        · have := hf l h1; omega
      · intro hk l j y _ _ hv
        rw [AnnoStore.getValue_insert h] at hv
        have : nk ≠ key := Ne.symm hk
        simpa [this] using hv
  | deleteNodeLabel x key =>
    simp only [annoStep]
    refine ⟨fun _ => ⟨_, rfl⟩, ?_⟩
    rintro s' hs
    obtain rfl := Option.some.inj hs
    cases hi : s.nodeIdFromName nk x with
    | none => exact triv _ (by omega)
    | some i =>
      simp only
      obtain ⟨a1, _, a3⟩ := AnnoStore.removeAnno_spec h i key
      have hl := AnnoStore.largest_removeAnno s i key
      refine ⟨a1, ?_, ?_, ?_⟩
      · intro l h1; rw [hl] at h1; have := hf l h1; omega
      · intro l h1; exact ⟨l, by rw [hl]; exact h1, le_refl _⟩
      · intro _ l j y _ _ hv
        rw [a3] at hv
        split at hv
        · cases hv
        · exact hv
  | addEdge a b c | deleteEdge a b c | addEdgeLabel a b c key val | deleteEdgeLabel a b c key =>
    simp only [annoStep]
    refine ⟨fun _ => ⟨_, rfl⟩, ?_⟩
    rintro s' hs
    obtain rfl := Option.some.inj hs
    exact triv _ (by omega)

theorem adds_cons (e : Event S V C) (l : List (Event S V C)) : adds (e :: l) = adds [e] + adds l := by
  unfold adds
  rw [← List.length_append, ← List.filter_append]
  rfl

theorem annoStep_run (hne : nk ≠ tk) (l : List (Event S V C)) : ∀ {s : AnnoStore NodeID64 S V} {n : Nat}, s.Inv → Few s n →
    (n + adds l ≤ 256 ^ 8 → ∃ s', l.foldlM (annoStep nk tk) s = some s') ∧
    ∀ s', l.foldlM (annoStep nk tk) s = some s' → s'.Inv ∧
      (∀ l0, s.largest = some l0 → ∃ l', s'.largest = some l' ∧ l0 ≤ l') ∧
      ((∀ e ∈ l, e.NoRename nk) → ∀ l0 i x, s.largest = some l0 → i ≤ l0 → s'.getValue i nk = some x →
        s.getValue i nk = some x) := by
  induction l with
  | nil =>
    intro s n h _
    refine ⟨fun _ => ⟨s, rfl⟩, ?_⟩
    intro s' hs
    obtain rfl := Option.some.inj hs
    exact ⟨h, fun l hl => ⟨l, hl, le_refl _⟩, fun _ _ _ _ _ _ hx => hx⟩
  | cons e l ih =>
    intro s n h hf
    have hc := adds_cons e l
    constructor
    · intro hb
      by_cases hn : n < 256 ^ 8
      · obtain ⟨s1, h1⟩ := (annoStep_spec (nk := nk) (tk := tk) h hne e hf).1 hn
        obtain ⟨i1, i2, _, _⟩ := (annoStep_spec (nk := nk) (tk := tk) h hne e hf).2 s1 h1
        obtain ⟨s2, h2⟩ := (ih i1 i2).1 (by omega)
        refine ⟨s2, ?_⟩
        rw [List.foldlM_cons, h1]
        exact h2
      · have he : adds [e] = 0 := by omega
        have hs : ∃ s1, annoStep nk tk s e = some s1 := by
          cases e with
          | addNode x ty => cases he
          | _ => exact ⟨_, rfl⟩
        obtain ⟨s1, h1⟩ := hs
        obtain ⟨i1, i2, _, _⟩ := (annoStep_spec (nk := nk) (tk := tk) h hne e hf).2 s1 h1
        obtain ⟨s2, h2⟩ := (ih i1 i2).1 (by omega)
        refine ⟨s2, ?_⟩
        rw [List.foldlM_cons, h1]
        exact h2
    · intro s' hs
      rw [List.foldlM_cons] at hs
      cases h1 : annoStep nk tk s e with
      | none => rw [h1] at hs; cases hs
      | some s1 =>
        rw [h1] at hs
        obtain ⟨i1, i2, i3, i4⟩ := (annoStep_spec (nk := nk) (tk := tk) h hne e hf).2 s1 h1
        obtain ⟨j1, j2, j3⟩ := (ih i1 i2).2 s' hs
        refine ⟨j1, ?_, ?_⟩
        · intro l0 hl0
          obtain ⟨l1, k1, k2⟩ := i3 l0 hl0
          obtain ⟨l2, k3, k4⟩ := j2 l1 k1
          exact ⟨l2, k3, le_trans k2 k4⟩
        · intro hr l0 i x hl0 hi hx
          obtain ⟨l1, k1, k2⟩ := i3 l0 hl0
          have := j3 (fun e he => hr e (List.mem_cons_of_mem _ he)) l1 i x k1 (le_trans hi k2) hx
          exact i4 (hr e (by simp)) l0 i x hl0 hi this

theorem few_self (s : AnnoStore NodeID64 S V) : Few s (256 ^ 8) := fun l _ => l.isLt

theorem few_new : Few (AnnoStore.new : AnnoStore NodeID64 S V) 0 := fun l h => by cases h

/-- C22: without a rejecting hook every series of updates with at most `2^64` new nodes succeeds. -/
theorem C22_succeeds (hne : nk ≠ tk) (cap : Nat) (us : List (List (Nat × Event S V C)))
    (hu : ∀ e ∈ evs us.flatten, e.NoRename nk) (hb : adds (evs us.flatten) ≤ 256 ^ 8) :
    (applyAll nk tk cap (fun _ _ => true) (Graph.new : Graph S V C) us).2 = true := by
  obtain ⟨_, k, _, _, _, h5⟩ := all_refines hne cap (fun _ _ => true) us Graph.new GSpec.empty Inv.empty Rep.empty hu
  cases h : (applyAll nk tk cap (fun _ _ => true) (Graph.new : Graph S V C) us).2 with
  | true => rfl
  | false =>
    rcases h5 h with ⟨_, _, h⟩ | h
    · cases h
    · obtain ⟨s', hs⟩ := (annoStep_run (nk := nk) (tk := tk) hne (evs us.flatten) AnnoStore.Inv.new few_new).1 (by omega)
      change List.foldlM (annoStep nk tk) AnnoStore.new (evs us.flatten) = none at h
      rw [h] at hs; cases hs

/-! ## C24 -/

/-- Updates, some of which may be aborted, one after the other. -/
def history (nk tk : AnnoKey S) (cap : Nat) (g : Graph S V C)
    (us : List ((Graph S V C → Event S V C → Bool) × List (Nat × Event S V C))) : Graph S V C :=
  us.foldl (fun g u => (applyInMemory nk tk cap u.1 g u.2).1) g

theorem history_refines (hne : nk ≠ tk) (cap : Nat)
    (us : List ((Graph S V C → Event S V C → Bool) × List (Nat × Event S V C))) :
    ∀ (g : Graph S V C) (m : GSpec S V C), Inv nk g → Rep nk g m → (∀ u ∈ us, ∀ e ∈ evs u.2, e.NoRename nk) →
      Inv nk (history nk tk cap g us) ∧ ∃ l : List (Event S V C), (∀ e ∈ l, e.NoRename nk) ∧
        Rep nk (history nk tk cap g us) (m.run nk tk l) ∧
        l.foldlM (annoStep nk tk) g.annos = some (history nk tk cap g us).annos := by
  induction us with
  | nil => intro g m hI hR _; exact ⟨hI, [], by simp, hR, rfl⟩
  | cons u us ih =>
    intro g m hI hR hu
    obtain ⟨h1, k, h2, _, h4, _⟩ := loop_refines hne cap u.1 g.comps.keys u.2 g [] m hI hR (cacheOk_nil g)
      (hu u (by simp))
    obtain ⟨i1, l, i2, i3, i4⟩ := ih _ _ h1 h2 (fun u' h' => hu u' (List.mem_cons_of_mem _ h'))
    refine ⟨i1, (evs u.2).take k ++ l, ?_, ?_, ?_⟩
    · intro e he
      rcases List.mem_append.1 he with he | he
      · exact hu u (by simp) e (List.mem_of_mem_take he)
      · exact i2 e he
    · rw [GSpec.run, List.foldl_append]; exact i3
    · rw [List.foldlM_append, h4]
      exact i4

/-- C24: after any history of updates, some of which may have been aborted, no two node IDs have the same name, and a name is
found iff some node has it. -/
theorem C24_unique_names (hne : nk ≠ tk) (cap : Nat)
    (us : List ((Graph S V C → Event S V C → Bool) × List (Nat × Event S V C)))
    (hu : ∀ u ∈ us, ∀ e ∈ evs u.2, e.NoRename nk) :
    let g := history nk tk cap Graph.new us
    (∀ i j n, g.annos.getValue i nk = some n → g.annos.getValue j nk = some n → i = j) ∧
    (∀ i n, g.annos.nodeIdFromName nk n = some i ↔ g.annos.getValue i nk = some n) ∧
    (∀ i k v, g.annos.getValue i k = some v → ∃ n, g.annos.getValue i nk = some n) := by
  obtain ⟨h, _⟩ := history_refines hne cap us Graph.new GSpec.empty Inv.empty Rep.empty hu
  exact ⟨h.uniq, fun i n => idOf_iff h n i, h.named⟩

/-- C24: a node ID is never given to another node: a node that has a name at some time is the only one which ever has its ID
afterwards, and the ID of a deleted node stays unused. -/
theorem C24_ids_not_reused (hne : nk ≠ tk) (cap : Nat)
    (us vs ws : List ((Graph S V C → Event S V C → Bool) × List (Nat × Event S V C)))
    (hu : ∀ u ∈ us ++ vs ++ ws, ∀ e ∈ evs u.2, e.NoRename nk) (i : NodeID64) (n x : V)
    (hn : (history nk tk cap Graph.new us).annos.getValue i nk = some n)
    (hx : (history nk tk cap Graph.new (us ++ vs ++ ws)).annos.getValue i nk = some x) :
    x = n ∧ (history nk tk cap Graph.new (us ++ vs)).annos.getValue i nk = some n := by
  obtain ⟨h, _, _, hr, _⟩ := history_refines hne cap us Graph.new GSpec.empty Inv.empty Rep.empty
    (fun u h => hu u (by simp [h]))
  have e1 : history nk tk cap Graph.new (us ++ vs) = history nk tk cap (history nk tk cap Graph.new us) vs := by
    simp [history, List.foldl_append]
  obtain ⟨h', l1, a1, hr', a2⟩ := history_refines hne cap vs _ _ h hr (fun u h => hu u (by simp [h]))
  rw [← e1] at a2 h' hr'
  have e2 : history nk tk cap Graph.new (us ++ vs ++ ws) = history nk tk cap (history nk tk cap Graph.new (us ++ vs)) ws := by
    simp [history, List.foldl_append]
  obtain ⟨h'', l2, b1, _, b2⟩ := history_refines hne cap ws _ _ h' hr' (fun u h => hu u (by simp [h]))
  rw [← e2] at b2
  obtain ⟨l0, hl0, hi⟩ := le_largest h hn
  obtain ⟨_, c2, c3⟩ := (annoStep_run (nk := nk) (tk := tk) hne l1 h.an (few_self _)).2 _ a2
  obtain ⟨_, _, d3⟩ := (annoStep_run (nk := nk) (tk := tk) hne l2 h'.an (few_self _)).2 _ b2
  obtain ⟨l1', hl1, hle⟩ := c2 l0 hl0
  have x1 := d3 b1 l1' i x hl1 (le_trans hi hle) hx
  have x2 := c3 a1 l0 i x hl0 hi x1
  rw [hn] at x2
  obtain rfl := Option.some.inj x2
  exact ⟨rfl, x1⟩

/-! ## C23 -/

/-- Every edge connects two existing nodes. -/
def NoDangling (nk : AnnoKey S) (g : Graph S V C) : Prop :=
  ∀ c a b, b ∈ (g.comp c).out a → (∃ n, g.annos.getValue a nk = some n) ∧ ∃ n, g.annos.getValue b nk = some n

/-- Before a `DeleteNode` event edges are only added to components which already existed before the update. -/
def DeletesOld (old : List C) (l : List (Event S V C)) : Prop :=
  ∀ l1 l2 n, l = l1 ++ .deleteNode n :: l2 → ∀ s t c, (.addEdge s t (some c) : Event S V C) ∈ l1 → c ∈ old

/-- The components that an event adds an edge to. -/
def grows : Event S V C → Option C
  | .addEdge _ _ c => c
  | _ => none

/-- Edges after one event: a new one connects existing nodes and is in the named component; a deleted node has no edges in
the old components. -/
theorem core_edges {g : Graph S V C} {m : GSpec S V C} (hI : Inv nk g) (hR : Rep nk g m) (hne : nk ≠ tk) {all : List C}
    {e : Event S V C} (he : e.NoRename nk) {g' : Graph S V C} (hg : core nk tk all g e = some g') (hd : NoDangling nk g)
    (hold : (∃ n, e = .deleteNode n) → ∀ c a b, b ∈ (g.comp c).out a → c ∈ all) :
    NoDangling nk g' ∧ ∀ c a b, b ∈ (g'.comp c).out a → b ∈ (g.comp c).out a ∨ grows e = some c := by
  have edit : ∀ s t c f, (∀ c0 i j, c = some c0 → g.annos.getValue i nk = some s → g.annos.getValue j nk = some t →
        ∀ a b, b ∈ (f (g.comp c0) i j).out a → b ∈ (g.comp c0).out a ∨ (a = i ∧ b = j ∧ grows e = some c0)) →
      core nk tk all g e =
        some (g.editComp (g.annos.nodeIdFromName nk s) (g.annos.nodeIdFromName nk t) c f) →
      NoDangling nk g' ∧ ∀ c a b, b ∈ (g'.comp c).out a → b ∈ (g.comp c).out a ∨ grows e = some c := by
    intro s t c f hf hgg
    rw [hg] at hgg
    obtain rfl := Option.some.inj hgg
    unfold editComp
    cases h1 : g.annos.nodeIdFromName nk s with
    | none => exact ⟨hd, fun c a b h => Or.inl h⟩
    | some i =>
      cases h2 : g.annos.nodeIdFromName nk t with
      | none => exact ⟨hd, fun c a b h => Or.inl h⟩
      | some j =>
        cases c with
        | none => exact ⟨hd, fun c a b h => Or.inl h⟩
        | some c0 =>
          simp only
          rw [idOf_iff hI] at h1 h2
          have key : ∀ d a b, b ∈ ((g.setComp c0 (f (g.comp c0) i j)).comp d).out a →
              b ∈ (g.comp d).out a ∨ (a = i ∧ b = j ∧ grows e = some d) := by
            intro d a b hab
            rw [comp_setComp] at hab
            by_cases hdc : d = c0
            · subst hdc; rw [if_pos rfl] at hab; exact hf d i j rfl h1 h2 a b hab
            · rw [if_neg hdc] at hab; exact Or.inl hab
          refine ⟨?_, ?_⟩
          · intro d a b hab
            rcases key d a b hab with h | ⟨rfl, rfl, _⟩
            · exact hd d a b h
            · exact ⟨⟨s, h1⟩, ⟨t, h2⟩⟩
          · intro d a b hab
            rcases key d a b hab with h | ⟨_, _, h⟩
            · exact Or.inl h
            · exact Or.inr h
  cases e with
  | addNode n ty =>
    have h1 := event_step hI hR hne (cap := 0) (all := all) (cacheOk_nil g) he
    unfold core applyEvent at hg
    simp only at hg
    split at hg
    · obtain rfl := Option.some.inj hg
      exact ⟨hd, fun c a b h => Or.inl h⟩
    · rename_i hn
      cases hi : g.newId with
      | none => rw [hi] at hg; cases hg
      | some i =>
        rw [hi] at hg
        obtain rfl := Option.some.inj hg
        refine ⟨?_, fun c a b h => Or.inl h⟩
        intro c a b hab
        obtain ⟨⟨x, hx⟩, ⟨y, hy⟩⟩ := hd c a b hab
        have keep : ∀ j z, g.annos.getValue j nk = some z →
            ∃ n', ((g.annos.insert i nk n).insert i tk ty).getValue j nk = some n' := by
          intro j z hz
          rw [AnnoStore.getValue_insert (hI.an.insert i nk n), AnnoStore.getValue_insert hI.an]
          simp only [hne, and_false, if_false, and_true]
          split
          · exact ⟨_, rfl⟩
          · exact ⟨z, hz⟩
        exact ⟨keep a x hx, keep b y hy⟩
  | deleteNode n =>
    unfold core at hg
    simp only [applyEvent, cachedId_nil] at hg
    cases hi : g.annos.nodeIdFromName nk n with
    | none =>
      rw [hi] at hg
      obtain rfl := Option.some.inj hg
      exact ⟨hd, fun c a b h => Or.inl h⟩
    | some i =>
      rw [hi] at hg
      obtain rfl := Option.some.inj hg
      have hin := (idOf_iff hI n i).1 hi
      obtain ⟨a1, _, a3⟩ := AnnoStore.removeItem_spec hI.an i
      have hI0 : Inv nk { g with annos := (g.annos.removeItem i).1 } := by
        refine ⟨a1, hI.cs, hI.ci, ?_, ?_, ?_⟩
        · intro a b x h1 h2
          simp only [a3] at h1 h2
          split at h1
          · cases h1
          · split at h2
            · cases h2
            · exact hI.uniq a b x h1 h2
        · intro a k v h
          simp only [a3] at h ⊢
          split at h
          · cases h
          · rename_i e
            obtain ⟨x, hx⟩ := hI.named a k v h
            exact ⟨x, by rw [if_neg e]; exact hx⟩
        · intro c a b h
          show ∃ l, (g.annos.removeItem i).1.largest = some l ∧ _
          rw [AnnoStore.largest_removeItem]
          exact hI.bound c a b h
      obtain ⟨f1, _, _, _, f5, _⟩ := foldl_deleteNode hI0 i all
      simp only
      refine ⟨?_, fun c a b h => Or.inl ((f5 c a b).1 h).1⟩
      intro c a b hab
      obtain ⟨h1, h2⟩ := (f5 c a b).1 hab
      have h1' : b ∈ (g.comp c).out a := h1
      have hc : c ∈ all := hold ⟨n, rfl⟩ c a b h1'
      simp only [hc, true_and, not_or] at h2
      rw [f1]
      simp only [a3, if_neg h2.1, if_neg h2.2]
      exact hd c a b h1'
  | addNodeLabel n key val =>
    unfold core at hg
    simp only [applyEvent, cachedId_nil] at hg
    cases hi : g.annos.nodeIdFromName nk n with
    | none => rw [hi] at hg; obtain rfl := Option.some.inj hg; exact ⟨hd, fun c a b h => Or.inl h⟩
    | some i =>
      rw [hi] at hg
      obtain rfl := Option.some.inj hg
      refine ⟨?_, fun c a b h => Or.inl h⟩
      intro c a b hab
      have hk : nk ≠ key := Ne.symm he
      simp only [AnnoStore.getValue_insert hI.an, hk, and_false, if_false]
      exact hd c a b hab
  | deleteNodeLabel n key =>
    unfold core at hg
    simp only [applyEvent, cachedId_nil] at hg
    cases hi : g.annos.nodeIdFromName nk n with
    | none => rw [hi] at hg; obtain rfl := Option.some.inj hg; exact ⟨hd, fun c a b h => Or.inl h⟩
    | some i =>
      rw [hi] at hg
      obtain rfl := Option.some.inj hg
      refine ⟨?_, fun c a b h => Or.inl h⟩
      intro c a b hab
      have hk : nk ≠ key := Ne.symm he
      simp only [(AnnoStore.removeAnno_spec hI.an i key).2.2, hk, and_false, if_false]
      exact hd c a b hab
  | addEdge s t c =>
    refine edit s t c (fun gs a b => gs.addEdge a b) ?_ (by unfold core; simp only [applyEvent, cachedEnds_nil]; rfl)
    rintro c0 i j rfl hi hj a b hab
    obtain ⟨_, s2, _⟩ := adj_step (hI.ci c0) (.addEdge i j)
    simp only [Adj.step, Adj.specStep] at s2
    rw [s2] at hab
    split at hab
    · rename_i h; exact Or.inr ⟨h.1, h.2.1, rfl⟩
    · exact Or.inl (by simpa using hab)
  | deleteEdge s t c =>
    refine edit s t c (fun gs a b => gs.deleteEdge a b) ?_ (by unfold core; simp only [applyEvent, cachedEnds_nil]; rfl)
    rintro c0 i j rfl hi hj a b hab
    obtain ⟨_, s2, _⟩ := adj_step (hI.ci c0) (.deleteEdge i j)
    simp only [Adj.step, Adj.specStep] at s2
    rw [s2] at hab
    split at hab
    · cases hab
    · exact Or.inl (by simpa using hab)
  | addEdgeLabel s t c key val =>
    refine edit s t c (fun gs a b => if gs.isConnected a b 1 (.included 1) = some true then gs.addAnno a b key val else gs) ?_
      (by unfold core; simp only [applyEvent, cachedEnds_nil]; rfl)
    rintro c0 i j rfl hi hj a b hab
    split at hab
    · obtain ⟨_, s2, _⟩ := adj_step (hI.ci c0) (.addAnno i j key val)
      simp only [Adj.step, Adj.specStep] at s2
      rw [s2] at hab
      exact Or.inl (by simpa using hab)
    · exact Or.inl hab
  | deleteEdgeLabel s t c key =>
    refine edit s t c (fun gs a b => if gs.isConnected a b 1 (.included 1) = some true then gs.deleteAnno a b key else gs) ?_
      (by unfold core; simp only [applyEvent, cachedEnds_nil]; rfl)
    rintro c0 i j rfl hi hj a b hab
    split at hab
    · obtain ⟨_, s2, _⟩ := adj_step (hI.ci c0) (.deleteAnno i j key)
      simp only [Adj.step, Adj.specStep] at s2
      rw [s2] at hab
      exact Or.inl (by simpa using hab)
    · exact Or.inl hab

theorem loop_dangling (hne : nk ≠ tk) (cap : Nat) (hook : Graph S V C → Event S V C → Bool) (all : List C) :
    ∀ (u : List (Nat × Event S V C)) (g : Graph S V C) (cache : IdCache V) (m : GSpec S V C), Inv nk g → Rep nk g m →
      CacheOk nk g cache → (∀ e ∈ evs u, e.NoRename nk) → NoDangling nk g →
      (∀ l1 l2 n, evs u = l1 ++ .deleteNode n :: l2 →
        (∀ c a b, b ∈ (g.comp c).out a → c ∈ all) ∧ ∀ s t c, (.addEdge s t (some c) : Event S V C) ∈ l1 → c ∈ all) →
      NoDangling nk (applyLoop nk tk cap hook all g cache u).1 := by
  intro u
  induction u with
  | nil => intro g cache m _ _ _ _ hd _; exact hd
  | cons x u ih =>
    intro g cache m hI hR hc hu hd ho
    obtain ⟨id, e⟩ := x
    have he : e.NoRename nk := hu e (by simp [evs])
    simp only [applyLoop]
    by_cases hh : hook g e = true
    · rw [if_pos hh]
      obtain ⟨h1, h2⟩ := event_step hI hR hne (cap := cap) (all := all) hc he
      cases ha : applyEvent nk tk cap all g cache e with
      | none => exact hd
      | some r =>
        obtain ⟨g', cache'⟩ := r
        obtain ⟨r1, r2, r3, r4⟩ := h1 g' cache' ha
        have hE := core_edges hI hR hne he r4 hd (by
          rintro ⟨n, rfl⟩
          exact (ho [] (evs u) n rfl).1)
        refine ih _ cache' (m.step nk tk e) (r1.changeId id) (r2.changeId id) r3
          (fun e' h' => hu e' (by simp [evs] at h' ⊢; exact Or.inr h')) (fun c a b h => hE.1 c a b h) ?_
        intro l1 l2 n hl
        obtain ⟨o1, o2⟩ := ho (e :: l1) l2 n (by simp only [evs, List.map_cons, List.cons_append] at hl ⊢; rw [hl])
        refine ⟨?_, fun s t c h => o2 s t c (List.mem_cons_of_mem _ h)⟩
        intro c a b hab
        rcases hE.2 c a b hab with h | h
        · exact o1 c a b h
        · cases e with
          | addEdge s t d =>
            simp only [grows] at h
            subst h
            exact o2 s t c (by simp)
          | _ => cases h
    · rw [if_neg hh]
      exact hd

/-- The state after a history in which no update deletes a node after adding an edge to a new component. -/
def DeletesOldHistory (nk tk : AnnoKey S) (cap : Nat) (us : List ((Graph S V C → Event S V C → Bool) × List (Nat × Event S V C))) : Prop :=
  ∀ us1 u us2, us = us1 ++ u :: us2 → DeletesOld (history nk tk cap Graph.new us1).comps.keys (evs u.2)

/-- C23, restricted: no edge starts or ends at a deleted node after any history of updates, aborted or not, in which no update
deletes a node after adding an edge to a component that did not exist before that update.  Missing: the latter case
(`C23_fails`). -/
theorem C23_no_dangling_edges_partial (hne : nk ≠ tk) (cap : Nat)
    (us : List ((Graph S V C → Event S V C → Bool) × List (Nat × Event S V C)))
    (hu : ∀ u ∈ us, ∀ e ∈ evs u.2, e.NoRename nk) (ho : DeletesOldHistory nk tk cap us) :
    NoDangling nk (history nk tk cap Graph.new us) := by
  induction us using List.reverseRecOn with
  | nil => intro c a b h; simp [history, Graph.new, comp, Adj.new, Adj.out] at h
  | append_singleton us u ih =>
    have e1 : history nk tk cap Graph.new (us ++ [u]) =
        (applyInMemory nk tk cap u.1 (history nk tk cap Graph.new us) u.2).1 := by simp [history, List.foldl_append]
    obtain ⟨h, _, _, hr, _⟩ := history_refines hne cap us Graph.new GSpec.empty Inv.empty Rep.empty
      (fun u h => hu u (by simp [h]))
    have hd := ih (fun u h => hu u (by simp [h])) (by
      intro us1 u' us2 e
      exact ho us1 u' (us2 ++ [u]) (by rw [e]; simp))
    rw [e1]
    refine loop_dangling hne cap u.1 _ u.2 _ [] _ h hr (cacheOk_nil _) (hu u (by simp)) hd ?_
    intro l1 l2 n hl
    refine ⟨?_, ho us u [] (by simp) l1 l2 n hl⟩
    intro c a b hab
    rw [OMap.mem_keys_iff]
    unfold comp at hab
    cases hg : (history nk tk cap Graph.new us).comps.get c with
    | none => rw [hg] at hab; simp [Adj.new, Adj.out] at hab
    | some x => exact ⟨x, rfl⟩

/-! Concrete names for the examples: the label `annis::node_name` is `(1, 0)`, `annis::node_type` is `(2, 0)`. -/

def exNk : AnnoKey Nat := ⟨1, 0⟩
def exTk : AnnoKey Nat := ⟨2, 0⟩
abbrev ExEvent := Event Nat Nat Nat

/-- Numbering of the events like in the update log. -/
def numbered (l : List ExEvent) : List (Nat × ExEvent) := (List.range' 1 l.length).zip l

def exApply (g : Graph Nat Nat Nat) (l : List ExEvent) : Graph Nat Nat Nat × Bool :=
  applyInMemory exNk exTk 1000 (fun _ _ => true) g (numbered l)

/-- C23 fails: the edge was added to a component which the same update created, and `DeleteNode` does not look at it. -/
theorem C23_fails :
    let r := exApply Graph.new [.addNode 10 99, .addNode 11 99, .addEdge 10 11 (some 5), .deleteNode 10]
    r.2 = true ∧ (⟨1, by decide⟩ : NodeID64) ∈ (r.1.comp 5).out ⟨0, by decide⟩ ∧
      r.1.annos.getValue ⟨0, by decide⟩ exNk = none ∧ r.1.annos.getValue ⟨1, by decide⟩ exNk = some 11 := by
  decide

/-- Satisfiable with deletions: a later update may delete nodes of a component that an earlier one created. -/
theorem C23_nonvacuous :
    let us : List ((Graph Nat Nat Nat → ExEvent → Bool) × List (Nat × ExEvent)) :=
      [(fun _ _ => true, numbered [.addNode 10 99, .addNode 11 99, .addEdge 10 11 (some 5)]),
       (fun _ _ => true, numbered [.addEdge 11 10 (some 5), .deleteNode 10])]
    DeletesOldHistory exNk exTk 1000 us ∧ (history exNk exTk 1000 Graph.new (us.take 1)).comps.keys = [5] ∧
      ((history exNk exTk 1000 Graph.new us).comp 5).out ⟨1, by decide⟩ = [] := by
  refine ⟨?_, by decide, by decide⟩
  intro us1 u us2 h l1 l2 n hl s t c hm
  match us1 with
  | [] =>
    obtain ⟨rfl, -⟩ := List.cons.inj h
    exfalso
    have : (.deleteNode n : ExEvent) ∈ [.addNode 10 99, .addNode 11 99, .addEdge 10 11 (some 5)] := by
      have e : evs (numbered [.addNode 10 99, .addNode 11 99, .addEdge 10 11 (some 5)]) =
        [.addNode 10 99, .addNode 11 99, .addEdge 10 11 (some 5)] := rfl
      rw [← e, hl]
      simp
    simp at this
  | [a] =>
    simp only [List.cons_append, List.nil_append, List.cons.injEq] at h
    obtain ⟨rfl, rfl, -⟩ := h
    have : (.addEdge s t (some c) : ExEvent) ∈ [.addEdge 11 10 (some 5), .deleteNode 10] := by
      have e : evs (numbered [.addEdge 11 10 (some 5), .deleteNode 10]) = [.addEdge 11 10 (some 5), .deleteNode 10] := rfl
      rw [← e, hl]
      simp [hm]
    simp at this
    rw [this.2.2]
    decide
  | [a, b] => simp at h
  | a :: b :: d :: r => simp at h

/-- The specification is met by a history with all kinds of events. -/
theorem C22_nonvacuous :
    let u1 := numbered [.addNode 10 99, .addNode 11 99, .addNode 10 98, .addNodeLabel 10 ⟨7, 0⟩ 3, .addEdge 10 11 (some 5),
      .addEdge 10 12 (some 5), .addEdgeLabel 10 11 (some 5) ⟨8, 0⟩ 4, .addEdgeLabel 11 10 (some 5) ⟨8, 0⟩ 4]
    let u2 := numbered [.addNode 12 99, .addEdge 12 10 (some 6), .deleteNodeLabel 10 ⟨7, 0⟩, .deleteNode 11]
    let us := [u1, u2]
    (∀ e ∈ evs us.flatten, e.NoRename exNk) ∧
    (applyAll exNk exTk 1000 (fun _ _ => true) Graph.new us).2 = true ∧
    let m := (GSpec.empty : GSpec Nat Nat Nat).run exNk exTk (evs us.flatten)
    (m.node 10 && m.node 12 && !m.node 11 && m.edge 6 12 10 && !m.edge 5 10 11 && m.label 10 exTk == some 99) = true := by
  refine ⟨?_, by decide, by decide⟩
  intro e he
  simp [evs, numbered, List.range'] at he
  rcases he with rfl | rfl | rfl | rfl | rfl | rfl | rfl | rfl | rfl | rfl | rfl | rfl <;>
    first | trivial | exact fun h => absurd (congrArg Prod.fst h) (by decide)

/-! ## C25 -/

/-- C25, restricted: in any reachable state, applying the events in one update or in any number of batches succeeds in the same
cases and then gives the same node annotations (including the node IDs), and the same edges and edge labels between existing
nodes.  Missing: events that change the name label itself (`C25_rename_fails`) and edges whose node was deleted
(`C25_dangling_fails`). -/
theorem C25_batches_partial (hne : nk ≠ tk) (cap : Nat)
    (hist : List ((Graph S V C → Event S V C → Bool) × List (Nat × Event S V C)))
    (hh : ∀ u ∈ hist, ∀ e ∈ evs u.2, e.NoRename nk) (us : List (List (Nat × Event S V C)))
    (hu : ∀ e ∈ evs us.flatten, e.NoRename nk) :
    let g := history nk tk cap Graph.new hist
    let r1 := applyAll nk tk cap (fun _ _ => true) g us
    let r2 := applyInMemory nk tk cap (fun _ _ => true) g us.flatten
    r1.2 = r2.2 ∧ (r1.2 = true → r1.1.annos = r2.1.annos ∧
      ∀ i j n n', r1.1.annos.getValue i nk = some n → r1.1.annos.getValue j nk = some n' → ∀ c,
        (j ∈ (r1.1.comp c).out i ↔ j ∈ (r2.1.comp c).out i) ∧
        ∀ k, (r1.1.comp c).annos.getValue (toLex (i, j)) k = (r2.1.comp c).annos.getValue (toLex (i, j)) k) := by
  intro g r1 r2
  obtain ⟨hI, l, _, hR, _⟩ := history_refines hne cap hist Graph.new GSpec.empty Inv.empty Rep.empty hh
  obtain ⟨_, k1, a2, a3, a4, a5⟩ := all_refines hne cap (fun _ _ => true) us g _ hI hR hu
  obtain ⟨_, k2, b2, b3, b4, b5⟩ :=
    loop_refines hne cap (fun _ _ => true) g.comps.keys us.flatten g [] _ hI hR (cacheOk_nil g) hu
  change r1.2 = true → _ at a3
  change _ = some r1.1.annos at a4
  change r1.2 = false → _ at a5
  change r2.2 = true → _ at b3
  change _ = some r2.1.annos at b4
  change r2.2 = false → _ at b5
  change Rep nk r1.1 _ at a2
  change Rep nk r2.1 _ at b2
  have hlen : us.flatten.length = (evs us.flatten).length := by unfold evs; rw [List.length_map]
  have heq : r1.2 = r2.2 := by
    cases h1 : r1.2 with
    | true =>
      cases h2 : r2.2 with
      | true => rfl
      | false =>
        rw [a3 h1, hlen, List.take_length] at a4
        rcases b5 h2 with ⟨_, _, h⟩ | h
        · cases h
        · rw [h] at a4; cases a4
    | false =>
      cases h2 : r2.2 with
      | false => rfl
      | true =>
        rw [b3 h2, hlen, List.take_length] at b4
        rcases a5 h1 with ⟨_, _, h⟩ | h
        · cases h
        · rw [h] at b4; cases b4
  refine ⟨heq, ?_⟩
  intro hs
  have hs2 : r2.2 = true := heq ▸ hs
  rw [a3 hs, hlen, List.take_length] at a2 a4
  rw [b3 hs2, hlen, List.take_length] at b2 b4
  rw [a4] at b4
  have ha := Option.some.inj b4
  refine ⟨ha, ?_⟩
  intro i j n n' hi hj c
  have hi2 := hi
  have hj2 := hj
  rw [ha] at hi2 hj2
  refine ⟨?_, ?_⟩
  · rw [a2.edge i j n n' hi hj c, b2.edge i j n n' hi2 hj2 c]
  · intro k
    rw [a2.eanno i j n n' hi hj c k, b2.eanno i j n n' hi2 hj2 c k]

/-- C25 fails for edges of deleted nodes: in one batch the edge stays, in two it is removed. -/
theorem C25_dangling_fails :
    let a : List ExEvent := [.addNode 10 99, .addNode 11 99, .addEdge 10 11 (some 5)]
    let b : List ExEvent := [.deleteNode 10]
    ((exApply Graph.new (a ++ b)).1.comp 5).out ⟨0, by decide⟩ = [⟨1, by decide⟩] ∧
    ((exApply (exApply Graph.new a).1 b).1.comp 5).out ⟨0, by decide⟩ = [] := by decide

/-- C25 fails for events on the name label: the cache still finds the node by its old name. -/
theorem C25_rename_fails :
    let a : List ExEvent := [.addNode 10 99, .addNodeLabel 10 exNk 12]
    let b : List ExEvent := [.addNodeLabel 10 ⟨7, 0⟩ 3]
    (exApply Graph.new (a ++ b)).1.annos.getValue ⟨0, by decide⟩ ⟨7, 0⟩ = some 3 ∧
    (exApply (exApply Graph.new a).1 b).1.annos.getValue ⟨0, by decide⟩ ⟨7, 0⟩ = none := by decide

/-- C24 needs the restriction on events: renaming can give two nodes the same name. -/
theorem C24_rename_fails :
    let g := (exApply Graph.new [.addNode 10 99, .addNode 11 99, .addNodeLabel 10 exNk 11]).1
    g.annos.getValue ⟨0, by decide⟩ exNk = some 11 ∧ g.annos.getValue ⟨1, by decide⟩ exNk = some 11 := by decide

/-- Deleting and adding a name again gives a new ID. -/
theorem C24_nonvacuous :
    let g := (exApply Graph.new [.addNode 10 99, .addNode 11 99, .deleteNode 11, .addNode 11 99]).1
    g.annos.nodeIdFromName exNk 11 = some ⟨2, by decide⟩ ∧ g.annos.getValue ⟨1, by decide⟩ exNk = none := by decide

/-- Two batches of an update with several kinds of events. -/
theorem C25_nonvacuous :
    let a : List ExEvent := [.addNode 10 99, .addNode 11 99, .addEdge 10 11 (some 5)]
    let b : List ExEvent := [.addEdgeLabel 10 11 (some 5) ⟨8, 0⟩ 4, .deleteNode 10]
    (applyAll exNk exTk 1000 (fun _ _ => true) Graph.new [numbered a, numbered b]).2 = true ∧
    (∀ e ∈ a ++ b, e.NoRename exNk) := by
  refine ⟨by decide, ?_⟩
  intro e he
  simp at he
  rcases he with rfl | rfl | rfl | rfl | rfl <;> simp [Event.NoRename]

end Graph
