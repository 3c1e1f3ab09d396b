import Verif.Graph.Step

/-!
# Applying updates: edge events, the cache and whole updates
-/

set_option linter.unusedSimpArgs false
set_option linter.unusedSectionVars false

namespace Graph

variable {S V C : Type} [LinearOrder S] [OrderBot S] [LinearOrder V] [LinearOrder C]
variable {nk tk : AnnoKey S} {g : Graph S V C} {m : GSpec S V C}

theorem named_eq (hI : Inv nk g) {i a : NodeID64} {s x : V} (hi : g.annos.getValue i nk = some s)
    (ha : g.annos.getValue a nk = some x) : a = i ↔ x = s := by
  constructor
  · rintro rfl; rw [hi] at ha; exact (Option.some.inj ha).symm
  · rintro rfl; exact hI.uniq a i x ha hi

theorem addEdge_step (hI : Inv nk g) (hR : Rep nk g m) (s t : V) (c : Option C) :
    let g' := g.editComp (g.annos.nodeIdFromName nk s) (g.annos.nodeIdFromName nk t) c fun gs a b => gs.addEdge a b
    Inv nk g' ∧ Rep nk g' (m.step nk tk (.addEdge s t c)) := by
  have hnode : ∀ {i : NodeID64} {s : V}, g.annos.getValue i nk = some s → m.node s = true := fun h => (hR.node _).2 ⟨_, h⟩
  refine edit_step hI hR s t c _ _ rfl rfl ?_ ?_ ?_ ?_ ?_
  · intro h
    refine ⟨?_, rfl⟩
    funext d x y
    simp only [GSpec.step]
    split
    · rename_i e
      obtain ⟨e1, _, _, e2, e3, _⟩ := e
      obtain ⟨i, hi⟩ := (hR.node s).1 e2
      obtain ⟨j, hj⟩ := (hR.node t).1 e3
      exact (h d i j e1.symm hi hj).elim
    · rfl
  · intro d hd
    refine ⟨?_, rfl⟩
    funext x y
    simp [GSpec.step, hd]
  · rintro c0 i j rfl hi hj
    obtain ⟨s1, s2, s3⟩ := adj_step (hI.ci c0) (.addEdge i j)
    simp only [Adj.step, Adj.specStep] at s1 s2 s3
    refine ⟨s1, ?_, ?_, ?_⟩
    · intro a b h
      rw [s2] at h
      split at h
      · rename_i e; exact Or.inr ⟨e.1, e.2.1⟩
      · exact Or.inl (by simpa using h)
    · intro a b x y ha hb
      rw [s2]
      have hne : i ≠ j ↔ s ≠ t := not_congr (named_eq hI hj hi)
      simp only [GSpec.step, named_eq hI hi ha, named_eq hI hj hb, hne, hnode hi, hnode hj, true_and]
      split
      · rfl
      · rw [← hR.edge a b x y ha hb]; simp
    · intro a b x y ha hb k
      rw [s3]
      exact hR.eanno a b x y ha hb c0 k
  · intro d x y h
    simp only [GSpec.step] at h
    split at h
    · rename_i e
      obtain ⟨_, rfl, rfl, e2, e3, _⟩ := e
      exact ⟨e2, e3⟩
    · exact hR.edgeN d x y h
  · intro d x y k v h
    have := hR.eannoN d x y k v h
    simp [GSpec.step, this]

theorem deleteEdge_step (hI : Inv nk g) (hR : Rep nk g m) (s t : V) (c : Option C) :
    let g' := g.editComp (g.annos.nodeIdFromName nk s) (g.annos.nodeIdFromName nk t) c fun gs a b => gs.deleteEdge a b
    Inv nk g' ∧ Rep nk g' (m.step nk tk (.deleteEdge s t c)) := by
  refine edit_step hI hR s t c _ _ rfl rfl ?_ ?_ ?_ ?_ ?_
  · intro h
    have hno : ∀ d, some d = c → m.edge d s t = false := by
      intro d hd
      cases he : m.edge d s t with
      | false => rfl
      | true =>
        obtain ⟨h1, h2⟩ := hR.edgeN d s t he
        obtain ⟨i, hi⟩ := (hR.node s).1 h1
        obtain ⟨j, hj⟩ := (hR.node t).1 h2
        exact (h d i j hd.symm hi hj).elim
    constructor
    · funext d x y
      simp only [GSpec.step]
      split
      · rename_i e; rw [e.2.1, e.2.2, hno d e.1]
      · rfl
    · funext d x y k
      simp only [GSpec.step]
      split
      · rename_i e
        rw [e.2.1, e.2.2]
        cases hv : m.eanno d s t k with
        | none => rfl
        | some v => have := hR.eannoN d s t k v hv; rw [hno d e.1] at this; cases this
      · rfl
  · intro d hd
    refine ⟨?_, ?_⟩
    · funext x y
      simp [GSpec.step, hd]
    · funext x y k
      simp [GSpec.step, hd]
  · rintro c0 i j rfl hi hj
    obtain ⟨s1, s2, s3⟩ := adj_step (hI.ci c0) (.deleteEdge i j)
    simp only [Adj.step, Adj.specStep] at s1 s2 s3
    refine ⟨s1, ?_, ?_, ?_⟩
    · intro a b h
      rw [s2] at h
      split at h
      · cases h
      · exact Or.inl (by simpa using h)
    · intro a b x y ha hb
      rw [s2]
      simp only [GSpec.step, named_eq hI hi ha, named_eq hI hj hb, true_and]
      split
      · rfl
      · rw [← hR.edge a b x y ha hb]; simp
    · intro a b x y ha hb k
      rw [s3]
      simp only [GSpec.step, named_eq hI hi ha, named_eq hI hj hb, true_and]
      split
      · rfl
      · exact hR.eanno a b x y ha hb c0 k
  · intro d x y h
    simp only [GSpec.step] at h
    split at h
    · cases h
    · exact hR.edgeN d x y h
  · intro d x y k v h
    simp only [GSpec.step] at h ⊢
    split at h
    · cases h
    · rename_i e
      rw [if_neg e]
      exact hR.eannoN d x y k v h

theorem addEdgeLabel_step (hI : Inv nk g) (hR : Rep nk g m) (s t : V) (c : Option C) (key : AnnoKey S) (val : V) :
    let g' := g.editComp (g.annos.nodeIdFromName nk s) (g.annos.nodeIdFromName nk t) c fun gs a b =>
      if gs.isConnected a b 1 (.included 1) = some true then gs.addAnno a b key val else gs
    Inv nk g' ∧ Rep nk g' (m.step nk tk (.addEdgeLabel s t c key val)) := by
  refine edit_step hI hR s t c _ _ rfl rfl ?_ ?_ ?_ ?_ ?_
  · intro h
    refine ⟨rfl, ?_⟩
    funext d x y k
    simp only [GSpec.step]
    split
    · rename_i e
      obtain ⟨h1, h2⟩ := hR.edgeN d s t e.2.2.2.2
      obtain ⟨i, hi⟩ := (hR.node s).1 h1
      obtain ⟨j, hj⟩ := (hR.node t).1 h2
      exact (h d i j e.1.symm hi hj).elim
    · rfl
  · intro d hd
    refine ⟨rfl, ?_⟩
    funext x y k
    simp [GSpec.step, hd]
  · rintro c0 i j rfl hi hj
    simp only [isConnected_one (hI.ci c0)]
    by_cases he : j ∈ (g.comp c0).out i
    · rw [if_pos he]
      have hm := (hR.edge i j s t hi hj c0).1 he
      obtain ⟨s1, s2, s3⟩ := adj_step (hI.ci c0) (.addAnno i j key val)
      simp only [Adj.step, Adj.specStep] at s1 s2 s3
      refine ⟨s1, ?_, ?_, ?_⟩
      · intro a b h
        rw [s2] at h
        exact Or.inl (by simpa using h)
      · intro a b x y ha hb
        rw [s2]
        have := hR.edge a b x y ha hb c0
        simpa [GSpec.step] using this
      · intro a b x y ha hb k
        rw [s3]
        simp only [GSpec.step, named_eq hI hi ha, named_eq hI hj hb, true_and, hm, he, decide_true]
        split
        · rfl
        · exact hR.eanno a b x y ha hb c0 k
    · rw [if_neg he]
      have hm : ¬ m.edge c0 s t = true := fun h => he ((hR.edge i j s t hi hj c0).2 h)
      refine ⟨hI.ci c0, fun _ _ h => Or.inl h, fun a b x y ha hb => hR.edge a b x y ha hb c0, ?_⟩
      intro a b x y ha hb k
      simp only [GSpec.step]
      rw [if_neg (by rintro ⟨_, _, _, _, h⟩; exact hm h)]
      exact hR.eanno a b x y ha hb c0 k
  · exact hR.edgeN
  · intro d x y k v h
    simp only [GSpec.step] at h ⊢
    split at h
    · rename_i e
      rw [e.2.1, e.2.2.1]; exact e.2.2.2.2
    · exact hR.eannoN d x y k v h

theorem deleteEdgeLabel_step (hI : Inv nk g) (hR : Rep nk g m) (s t : V) (c : Option C) (key : AnnoKey S) :
    let g' := g.editComp (g.annos.nodeIdFromName nk s) (g.annos.nodeIdFromName nk t) c fun gs a b =>
      if gs.isConnected a b 1 (.included 1) = some true then gs.deleteAnno a b key else gs
    Inv nk g' ∧ Rep nk g' (m.step nk tk (.deleteEdgeLabel s t c key)) := by
  have hskip : ∀ d k, m.edge d s t ≠ true → m.eanno d s t k = none := by
    intro d k h
    cases hv : m.eanno d s t k with
    | none => rfl
    | some v => exact absurd (hR.eannoN d s t k v hv) h
  refine edit_step hI hR s t c _ _ rfl rfl ?_ ?_ ?_ ?_ ?_
  · intro h
    refine ⟨rfl, ?_⟩
    funext d x y k
    simp only [GSpec.step]
    split
    · rename_i e
      obtain ⟨e1, rfl, rfl, rfl⟩ := e
      rw [hskip]
      intro he
      obtain ⟨h1, h2⟩ := hR.edgeN d x y he
      obtain ⟨i, hi⟩ := (hR.node x).1 h1
      obtain ⟨j, hj⟩ := (hR.node y).1 h2
      exact (h d i j e1.symm hi hj).elim
    · rfl
  · intro d hd
    refine ⟨rfl, ?_⟩
    funext x y k
    simp [GSpec.step, hd]
  · rintro c0 i j rfl hi hj
    simp only [isConnected_one (hI.ci c0)]
    by_cases he : j ∈ (g.comp c0).out i
    · rw [if_pos he]
      obtain ⟨s1, s2, s3⟩ := adj_step (hI.ci c0) (.deleteAnno i j key)
      simp only [Adj.step, Adj.specStep] at s1 s2 s3
      refine ⟨s1, ?_, ?_, ?_⟩
      · intro a b h
        rw [s2] at h
        exact Or.inl (by simpa using h)
      · intro a b x y ha hb
        rw [s2]
        have := hR.edge a b x y ha hb c0
        simpa [GSpec.step] using this
      · intro a b x y ha hb k
        rw [s3]
        simp only [GSpec.step, named_eq hI hi ha, named_eq hI hj hb, true_and]
        split
        · rfl
        · exact hR.eanno a b x y ha hb c0 k
    · rw [if_neg he]
      have hm : m.edge c0 s t ≠ true := fun h => he ((hR.edge i j s t hi hj c0).2 h)
      refine ⟨hI.ci c0, fun _ _ h => Or.inl h, fun a b x y ha hb => hR.edge a b x y ha hb c0, ?_⟩
      intro a b x y ha hb k
      simp only [GSpec.step, true_and]
      rw [hR.eanno a b x y ha hb c0 k]
      split
      · rename_i e
        rw [e.1, e.2.1, hskip _ _ hm]
      · rfl
  · exact hR.edgeN
  · intro d x y k v h
    simp only [GSpec.step] at h ⊢
    split at h
    · cases h
    · exact hR.eannoN d x y k v h

/-- Every cached entry is what a lookup would return. -/
def CacheOk (nk : AnnoKey S) (g : Graph S V C) (cache : IdCache V) : Prop :=
  ∀ p ∈ cache, p.2 = g.annos.nodeIdFromName nk p.1

theorem CacheOk.put {cache : IdCache V} {g' : Graph S V C} (h : CacheOk nk g cache) (cap : Nat) (n : V)
    (id : Option NodeID64) (hg : ∀ x, g'.annos.nodeIdFromName nk x = if x = n then id else g.annos.nodeIdFromName nk x) :
    CacheOk nk g' (cache.put cap n id) := by
  intro p hp
  have := List.mem_of_mem_take hp
  rcases List.mem_cons.1 this with rfl | hp
  · rw [hg]; simp
  · obtain ⟨h1, h2⟩ := List.mem_filter.1 hp
    rw [hg, if_neg (by simpa using h2)]
    exact h p h1

theorem cachedId_ok {cache : IdCache V} (h : CacheOk nk g cache) (cap : Nat) (n : V) :
    ∃ cache', cachedId nk cap g cache n = (g.annos.nodeIdFromName nk n, cache') ∧ CacheOk nk g cache' := by
  unfold cachedId IdCache.get
  cases hf : cache.find? fun p => p.1 = n with
  | none =>
    simp only [Option.map_none]
    refine ⟨_, rfl, ?_⟩
    refine h.put cap n _ ?_
    intro x
    split
    · rename_i e; rw [e]
    · rfl
  | some p =>
    simp only [Option.map_some]
    have hp := List.mem_of_find?_eq_some hf
    have hn : p.1 = n := by simpa using List.find?_some hf
    refine ⟨p :: cache.filter fun q => q.1 ≠ n, ?_, ?_⟩
    · rw [h p hp, hn]
    · intro q hq
      rcases List.mem_cons.1 hq with rfl | hq
      · exact h q hp
      · exact h q (List.mem_filter.1 hq).1

theorem cachedEnds_ok {cache : IdCache V} (h : CacheOk nk g cache) (cap : Nat) (s t : V) :
    ∃ cache', cachedEnds nk cap g cache s t = (g.annos.nodeIdFromName nk s, g.annos.nodeIdFromName nk t, cache') ∧
      CacheOk nk g cache' := by
  unfold cachedEnds
  obtain ⟨c1, h1, h2⟩ := cachedId_ok h cap s
  obtain ⟨c2, h3, h4⟩ := cachedId_ok h2 cap t
  refine ⟨c2, ?_, h4⟩
  simp only [h1, h3]

theorem editComp_annos (g : Graph S V C) (a b : Option NodeID64) (c : Option C)
    (f : Adj NodeID64 S V → NodeID64 → NodeID64 → Adj NodeID64 S V) : (g.editComp a b c f).annos = g.annos := by
  unfold editComp
  split <;> rfl

theorem Rep.congr {m' : GSpec S V C} (h : Rep nk g m) (e : m = m') : Rep nk g m' := e ▸ h

/-- Every event refines the specification, keeps the cache correct, and the cache is transparent. -/
theorem event_step (hI : Inv nk g) (hR : Rep nk g m) (hne : nk ≠ tk) {cap : Nat} {all : List C} {cache : IdCache V}
    (hc : CacheOk nk g cache) {e : Event S V C} (he : e.NoRename nk) :
    (∀ g' cache', applyEvent nk tk cap all g cache e = some (g', cache') →
      Inv nk g' ∧ Rep nk g' (m.step nk tk e) ∧ CacheOk nk g' cache' ∧ core nk tk all g e = some g') ∧
    (applyEvent nk tk cap all g cache e = none → g.newId = none ∧ core nk tk all g e = none) := by
  cases e with
  | addNode n ty =>
    unfold core applyEvent
    by_cases hn : g.annos.hasNodeName nk n = true
    · simp only [hn, if_true, Option.some.injEq, Prod.mk.injEq, Option.map_some, reduceCtorEq, false_imp_iff, and_true]
      rintro g' cache' ⟨rfl, rfl⟩
      refine ⟨hI, ?_, hc, rfl⟩
      have : m.node n = true := (hR.node n).2 ((has_iff hI n).1 hn)
      simpa [GSpec.step, this] using hR
    · have hn' : g.annos.hasNodeName nk n = false := by simpa using hn
      simp only [hn', Bool.false_eq_true, if_false]
      cases hi : g.newId with
      | none => simp
      | some i =>
        simp only [Option.map_some, Option.some.injEq, Prod.mk.injEq, reduceCtorEq, false_imp_iff, and_true]
        rintro g' cache' ⟨rfl, rfl⟩
        obtain ⟨h1, h2, h3⟩ := addNode_step hI hR hne n ty hn' hi
        exact ⟨h1, h2, hc.put cap n (some i) h3, rfl⟩
  | deleteNode n =>
    obtain ⟨c1, h1, h2⟩ := cachedId_ok hc cap n
    unfold core
    simp only [applyEvent]
    rw [h1, cachedId_nil]
    cases hi : g.annos.nodeIdFromName nk n with
    | none =>
      simp only [Option.some.injEq, Prod.mk.injEq, Option.map_some, reduceCtorEq, false_imp_iff, and_true]
      rintro g' cache' ⟨rfl, rfl⟩
      refine ⟨hI, ?_, h2, rfl⟩
      have hno : m.node n = false := by
        cases h : m.node n with
        | false => rfl
        | true => obtain ⟨j, hj⟩ := (hR.node n).1 h; exact absurd hj ((idOf_none hI n).1 hi j)
      refine hR.congr ?_
      have e1 : (fun x => if x = n then false else m.node x) = m.node := by
        funext x; split
        · rename_i e; rw [e, hno]
        · rfl
      have e2 : (fun x k => if x = n then none else m.label x k) = m.label := by
        funext x k; split
        · rename_i e
          cases hv : m.label x k with
          | none => rfl
          | some v => have := hR.labelN x k v hv; rw [e, hno] at this; cases this
        · rfl
      have e3' : ∀ c x y, (x = n ∨ y = n) → m.edge c x y = false := by
        intro c x y h
        cases hv : m.edge c x y with
        | false => rfl
        | true =>
          obtain ⟨h1, h2⟩ := hR.edgeN c x y hv
          rcases h with h | h
          · rw [h, hno] at h1; cases h1
          · rw [h, hno] at h2; cases h2
      have e3 : (fun c x y => if x = n ∨ y = n then false else m.edge c x y) = m.edge := by
        funext c x y; split
        · rename_i e; rw [e3' c x y e]
        · rfl
      have e4 : (fun c x y k => if x = n ∨ y = n then none else m.eanno c x y k) = m.eanno := by
        funext c x y k; split
        · rename_i e
          cases hv : m.eanno c x y k with
          | none => rfl
          | some v => have := hR.eannoN c x y k v hv; rw [e3' c x y e] at this; cases this
        · rfl
      simp only [GSpec.step, e1, e2, e3, e4]
    | some i =>
      simp only [Option.some.injEq, Prod.mk.injEq, Option.map_some, reduceCtorEq, false_imp_iff, and_true]
      rintro g' cache' ⟨rfl, rfl⟩
      obtain ⟨h3, h4, h5⟩ := deleteNode_step (tk := tk) hI hR all n ((idOf_iff hI n i).1 hi)
      exact ⟨h3, h4, h2.put cap n none h5, rfl⟩
  | addNodeLabel n key val =>
    obtain ⟨c1, h1, h2⟩ := cachedId_ok hc cap n
    unfold core
    simp only [applyEvent]
    rw [h1, cachedId_nil]
    cases hi : g.annos.nodeIdFromName nk n with
    | none =>
      simp only [Option.some.injEq, Prod.mk.injEq, Option.map_some, reduceCtorEq, false_imp_iff, and_true]
      rintro g' cache' ⟨rfl, rfl⟩
      refine ⟨hI, ?_, h2, rfl⟩
      have hno : ¬ m.node n = true := fun h => by
        obtain ⟨j, hj⟩ := (hR.node n).1 h; exact absurd hj ((idOf_none hI n).1 hi j)
      refine hR.congr ?_
      simp [GSpec.step, hno]
    | some i =>
      simp only [Option.some.injEq, Prod.mk.injEq, Option.map_some, reduceCtorEq, false_imp_iff, and_true]
      rintro g' cache' ⟨rfl, rfl⟩
      have hin := (idOf_iff hI n i).1 hi
      obtain ⟨h3, h4, h5⟩ := label_step hI hR (g.annos.insert i key val) (hI.an.insert i key val) n key he i hin (some val)
        (AnnoStore.getValue_insert hI.an i key val) (AnnoStore.largest_insert hI.an i key val).2
      refine ⟨h3, h4.congr ?_, ?_, rfl⟩
      · have : m.node n = true := (hR.node n).2 ⟨i, hin⟩
        simp [GSpec.step, this]
      · intro p hp; rw [h5]; exact h2 p hp
  | deleteNodeLabel n key =>
    obtain ⟨c1, h1, h2⟩ := cachedId_ok hc cap n
    unfold core
    simp only [applyEvent]
    rw [h1, cachedId_nil]
    cases hi : g.annos.nodeIdFromName nk n with
    | none =>
      simp only [Option.some.injEq, Prod.mk.injEq, Option.map_some, reduceCtorEq, false_imp_iff, and_true]
      rintro g' cache' ⟨rfl, rfl⟩
      refine ⟨hI, ?_, h2, rfl⟩
      have e2 : (fun x k => if x = n ∧ k = key then none else m.label x k) = m.label := by
        funext x k; split
        · rename_i e
          cases hv : m.label x k with
          | none => rfl
          | some v =>
            have := hR.labelN x k v hv
            rw [e.1] at this
            obtain ⟨j, hj⟩ := (hR.node n).1 this
            exact absurd hj ((idOf_none hI n).1 hi j)
        · rfl
      refine hR.congr ?_
      simp only [GSpec.step, e2]
    | some i =>
      simp only [Option.some.injEq, Prod.mk.injEq, Option.map_some, reduceCtorEq, false_imp_iff, and_true]
      rintro g' cache' ⟨rfl, rfl⟩
      have hin := (idOf_iff hI n i).1 hi
      obtain ⟨r1, _, r3⟩ := AnnoStore.removeAnno_spec hI.an i key
      obtain ⟨h3, h4, h5⟩ := label_step hI hR (g.annos.removeAnno i key).1 r1 n key he i hin none r3
        (fun l hl => ⟨l, by rw [AnnoStore.largest_removeAnno]; exact hl, le_refl _⟩)
      refine ⟨h3, h4, ?_, rfl⟩
      intro p hp; rw [h5]; exact h2 p hp
  | addEdge s t c =>
    obtain ⟨c1, h1, h2⟩ := cachedEnds_ok hc cap s t
    unfold core
    simp only [applyEvent]
    rw [h1, cachedEnds_nil]
    simp only [Option.some.injEq, Prod.mk.injEq, Option.map_some, reduceCtorEq, false_imp_iff, and_true]
    rintro g' cache' ⟨rfl, rfl⟩
    obtain ⟨h3, h4⟩ := addEdge_step (tk := tk) hI hR s t c
    exact ⟨h3, h4, by intro p hp; rw [editComp_annos]; exact h2 p hp, rfl⟩
  | deleteEdge s t c =>
    obtain ⟨c1, h1, h2⟩ := cachedEnds_ok hc cap s t
    unfold core
    simp only [applyEvent]
    rw [h1, cachedEnds_nil]
    simp only [Option.some.injEq, Prod.mk.injEq, Option.map_some, reduceCtorEq, false_imp_iff, and_true]
    rintro g' cache' ⟨rfl, rfl⟩
    obtain ⟨h3, h4⟩ := deleteEdge_step (tk := tk) hI hR s t c
    exact ⟨h3, h4, by intro p hp; rw [editComp_annos]; exact h2 p hp, rfl⟩
  | addEdgeLabel s t c key val =>
    obtain ⟨c1, h1, h2⟩ := cachedEnds_ok hc cap s t
    unfold core
    simp only [applyEvent]
    rw [h1, cachedEnds_nil]
    simp only [Option.some.injEq, Prod.mk.injEq, Option.map_some, reduceCtorEq, false_imp_iff, and_true]
    rintro g' cache' ⟨rfl, rfl⟩
    obtain ⟨h3, h4⟩ := addEdgeLabel_step (tk := tk) hI hR s t c key val
    exact ⟨h3, h4, by intro p hp; rw [editComp_annos]; exact h2 p hp, rfl⟩
  | deleteEdgeLabel s t c key =>
    obtain ⟨c1, h1, h2⟩ := cachedEnds_ok hc cap s t
    unfold core
    simp only [applyEvent]
    rw [h1, cachedEnds_nil]
    simp only [Option.some.injEq, Prod.mk.injEq, Option.map_some, reduceCtorEq, false_imp_iff, and_true]
    rintro g' cache' ⟨rfl, rfl⟩
    obtain ⟨h3, h4⟩ := deleteEdgeLabel_step (tk := tk) hI hR s t c key
    exact ⟨h3, h4, by intro p hp; rw [editComp_annos]; exact h2 p hp, rfl⟩

end Graph
