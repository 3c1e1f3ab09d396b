import Verif.Index.Props

/-!
# Graphs after a history of updates

The facts about a graph after a history of updates with the text coverage index that queries rely on: what was proven for updates without
the index (C22, C23) also holds with it.
-/

set_option linter.unusedSimpArgs false
set_option linter.unusedSectionVars false
set_option linter.unusedVariables false

namespace Graph

namespace Index

variable {S V C : Type} [LinearOrder S] [OrderBot S] [LinearOrder V] [LinearOrder C]
variable {sc : Schema C} {nk tk tok : AnnoKey S} {g g' g0 g1 : Graph S V C} {x : IndexState V C}

/-! ## Storages are only changed with their operations -/

/-- The annotations and the components are the results of operations of their storages. -/
structure Made (g : Graph S V C) : Prop where
  annos : ∃ ops, g.annos = AnnoStore.run ops
  comp : ∀ c, ∃ ops, g.comp c = Adj.run ops

theorem adj_run_step {a : Adj NodeID64 S V} (h : ∃ ops, a = Adj.run ops) (op : Adj.Op NodeID64 S V) : ∃ ops, a.step op = Adj.run ops := by
  obtain ⟨ops, rfl⟩ := h
  exact ⟨ops ++ [op], by simp [Adj.run, List.foldl_append]⟩

theorem anno_run_step {s : AnnoStore NodeID64 S V} (h : ∃ ops, s = AnnoStore.run ops) (op : AnnoStore.Op NodeID64 S V) :
    ∃ ops, s.step op = AnnoStore.run ops := by
  obtain ⟨ops, rfl⟩ := h
  exact ⟨ops ++ [op], by simp [AnnoStore.run, List.foldl_append]⟩

theorem Made.new : Made (Graph.new : Graph S V C) := ⟨⟨[], rfl⟩, fun c => ⟨[], rfl⟩⟩

theorem Made.set (h : Made g) {c : C} {a : Adj NodeID64 S V} (ha : ∃ ops, a = Adj.run ops) : Made (g.setComp c a) := by
  refine ⟨h.annos, fun d => ?_⟩
  rw [comp_setComp]
  split
  · exact ha
  · exact h.comp d

theorem Made.edit (h : Made g) (a b : Option NodeID64) (c : Option C) {f : Adj NodeID64 S V → NodeID64 → NodeID64 → Adj NodeID64 S V}
    (hf : ∀ gs a b, (∃ ops, gs = Adj.run ops) → ∃ ops, f gs a b = Adj.run ops) : Made (g.editComp a b c f) := by
  unfold editComp
  split
  · exact h.set (hf _ _ _ (h.comp _))
  · exact h

theorem made_event (h : Made g) {cap : Nat} {all : List C} {cache cache' : IdCache V} {e : Event S V C}
    (he : applyEvent nk tk cap all g cache e = some (g', cache')) : Made g' := by
  cases e with
  | addNode n ty =>
    simp only [applyEvent] at he
    split at he
    · simp only [Option.some.injEq, Prod.mk.injEq] at he
      rw [← he.1]; exact h
    · rw [Option.map_eq_some_iff] at he
      obtain ⟨id, _, he⟩ := he
      simp only [Prod.mk.injEq] at he
      rw [← he.1]
      exact ⟨anno_run_step (anno_run_step h.annos (.insert id nk n)) (.insert id tk ty), h.comp⟩
  | deleteNode n =>
    simp only [applyEvent] at he
    split at he
    · rename_i id cache1 _
      simp only [Option.some.injEq, Prod.mk.injEq] at he
      rw [← he.1]
      clear he
      have h0 : Made ({ g with annos := (g.annos.removeItem id).1 } : Graph S V C) :=
        ⟨anno_run_step h.annos (.removeItem id), h.comp⟩
      generalize ({ g with annos := (g.annos.removeItem id).1 } : Graph S V C) = gg at h0
      induction all generalizing gg with
      | nil => exact h0
      | cons c all ih => exact ih _ (h0.set (adj_run_step (h0.comp c) (.deleteNode id)))
    · simp only [Option.some.injEq, Prod.mk.injEq] at he
      rw [← he.1]; exact h
  | addNodeLabel n key val =>
    simp only [applyEvent] at he
    split at he
    · rename_i id cache1 _
      simp only [Option.some.injEq, Prod.mk.injEq] at he
      rw [← he.1]; exact ⟨anno_run_step h.annos (.insert id key val), h.comp⟩
    · simp only [Option.some.injEq, Prod.mk.injEq] at he
      rw [← he.1]; exact h
  | deleteNodeLabel n key =>
    simp only [applyEvent] at he
    split at he
    · rename_i id cache1 _
      simp only [Option.some.injEq, Prod.mk.injEq] at he
      rw [← he.1]; exact ⟨anno_run_step h.annos (.removeAnno id key), h.comp⟩
    · simp only [Option.some.injEq, Prod.mk.injEq] at he
      rw [← he.1]; exact h
  | addEdge s t c =>
    simp only [applyEvent, Option.some.injEq, Prod.mk.injEq] at he
    rw [← he.1]
    exact h.edit _ _ _ fun gs a b hg => adj_run_step hg (.addEdge a b)
  | deleteEdge s t c =>
    simp only [applyEvent, Option.some.injEq, Prod.mk.injEq] at he
    rw [← he.1]
    exact h.edit _ _ _ fun gs a b hg => adj_run_step hg (.deleteEdge a b)
  | addEdgeLabel s t c key val =>
    simp only [applyEvent, Option.some.injEq, Prod.mk.injEq] at he
    rw [← he.1]
    refine h.edit _ _ _ fun gs a b hg => ?_
    split
    · exact adj_run_step hg (.addAnno a b key val)
    · exact hg
  | deleteEdgeLabel s t c key =>
    simp only [applyEvent, Option.some.injEq, Prod.mk.injEq] at he
    rw [← he.1]
    refine h.edit _ _ _ fun gs a b hg => ?_
    split
    · exact adj_run_step hg (.deleteAnno a b key)
    · exact hg

/-- The loop with the hooks changes the graph like the one without them, with operations of the storages. -/
theorem loop_plain (cap : Nat) (all : List C) : ∀ (u : List (Nat × Event S V C)) (g : Graph S V C) (cache : IdCache V) (x : IndexState V C)
    (g1 : Graph S V C) (x1 : IndexState V C), loop sc nk tk cap all g cache x u = some (g1, x1) →
      applyLoop nk tk cap (fun _ _ => true) all g cache u = (g1, true) ∧ (Made g → Made g1) := by
  intro u
  induction u with
  | nil =>
    intro g cache x g1 x1 h
    simp only [loop, Option.some.injEq, Prod.mk.injEq] at h
    obtain ⟨rfl, rfl⟩ := h
    exact ⟨rfl, id⟩
  | cons p u ih =>
    intro g cache x g1 x1 h
    obtain ⟨id, e⟩ := p
    simp only [loop, Option.bind_eq_bind, Option.bind_eq_some_iff, Prod.exists] at h
    obtain ⟨x2, _, g2, cache2, h1, x3, _, h2⟩ := h
    obtain ⟨i1, i2⟩ := ih _ _ _ _ _ h2
    refine ⟨?_, fun hm => i2 ?_⟩
    · simp only [applyLoop, if_true, h1]
      exact i1
    · have := made_event hm h1
      exact ⟨this.annos, this.comp⟩

theorem clearComp_made (h : Made g) (c : C) : Made (clearComp x g c) := by
  unfold clearComp
  split
  · exact h.set (adj_run_step (h.comp c) .clear)
  · refine h.set ?_
    have h0 := h.comp c
    generalize g.comp c = a at h0
    induction x.invalid.keys generalizing a with
    | nil => exact h0
    | cons n ks ih => exact ih _ (adj_run_step h0 (.deleteNode n))

theorem inherit_made (h : Made g) (cov text : List C) (n : NodeID64) : Made (inherit sc tok g cov text n).1 := by
  unfold inherit
  simp only
  refine h.set ?_
  have h0 := h.comp sc.inh
  generalize g.comp sc.inh = a at h0
  induction covered sc tok g text n generalizing a with
  | nil => exact h0
  | cons t ts ih =>
    simp only [List.foldl_cons]
    refine ih _ ?_
    split
    · exact adj_run_step h0 (.addEdge n t)
    · exact h0

theorem align_made (h : Made g) {ch : Choices} {order : Adj NodeID64 S V} {n : NodeID64} {right : Bool} {toks : List NodeID64}
    (ha : align sc tok ch g order n right toks = some g') : Made g' := by
  unfold align at ha
  simp only at ha
  generalize (if right = true then sc.right else sc.left) = c at ha
  split at ha
  · rw [← Option.some.inj ha]; exact h
  split at ha
  · rw [← Option.some.inj ha]; exact h
  simp only [Option.bind_eq_bind, Option.bind_eq_some_iff] at ha
  obtain ⟨l, _, ha⟩ := ha
  split at ha
  · rename_i t _
    rw [← Option.some.inj ha]
    exact h.set (adj_run_step (h.comp _) (.addEdge n t))
  · rw [← Option.some.inj ha]; exact h

theorem apply_made (h : Made g) {ch : Choices} (ha : apply sc tk tok ch x g = some g') : Made g' := by
  unfold apply at ha
  generalize (if x.empty = true then markAll tk x g else x) = y at ha
  unfold reindex at ha
  simp only at ha
  have h0 : Made (clear sc y g) := by
    unfold clear
    exact clearComp_made (clearComp_made (clearComp_made h _) _) _
  generalize covComps sc (clear sc y g) ++ (clear sc y g).compsOf sc .dominance = text at ha
  generalize covComps sc (clear sc y g) = cov at ha
  generalize (clear sc y g).comp sc.order = order at ha
  generalize clear sc y g = g2 at ha h0
  generalize y.invalid.keys = ks at ha
  induction ks generalizing g2 with
  | nil =>
    simp only [List.foldlM_nil, Option.pure_def, Option.some.injEq] at ha
    rw [← ha]; exact h0
  | cons n ks ih =>
    simp only [List.foldlM_cons, Option.bind_eq_bind, Option.bind_eq_some_iff] at ha
    obtain ⟨g3, h3, ha⟩ := ha
    refine ih g3 ?_ ha
    unfold reindexNode at h3
    simp only [Option.bind_eq_bind, Option.bind_eq_some_iff] at h3
    obtain ⟨g4, h4, h5⟩ := h3
    exact align_made (align_made (inherit_made h0 _ _ _) h4) h5

/-! ## The abstract graph, without the index -/

/-- The abstract graphs agree in everything but the index components. -/
structure Agree (sc : Schema C) (m m' : GSpec S V C) : Prop where
  node : m.node = m'.node
  label : m.label = m'.label
  edge : ∀ c, c ≠ sc.left → c ≠ sc.right → c ≠ sc.inh → m.edge c = m'.edge c
  eanno : ∀ c, c ≠ sc.left → c ≠ sc.right → c ≠ sc.inh → m.eanno c = m'.eanno c

theorem Agree.refl (m : GSpec S V C) : Agree sc m m := ⟨rfl, rfl, fun _ _ _ _ => rfl, fun _ _ _ _ => rfl⟩

theorem Agree.trans {m m' m'' : GSpec S V C} (h : Agree sc m m') (h' : Agree sc m' m'') : Agree sc m m'' :=
  ⟨h.node.trans h'.node, h.label.trans h'.label, fun c h1 h2 h3 => (h.edge c h1 h2 h3).trans (h'.edge c h1 h2 h3),
    fun c h1 h2 h3 => (h.eanno c h1 h2 h3).trans (h'.eanno c h1 h2 h3)⟩

theorem Agree.step {m m' : GSpec S V C} (h : Agree sc m m') (e : Event S V C) : Agree sc (m.step nk tk e) (m'.step nk tk e) := by
  cases e with
  | addNode n ty =>
    simp only [GSpec.step, ← h.node]
    split
    · exact h
    · exact ⟨rfl, by simp only [h.label], h.edge, h.eanno⟩
  | deleteNode n =>
    simp only [GSpec.step]
    refine ⟨by simp only [h.node], by simp only [h.label], fun c h1 h2 h3 => ?_, fun c h1 h2 h3 => ?_⟩
    · simp only [h.edge c h1 h2 h3]
    · simp only [h.eanno c h1 h2 h3]
  | addNodeLabel n key val => exact ⟨h.node, by simp only [GSpec.step, h.node, h.label], h.edge, h.eanno⟩
  | deleteNodeLabel n key => exact ⟨h.node, by simp only [GSpec.step, h.label], h.edge, h.eanno⟩
  | addEdge s t c =>
    exact ⟨h.node, h.label, fun d h1 h2 h3 => by simp only [GSpec.step, h.node, h.edge d h1 h2 h3], h.eanno⟩
  | deleteEdge s t c =>
    exact ⟨h.node, h.label, fun d h1 h2 h3 => by simp only [GSpec.step, h.edge d h1 h2 h3],
      fun d h1 h2 h3 => by simp only [GSpec.step, h.eanno d h1 h2 h3]⟩
  | addEdgeLabel s t c key val =>
    exact ⟨h.node, h.label, h.edge, fun d h1 h2 h3 => by simp only [GSpec.step, h.edge d h1 h2 h3, h.eanno d h1 h2 h3]⟩
  | deleteEdgeLabel s t c key =>
    exact ⟨h.node, h.label, h.edge, fun d h1 h2 h3 => by simp only [GSpec.step, h.eanno d h1 h2 h3]⟩

theorem Agree.run {m m' : GSpec S V C} (h : Agree sc m m') (l : List (Event S V C)) : Agree sc (m.run nk tk l) (m'.run nk tk l) := by
  induction l generalizing m m' with
  | nil => exact h
  | cons e l ih => exact ih (h.step e)

theorem agree_of_same {m m' : GSpec S V C} (hF : Same sc g1 g) (h : Rep nk g m) (h' : Rep nk g1 m') : Agree sc m m' := by
  have hn : ∀ n, m.node n = true ↔ m'.node n = true := fun n => by rw [h.node, h'.node, hF.annos]
  have hnode : ∀ n, m.node n = true → ∃ i, g.annos.getValue i nk = some n ∧ g1.annos.getValue i nk = some n := by
    intro n hm
    obtain ⟨i, hi⟩ := (h.node n).1 hm
    exact ⟨i, hi, by rw [← hF.annos]; exact hi⟩
  have hedge : ∀ c, c ≠ sc.left → c ≠ sc.right → c ≠ sc.inh → m.edge c = m'.edge c := by
    intro c h1 h2 h3
    funext n n'
    rw [Bool.eq_iff_iff]
    constructor
    · intro he
      obtain ⟨k1, k2⟩ := h.edgeN c n n' he
      obtain ⟨i, i1, i2⟩ := hnode n k1
      obtain ⟨j, j1, j2⟩ := hnode n' k2
      rw [← h'.edge i j n n' i2 j2, ← hF.comp c h1 h2 h3, h.edge i j n n' i1 j1]
      exact he
    · intro he
      obtain ⟨k1, k2⟩ := h'.edgeN c n n' he
      obtain ⟨i, i1, i2⟩ := hnode n ((hn n).2 k1)
      obtain ⟨j, j1, j2⟩ := hnode n' ((hn n').2 k2)
      rw [← h.edge i j n n' i1 j1, hF.comp c h1 h2 h3, h'.edge i j n n' i2 j2]
      exact he
  refine ⟨funext fun n => Bool.eq_iff_iff.2 (hn n), ?_, hedge, ?_⟩
  · funext n k
    by_cases hm : m.node n = true
    · obtain ⟨i, i1, i2⟩ := hnode n hm
      rw [← h.label i n i1 k, ← h'.label i n i2 k, hF.annos]
    · have hm' : ¬ m'.node n = true := fun x => hm ((hn n).2 x)
      cases e1 : m.label n k with
      | some v => exact absurd (h.labelN n k v e1) hm
      | none =>
        cases e2 : m'.label n k with
        | some v => exact absurd (h'.labelN n k v e2) hm'
        | none => rfl
  · intro c h1 h2 h3
    funext n n' k
    by_cases hm : m.edge c n n' = true
    · obtain ⟨k1, k2⟩ := h.edgeN c n n' hm
      obtain ⟨i, i1, i2⟩ := hnode n k1
      obtain ⟨j, j1, j2⟩ := hnode n' k2
      rw [← h.eanno i j n n' i1 j1 c k, ← h'.eanno i j n n' i2 j2 c k, hF.comp c h1 h2 h3]
    · have hm' : ¬ m'.edge c n n' = true := by rw [← hedge c h1 h2 h3]; exact hm
      cases e1 : m.eanno c n n' k with
      | some v => exact absurd (h.eannoN c n n' k v e1) hm
      | none =>
        cases e2 : m'.eanno c n n' k with
        | some v => exact absurd (h'.eannoN c n n' k v e2) hm'
        | none => rfl

/-! ## Histories -/

/-- A history of updates of a new graph with all its events. Each update meets the conditions of C50 and of C23. -/
inductive History (sc : Schema C) (nk tk tok : AnnoKey S) (cap : Nat) : List (Event S V C) → Graph S V C → Prop
  | new : History sc nk tk tok cap [] Graph.new
  | step {l : List (Event S V C)} {g g' : Graph S V C} (u : List (Nat × Event S V C)) (ch : Choices) (hch : ∀ l, (ch.iter l).Perm l)
      (h : History sc nk tk tok cap l g) (hu : update sc nk tk tok cap ch g u = some g') (hok : UpdateOk sc nk tk tok g u g')
      (hd : DeletesOld g.comps.keys (evs u)) : History sc nk tk tok cap (l ++ evs u) g'

/-- What is known about the graph after a history with the events `l`. -/
structure Facts (sc : Schema C) (nk tk tok : AnnoKey S) (l : List (Event S V C)) (g : Graph S V C) : Prop where
  inv : Inv nk g
  count : AnnoStore.rowSum g.annos.byContainer ≤ g.annos.total
  index : IndexOk sc nk tok g
  made : Made g
  ends : NoDangling nk g
  seg : SegOk sc tok g
  order : OrderOk sc tok g
  rep : ∃ m, Rep nk g m ∧ Agree sc m (GSpec.empty.run nk tk l)

theorem history_facts (hsc : SchemaOk sc) (hne : nk ≠ tk) {cap : Nat} {l : List (Event S V C)} (h : History sc nk tk tok cap l g) :
    Facts sc nk tk tok l g := by
  induction h with
  | new =>
    have hE : ∀ c a b, ¬ E (Graph.new : Graph S V C) c a b := by
      intro c a b h
      simp [E, Graph.new, comp, OMap.get, Adj.new, Adj.out] at h
    have hB : ∀ a b, ¬ Below sc (Graph.new : Graph S V C) a b := by
      rintro a b (⟨c, _, _, h⟩ | ⟨c, _, h⟩) <;> exact hE _ _ _ h
    have hO : ∀ a b, ¬ Before sc (Graph.new : Graph S V C) a b := fun a b h => by
      obtain ⟨c, h, _⟩ := Relation.TransGen.head'_iff.1 h
      exact hE _ _ _ h
    refine ⟨Inv.empty, le_refl _, ?_, Made.new, fun c a b h => absurd h (hE c a b), fun i b _ h => absurd h (hB i b),
      ⟨fun a h => hO _ _ h, fun x a b h _ => ?_⟩, _, Rep.empty, Agree.refl _⟩
    · rintro x ⟨n, hx⟩
      simp [Graph.new, AnnoStore.new, AnnoStore.getValue, SymbolTable.new, SymbolTable.getSymbol] at hx
    · obtain ⟨c, h, _⟩ := Relation.TransGen.head'_iff.1 h.2.2
      exact absurd h (hB _ _)
  | @step l g g' u ch hch _ hu hok hd ih =>
    obtain ⟨g1, x, h1, h2, i1, i2, i3, i4⟩ := update_steps hsc hne hch ih.inv ih.count ih.index hu hok
    obtain ⟨p1, p2⟩ := loop_plain cap g.comps.keys u g [] (init sc g) g1 x h1
    obtain ⟨m, hm, ha⟩ := ih.rep
    have hr := loop_refines (nk := nk) (tk := tk) hne cap (fun _ _ => true) g.comps.keys u g [] m ih.inv hm (cacheOk_nil _) hok.names
    rw [p1] at hr
    obtain ⟨_, k, hk1, hk2, _⟩ := hr
    have hk := hk2 rfl
    subst hk
    have hlen : u.length = (evs u).length := by unfold evs; rw [List.length_map]
    simp only [hlen, List.take_length] at hk1
    have hd1 := loop_dangling (nk := nk) (tk := tk) hne cap (fun _ _ => true) g.comps.keys u g [] m ih.inv hm (cacheOk_nil _) hok.names ih.ends
      (fun l1 l2 n hl => ⟨fun c a b hab => edge_mem_keys (g := g) hab, fun s t c hc => hd l1 l2 n hl s t c hc⟩)
    rw [p1] at hd1
    have hF : Same sc g1 g' := by
      unfold apply at h2
      exact reindex_same h2
    obtain ⟨m', hm'⟩ := rep_exists i1
    refine ⟨i1, i2, i3, apply_made (p2 ih.made) h2, ?_, hok.seg, hok.order, m', hm', ?_⟩
    · intro c a b hab
      rcases i4 c a b hab with h | h
      · have := hd1 c a b h
        rw [← hF.annos] at this
        exact this
      · obtain ⟨b', hb⟩ := covered_head h
        rw [hF.below hsc] at hb
        obtain ⟨v, hv⟩ := Option.isSome_iff_exists.1 h.1.1
        refine ⟨?_, i1.named b tok v hv⟩
        rw [hF.annos]
        rcases hb with ⟨c, _, _, hb⟩ | ⟨c, _, hb⟩ <;> exact (hd1 c a b' hb).1
    · have : GSpec.empty.run nk tk (l ++ evs u) = (GSpec.empty.run nk tk l).run nk tk (evs u) := by
        simp [GSpec.run, List.foldl_append]
      rw [this]
      exact (agree_of_same hF hm' hk1).trans (ha.run _)

end Index

end Graph
