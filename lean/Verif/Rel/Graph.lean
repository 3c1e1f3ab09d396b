import Verif.Rel.Corpus

/-!
# The graph of an imported corpus: the parts of the event list
-/

set_option linter.unusedSimpArgs false
set_option linter.unusedSectionVars false

namespace Rel

open Spec

/-- The graph after the import: the meaning of the update events (C22) on the empty graph. -/
def graphOf (evs : List Ev) : GSpec Str Str (CKey Str) := (GSpec.empty : GSpec Str Str (CKey Str)).run nameKey typeKey evs

/-- The results of the steps of an import. -/
structure Parts where
  T : CTable
  ns : List Named
  ord : List Ev
  annos : List Ev
  texts : OMap (Nat ×ₗ Nat) TextRow
  corpora : List Ev
  space : List Ev
  rank : List Ev
  eannos : List Ev
  cov : List Ev

def Parts.events (p : Parts) : List Ev :=
  p.ns.flatMap nodeEvents ++ (p.ord ++ p.annos ++ p.corpora ++ p.space ++ p.rank ++ p.eannos ++ p.cov)

/-- The steps belong to these tables. -/
structure Parts.Of (ext : Option Str → List (Str × Str)) (t : Tables) (p : Parts) : Prop where
  T : parseCorpus t.corpora = some p.T
  ns : nameNodes p.T t.nodes = some p.ns
  ord : orderFrom (nodeNames p.ns) none (tokByIndex t.nodes) = some p.ord
  annos : loadNodeAnnos (nodeNames p.ns) (missingSpans t.nodes) t.nodeAnnos = some p.annos
  texts : p.texts = completeTexts t.is33 t.nodes (parseTexts t.texts)
  corpora : addSubcorpora t.is33 p.T (nodeNames p.ns) (nodesByText t.nodes) p.texts (corpusAnnos t.corpusAnnos) ext = some p.corpora
  space : p.space = addWhitespace t.nodes (nodeNames p.ns) p.texts
  rank : loadRank (compTable t.comps) (nodeNames p.ns) t.ranks = some p.rank
  eannos : loadEdgeAnnos (rankResult (compTable t.comps) t.ranks) (nodeNames p.ns) t.edgeAnnos = some p.eannos
  cov : p.cov = addCoverage t.nodes (rankResult (compTable t.comps) t.ranks) (nodeNames p.ns)

theorem importEvents_parts {ext : Option Str → List (Str × Str)} {t : Tables} {name : Str} {evs : List Ev}
    (h : importEvents ext t = some (name, evs)) : ∃ p : Parts, p.Of ext t ∧ name = p.T.top ∧ evs = p.events := by
  simp only [importEvents, loadNodeTab, Option.bind_eq_bind, Option.bind_eq_some_iff, Option.pure_def, Option.some.injEq,
    Prod.mk.injEq] at h
  obtain ⟨T, hT, ⟨ns, e1⟩, ⟨ns', hns, ord, hord, he1⟩, e2, h2, e3, h3, e5, h5, e6, h6, rfl, rfl⟩ := h
  simp only [Prod.mk.injEq] at he1
  obtain ⟨rfl, rfl⟩ := he1
  refine ⟨⟨T, ns', ord, e2, completeTexts t.is33 t.nodes (parseTexts t.texts), e3,
    addWhitespace t.nodes (nodeNames ns') (completeTexts t.is33 t.nodes (parseTexts t.texts)), e5, e6,
    addCoverage t.nodes (rankResult (compTable t.comps) t.ranks) (nodeNames ns')⟩, ⟨hT, hns, hord, h2, rfl, h3, rfl, h5, h6, rfl⟩, rfl, ?_⟩
  simp [Parts.events]

theorem importEvents_of_parts {ext : Option Str → List (Str × Str)} {t : Tables} {p : Parts} (h : p.Of ext t) :
    importEvents ext t = some (p.T.top, p.events) := by
  have h7 := h.corpora
  have h8 := h.texts
  have h9 := h.space
  have h10 := h.cov
  obtain ⟨T, ns, ord, annos, texts, corpora, space, rank, eannos, cov⟩ := p
  simp only at h7 h8 h9 h10
  subst h8 h9 h10
  simp only [importEvents, loadNodeTab, h.T, h.ns, h.ord, h.annos, h7, h.rank, h.eannos, Option.bind_eq_bind, Option.bind_some,
    Option.pure_def, Parts.events, List.append_assoc]

/-! ### Names -/

theorem nameNodes_mem {T : CTable} {rows : List NodeRow} {ns : List Named} (h : nameNodes T rows = some ns) (n : Named) :
    n ∈ ns ↔ n.1 ∈ rows ∧ ∃ p, corpusPath T n.1.corpus = some p ∧ n.2 = p ++ '#' :: n.1.name := by
  rw [mapM_some_mem h]
  constructor
  · rintro ⟨r, hr, e⟩
    rw [Option.map_eq_some_iff] at e
    obtain ⟨p, hp, rfl⟩ := e
    exact ⟨hr, p, hp, rfl⟩
  · rintro ⟨hr, p, hp, e⟩
    exact ⟨n.1, hr, by rw [hp, Option.map_some, ← e]⟩

theorem of_nodeNames {ns : List Named} {i : Nat} {s : Str} (h : (nodeNames ns).get i = some s) : ∃ n ∈ ns, n.1.id = i ∧ n.2 = s := by
  obtain ⟨n, hn, e⟩ := of_get_collect h
  cases e
  exact ⟨n, hn, rfl, rfl⟩

theorem addsNode_of_names {ns : List Named} {i : Nat} {s : Str} (h : (nodeNames ns).get i = some s) :
    AddsNode (ns.flatMap nodeEvents) s := by
  obtain ⟨n, hn, _, rfl⟩ := of_nodeNames h
  exact ⟨_, List.mem_flatMap.2 ⟨n, hn, by simp [nodeEvents]; exact Or.inl rfl⟩⟩

/-! ### Every event adds -/

theorem adds_nodeEvents {n : Named} {e : Ev} (h : e ∈ nodeEvents n) :
    (∃ ty, e = .addNode n.2 ty) ∨ ∃ k v, e = .addNodeLabel n.2 k v ∧ (k = layerKey ∨ k = tokKey) := by
  unfold nodeEvents at h
  rcases List.mem_cons.1 h with rfl | h
  · exact Or.inl ⟨_, rfl⟩
  · rcases List.mem_append.1 h with h | h
    · split at h
      · split at h
        · simp only [List.mem_singleton] at h; exact Or.inr ⟨_, _, h, Or.inl rfl⟩
        · cases h
      · cases h
    · split at h
      · simp only [List.mem_singleton] at h; exact Or.inr ⟨_, _, h, Or.inr rfl⟩
      · simp only [List.mem_singleton] at h; exact Or.inr ⟨_, _, h, Or.inr rfl⟩
      · cases h

theorem mem_orderFrom {names : OMap Nat Str} : ∀ {prev : Option (TProp × Nat)} {l : List (TProp × Nat)} {evs : List Ev},
    orderFrom names prev l = some evs → ∀ e, e ∈ evs ↔ ∃ p a b q, prev.toList ++ l = p ++ a :: b :: q ∧ sameText a.1 b.1 = true ∧
      ∃ s t, names.get a.2 = some s ∧ names.get b.2 = some t ∧ e = .addEdge s t (compOf .ordering (orderLayer b.1.seg) b.1.seg)
  | prev, [], evs, h, e => by
    have : evs = [] := by cases prev <;> simpa [orderFrom, eq_comm] using h
    subst this
    simp only [List.not_mem_nil, false_iff]
    rintro ⟨p, a, b, q, h1, _⟩
    have := congrArg List.length h1
    cases prev <;> simp at this <;> omega
  | none, c :: r, evs, h, e => by
    rw [orderFrom] at h
    exact mem_orderFrom h e
  | some l, c :: r, evs, h, e => by
    rw [orderFrom] at h
    have split : (∃ p a b q, (some l).toList ++ c :: r = p ++ a :: b :: q ∧ sameText a.1 b.1 = true ∧
        ∃ s t, names.get a.2 = some s ∧ names.get b.2 = some t ∧
          e = .addEdge s t (compOf .ordering (orderLayer b.1.seg) b.1.seg)) ↔
        (sameText l.1 c.1 = true ∧ ∃ s t, names.get l.2 = some s ∧ names.get c.2 = some t ∧
          e = .addEdge s t (compOf .ordering (orderLayer c.1.seg) c.1.seg)) ∨
        ∃ p a b q, (some c).toList ++ r = p ++ a :: b :: q ∧ sameText a.1 b.1 = true ∧
          ∃ s t, names.get a.2 = some s ∧ names.get b.2 = some t ∧
            e = .addEdge s t (compOf .ordering (orderLayer b.1.seg) b.1.seg) := by
      constructor
      · rintro ⟨p, a, b, q, h1, h2⟩
        cases p with
        | nil =>
          simp only [Option.toList_some, List.cons_append, List.nil_append, List.cons.injEq] at h1
          obtain ⟨rfl, rfl, rfl⟩ := h1
          exact Or.inl h2
        | cons x p =>
          simp only [Option.toList_some, List.cons_append, List.nil_append, List.cons.injEq] at h1
          exact Or.inr ⟨p, a, b, q, h1.2, h2⟩
      · rintro (h2 | ⟨p, a, b, q, h1, h2⟩)
        · exact ⟨[], l, c, r, rfl, h2⟩
        · exact ⟨l :: p, a, b, q, by simpa using h1, h2⟩
    rw [split]
    split_ifs at h with hs
    · simp only [Option.bind_eq_bind, Option.bind_eq_some_iff, Option.pure_def, Option.some.injEq] at h
      obtain ⟨s, h1, t, h2, rest, h3, rfl⟩ := h
      rw [List.mem_cons, mem_orderFrom h3 e]
      refine or_congr ?_ Iff.rfl
      constructor
      · rintro rfl; exact ⟨hs, s, t, h1, h2, rfl⟩
      · rintro ⟨_, s', t', h1', h2', rfl⟩
        rw [h1] at h1'; rw [h2] at h2'; cases h1'; cases h2'; rfl
    · rw [mem_orderFrom h e]
      constructor
      · exact Or.inr
      · rintro (⟨h1, _⟩ | h1)
        · exact absurd h1 hs
        · exact h1

theorem mem_nodeAnnos {names missing : OMap Nat Str} {rows : List AnnoRow} {evs : List Ev}
    (h : loadNodeAnnos names missing rows = some evs) {e : Ev} : e ∈ evs ↔ ∃ a ∈ rows, ∃ n, names.get a.id = some n ∧
      (a.ns ≠ annisNs ∨ a.name ≠ "tok".toList) ∧
      (e = .addNodeLabel n (AnnoKey.mk a.ns a.name) (a.val.getD invalidStr) ∨
        ∃ v, a.val = some v ∧ missing.get a.id = some a.name ∧ e = .addNodeLabel n tokKey v) := by
  unfold loadNodeAnnos at h
  rw [Option.map_eq_some_iff] at h
  obtain ⟨ls, hl, rfl⟩ := h
  rw [List.mem_flatten]
  constructor
  · rintro ⟨l, hm, he⟩
    obtain ⟨a, ha, hx⟩ := (mapM_some_mem hl l).1 hm
    unfold nodeAnnoEvents at hx
    rw [Option.map_eq_some_iff] at hx
    obtain ⟨n, hn, rfl⟩ := hx
    split_ifs at he with hc
    · refine ⟨a, ha, n, hn, hc, ?_⟩
      rcases List.mem_append.1 he with he | he
      · right
        split at he
        · rename_i seg v h1 h2
          split_ifs at he with hh
          · rw [List.mem_singleton] at he
            exact ⟨v, h2, by rw [h1, hh], he⟩
          · cases he
        · cases he
      · exact Or.inl (List.mem_singleton.1 he)
    · cases he
  · rintro ⟨a, ha, n, hn, hc, he⟩
    refine ⟨_, (mapM_some_mem hl _).2 ⟨a, ha, by unfold nodeAnnoEvents; rw [hn]; rfl⟩, ?_⟩
    simp only
    rw [if_pos hc]
    rcases he with rfl | ⟨v, h1, h2, rfl⟩
    · simp
    · rw [h1, h2]; simp

theorem mem_rank {comps : OMap Nat CompRow} {names : OMap Nat Str} {rows : List RankRow} {evs : List Ev}
    (h : loadRank comps names rows = some evs) {e : Ev} : e ∈ evs ↔ ∃ r ∈ rows, ∃ s c sn tn, rankEdge (preToNode rows) comps r = some (s, c) ∧
      names.get s = some sn ∧ names.get r.node = some tn ∧ e = .addEdge sn tn (compOf c.type c.layer c.name) := by
  unfold loadRank at h
  rw [Option.map_eq_some_iff] at h
  obtain ⟨ls, hl, rfl⟩ := h
  rw [List.mem_flatten]
  constructor
  · rintro ⟨l, hm, he⟩
    obtain ⟨r, hr, hx⟩ := (mapM_some_mem hl l).1 hm
    unfold rankEvents at hx
    split at hx
    · cases hx; cases he
    · rename_i s c hrc
      simp only [Option.bind_eq_bind, Option.bind_eq_some_iff, Option.pure_def, Option.some.injEq] at hx
      obtain ⟨sn, h1, tn, h2, rfl⟩ := hx
      exact ⟨r, hr, s, c, sn, tn, hrc, h1, h2, List.mem_singleton.1 he⟩
  · rintro ⟨r, hr, s, c, sn, tn, hrc, h1, h2, rfl⟩
    refine ⟨_, (mapM_some_mem hl _).2 ⟨r, hr, by unfold rankEvents; rw [hrc]; simp only [h1, h2]; rfl⟩, by simp⟩

theorem mem_eannos {res : RankResult} {names : OMap Nat Str} {rows : List AnnoRow} {evs : List Ev}
    (h : loadEdgeAnnos res names rows = some evs) {e : Ev} : e ∈ evs ↔ ∃ a ∈ rows, ∃ p c sn tn, res.byPre.get a.id = some (p, c) ∧
      names.get p.1 = some sn ∧ names.get p.2 = some tn ∧
      e = .addEdgeLabel sn tn (compOf c.type c.layer c.name) (AnnoKey.mk a.ns a.name) (a.val.getD invalidStr) := by
  unfold loadEdgeAnnos at h
  rw [Option.map_eq_some_iff] at h
  obtain ⟨ls, hl, rfl⟩ := h
  rw [List.mem_flatten]
  constructor
  · rintro ⟨l, hm, he⟩
    obtain ⟨r, hr, hx⟩ := (mapM_some_mem hl l).1 hm
    unfold edgeAnnoEvents at hx
    split at hx
    · cases hx; cases he
    · rename_i p c hrc
      simp only [Option.bind_eq_bind, Option.bind_eq_some_iff, Option.pure_def, Option.some.injEq] at hx
      obtain ⟨sn, h1, tn, h2, rfl⟩ := hx
      exact ⟨r, hr, p, c, sn, tn, hrc, h1, h2, List.mem_singleton.1 he⟩
  · rintro ⟨a, ha, p, c, sn, tn, hrc, h1, h2, rfl⟩
    refine ⟨_, (mapM_some_mem hl _).2 ⟨a, ha, by unfold edgeAnnoEvents; rw [hrc]; simp only [h1, h2]; rfl⟩, by simp⟩

theorem mem_covLoop {res : RankResult} {names : OMap Nat Str} {index : OMap TProp Nat} {n corpus text : Nat} :
    ∀ {k i : Nat} {e : Ev}, e ∈ covLoop res names index n corpus text i k → ∃ j t sn tn, i ≤ j ∧ j < i + k ∧
      index.get (tprop [] corpus text j) = some t ∧ n ≠ t ∧ (n, t) ∉ res.cov ∧ names.get n = some sn ∧ names.get t = some tn ∧
      e = .addEdge sn tn (covComp res n)
  | 0, i, e, h => by simp [covLoop] at h
  | k + 1, i, e, h => by
    unfold covLoop at h
    cases ht : index.get (tprop [] corpus text i) with
    | none => rw [ht] at h; cases h
    | some t =>
      rw [ht] at h
      simp only at h
      have again : e ∈ covLoop res names index n corpus text (i + 1) k → ∃ j t sn tn, i ≤ j ∧ j < i + (k + 1) ∧
          index.get (tprop [] corpus text j) = some t ∧ n ≠ t ∧ (n, t) ∉ res.cov ∧ names.get n = some sn ∧
          names.get t = some tn ∧ e = .addEdge sn tn (covComp res n) := fun h => by
        obtain ⟨j, t, sn, tn, h1, h2, h3⟩ := mem_covLoop h
        exact ⟨j, t, sn, tn, by omega, by omega, h3⟩
      split_ifs at h with hc
      · cases h1 : names.get n with
        | none => rw [h1] at h; cases h
        | some sn =>
          cases h2 : names.get t with
          | none => rw [h1, h2] at h; cases h
          | some tn =>
            rw [h1, h2] at h
            rcases List.mem_cons.1 h with rfl | h
            · exact ⟨i, t, sn, tn, le_refl _, by omega, ht, hc.1, hc.2, rfl, h2, rfl⟩
            · rw [← h1]; exact again h
      · exact again h

theorem mem_addCoverage {rows : List NodeRow} {res : RankResult} {names : OMap Nat Str} {e : Ev} (h : e ∈ addCoverage rows res names) :
    ∃ n t sn tn, n ≠ t ∧ (n, t) ∉ res.cov ∧ names.get n = some sn ∧ names.get t = some tn ∧ e = .addEdge sn tn (covComp res n) := by
  unfold addCoverage at h
  obtain ⟨p, _, h⟩ := List.mem_flatMap.1 h
  split_ifs at h
  · unfold covEvents at h
    split at h
    · cases h
    · split at h
      · obtain ⟨j, t, sn, tn, _, _, _, h⟩ := mem_covLoop h
        exact ⟨p.1, t, sn, tn, h⟩
      · cases h
  · cases h

theorem mem_wsEvents {names : OMap Nat Str} {w : Nat × Option Str × Str} {e : Ev} (h : e ∈ wsEvents names w) :
    ∃ n, names.get w.1 = some n ∧ ((∃ b, w.2.1 = some b ∧ e = .addNodeLabel n beforeKey b) ∨ e = .addNodeLabel n afterKey w.2.2) := by
  unfold wsEvents at h
  split at h
  · rename_i n hn
    refine ⟨n, hn, ?_⟩
    rcases List.mem_append.1 h with h | h
    · split at h
      · rename_i b hb
        exact Or.inl ⟨b, hb, List.mem_singleton.1 h⟩
      · cases h
    · exact Or.inr (List.mem_singleton.1 h)
  · cases h

theorem mem_metaEvents {annos : OMap (Nat ×ₗ AnnoKey Str) Str} {cid : Nat} {node : Str} {e : Ev} (h : e ∈ metaEvents annos cid node) :
    ∃ k v, (toLex (cid, k), v) ∈ annos ∧ e = .addNodeLabel node k v := by
  unfold metaEvents at h
  obtain ⟨p, hp, rfl⟩ := List.mem_map.1 h
  have h1 := List.mem_takeWhile_imp hp
  have h2 := (List.takeWhile_prefix _).subset hp
  refine ⟨_, _, ?_, rfl⟩
  have h3 := (List.mem_filter.1 h2).1
  have h4 : (ofLex p.1).1 = cid := by simpa using h1
  rw [← h4]
  exact h3

/-- The events of the corpus structure: nodes, labels and edges in the component for the corpus structure. -/
theorem kinds_corpora {is33 : Bool} {T : CTable} {names : OMap Nat Str} {byText : OMap (Nat ×ₗ Nat ×ₗ Nat) Unit}
    {texts : OMap (Nat ×ₗ Nat) TextRow} {annos : OMap (Nat ×ₗ AnnoKey Str) Str} {ext : Option Str → List (Str × Str)} {evs : List Ev}
    (h : addSubcorpora is33 T names byText texts annos ext = some evs) {e : Ev} (he : e ∈ evs) :
    (∃ n ty, e = .addNode n ty) ∨ (∃ n k v, e = .addNodeLabel n k v) ∨ ∃ s t, e = .addEdge s t partOfComp := by
  have hf : ∀ {parent : Str} {files : List (Str × Str)}, e ∈ fileEvents parent files →
      (∃ n ty, e = .addNode n ty) ∨ (∃ n k v, e = .addNodeLabel n k v) ∨ ∃ s t, e = .addEdge s t partOfComp := by
    intro parent files h
    obtain ⟨f, _, h⟩ := List.mem_flatMap.1 h
    simp only [List.mem_cons, List.not_mem_nil, or_false] at h
    rcases h with rfl | rfl | rfl
    · exact Or.inl ⟨_, _, rfl⟩
    · exact Or.inr (Or.inl ⟨_, _, _, rfl⟩)
    · exact Or.inr (Or.inr ⟨_, _, rfl⟩)
  have hm : ∀ {cid : Nat} {n : Str}, e ∈ metaEvents annos cid n →
      (∃ n ty, e = .addNode n ty) ∨ (∃ n k v, e = .addNodeLabel n k v) ∨ ∃ s t, e = .addEdge s t partOfComp := by
    intro cid n h
    obtain ⟨k, v, _, rfl⟩ := mem_metaEvents h
    exact Or.inr (Or.inl ⟨_, _, _, rfl⟩)
  simp only [addSubcorpora, Option.bind_eq_bind, Option.bind_eq_some_iff, Option.pure_def, Option.some.injEq] at h
  obtain ⟨subs, h1, txts, h2, rfl⟩ := h
  rcases List.mem_append.1 he with he | he
  · rcases List.mem_append.1 he with he | he
    · unfold topEvents at he
      rcases List.mem_append.1 he with he | he
      · simp only [List.mem_cons, List.not_mem_nil, or_false] at he
        rcases he with rfl | rfl
        · exact Or.inl ⟨_, _, rfl⟩
        · exact Or.inr (Or.inl ⟨_, _, _, rfl⟩)
      · split at he
        · rcases List.mem_append.1 he with he | he
          · exact hm he
          · exact hf he
        · cases he
    · obtain ⟨l, hl, he⟩ := List.mem_flatten.1 he
      obtain ⟨p, hp, hs⟩ := (mapM_some_mem h1 l).1 hl
      unfold subEvents at hs
      split_ifs at hs
      · cases hs; cases he
      · simp only [Option.bind_eq_bind, Option.bind_eq_some_iff, Option.pure_def, Option.some.injEq] at hs
        obtain ⟨c, hc, full, hfull, parent, hparent, rfl⟩ := hs
        simp only [List.append_assoc] at he
        rcases List.mem_append.1 he with he | he
        · exact Or.inl ⟨_, _, List.mem_singleton.1 he⟩
        · rcases List.mem_append.1 he with he | he
          · split_ifs at he
            · exact Or.inr (Or.inl ⟨_, _, _, List.mem_singleton.1 he⟩)
            · cases he
          · rcases List.mem_append.1 he with he | he
            · exact hm he
            · rcases List.mem_append.1 he with he | he
              · exact Or.inr (Or.inr ⟨_, _, List.mem_singleton.1 he⟩)
              · exact hf he
  · obtain ⟨l, hl, he⟩ := List.mem_flatten.1 he
    obtain ⟨p, hp, hs⟩ := (mapM_some_mem h2 l).1 hl
    unfold textEvents at hs
    split at hs
    · cases hs; cases he
    · simp only [Option.bind_eq_bind, Option.bind_eq_some_iff, Option.pure_def, Option.some.injEq] at hs
      obtain ⟨sub, _, es, hes, rfl⟩ := hs
      rcases List.mem_append.1 he with he | he
      · simp only [List.mem_cons, List.not_mem_nil, or_false] at he
        rcases he with rfl | rfl
        · exact Or.inl ⟨_, _, rfl⟩
        · exact Or.inr (Or.inr ⟨_, _, rfl⟩)
      · obtain ⟨q, _, hq⟩ := (mapM_some_mem hes e).1 he
        rw [Option.map_eq_some_iff] at hq
        obtain ⟨n, _, rfl⟩ := hq
        exact Or.inr (Or.inr ⟨_, _, rfl⟩)

theorem mem_addWhitespace {rows : List NodeRow} {names : OMap Nat Str} {texts : OMap (Nat ×ₗ Nat) TextRow} {e : Ev}
    (h : e ∈ addWhitespace rows names texts) : ∃ i n k v, names.get i = some n ∧ (k = beforeKey ∨ k = afterKey) ∧ e = .addNodeLabel n k v := by
  unfold addWhitespace at h
  obtain ⟨t, _, h⟩ := List.mem_flatMap.1 h
  obtain ⟨w, _, h⟩ := List.mem_flatMap.1 h
  obtain ⟨n, hn, h⟩ := mem_wsEvents h
  rcases h with ⟨b, _, rfl⟩ | rfl
  · exact ⟨_, _, _, _, hn, Or.inl rfl, rfl⟩
  · exact ⟨_, _, _, _, hn, Or.inr rfl, rfl⟩

theorem Parts.Of.adds {ext : Option Str → List (Str × Str)} {t : Tables} {p : Parts} (h : p.Of ext t) : ∀ e ∈ p.events, Adds e := by
  intro e he
  unfold Parts.events at he
  simp only [List.mem_append] at he
  rcases he with he | (((((he | he) | he) | he) | he) | he) | he
  · obtain ⟨n, _, he⟩ := List.mem_flatMap.1 he
    rcases adds_nodeEvents he with ⟨_, rfl⟩ | ⟨_, _, rfl, _⟩ <;> trivial
  · obtain ⟨_, _, _, _, _, _, _, _, _, _, rfl⟩ := (mem_orderFrom h.ord e).1 he; trivial
  · obtain ⟨_, _, _, _, _, rfl | ⟨_, _, _, rfl⟩⟩ := (mem_nodeAnnos h.annos).1 he <;> trivial
  · rcases kinds_corpora h.corpora he with ⟨_, _, rfl⟩ | ⟨_, _, _, rfl⟩ | ⟨_, _, rfl⟩ <;> trivial
  · rw [h.space] at he
    obtain ⟨_, _, _, _, _, _, rfl⟩ := mem_addWhitespace he; trivial
  · obtain ⟨_, _, _, _, _, _, _, _, _, rfl⟩ := (mem_rank h.rank).1 he; trivial
  · obtain ⟨_, _, _, _, _, _, _, _, _, rfl⟩ := (mem_eannos h.eannos).1 he; trivial
  · rw [h.cov] at he
    obtain ⟨_, _, _, _, _, _, _, _, rfl⟩ := mem_addCoverage he; trivial

theorem toU16_injective {a b : AnnotationComponentType} (h : a.toU16 = b.toU16) : a = b := by
  cases a <;> cases b <;> first | rfl | (exact absurd h (by decide))

theorem compOf_inj {a b : AnnotationComponentType} {l l' n n' : Str} (h : compOf a l n = compOf b l' n') : a = b ∧ l = l' ∧ n = n' := by
  unfold compOf at h
  have h := Option.some.inj h
  have h1 : a.toU16 = b.toU16 := congrArg (fun x : CKey Str => (ofLex x).1) h
  have h2 : n = n' := congrArg (fun x : CKey Str => (ofLex (ofLex x).2).1) h
  have h3 : l = l' := congrArg (fun x : CKey Str => (ofLex (ofLex x).2).2) h
  exact ⟨toU16_injective h1, h3, h2⟩

/-- The component in the graph. -/
def comp (t : AnnotationComponentType) (layer name : Str) : CKey Str := toLex (t.toU16, toLex (name, layer))

theorem compOf_eq (t : AnnotationComponentType) (layer name : Str) : compOf t layer name = some (comp t layer name) := rfl

/-- No event of the nodes is an edge event. -/
theorem edge_not_nodes {ns : List Named} {x y : Str} {c : Option (CKey Str)} : Event.addEdge x y c ∉ ns.flatMap nodeEvents := by
  intro h
  obtain ⟨n, _, h⟩ := List.mem_flatMap.1 h
  rcases adds_nodeEvents h with ⟨_, h⟩ | ⟨_, _, h, _⟩ <;> cases h

/-- The edge events which are not part of the corpus structure: the order of the token, the rank table and the coverage. -/
theorem Parts.Of.edge_mem {ext : Option Str → List (Str × Str)} {t : Tables} {p : Parts} (h : p.Of ext t) {c : CKey Str}
    (hc : some c ≠ partOfComp) (x y : Str) : (Event.addEdge x y (some c) : Ev) ∈ p.events ↔
      (Event.addEdge x y (some c) ∈ p.ord ∨ Event.addEdge x y (some c) ∈ p.rank ∨ Event.addEdge x y (some c) ∈ p.cov) := by
  unfold Parts.events
  simp only [List.mem_append]
  constructor
  · rintro (he | (((((he | he) | he) | he) | he) | he) | he)
    · exact absurd he edge_not_nodes
    · exact Or.inl he
    · obtain ⟨_, _, _, _, _, h | ⟨_, _, _, h⟩⟩ := (mem_nodeAnnos h.annos).1 he <;> cases h
    · rcases kinds_corpora h.corpora he with ⟨_, _, h⟩ | ⟨_, _, _, h⟩ | ⟨_, _, h⟩
      · cases h
      · cases h
      · simp only [Event.addEdge.injEq] at h
        exact absurd h.2.2 hc
    · rw [h.space] at he
      obtain ⟨_, _, _, _, _, _, h⟩ := mem_addWhitespace he
      cases h
    · exact Or.inr (Or.inl he)
    · obtain ⟨_, _, _, _, _, _, _, _, _, h⟩ := (mem_eannos h.eannos).1 he; cases h
    · exact Or.inr (Or.inr he)
  · tauto

theorem Parts.Of.edge_known {ext : Option Str → List (Str × Str)} {t : Tables} {p : Parts} (h : p.Of ext t) {c : CKey Str}
    (hc : some c ≠ partOfComp) (x y : Str) : EdgeKnown p.events x y c := by
  intro a b e
  have hb := mem_before e edge_not_nodes
  have he := (h.edge_mem hc x y).1 (by rw [e]; simp)
  rcases he with he | he | he
  · obtain ⟨_, _, _, _, _, _, s, t, h1, h2, h3⟩ := (mem_orderFrom h.ord _).1 he
    simp only [Event.addEdge.injEq] at h3
    obtain ⟨rfl, rfl, _⟩ := h3
    exact ⟨(addsNode_of_names h1).mono hb, (addsNode_of_names h2).mono hb⟩
  · obtain ⟨_, _, _, _, s, t, _, h1, h2, h3⟩ := (mem_rank h.rank).1 he
    simp only [Event.addEdge.injEq] at h3
    obtain ⟨rfl, rfl, _⟩ := h3
    exact ⟨(addsNode_of_names h1).mono hb, (addsNode_of_names h2).mono hb⟩
  · rw [h.cov] at he
    obtain ⟨_, _, s, t, _, _, h1, h2, h3⟩ := mem_addCoverage he
    simp only [Event.addEdge.injEq] at h3
    obtain ⟨rfl, rfl, _⟩ := h3
    exact ⟨(addsNode_of_names h1).mono hb, (addsNode_of_names h2).mono hb⟩

/-- Edges which are not part of the corpus structure. -/
theorem Parts.Of.edge {ext : Option Str → List (Str × Str)} {t : Tables} {p : Parts} (h : p.Of ext t) {c : CKey Str}
    (hc : some c ≠ partOfComp) (x y : Str) : (graphOf p.events).edge c x y = true ↔
      (Event.addEdge x y (some c) ∈ p.ord ∨ Event.addEdge x y (some c) ∈ p.rank ∨ Event.addEdge x y (some c) ∈ p.cov) ∧ x ≠ y := by
  unfold graphOf
  rw [run_edge h.adds _ _ _ (h.edge_known hc x y), h.edge_mem hc]

end Rel
