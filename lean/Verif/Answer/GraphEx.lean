import Verif.Answer.GraphProps
import Verif.Answer.Examples

/-!
# Examples and a failing case for C109
-/

set_option linter.unusedSimpArgs false
set_option linter.unusedVariables false

open AnnoStore TextOp Whole SubgraphSpec

namespace Answer.Gx

open Answer.Ex

def typeKey : AnnoKey Str := AnnoKey.mk annis nodeType
def nodeNameKey : AnnoKey Str := AnnoKey.mk annis "node_name".toList

/-- The corpus 0, its document 21 with the tokens 1, 2, 3, the spans 10 and 11, and the data source 30. -/
def labels : List (NodeID64 × AnnoKey Str × Str) :=
  [(1, AnnoKey.mk annis tokName, ['a']), (2, AnnoKey.mk annis tokName, ['b']), (3, AnnoKey.mk annis tokName, ['c']),
    (10, AnnoKey.mk [] cat, ['S']), (11, AnnoKey.mk [] cat, ['V']),
    (0, typeKey, "corpus".toList), (21, typeKey, "corpus".toList), (30, typeKey, "datasource".toList),
    (1, typeKey, "node".toList), (2, typeKey, "node".toList), (3, typeKey, "node".toList), (10, typeKey, "node".toList),
    (11, typeKey, "node".toList), (0, nodeNameKey, "p".toList), (21, nodeNameKey, "p/d".toList)]

def toOps (l : List (NodeID64 × AnnoKey Str × Str)) : List (AnnoStore.Op NodeID64 Str Str) := l.map fun x => .insert x.1 x.2.1 x.2.2

theorem spec_toOps (l : List (NodeID64 × AnnoKey Str × Str)) (h : (l.map fun x => (x.1, x.2.1)).Nodup) (n : NodeID64) (k : AnnoKey Str) (v : Str) :
    AnnoStore.spec (toOps l) n k = some v ↔ (n, k, v) ∈ l := by
  induction l using List.reverseRecOn with
  | nil => simp [toOps, AnnoStore.spec]
  | append_singleton l x ih =>
    rw [List.map_append, List.nodup_append] at h
    have ih := ih h.1
    have e : AnnoStore.spec (toOps (l ++ [x])) n k = if n = x.1 ∧ k = x.2.1 then some x.2.2 else AnnoStore.spec (toOps l) n k := by
      unfold AnnoStore.spec toOps
      rw [List.map_append, List.foldl_append]
      simp only [List.map_cons, List.map_nil, List.foldl_cons, List.foldl_nil, specStep]
      congr
    rw [e, List.mem_append, List.mem_singleton]
    split
    · rename_i hx
      obtain ⟨rfl, rfl⟩ := hx
      constructor
      · intro h; cases h; exact .inr rfl
      · rintro (hm | hx)
        · exact absurd rfl (h.2.2 (x.1, x.2.1) (List.mem_map.2 ⟨_, hm, rfl⟩) _ (List.mem_singleton.2 rfl))
        · rw [← hx]
    · rename_i hx
      rw [ih]
      refine ⟨.inl, ?_⟩
      rintro (h | rfl)
      · exact h
      · exact absurd ⟨rfl, rfl⟩ hx

def ops : List (AnnoStore.Op NodeID64 Str Str) := toOps labels

theorem spec_iff (n : NodeID64) (k : AnnoKey Str) (v : Str) : AnnoStore.spec ops n k = some v ↔ (n, k, v) ∈ labels :=
  spec_toOps labels (by decide +kernel) n k v

abbrev partEdges : List (NodeID64 × NodeID64) := [(1, 21), (2, 21), (3, 21), (10, 21), (11, 21), (30, 21), (21, 0)]

def partStore : EdgeStore NodeID64 Str Str := { g := listStore partEdges, annos := fun _ _ => some [] }

def db : Db NodeID64 where
  dominance := []
  pointing := [(dep, depStore)]
  partOf := some partStore
  segment _ := none
  loaded := loadedOf
  tokenComps _ := [some ⟨[10, 11], some 50⟩, some ⟨[10, 11], some 50⟩]
  cost _ := some 5

def rels : Rels NodeID64 Str Str := { Ex.rels with edge := fun c a b => ∃ l, c.g.out a = some l ∧ b ∈ l }

theorem edge_list {c : EdgeStore NodeID64 Str Str} {es : List (NodeID64 × NodeID64)} (hc : c.g = listStore es) (hs : ∀ e ∈ es, e.1 ≠ e.2) (a b : NodeID64) :
    rels.edge c a b ↔ (a, b) ∈ es := by
  obtain ⟨l, h1, _, h2⟩ := (listStore_is es hs).out a
  change (∃ l, c.g.out a = some l ∧ b ∈ l) ↔ _
  rw [hc, h1, ← h2]
  simp

theorem comp_ok {c : EdgeStore NodeID64 Str Str} {es : List (NodeID64 × NodeID64)} (hc : c.g = listStore es) (hs : ∀ e ∈ es, e.1 ≠ e.2)
    (ha : c.annos = fun _ _ => some []) : EdgeOp.CompOk c (rels.edge c) (rels.anno c) (fun _ => True) GStore.anyRange := by
  have e : rels.edge c = fun a b => (a, b) ∈ es := by funext a b; exact propext (edge_list hc hs a b)
  rw [e]
  refine ⟨by rw [hc]; exact listStore_is es hs, fun a b => ⟨[], by rw [ha], by simp [rels, Ex.rels]⟩⟩

theorem db_ok : DbOk db rels (fun _ _ => True) (fun _ => GStore.anyRange) where
  dominance := by simp [db]
  pointing := by
    intro name c h
    simp only [db, List.mem_singleton, Prod.mk.injEq] at h
    obtain ⟨_, rfl⟩ := h
    exact comp_ok (es := depEdges) rfl (by decide) rfl
  partOf := by
    intro c h
    simp only [db, Option.some.injEq] at h
    subst h
    exact comp_ok (es := partEdges) rfl (by decide) rfl
  segment := by simp [db]
  once := fun c _ => List.Nodup.filter _ (by decide)
  sources := by
    have key : ∀ (c : EdgeStore NodeID64 Str Str) (es : List (NodeID64 × NodeID64)), c.g = listStore es → (∀ e ∈ es, e.1 ≠ e.2) →
        (∀ e ∈ es, e.1 ∈ ([1, 2, 3, 10, 11, 21, 30] : List NodeID64)) → ∀ a b, rels.edge c a b → a ∈ (loadedOf c).sources := by
      intro c es hc hs hes a b hab
      refine List.mem_filter.2 ⟨hes _ ((edge_list hc hs a b).1 hab), ?_⟩
      obtain ⟨l, h1, h2⟩ := hab
      simp only [h1]
      cases l with
      | nil => simp at h2
      | cons => rfl
    rintro c (⟨name, h | h⟩ | h)
    · simp [db] at h
    · simp only [db, List.mem_singleton, Prod.mk.injEq] at h
      obtain ⟨_, rfl⟩ := h
      exact key _ depEdges rfl (by decide) (by decide)
    · simp only [db, Option.some.injEq] at h
      subst h
      exact key _ partEdges rfl (by decide) (by decide)

def corpus : Corpus NodeID64 := ⟨['p'], env, { graph with annos := run ops }, db, demoTh, demoOrder⟩

theorem corpus_any : corpus.g.anyTokens = some [1, 2, 3] := by unfold corpus graph; rfl
theorem corpus_coverage : corpus.g.coverage = graph.coverage := by unfold corpus; rfl

theorem mem_tok (n : NodeID64) : (∃ v, (n, AnnoKey.mk annis tokName, v) ∈ labels) ↔ n = 1 ∨ n = 2 ∨ n = 3 := by
  have h1 : AnnoKey.mk annis tokName ≠ AnnoKey.mk [] cat := by decide
  have h2 : AnnoKey.mk annis tokName ≠ typeKey := by decide
  have h3 : AnnoKey.mk annis tokName ≠ nodeNameKey := by decide
  simp only [labels, List.mem_cons, Prod.mk.injEq, List.not_mem_nil, or_false, h1, h2, h3, false_and, and_false, true_and]
  constructor
  · rintro ⟨v, h⟩
    rcases h with ⟨rfl, _⟩ | ⟨rfl, _⟩ | ⟨rfl, _⟩ <;> simp
  · rintro (rfl | rfl | rfl)
    · exact ⟨_, .inl ⟨rfl, rfl⟩⟩
    · exact ⟨_, .inr (.inl ⟨rfl, rfl⟩)⟩
    · exact ⟨_, .inr (.inr ⟨rfl, rfl⟩)⟩

theorem mem_cat (n : NodeID64) (k : AnnoKey Str) (hk : k.name = cat) (v : Str) :
    (n, k, v) ∈ labels ↔ k = AnnoKey.mk [] cat ∧ ((n = 10 ∧ v = ['S']) ∨ (n = 11 ∧ v = ['V'])) := by
  have h1 : k ≠ AnnoKey.mk annis tokName := by rintro rfl; exact absurd hk (by decide)
  have h2 : k ≠ typeKey := by rintro rfl; exact absurd hk (by decide)
  have h3 : k ≠ nodeNameKey := by rintro rfl; exact absurd hk (by decide)
  simp only [labels, List.mem_cons, Prod.mk.injEq, List.not_mem_nil, or_false, h1, h2, h3, false_and, and_false, false_or]
  tauto

theorem mem_type (n : NodeID64) (v : Str) : (n, typeKey, v) ∈ labels ↔
    (v = "corpus".toList ∧ (n = 0 ∨ n = 21)) ∨ (v = "datasource".toList ∧ n = 30) ∨
    (v = "node".toList ∧ (n = 1 ∨ n = 2 ∨ n = 3 ∨ n = 10 ∨ n = 11)) := by
  have h1 : typeKey ≠ AnnoKey.mk [] cat := by decide
  have h2 : typeKey ≠ AnnoKey.mk annis tokName := by decide
  have h3 : typeKey ≠ nodeNameKey := by decide
  simp only [labels, List.mem_cons, Prod.mk.injEq, List.not_mem_nil, or_false, h1, h2, h3, false_and, and_false, true_and, false_or]
  constructor
  · rintro (⟨rfl, rfl⟩ | ⟨rfl, rfl⟩ | ⟨rfl, rfl⟩ | ⟨rfl, rfl⟩ | ⟨rfl, rfl⟩ | ⟨rfl, rfl⟩ | ⟨rfl, rfl⟩ | ⟨rfl, rfl⟩) <;> simp
  · rintro (⟨rfl, rfl | rfl⟩ | ⟨rfl, rfl⟩ | ⟨rfl, rfl | rfl | rfl | rfl | rfl⟩) <;> simp

theorem mem_name (n : NodeID64) (v : Str) : (n, nodeNameKey, v) ∈ labels ↔ (n = 0 ∧ v = "p".toList) ∨ (n = 21 ∧ v = "p/d".toList) := by
  have h1 : nodeNameKey ≠ AnnoKey.mk [] cat := by decide
  have h2 : nodeNameKey ≠ AnnoKey.mk annis tokName := by decide
  have h3 : nodeNameKey ≠ typeKey := by decide
  simp only [labels, List.mem_cons, Prod.mk.injEq, List.not_mem_nil, or_false, h1, h2, h3, false_and, and_false, true_and, false_or]

attribute [local irreducible] AnnoStore.run

theorem corpus_tokens : NodeSearch.TokensOk env corpus.g (AnnoStore.spec ops) rels.cov := by
  intro l hl
  rw [corpus_any, Option.some.injEq] at hl
  subst hl
  refine ⟨by decide, fun n => ?_⟩
  rw [Option.isSome_iff_exists]
  simp only [spec_iff]
  have := mem_tok n
  change _ ↔ (∃ v, (n, AnnoKey.mk annis tokName, v) ∈ labels) ∧ ¬ ∃ t, (n, t) ∈ Whole.Ex.covEdges
  rw [this]
  simp only [List.mem_cons, List.not_mem_nil, or_false]
  refine ⟨fun h => ⟨h, ?_⟩, fun h => h.1⟩
  rintro ⟨t, ht⟩
  simp only [Whole.Ex.covEdges, List.mem_cons, List.not_mem_nil, or_false, Prod.mk.injEq] at ht
  rcases h with rfl | rfl | rfl <;> rcases ht with ⟨h, _⟩ | ⟨h, _⟩ | ⟨h, _⟩ | ⟨h, _⟩ <;> exact absurd h (by decide)

theorem corpus_cov : NodeSearch.CovOk corpus.g rels.cov := by
  have h := corpus_ok.coverage
  unfold NodeSearch.CovOk at h ⊢
  rw [corpus_coverage]
  exact h

theorem corpus_known : CorpusOk ops corpus.env corpus.g rels corpus.th corpus.order demoE (fun _ => True) GStore.anyRange where
  annos := by unfold corpus; rfl
  coverage := corpus_cov
  exact := corpus_ok.exact
  tokens := corpus_tokens
  text :=
    { thOk := demo_ok
      isTok := fun _ => Iff.rfl
      isCov := Whole.Ex.cov_iff
      orderOk := listStore_is _ (by decide)
      orderTok := demo_order_tok
      known := fun _ _ => trivial }

def known : Known NodeID64 where
  c := corpus
  ops := ops
  r := rels
  Ec := demoE
  D := fun _ => True
  Rg := GStore.anyRange
  De := fun _ _ => True
  Re := fun _ => GStore.anyRange
  corpus := corpus_known
  db := db_ok

/-! ### The graph that is read -/

def covComp : Component CKind := ⟨.coverage, [], []⟩
def depComp : Component CKind := ⟨.pointing, [], dep⟩
def partComp : Component CKind := ⟨.partOf, annis, []⟩

def src : Subgraph.Src NodeID64 Str Str where
  annos n := labels.filterMap fun x => if x.1 = n then some x.2 else none
  comps := [(covComp, listStore Whole.Ex.covEdges, fun _ _ => []), (depComp, listStore depEdges, fun _ _ => []),
    (partComp, listStore partEdges, fun _ _ => [])]

def edges (c : Component CKind) : List (NodeID64 × NodeID64) :=
  if c = covComp then Whole.Ex.covEdges else if c = depComp then depEdges else if c = partComp then partEdges else []

theorem src_is : src.Is (fun n a v => AnnoStore.spec ops n a = some v) (fun c a b => (a, b) ∈ edges c) (fun _ _ _ _ _ => False) := by
  have hp : (depComp = covComp) = False := eq_false (by decide)
  have hl : (partComp = covComp) = False := eq_false (by decide)
  have hlp : (partComp = depComp) = False := eq_false (by decide)
  refine ⟨?_, ?_, ?_, ?_, ?_, ?_, ?_, ?_⟩
  · intro n k v
    rw [spec_iff]
    simp only [src, List.mem_filterMap]
    constructor
    · rintro ⟨x, hx, h⟩
      split at h
      · rename_i e
        rw [Option.some.injEq] at h
        rw [← e, ← h]
        exact hx
      · cases h
    · intro h
      exact ⟨_, h, by simp⟩
  · intro n k v v' h1 h2
    rw [h1] at h2
    exact Option.some.inj h2
  · intro c hc
    simp only [src, List.mem_cons, List.not_mem_nil, or_false] at hc
    rcases hc with rfl | rfl | rfl
    · exact ⟨_, _, by simpa [edges] using listStore_is Whole.Ex.covEdges (by decide)⟩
    · exact ⟨_, _, by simpa [edges, hp] using listStore_is depEdges (by decide)⟩
    · exact ⟨_, _, by simpa [edges, hl, hlp] using listStore_is partEdges (by decide)⟩
  · intro c hc a b k v
    simp only [src, List.mem_cons, List.not_mem_nil, or_false] at hc
    rcases hc with rfl | rfl | rfl <;> simp
  · intro c a b k v v' h; exact h.elim
  · intro c a b k v h; exact h.elim
  · intro c a h
    unfold edges at h
    split at h
    · exact absurd rfl ((by decide : ∀ e ∈ Whole.Ex.covEdges, e.1 ≠ e.2) _ h)
    · split at h
      · exact absurd rfl ((by decide : ∀ e ∈ depEdges, e.1 ≠ e.2) _ h)
      · split at h
        · exact absurd rfl ((by decide : ∀ e ∈ partEdges, e.1 ≠ e.2) _ h)
        · simp at h
  · intro c a b h
    unfold edges at h
    split at h
    · rename_i e; exact ⟨_, List.mem_cons_self, e.symm⟩
    · split at h
      · rename_i e; exact ⟨_, List.mem_cons_of_mem _ List.mem_cons_self, e.symm⟩
      · split at h
        · rename_i e; exact ⟨_, List.mem_cons_of_mem _ (List.mem_cons_of_mem _ List.mem_cons_self), e.symm⟩
        · simp at h

def orig : Orig NodeID64 := ⟨src, some demoTh, some demoOrder⟩

theorem orig_ok : OrigOk known orig (fun c a b => (a, b) ∈ edges c) (fun _ _ _ _ _ => False)
    (fun a b => (a, b) ∈ [((10 : NodeID64), (1 : NodeID64)), (11, 2)]) (fun a b => (a, b) ∈ [((10 : NodeID64), (2 : NodeID64)), (11, 3)]) demoE
    (fun a b => (a, b) ∈ [((1 : NodeID64), (2 : NodeID64)), (2, 3)]) where
  src := src_is
  th := by intro t h; cases h; exact demo_ok
  ord := by intro g h; cases h; exact ⟨⟨_, _, listStore_is _ (by decide)⟩, demo_order_chains⟩

theorem std : StdNames known.c.env := ⟨rfl, rfl, rfl⟩

theorem part_range : ∀ c, known.c.db.partOf = some c → known.Re c 1 .unbounded := fun c _ => by simp [known, GStore.anyRange]

/-- Sub-corpora: the graph of the document, with the old prefix. -/
theorem C109_subcorpus_nonvacuous (d : SMatch NodeID64 (AnnoKey Str)) :
    ∃ g, SubcorpusGraph (E := Empty) corpus orig d ["salt:/p/d".toList] (some g) ∧
      g.annos.getValue 10 (AnnoKey.mk [] cat) = some ['S'] ∧ g.annos.getValue 30 typeKey = some "datasource".toList ∧
      10 ∈ (g.comps depComp).out 11 ∧ g.annos.getValue 21 typeKey = none ∧ ¬ 21 ∈ (g.comps partComp).out 10 := by
  obtain ⟨⟨res, h1⟩, h2⟩ := C109_subcorpus (E := Empty) (d := d) orig_ok std part_range ["salt:/p/d".toList]
  obtain ⟨g, G, rfl, hg, _⟩ := h2 res h1
  have hin : ∀ n : NodeID64, (n, 21) ∈ partEdges → n ≠ 21 → (n, typeKey, "node".toList) ∈ labels ∨ (n, typeKey, "datasource".toList) ∈ labels →
      InSubcorpus known ["salt:/p/d".toList] n := by
    intro n hn hne ht
    refine ⟨_, List.mem_singleton.2 rfl, "p/d".toList, .inl rfl, 21, partStore, 1, (spec_iff _ _ _).2 ((mem_name _ _).2 (.inr ⟨rfl, rfl⟩)), ?_, rfl,
      le_refl 1, [n, 21], ⟨rfl, rfl, ?_⟩, by simpa using hne, rfl⟩
    · exact ht.imp (spec_iff _ _ _).2 (spec_iff _ _ _).2
    · have h := (edge_list (c := partStore) (es := partEdges) rfl (by decide) n 21).2 hn
      change List.IsChain (rels.edge partStore) [n, 21]
      simpa using h
  have hout : ¬ InSubcorpus known ["salt:/p/d".toList] 21 := by
    rintro ⟨_, _, _, _, _, _, _, _, h | h, _⟩
    · have := (mem_type _ _).1 ((spec_iff _ _ _).1 h)
      revert this
      decide
    · have := (mem_type _ _).1 ((spec_iff _ _ _).1 h)
      revert this
      decide
  have i10 := hin 10 (by decide) (by decide) (.inl ((mem_type _ _).2 (.inr (.inr ⟨rfl, by decide⟩))))
  have i11 := hin 11 (by decide) (by decide) (.inl ((mem_type _ _).2 (.inr (.inr ⟨rfl, by decide⟩))))
  have i30 := hin 30 (by decide) (by decide) (.inr ((mem_type _ _).2 (.inr (.inl ⟨rfl, by decide⟩))))
  refine ⟨g, h1, (hg.label _ _ _).2 ⟨i10, (spec_iff _ _ _).2 ((mem_cat _ _ rfl _).2 ⟨rfl, .inl ⟨rfl, rfl⟩⟩)⟩,
    (hg.label _ _ _).2 ⟨i30, (spec_iff _ _ _).2 ((mem_type _ _).2 (.inr (.inl ⟨rfl, rfl⟩)))⟩,
    (hg.edge _ _ _).2 (.inr ⟨?_, i11, i10, ?_, ?_⟩), ?_, ?_⟩
  · unfold IndexComp; decide
  · exact fun t ht => by cases ht
  · decide
  · cases hv : g.annos.getValue 21 typeKey with
    | none => rfl
    | some v => exact absurd ((hg.label _ _ _).1 hv).1 hout
  · intro h
    rcases (hg.edge _ _ _).1 h with ⟨h, _⟩ | ⟨_, _, h, _⟩
    · revert h; unfold GapComp; decide
    · exact hout h

/-- The corpus structure: corpus and document with the edge between them. -/
theorem C109_corpus_nonvacuous (d : SMatch NodeID64 (AnnoKey Str)) :
    ∃ g, CorpusGraph (E := Empty) corpus orig d (some g) ∧ g.annos.getValue 0 nodeNameKey = some "p".toList ∧
      g.annos.getValue 21 nodeNameKey = some "p/d".toList ∧ 0 ∈ (g.comps partComp).out 21 ∧ g.annos.getValue 10 typeKey = none := by
  obtain ⟨⟨res, h1⟩, h2⟩ := C109_corpus (E := Empty) (d := d) orig_ok
  obtain ⟨g, G, rfl, hg, _⟩ := h2 res h1
  have i0 := (spec_iff 0 typeKey _).2 ((mem_type _ _).2 (.inl ⟨rfl, .inl rfl⟩))
  have i21 := (spec_iff 21 typeKey _).2 ((mem_type _ _).2 (.inl ⟨rfl, .inr rfl⟩))
  refine ⟨g, h1, (hg.label _ _ _).2 ⟨i0, (spec_iff _ _ _).2 ((mem_name _ _).2 (.inl ⟨rfl, rfl⟩))⟩,
    (hg.label _ _ _).2 ⟨i21, (spec_iff _ _ _).2 ((mem_name _ _).2 (.inr ⟨rfl, rfl⟩))⟩, (hg.edge _ _ _).2 (.inr ⟨?_, i21, i0, ?_, ?_⟩), ?_⟩
  · unfold IndexComp; decide
  · exact fun t ht => by cases ht; rfl
  · decide
  · cases hv : g.annos.getValue 10 typeKey with
    | none => rfl
    | some v =>
      have := (mem_type _ _).1 ((spec_iff _ _ _).1 ((hg.label _ _ _).1 hv).1)
      exact absurd this (by decide)

/-! ### A query with an optional node search before another one -/

/-- A span that no span points to. -/
def text7 : Str := "cat? !->dep cat".toList

def alt7 : List Parse.QLit := [.bin (.lit catS 0 none true) (.join (.pointing dep (.bound 1 1) none)) (.lit catS 12 none false) true]

def list7 : List (Aql.Occ (NsSpec Str Str)) := [⟨0, catS, none, true⟩, ⟨12, catS, none, false⟩]

theorem alts7 : alts text7 = some [alt7] := by decide +kernel

/-- All spans. -/
def text8 : Str := "cat".toList

def alt8 : List Parse.QLit := [.node catS 0 none false]

def list8 : List (Aql.Occ (NsSpec Str Str)) := [⟨0, catS, none, false⟩]

theorem alts8 : alts text8 = some [alt8] := by decide +kernel

theorem accepted {t : Str} {c : List Parse.QLit} (doc : NsSpec Str Str) (h : alts t = some [c])
    (hn : ((Parse.lex t).toOption.any fun ps => ps.all fun t => decide (t.tk ≠ .kw .lpar)) = true)
    (hc : ∀ e, Aql.alternatives e = [c] → (Aql.parse false doc e).toOption.isSome = true) :
    ∃ e ps tree qs, Parse.parseQuery t = .ok e ∧ Parse.Spec.Tree t ps tree ∧ Parse.Spec.Flat tree ∧ Aql.parse false doc e = .ok qs ∧
      Aql.alternatives e = [c] := by
  obtain ⟨e, he, ha⟩ := of_alts h
  obtain ⟨ps, tr, ht, _⟩ := Parse.ok_tree he
  have hl := (Parse.C91_lex _ _).2 ht.1
  rw [hl] at hn
  obtain ⟨tr, h1, h2⟩ := Parse.C92_no_parens he hl (by simpa [Except.toOption] using hn)
  have key := hc e ha
  cases hq : Aql.parse false doc e with
  | ok qs => exact ⟨e, ps, tr, qs, he, h1, h2, hq, ha⟩
  | error x => rw [hq] at key; simp [Except.toOption] at key

theorem accepted7 (doc : NsSpec Str Str) : ∃ e ps tree qs, Parse.parseQuery text7 = .ok e ∧ Parse.Spec.Tree text7 ps tree ∧ Parse.Spec.Flat tree ∧
    Aql.parse false doc e = .ok qs ∧ Aql.alternatives e = [alt7] :=
  accepted doc alts7 (by decide +kernel) fun e he => by unfold Aql.parse; rw [he]; rfl

theorem accepted8 (doc : NsSpec Str Str) : ∃ e ps tree qs, Parse.parseQuery text8 = .ok e ∧ Parse.Spec.Tree text8 ps tree ∧ Parse.Spec.Flat tree ∧
    Aql.parse false doc e = .ok qs ∧ Aql.alternatives e = [alt8] :=
  accepted doc alts8 (by decide +kernel) fun e he => by unfold Aql.parse; rw [he]; rfl

theorem at7 {i : Nat} {o : Aql.Occ (NsSpec Str Str)} : list7[i]? = some o ↔
    (i = 0 ∧ o = ⟨0, catS, none, true⟩) ∨ (i = 1 ∧ o = ⟨12, catS, none, false⟩) := by
  match i with
  | 0 => simp [list7, @eq_comm _ _ o]
  | 1 => simp [list7, @eq_comm _ _ o]
  | n + 2 => simp [list7]

theorem at8 {i : Nat} {o : Aql.Occ (NsSpec Str Str)} : list8[i]? = some o ↔ i = 0 ∧ o = ⟨0, catS, none, false⟩ := by
  match i with
  | 0 => simp [list8, @eq_comm _ _ o]
  | n + 1 => simp [list8]

theorem den7_0 {i : Nat} : Aql.Denotes 0 list7 (.lit catS 0 none true) i ↔ i = 0 := by
  rw [den]
  constructor
  · rintro ⟨x, hx, hp⟩
    rcases at7.1 hx with ⟨rfl, rfl⟩ | ⟨rfl, rfl⟩ <;> simp at hp ⊢
  · rintro rfl; exact ⟨_, rfl, rfl⟩

theorem den7_1 {i : Nat} : Aql.Denotes 0 list7 (.lit catS 12 none false) i ↔ i = 1 := by
  rw [den]
  constructor
  · rintro ⟨x, hx, hp⟩
    rcases at7.1 hx with ⟨rfl, rfl⟩ | ⟨rfl, rfl⟩ <;> simp at hp ⊢
  · rintro rfl; exact ⟨_, rfl, rfl⟩

theorem isList7 : Aql.IsNodeList alt7 list7 := by
  refine ⟨by decide, fun o => ?_⟩
  simp [alt7, list7, Aql.Literal.occs, Aql.Operand.occs]

theorem isList8 : Aql.IsNodeList alt8 list8 := by
  refine ⟨by decide, fun o => ?_⟩
  simp [alt8, list8, Aql.Literal.occs, Aql.Operand.occs]

theorem graph_any : corpus.g.anyTokens ≠ none := by rw [corpus_any]; simp

theorem alt7_ok : AltOk known.c.db known.c.env known.c.g known.r known.c.th known.Ec known.Rg known.De known.Re 0 alt7 list7 where
  nonempty := ⟨⟨12, catS, none, false⟩, by simp [list7], rfl⟩
  unambiguous := by
    intro o ho _
    simp only [list7, List.mem_cons, List.not_mem_nil, or_false] at ho
    rcases ho with rfl | rfl <;> trivial
  connected := by
    rintro i j ⟨a, ha, hoa⟩ ⟨b, hb, hob⟩
    rcases at7.1 ha with ⟨rfl, rfl⟩ | ⟨rfl, rfl⟩ <;> rcases at7.1 hb with ⟨rfl, rfl⟩ | ⟨rfl, rfl⟩ <;>
      first
      | exact .refl _
      | (simp at hoa; done)
      | (simp at hob; done)
  supported := by
    intro lhs op rhs neg h
    simp only [alt7, List.mem_cons, List.not_mem_nil, or_false, Aql.Literal.bin.injEq] at h
    obtain ⟨_, rfl, _, _⟩ := h
    trivial
  fits := by
    intro lhs op rhs neg h
    simp only [alt7, List.mem_cons, List.not_mem_nil, or_false, Aql.Literal.bin.injEq] at h
    obtain ⟨_, rfl, _, _⟩ := h
    intro c _
    exact ⟨by simp [known, GStore.anyRange, RangeSpec.maxDist], Or.inl (by decide)⟩
  arity := by intro ref range h; simp [alt7] at h
  patterns := by
    intro o ho _ p hp
    simp only [list7, List.mem_cons, List.not_mem_nil, or_false] at ho
    rcases ho with rfl | rfl <;> simp [catS, NodeSearch.patternOf] at hp
  tokens := by intro o _ _; exact graph_any
  replaced := by
    intro lhs op rhs neg h i j a b hi hj ha hb h1 h2
    simp only [alt7, List.mem_cons, List.not_mem_nil, or_false, Aql.Literal.bin.injEq] at h
    obtain ⟨rfl, rfl, rfl, rfl⟩ := h
    exfalso
    simp only [Aql.Denotes] at hi hj
    rcases at7.1 ha with ⟨rfl, rfl⟩ | ⟨rfl, rfl⟩ <;> rcases at7.1 hb with ⟨rfl, rfl⟩ | ⟨rfl, rfl⟩ <;> simp_all [list7]

theorem alt8_ok : AltOk known.c.db known.c.env known.c.g known.r known.c.th known.Ec known.Rg known.De known.Re 0 alt8 list8 where
  nonempty := ⟨⟨0, catS, none, false⟩, by simp [list8], rfl⟩
  unambiguous := by
    intro o ho _
    simp only [list8, List.mem_cons, List.not_mem_nil, or_false] at ho
    subst ho; trivial
  connected := by
    rintro i j ⟨a, ha, hoa⟩ ⟨b, hb, hob⟩
    obtain ⟨rfl, _⟩ := at8.1 ha
    obtain ⟨rfl, _⟩ := at8.1 hb
    exact .refl _
  supported := by intro lhs op rhs neg h; simp [alt8] at h
  fits := by intro lhs op rhs neg h; simp [alt8] at h
  arity := by intro ref range h; simp [alt8] at h
  patterns := by
    intro o ho _ p hp
    simp only [list8, List.mem_cons, List.not_mem_nil, or_false] at ho
    subst ho
    simp [catS, NodeSearch.patternOf] at hp
  tokens := by intro o _ _; exact graph_any
  replaced := by intro lhs op rhs neg h; simp [alt8] at h

theorem one_ok {c : List Parse.QLit} {L : List (Aql.Occ (NsSpec Str Str))} {alts : List (List Parse.QLit)} (ha : alts = [c]) (hn : Aql.NamesDistinct L)
    (h : AltOk known.c.db known.c.env known.c.g known.r known.c.th known.Ec known.Rg known.De known.Re 0 c L) :
    ∀ (i : Nat) c' L', alts[i]? = some c' → [L][i]? = some L' →
      Aql.NamesDistinct L' ∧ AltOk known.c.db known.c.env known.c.g known.r known.c.th known.Ec known.Rg known.De known.Re (before [L] i) c' L' := by
  subst ha
  intro i c' L' h1 h2
  rcases i with _ | i
  · cases h1; cases h2
    exact ⟨hn, h⟩
  · simp at h1

theorem finds_cat_iff (x : SMatch NodeID64 (AnnoKey Str)) : Finds known.c.env (AnnoStore.spec known.ops) known.r catS x ↔
    x = catM 10 ∨ x = catM 11 := by
  obtain ⟨n, key⟩ := x
  constructor
  · rintro ⟨k, ⟨h1, _, w, hw, _⟩, hk⟩
    obtain ⟨rfl, h⟩ := (mem_cat _ _ h1 _).1 ((spec_iff _ _ _).1 hw)
    have : key = AnnoKey.mk [] cat := hk
    subst this
    rcases h with ⟨h, _⟩ | ⟨h, _⟩
    · exact .inl (congrArg catM h)
    · exact .inr (congrArg catM h)
  · intro h
    have h' : key = AnnoKey.mk [] cat ∧ ∃ w, (n, AnnoKey.mk [] cat, w) ∈ labels := by
      rcases h with h | h <;> cases h
      · exact ⟨rfl, _, (mem_cat _ _ rfl _).2 ⟨rfl, .inl ⟨rfl, rfl⟩⟩⟩
      · exact ⟨rfl, _, (mem_cat _ _ rfl _).2 ⟨rfl, .inr ⟨rfl, rfl⟩⟩⟩
    obtain ⟨rfl, w, hw⟩ := h'
    refine ⟨AnnoKey.mk [] cat, ⟨rfl, ?_, w, (spec_iff _ _ _).2 hw, ?_⟩, rfl⟩ <;> intro _ h <;> cases h

theorem means_dep (a b : NodeID64) : Means known.c.db known.c.env known.r (.join (.pointing dep (.bound 1 1) none)) a b ↔ a = 11 ∧ b = 10 := by
  have hd : ∀ a b, rels.edge depStore a b ↔ (a, b) ∈ depEdges := edge_list rfl (by decide)
  constructor
  · rintro ⟨c, hc, ⟨n, ⟨p, ⟨h1, h2, h3⟩, _, hl⟩, hw⟩, _⟩
    have hc : (dep, c) ∈ [(dep, depStore)] := hc
    rw [List.mem_singleton, Prod.mk.injEq] at hc
    obtain ⟨_, rfl⟩ := hc
    have hn : n = 1 := by
      obtain ⟨w1, w2⟩ := hw
      simp only [RangeSpec.minDist, RangeSpec.maxDist] at w1 w2
      omega
    subst hn
    match p, hl with
    | [x, y], _ =>
      simp at h1 h2
      subst h1 h2
      have h3 : List.IsChain (rels.edge depStore) [x, y] := h3
      simpa [hd] using h3
  · rintro ⟨rfl, rfl⟩
    refine ⟨depStore, List.mem_singleton.2 rfl, ⟨1, ⟨[11, 10], ⟨rfl, rfl, ?_⟩, by decide, rfl⟩, ⟨le_refl 1, le_refl 1⟩⟩, by simp⟩
    change List.IsChain (rels.edge depStore) [11, 10]
    simp [hd]

theorem answer7 (d : SMatch NodeID64 (AnnoKey Str)) (row : Row NodeID64 (AnnoKey Str)) :
    TextAnswer known.c.db known.c.env (AnnoStore.spec known.ops) known.r d 0 alt7 list7 row ↔ row = [d, catM 11] := by
  constructor
  · intro h
    have hl : ∀ i, i < row.length ↔ i < 2 := by
      intro i
      rw [h.length]
      constructor
      · rintro ⟨n, o, hi, ho, _⟩
        rcases at7.1 ho with ⟨rfl, _⟩ | ⟨rfl, _⟩ <;> omega
      · intro hi; exact ⟨1, _, by omega, rfl, rfl⟩
    have hlen : row.length = 2 := by
      have h1 := hl row.length
      have h2 := hl 1
      have h3 := hl 2
      omega
    obtain ⟨x, y, rfl⟩ : ∃ x y, row = [x, y] := by
      match row, hlen with
      | [x, y], _ => exact ⟨x, y, rfl⟩
    have hx := h.default 0 _ x rfl rfl rfl
    subst hx
    obtain ⟨y', hy, hf⟩ := h.found 1 _ rfl rfl
    cases hy
    obtain ⟨y', hy, hno⟩ := h.missingLeft _ _ _ (List.mem_singleton.2 rfl) 0 1 _ _ (den7_0.2 rfl) (den7_1.2 rfl) rfl rfl rfl rfl
    cases hy
    rcases (finds_cat_iff y).1 hf with rfl | rfl
    · exact absurd ⟨catM 11, (finds_cat_iff _).2 (.inr rfl), (means_dep _ _).2 ⟨rfl, rfl⟩⟩ hno
    · rfl
  · rintro rfl
    refine ⟨fun i => ?_, fun n o h _ => ?_, fun n o x h ho hx => ?_, fun lhs op rhs h => ?_, fun lhs op rhs h i j a b hi hj ha hb h1 h2 => ?_,
      fun lhs op rhs h i j a b hi hj ha hb h1 h2 => ?_, fun lhs op rhs h i j a b hi hj ha hb h1 h2 => ?_, fun ref range h => ?_⟩
    · constructor
      · intro hi
        exact ⟨1, _, by simp only [List.length_cons, List.length_nil] at hi; omega, rfl, rfl⟩
      · rintro ⟨n, o, hi, ho, _⟩
        simp only [List.length_cons, List.length_nil]
        rcases at7.1 ho with ⟨rfl, _⟩ | ⟨rfl, _⟩ <;> omega
    · rcases at7.1 h with ⟨rfl, rfl⟩ | ⟨rfl, rfl⟩
      · rename_i ho; cases ho
      · exact ⟨_, rfl, (finds_cat_iff _).2 (.inr rfl)⟩
    · rcases at7.1 h with ⟨rfl, rfl⟩ | ⟨rfl, rfl⟩
      · cases hx; rfl
      · cases ho
    · simp [alt7] at h
    · cases List.mem_singleton.1 h
      rw [den7_0] at hi
      subst hi
      cases ha
      cases h1
    · cases List.mem_singleton.1 h
      rw [den7_0] at hi
      subst hi
      cases ha
      cases h1
    · cases List.mem_singleton.1 h
      rw [den7_1] at hj
      subst hj
      refine ⟨_, rfl, ?_⟩
      rintro ⟨x, _, hm⟩
      exact absurd ((means_dep _ _).1 hm).2 (by decide)
    · simp [alt7] at h

theorem answer8 (d : SMatch NodeID64 (AnnoKey Str)) (row : Row NodeID64 (AnnoKey Str)) :
    TextAnswer known.c.db known.c.env (AnnoStore.spec known.ops) known.r d 0 alt8 list8 row ↔ row = [catM 10] ∨ row = [catM 11] := by
  constructor
  · intro h
    have h1 := (h.length 0).2 ⟨0, _, le_refl _, rfl, rfl⟩
    have h2 : ¬ 1 < row.length := by
      rw [h.length]
      rintro ⟨n, oc, h1, h2, _⟩
      obtain ⟨rfl, _⟩ := at8.1 h2
      omega
    obtain ⟨x, rfl⟩ : ∃ x, row = [x] := List.length_eq_one_iff.1 (by omega)
    obtain ⟨x', hx, hf⟩ := h.found 0 _ rfl rfl
    cases hx
    rcases (finds_cat_iff x).1 hf with rfl | rfl
    · exact .inl rfl
    · exact .inr rfl
  · intro h
    obtain ⟨x, rfl, hf⟩ : ∃ x, row = [x] ∧ Finds known.c.env (AnnoStore.spec known.ops) known.r catS x := by
      rcases h with rfl | rfl
      · exact ⟨_, rfl, (finds_cat_iff _).2 (.inl rfl)⟩
      · exact ⟨_, rfl, (finds_cat_iff _).2 (.inr rfl)⟩
    refine ⟨fun i => ?_, fun n oc h _ => ?_, fun n oc z h1 h2 _ => ?_, ?_, ?_, ?_, ?_, ?_⟩
    · constructor
      · intro hi
        exact ⟨0, _, by simp only [List.length_cons, List.length_nil] at hi; omega, rfl, rfl⟩
      · rintro ⟨n, oc, h1, h2, _⟩
        obtain ⟨rfl, _⟩ := at8.1 h2
        simp only [List.length_cons, List.length_nil]
        omega
    · obtain ⟨rfl, rfl⟩ := at8.1 h
      exact ⟨x, rfl, hf⟩
    · obtain ⟨rfl, rfl⟩ := at8.1 h1
      cases h2
    all_goals
      first
      | (intro _ _ _ h; cases List.mem_singleton.1 h)
      | (intro _ _ h; cases List.mem_singleton.1 h)

theorem answers_one {c : List Parse.QLit} {L : List (Aql.Occ (NsSpec Str Str))} {d : SMatch NodeID64 (AnnoKey Str)} {i : Nat}
    {row : Row NodeID64 (AnnoKey Str)} : AnswersAlt known.c.db known.c.env (AnnoStore.spec known.ops) known.r d [c] [L] i row ↔
      i = 0 ∧ TextAnswer known.c.db known.c.env (AnnoStore.spec known.ops) known.r d 0 c L row := by
  constructor
  · rintro ⟨c', L', h1, h2, h⟩
    rcases i with _ | i
    · cases h1; cases h2
      exact ⟨rfl, h⟩
    · simp at h1
  · rintro ⟨rfl, h⟩
    exact ⟨c, L, rfl, rfl, h⟩

theorem dist7 (d : SMatch NodeID64 (AnnoKey Str)) (i : Nat) (L : List (Aql.Occ (NsSpec Str Str))) (row : Row NodeID64 (AnnoKey Str))
    (hL : [list7][i]? = some L) (h : AnswersAlt known.c.db known.c.env (AnnoStore.spec known.ops) known.r d [alt7] [list7] i row) : Distinct L row := by
  obtain ⟨rfl, _⟩ := answers_one.1 h
  cases hL
  intro i j x a b hij ha hb h1 h2
  rcases at7.1 ha with ⟨rfl, rfl⟩ | ⟨rfl, rfl⟩
  · cases h1
  · rcases at7.1 hb with ⟨rfl, rfl⟩ | ⟨rfl, rfl⟩
    · cases h2
    · exact absurd rfl hij

theorem dist8 (d : SMatch NodeID64 (AnnoKey Str)) (i : Nat) (L : List (Aql.Occ (NsSpec Str Str))) (row : Row NodeID64 (AnnoKey Str))
    (hL : [list8][i]? = some L) (h : AnswersAlt known.c.db known.c.env (AnnoStore.spec known.ops) known.r d [alt8] [list8] i row) : Distinct L row := by
  obtain ⟨rfl, _⟩ := answers_one.1 h
  cases hL
  intro i j x a b hij ha hb
  exact absurd ((at8.1 ha).1.trans (at8.1 hb).1.symm) hij

/-- The default match (core/src/annostorage/mod.rs 18-24, derived): the node 0 without annotation. -/
def noMatch : SMatch NodeID64 (AnnoKey Str) := ⟨0, AnnoKey.mk [] []⟩

/-- Where the code disagrees: the only match of this query is the span 11, but the graph also has the node 0 (here the corpus), which the
query does not mention. -/
theorem C109_optional_fails (doc : NsSpec Str Str) (ty : Option CKind) :
    ∃ e Ls, Parse.parseQuery text7 = .ok e ∧ Searches (Aql.alternatives e) Ls ∧
      (∀ n, Matched known noMatch (Aql.alternatives e) Ls n ↔ n = 11) ∧
      (∃ res, SubgraphForQuery (E := Empty) corpus orig noMatch doc text7 ty res) ∧
      ∀ res, SubgraphForQuery (E := Empty) corpus orig noMatch doc text7 ty res →
        ∃ g, res = some g ∧ g.annos.getValue 11 (AnnoKey.mk [] cat) = some ['V'] ∧ g.annos.getValue 0 nodeNameKey = some "p".toList := by
  obtain ⟨e, ps, tree, qs, he, ht, hf, hqs, ha⟩ := accepted7 doc
  have hS : Searches (Aql.alternatives e) [list7] := by rw [ha]; exact .cons isList7 .nil
  have hm : ∀ n, Matched known noMatch (Aql.alternatives e) [list7] n ↔ n = 11 := by
    intro n
    rw [ha]
    constructor
    · rintro ⟨i, L, row, p, oc, x, hL, hA, hoc, hopt, hx, rfl⟩
      obtain ⟨rfl, hR⟩ := answers_one.1 hA
      cases hL
      rw [answer7] at hR
      subst hR
      rcases at7.1 hoc with ⟨rfl, rfl⟩ | ⟨rfl, rfl⟩
      · cases hopt
      · cases hx
        rfl
    · rintro rfl
      exact ⟨0, list7, _, 1, _, _, rfl, answers_one.2 ⟨rfl, (answer7 _ _).2 rfl⟩, rfl, rfl, rfl, rfl⟩
  have hok := one_ok (alts := Aql.alternatives e) ha (by unfold Aql.NamesDistinct; decide) alt7_ok
  have h0 : ∃ a v, AnnoStore.spec known.ops noMatch.node a = some v := ⟨nodeNameKey, "p".toList, (spec_iff _ _ _).2 ((mem_name _ _).2 (.inl ⟨rfl, rfl⟩))⟩
  refine ⟨e, [list7], he, hS, hm, (C109_query_partial (E := Empty) orig_ok he ht hf hqs hS hok (fun _ => h0) ty).1, fun res hres => ?_⟩
  obtain ⟨g, G, rfl, hg, _⟩ := C109_query_exact_partial (E := Empty) orig_ok he ht hf hqs hS hok (by rw [ha]; exact dist7 noMatch) (fun _ => h0) hres
  refine ⟨g, rfl, (hg.label _ _ _).2 ⟨.inl ((hm 11).2 rfl), (spec_iff _ _ _).2 ((mem_cat _ _ rfl _).2 ⟨rfl, .inr ⟨rfl, rfl⟩⟩)⟩,
    (hg.label _ _ _).2 ⟨.inr ⟨rfl, ?_⟩, (spec_iff _ _ _).2 ((mem_name _ _).2 (.inl ⟨rfl, rfl⟩))⟩⟩
  rw [ha]
  exact ⟨0, list7, _, 0, 1, _, _, rfl, answers_one.2 ⟨rfl, (answer7 _ _).2 rfl⟩, rfl, rfl, rfl, rfl, Nat.zero_lt_one⟩

/-- The graph of all spans has both spans and the edge between them, and no token. -/
theorem C109_matched_nonvacuous (doc : NsSpec Str Str) : ∃ g, SubgraphForQuery (E := Empty) corpus orig noMatch doc text8 none (some g) ∧
    g.annos.getValue 10 (AnnoKey.mk [] cat) = some ['S'] ∧ 10 ∈ (g.comps depComp).out 11 ∧ g.annos.getValue 1 typeKey = none := by
  obtain ⟨e, ps, tree, qs, he, ht, hf, hqs, ha⟩ := accepted8 doc
  have hS : Searches (Aql.alternatives e) [list8] := by rw [ha]; exact .cons isList8 .nil
  have hm : ∀ n, Matched known noMatch (Aql.alternatives e) [list8] n ↔ n = 10 ∨ n = 11 := by
    intro n
    rw [ha]
    constructor
    · rintro ⟨i, L, row, p, oc, x, hL, hA, hoc, hopt, hx, rfl⟩
      obtain ⟨rfl, hR⟩ := answers_one.1 hA
      cases hL
      rw [answer8] at hR
      obtain ⟨rfl, rfl⟩ := at8.1 hoc
      rcases hR with rfl | rfl <;> cases hx
      · exact .inl rfl
      · exact .inr rfl
    · rintro (rfl | rfl)
      · exact ⟨0, list8, _, 0, _, _, rfl, answers_one.2 ⟨rfl, (answer8 _ _).2 (.inl rfl)⟩, rfl, rfl, rfl, rfl⟩
      · exact ⟨0, list8, _, 0, _, _, rfl, answers_one.2 ⟨rfl, (answer8 _ _).2 (.inr rfl)⟩, rfl, rfl, rfl, rfl⟩
  have hok := one_ok (alts := Aql.alternatives e) ha (by unfold Aql.NamesDistinct; decide) alt8_ok
  have hopt : ∀ L ∈ [list8], ∀ oc ∈ L, oc.optional = false := by
    intro L hL oc hoc
    cases List.mem_singleton.1 hL
    cases List.mem_singleton.1 hoc
    rfl
  obtain ⟨res, hres⟩ := (C109_query_partial (E := Empty) orig_ok he ht hf hqs hS hok
    (fun ⟨L, hL, oc, hoc, h⟩ => by rw [hopt L hL oc hoc] at h; cases h) none (d := noMatch)).1
  obtain ⟨g, G, rfl, hg, _⟩ := C109_matched_partial (E := Empty) orig_ok he ht hf hqs hS hok (by rw [ha]; exact dist8 noMatch) hopt hres
  refine ⟨g, hres, (hg.label _ _ _).2 ⟨(hm _).2 (.inl rfl), (spec_iff _ _ _).2 ((mem_cat _ _ rfl _).2 ⟨rfl, .inl ⟨rfl, rfl⟩⟩)⟩,
    (hg.edge _ _ _).2 (.inr ⟨?_, (hm _).2 (.inr rfl), (hm _).2 (.inl rfl), ?_, ?_⟩), ?_⟩
  · unfold IndexComp; decide
  · exact fun t ht => by cases ht
  · decide
  · cases hv : g.annos.getValue 1 typeKey with
    | none => rfl
    | some v => exact absurd ((hm _).1 ((hg.label _ _ _).1 hv).1) (by decide)

end Answer.Gx
