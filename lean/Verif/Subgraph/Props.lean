import Verif.Subgraph.Gap
import Verif.Op.OverlapProps

/-!
# C55: the context subgraph of a match
-/

set_option linter.unusedSimpArgs false
set_option linter.unusedSectionVars false
set_option linter.unusedVariables false

open TextSpec

namespace SubgraphSpec

/-- The components of the index, which a subgraph does not contain. -/
def IndexComp (c : Component CKind) : Prop :=
  (c.ty = .coverage ∧ c.layer = "annis".toList ∧ c.name ≠ []) ∨ c.ty = .rightToken ∨ c.ty = .leftToken

/-- The component of the edges for gaps. -/
def GapComp (c : Component CKind) : Prop := c.ty = .ordering ∧ c.layer = "annis".toList ∧ c.name = "datasource-gap".toList

variable {N S W : Type} [LinearOrder N] [LinearOrder S] [OrderBot S] [LinearOrder W]

/-- The graph `g` is the induced subgraph of the nodes `Res`, without the index, with the gap edges `G`. -/
structure Induced (g : Subgraph.Sub N S W) (Res : N → Prop) (A : N → AnnoKey S → W → Prop) (E : Component CKind → N → N → Prop)
    (B : Component CKind → N → N → AnnoKey S → W → Prop) (G : N → N → Prop) : Prop where
  label : ∀ n k v, g.annos.getValue n k = some v ↔ Res n ∧ A n k v
  edge : ∀ c a b, b ∈ (g.comps c).out a ↔ (GapComp c ∧ G a b) ∨ (¬ IndexComp c ∧ Res a ∧ Res b ∧ E c a b)
  edgeLabel : ∀ c a b k v, (g.comps c).annos.getValue (toLex (a, b)) k = some v ↔ ¬ IndexComp c ∧ Res a ∧ Res b ∧ B c a b k v

/-- The nodes of the context: the match nodes, the tokens of their windows `Wn`, the nodes that cover these tokens, and the documents and
corpora of the match nodes. -/
def InContext (nodes : List N) (Wn C P : N → N → Prop) (x : N) : Prop :=
  x ∈ nodes ∨ (∃ n ∈ nodes, ∃ t, Wn n t ∧ (x = t ∨ C x t)) ∨ ∃ n ∈ nodes, ∃ d, 0 < d ∧ Walk.SimplePath P n x d

end SubgraphSpec

open SubgraphSpec

namespace Subgraph

theorem isIndexComp_iff (c : Component CKind) : isIndexComp c = false ↔ ¬ IndexComp c := by
  unfold isIndexComp IndexComp
  rw [← Bool.not_eq_true]
  apply not_congr
  simp only [Bool.or_eq_true, Bool.and_eq_true, decide_eq_true_eq, Bool.not_eq_true', List.isEmpty_eq_false_iff, ne_eq]
  tauto

theorem gapComp_iff (c : Component CKind) : c = gapComp ↔ GapComp c := by
  unfold gapComp GapComp
  cases c
  simp

variable {N : Type} [LinearOrder N]
variable {S W K : Type} [LinearOrder S] [OrderBot S] [LinearOrder W] [DecidableEq K]
variable {src : Src N S W} {A : N → AnnoKey S → W → Prop} {EC : Component CKind → N → N → Prop}
  {B : Component CKind → N → N → AnnoKey S → W → Prop}
variable {th : TokenHelper N} {L R : N → N → Prop} {E : GStore N → N → N → Prop}
variable {ord : GStore N} {O : N → N → Prop} {D : N → Prop} {Rg : Nat → Bnd Nat → Prop}

/-- C55 for the extraction: the result is the induced subgraph of the nodes at the selected positions of the matches. The gap edges
connect neighbours of the tokens in the order of their first occurrences. -/
theorem C55_extract (hs : src.Is A EC B) (h : th.Ok L R E) (ho : ord.Is O D Rg) (hc : Linear.Chains O) {idx : List Nat}
    {it : List (List (N × K))} (hlab : ∀ r ∈ it, ∀ i ∈ idx, ∀ m, r[i]? = some m → ∃ k v, A m.1 k v) :
    ∃ g, create src (some th) (some ord) idx it = some g ∧
      Induced g (fun n => ∃ r ∈ it, ∃ i ∈ idx, ∃ x, r[i]? = some (n, x)) A EC B
        (GapNext O (toks (th.Tok E) (firsts (it.flatMap fun r => idx.filterMap fun i => r[i]?)))) := by
  have hm : ∀ m : N × K, m ∈ selected idx it ↔ ∃ r ∈ it, ∃ i ∈ idx, r[i]? = some m := by
    intro m; simp [selected]
  have hsel : ∀ n, (∃ x, (n, x) ∈ selected idx it) ↔ ∃ r ∈ it, ∃ i ∈ idx, ∃ x, r[i]? = some (n, x) := by
    intro n
    constructor
    · rintro ⟨x, hx⟩
      obtain ⟨r, hr, i, hi, he⟩ := (hm _).1 hx
      exact ⟨r, hr, i, hi, x, he⟩
    · rintro ⟨r, hr, i, hi, x, he⟩
      exact ⟨x, (hm _).2 ⟨r, hr, i, hi, he⟩⟩
  obtain ⟨g, g1, g2⟩ := create_spec hs h ho hc (idx := idx) (it := it) (fun n x hx => by
    obtain ⟨r, hr, i, hi, he⟩ := (hm _).1 hx
    exact hlab r hr i hi _ he)
  refine ⟨g, g1, fun n k v => ?_, fun c a b => ?_, fun c a b k v => ?_⟩
  · rw [g2.val, hsel]
  · rw [g2.edge, hsel, hsel, isIndexComp_iff, gapComp_iff]
    rfl
  · rw [g2.eval, hsel, hsel, isIndexComp_iff]

/-- The whole pipeline for windows `Wn` and an order `lt` of the tokens. -/
theorem subgraph_spec (hs : src.Is A EC B) (h : th.Ok L R E) (ho : ord.Is O D Rg) (hc : Linear.Chains O) {ch : Choice N} (hch : ch.Ok)
    {partOf : GStore N} {P : N → N → Prop} {DP : N → Prop} {RP : Nat → Bnd Nat → Prop} (hp : partOf.Is P DP RP) (hrp : RP 1 .unbounded)
    (hPtok : ∀ a b, P a b → ¬ th.Tok E b)
    {seg : Option (GStore N)} {cl cr : Nat} {Wn : N → N → Prop} {nodes : List N} {g : Sub N S W}
    (hW : ∀ n ∈ nodes, ∀ x, fromNode ch th ord seg cl cr n = some x → IsRegion O (Wn n) x)
    (hself : ∀ n ∈ nodes, th.Tok E n → Wn n n)
    (hWtok : ∀ n ∈ nodes, ∀ t, Wn n t → th.Tok E t) {lt : N → N → Prop}
    (hb : BlockOrder O (fun t => ∃ n ∈ nodes, Wn n t) lt)
    (hsort : ∀ rs srt, regions ch th ord seg cl cr nodes = some rs → sortAll (regionCmp ord) ch.fuel ch.rndRegions rs = some srt →
      srt.Pairwise fun r r' => r.start = r'.start ∨ lt r.start r'.start)
    (hlab : ∀ x, InContext nodes Wn (th.Cov E) P x → ∃ k v, A x k v)
    (hg : subgraph ch src th ord partOf seg cl cr nodes = some g) :
    Induced g (InContext nodes Wn (th.Cov E) P) A EC B (Gap O fun t => ∃ n ∈ nodes, Wn n t) := by
  unfold subgraph at hg
  cases hl : contextNodes ch th ord partOf seg cl cr nodes with
  | none => rw [hl] at hg; simp at hg
  | some l =>
    rw [hl] at hg
    simp only at hg
    have hmem := contextNodes_spec h ho hc hch hp hrp hW hself hl
    have hsel : selected [0] (l.map fun n => [(n, ())]) = l.map fun n => (n, ()) := by
      clear hl hg hmem
      induction l with
      | nil => rfl
      | cons x l ih =>
        rw [List.map_cons, List.map_cons, ← ih]
        rfl
    have hin : ∀ n, (∃ x, (n, x) ∈ selected [0] (l.map fun n => [(n, ())])) ↔ InContext nodes Wn (th.Cov E) P n := by
      intro n
      rw [hsel, InContext, ← hmem]
      simp
    obtain ⟨g', g1, g2⟩ := create_spec hs h ho hc (idx := [0]) (it := l.map fun n => [(n, ())]) (fun n x hx => hlab n ((hin n).1 ⟨x, hx⟩))
    rw [g1, Option.some.injEq] at hg
    subst hg
    obtain ⟨t1, t2⟩ := context_toks h ho hc hch hp hrp hPtok hW hWtok hb hsort hl
    refine ⟨fun n k v => ?_, fun c a b => ?_, fun c a b k v => ?_⟩
    · rw [g2.val, hin]
    · rw [g2.edge, hin, hin, isIndexComp_iff, gapComp_iff, hsel, gapNext_iff hc hb t1 t2]
    · rw [g2.eval, hin, hin, isIndexComp_iff]

theorem window_tok (hO : ∀ a b, O a b → th.Tok E a ∧ th.Tok E b) {n : N} {l r : Nat} {t : N}
    (h : InWindow O (CoveredTok (th.Tok E) (th.Cov E) n) l r t) : th.Tok E t := by
  have hfw : ∀ {a b : N}, Relation.ReflTransGen O a b → th.Tok E a → th.Tok E b := by
    intro a b hr ha
    cases hr with
    | refl => exact ha
    | tail _ e => exact (hO _ _ e).2
  have hbw : ∀ {a b : N}, Relation.ReflTransGen O a b → th.Tok E b → th.Tok E a := by
    intro a b hr hb
    rcases Relation.ReflTransGen.cases_head hr with rfl | ⟨c, e, _⟩
    · exact hb
    · exact (hO _ _ e).1
  rcases h with ⟨c, d, hC, _, hw⟩ | ⟨c, d, hC, _, hw⟩ | ⟨c, c', hC, _, hb⟩
  · exact hbw (Walk.reach_iff_walk.2 ⟨d, hw⟩) hC.1
  · exact hfw (Walk.reach_iff_walk.2 ⟨d, hw⟩) hC.1
  · exact hfw hb.1 hC.1

theorem segWindow_tok (hO : ∀ a b, O a b → th.Tok E a ∧ th.Tok E b) (h : th.Ok L R E) {SO : N → N → Prop} {n : N} {l r : Nat} {t : N}
    (hw : InSegWindow (th.Tok E) (th.Cov E) L R O SO n l r t) : th.Tok E t := by
  rcases hw with ⟨_, hw⟩ | ⟨s, e, a, b, _, _, ha, _, hb⟩
  · exact window_tok hO hw
  · have hta : th.Tok E a := by
      rcases ha with ⟨h1, rfl⟩ | ⟨_, h2⟩
      · exact h1
      · exact (h.leftTok _ _ h2).2
    rcases Relation.ReflTransGen.cases_tail hb.1 with e | ⟨c, _, e⟩
    · rw [e]; exact hta
    · exact (hO _ _ e).2

/-- The ids as an order of the tokens. -/
theorem blockOrder_ids {T : N → Prop} (hmono : ∀ a b, O a b → a < b)
    (hblock : ∀ a b c, T a → T b → T c → a < b → b < c → Relation.ReflTransGen O a c → Between O a b c) : BlockOrder O T (· < ·) :=
  ⟨fun _ _ _ h1 h2 => h1.trans h2, fun a => lt_irrefl a, fun a b _ _ => by
    rcases lt_trichotomy a b with h | h | h
    · exact Or.inr (Or.inl h)
    · exact Or.inl h
    · exact Or.inr (Or.inr h), hmono, hblock⟩

/-- The position in a single text as an order of the tokens. -/
theorem blockOrder_text (hc : Linear.Chains O) {T : N → Prop} (hone : OneText O T) : BlockOrder O T (Relation.TransGen O) :=
  ⟨fun _ _ _ h1 h2 => h1.trans h2, fun a h => hc.ac a h, fun a b ha hb => by
    rcases hone a b ha hb with h | h
    · rcases Relation.reflTransGen_iff_eq_or_transGen.1 h with e | e
      · exact Or.inl e.symm
      · exact Or.inr (Or.inl e)
    · rcases Relation.reflTransGen_iff_eq_or_transGen.1 h with e | e
      · exact Or.inl e
      · exact Or.inr (Or.inr e), fun _ _ h => .single h, fun _ _ _ _ _ _ h1 h2 _ => ⟨h1.to_reflTransGen, h2.to_reflTransGen⟩⟩

/-- C55 for the context of a match: the result is the induced subgraph of the match nodes, the tokens at most `cl` to the left and `cr` to
the right of the covered tokens, their covering nodes and the parents of the match nodes, with an edge for each gap.  Partial: the covered
tokens of each match node are in one text, the ids of the tokens increase in each text, and the ids of different texts are not
interleaved. -/
theorem C55_subgraph_partial (hs : src.Is A EC B) (h : th.Ok L R E) (ho : ord.Is O D Rg) (hc : Linear.Chains O) (h1 : Rg 1 .unbounded)
    {cl cr : Nat} (hr : ∀ i, i ≤ max cl cr → Rg i (.included i)) (hO : ∀ a b, O a b → th.Tok E a ∧ th.Tok E b)
    {ch : Choice N} (hch : ch.Ok)
    {partOf : GStore N} {P : N → N → Prop} {DP : N → Prop} {RP : Nat → Bnd Nat → Prop} (hp : partOf.Is P DP RP) (hrp : RP 1 .unbounded)
    (hPtok : ∀ a b, P a b → ¬ th.Tok E b) {nodes : List N} {g : Sub N S W}
    (hone : ∀ n ∈ nodes, OneText O (CoveredTok (th.Tok E) (th.Cov E) n))
    (hmono : ∀ a b, O a b → a < b)
    (hblock : ∀ a b c, th.Tok E a → th.Tok E b → th.Tok E c → a < b → b < c → Relation.ReflTransGen O a c → Between O a b c)
    (hlab : ∀ x, InContext nodes (fun n => InWindow O (CoveredTok (th.Tok E) (th.Cov E) n) cl cr) (th.Cov E) P x → ∃ k v, A x k v)
    (hg : subgraph ch src th ord partOf none cl cr nodes = some g) :
    Induced g (InContext nodes (fun n => InWindow O (CoveredTok (th.Tok E) (th.Cov E) n) cl cr) (th.Cov E) P) A EC B
      (Gap O fun t => ∃ n ∈ nodes, InWindow O (CoveredTok (th.Tok E) (th.Cov E) n) cl cr t) := by
  have hW : ∀ n ∈ nodes, ∀ x, fromNode ch th ord none cl cr n = some x →
      IsRegion O (InWindow O (CoveredTok (th.Tok E) (th.Cov E) n) cl cr) x :=
    fun n hn x hx => C55_region h ho hc h1 hr hch (hone n hn) hx
  refine subgraph_spec hs h ho hc hch hp hrp hPtok (Wn := fun n => InWindow O (CoveredTok (th.Tok E) (th.Cov E) n) cl cr) hW
    (fun n _ ht => Or.inl ⟨n, 0, ⟨ht, Or.inl ⟨ht, rfl⟩⟩, Nat.zero_le _, Walk.walkLen_zero.2 rfl⟩)
    (fun n _ t ht => window_tok hO ht) (lt := (· < ·)) (blockOrder_ids hmono ?_) ?_ hlab hg
  · rintro a b c ⟨n, _, ha⟩ ⟨n', _, hb⟩ ⟨n'', _, hc'⟩
    exact hblock a b c (window_tok hO ha) (window_tok hO hb) (window_tok hO hc')
  · intro rs srt h2 h3
    refine sort_regions_ids ho h1 hc hmono (fun r hr => ?_) h3
    obtain ⟨n, _, hn⟩ := (regions_spec hW h2).1 r hr
    exact hn.1

theorem region_ends {T : N → Prop} {r : Region N} (h : IsRegion O T (some r)) : T r.start ∧ T r.stop :=
  ⟨(h.2 _).1 ⟨.refl, h.1⟩, (h.2 _).1 ⟨h.1, .refl⟩⟩

theorem region_unique (hc : Linear.Chains O) {T T' : N → Prop} (hT : ∀ t, T t ↔ T' t) {r r' : Region N} (h : IsRegion O T (some r))
    (h' : IsRegion O T' (some r')) : r.start = r'.start ∧ r.stop = r'.stop := by
  have e := region_ends h
  have e' := region_ends h'
  have a1 := (h.2 _).2 ((hT _).2 e'.1)
  have a2 := (h.2 _).2 ((hT _).2 e'.2)
  have b1 := (h'.2 _).2 ((hT _).1 e.1)
  have b2 := (h'.2 _).2 ((hT _).1 e.2)
  exact ⟨reach_antisymm hc a1.1 b1.1, reach_antisymm hc b2.2 a2.2⟩

/-- C55 for the context of a match with ids in any order: this needs that the windows of the match nodes are in one text and that two
windows are equal or disjoint. -/
theorem C55_disjoint_partial (hs : src.Is A EC B) (h : th.Ok L R E) (ho : ord.Is O D Rg) (hc : Linear.Chains O) (h1 : Rg 1 .unbounded)
    {cl cr : Nat} (hr : ∀ i, i ≤ max cl cr → Rg i (.included i)) (hO : ∀ a b, O a b → th.Tok E a ∧ th.Tok E b)
    {ch : Choice N} (hch : ch.Ok)
    {partOf : GStore N} {P : N → N → Prop} {DP : N → Prop} {RP : Nat → Bnd Nat → Prop} (hp : partOf.Is P DP RP) (hrp : RP 1 .unbounded)
    (hPtok : ∀ a b, P a b → ¬ th.Tok E b) {nodes : List N} {g : Sub N S W}
    (hone : OneText O fun t => ∃ n ∈ nodes, InWindow O (CoveredTok (th.Tok E) (th.Cov E) n) cl cr t)
    (hdis : ∀ n ∈ nodes, ∀ n' ∈ nodes,
      (∀ t, InWindow O (CoveredTok (th.Tok E) (th.Cov E) n) cl cr t ↔ InWindow O (CoveredTok (th.Tok E) (th.Cov E) n') cl cr t) ∨
      ∀ t, InWindow O (CoveredTok (th.Tok E) (th.Cov E) n) cl cr t → ¬ InWindow O (CoveredTok (th.Tok E) (th.Cov E) n') cl cr t)
    (hlab : ∀ x, InContext nodes (fun n => InWindow O (CoveredTok (th.Tok E) (th.Cov E) n) cl cr) (th.Cov E) P x → ∃ k v, A x k v)
    (hg : subgraph ch src th ord partOf none cl cr nodes = some g) :
    Induced g (InContext nodes (fun n => InWindow O (CoveredTok (th.Tok E) (th.Cov E) n) cl cr) (th.Cov E) P) A EC B
      (Gap O fun t => ∃ n ∈ nodes, InWindow O (CoveredTok (th.Tok E) (th.Cov E) n) cl cr t) := by
  have hcov : ∀ n t, CoveredTok (th.Tok E) (th.Cov E) n t → InWindow O (CoveredTok (th.Tok E) (th.Cov E) n) cl cr t :=
    fun n t ht => Or.inl ⟨t, 0, ht, Nat.zero_le _, Walk.walkLen_zero.2 rfl⟩
  have hW : ∀ n ∈ nodes, ∀ x, fromNode ch th ord none cl cr n = some x →
      IsRegion O (InWindow O (CoveredTok (th.Tok E) (th.Cov E) n) cl cr) x :=
    fun n hn x hx => C55_region h ho hc h1 hr hch (fun a b ha hb => hone a b ⟨n, hn, hcov n a ha⟩ ⟨n, hn, hcov n b hb⟩) hx
  refine subgraph_spec hs h ho hc hch hp hrp hPtok (Wn := fun n => InWindow O (CoveredTok (th.Tok E) (th.Cov E) n) cl cr) hW
    (fun n _ ht => hcov n n ⟨ht, Or.inl ⟨ht, rfl⟩⟩)
    (fun n _ t ht => window_tok hO ht) (blockOrder_text hc hone) ?_ hlab hg
  intro rs srt h2 h3
  have hreg := (regions_spec hW h2).1
  refine sort_regions_disjoint ho h1 hc (fun r hr => ?_) (fun r hr r' hr' => ?_) h3
  · obtain ⟨n, _, hn⟩ := hreg r hr
    exact hn.1
  · obtain ⟨n, hn, hR⟩ := hreg r hr
    obtain ⟨n', hn', hR'⟩ := hreg r' hr'
    rcases hdis n hn n' hn' with e | e
    · exact Or.inl (region_unique hc e hR hR')
    · have d1 := region_ends hR
      have d2 := region_ends hR'
      right
      -- the stop of one region is comparable with the start of the other
      rcases hone r.stop r'.start ⟨n, hn, d1.2⟩ ⟨n', hn', d2.1⟩ with h4 | h4
      · left
        rcases Relation.reflTransGen_iff_eq_or_transGen.1 h4 with e' | e'
        · exact absurd d2.1 (e' ▸ e _ d1.2)
        · exact e'
      · right
        rcases hone r'.stop r.start ⟨n', hn', d2.2⟩ ⟨n, hn, d1.1⟩ with h5 | h5
        · rcases Relation.reflTransGen_iff_eq_or_transGen.1 h5 with e' | e'
          · exact absurd d2.2 (e' ▸ e _ d1.1)
          · exact e'
        · -- the regions overlap
          exfalso
          rcases hone r.start r'.start ⟨n, hn, d1.1⟩ ⟨n', hn', d2.1⟩ with h6 | h6
          · exact e _ ((hR.2 _).1 ⟨h6, h4⟩) d2.1
          · exact e _ d1.1 ((hR'.2 _).1 ⟨h6, h5⟩)

/-- C55 for a context that is measured in a segmentation.  Partial: as in `C55_subgraph_partial`, and the segmentation has to fit to the
text. -/
theorem C55_segmentation_partial {seg : GStore N} {SO : N → N → Prop} {SD : N → Prop} {SRg : Nat → Bnd Nat → Prop}
    (hs : src.Is A EC B) (h : th.Ok L R E) (ho : ord.Is O D Rg) (hc : Linear.Chains O) (h1 : Rg 1 .unbounded)
    (hseg : seg.Is SO SD SRg) (hsc : Linear.Chains SO) (hs1 : SRg 1 .unbounded)
    {cl cr : Nat} (hr : ∀ i, i ≤ max cl cr → SRg i (.included i)) (hok : SegOk (th.Tok E) (th.Cov E) L R O SO)
    (hO : ∀ a b, O a b → th.Tok E a ∧ th.Tok E b) {ch : Choice N} (hch : ch.Ok)
    {partOf : GStore N} {P : N → N → Prop} {DP : N → Prop} {RP : Nat → Bnd Nat → Prop} (hp : partOf.Is P DP RP) (hrp : RP 1 .unbounded)
    (hPtok : ∀ a b, P a b → ¬ th.Tok E b) {nodes : List N} {g : Sub N S W}
    (hone : ∀ n ∈ nodes, OneText O (CoveredTok (th.Tok E) (th.Cov E) n))
    (hsone : ∀ n ∈ nodes, OneText SO (SegNode (th.Tok E) (th.Cov E) SO n))
    (hmono : ∀ a b, O a b → a < b)
    (hblock : ∀ a b c, th.Tok E a → th.Tok E b → th.Tok E c → a < b → b < c → Relation.ReflTransGen O a c → Between O a b c)
    (hlab : ∀ x, InContext nodes (fun n => InSegWindow (th.Tok E) (th.Cov E) L R O SO n cl cr) (th.Cov E) P x → ∃ k v, A x k v)
    (hg : subgraph ch src th ord partOf (some seg) cl cr nodes = some g) :
    Induced g (InContext nodes (fun n => InSegWindow (th.Tok E) (th.Cov E) L R O SO n cl cr) (th.Cov E) P) A EC B
      (Gap O fun t => ∃ n ∈ nodes, InSegWindow (th.Tok E) (th.Cov E) L R O SO n cl cr t) := by
  have hW : ∀ n ∈ nodes, ∀ x, fromNode ch th ord (some seg) cl cr n = some x →
      IsRegion O (InSegWindow (th.Tok E) (th.Cov E) L R O SO n cl cr) x :=
    fun n hn x hx => C55_seg_region h ho hc h1 hseg hsc hs1 hr hok hch (hone n hn) (hsone n hn) hx
  refine subgraph_spec hs h ho hc hch hp hrp hPtok (Wn := fun n => InSegWindow (th.Tok E) (th.Cov E) L R O SO n cl cr) hW
    (fun n hn ht => seg_self h hsc hok ht fun hex => seg_ends h hseg hsc hr (hsone n hn) hex)
    (fun n _ t ht => segWindow_tok hO h ht) (lt := (· < ·)) (blockOrder_ids hmono ?_) ?_ hlab hg
  · rintro a b c ⟨n, _, ha⟩ ⟨n', _, hb⟩ ⟨n'', _, hc'⟩
    exact hblock a b c (segWindow_tok hO h ha) (segWindow_tok hO h hb) (segWindow_tok hO h hc')
  · intro rs srt h2 h3
    refine sort_regions_ids ho h1 hc hmono (fun r hr => ?_) h3
    obtain ⟨n, _, hn⟩ := (regions_spec hW h2).1 r hr
    exact hn.1

end Subgraph
