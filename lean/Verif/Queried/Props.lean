import Verif.Queried.History

/-!
# Queries on an imported relANNIS corpus (C114)
-/

set_option linter.unusedSimpArgs false
set_option linter.unusedSectionVars false
set_option linter.unusedVariables false

namespace Rel

open Spec Graph Graph.Index

namespace Spec

/-- One step down in the hierarchy over the tokens. -/
def Down (t : Tables) (a b : NodeRow) : Prop := a ∈ t.nodes ∧ b ∈ t.nodes ∧ (Covers t a b ∨ Dominates t a b)

/-- The row is above the token. -/
def Above (t : Tables) (a b : NodeRow) : Prop := (tokenIndex b).isSome ∧ Relation.TransGen (Down t) a b

/-- The token is the first (last) one of those below the row. -/
def FirstBelow (t : Tables) (a b : NodeRow) : Prop := Above t a b ∧ ∀ c, Above t a c → (tokenIndex b).getD 0 ≤ (tokenIndex c).getD 0
def LastBelow (t : Tables) (a b : NodeRow) : Prop := Above t a b ∧ ∀ c, Above t a c → (tokenIndex c).getD 0 ≤ (tokenIndex b).getD 0

end Spec

theorem down_mem {t : Tables} {a b : NodeRow} (h : Relation.TransGen (Down t) a b) : a ∈ t.nodes ∧ b ∈ t.nodes := by
  induction h with
  | single h => exact ⟨h.1, h.2.1⟩
  | tail _ h ih => exact ⟨ih.1, h.2.1⟩

section
variable {ext : Option Str → List (Str × Str)} {t : Tables} {tree : CTree} {name : Str} {l : List Ev} {T : CTable}
variable (h : importEvents ext t = some (name, l)) (hi : Importable tree t) (hT : parseCorpus t.corpora = some T)
include h hi hT

theorem walk_rows {x y : Str} : Relation.TransGen (Answer.Names.Below schema (graphOf l)) x y ↔
    ∃ a b, x = nm T a ∧ y = nm T b ∧ Relation.TransGen (Down t) a b := by
  constructor
  · intro hw
    induction hw with
    | single h1 =>
      obtain ⟨a, ha, b, hb, rfl, rfl, hr⟩ := (below_iff h hi hT _ _).1 h1
      exact ⟨a, b, rfl, rfl, .single ⟨ha, hb, hr⟩⟩
    | tail _ h1 ih =>
      obtain ⟨a, b, rfl, e, hab⟩ := ih
      obtain ⟨b', hb', c, hc, e', rfl, hr⟩ := (below_iff h hi hT _ _).1 h1
      have := nm_inj h hi hT (down_mem hab).2 hb' (e.symm.trans e')
      subst this
      exact ⟨a, c, rfl, rfl, hab.tail ⟨hb', hc, hr⟩⟩
  · rintro ⟨a, b, rfl, rfl, hw⟩
    induction hw with
    | single h1 => exact .single ((below_iff h hi hT _ _).2 ⟨_, h1.1, _, h1.2.1, rfl, rfl, h1.2.2⟩)
    | tail _ h1 ih => exact ih.tail ((below_iff h hi hT _ _).2 ⟨_, h1.1, _, h1.2.1, rfl, rfl, h1.2.2⟩)

/-- A token has nothing below it. -/
theorem no_down {a b : NodeRow} (hd : Down t a b) : tokenIndex a = none := by
  obtain ⟨ha, hb, hc | hc⟩ := hd
  · exact hi.text.tokens a ha b hb hc
  · obtain ⟨c, hc, hcov⟩ := hi.text.source a ha b hb hc
    exact hi.text.tokens a ha c hc hcov

/-- Indirect coverage by rows. -/
theorem covered_iff (x y : Str) : Answer.Names.Covered schema tokKey (graphOf l) x y ↔ ∃ a b, x = nm T a ∧ y = nm T b ∧ Above t a b := by
  constructor
  · intro hc
    obtain ⟨_, _, b, hb, _, hy, _, ht⟩ := tok_row h hi hT hc
    obtain ⟨a, b', hx, hy', hw⟩ := (walk_rows h hi hT).1 hc.2.2
    have := nm_inj h hi hT hb (down_mem hw).2 (hy.symm.trans hy')
    subst this
    exact ⟨a, b, hx, hy, ht, hw⟩
  · rintro ⟨a, b, rfl, rfl, ht, hw⟩
    refine ⟨row_tok h hi hT (down_mem hw).2 ht, ?_, (walk_rows h hi hT).2 ⟨a, b, rfl, rfl, hw⟩⟩
    intro e
    have := nm_inj h hi hT (down_mem hw).2 (down_mem hw).1 e
    subst this
    obtain ⟨c, hd, _⟩ := Relation.TransGen.head'_iff.1 hw
    rw [no_down h hi hT hd] at ht
    cases ht

theorem above_same {a b : NodeRow} (hab : Above t a b) : SameText a b := by
  have hw := hab.2
  clear hab
  induction hw with
  | single h1 => exact hi.text.same _ h1.1 _ h1.2.1 h1.2.2
  | tail _ h1 ih =>
    have := hi.text.same _ h1.1 _ h1.2.1 h1.2.2
    exact ⟨ih.1.trans this.1, ih.2.trans this.2⟩

theorem first_iff (x y : Str) : Answer.Names.First schema tokKey (graphOf l) x y ↔ ∃ a b, x = nm T a ∧ y = nm T b ∧ FirstBelow t a b := by
  constructor
  · rintro ⟨hc, hall⟩
    obtain ⟨a, b, rfl, rfl, hab⟩ := (covered_iff h hi hT _ _).1 hc
    refine ⟨a, b, rfl, rfl, hab, fun c hac => ?_⟩
    rcases hall (nm T c) ((covered_iff h hi hT _ _).2 ⟨a, c, rfl, rfl, hac⟩) with e | hw
    · rw [nm_inj h hi hT (down_mem hac.2).2 (down_mem hab.2).2 e]
    · obtain ⟨b', hb', c', hc', e1, e2, _, i, j, hbi, hcj, hij⟩ := before_rows h hi hT hw
      have := nm_inj h hi hT (down_mem hab.2).2 hb' e1
      subst this
      have := nm_inj h hi hT (down_mem hac.2).2 hc' e2
      subst this
      rw [hbi, hcj]
      simp only [Option.getD_some]
      omega
  · rintro ⟨a, b, rfl, rfl, hab, hall⟩
    refine ⟨(covered_iff h hi hT _ _).2 ⟨a, b, rfl, rfl, hab⟩, fun z hz => ?_⟩
    obtain ⟨a', c, e, rfl, hac⟩ := (covered_iff h hi hT _ _).1 hz
    have := nm_inj h hi hT (down_mem hab.2).1 (down_mem hac.2).1 e
    subst this
    have hle := hall c hac
    obtain ⟨i, hbi⟩ := Option.isSome_iff_exists.1 hab.1
    obtain ⟨j, hcj⟩ := Option.isSome_iff_exists.1 hac.1
    have s1 := above_same h hi hT hab
    have s2 := above_same h hi hT hac
    rw [hbi, hcj] at hle
    simp only [Option.getD_some] at hle
    rcases Nat.lt_or_eq_of_le hle with hlt | rfl
    · exact Or.inr (rows_before h hi hT _ (down_mem hab.2).2 (down_mem hac.2).2 ⟨s1.1.symm.trans s2.1, s1.2.symm.trans s2.2⟩ hbi hcj hlt (le_refl _))
    · left
      rw [hi.corpus.unique.positions c (down_mem hac.2).2 b (down_mem hab.2).2 ([], i) (s2.1.symm.trans s1.1) (s2.2.symm.trans s1.2)
        ((position_tok hi (down_mem hac.2).2).2 hcj) ((position_tok hi (down_mem hab.2).2).2 hbi)]

theorem last_iff (x y : Str) : Answer.Names.Last schema tokKey (graphOf l) x y ↔ ∃ a b, x = nm T a ∧ y = nm T b ∧ LastBelow t a b := by
  constructor
  · rintro ⟨hc, hall⟩
    obtain ⟨a, b, rfl, rfl, hab⟩ := (covered_iff h hi hT _ _).1 hc
    refine ⟨a, b, rfl, rfl, hab, fun c hac => ?_⟩
    rcases hall (nm T c) ((covered_iff h hi hT _ _).2 ⟨a, c, rfl, rfl, hac⟩) with e | hw
    · rw [nm_inj h hi hT (down_mem hac.2).2 (down_mem hab.2).2 e]
    · obtain ⟨c', hc', b', hb', e2, e1, _, j, i, hcj, hbi, hij⟩ := before_rows h hi hT hw
      have := nm_inj h hi hT (down_mem hab.2).2 hb' e1
      subst this
      have := nm_inj h hi hT (down_mem hac.2).2 hc' e2
      subst this
      rw [hbi, hcj]
      simp only [Option.getD_some]
      omega
  · rintro ⟨a, b, rfl, rfl, hab, hall⟩
    refine ⟨(covered_iff h hi hT _ _).2 ⟨a, b, rfl, rfl, hab⟩, fun z hz => ?_⟩
    obtain ⟨a', c, e, rfl, hac⟩ := (covered_iff h hi hT _ _).1 hz
    have := nm_inj h hi hT (down_mem hab.2).1 (down_mem hac.2).1 e
    subst this
    have hle := hall c hac
    obtain ⟨i, hbi⟩ := Option.isSome_iff_exists.1 hab.1
    obtain ⟨j, hcj⟩ := Option.isSome_iff_exists.1 hac.1
    have s1 := above_same h hi hT hab
    have s2 := above_same h hi hT hac
    rw [hbi, hcj] at hle
    simp only [Option.getD_some] at hle
    rcases Nat.lt_or_eq_of_le hle with hlt | rfl
    · exact Or.inr (rows_before h hi hT _ (down_mem hac.2).2 (down_mem hab.2).2 ⟨s2.1.symm.trans s1.1, s2.2.symm.trans s1.2⟩ hcj hbi hlt (le_refl _))
    · left
      rw [hi.corpus.unique.positions c (down_mem hac.2).2 b (down_mem hab.2).2 ([], j) (s2.1.symm.trans s1.1) (s2.2.symm.trans s1.2)
        ((position_tok hi (down_mem hac.2).2).2 hcj) ((position_tok hi (down_mem hab.2).2).2 hbi)]

/-- **C114**: the relations that the text operators of queries use are those of the rows: the order of tokens is the order of their indexes in the
same text, direct coverage is coverage by the rank table or by positions, and a node covers the tokens that it is above of. -/
theorem C114_rows_partial (x y : Str) :
    (Relation.TransGen (Answer.Names.Next schema (graphOf l)) x y ↔ ∃ a ∈ t.nodes, ∃ b ∈ t.nodes, x = nm T a ∧ y = nm T b ∧ SameText a b ∧
      ∃ i j, tokenIndex a = some i ∧ tokenIndex b = some j ∧ i < j) ∧
    (Answer.Names.Direct schema (graphOf l) x y ↔ ∃ a ∈ t.nodes, ∃ b ∈ t.nodes, x = nm T a ∧ y = nm T b ∧ Covers t a b) ∧
    (Answer.Names.Covered schema tokKey (graphOf l) x y ↔ ∃ a b, x = nm T a ∧ y = nm T b ∧ Above t a b) ∧
    (Answer.Names.First schema tokKey (graphOf l) x y ↔ ∃ a b, x = nm T a ∧ y = nm T b ∧ FirstBelow t a b) ∧
    (Answer.Names.Last schema tokKey (graphOf l) x y ↔ ∃ a b, x = nm T a ∧ y = nm T b ∧ LastBelow t a b) := by
  refine ⟨⟨before_rows h hi hT, ?_⟩, direct_iff h hi hT x y, covered_iff h hi hT x y, first_iff h hi hT x y, last_iff h hi hT x y⟩
  rintro ⟨a, ha, b, hb, rfl, rfl, hs, i, j, hai, hbj, hij⟩
  exact rows_before h hi hT _ ha hb hs hai hbj hij (le_refl _)

end

/-! ### The index -/

/-- **C114**: after an import the index has exactly the edges from each row above some tokens to the first and to the last of them, and the
inherited coverage is exactly the coverage that is not direct. -/
theorem C114_index_partial {ext : Option Str → List (Str × Str)} {t : Tables} {tree : CTree} {name : Str} {l : List Ev} {g : Graph Str Str (CKey Str)}
    {T : CTable} (h : importEvents ext t = some (name, l)) (hi : Importable tree t) (hT : parseCorpus t.corpora = some T) {cap : Nat} {ch : Choices}
    (hch : ∀ l, (ch.iter l).Perm l) {u : List (Nat × Ev)} (hu : evs u = l)
    (hup : update schema nameKey typeKey tokKey cap ch Graph.new u = some g) {i j : NodeID64} {a b : NodeRow} (ha : a ∈ t.nodes) (hb : b ∈ t.nodes)
    (hx : g.annos.getValue i nameKey = some (nm T a)) (hy : g.annos.getValue j nameKey = some (nm T b)) :
    (E g schema.left i j ↔ FirstBelow t a b) ∧ (E g schema.right i j ↔ LastBelow t a b) ∧
    (E g schema.inh i j ↔ Above t a b ∧ ¬ Covers t a b) := by
  obtain ⟨hn, had, hR⟩ := import_reads h hi hu hup
  obtain ⟨hh, hch', htk⟩ := C114_history_partial h hi hch hu hup
  have hf := history_facts schema_ok (by decide) hh
  have hno := hf.index i ⟨_, hx⟩
  have hcov : ∀ {i j : NodeID64} {x y : Str}, g.annos.getValue i nameKey = some x → g.annos.getValue j nameKey = some y →
      (Index.Covered schema tokKey g i j ↔ Answer.Names.Covered schema tokKey (graphOf l) x y) := by
    intro i j x y hx hy
    constructor
    · intro hc
      obtain ⟨x', y', hx', hy', hc'⟩ := hR.covered hc
      rw [hx] at hx'
      rw [hy] at hy'
      cases hx'
      cases hy'
      exact hc'
    · rintro ⟨h1, h2, h3⟩
      refine ⟨(hR.tok hy).2 h1, ?_, hR.walk_back hR.below ?_ h3 hx hy⟩
      · rintro rfl
        rw [hx] at hy
        cases hy
        exact h2 rfl
      · rintro x y (hb | ⟨c, _, he⟩)
        · exact (hR.direct_ends hb).2
        · exact (hR.node c x y he).2
  have hbef : ∀ {i j : NodeID64} {x y : Str}, g.annos.getValue i nameKey = some x → g.annos.getValue j nameKey = some y →
      (Index.Before schema g i j ↔ Relation.TransGen (Answer.Names.Next schema (graphOf l)) x y) := by
    intro i j x y hx hy
    constructor
    · intro hc
      obtain ⟨x', y', hx', hy', hc'⟩ := hR.walk hR.next hc
      rw [hx] at hx'
      rw [hy] at hy'
      cases hx'
      cases hy'
      exact hc'
    · intro hw
      exact hR.walk_back hR.next (fun x y h => (hR.node _ x y h).2) hw hx hy
  have hrow : ∀ {a b : NodeRow}, a ∈ t.nodes → b ∈ t.nodes → nm T a = nm T b → a = b := fun h1 h2 e => nm_inj h hi hT h1 h2 e
  have hname : ∀ {z : Str} {x : Str}, Answer.Names.Covered schema tokKey (graphOf l) x z → ∃ k, g.annos.getValue k nameKey = some z := by
    intro z x hc
    obtain ⟨w, _, hw⟩ := Relation.TransGen.tail'_iff.1 hc.2.2
    rcases hw with hb | ⟨c, _, he⟩
    · exact (hR.direct_ends hb).2
    · exact (hR.node c _ _ he).2
  have hids : ∀ {k k' : NodeID64} {x : Str}, g.annos.getValue k nameKey = some x → g.annos.getValue k' nameKey = some x → k = k' :=
    fun h1 h2 => hR.uniq _ _ _ h1 h2
  refine ⟨?_, ?_, ?_⟩
  · rw [hno.left]
    have e : Index.First schema tokKey g i j ↔ Answer.Names.First schema tokKey (graphOf l) (nm T a) (nm T b) := by
      unfold Index.First Answer.Names.First
      rw [hcov hx hy]
      refine and_congr_right fun _ => ⟨fun hall z hz => ?_, fun hall k hk => ?_⟩
      · obtain ⟨k, hk⟩ := hname hz
        rcases hall k ((hcov hx hk).2 hz) with rfl | hb'
        · rw [hy] at hk; cases hk; exact Or.inl rfl
        · exact Or.inr ((hbef hy hk).1 hb')
      · obtain ⟨_, z, _, hz, _⟩ := hR.covered hk
        rcases hall z ((hcov hx hz).1 hk) with rfl | hb'
        · exact Or.inl (hids hz hy)
        · exact Or.inr ((hbef hy hz).2 hb')
    rw [e, first_iff h hi hT]
    constructor
    · rintro ⟨a', b', e1, e2, hfb⟩
      rw [hrow ha (down_mem hfb.1.2).1 e1, hrow hb (down_mem hfb.1.2).2 e2]
      exact hfb
    · exact fun hfb => ⟨a, b, rfl, rfl, hfb⟩
  · rw [hno.right]
    have e : Index.Last schema tokKey g i j ↔ Answer.Names.Last schema tokKey (graphOf l) (nm T a) (nm T b) := by
      unfold Index.Last Answer.Names.Last
      rw [hcov hx hy]
      refine and_congr_right fun _ => ⟨fun hall z hz => ?_, fun hall k hk => ?_⟩
      · obtain ⟨k, hk⟩ := hname hz
        rcases hall k ((hcov hx hk).2 hz) with rfl | hb'
        · rw [hy] at hk; cases hk; exact Or.inl rfl
        · exact Or.inr ((hbef hk hy).1 hb')
      · obtain ⟨_, z, _, hz, _⟩ := hR.covered hk
        rcases hall z ((hcov hx hz).1 hk) with rfl | hb'
        · exact Or.inl (hids hz hy)
        · exact Or.inr ((hbef hz hy).2 hb')
    rw [e, last_iff h hi hT]
    constructor
    · rintro ⟨a', b', e1, e2, hfb⟩
      rw [hrow ha (down_mem hfb.1.2).1 e1, hrow hb (down_mem hfb.1.2).2 e2]
      exact hfb
    · exact fun hfb => ⟨a, b, rfl, rfl, hfb⟩
  · rw [hno.inh, hcov hx hy, covered_iff h hi hT, hR.direct]
    constructor
    · rintro ⟨⟨a', b', e1, e2, hab⟩, hnd⟩
      rw [← hrow ha (down_mem hab.2).1 e1, ← hrow hb (down_mem hab.2).2 e2] at hab
      exact ⟨hab, fun hc => hnd ⟨_, _, hx, hy, (direct_iff h hi hT _ _).2 ⟨a, ha, b, hb, rfl, rfl, hc⟩⟩⟩
    · rintro ⟨hab, hnc⟩
      refine ⟨⟨a, b, rfl, rfl, hab⟩, ?_⟩
      rintro ⟨x, y, hx', hy', hd⟩
      rw [hx] at hx'
      rw [hy] at hy'
      cases hx'
      cases hy'
      obtain ⟨a', ha', b', hb', e1, e2, hc⟩ := (direct_iff h hi hT _ _).1 hd
      rw [← hrow ha ha' e1, ← hrow hb hb' e2] at hc
      exact hnc hc

/-! ### Queries -/

section
variable {ext : Option Str → List (Str × Str)} {t : Tables} {tree : CTree} {name : Str} {l : List Ev} {g : Graph Str Str (CKey Str)}
variable (h : importEvents ext t = some (name, l)) (hi : Importable tree t) {cap : Nat} {ch : Choices} (hch : ∀ l, (ch.iter l).Perm l)
  {u : List (Nat × Ev)} (hu : evs u = l) (hup : update schema nameKey typeKey tokKey cap ch Graph.new u = some g)
variable {s : Answer.Setting (CKey Str)} (hsc : s.sc = schema) (htok : s.tok = tokKey) (hs : Answer.SettingOk s g)
include h hi hch hu hup hsc htok

theorem import_history : History s.sc nameKey typeKey s.tok cap l g ∧ Answer.DataOk s g := by
  obtain ⟨h1, h2, h3⟩ := C114_history_partial h hi hch hu hup
  rw [hsc, htok]
  refine ⟨h1, ⟨by rw [hsc]; exact h2, ?_⟩⟩
  intro a b hab
  have htok' : AnnoKey.mk s.env.annis s.env.tok = tokKey := htok
  rw [htok', hsc]
  rw [hsc] at hab
  exact h3 a b hab

variable {text : Str} {e : Parse.Q} {ps : List Parse.PTok} {ptree : Parse.Disj} {Er : Type} (hp : Parse.parseQuery text = .ok e)
  (htree : Parse.Spec.Tree text ps ptree) (hflat : Parse.Spec.Flat ptree) (doc : NsSpec Str Str) {qs : List Answer.QConj}
  (hqs : Aql.parse false doc e = .ok qs) (d : SMatch NodeID64 (AnnoKey Str)) {Ls : List (List (Aql.Occ (NsSpec Str Str)))}
  (hLs : Answer.Searches (Aql.alternatives e) Ls) (hnames : ∀ L ∈ Ls, Aql.NamesDistinct L)
  (hok : ∀ (i : Nat) c L, (Aql.alternatives e)[i]? = some c → Ls[i]? = some L → Answer.Names.AltOk s g (Answer.before Ls i) c L)
  (hdist : ∀ (i : Nat) L row, Ls[i]? = some L → Answer.Names.AnswersAlt s.sc s.env s.cname s.part s.segc (· ∈ g.comps.keys) (graphOf l)
    (Answer.nameMatch nameKey g d) (Aql.alternatives e) Ls i row → Answer.DistinctBy L row)
include hs hp htree hflat hqs hLs hnames hok hdist

/-- **C114**: the results of a query on an imported corpus are, by the names of the nodes, exactly the answers in the graph that C79 to C85
describe with the rows of the tables, each once. -/
theorem C114_results_partial {out : List (Except (Fail Er) (_root_.Row NodeID64 (AnnoKey Str)))}
    (hout : Answer.Answers (E := Er) (Answer.corpusOf s g).env (Answer.corpusOf s g).g (Answer.corpusOf s g).db (Answer.corpusOf s g).th
      (Answer.corpusOf s g).order doc d text out) :
    ∃ rows : List (_root_.Row NodeID64 (AnnoKey Str)), out = rows.map .ok ∧ (rows.map (List.map (Answer.nameMatch nameKey g))).Nodup ∧
      ∀ row, row ∈ rows.map (List.map (Answer.nameMatch nameKey g)) ↔ ∃ i, Answer.Names.AnswersAlt s.sc s.env s.cname s.part s.segc
        (· ∈ g.comps.keys) (graphOf l) (Answer.nameMatch nameKey g d) (Aql.alternatives e) Ls i row := by
  obtain ⟨h1, h2⟩ := import_history h hi hch hu hup hsc htok
  exact Answer.C113_results_partial h1 (by decide) hs h2 hp htree hflat doc hqs d hLs hnames hok hdist hout

/-- **C114**: `count` gives the number of these answers. -/
theorem C114_count_partial {n : Nat} (hc : Answer.CountAll Er doc d text [Answer.corpusOf s g] n) {N : List (List Answer.NMatch)} (hN : N.Nodup)
    (hmem : ∀ row, row ∈ N ↔ ∃ i, Answer.Names.AnswersAlt s.sc s.env s.cname s.part s.segc (· ∈ g.comps.keys) (graphOf l)
      (Answer.nameMatch nameKey g d) (Aql.alternatives e) Ls i row) : n = N.length := by
  obtain ⟨h1, h2⟩ := import_history h hi hch hu hup hsc htok
  exact Answer.C113_count_partial h1 (by decide) hs h2 hp htree hflat doc hqs d hLs hnames hok hdist hc hN hmem

end

section
variable {ext : Option Str → List (Str × Str)} {t : Tables} {tree : CTree} {name : Str} {l : List Ev} {g : Graph Str Str (CKey Str)}

/-- **C114**: `find` gives a part of the list of the identifiers of these answers. The conditions for the order of the results are those of C108. -/
theorem C114_find_partial {Er : Type} (h : importEvents ext t = some (name, l)) (hi : Importable tree t) {cap : Nat} {ch : Choices}
    (hch : ∀ l, (ch.iter l).Perm l) {u : List (Nat × Ev)} (hu : evs u = l)
    (hup : update schema nameKey typeKey tokKey cap ch Graph.new u = some g) {s : Answer.Setting (CKey Str)} (hsc : s.sc = schema)
    (htok : s.tok = tokKey) (hs : Answer.SettingOk s g)
    {doc : NsSpec Str Str} {text : Str} {e : Parse.Q} {qs : List Answer.QConj} {Ls : List (List (Aql.Occ (NsSpec Str Str)))}
    {d : SMatch NodeID64 (AnnoKey Str)} (ht : Answer.QueryText doc text e qs Ls)
    (hok : ∀ (i : Nat) c L, (Aql.alternatives e)[i]? = some c → Ls[i]? = some L → Answer.Names.AltOk s g (Answer.before Ls i) c L)
    (hfit : (Answer.known (history_facts hs.schema (by decide) (import_history h hi hch hu hup hsc htok).1) hs
      (import_history h hi hch hu hup hsc htok).2).Fits d (Aql.alternatives e) Ls)
    {order : ResultOrder} (hor : order = .normal ∨ order = .inverted) {offset : Nat} {limit : Option Nat} {page : List Str}
    (hfind : Answer.FindAll Er doc d text [Answer.corpusOf s g] order offset limit page) :
    ∃ rows : List (List Answer.NMatch), rows.Nodup ∧ (∀ row, row ∈ rows ↔ ∃ i, Answer.Names.AnswersAlt s.sc s.env s.cname s.part s.segc
        (· ∈ g.comps.keys) (graphOf l) (Answer.nameMatch nameKey g d) (Aql.alternatives e) Ls i row) ∧
      page = slice (rows.map (Answer.Names.idOf Ls)) offset limit :=
  Answer.C113_find_partial (import_history h hi hch hu hup hsc htok).1 (by decide) hs (import_history h hi hch hu hup hsc htok).2 ht hok hfit hor hfind

end

end Rel
