import Verif.Rel.Rank

/-!
# Coverage edges after an import (C83)
-/

set_option linter.unusedSimpArgs false
set_option linter.unusedSectionVars false

namespace Rel

open Spec

namespace Spec

/-- The index of a token. -/
def tokenIndex (r : NodeRow) : Option Nat :=
  match r.kind with
  | .tok i _ => some i
  | _ => none

/-- Both rows are in the same text of the same document. -/
def SameText (a b : NodeRow) : Prop := a.corpus = b.corpus ∧ a.text = b.text

/-- The tokens of each text are numbered without gaps in the order of their positions. -/
structure Tokens (t : Tables) : Prop where
  segs : ∀ r ∈ t.nodes, ∀ i s, r.kind ≠ .seg [] i s
  order : ∀ a ∈ t.nodes, ∀ b ∈ t.nodes, SameText a b → ∀ i j, tokenIndex a = some i → tokenIndex b = some j → i < j →
    a.la < b.la ∧ a.ra < b.ra
  gaps : ∀ a ∈ t.nodes, ∀ b ∈ t.nodes, SameText a b → ∀ i j, tokenIndex a = some i → tokenIndex b = some j → ∀ k, i ≤ k → k ≤ j →
    ∃ c ∈ t.nodes, SameText c a ∧ tokenIndex c = some k

/-- A token starts (ends) where the span starts (ends). -/
def StartsAligned (t : Tables) (a : NodeRow) : Prop := ∃ l ∈ t.nodes, SameText l a ∧ (tokenIndex l).isSome ∧ l.la = a.la
def EndsAligned (t : Tables) (a : NodeRow) : Prop := ∃ r ∈ t.nodes, SameText r a ∧ (tokenIndex r).isSome ∧ r.ra = a.ra

/-- The span `a` covers the token `b` according to their positions.  A span which is aligned with a token only at one end covers
only this token. -/
def Spans (t : Tables) (a b : NodeRow) : Prop :=
  tokenIndex a = none ∧ (tokenIndex b).isSome ∧ SameText a b ∧
    ((StartsAligned t a ∧ EndsAligned t a ∧ a.la ≤ b.la ∧ b.ra ≤ a.ra) ∨
      (¬ EndsAligned t a ∧ b.la = a.la) ∨ (¬ StartsAligned t a ∧ b.ra = a.ra))

/-- The rank table has a coverage edge between both. -/
def Explicit (t : Tables) (a b : NodeRow) : Prop := ∃ layer g, InRank t (comp .coverage layer g) a b

/-- The rank table has a row for the node in the coverage component `k`, but without parent. -/
def Parentless (t : Tables) (a : NodeRow) (k : CompRow) : Prop :=
  ∃ r ∈ t.ranks, r.node = a.id ∧ r.parent = none ∧ k ∈ t.comps ∧ r.comp = k.id ∧ k.type = .coverage

/-- The component for the additional coverage edges of a span. -/
def AutoComp (t : Tables) (a : NodeRow) (c : CKey Str) : Prop :=
  if ∃ r ∈ t.ranks, ∃ q ∈ t.ranks, ∃ k ∈ t.comps, r.parent = some q.pre ∧ q.node = a.id ∧ r.comp = k.id ∧ k.type = .coverage then
    c = comp .coverage "annis".toList "autogenerated-coverage".toList
  else (∃ k, Parentless t a k ∧ c = comp .coverage k.layer k.name) ∨ ((∀ k, ¬ Parentless t a k) ∧ c = comp .coverage [] [])

/-- A node is listed without parent in at most one coverage component. -/
def OneParentless (t : Tables) : Prop := ∀ a ∈ t.nodes, ∀ k k', Parentless t a k → Parentless t a k' → k = k'

end Spec

/-- All tokens from `i` on exist: the loop adds an edge to each of them (except the node itself and those which are covered
already). -/
theorem covLoop_iff {res : RankResult} {names : OMap Nat Str} {index : OMap TProp Nat} {n corpus text : Nat} {sn : Str}
    (hn : names.get n = some sn) : ∀ {k i : Nat} (_ : ∀ j, i ≤ j → j < i + k → ∃ t tn, index.get (tprop [] corpus text j) = some t ∧
      names.get t = some tn) {e : Ev}, e ∈ covLoop res names index n corpus text i k ↔ ∃ j t tn, i ≤ j ∧ j < i + k ∧
      index.get (tprop [] corpus text j) = some t ∧ n ≠ t ∧ (n, t) ∉ res.cov ∧ names.get t = some tn ∧ e = .addEdge sn tn (covComp res n)
  | 0, i, _, e => by
    simp only [covLoop, List.not_mem_nil, false_iff]
    rintro ⟨j, _, _, h1, h2, _⟩
    omega
  | k + 1, i, hall, e => by
    obtain ⟨t, tn, ht, htn⟩ := hall i (le_refl _) (by omega)
    have ih := covLoop_iff (res := res) hn (k := k) (i := i + 1) (fun j h1 h2 => hall j (by omega) (by omega)) (e := e)
    unfold covLoop
    rw [ht]
    simp only
    have key : (∃ j t tn, i ≤ j ∧ j < i + (k + 1) ∧ index.get (tprop [] corpus text j) = some t ∧ n ≠ t ∧ (n, t) ∉ res.cov ∧
        names.get t = some tn ∧ e = .addEdge sn tn (covComp res n)) ↔ ((n ≠ t ∧ (n, t) ∉ res.cov) ∧ e = .addEdge sn tn (covComp res n)) ∨
        ∃ j t tn, i + 1 ≤ j ∧ j < i + 1 + k ∧ index.get (tprop [] corpus text j) = some t ∧ n ≠ t ∧ (n, t) ∉ res.cov ∧
        names.get t = some tn ∧ e = .addEdge sn tn (covComp res n) := by
      constructor
      · rintro ⟨j, t', tn', h1, h2, h3, h4, h5, h6, h7⟩
        by_cases hj : j = i
        · subst hj
          rw [ht, Option.some.injEq] at h3
          subst h3
          rw [htn, Option.some.injEq] at h6
          subst h6
          exact Or.inl ⟨⟨h4, h5⟩, h7⟩
        · exact Or.inr ⟨j, t', tn', by omega, by omega, h3, h4, h5, h6, h7⟩
      · rintro (⟨⟨h1, h2⟩, h3⟩ | ⟨j, t', tn', h1, h2, h3⟩)
        · exact ⟨i, t, tn, le_refl _, by omega, ht, h1, h2, htn, h3⟩
        · exact ⟨j, t', tn', by omega, by omega, h3⟩
    rw [key]
    split_ifs with hc
    · simp only [hn, htn, List.mem_cons]
      rw [ih]
      exact or_congr (by simp only [hc, not_false_eq_true, ne_eq, and_self, true_and]) Iff.rfl
    · rw [ih]
      constructor
      · exact Or.inr
      · rintro (⟨h, _⟩ | h)
        · exact absurd h hc
        · exact h

section
variable {ext : Option Str → List (Str × Str)} {t : Tables} {p : Parts}

theorem tokenIndex_kind {r : NodeRow} {i : Nat} (h : tokenIndex r = some i) : ∃ s, r.kind = .tok i s := by
  unfold tokenIndex at h
  cases hk : r.kind with
  | tok j s => rw [hk] at h; cases h; exact ⟨s, rfl⟩
  | seg g j s => rw [hk] at h; cases h
  | plain => rw [hk] at h; cases h

theorem position_token (ht : Tokens t) {r : NodeRow} (hr : r ∈ t.nodes) {i : Nat} : position r = some ([], i) ↔ tokenIndex r = some i := by
  unfold position tokenIndex
  cases hk : r.kind with
  | tok j s => simp
  | seg g j s =>
    simp only [Option.some.injEq, Prod.mk.injEq, reduceCtorEq, iff_false, not_and]
    rintro rfl
    exact absurd hk (ht.segs r hr j s)
  | plain => simp

theorem index_token (hu : Unique t) (ht : Tokens t) {c x i id : Nat} : (tokByIndex t.nodes).get (tprop [] c x i) = some id ↔
    ∃ r ∈ t.nodes, r.id = id ∧ tokenIndex r = some i ∧ r.corpus = c ∧ r.text = x := by
  rw [index_get hu]
  constructor
  · rintro ⟨r, hr, h1, h2⟩
    rw [placeOf_eq] at h2
    exact ⟨r, hr, h1, (position_token ht hr).1 h2.1, h2.2⟩
  · rintro ⟨r, hr, h1, h2, h3⟩
    exact ⟨r, hr, h1, placeOf_eq.2 ⟨(position_token ht hr).2 h2, h3⟩⟩

/-- Two tokens with the same index in the same text are the same. -/
theorem token_eq (hu : Unique t) {a b : NodeRow} (ha : a ∈ t.nodes) (hb : b ∈ t.nodes) (hs : SameText a b) {i : Nat}
    (h1 : tokenIndex a = some i) (h2 : tokenIndex b = some i) : a = b := by
  obtain ⟨s, h1⟩ := tokenIndex_kind h1
  obtain ⟨s', h2⟩ := tokenIndex_kind h2
  exact hu.positions a ha b hb ([], i) hs.1 hs.2 (by simp [position, h1]) (by simp [position, h2])

theorem token_la (hu : Unique t) (ht : Tokens t) {a b : NodeRow} (ha : a ∈ t.nodes) (hb : b ∈ t.nodes) (hs : SameText a b) {i j : Nat}
    (h1 : tokenIndex a = some i) (h2 : tokenIndex b = some j) : (i < j ↔ a.la < b.la) ∧ (i < j ↔ a.ra < b.ra) := by
  rcases Nat.lt_trichotomy i j with h | h | h
  · have := ht.order a ha b hb hs i j h1 h2 h
    omega
  · subst h
    have := token_eq hu ha hb hs h1 h2
    subst this
    omega
  · have := ht.order b hb a ha ⟨hs.1.symm, hs.2.symm⟩ j i h2 h1 h
    omega

theorem Spec.SameText.symm' {a b : NodeRow} (h : SameText a b) : SameText b a := ⟨h.1.symm, h.2.symm⟩
theorem Spec.SameText.trans' {a b c : NodeRow} (h : SameText a b) (h' : SameText b c) : SameText a c := ⟨h.1.trans h'.1, h.2.trans h'.2⟩

theorem byLeft_get (hu : Unique t) (ht : Tokens t) {c x v id : Nat} : (tokByLeft t.nodes).get (tprop [] c x v) = some id ↔
    ∃ r ∈ t.nodes, r.id = id ∧ (tokenIndex r).isSome ∧ r.corpus = c ∧ r.text = x ∧ r.la = v := by
  have hf : tokByLeft t.nodes = collect (fun r => (tokenIndex r).map fun _ => (tprop [] r.corpus r.text r.la, r.id)) t.nodes := by
    unfold tokByLeft
    congr 1
    funext r
    unfold tokenIndex
    cases r.kind <;> rfl
  rw [hf]
  constructor
  · intro h
    obtain ⟨r, hr, e⟩ := of_get_collect h
    rw [Option.map_eq_some_iff] at e
    obtain ⟨i, h1, h2⟩ := e
    simp only [Prod.mk.injEq] at h2
    obtain ⟨_, e1, e2, e3⟩ := tprop_inj h2.1
    exact ⟨r, hr, h2.2, by rw [h1]; rfl, e1, e2, e3⟩
  · rintro ⟨r, hr, rfl, h1, rfl, rfl, rfl⟩
    obtain ⟨i, hi⟩ := Option.isSome_iff_exists.1 h1
    refine get_collect hr (by rw [hi]; rfl) ?_
    intro r' hr' w hw
    rw [Option.map_eq_some_iff] at hw
    obtain ⟨j, hj, h2⟩ := hw
    simp only [Prod.mk.injEq] at h2
    obtain ⟨_, e1, e2, e3⟩ := tprop_inj h2.1
    have hl := (token_la hu ht hr' hr ⟨e1, e2⟩ hj hi).1
    have hl' := (token_la hu ht hr hr' ⟨e1.symm, e2.symm⟩ hi hj).1
    have : i = j := by omega
    subst this
    rw [← h2.2, token_eq hu hr' hr ⟨e1, e2⟩ hj hi]

theorem byRight_get (hu : Unique t) (ht : Tokens t) {c x v id : Nat} : (tokByRight t.nodes).get (tprop [] c x v) = some id ↔
    ∃ r ∈ t.nodes, r.id = id ∧ (tokenIndex r).isSome ∧ r.corpus = c ∧ r.text = x ∧ r.ra = v := by
  have hf : tokByRight t.nodes = collect (fun r => (tokenIndex r).map fun _ => (tprop [] r.corpus r.text r.ra, r.id)) t.nodes := by
    unfold tokByRight
    congr 1
    funext r
    unfold tokenIndex
    cases r.kind <;> rfl
  rw [hf]
  constructor
  · intro h
    obtain ⟨r, hr, e⟩ := of_get_collect h
    rw [Option.map_eq_some_iff] at e
    obtain ⟨i, h1, h2⟩ := e
    simp only [Prod.mk.injEq] at h2
    obtain ⟨_, e1, e2, e3⟩ := tprop_inj h2.1
    exact ⟨r, hr, h2.2, by rw [h1]; rfl, e1, e2, e3⟩
  · rintro ⟨r, hr, rfl, h1, rfl, rfl, rfl⟩
    obtain ⟨i, hi⟩ := Option.isSome_iff_exists.1 h1
    refine get_collect hr (by rw [hi]; rfl) ?_
    intro r' hr' w hw
    rw [Option.map_eq_some_iff] at hw
    obtain ⟨j, hj, h2⟩ := hw
    simp only [Prod.mk.injEq] at h2
    obtain ⟨_, e1, e2, e3⟩ := tprop_inj h2.1
    have hl := (token_la hu ht hr' hr ⟨e1, e2⟩ hj hi).2
    have hl' := (token_la hu ht hr hr' ⟨e1.symm, e2.symm⟩ hi hj).2
    have : i = j := by omega
    subst this
    rw [← h2.2, token_eq hu hr' hr ⟨e1, e2⟩ hj hi]

theorem toIndex_get (hu : Unique t) {r : NodeRow} (hr : r ∈ t.nodes) :
    (tokToIndex t.nodes).get r.id = (tokenIndex r).map fun i => tprop [] r.corpus r.text i := by
  have hf : tokToIndex t.nodes = collect (fun r => (tokenIndex r).map fun i => (r.id, tprop [] r.corpus r.text i)) t.nodes := by
    unfold tokToIndex
    congr 1
    funext r
    unfold tokenIndex
    cases r.kind <;> rfl
  rw [hf]
  cases hi : tokenIndex r with
  | none =>
    refine get_collect_none ?_
    intro r' hr' v e
    rw [Option.map_eq_some_iff] at e
    obtain ⟨i, h1, h2⟩ := e
    simp only [Prod.mk.injEq] at h2
    rw [hu.eq_of_id hr' hr h2.1, hi] at h1
    cases h1
  | some i =>
    refine get_collect hr (by rw [hi]; rfl) ?_
    intro r' hr' w e
    rw [Option.map_eq_some_iff] at e
    obtain ⟨j, h1, h2⟩ := e
    simp only [Prod.mk.injEq] at h2
    rw [hu.eq_of_id hr' hr h2.1, hi] at h1
    cases h1
    rw [← h2.2, hu.eq_of_id hr' hr h2.1]

theorem toLeft_get (hu : Unique t) {r : NodeRow} (hr : r ∈ t.nodes) :
    (nodeToLeft t.nodes).get r.id = some (tprop [] r.corpus r.text r.la) :=
  get_collect hr rfl fun r' hr' w e => by
    simp only [Option.some.injEq, Prod.mk.injEq] at e
    rw [← e.2, hu.eq_of_id hr' hr e.1]

theorem toRight_get (hu : Unique t) {r : NodeRow} (hr : r ∈ t.nodes) :
    (nodeToRight t.nodes).get r.id = some (tprop [] r.corpus r.text r.ra) :=
  get_collect hr rfl fun r' hr' w e => by
    simp only [Option.some.injEq, Prod.mk.injEq] at e
    rw [← e.2, hu.eq_of_id hr' hr e.1]

/-- The range between two tokens of the same text. -/
theorem covRange (hp : p.Of ext t) (hu : Unique t) (ht : Tokens t) {a l r : NodeRow} (ha : a ∈ t.nodes) (hl : l ∈ t.nodes) (hr : r ∈ t.nodes)
    (hla : SameText l a) (hra : SameText r a) {i j : Nat} (hi : tokenIndex l = some i) (hj : tokenIndex r = some j) {res : RankResult} {e : Ev} :
    e ∈ covLoop res (nodeNames p.ns) (tokByIndex t.nodes) a.id l.corpus l.text i (j + 1 - i) ↔
      ∃ b ∈ t.nodes, SameText a b ∧ (∃ k, tokenIndex b = some k ∧ i ≤ k ∧ k ≤ j) ∧ a ≠ b ∧ (a.id, b.id) ∉ res.cov ∧
        e = .addEdge (nm p.T a) (nm p.T b) (covComp res a.id) := by
  rw [covLoop_iff (names_get hp hu ha)]
  · constructor
    · rintro ⟨k, id, tn, h1, h2, h3, h4, h5, h6, h7⟩
      obtain ⟨b, hb, rfl, hbk, e1, e2⟩ := (index_token hu ht).1 h3
      rw [names_get hp hu hb, Option.some.injEq] at h6
      subst h6
      refine ⟨b, hb, ⟨hla.1.symm.trans e1.symm, hla.2.symm.trans e2.symm⟩, ⟨k, hbk, h1, by omega⟩, ?_, h5, h7⟩
      rintro rfl
      exact h4 rfl
    · rintro ⟨b, hb, hab, ⟨k, hk, h1, h2⟩, h3, h4, h5⟩
      refine ⟨k, b.id, nm p.T b, h1, by omega, (index_token hu ht).2 ⟨b, hb, rfl, hk, hab.1.symm.trans hla.1.symm, hab.2.symm.trans hla.2.symm⟩, ?_, h4,
        names_get hp hu hb, h5⟩
      intro e'
      exact h3 (hu.eq_of_id ha hb e')
  · intro k h1 h2
    obtain ⟨c, hc, hs, hk⟩ := ht.gaps l hl r hr (hla.trans' hra.symm') i j hi hj k h1 (by omega)
    exact ⟨c.id, nm p.T c, (index_token hu ht).2 ⟨c, hc, rfl, hk, hs.1, hs.2⟩, names_get hp hu hc⟩

theorem covEvents_iff (hp : p.Of ext t) (hu : Unique t) (ht : Tokens t) {a : NodeRow} (ha : a ∈ t.nodes) (hn : tokenIndex a = none)
    {res : RankResult} {e : Ev} : e ∈ covEvents t.nodes res (nodeNames p.ns) a.id ↔
      ∃ b ∈ t.nodes, Spans t a b ∧ (a.id, b.id) ∉ res.cov ∧ e = .addEdge (nm p.T a) (nm p.T b) (covComp res a.id) := by
  have hne : ∀ {b : NodeRow} {k : Nat}, tokenIndex b = some k → a ≠ b := by
    rintro b k hk rfl
    rw [hn] at hk
    cases hk
  unfold covEvents aligned
  simp only [toLeft_get hu ha, toRight_get hu ha, Option.bind_eq_bind, Option.bind_some]
  have noL : (tokByLeft t.nodes).get (tprop [] a.corpus a.text a.la) = none → ¬ StartsAligned t a := by
    rintro h ⟨l, hl, hs, h1, h2⟩
    have := (byLeft_get hu ht).2 ⟨l, hl, rfl, h1, hs.1, hs.2, h2⟩
    rw [h] at this
    cases this
  have noR : (tokByRight t.nodes).get (tprop [] a.corpus a.text a.ra) = none → ¬ EndsAligned t a := by
    rintro h ⟨l, hl, hs, h1, h2⟩
    have := (byRight_get hu ht).2 ⟨l, hl, rfl, h1, hs.1, hs.2, h2⟩
    rw [h] at this
    cases this
  cases hL : (tokByLeft t.nodes).get (tprop [] a.corpus a.text a.la) with
  | none =>
    cases hR : (tokByRight t.nodes).get (tprop [] a.corpus a.text a.ra) with
    | none =>
      simp only [List.not_mem_nil, false_iff]
      rintro ⟨b, hb, ⟨_, h1, h2, ⟨h3, _⟩ | ⟨_, h3⟩ | ⟨_, h3⟩⟩, _⟩
      · exact noL hL h3
      · exact noL hL ⟨b, hb, h2.symm', h1, h3⟩
      · exact noR hR ⟨b, hb, h2.symm', h1, h3⟩
    | some rid =>
      obtain ⟨r, hr, rfl, h1, h2, h3, h4⟩ := (byRight_get hu ht).1 hR
      obtain ⟨j, hj⟩ := Option.isSome_iff_exists.1 h1
      have hra : SameText r a := ⟨h2, h3⟩
      simp only [toIndex_get hu hr, hj, Option.map_some]
      rw [show (tprop [] r.corpus r.text j).corpus = r.corpus from rfl, show (tprop [] r.corpus r.text j).text = r.text from rfl,
        show (tprop [] r.corpus r.text j).val = j from rfl, covRange hp hu ht ha hr hr hra hra hj hj]
      constructor
      · rintro ⟨b, hb, hab, ⟨k, hk, k1, k2⟩, _, h5, h6⟩
        have : k = j := by omega
        subst this
        have e' := token_eq hu hb hr (hab.symm'.trans' hra.symm') hk hj
        subst e'
        exact ⟨b, hb, ⟨hn, h1, hab, Or.inr (Or.inr ⟨noL hL, h4⟩)⟩, h5, h6⟩
      · rintro ⟨b, hb, ⟨_, h5, h6, h7⟩, h8, h9⟩
        obtain ⟨k, hk⟩ := Option.isSome_iff_exists.1 h5
        have hbr : b.ra = r.ra := by
          rcases h7 with ⟨h7, _⟩ | ⟨h7, _⟩ | ⟨_, h7⟩
          · exact absurd h7 (noL hL)
          · exact absurd ⟨r, hr, hra, h1, h4⟩ h7
          · rw [h7, h4]
        have m1 := (token_la hu ht hb hr (h6.symm'.trans' hra.symm') hk hj).2
        have m2 := (token_la hu ht hr hb (hra.trans' h6) hj hk).2
        exact ⟨b, hb, h6, ⟨k, hk, by omega, by omega⟩, hne hk, h8, h9⟩
  | some lid =>
    obtain ⟨l, hl, rfl, h1, h2, h3, h4⟩ := (byLeft_get hu ht).1 hL
    obtain ⟨i, hi⟩ := Option.isSome_iff_exists.1 h1
    have hla : SameText l a := ⟨h2, h3⟩
    have hSA : StartsAligned t a := ⟨l, hl, hla, h1, h4⟩
    cases hR : (tokByRight t.nodes).get (tprop [] a.corpus a.text a.ra) with
    | none =>
      simp only [toIndex_get hu hl, hi, Option.map_some]
      rw [show (tprop [] l.corpus l.text i).corpus = l.corpus from rfl, show (tprop [] l.corpus l.text i).text = l.text from rfl,
        show (tprop [] l.corpus l.text i).val = i from rfl, covRange hp hu ht ha hl hl hla hla hi hi]
      constructor
      · rintro ⟨b, hb, hab, ⟨k, hk, k1, k2⟩, _, h5, h6⟩
        have : k = i := by omega
        subst this
        have e' := token_eq hu hb hl (hab.symm'.trans' hla.symm') hk hi
        subst e'
        exact ⟨b, hb, ⟨hn, h1, hab, Or.inr (Or.inl ⟨noR hR, h4⟩)⟩, h5, h6⟩
      · rintro ⟨b, hb, ⟨_, h5, h6, h7⟩, h8, h9⟩
        obtain ⟨k, hk⟩ := Option.isSome_iff_exists.1 h5
        have hbr : b.la = l.la := by
          rcases h7 with ⟨_, h7, _⟩ | ⟨_, h7⟩ | ⟨h7, _⟩
          · exact absurd h7 (noR hR)
          · rw [h7, h4]
          · exact absurd hSA h7
        have m1 := (token_la hu ht hb hl (h6.symm'.trans' hla.symm') hk hi).1
        have m2 := (token_la hu ht hl hb (hla.trans' h6) hi hk).1
        exact ⟨b, hb, h6, ⟨k, hk, by omega, by omega⟩, hne hk, h8, h9⟩
    | some rid =>
      obtain ⟨r, hr, rfl, h1', h2', h3', h4'⟩ := (byRight_get hu ht).1 hR
      obtain ⟨j, hj⟩ := Option.isSome_iff_exists.1 h1'
      have hra : SameText r a := ⟨h2', h3'⟩
      have hEA : EndsAligned t a := ⟨r, hr, hra, h1', h4'⟩
      simp only [toIndex_get hu hl, toIndex_get hu hr, hi, hj, Option.map_some]
      rw [show (tprop [] l.corpus l.text i).corpus = l.corpus from rfl, show (tprop [] l.corpus l.text i).text = l.text from rfl,
        show (tprop [] l.corpus l.text i).val = i from rfl, show (tprop [] r.corpus r.text j).val = j from rfl,
        covRange hp hu ht ha hl hr hla hra hi hj]
      constructor
      · rintro ⟨b, hb, hab, ⟨k, hk, k1, k2⟩, _, h5, h6⟩
        have m1 := (token_la hu ht hb hl (hab.symm'.trans' hla.symm') hk hi).1
        have m2 := (token_la hu ht hr hb (hra.trans' hab) hj hk).2
        exact ⟨b, hb, ⟨hn, by rw [hk]; rfl, hab, Or.inl ⟨hSA, hEA, by omega, by omega⟩⟩, h5, h6⟩
      · rintro ⟨b, hb, ⟨_, h5, h6, h7⟩, h8, h9⟩
        obtain ⟨k, hk⟩ := Option.isSome_iff_exists.1 h5
        have hbr : a.la ≤ b.la ∧ b.ra ≤ a.ra := by
          rcases h7 with ⟨_, _, h7⟩ | ⟨h7, _⟩ | ⟨h7, _⟩
          · exact h7
          · exact absurd hEA h7
          · exact absurd hSA h7
        have m1 := (token_la hu ht hb hl (h6.symm'.trans' hla.symm') hk hi).1
        have m2 := (token_la hu ht hr hb (hra.trans' h6) hj hk).2
        exact ⟨b, hb, h6, ⟨k, hk, by omega, by omega⟩, hne hk, h8, h9⟩

theorem cov_mem (hu : Unique t) {a b : NodeRow} : (a.id, b.id) ∈ (rankResult (compTable t.comps) t.ranks).cov ↔ Explicit t a b := by
  unfold rankResult Explicit InRank
  simp only [List.mem_filterMap]
  constructor
  · rintro ⟨r, hr, h⟩
    cases hx : rankEdge (preToNode t.ranks) (compTable t.comps) r with
    | none => rw [hx] at h; cases h
    | some w =>
      obtain ⟨s, c⟩ := w
      rw [hx] at h
      simp only at h
      split_ifs at h with hc
      simp only [Option.some.injEq, Prod.mk.injEq] at h
      obtain ⟨q, hq, h1, h2, h3, h4⟩ := (rankEdge_iff hu hr).1 hx
      exact ⟨c.layer, c.name, r, hr, q, hq, c, h3, h1, h2.trans h.1, h.2, h4, by rw [hc]⟩
  · rintro ⟨layer, g, r, hr, q, hq, c, hc, h1, h2, h3, h4, h5⟩
    refine ⟨r, hr, ?_⟩
    rw [(rankEdge_iff hu hr).2 ⟨q, hq, h1, h2, hc, h4⟩]
    simp only
    rw [if_pos (comp_inj h5).1.symm, h3]

theorem covComp_iff (hu : Unique t) (ho : OneParentless t) {a : NodeRow} (ha : a ∈ t.nodes) (c : CKey Str) :
    covComp (rankResult (compTable t.comps) t.ranks) a.id = some c ↔ AutoComp t a c := by
  have hany : ((rankResult (compTable t.comps) t.ranks).cov.any fun e => e.1 == a.id) = true ↔
      ∃ r ∈ t.ranks, ∃ q ∈ t.ranks, ∃ k ∈ t.comps, r.parent = some q.pre ∧ q.node = a.id ∧ r.comp = k.id ∧ k.type = .coverage := by
    unfold rankResult
    simp only [List.any_eq_true, List.mem_filterMap, beq_iff_eq]
    constructor
    · rintro ⟨e, ⟨r, hr, h⟩, he⟩
      cases hx : rankEdge (preToNode t.ranks) (compTable t.comps) r with
      | none => rw [hx] at h; cases h
      | some w =>
        obtain ⟨s, c⟩ := w
        rw [hx] at h
        simp only at h
        split_ifs at h with hc
        simp only [Option.some.injEq] at h
        obtain ⟨q, hq, h1, h2, h3, h4⟩ := (rankEdge_iff hu hr).1 hx
        exact ⟨r, hr, q, hq, c, h3, h1, by rw [h2, ← he, ← h], h4, hc⟩
    · rintro ⟨r, hr, q, hq, c, hc, h1, h2, h3, h4⟩
      refine ⟨(a.id, r.node), ⟨r, hr, ?_⟩, rfl⟩
      rw [(rankEdge_iff hu hr).2 ⟨q, hq, h1, h2, hc, h3⟩]
      simp only
      rw [if_pos h4]
  have hpl : ∀ k, (rankResult (compTable t.comps) t.ranks).parentless.get a.id = some k ↔ Parentless t a k := by
    have cget : ∀ {i : Nat} {k : CompRow}, (compTable t.comps).get i = some k ↔ k ∈ t.comps ∧ i = k.id := by
      intro i k
      constructor
      · intro h
        obtain ⟨k', hk', e⟩ := of_get_collect h
        simp only [Option.some.injEq, Prod.mk.injEq] at e
        rw [← e.2]
        exact ⟨hk', e.1.symm⟩
      · rintro ⟨hk, rfl⟩
        refine get_collect hk rfl ?_
        intro k' hk' w e
        simp only [Option.some.injEq, Prod.mk.injEq] at e
        rw [← e.2]
        exact List.inj_on_of_nodup_map hu.comps hk' hk e.1
    have hone : ∀ r ∈ t.ranks, ∀ v, (match r.parent, (compTable t.comps).get r.comp with
        | none, some c => if c.type = .coverage then some (r.node, c) else none
        | _, _ => none) = some (a.id, v) → Parentless t a v := by
      intro r hr v h
      cases hq : r.parent with
      | some _ => rw [hq] at h; cases h
      | none =>
        cases hc : (compTable t.comps).get r.comp with
        | none => rw [hq, hc] at h; cases h
        | some c =>
          rw [hq, hc] at h
          simp only at h
          split_ifs at h with ht
          simp only [Option.some.injEq, Prod.mk.injEq] at h
          obtain ⟨h1, rfl⟩ := h
          obtain ⟨h2, h3⟩ := cget.1 hc
          exact ⟨r, hr, h1, hq, h2, h3, ht⟩
    intro k
    unfold rankResult
    simp only
    constructor
    · intro h
      obtain ⟨r, hr, e⟩ := of_get_collect h
      exact hone r hr k e
    · intro h
      obtain ⟨r, hr, h1, h2, h3, h4, h5⟩ := h
      refine get_collect hr (by rw [h2, cget.2 ⟨h3, h4⟩]; simp only; rw [if_pos h5, h1]) ?_
      intro r' hr' w hw
      exact ho a ha w k (hone r' hr' w hw) ⟨r, hr, h1, h2, h3, h4, h5⟩
  unfold covComp AutoComp
  by_cases h : ∃ r ∈ t.ranks, ∃ q ∈ t.ranks, ∃ k ∈ t.comps, r.parent = some q.pre ∧ q.node = a.id ∧ r.comp = k.id ∧ k.type = .coverage
  · rw [if_pos h, if_pos (hany.2 h), compOf_eq, Option.some.injEq]
    exact eq_comm
  · rw [if_neg h, if_neg (fun h' => h (hany.1 h'))]
    cases hg : (rankResult (compTable t.comps) t.ranks).parentless.get a.id with
    | none =>
      have hno : ∀ k, ¬ Parentless t a k := fun k hk => by
        rw [(hpl k).2 hk] at hg
        cases hg
      simp only
      rw [compOf_eq, Option.some.injEq]
      constructor
      · intro e; exact Or.inr ⟨hno, e.symm⟩
      · rintro (⟨k, hk, _⟩ | ⟨_, e⟩)
        · exact absurd hk (hno k)
        · exact e.symm
    | some k =>
      have hk := (hpl k).1 hg
      simp only
      rw [compOf_eq, Option.some.injEq]
      constructor
      · intro e; exact Or.inl ⟨k, hk, e.symm⟩
      · rintro (⟨k', hk', e⟩ | ⟨hno, _⟩)
        · rw [ho a ha k k' hk hk', e]
        · exact absurd hk (hno k)

theorem cov_iff (hp : p.Of ext t) (hu : Unique t) (ht : Tokens t) (ho : OneParentless t) (x y : Str) (c : CKey Str) :
    (Event.addEdge x y (some c) : Ev) ∈ p.cov ↔ ∃ a ∈ t.nodes, ∃ b ∈ t.nodes, x = nm p.T a ∧ y = nm p.T b ∧
      Spans t a b ∧ ¬ Explicit t a b ∧ AutoComp t a c := by
  rw [hp.cov]
  unfold addCoverage
  rw [List.mem_flatMap]
  constructor
  · rintro ⟨⟨i, q⟩, hm, he⟩
    obtain ⟨a, ha, e⟩ := of_get_collect (mem_collect.1 hm)
    simp only [Option.some.injEq, Prod.mk.injEq] at e
    obtain ⟨rfl, rfl⟩ := e
    simp only at he
    split_ifs at he with hc
    · have hn : tokenIndex a = none := by
        have := hc.2
        rw [toIndex_get hu ha, Option.map_eq_none_iff] at this
        exact this
      obtain ⟨b, hb, h1, h2, h3⟩ := (covEvents_iff hp hu ht ha hn).1 he
      simp only [Event.addEdge.injEq] at h3
      obtain ⟨rfl, rfl, h3⟩ := h3
      exact ⟨a, ha, b, hb, rfl, rfl, h1, fun h => h2 ((cov_mem hu).2 h), (covComp_iff hu ho ha c).1 h3.symm⟩
    · cases he
  · rintro ⟨a, ha, b, hb, rfl, rfl, h1, h2, h3⟩
    refine ⟨(a.id, tprop [] a.corpus a.text a.la), mem_collect.2 (toLeft_get hu ha), ?_⟩
    simp only
    rw [if_pos ⟨rfl, by rw [toIndex_get hu ha, h1.1]; rfl⟩]
    exact (covEvents_iff hp hu ht ha h1.1).2 ⟨b, hb, h1, fun h => h2 ((cov_mem hu).1 h), by rw [(covComp_iff hu ho ha c).2 h3]⟩

end

/-- C83: in the imported graph the edges of a coverage component are those which the rank table gives for this component, and for
each other pair of a span and a token that the span covers by its positions, an edge in the component for the additional edges of
this span. -/
theorem C83_coverage_partial {ext : Option Str → List (Str × Str)} {t : Tables} {name : Str} {evs : List Ev}
    (h : importEvents ext t = some (name, evs)) (hu : Unique t) (ht : Tokens t) (ho : OneParentless t) :
    ∃ T, parseCorpus t.corpora = some T ∧
      ∀ layer g x y, (graphOf evs).edge (comp .coverage layer g) x y = true ↔ x ≠ y ∧
        ∃ a ∈ t.nodes, ∃ b ∈ t.nodes, x = nm T a ∧ y = nm T b ∧ (InRank t (comp .coverage layer g) a b ∨
          (Spans t a b ∧ ¬ Explicit t a b ∧ AutoComp t a (comp .coverage layer g))) := by
  obtain ⟨p, hp, rfl, rfl⟩ := importEvents_parts h
  refine ⟨p.T, hp.T, ?_⟩
  intro layer g x y
  rw [hp.edge (by rw [← compOf_eq]; intro e; exact absurd (compOf_inj e).1 (by decide)), ord_iff hp hu, rank_iff hp hu, cov_iff hp hu ht ho]
  constructor
  · rintro ⟨⟨g', e, _⟩ | ⟨a, ha, b, hb, hx, hy, hr⟩ | ⟨a, ha, b, hb, hx, hy, hr⟩, hne⟩
    · exact absurd (comp_inj e).1 (by decide)
    · exact ⟨hne, a, ha, b, hb, hx, hy, Or.inl hr⟩
    · exact ⟨hne, a, ha, b, hb, hx, hy, Or.inr hr⟩
  · rintro ⟨hne, a, ha, b, hb, hx, hy, hr | hr⟩
    · exact ⟨Or.inr (Or.inl ⟨a, ha, b, hb, hx, hy, hr⟩), hne⟩
    · exact ⟨Or.inr (Or.inr ⟨a, ha, b, hb, hx, hy, hr⟩), hne⟩

theorem autoComp_exists (t : Tables) (a : NodeRow) : ∃ layer g, AutoComp t a (comp .coverage layer g) := by
  unfold AutoComp
  split_ifs
  · exact ⟨_, _, rfl⟩
  · by_cases hk : ∃ k, Parentless t a k
    · obtain ⟨k, hk⟩ := hk
      exact ⟨k.layer, k.name, Or.inl ⟨k, hk, rfl⟩⟩
    · exact ⟨[], [], Or.inr ⟨fun k h => hk ⟨k, h⟩, rfl⟩⟩

/-- C83: all coverage components together: a span covers exactly the tokens at its positions and those of the rank table. -/
theorem C83_covered_partial {ext : Option Str → List (Str × Str)} {t : Tables} {name : Str} {evs : List Ev}
    (h : importEvents ext t = some (name, evs)) (hu : Unique t) (ht : Tokens t) (ho : OneParentless t) :
    ∃ T, parseCorpus t.corpora = some T ∧
      ∀ x y, (∃ layer g, (graphOf evs).edge (comp .coverage layer g) x y = true) ↔ x ≠ y ∧
        ∃ a ∈ t.nodes, ∃ b ∈ t.nodes, x = nm T a ∧ y = nm T b ∧ (Explicit t a b ∨ Spans t a b) := by
  obtain ⟨T, hT, hc⟩ := C83_coverage_partial h hu ht ho
  refine ⟨T, hT, ?_⟩
  intro x y
  constructor
  · rintro ⟨layer, g, he⟩
    obtain ⟨hne, a, ha, b, hb, hx, hy, hr | ⟨hr, _⟩⟩ := (hc layer g x y).1 he
    · exact ⟨hne, a, ha, b, hb, hx, hy, Or.inl ⟨layer, g, hr⟩⟩
    · exact ⟨hne, a, ha, b, hb, hx, hy, Or.inr hr⟩
  · rintro ⟨hne, a, ha, b, hb, hx, hy, ⟨layer, g, hr⟩ | hr⟩
    · exact ⟨layer, g, (hc layer g x y).2 ⟨hne, a, ha, b, hb, hx, hy, Or.inl hr⟩⟩
    · by_cases hex : Explicit t a b
      · obtain ⟨layer, g, hex⟩ := hex
        exact ⟨layer, g, (hc layer g x y).2 ⟨hne, a, ha, b, hb, hx, hy, Or.inl hex⟩⟩
      · obtain ⟨layer, g, ha'⟩ := autoComp_exists t a
        exact ⟨layer, g, (hc layer g x y).2 ⟨hne, a, ha, b, hb, hx, hy, Or.inr ⟨hr, hex, ha'⟩⟩⟩

end Rel
