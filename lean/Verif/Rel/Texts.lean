import Verif.Rel.Order

/-!
# The texts of an imported corpus
-/

set_option linter.unusedSimpArgs false
set_option linter.unusedSectionVars false

namespace Rel

namespace Spec

/-- The first row which belongs to the text `id` is in the corpus `c`. -/
def FirstIn (nodes : List NodeRow) (id c : Nat) : Prop :=
  ∃ a r b, nodes = a ++ r :: b ∧ r.text = id ∧ r.corpus = c ∧ ∀ q ∈ a, q.text ≠ id

/-- A text with its document.  In the old format the document of a text is that of the first row of the node table which
belongs to the text. -/
def TextIn (t : Tables) (id corpus : Nat) (name val : Str) : Prop :=
  ∃ x ∈ t.texts, x.id = id ∧ x.name = name ∧ x.val = val ∧
    if t.is33 = true then x.corpus = some corpus else FirstIn t.nodes id corpus

/-- Each text occurs once, and has a document in the new format only. -/
structure TextTable (t : Tables) : Prop where
  keys : (t.texts.map fun x => (x.id, x.corpus)).Nodup
  format : ∀ x ∈ t.texts, x.corpus.isSome = t.is33

end Spec

open Spec

theorem textKey_inj {i j : Nat} {c d : Option Nat} (h : textKey i c = textKey j d) : i = j ∧ c = d := by
  unfold textKey at h
  have h1 : i = j := congrArg (fun x : Nat ×ₗ Nat => (ofLex x).1) h
  have h2 := congrArg (fun x : Nat ×ₗ Nat => (ofLex x).2) h
  refine ⟨h1, ?_⟩
  cases c <;> cases d <;> simp at h2 <;> simp [h2]

theorem Spec.TextTable.eq {t : Tables} (h : TextTable t) {x y : TextRow} (hx : x ∈ t.texts) (hy : y ∈ t.texts) (h1 : x.id = y.id)
    (h2 : x.corpus = y.corpus) : x = y :=
  List.inj_on_of_nodup_map h.keys hx hy (by simp only [h1, h2])

theorem parseTexts_get {t : Tables} (h : TextTable t) {k : Nat ×ₗ Nat} {x : TextRow} :
    (parseTexts t.texts).get k = some x ↔ x ∈ t.texts ∧ k = textKey x.id x.corpus := by
  constructor
  · intro hg
    obtain ⟨y, hy, e⟩ := of_get_collect hg
    simp only [Option.some.injEq, Prod.mk.injEq] at e
    obtain ⟨rfl, rfl⟩ := e
    exact ⟨hy, rfl⟩
  · rintro ⟨hx, rfl⟩
    refine get_collect hx rfl ?_
    intro y hy w hw
    simp only [Option.some.injEq, Prod.mk.injEq] at hw
    obtain ⟨h1, rfl⟩ := hw
    obtain ⟨h2, h3⟩ := textKey_inj h1
    exact h.eq hy hx h2 h3

theorem firstIn_append {a : List NodeRow} {n : NodeRow} {id c : Nat} : FirstIn (a ++ [n]) id c ↔
    FirstIn a id c ∨ ((∀ z ∈ a, z.text ≠ id) ∧ n.text = id ∧ n.corpus = c) := by
  constructor
  · rintro ⟨p, r, q, h1, h2, h3, h4⟩
    rcases List.eq_nil_or_concat q with rfl | ⟨q', w, rfl⟩
    · obtain ⟨rfl, e⟩ := List.append_inj' h1 rfl
      cases e
      exact Or.inr ⟨h4, h2, h3⟩
    · left
      rw [List.concat_eq_append, ← List.cons_append, ← List.append_assoc] at h1
      obtain ⟨h5, _⟩ := List.append_inj' h1 rfl
      exact ⟨p, r, q', h5, h2, h3, h4⟩
  · rintro (⟨p, r, q, h1, h2, h3, h4⟩ | ⟨h1, h2, h3⟩)
    · exact ⟨p, r, q ++ [n], by rw [h1]; simp, h2, h3, h4⟩
    · exact ⟨a, n, [], rfl, h2, h3, h1⟩

theorem firstIn_not {a : List NodeRow} {id c : Nat} (h : ∀ z ∈ a, z.text ≠ id) : ¬ FirstIn a id c := by
  rintro ⟨p, r, q, h1, h2, _⟩
  exact h r (by rw [h1]; simp) h2

/-- The loop over the node table in the old format. -/
theorem completed {t : Tables} (h : TextTable t) (h33 : t.is33 = false) (ns : List NodeRow) :
    OMap.Sorted (completeTexts false ns (parseTexts t.texts)) ∧
    (∀ id x, (completeTexts false ns (parseTexts t.texts)).get (textKey id none) = some x ↔
      x ∈ t.texts ∧ x.id = id ∧ ∀ q ∈ ns, q.text ≠ id) ∧
    ∀ id c x, (completeTexts false ns (parseTexts t.texts)).get (textKey id (some c)) = some x ↔
      ∃ y ∈ t.texts, y.id = id ∧ FirstIn ns id c ∧ x = { y with corpus := some c } := by
  have hnone : ∀ x ∈ t.texts, x.corpus = none := fun x hx => by
    have := h.format x hx
    rw [h33] at this
    cases hc : x.corpus with
    | none => rfl
    | some c => rw [hc] at this; cases this
  induction ns using List.reverseRecOn with
  | nil =>
    have e : completeTexts false [] (parseTexts t.texts) = parseTexts t.texts := rfl
    rw [e]
    refine ⟨sorted_collect _ _, fun id x => ?_, fun id c x => ?_⟩
    · rw [parseTexts_get h]
      constructor
      · rintro ⟨hx, hk⟩
        exact ⟨hx, (textKey_inj hk).1.symm, fun q hq => by cases hq⟩
      · rintro ⟨hx, rfl, _⟩
        exact ⟨hx, by rw [hnone x hx]⟩
    · rw [parseTexts_get h]
      constructor
      · rintro ⟨hx, hk⟩
        have := (textKey_inj hk).2
        rw [hnone x hx] at this
        cases this
      · rintro ⟨_, _, _, hf, _⟩
        exact absurd hf (firstIn_not fun z hz => by cases hz)
  | append_singleton a n ih =>
    obtain ⟨hs, h1, h2⟩ := ih
    have e : completeTexts false (a ++ [n]) (parseTexts t.texts) =
        match (completeTexts false a (parseTexts t.texts)).get (textKey n.text none) with
        | some t' => ((completeTexts false a (parseTexts t.texts)).erase (textKey n.text none)).insert
            (textKey n.text (some n.corpus)) { t' with corpus := some n.corpus }
        | none => completeTexts false a (parseTexts t.texts) := by
      unfold completeTexts
      simp only [Bool.false_eq_true, if_false, List.foldl_append, List.foldl_cons, List.foldl_nil]
      rfl
    rw [e]
    cases hg : (completeTexts false a (parseTexts t.texts)).get (textKey n.text none) with
    | some x0 =>
      simp only
      obtain ⟨hx0, hid0, hq0⟩ := (h1 _ _).1 hg
      have hse := OMap.sorted_erase hs (textKey n.text none)
      refine ⟨OMap.sorted_insert hse _ _, fun id x => ?_, fun id c x => ?_⟩
      · rw [OMap.get_insert, if_neg (by intro e; cases (textKey_inj e).2), OMap.get_erase hs]
        constructor
        · intro hx
          split_ifs at hx with hk
          obtain ⟨a1, a2, a3⟩ := (h1 _ _).1 hx
          refine ⟨a1, a2, ?_⟩
          intro q hq
          rcases List.mem_append.1 hq with hq | hq
          · exact a3 q hq
          · rw [List.mem_singleton.1 hq]
            intro e'
            exact hk (by rw [e'])
        · rintro ⟨a1, a2, a3⟩
          rw [if_neg]
          · exact (h1 _ _).2 ⟨a1, a2, fun q hq => a3 q (by simp [hq])⟩
          · intro hk
            exact a3 n (by simp) (textKey_inj hk).1.symm
      · rw [OMap.get_insert, OMap.get_erase hs, if_neg (c := textKey id (some c) = textKey n.text none) (by intro e; cases (textKey_inj e).2)]
        constructor
        · intro hx
          split_ifs at hx with hk
          · obtain ⟨rfl, e2⟩ := textKey_inj hk
            cases e2
            exact ⟨x0, hx0, hid0, firstIn_append.2 (Or.inr ⟨hq0, rfl, rfl⟩), (Option.some.inj hx).symm⟩
          · obtain ⟨y, hy, e1, e2, e3⟩ := (h2 _ _ _).1 hx
            exact ⟨y, hy, e1, firstIn_append.2 (Or.inl e2), e3⟩
        · rintro ⟨y, hy, e1, e2, e3⟩
          rcases firstIn_append.1 e2 with e2 | ⟨_, e4, e5⟩
          · rw [if_neg]
            · exact (h2 _ _ _).2 ⟨y, hy, e1, e2, e3⟩
            · intro hk
              obtain ⟨rfl, _⟩ := textKey_inj hk
              exact firstIn_not hq0 e2
          · subst e4 e5
            rw [if_pos rfl, e3, h.eq hy hx0 (e1.trans hid0.symm) (by rw [hnone y hy, hnone x0 hx0])]
    | none =>
      simp only
      have hno : ∀ y ∈ t.texts, y.id = n.text → ¬ ∀ q ∈ a, q.text ≠ n.text := by
        intro y hy e1 e2
        have := (h1 n.text y).2 ⟨hy, e1, e2⟩
        rw [hg] at this
        cases this
      refine ⟨hs, fun id x => ?_, fun id c x => ?_⟩
      · rw [h1]
        constructor
        · rintro ⟨a1, a2, a3⟩
          refine ⟨a1, a2, fun q hq => ?_⟩
          rcases List.mem_append.1 hq with hq | hq
          · exact a3 q hq
          · rw [List.mem_singleton.1 hq]
            rintro rfl
            exact hno x a1 a2 a3
        · rintro ⟨a1, a2, a3⟩
          exact ⟨a1, a2, fun q hq => a3 q (by simp [hq])⟩
      · rw [h2]
        constructor
        · rintro ⟨y, hy, e1, e2, e3⟩
          exact ⟨y, hy, e1, firstIn_append.2 (Or.inl e2), e3⟩
        · rintro ⟨y, hy, e1, e2, e3⟩
          rcases firstIn_append.1 e2 with e2 | ⟨e4, rfl, _⟩
          · exact ⟨y, hy, e1, e2, e3⟩
          · exact absurd e4 (hno y hy e1)

/-- The texts with a document. -/
theorem texts_iff {ext : Option Str → List (Str × Str)} {t : Tables} {p : Parts} (hp : p.Of ext t) (h : TextTable t) (id c : Nat)
    (name val : Str) : (∃ k, (k, (⟨id, some c, name, val⟩ : TextRow)) ∈ p.texts) ↔ TextIn t id c name val := by
  rw [hp.texts]
  unfold TextIn
  cases h33 : t.is33 with
  | true =>
    simp only [if_true]
    have e : completeTexts true t.nodes (parseTexts t.texts) = parseTexts t.texts := rfl
    rw [e]
    constructor
    · rintro ⟨k, hk⟩
      obtain ⟨h1, h2⟩ := (parseTexts_get h).1 ((OMap.mem_iff_get (sorted_collect _ _)).1 hk)
      exact ⟨_, h1, rfl, rfl, rfl, rfl⟩
    · rintro ⟨x, hx, rfl, rfl, rfl, hc⟩
      refine ⟨textKey x.id x.corpus, (OMap.mem_iff_get (sorted_collect _ _)).2 ((parseTexts_get h).2 ⟨?_, ?_⟩)⟩
      · rw [← hc]; exact hx
      · simp only [hc]
  | false =>
    simp only [Bool.false_eq_true, if_false]
    obtain ⟨hs, h1, h2⟩ := completed h h33 t.nodes
    constructor
    · rintro ⟨k, hk⟩
      have hg := (OMap.mem_iff_get hs).1 hk
      have hk' : ∃ i o, k = textKey i o := by
        refine ⟨(ofLex k).1, (match (ofLex k).2 with | 0 => none | n + 1 => some n), ?_⟩
        unfold textKey
        rw [← toLex_ofLex k]
        congr 1
        cases h : (ofLex k).2 <;> simp [Prod.ext_iff, h]
      obtain ⟨i, o, rfl⟩ := hk'
      cases o with
      | none =>
        obtain ⟨h3, _⟩ := (h1 _ _).1 hg
        have := h.format _ h3
        rw [h33] at this
        cases this
      | some d =>
        obtain ⟨y, hy, h3, h4, h5⟩ := (h2 _ _ _).1 hg
        simp only [TextRow.mk.injEq, Option.some.injEq] at h5
        obtain ⟨rfl, rfl, rfl, rfl⟩ := h5
        exact ⟨y, hy, rfl, rfl, rfl, by rw [h3]; exact h4⟩
    · rintro ⟨y, hy, rfl, rfl, rfl, hf⟩
      exact ⟨textKey y.id (some c), (OMap.mem_iff_get hs).2 ((h2 _ _ _).2 ⟨y, hy, rfl, hf, rfl⟩)⟩

end Rel
