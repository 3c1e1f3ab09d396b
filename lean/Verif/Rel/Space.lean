import Verif.Rel.Cover
import Verif.Rel.Texts

/-!
# Whitespace labels after an import (C84)
-/

set_option linter.unusedSimpArgs false
set_option linter.unusedSectionVars false

namespace Rel

open Spec

namespace Spec

/-- The characters from position `a` up to (and without) position `b`. -/
def slice (s : Str) (a b : Nat) : Str := (s.drop a).take (b - a)

/-- The tokens of each text are in the order of their character positions and do not overlap. -/
structure CharOrder (t : Tables) : Prop where
  segs : ∀ r ∈ t.nodes, ∀ i s, r.kind ≠ .seg [] i s
  range : ∀ a ∈ t.nodes, (tokenIndex a).isSome → a.left ≤ a.right
  order : ∀ a ∈ t.nodes, ∀ b ∈ t.nodes, SameText a b → ∀ i j, tokenIndex a = some i → tokenIndex b = some j → i < j → a.right ≤ b.left

/-- `b` is the next token after `a`. -/
def NextToken (t : Tables) (a b : NodeRow) : Prop :=
  SameText a b ∧ ∃ i j, tokenIndex a = some i ∧ tokenIndex b = some j ∧ i < j ∧
    ∀ c ∈ t.nodes, SameText a c → ∀ k, tokenIndex c = some k → ¬ (i < k ∧ k < j)

/-- `a` is the last (first) token of its text. -/
def LastToken (t : Tables) (a : NodeRow) : Prop :=
  ∃ i, tokenIndex a = some i ∧ ∀ c ∈ t.nodes, SameText a c → ∀ k, tokenIndex c = some k → k ≤ i
def FirstToken (t : Tables) (a : NodeRow) : Prop :=
  ∃ i, tokenIndex a = some i ∧ ∀ c ∈ t.nodes, SameText a c → ∀ k, tokenIndex c = some k → i ≤ k

/-- The text after a token until the next one (or the end). -/
def SpaceAfter (t : Tables) (a : NodeRow) (v : Str) : Prop :=
  ∃ name val, TextIn t a.text a.corpus name val ∧
    ((∃ b ∈ t.nodes, NextToken t a b ∧ v = slice val a.right b.left) ∨ (LastToken t a ∧ v = val.drop a.right))

/-- The text before the first token, without its last character. -/
def SpaceBefore (t : Tables) (a : NodeRow) (v : Str) : Prop :=
  ∃ name val, TextIn t a.text a.corpus name val ∧ FirstToken t a ∧ 0 < a.left ∧ v = val.take (a.left - 1)

end Spec

/-! ### The loop over the tokens of a text -/

/-- The labels for a list of tokens. -/
def wsSpec (val : Str) (first : Bool) : List NodeRow → List (Nat × Option Str × Str)
  | [] => []
  | a :: q => (a.id, if first = true ∧ 0 < a.left then some (val.take (a.left - 1)) else none, match q.head? with
    | some b => slice val a.right b.left
    | none => val.drop a.right) :: wsSpec val false q

theorem wsToken_spec {val : Str} {off l r : Nat} {prev : Bool} {next : Option Nat} (ho : off ≤ val.length) (hol : off ≤ l) (hlr : l ≤ r)
    (hp : prev = false → off = 0) (hn : ∀ e, next = some e → r ≤ e) :
    (wsToken (val.drop off) off prev l r next).1 = (if prev = false ∧ 0 < l then some (val.take (l - 1)) else none) ∧
    (wsToken (val.drop off) off prev l r next).2.1 = next.elim (val.drop r) (slice val r) ∧
    (wsToken (val.drop off) off prev l r next).2.2.1 = val.drop (wsToken (val.drop off) off prev l r next).2.2.2 ∧
    (wsToken (val.drop off) off prev l r next).2.2.2 ≤ val.length ∧
    ∀ e, next = some e → (wsToken (val.drop off) off prev l r next).2.2.2 ≤ e := by
  -- the characters before the token
  obtain ⟨k, hk⟩ : ∃ k, k = (if (!prev && decide (off < l)) = true then l - 1 - off else 0) := ⟨_, rfl⟩
  have hkr : off + k ≤ r := by
    rw [hk]; split_ifs
    · omega
    · omega
  have hoff1 : off + ((val.drop off).take k).length = min (off + k) val.length := by
    rw [List.length_take, List.length_drop]; omega
  have hrest1 : (val.drop off).drop k = val.drop (min (off + k) val.length) := by
    rw [List.drop_drop]
    rcases Nat.le_total (off + k) val.length with h | h
    · rw [Nat.min_eq_left h]
    · rw [Nat.min_eq_right h, List.drop_eq_nil_of_le h, List.drop_eq_nil_of_le (le_refl _)]
  obtain ⟨o1, ho1⟩ : ∃ o1, o1 = min (off + k) val.length := ⟨_, rfl⟩
  have ho1r : o1 ≤ r := by omega
  have hoff2 : o1 + ((val.drop o1).take (r - o1)).length = min r val.length := by
    rw [List.length_take, List.length_drop]; omega
  have hrest2 : (val.drop o1).drop (r - o1) = val.drop r := by
    rw [List.drop_drop]; congr 1; omega
  have hb : (if (!prev && decide (off < l)) = true then some ((val.drop off).take k) else none) =
      (if prev = false ∧ 0 < l then some (val.take (l - 1)) else none) := by
    cases prev with
    | true => simp
    | false =>
      have h0 := hp rfl
      subst h0
      by_cases hl : 0 < l
      · simp [hl, hk]
      · simp [hl]
  unfold wsToken
  simp only
  rw [← hk, hoff1, hrest1, ← ho1, hoff2, hrest2, hb]
  cases next with
  | none =>
    refine ⟨by first | trivial | rfl, by first | trivial | rfl, ?_, ?_, ?_⟩
    · simp only [List.length_drop]
      rw [List.drop_eq_nil_of_le]
      omega
    · simp only [List.length_drop]
      omega
    · intro e he; cases he
  | some e =>
    have hre := hn e rfl
    have htake : (val.drop r).take (e - min r val.length) = slice val r e := by
      unfold slice
      rcases Nat.le_total r val.length with h | h
      · rw [Nat.min_eq_left h]
      · rw [List.drop_eq_nil_of_le h]; simp
    have hlen : min r val.length + (slice val r e).length = min e val.length := by
      unfold slice
      rw [List.length_take, List.length_drop]
      omega
    simp only
    rw [htake, hlen]
    refine ⟨by first | trivial | rfl, by first | trivial | rfl, ?_, by omega, ?_⟩
    · rw [List.drop_drop]
      rcases Nat.le_total e val.length with h | h
      · rw [Nat.min_eq_left h]; congr 1; omega
      · rw [Nat.min_eq_right h, List.drop_eq_nil_of_le (le_refl _), List.drop_eq_nil_of_le]; omega
    · intro e' he'
      cases he'
      omega

theorem wsLoop_spec {val : Str} {left right : Nat → Option Nat} : ∀ {ts : List NodeRow} {off : Nat} {prev : Bool},
    (∀ a ∈ ts, left a.id = some a.left ∧ right a.id = some a.right ∧ a.left ≤ a.right) →
    ts.Pairwise (fun a b => a.right ≤ b.left) → off ≤ val.length → (∀ a ∈ ts.head?, off ≤ a.left) → (prev = false → off = 0) →
    wsLoop left right (val.drop off) off prev (ts.map NodeRow.id) = wsSpec val (!prev) ts
  | [], off, prev, _, _, _, _, _ => rfl
  | a :: q, off, prev, h1, h2, h3, h4, h5 => by
    obtain ⟨hl, hr, hlr⟩ := h1 a (by simp)
    have hnext : ((q.map NodeRow.id).head?.bind left) = q.head?.map NodeRow.left := by
      cases q with
      | nil => rfl
      | cons b q => simp [(h1 b (by simp)).1]
    rw [List.map_cons, wsLoop, hl, hr]
    simp only
    rw [hnext]
    have hsp := wsToken_spec (val := val) (prev := prev) (next := q.head?.map NodeRow.left) h3 (h4 a (by simp)) hlr h5 (by
      intro e he
      rw [Option.map_eq_some_iff] at he
      obtain ⟨b, hb, rfl⟩ := he
      exact List.rel_of_pairwise_cons h2 (List.mem_of_mem_head? hb))
    obtain ⟨e1, e2, e3, e4, e5⟩ := hsp
    have ih := wsLoop_spec (val := val) (left := left) (right := right) (ts := q)
      (off := (wsToken (val.drop off) off prev a.left a.right (q.head?.map NodeRow.left)).2.2.2) (prev := true)
      (fun b hb => h1 b (by simp [hb])) (List.Pairwise.of_cons h2) e4 (by
        intro b hb
        exact e5 b.left (by rw [Option.mem_def.1 hb]; rfl)) (by simp)
    rw [e3, ih, wsSpec, e1, e2]
    congr 1
    refine Prod.ext rfl (Prod.ext ?_ ?_)
    · simp
    · cases q.head? <;> rfl

/-- The labels of one token in the list. -/
theorem mem_wsSpec {val : Str} : ∀ {ts : List NodeRow} {first : Bool} {w : Nat × Option Str × Str}, w ∈ wsSpec val first ts ↔
    ∃ p a q, ts = p ++ a :: q ∧ w = (a.id, if (first = true ∧ p = []) ∧ 0 < a.left then some (val.take (a.left - 1)) else none,
      match q.head? with
      | some b => slice val a.right b.left
      | none => val.drop a.right)
  | [], first, w => by simp [wsSpec]
  | a :: q, first, w => by
    rw [wsSpec, List.mem_cons, mem_wsSpec]
    constructor
    · rintro (rfl | ⟨p, b, q', rfl, rfl⟩)
      · exact ⟨[], a, q, rfl, by simp⟩
      · exact ⟨a :: p, b, q', rfl, by simp⟩
    · rintro ⟨p, b, q', h1, h2⟩
      cases p with
      | nil =>
        simp only [List.nil_append, List.cons.injEq] at h1
        obtain ⟨rfl, rfl⟩ := h1
        exact Or.inl (by rw [h2]; simp)
      | cons c p =>
        simp only [List.cons_append, List.cons.injEq] at h1
        obtain ⟨rfl, rfl⟩ := h1
        exact Or.inr ⟨p, b, q', rfl, by rw [h2]; simp⟩

/-! ### The tokens of a text -/

section
variable {ext : Option Str → List (Str × Str)} {t : Tables} {p : Parts}

theorem exists_rows {rows : List NodeRow} : ∀ {l : List (TProp × Nat)}, (∀ x ∈ l, ∃ r ∈ rows, r.id = x.2 ∧ placeOf r = some x.1) →
    ∃ rs : List NodeRow, rs.map NodeRow.id = l.map Prod.snd ∧ rs.map placeOf = l.map (fun x => some x.1) ∧ ∀ r ∈ rs, r ∈ rows
  | [], _ => ⟨[], rfl, rfl, by simp⟩
  | x :: l, h => by
    obtain ⟨r, hr, h1, h2⟩ := h x (by simp)
    obtain ⟨rs, h3, h4, h5⟩ := exists_rows (l := l) fun y hy => h y (by simp [hy])
    refine ⟨r :: rs, by simp [h1, h3], by simp [h2, h4], ?_⟩
    intro q hq
    rcases List.mem_cons.1 hq with rfl | hq
    · exact hr
    · exact h5 q hq

/-- The tokens of a text, as rows in the order of their index. -/
theorem text_tokens (hu : Unique t) (hs : ∀ r ∈ t.nodes, ∀ i s, r.kind ≠ .seg [] i s) (x : TextRow) {c : Nat} (hx : x.corpus.getD 0 = c) :
    ∃ ts : List NodeRow, ts.map NodeRow.id = textTokens (tokByIndex t.nodes) x ∧
      (∀ a, a ∈ ts ↔ a ∈ t.nodes ∧ a.corpus = c ∧ a.text = x.id ∧ (tokenIndex a).isSome) ∧
      ts.Pairwise (fun a b => ∀ i j, tokenIndex a = some i → tokenIndex b = some j → i < j) := by
  have tok : ∀ {r : NodeRow} (_ : r ∈ t.nodes) {i : Nat}, position r = some ([], i) ↔ tokenIndex r = some i := by
    intro r hr i
    unfold position tokenIndex
    cases hk : r.kind with
    | tok j s => simp
    | seg g j s =>
      simp only [Option.some.injEq, Prod.mk.injEq, reduceCtorEq, iff_false, not_and]
      rintro rfl
      exact absurd hk (hs r hr j s)
    | plain => simp
  subst hx
  obtain ⟨m, hm⟩ : ∃ m : List (TProp × Nat), m = (tokByIndex t.nodes).filter
    fun p => p.1.seg == [] && p.1.corpus == x.corpus.getD 0 && p.1.text == x.id := ⟨_, rfl⟩
  have mem : ∀ w : TProp × Nat, w ∈ m ↔ (∃ r ∈ t.nodes, r.id = w.2 ∧ placeOf r = some w.1) ∧
      w.1.seg = [] ∧ w.1.corpus = x.corpus.getD 0 ∧ w.1.text = x.id := by
    intro w
    rw [hm, List.mem_filter, OMap.mem_iff_get (k := w.1) (v := w.2) (sorted_index _), index_get hu]
    simp [and_assoc]
  obtain ⟨ts, h1, h2, h3⟩ := exists_rows (rows := t.nodes) (l := m) fun w hw => ((mem w).1 hw).1
  have sorted : m.Pairwise (fun a b => a.1 < b.1) := by
    rw [hm]
    exact List.Pairwise.filter _ (sorted_index t.nodes)
  have place : ∀ a ∈ ts, ∃ w ∈ m, placeOf a = some w.1 := by
    intro a ha
    have := List.mem_map_of_mem (f := placeOf) ha
    rw [h2] at this
    obtain ⟨w, hw, e⟩ := List.mem_map.1 this
    exact ⟨w, hw, e.symm⟩
  refine ⟨ts, ?_, ?_, ?_⟩
  · rw [h1, hm]
    rfl
  · intro a
    constructor
    · intro ha
      obtain ⟨w, hw, e⟩ := place a ha
      obtain ⟨_, e1, e2, e3⟩ := (mem w).1 hw
      obtain ⟨f1, f2, f3⟩ := placeOf_eq.1 e
      rw [e1] at f1
      refine ⟨h3 a ha, f2.trans e2, f3.trans e3, ?_⟩
      rw [(tok (h3 a ha)).1 f1]
      rfl
    · rintro ⟨ha, e1, e2, e3⟩
      obtain ⟨i, hi⟩ := Option.isSome_iff_exists.1 e3
      have hp : placeOf a = some (tprop [] a.corpus a.text i) := placeOf_eq.2 ⟨(tok ha).2 hi, rfl, rfl⟩
      have hw : (tprop [] a.corpus a.text i, a.id) ∈ m := (mem _).2 ⟨⟨a, ha, rfl, hp⟩, rfl, e1, e2⟩
      have : some (tprop [] a.corpus a.text i) ∈ ts.map placeOf := by
        rw [h2]
        exact List.mem_map.2 ⟨_, hw, rfl⟩
      obtain ⟨b, hb, e⟩ := List.mem_map.1 this
      rw [hu.place ha (h3 b hb) hp e]
      exact hb
  · have hp : (ts.map placeOf).Pairwise (fun a b => ∀ u v, a = some u → b = some v → u < v) := by
      rw [h2, List.pairwise_map]
      exact sorted.imp fun h u v hu hv => by cases hu; cases hv; exact h
    rw [List.pairwise_map] at hp
    refine List.Pairwise.imp_of_mem ?_ hp
    intro a b ha hb h i j hi hj
    obtain ⟨w, hw, e⟩ := place a ha
    obtain ⟨w', hw', e'⟩ := place b hb
    obtain ⟨_, g1, g2, g3⟩ := (mem w).1 hw
    obtain ⟨_, g1', g2', g3'⟩ := (mem w').1 hw'
    have hlt := (tprop_lt_same (g1.trans g1'.symm) (g2.trans g2'.symm) (g3.trans g3'.symm)).1 (h _ _ e e')
    obtain ⟨f1, _⟩ := placeOf_eq.1 e
    obtain ⟨f1', _⟩ := placeOf_eq.1 e'
    rw [g1] at f1
    rw [g1'] at f1'
    rw [(tok (h3 a ha)).1 f1] at hi
    rw [(tok (h3 b hb)).1 f1'] at hj
    cases hi
    cases hj
    exact hlt

theorem leftChar_get (hu : Unique t) {r : NodeRow} (hr : r ∈ t.nodes) :
    ((nodeToLeftChar t.nodes).get r.id).map TProp.val = some r.left := by
  have : (nodeToLeftChar t.nodes).get r.id = some (tprop [] r.corpus r.text r.left) := get_collect hr rfl fun r' hr' w e => by
    simp only [Option.some.injEq, Prod.mk.injEq] at e
    rw [← e.2, hu.eq_of_id hr' hr e.1]
  rw [this]
  rfl

theorem rightChar_get (hu : Unique t) {r : NodeRow} (hr : r ∈ t.nodes) :
    ((nodeToRightChar t.nodes).get r.id).map TProp.val = some r.right := by
  have : (nodeToRightChar t.nodes).get r.id = some (tprop [] r.corpus r.text r.right) := get_collect hr rfl fun r' hr' w e => by
    simp only [Option.some.injEq, Prod.mk.injEq] at e
    rw [← e.2, hu.eq_of_id hr' hr e.1]
  rw [this]
  rfl

theorem completed_none (h : TextTable t) (h33 : t.is33 = false) {k : Nat ×ₗ Nat} {x : TextRow}
    (hk : (k, x) ∈ completeTexts false t.nodes (parseTexts t.texts)) (hx : x.corpus = none) : ∀ r ∈ t.nodes, r.text ≠ x.id := by
  obtain ⟨hs, h1, h2⟩ := completed h h33 t.nodes
  have hg := (OMap.mem_iff_get hs).1 hk
  obtain ⟨id, c⟩ := ofLex k
  cases hc : (ofLex k).2 with
  | zero =>
    have e : k = textKey (ofLex k).1 none := by
      unfold textKey
      simp only
      rw [← hc]
      rfl
    rw [e] at hg
    obtain ⟨_, e2, e3⟩ := (h1 _ _).1 hg
    rw [e2]
    exact e3
  | succ c =>
    have e : k = textKey (ofLex k).1 (some c) := by
      unfold textKey
      simp only
      rw [← hc]
      rfl
    rw [e] at hg
    obtain ⟨y, _, _, _, e4⟩ := (h2 _ _ _).1 hg
    rw [e4] at hx
    cases hx

/-- In the old format a text without a document has no rows. -/
theorem text_without_corpus (hp : p.Of ext t) (h : TextTable t) {k : Nat ×ₗ Nat} {x : TextRow} (hk : (k, x) ∈ p.texts) (hx : x.corpus = none) :
    ∀ r ∈ t.nodes, r.text ≠ x.id := by
  intro r hr e
  rw [hp.texts] at hk
  cases h33 : t.is33 with
  | true =>
    rw [h33] at hk
    have e : completeTexts true t.nodes (parseTexts t.texts) = parseTexts t.texts := rfl
    rw [e] at hk
    obtain ⟨h1, _⟩ := (parseTexts_get h).1 ((OMap.mem_iff_get (sorted_collect _ _)).1 hk)
    have := h.format x h1
    rw [hx, h33] at this
    cases this
  | false =>
    rw [h33] at hk
    exact completed_none h h33 hk hx r hr e

/-- The whitespace events. -/
theorem space_iff (hp : p.Of ext t) (hu : Unique t) (h : TextTable t) (hc : CharOrder t) (e : Ev) :
    e ∈ p.space ↔ ∃ a ∈ t.nodes, ∃ v, (SpaceAfter t a v ∧ e = .addNodeLabel (nm p.T a) afterKey v) ∨
      (SpaceBefore t a v ∧ e = .addNodeLabel (nm p.T a) beforeKey v) := by
  have loop : ∀ (x : TextRow), ∃ ts : List NodeRow,
      (∀ a, a ∈ ts ↔ a ∈ t.nodes ∧ a.corpus = x.corpus.getD 0 ∧ a.text = x.id ∧ (tokenIndex a).isSome) ∧
      ts.Pairwise (fun a b => ∀ i j, tokenIndex a = some i → tokenIndex b = some j → i < j) ∧
      wsLoop (fun n => ((nodeToLeftChar t.nodes).get n).map TProp.val) (fun n => ((nodeToRightChar t.nodes).get n).map TProp.val)
        x.val 0 false (textTokens (tokByIndex t.nodes) x) = wsSpec x.val true ts := by
    intro x
    obtain ⟨ts, h1, h2, h3⟩ := text_tokens hu hc.segs x (c := x.corpus.getD 0) rfl
    refine ⟨ts, h2, h3, ?_⟩
    rw [← h1]
    have := wsLoop_spec (val := x.val) (ts := ts) (off := 0) (prev := false)
      (left := fun n => ((nodeToLeftChar t.nodes).get n).map TProp.val) (right := fun n => ((nodeToRightChar t.nodes).get n).map TProp.val)
      (fun a ha => by
        obtain ⟨ha', _, _, ht⟩ := (h2 a).1 ha
        exact ⟨leftChar_get hu ha', rightChar_get hu ha', hc.range a ha' ht⟩)
      (List.Pairwise.imp_of_mem (fun {a b} ha hb hlt => by
        obtain ⟨ha', a1, a2, ht⟩ := (h2 a).1 ha
        obtain ⟨hb', b1, b2, ht'⟩ := (h2 b).1 hb
        obtain ⟨i, hi⟩ := Option.isSome_iff_exists.1 ht
        obtain ⟨j, hj⟩ := Option.isSome_iff_exists.1 ht'
        exact hc.order a ha' b hb' ⟨a1.trans b1.symm, a2.trans b2.symm⟩ i j hi hj (hlt i j hi hj)) h3)
      (by omega) (by simp) (by simp)
    simpa using this
  have events : ∀ {a : NodeRow} (_ : a ∈ t.nodes) (b : Option Str) (v : Str), e ∈ wsEvents (nodeNames p.ns) (a.id, b, v) ↔
      (∃ w, b = some w ∧ e = .addNodeLabel (nm p.T a) beforeKey w) ∨ e = .addNodeLabel (nm p.T a) afterKey v := by
    intro a ha b v
    unfold wsEvents
    simp only [names_get hp hu ha]
    cases b <;> simp
  rw [hp.space]
  unfold addWhitespace
  rw [List.mem_flatMap]
  constructor
  · rintro ⟨⟨k, x⟩, hk, he⟩
    simp only at he
    obtain ⟨ts, h1, h2, h3⟩ := loop x
    rw [h3] at he
    obtain ⟨w, hw, he⟩ := List.mem_flatMap.1 he
    obtain ⟨l, a, q, hts, rfl⟩ := mem_wsSpec.1 hw
    obtain ⟨ha, a1, a2, a3⟩ := (h1 a).1 (by rw [hts]; simp)
    have hx : ∃ c, x.corpus = some c := by
      cases hxc : x.corpus with
      | none => exact absurd a2 (text_without_corpus hp h hk hxc a ha)
      | some c => exact ⟨c, rfl⟩
    obtain ⟨c, hxc⟩ := hx
    rw [hxc, Option.getD_some] at a1
    have hin : TextIn t a.text a.corpus x.name x.val := by
      rw [a1, a2]
      refine (texts_iff hp h _ _ _ _).1 ⟨k, ?_⟩
      rw [← hxc]
      exact hk
    obtain ⟨i, hi⟩ := Option.isSome_iff_exists.1 a3
    have same : ∀ {b : NodeRow}, b ∈ t.nodes → SameText a b → ∀ {j}, tokenIndex b = some j → b ∈ ts := by
      intro b hb hs j hj
      refine (h1 b).2 ⟨hb, ?_, hs.2.symm.trans a2, by rw [hj]; rfl⟩
      rw [hxc, Option.getD_some]
      exact hs.1.symm.trans a1
    rw [hts, List.pairwise_append, List.pairwise_cons] at h2
    obtain ⟨_, ⟨hq, hqq⟩, hl⟩ := h2
    rcases (events ha _ _).1 he with ⟨v, hv, rfl⟩ | rfl
    · split_ifs at hv with hcond
      obtain ⟨⟨_, rfl⟩, hpos⟩ := hcond
      cases hv
      refine ⟨a, ha, _, Or.inr ⟨⟨x.name, x.val, hin, ⟨i, hi, ?_⟩, hpos, rfl⟩, rfl⟩⟩
      intro b hb hs j hj
      have := same hb hs hj
      rw [hts, List.nil_append] at this
      rcases List.mem_cons.1 this with rfl | hb'
      · rw [hi] at hj; cases hj; exact le_refl _
      · exact le_of_lt (hq b hb' i j hi hj)
    · refine ⟨a, ha, _, Or.inl ⟨⟨x.name, x.val, hin, ?_⟩, rfl⟩⟩
      cases q with
      | nil =>
        refine Or.inr ⟨⟨i, hi, ?_⟩, rfl⟩
        intro b hb hs j hj
        have := same hb hs hj
        rw [hts, List.mem_append, List.mem_singleton] at this
        rcases this with hb' | rfl
        · exact le_of_lt (hl b hb' a (by simp) j i hj hi)
        · rw [hi] at hj; cases hj; exact le_refl _
      | cons b q =>
        obtain ⟨hb, b1, b2, b3⟩ := (h1 b).1 (by rw [hts]; simp)
        obtain ⟨j, hj⟩ := Option.isSome_iff_exists.1 b3
        have hab : SameText a b := by
          rw [hxc, Option.getD_some] at b1
          exact ⟨a1.trans b1.symm, a2.trans b2.symm⟩
        refine Or.inl ⟨b, hb, ⟨hab, i, j, hi, hj, hq b (by simp) i j hi hj, ?_⟩, rfl⟩
        rintro d hd hs m hm ⟨m1, m2⟩
        have := same hd hs hm
        rw [hts] at this
        simp only [List.mem_append, List.mem_cons] at this
        rcases this with hd' | rfl | rfl | hd'
        · have := hl d hd' a (by simp) m i hm hi
          omega
        · rw [hi] at hm; cases hm; omega
        · rw [hj] at hm; cases hm; omega
        · have := (List.pairwise_cons.1 hqq).1 d hd' j m hj hm
          omega
  · rintro ⟨a, ha, v, hv⟩
    have hin : ∃ name val, TextIn t a.text a.corpus name val ∧ (tokenIndex a).isSome ∧
        ((((∃ b ∈ t.nodes, NextToken t a b ∧ v = slice val a.right b.left) ∨ (LastToken t a ∧ v = val.drop a.right)) ∧
          e = .addNodeLabel (nm p.T a) afterKey v) ∨ ((FirstToken t a ∧ 0 < a.left ∧ v = val.take (a.left - 1)) ∧
          e = .addNodeLabel (nm p.T a) beforeKey v)) := by
      rcases hv with ⟨⟨name, val, hin, hcase⟩, he⟩ | ⟨⟨name, val, hin, hcase⟩, he⟩
      · refine ⟨name, val, hin, ?_, Or.inl ⟨hcase, he⟩⟩
        rcases hcase with ⟨b, _, ⟨_, i, j, hi, _⟩, _⟩ | ⟨⟨i, hi, _⟩, _⟩ <;> rw [hi] <;> rfl
      · refine ⟨name, val, hin, ?_, Or.inr ⟨hcase, he⟩⟩
        obtain ⟨⟨i, hi, _⟩, _⟩ := hcase
        rw [hi]; rfl
    obtain ⟨name, val, hin, htok, hcase⟩ := hin
    obtain ⟨k, hk⟩ := (texts_iff hp h _ _ _ _).2 hin
    refine ⟨_, hk, ?_⟩
    simp only
    obtain ⟨ts, h1, h2, h3⟩ := loop ⟨a.text, some a.corpus, name, val⟩
    simp only [Option.getD_some] at h1 h3
    rw [h3, List.mem_flatMap]
    have hats : a ∈ ts := (h1 a).2 ⟨ha, rfl, rfl, htok⟩
    obtain ⟨l, q, hts⟩ := List.append_of_mem hats
    refine ⟨_, mem_wsSpec.2 ⟨l, a, q, hts, rfl⟩, ?_⟩
    obtain ⟨i, hi⟩ := Option.isSome_iff_exists.1 htok
    rw [hts, List.pairwise_append, List.pairwise_cons] at h2
    obtain ⟨_, ⟨hq, hqq⟩, hl⟩ := h2
    rw [events ha]
    rcases hcase with ⟨hcase, rfl⟩ | ⟨⟨⟨i', hi', hfirst⟩, hpos, rfl⟩, rfl⟩
    · refine Or.inr ?_
      have hval : (match q.head? with
          | some b => slice val a.right b.left
          | none => val.drop a.right) = v := by
        rcases hcase with ⟨b, hb, ⟨hab, i', j, hi', hj, hlt, hbetween⟩, rfl⟩ | ⟨⟨i', hi', hlast⟩, rfl⟩
        · rw [hi] at hi'
          cases hi'
          have hbts : b ∈ ts := (h1 b).2 ⟨hb, hab.1.symm, hab.2.symm, by rw [hj]; rfl⟩
          rw [hts] at hbts
          simp only [List.mem_append, List.mem_cons] at hbts
          rcases hbts with hb' | rfl | hb'
          · have := hl b hb' a (by simp) j i hj hi; omega
          · rw [hi] at hj; cases hj; omega
          · cases q with
            | nil => cases hb'
            | cons d q =>
              rcases List.mem_cons.1 hb' with rfl | hb''
              · rfl
              · exfalso
                obtain ⟨hd, d1, d2, d3⟩ := (h1 d).1 (by rw [hts]; simp)
                obtain ⟨m, hm⟩ := Option.isSome_iff_exists.1 d3
                exact hbetween d hd ⟨d1.symm, d2.symm⟩ m hm ⟨hq d (by simp) i m hi hm, (List.pairwise_cons.1 hqq).1 b hb'' m j hm hj⟩
        · rw [hi] at hi'
          cases hi'
          cases q with
          | nil => rfl
          | cons d q =>
            exfalso
            obtain ⟨hd, d1, d2, d3⟩ := (h1 d).1 (by rw [hts]; simp)
            obtain ⟨m, hm⟩ := Option.isSome_iff_exists.1 d3
            have := hlast d hd ⟨d1.symm, d2.symm⟩ m hm
            have := hq d (by simp) i m hi hm
            omega
      rw [← hval]
    · refine Or.inl ⟨_, ?_, rfl⟩
      rw [hi] at hi'
      cases hi'
      have : l = [] := by
        cases l with
        | nil => rfl
        | cons d l =>
          exfalso
          obtain ⟨hd, d1, d2, d3⟩ := (h1 d).1 (by rw [hts]; simp)
          obtain ⟨m, hm⟩ := Option.isSome_iff_exists.1 d3
          have := hfirst d hd ⟨d1.symm, d2.symm⟩ m hm
          have := hl d (by simp) a (by simp) m i hm hi
          omega
      rw [if_pos ⟨⟨rfl, this⟩, hpos⟩]

end

end Rel
