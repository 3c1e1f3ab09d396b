import Verif.Answer.Ops

/-!
# C101: rows of a translated alternative
-/

set_option linter.unusedSectionVars false

namespace Answer

open Whole

section
variable {offset : Nat} {c : List Parse.QLit} {L : List (Aql.Occ (NsSpec Str Str))} {q : QConj}

/-- What a binary operator of the text becomes, without quirks mode. -/
theorem effect_cases {lhs rhs : Parse.QOpd} {op : Aql.BinSpec Parse.OpSpec} {neg : Bool}
    {e : Aql.BinEntry (NsSpec Str Str) Parse.OpSpec ⊕ Aql.UnEntry (NsSpec Str Str) Parse.OpSpec RangeSpec}
    (h : Aql.Effect false offset L (.bin lhs op rhs neg) e) : ∃ i j a b, Aql.Denotes offset L lhs i ∧ Aql.Denotes offset L rhs j ∧
      L[i]? = some a ∧ L[j]? = some b ∧
      ((neg = false ∧ a.optional = false ∧ b.optional = false ∧ e = .inl ⟨.plain ⟨op, a.spec, b.spec⟩, offset + i, offset + j, true⟩) ∨
        (neg = true ∧ a.optional = false ∧ b.optional = false ∧ e = .inl ⟨.negated ⟨op, a.spec, b.spec⟩, offset + i, offset + j, true⟩) ∨
        (neg = true ∧ a.optional = true ∧ b.optional = false ∧ e = .inr ⟨.nonExisting ⟨op, a.spec, b.spec⟩ a.spec true, j⟩) ∨
        (neg = true ∧ a.optional = false ∧ b.optional = true ∧ e = .inr ⟨.nonExisting ⟨op, a.spec, b.spec⟩ b.spec false, i⟩)) := by
  have hu : ∀ {op op' : Aql.BinSpec Parse.OpSpec}, Aql.OpUsed false op op' → op' = op := by
    intro op op' h
    cases h <;> first | rfl | contradiction
  cases h with
  | plain h1 h2 h3 h4 h5 h6 h7 => rw [hu h7]; exact ⟨_, _, _, _, h1, h2, h3, h4, Or.inl ⟨rfl, h5, h6, rfl⟩⟩
  | negated h1 h2 h3 h4 h5 h6 h7 => rw [hu h7]; exact ⟨_, _, _, _, h1, h2, h3, h4, Or.inr (Or.inl ⟨rfl, h5, h6, rfl⟩)⟩
  | leftMissing h1 h2 h3 h4 h5 h6 h7 => rw [hu h7]; exact ⟨_, _, _, _, h1, h2, h3, h4, Or.inr (Or.inr (Or.inl ⟨rfl, h5, h6, rfl⟩))⟩
  | rightMissing h1 h2 h3 h4 h5 h6 h7 => rw [hu h7]; exact ⟨_, _, _, _, h1, h2, h3, h4, Or.inr (Or.inr (Or.inr ⟨rfl, h5, h6, rfl⟩))⟩

theorem forall₂_left {α β : Type} {R : α → β → Prop} {l : List α} {l' : List β} (h : List.Forall₂ R l l') {a : α} (ha : a ∈ l) :
    ∃ b ∈ l', R a b := by
  induction h with
  | nil => simp at ha
  | cons h1 _ ih =>
    rcases List.mem_cons.1 ha with rfl | ha
    · exact ⟨_, by simp, h1⟩
    · obtain ⟨b, hb, hr⟩ := ih ha
      exact ⟨b, by simp [hb], hr⟩

theorem forall₂_right {α β : Type} {R : α → β → Prop} {l : List α} {l' : List β} (h : List.Forall₂ R l l') {b : β} (hb : b ∈ l') :
    ∃ a ∈ l, R a b := by
  induction h with
  | nil => simp at hb
  | cons h1 _ ih =>
    rcases List.mem_cons.1 hb with rfl | hb
    · exact ⟨_, by simp, h1⟩
    · obtain ⟨a, ha, hr⟩ := ih hb
      exact ⟨a, by simp [ha], hr⟩

theorem isBin_bin {l : Parse.QLit} (h : l.isBin = true) : ∃ lhs op rhs neg, l = .bin lhs op rhs neg := by
  cases l with
  | bin lhs op rhs neg => exact ⟨_, _, _, _, rfl⟩
  | node => simp [Aql.Literal.isBin] at h
  | un => simp [Aql.Literal.isBin] at h
  | legacyMeta => simp [Aql.Literal.isBin] at h

/-- An operator of the text with its effect on the conjunction. -/
theorem bin_effect (ht : Aql.Translated false offset c L q) {lhs rhs : Parse.QOpd} {op : Aql.BinSpec Parse.OpSpec} {neg : Bool}
    (h : .bin lhs op rhs neg ∈ c) : ∃ e, Aql.Effect false offset L (.bin lhs op rhs neg) e ∧ (∀ b, e = .inl b → b ∈ q.bins) ∧
      ∀ u, e = .inr u → u ∈ q.uns := by
  obtain ⟨us, es, _, h2, h3, h4⟩ := ht.operators
  obtain ⟨e, he, hr⟩ := forall₂_left h2 (a := .bin lhs op rhs neg) (by simp [h, Aql.Literal.isBin])
  refine ⟨e, hr, ?_, ?_⟩
  · rintro b rfl
    rw [h3, List.mem_filterMap]
    exact ⟨_, he, rfl⟩
  · rintro u rfl
    rw [h4, List.mem_append, List.mem_filterMap]
    exact Or.inr ⟨_, he, rfl⟩

theorem bin_origin (ht : Aql.Translated false offset c L q) {b : Aql.BinEntry (NsSpec Str Str) Parse.OpSpec} (hb : b ∈ q.bins) :
    ∃ lhs op rhs neg, .bin lhs op rhs neg ∈ c ∧ Aql.Effect false offset L (.bin lhs op rhs neg : Parse.QLit) (.inl b) := by
  obtain ⟨us, es, _, h2, h3, h4⟩ := ht.operators
  rw [h3, List.mem_filterMap] at hb
  obtain ⟨e, he, hb⟩ := hb
  cases e with
  | inr u => simp at hb
  | inl b' =>
    simp only [Sum.getLeft?_inl, Option.some.injEq] at hb
    subst hb
    obtain ⟨l, hl, hr⟩ := forall₂_right h2 he
    obtain ⟨hl, hbin⟩ := List.mem_filter.1 hl
    obtain ⟨lhs, op, rhs, neg, rfl⟩ := isBin_bin hbin
    exact ⟨_, _, _, _, hl, hr⟩

theorem un_effect (ht : Aql.Translated false offset c L q) {ref : Aql.Ref} {range : RangeSpec} (h : .un ref range ∈ c) :
    ∃ i, Aql.DenotesRef offset L ref i ∧ ⟨.user range, i⟩ ∈ q.uns := by
  obtain ⟨us, es, h1, _, _, h4⟩ := ht.operators
  obtain ⟨u, hu, hr⟩ := forall₂_left h1 (a := .un ref range) (by simp [h, Aql.Literal.isUn])
  cases hr with
  | mk hd => exact ⟨_, hd, by rw [h4]; exact List.mem_append_left _ hu⟩

theorem un_origin (ht : Aql.Translated false offset c L q) {u : Aql.UnEntry (NsSpec Str Str) Parse.OpSpec RangeSpec} (hu : u ∈ q.uns) :
    (∃ ref range, .un ref range ∈ c ∧ u.op = .user range ∧ Aql.DenotesRef offset L ref u.idx) ∨
    ∃ lhs op rhs neg, .bin lhs op rhs neg ∈ c ∧ Aql.Effect false offset L (.bin lhs op rhs neg) (.inr u) := by
  obtain ⟨us, es, h1, h2, _, h4⟩ := ht.operators
  rw [h4, List.mem_append] at hu
  rcases hu with hu | hu
  · obtain ⟨l, hl, hr⟩ := forall₂_right h1 hu
    obtain ⟨hl, _⟩ := List.mem_filter.1 hl
    cases hr with
    | mk hd => exact Or.inl ⟨_, _, hl, rfl, hd⟩
  · rw [List.mem_filterMap] at hu
    obtain ⟨e, he, hb⟩ := hu
    cases e with
    | inl b => simp at hb
    | inr u' =>
      simp only [Sum.getRight?_inr, Option.some.injEq] at hb
      subst hb
      obtain ⟨l, hl, hr⟩ := forall₂_right h2 he
      obtain ⟨hl, hbin⟩ := List.mem_filter.1 hl
      obtain ⟨lhs, op, rhs, neg, rfl⟩ := isBin_bin hbin
      exact Or.inr ⟨_, _, _, _, hl, hr⟩

end

section
variable {T E : Type} [LinearOrder T] {env : NsEnv Str Str} {g : NsGraph T Str Str} {db : Db T} {th : TokenHelper T} {order : GStore T}
  {r : Rels T Str Str} {De : EdgeStore T Str Str → T → Prop} {Re : EdgeStore T Str Str → Nat → Bnd Nat → Prop}
  {Ec : GStore T → T → T → Prop} {D : T → Prop} {Rg : Nat → Bnd Nat → Prop} {ops : List (AnnoStore.Op T Str Str)}
  {offset : Nat} {c : List Parse.QLit} {L : List (Aql.Occ (NsSpec Str Str))} {q : QConj}
  {decU dec : Nat → Bool × Bool} {us : List (Nat × (SMatch T (AnnoKey Str) → Except (Fail E) Bool))} {bins : List (Bin T Str Str)}

/-! ### Nodes -/

theorem nodesOf_get (ht : Aql.Translated false offset c L q) (n : Nat) : (nodesOf us q)[n]? = (L[n]?).map fun o =>
    if o.optional then none else some ⟨o.spec, keepOf us n⟩ := by
  unfold nodesOf
  rw [List.getElem?_mapIdx, ht.nodes, List.getElem?_mapIdx, Option.map_map]
  rfl

theorem node_some (ht : Aql.Translated false offset c L q) {n : Nat} {nd : Node T Str Str} :
    (nodesOf us q)[n]? = some (some nd) ↔ ∃ o, L[n]? = some o ∧ o.optional = false ∧ nd = ⟨o.spec, keepOf us n⟩ := by
  rw [nodesOf_get ht]
  cases L[n]? with
  | none => simp
  | some o =>
    cases ho : o.optional
    · simp only [Option.map_some, ho, Bool.false_eq_true, if_false, Option.some.injEq, exists_eq_left', true_and]
      exact ⟨fun h => h.symm, fun h => h.symm⟩
    · simp [ho]

theorem node_none (ht : Aql.Translated false offset c L q) {n : Nat} :
    (nodesOf us q)[n]? = some none ↔ ∃ o, L[n]? = some o ∧ o.optional = true := by
  rw [nodesOf_get ht]
  cases L[n]? with
  | none => simp
  | some o => cases ho : o.optional <;> simp [ho]

theorem keep_iff (i : Nat) (m : SMatch T (AnnoKey Str)) :
    (∀ p, keepOf us i = some p → p m = true) ↔ ∀ u ∈ us, u.1 = i → accepts u.2 m = true := by
  unfold keepOf
  by_cases h : (us.any fun u => decide (u.1 = i)) = true
  · rw [if_pos h]
    simp only [Option.some.injEq, forall_eq', List.all_eq_true, Bool.or_eq_true, Bool.not_eq_true', decide_eq_false_iff_not]
    refine forall₂_congr fun u _ => ?_
    by_cases hu : u.1 = i <;> simp [hu]
  · rw [if_neg h]
    simp only [reduceCtorEq, false_imp_iff, implies_true, true_iff]
    intro u hu hi
    exact absurd (List.any_eq_true.2 ⟨u, hu, by simp [hi]⟩) h

/-- The operators on one node, as they are in the text. -/
theorem unaries_mem (hus : unariesOf env g db th order decU q = some us) {u : Nat × (SMatch T (AnnoKey Str) → Except (Fail E) Bool)} :
    u ∈ us ↔ ∃ (n : Nat) (x : Aql.UnEntry (NsSpec Str Str) Parse.OpSpec RangeSpec), q.uns[n]? = some x ∧
      unaryOf env g db th order (decU n) x = some u := by
  have h := allSome_mapIdx hus
  rw [List.mem_iff_getElem?]
  constructor
  · rintro ⟨n, hn⟩
    have := h n
    rw [hn, Option.map_some, eq_comm, Option.map_eq_some_iff] at this
    obtain ⟨x, h1, h2⟩ := this
    exact ⟨n, x, h1, h2⟩
  · rintro ⟨n, x, h1, h2⟩
    have := h n
    rw [h1, Option.map_some, h2] at this
    refine ⟨n, ?_⟩
    cases hn : us[n]? with
    | none => rw [hn] at this; simp at this
    | some v => rw [hn] at this; simpa using this

theorem bins_mem (hb : binsOf env db dec q = some bins) {b : Bin T Str Str} :
    b ∈ bins ↔ ∃ (n : Nat) (x : Aql.BinEntry (NsSpec Str Str) Parse.OpSpec), q.bins[n]? = some x ∧ binOf env db (dec n) q.offset x = some b := by
  have h := allSome_mapIdx hb
  rw [List.mem_iff_getElem?]
  constructor
  · rintro ⟨n, hn⟩
    have := h n
    rw [hn, Option.map_some, eq_comm, Option.map_eq_some_iff] at this
    obtain ⟨x, h1, h2⟩ := this
    exact ⟨n, x, h1, h2⟩
  · rintro ⟨n, x, h1, h2⟩
    have := h n
    rw [h1, Option.map_some, h2] at this
    refine ⟨n, ?_⟩
    cases hn : bins[n]? with
    | none => rw [hn] at this; simp at this
    | some v => rw [hn] at this; simpa using this

/-! ### Existence -/

/-- All operators have the components that they need. -/
def PartOk (db : Db T) (c : List Parse.QLit) : Prop := ∀ lhs op rhs neg, .bin lhs op rhs neg ∈ c → lacks db op = false

theorem unaries_exist (ht : Aql.Translated false offset c L q) (ha : AltOk db env g r th Ec Rg De Re offset c L) (hpt : PartOk db c) (decU : Nat → Bool × Bool) :
    ∃ us, unariesOf (E := E) env g db th order decU q = some us := by
  refine allSome_exists fun n u hu => ?_
  have hu' := List.mem_of_getElem? hu
  obtain ⟨op, idx⟩ := u
  rcases un_origin ht hu' with ⟨ref, range, _, h, _⟩ | ⟨lhs, o, rhs, neg, hl, he⟩
  · simp only at h
    subst h
    exact ⟨_, rfl⟩
  · obtain ⟨k, hk⟩ := kind_exists (env := env) (decU n) (ha.supported _ _ _ _ hl) (hpt _ _ _ _ hl)
    obtain ⟨i, j, a, b, _, _, _, _, h⟩ := effect_cases he
    rcases h with ⟨_, _, _, h⟩ | ⟨_, _, _, h⟩ | ⟨_, _, _, h⟩ | ⟨_, _, _, h⟩
    · simp at h
    · simp at h
    · simp only [Sum.inr.injEq, Aql.UnEntry.mk.injEq] at h
      obtain ⟨rfl, rfl⟩ := h
      exact ⟨_, by simp only [unaryOf, hk, Option.map_some]; rfl⟩
    · simp only [Sum.inr.injEq, Aql.UnEntry.mk.injEq] at h
      obtain ⟨rfl, rfl⟩ := h
      exact ⟨_, by simp only [unaryOf, hk, Option.map_some]; rfl⟩

/-- An operator between two nodes on the graph, from its entry in the conjunction. -/
theorem bin_kind (ht : Aql.Translated false offset c L q) {x : Aql.BinEntry (NsSpec Str Str) Parse.OpSpec} (hx : x ∈ q.bins) (d : Bool × Bool) :
    ∃ lhs op rhs neg i j a b, .bin lhs op rhs neg ∈ c ∧ Aql.Denotes offset L lhs i ∧ Aql.Denotes offset L rhs j ∧
      L[i]? = some a ∧ L[j]? = some b ∧ a.optional = false ∧ b.optional = false ∧ x.left = offset + i ∧ x.right = offset + j ∧
      isBinding x.op = !neg ∧ compsOf db x = db.comps op ∧
      binOf env db d q.offset x = (kindOf db env d op).map fun k => ⟨if neg then .negated k else k, i, j⟩ := by
  obtain ⟨lhs, op, rhs, neg, hl, he⟩ := bin_origin ht hx
  obtain ⟨i, j, a, b, h1, h2, h3, h4, h⟩ := effect_cases he
  refine ⟨lhs, op, rhs, neg, i, j, a, b, hl, h1, h2, h3, h4, ?_⟩
  rcases h with ⟨rfl, h5, h6, h⟩ | ⟨rfl, h5, h6, h⟩ | ⟨_, _, _, h⟩ | ⟨_, _, _, h⟩
  · simp only [Sum.inl.injEq] at h
    subst h
    refine ⟨h5, h6, rfl, rfl, rfl, rfl, ?_⟩
    simp [binOf, ht.offset_eq]
  · simp only [Sum.inl.injEq] at h
    subst h
    refine ⟨h5, h6, rfl, rfl, rfl, rfl, ?_⟩
    simp [binOf, ht.offset_eq]
  · simp at h
  · simp at h

theorem bins_exist (ht : Aql.Translated false offset c L q) (ha : AltOk db env g r th Ec Rg De Re offset c L) (hpt : PartOk db c) (dec : Nat → Bool × Bool) :
    ∃ bins, binsOf env db dec q = some bins := by
  refine allSome_exists fun n x hx => ?_
  obtain ⟨lhs, op, rhs, neg, i, j, a, b, hl, _, _, _, _, _, _, _, _, _, _, e⟩ :=
    bin_kind (env := env) (db := db) ht (List.mem_of_getElem? hx) (dec n)
  obtain ⟨k, hk⟩ := kind_exists (env := env) (dec n) (ha.supported _ _ _ _ hl) (hpt _ _ _ _ hl)
  exact ⟨_, by rw [e, hk]; rfl⟩

/-! ### Filters -/

/-- **C101**: the filters on single nodes have no errors and decide what the text says: the number of children, or that there is no node for
an optional operand. -/
theorem C101_unary (hco : CorpusOk ops env g r th order Ec D Rg) (hdb : DbOk db r De Re) (ht : Aql.Translated false offset c L q)
    (hs : L.Pairwise fun a b => a.pos < b.pos) (hn : Aql.NamesDistinct L) (ha : AltOk db env g r th Ec Rg De Re offset c L)
    (hus : unariesOf (E := E) env g db th order decU q = some us) (i : Nat) (m : SMatch T (AnnoKey Str)) :
    (∀ u ∈ us, u.1 = i → ∃ b, u.2 m = .ok b) ∧
    ((∀ u ∈ us, u.1 = i → accepts u.2 m = true) ↔
      (∀ ref range, .un ref range ∈ c → Aql.DenotesRef offset L ref i → Arity db r range m.node) ∧
      (∀ lhs op rhs, .bin lhs op rhs true ∈ c → ∀ j a b, Aql.Denotes offset L lhs i → Aql.Denotes offset L rhs j → L[i]? = some a →
        L[j]? = some b → a.optional = false → b.optional = true →
        ¬ ∃ y, Finds env (AnnoStore.spec ops) r b.spec y ∧ Means db env r op m.node y.node) ∧
      ∀ lhs op rhs, .bin lhs op rhs true ∈ c → ∀ j a b, Aql.Denotes offset L lhs j → Aql.Denotes offset L rhs i → L[j]? = some a →
        L[i]? = some b → a.optional = true → b.optional = false →
        ¬ ∃ x, Finds env (AnnoStore.spec ops) r a.spec x ∧ Means db env r op x.node m.node) := by
  -- the filter for an entry
  have entry_un : ∀ {n : Nat} {range : RangeSpec} {idx : Nat} {u}, unaryOf (E := E) env g db th order (decU n) ⟨.user range, idx⟩ = some u →
      u.1 = idx ∧ ∃ b, u.2 m = .ok b ∧ (b = true ↔ Arity db r range m.node) := by
    intro n range idx u hu
    simp only [unaryOf, Option.some.injEq] at hu
    subst hu
    obtain ⟨b, h1, h2⟩ := arity_spec (db := db) (r := r) hdb range m.node
    exact ⟨rfl, b, by simp only [h1, lift], h2⟩
  have entry_bin : ∀ {n : Nat} {op : Aql.BinSpec Parse.OpSpec} {sa sb : NsSpec Str Str} {target : NsSpec Str Str} {left : Bool} {idx : Nat} {u},
      unaryOf (E := E) env g db th order (decU n) ⟨.nonExisting ⟨op, sa, sb⟩ target left, idx⟩ = some u →
      OpFits db r th Ec Rg De Re op → (∀ p, NodeSearch.patternOf target = some p → env.compile p ≠ none) →
      (target = .anyToken → g.anyTokens ≠ none) →
      u.1 = idx ∧ ∃ b, u.2 m = .ok b ∧ (b = true ↔ ¬ ∃ x, Finds env (AnnoStore.spec ops) r target x ∧
        if left then Means db env r op x.node m.node else Means db env r op m.node x.node) := by
    intro n op sa sb target left idx u hu hf hp htk
    simp only [unaryOf, Option.map_eq_some_iff] at hu
    obtain ⟨k, hk, rfl⟩ := hu
    exact ⟨rfl, nonExisting_spec hco hdb hk hf left hp htk m⟩
  have acc : ∀ {f : SMatch T (AnnoKey Str) → Except (Fail E) Bool} {b : Bool}, f m = .ok b → accepts f m = b := by
    intro f b h; simp only [accepts, h]
  have opt_ok : ∀ {j : Nat} {o : Aql.Occ (NsSpec Str Str)}, L[j]? = some o → o.optional = true →
      (∀ p, NodeSearch.patternOf o.spec = some p → env.compile p ≠ none) ∧ (o.spec = .anyToken → g.anyTokens ≠ none) := fun hj ho =>
    ⟨ha.patterns _ (List.mem_of_getElem? hj) (.inl ho), ha.tokens _ (List.mem_of_getElem? hj)⟩
  refine ⟨?_, ?_, ?_⟩
  · -- no errors
    intro u hu _
    obtain ⟨n, x, hx, hux⟩ := (unaries_mem hus).1 hu
    obtain ⟨xop, idx⟩ := x
    rcases un_origin ht (List.mem_of_getElem? hx) with ⟨ref, range, _, h, _⟩ | ⟨lhs, op, rhs, neg, hl, he⟩
    · simp only at h
      subst h
      obtain ⟨_, b, hb, _⟩ := entry_un hux
      exact ⟨b, hb⟩
    · obtain ⟨i', j', a, b, _, _, h3, h4, h⟩ := effect_cases he
      rcases h with ⟨_, _, _, h⟩ | ⟨_, _, _, h⟩ | ⟨_, ho, _, h⟩ | ⟨_, _, ho, h⟩
      · simp at h
      · simp at h
      · simp only [Sum.inr.injEq, Aql.UnEntry.mk.injEq] at h
        obtain ⟨rfl, rfl⟩ := h
        obtain ⟨_, b, hb, _⟩ := entry_bin hux (ha.fits _ _ _ _ hl) (opt_ok h3 ho).1 (opt_ok h3 ho).2
        exact ⟨b, hb⟩
      · simp only [Sum.inr.injEq, Aql.UnEntry.mk.injEq] at h
        obtain ⟨rfl, rfl⟩ := h
        obtain ⟨_, b, hb, _⟩ := entry_bin hux (ha.fits _ _ _ _ hl) (opt_ok h4 ho).1 (opt_ok h4 ho).2
        exact ⟨b, hb⟩
  · -- from the filters to the text
    intro hacc
    have hall := allSome_mapIdx hus
    have get : ∀ {x : Aql.UnEntry (NsSpec Str Str) Parse.OpSpec RangeSpec}, x ∈ q.uns → ∃ (n : Nat) (u : _),
        u ∈ us ∧ unaryOf (E := E) env g db th order (decU n) x = some u := by
      intro x hx
      obtain ⟨n, hn'⟩ := List.mem_iff_getElem?.1 hx
      have := hall n
      rw [hn', Option.map_some] at this
      cases hu : us[n]? with
      | none => rw [hu] at this; simp at this
      | some u =>
        rw [hu] at this
        simp only [Option.map_some, Option.some.injEq] at this
        exact ⟨n, u, List.mem_of_getElem? hu, this.symm⟩
    refine ⟨?_, ?_, ?_⟩
    · intro ref range hl hd
      obtain ⟨i', hd', hu⟩ := un_effect ht hl
      have : i' = i := Aql.denotes_unique (x := .ref ref) hn hs hd' hd
      subst this
      obtain ⟨n, u, hmem, hun⟩ := get hu
      obtain ⟨e1, b, e2, e3⟩ := entry_un hun
      exact e3.1 (acc e2 ▸ hacc u hmem e1)
    · intro lhs op rhs hl j a b hdl hdr h3 h4 hoa hob
      obtain ⟨e, he, _, hin⟩ := bin_effect ht hl
      obtain ⟨i', j', a', b', h1', h2', h3', h4', h⟩ := effect_cases he
      obtain rfl := Aql.denotes_unique hn hs h1' hdl
      obtain rfl := Aql.denotes_unique hn hs h2' hdr
      rw [h3, Option.some.injEq] at h3'
      rw [h4, Option.some.injEq] at h4'
      subst h3' h4'
      rcases h with ⟨h, _⟩ | ⟨_, _, h, _⟩ | ⟨_, h, _⟩ | ⟨_, _, _, h⟩
      · simp at h
      · rw [hob] at h; simp at h
      · rw [hoa] at h; simp at h
      · obtain ⟨n, u, hmem, hun⟩ := get (hin _ h)
        obtain ⟨e1, b, e2, e3⟩ := entry_bin hun (ha.fits _ _ _ _ hl) (opt_ok h4 hob).1 (opt_ok h4 hob).2
        simpa using e3.1 (acc e2 ▸ hacc u hmem e1)
    · intro lhs op rhs hl j a b hdl hdr h3 h4 hoa hob
      obtain ⟨e, he, _, hin⟩ := bin_effect ht hl
      obtain ⟨i', j', a', b', h1', h2', h3', h4', h⟩ := effect_cases he
      obtain rfl := Aql.denotes_unique hn hs h1' hdl
      obtain rfl := Aql.denotes_unique hn hs h2' hdr
      rw [h3, Option.some.injEq] at h3'
      rw [h4, Option.some.injEq] at h4'
      subst h3' h4'
      rcases h with ⟨h, _⟩ | ⟨_, h, _⟩ | ⟨_, _, _, h⟩ | ⟨_, h, _⟩
      · simp at h
      · rw [hoa] at h; simp at h
      · obtain ⟨n, u, hmem, hun⟩ := get (hin _ h)
        obtain ⟨e1, b, e2, e3⟩ := entry_bin hun (ha.fits _ _ _ _ hl) (opt_ok h3 hoa).1 (opt_ok h3 hoa).2
        simpa using e3.1 (acc e2 ▸ hacc u hmem e1)
      · rw [hoa] at h; simp at h
  · -- from the text to the filters
    rintro ⟨t1, t2, t3⟩ u hu hui
    obtain ⟨n, x, hx, hux⟩ := (unaries_mem hus).1 hu
    obtain ⟨xop, idx⟩ := x
    rcases un_origin ht (List.mem_of_getElem? hx) with ⟨ref, range, hl, h, hd⟩ | ⟨lhs, op, rhs, neg, hl, he⟩
    · simp only at h hd
      subst h
      obtain ⟨e1, b, e2, e3⟩ := entry_un hux
      rw [acc e2]
      exact e3.2 (t1 ref range hl (by rw [← hui, e1]; exact hd))
    · obtain ⟨i', j', a, b, h1, h2, h3, h4, h⟩ := effect_cases he
      rcases h with ⟨_, _, _, h⟩ | ⟨_, _, _, h⟩ | ⟨rfl, hoa, hob, h⟩ | ⟨rfl, hoa, hob, h⟩
      · simp at h
      · simp at h
      · simp only [Sum.inr.injEq, Aql.UnEntry.mk.injEq] at h
        obtain ⟨rfl, rfl⟩ := h
        obtain ⟨e1, b', e2, e3⟩ := entry_bin hux (ha.fits _ _ _ _ hl) (opt_ok h3 hoa).1 (opt_ok h3 hoa).2
        rw [acc e2]
        rw [e1] at hui
        subst hui
        exact e3.2 (by simpa using t3 lhs op rhs hl _ a b h1 h2 h3 h4 hoa hob)
      · simp only [Sum.inr.injEq, Aql.UnEntry.mk.injEq] at h
        obtain ⟨rfl, rfl⟩ := h
        obtain ⟨e1, b', e2, e3⟩ := entry_bin hux (ha.fits _ _ _ _ hl) (opt_ok h4 hob).1 (opt_ok h4 hob).2
        rw [acc e2]
        rw [e1] at hui
        subst hui
        exact e3.2 (by simpa using t2 lhs op rhs hl _ a b h1 h2 h3 h4 hoa hob)

end
end Answer
