import Verif.Answer.FindProps
import Verif.Index.Props

/-!
# Queries on a graph of named nodes

The meaning of a query text in an abstract graph (`GSpec`) with nodes that are known by their names, without node identifiers, storages
or index components.
-/

set_option linter.unusedSectionVars false

namespace Answer

open Whole TextSpec Graph

/-! ## Specification -/

namespace Names

variable {C : Type}

/-- Coverage edges that are not part of the index. -/
def Direct (sc : Schema C) (m : GSpec Str Str C) (a b : Str) : Prop := ∃ c, sc.kind c = .coverage ∧ c ≠ sc.inh ∧ m.edge c a b = true

/-- Coverage and dominance edges. -/
def Below (sc : Schema C) (m : GSpec Str Str C) (a b : Str) : Prop := Direct sc m a b ∨ ∃ c, sc.kind c = .dominance ∧ m.edge c a b = true

/-- Tokens have the token label and do not cover anything. -/
def Tok (sc : Schema C) (tok : AnnoKey Str) (m : GSpec Str Str C) (a : Str) : Prop := (m.label a tok).isSome ∧ ¬ ∃ b, Direct sc m a b

/-- The node covers the token, directly or by way of other nodes. -/
def Covered (sc : Schema C) (tok : AnnoKey Str) (m : GSpec Str Str C) (a t : Str) : Prop :=
  Tok sc tok m t ∧ t ≠ a ∧ Relation.TransGen (Below sc m) a t

/-- The order of the tokens. -/
def Next (sc : Schema C) (m : GSpec Str Str C) (a b : Str) : Prop := m.edge sc.order a b = true

/-- The first token that is covered by the node. -/
def First (sc : Schema C) (tok : AnnoKey Str) (m : GSpec Str Str C) (a t : Str) : Prop :=
  Covered sc tok m a t ∧ ∀ t', Covered sc tok m a t' → t' = t ∨ Relation.TransGen (Next sc m) t t'

/-- The last token that is covered by the node. -/
def Last (sc : Schema C) (tok : AnnoKey Str) (m : GSpec Str Str C) (a t : Str) : Prop :=
  Covered sc tok m a t ∧ ∀ t', Covered sc tok m a t' → t' = t ∨ Relation.TransGen (Next sc m) t' t

/-- Coverage of any kind. -/
def Cov (sc : Schema C) (tok : AnnoKey Str) (m : GSpec Str Str C) (a t : Str) : Prop := Direct sc m a t ∨ Covered sc tok m a t

/-- A path of an allowed length in one of the components, and an edge between its ends with the annotation. -/
def Path (env : NsEnv Str Str) (m : GSpec Str Str C) (K : C → Prop) (dist : RangeSpec) (anno : Option Parse.EdgeSpec) (a b : Str) : Prop :=
  ∃ c, K c ∧ (∃ d, Walk.SimplePath (fun x y => m.edge c x y = true) a b d ∧ Within dist.minDist dist.maxDist d) ∧
    ∀ s, anno = some s → EdgeAnno env (fun k v => m.eanno c a b k = some v) s

/-- What an operator of the text means. `K` are the components of the corpus, `cname` their names, `part` the component for part-of and
`segc` the components of segmentations. -/
def Means (sc : Schema C) (env : NsEnv Str Str) (cname : C → Str) (part : C) (segc : Str → C) (K : C → Prop) (m : GSpec Str Str C) :
    Aql.BinSpec Parse.OpSpec → Str → Str → Prop
  | .join (.dominance name dist anno), a, b => Path env m (fun c => K c ∧ sc.kind c = .dominance ∧ cname c = name) dist anno a b
  | .join (.pointing name dist anno), a, b => Path env m (fun c => K c ∧ sc.kind c = .pointing ∧ cname c = name) dist anno a b
  | .dist (.precedence none) range, a, b =>
    Precedes (Tok sc (AnnoKey.mk env.annis env.tok) m) (First sc (AnnoKey.mk env.annis env.tok) m) (Last sc (AnnoKey.mk env.annis env.tok) m)
      (Next sc m) range a b
  | .dist (.near none) range, a, b =>
    Precedes (Tok sc (AnnoKey.mk env.annis env.tok) m) (First sc (AnnoKey.mk env.annis env.tok) m) (Last sc (AnnoKey.mk env.annis env.tok) m)
      (Next sc m) range a b ∨
    Precedes (Tok sc (AnnoKey.mk env.annis env.tok) m) (First sc (AnnoKey.mk env.annis env.tok) m) (Last sc (AnnoKey.mk env.annis env.tok) m)
      (Next sc m) range b a
  | .dist (.precedence (some seg)) range, a, b => K (segc seg) ∧ Ordered (fun x y => m.edge (segc seg) x y = true) range a b
  | .dist (.near (some seg)) range, a, b =>
    K (segc seg) ∧ (Ordered (fun x y => m.edge (segc seg) x y = true) range a b ∨ Ordered (fun x y => m.edge (segc seg) x y = true) range b a)
  | .other (.partOf dist), a, b => Path env m (fun c => c = part) dist none a b
  | .other .overlap, a, b => Share (Tok sc (AnnoKey.mk env.annis env.tok) m) (Cov sc (AnnoKey.mk env.annis env.tok) m) a b
  | .other .identicalCoverage, a, b =>
    SameBorders (Tok sc (AnnoKey.mk env.annis env.tok) m) (First sc (AnnoKey.mk env.annis env.tok) m) (Last sc (AnnoKey.mk env.annis env.tok) m) a b
  | .other .inclusion, a, b =>
    Includes (Tok sc (AnnoKey.mk env.annis env.tok) m) (First sc (AnnoKey.mk env.annis env.tok) m) (Last sc (AnnoKey.mk env.annis env.tok) m)
      (Next sc m) a b
  | .other .leftAlignment, a, b => ∃ t, Border (Tok sc (AnnoKey.mk env.annis env.tok) m) (First sc (AnnoKey.mk env.annis env.tok) m) a t ∧
    Border (Tok sc (AnnoKey.mk env.annis env.tok) m) (First sc (AnnoKey.mk env.annis env.tok) m) b t
  | .other .rightAlignment, a, b => ∃ t, Border (Tok sc (AnnoKey.mk env.annis env.tok) m) (Last sc (AnnoKey.mk env.annis env.tok) m) a t ∧
    Border (Tok sc (AnnoKey.mk env.annis env.tok) m) (Last sc (AnnoKey.mk env.annis env.tok) m) b t
  | .other .identicalNode, a, b => a = b
  | _, _, _ => False

/-- The number of children of a node over all components of dominance and pointing is in the range; no limits mean at least one. -/
def Arity (sc : Schema C) (m : GSpec Str Str C) (range : RangeSpec) (a : Str) : Prop :=
  ∃ children : List Str, children.Nodup ∧
    (∀ b, b ∈ children ↔ ∃ c, (sc.kind c = .dominance ∨ sc.kind c = .pointing) ∧ m.edge c a b = true) ∧
    match range with
    | .bound min max => min ≤ children.length ∧ children.length ≤ max
    | .unbound => 1 ≤ children.length

end Names

/-- A match in the abstract graph: the name of a node, and the key of the annotation. The match for an optional node may be without a name. -/
abbrev NMatch := Option Str × AnnoKey Str

/-- A row of matches answers an alternative of the text (see `TextAnswer`), for any meaning of node searches and operators. -/
structure AnswerBy {M : Type} (Find : NsSpec Str Str → M → Prop) (Mean : Aql.BinSpec Parse.OpSpec → M → M → Prop) (Ar : RangeSpec → M → Prop)
    (d : M) (offset : Nat) (c : List Parse.QLit) (L : List (Aql.Occ (NsSpec Str Str))) (row : List M) : Prop where
  length : ∀ i, i < row.length ↔ ∃ (n : Nat) (o : Aql.Occ (NsSpec Str Str)), i ≤ n ∧ L[n]? = some o ∧ o.optional = false
  found : ∀ (n : Nat) o, L[n]? = some o → o.optional = false → ∃ x, row[n]? = some x ∧ Find o.spec x
  default : ∀ (n : Nat) o x, L[n]? = some o → o.optional = true → row[n]? = some x → x = d
  holds : ∀ lhs op rhs, .bin lhs op rhs false ∈ c → ∀ i j, Aql.Denotes offset L lhs i → Aql.Denotes offset L rhs j →
    ∃ x y, row[i]? = some x ∧ row[j]? = some y ∧ Mean op x y
  negated : ∀ lhs op rhs, .bin lhs op rhs true ∈ c → ∀ i j a b, Aql.Denotes offset L lhs i → Aql.Denotes offset L rhs j →
    L[i]? = some a → L[j]? = some b → a.optional = false → b.optional = false → ∃ x y, row[i]? = some x ∧ row[j]? = some y ∧ ¬ Mean op x y
  missingRight : ∀ lhs op rhs, .bin lhs op rhs true ∈ c → ∀ i j a b, Aql.Denotes offset L lhs i → Aql.Denotes offset L rhs j →
    L[i]? = some a → L[j]? = some b → a.optional = false → b.optional = true →
    ∃ x, row[i]? = some x ∧ ¬ ∃ y, Find b.spec y ∧ Mean op x y
  missingLeft : ∀ lhs op rhs, .bin lhs op rhs true ∈ c → ∀ i j a b, Aql.Denotes offset L lhs i → Aql.Denotes offset L rhs j →
    L[i]? = some a → L[j]? = some b → a.optional = true → b.optional = false →
    ∃ y, row[j]? = some y ∧ ¬ ∃ x, Find a.spec x ∧ Mean op x y
  arity : ∀ ref range, .un ref range ∈ c → ∀ i, Aql.DenotesRef offset L ref i → ∃ x, row[i]? = some x ∧ Ar range x

/-- A row of names answers the alternative `i` of the query in the abstract graph. -/
def Names.AnswersAlt {C : Type} (sc : Schema C) (env : NsEnv Str Str) (cname : C → Str) (part : C) (segc : Str → C) (K : C → Prop)
    (m : GSpec Str Str C) (d : NMatch) (alts : List (List Parse.QLit)) (Ls : List (List (Aql.Occ (NsSpec Str Str)))) (i : Nat) (row : List NMatch) : Prop :=
  ∃ c L, alts[i]? = some c ∧ Ls[i]? = some L ∧ AnswerBy
    (fun s x => ∃ n k, x.1 = some n ∧ NodeSearch.Wanted env m.label (Cov sc (AnnoKey.mk env.annis env.tok) m) s n k ∧ x.2 = NodeSearch.ShownKey env s k)
    (fun op x y => ∃ a b, x.1 = some a ∧ y.1 = some b ∧ Means sc env cname part segc K m op a b)
    (fun range x => ∃ a, x.1 = some a ∧ Arity sc m range a) d (before Ls i) c L row

/-- Different node searches have different matches, optional ones aside. -/
def DistinctBy {M : Type} (L : List (Aql.Occ (NsSpec Str Str))) (row : List M) : Prop :=
  ∀ (i j : Nat) x a b, i ≠ j → L[i]? = some a → L[j]? = some b → a.optional = false → b.optional = false → row[i]? = some x → row[j]? ≠ some x

/-! ## Renaming -/

section
variable {T : Type} [LinearOrder T]

theorem textAnswer_iff (db : Db T) (env : NsEnv Str Str) (m : AnnoStore.Spec T Str Str) (r : Rels T Str Str) (d : SMatch T (AnnoKey Str))
    (offset : Nat) (c : List Parse.QLit) (L : List (Aql.Occ (NsSpec Str Str))) (row : Row T (AnnoKey Str)) :
    TextAnswer db env m r d offset c L row ↔
    AnswerBy (Finds env m r) (fun op x y => Answer.Means db env r op x.node y.node) (fun range x => Answer.Arity db r range x.node) d offset c L row :=
  ⟨fun h => ⟨h.1, h.2, h.3, h.4, h.5, h.6, h.7, h.8⟩, fun h => ⟨h.1, h.2, h.3, h.4, h.5, h.6, h.7, h.8⟩⟩

end

section
variable {M M' : Type} {F : NsSpec Str Str → M → Prop} {R : Aql.BinSpec Parse.OpSpec → M → M → Prop} {A : RangeSpec → M → Prop}
  {F' : NsSpec Str Str → M' → Prop} {R' : Aql.BinSpec Parse.OpSpec → M' → M' → Prop} {A' : RangeSpec → M' → Prop}
  {P : M → Prop} {f : M → M'} {d : M} {offset : Nat} {c : List Parse.QLit} {L : List (Aql.Occ (NsSpec Str Str))}

/-- Renaming of matches keeps answers. -/
theorem AnswerBy.map (hP : ∀ s x, F s x → P x) (hF : ∀ s x, P x → (F s x ↔ F' s (f x))) (hF' : ∀ s y, F' s y → ∃ x, P x ∧ f x = y)
    (hR : ∀ op x y, P x → P y → (R op x y ↔ R' op (f x) (f y))) (hA : ∀ range x, P x → (A range x ↔ A' range (f x)))
    (hreq : ∀ lhs op rhs, .bin lhs op rhs false ∈ c → ∀ i o, Aql.Denotes offset L lhs i ∨ Aql.Denotes offset L rhs i → L[i]? = some o →
      o.optional = false)
    (hreqA : ∀ ref range, .un ref range ∈ c → ∀ i o, Aql.DenotesRef offset L ref i → L[i]? = some o → o.optional = false)
    {row : List M} : AnswerBy F R A d offset c L row → AnswerBy F' R' A' (f d) offset c L (row.map f) := by
  intro h
  have hnamed : ∀ (n : Nat) o x, L[n]? = some o → o.optional = false → row[n]? = some x → P x ∧ F o.spec x := by
    intro n o x h1 h2 h3
    obtain ⟨y, h4, h5⟩ := h.found n o h1 h2
    rw [h3, Option.some.injEq] at h4
    subst h4
    exact ⟨hP _ _ h5, h5⟩
  have hget : ∀ (n : Nat) x, row[n]? = some x → (row.map f)[n]? = some (f x) := by
    intro n x h; simp [h]
  have hinL : ∀ (n : Nat) x, row[n]? = some x → ∃ o, L[n]? = some o := by
    intro n x hx
    obtain ⟨hlt, _⟩ := List.getElem?_eq_some_iff.1 hx
    obtain ⟨k, o, h1, h2, _⟩ := (h.length n).1 hlt
    obtain ⟨hlt', _⟩ := List.getElem?_eq_some_iff.1 h2
    exact ⟨_, List.getElem?_eq_getElem (by omega)⟩
  constructor
  · simpa using h.length
  · intro n o h1 h2
    obtain ⟨x, h3, h4⟩ := h.found n o h1 h2
    exact ⟨_, hget n x h3, (hF _ _ (hP _ _ h4)).1 h4⟩
  · intro n o x h1 h2 h3
    rw [List.getElem?_map, Option.map_eq_some_iff] at h3
    obtain ⟨y, h3, rfl⟩ := h3
    rw [h.default n o y h1 h2 h3]
  · intro lhs op rhs hm i j hi hj
    obtain ⟨x, y, h1, h2, h3⟩ := h.holds lhs op rhs hm i j hi hj
    obtain ⟨a, ha⟩ := hinL i x h1
    obtain ⟨b, hb⟩ := hinL j y h2
    have p1 := (hnamed i a x ha (hreq lhs op rhs hm i a (Or.inl hi) ha) h1).1
    have p2 := (hnamed j b y hb (hreq lhs op rhs hm j b (Or.inr hj) hb) h2).1
    exact ⟨_, _, hget i x h1, hget j y h2, (hR op x y p1 p2).1 h3⟩
  · intro lhs op rhs hm i j a b hi hj ha hb hao hbo
    obtain ⟨x, y, h1, h2, h3⟩ := h.negated lhs op rhs hm i j a b hi hj ha hb hao hbo
    have p1 := (hnamed i a x ha hao h1).1
    have p2 := (hnamed j b y hb hbo h2).1
    exact ⟨_, _, hget i x h1, hget j y h2, fun h4 => h3 ((hR op x y p1 p2).2 h4)⟩
  · intro lhs op rhs hm i j a b hi hj ha hb hao hbo
    obtain ⟨x, h1, h2⟩ := h.missingRight lhs op rhs hm i j a b hi hj ha hb hao hbo
    have p1 := (hnamed i a x ha hao h1).1
    refine ⟨_, hget i x h1, ?_⟩
    rintro ⟨y', h3, h4⟩
    obtain ⟨y, py, rfl⟩ := hF' _ _ h3
    exact h2 ⟨y, (hF _ _ py).2 h3, (hR op x y p1 py).2 h4⟩
  · intro lhs op rhs hm i j a b hi hj ha hb hao hbo
    obtain ⟨y, h1, h2⟩ := h.missingLeft lhs op rhs hm i j a b hi hj ha hb hao hbo
    have p1 := (hnamed j b y hb hbo h1).1
    refine ⟨_, hget j y h1, ?_⟩
    rintro ⟨x', h3, h4⟩
    obtain ⟨x, px, rfl⟩ := hF' _ _ h3
    exact h2 ⟨x, (hF _ _ px).2 h3, (hR op x y px p1).2 h4⟩
  · intro ref range hm i hi
    obtain ⟨x, h1, h2⟩ := h.arity ref range hm i hi
    obtain ⟨a, ha⟩ := hinL i x h1
    have p1 := (hnamed i a x ha (hreqA ref range hm i a hi ha) h1).1
    exact ⟨_, hget i x h1, (hA range x p1).1 h2⟩

/-- Every answer with other names is a renamed answer. -/
theorem AnswerBy.unmap (hF : ∀ s x, P x → (F s x ↔ F' s (f x))) (hF' : ∀ s y, F' s y → ∃ x, P x ∧ f x = y) (hP : ∀ s x, F s x → P x)
    (hR : ∀ op x y, P x → P y → (R op x y ↔ R' op (f x) (f y))) (hA : ∀ range x, P x → (A range x ↔ A' range (f x)))
    (hreq : ∀ lhs op rhs, .bin lhs op rhs false ∈ c → ∀ i o, Aql.Denotes offset L lhs i ∨ Aql.Denotes offset L rhs i → L[i]? = some o →
      o.optional = false)
    (hreqA : ∀ ref range, .un ref range ∈ c → ∀ i o, Aql.DenotesRef offset L ref i → L[i]? = some o → o.optional = false)
    {row' : List M'} (h : AnswerBy F' R' A' (f d) offset c L row') : ∃ row, row.map f = row' ∧ AnswerBy F R A d offset c L row := by
  classical
  have hinL : ∀ (n : Nat), n < row'.length → ∃ o, L[n]? = some o := by
    intro n hlt
    obtain ⟨k, o, h1, h2, _⟩ := (h.length n).1 hlt
    obtain ⟨hlt', _⟩ := List.getElem?_eq_some_iff.1 h2
    exact ⟨_, List.getElem?_eq_getElem (by omega)⟩
  have hex : ∀ n : Fin row'.length, ∃ x, f x = row'[n.1] ∧ ∀ o, L[n.1]? = some o → (o.optional = false → P x) ∧ (o.optional = true → x = d) := by
    intro n
    obtain ⟨o, ho⟩ := hinL n.1 n.2
    cases hopt : o.optional with
    | false =>
      obtain ⟨y, h1, h2⟩ := h.found n.1 o ho hopt
      obtain ⟨x, px, rfl⟩ := hF' _ _ h2
      rw [List.getElem?_eq_getElem n.2, Option.some.injEq] at h1
      refine ⟨x, h1.symm, fun o' ho' => ?_⟩
      rw [ho, Option.some.injEq] at ho'
      subst ho'
      simp [hopt, px]
    | true =>
      refine ⟨d, (h.default n.1 o _ ho hopt (List.getElem?_eq_getElem n.2)).symm, fun o' ho' => ?_⟩
      rw [ho, Option.some.injEq] at ho'
      subst ho'
      simp [hopt]
  choose φ h1 h2 using hex
  have hrow : (List.ofFn φ).map f = row' := by
    apply List.ext_getElem
    · simp
    · intro n a b
      simp [h1]
  refine ⟨List.ofFn φ, hrow, ?_⟩
  have hget : ∀ (n : Nat) y, row'[n]? = some y → ∃ x, (List.ofFn φ)[n]? = some x ∧ f x = y ∧
      ∀ o, L[n]? = some o → (o.optional = false → P x) ∧ (o.optional = true → x = d) := by
    intro n y hy
    obtain ⟨hlt, rfl⟩ := List.getElem?_eq_some_iff.1 hy
    exact ⟨φ ⟨n, hlt⟩, by simp [hlt], h1 ⟨n, hlt⟩, h2 ⟨n, hlt⟩⟩
  constructor
  · simpa using h.length
  · intro n o ho hopt
    obtain ⟨y, h3, h4⟩ := h.found n o ho hopt
    obtain ⟨x, h5, rfl, h6⟩ := hget n y h3
    exact ⟨x, h5, (hF _ _ ((h6 o ho).1 hopt)).2 h4⟩
  · intro n o x ho hopt hx
    have hlt : n < row'.length := by
      obtain ⟨hlt, _⟩ := List.getElem?_eq_some_iff.1 hx
      simpa using hlt
    obtain ⟨x', h5, _, h6⟩ := hget n _ (List.getElem?_eq_getElem hlt)
    rw [hx, Option.some.injEq] at h5
    rw [h5]
    exact (h6 o ho).2 hopt
  · intro lhs op rhs hm i j hi hj
    obtain ⟨x', y', g1, g2, g3⟩ := h.holds lhs op rhs hm i j hi hj
    obtain ⟨x, e1, rfl, e2⟩ := hget i x' g1
    obtain ⟨y, e3, rfl, e4⟩ := hget j y' g2
    obtain ⟨a, ha⟩ := hinL i (List.getElem?_eq_some_iff.1 g1).1
    obtain ⟨b, hb⟩ := hinL j (List.getElem?_eq_some_iff.1 g2).1
    exact ⟨x, y, e1, e3, (hR op x y ((e2 a ha).1 (hreq lhs op rhs hm i a (Or.inl hi) ha)) ((e4 b hb).1 (hreq lhs op rhs hm j b (Or.inr hj) hb))).2 g3⟩
  · intro lhs op rhs hm i j a b hi hj ha hb hao hbo
    obtain ⟨x', y', g1, g2, g3⟩ := h.negated lhs op rhs hm i j a b hi hj ha hb hao hbo
    obtain ⟨x, e1, rfl, e2⟩ := hget i x' g1
    obtain ⟨y, e3, rfl, e4⟩ := hget j y' g2
    exact ⟨x, y, e1, e3, fun g4 => g3 ((hR op x y ((e2 a ha).1 hao) ((e4 b hb).1 hbo)).1 g4)⟩
  · intro lhs op rhs hm i j a b hi hj ha hb hao hbo
    obtain ⟨x', g1, g2⟩ := h.missingRight lhs op rhs hm i j a b hi hj ha hb hao hbo
    obtain ⟨x, e1, rfl, e2⟩ := hget i x' g1
    refine ⟨x, e1, ?_⟩
    rintro ⟨y, g3, g4⟩
    have py := hP _ _ g3
    exact g2 ⟨f y, (hF _ _ py).1 g3, (hR op x y ((e2 a ha).1 hao) py).1 g4⟩
  · intro lhs op rhs hm i j a b hi hj ha hb hao hbo
    obtain ⟨y', g1, g2⟩ := h.missingLeft lhs op rhs hm i j a b hi hj ha hb hao hbo
    obtain ⟨y, e1, rfl, e2⟩ := hget j y' g1
    refine ⟨y, e1, ?_⟩
    rintro ⟨x, g3, g4⟩
    have px := hP _ _ g3
    exact g2 ⟨f x, (hF _ _ px).1 g3, (hR op x y px ((e2 b hb).1 hbo)).1 g4⟩
  · intro ref range hm i hi
    obtain ⟨x', g1, g2⟩ := h.arity ref range hm i hi
    obtain ⟨x, e1, rfl, e2⟩ := hget i x' g1
    obtain ⟨a, ha⟩ := hinL i (List.getElem?_eq_some_iff.1 g1).1
    exact ⟨x, e1, (hA range x ((e2 a ha).1 (hreqA ref range hm i a hi ha))).2 g2⟩

end

/-! ## Relations on both sides -/

namespace Transport

variable {A B : Type} {N : A → B → Prop}

/-- Names are unique. -/
structure Unique (N : A → B → Prop) : Prop where
  fn : ∀ a x y, N a x → N a y → x = y
  inj : ∀ a b x, N a x → N b x → a = b

theorem Unique.flip (h : Unique N) : Unique (flip N) := ⟨fun a x y h1 h2 => h.inj x y a h1 h2, fun a b x h1 h2 => h.fn x a b h1 h2⟩

/-- The second relation holds for the names if the first one holds. -/
def Fwd (N : A → B → Prop) (R : A → A → Prop) (R' : B → B → Prop) : Prop := ∀ a b, R a b → ∃ x y, N a x ∧ N b y ∧ R' x y

/-- Two sets with the same names. -/
def FwdSet (N : A → B → Prop) (P : A → Prop) (P' : B → Prop) : Prop := ∀ a, P a → ∃ x, N a x ∧ P' x

theorem Fwd.at {R : A → A → Prop} {R' : B → B → Prop} (h : Fwd N R R') (hN : Unique N) {a b : A} {x : B} (hx : N a x) (hr : R a b) :
    ∃ y, N b y ∧ R' x y := by
  obtain ⟨x', y, h1, h2, h3⟩ := h a b hr
  rw [hN.fn a x x' hx h1]
  exact ⟨y, h2, h3⟩

theorem Fwd.iff {R : A → A → Prop} {R' : B → B → Prop} (h : Fwd N R R') (h' : Fwd (flip N) R' R) (hN : Unique N) {a b : A} {x y : B}
    (hx : N a x) (hy : N b y) : R a b ↔ R' x y := by
  constructor
  · intro hr
    obtain ⟨y', h1, h2⟩ := h.at hN hx hr
    rwa [hN.fn b y y' hy h1]
  · intro hr
    obtain ⟨b', h1, h2⟩ := h'.at hN.flip (show flip N x a from hx) hr
    rwa [hN.inj b b' y hy h1]

theorem FwdSet.iff {P : A → Prop} {P' : B → Prop} (h : FwdSet N P P') (h' : FwdSet (flip N) P' P) (hN : Unique N) {a : A} {x : B}
    (hx : N a x) : P a ↔ P' x := by
  constructor
  · intro hp
    obtain ⟨x', h1, h2⟩ := h a hp
    rwa [hN.fn a x x' hx h1]
  · intro hp
    obtain ⟨a', h1, h2⟩ := h' x hp
    rwa [hN.inj a a' x hx h1]

theorem Fwd.transGen {R : A → A → Prop} {R' : B → B → Prop} (h : Fwd N R R') (hN : Unique N) : Fwd N (Relation.TransGen R) (Relation.TransGen R') := by
  intro a b hab
  induction hab with
  | single h1 =>
    obtain ⟨x, y, h2, h3, h4⟩ := h _ _ h1
    exact ⟨x, y, h2, h3, .single h4⟩
  | tail _ h1 ih =>
    obtain ⟨x, y, h2, h3, h4⟩ := ih
    obtain ⟨z, h5, h6⟩ := h.at hN h3 h1
    exact ⟨x, z, h2, h5, h4.tail h6⟩

theorem Fwd.reflTransGen {R : A → A → Prop} {R' : B → B → Prop} (h : Fwd N R R') (hN : Unique N) {a b : A} {x : B} (hx : N a x)
    (hab : Relation.ReflTransGen R a b) : ∃ y, N b y ∧ Relation.ReflTransGen R' x y := by
  induction hab with
  | refl => exact ⟨x, hx, .refl⟩
  | tail _ h1 ih =>
    obtain ⟨y, h3, h4⟩ := ih
    obtain ⟨z, h5, h6⟩ := h.at hN h3 h1
    exact ⟨z, h5, h4.tail h6⟩

theorem Fwd.simplePath {R : A → A → Prop} {R' : B → B → Prop} (h : Fwd N R R') (hN : Unique N) {a b : A} {x : B} {d : Nat} (hx : N a x)
    (hab : Walk.SimplePath R a b d) : ∃ y, N b y ∧ Walk.SimplePath R' x y d := by
  obtain ⟨p, ⟨h1, h2, h3⟩, h4, h5⟩ := hab
  have key : ∀ (p : List A) (a : A) (x : B), p.head? = some a → N a x → List.IsChain R p → ∃ q, List.Forall₂ N p q ∧ q.head? = some x ∧ List.IsChain R' q := by
    intro p
    induction p with
    | nil => intro a x h; cases h
    | cons a0 p ih =>
      intro a x ha hx hc
      obtain rfl : a0 = a := by simpa using ha
      cases p with
      | nil => exact ⟨[x], .cons hx .nil, rfl, by simp⟩
      | cons a1 p =>
        rw [List.isChain_cons_cons] at hc
        obtain ⟨x1, g1, g2⟩ := h.at hN hx hc.1
        obtain ⟨q, g3, g4, g5⟩ := ih a1 x1 rfl g1 hc.2
        refine ⟨x :: q, .cons hx g3, rfl, ?_⟩
        cases q with
        | nil => cases g4
        | cons y q =>
          obtain rfl : y = x1 := by simpa using g4
          exact List.isChain_cons_cons.2 ⟨g2, g5⟩
  obtain ⟨q, g1, g2, g3⟩ := key p a x h1 hx h3
  have hlast : ∀ (p : List A) (q : List B) (b : A), List.Forall₂ N p q → p.getLast? = some b → ∃ y, q.getLast? = some y ∧ N b y := by
    intro p q b hpq hb
    have hl := hpq.length_eq
    rw [List.getLast?_eq_getElem?] at hb
    obtain ⟨hlt, rfl⟩ := List.getElem?_eq_some_iff.1 hb
    refine ⟨q[p.length - 1]'(by omega), ?_, ?_⟩
    · rw [List.getLast?_eq_getElem?, show q.length - 1 = p.length - 1 by omega, List.getElem?_eq_getElem (by omega)]
    · exact (List.forall₂_iff_get.1 hpq).2 _ hlt (by omega)
  obtain ⟨y, g4, g5⟩ := hlast p q b g1 h2
  refine ⟨y, g5, q, ⟨g2, g4, g3⟩, ?_, by rw [← g1.length_eq, h5]⟩
  have hnd : ∀ (p : List A) (q : List B), List.Forall₂ N p q → p.Nodup → q.Nodup := by
    intro p q hpq hp
    induction hpq with
    | nil => exact List.nodup_nil
    | cons e1 e2 ih =>
      rw [List.nodup_cons] at hp ⊢
      refine ⟨fun hm => hp.1 ?_, ih hp.2⟩
      clear ih hp
      induction e2 with
      | nil => cases hm
      | cons e3 e4 ih2 =>
        rcases List.mem_cons.1 hm with rfl | hm
        · rw [hN.inj _ _ _ e1 e3]; simp
        · exact List.mem_cons_of_mem _ (ih2 hm)
  exact hnd p q g1 h4

theorem simplePath_iff {R : A → A → Prop} {R' : B → B → Prop} (h : Fwd N R R') (h' : Fwd (flip N) R' R) (hN : Unique N) {a b : A} {x y : B}
    (hx : N a x) (hy : N b y) (d : Nat) : Walk.SimplePath R a b d ↔ Walk.SimplePath R' x y d := by
  constructor
  · intro hr
    obtain ⟨y', h1, h2⟩ := h.simplePath hN hx hr
    rwa [hN.fn b y y' hy h1]
  · intro hr
    obtain ⟨b', h1, h2⟩ := h'.simplePath hN.flip (show flip N x a from hx) hr
    rwa [hN.inj b b' y hy h1]

/-- The relations about the text. -/
structure TextFwd (N : A → B → Prop) (tok : A → Prop) (tok' : B → Prop) (F L O Cv : A → A → Prop) (F' L' O' Cv' : B → B → Prop) : Prop where
  tok : FwdSet N tok tok'
  first : Fwd N F F'
  last : Fwd N L L'
  next : Fwd N O O'
  cov : Fwd N Cv Cv'

section
variable {tok : A → Prop} {tok' : B → Prop} {F L O Cv : A → A → Prop} {F' L' O' Cv' : B → B → Prop}
variable (hN : Unique N) (h : TextFwd N tok tok' F L O Cv F' L' O' Cv') (h' : TextFwd (flip N) tok' tok F' L' O' Cv' F L O Cv)
include hN h h'

theorem border_fwd {R : A → A → Prop} {R' : B → B → Prop} (hR : Fwd N R R') {a t : A} {x : B} (hx : N a x) (hb : Border tok R a t) :
    ∃ u, N t u ∧ Border tok' R' x u := by
  rcases hb with ⟨h1, rfl⟩ | ⟨h1, h2⟩
  · exact ⟨x, hx, Or.inl ⟨(h.tok.iff h'.tok hN hx).1 h1, rfl⟩⟩
  · obtain ⟨u, h3, h4⟩ := hR.at hN hx h2
    exact ⟨u, h3, Or.inr ⟨fun h5 => h1 ((h.tok.iff h'.tok hN hx).2 h5), h4⟩⟩

theorem precedes_fwd {range : RangeSpec} {a b : A} {x y : B} (hx : N a x) (hy : N b y) (hp : Precedes tok F L O range a b) :
    Precedes tok' F' L' O' range x y := by
  obtain ⟨s, e, h1, h2, d, h3, h4⟩ := hp
  obtain ⟨s', n1, b1⟩ := border_fwd hN h h' h.last hx h1
  obtain ⟨e', n2, b2⟩ := border_fwd hN h h' h.first hy h2
  exact ⟨s', e', b1, b2, d, (simplePath_iff h.next h'.next hN n1 n2 d).1 h3, h4⟩

theorem share_fwd {a b : A} {x y : B} (hx : N a x) (hy : N b y) (hp : Share tok Cv a b) : Share tok' Cv' x y := by
  obtain ⟨t, h1, h2⟩ := hp
  obtain ⟨u, n1, b1⟩ := border_fwd hN h h' h.cov hx h1
  obtain ⟨v, n2, b2⟩ := border_fwd hN h h' h.cov hy h2
  obtain rfl := hN.fn _ _ _ n1 n2
  exact ⟨u, b1, b2⟩

theorem common_fwd {R : A → A → Prop} {R' : B → B → Prop} (hR : Fwd N R R') {a b : A} {x y : B} (hx : N a x) (hy : N b y)
    (hp : ∃ t, Border tok R a t ∧ Border tok R b t) : ∃ t, Border tok' R' x t ∧ Border tok' R' y t := by
  obtain ⟨t, h1, h2⟩ := hp
  obtain ⟨u, n1, b1⟩ := border_fwd hN h h' hR hx h1
  obtain ⟨v, n2, b2⟩ := border_fwd hN h h' hR hy h2
  obtain rfl := hN.fn _ _ _ n1 n2
  exact ⟨u, b1, b2⟩

theorem between_fwd {a b c : A} {x y z : B} (hx : N a x) (hy : N b y) (hz : N c z) (hp : Between O a b c) : Between O' x y z := by
  obtain ⟨h1, h2⟩ := hp
  obtain ⟨y', e1, g1⟩ := h.next.reflTransGen hN hx h1
  obtain ⟨z', e2, g2⟩ := h.next.reflTransGen hN hy h2
  rw [hN.fn _ _ _ hy e1, hN.fn _ _ _ hz e2]
  exact ⟨g1, by rwa [← hN.fn _ _ _ hy e1]⟩

theorem includes_fwd {a b : A} {x y : B} (hx : N a x) (hy : N b y) (hp : Includes tok F L O a b) : Includes tok' F' L' O' x y := by
  obtain ⟨sl, el, sr, er, h1, h2, h3, h4, h5, h6⟩ := hp
  obtain ⟨sl', n1, b1⟩ := border_fwd hN h h' h.first hx h1
  obtain ⟨el', n2, b2⟩ := border_fwd hN h h' h.last hx h2
  obtain ⟨sr', n3, b3⟩ := border_fwd hN h h' h.first hy h3
  obtain ⟨er', n4, b4⟩ := border_fwd hN h h' h.last hy h4
  exact ⟨sl', el', sr', er', b1, b2, b3, b4, between_fwd hN h h' n1 n3 n2 h5, between_fwd hN h h' n1 n4 n2 h6⟩

end

end Transport

end Answer
