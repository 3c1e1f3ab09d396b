import Verif.Subgraph.Window
import Verif.Adj.Props
import Mathlib.Data.List.Induction

/-!
# C55: extracting the nodes, labels and edges
-/

set_option linter.unusedSimpArgs false
set_option linter.unusedSectionVars false
set_option linter.unusedVariables false

open TextSpec

namespace SubgraphSpec

variable {N : Type}

/-- `b` follows `a` immediately in the list. -/
def Next (l : List N) (a b : N) : Prop := ∃ p q, l = p ++ a :: b :: q

/-- The items of a list in the order of their first occurrences. -/
def firsts [DecidableEq N] (l : List N) : List N := l.reverse.dedup.reverse

theorem next_snoc {l : List N} {x a b : N} : Next (l ++ [x]) a b ↔ Next l a b ∨ (l.getLast? = some a ∧ b = x) := by
  unfold Next
  constructor
  · rintro ⟨p, q, h⟩
    rcases List.eq_nil_or_concat q with rfl | ⟨q', y, rfl⟩
    · right
      have h' : l ++ [x] = (p ++ [a]) ++ [b] := by rw [h]; simp
      obtain ⟨e1, e2⟩ := List.append_inj' h' rfl
      rw [e1]
      exact ⟨by simp, (List.singleton_injective e2).symm⟩
    · left
      have h' : l ++ [x] = (p ++ a :: b :: q') ++ [y] := by rw [h]; simp
      obtain ⟨e1, _⟩ := List.append_inj' h' rfl
      exact ⟨p, q', e1⟩
  · rintro (⟨p, q, rfl⟩ | ⟨h, rfl⟩)
    · exact ⟨p, q ++ [x], by simp⟩
    · obtain ⟨p, rfl⟩ := List.getLast?_eq_some_iff.1 h
      exact ⟨p, [], by simp⟩

theorem firsts_nil [DecidableEq N] : firsts ([] : List N) = [] := rfl

theorem firsts_snoc [DecidableEq N] (l : List N) (x : N) : firsts (l ++ [x]) = if x ∈ l then firsts l else firsts l ++ [x] := by
  unfold firsts
  rw [List.reverse_append, List.reverse_singleton, List.singleton_append]
  by_cases h : x ∈ l
  · rw [List.dedup_cons_of_mem (by simpa using h), if_pos h]
  · rw [List.dedup_cons_of_notMem (by simpa using h), if_neg h, List.reverse_cons]

theorem mem_firsts [DecidableEq N] {l : List N} {x : N} : x ∈ firsts l ↔ x ∈ l := by simp [firsts]

theorem firsts_filter [DecidableEq N] (p : N → Bool) (l : List N) : (firsts l).filter p = firsts (l.filter p) := by
  induction l using List.reverseRecOn with
  | nil => rfl
  | append_singleton l x ih =>
    rw [List.filter_append, firsts_snoc]
    by_cases hp : p x = true
    · rw [List.filter_cons_of_pos hp, List.filter_nil, firsts_snoc]
      by_cases hx : x ∈ l
      · rw [if_pos hx, if_pos (by simp [hx, hp]), ih]
      · rw [if_neg hx, if_neg (by simp [hx]), List.filter_append, ih, List.filter_cons_of_pos hp, List.filter_nil]
    · rw [List.filter_cons_of_neg hp, List.filter_nil, List.append_nil]
      by_cases hx : x ∈ l
      · rw [if_pos hx, ih]
      · rw [if_neg hx, List.filter_append, ih, List.filter_cons_of_neg hp, List.filter_nil, List.append_nil]

theorem firsts_map [DecidableEq N] {M : Type} [DecidableEq M] {f : N → M} (hf : ∀ a b, f a = f b → a = b) (l : List N) :
    firsts (l.map f) = (firsts l).map f := by
  induction l using List.reverseRecOn with
  | nil => rfl
  | append_singleton l x ih =>
    rw [List.map_append, List.map_singleton, firsts_snoc, firsts_snoc, ih]
    have : f x ∈ l.map f ↔ x ∈ l := by
      rw [List.mem_map]
      exact ⟨fun ⟨y, hy, e⟩ => hf _ _ e ▸ hy, fun h => ⟨x, h, rfl⟩⟩
    by_cases hx : x ∈ l
    · rw [if_pos hx, if_pos (this.2 hx)]
    · rw [if_neg hx, if_neg (fun h => hx (this.1 h)), List.map_append, List.map_singleton]

end SubgraphSpec

open SubgraphSpec

namespace Subgraph

variable {N : Type} [LinearOrder N]
variable {S W K : Type} [LinearOrder S] [OrderBot S] [LinearOrder W] [DecidableEq K]

/-! ## Writing lists of annotations -/

/-- Writing a list of values. -/
def writes {A B : Type} [DecidableEq A] (l : List (A × B)) (old : A → Option B) : A → Option B :=
  l.foldl (fun m a k => if k = a.1 then some a.2 else m k) old

theorem writes_iff {A B : Type} [DecidableEq A] : ∀ {l : List (A × B)} (_ : ∀ k v v', (k, v) ∈ l → (k, v') ∈ l → v = v')
    {old : A → Option B} {k : A} {v : B},
    writes l old k = some v ↔ (k, v) ∈ l ∨ ((∀ v', (k, v') ∉ l) ∧ old k = some v) := by
  intro l
  induction l using List.reverseRecOn with
  | nil => intro _ old k v; simp [writes]
  | append_singleton l x ih =>
    intro hf old k v
    have ih' := ih (fun k v v' h1 h2 => hf k v v' (by simp [h1]) (by simp [h2])) (old := old) (k := k) (v := v)
    have e : writes (l ++ [x]) old k = if k = x.1 then some x.2 else writes l old k := by simp [writes]
    rw [e]
    obtain ⟨xk, xv⟩ := x
    by_cases hk : k = xk
    · subst hk
      simp only [if_true, Option.some.injEq]
      constructor
      · rintro rfl; left; simp
      · rintro (h | ⟨h, _⟩)
        · exact hf k xv v (by simp) h
        · exact absurd (by simp) (h xv)
    · simp only [if_neg hk]
      rw [ih']
      simp [hk]

theorem foldl_insert_getValue {T : Type} [LinearOrder T] (n : T) : ∀ (l : List (AnnoKey S × W)) {s : AnnoStore T S W}, s.Inv →
    (l.foldl (fun s a => s.insert n a.1 a.2) s).Inv ∧
    ∀ t k, (l.foldl (fun s a => s.insert n a.1 a.2) s).getValue t k = if t = n then writes l (s.getValue n) k else s.getValue t k := by
  intro l
  induction l using List.reverseRecOn with
  | nil =>
    intro s h
    refine ⟨h, fun t k => ?_⟩
    by_cases ht : t = n
    · simp [ht, writes]
    · simp [ht]
  | append_singleton l x ih =>
    intro s h
    obtain ⟨i1, i2⟩ := ih h
    rw [List.foldl_append]
    simp only [List.foldl_cons, List.foldl_nil]
    refine ⟨i1.insert _ _ _, fun t k => ?_⟩
    rw [AnnoStore.getValue_insert i1, i2]
    by_cases ht : t = n
    · subst ht
      simp only [true_and, if_true]
      simp [writes]
    · simp [ht]

/-! ## The represented graph -/

/-- The graph has exactly the labels `V`, the edges `T` and the edge labels `U`. -/
structure Sub.Has (g : Sub N S W) (V : N → AnnoKey S → W → Prop) (T : Component CKind → N → N → Prop)
    (U : Component CKind → N → N → AnnoKey S → W → Prop) : Prop where
  anno : g.annos.Inv
  val : ∀ n k v, g.annos.getValue n k = some v ↔ V n k v
  inv : ∀ c, (g.comps c).Inv
  edge : ∀ c a b, b ∈ (g.comps c).out a ↔ T c a b
  eval : ∀ c a b k v, (g.comps c).annos.getValue (toLex (a, b)) k = some v ↔ U c a b k v

theorem has_new : (Sub.new : Sub N S W).Has (fun _ _ _ => False) (fun _ _ _ => False) (fun _ _ _ _ _ => False) where
  anno := AnnoStore.Inv.new
  val := by intro n k v; simp [Sub.new, AnnoStore.new, AnnoStore.getValue, SymbolTable.new, SymbolTable.getSymbol]
  inv := fun _ => Adj.Inv.new
  edge := by intro c a b; simp [Sub.new, Adj.new, Adj.out]
  eval := by intro c a b k v; simp [Sub.new, Adj.new, AnnoStore.new, AnnoStore.getValue, SymbolTable.new, SymbolTable.getSymbol]

theorem has_congr {g : Sub N S W} {V V' : N → AnnoKey S → W → Prop} {T T' : Component CKind → N → N → Prop}
    {U U' : Component CKind → N → N → AnnoKey S → W → Prop} (h : g.Has V T U) (hV : ∀ n k v, V n k v ↔ V' n k v)
    (hT : ∀ c a b, T c a b ↔ T' c a b) (hU : ∀ c a b k v, U c a b k v ↔ U' c a b k v) : g.Has V' T' U' :=
  ⟨h.anno, fun n k v => (h.val n k v).trans (hV n k v), h.inv, fun c a b => (h.edge c a b).trans (hT c a b),
    fun c a b k v => (h.eval c a b k v).trans (hU c a b k v)⟩

/-- What the original graph answers: `A` are the labels of the nodes, `E` the edges and `B` the labels of the edges of each component. -/
structure Src.Is (src : Src N S W) (A : N → AnnoKey S → W → Prop) (E : Component CKind → N → N → Prop)
    (B : Component CKind → N → N → AnnoKey S → W → Prop) : Prop where
  annos : ∀ n k v, (k, v) ∈ src.annos n ↔ A n k v
  annoFun : ∀ n k v v', A n k v → A n k v' → v = v'
  gs : ∀ c ∈ src.comps, ∃ D R, c.2.1.Is (E c.1) D R
  edgeAnnos : ∀ c ∈ src.comps, ∀ a b k v, (k, v) ∈ c.2.2 a b ↔ B c.1 a b k v
  edgeAnnoFun : ∀ c a b k v v', B c a b k v → B c a b k v' → v = v'
  edgeAnnoEdge : ∀ c a b k v, B c a b k v → E c a b
  irr : ∀ c a, ¬ E c a a
  all : ∀ c a b, E c a b → ∃ x ∈ src.comps, x.1 = c

variable {src : Src N S W} {A : N → AnnoKey S → W → Prop} {EC : Component CKind → N → N → Prop}
  {B : Component CKind → N → N → AnnoKey S → W → Prop}

theorem createNode_has (hs : src.Is A EC B) {g : Sub N S W} {P : N → Prop} {T : Component CKind → N → N → Prop}
    {U : Component CKind → N → N → AnnoKey S → W → Prop} (h : g.Has (fun n k v => P n ∧ A n k v) T U) (m : N) :
    (createNode src g m).Has (fun n k v => (P n ∨ n = m) ∧ A n k v) T U := by
  obtain ⟨i1, i2⟩ := foldl_insert_getValue m (src.annos m) h.anno
  refine ⟨i1, fun n k v => ?_, h.inv, h.edge, h.eval⟩
  unfold createNode
  simp only
  rw [i2]
  by_cases hn : n = m
  · subst hn
    simp only [if_true, or_true, true_and]
    rw [writes_iff (fun k v v' h1 h2 => hs.annoFun n k v v' ((hs.annos n k v).1 h1) ((hs.annos n k v').1 h2)), hs.annos, h.val]
    constructor
    · rintro (h1 | ⟨_, _, h2⟩)
      · exact h1
      · exact h2
    · exact Or.inl
  · rw [if_neg hn, h.val]
    simp [hn]

theorem modify_has {g : Sub N S W} {V : N → AnnoKey S → W → Prop} {T T' : Component CKind → N → N → Prop}
    {U U' : Component CKind → N → N → AnnoKey S → W → Prop} (h : g.Has V T U) {c : Component CKind} {f : Adj N S W → Adj N S W}
    (h1 : (f (g.comps c)).Inv) (h2 : ∀ a b, b ∈ (f (g.comps c)).out a ↔ T' c a b)
    (h3 : ∀ a b k v, (f (g.comps c)).annos.getValue (toLex (a, b)) k = some v ↔ U' c a b k v)
    (hT : ∀ c' a b, c' ≠ c → (T c' a b ↔ T' c' a b)) (hU : ∀ c' a b k v, c' ≠ c → (U c' a b k v ↔ U' c' a b k v)) :
    (g.modify c f).Has V T' U' := by
  refine ⟨h.anno, h.val, ?_, ?_, ?_⟩
  · intro c'
    unfold Sub.modify
    by_cases hc : c' = c
    · subst hc; simpa using h1
    · simp only [Function.update_of_ne hc]; exact h.inv c'
  · intro c' a b
    unfold Sub.modify
    by_cases hc : c' = c
    · subst hc; simpa using h2 a b
    · simp only [Function.update_of_ne hc]; rw [h.edge, hT _ _ _ hc]
  · intro c' a b k v
    unfold Sub.modify
    by_cases hc : c' = c
    · subst hc; simpa using h3 a b k v
    · simp only [Function.update_of_ne hc]; rw [h.eval, hU _ _ _ _ _ hc]

theorem foldl_addAnno (a b : N) : ∀ (l : List (AnnoKey S × W)) {g : Adj N S W}, g.Inv → b ∈ g.out a →
    (l.foldl (fun s x => s.addAnno a b x.1 x.2) g).Inv ∧
    (∀ x, (l.foldl (fun s x => s.addAnno a b x.1 x.2) g).out x = g.out x) ∧
    ∀ x y k, (l.foldl (fun s x => s.addAnno a b x.1 x.2) g).annos.getValue (toLex (x, y)) k =
      if x = a ∧ y = b then writes l (g.annos.getValue (toLex (a, b))) k else g.annos.getValue (toLex (x, y)) k := by
  intro l
  induction l using List.reverseRecOn with
  | nil =>
    intro g h _
    refine ⟨h, fun _ => rfl, fun x y k => ?_⟩
    by_cases hx : x = a ∧ y = b
    · obtain ⟨rfl, rfl⟩ := hx; simp [writes]
    · simp [hx]
  | append_singleton l z ih =>
    intro g h hb
    obtain ⟨i1, i2, i3⟩ := ih h hb
    rw [List.foldl_append]
    simp only [List.foldl_cons, List.foldl_nil]
    rw [Adj.addAnno_eq, i2, if_pos hb]
    have := i1.addAnno a b z.1 z.2
    rw [Adj.addAnno_eq, i2, if_pos hb] at this
    refine ⟨this, i2, fun x y k => ?_⟩
    simp only
    rw [AnnoStore.getValue_insert i1.anno, i3]
    by_cases hx : x = a ∧ y = b
    · obtain ⟨rfl, rfl⟩ := hx
      simp [writes]
    · have : ¬ (toLex (x, y) = toLex (a, b) ∧ k = z.1) := by
        rintro ⟨e, _⟩; simp only [toLex_inj, Prod.mk.injEq] at e; exact hx e
      rw [if_neg this]
      simp only [if_neg hx]

/-! ## Copying the edges -/

theorem copyEdge_has (hs : src.Is A EC B) {g : Sub N S W} {P : N → Prop} {T0 Q : Component CKind → N → N → Prop}
    (hP : ∀ n, P n ↔ P n ∧ ∃ k v, A n k v) {c : Component CKind × GStore N × (N → N → List (AnnoKey S × W))} (hc : c ∈ src.comps)
    (h : g.Has (fun n k v => P n ∧ A n k v) (fun c a b => T0 c a b ∨ Q c a b) (fun c a b k v => Q c a b ∧ B c a b k v)) {a b : N}
    (hab : EC c.1 a b) :
    (copyEdge c.1 c.2.2 a g b).Has (fun n k v => P n ∧ A n k v)
      (fun c' x y => T0 c' x y ∨ (Q c' x y ∨ (c' = c.1 ∧ x = a ∧ y = b ∧ P y)))
      (fun c' x y k v => (Q c' x y ∨ (c' = c.1 ∧ x = a ∧ y = b ∧ P y)) ∧ B c' x y k v) := by
  have hkeys : (g.annos.allKeysForItem b none none).isEmpty = false ↔ P b := by
    rw [List.isEmpty_eq_false_iff_exists_mem]
    constructor
    · rintro ⟨k, hk⟩
      rw [AnnoStore.mem_allKeysForItem h.anno b none none k (fun _ => rfl)] at hk
      obtain ⟨⟨v, hv⟩, _⟩ := hk
      exact ((h.val b k v).1 hv).1
    · intro hb
      obtain ⟨_, k, v, hA⟩ := (hP b).1 hb
      refine ⟨k, ?_⟩
      rw [AnnoStore.mem_allKeysForItem h.anno b none none k (fun _ => rfl)]
      exact ⟨⟨v, (h.val b k v).2 ⟨hb, hA⟩⟩, by simp, by simp⟩
  unfold copyEdge
  by_cases hb : P b
  · have hf := hkeys.2 hb
    rw [hf]
    simp only [Bool.false_eq_true, if_false]
    have hne : a ≠ b := fun e => hs.irr c.1 a (e ▸ hab)
    have hout : ∀ x y, y ∈ ((g.comps c.1).addEdge a b).out x ↔ (x = a ∧ y = b) ∨ (T0 c.1 x y ∨ Q c.1 x y) := by
      intro x y
      rw [Adj.mem_out_addEdge, h.edge]
      simp [hne]
    obtain ⟨i1, i2, i3⟩ := foldl_addAnno a b (c.2.2 a b) ((h.inv c.1).addEdge a b) ((hout a b).2 (Or.inl ⟨rfl, rfl⟩))
    refine modify_has h i1 ?_ ?_ ?_ ?_
    · intro x y
      rw [i2, hout]
      simp only [true_and]
      constructor
      · rintro (⟨rfl, rfl⟩ | hx | hx)
        · exact Or.inr (Or.inr ⟨rfl, rfl, hb⟩)
        · exact Or.inl hx
        · exact Or.inr (Or.inl hx)
      · rintro (hx | hx | ⟨rfl, rfl, _⟩)
        · exact Or.inr (Or.inl hx)
        · exact Or.inr (Or.inr hx)
        · exact Or.inl ⟨rfl, rfl⟩
    · intro x y k v
      rw [i3]
      simp only [true_and]
      by_cases hx : x = a ∧ y = b
      · obtain ⟨rfl, rfl⟩ := hx
        rw [if_pos ⟨rfl, rfl⟩, writes_iff (fun k v v' h1 h2 => hs.edgeAnnoFun c.1 x y k v v' ((hs.edgeAnnos c hc x y k v).1 h1)
          ((hs.edgeAnnos c hc x y k v').1 h2)), hs.edgeAnnos c hc, Adj.annos_addEdge, h.eval]
        constructor
        · rintro (hB | ⟨_, _, hB⟩)
          · exact ⟨Or.inr ⟨rfl, rfl, hb⟩, hB⟩
          · exact ⟨Or.inr ⟨rfl, rfl, hb⟩, hB⟩
        · rintro ⟨_, hB⟩; exact Or.inl hB
      · rw [if_neg hx, Adj.annos_addEdge, h.eval]
        constructor
        · rintro ⟨h1, h2⟩; exact ⟨Or.inl h1, h2⟩
        · rintro ⟨h1 | ⟨h1, h2, _⟩, h3⟩
          · exact ⟨h1, h3⟩
          · exact absurd ⟨h1, h2⟩ hx
    · intro c' x y hne'; simp [hne']
    · intro c' x y k v hne'; simp [hne']
  · have hf : (g.annos.allKeysForItem b none none).isEmpty = true := by
      cases he : (g.annos.allKeysForItem b none none).isEmpty with
      | true => rfl
      | false => exact absurd (hkeys.1 he) hb
    rw [hf]
    simp only [if_true]
    refine has_congr h (fun _ _ _ => Iff.rfl) (fun c' x y => ?_) (fun c' x y k v => ?_)
    · have : ¬ (c' = c.1 ∧ x = a ∧ y = b ∧ P y) := by rintro ⟨_, _, rfl, hp⟩; exact hb hp
      simp [this]
    · have : ¬ (c' = c.1 ∧ x = a ∧ y = b ∧ P y) := by rintro ⟨_, _, rfl, hp⟩; exact hb hp
      simp [this]

theorem copyEdges_has (hs : src.Is A EC B) {P : N → Prop} {T0 : Component CKind → N → N → Prop}
    (hP : ∀ n, P n ↔ P n ∧ ∃ k v, A n k v) {c : Component CKind × GStore N × (N → N → List (AnnoKey S × W))} (hc : c ∈ src.comps) {a : N} :
    ∀ {l : List N} {g : Sub N S W} {Q : Component CKind → N → N → Prop}, (∀ b ∈ l, EC c.1 a b) →
    g.Has (fun n k v => P n ∧ A n k v) (fun c a b => T0 c a b ∨ Q c a b) (fun c a b k v => Q c a b ∧ B c a b k v) →
    (l.foldl (copyEdge c.1 c.2.2 a) g).Has (fun n k v => P n ∧ A n k v)
      (fun c' x y => T0 c' x y ∨ (Q c' x y ∨ (c' = c.1 ∧ x = a ∧ y ∈ l ∧ P y)))
      (fun c' x y k v => (Q c' x y ∨ (c' = c.1 ∧ x = a ∧ y ∈ l ∧ P y)) ∧ B c' x y k v) := by
  intro l
  induction l with
  | nil => intro g Q _ h; simpa using h
  | cons b l ih =>
    intro g Q hl h
    have h1 := copyEdge_has hs hP hc h (hl b (by simp))
    have h2 := ih (fun x hx => hl x (by simp [hx])) h1
    have e : ∀ c' x y, ((Q c' x y ∨ (c' = c.1 ∧ x = a ∧ y = b ∧ P y)) ∨ (c' = c.1 ∧ x = a ∧ y ∈ l ∧ P y)) ↔
        (Q c' x y ∨ (c' = c.1 ∧ x = a ∧ y ∈ b :: l ∧ P y)) := by
      intro c' x y
      rw [List.mem_cons]
      tauto
    rw [List.foldl_cons]
    refine has_congr h2 (fun _ _ _ => Iff.rfl) (fun c' x y => ?_) (fun c' x y k v => ?_)
    · rw [e]
    · rw [e]

theorem copyComp_has (hs : src.Is A EC B) {P : N → Prop} {T0 : Component CKind → N → N → Prop}
    (hP : ∀ n, P n ↔ P n ∧ ∃ k v, A n k v) {c : Component CKind × GStore N × (N → N → List (AnnoKey S × W))} (hc : c ∈ src.comps) (a : N)
    {g : Sub N S W} {Q : Component CKind → N → N → Prop}
    (h : g.Has (fun n k v => P n ∧ A n k v) (fun c a b => T0 c a b ∨ Q c a b) (fun c a b k v => Q c a b ∧ B c a b k v)) :
    ∃ g', copyComp a g c = some g' ∧ g'.Has (fun n k v => P n ∧ A n k v)
      (fun c' x y => T0 c' x y ∨ (Q c' x y ∨ (c' = c.1 ∧ x = a ∧ isIndexComp c' = false ∧ EC c' x y ∧ P y)))
      (fun c' x y k v => (Q c' x y ∨ (c' = c.1 ∧ x = a ∧ isIndexComp c' = false ∧ EC c' x y ∧ P y)) ∧ B c' x y k v) := by
  unfold copyComp
  cases hi : isIndexComp c.1 with
  | true =>
    simp only [if_true]
    refine ⟨g, rfl, has_congr h (fun _ _ _ => Iff.rfl) (fun c' x y => ?_) (fun c' x y k v => ?_)⟩
    · have : ¬ (c' = c.1 ∧ x = a ∧ isIndexComp c' = false ∧ EC c' x y ∧ P y) := by
        rintro ⟨rfl, _, hx, _⟩; rw [hi] at hx; cases hx
      simp [this]
    · have : ¬ (c' = c.1 ∧ x = a ∧ isIndexComp c' = false ∧ EC c' x y ∧ P y) := by
        rintro ⟨rfl, _, hx, _⟩; rw [hi] at hx; cases hx
      simp [this]
  | false =>
    obtain ⟨D, R, hg⟩ := hs.gs c hc
    obtain ⟨l, l1, _, l3⟩ := hg.out a
    simp only [Bool.false_eq_true, if_false, l1]
    refine ⟨_, rfl, ?_⟩
    have := copyEdges_has hs hP hc (l := l) (fun b hb => (l3 b).1 hb) h
    have e : ∀ c' x y, (c' = c.1 ∧ x = a ∧ y ∈ l ∧ P y) ↔ (c' = c.1 ∧ x = a ∧ isIndexComp c' = false ∧ EC c' x y ∧ P y) := by
      intro c' x y
      constructor
      · rintro ⟨rfl, rfl, hy, hp⟩; exact ⟨rfl, rfl, hi, (l3 y).1 hy, hp⟩
      · rintro ⟨rfl, rfl, _, hy, hp⟩; exact ⟨rfl, rfl, (l3 y).2 hy, hp⟩
    refine has_congr this (fun _ _ _ => Iff.rfl) (fun c' x y => ?_) (fun c' x y k v => ?_)
    · rw [e]
    · rw [e]

theorem createEdges_has (hs : src.Is A EC B) {P : N → Prop} {T0 : Component CKind → N → N → Prop}
    (hP : ∀ n, P n ↔ P n ∧ ∃ k v, A n k v) (a : N)
    {g : Sub N S W} {Q : Component CKind → N → N → Prop}
    (h : g.Has (fun n k v => P n ∧ A n k v) (fun c a b => T0 c a b ∨ Q c a b) (fun c a b k v => Q c a b ∧ B c a b k v)) :
    ∃ g', createEdges src g a = some g' ∧ g'.Has (fun n k v => P n ∧ A n k v)
      (fun c' x y => T0 c' x y ∨ (Q c' x y ∨ (x = a ∧ isIndexComp c' = false ∧ EC c' x y ∧ P y)))
      (fun c' x y k v => (Q c' x y ∨ (x = a ∧ isIndexComp c' = false ∧ EC c' x y ∧ P y)) ∧ B c' x y k v) := by
  unfold createEdges
  suffices H : ∀ (l : List (Component CKind × GStore N × (N → N → List (AnnoKey S × W)))) (g : Sub N S W) (Q : Component CKind → N → N → Prop),
      (∀ c ∈ l, c ∈ src.comps) →
      g.Has (fun n k v => P n ∧ A n k v) (fun c a b => T0 c a b ∨ Q c a b) (fun c a b k v => Q c a b ∧ B c a b k v) →
      ∃ g', l.foldlM (copyComp a) g = some g' ∧ g'.Has (fun n k v => P n ∧ A n k v)
        (fun c' x y => T0 c' x y ∨ (Q c' x y ∨ ((∃ c ∈ l, c.1 = c') ∧ x = a ∧ isIndexComp c' = false ∧ EC c' x y ∧ P y)))
        (fun c' x y k v => (Q c' x y ∨ ((∃ c ∈ l, c.1 = c') ∧ x = a ∧ isIndexComp c' = false ∧ EC c' x y ∧ P y)) ∧ B c' x y k v) by
    obtain ⟨g', g1, g2⟩ := H src.comps g Q (fun _ hc => hc) h
    have e : ∀ c' x y, ((∃ c ∈ src.comps, c.1 = c') ∧ x = a ∧ isIndexComp c' = false ∧ EC c' x y ∧ P y) ↔
        (x = a ∧ isIndexComp c' = false ∧ EC c' x y ∧ P y) := by
      intro c' x y
      constructor
      · exact fun hx => hx.2
      · exact fun hx => ⟨hs.all c' x y hx.2.2.1, hx⟩
    refine ⟨g', g1, has_congr g2 (fun _ _ _ => Iff.rfl) (fun c' x y => ?_) (fun c' x y k v => ?_)⟩
    · rw [e]
    · rw [e]
  intro l
  induction l with
  | nil => intro g Q _ h; exact ⟨g, rfl, by simpa using h⟩
  | cons c l ih =>
    intro g Q hl h
    obtain ⟨g1, e1, h1⟩ := copyComp_has hs hP (hl c (by simp)) a h
    obtain ⟨g2, e2, h2⟩ := ih g1 _ (fun x hx => hl x (by simp [hx])) h1
    have e : ∀ c' x y, ((Q c' x y ∨ (c' = c.1 ∧ x = a ∧ isIndexComp c' = false ∧ EC c' x y ∧ P y)) ∨
        ((∃ c ∈ l, c.1 = c') ∧ x = a ∧ isIndexComp c' = false ∧ EC c' x y ∧ P y)) ↔
        (Q c' x y ∨ ((∃ d ∈ c :: l, d.1 = c') ∧ x = a ∧ isIndexComp c' = false ∧ EC c' x y ∧ P y)) := by
      intro c' x y
      simp only [List.mem_cons, exists_eq_or_imp]
      constructor
      · rintro ((hq | ⟨rfl, hx⟩) | ⟨hx, hy⟩)
        · exact Or.inl hq
        · exact Or.inr ⟨Or.inl rfl, hx⟩
        · exact Or.inr ⟨Or.inr hx, hy⟩
      · rintro (hq | ⟨hx | hx, hy⟩)
        · exact Or.inl (Or.inl hq)
        · exact Or.inl (Or.inr ⟨hx.symm, hy⟩)
        · exact Or.inr ⟨hx, hy⟩
    refine ⟨g2, by rw [List.foldlM_cons, e1]; exact e2, has_congr h2 (fun _ _ _ => Iff.rfl) (fun c' x y => ?_) (fun c' x y k v => ?_)⟩
    · rw [e]
    · rw [e]

theorem allEdges_has (hs : src.Is A EC B) {P : N → Prop} {T0 : Component CKind → N → N → Prop}
    (hP : ∀ n, P n ↔ P n ∧ ∃ k v, A n k v) : ∀ (l : List N) (g : Sub N S W) (Q : Component CKind → N → N → Prop),
    g.Has (fun n k v => P n ∧ A n k v) (fun c a b => T0 c a b ∨ Q c a b) (fun c a b k v => Q c a b ∧ B c a b k v) →
    ∃ g', l.foldlM (createEdges src) g = some g' ∧ g'.Has (fun n k v => P n ∧ A n k v)
      (fun c' x y => T0 c' x y ∨ (Q c' x y ∨ (x ∈ l ∧ isIndexComp c' = false ∧ EC c' x y ∧ P y)))
      (fun c' x y k v => (Q c' x y ∨ (x ∈ l ∧ isIndexComp c' = false ∧ EC c' x y ∧ P y)) ∧ B c' x y k v) := by
  intro l
  induction l with
  | nil => intro g Q h; exact ⟨g, rfl, by simpa using h⟩
  | cons a l ih =>
    intro g Q h
    obtain ⟨g1, e1, h1⟩ := createEdges_has hs hP a h
    obtain ⟨g2, e2, h2⟩ := ih g1 _ h1
    have e : ∀ c' x y, ((Q c' x y ∨ (x = a ∧ isIndexComp c' = false ∧ EC c' x y ∧ P y)) ∨
        (x ∈ l ∧ isIndexComp c' = false ∧ EC c' x y ∧ P y)) ↔
        (Q c' x y ∨ (x ∈ a :: l ∧ isIndexComp c' = false ∧ EC c' x y ∧ P y)) := by
      intro c' x y
      rw [List.mem_cons]
      tauto
    refine ⟨g2, by rw [List.foldlM_cons, e1]; exact e2, has_congr h2 (fun _ _ _ => Iff.rfl) (fun c' x y => ?_) (fun c' x y k v => ?_)⟩
    · rw [e]
    · rw [e]

/-! ## Extracting the nodes -/

section Loop

variable {th : TokenHelper N} {L R : N → N → Prop} {E : GStore N → N → N → Prop}
variable {ord : GStore N} {O : N → N → Prop} {D : N → Prop} {Rg : Nat → Bnd Nat → Prop}

open Classical in
/-- The tokens of a list of matches. -/
noncomputable def toks (tok : N → Prop) (l : List (N × K)) : List N := (l.map Prod.fst).filter fun n => decide (tok n)

/-- The edges for gaps: consecutive tokens whose distance is more than 1. -/
def GapNext (O : N → N → Prop) (l : List N) (a b : N) : Prop := Next l a b ∧ ∃ d, 1 < d ∧ Walk.WalkLen O a b d

theorem toks_snoc_tok {tok : N → Prop} {l : List (N × K)} {m : N × K} (h : tok m.1) : toks tok (l ++ [m]) = toks tok l ++ [m.1] := by
  simp [toks, h]

theorem toks_snoc_not {tok : N → Prop} {l : List (N × K)} {m : N × K} (h : ¬ tok m.1) : toks tok (l ++ [m]) = toks tok l := by
  simp [toks, h]

theorem addGap_has (ho : ord.Is O D Rg) (hc : Linear.Chains O) {g : Sub N S W} {V : N → AnnoKey S → W → Prop} {l : List N}
    {U : Component CKind → N → N → AnnoKey S → W → Prop}
    (h : g.Has V (fun c a b => c = gapComp ∧ GapNext O l a b) U) (n : N) :
    ∃ g', addGap (some ord) l.getLast? n g = some g' ∧ g'.Has V (fun c a b => c = gapComp ∧ GapNext O (l ++ [n]) a b) U := by
  have e : ∀ a b, GapNext O (l ++ [n]) a b ↔ GapNext O l a b ∨ (l.getLast? = some a ∧ b = n ∧ ∃ d, 1 < d ∧ Walk.WalkLen O a n d) := by
    intro a b
    unfold GapNext
    rw [next_snoc]
    constructor
    · rintro ⟨h1 | ⟨h1, rfl⟩, h2⟩
      · exact Or.inl ⟨h1, h2⟩
      · exact Or.inr ⟨h1, rfl, h2⟩
    · rintro (⟨h1, h2⟩ | ⟨h1, rfl, h2⟩)
      · exact ⟨Or.inl h1, h2⟩
      · exact ⟨Or.inr ⟨h1, rfl⟩, h2⟩
  unfold addGap
  cases hp : l.getLast? with
  | none =>
    refine ⟨g, rfl, has_congr h (fun _ _ _ => Iff.rfl) (fun c a b => ?_) (fun _ _ _ _ _ => Iff.rfl)⟩
    rw [e, hp]; simp
  | some p =>
    obtain ⟨r, r1, r2, r3⟩ := ho.dist p n
    simp only [r1]
    cases r with
    | none =>
      have hn := r2.1 rfl
      refine ⟨g, rfl, has_congr h (fun _ _ _ => Iff.rfl) (fun c a b => ?_) (fun _ _ _ _ _ => Iff.rfl)⟩
      rw [e, hp]
      constructor
      · rintro ⟨h1, h2⟩; exact ⟨h1, Or.inl h2⟩
      · rintro ⟨h1, h2 | ⟨h2, _, d, _, hw⟩⟩
        · exact ⟨h1, h2⟩
        · simp only [Option.some.injEq] at h2
          subst h2
          exact absurd ⟨d, Walk.simple_of_acyclic hc.ac hw⟩ hn
    | some d =>
      have hd := (r3 d rfl).walk
      by_cases h1 : d > 1
      · simp only [if_pos h1]
        have hne : p ≠ n := by
          rintro rfl
          have := Walk.walk_self hc.ac hd
          omega
        refine ⟨_, rfl, modify_has h ((h.inv _).addEdge _ _) ?_ ?_ ?_ (fun _ _ _ _ _ _ => Iff.rfl)⟩
        · intro a b
          rw [Adj.mem_out_addEdge, h.edge, e, hp]
          simp only [true_and, Option.some.injEq]
          constructor
          · rintro (⟨rfl, rfl, _⟩ | hx)
            · exact Or.inr ⟨rfl, rfl, d, h1, hd⟩
            · exact Or.inl hx
          · rintro (hx | ⟨rfl, rfl, _⟩)
            · exact Or.inr hx
            · exact Or.inl ⟨rfl, rfl, hne⟩
        · intro a b k v
          rw [Adj.annos_addEdge, h.eval]
        · intro c' a b hne'; simp [hne']
      · simp only [if_neg h1]
        refine ⟨g, rfl, has_congr h (fun _ _ _ => Iff.rfl) (fun c a b => ?_) (fun _ _ _ _ _ => Iff.rfl)⟩
        rw [e, hp]
        constructor
        · rintro ⟨h1, h2⟩; exact ⟨h1, Or.inl h2⟩
        · rintro ⟨hx, h2 | ⟨h2, _, d', hd', hw⟩⟩
          · exact ⟨hx, h2⟩
          · simp only [Option.some.injEq] at h2
            subst h2
            have := walk_len_unique hc hw hd
            omega

/-- The state after the matches `l`. -/
structure LoopInv (A : N → AnnoKey S → W → Prop) (O : N → N → Prop) (tok : N → Prop) (l : List (N × K)) (st : State N S W K) : Prop where
  seen : st.seen = (firsts l).reverse
  prev : st.prev = (toks tok (firsts l)).getLast?
  has : st.g.Has (fun n k v => (∃ x, (n, x) ∈ l) ∧ A n k v) (fun c a b => c = gapComp ∧ GapNext O (toks tok (firsts l)) a b)
    (fun _ _ _ _ _ => False)

theorem extract_inv (hs : src.Is A EC B) (h : th.Ok L R E) (ho : ord.Is O D Rg) (hc : Linear.Chains O) {l : List (N × K)}
    {st : State N S W K} (hi : LoopInv A O (th.Tok E) l st) (m : N × K) :
    ∃ st', extract src (some th) (some ord) st m = some st' ∧ LoopInv A O (th.Tok E) (l ++ [m]) st' := by
  unfold extract
  have hmem : m ∈ st.seen ↔ m ∈ l := by rw [hi.seen, List.mem_reverse, mem_firsts]
  by_cases hm : m ∈ l
  · rw [if_pos (hmem.2 hm)]
    refine ⟨st, rfl, ⟨?_, ?_, ?_⟩⟩
    · rw [firsts_snoc, if_pos hm]; exact hi.seen
    · rw [firsts_snoc, if_pos hm]; exact hi.prev
    · rw [firsts_snoc, if_pos hm]
      refine has_congr hi.has (fun n k v => ?_) (fun _ _ _ => Iff.rfl) (fun _ _ _ _ _ => Iff.rfl)
      constructor
      · rintro ⟨⟨x, hx⟩, ha⟩; exact ⟨⟨x, by simp [hx]⟩, ha⟩
      · rintro ⟨⟨x, hx⟩, ha⟩
        refine ⟨⟨x, ?_⟩, ha⟩
        rcases List.mem_append.1 hx with hx | hx
        · exact hx
        · rw [List.mem_singleton.1 hx]; exact hm
  · rw [if_neg (fun hx => hm (hmem.1 hx))]
    have hV : ∀ n (k : AnnoKey S) (v : W), (((∃ x, (n, x) ∈ l) ∨ n = m.1) ∧ A n k v) ↔ ((∃ x, (n, x) ∈ l ++ [m]) ∧ A n k v) := by
      intro n k v
      refine and_congr_left fun _ => ?_
      constructor
      · rintro (⟨x, hx⟩ | rfl)
        · exact ⟨x, by simp [hx]⟩
        · exact ⟨m.2, by simp⟩
      · rintro ⟨x, hx⟩
        rcases List.mem_append.1 hx with hx | hx
        · exact Or.inl ⟨x, hx⟩
        · right
          have := List.mem_singleton.1 hx
          rw [← this]
    obtain ⟨b, b1, b2⟩ := TokenHelper.isToken_spec h m.1
    simp only [b1]
    cases b with
    | false =>
      have hn : ¬ th.Tok E m.1 := fun hx => by simpa using b2.2 hx
      refine ⟨_, rfl, ⟨?_, ?_, ?_⟩⟩
      · rw [firsts_snoc, if_neg hm]; simp [hi.seen]
      · rw [firsts_snoc, if_neg hm, toks_snoc_not hn]; exact hi.prev
      · rw [firsts_snoc, if_neg hm, toks_snoc_not hn]
        exact has_congr (createNode_has hs hi.has m.1) hV (fun _ _ _ => Iff.rfl) (fun _ _ _ _ _ => Iff.rfl)
    | true =>
      have hn : th.Tok E m.1 := b2.1 rfl
      obtain ⟨g', g1, g2⟩ := addGap_has ho hc hi.has m.1
      simp only [hi.prev, g1]
      refine ⟨_, rfl, ⟨?_, ?_, ?_⟩⟩
      · rw [firsts_snoc, if_neg hm]; simp [hi.seen]
      · rw [firsts_snoc, if_neg hm, toks_snoc_tok hn]; simp
      · rw [firsts_snoc, if_neg hm, toks_snoc_tok hn]
        exact has_congr (createNode_has hs g2 m.1) hV (fun _ _ _ => Iff.rfl) (fun _ _ _ _ _ => Iff.rfl)

theorem extract_loop (hs : src.Is A EC B) (h : th.Ok L R E) (ho : ord.Is O D Rg) (hc : Linear.Chains O) : ∀ (l : List (N × K)),
    ∃ st, l.foldlM (extract src (some th) (some ord)) ⟨[], none, Sub.new⟩ = some st ∧ LoopInv A O (th.Tok E) l st := by
  intro l
  induction l using List.reverseRecOn with
  | nil =>
    refine ⟨_, rfl, ⟨rfl, rfl, has_congr has_new (by simp) (fun c a b => ?_) (fun _ _ _ _ _ => Iff.rfl)⟩⟩
    simp [GapNext, Next, toks, firsts_nil]
  | append_singleton l m ih =>
    obtain ⟨st, s1, s2⟩ := ih
    obtain ⟨st', t1, t2⟩ := extract_inv hs h ho hc s2 m
    refine ⟨st', ?_, t2⟩
    rw [List.foldlM_append, s1]
    simp [t1]

/-- The extraction never fails and copies exactly the selected nodes and the induced edges. -/
theorem create_spec (hs : src.Is A EC B) (h : th.Ok L R E) (ho : ord.Is O D Rg) (hc : Linear.Chains O) {idx : List Nat}
    {it : List (List (N × K))} (hlab : ∀ n x, (n, x) ∈ selected idx it → ∃ k v, A n k v) :
    ∃ g, create src (some th) (some ord) idx it = some g ∧
      g.Has (fun n k v => (∃ x, (n, x) ∈ selected idx it) ∧ A n k v)
        (fun c a b => (c = gapComp ∧ GapNext O (toks (th.Tok E) (firsts (selected idx it))) a b) ∨
          (isIndexComp c = false ∧ (∃ x, (a, x) ∈ selected idx it) ∧ (∃ x, (b, x) ∈ selected idx it) ∧ EC c a b))
        (fun c a b k v => isIndexComp c = false ∧ (∃ x, (a, x) ∈ selected idx it) ∧ (∃ x, (b, x) ∈ selected idx it) ∧ B c a b k v) := by
  obtain ⟨st, s1, s2⟩ := extract_loop hs h ho hc (selected idx it)
  have hP : ∀ n, (∃ x, (n, x) ∈ selected idx it) ↔ (∃ x, (n, x) ∈ selected idx it) ∧ ∃ k v, A n k v :=
    fun n => ⟨fun ⟨x, hx⟩ => ⟨⟨x, hx⟩, hlab n x hx⟩, fun hx => hx.1⟩
  obtain ⟨g, g1, g2⟩ := allEdges_has hs hP (T0 := fun c a b => c = gapComp ∧ GapNext O (toks (th.Tok E) (firsts (selected idx it))) a b)
    (st.seen.map Prod.fst) st.g (fun _ _ _ => False)
    (has_congr s2.has (fun _ _ _ => Iff.rfl) (fun _ _ _ => by simp) (fun _ _ _ _ _ => by simp))
  have hseen : ∀ x, x ∈ st.seen.map Prod.fst ↔ ∃ y, (x, y) ∈ selected idx it := by
    intro x
    rw [s2.seen, List.mem_map]
    constructor
    · rintro ⟨⟨a, b⟩, hm, rfl⟩
      exact ⟨b, by simpa [mem_firsts] using hm⟩
    · rintro ⟨y, hy⟩
      exact ⟨(x, y), by simpa [mem_firsts] using hy, rfl⟩
  refine ⟨g, by simp only [create, s1, g1], has_congr g2 (fun _ _ _ => Iff.rfl) (fun c a b => ?_) (fun c a b k v => ?_)⟩
  · simp only [false_or, hseen]
    tauto
  · simp only [false_or, hseen]
    constructor
    · rintro ⟨⟨h1, h2, h3, h4⟩, h5⟩; exact ⟨h2, h1, h4, h5⟩
    · rintro ⟨h1, h2, h3, h4⟩; exact ⟨⟨h2, h1, hs.edgeAnnoEdge c a b k v h4, h3⟩, h4⟩

end Loop

end Subgraph
