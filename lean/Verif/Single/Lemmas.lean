import Verif.Single.Model
import Verif.Gs.DfsQuery
import Verif.Gs.AdjSource
import Verif.Linear.Lemmas

/-!
# Helper lemmas for the storages with one successor per node
-/

set_option linter.unusedSimpArgs false
set_option linter.unusedSectionVars false

/-- If every node has at most one successor, simple paths between two nodes have the same length. -/
theorem Walk.simplePath_functional {N : Type} [LinearOrder N] [U64 N] {E : N → N → Prop} (hf : Walk.Functional E) {a b : N}
    {d e : Nat} (h1 : Walk.SimplePath E a b d) (h2 : Walk.SimplePath E a b e) : d = e := by
  rw [← Walk.simplePath_flip] at h1 h2
  exact Adj.simplePath_unique (E := fun x y => E y x) (fun x y z hx hy => hf z x y hx hy) _ _ _ _ h1 h2

variable {S W : Type} [LinearOrder S] [OrderBot S] [LinearOrder W]
variable {o : Source NodeID64 S W} {E : NodeID64 → NodeID64 → Prop}
  {A : NodeID64 → NodeID64 → AnnoKey S → Option W}

theorem Source.Is.head_iff (h : o.Is E A) (hf : Walk.Functional E) (a b : NodeID64) :
    (o.out a).head? = some b ↔ E a b := by
  have hl := h.out_length hf a
  rw [← h.out_iff]
  cases ho : o.out a with
  | nil => simp
  | cons x r =>
    rw [ho] at hl
    cases r with
    | nil => simp [eq_comm]
    | cons y r => simp at hl

namespace Dense

/-- State after the sources in `done` were copied. -/
structure Part (o : Source NodeID64 S W) (A : NodeID64 → NodeID64 → AnnoKey S → Option W) (len : Nat) (g : Dense S W)
    (done : List NodeID64) : Prop where
  length : g.edges.length = len
  edge : ∀ a : NodeID64, a.val < len → g.edges[a.val]? = some (if a ∈ done then (o.out a).head? else none)
  inn : ∀ a b, a ∈ g.inn b ↔ a ∈ done ∧ (o.out a).head? = some b
  asc : ∀ b, (g.inn b).Pairwise (· < ·)
  anno : g.annos.Inv
  val : ∀ x y k, g.annos.getValue (toLex (x, y)) k =
    if x ∈ done ∧ (o.out x).head? = some y ∧ (A x y k).isSome then A x y k else none

theorem inn_insert (g : Dense S W) (a t b : NodeID64) {e : List (Option NodeID64)}
    {s : AnnoStore (NodeID64 ×ₗ NodeID64) S W} :
    (⟨e, g.inverse.insert t (vecInsert a ((g.inverse.get t).getD [])), s⟩ : Dense S W).inn b =
      if b = t then vecInsert a (g.inn t) else g.inn b := by
  unfold inn
  rw [OMap.get_insert]
  by_cases hb : b = t
  · subst hb; simp
  · simp [hb]

theorem Part.step (h : o.Is E A) {len : Nat} {g : Dense S W} {done : List NodeID64} (hp : Part o A len g done)
    (a : NodeID64) (ha : a ∉ done) (hlt : a.val < len) : ∃ g', copyNode o g a = some g' ∧ Part o A len g' (a :: done) := by
  unfold copyNode
  cases ho : (o.out a).head? with
  | none =>
    refine ⟨g, rfl, hp.length, ?_, ?_, hp.asc, hp.anno, ?_⟩
    · intro x hx
      rw [hp.edge x hx]
      by_cases hxa : x = a
      · subst hxa; simp [ha, ho]
      · simp [hxa]
    · intro x b
      rw [hp.inn]
      by_cases hxa : x = a
      · subst hxa; simp [ha, ho]
      · simp [hxa]
    · intro x y k
      rw [hp.val]
      by_cases hxa : x = a
      · subst hxa; simp [ha, ho]
      · simp [hxa]
  | some t =>
    simp only
    rw [if_pos (by rw [hp.length]; exact hlt)]
    obtain ⟨c1, c2⟩ := Source.copyEdgeAnnos_spec h hp.anno a t
    refine ⟨_, rfl, ?_, ?_, ?_, ?_, c1, ?_⟩
    · simp [hp.length]
    · intro x hx
      simp only
      rw [List.getElem?_set]
      by_cases hxa : x = a
      · subst hxa
        simp [hp.length, hlt, ho]
      · have : ¬ a.val = x.val := fun e => hxa (Fin.ext e.symm)
        rw [if_neg this, hp.edge x hx]
        simp [hxa]
    · intro x b
      rw [inn_insert]
      by_cases hb : b = t
      · subst hb
        rw [if_pos rfl, mem_vecInsert, hp.inn]
        by_cases hxa : x = a
        · subst hxa; simp [ho]
        · simp [hxa]
      · rw [if_neg hb, hp.inn]
        by_cases hxa : x = a
        · subst hxa
          simp only [ha, false_and, List.mem_cons, true_or, ho, Option.some.injEq, true_and, false_iff]
          exact fun e => hb e.symm
        · simp [hxa]
    · intro b
      rw [inn_insert]
      split
      · exact sorted_vecInsert _ _ (hp.asc t)
      · exact hp.asc b
    · intro x y k
      simp only
      rw [c2, hp.val]
      by_cases hxa : x = a
      · subst hxa
        simp only [true_and, ha, false_and, if_false, List.mem_cons, true_or, ho, Option.some.injEq]
        by_cases hy : y = t
        · subst hy; simp
        · have : ¬ t = y := fun e => hy e.symm
          simp [hy, this]
      · simp [hxa]

theorem copy_part (h : o.Is E A) {len : Nat} (l : List NodeID64) : ∀ (g : Dense S W) (done : List NodeID64),
    Part o A len g done → (∀ a ∈ l, a ∉ done) → l.Nodup → (∀ a ∈ l, a.val < len) →
    ∃ g', l.foldlM (copyNode o) g = some g' ∧ Part o A len g' (l.reverse ++ done) := by
  induction l with
  | nil => intro g done hp _ _ _; exact ⟨g, rfl, by simpa using hp⟩
  | cons a l ih =>
    intro g done hp hd hn hlt
    rw [List.nodup_cons] at hn
    obtain ⟨g1, e1, hp1⟩ := hp.step h a (hd a (by simp)) (hlt a (by simp))
    obtain ⟨g2, e2, hp2⟩ := ih g1 (a :: done) hp1 (by
      intro x hx
      rw [List.mem_cons]
      rintro (rfl | hxd)
      · exact hn.1 hx
      · exact hd x (by simp [hx]) hxd) hn.2 (fun x hx => hlt x (by simp [hx]))
    refine ⟨g2, ?_, by simpa using hp2⟩
    rw [List.foldlM_cons, e1]
    exact e2

/-- What a copied storage contains. -/
structure Rep (g : Dense S W) (E : NodeID64 → NodeID64 → Prop) (A : NodeID64 → NodeID64 → AnnoKey S → Option W) : Prop where
  out : ∀ a b, b ∈ g.out a ↔ E a b
  outLen : ∀ a, (g.out a).length ≤ 1
  inn : ∀ a b, a ∈ g.inn b ↔ E a b
  asc : ∀ b, (g.inn b).Pairwise (· < ·)
  src : ∀ a, a ∈ g.sources ↔ ∃ b, E a b
  coverOut : ∀ a c, c ∈ g.out a → c ∈ g.targets
  coverInn : ∀ a c, c ∈ g.inn a → c ∈ Adj.targets g.inverse
  val : ∀ a b k, g.annos.getValue (toLex (a, b)) k = A a b k

theorem out_eq (g : Dense S W) (a b : NodeID64) : b ∈ g.out a ↔ g.edges[a.val]? = some (some b) := by
  unfold out
  cases hx : g.edges[a.val]? with
  | none => simp
  | some x =>
    cases x with
    | none => simp
    | some t => simp [eq_comm]

theorem copy_rep (h : o.Is E A) (hf : Walk.Functional E) (l : NodeID64) (hl : ∀ a b, E a b → a ≤ l) (g0 : Dense S W) :
    ∃ g, copy (some l) g0 o = some g ∧ Rep g E A := by
  have hp0 : Part o A (l.val + 1) (⟨List.replicate (l.val + 1) none, [], g0.annos.clear⟩ : Dense S W) [] := by
    refine ⟨by simp, ?_, ?_, ?_, AnnoStore.Inv.clear _, ?_⟩
    · intro a ha
      simp only [List.getElem?_replicate, ha, if_true, List.not_mem_nil, if_false]
    · intro a b; simp [Dense.inn]
    · intro b; simp [Dense.inn]
    · intro x y k; simp [Adj.getValue_clear]
  obtain ⟨g, e1, hp⟩ := copy_part h o.sources _ [] hp0 (by simp) h.src_nodup (by
    intro a ha
    obtain ⟨b, hb⟩ := (h.src_iff a).1 ha
    exact Nat.lt_succ_of_le (hl a b hb))
  rw [List.append_nil] at hp
  have hmem : ∀ a, a ∈ o.sources.reverse ↔ ∃ b, E a b := by
    intro a; rw [List.mem_reverse, h.src_iff]
  have hout : ∀ a b, b ∈ g.out a ↔ E a b := by
    intro a b
    rw [out_eq]
    constructor
    · intro hg
      have hlt : a.val < l.val + 1 := by rw [← hp.length]; exact (List.getElem?_eq_some_iff.1 hg).1
      rw [hp.edge a hlt] at hg
      injection hg with hg
      split at hg
      · exact (h.head_iff hf a b).1 hg
      · cases hg
    · intro hab
      have hlt : a.val < l.val + 1 := Nat.lt_succ_of_le (hl a b hab)
      rw [hp.edge a hlt, if_pos ((hmem a).2 ⟨b, hab⟩), (h.head_iff hf a b).2 hab]
  refine ⟨g, e1, hout, ?_, ?_, hp.asc, ?_, ?_, ?_, ?_⟩
  · intro a
    unfold out
    split <;> simp
  · intro a b
    rw [hp.inn, hmem, h.head_iff hf]
    exact ⟨fun x => x.2, fun x => ⟨⟨b, x⟩, x⟩⟩
  · intro a
    unfold sources
    rw [List.mem_filterMap]
    constructor
    · rintro ⟨⟨x, i⟩, hx, hy⟩
      have hi := (List.mem_zipIdx_iff_getElem?).1 hx
      simp only at hi hy
      cases x with
      | none => simp at hy
      | some t =>
        simp only [Option.isSome_some, if_true] at hy
        split at hy
        · rename_i hlt
          injection hy with hy
          subst hy
          exact ⟨t, (hout _ _).1 ((out_eq _ _ _).2 hi)⟩
        · cases hy
    · rintro ⟨b, hb⟩
      have := (out_eq _ _ _).1 ((hout a b).2 hb)
      refine ⟨(some b, a.val), (List.mem_zipIdx_iff_getElem?).2 this, ?_⟩
      simp only [Option.isSome_some, if_true]
      rw [dif_pos a.isLt]
  · intro a c hc
    rw [out_eq] at hc
    unfold targets
    rw [List.mem_filterMap]
    exact ⟨some c, List.mem_of_getElem? hc, rfl⟩
  · intro a c hc
    unfold inn at hc
    unfold Adj.targets OMap.vals
    cases hx : g.inverse.get a with
    | none => simp [hx] at hc
    | some v =>
      rw [hx] at hc
      exact List.mem_flatten.2 ⟨v, List.mem_map.2 ⟨(a, v), OMap.mem_of_get hx, rfl⟩, hc⟩
  · intro a b k
    rw [hp.val]
    cases hA : A a b k with
    | none => simp
    | some v =>
      have := h.anno_dom a b k v hA
      rw [if_pos ⟨(hmem a).2 ⟨b, this⟩, (h.head_iff hf a b).2 this, rfl⟩]

end Dense

namespace DiskPath

/-- The path written for one source. -/
def pathOf (o : Source NodeID64 S W) (a : NodeID64) : List NodeID64 :=
  (Dfs.steps o.out o.nodes a 1 pathMaxDepth).map fun x => x.1

section
variable (h : o.Is E A) (hf : Walk.Functional E)
include h hf

theorem steps_get (a : NodeID64) (i : Nat) (b : NodeID64) :
    (pathOf o a)[i]? = some b ↔ Walk.SimplePath E a b (i + 1) ∧ i + 1 ≤ pathMaxDepth := by
  have hd := Dfs.steps_dist h.dcovers (h.out_length hf) pathMaxDepth a
  unfold pathOf
  rw [List.getElem?_map]
  constructor
  · intro hx
    rw [Option.map_eq_some_iff] at hx
    obtain ⟨⟨n, d⟩, hs, rfl⟩ := hx
    have := hd i _ hs
    simp only at this
    subst this
    have := (h.mem_steps a n 1 pathMaxDepth (i + 1)).1 (List.mem_of_getElem? hs)
    exact ⟨this.1, this.2.2⟩
  · rintro ⟨h1, h2⟩
    have hm := (h.mem_steps a b 1 pathMaxDepth (i + 1)).2 ⟨h1, by omega, h2⟩
    obtain ⟨j, hj⟩ := List.mem_iff_getElem?.1 hm
    have := hd j _ hj
    simp only at this
    have hij : i = j := by omega
    subst hij
    rw [hj]; rfl

theorem path_length (a : NodeID64) : (pathOf o a).length ≤ pathMaxDepth := by
  by_contra hc
  have hlt : pathMaxDepth < (pathOf o a).length := by omega
  have := ((steps_get h hf a pathMaxDepth _).1 (List.getElem?_eq_getElem hlt)).2
  omega

theorem path_nodup (a : NodeID64) : (pathOf o a).Nodup := by
  rw [List.nodup_iff_pairwise_ne, List.pairwise_iff_getElem]
  intro i j hi hj hij heq
  have h1 := ((steps_get h hf a i _).1 (List.getElem?_eq_getElem hi)).1
  have h2 := ((steps_get h hf a j _).1 (List.getElem?_eq_getElem hj)).1
  rw [← heq] at h2
  have := Walk.simplePath_functional hf h1 h2
  omega

/-- Writing all steps of one source. -/
theorem foldl_copyStep (a : NodeID64) (l : List (NodeID64 × Nat)) : ∀ (k : Nat) (e : PathEntry) (g : DiskPath S W),
    (∀ i x, l[i]? = some x → x.2 = k + i + 1) → k + l.length ≤ e.nodes.length → e.len = k → g.annos.Inv → g.inverse.Sorted →
    (∀ x ∈ l, x.2 = 1 → E a x.1) →
    (l.foldl (copyStep o a) (e, g)).1.len = k + l.length ∧
    (l.foldl (copyStep o a) (e, g)).1.nodes = e.nodes.take k ++ l.map (fun x => x.1) ++ e.nodes.drop (k + l.length) ∧
    (l.foldl (copyStep o a) (e, g)).2.paths = g.paths ∧
    (l.foldl (copyStep o a) (e, g)).2.inverse.Sorted ∧
    (∀ x y, ((l.foldl (copyStep o a) (e, g)).2.inverse.get (toLex (y, x))).isSome ↔
      (g.inverse.get (toLex (y, x))).isSome ∨ (x = a ∧ (y, 1) ∈ l)) ∧
    (l.foldl (copyStep o a) (e, g)).2.annos.Inv ∧
    (∀ x y q, (l.foldl (copyStep o a) (e, g)).2.annos.getValue (toLex (x, y)) q =
      if x = a ∧ (y, 1) ∈ l ∧ (A x y q).isSome then A x y q else g.annos.getValue (toLex (x, y)) q) := by
  induction l with
  | nil =>
    intro k e g _ hlen hk hi hs _
    refine ⟨by simp [hk], by simp, rfl, hs, by simp, hi, by simp⟩
  | cons p l ih =>
    intro k e g hd hlen hk hi hs hE
    obtain ⟨n, d⟩ := p
    have hd0 := hd 0 (n, d) rfl
    simp only [Nat.add_zero] at hd0
    subst hd0
    rw [List.foldl_cons]
    have hlen' : k + 1 + l.length ≤ (e.nodes.set k n).length := by
      simp only [List.length_cons] at hlen; simp; omega
    have hstep : copyStep o a (e, g) (n, k + 1) = (⟨k + 1, e.nodes.set k n⟩,
        if k = 0 then
          { g with inverse := g.inverse.insert (toLex (n, a)) true, annos := o.copyEdgeAnnos g.annos a n } else g) := by
      simp only [copyStep, Nat.add_sub_cancel, Nat.add_eq_right]
    rw [hstep]
    obtain ⟨c1, c2⟩ := Source.copyEdgeAnnos_spec h hi a n
    have hd1 : ∀ i x, l[i]? = some x → x.2 = k + 1 + i + 1 := by
      intro i x hx
      have := hd (i + 1) x (by simpa using hx)
      omega
    have hE1 : ∀ x ∈ l, x.2 = 1 → E a x.1 := fun x hx => hE x (by simp [hx])
    have hno : ∀ y, (y, 1) ∉ l := by
      intro y hy
      obtain ⟨i, hi⟩ := List.mem_iff_getElem?.1 hy
      have := hd1 i _ hi
      simp only at this
      omega
    have hnodes : (e.nodes.set k n).take (k + 1) ++ l.map (fun x => x.1) ++ (e.nodes.set k n).drop (k + 1 + l.length) =
        e.nodes.take k ++ ((n, k + 1) :: l).map (fun x => x.1) ++ e.nodes.drop (k + ((n, k + 1) :: l).length) := by
      have hk' : k < e.nodes.length := by simp only [List.length_cons] at hlen; omega
      have e1 : (e.nodes.set k n).take (k + 1) = e.nodes.take k ++ [n] := by
        rw [List.take_add_one, List.take_set_of_le (le_refl k), List.getElem?_set_self hk']
        rfl
      have e2 : (e.nodes.set k n).drop (k + 1 + l.length) = e.nodes.drop (k + 1 + l.length) :=
        List.drop_set_of_lt (by omega)
      rw [e1, e2]
      simp only [List.map_cons, List.length_cons, List.append_assoc, List.singleton_append, List.cons_append,
        List.nil_append]
      rw [show k + 1 + l.length = k + (l.length + 1) by omega]
    by_cases hk0 : k = 0
    · subst hk0
      simp only [if_true]
      obtain ⟨i1, i2, i3, i4, i5, i6, i7⟩ := ih (0 + 1) ⟨0 + 1, e.nodes.set 0 n⟩
        { g with inverse := g.inverse.insert (toLex (n, a)) true, annos := o.copyEdgeAnnos g.annos a n }
        hd1 hlen' rfl c1 (OMap.sorted_insert hs _ _) hE1
      refine ⟨by rw [i1]; simp only [List.length_cons]; omega, by rw [i2]; exact hnodes, i3, i4, ?_, i6, ?_⟩
      · intro x y
        rw [i5]
        simp only [hno, and_false, or_false, List.mem_cons, Prod.mk.injEq, and_true]
        rw [OMap.get_insert]
        by_cases hc : toLex (y, x) = toLex (n, a)
        · simp only [hc, if_true, Option.isSome_some, true_iff]
          rw [toLex_inj, Prod.mk.injEq] at hc
          exact Or.inr ⟨hc.2, hc.1⟩
        · rw [if_neg hc]
          rw [toLex_inj, Prod.mk.injEq] at hc
          constructor
          · intro hx; exact Or.inl hx
          · rintro (hx | hx)
            · exact hx
            · exact absurd ⟨hx.2, hx.1⟩ hc
      · intro x y q
        rw [i7]
        simp only [hno, false_and, and_false, if_false, List.mem_cons, Prod.mk.injEq, and_true, or_false]
        rw [c2]
        by_cases hx : x = a
        · subst hx
          by_cases hy : y = n
          · subst hy; simp
          · simp [hy]
        · simp [hx]
    · simp only [hk0, if_false]
      obtain ⟨i1, i2, i3, i4, i5, i6, i7⟩ := ih (k + 1) ⟨k + 1, e.nodes.set k n⟩ g hd1 hlen' rfl hi hs hE1
      refine ⟨by rw [i1]; simp only [List.length_cons]; omega, by rw [i2]; exact hnodes, i3, i4, ?_, i6, ?_⟩
      · intro x y
        rw [i5]
        have : ¬ (1 = k + 1) := by omega
        simp [hno, this, hk0]
      · intro x y q
        rw [i7]
        have : ¬ (1 = k + 1) := by omega
        simp [hno, this, hk0]

end

/-- State after the sources in `done` were copied. -/
structure Part (o : Source NodeID64 S W) (E : NodeID64 → NodeID64 → Prop) (A : NodeID64 → NodeID64 → AnnoKey S → Option W)
    (old : NodeID64 → NodeID64 → AnnoKey S → Option W) (len : Nat) (g : DiskPath S W) (done : List NodeID64) : Prop where
  length : g.paths.length = len
  path : ∀ a : NodeID64, a.val < len → ∃ e, g.paths[a.val]? = some e ∧
    if a ∈ done then e.len = (pathOf o a).length ∧ e.nodes.take e.len = pathOf o a
    else e.len = 0 ∧ e.nodes.length = pathMaxDepth
  sorted : g.inverse.Sorted
  inv : ∀ a b, (g.inverse.get (toLex (b, a))).isSome ↔ a ∈ done ∧ E a b
  anno : g.annos.Inv
  val : ∀ x y k, g.annos.getValue (toLex (x, y)) k = if x ∈ done ∧ (A x y k).isSome then A x y k else old x y k

theorem Part.step (h : o.Is E A) (hf : Walk.Functional E) {old} {len : Nat} {g : DiskPath S W} {done : List NodeID64}
    (hp : Part o E A old len g done) (a : NodeID64) (ha : a ∉ done) (hlt : a.val < len) :
    Part o E A old len (copySource o g a) (a :: done) := by
  obtain ⟨e, he, hed⟩ := hp.path a hlt
  rw [if_neg ha] at hed
  have hlen := path_length h hf a
  unfold pathOf at hlen
  rw [List.length_map] at hlen
  obtain ⟨i1, i2, i3, i4, i5, i6, i7⟩ := foldl_copyStep h hf a (Dfs.steps o.out o.nodes a 1 pathMaxDepth) 0 e g
    (by
      intro i x hx
      have := Dfs.steps_dist h.dcovers (h.out_length hf) pathMaxDepth a i x hx
      omega)
    (by rw [hed.2]; omega) hed.1 hp.anno hp.sorted
    (by
      rintro ⟨n, d⟩ hx hd
      simp only at hd
      subst hd
      exact Walk.walkLen_one.1 ((h.mem_steps a n 1 pathMaxDepth 1).1 hx).1.walk)
  have hone : ∀ y, (y, 1) ∈ Dfs.steps o.out o.nodes a 1 pathMaxDepth ↔ E a y := by
    intro y
    rw [h.mem_steps]
    constructor
    · intro hx; exact Walk.walkLen_one.1 hx.1.walk
    · intro hx
      refine ⟨?_, le_refl _, by decide⟩
      have hne : a ≠ y := fun e => h.irr a (by rw [← e] at hx; exact hx)
      exact ⟨[a, y], ⟨rfl, rfl, by simp [hx]⟩, by simp [hne], rfl⟩
  unfold copySource
  rw [he]
  simp only
  refine ⟨by simp [i3, hp.length], ?_, i4, ?_, i6, ?_⟩
  · intro x hx
    simp only
    rw [i3, List.getElem?_set]
    by_cases hxa : x = a
    · subst hxa
      simp only [if_true, hp.length, hlt, List.mem_cons, true_or, Option.some.injEq, exists_eq_left']
      rw [i1, i2]
      simp only [List.take_zero, List.nil_append, Nat.zero_add, pathOf, List.length_map, true_and]
      rw [List.take_append_of_le_length (by simp), List.take_of_length_le (by simp)]
    · have : ¬ a.val = x.val := fun e => hxa (Fin.ext e.symm)
      rw [if_neg this]
      obtain ⟨e', h1, h2⟩ := hp.path x hx
      exact ⟨e', h1, by simpa [hxa] using h2⟩
  · intro x y
    rw [i5, hp.inv]
    by_cases hxa : x = a
    · subst hxa; simp [ha, hone]
    · simp [hxa]
  · intro x y k
    rw [i7, hp.val]
    by_cases hxa : x = a
    · subst hxa
      simp only [true_and, hone, ha, false_and, if_false, List.mem_cons, true_or]
      cases hA : A x y k with
      | none => simp
      | some v => simp [(hone y).2 (h.anno_dom x y k v hA)]
    · simp [hxa]

theorem copy_part (h : o.Is E A) (hf : Walk.Functional E) {old} {len : Nat} (l : List NodeID64) :
    ∀ (g : DiskPath S W) (done : List NodeID64), Part o E A old len g done → (∀ a ∈ l, a ∉ done) → l.Nodup →
      (∀ a ∈ l, a.val < len) → Part o E A old len (l.foldl (copySource o) g) (l.reverse ++ done) := by
  induction l with
  | nil => intro g done hp _ _ _; simpa using hp
  | cons a l ih =>
    intro g done hp hd hn hlt
    rw [List.nodup_cons] at hn
    have hp1 := hp.step h hf a (hd a (by simp)) (hlt a (by simp))
    have hp2 := ih _ (a :: done) hp1 (by
      intro x hx
      rw [List.mem_cons]
      rintro (rfl | hxd)
      · exact hn.1 hx
      · exact hd x (by simp [hx]) hxd) hn.2 (fun x hx => hlt x (by simp [hx]))
    simpa using hp2

theorem le_fold_max (l : List NodeID64) : ∀ (m : Nat), m ≤ l.foldl (fun acc n => Nat.max acc n.val) m ∧
    ∀ a ∈ l, a.val ≤ l.foldl (fun acc n => Nat.max acc n.val) m := by
  induction l with
  | nil => intro m; simp
  | cons x l ih =>
    intro m
    obtain ⟨h1, h2⟩ := ih (Nat.max m x.val)
    rw [List.foldl_cons]
    refine ⟨le_trans (Nat.le_max_left _ _) h1, ?_⟩
    intro a ha
    rcases List.mem_cons.1 ha with rfl | ha
    · exact le_trans (Nat.le_max_right _ _) h1
    · exact h2 a ha

/-- What a copied storage contains. -/
structure Rep (g : DiskPath S W) (o : Source NodeID64 S W) (E : NodeID64 → NodeID64 → Prop)
    (A : NodeID64 → NodeID64 → AnnoKey S → Option W) : Prop where
  pathFor : ∀ a, g.pathFor a = some (pathOf o a)
  out : ∀ a, ∃ l, g.out a = some l ∧ l.Nodup ∧ ∀ b, b ∈ l ↔ E a b
  inn : ∀ a b, a ∈ g.inn b ↔ E a b ∧ a.val < usizeMax
  innNodup : ∀ b, (g.inn b).Nodup
  src : ∃ l, g.sources = some l ∧ ∀ a, a ∈ l ↔ ∃ b, E a b
  coverInn : ∀ a c, c ∈ g.inn a → c ∈ g.inverse.map fun p => (ofLex p.1).2
  val : ∀ a b k, g.annos.getValue (toLex (a, b)) k = A a b k

theorem copy_rep (h : o.Is E A) (hf : Walk.Functional E) : Rep (copy (new : DiskPath S W) o) o E A := by
  obtain ⟨hm0, hm⟩ := le_fold_max o.sources 0
  have hp0 : Part o E A (fun _ _ _ => none) (o.sources.foldl (fun acc n => Nat.max acc n.val) 0 + 1)
      ({ paths := List.replicate (o.sources.foldl (fun acc n => Nat.max acc n.val) 0 + 1)
          ⟨0, List.replicate pathMaxDepth 0⟩, inverse := [], annos := (new : DiskPath S W).annos } : DiskPath S W) [] := by
    refine ⟨by simp, ?_, OMap.sorted_nil, by simp, AnnoStore.Inv.new, ?_⟩
    · intro a ha
      refine ⟨⟨0, List.replicate pathMaxDepth 0⟩, ?_, by simp⟩
      simp only [List.getElem?_replicate, ha, if_true]
    · intro x y k; simp [new, AnnoStore.new, AnnoStore.getValue, SymbolTable.new, SymbolTable.getSymbol]
  have hp := copy_part h hf o.sources _ [] hp0 (by simp) h.src_nodup (fun a ha => Nat.lt_succ_of_le (hm a ha))
  rw [List.append_nil] at hp
  set m := o.sources.foldl (fun acc n => Nat.max acc n.val) 0 with hmdef
  have hcopy : copy (new : DiskPath S W) o = o.sources.foldl (copySource o)
      { paths := List.replicate (m + 1) ⟨0, List.replicate pathMaxDepth 0⟩, inverse := [], annos := (new : DiskPath S W).annos } := rfl
  rw [← hcopy] at hp
  set g := copy (new : DiskPath S W) o with hg
  have hmem : ∀ a, a ∈ o.sources.reverse ↔ ∃ b, E a b := by
    intro a; rw [List.mem_reverse, h.src_iff]
  have hsimple1 : ∀ a b, Walk.SimplePath E a b 1 ↔ E a b := by
    intro a b
    constructor
    · intro hx; exact Walk.walkLen_one.1 hx.walk
    · intro hx
      have hne : a ≠ b := fun e => h.irr a (by rw [← e] at hx; exact hx)
      exact ⟨[a, b], ⟨rfl, rfl, by simp [hx]⟩, by simp [hne], rfl⟩
  have hempty : ∀ a, (¬ ∃ b, E a b) → pathOf o a = [] := by
    intro a hna
    cases hx : pathOf o a with
    | nil => rfl
    | cons b r =>
      have := (steps_get h hf a 0 b).1 (by rw [hx]; rfl)
      exact absurd ⟨b, (hsimple1 a b).1 this.1⟩ hna
  have hnonempty : ∀ a b, E a b → (pathOf o a)[0]? = some b := by
    intro a b hab
    exact (steps_get h hf a 0 b).2 ⟨(hsimple1 a b).2 hab, by decide⟩
  have hlt : ∀ a b, E a b → a.val < m + 1 := fun a b hab => Nat.lt_succ_of_le (hm a ((h.src_iff a).2 ⟨b, hab⟩))
  have hpath : ∀ a, g.pathFor a = some (pathOf o a) := by
    intro a
    unfold DiskPath.pathFor
    rw [hp.length, if_neg (by omega)]
    by_cases hc : m + 1 - 1 < a.val
    · rw [if_pos hc, hempty a]
      rintro ⟨b, hab⟩
      have := hlt a b hab
      omega
    · rw [if_neg hc]
      obtain ⟨e, he, hd⟩ := hp.path a (by omega)
      rw [he]
      simp only
      split at hd
      · rename_i hin
        by_cases hz : e.len = 0
        · rw [if_pos hz]
          rw [hz] at hd
          rw [List.length_eq_zero_iff.1 hd.1.symm]
        · rw [if_neg hz, hd.2]
      · rename_i hin
        rw [if_pos hd.1, hempty a (fun hx => hin ((hmem a).2 hx))]
  have hout : ∀ a, g.out a = some ((pathOf o a)[0]?).toList := by
    intro a
    have := hpath a
    unfold DiskPath.pathFor at this
    unfold DiskPath.out
    by_cases h0 : g.paths.length = 0
    · rw [if_pos h0] at this; cases this
    · rw [if_neg h0] at this ⊢
      by_cases h1 : g.paths.length - 1 < a.val
      · rw [if_pos h1] at this ⊢
        injection this with this
        rw [← this]; rfl
      · rw [if_neg h1] at this ⊢
        cases he : g.paths[a.val]? with
        | none => rw [he] at this; cases this
        | some e =>
          rw [he] at this
          simp only at this ⊢
          by_cases hz : e.len = 0
          · rw [if_pos hz] at this ⊢
            injection this with this
            rw [← this]; rfl
          · rw [if_neg hz] at this ⊢
            injection this with this
            rw [← this, List.getElem?_take, if_pos (by omega)]
  have hinn : ∀ a b, a ∈ g.inn b ↔ E a b ∧ a.val < usizeMax := by
    intro a b
    unfold DiskPath.inn
    rw [List.mem_map]
    constructor
    · rintro ⟨⟨k, v⟩, hk, rfl⟩
      rw [List.mem_filter] at hk
      simp only [Bool.and_eq_true, decide_eq_true_eq] at hk
      obtain ⟨hk, rfl, hk3⟩ := hk
      refine ⟨?_, hk3⟩
      have hget := (OMap.mem_iff_get hp.sorted).1 hk
      exact ((hp.inv (ofLex k).2 (ofLex k).1).1 (by
        rw [show toLex ((ofLex k).1, (ofLex k).2) = k from rfl, hget]; rfl)).2
    · rintro ⟨hab, hlt⟩
      obtain ⟨v, hv⟩ := Option.isSome_iff_exists.1 ((hp.inv a b).2 ⟨(hmem a).2 ⟨b, hab⟩, hab⟩)
      refine ⟨(toLex (b, a), v), ?_, rfl⟩
      rw [List.mem_filter]
      exact ⟨OMap.mem_of_get hv, by simp [hlt]⟩
  refine ⟨hpath, ?_, hinn, ?_, ?_, ?_, ?_⟩
  · intro a
    refine ⟨_, hout a, ?_, ?_⟩
    · cases (pathOf o a)[0]? <;> simp
    · intro b
      rw [Option.mem_toList, steps_get h hf, hsimple1]
      exact ⟨fun x => x.1, fun x => ⟨x, by decide⟩⟩
  · intro b
    unfold DiskPath.inn
    have hk := OMap.nodup_keys hp.sorted
    unfold OMap.keys at hk
    apply List.Nodup.map_on
    · rintro ⟨k1, v1⟩ h1 ⟨k2, v2⟩ h2 heq
      simp only at heq
      rw [List.mem_filter] at h1 h2
      simp only [Bool.and_eq_true, decide_eq_true_eq] at h1 h2
      have hkk : k1 = k2 := by
        have e1 : ofLex k1 = ofLex k2 := Prod.ext (h1.2.1.trans h2.2.1.symm) heq
        exact e1
      subst hkk
      have a1 := (OMap.mem_iff_get hp.sorted).1 h1.1
      have a2 := (OMap.mem_iff_get hp.sorted).1 h2.1
      rw [a1] at a2
      injection a2 with a2
      rw [a2]
    · exact (List.Nodup.of_map _ hk).filter _
  · refine ⟨_, by unfold DiskPath.sources; rw [hp.length, if_neg (by omega)], ?_⟩
    intro a
    rw [List.mem_filterMap]
    constructor
    · rintro ⟨⟨e, i⟩, hx, hy⟩
      have hi := (List.mem_zipIdx_iff_getElem?).1 hx
      simp only at hi hy
      split at hy
      · cases hy
      · rename_i hne
        split at hy
        · rename_i hlt256
          injection hy with hy
          subst hy
          by_contra hno
          have hil : i < m + 1 := by rw [← hp.length]; exact (List.getElem?_eq_some_iff.1 hi).1
          obtain ⟨e', he', hd⟩ := hp.path ⟨i, hlt256⟩ hil
          simp only at he'
          rw [hi] at he'
          injection he' with he'
          subst he'
          rw [if_neg (fun hx => hno ((hmem _).1 hx))] at hd
          exact hne hd.1
        · cases hy
    · rintro ⟨b, hb⟩
      obtain ⟨e, he, hd⟩ := hp.path a (hlt a b hb)
      rw [if_pos ((hmem a).2 ⟨b, hb⟩)] at hd
      refine ⟨(e, a.val), (List.mem_zipIdx_iff_getElem?).2 he, ?_⟩
      have : e.len ≠ 0 := by
        rw [hd.1]
        intro h0
        have := hnonempty a b hb
        rw [List.length_eq_zero_iff.1 h0] at this
        simp at this
      simp only [this, if_false]
      rw [dif_pos a.isLt]
  · intro a c hc
    unfold DiskPath.inn at hc
    obtain ⟨p, hp1, rfl⟩ := List.mem_map.1 hc
    exact List.mem_map.2 ⟨p, (List.mem_filter.1 hp1).1, rfl⟩
  · intro a b k
    rw [hp.val]
    cases hA : A a b k with
    | none => simp
    | some v => rw [if_pos ⟨(hmem a).2 ⟨b, h.anno_dom a b k v hA⟩, rfl⟩]

end DiskPath
