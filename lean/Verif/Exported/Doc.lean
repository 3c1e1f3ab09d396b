import Verif.Exported.Model
import Verif.GraphML.Props
import Verif.Updated.Made


/-!
# The exported document presents the graph (C115)
-/

set_option linter.unusedSimpArgs false
set_option linter.unusedSectionVars false

namespace Graph

open Index

/-- The orders only change the order. -/
structure Visits.Ok {C : Type} (v : Visits C) : Prop where
  keys : ∀ l, (v.keys l).Perm l
  items : ∀ l, (v.items l).Perm l
  comps : ∀ l, (v.comps l).Perm l
  ids : ∀ l, (v.ids l).Perm l
  labels : ∀ l, (v.labels l).Perm l

namespace Spec

/-- The graph without the generated components. -/
def noIndex {C : Type} [LinearOrder C] (sc : Schema C) (m : GSpec Str Str C) : GSpec Str Str C :=
  { m with
    edge := fun c x y => if c = sc.left ∨ c = sc.right ∨ c = sc.inh then false else m.edge c x y
    eanno := fun c x y k => if c = sc.left ∨ c = sc.right ∨ c = sc.inh then none else m.eanno c x y k }

end Spec

variable {C : Type} [LinearOrder C] {sc : Schema C} {nk tk tok : AnnoKey Str} {v : Visits C} {g : Graph Str Str C}

theorem isIndex_false {c : C} : isIndex sc c = false ↔ c ≠ sc.left ∧ c ≠ sc.right ∧ c ≠ sc.inh := by
  unfold isIndex
  simp [and_assoc]

/-! ### Keys -/

theorem mem_addKeys (ks : List (AnnoKey Str)) : ∀ (seen : List (AnnoKey Str)) k, k ∈ addKeys seen ks ↔ k ∈ seen ∨ k ∈ ks := by
  induction ks with
  | nil => intro seen k; simp [addKeys]
  | cons a ks ih =>
    intro seen k
    show k ∈ addKeys (if a ∈ seen then seen else seen ++ [a]) ks ↔ _
    rw [ih]
    split
    · rename_i h
      constructor
      · rintro (h1 | h1)
        · exact Or.inl h1
        · exact Or.inr (List.mem_cons_of_mem _ h1)
      · rintro (h1 | h1)
        · exact Or.inl h1
        · rcases List.mem_cons.1 h1 with rfl | h1
          · exact Or.inl h
          · exact Or.inr h1
    · simp [or_assoc]

theorem nodup_addKeys (ks : List (AnnoKey Str)) : ∀ (seen : List (AnnoKey Str)), seen.Nodup → (addKeys seen ks).Nodup := by
  induction ks with
  | nil => intro seen h; exact h
  | cons a ks ih =>
    intro seen h
    show (addKeys (if a ∈ seen then seen else seen ++ [a]) ks).Nodup
    apply ih
    split
    · exact h
    · rename_i hn
      rw [List.nodup_append]
      exact ⟨h, by simp, by rintro x hx y hy rfl; exact hn (by simpa using List.mem_singleton.1 hy ▸ hx)⟩

theorem mem_addAll (f : C → List (AnnoKey Str)) (cs : List C) : ∀ (seen : List (AnnoKey Str)) k,
    k ∈ cs.foldl (fun seen c => addKeys seen (f c)) seen ↔ k ∈ seen ∨ ∃ c ∈ cs, k ∈ f c := by
  induction cs with
  | nil => intro seen k; simp
  | cons c cs ih =>
    intro seen k
    rw [List.foldl_cons, ih, mem_addKeys]
    simp [or_assoc]

theorem nodup_addAll (f : C → List (AnnoKey Str)) (cs : List C) : ∀ (seen : List (AnnoKey Str)), seen.Nodup →
    (cs.foldl (fun seen c => addKeys seen (f c)) seen).Nodup := by
  induction cs with
  | nil => intro seen h; exact h
  | cons c cs ih => intro seen h; exact ih _ (nodup_addKeys _ _ h)

/-! ### The document -/

theorem anno_eq {k k' : AnnoKey Str} (h1 : k.name = k'.name) (h2 : k.ns = k'.ns) : k = k' := by
  have : toLex (k.name, k.ns) = toLex (k'.name, k'.ns) := by rw [h1, h2]
  exact this

theorem labels_perm {l l' : Labels} (h : l.Perm l') (hn : (l'.map Prod.fst).Nodup) : (l.map Prod.fst).Nodup := (h.map _).nodup_iff.2 hn

theorem assocGet_iff {l : Labels} (hn : (l.map Prod.fst).Nodup) {f : AnnoKey Str → Option Str} (h : ∀ k w, (k, w) ∈ l ↔ f k = some w) (k : AnnoKey Str) :
    assocGet l k = f k := by
  cases hk : f k with
  | some w => exact assocGet_of_mem hn ((h k w).2 hk)
  | none =>
    rw [assocGet_none]
    intro hm
    obtain ⟨⟨k', w⟩, hw, rfl⟩ := List.mem_map.1 hm
    rw [(h _ w).1 hw] at hk
    cases hk

theorem nodup_filterMap_some {A B : Type} {f : A → Option B} {l : List A} (hl : l.Nodup)
    (hf : ∀ a ∈ l, ∀ a' ∈ l, ∀ b, f a = some b → f a' = some b → a = a') : (l.filterMap f).Nodup := by
  induction l with
  | nil => simp
  | cons a l ih =>
    rw [List.nodup_cons] at hl
    have ih' := ih hl.2 fun x hx y hy => hf x (List.mem_cons_of_mem _ hx) y (List.mem_cons_of_mem _ hy)
    rw [List.filterMap_cons]
    split
    · exact ih'
    · rename_i b hb
      rw [List.nodup_cons]
      refine ⟨?_, ih'⟩
      intro hm
      obtain ⟨a', ha', hb'⟩ := List.mem_filterMap.1 hm
      have := hf a (by simp) a' (List.mem_cons_of_mem _ ha') b hb hb'
      subst this
      exact hl.1 ha'

section
variable {m : GSpec Str Str C} (hv : v.Ok) (hi : Inv nk g) (hm : Made g)
include hv hi hm

theorem mem_docNodes (n : Str) (ls : Labels) : (n, ls) ∈ docNodes nk tk v g ↔ ∃ i w, g.annos.getValue i tk = some w ∧
    g.annos.getValue i nk = some n ∧ ls = (v.labels (g.annos.annosForItem i)).filter fun a => a.1 ≠ nk := by
  obtain ⟨ops, ho⟩ := hm.annos
  have hx := (AnnoStore.C03_exact_search ops (some tk.ns) tk.name .any).1
  unfold docNodes
  rw [List.mem_filterMap]
  simp only [Prod.exists, (hv.items _).mem_iff, Option.map_eq_some_iff, Prod.mk.injEq]
  rw [ho]
  simp only [hx]
  constructor
  · rintro ⟨i, k, ⟨h1, h2, w, h3, _⟩, n', h4, rfl, rfl⟩
    have hk : k = tk := anno_eq h1 (h2 _ rfl)
    subst hk
    exact ⟨i, w, by rw [AnnoStore.C02_get_value]; exact h3, h4, rfl⟩
  · rintro ⟨i, w, h1, h2, rfl⟩
    exact ⟨i, tk, ⟨rfl, fun n h => (Option.some.inj h), w, by rw [← AnnoStore.C02_get_value]; exact h1, trivial⟩, n, h2, rfl, rfl⟩

theorem nodup_docNodes : ((docNodes nk tk v g).map Prod.fst).Nodup := by
  obtain ⟨ops, ho⟩ := hm.annos
  obtain ⟨hx, hn⟩ := AnnoStore.C03_exact_search ops (some tk.ns) tk.name .any
  unfold docNodes
  rw [List.map_filterMap]
  refine nodup_filterMap_some ((hv.items _).nodup_iff.2 (by rw [ho]; exact hn)) ?_
  rintro ⟨i, k⟩ hik ⟨j, k'⟩ hjk b hb hb'
  rw [(hv.items _).mem_iff, ho, hx] at hik hjk
  obtain ⟨h1, h2, _⟩ := hik
  obtain ⟨h3, h4, _⟩ := hjk
  have e1 : k = tk := anno_eq h1 (h2 _ rfl)
  have e2 : k' = tk := anno_eq h3 (h4 _ rfl)
  simp only [Option.map_map, Option.map_eq_some_iff, Function.comp_apply] at hb hb'
  obtain ⟨x, hx1, rfl⟩ := hb
  obtain ⟨y, hy1, hy2⟩ := hb'
  rw [e1, e2, hi.uniq i j x hx1 (by rw [hy1, hy2])]

theorem nodeLabels (i : NodeID64) : ((((v.labels (g.annos.annosForItem i)).filter fun a => a.1 ≠ nk)).map Prod.fst).Nodup ∧
    ∀ k w, (k, w) ∈ ((v.labels (g.annos.annosForItem i)).filter fun a => a.1 ≠ nk) ↔ k ≠ nk ∧ g.annos.getValue i k = some w := by
  refine ⟨?_, fun k w => ?_⟩
  · exact (labels_perm (hv.labels _) (AnnoStore.nodup_annosForItem hi.an i)).sublist (List.filter_sublist.map _)
  · rw [List.mem_filter, (hv.labels _).mem_iff, AnnoStore.mem_annosForItem hi.an]
    simp [and_comm]

theorem edgeLabels (c : C) (i j : NodeID64) : ((v.labels ((g.comp c).annos.annosForItem (toLex (i, j)))).map Prod.fst).Nodup ∧
    ∀ k w, (k, w) ∈ v.labels ((g.comp c).annos.annosForItem (toLex (i, j))) ↔ (g.comp c).annos.getValue (toLex (i, j)) k = some w := by
  refine ⟨labels_perm (hv.labels _) (AnnoStore.nodup_annosForItem (hi.ci c).anno _), fun k w => ?_⟩
  rw [(hv.labels _).mem_iff, AnnoStore.mem_annosForItem (hi.ci c).anno]

theorem mem_exported (c : C) : c ∈ exported sc v g ↔ c ∈ g.comps.keys ∧ c ≠ sc.left ∧ c ≠ sc.right ∧ c ≠ sc.inh := by
  unfold exported
  rw [List.mem_filter, (hv.comps _).mem_iff, Bool.not_eq_true', isIndex_false]

theorem mem_keys_of_out {c : C} {a b : NodeID64} (h : b ∈ (g.comp c).out a) : c ∈ g.comps.keys := by
  unfold comp at h
  cases hc : g.comps.get c with
  | none => simp [hc, Adj.new, Adj.out, OMap.get] at h
  | some x => exact List.mem_map.2 ⟨(c, x), (OMap.mem_iff_get hi.cs).2 hc, rfl⟩

theorem mem_docEdges (e : Str × Str × C × Labels) : e ∈ docEdges sc nk v g ↔ (e.2.2.1 ≠ sc.left ∧ e.2.2.1 ≠ sc.right ∧ e.2.2.1 ≠ sc.inh) ∧
    ∃ i j, j ∈ (g.comp e.2.2.1).out i ∧ g.annos.getValue i nk = some e.1 ∧ g.annos.getValue j nk = some e.2.1 ∧
      e.2.2.2 = v.labels ((g.comp e.2.2.1).annos.annosForItem (toLex (i, j))) := by
  obtain ⟨x, y, c, ls⟩ := e
  unfold docEdges
  simp only [List.mem_flatMap, mem_exported hv hi hm, (hv.ids _).mem_iff]
  constructor
  · rintro ⟨c', ⟨h1, h2⟩, i, h3, h4⟩
    unfold docOut at h4
    split at h4
    · cases h4
    · rename_i n hn
      obtain ⟨j, hj, h5⟩ := List.mem_filterMap.1 h4
      rw [(hv.ids _).mem_iff] at hj
      simp only [Option.map_eq_some_iff, Prod.mk.injEq] at h5
      obtain ⟨n', h6, rfl, rfl, rfl, rfl⟩ := h5
      exact ⟨h2, i, j, hj, hn, h6, rfl⟩
  · rintro ⟨h2, i, j, hj, h5, h6, h7⟩
    subst h7
    obtain ⟨ops, ho⟩ := hm.comp c
    refine ⟨c, ⟨mem_keys_of_out hv hi hm hj, h2⟩, i, ?_, ?_⟩
    · obtain ⟨q1, _, _, _, _, q6, _⟩ := Adj.C13_edges_in_sync ops
      rw [ho, q6]
      exact ⟨j, (q1 i j).1 (by rw [← ho]; exact hj)⟩
    · unfold docOut
      rw [h5]
      exact List.mem_filterMap.2 ⟨j, (hv.ids _).mem_iff.2 hj, by rw [h6]; rfl⟩

theorem nodup_docEdges : ((docEdges sc nk v g).map fun e => (e.1, e.2.1, e.2.2.1)).Nodup := by
  unfold docEdges
  rw [List.map_flatMap, List.nodup_flatMap]
  have hmemOut : ∀ c s q, q ∈ (docOut nk v g c s).map (fun e => (e.1, e.2.1, e.2.2.1)) → g.annos.getValue s nk = some q.1 ∧ q.2.2 = c := by
    intro c s q hq
    obtain ⟨e, he, rfl⟩ := List.mem_map.1 hq
    unfold docOut at he
    split at he
    · cases he
    · rename_i n hn
      obtain ⟨j, hj, h5⟩ := List.mem_filterMap.1 he
      simp only [Option.map_eq_some_iff] at h5
      obtain ⟨n', h6, rfl⟩ := h5
      exact ⟨hn, rfl⟩
  refine ⟨fun c hc => ?_, ?_⟩
  · rw [List.map_flatMap, List.nodup_flatMap]
    obtain ⟨ops, ho⟩ := hm.comp c
    refine ⟨fun s hs => ?_, ?_⟩
    · unfold docOut
      split
      · simp
      · rename_i n hn
        rw [List.map_filterMap]
        refine nodup_filterMap_some ((hv.ids _).nodup_iff.2 ?_) ?_
        · exact ((hi.ci c).eo s).imp fun h => ne_of_lt h
        · intro a _ a' _ b hb hb'
          simp only [Option.map_map, Option.map_eq_some_iff, Function.comp_apply] at hb hb'
          obtain ⟨x, hx1, rfl⟩ := hb
          obtain ⟨y, hy1, hy2⟩ := hb'
          simp only [Prod.mk.injEq] at hy2
          exact hi.uniq a a' x hx1 (by rw [hy1, hy2.2.1])
    · have hn : (v.ids (g.comp c).sources).Nodup := (hv.ids _).nodup_iff.2 (by rw [ho]; exact (Adj.C13_edges_in_sync ops).2.2.2.2.2.2.1)
      refine hn.imp fun {s s'} hne q hq hq' => ?_
      exact hne (hi.uniq s s' q.1 (hmemOut c s q hq).1 (hmemOut c s' q hq').1)
  · have hn : (exported sc v g).Nodup := ((hv.comps _).nodup_iff.2 (OMap.nodup_keys hi.cs)).filter _
    refine hn.imp fun {c c'} hne q hq hq' => ?_
    simp only [List.map_flatMap, List.mem_flatMap] at hq hq'
    obtain ⟨s, _, hs⟩ := hq
    obtain ⟨s', _, hs'⟩ := hq'
    exact hne ((hmemOut c s q hs).2.symm.trans (hmemOut c' s' q hs').2)

theorem mem_docKeys (k : AnnoKey Str) : k ∈ docKeys sc nk v g ↔ (k ≠ nk ∧ ∃ i w, g.annos.getValue i k = some w) ∨
    ∃ c ∈ exported sc v g, ∃ e w, (g.comp c).annos.getValue e k = some w := by
  unfold docKeys
  rw [mem_addAll, mem_addKeys, List.mem_filter, (hv.keys _).mem_iff, (AnnoStore.annotationKeys_exact hi.an).1]
  simp only [List.not_mem_nil, false_or, decide_eq_true_eq]
  refine or_congr and_comm (exists_congr fun c => and_congr_right fun _ => ?_)
  exact (AnnoStore.annotationKeys_exact (hi.ci c).anno).1 k

/-- **C115** (and C58): what is exported for a graph after updates presents the graph that the events describe without the generated components,
provided all nodes have a type. -/
theorem toDoc_presents {m' : GSpec Str Str C} (hr : Rep nk g m') (ha : Agree sc m' m)
    (ht : ∀ n, m.node n = true → m.label n tk ≠ none) (config : Option Str) :
    Presents nk tk (toDoc sc nk tk v g config) (Spec.noIndex sc m) := by
  have hnode : ∀ n, m.node n = true ↔ ∃ i, g.annos.getValue i nk = some n := fun n => by rw [← ha.node]; exact hr.node n
  have hlabel : ∀ {i n}, g.annos.getValue i nk = some n → ∀ k, g.annos.getValue i k = m.label n k := fun h k => by rw [← ha.label]; exact hr.label _ _ h k
  have hedge : ∀ {c x y}, (Spec.noIndex sc m).edge c x y = true ↔ (c ≠ sc.left ∧ c ≠ sc.right ∧ c ≠ sc.inh) ∧ m'.edge c x y = true := by
    intro c x y
    simp only [Spec.noIndex]
    split
    · rename_i hc
      constructor
      · intro h; cases h
      · rintro ⟨⟨h1, h2, h3⟩, _⟩
        rcases hc with hc | hc | hc
        · exact absurd hc h1
        · exact absurd hc h2
        · exact absurd hc h3
    · rename_i hc
      have hc' : c ≠ sc.left ∧ c ≠ sc.right ∧ c ≠ sc.inh := by simpa [not_or] using hc
      rw [ha.edge c hc'.1 hc'.2.1 hc'.2.2]
      simp [hc']
  have heanno : ∀ {c}, (c ≠ sc.left ∧ c ≠ sc.right ∧ c ≠ sc.inh) → ∀ x y k, (Spec.noIndex sc m).eanno c x y k = m'.eanno c x y k := by
    intro c hc x y k
    simp only [Spec.noIndex]
    rw [if_neg (by simpa [not_or] using hc), ha.eanno c hc.1 hc.2.1 hc.2.2]
  refine ⟨nodup_docNodes hv hi hm, ?_, ?_, ?_, ?_, ht, ?_, nodup_docEdges hv hi hm, ?_, ?_, ?_, ?_, ?_, ?_, ?_, ?_⟩
  · intro n
    show m.node n = true ↔ _
    rw [hnode]
    constructor
    · rintro ⟨i, hn⟩
      have := ht n ((hnode n).2 ⟨i, hn⟩)
      rw [← hlabel hn] at this
      obtain ⟨w, hw⟩ := Option.ne_none_iff_exists'.1 this
      exact List.mem_map.2 ⟨(n, _), (mem_docNodes hv hi hm n _).2 ⟨i, w, hw, hn, rfl⟩, rfl⟩
    · intro h
      obtain ⟨⟨n', ls⟩, h1, rfl⟩ := List.mem_map.1 h
      obtain ⟨i, _, _, h2, _⟩ := (mem_docNodes hv hi hm n' ls).1 h1
      exact ⟨i, h2⟩
  · rintro ⟨n, ls⟩ h
    obtain ⟨i, _, _, h2, rfl⟩ := (mem_docNodes hv hi hm n ls).1 h
    exact (nodeLabels hv hi hm i).1
  · rintro ⟨n, ls⟩ h k
    obtain ⟨i, _, _, h2, rfl⟩ := (mem_docNodes hv hi hm n ls).1 h
    refine assocGet_iff (f := fun k => if k = nk then none else m.label n k) (nodeLabels hv hi hm i).1 (fun k w => ?_) k
    rw [(nodeLabels hv hi hm i).2, hlabel h2]
    by_cases hk : k = nk <;> simp [hk]
  · intro n hn
    obtain ⟨i, hi'⟩ := (hnode n).1 hn
    show m.label n nk = some n
    rw [← hlabel hi', hi']
  · intro n k hk
    obtain ⟨w, hw⟩ := Option.ne_none_iff_exists'.1 hk
    show m.node n = true
    rw [← ha.node]
    exact hr.labelN n k w (by rw [ha.label]; exact hw)
  · intro c x y
    rw [hedge, List.mem_map]
    constructor
    · rintro ⟨hc, he⟩
      obtain ⟨n1, n2⟩ := hr.edgeN c x y he
      obtain ⟨i, h1⟩ := (hr.node x).1 n1
      obtain ⟨j, h2⟩ := (hr.node y).1 n2
      exact ⟨(x, y, c, v.labels ((g.comp c).annos.annosForItem (toLex (i, j)))), (mem_docEdges hv hi hm _).2 ⟨hc, i, j, (hr.edge i j x y h1 h2 c).2 he, h1, h2, rfl⟩, rfl⟩
    · rintro ⟨⟨x', y', c', ls⟩, h1, h2⟩
      simp only [Prod.mk.injEq] at h2
      obtain ⟨rfl, rfl, rfl⟩ := h2
      obtain ⟨hc, i, j, h3, h4, h5, _⟩ := (mem_docEdges hv hi hm _).1 h1
      exact ⟨hc, (hr.edge i j x' y' h4 h5 c').1 h3⟩
  · intro c x y he
    obtain ⟨hc, he⟩ := hedge.1 he
    obtain ⟨n1, n2⟩ := hr.edgeN c x y he
    refine ⟨?_, ?_, ?_⟩
    · show m.node x = true
      rw [← ha.node]; exact n1
    · show m.node y = true
      rw [← ha.node]; exact n2
    rintro rfl
    obtain ⟨i, h1⟩ := (hr.node x).1 n1
    exact (hi.ci c).irr i ((hr.edge i i x x h1 h1 c).2 he)
  · intro e he
    obtain ⟨hc, i, j, h3, h4, h5, h6⟩ := (mem_docEdges hv hi hm _).1 he
    rw [h6]
    exact (edgeLabels hv hi hm _ i j).1
  · intro e he k
    obtain ⟨hc, i, j, h3, h4, h5, h6⟩ := (mem_docEdges hv hi hm _).1 he
    rw [h6]
    refine assocGet_iff (f := fun k => (Spec.noIndex sc m).eanno e.2.2.1 e.1 e.2.1 k) (edgeLabels hv hi hm _ i j).1 (fun k w => ?_) k
    rw [(edgeLabels hv hi hm _ i j).2, hr.eanno i j _ _ h4 h5, heanno hc]
  · intro c x y k hk
    by_cases hc : c ≠ sc.left ∧ c ≠ sc.right ∧ c ≠ sc.inh
    · rw [heanno hc] at hk
      obtain ⟨w, hw⟩ := Option.ne_none_iff_exists'.1 hk
      exact hedge.2 ⟨hc, hr.eannoN c x y k w hw⟩
    · exfalso
      simp only [Spec.noIndex] at hk
      rw [if_pos] at hk
      · exact hk rfl
      · by_contra h
        exact hc (by simpa [not_or] using h)
  · rintro ⟨n, ls⟩ h ⟨k, w⟩ hl
    obtain ⟨i, _, _, h2, rfl⟩ := (mem_docNodes hv hi hm n ls).1 h
    obtain ⟨h3, h4⟩ := ((nodeLabels hv hi hm i).2 k w).1 hl
    exact (mem_docKeys hv hi hm k).2 (Or.inl ⟨h3, i, w, h4⟩)
  · rintro e he ⟨k, w⟩ hl
    obtain ⟨hc, i, j, h3, h4, h5, h6⟩ := (mem_docEdges hv hi hm _).1 he
    rw [h6] at hl
    have := ((edgeLabels hv hi hm _ i j).2 k w).1 hl
    exact (mem_docKeys hv hi hm k).2 (Or.inr ⟨_, (mem_exported hv hi hm _).2 ⟨mem_keys_of_out hv hi hm h3, hc⟩, _, w, this⟩)
  · exact nodup_addAll _ _ _ (nodup_addKeys _ _ (by simp))

end

/-! ### After a history of updates -/

theorem typed_run {l : List (Event Str Str C)} (hne : nk ≠ tk) (hl : ∀ e ∈ l, ∀ n, e ≠ .deleteNodeLabel n tk) :
    ∀ (m : GSpec Str Str C), (∀ n, m.node n = true → m.label n tk ≠ none) →
      ∀ n, (m.run nk tk l).node n = true → (m.run nk tk l).label n tk ≠ none := by
  induction l with
  | nil => exact fun m h => h
  | cons e l ih =>
    intro m h
    refine ih (fun e he => hl e (List.mem_cons_of_mem _ he)) _ ?_
    have he := hl e (by simp)
    intro n
    cases e with
    | addNode x ty =>
      simp only [GSpec.step]
      split
      · exact h n
      · by_cases hx : n = x
        · simp [hx, Ne.symm hne]
        · simp only [hx, if_false]
          exact h n
    | deleteNode x =>
      by_cases hx : n = x
      · simp [GSpec.step, hx]
      · simp only [GSpec.step, hx, if_false]
        exact h n
    | addNodeLabel x k w =>
      simp only [GSpec.step]
      intro hn
      split
      · simp
      · exact h n hn
    | deleteNodeLabel x k =>
      simp only [GSpec.step]
      intro hn
      split
      · rename_i hc
        exact absurd (by rw [hc.2]) (he x)
      · exact h n hn
    | addEdge => exact h n
    | deleteEdge => exact h n
    | addEdgeLabel => exact h n
    | deleteEdgeLabel => exact h n

theorem history_types {cap : Nat} {l : List (Event Str Str C)} (h : History sc nk tk tok cap l g) : ∀ e ∈ l, ∀ n, e ≠ .deleteNodeLabel n tk := by
  induction h with
  | new => simp
  | step u ch hch _ hu hok hd ih =>
    intro e he
    rcases List.mem_append.1 he with he | he
    · exact ih e he
    · exact hok.types e he

/-- **C115** the document that is exported for a graph after a history of updates has exactly the nodes, labels, edges and edge labels that the
events describe, except for the components that are generated again after an import. -/
theorem C115_document (hsc : SchemaOk sc) (hne : nk ≠ tk) {cap : Nat} {l : List (Event Str Str C)} (h : History sc nk tk tok cap l g) (hv : v.Ok)
    (config : Option Str) : Presents nk tk (toDoc sc nk tk v g config) (Spec.noIndex sc (GSpec.empty.run nk tk l)) := by
  have hf := history_facts hsc hne h
  obtain ⟨m', hr, ha⟩ := hf.rep
  exact toDoc_presents hv hf.inv hf.made hr ha (typed_run hne (history_types h) _ (by simp [GSpec.empty])) config

end Graph
