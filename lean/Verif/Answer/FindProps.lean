import Verif.Answer.FindLemmas

/-!
# C108: the pages of `find` and the number of `count` for the text of a query
-/

set_option linter.unusedSectionVars false
set_option linter.unusedSimpArgs false

namespace Answer

open Whole

section
variable {T E : Type} [LinearOrder T] {k : Known T} {d : SMatch T (AnnoKey Str)} {doc : NsSpec Str Str} {text : Str} {e : Parse.Q}
  {qs : List QConj} {Ls : List (List (Aql.Occ (NsSpec Str Str)))}

/-! ### Columns of answers -/

/-- Whether a column is shown. -/
def mask (Ls : List (List (Aql.Occ (NsSpec Str Str)))) (i : Nat) : Bool :=
  match Ls with
  | [L] => (L[i]?).any fun o => !o.optional
  | _ => true

theorem visible_eq {M : Type} (row : List M) : visible Ls row = (row.zipIdx.filter fun p => mask Ls p.2).map Prod.fst := by
  unfold visible mask
  rcases Ls with _ | ⟨L, _ | ⟨L', Ls⟩⟩ <;> rfl

theorem visible_all {M : Type} (h : Ls.length ≠ 1) (row : List M) : visible Ls row = row := by
  unfold visible
  rcases Ls with _ | ⟨L, _ | ⟨L', Ls⟩⟩
  · simp
  · simp at h
  · simp

theorem rows_alike {alts : List (List Parse.QLit)} (h : Ls.length = 1) {a b : Row T (AnnoKey Str)} (ha : k.Answer d alts Ls a)
    (hb : k.Answer d alts Ls b) : a.length = b.length ∧
      ∀ (i : Nat) x y, mask Ls (0 + i) = false → a[i]? = some x → b[i]? = some y → x = y := by
  obtain ⟨L, rfl⟩ : ∃ L, Ls = [L] := List.length_eq_one_iff.1 h
  obtain ⟨i, c, L1, _, hL, ta⟩ := ha
  obtain ⟨j, c', L2, _, hL', tb⟩ := hb
  have e1 : L1 = L := by cases i <;> simp at hL; exact hL.symm
  have e2 : L2 = L := by cases j <;> simp at hL'; exact hL'.symm
  subst e1 e2
  constructor
  · have : ∀ i, i < a.length ↔ i < b.length := fun i => (ta.length i).trans (tb.length i).symm
    have h1 := this a.length
    have h2 := this b.length
    omega
  · intro i x y hm hx hy
    obtain ⟨n, o, hn, ho, _⟩ := (ta.length i).1 (List.getElem?_eq_some_iff.1 hx).1
    have hlt : i < L2.length := lt_of_le_of_lt hn (List.getElem?_eq_some_iff.1 ho).1
    have g := List.getElem?_eq_getElem hlt
    have hopt : L2[i].optional = true := by
      simpa [mask, g] using hm
    rw [ta.default i _ x g hopt hx, tb.default i _ y g hopt hy]

theorem compareGroup_visible {alts : List (List Parse.QLit)} {a b : Row T (AnnoKey Str)} (ha : k.Answer d alts Ls a)
    (hb : k.Answer d alts Ls b) :
    compareGroup k.c.sortEnv a b = compareGroup k.c.sortEnv (visible Ls a) (visible Ls b) := by
  by_cases h : Ls.length = 1
  · obtain ⟨h1, h2⟩ := rows_alike h ha hb
    unfold compareGroup
    rw [visible_eq, visible_eq, zipCmp_filter (compareMatch_self _) (mask Ls) a b 0 h1 h2, List.length_map, List.length_map,
      filter_zipIdx_length (mask Ls) b a 0 h1.symm, h1]
    congr 1
    rw [compare_eq_iff_eq.2 rfl, compare_eq_iff_eq.2 rfl]
  · rw [visible_all h, visible_all h]

theorem visible_injective {alts : List (List Parse.QLit)} {a b : Row T (AnnoKey Str)} (ha : k.Answer d alts Ls a)
    (hb : k.Answer d alts Ls b) (he : visible Ls a = visible Ls b) : a = b := by
  by_cases h : Ls.length = 1
  · obtain ⟨h1, h2⟩ := rows_alike h ha hb
    rw [visible_eq, visible_eq] at he
    exact eq_of_filter (mask Ls) a b 0 h1 h2 he
  · rwa [visible_all h, visible_all h] at he

/-- The order of the results is consistent on the answers. -/
theorem Known.Fits.order {alts : List (List Parse.QLit)} (hf : k.Fits d alts Ls) :
    CmpOrd (k.Answer d alts Ls) (compareGroup k.c.sortEnv) ∧
    ∀ a b, k.Answer d alts Ls a → k.Answer d alts Ls b → (compareGroup k.c.sortEnv a b = .eq ↔ a = b) := by
  obtain ⟨S, h1, h2⟩ := hf.ordered
  obtain ⟨o1, o2⟩ := C34_total_order_partial (K := AnnoKey Str) h1
  constructor
  · exact (o1.on (visible Ls) h2).congr fun a b ha hb => compareGroup_visible ha hb
  · intro a b ha hb
    rw [compareGroup_visible ha hb, o2 _ _ (h2 a ha)]
    exact ⟨visible_injective ha hb, fun h => by rw [h]⟩

/-! ### Lists in order -/

theorem sorted_unique {G : Type} {lt : G → G → Prop} : ∀ {l l' : List G}, (∀ a ∈ l, ∀ b ∈ l, lt a b → ¬ lt b a) → l.Pairwise lt →
    l'.Pairwise lt → (∀ x, x ∈ l ↔ x ∈ l') → l = l'
  | [], [], _, _, _, _ => rfl
  | [], y :: l', _, _, _, h => by simpa using (h y).2 (by simp)
  | x :: l, [], _, _, _, h => by simpa using (h x).1 (by simp)
  | x :: l, y :: l', ha, h1, h2, h => by
    rw [List.pairwise_cons] at h1 h2
    have hself : ∀ a ∈ x :: l, ¬ lt a a := fun a hm hlt => ha a hm a hm hlt hlt
    have e : x = y := by
      rcases List.mem_cons.1 ((h x).1 (by simp)) with e | hx
      · exact e
      · rcases List.mem_cons.1 ((h y).2 (by simp)) with e | hy
        · exact e.symm
        · exact absurd (h2.1 x hx) (ha x (by simp) y (by simp [hy]) (h1.1 y hy))
    subst e
    rw [sorted_unique (fun a ha' b hb' => ha a (by simp [ha']) b (by simp [hb'])) h1.2 h2.2 fun z => ?_]
    constructor
    · intro hz
      rcases List.mem_cons.1 ((h z).1 (List.mem_cons_of_mem _ hz)) with e | hz'
      · subst e
        exact absurd (h1.1 z hz) (hself z (by simp))
      · exact hz'
    · intro hz
      rcases List.mem_cons.1 ((h z).2 (List.mem_cons_of_mem _ hz)) with e | hz'
      · subst e
        exact absurd (h2.1 z hz) (hself z (by simp))
      · exact hz'

theorem Known.Listing.nodup {alts : List (List Parse.QLit)} {rows : List (Row T (AnnoKey Str))} (h : k.Listing d alts Ls rows) (hf : k.Fits d alts Ls) :
    rows.Nodup := by
  refine List.Pairwise.imp_of_mem (R := fun a b => compareGroup k.c.sortEnv a b = .lt) ?_ h.ascending
  rintro a b ha _ hlt rfl
  rw [hf.order.1.self ((h.mem a).1 ha)] at hlt
  cases hlt

/-- There is at most one list of all answers in order. -/
theorem C108_listing_unique {alts : List (List Parse.QLit)} (hf : k.Fits d alts Ls) {rows rows' : List (Row T (AnnoKey Str))}
    (h : k.Listing d alts Ls rows) (h' : k.Listing d alts Ls rows') : rows = rows' := by
  refine sorted_unique ?_ h.ascending h'.ascending fun x => (h.mem x).trans (h'.mem x).symm
  intro a ha b hb h1 h2
  rw [hf.order.1.swap b a ((h.mem b).1 hb) ((h.mem a).1 ha), h1] at h2
  cases h2

/-! ### The plan of a search for all tokens -/

section
variable {N K : Type} [LinearOrder N] [LinearOrder K]

theorem initFold_none (S : List (Option (List (SMatch N K) × Option (NsDesc N K E)))) : ∀ (n : Nat) (s : PlanState N K E),
    (∀ y, some y ∉ S) → (S.zipIdx n).foldl (fun s p =>
    match p.1 with
    | none => s
    | some (ms, d) => ⟨s.execs.insert p.2 ⟨p.2, [(p.2, 0)], ms.map fun m => [m], d⟩, s.n2c.insert p.2 p.2⟩) s = s := by
  induction S with
  | nil => intro n s _; rfl
  | cons x S ih =>
    intro n s h
    rw [List.zipIdx_cons, List.foldl_cons]
    cases x with
    | none => exact ih (n + 1) s fun y hy => h y (by simp [hy])
    | some y => exact absurd (by simp) (h y)

theorem initFold_single (S : List (Option (List (SMatch N K) × Option (NsDesc N K E)))) (x : List (SMatch N K) × Option (NsDesc N K E)) :
    ∀ (n i : Nat), S[i]? = some (some x) → (∀ j y, S[j]? = some (some y) → j = i) → (S.zipIdx n).foldl (fun s p =>
    match p.1 with
    | none => s
    | some (ms, d) => ⟨s.execs.insert p.2 ⟨p.2, [(p.2, 0)], ms.map fun m => [m], d⟩, s.n2c.insert p.2 p.2⟩) (⟨[], []⟩ : PlanState N K E) =
    ⟨[(n + i, ⟨n + i, [(n + i, 0)], x.1.map fun m => [m], x.2⟩)], [(n + i, n + i)]⟩ := by
  induction S with
  | nil => intro n i h; simp at h
  | cons y S ih =>
    intro n i h hu
    rw [List.zipIdx_cons, List.foldl_cons]
    cases i with
    | zero =>
      simp only [List.getElem?_cons_zero, Option.some.injEq] at h
      subst h
      obtain ⟨ms, d⟩ := x
      simp only
      rw [initFold_none]
      · rfl
      · intro z hz
        obtain ⟨j, hj⟩ := List.mem_iff_getElem?.1 hz
        have := hu (j + 1) z (by simpa using hj)
        omega
    | succ i =>
      cases y with
      | some y => have := hu 0 y rfl; omega
      | none =>
        have e : n + (i + 1) = n + 1 + i := by omega
        rw [e]
        exact ih (n + 1) i (by simpa using h) fun j z hj => by
          have := hu (j + 1) z (by simpa using hj)
          omega

end

theorem placed_single {x : Exec T (AnnoKey Str) E} {n : Nat} (h : x.pos = [(n, 0)]) (m : SMatch T (AnnoKey Str)) :
    placed d x [m] = .ok (List.replicate n d ++ [m]) := by
  unfold placed
  have : reorderMatch d (inversePos x.pos) [m] = some (List.replicate n d ++ [m]) := by
    rw [h]
    cases n with
    | zero => rfl
    | succ n =>
      have e : inversePos [(n + 1, 0)] = some [n + 1] := by
        unfold inversePos
        rw [if_pos (by simp)]
        rfl
      rw [e]
      unfold reorderMatch
      have e2 : ([n + 1] : List Nat).max? = some (n + 1) := rfl
      simp only [e2]
      have e3 : placeAll [n + 1] [m] 0 (List.replicate (n + 1 + 1) d) = some ((List.replicate (n + 1 + 1) d).set (n + 1) m) := by
        simp [placeAll]
      rw [e3, List.replicate_succ' (n := n + 1), List.set_append_right _ _ (by simp)]
      simp
  rw [this]
  rfl

theorem compareGroup_append {N K : Type} [LinearOrder N] [LinearOrder K] (En : SortEnv N) (p : List (SMatch N K)) (a b : SMatch N K) :
    compareGroup En (p ++ [a]) (p ++ [b]) = compareMatch En a b := by
  unfold compareGroup
  have e : zipCmp (compareMatch En) (p ++ [a]) (p ++ [b]) = compareMatch En a b := by
    induction p with
    | nil =>
      have : zipCmp (compareMatch En) [a] [b] = (compareMatch En a b).then .eq := rfl
      rw [List.nil_append, List.nil_append, this]
      cases compareMatch En a b <;> rfl
    | cons x p ih =>
      have : zipCmp (compareMatch En) (x :: p ++ [a]) (x :: p ++ [b]) =
        (compareMatch En x x).then (zipCmp (compareMatch En) (p ++ [a]) (p ++ [b])) := rfl
      rw [this, compareMatch_self, ih]; rfl
  rw [e, List.length_append, List.length_append, List.length_singleton, List.length_singleton, compare_eq_iff_eq.2 rfl]
  cases compareMatch En a b <;> rfl

/-- The rows of a plan that counts as sorted are in the order of the text. -/
theorem token_rows {offset : Nat} {c : List Parse.QLit} {L : List (Aql.Occ (NsSpec Str Str))} {q : QConj}
    (ht : Aql.Translated false offset c L q) (ha : AltOk k.c.db k.c.env k.c.g k.r k.c.th k.Ec k.Rg k.De k.Re offset c L)
    (htok : (∃ o ∈ L, o.spec = .anyToken) → ∀ l, k.c.g.anyTokens = some l → l.Pairwise fun a b =>
      compareMatch k.c.sortEnv (⟨a, NodeSearch.typeKey k.c.env⟩ : SMatch T (AnnoKey Str)) ⟨b, NodeSearch.typeKey k.c.env⟩ = .lt)
    (hplan : tokenPlan q = true) {x : List (Except (Fail E) (Row T (AnnoKey Str)))}
    (hx : AltRows k.c.env k.c.g k.c.db k.c.th k.c.order d q (some x)) {rows : List (Row T (AnnoKey Str))} (hr : x = rows.map .ok) :
    rows.Pairwise fun a b => compareGroup k.c.sortEnv a b = .lt := by
  simp only [tokenPlan, Bool.and_eq_true, List.isEmpty_iff, Option.any_eq_true] at hplan
  obtain ⟨⟨hb0, hu0⟩, n, hn, hspec⟩ := hplan
  have hno := no_operators ht hb0 hu0
  cases hx with
  | @plan dec decU us bins bins' S ex hc hu hus hb hp hS he =>
    have us0 : us = [] := by
      unfold unariesOf at hus
      rw [hu0] at hus
      simpa [allSome] using hus.symm
    subst us0
    have b0 : bins = [] := by
      unfold binsOf at hb
      rw [hb0] at hb
      simpa [allSome] using hb.symm
    subst b0
    rw [List.perm_nil] at hp
    subst hp
    obtain ⟨i, hi⟩ := List.mem_iff_getElem?.1 (List.mem_of_find?_eq_some hn)
    have hopt : n.optional = false := by simpa using List.find?_some hn
    have hany : n.spec = .anyToken := by
      cases hs : n.spec <;> simp [hs] at hspec
      rfl
    have hnode : (nodesOf (T := T) (E := E) [] q)[i]? = some (some ⟨.anyToken, none⟩) := by
      unfold nodesOf
      rw [List.getElem?_mapIdx, hi]
      simp [hopt, hany, keepOf]
    obtain ⟨o, ho, hoo, hos⟩ := (node_some ht).1 hnode
    have hospec : o.spec = .anyToken := by
      simp only [Node.mk.injEq] at hos
      exact hos.1.symm
    obtain ⟨hlen, hget⟩ := searches_get k.c.env k.c.g (planned_nil hS)
    obtain ⟨y, hy, hSy⟩ := (hget i).2 _ hnode
    have huniq : ∀ j z, S[j]? = some (some z) → j = i := by
      intro j z hz
      have hj : j < (nodesOf (T := T) (E := E) [] q).length := by
        rw [← hlen]; exact (List.getElem?_eq_some_iff.1 hz).1
      have g := List.getElem?_eq_getElem hj
      cases hv : (nodesOf (T := T) (E := E) [] q)[j] with
      | none =>
        rw [hv] at g
        rw [(hget j).1 g] at hz
        cases hz
      | some nd =>
        rw [hv] at g
        obtain ⟨o', h1, h2, _⟩ := (node_some ht).1 g
        have := ha.connected i j ⟨o, ho, hoo⟩ ⟨o', h1, h2⟩
        have key : ∀ a b, Relation.EqvGen (fun i j => ∃ lhs op rhs, Aql.Literal.bin lhs op rhs false ∈ c ∧ Aql.Denotes offset L lhs i ∧
            Aql.Denotes offset L rhs j) a b → a = b := by
          intro a b h
          induction h with
          | rel a b h =>
            obtain ⟨lhs, op, rhs, hm, _⟩ := h
            have := (hno _ hm).1
            simp [Aql.Literal.isBin] at this
          | refl => rfl
          | symm _ _ _ ih => exact ih.symm
          | trans _ _ _ _ _ ih1 ih2 => exact ih1.trans ih2
        exact (key _ _ this).symm
    obtain ⟨toks, htoks, hy1⟩ : ∃ toks, k.c.g.anyTokens = some toks ∧
        y.1 = toks.map fun n => (⟨n, NodeSearch.typeKey k.c.env⟩ : SMatch T (AnnoKey Str)) := by
      unfold Node.search NodeSearch.fromSpec at hy
      simp only [NodeSearch.valueFilters, NodeSearch.items] at hy
      cases hg : k.c.g.anyTokens with
      | none => simp [hg] at hy
      | some toks =>
        simp only [hg, Option.map_some, Except.ok.injEq] at hy
        exact ⟨toks, rfl, by rw [← hy]⟩
    have hexec : ex = ⟨i, [(i, 0)], y.1.map fun m => [m], y.2⟩ := by
      cases he with
      | @mk s p hadd hhead =>
        have hs : s = initPlan S := by
          rw [List.map_nil] at hadd
          cases hadd
          rfl
        subst hs
        have hinit : initPlan S = ⟨[(0 + i, ⟨0 + i, [(0 + i, 0)], y.1.map fun m => [m], y.2⟩)], [(0 + i, 0 + i)]⟩ := by
          unfold initPlan
          convert initFold_single (E := E) S y 0 i hSy huniq using 1
          congr 1
          funext s p
          rcases p with ⟨_ | ⟨ms, d⟩, j⟩ <;> rfl
        rw [hinit] at hhead
        simp only [List.head?_cons, Option.some.injEq, Nat.zero_add] at hhead
        rw [← hhead]
    subst hexec
    have hrows : rows = toks.map fun n => List.replicate i d ++ [(⟨n, NodeSearch.typeKey k.c.env⟩ : SMatch T (AnnoKey Str))] := by
      have h1 : (toks.map fun n => List.replicate i d ++ [(⟨n, NodeSearch.typeKey k.c.env⟩ : SMatch T (AnnoKey Str))]).map
          (Except.ok (ε := Fail E)) = rows.map .ok := by
        rw [← hr]
        simp only [hy1, List.map_map]
        refine List.map_congr_left fun n _ => ?_
        simp only [Function.comp]
        rw [placed_single rfl]
      have h2 := congrArg okRows h1
      rw [okRows_map, okRows_map] at h2
      exact h2.symm
    rw [hrows, List.pairwise_map]
    refine (htok ⟨o, List.mem_of_getElem? ho, hospec⟩ toks htoks).imp fun {a b} h => ?_
    rw [compareGroup_append]
    exact h

/-! ### One corpus -/

theorem filter_zip_some {A B : Type} : ∀ {l : List A} {l' : List (Option B)} {p : A × Option B}, l.length = l'.length →
    ((l.zip l').filter fun p => p.2.isSome) = [p] → ∃ (i : Nat) (x : B), l[i]? = some p.1 ∧ l'[i]? = some (some x) ∧ l'.filterMap id = [x]
  | [], [], _, _, h => by simp at h
  | [], _ :: _, _, h, _ => by simp at h
  | _ :: _, [], _, h, _ => by simp at h
  | a :: l, none :: l', p, hl, h => by
    rw [List.zip_cons_cons, List.filter_cons_of_neg (by simp)] at h
    obtain ⟨i, x, h1, h2, h3⟩ := filter_zip_some (by simpa using hl) h
    exact ⟨i + 1, x, by simpa using h1, by simpa using h2, by simpa using h3⟩
  | a :: l, some x :: l', p, hl, h => by
    rw [List.zip_cons_cons, List.filter_cons_of_pos (by simp), List.cons.injEq] at h
    obtain ⟨rfl, h⟩ := h
    refine ⟨0, x, rfl, rfl, ?_⟩
    have : l'.filterMap id = [] := by
      rw [List.filterMap_eq_nil_iff]
      intro y hy
      cases y with
      | none => rfl
      | some y =>
        obtain ⟨j, hj⟩ := List.mem_iff_getElem?.1 hy
        have hlt : j < l.length := by
          have h1 := (List.getElem?_eq_some_iff.1 hj).1
          simp only [List.length_cons] at hl
          omega
        have hz : (l.zip l')[j]? = some (l[j], some y) := by
          rw [List.getElem?_zip_eq_some]
          exact ⟨List.getElem?_eq_getElem hlt, hj⟩
        have := List.filter_eq_nil_iff.1 h _ (List.mem_of_getElem? hz)
        simp at this
    rw [List.filterMap_cons]
    show x :: l'.filterMap id = [x]
    rw [this]

theorem Planned.answers {c : Corpus T} {qs' : List QConj} {alts : List (Option (List (Except (Fail E) (Row T (AnnoKey Str)))))}
    {out : List (Except (Fail E) (Row T (AnnoKey Str)))} (h : Planned doc d text c qs' alts out) :
    Answers c.env c.g c.db c.th c.order doc d text out := by
  obtain ⟨e, h1, h2⟩ := h.translated
  exact .mk h1 h2 h.rows h.output

/-- The output of the plans in one corpus: all answers in some order; if the plan counts as sorted, in the order of the text. -/
theorem planned_rows (ht : QueryText doc text e qs Ls) (hf : k.Fits d (Aql.alternatives e) Ls) {rows : List (Row T (AnnoKey Str))}
    (hl : k.Listing d (Aql.alternatives e) Ls rows) {qs' : List QConj} {alts : List (Option (List (Except (Fail E) (Row T (AnnoKey Str)))))}
    {out : List (Except (Fail E) (Row T (AnnoKey Str)))} (hp : Planned doc d text k.c qs' alts out) :
    qs' = qs ∧ ∃ rows', out = rows'.map .ok ∧ rows'.Perm rows ∧ (sortedByText qs' alts = true → rows' = rows) := by
  have hqs : qs' = qs := by
    obtain ⟨e', h1, h2⟩ := hp.translated
    have := ht.parsed
    rw [h1] at this
    cases this
    have := ht.translated
    rw [h2] at this
    cases this
    rfl
  subst hqs
  refine ⟨rfl, ?_⟩
  obtain ⟨ps, tree, htree, hflat⟩ := ht.flat
  have hok : ∀ (i : Nat) c L, (Aql.alternatives e)[i]? = some c → Ls[i]? = some L → Aql.NamesDistinct L ∧
      AltOk k.c.db k.c.env k.c.g k.r k.c.th k.Ec k.Rg k.De k.Re (before Ls i) c L := fun i c L hc hL =>
    ⟨ht.names L (List.mem_of_getElem? hL), hf.alternatives i c L hc hL⟩
  obtain ⟨rows', h1, h2, h3⟩ := C101_exact_partial k.corpus k.db ht.parsed htree hflat doc ht.translated d ht.searches hok hf.distinct hp.answers
  refine ⟨rows', h1, (List.perm_ext_iff_of_nodup h2 (hl.nodup hf)).2 fun x => (h3 x).trans (hl.mem x).symm, fun hs => ?_⟩
  have hasc : rows'.Pairwise fun a b => compareGroup k.c.sortEnv a b = .lt := by
    unfold sortedByText at hs
    split at hs
    · rename_i p hfil
      obtain ⟨i, x, hq, hx, hfm⟩ := filter_zip_some hp.rows.length_eq hfil
      have hout := hp.output
      rw [hfm] at hout
      have hout : Runs planNextProxy x out := hout
      obtain rfl := hout.unique (C44_single x)
      have hlen : (Aql.alternatives e).length = Ls.length := ht.searches.length_eq
      obtain ⟨hlen2, htr⟩ := Aql.C69_query_partial doc e qs' ht.translated fun c hc => by
        obtain ⟨i, hi⟩ := List.mem_iff_getElem?.1 hc
        obtain ⟨hlt, _⟩ := List.getElem?_eq_some_iff.1 hi
        have g2 := List.getElem?_eq_getElem (l := Ls) (i := i) (by omega)
        exact ⟨_, forall₂_get ht.searches i c _ hi g2, ht.names _ (List.getElem_mem _)⟩
      have htrL : ∀ (i : Nat) c q L, (Aql.alternatives e)[i]? = some c → qs'[i]? = some q → Ls[i]? = some L →
          Aql.Translated false ((qs'.take i).flatMap Aql.Conj.nodes).length c L q := by
        intro i c q L hc hq hL
        obtain ⟨L', h1, h2⟩ := htr i c q hc hq
        rw [(forall₂_get ht.searches i c L hc hL).unique h1]
        exact h2
      have hlt := (List.getElem?_eq_some_iff.1 hq).1
      have gc := List.getElem?_eq_getElem (l := Aql.alternatives e) (i := i) (by omega)
      have gL := List.getElem?_eq_getElem (l := Ls) (i := i) (by omega)
      have hoff : ((qs'.take i).flatMap Aql.Conj.nodes).length = before Ls i := by
        refine offsets (forall₂_of_get (by omega) fun i q L hq hL => ?_) i
        have hlt := (List.getElem?_eq_some_iff.1 hq).1
        have g1 := List.getElem?_eq_getElem (l := Aql.alternatives e) (i := i) (by omega)
        rw [(htrL i _ q L g1 hq hL).nodes, List.length_mapIdx]
      have htr' := htrL i _ _ _ gc hq gL
      rw [hoff] at htr'
      refine token_rows htr' (hf.alternatives i _ _ gc gL) ?_ hs (forall₂_get hp.rows i _ _ hq hx) h1
      rintro ⟨o, ho, hos⟩
      exact hf.tokens ⟨_, List.getElem_mem _, o, ho, hos⟩
    · cases hs
  exact C108_listing_unique hf ⟨hasc, h3⟩ hl

/-- The columns that are shown of an answer. -/
theorem shown_visible (ht : QueryText doc text e qs Ls) {row : Row T (AnnoKey Str)} (ha : k.Answer d (Aql.alternatives e) Ls row) :
    Aql.shown qs row = visible Ls row := by
  have hlen : (Aql.alternatives e).length = Ls.length := ht.searches.length_eq
  have hlen2 : qs.length = (Aql.alternatives e).length := (Aql.C70_numbering _ _ _ _ ht.translated).1
  by_cases h1 : Ls.length = 1
  · obtain ⟨L, rfl⟩ := List.length_eq_one_iff.1 h1
    obtain ⟨c, hc⟩ : ∃ c, Aql.alternatives e = [c] := List.length_eq_one_iff.1 (by simpa using hlen)
    obtain ⟨q, rfl⟩ : ∃ q, qs = [q] := List.length_eq_one_iff.1 (by omega)
    have hpar := ht.translated
    unfold Aql.parse at hpar
    obtain ⟨q0, h2, h3⟩ := Aql.mapAlternatives_get hpar 0 c q (by rw [hc]; rfl) rfl
    simp only [Bool.false_eq_true, if_false, Except.ok.injEq] at h3
    subst h3
    have hs := ht.searches
    rw [hc] at hs
    rw [Aql.C70_columns_partial c L (forall₂_get hs 0 c L rfl rfl) (ht.names L (by simp)) q0 (by simpa using h2) row]
    unfold visible
    congr 1
    refine List.filter_congr fun p _ => ?_
    show _ = (L[p.2]?).any fun o => !o.optional
    cases L[p.2]? <;> rfl
  · rw [visible_all h1]
    rcases ht.columns with hcol | hcol
    · exact absurd hcol h1
    obtain ⟨i, c, L, hc, hL, hta⟩ := ha
    have hlt := (List.getElem?_eq_some_iff.1 hc).1
    have hex : ∀ c ∈ Aql.alternatives e, ∃ L, Aql.IsNodeList c L ∧ Aql.NamesDistinct L ∧ ∀ o ∈ L, o.optional = false := by
      intro c hc
      obtain ⟨i, hi⟩ := List.mem_iff_getElem?.1 hc
      obtain ⟨hlt, _⟩ := List.getElem?_eq_some_iff.1 hi
      have g2 := List.getElem?_eq_getElem (l := Ls) (i := i) (by omega)
      exact ⟨_, forall₂_get ht.searches i c _ hi g2, ht.names _ (List.getElem_mem _), hcol _ (List.getElem_mem _)⟩
    refine Aql.C70_complete_partial doc e qs ht.translated hex row ?_
    obtain ⟨_, htr⟩ := Aql.C69_query_partial doc e qs ht.translated fun c hc => by
      obtain ⟨L, h1, h2, _⟩ := hex c hc
      exact ⟨L, h1, h2⟩
    have gq := List.getElem?_eq_getElem (l := qs) (i := i) (by omega)
    refine ⟨_, List.mem_of_getElem? gq, ?_⟩
    obtain ⟨L', h2, h3⟩ := htr i c _ hc gq
    rw [(forall₂_get ht.searches i c L hc hL).unique h2] at hta hL
    rw [h3.nodes, List.length_mapIdx]
    have key : ∀ j, j < row.length ↔ j < L'.length := by
      intro j
      rw [hta.length j]
      constructor
      · rintro ⟨n, o, hn, ho, _⟩
        exact lt_of_le_of_lt hn (List.getElem?_eq_some_iff.1 ho).1
      · intro hj
        exact ⟨j, _, le_refl _, List.getElem?_eq_getElem hj, hcol _ (List.mem_of_getElem? hL) _ (List.getElem_mem _)⟩
    have := key row.length
    have := key L'.length
    omega

/-- All answers of a corpus can be listed in order. -/
theorem C108_listing_partial (ht : QueryText doc text e qs Ls) (hf : k.Fits d (Aql.alternatives e) Ls) :
    ∃ rows, k.Listing d (Aql.alternatives e) Ls rows := by
  obtain ⟨ps, tree, htree, hflat⟩ := ht.flat
  have hok : ∀ (i : Nat) c L, (Aql.alternatives e)[i]? = some c → Ls[i]? = some L → Aql.NamesDistinct L ∧
      AltOk k.c.db k.c.env k.c.g k.r k.c.th k.Ec k.Rg k.De k.Re (before Ls i) c L := fun i c L hc hL =>
    ⟨ht.names L (List.mem_of_getElem? hL), hf.alternatives i c L hc hL⟩
  obtain ⟨_, _, hu, ⟨out, hout⟩, _⟩ := C101_query_partial (E := Unit) k.corpus k.db ht.parsed htree hflat doc ht.translated d (by
    intro Ls' h' i c L hc hL
    have hLs : Ls' = Ls := by
      refine List.ext_getElem? fun i => ?_
      have e1 := h'.length_eq
      have e2 := ht.searches.length_eq
      cases hi : (Aql.alternatives e)[i]? with
      | none =>
        rw [List.getElem?_eq_none_iff] at hi
        rw [List.getElem?_eq_none_iff.2 (by omega), List.getElem?_eq_none_iff.2 (by omega)]
      | some c =>
        obtain ⟨hlt, _⟩ := List.getElem?_eq_some_iff.1 hi
        have g1 := List.getElem?_eq_getElem (l := Ls') (i := i) (by omega)
        have g2 := List.getElem?_eq_getElem (l := Ls) (i := i) (by omega)
        rw [g1, g2, (forall₂_get h' i c _ hi g1).unique (forall₂_get ht.searches i c _ hi g2)]
    rw [hLs] at hL ⊢
    exact hok i c L hc hL)
  obtain ⟨rows, _, h2, h3⟩ := C101_exact_partial k.corpus k.db ht.parsed htree hflat doc ht.translated d ht.searches hok hf.distinct hout
  obtain ⟨ho, heq⟩ := hf.order
  have hP : ∀ x ∈ rows, k.Answer d (Aql.alternatives e) Ls x := fun x hx => (h3 x).1 hx
  obtain ⟨fuel, rs, l', hl⟩ := sort_can_terminate ho rows.length hP
  obtain ⟨p1, p2⟩ := C33_sort_first_n_on (fun x y => (compareGroup k.c.sortEnv x y).isLE = true)
    (fun x hx y hy z hz => ho.trans x y z (hP x hx) (hP y hy) (hP z hz)) (fun x hx y hy => CmpOrd.pair ho (hP x hx) (hP y hy))
    (fun x hx y hy o h => by
      simp only [Option.some.injEq] at h
      subst h
      refine ⟨Iff.rfl, ?_⟩
      rw [ho.swap x y (hP x hx) (hP y hy)]
      cases compareGroup k.c.sortEnv y x <;> simp) hl
  refine ⟨l', ?_, fun row => p1.mem_iff.trans (h3 row)⟩
  have hnd : l'.Nodup := p1.nodup_iff.2 h2
  rw [List.pairwise_iff_getElem]
  intro i j hi hj hij
  have hle := p2 i j _ _ hij (by rw [← p1.length_eq]; exact hi) (List.getElem?_eq_getElem hi) (List.getElem?_eq_getElem hj)
  cases hc : compareGroup k.c.sortEnv l'[i] l'[j] with
  | lt => rfl
  | gt => simp [hc] at hle
  | eq =>
    have := (heq _ _ (hP _ (p1.mem_iff.1 (List.getElem_mem hi))) (hP _ (p1.mem_iff.1 (List.getElem_mem hj)))).1 hc
    have := (List.Nodup.getElem_inj_iff hnd).1 this
    omega

/-- `find` in one corpus gives a page of the listing. -/
theorem findOne_page (ht : QueryText doc text e qs Ls) (hf : k.Fits d (Aql.alternatives e) Ls) {rows : List (Row T (AnnoKey Str))}
    (hl : k.Listing d (Aql.alternatives e) Ls rows) {order : ResultOrder} (hor : order = .normal ∨ order = .inverted) :
    ∀ o l res, FindOne E doc d text k.c order o l res →
      res = (slice ((if order = .inverted then rows.reverse else rows).map (idOf k.c Ls)) o l, min o rows.length) := by
  rintro o l res ⟨qs', alts, out, rnd, hp, _, hfind⟩
  obtain ⟨rfl, rows', rfl, hperm, hflag⟩ := planned_rows ht hf hl hp
  have hitem : (rows'.map (Except.ok (ε := Fail E))).map item = rows'.map some := by
    rw [List.map_map]; rfl
  have hP : ∀ g ∈ rows, k.Answer d (Aql.alternatives e) Ls g := fun g hg => (hl.mem g).1 hg
  have := findSingle_of_take (f := fun row => matchId ((Aql.shown qs' row).map k.c.outMatch))
    (full := if order = .inverted then rows.reverse else rows) (fun _ => rfl) (fun it hit => ?_) hfind
  · rw [this]
    have e1 : (if order = .inverted then rows.reverse else rows).map (fun row => matchId ((Aql.shown qs' row).map k.c.outMatch)) =
        (if order = .inverted then rows.reverse else rows).map (idOf k.c Ls) := by
      refine List.map_congr_left fun row hrow => ?_
      have hmem : row ∈ rows := by split at hrow <;> simpa using hrow
      simp only [idOf]
      rw [shown_visible ht (hP row hmem)]
    rw [e1, List.length_map]
    congr 2
    split <;> simp
  · unfold Corpus.toFind at hit
    rw [hitem] at hit
    obtain ⟨h1, h2⟩ := iterator_sorted hf.order.1 order hor hperm hP hl.ascending _ hflag _ rnd o l hit
    refine ⟨?_, h2⟩
    rw [h1]
    split <;> simp

/-- `find` in one corpus with any order of the results. -/
theorem findOne_any (ht : QueryText doc text e qs Ls) (hf : k.Fits d (Aql.alternatives e) Ls) {rows : List (Row T (AnnoKey Str))}
    (hl : k.Listing d (Aql.alternatives e) Ls rows) {order : ResultOrder} :
    ∀ o l res, FindOne E doc d text k.c order o l res →
      ∃ L, L.Perm (rows.map (idOf k.c Ls)) ∧ res = (slice L o l, min o L.length) := by
  rintro o l res hone
  by_cases hor : order = .normal ∨ order = .inverted
  · refine ⟨(if order = .inverted then rows.reverse else rows).map (idOf k.c Ls), ?_, (findOne_page ht hf hl hor o l res hone).trans ?_⟩
    · refine List.Perm.map _ ?_
      split
      · exact List.reverse_perm _
      · exact List.Perm.refl _
    · congr 2
      split <;> simp
  · obtain ⟨qs', alts, out, rnd, hp, hsh, hfind⟩ := hone
    obtain ⟨rfl, rows', rfl, hperm, _⟩ := planned_rows ht hf hl hp
    have hitem : (rows'.map (Except.ok (ε := Fail E))).map item = rows'.map some := by
      rw [List.map_map]; rfl
    have hP : ∀ g ∈ rows, k.Answer d (Aql.alternatives e) Ls g := fun g hg => (hl.mem g).1 hg
    obtain ⟨full, hfull, hit⟩ : ∃ full : List (Row T (AnnoKey Str)), full.Perm rows ∧ ∀ it,
        createFindIterator (k.c.toFind qs' (sortedByText qs' alts) (rows'.map (Except.ok (ε := Fail E)))) rnd false order o l = some it →
        it = full.map some := by
      cases order with
      | normal => simp at hor
      | inverted => simp at hor
      | notSorted =>
        refine ⟨rows', hperm, fun it h => ?_⟩
        unfold createFindIterator at h
        rw [if_pos (Or.inl rfl)] at h
        simpa [Corpus.toFind, hitem] using h.symm
      | randomized =>
        refine ⟨rnd.shuffle rows', (hsh rows').trans hperm, fun it h => ?_⟩
        unfold createFindIterator at h
        rw [if_neg (by simp)] at h
        simp only [Corpus.toFind, hitem, TokenSearch.mapM_some, Option.bind_eq_bind, Option.bind_some, if_true, Option.pure_def,
          Option.some.injEq] at h
        exact h.symm
    refine ⟨full.map (idOf k.c Ls), hfull.map _, ?_⟩
    have := findSingle_of_take (f := fun row => matchId ((Aql.shown qs' row).map k.c.outMatch)) (full := full) (fun _ => rfl)
      (fun it h => by rw [hit it h]; simp) hfind
    rw [this]
    have e1 : full.map (fun row => matchId ((Aql.shown qs' row).map k.c.outMatch)) = full.map (idOf k.c Ls) := by
      refine List.map_congr_left fun row hrow => ?_
      simp only [idOf]
      rw [shown_visible ht (hP row (hfull.mem_iff.1 hrow))]
    rw [e1]

/-! ### Several corpora -/

/-- The corpora are searched in the order of their names, or backwards. -/
def NameOrder (order : ResultOrder) (ks : List (Known T)) : Prop :=
  ks.Pairwise fun a b => if order = .inverted then b.c.name ≤ a.c.name else a.c.name ≤ b.c.name

theorem searchOrder_known {order : ResultOrder} (hor : order = .normal ∨ order = .inverted) (shuffle : List (Corpus T) → List (Corpus T))
    (ks : List (Known T)) : ∃ ks' : List (Known T), ks'.Perm ks ∧ NameOrder order ks' ∧ ks'.map (·.c) = searchOrder order shuffle (ks.map (·.c)) := by
  unfold searchOrder
  by_cases hlen : (ks.map (·.c)).length ≤ 1
  · rw [if_pos hlen]
    refine ⟨ks, List.Perm.refl _, ?_, rfl⟩
    rcases ks with _ | ⟨a, _ | ⟨b, r⟩⟩
    · exact List.Pairwise.nil
    · exact List.pairwise_singleton _ _
    · simp at hlen
  · rw [if_neg hlen]
    have hmap : (ks.mergeSort fun a b => decide (a.c.name ≤ b.c.name)).map (·.c) = (ks.map (·.c)).mergeSort fun a b => decide (a.name ≤ b.name) :=
      List.map_mergeSort fun a _ b _ => rfl
    have hs : (ks.mergeSort fun a b => decide (a.c.name ≤ b.c.name)).Pairwise fun a b => a.c.name ≤ b.c.name :=
      (List.pairwise_mergeSort (le := fun a b : Known T => decide (a.c.name ≤ b.c.name)) (fun a b c h1 h2 => by
        simp only [decide_eq_true_eq] at h1 h2 ⊢; exact le_trans h1 h2) (fun a b => by simpa using le_total a.c.name b.c.name) ks).imp fun h => by
          simpa using h
    rcases hor with rfl | rfl
    · exact ⟨_, List.mergeSort_perm _ _, by simpa [NameOrder] using hs, hmap⟩
    · refine ⟨(ks.mergeSort fun a b => decide (a.c.name ≤ b.c.name)).reverse, (List.reverse_perm _).trans (List.mergeSort_perm _ _), ?_, ?_⟩
      · unfold NameOrder
        rw [List.pairwise_reverse]
        simpa using hs
      · rw [List.map_reverse, hmap]

theorem searchOrder_perm {order : ResultOrder} {shuffle : List (Corpus T) → List (Corpus T)} (hs : ∀ l, (shuffle l).Perm l)
    (ks : List (Known T)) : ∃ ks' : List (Known T), ks'.Perm ks ∧ ks'.map (·.c) = searchOrder order shuffle (ks.map (·.c)) := by
  have hperm : (searchOrder order shuffle (ks.map (·.c))).Perm (ks.map (·.c)) := by
    unfold searchOrder
    split
    · exact List.Perm.refl _
    · cases order with
      | randomized => exact hs _
      | inverted => exact (List.reverse_perm _).trans (List.mergeSort_perm _ _)
      | normal => exact List.mergeSort_perm _ _
      | notSorted => exact List.mergeSort_perm _ _
  generalize searchOrder order shuffle (ks.map (·.c)) = cs at hperm
  have self : ∀ l : List (Known T), List.Forall₂ (fun c k => Known.c k = c) (l.map (·.c)) l := by
    intro l
    induction l with
    | nil => exact .nil
    | cons k l ih => exact .cons rfl ih
  obtain ⟨ks', h1, h2⟩ := List.perm_comp_forall₂ hperm (self ks)
  refine ⟨ks', h2, ?_⟩
  clear h2 hperm
  induction h1 with
  | nil => rfl
  | cons h _ ih => rw [List.map_cons, ih, h]

theorem find_map {C D R : Type} (f : C → D) (s : D → Nat → Option Nat → Option (List R × Nat)) (l : List C) (o : Nat) (lim : Option Nat) :
    find s (l.map f) o lim = find (fun c => s (f c)) l o lim := by
  have loop : ∀ (l : List C) (cur : Nat) (res : List R), findLoop s o lim (l.map f) cur res = findLoop (fun c => s (f c)) o lim l cur res := by
    intro l
    induction l with
    | nil => intro cur res; rfl
    | cons c l ih =>
      intro cur res
      rw [List.map_cons, findLoop_cons, findLoop_cons]
      congr 1
      funext p
      congr 1
      funext cur' res'
      exact ih cur' res'
  rcases l with _ | ⟨a, _ | ⟨b, r⟩⟩
  · rfl
  · rfl
  · exact loop (a :: b :: r) o []

/-- The calls for the corpora, beside what is known about them. -/
theorem runs_known {ks' : List (Known T)} {runs : List (Corpus T × (Nat → Option Nat → Option (List Str × Nat)))}
    (h : ks'.map (·.c) = runs.map Prod.fst) {offset : Nat} {limit : Option Nat} {page : List Str}
    (hfind : find (fun p => p.2) runs offset limit = some page) :
    ∃ l : List (Known T × (Nat → Option Nat → Option (List Str × Nat))), l.map Prod.fst = ks' ∧
      find (fun p => p.2) l offset limit = some page ∧ ∀ p ∈ l, p.1 ∈ ks' ∧ (p.1.c, p.2) ∈ runs := by
  have hlen : ks'.length = runs.length := by
    have := congrArg List.length h
    simpa using this
  refine ⟨ks'.zip (runs.map Prod.snd), List.map_fst_zip (by simp [hlen]), ?_, ?_⟩
  · have e1 := find_map (Prod.snd : Corpus T × _ → _) (fun f => f) runs offset limit
    have e2 := find_map (Prod.snd : Known T × (Nat → Option Nat → Option (List Str × Nat)) → _) (fun f => f) (ks'.zip (runs.map Prod.snd)) offset limit
    rw [List.map_snd_zip (by simp [hlen])] at e2
    rw [← e2, e1]
    exact hfind
  · rintro ⟨k, f⟩ hm
    obtain ⟨i, hi⟩ := List.mem_iff_getElem?.1 hm
    rw [List.getElem?_zip_eq_some] at hi
    obtain ⟨hk, hfi⟩ := hi
    rw [List.getElem?_map] at hfi
    obtain ⟨p, hp, hpf⟩ := Option.map_eq_some_iff.1 hfi
    have hkc : p.1 = k.c := by
      have a1 : (ks'.map (·.c))[i]? = some k.c := by simp [hk]
      have a2 : (runs.map Prod.fst)[i]? = some p.1 := by simp [hp]
      rw [h, a2] at a1
      simpa using a1
    refine ⟨List.mem_of_getElem? hk, ?_⟩
    have : ((k, f).1.c, (k, f).2) = p := by rw [← hkc]; simp only at hpf ⊢; rw [← hpf]
    rw [this]
    exact List.mem_of_getElem? hp

/-- The part of the results that one corpus gives. -/
def pageOf (order : ResultOrder) (Ls : List (List (Aql.Occ (NsSpec Str Str)))) (rows : Known T → List (Row T (AnnoKey Str))) (k : Known T) : List Str :=
  (if order = .inverted then (rows k).reverse else rows k).map (idOf k.c Ls)

/-- **C108**: `find` over several corpora gives the identifiers of all answers, corpus by corpus in the order of their names, in each corpus in
the order of the text, and of these the part that is requested; with the inverted order everything backwards. The plans and random numbers do
not matter. Restricted to queries without parentheses and repeated names, and to corpora in which the order is consistent (`Known.Fits`). -/
theorem C108_find_partial (ht : QueryText doc text e qs Ls) (ks : List (Known T)) (hf : ∀ k ∈ ks, k.Fits d (Aql.alternatives e) Ls)
    (rows : Known T → List (Row T (AnnoKey Str))) (hl : ∀ k ∈ ks, k.Listing d (Aql.alternatives e) Ls (rows k))
    {order : ResultOrder} (hor : order = .normal ∨ order = .inverted) {offset : Nat} {limit : Option Nat} {page : List Str}
    (h : FindAll E doc d text (ks.map (·.c)) order offset limit page) :
    ∃ ks' : List (Known T), ks'.Perm ks ∧ NameOrder order ks' ∧ page = slice (ks'.flatMap (pageOf order Ls rows)) offset limit := by
  obtain ⟨shuffle, runs, _, hruns, hone, hfind⟩ := h
  obtain ⟨ks', h1, h2, h3⟩ := searchOrder_known hor shuffle ks
  refine ⟨ks', h1, h2, ?_⟩
  obtain ⟨l, rfl, hfind, hl'⟩ := runs_known (h3.trans hruns.symm) hfind
  have := find_spec _ (fun p : Known T × (Nat → Option Nat → Option (List Str × Nat)) => pageOf order Ls rows p.1) _ offset limit page (by
    intro p hm o l r hr
    obtain ⟨hk, hr'⟩ := hl' p hm
    have hkm := h1.mem_iff.1 hk
    rw [findOne_page ht (hf _ hkm) (hl _ hkm) hor o l r (hone _ hr' o l r hr)]
    unfold pageOf
    congr 1
    rw [List.length_map]
    congr 1
    split <;> simp) hfind
  rw [this, List.flatMap_map]

/-- **C108** for all orders: the results are a part, as long as requested, of some list of all identifiers, each as often as there are
corpora and answers with it. -/
theorem C108_any_order_partial (ht : QueryText doc text e qs Ls) (ks : List (Known T)) (hf : ∀ k ∈ ks, k.Fits d (Aql.alternatives e) Ls)
    (rows : Known T → List (Row T (AnnoKey Str))) (hl : ∀ k ∈ ks, k.Listing d (Aql.alternatives e) Ls (rows k))
    {order : ResultOrder} {offset : Nat} {limit : Option Nat} {page : List Str}
    (h : FindAll E doc d text (ks.map (·.c)) order offset limit page) :
    ∃ L : List Str, L.Perm (ks.flatMap fun k => (rows k).map (idOf k.c Ls)) ∧ page = slice L offset limit := by
  obtain ⟨shuffle, runs, hsh, hruns, hone, hfind⟩ := h
  obtain ⟨ks', h1, h3⟩ := searchOrder_perm (order := order) hsh ks
  obtain ⟨l, rfl, hfind, hl'⟩ := runs_known (h3.trans hruns.symm) hfind
  obtain ⟨L, hL, hp⟩ := find_perm _ (fun p : Known T × (Nat → Option Nat → Option (List Str × Nat)) => (rows p.1).map (idOf p.1.c Ls)) _
    offset limit page (by
      intro p hm o l r hr
      obtain ⟨hk, hr'⟩ := hl' p hm
      have hkm := h1.mem_iff.1 hk
      exact findOne_any ht (hf _ hkm) (hl _ hkm) o l r (hone _ hr' o l r hr)) hfind
  refine ⟨L, hL.trans ?_, hp⟩
  have e3 : l.flatMap (fun p => (rows p.1).map (idOf p.1.c Ls)) = (l.map Prod.fst).flatMap fun k => (rows k).map (idOf k.c Ls) := by
    rw [List.flatMap_map]
  rw [e3]
  exact h1.flatMap_right _

/-- **C108** for `count`: the sum of the numbers of answers. -/
theorem C108_count_partial (ht : QueryText doc text e qs Ls) (ks : List (Known T)) (hf : ∀ k ∈ ks, k.Fits d (Aql.alternatives e) Ls)
    (rows : Known T → List (Row T (AnnoKey Str))) (hl : ∀ k ∈ ks, k.Listing d (Aql.alternatives e) Ls (rows k)) {n : Nat}
    (h : CountAll E doc d text (ks.map (·.c)) n) : n = (ks.map fun k => (rows k).length).sum := by
  obtain ⟨outs, ho, rfl⟩ := h
  rw [countQuery_eq]
  induction ks generalizing outs with
  | nil => cases ho; rfl
  | cons k ks ih =>
    cases ho with
    | cons h1 h2 =>
      obtain ⟨qs', alts, hp⟩ := h1
      obtain ⟨_, rows', rfl, hperm, _⟩ := planned_rows ht (hf k (by simp)) (hl k (by simp)) hp
      have := ih (fun k hk => hf k (by simp [hk])) (fun k hk => hl k (by simp [hk])) _ h2
      simp only [List.map_cons, List.sum_cons, this, List.length_map, hperm.length_eq]

/-- Backwards: for corpora with different names all results of the inverted order are those of the normal order, backwards. -/
theorem C108_inverted_partial (ht : QueryText doc text e qs Ls) (ks : List (Known T)) (hf : ∀ k ∈ ks, k.Fits d (Aql.alternatives e) Ls)
    (hn : (ks.map fun k => k.c.name).Nodup) {page page' : List Str} (h : FindAll E doc d text (ks.map (·.c)) .normal 0 none page)
    (h' : FindAll E doc d text (ks.map (·.c)) .inverted 0 none page') : page' = page.reverse := by
  classical
  have hex : ∀ k, ∃ rows, k ∈ ks → k.Listing d (Aql.alternatives e) Ls rows := by
    intro k
    by_cases hk : k ∈ ks
    · obtain ⟨r, hr⟩ := C108_listing_partial ht (hf k hk)
      exact ⟨r, fun _ => hr⟩
    · exact ⟨[], fun h => absurd h hk⟩
  choose rows hrows using hex
  obtain ⟨k1, p1, s1, e1⟩ := C108_find_partial ht ks hf rows (fun k hk => hrows k hk) (.inl rfl) h
  obtain ⟨k2, p2, s2, e2⟩ := C108_find_partial ht ks hf rows (fun k hk => hrows k hk) (.inr rfl) h'
  have hinj : ∀ a ∈ ks, ∀ b ∈ ks, a.c.name = b.c.name → a = b := fun a ha b hb => List.inj_on_of_nodup_map hn ha hb
  have hnd : ks.Nodup := List.Nodup.of_map _ hn
  have hk : k2.reverse = k1 := by
    refine List.Perm.eq_of_pairwise (le := fun a b : Known T => a.c.name ≤ b.c.name) ?_ ?_ ?_ (((List.reverse_perm k2).trans p2).trans p1.symm)
    · intro a b ha hb h1 h2
      exact hinj a (p2.mem_iff.1 (by simpa using ha)) b (p1.mem_iff.1 hb) (le_antisymm h1 h2)
    · rw [List.pairwise_reverse]
      simpa [NameOrder] using s2
    · simpa [NameOrder] using s1
  rw [e2, e1, ← hk]
  simp only [slice, List.drop_zero]
  rw [List.reverse_flatMap, List.reverse_reverse]
  refine List.flatMap_congr fun k _ => ?_
  simp [pageOf]

/-! ### There are results -/

theorem findLoop_total {C R : Type} (single : C → Nat → Option Nat → Option (List R × Nat)) (offset : Nat) (limit : Option Nat) :
    ∀ (cs : List C) (cur : Nat) (res : List R), (∀ c ∈ cs, ∀ o l, single c o l ≠ none) → findLoop single offset limit cs cur res ≠ none := by
  intro cs
  induction cs with
  | nil => intro cur res _ h; cases h
  | cons c cs ih =>
    intro cur res hs
    rw [findLoop_cons]
    obtain ⟨p, hp⟩ := Option.ne_none_iff_exists'.1 (hs c (by simp) cur limit)
    rw [hp, Option.bind_some]
    unfold loopStep
    cases limit with
    | none =>
      simp only [reduceCtorEq, if_false]
      exact ih _ _ fun c hc => hs c (by simp [hc])
    | some n =>
      simp only
      split
      · split
        · simp
        · exact ih _ _ fun c hc => hs c (by simp [hc])
      · split
        · simp
        · exact ih _ _ fun c hc => hs c (by simp [hc])

theorem find_total {C R : Type} (single : C → Nat → Option Nat → Option (List R × Nat)) (offset : Nat) (limit : Option Nat) (cs : List C)
    (hs : ∀ c ∈ cs, ∀ o l, single c o l ≠ none) : ∃ page, find single cs offset limit = some page := by
  refine Option.ne_none_iff_exists'.1 ?_
  unfold find
  split
  · simp
  · rename_i c
    simpa using hs c (by simp) offset limit
  · exact findLoop_total single offset limit cs offset [] hs

theorem findOne_exists (ht : QueryText doc text e qs Ls) (hf : k.Fits d (Aql.alternatives e) Ls) (order : ResultOrder) (o : Nat) (l : Option Nat) :
    ∃ res, FindOne E doc d text k.c order o l res := by
  obtain ⟨rows, hl⟩ := C108_listing_partial ht hf
  have hplan : ∃ qs' alts out, Planned (E := E) doc d text k.c qs' alts out := by
    obtain ⟨ps, tree, htree, hflat⟩ := ht.flat
    obtain ⟨_, _, _, ⟨out, hout⟩, _⟩ := C101_query_partial (E := E) k.corpus k.db ht.parsed htree hflat doc ht.translated d (by
      intro Ls' h' i c L hc hL
      have hLs : Ls' = Ls := by
        refine List.ext_getElem? fun i => ?_
        have e1 := h'.length_eq
        have e2 := ht.searches.length_eq
        cases hi : (Aql.alternatives e)[i]? with
        | none =>
          rw [List.getElem?_eq_none_iff] at hi
          rw [List.getElem?_eq_none_iff.2 (by omega), List.getElem?_eq_none_iff.2 (by omega)]
        | some c =>
          obtain ⟨hlt, _⟩ := List.getElem?_eq_some_iff.1 hi
          have g1 := List.getElem?_eq_getElem (l := Ls') (i := i) (by omega)
          have g2 := List.getElem?_eq_getElem (l := Ls) (i := i) (by omega)
          rw [g1, g2, (forall₂_get h' i c _ hi g1).unique (forall₂_get ht.searches i c _ hi g2)]
      rw [hLs] at hL ⊢
      exact ⟨ht.names L (List.mem_of_getElem? hL), hf.alternatives i c L hc hL⟩)
    obtain ⟨h1, h2, h3, h4⟩ := hout
    exact ⟨_, _, _, ⟨_, h1, h2⟩, h3, h4⟩
  obtain ⟨qs', alts, out, hp⟩ := hplan
  obtain ⟨rfl, rows', rfl, hperm, _⟩ := planned_rows ht hf hl hp
  have hitem : (rows'.map (Except.ok (ε := Fail E))).map item = rows'.map some := by
    rw [List.map_map]; rfl
  have hP : ∀ g ∈ rows', k.Answer d (Aql.alternatives e) Ls g := fun g hg => (hl.mem g).1 (hperm.mem_iff.1 hg)
  obtain ⟨rnd, full, hsh, hit⟩ : ∃ (rnd : Rnd (Row T (AnnoKey Str))) (full : List (Row T (AnnoKey Str))), (∀ l, (rnd.shuffle l).Perm l) ∧
      createFindIterator (k.c.toFind qs' (sortedByText qs' alts) (rows'.map (Except.ok (ε := Fail E)))) rnd false order o l = some (full.map some) := by
    by_cases hc : order = .notSorted ∨ (order = .normal ∧ (sortedByText qs' alts = true) ∧ ¬ false = true)
    · refine ⟨⟨id, 0, []⟩, rows', fun l => List.Perm.refl l, ?_⟩
      unfold createFindIterator
      simp only [Corpus.toFind, hitem]
      rw [if_pos hc]
    · by_cases hr : order = .randomized
      · refine ⟨⟨id, 0, []⟩, rows', fun l => List.Perm.refl l, ?_⟩
        unfold createFindIterator
        simp only [Corpus.toFind, hitem]
        rw [if_neg hc]
        simp only [TokenSearch.mapM_some, Option.bind_eq_bind, Option.bind_some, if_pos hr, Option.pure_def, id]
      · have hord : CmpOrd (k.Answer d (Aql.alternatives e) Ls) fun a b =>
            if order = .inverted then (compareGroup k.c.sortEnv a b).swap else compareGroup k.c.sortEnv a b := by
          by_cases hi : order = .inverted
          · simpa [hi] using CmpOrd.inverted hf.order.1
          · simpa [hi] using hf.order.1
        obtain ⟨fuel, rs, l', hl'⟩ := sort_can_terminate hord (match l with
          | some k => o + k
          | none => rows'.length) hP
        refine ⟨⟨id, fuel, rs⟩, l', fun l => List.Perm.refl l, ?_⟩
        unfold createFindIterator
        simp only [Corpus.toFind, hitem]
        rw [if_neg hc]
        simp only [TokenSearch.mapM_some, Option.bind_eq_bind, Option.bind_some, if_neg hr, Option.pure_def]
        have hcf : (cmpFor order fun a b : Row T (AnnoKey Str) => some (compareGroup k.c.sortEnv a b)) =
            fun a b => some (if order = .inverted then (compareGroup k.c.sortEnv a b).swap else compareGroup k.c.sortEnv a b) := by
          funext a b
          unfold cmpFor
          split <;> rfl
        rw [hcf]
        refine Option.bind_eq_some_iff.2 ⟨l', ?_, rfl⟩
        cases l <;> exact hl'
  have : ∃ res, findSingle (k.c.toFind qs' (sortedByText qs' alts) (rows'.map (Except.ok (ε := Fail E)))) rnd false order o l = some res := by
    unfold findSingle
    rw [hit]
    have hm : ∀ l : List (Option (Row T (AnnoKey Str))), (∀ x ∈ l, x ≠ none) →
        ∃ r, (l.mapM fun m => m.bind (k.c.toFind (E := E) qs' (sortedByText qs' alts) (rows'.map .ok)).render) = some r := by
      intro l
      induction l with
      | nil => intro _; exact ⟨[], rfl⟩
      | cons x l ih =>
        intro hx
        obtain ⟨r, hr⟩ := ih fun y hy => hx y (by simp [hy])
        obtain ⟨y, rfl⟩ := Option.ne_none_iff_exists'.1 (hx x (by simp))
        rw [List.mapM_cons, hr]
        exact ⟨_, rfl⟩
    have hnn : ∀ x ∈ full.map some, x ≠ none := by
      intro x hx
      obtain ⟨y, _, rfl⟩ := List.mem_map.1 hx
      simp
    simp only [Option.bind_eq_bind, Option.bind_some]
    cases l with
    | none =>
      obtain ⟨r, hr⟩ := hm ((full.map some).drop o) fun x hx => hnn x (List.mem_of_mem_drop hx)
      exact ⟨_, Option.bind_eq_some_iff.2 ⟨r, hr, rfl⟩⟩
    | some n =>
      obtain ⟨r, hr⟩ := hm (((full.map some).drop o).take n) fun x hx => hnn x (List.mem_of_mem_drop (List.mem_of_mem_take hx))
      exact ⟨_, Option.bind_eq_some_iff.2 ⟨r, hr, rfl⟩⟩
  obtain ⟨res, hres⟩ := this
  exact ⟨res, qs', alts, _, rnd, hp, hsh, hres⟩

/-- `find` can end without an error for all orders and parts. -/
theorem C108_no_error_partial (ht : QueryText doc text e qs Ls) (ks : List (Known T)) (hf : ∀ k ∈ ks, k.Fits d (Aql.alternatives e) Ls)
    (order : ResultOrder) (offset : Nat) (limit : Option Nat) : ∃ page, FindAll E doc d text (ks.map (·.c)) order offset limit page := by
  classical
  have hex : ∀ c o l, ∃ r, c ∈ ks.map (·.c) → FindOne E doc d text c order o l r := by
    intro c o l
    by_cases hc : c ∈ ks.map (·.c)
    · obtain ⟨k, hk, rfl⟩ := List.mem_map.1 hc
      obtain ⟨r, hr⟩ := findOne_exists (E := E) ht (hf k hk) order o l
      exact ⟨r, fun _ => hr⟩
    · exact ⟨([], 0), fun h => absurd h hc⟩
  choose res hres using hex
  have hm : ∀ c ∈ searchOrder order id (ks.map (·.c)), c ∈ ks.map (·.c) := by
    obtain ⟨ks', h1, h2⟩ := searchOrder_perm (order := order) (shuffle := id) (fun l => List.Perm.refl l) ks
    rw [← h2]
    exact fun c hc => (h1.map _).mem_iff.1 hc
  obtain ⟨page, hp⟩ := find_total (fun p : Corpus T × (Nat → Option Nat → Option (List Str × Nat)) => p.2) offset limit
    ((searchOrder order id (ks.map (·.c))).map fun c => (c, fun o l => some (res c o l))) (by
      intro p hp
      obtain ⟨c, _, rfl⟩ := List.mem_map.1 hp
      simp)
  refine ⟨page, id, _, fun l => List.Perm.refl l, ?_, ?_, hp⟩
  · rw [List.map_map]
    exact List.map_id' _
  · intro p hp o l r hr
    obtain ⟨c, hc, rfl⟩ := List.mem_map.1 hp
    simp only [Option.some.injEq] at hr
    rw [← hr]
    exact hres c o l (hm c hc)

/-- Different answers in a corpus have different identifiers, if the names of nodes are different and have no characters that cannot be read
back (C39). -/
theorem C108_ids_partial (hf : k.Fits d (Aql.alternatives e) Ls) {rows : List (Row T (AnnoKey Str))}
    (hl : k.Listing d (Aql.alternatives e) Ls rows) (hn : ∀ a b, k.c.nodeName a = k.c.nodeName b → k.c.nodeName a ≠ none → a = b)
    (hok : ∀ row ∈ rows, ∀ m ∈ visible Ls row, (k.c.outMatch m).Ok) : (rows.map (idOf k.c Ls)).Nodup := by
  refine List.Nodup.map_on ?_ (hl.nodup hf)
  intro a ha b hb he
  have hinj : ∀ m m' : SMatch T (AnnoKey Str), (k.c.outMatch m).Ok → k.c.outMatch m = k.c.outMatch m' → m = m' := by
    rintro ⟨n, ns⟩ ⟨n', ns'⟩ hm h
    simp only [Corpus.outMatch, OutMatch.mk.injEq] at h
    obtain ⟨h1, h2, h3⟩ := h
    have hkey : ns = ns' := Prod.ext (show ns.name = ns'.name from h2) (show ns.ns = ns'.ns from h1)
    have hne : (k.c.nodeName n).getD [] ≠ [] := hm.1
    have hnode : n = n' := by
      refine hn n n' ?_ ?_
      · cases h4 : k.c.nodeName n with
        | none => simp [h4] at hne
        | some x =>
          cases h5 : k.c.nodeName n' with
          | none => simp [h4, h5] at h3 hne; exact absurd h3 hne
          | some y => simpa [h4, h5] using h3
      · intro h4
        simp [h4] at hne
    rw [hkey, hnode]
  have he' := C39_match_ids_injective_partial _ _ (fun m hm => by
    obtain ⟨x, hx, rfl⟩ := List.mem_map.1 hm
    exact hok a ha x hx) (fun m hm => by
    obtain ⟨x, hx, rfl⟩ := List.mem_map.1 hm
    exact hok b hb x hx) he
  refine visible_injective ((hl.mem a).1 ha) ((hl.mem b).1 hb) ?_
  have h1 := hok a ha
  generalize visible Ls a = va at he' h1
  generalize visible Ls b = vb at he'
  induction va generalizing vb with
  | nil =>
    cases vb with
    | nil => rfl
    | cons y vb => simp at he'
  | cons x va ih =>
    cases vb with
    | nil => simp at he'
    | cons y vb =>
      rw [List.map_cons, List.map_cons, List.cons.injEq] at he'
      rw [hinj x y (h1 x (by simp)) he'.1, ih (fun m hm => h1 m (by simp [hm])) vb he'.2]

end
end Answer
