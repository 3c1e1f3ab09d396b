import Verif.Answer.Rows
import Mathlib.Tactic.Convert

/-!
# C101: from the text of a query to its results
-/

set_option linter.unusedSectionVars false

namespace Answer

open Whole

/-! ### Lemmas about lists -/

theorem uniqItems_mem {α E : Type} [DecidableEq α] (l : List (Except E α)) : ∀ seen, ∀ x ∈ uniqItems seen l, x ∈ l := by
  induction l with
  | nil => intro seen x hx; simp [uniqItems] at hx
  | cons y l ih =>
    intro seen x hx
    cases y with
    | error e =>
      rw [uniqItems] at hx
      rcases List.mem_cons.1 hx with rfl | hx
      · simp
      · exact List.mem_cons_of_mem _ (ih seen x hx)
    | ok y =>
      rw [uniqItems] at hx
      split at hx
      · exact List.mem_cons_of_mem _ (ih seen x hx)
      · rcases List.mem_cons.1 hx with rfl | hx
        · simp
        · exact List.mem_cons_of_mem _ (ih _ x hx)

theorem all_ok {α E : Type} : ∀ {l : List (Except E α)}, (∀ x ∈ l, ∃ a, x = .ok a) → l = (okRows l).map .ok
  | [], _ => rfl
  | x :: l, h => by
    obtain ⟨a, rfl⟩ := h x (by simp)
    have := all_ok (l := l) fun y hy => h y (by simp [hy])
    have e : okRows (.ok a :: l) = a :: okRows l := rfl
    rw [e, List.map_cons, ← this]

theorem okRows_map {α E : Type} (l : List α) : okRows (l.map (Except.ok (ε := E))) = l := by
  induction l with
  | nil => rfl
  | cons a l ih =>
    have e : okRows ((a :: l).map (Except.ok (ε := E))) = a :: okRows (l.map (Except.ok (ε := E))) := rfl
    rw [e, ih]

theorem forall₂_get {α β : Type} {R : α → β → Prop} {l : List α} {l' : List β} (h : List.Forall₂ R l l') :
    ∀ (i : Nat) a b, l[i]? = some a → l'[i]? = some b → R a b := by
  induction h with
  | nil => intro i a b h; simp at h
  | cons h1 _ ih =>
    intro i a b ha hb
    cases i with
    | zero => simp at ha hb; subst ha hb; exact h1
    | succ i => exact ih i a b ha hb

theorem forall₂_of_get {α β : Type} {R : α → β → Prop} : ∀ {l : List α} {l' : List β}, l.length = l'.length →
    (∀ (i : Nat) a b, l[i]? = some a → l'[i]? = some b → R a b) → List.Forall₂ R l l'
  | [], [], _, _ => .nil
  | [], _ :: _, h, _ => by simp at h
  | _ :: _, [], h, _ => by simp at h
  | a :: l, b :: l', h, hr => .cons (hr 0 a b rfl rfl) (forall₂_of_get (by simpa using h) fun i a b h1 h2 => hr (i + 1) a b h1 h2)

theorem forall₂_exists {α β : Type} {R : α → β → Prop} : ∀ {l : List α}, (∀ (i : Nat) a, l[i]? = some a → ∃ b, R a b) →
    ∃ l', List.Forall₂ R l l'
  | [], _ => ⟨[], .nil⟩
  | a :: l, h => by
    obtain ⟨b, hb⟩ := h 0 a rfl
    obtain ⟨l', hl⟩ := forall₂_exists (l := l) fun i a ha => h (i + 1) a ha
    exact ⟨b :: l', .cons hb hl⟩

section
variable {T E : Type} [LinearOrder T] {env : NsEnv Str Str} {g : NsGraph T Str Str} {db : Db T} {th : TokenHelper T} {order : GStore T}
  {r : Rels T Str Str} {De : EdgeStore T Str Str → T → Prop} {Re : EdgeStore T Str Str → Nat → Bnd Nat → Prop}
  {Ec : GStore T → T → T → Prop} {D : T → Prop} {Rg : Nat → Bnd Nat → Prop} {ops : List (AnnoStore.Op T Str Str)}

/-! ### One alternative -/

section
variable {offset : Nat} {c : List Parse.QLit} {L : List (Aql.Occ (NsSpec Str Str))} {q : QConj}

theorem uses_not_ok (ht : Aql.Translated false offset c L q) (hu : lacksAny db q = true) : ¬ PartOk db c := by
  intro h
  unfold lacksAny at hu
  rw [Bool.or_eq_true, List.any_eq_true, List.any_eq_true] at hu
  rcases hu with ⟨b, hb, hu⟩ | ⟨u, hu', hu⟩
  · obtain ⟨lhs, op, rhs, neg, hl, he⟩ := bin_origin ht hb
    have hop := h lhs op rhs neg hl
    obtain ⟨i, j, x, y, _, _, _, _, h5⟩ := effect_cases he
    rcases h5 with ⟨_, _, _, e⟩ | ⟨_, _, _, e⟩ | ⟨_, _, _, e⟩ | ⟨_, _, _, e⟩
    · simp only [Sum.inl.injEq] at e
      subst e
      simp [hop] at hu
    · simp only [Sum.inl.injEq] at e
      subst e
      simp [hop] at hu
    · simp at e
    · simp at e
  · rcases un_origin ht hu' with ⟨ref, range, _, e, _⟩ | ⟨lhs, op, rhs, neg, hl, he⟩
    · rw [e] at hu
      simp at hu
    · have hop := h lhs op rhs neg hl
      obtain ⟨i, j, x, y, _, _, _, _, h5⟩ := effect_cases he
      rcases h5 with ⟨_, _, _, e⟩ | ⟨_, _, _, e⟩ | ⟨_, _, _, e⟩ | ⟨_, _, _, e⟩
      · simp at e
      · simp at e
      · simp only [Sum.inr.injEq] at e
        subst e
        simp [hop] at hu
      · simp only [Sum.inr.injEq] at e
        subst e
        simp [hop] at hu

theorem no_operators (ht : Aql.Translated false offset c L q) (hb : q.bins = []) (hu : q.uns = []) : ∀ l ∈ c, l.isBin = false ∧ l.isUn = false := by
  intro l hl
  cases l with
  | node => exact ⟨rfl, rfl⟩
  | legacyMeta => exact ⟨rfl, rfl⟩
  | bin lhs op rhs neg =>
    obtain ⟨e, _, h1, h2⟩ := bin_effect ht hl
    cases e with
    | inl b => simpa [hb] using h1 b rfl
    | inr u => simpa [hu] using h2 u rfl
  | un ref range =>
    obtain ⟨i, _, h⟩ := un_effect ht hl
    simp [hu] at h

theorem operators_nil (ht : Aql.Translated false offset c L q) (h : ∀ l ∈ c, l.isBin = false ∧ l.isUn = false) : q.bins = [] ∧ q.uns = [] := by
  obtain ⟨us, es, h1, h2, h3, h4⟩ := ht.operators
  have e1 : c.filter Aql.Literal.isUn = [] := List.filter_eq_nil_iff.2 fun l hl => by simp [(h l hl).2]
  have e2 : c.filter Aql.Literal.isBin = [] := List.filter_eq_nil_iff.2 fun l hl => by simp [(h l hl).1]
  rw [e1] at h1
  rw [e2] at h2
  cases h1; cases h2
  exact ⟨h3, h4⟩

/-- If all tokens can be searched, an error of a node search is about a pattern. -/
theorem searches_error {nodes : List (Option (Node T Str Str))} (htok : g.anyTokens ≠ none) {err : NodeSearch.NsError}
    (h : searches (E := E) env g nodes = .error err) : err = .regex := by
  induction nodes with
  | nil => simp [searches] at h
  | cons nd r ih =>
    cases nd with
    | none =>
      rw [searches] at h
      cases hr : searches (E := E) env g r with
      | ok l => rw [hr] at h; simp at h
      | error e => rw [hr] at h; cases h; exact ih hr
    | some nd =>
      rw [searches] at h
      cases hn : nd.search (E := E) env g with
      | error e =>
        rw [hn] at h
        cases h
        unfold Node.search at hn
        cases hf : NodeSearch.fromSpec (E := E) env g nd.spec with
        | error e =>
          rw [hf] at hn
          cases hn
          cases err with
          | regex => rfl
          | tokens => exact absurd ((NodeSearch.C66_errors (E := E) env g nd.spec).2.1 hf).2 htok
        | ok x =>
          rw [hf] at hn
          simp only at hn
          split at hn <;> cases hn
      | ok x =>
        rw [hn] at h
        cases hr : searches (E := E) env g r with
        | ok l => rw [hr] at h; simp at h
        | error e => rw [hr] at h; cases h; exact ih hr

/-- **C101**: an alternative of the text can be executed, and its rows are answers to it, each once; all answers with different matches for
different nodes are among them. An alternative that is left out because a search or an operator cannot be made has no answers. -/
theorem C101_alternative (hco : CorpusOk ops env g r th order Ec D Rg) (hdb : DbOk db r De Re) (ht : Aql.Translated false offset c L q)
    (hs : L.Pairwise fun a b => a.pos < b.pos) (hn : Aql.NamesDistinct L) (ha : AltOk db env g r th Ec Rg De Re offset c L)
    (d : SMatch T (AnnoKey Str)) :
    (∃ x, AltRows (E := E) env g db th order d q x) ∧
    ∀ x, AltRows (E := E) env g db th order d q x → ∃ rows : List (Row T (AnnoKey Str)), x.getD [] = rows.map .ok ∧ rows.Nodup ∧
      (∀ row ∈ rows, TextAnswer db env (AnnoStore.spec ops) r d offset c L row) ∧
      ∀ row, TextAnswer db env (AnnoStore.spec ops) r d offset c L row → Distinct L row → row ∈ rows := by
  by_cases hpt : PartOk db c
  swap
  · obtain ⟨h2, h3, h4⟩ := lacks_of ht ha hpt
    refine ⟨⟨_, .missing (connected_shape ht hs hn ha) h2⟩, fun x hx => ⟨[], ?_, List.nodup_nil, by simp, fun row h _ => absurd h (h4 _ _ _)⟩⟩
    cases hx with
    | plan _ _ _ hb => rw [h3] at hb; simp at hb
    | failed => rfl
    | missing => rfl
  constructor
  · obtain ⟨us, hus⟩ := unaries_exist (E := E) (order := order) ht ha hpt fun _ => (true, true)
    obtain ⟨bins, hb⟩ := bins_exist ht ha hpt fun _ => (true, true)
    have hc := connected_shape ht hs hn ha
    cases hS : searches (E := E) env g (nodesOf us q) with
    | error err =>
      refine ⟨_, .failed hc hus hS fun _ => ?_⟩
      by_contra hno
      rw [not_or, not_not, not_not] at hno
      refine absurd (C98_searches.2 fun nd hnd => ?_) (not_exists.2 fun S h => by rw [hS] at h; simp at h)
      obtain ⟨n, hn'⟩ := List.mem_iff_getElem?.1 hnd
      obtain ⟨o, h1, h2, rfl⟩ := (node_some ht).1 hn'
      exact ⟨ha.patterns o (List.mem_of_getElem? h1) (.inr (no_operators ht hno.1 hno.2)), ha.tokens o (List.mem_of_getElem? h1)⟩
    | ok S =>
      obtain ⟨⟨S', hS'⟩, h⟩ := C98_replaced hco (query_ok (us := us) hdb ht hs hn ha hb (AnnoStore.spec ops)) (sizes_ok ht ha hb _) hS d true
        (List.Perm.refl bins)
      obtain ⟨⟨e, he⟩, _⟩ := h S' hS'
      exact ⟨_, .plan hc (unaries_ok ht ha) hus hb (List.Perm.refl _) hS' (by convert he)⟩
  · intro x hx
    cases hx with
    | plan hc hu hus hb hp hS' he =>
      obtain ⟨S, hS⟩ := planned_searches hS'
      obtain ⟨_, h⟩ := C98_replaced hco (query_ok hdb ht hs hn ha hb (AnnoStore.spec ops)) (sizes_ok ht ha hb _) hS d true hp
      obtain ⟨_, h2⟩ := h _ hS'
      obtain ⟨rows, e1, e2, e3, e4⟩ := h2 _ (by convert he)
      refine ⟨rows, ?_, e2, fun row hr => ?_, fun row h1 h2 => ?_⟩
      · rw [Option.getD_some]
        have := congrArg (List.map (lift (E := E))) e1
        rw [List.map_map, List.map_map] at this
        exact this
      · exact (isAnswer_iff hco hdb ht hs hn ha hus hb d row).1 (e3 row hr)
      · exact e4 row ((isAnswer_iff hco hdb ht hs hn ha hus hb d row).2 h1) ((distinct_iff ht row).2 h2)
    | @failed decU us err hc hus hS _ =>
      refine ⟨[], rfl, List.nodup_nil, by simp, fun row h _ => ?_⟩
      have hno : ¬ ∃ S : List (Option (List (SMatch T (AnnoKey Str)) × Option (NsDesc T (AnnoKey Str) E))),
          searches env g (nodesOf us q) = .ok S := by
        rintro ⟨S, h⟩
        rw [hS] at h; simp at h
      refine absurd (C98_searches.2 fun nd hnd => ?_) hno
      obtain ⟨n, hn'⟩ := List.mem_iff_getElem?.1 hnd
      obtain ⟨o, h1, h2, rfl⟩ := (node_some ht).1 hn'
      obtain ⟨x, _, hf⟩ := h.found n o h1 h2
      exact ⟨fun p hp => finds_compiled hf hp, ha.tokens o (List.mem_of_getElem? h1)⟩
    | missing hc hu => exact absurd (uses_not_ok ht hu) (not_not.2 hpt)

end

/-! ### All alternatives -/

/-- The node searches of each alternative, and the number of node searches before it. -/
def Searches (alts : List (List Parse.QLit)) (Ls : List (List (Aql.Occ (NsSpec Str Str)))) : Prop := List.Forall₂ Aql.IsNodeList alts Ls

/-- The number of node searches before the alternative `i`. -/
def before (Ls : List (List (Aql.Occ (NsSpec Str Str)))) (i : Nat) : Nat := ((Ls.take i).map List.length).sum

/-- A row is an answer to the alternative `i` of the query. -/
def AnswersAlt (db : Db T) (env : NsEnv Str Str) (m : AnnoStore.Spec T Str Str) (r : Rels T Str Str) (d : SMatch T (AnnoKey Str))
    (alts : List (List Parse.QLit)) (Ls : List (List (Aql.Occ (NsSpec Str Str)))) (i : Nat) (row : Row T (AnnoKey Str)) : Prop :=
  ∃ c L, alts[i]? = some c ∧ Ls[i]? = some L ∧ TextAnswer db env m r d (before Ls i) c L row

theorem offsets {qs : List QConj} {Ls : List (List (Aql.Occ (NsSpec Str Str)))}
    (h : List.Forall₂ (fun (q : QConj) L => q.nodes.length = List.length L) qs Ls) (i : Nat) :
    ((qs.take i).flatMap Aql.Conj.nodes).length = before Ls i := by
  unfold before
  induction h generalizing i with
  | nil => simp
  | cons h1 _ ih =>
    cases i with
    | zero => simp
    | succ i => simp only [List.take_succ_cons, List.flatMap_cons, List.length_append, List.map_cons, List.sum_cons, h1, ih i]

/-- **C101**, from the text to the results, restricted to texts without parentheses and names that are not repeated. A query that is accepted can
be executed. All its results are rows without errors, no row twice; each is an answer to one of the alternatives of the text. All answers
with different matches for different nodes are among the results. Missing: parentheses (the crate `boolean_expression` changes the tree),
operators that are not modelled (`Supported`), answers with the same match for two nodes (they depend on the plan, `C61_fails`), and
negated part-of operators without a component (`C101_part_of_fails`). -/
theorem C101_query_partial (hco : CorpusOk ops env g r th order Ec D Rg) (hdb : DbOk db r De Re) {text : Str} {e : Parse.Q}
    {ps : List Parse.PTok} {tree : Parse.Disj} (hp : Parse.parseQuery text = .ok e) (htree : Parse.Spec.Tree text ps tree) (hf : Parse.Spec.Flat tree)
    (doc : NsSpec Str Str) {qs : List QConj} (hqs : Aql.parse false doc e = .ok qs) (d : SMatch T (AnnoKey Str))
    (hok : ∀ Ls, Searches (Aql.alternatives e) Ls → ∀ (i : Nat) c L, (Aql.alternatives e)[i]? = some c → Ls[i]? = some L →
      Aql.NamesDistinct L ∧ AltOk db env g r th Ec Rg De Re (before Ls i) c L) :
    ∃ Ls, Searches (Aql.alternatives e) Ls ∧ (∀ Ls', Searches (Aql.alternatives e) Ls' → Ls' = Ls) ∧
    (∃ out, Answers (E := E) env g db th order doc d text out) ∧
    ∀ out, Answers (E := E) env g db th order doc d text out → ∃ rows : List (Row T (AnnoKey Str)), out = rows.map .ok ∧ rows.Nodup ∧
      (∀ row ∈ rows, ∃ i, AnswersAlt db env (AnnoStore.spec ops) r d (Aql.alternatives e) Ls i row) ∧
      ∀ (i : Nat) L row, Ls[i]? = some L → AnswersAlt db env (AnnoStore.spec ops) r d (Aql.alternatives e) Ls i row → Distinct L row →
        row ∈ rows := by
  -- the node searches
  obtain ⟨Ls, hLs⟩ : ∃ Ls, Searches (Aql.alternatives e) Ls := forall₂_exists fun i c hc => by
    obtain ⟨L, hL, _⟩ := Parse.C93_translated_partial hp htree hf (List.mem_of_getElem? hc)
    exact ⟨L, hL⟩
  have huniq : ∀ Ls', Searches (Aql.alternatives e) Ls' → Ls' = Ls := by
    intro Ls' h'
    refine List.ext_getElem? fun i => ?_
    have e1 := h'.length_eq
    have e2 := hLs.length_eq
    cases hi : (Aql.alternatives e)[i]? with
    | none =>
      rw [List.getElem?_eq_none_iff] at hi
      rw [List.getElem?_eq_none_iff.2 (by omega), List.getElem?_eq_none_iff.2 (by omega)]
    | some c =>
      obtain ⟨hlt, _⟩ := List.getElem?_eq_some_iff.1 hi
      have g1 := List.getElem?_eq_getElem (l := Ls') (i := i) (by omega)
      have g2 := List.getElem?_eq_getElem (l := Ls) (i := i) (by omega)
      obtain ⟨L, _, hu, _⟩ := Parse.C93_translated_partial hp htree hf (List.mem_of_getElem? hi)
      rw [g1, g2, hu _ (forall₂_get h' i c _ hi g1), hu _ (forall₂_get hLs i c _ hi g2)]
  refine ⟨Ls, hLs, huniq, ?_⟩
  have hlenL := hLs.length_eq
  -- the translation
  obtain ⟨hlen, htr⟩ := Aql.C69_query_partial doc e qs hqs fun c hc => by
    obtain ⟨i, hi⟩ := List.mem_iff_getElem?.1 hc
    obtain ⟨hlt, _⟩ := List.getElem?_eq_some_iff.1 hi
    have g2 := List.getElem?_eq_getElem (l := Ls) (i := i) (by omega)
    exact ⟨_, forall₂_get hLs i c _ hi g2, (hok Ls hLs i c _ hi g2).1⟩
  have htr' : ∀ (i : Nat) c q L, (Aql.alternatives e)[i]? = some c → qs[i]? = some q → Ls[i]? = some L →
      Aql.Translated false ((qs.take i).flatMap Aql.Conj.nodes).length c L q := by
    intro i c q L hc hq hL
    obtain ⟨L', h1, h2⟩ := htr i c q hc hq
    obtain ⟨L'', _, hu, _⟩ := Parse.C93_translated_partial hp htree hf (List.mem_of_getElem? hc)
    rw [hu L (forall₂_get hLs i c L hc hL), ← hu L' h1]
    exact h2
  have hoff : ∀ i, ((qs.take i).flatMap Aql.Conj.nodes).length = before Ls i := by
    refine offsets (forall₂_of_get (by omega) fun i q L hq hL => ?_)
    obtain ⟨hlt, _⟩ := List.getElem?_eq_some_iff.1 hq
    have g1 := List.getElem?_eq_getElem (l := Aql.alternatives e) (i := i) (by omega)
    rw [(htr' i _ q L g1 hq hL).nodes, List.length_mapIdx]
  have halt : ∀ (i : Nat) c q L, (Aql.alternatives e)[i]? = some c → qs[i]? = some q → Ls[i]? = some L →
      (∃ x, AltRows (E := E) env g db th order d q x) ∧
      ∀ x, AltRows (E := E) env g db th order d q x → ∃ rows : List (Row T (AnnoKey Str)), x.getD [] = rows.map .ok ∧ rows.Nodup ∧
        (∀ row ∈ rows, TextAnswer db env (AnnoStore.spec ops) r d (before Ls i) c L row) ∧
        ∀ row, TextAnswer db env (AnnoStore.spec ops) r d (before Ls i) c L row → Distinct L row → row ∈ rows := by
    intro i c q L hc hq hL
    have h1 := htr' i c q L hc hq hL
    rw [hoff] at h1
    obtain ⟨h2, h3⟩ := hok Ls hLs i c L hc hL
    exact C101_alternative hco hdb h1 (forall₂_get hLs i c L hc hL).sorted h2 h3 d
  have pick : ∀ (i : Nat) q, qs[i]? = some q → ∃ c L, (Aql.alternatives e)[i]? = some c ∧ Ls[i]? = some L := by
    intro i q hq
    obtain ⟨hlt, _⟩ := List.getElem?_eq_some_iff.1 hq
    exact ⟨_, _, List.getElem?_eq_getElem (by omega), List.getElem?_eq_getElem (by omega)⟩
  constructor
  · obtain ⟨alts, halts⟩ : ∃ alts, List.Forall₂ (AltRows (E := E) env g db th order d) qs alts := forall₂_exists fun i q hq => by
      obtain ⟨c, L, hc, hL⟩ := pick i q hq
      exact (halt i c q L hc hq hL).1
    have : ∃ out, Output (alts.filterMap id) out := by
      unfold Output
      split
      · exact ⟨_, C44_single _⟩
      · exact ⟨_, planNextMulti_runs _ _⟩
    obtain ⟨out, hout⟩ := this
    exact ⟨out, .mk hp hqs halts hout⟩
  · intro out hout
    cases hout with
    | @mk e' qs' alts _ hp' hqs' halts hO =>
      rw [hp] at hp'
      cases hp'
      rw [hqs] at hqs'
      cases hqs'
      have hla := halts.length_eq
      -- the rows of a plan
      have hplan : ∀ p ∈ alts.filterMap id, ∃ (i : Nat) (L : List (Aql.Occ (NsSpec Str Str))) (rows : List (Row T (AnnoKey Str))),
          p = rows.map .ok ∧ rows.Nodup ∧ ∀ row ∈ rows, AnswersAlt db env (AnnoStore.spec ops) r d (Aql.alternatives e) Ls i row := by
        intro p hp
        rw [List.mem_filterMap] at hp
        obtain ⟨x, hx, rfl⟩ := hp
        obtain ⟨i, hi⟩ := List.mem_iff_getElem?.1 hx
        obtain ⟨hlt, _⟩ := List.getElem?_eq_some_iff.1 hi
        have gq := List.getElem?_eq_getElem (l := qs) (i := i) (by omega)
        obtain ⟨c, L, hc, hL⟩ := pick i _ gq
        obtain ⟨rows, e1, e2, e3, _⟩ := (halt i c _ L hc gq hL).2 _ (forall₂_get halts i _ _ gq hi)
        exact ⟨i, L, rows, e1, e2, fun row hr => ⟨c, L, hc, hL, e3 row hr⟩⟩
      -- the answers
      have hans : ∀ (i : Nat) L row, Ls[i]? = some L → AnswersAlt db env (AnnoStore.spec ops) r d (Aql.alternatives e) Ls i row → Distinct L row →
          ∃ p ∈ alts.filterMap id, row ∈ okRows p := by
        rintro i L row hL ⟨c, L', hc, hL', hta⟩ hd
        rw [hL, Option.some.injEq] at hL'
        subst hL'
        obtain ⟨hlt, _⟩ := List.getElem?_eq_some_iff.1 hc
        have gq := List.getElem?_eq_getElem (l := qs) (i := i) (by omega)
        have ga := List.getElem?_eq_getElem (l := alts) (i := i) (by omega)
        obtain ⟨rows, e1, _, _, e4⟩ := (halt i c _ L hc gq hL).2 _ (forall₂_get halts i _ _ gq ga)
        have hmem := e4 row hta hd
        cases hx : alts[i] with
        | none =>
          rw [hx, Option.getD_none] at e1
          cases rows with
          | nil => simp at hmem
          | cons a l => simp at e1
        | some p =>
          rw [hx, Option.getD_some] at e1
          refine ⟨p, List.mem_filterMap.2 ⟨some p, hx ▸ List.getElem_mem _, rfl⟩, ?_⟩
          rw [e1, okRows_map]
          exact hmem
      generalize alts.filterMap id = plans at hplan hans hO
      unfold Output at hO
      split at hO
      · rename_i p
        obtain rfl := hO.unique (C44_single p)
        obtain ⟨i, L, rows, e1, e2, e3⟩ := hplan _ (List.mem_singleton.2 rfl)
        refine ⟨rows, e1, e2, fun row hr => ⟨i, e3 row hr⟩, fun i L row hL h1 h2 => ?_⟩
        obtain ⟨p, hpm, hr⟩ := hans i L row hL h1 h2
        rw [List.mem_singleton] at hpm
        subst hpm
        rw [e1, okRows_map] at hr
        exact hr
      · rename_i ps' hne
        have hitems : ∀ x ∈ out, ∃ p ∈ plans, x ∈ p := by
          intro x hx
          rw [hO.unique (planNextMulti_runs plans [])] at hx
          obtain ⟨p, hp1, hp2⟩ := List.mem_flatten.1 (uniqItems_mem _ _ x hx)
          exact ⟨p, hp1, hp2⟩
        obtain ⟨out', h1, h2, h3⟩ := C44_disjunction plans
        obtain rfl := hO.unique h1
        refine ⟨okRows out, all_ok fun x hx => ?_, h2, fun row hr => ?_, fun i L row hL h4 h5 => (h3 row).2 (hans i L row hL h4 h5)⟩
        · obtain ⟨p, hp1, hp2⟩ := hitems x hx
          obtain ⟨_, _, rows, rfl, _⟩ := hplan p hp1
          obtain ⟨a, _, rfl⟩ := List.mem_map.1 hp2
          exact ⟨a, rfl⟩
        · obtain ⟨p, hp1, hp2⟩ := (h3 row).1 hr
          obtain ⟨i, L, rows, rfl, _, e3⟩ := hplan p hp1
          rw [okRows_map] at hp2
          exact ⟨i, e3 row hp2⟩

/-- If answers never use the same match for two nodes, the results are exactly the answers. -/
theorem C101_exact_partial (hco : CorpusOk ops env g r th order Ec D Rg) (hdb : DbOk db r De Re) {text : Str} {e : Parse.Q}
    {ps : List Parse.PTok} {tree : Parse.Disj} (hp : Parse.parseQuery text = .ok e) (htree : Parse.Spec.Tree text ps tree) (hf : Parse.Spec.Flat tree)
    (doc : NsSpec Str Str) {qs : List QConj} (hqs : Aql.parse false doc e = .ok qs) (d : SMatch T (AnnoKey Str))
    {Ls : List (List (Aql.Occ (NsSpec Str Str)))} (hLs : Searches (Aql.alternatives e) Ls)
    (hok : ∀ (i : Nat) c L, (Aql.alternatives e)[i]? = some c → Ls[i]? = some L →
      Aql.NamesDistinct L ∧ AltOk db env g r th Ec Rg De Re (before Ls i) c L)
    (hdist : ∀ (i : Nat) L row, Ls[i]? = some L → AnswersAlt db env (AnnoStore.spec ops) r d (Aql.alternatives e) Ls i row → Distinct L row)
    {out : List (Except (Fail E) (Row T (AnnoKey Str)))} (hout : Answers (E := E) env g db th order doc d text out) :
    ∃ rows : List (Row T (AnnoKey Str)), out = rows.map .ok ∧ rows.Nodup ∧
      ∀ row, row ∈ rows ↔ ∃ i, AnswersAlt db env (AnnoStore.spec ops) r d (Aql.alternatives e) Ls i row := by
  have huniq : ∀ Ls', Searches (Aql.alternatives e) Ls' → Ls' = Ls := by
    intro Ls' h'
    refine List.ext_getElem? fun i => ?_
    have e1 := h'.length_eq
    have e2 := hLs.length_eq
    cases hi : (Aql.alternatives e)[i]? with
    | none =>
      rw [List.getElem?_eq_none_iff] at hi
      rw [List.getElem?_eq_none_iff.2 (by omega), List.getElem?_eq_none_iff.2 (by omega)]
    | some c =>
      obtain ⟨hlt, _⟩ := List.getElem?_eq_some_iff.1 hi
      have g1 := List.getElem?_eq_getElem (l := Ls') (i := i) (by omega)
      have g2 := List.getElem?_eq_getElem (l := Ls) (i := i) (by omega)
      rw [g1, g2, (forall₂_get h' i c _ hi g1).unique (forall₂_get hLs i c _ hi g2)]
  obtain ⟨Ls', h1, _, _, h3⟩ := C101_query_partial (E := E) hco hdb hp htree hf doc hqs d (by
    intro Ls' h' i c L hc hL
    rw [huniq Ls' h'] at hL ⊢
    exact hok i c L hc hL)
  rw [huniq Ls' h1] at h3
  obtain ⟨rows, r1, r2, r3, r4⟩ := h3 out hout
  refine ⟨rows, r1, r2, fun row => ⟨r3 row, ?_⟩⟩
  rintro ⟨i, hi⟩
  obtain ⟨c, L, hc, hL, ht⟩ := hi
  exact r4 i L row hL ⟨c, L, hc, hL, ht⟩ (hdist i L row hL ⟨c, L, hc, hL, ht⟩)

/-- A pattern that does not compile in an alternative without operators makes the whole query fail with an error. With operators this is not so,
see `C101_pattern_fails`. -/
theorem C101_refused_partial (htok : g.anyTokens ≠ none) {text : Str} {e : Parse.Q} {ps : List Parse.PTok} {tree : Parse.Disj}
    (hp : Parse.parseQuery text = .ok e) (htree : Parse.Spec.Tree text ps tree) (hf : Parse.Spec.Flat tree) (doc : NsSpec Str Str)
    (hnames : ∀ c ∈ Aql.alternatives e, ∃ L, Aql.IsNodeList c L ∧ Aql.NamesDistinct L) {c : List Parse.QLit} (hc : c ∈ Aql.alternatives e)
    (hops : ∀ l ∈ c, l.isBin = false ∧ l.isUn = false) {L : List (Aql.Occ (NsSpec Str Str))} (hL : Aql.IsNodeList c L)
    {o : Aql.Occ (NsSpec Str Str)} (ho : o ∈ L) (hopt : o.optional = false) {p : Str} (hpat : NodeSearch.patternOf o.spec = some p)
    (hcomp : env.compile p = none) (d : SMatch T (AnnoKey Str)) :
    Refused (E := E) env g doc text ∧ ∀ out, ¬ Answers (E := E) env g db th order doc d text out := by
  obtain ⟨i, hi⟩ := List.mem_iff_getElem?.1 hc
  have key : ∀ qs, Aql.parse false doc e = .ok qs → ∃ q, qs[i]? = some q ∧ q.bins = [] ∧ q.uns = [] ∧
      ∀ us : List (Nat × (SMatch T (AnnoKey Str) → Except (Fail E) Bool)), searches (E := E) env g (nodesOf us q) = .error .regex := by
    intro qs hqs
    obtain ⟨hlen, htr⟩ := Aql.C69_query_partial doc e qs hqs hnames
    obtain ⟨hlt, _⟩ := List.getElem?_eq_some_iff.1 hi
    have g1 := List.getElem?_eq_getElem (l := qs) (i := i) (by omega)
    obtain ⟨L', hL', ht⟩ := htr i c _ hi g1
    rw [hL'.unique hL] at ht
    obtain ⟨h1, h2⟩ := operators_nil ht hops
    refine ⟨_, g1, h1, h2, fun us => ?_⟩
    cases hS : searches (E := E) env g (nodesOf us qs[i]) with
    | error err => rw [searches_error htok hS]
    | ok S =>
      exfalso
      obtain ⟨n, hn⟩ := List.mem_iff_getElem?.1 ho
      have := (C98_searches.1 ⟨S, hS⟩ _ (List.mem_of_getElem? ((node_some ht).2 ⟨o, hn, hopt, rfl⟩))).1 p hpat
      exact this hcomp
  constructor
  · intro e' he' qs hqs
    rw [hp] at he'
    cases he'
    obtain ⟨q, hq, h1, h2, h3⟩ := key qs hqs
    refine ⟨q, List.mem_of_getElem? hq, ?_⟩
    exact .inr ⟨h1, h2, h3 []⟩
  · rintro out ⟨he', hqs, hf, _⟩
    rw [hp] at he'
    cases he'
    obtain ⟨q, hq, h1, h2, h3⟩ := key _ hqs
    obtain ⟨hlt, _⟩ := List.getElem?_eq_some_iff.1 hq
    have hlen := hf.length_eq
    obtain ⟨x, hx⟩ : ∃ x, _ = some x := ⟨_, List.getElem?_eq_getElem (i := i) (by rw [← hlen]; exact hlt)⟩
    have hr := forall₂_get hf i q x hq hx
    cases hr with
    | plan _ _ _ _ _ hS _ => obtain ⟨_, hS⟩ := planned_searches hS; rw [h3] at hS; cases hS
    | failed _ _ hS hno => rw [h3] at hS; cases hS; simp [h1, h2] at hno
    | missing _ hu => simp [lacksAny, h1, h2] at hu

end
end Answer
