import Verif.Answer.Graph

/-!
# C109: graphs for queries
-/

set_option linter.unusedSectionVars false

namespace Subgraph

open SubgraphSpec

/-! ### Extraction without token helper or ordering component -/

section
variable {N S W K : Type} [LinearOrder N] [LinearOrder S] [OrderBot S] [LinearOrder W] [DecidableEq K]
variable {src : Src N S W} {A : N → AnnoKey S → W → Prop} {EC : Component CKind → N → N → Prop}
  {B : Component CKind → N → N → AnnoKey S → W → Prop}
variable {L R : N → N → Prop} {E : GStore N → N → N → Prop} {O : N → N → Prop}

theorem extract_plain (hs : src.Is A EC B) {th : Option (TokenHelper N)} {ord : Option (GStore N)} (hn : th = none ∨ ord = none)
    (hth : ∀ t, th = some t → t.Ok L R E) : ∀ (l : List (N × K)), ∃ st : State N S W K,
    l.foldlM (extract src th ord) ⟨[], none, Sub.new⟩ = some st ∧ st.seen = (firsts l).reverse ∧
    st.g.Has (fun n k v => (∃ x, (n, x) ∈ l) ∧ A n k v) (fun _ _ _ => False) (fun _ _ _ _ _ => False) := by
  intro l
  induction l using List.reverseRecOn with
  | nil => exact ⟨_, rfl, rfl, has_congr has_new (by simp) (fun _ _ _ => Iff.rfl) (fun _ _ _ _ _ => Iff.rfl)⟩
  | append_singleton l m ih =>
    obtain ⟨st, s1, s2, s3⟩ := ih
    have hmem : m ∈ st.seen ↔ m ∈ l := by rw [s2, List.mem_reverse, mem_firsts]
    have hV : ∀ n (k : AnnoKey S) (v : W), (((∃ x, (n, x) ∈ l) ∨ n = m.1) ∧ A n k v) ↔ ((∃ x, (n, x) ∈ l ++ [m]) ∧ A n k v) := by
      intro n k v
      refine and_congr_left fun _ => ?_
      constructor
      · rintro (⟨x, hx⟩ | rfl)
        · exact ⟨x, by simp [hx]⟩
        · exact ⟨m.2, by simp⟩
      · rintro ⟨x, hx⟩
        rcases List.mem_append.1 hx with hx | hx
        · exact Or.inl ⟨x, hx⟩
        · right
          have := List.mem_singleton.1 hx
          rw [← this]
    rw [List.foldlM_append, s1]
    simp only [Option.bind_eq_bind, Option.bind_some, List.foldlM_cons, List.foldlM_nil, Option.bind_some]
    by_cases hm : m ∈ l
    · refine ⟨st, by simp only [extract, if_pos (hmem.2 hm)]; rfl, by rw [firsts_snoc, if_pos hm]; exact s2,
        has_congr s3 (fun n k v => ?_) (fun _ _ _ => Iff.rfl) (fun _ _ _ _ _ => Iff.rfl)⟩
      rw [← hV]
      refine and_congr_left fun _ => ⟨Or.inl, ?_⟩
      rintro (h | rfl)
      · exact h
      · exact ⟨m.2, hm⟩
    · have key : ∃ p, extract src th ord st m = some ⟨m :: st.seen, p, createNode src st.g m.1⟩ := by
        unfold extract
        rw [if_neg fun h => hm (hmem.1 h)]
        cases th with
        | none => exact ⟨_, rfl⟩
        | some t =>
          rcases hn with hn | rfl
          · cases hn
          obtain ⟨b, b1, _⟩ := TokenHelper.isToken_spec (hth t rfl) m.1
          simp only [b1]
          cases b
          · exact ⟨_, rfl⟩
          · exact ⟨some m.1, rfl⟩
      obtain ⟨p, hp⟩ := key
      refine ⟨_, by rw [hp]; rfl, ?_, has_congr (createNode_has hs s3 m.1) hV (fun _ _ _ => Iff.rfl) (fun _ _ _ _ _ => Iff.rfl)⟩
      rw [firsts_snoc, if_neg hm]
      simp [s2]

/-- The extraction with or without token helper and ordering component: the result is the induced subgraph of the selected nodes. Only with
both of them there are edges for gaps. -/
theorem create_any (hs : src.Is A EC B) {th : Option (TokenHelper N)} {ord : Option (GStore N)}
    (hth : ∀ t, th = some t → t.Ok L R E) (ho : ∀ o, ord = some o → (∃ D Rg, o.Is O D Rg) ∧ Linear.Chains O) {idx : List Nat}
    {it : List (List (N × K))} (hlab : ∀ r ∈ it, ∀ i ∈ idx, ∀ m, r[i]? = some m → ∃ k v, A m.1 k v) :
    ∃ g, create src th ord idx it = some g ∧
      Induced g (fun n => ∃ r ∈ it, ∃ i ∈ idx, ∃ x, r[i]? = some (n, x)) A EC B
        (fun a b => ∃ t, th = some t ∧ ord ≠ none ∧
          GapNext O (toks (t.Tok E) (firsts (it.flatMap fun r => idx.filterMap fun i => r[i]?))) a b) := by
  by_cases hn : th = none ∨ ord = none
  · obtain ⟨st, s1, s2, s3⟩ := extract_plain hs hn hth (selected idx it)
    have hm : ∀ m : N × K, m ∈ selected idx it ↔ ∃ r ∈ it, ∃ i ∈ idx, r[i]? = some m := by
      intro m; simp [selected]
    have hsel : ∀ n, (∃ x, (n, x) ∈ selected idx it) ↔ ∃ r ∈ it, ∃ i ∈ idx, ∃ x, r[i]? = some (n, x) := by
      intro n
      constructor
      · rintro ⟨x, hx⟩
        obtain ⟨r, hr, i, hi, he⟩ := (hm _).1 hx
        exact ⟨r, hr, i, hi, x, he⟩
      · rintro ⟨r, hr, i, hi, x, he⟩
        exact ⟨x, (hm _).2 ⟨r, hr, i, hi, he⟩⟩
    have hP : ∀ n, (∃ x, (n, x) ∈ selected idx it) ↔ (∃ x, (n, x) ∈ selected idx it) ∧ ∃ k v, A n k v := by
      refine fun n => ⟨fun h => ⟨h, ?_⟩, fun h => h.1⟩
      obtain ⟨r, hr, i, hi, x, he⟩ := (hsel n).1 h
      exact hlab r hr i hi _ he
    obtain ⟨g, g1, g2⟩ := allEdges_has hs hP (T0 := fun _ _ _ => False) (st.seen.map Prod.fst) st.g (fun _ _ _ => False)
      (has_congr s3 (fun _ _ _ => Iff.rfl) (fun _ _ _ => by simp) (fun _ _ _ _ _ => by simp))
    have hseen : ∀ x, x ∈ st.seen.map Prod.fst ↔ ∃ y, (x, y) ∈ selected idx it := by
      intro x
      rw [s2, List.mem_map]
      constructor
      · rintro ⟨⟨a, b⟩, hm, rfl⟩
        exact ⟨b, by simpa [mem_firsts] using hm⟩
      · rintro ⟨y, hy⟩
        exact ⟨(x, y), by simpa [mem_firsts] using hy, rfl⟩
    refine ⟨g, by simp only [create, s1, g1], fun n k v => ?_, fun c a b => ?_, fun c a b k v => ?_⟩
    · rw [g2.val, hsel]
    · rw [g2.edge, hseen, hsel, hsel, isIndexComp_iff]
      constructor
      · rintro (h | h | ⟨h1, h2, h3, h4⟩)
        · exact h.elim
        · exact h.elim
        · exact .inr ⟨h2, h1, h4, h3⟩
      · rintro (⟨_, t, h1, h2, _⟩ | ⟨h1, h2, h3, h4⟩)
        · rcases hn with hn | hn
          · rw [hn] at h1; cases h1
          · exact absurd hn h2
        · exact .inr (.inr ⟨h2, h1, h4, h3⟩)
    · rw [g2.eval, hseen, hsel, hsel, isIndexComp_iff]
      constructor
      · rintro ⟨h | ⟨h1, h2, h3, h4⟩, h5⟩
        · exact h.elim
        · exact ⟨h2, h1, h4, h5⟩
      · rintro ⟨h1, h2, h3, h4⟩
        exact ⟨.inr ⟨h2, h1, hs.edgeAnnoEdge c a b k v h4, h3⟩, h4⟩
  · rw [not_or] at hn
    obtain ⟨t, rfl⟩ := Option.ne_none_iff_exists'.1 hn.1
    obtain ⟨od, rfl⟩ := Option.ne_none_iff_exists'.1 hn.2
    obtain ⟨⟨D, Rg, o1⟩, o2⟩ := ho od rfl
    obtain ⟨g, g1, g2⟩ := C55_extract hs (hth t rfl) o1 o2 (idx := idx) (it := it) hlab
    refine ⟨g, g1, g2.label, fun c a b => ?_, g2.edgeLabel⟩
    rw [g2.edge]
    refine or_congr_left (and_congr_right fun _ => ⟨fun h => ⟨t, rfl, hn.2, h⟩, ?_⟩)
    rintro ⟨t', h1, _, h⟩
    cases h1
    exact h

end
end Subgraph

namespace Answer

open Whole SubgraphSpec

/-! ## Specification -/

section
variable {T : Type} [LinearOrder T]

/-- A node is matched by the query: it is at the place of a node search in an answer, where the search is not optional. -/
def Matched (k : Known T) (d : SMatch T (AnnoKey Str)) (alts : List (List Parse.QLit)) (Ls : List (List (Aql.Occ (NsSpec Str Str))))
    (n : T) : Prop :=
  ∃ (i : Nat) (L : List (Aql.Occ (NsSpec Str Str))) (row : Row T (AnnoKey Str)) (p : Nat) (oc : Aql.Occ (NsSpec Str Str))
    (x : SMatch T (AnnoKey Str)), Ls[i]? = some L ∧ AnswersAlt k.c.db k.c.env (AnnoStore.spec k.ops) k.r d alts Ls i row ∧
    L[p]? = some oc ∧ oc.optional = false ∧ row[p]? = some x ∧ x.node = n

/-- There is an answer with an optional node search before one that is not optional. -/
def HasGap (k : Known T) (d : SMatch T (AnnoKey Str)) (alts : List (List Parse.QLit)) (Ls : List (List (Aql.Occ (NsSpec Str Str)))) : Prop :=
  ∃ (i : Nat) (L : List (Aql.Occ (NsSpec Str Str))) (row : Row T (AnnoKey Str)) (p q : Nat) (oc oc' : Aql.Occ (NsSpec Str Str)),
    Ls[i]? = some L ∧ AnswersAlt k.c.db k.c.env (AnnoStore.spec k.ops) k.r d alts Ls i row ∧
    L[p]? = some oc ∧ oc.optional = true ∧ L[q]? = some oc' ∧ oc'.optional = false ∧ p < q

/-- The name of a corpus node without the old prefix. -/
def CorpusName (id name : Str) : Prop := id = "salt:/".toList ++ name ∨ (¬ "salt:/".toList <+: id) ∧ name = id

/-- The node has the type `node` or `datasource` and is part of a node with one of the names, directly or not. -/
def InSubcorpus (k : Known T) (ids : List Str) (n : T) : Prop :=
  ∃ id ∈ ids, ∃ name, CorpusName id name ∧ ∃ c part len, AnnoStore.spec k.ops c (AnnoKey.mk "annis".toList "node_name".toList) = some name ∧
    (AnnoStore.spec k.ops n (AnnoKey.mk "annis".toList "node_type".toList) = some "node".toList ∨
      AnnoStore.spec k.ops n (AnnoKey.mk "annis".toList "node_type".toList) = some "datasource".toList) ∧
    k.c.db.partOf = some part ∧ 1 ≤ len ∧ Walk.SimplePath (k.r.edge part) n c len

/-! ## Assumptions -/

/-- The graph that is read by the extraction has the labels of the corpus and the edges `EC` with the labels `B`; token helper and ordering
component are correct if they are there. -/
structure OrigOk (k : Known T) (o : Orig T) (EC : Component CKind → T → T → Prop) (B : Component CKind → T → T → AnnoKey Str → Str → Prop)
    (Lt Rt : T → T → Prop) (Et : GStore T → T → T → Prop) (O : T → T → Prop) : Prop where
  src : o.src.Is (fun n a v => AnnoStore.spec k.ops n a = some v) EC B
  th : ∀ t, o.th = some t → t.Ok Lt Rt Et
  ord : ∀ g, o.ord = some g → (∃ D Rg, g.Is O D Rg) ∧ Linear.Chains O

/-- The names that the searches use. -/
structure StdNames (env : NsEnv Str Str) : Prop where
  annis : env.annis = "annis".toList
  nodeType : env.nodeType = "node_type".toList
  nodeVal : env.nodeVal = "node".toList

/-- The type of a component is the wanted one, if there is one. -/
def TypeOk (ty : Option CKind) (c : Component CKind) : Prop := ∀ t, ty = some t → c.ty = t

/-- The result of a function that gives a graph: it is not an error, and it is the induced subgraph of the nodes `Res` with the edges of the
wanted components. Edges of the component for gaps connect only such nodes that have a distance of more than 1 in the text. -/
def GraphOf (k : Known T) (ty : Option CKind) (EC : Component CKind → T → T → Prop) (B : Component CKind → T → T → AnnoKey Str → Str → Prop)
    (O : T → T → Prop) (Res : T → Prop) (res : Option (Subgraph.Sub T Str Str)) : Prop :=
  ∃ g G, res = some g ∧ Induced g Res (fun n a v => AnnoStore.spec k.ops n a = some v) (fun c a b => TypeOk ty c ∧ EC c a b)
    (fun c a b key v => TypeOk ty c ∧ B c a b key v) G ∧
    ∀ a b, G a b → Res a ∧ Res b ∧ ∃ len, 1 < len ∧ Walk.WalkLen O a b len

/-! ## Lemmas -/

section
variable {E : Type} {k : Known T} {o : Orig T} {d : SMatch T (AnnoKey Str)} {EC : Component CKind → T → T → Prop}
  {B : Component CKind → T → T → AnnoKey Str → Str → Prop} {Lt Rt : T → T → Prop} {Et : GStore T → T → T → Prop} {O : T → T → Prop}

theorem allOk_map {A F : Type} (l : List A) : allOk (l.map (Except.ok (ε := F))) = some l := by
  induction l with
  | nil => rfl
  | cons a l ih => simp [allOk, ih]

theorem onlyType_is {src : Subgraph.Src T Str Str} {A : T → AnnoKey Str → Str → Prop} (h : src.Is A EC B) (ty : Option CKind) :
    (onlyType ty src).Is A (fun c a b => TypeOk ty c ∧ EC c a b) (fun c a b key v => TypeOk ty c ∧ B c a b key v) := by
  have hmem : ∀ c, c ∈ (onlyType ty src).comps ↔ c ∈ src.comps ∧ TypeOk ty c.1 := by
    intro c
    unfold onlyType TypeOk
    rw [List.mem_filter]
    cases ty <;> simp
  refine ⟨h.annos, h.annoFun, ?_, ?_, ?_, ?_, ?_, ?_⟩
  · intro c hc
    obtain ⟨h1, h2⟩ := (hmem c).1 hc
    obtain ⟨D, R, hg⟩ := h.gs c h1
    refine ⟨D, R, ?_⟩
    have : (fun a b => TypeOk ty c.1 ∧ EC c.1 a b) = EC c.1 := by
      funext a b
      simp [h2]
    rw [this]
    exact hg
  · intro c hc a b key v
    obtain ⟨h1, h2⟩ := (hmem c).1 hc
    rw [h.edgeAnnos c h1]
    simp [h2]
  · intro c a b key v v' h1 h2
    exact h.edgeAnnoFun c a b key v v' h1.2 h2.2
  · intro c a b key v h1
    exact ⟨h1.1, h.edgeAnnoEdge c a b key v h1.2⟩
  · intro c a h1
    exact h.irr c a h1.2
  · intro c a b h1
    obtain ⟨x, hx, rfl⟩ := h.all c a b h1.2
    exact ⟨x, (hmem x).2 ⟨hx, h1.1⟩, rfl⟩

theorem mem_toks {N K : Type} [LinearOrder N] {tok : N → Prop} {l : List (N × K)} {n : N} (h : n ∈ Subgraph.toks tok l) : ∃ x, (n, x) ∈ l := by
  unfold Subgraph.toks at h
  obtain ⟨h, _⟩ := List.mem_filter.1 h
  obtain ⟨⟨a, x⟩, hx, rfl⟩ := List.mem_map.1 h
  exact ⟨x, hx⟩

/-- The extraction for rows without errors. -/
theorem extractRows_graph (ho : OrigOk k o EC B Lt Rt Et O) (idx : List Nat) (ty : Option CKind) (rows : List (Row T (AnnoKey Str)))
    {Res : T → Prop} (hres : ∀ n, Res n ↔ ∃ row ∈ rows, ∃ i ∈ idx, ∃ x, row[i]? = some x ∧ x.node = n)
    (hlab : ∀ n, Res n → ∃ a v, AnnoStore.spec k.ops n a = some v) :
    GraphOf k ty EC B O Res (extractRows (E := E) o idx ty (rows.map .ok)) := by
  have hr : ∀ n, (∃ r ∈ rows.map (fun row => row.map fun m => (m.node, m.key)), ∃ i ∈ idx, ∃ x, r[i]? = some (n, x)) ↔ Res n := by
    intro n
    rw [hres]
    constructor
    · rintro ⟨r, hr, i, hi, x, hx⟩
      obtain ⟨row, hrow, rfl⟩ := List.mem_map.1 hr
      rw [List.getElem?_map, Option.map_eq_some_iff] at hx
      obtain ⟨y, hy, e⟩ := hx
      exact ⟨row, hrow, i, hi, y, hy, (Prod.mk.inj e).1⟩
    · rintro ⟨row, hrow, i, hi, x, hx, rfl⟩
      exact ⟨_, List.mem_map_of_mem hrow, i, hi, x.key, by rw [List.getElem?_map, hx]; rfl⟩
  obtain ⟨g, g1, g2⟩ := Subgraph.create_any (onlyType_is ho.src ty) ho.th ho.ord (idx := idx)
    (it := rows.map fun row => row.map fun m => (m.node, m.key)) (fun r hr' i hi m hm => hlab _ ((hr _).1 ⟨r, hr', i, hi, m.2, hm⟩))
  obtain ⟨l1, l2, l3⟩ := g2
  simp only [hr] at l1 l2 l3
  refine ⟨g, _, ?_, ⟨l1, l2, l3⟩, ?_⟩
  · unfold extractRows
    rw [allOk_map]
    exact g1
  · rintro a b ⟨t, _, _, h1, h2⟩
    have hs : ∀ n, n ∈ Subgraph.toks (t.Tok Et) (firsts ((rows.map fun row => row.map fun m => (m.node, m.key)).flatMap
        fun r => idx.filterMap fun i => r[i]?)) → Res n := by
      intro n hn
      obtain ⟨x, hx⟩ := mem_toks hn
      rw [mem_firsts, List.mem_flatMap] at hx
      obtain ⟨r, hr', hx⟩ := hx
      rw [List.mem_filterMap] at hx
      obtain ⟨i, hi, hx⟩ := hx
      exact (hr n).1 ⟨r, hr', i, hi, x, hx⟩
    obtain ⟨p, q, e⟩ := h1
    exact ⟨hs a (by rw [e]; simp), hs b (by rw [e]; simp), h2⟩

theorem allOk_none {A F : Type} {l : List (Except F A)} : allOk l = none ↔ ∃ e, .error e ∈ l := by
  induction l with
  | nil => simp [allOk]
  | cons a l ih =>
    cases a with
    | error e => simp [allOk]
    | ok a => simp [allOk, ih]

/-- C109: an error in one of the results is an error of the extraction, there is no graph for the other results. -/
theorem C109_errors (o : Orig T) (idx : List Nat) (ty : Option CKind) (out : List (Except (Fail E) (Row T (AnnoKey Str))))
    (e : Fail E) (h : .error e ∈ out) : extractRows o idx ty out = none := by
  unfold extractRows
  rw [allOk_none.2 ⟨e, h⟩]

/-- The results of several alternatives, if the rows of each one are known. -/
theorem output_rows {c : Corpus T} {qs : List QConj} {P P' : Nat → Row T (AnnoKey Str) → Prop}
    (h : ∀ (i : Nat) q, qs[i]? = some q → (∃ x, AltRows (E := E) c.env c.g c.db c.th c.order d q x) ∧
      ∀ x, AltRows (E := E) c.env c.g c.db c.th c.order d q x → ∃ rows : List (Row T (AnnoKey Str)), x.getD [] = rows.map .ok ∧ rows.Nodup ∧
        (∀ row ∈ rows, P i row) ∧ ∀ row, P' i row → row ∈ rows) :
    (∃ alts out, List.Forall₂ (AltRows (E := E) c.env c.g c.db c.th c.order d) qs alts ∧ Output (alts.filterMap id) out) ∧
    ∀ alts out, List.Forall₂ (AltRows (E := E) c.env c.g c.db c.th c.order d) qs alts → Output (alts.filterMap id) out →
      ∃ rows : List (Row T (AnnoKey Str)), out = rows.map .ok ∧ (∀ row ∈ rows, ∃ i q, qs[i]? = some q ∧ P i row) ∧
        ∀ (i : Nat) q row, qs[i]? = some q → P' i row → row ∈ rows := by
  constructor
  · obtain ⟨alts, halts⟩ : ∃ alts, List.Forall₂ (AltRows (E := E) c.env c.g c.db c.th c.order d) qs alts :=
      forall₂_exists fun i q hq => (h i q hq).1
    have : ∃ out, Output (alts.filterMap id) out := by
      unfold Output
      split
      · exact ⟨_, C44_single _⟩
      · exact ⟨_, planNextMulti_runs _ _⟩
    obtain ⟨out, hout⟩ := this
    exact ⟨alts, out, halts, hout⟩
  · intro alts out halts hO
    have hla := halts.length_eq
    have hplan : ∀ p ∈ alts.filterMap id, ∃ rows : List (Row T (AnnoKey Str)), p = rows.map .ok ∧
        ∀ row ∈ rows, ∃ i q, qs[i]? = some q ∧ P i row := by
      intro p hp
      rw [List.mem_filterMap] at hp
      obtain ⟨x, hx, rfl⟩ := hp
      obtain ⟨i, hi⟩ := List.mem_iff_getElem?.1 hx
      obtain ⟨hlt, _⟩ := List.getElem?_eq_some_iff.1 hi
      have gq := List.getElem?_eq_getElem (l := qs) (i := i) (by omega)
      obtain ⟨rows, e1, e2, e3, _⟩ := (h i _ gq).2 _ (forall₂_get halts i _ _ gq hi)
      exact ⟨rows, e1, fun row hr => ⟨i, _, gq, e3 row hr⟩⟩
    have hans : ∀ (i : Nat) q row, qs[i]? = some q → P' i row → ∃ p ∈ alts.filterMap id, row ∈ okRows p := by
      intro i q row hq hP
      obtain ⟨hlt, _⟩ := List.getElem?_eq_some_iff.1 hq
      have ga := List.getElem?_eq_getElem (l := alts) (i := i) (by omega)
      obtain ⟨rows, e1, _, _, e4⟩ := (h i q hq).2 _ (forall₂_get halts i _ _ hq ga)
      have hmem := e4 row hP
      cases hx : alts[i] with
      | none =>
        rw [hx, Option.getD_none] at e1
        cases rows with
        | nil => simp at hmem
        | cons a l => simp at e1
      | some p =>
        rw [hx, Option.getD_some] at e1
        refine ⟨p, List.mem_filterMap.2 ⟨some p, hx ▸ List.getElem_mem _, rfl⟩, ?_⟩
        rw [e1, okRows_map]
        exact hmem
    generalize alts.filterMap id = plans at hplan hans hO
    unfold Output at hO
    split at hO
    · rename_i p
      obtain rfl := hO.unique (C44_single p)
      obtain ⟨rows, e1, e3⟩ := hplan _ (List.mem_singleton.2 rfl)
      refine ⟨rows, e1, e3, fun i q row hq h2 => ?_⟩
      obtain ⟨p, hpm, hr⟩ := hans i q row hq h2
      rw [List.mem_singleton] at hpm
      subst hpm
      rw [e1, okRows_map] at hr
      exact hr
    · have hitems : ∀ x ∈ out, ∃ p ∈ plans, x ∈ p := by
        intro x hx
        rw [hO.unique (planNextMulti_runs plans [])] at hx
        obtain ⟨p, hp1, hp2⟩ := List.mem_flatten.1 (uniqItems_mem _ _ x hx)
        exact ⟨p, hp1, hp2⟩
      obtain ⟨out', h1, h2, h3⟩ := C44_disjunction plans
      obtain rfl := hO.unique h1
      refine ⟨okRows out, all_ok fun x hx => ?_, fun row hr => ?_, fun i q row hq h5 => (h3 row).2 (hans i q row hq h5)⟩
      · obtain ⟨p, hp1, hp2⟩ := hitems x hx
        obtain ⟨rows, rfl, _⟩ := hplan p hp1
        obtain ⟨a, _, rfl⟩ := List.mem_map.1 hp2
        exact ⟨a, rfl⟩
      · obtain ⟨p, hp1, hp2⟩ := (h3 row).1 hr
        obtain ⟨rows, rfl, e3⟩ := hplan p hp1
        rw [okRows_map] at hp2
        exact e3 row hp2

/-- A node that is found by a search has a label. -/
theorem finds_labelled {env : NsEnv Str Str} {m : AnnoStore.Spec T Str Str} {r : Rels T Str Str} {s : NsSpec Str Str}
    {x : SMatch T (AnnoKey Str)} (h : Finds env m r s x) : ∃ a v, m x.node a = some v := by
  obtain ⟨a, ha, _⟩ := h
  have hit : ∀ {ns name P}, AnnoStore.Hit m ns name P x.node a → ∃ a v, m x.node a = some v := by
    rintro ns name P ⟨_, _, v, hv, _⟩
    exact ⟨a, v, hv⟩
  cases s <;> first | exact hit ha | exact hit ha.1

/-! ## Queries -/

section
variable {doc : NsSpec Str Str} {text : Str} {e : Parse.Q} {ps : List Parse.PTok} {tree : Parse.Disj} {qs : List QConj}
  {Ls : List (List (Aql.Occ (NsSpec Str Str)))}

theorem searches_unique {alts : List (List Parse.QLit)} {Ls' : List (List (Aql.Occ (NsSpec Str Str)))} (hLs : Searches alts Ls)
    (h' : Searches alts Ls') : Ls' = Ls := by
  refine List.ext_getElem? fun i => ?_
  have e1 := h'.length_eq
  have e2 := hLs.length_eq
  cases hi : alts[i]? with
  | none =>
    rw [List.getElem?_eq_none_iff] at hi
    rw [List.getElem?_eq_none_iff.2 (by omega), List.getElem?_eq_none_iff.2 (by omega)]
  | some c =>
    obtain ⟨hlt, _⟩ := List.getElem?_eq_some_iff.1 hi
    have g1 := List.getElem?_eq_getElem (l := Ls') (i := i) (by omega)
    have g2 := List.getElem?_eq_getElem (l := Ls) (i := i) (by omega)
    rw [g1, g2, (forall₂_get h' i c _ hi g1).unique (forall₂_get hLs i c _ hi g2)]

theorem le_maxNodes {q : QConj} : ∀ {qs : List QConj}, q ∈ qs → q.nodes.length ≤ maxNodes qs
  | [], h => by simp at h
  | a :: l, h => by
    rcases List.mem_cons.1 h with rfl | h
    · exact le_max_left _ _
    · exact le_trans (le_maxNodes h) (le_max_right _ _)

/-- The number of columns of an answer is at most the number of nodes of its alternative. -/
theorem answer_length (hqs : Aql.parse false doc e = .ok qs) (hLs : Searches (Aql.alternatives e) Ls)
    (hnames : ∀ L ∈ Ls, Aql.NamesDistinct L) {i : Nat} {row : Row T (AnnoKey Str)}
    (h : AnswersAlt k.c.db k.c.env (AnnoStore.spec k.ops) k.r d (Aql.alternatives e) Ls i row) : row.length ≤ maxNodes qs := by
  obtain ⟨c, L, hc, hL, ht⟩ := h
  obtain ⟨hlen, htr⟩ := Aql.C69_query_partial doc e qs hqs fun c hc => by
    obtain ⟨i, hi⟩ := List.mem_iff_getElem?.1 hc
    obtain ⟨hlt, _⟩ := List.getElem?_eq_some_iff.1 hi
    have g2 := List.getElem?_eq_getElem (l := Ls) (i := i) (by have := hLs.length_eq; omega)
    exact ⟨_, forall₂_get hLs i c _ hi g2, hnames _ (List.mem_of_getElem? g2)⟩
  obtain ⟨hlt, _⟩ := List.getElem?_eq_some_iff.1 hc
  have gq := List.getElem?_eq_getElem (l := qs) (i := i) (by omega)
  obtain ⟨L', hL', htr⟩ := htr i c _ hc gq
  rw [hL'.unique (forall₂_get hLs i c L hc hL)] at htr
  have h1 : qs[i].nodes.length = L.length := by rw [htr.nodes, List.length_mapIdx]
  have h2 := le_maxNodes (List.mem_of_getElem? gq)
  by_contra hcon
  have := (ht.length (maxNodes qs)).1 (by omega)
  obtain ⟨n, oc, hn, ho, _⟩ := this
  obtain ⟨hlt, _⟩ := List.getElem?_eq_some_iff.1 ho
  omega

/-- **C109** for `subgraph_for_query`, restricted as C101: the function gives a graph, and the graph is the induced subgraph of a set of nodes
that has all nodes of answers with different matches for different nodes, and no nodes that are not in an answer. The columns of
optional searches count as part of an answer (`C109_optional_fails`). -/
theorem C109_query_partial (ho : OrigOk k o EC B Lt Rt Et O) (hp : Parse.parseQuery text = .ok e) (htree : Parse.Spec.Tree text ps tree)
    (hf : Parse.Spec.Flat tree) (hqs : Aql.parse false doc e = .ok qs) (hLs : Searches (Aql.alternatives e) Ls)
    (hok : ∀ (i : Nat) c L, (Aql.alternatives e)[i]? = some c → Ls[i]? = some L →
      Aql.NamesDistinct L ∧ AltOk k.c.db k.c.env k.c.g k.r k.c.th k.Ec k.Rg k.De k.Re (before Ls i) c L)
    (hd : (∃ L ∈ Ls, ∃ oc ∈ L, oc.optional = true) → ∃ a v, AnnoStore.spec k.ops d.node a = some v) (ty : Option CKind) :
    (∃ res, SubgraphForQuery (E := E) k.c o d doc text ty res) ∧
    ∀ res, SubgraphForQuery (E := E) k.c o d doc text ty res → ∃ Res, GraphOf k ty EC B O Res res ∧
      (∀ n, Res n → ∃ row, k.Answer d (Aql.alternatives e) Ls row ∧ ∃ x ∈ row, x.node = n) ∧
      ∀ (i : Nat) L row, Ls[i]? = some L → AnswersAlt k.c.db k.c.env (AnnoStore.spec k.ops) k.r d (Aql.alternatives e) Ls i row →
        Distinct L row → ∀ x ∈ row, Res x.node := by
  obtain ⟨Ls', h1, _, h2, h3⟩ := C101_query_partial (E := E) k.corpus k.db hp htree hf doc hqs d (by
    intro Ls' h' i c L hc hL
    rw [searches_unique hLs h'] at hL ⊢
    exact hok i c L hc hL)
  rw [searches_unique hLs h1] at h3
  have hnames : ∀ L ∈ Ls, Aql.NamesDistinct L := by
    intro L hL
    obtain ⟨i, hi⟩ := List.mem_iff_getElem?.1 hL
    obtain ⟨hlt, _⟩ := List.getElem?_eq_some_iff.1 hi
    exact (hok i _ L (List.getElem?_eq_getElem (by have := hLs.length_eq; omega)) hi).1
  constructor
  · obtain ⟨out, hout⟩ := h2
    cases hout with
    | mk hp' hqs' ha hO => exact ⟨_, .mk hp' hqs' (.mk ha hO)⟩
  · intro res hres
    cases hres with
    | mk hp' hqs' hx =>
      rw [hp] at hp'
      cases hp'
      rw [hqs] at hqs'
      cases hqs'
      cases hx with
      | mk ha hO =>
        obtain ⟨rows, rfl, _, r3, r4⟩ := h3 _ (.mk hp hqs ha hO)
        refine ⟨_, extractRows_graph ho _ ty rows (fun n => Iff.rfl) ?_, ?_, ?_⟩
        · rintro n ⟨row, hr, p, _, x, hx, rfl⟩
          obtain ⟨i, c, L, hc, hL, ht⟩ := r3 row hr
          obtain ⟨hlt, _⟩ := List.getElem?_eq_some_iff.1 hx
          obtain ⟨n, oc, hn, hoc, _⟩ := (ht.length p).1 hlt
          obtain ⟨hlt', _⟩ := List.getElem?_eq_some_iff.1 hoc
          have hp := List.getElem?_eq_getElem (l := L) (i := p) (by omega)
          cases hopt : L[p].optional with
          | false =>
            obtain ⟨y, hy, hF⟩ := ht.found p _ hp hopt
            rw [hx] at hy
            cases hy
            exact finds_labelled hF
          | true =>
            rw [ht.default p _ x hp hopt hx]
            exact hd ⟨L, List.mem_of_getElem? hL, _, List.mem_of_getElem? hp, hopt⟩
        · rintro n ⟨row, hr, p, _, x, hx, rfl⟩
          exact ⟨row, r3 row hr, x, List.mem_of_getElem? hx, rfl⟩
        · intro i L row hL hA hD x hx
          obtain ⟨p, hp⟩ := List.mem_iff_getElem?.1 hx
          obtain ⟨hlt, _⟩ := List.getElem?_eq_some_iff.1 hp
          exact ⟨row, r4 i L row hL hA hD, p, List.mem_range.2 (lt_of_lt_of_le hlt (answer_length hqs hLs hnames hA)), x, hp, rfl⟩

/-- **C109** for `subgraph_for_query` if answers never use the same match for two nodes: the nodes of the graph are the matched nodes. But if
there is an answer with an optional node search before another one, the node of the default match, which has nothing to do with the query, is
also in the graph. -/
theorem C109_query_exact_partial (ho : OrigOk k o EC B Lt Rt Et O) (hp : Parse.parseQuery text = .ok e) (htree : Parse.Spec.Tree text ps tree)
    (hf : Parse.Spec.Flat tree) (hqs : Aql.parse false doc e = .ok qs) (hLs : Searches (Aql.alternatives e) Ls)
    (hok : ∀ (i : Nat) c L, (Aql.alternatives e)[i]? = some c → Ls[i]? = some L →
      Aql.NamesDistinct L ∧ AltOk k.c.db k.c.env k.c.g k.r k.c.th k.Ec k.Rg k.De k.Re (before Ls i) c L)
    (hdist : ∀ (i : Nat) L row, Ls[i]? = some L → AnswersAlt k.c.db k.c.env (AnnoStore.spec k.ops) k.r d (Aql.alternatives e) Ls i row → Distinct L row)
    (hd : (∃ L ∈ Ls, ∃ oc ∈ L, oc.optional = true) → ∃ a v, AnnoStore.spec k.ops d.node a = some v) {ty : Option CKind}
    {res : Option (Subgraph.Sub T Str Str)} (hres : SubgraphForQuery (E := E) k.c o d doc text ty res) :
    GraphOf k ty EC B O (fun n => Matched k d (Aql.alternatives e) Ls n ∨ (n = d.node ∧ HasGap k d (Aql.alternatives e) Ls)) res := by
  obtain ⟨_, h2⟩ := C109_query_partial (E := E) ho hp htree hf hqs hLs hok hd ty
  obtain ⟨Res, h3, h4, h5⟩ := h2 res hres
  have : Res = fun n => Matched k d (Aql.alternatives e) Ls n ∨ (n = d.node ∧ HasGap k d (Aql.alternatives e) Ls) := by
    funext n
    refine propext ⟨fun h => ?_, ?_⟩
    · obtain ⟨row, ⟨i, c, L, hc, hL, ht⟩, x, hx, rfl⟩ := h4 n h
      obtain ⟨p, hx⟩ := List.mem_iff_getElem?.1 hx
      obtain ⟨hlt, _⟩ := List.getElem?_eq_some_iff.1 hx
      obtain ⟨q, oc, hn, hoc, hfalse⟩ := (ht.length p).1 hlt
      obtain ⟨hlt', _⟩ := List.getElem?_eq_some_iff.1 hoc
      have hp := List.getElem?_eq_getElem (l := L) (i := p) (by omega)
      cases hopt : L[p].optional with
      | false => exact .inl ⟨i, L, row, p, _, x, hL, ⟨c, L, hc, hL, ht⟩, hp, hopt, hx, rfl⟩
      | true =>
        refine .inr ⟨by rw [ht.default p _ x hp hopt hx], i, L, row, p, q, _, oc, hL, ⟨c, L, hc, hL, ht⟩, hp, hopt, hoc, hfalse, ?_⟩
        rcases Nat.lt_or_eq_of_le hn with h | rfl
        · exact h
        · rw [hp] at hoc
          cases hoc
          rw [hopt] at hfalse
          cases hfalse
    · rintro (⟨i, L, row, p, oc, x, hL, hA, _, _, hx, rfl⟩ | ⟨rfl, i, L, row, p, q, oc, oc', hL, hA, hoc, hopt, hoc', hfalse, hlt⟩)
      · exact h5 i L row hL hA (hdist i L row hL hA) x (List.mem_of_getElem? hx)
      · obtain ⟨c, L', hc, hL', ht⟩ := hA
        rw [hL] at hL'
        cases hL'
        have hlen := (ht.length p).2 ⟨q, oc', le_of_lt hlt, hoc', hfalse⟩
        have hx := List.getElem?_eq_getElem hlen
        have := h5 i L row hL ⟨c, L, hc, hL, ht⟩ (hdist i L row hL ⟨c, L, hc, hL, ht⟩) _ (List.getElem_mem hlen)
        rwa [ht.default p oc _ hoc hopt hx] at this
  rw [← this]
  exact h3

/-- **C109** for `subgraph_for_query` without optional node searches: the nodes of the graph are exactly the matched nodes. -/
theorem C109_matched_partial (ho : OrigOk k o EC B Lt Rt Et O) (hp : Parse.parseQuery text = .ok e) (htree : Parse.Spec.Tree text ps tree)
    (hf : Parse.Spec.Flat tree) (hqs : Aql.parse false doc e = .ok qs) (hLs : Searches (Aql.alternatives e) Ls)
    (hok : ∀ (i : Nat) c L, (Aql.alternatives e)[i]? = some c → Ls[i]? = some L →
      Aql.NamesDistinct L ∧ AltOk k.c.db k.c.env k.c.g k.r k.c.th k.Ec k.Rg k.De k.Re (before Ls i) c L)
    (hdist : ∀ (i : Nat) L row, Ls[i]? = some L → AnswersAlt k.c.db k.c.env (AnnoStore.spec k.ops) k.r d (Aql.alternatives e) Ls i row → Distinct L row)
    (hopt : ∀ L ∈ Ls, ∀ oc ∈ L, oc.optional = false) {ty : Option CKind}
    {res : Option (Subgraph.Sub T Str Str)} (hres : SubgraphForQuery (E := E) k.c o d doc text ty res) :
    GraphOf k ty EC B O (Matched k d (Aql.alternatives e) Ls) res := by
  have h := C109_query_exact_partial (E := E) ho hp htree hf hqs hLs hok hdist
    (fun ⟨L, hL, oc, hoc, h⟩ => by rw [hopt L hL oc hoc] at h; cases h) hres
  have e : (fun n => Matched k d (Aql.alternatives e) Ls n ∨ (n = d.node ∧ HasGap k d (Aql.alternatives e) Ls)) =
      Matched k d (Aql.alternatives e) Ls := by
    funext n
    refine propext ⟨?_, .inl⟩
    rintro (h | ⟨_, i, L, row, p, q, oc, oc', hL, _, hoc, h, _⟩)
    · exact h
    · rw [hopt L (List.mem_of_getElem? hL) oc (List.mem_of_getElem? hoc)] at h
      cases h
  rwa [e] at h

end

/-! ## Sub-corpora -/

theorem corpusName_iff (id name : Str) : CorpusName id name ↔ name = stripSalt id := by
  unfold CorpusName stripSalt
  by_cases h : "salt:/".toList <+: id
  · rw [if_pos (List.isPrefixOf_iff_prefix.2 h)]
    obtain ⟨r, rfl⟩ := h
    have e : List.drop 6 ("salt:/".toList ++ r) = r := List.drop_left (l₁ := "salt:/".toList)
    rw [e]
    constructor
    · rintro (h | h)
      · exact (List.append_cancel_left h).symm
      · exact absurd (List.prefix_append _ _) h.1
    · rintro rfl; exact .inl rfl
  · rw [if_neg fun h' => h (List.isPrefixOf_iff_prefix.1 h')]
    constructor
    · rintro (rfl | h')
      · exact absurd (List.prefix_append _ _) h
      · exact h'.2
    · rintro rfl; exact .inr ⟨h, rfl⟩

/-- The search for the name of a node. -/
def nameSpec (id : Str) : NsSpec Str Str := annisSpec "node_name".toList id

/-- The alternative of a sub-corpus as it would be in the text of a query: `annis:node_name="id" & spec & #2 @* #1`. -/
def partLits (id : Str) (spec : NsSpec Str Str) : List Parse.QLit :=
  [.bin (.lit spec 1 none false) (.other (.partOf .unbound)) (.lit (nameSpec id) 0 none false) false]

def partOccs (id : Str) (spec : NsSpec Str Str) : List (Aql.Occ (NsSpec Str Str)) := [⟨0, nameSpec id, none, false⟩, ⟨1, spec, none, false⟩]

theorem partOccs_get {id : Str} {spec : NsSpec Str Str} {i : Nat} {oc : Aql.Occ (NsSpec Str Str)} (h : (partOccs id spec)[i]? = some oc) :
    (i = 0 ∧ oc = ⟨0, nameSpec id, none, false⟩) ∨ (i = 1 ∧ oc = ⟨1, spec, none, false⟩) := by
  rcases i with _ | _ | i
  · simp only [partOccs, List.getElem?_cons_zero, Option.some.injEq] at h; exact .inl ⟨rfl, h.symm⟩
  · simp only [partOccs, List.getElem?_cons_succ, List.getElem?_cons_zero, Option.some.injEq] at h; exact .inr ⟨rfl, h.symm⟩
  · simp [partOccs] at h

theorem denotes_any {id : Str} {spec : NsSpec Str Str} {i : Nat} : Aql.Denotes 0 (partOccs id spec) (.lit spec 1 none false) i ↔ i = 1 := by
  constructor
  · rintro ⟨oc, h1, h2⟩
    rcases partOccs_get h1 with ⟨rfl, rfl⟩ | ⟨rfl, rfl⟩
    · cases h2
    · rfl
  · rintro rfl; exact ⟨_, rfl, rfl⟩

theorem denotes_corpus {id : Str} {spec : NsSpec Str Str} {i : Nat} :
    Aql.Denotes 0 (partOccs id spec) (.lit (nameSpec id) 0 none false) i ↔ i = 0 := by
  constructor
  · rintro ⟨oc, h1, h2⟩
    rcases partOccs_get h1 with ⟨rfl, rfl⟩ | ⟨rfl, rfl⟩
    · rfl
    · cases h2
  · rintro rfl; exact ⟨_, rfl, rfl⟩

theorem partQuery_translated (id : Str) (spec : NsSpec Str Str) :
    ∃ q, partQuery id spec = .ok q ∧ Aql.Translated false 0 (partLits id spec) (partOccs id spec) q := by
  refine ⟨_, rfl, rfl, rfl, ⟨[], [.inl ⟨.plain ⟨.other (.partOf .unbound), spec, nameSpec id⟩, 1, 0, true⟩], .nil, ?_, rfl, rfl⟩, fun v p => ?_, fun v => ?_⟩
  · exact .cons (Aql.Effect.plain (denotes_any.2 rfl) (denotes_corpus.2 rfl) rfl rfl rfl rfl (.normal _ rfl)) .nil
  · constructor
    · intro h
      simp only [Aql.Conj.addNode, Aql.Conj.empty, Function.update_apply] at h
      split at h
      · rename_i hv
        cases h
        exact ⟨⟨1, spec, none, false⟩, rfl, hv⟩
      · split at h
        · rename_i hv
          cases h
          exact ⟨⟨0, nameSpec id, none, false⟩, rfl, hv⟩
        · cases h
    · rintro ⟨oc, h1, rfl⟩
      rcases partOccs_get h1 with ⟨rfl, rfl⟩ | ⟨rfl, rfl⟩ <;> rfl
  · constructor
    · intro h
      have h : v = .num 2 ∨ v = .num 1 := by simpa [Aql.Conj.addNode, Aql.Conj.empty] using h
      rcases h with rfl | rfl
      · exact ⟨1, _, rfl, rfl, rfl⟩
      · exact ⟨0, _, rfl, rfl, rfl⟩
    · rintro ⟨p, oc, h1, rfl, _⟩
      rcases partOccs_get h1 with ⟨rfl, rfl⟩ | ⟨rfl, rfl⟩ <;>
        simp [Aql.Conj.addNode, Aql.Conj.empty, Aql.varOf]

/-- The rows of an alternative of `subcorpus_graph`. -/
def PartRow (k : Known T) (id : Str) (spec : NsSpec Str Str) (row : Row T (AnnoKey Str)) : Prop :=
  ∃ x y, row = [x, y] ∧ Finds k.c.env (AnnoStore.spec k.ops) k.r (nameSpec id) x ∧ Finds k.c.env (AnnoStore.spec k.ops) k.r spec y ∧
    Means k.c.db k.c.env k.r (.other (.partOf .unbound)) y.node x.node

theorem partRow_iff {id : Str} {spec : NsSpec Str Str} {row : Row T (AnnoKey Str)} :
    TextAnswer k.c.db k.c.env (AnnoStore.spec k.ops) k.r d 0 (partLits id spec) (partOccs id spec) row ↔ PartRow k id spec row := by
  constructor
  · intro h
    have hl : ∀ i, i < row.length ↔ i < 2 := by
      intro i
      rw [h.length]
      constructor
      · rintro ⟨n, oc, h1, h2, _⟩
        rcases partOccs_get h2 with ⟨rfl, _⟩ | ⟨rfl, _⟩ <;> omega
      · intro hi
        exact ⟨1, _, by omega, rfl, rfl⟩
    have hlen : row.length = 2 := by
      have h1 := hl row.length
      have h2 := hl 1
      have h3 := hl 2
      omega
    obtain ⟨x, y, rfl⟩ : ∃ x y, row = [x, y] := by
      match row, hlen with
      | [x, y], _ => exact ⟨x, y, rfl⟩
    obtain ⟨x', hx, h1⟩ := h.found 0 _ rfl rfl
    obtain ⟨y', hy, h2⟩ := h.found 1 _ rfl rfl
    cases hx
    cases hy
    obtain ⟨x', y', hx, hy, h3⟩ := h.holds _ _ _ (List.mem_singleton.2 rfl) 1 0 (denotes_any.2 rfl) (denotes_corpus.2 rfl)
    cases hx
    cases hy
    exact ⟨x, y, rfl, h1, h2, h3⟩
  · rintro ⟨x, y, rfl, h1, h2, h3⟩
    refine ⟨fun i => ?_, fun n oc h _ => ?_, fun n oc z h1 h2 _ => ?_, fun lhs op rhs h i j hi hj => ?_, ?_, ?_, ?_, ?_⟩
    · constructor
      · intro hi
        exact ⟨1, _, by simp only [List.length_cons, List.length_nil] at hi; omega, rfl, rfl⟩
      · rintro ⟨n, oc, h1, h2, _⟩
        simp only [List.length_cons, List.length_nil]
        rcases partOccs_get h2 with ⟨rfl, _⟩ | ⟨rfl, _⟩ <;> omega
    · rcases partOccs_get h with ⟨rfl, rfl⟩ | ⟨rfl, rfl⟩
      · exact ⟨x, rfl, h1⟩
      · exact ⟨y, rfl, h2⟩
    · rcases partOccs_get h1 with ⟨rfl, rfl⟩ | ⟨rfl, rfl⟩ <;> cases h2
    · cases List.mem_singleton.1 h
      rw [denotes_any] at hi
      rw [denotes_corpus] at hj
      subst hi hj
      exact ⟨y, x, rfl, rfl, h3⟩
    all_goals
      first
      | (intro _ _ _ h; cases List.mem_singleton.1 h; done)
      | (intro _ _ h; cases List.mem_singleton.1 h; done)

theorem part_ok {id : Str} {spec : NsSpec Str Str} (hu : Unambiguous spec) (ht : spec ≠ .anyToken) (hsh : ShowsSearched spec)
    (hpart : ∀ c, k.c.db.partOf = some c → k.Re c 1 .unbounded) :
    AltOk k.c.db k.c.env k.c.g k.r k.c.th k.Ec k.Rg k.De k.Re 0 (partLits id spec) (partOccs id spec) where
  nonempty := ⟨_, .head _, rfl⟩
  unambiguous := by
    intro oc hoc _
    rcases List.mem_cons.1 hoc with rfl | hoc
    · trivial
    · cases List.mem_singleton.1 hoc
      exact hu
  connected := by
    have h : Relation.EqvGen (fun i j => ∃ lhs op rhs, .bin lhs op rhs false ∈ partLits id spec ∧
        Aql.Denotes 0 (partOccs id spec) lhs i ∧ Aql.Denotes 0 (partOccs id spec) rhs j) 1 0 :=
      .rel _ _ ⟨_, _, _, List.mem_singleton.2 rfl, denotes_any.2 rfl, denotes_corpus.2 rfl⟩
    rintro i j ⟨a, ha, _⟩ ⟨b, hb, _⟩
    rcases partOccs_get ha with ⟨rfl, _⟩ | ⟨rfl, _⟩ <;> rcases partOccs_get hb with ⟨rfl, _⟩ | ⟨rfl, _⟩
    · exact .refl _
    · exact .symm _ _ h
    · exact h
    · exact .refl _
  supported := by
    intro lhs op rhs neg h
    cases List.mem_singleton.1 h
    intro h; cases h
  fits := by
    intro lhs op rhs neg h
    cases List.mem_singleton.1 h
    exact fun c hc => ⟨hpart c hc, .inl (le_refl 1)⟩
  arity := by
    intro ref range h
    cases List.mem_singleton.1 h
  patterns := by
    rintro oc hoc (h | h)
    · rcases List.mem_cons.1 hoc with rfl | hoc
      · cases h
      · cases List.mem_singleton.1 hoc
        cases h
    · have := (h _ (List.mem_singleton.2 rfl)).1
      cases this
  tokens := by
    intro oc hoc h
    rcases List.mem_cons.1 hoc with rfl | hoc
    · cases h
    · cases List.mem_singleton.1 hoc
      exact absurd h ht
  replaced := by
    intro lhs op rhs neg h i j a b hi hj ha hb _ _
    cases List.mem_singleton.1 h
    rw [denotes_any] at hi
    subst hi
    cases ha
    exact (C101_replaceable k.db hsh (le_refl 1)).1

theorem finds_name {id : Str} {x : SMatch T (AnnoKey Str)} :
    Finds k.c.env (AnnoStore.spec k.ops) k.r (nameSpec id) x ↔
      x.key = AnnoKey.mk "annis".toList "node_name".toList ∧
      AnnoStore.spec k.ops x.node (AnnoKey.mk "annis".toList "node_name".toList) = some id := by
  constructor
  · rintro ⟨a, ⟨h1, h2, v, h3, h4⟩, h5⟩
    have e := NodeSearch.AnnoKey.eq_mk h1 (h2 _ rfl)
    subst e
    exact ⟨h5, by rw [← h4 _ rfl]; exact h3⟩
  · rintro ⟨h1, h2⟩
    exact ⟨_, ⟨rfl, fun n hn => by cases hn; rfl, id, h2, fun x hx => by cases hx; rfl⟩, h1⟩

/-- A node search that finds nodes by their type, and shows the type. -/
def FindsType (k : Known T) (spec : NsSpec Str Str) (val : Str) : Prop :=
  ∀ x, Finds k.c.env (AnnoStore.spec k.ops) k.r spec x ↔ x.key = AnnoKey.mk "annis".toList "node_type".toList ∧
    AnnoStore.spec k.ops x.node (AnnoKey.mk "annis".toList "node_type".toList) = some val

theorem findsType_exact (val : Str) : FindsType k (annisSpec "node_type".toList val) val := by
  intro x
  constructor
  · rintro ⟨a, ⟨h1, h2, v, h3, h4⟩, h5⟩
    have e := NodeSearch.AnnoKey.eq_mk h1 (h2 _ rfl)
    subst e
    exact ⟨h5, by rw [← h4 _ rfl]; exact h3⟩
  · rintro ⟨h1, h2⟩
    exact ⟨_, ⟨rfl, fun n hn => by cases hn; rfl, val, h2, fun x hx => by cases hx; rfl⟩, h1⟩

theorem findsType_node (hstd : StdNames k.c.env) : FindsType k .anyNode "node".toList := by
  intro x
  constructor
  · rintro ⟨a, ⟨h1, h2, v, h3, h4⟩, h5⟩
    have e := NodeSearch.AnnoKey.eq_mk h1 (h2 _ rfl)
    subst e
    rw [hstd.annis, hstd.nodeType] at h3
    refine ⟨?_, by rw [h3, h4, hstd.nodeVal]⟩
    rw [h5]
    change AnnoKey.mk k.c.env.annis k.c.env.nodeType = _
    rw [hstd.annis, hstd.nodeType]
  · rintro ⟨h1, h2⟩
    refine ⟨AnnoKey.mk k.c.env.annis k.c.env.nodeType, ⟨rfl, fun n hn => by cases hn; rfl, k.c.env.nodeVal, ?_, rfl⟩, ?_⟩
    · rw [hstd.annis, hstd.nodeType, hstd.nodeVal]
      exact h2
    · rw [h1]
      change _ = AnnoKey.mk k.c.env.annis k.c.env.nodeType
      rw [hstd.annis, hstd.nodeType]

theorem part_alternative {id : Str} {spec : NsSpec Str Str} {val : Str} {q : QConj} (hq : partQuery id spec = .ok q) (hu : Unambiguous spec)
    (ht : spec ≠ .anyToken) (hsh : ShowsSearched spec) (hs : FindsType k spec val) (hpart : ∀ c, k.c.db.partOf = some c → k.Re c 1 .unbounded) :
    (∃ x, AltRows (E := E) k.c.env k.c.g k.c.db k.c.th k.c.order d q x) ∧
    ∀ x, AltRows (E := E) k.c.env k.c.g k.c.db k.c.th k.c.order d q x → ∃ rows : List (Row T (AnnoKey Str)), x.getD [] = rows.map .ok ∧
      rows.Nodup ∧ ∀ row, row ∈ rows ↔ PartRow k id spec row := by
  obtain ⟨q', h1, h2⟩ := partQuery_translated id spec
  rw [hq] at h1
  cases h1
  obtain ⟨a1, a2⟩ := C101_alternative (E := E) k.corpus k.db h2 (by simp [partOccs]) (by simp [Aql.NamesDistinct, partOccs]) (part_ok hu ht hsh hpart) d
  refine ⟨a1, fun x hx => ?_⟩
  obtain ⟨rows, e1, e2, e3, e4⟩ := a2 x hx
  refine ⟨rows, e1, e2, fun row => ⟨fun h => partRow_iff.1 (e3 row h), fun h => e4 row (partRow_iff.2 h) ?_⟩⟩
  obtain ⟨x, y, rfl, h1, h2, _⟩ := h
  have hne : x ≠ y := by
    rintro rfl
    have := (finds_name.1 h1).1
    rw [((hs x).1 h2).1] at this
    exact absurd this (by decide)
  intro i j z a b hij ha hb _ _ hx hy
  rcases partOccs_get ha with ⟨rfl, _⟩ | ⟨rfl, _⟩ <;> rcases partOccs_get hb with ⟨rfl, _⟩ | ⟨rfl, _⟩
  · exact hij rfl
  · simp only [List.getElem?_cons_zero, Option.some.injEq, List.getElem?_cons_succ] at hx hy
    exact hne (hx.trans hy.symm)
  · simp only [List.getElem?_cons_zero, Option.some.injEq, List.getElem?_cons_succ] at hx hy
    exact hne (hy.trans hx.symm)
  · exact hij rfl

/-- The two searches of `subcorpus_graph`. -/
def IsPartSpec (spec : NsSpec Str Str) : Prop := spec = .anyNode ∨ spec = annisSpec "node_type".toList "datasource".toList

theorem subcorpusQuery_mem : ∀ ids : List Str, ∃ qs, subcorpusQuery ids = .ok qs ∧
    ∀ q, q ∈ qs ↔ ∃ id ∈ ids, ∃ spec, IsPartSpec spec ∧ partQuery (stripSalt id) spec = .ok q
  | [] => ⟨[], rfl, by simp⟩
  | id :: ids => by
    obtain ⟨qs, h1, h2⟩ := subcorpusQuery_mem ids
    obtain ⟨a, ha, _⟩ := partQuery_translated (stripSalt id) .anyNode
    obtain ⟨b, hb, _⟩ := partQuery_translated (stripSalt id) (annisSpec "node_type".toList "datasource".toList)
    refine ⟨a :: b :: qs, by simp only [subcorpusQuery, ha, hb, h1], fun q => ?_⟩
    rw [List.mem_cons, List.mem_cons, h2]
    constructor
    · rintro (rfl | rfl | ⟨i, hi, s, hs, he⟩)
      · exact ⟨id, .head _, _, .inl rfl, ha⟩
      · exact ⟨id, .head _, _, .inr rfl, hb⟩
      · exact ⟨i, .tail _ hi, s, hs, he⟩
    · rintro ⟨i, hi, s, hs, he⟩
      rcases List.mem_cons.1 hi with rfl | hi
      · rcases hs with rfl | rfl
        · rw [ha] at he; cases he; exact .inl rfl
        · rw [hb] at he; cases he; exact .inr (.inl rfl)
      · exact .inr (.inr ⟨i, hi, s, hs, he⟩)

theorem partSpec_alternative {id : Str} {spec : NsSpec Str Str} {q : QConj} (hstd : StdNames k.c.env) (hsp : IsPartSpec spec)
    (hq : partQuery id spec = .ok q) (hpart : ∀ c, k.c.db.partOf = some c → k.Re c 1 .unbounded) :
    (∃ x, AltRows (E := E) k.c.env k.c.g k.c.db k.c.th k.c.order d q x) ∧
    ∀ x, AltRows (E := E) k.c.env k.c.g k.c.db k.c.th k.c.order d q x → ∃ rows : List (Row T (AnnoKey Str)), x.getD [] = rows.map .ok ∧
      rows.Nodup ∧ ∀ row, row ∈ rows ↔ PartRow k id spec row := by
  rcases hsp with rfl | rfl
  · exact part_alternative hq trivial (by simp) trivial (findsType_node hstd) hpart
  · exact part_alternative hq trivial (by simp [annisSpec]) rfl (findsType_exact _) hpart

/-- **C109** for `subcorpus_graph`: it gives a graph, and the nodes of the graph are exactly the nodes and data sources in the sub-corpora. -/
theorem C109_subcorpus (ho : OrigOk k o EC B Lt Rt Et O) (hstd : StdNames k.c.env)
    (hpart : ∀ c, k.c.db.partOf = some c → k.Re c 1 .unbounded) (ids : List Str) :
    (∃ res, SubcorpusGraph (E := E) k.c o d ids res) ∧
    ∀ res, SubcorpusGraph (E := E) k.c o d ids res → GraphOf k none EC B O (InSubcorpus k ids) res := by
  obtain ⟨qs, hq1, hq2⟩ := subcorpusQuery_mem ids
  let P : Nat → Row T (AnnoKey Str) → Prop := fun i row =>
    ∃ q, qs[i]? = some q ∧ ∃ id ∈ ids, ∃ spec, IsPartSpec spec ∧ partQuery (stripSalt id) spec = .ok q ∧ PartRow k (stripSalt id) spec row
  obtain ⟨r1, r2⟩ := output_rows (E := E) (d := d) (c := k.c) (qs := qs) (P := P) (P' := P) (by
    intro i q hi
    obtain ⟨id, hid, spec, hsp, hpq⟩ := (hq2 q).1 (List.mem_of_getElem? hi)
    obtain ⟨a1, a2⟩ := partSpec_alternative (E := E) (d := d) hstd hsp hpq hpart
    refine ⟨a1, fun x hx => ?_⟩
    obtain ⟨rows, e1, e2, e3⟩ := a2 x hx
    refine ⟨rows, e1, e2, fun row hr => ⟨q, hi, id, hid, spec, hsp, hpq, (e3 row).1 hr⟩, ?_⟩
    rintro row ⟨q', hi', id', hid', spec', hsp', hpq', hrow⟩
    rw [hi] at hi'
    cases hi'
    obtain ⟨rows', f1, _, f3⟩ := (partSpec_alternative (E := E) (d := d) hstd hsp' hpq' hpart).2 x hx
    have : rows = rows' := List.map_injective_iff.2 (fun a b h => by cases h; rfl) (e1.symm.trans f1)
    rw [this]
    exact (f3 row).2 hrow)
  constructor
  · obtain ⟨alts, out, h1, h2⟩ := r1
    exact ⟨_, .mk hq1 (.mk h1 h2)⟩
  · intro res hres
    cases hres with
    | mk hq hx =>
      rw [hq1] at hq
      cases hq
      cases hx with
      | mk h1 h2 =>
        obtain ⟨rows, rfl, f1, f2⟩ := r2 _ _ h1 h2
        have hrow : ∀ row, row ∈ rows ↔ ∃ id ∈ ids, ∃ spec, IsPartSpec spec ∧ PartRow k (stripSalt id) spec row := by
          intro row
          constructor
          · intro h
            obtain ⟨_, _, _, _, _, id, hid, spec, hsp, _, h⟩ := f1 row h
            exact ⟨id, hid, spec, hsp, h⟩
          · rintro ⟨id, hid, spec, hsp, h⟩
            obtain ⟨q, hpq, _⟩ := partQuery_translated (stripSalt id) spec
            obtain ⟨i, hi⟩ := List.mem_iff_getElem?.1 ((hq2 q).2 ⟨id, hid, spec, hsp, hpq⟩)
            exact f2 i q row hi ⟨q, hi, id, hid, spec, hsp, hpq, h⟩
        refine extractRows_graph ho _ none rows (fun n => ?_) ?_
        · constructor
          · rintro ⟨id, hid, name, hname, c, part, len, hc, hn, hp, hlen, hpath⟩
            rw [corpusName_iff] at hname
            subst hname
            have hm : Means k.c.db k.c.env k.r (.other (.partOf .unbound)) n c :=
              ⟨part, hp, ⟨len, hpath, hlen, trivial⟩, fun s hs => by cases hs⟩
            have hx : Finds k.c.env (AnnoStore.spec k.ops) k.r (nameSpec (stripSalt id)) ⟨c, AnnoKey.mk "annis".toList "node_name".toList⟩ :=
              finds_name.2 ⟨rfl, hc⟩
            rcases hn with hn | hn
            · exact ⟨_, (hrow _).2 ⟨id, hid, _, .inl rfl, _, ⟨n, AnnoKey.mk "annis".toList "node_type".toList⟩, rfl, hx,
                (findsType_node hstd _).2 ⟨rfl, hn⟩, hm⟩, 1, List.mem_singleton.2 rfl, _, rfl, rfl⟩
            · exact ⟨_, (hrow _).2 ⟨id, hid, _, .inr rfl, _, ⟨n, AnnoKey.mk "annis".toList "node_type".toList⟩, rfl, hx,
                (findsType_exact _ _).2 ⟨rfl, hn⟩, hm⟩, 1, List.mem_singleton.2 rfl, _, rfl, rfl⟩
          · rintro ⟨row, hr, i, hi, z, hz, rfl⟩
            cases List.mem_singleton.1 hi
            obtain ⟨id, hid, spec, hsp, x, y, rfl, h1, h2, part, hp, ⟨len, hpath, hlen, _⟩, _⟩ := (hrow row).1 hr
            cases hz
            refine ⟨id, hid, stripSalt id, (corpusName_iff _ _).2 rfl, x.node, part, len, (finds_name.1 h1).2, ?_, hp, hlen, hpath⟩
            rcases hsp with rfl | rfl
            · exact .inl ((findsType_node hstd _).1 h2).2
            · exact .inr ((findsType_exact _ _).1 h2).2
        · rintro n ⟨id, hid, name, hname, c, part, len, hc, hn, _⟩
          rcases hn with hn | hn <;> exact ⟨_, _, hn⟩

/-! ## The graph of the corpus structure -/

theorem corpusQuery_translated : Aql.Translated false 0 [.node (annisSpec "node_type".toList "corpus".toList) 0 none false]
    [⟨0, annisSpec "node_type".toList "corpus".toList, none, false⟩] corpusQuery := by
  have hget : ∀ {i : Nat} {oc}, ([⟨0, annisSpec "node_type".toList "corpus".toList, none, false⟩] : List (Aql.Occ (NsSpec Str Str)))[i]? = some oc →
      i = 0 ∧ oc = ⟨0, annisSpec "node_type".toList "corpus".toList, none, false⟩ := by
    intro i oc h
    rcases i with _ | i
    · cases h; exact ⟨rfl, rfl⟩
    · simp at h
  refine ⟨rfl, rfl, ⟨[], [], .nil, .nil, rfl, rfl⟩, fun v p => ?_, fun v => ?_⟩
  · constructor
    · intro h
      simp only [corpusQuery, Aql.Conj.addNode, Aql.Conj.empty, Function.update_apply] at h
      split at h
      · rename_i hv
        cases h
        exact ⟨_, rfl, hv⟩
      · cases h
    · rintro ⟨oc, h1, rfl⟩
      obtain ⟨rfl, rfl⟩ := hget h1
      rfl
  · constructor
    · intro h
      have h : v = .num 1 := by simpa [corpusQuery, Aql.Conj.addNode, Aql.Conj.empty] using h
      exact ⟨0, _, rfl, h, rfl⟩
    · rintro ⟨p, oc, h1, rfl, _⟩
      obtain ⟨rfl, rfl⟩ := hget h1
      simp [corpusQuery, Aql.Conj.addNode, Aql.Conj.empty, Aql.varOf]

/-- **C109** for `corpus_graph`: it gives a graph with exactly the nodes of the type `corpus` and the edges of part-of components between them. -/
theorem C109_corpus (ho : OrigOk k o EC B Lt Rt Et O) :
    (∃ res, CorpusGraph (E := E) k.c o d res) ∧
    ∀ res, CorpusGraph (E := E) k.c o d res → GraphOf k (some .partOf) EC B O
      (fun n => AnnoStore.spec k.ops n (AnnoKey.mk "annis".toList "node_type".toList) = some "corpus".toList) res := by
  let L : List (Aql.Occ (NsSpec Str Str)) := [⟨0, annisSpec "node_type".toList "corpus".toList, none, false⟩]
  have hget : ∀ {i : Nat} {oc}, L[i]? = some oc → i = 0 ∧ oc = ⟨0, annisSpec "node_type".toList "corpus".toList, none, false⟩ := by
    intro i oc h
    rcases i with _ | i
    · cases h; exact ⟨rfl, rfl⟩
    · simp [L] at h
  have hrow : ∀ row, TextAnswer k.c.db k.c.env (AnnoStore.spec k.ops) k.r d 0
      [.node (annisSpec "node_type".toList "corpus".toList) 0 none false] L row ↔
      ∃ x, row = [x] ∧ Finds k.c.env (AnnoStore.spec k.ops) k.r (annisSpec "node_type".toList "corpus".toList) x := by
    intro row
    constructor
    · intro h
      have h1 := (h.length 0).2 ⟨0, _, le_refl _, rfl, rfl⟩
      have h2 : ¬ 1 < row.length := by
        rw [h.length]
        rintro ⟨n, oc, h1, h2, _⟩
        obtain ⟨rfl, _⟩ := hget h2
        omega
      obtain ⟨x, rfl⟩ : ∃ x, row = [x] := List.length_eq_one_iff.1 (by omega)
      obtain ⟨x', hx, hf⟩ := h.found 0 _ rfl rfl
      cases hx
      exact ⟨x, rfl, hf⟩
    · rintro ⟨x, rfl, hf⟩
      refine ⟨fun i => ?_, fun n oc h _ => ?_, fun n oc z h1 h2 _ => ?_, ?_, ?_, ?_, ?_, ?_⟩
      · constructor
        · intro hi
          exact ⟨0, _, by simp only [List.length_cons, List.length_nil] at hi; omega, rfl, rfl⟩
        · rintro ⟨n, oc, h1, h2, _⟩
          obtain ⟨rfl, _⟩ := hget h2
          simp only [List.length_cons, List.length_nil]
          omega
      · obtain ⟨rfl, rfl⟩ := hget h
        exact ⟨x, rfl, hf⟩
      · obtain ⟨rfl, rfl⟩ := hget h1
        cases h2
      all_goals
        first
        | (intro _ _ _ h; cases List.mem_singleton.1 h)
        | (intro _ _ h; cases List.mem_singleton.1 h)
  have ha : AltOk k.c.db k.c.env k.c.g k.r k.c.th k.Ec k.Rg k.De k.Re 0 [.node (annisSpec "node_type".toList "corpus".toList) 0 none false] L := by
    refine ⟨⟨_, .head _, rfl⟩, ?_, ?_, ?_, ?_, ?_, ?_, ?_, ?_⟩
    · intro oc hoc _
      cases List.mem_singleton.1 hoc
      trivial
    · rintro i j ⟨a, h1, _⟩ ⟨b, h2, _⟩
      obtain ⟨rfl, _⟩ := hget h1
      obtain ⟨rfl, _⟩ := hget h2
      exact .refl _
    · intro _ _ _ _ h; cases List.mem_singleton.1 h
    · intro _ _ _ _ h; cases List.mem_singleton.1 h
    · intro _ _ h; cases List.mem_singleton.1 h
    · intro oc hoc _ p hp
      cases List.mem_singleton.1 hoc
      cases hp
    · intro oc hoc h
      cases List.mem_singleton.1 hoc
      cases h
    · intro _ _ _ _ h; cases List.mem_singleton.1 h
  obtain ⟨r1, r2⟩ := output_rows (E := E) (d := d) (c := k.c) (qs := [corpusQuery])
    (P := fun _ row => ∃ x, row = [x] ∧ Finds k.c.env (AnnoStore.spec k.ops) k.r (annisSpec "node_type".toList "corpus".toList) x)
    (P' := fun _ row => ∃ x, row = [x] ∧ Finds k.c.env (AnnoStore.spec k.ops) k.r (annisSpec "node_type".toList "corpus".toList) x) (by
    intro i q hi
    have hq : q = corpusQuery := by simpa using List.mem_of_getElem? hi
    subst hq
    obtain ⟨a1, a2⟩ := C101_alternative (E := E) k.corpus k.db corpusQuery_translated (List.pairwise_singleton _ _)
      (by simp [Aql.NamesDistinct]) ha d
    refine ⟨a1, fun x hx => ?_⟩
    obtain ⟨rows, e1, e2, e3, e4⟩ := a2 x hx
    refine ⟨rows, e1, e2, fun row hr => (hrow row).1 (e3 row hr), fun row hr => e4 row ((hrow row).2 hr) ?_⟩
    intro i j z a b hij ha hb
    exact absurd ((hget ha).1.trans (hget hb).1.symm) hij)
  constructor
  · obtain ⟨alts, out, h1, h2⟩ := r1
    exact ⟨_, .mk h1 h2⟩
  · intro res hres
    cases hres with
    | mk h1 h2 =>
      obtain ⟨rows, rfl, f1, f2⟩ := r2 _ _ h1 h2
      refine extractRows_graph ho _ _ rows (fun n => ?_) fun n hn => ⟨_, _, hn⟩
      constructor
      · intro hn
        exact ⟨_, f2 0 _ _ rfl ⟨⟨n, AnnoKey.mk "annis".toList "node_type".toList⟩, rfl, (findsType_exact _ _).2 ⟨rfl, hn⟩⟩, 0,
          List.mem_singleton.2 rfl, _, rfl, rfl⟩
      · rintro ⟨row, hr, i, hi, z, hz, rfl⟩
        cases List.mem_singleton.1 hi
        obtain ⟨_, _, _, x, rfl, hf⟩ := f1 row hr
        cases hz
        exact ((findsType_exact _ _).1 hf).2

end
end
end Answer
