import Verif.Aql.Props

/-!
# C69 and C70 for whole queries
-/

namespace Aql

variable {S O U : Type}

/-! ## Specification -/

/-- The search of a `meta::` literal. -/
def Literal.metaSpec : Literal S O U → Option S
  | .legacyMeta spec => some spec
  | _ => none

/-- The nodes and operators added to an alternative for the `meta::` searches `metas` of the query. -/
def WithMeta (offset : Nat) (doc : S) (metas : List S) (q q' : Conj S O U) : Prop :=
  match metas with
  | [] => q' = q
  | s :: r => q'.out = q.out ∧ q'.uns = q.uns ∧
      q'.nodes = q.nodes ++ (s :: doc :: r).mapIdx (fun j s => ⟨.num (offset + q.nodes.length + j + 1), s, false⟩) ∧
      q'.bins = q.bins ++ ⟨.partOf, offset, offset + q.nodes.length, true⟩ ::
        (doc :: r).mapIdx (fun j _ => ⟨.ident, offset + q.nodes.length, offset + q.nodes.length + j + 1, true⟩)

/-! ## Proofs -/

theorem mapAlternatives_get {quirks : Bool} {doc : S} {metas : List S} {alts : List (List (Literal S O U))} : ∀ {o : Nat}
    {d : List (Conj S O U)}, mapAlternatives quirks doc metas alts o = .ok d → ∀ (i : Nat) (c : List (Literal S O U)) (q : Conj S O U),
    alts[i]? = some c → d[i]? = some q → ∃ q0, mapConjunction c (o + ((d.take i).flatMap Conj.nodes).length) quirks = .ok q0 ∧
      (if quirks then addMeta doc (q0.varByNr (o + ((d.take i).flatMap Conj.nodes).length)) metas none q0 else .ok q0) = .ok q := by
  induction alts with
  | nil => intro o d _ i c q hc; simp at hc
  | cons c r ih =>
    intro o d h
    simp only [mapAlternatives] at h
    split at h
    · cases h
    · rename_i q0 hq0
      split at h
      · cases h
      · rename_i q1 hq1
        split at h
        · cases h
        · rename_i qs hqs
          cases h
          intro i c' q hc hq
          cases i with
          | zero =>
            simp only [List.getElem?_cons_zero, Option.some.injEq] at hc hq
            subst hc hq
            exact ⟨q0, by simpa using hq0, by simpa using hq1⟩
          | succ i =>
            simp only [List.getElem?_cons_succ] at hc hq
            obtain ⟨x, h1, h2⟩ := ih hqs i c' q hc hq
            refine ⟨x, ?_, ?_⟩ <;> simp only [List.take_succ_cons, List.flatMap_cons, List.length_append, ← Nat.add_assoc] <;> assumption

theorem metaSearches_eq (alts : List (List (Literal S O U))) : metaSearches alts = alts.flatten.filterMap Literal.metaSpec := by
  unfold metaSearches
  rw [List.filterMap_flatten, List.flatMap_def]
  congr 1

/-- C69 for whole queries, restricted to trees in disjunctive normal form without repeated names: the disjunction has one conjunction for each
alternative of the text in their order, which says the same as the alternative; its numbers start after all nodes of those before. -/
theorem C69_query_partial (doc : S) (e : Expr (Literal S O U)) (d : List (Conj S O U)) (h : parse false doc e = .ok d)
    (hc : ∀ c ∈ alternatives e, ∃ L, IsNodeList c L ∧ NamesDistinct L) :
    d.length = (alternatives e).length ∧
    ∀ (i : Nat) (c : List (Literal S O U)) (q : Conj S O U), (alternatives e)[i]? = some c → d[i]? = some q →
      ∃ L, IsNodeList c L ∧ Translated false ((d.take i).flatMap Conj.nodes).length c L q := by
  refine ⟨(C70_numbering _ _ _ _ h).1, fun i c q hi hq => ?_⟩
  obtain ⟨L, hL, hn⟩ := hc c (List.mem_of_getElem? hi)
  obtain ⟨q0, h1, h2⟩ := mapAlternatives_get h i c q hi hq
  cases h2
  rw [Nat.zero_add] at h1
  exact ⟨L, hL, C69_translation_partial c _ L hL hn _ h1⟩

/-- C69 for whole queries in quirks mode, restricted to trees in disjunctive normal form whose alternatives have a node search and no repeated
names: each alternative is translated with its artificial nodes, and all `meta::` searches of the text, wherever they are, are attached to its
first node. -/
theorem C69_query_quirks_partial (doc : S) (e : Expr (Literal S O U)) (he : IsDnf e) (d : List (Conj S O U)) (h : parse true doc e = .ok d)
    (hc : ∀ c ∈ alternatives e, ∃ L, IsNodeList c L ∧ NamesDistinct L ∧ L ≠ []) :
    d.length = (alternatives e).length ∧
    ∀ (i : Nat) (c : List (Literal S O U)) (q : Conj S O U), (alternatives e)[i]? = some c → d[i]? = some q →
      ∃ (L : List (Occ S)) (base q0 : Conj S O U), IsNodeList c L ∧ Translated true ((d.take i).flatMap Conj.nodes).length c L base ∧
        Copies ((d.take i).flatMap Conj.nodes).length L base
          ((List.range L.length).flatMap fun j => List.replicate (joinsOf ((d.take i).flatMap Conj.nodes).length L j c - 1) j) q0 ∧
        WithMeta ((d.take i).flatMap Conj.nodes).length doc (e.literals.filterMap Literal.metaSpec) q0 q := by
  refine ⟨(C70_numbering _ _ _ _ h).1, fun i c q hi hq => ?_⟩
  obtain ⟨L, hL, hn, hne⟩ := hc c (List.mem_of_getElem? hi)
  unfold parse at h
  simp only [if_true, metaSearches_eq, C69_literals_partial e he] at h
  obtain ⟨q0, h1, h2⟩ := mapAlternatives_get h i c q hi hq
  rw [Nat.zero_add] at h1 h2
  obtain ⟨base, h3, h4⟩ := C69_quirks_partial c _ L hL hn _ h1
  refine ⟨L, base, q0, hL, h3, h4, ?_⟩
  simp only [if_true] at h2
  cases hm : e.literals.filterMap Literal.metaSpec with
  | nil => rw [hm] at h2; cases h2; rfl
  | cons s r =>
    rw [hm] at h2
    obtain ⟨q', h5, h6⟩ := C69_meta_partial c _ L hL hn hne q0 h1 doc s r
    rw [h5] at h2
    cases h2
    exact h6

/-- C70 without quirks mode and repeated names: a frequency definition takes the column with the number of the first node of the whole query with
this name. For later alternatives this is not the column of the node (`C70_frequency_fails`). -/
theorem C70_frequency_column_partial {M : Type} (doc : S) (e : Expr (Literal S O U)) (d : List (Conj S O U)) (h : parse false doc e = .ok d)
    (hc : ∀ c ∈ alternatives e, ∃ L, IsNodeList c L ∧ NamesDistinct L) (p : Nat) (n : NodeEntry S)
    (hp : (d.flatMap Conj.nodes)[p]? = some n)
    (hfirst : ∀ (p' : Nat) (n' : NodeEntry S), p' < p → (d.flatMap Conj.nodes)[p']? = some n' → n'.var ≠ n.var) (row : List M) :
    freqMatches d [n.var] row = [row[p]?] := by
  have gen : ∀ (alts : List (List (Literal S O U))) (o : Nat) (d : List (Conj S O U)) (p : Nat),
      (∀ c ∈ alts, ∃ L, IsNodeList c L ∧ NamesDistinct L) → mapAlternatives false doc [] alts o = .ok d →
      (d.flatMap Conj.nodes)[p]? = some n →
      (∀ (p' : Nat) (n' : NodeEntry S), p' < p → (d.flatMap Conj.nodes)[p']? = some n' → n'.var ≠ n.var) →
      variablePos d n.var = some (o + p) := by
    intro alts
    induction alts with
    | nil => intro o d p _ h hp; cases h; simp at hp
    | cons c r ih =>
      intro o d p hc h hp hf
      simp only [mapAlternatives, Bool.false_eq_true, if_false] at h
      split at h
      · cases h
      · rename_i q hq
        split at h
        · cases h
        · rename_i qs hqs
          cases h
          obtain ⟨L, hL, hn⟩ := hc c (by simp)
          have tr := C69_translation_partial c o L hL hn q hq
          have hN : Numbered o q := (Nodes.mk tr.offset_eq tr.nodes tr.vars tr.out).numbered
          rw [List.flatMap_cons] at hp
          simp only [variablePos, List.findSome?_cons, Conj.resolvePos]
          by_cases hlt : p < q.nodes.length
          · rw [List.getElem?_append_left hlt] at hp
            rw [(hN.vars n.var p).2 ⟨n, hp, rfl⟩]
            simp [hN.offset_eq, Nat.add_comm]
          · have hv : q.vars n.var = none := by
              cases hv : q.vars n.var with
              | none => rfl
              | some x =>
                obtain ⟨n', h1, h2⟩ := (hN.vars _ _).1 hv
                have hx : x < q.nodes.length := (List.getElem?_eq_some_iff.1 h1).1
                exact absurd h2 (hf x n' (by omega) (by rw [List.flatMap_cons, List.getElem?_append_left hx]; exact h1))
            rw [hv]
            simp only []
            rw [List.getElem?_append_right (by omega)] at hp
            have := ih (o + q.nodes.length) qs (p - q.nodes.length) (fun c hc' => hc c (by simp [hc'])) hqs hp (fun p' n' hp' hn' =>
              hf (p' + q.nodes.length) n' (by omega) (by
                rw [List.flatMap_cons, List.getElem?_append_right (by omega)]
                simpa using hn'))
            simp only [variablePos, Conj.resolvePos] at this
            rw [this]
            congr 1
            omega
  have := gen _ 0 d p hc (by simpa [parse] using h) hp hfirst
  simp [freqMatches, freqColumns, this]

end Aql
