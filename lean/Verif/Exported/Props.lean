import Verif.Exported.History
import Verif.Queried.Props

/-!
# Queries after an export to GraphML and an import (C115)
-/

set_option linter.unusedSimpArgs false
set_option linter.unusedSectionVars false

namespace Exported

open Graph Graph.Index
open Rel (Reads schema nameKey typeKey tokKey Adds schema_ok)
open Answer hiding nameKey

/-! ### The events of the import -/

section
variable {C : Type} [LinearOrder C] {nk tk : AnnoKey Str} {d : GDoc C} {m : GSpec Str Str C} {printC : C → Str} {parseC : Str → Option C}

/-- The events of an import of an exported document: they build the graph (C58), only add elements, keep the names, and use only components of
the document. -/
theorem import_events (hne : nk ≠ tk) (h : Presents nk tk d m) (hpk : ∀ k ∈ d.keys, PlainKey k) (hnx : ∀ n ∈ d.nodes, NoXml n.1)
    (hex : ∀ e ∈ d.edges, NoXml e.1 ∧ NoXml e.2.1 ∧ NoXml (printC e.2.2.1) ∧ parseC (printC e.2.2.1) = some e.2.2.1)
    {l : List (Event Str Str C)} {config : Option Str} (hi : importEvents tk parseC (d.export printC) = some (l, config)) :
    config = d.config ∧ GSpec.empty.run nk tk l = m ∧ (∀ e ∈ l, e.NoRename nk) ∧ (∀ e ∈ l, Adds e) ∧
      ∀ e ∈ l, (∀ x y c, e = .addEdge x y c → ∃ c', c = some c' ∧ m.edge c' x y = true) ∧
        ∀ x y c k w, e = .addEdgeLabel x y c k w → ∃ c', c = some c' ∧ m.edge c' x y = true := by
  have hev := import_export tk parseC printC d h.keysNodup hpk (fun n hn => ⟨hnx n hn, h.labelsNodup n hn, h.keys n hn⟩)
    (fun e he => ⟨hex e he, h.elabelsNodup e he, h.ekeys e he⟩)
  obtain ⟨v, hv, hm⟩ := C58_graphml_partial hne printC parseC d m h hpk hnx hex
  rw [hi] at hv hev
  simp only [Option.some.injEq, Prod.mk.injEq] at hv hev
  obtain ⟨rfl, rfl⟩ := hv
  have hl := hev.1
  have key : ∀ e ∈ l, (e.NoRename nk ∧ Adds e) ∧ (∀ x y c, e = .addEdge x y c → ∃ c', c = some c' ∧ m.edge c' x y = true) ∧
        ∀ x y c k w, e = .addEdgeLabel x y c k w → ∃ c', c = some c' ∧ m.edge c' x y = true := by
    intro e he
    rw [hl] at he
    rcases List.mem_append.1 he with he | he
    · obtain ⟨n, hn, he⟩ := List.mem_flatMap.1 he
      simp only [addNodeEvents] at he
      rcases List.mem_cons.1 he with rfl | he
      · exact ⟨⟨trivial, trivial⟩, fun x y c h => (by cases h), fun x y c k w h => by cases h⟩
      · obtain ⟨p, hp, rfl⟩ := List.mem_map.1 he
        have hp2 := (List.mem_filter.1 hp).1
        have := assocGet_of_mem (h.labelsNodup n hn) hp2
        rw [h.labels n hn] at this
        refine ⟨⟨?_, trivial⟩, fun x y c h => (by cases h), fun x y c k w h => by cases h⟩
        intro hc
        simp [hc] at this
    · obtain ⟨q, hq, he⟩ := List.mem_flatMap.1 he
      have hE : m.edge q.2.2.1 q.1 q.2.1 = true := (h.edge _ _ _).2 (List.mem_map.2 ⟨q, hq, rfl⟩)
      simp only [edgeEvents] at he
      rcases List.mem_cons.1 he with rfl | he
      · refine ⟨⟨trivial, trivial⟩, ?_, fun x y c k w h => by cases h⟩
        intro x y c hxy
        cases hxy
        exact ⟨_, rfl, hE⟩
      · obtain ⟨p, hp, rfl⟩ := List.mem_map.1 he
        refine ⟨⟨trivial, trivial⟩, fun x y c h => (by cases h), ?_⟩
        intro x y c k w hxy
        cases hxy
        exact ⟨_, rfl, hE⟩
  exact ⟨rfl, hm, fun e he => (key e he).1.1, fun e he => (key e he).1.2, fun e he => (key e he).2⟩

end

/-- The names in the graph can be read again from GraphML (C58): no XML meta characters in names of nodes and components, annotation keys in ASCII
without blanks, `:` and `%`, and the components can be parsed. -/
structure Readable (printC : CKey Str → Str) (parseC : Str → Option (CKey Str)) (m : GSpec Str Str (CKey Str)) : Prop where
  node : ∀ n, m.node n = true → NoXml n
  label : ∀ n k w, m.label n k = some w → k ≠ nameKey → PlainKey k
  elabel : ∀ c x y k w, m.eanno c x y k = some w → PlainKey k
  comp : ∀ c x y, m.edge c x y = true → NoXml (printC c) ∧ parseC (printC c) = some c

/-- The printed form of a component is read again if its layer has no slash (C30). -/
theorem parse_printComp (ty : AnnotationComponentType) (layer name : Str) (h : '/' ∉ layer) :
    parseComp (printComp (Rel.comp ty layer name)) = some (Rel.comp ty layer name) := by
  unfold parseComp printComp
  have : AnnotationComponentType.ofU16 (ofLex (Rel.comp ty layer name)).1 = ty := by cases ty <;> rfl
  rw [this]
  exact congrArg (Option.map fun c : Component AnnotationComponentType => (toLex (c.ty.toU16, toLex (c.name, c.layer)) : CKey Str))
    (C30_annotation_component_partial ⟨ty, layer, name⟩ h)

/-- The condition on the names in a graph is one on the names in the document. -/
theorem readable_of_doc {printC : CKey Str → Str} {parseC : Str → Option (CKey Str)} {d : GDoc (CKey Str)} {m : GSpec Str Str (CKey Str)}
    (h : Presents nameKey typeKey d m) (h1 : ∀ k ∈ d.keys, PlainKey k) (h2 : ∀ n ∈ d.nodes, NoXml n.1)
    (h3 : ∀ e ∈ d.edges, NoXml (printC e.2.2.1) ∧ parseC (printC e.2.2.1) = some e.2.2.1) : Readable printC parseC m := by
  have mem : ∀ {ls : Labels} {k : AnnoKey Str} {w : Str}, assocGet ls k = some w → ∃ p ∈ ls, p.1 = k := by
    intro ls k w hw
    by_contra hc
    have : assocGet ls k = none := by
      rw [assocGet_none]
      intro hm
      obtain ⟨p, hp, rfl⟩ := List.mem_map.1 hm
      exact hc ⟨p, hp, rfl⟩
    rw [hw] at this
    cases this
  refine ⟨?_, ?_, ?_, ?_⟩
  · intro n hn
    obtain ⟨p, hp, rfl⟩ := List.mem_map.1 ((h.node n).1 hn)
    exact h2 p hp
  · intro n k w hw hk
    obtain ⟨p, hp, rfl⟩ := List.mem_map.1 ((h.node n).1 (h.labelN n k (by rw [hw]; simp)))
    have := h.labels p hp k
    rw [if_neg hk, hw] at this
    obtain ⟨q, hq, rfl⟩ := mem this
    exact h1 _ (h.keys p hp q hq)
  · intro c x y k w hw
    obtain ⟨e, he, hxy⟩ := List.mem_map.1 ((h.edge c x y).1 (h.eannoN c x y k (by rw [hw]; simp)))
    simp only [Prod.mk.injEq] at hxy
    obtain ⟨rfl, rfl, rfl⟩ := hxy
    have := h.elabels e he k
    rw [hw] at this
    obtain ⟨q, hq, rfl⟩ := mem this
    exact h1 _ (h.ekeys e he q hq)
  · intro c x y hxy
    obtain ⟨e, he, hxy⟩ := List.mem_map.1 ((h.edge c x y).1 hxy)
    simp only [Prod.mk.injEq] at hxy
    obtain ⟨rfl, rfl, rfl⟩ := hxy
    exact h3 e he

section
variable {cap : Nat} {l : List (Event Str Str (CKey Str))} {g : Graph Str Str (CKey Str)} (h : History schema nameKey typeKey tokKey cap l g)
  {v : Visits (CKey Str)} (hv : v.Ok) {printC : CKey Str → Str} {parseC : Str → Option (CKey Str)}
  (hr : Readable printC parseC (Spec.noIndex schema (GSpec.empty.run nameKey typeKey l))) {config config' : Option Str}
  {l' : List (Event Str Str (CKey Str))}
  (himp : importEvents typeKey parseC ((toDoc schema nameKey typeKey v g config).export printC) = some (l', config'))
include h hv hr himp

/-- **C115**: the import of an exported graph gives events that only add elements and describe the same graph without the generated components. -/
theorem C115_events_partial : config' = config ∧ GSpec.empty.run nameKey typeKey l' = Spec.noIndex schema (GSpec.empty.run nameKey typeKey l) ∧
    (∀ e ∈ l', e.NoRename nameKey) ∧ (∀ e ∈ l', Adds e) ∧
    ∀ e ∈ l', ∀ c, Uses c e → ∃ x y, (Spec.noIndex schema (GSpec.empty.run nameKey typeKey l)).edge c x y = true := by
  have hf := history_facts schema_ok (by decide) h
  have hP := C115_document schema_ok (by decide) h hv config
  obtain ⟨m', hrep, ha⟩ := hf.rep
  have hn := agree_noIndex (GSpec.empty.run nameKey typeKey l : GSpec Str Str (CKey Str))
  have hpk : ∀ k ∈ (toDoc schema nameKey typeKey v g config).keys, PlainKey k := by
    intro k hk
    rcases (mem_docKeys hv hf.inv hf.made k).1 hk with ⟨h1, i, w, h2⟩ | ⟨c, hc, e, w, h2⟩
    · obtain ⟨n, hn'⟩ := hf.inv.named i k w h2
      refine hr.label n k w ?_ h1
      rw [hn.label, ← ha.label, ← hrep.label i n hn']
      exact h2
    · obtain ⟨c1, c2, c3⟩ := ((mem_exported hv hf.inv hf.made c).1 hc).2
      obtain ⟨⟨i, j⟩, rfl⟩ : ∃ p : NodeID64 × NodeID64, e = toLex p := ⟨ofLex e, rfl⟩
      have hij := (hf.inv.ci c).edge i j k (by rw [h2]; rfl)
      obtain ⟨⟨x, hx⟩, y, hy⟩ := hf.ends c i j hij
      refine hr.elabel c x y k w ?_
      rw [hn.eanno c c1 c2 c3, ← ha.eanno c c1 c2 c3, ← hrep.eanno i j x y hx hy]
      exact h2
  have hnx : ∀ n ∈ (toDoc schema nameKey typeKey v g config).nodes, NoXml n.1 := by
    intro n hn'
    exact hr.node _ ((hP.node _).2 (List.mem_map.2 ⟨n, hn', rfl⟩))
  have hex : ∀ e ∈ (toDoc schema nameKey typeKey v g config).edges, NoXml e.1 ∧ NoXml e.2.1 ∧ NoXml (printC e.2.2.1) ∧ parseC (printC e.2.2.1) = some e.2.2.1 := by
    intro e he
    have hE := (hP.edge e.2.2.1 e.1 e.2.1).2 (List.mem_map.2 ⟨e, he, rfl⟩)
    obtain ⟨n1, n2, _⟩ := hP.edgeN _ _ _ hE
    exact ⟨hr.node _ n1, hr.node _ n2, (hr.comp _ _ _ hE).1, (hr.comp _ _ _ hE).2⟩
  obtain ⟨h1, h2, h3, h4, h5⟩ := import_events (by decide) hP hpk hnx hex himp
  refine ⟨h1, h2, h3, h4, fun e he c hu => ?_⟩
  cases e with
  | addEdge x y c' =>
    obtain ⟨c'', e1, e2⟩ := (h5 _ he).1 x y c' rfl
    have : c' = some c := hu
    rw [this] at e1
    cases e1
    exact ⟨x, y, e2⟩
  | addEdgeLabel x y c' k w =>
    obtain ⟨c'', e1, e2⟩ := (h5 _ he).2 x y c' k w rfl
    have : c' = some c := hu
    rw [this] at e1
    cases e1
    exact ⟨x, y, e2⟩
  | _ => exact hu.elim

variable (hc : Linear.Chains (E g schema.order)) (ht : ∀ i j, E g schema.order i j → IsTok schema tokKey g i ∧ IsTok schema tokKey g j)
  {cap' : Nat} {ch : Choices} (hch : ∀ l, (ch.iter l).Perm l) {u : List (Nat × Event Str Str (CKey Str))} (hu : evs u = l') {g' : Graph Str Str (CKey Str)}
  (hup : update schema nameKey typeKey tokKey cap' ch Graph.new u = some g')
include hc ht hch hu hup

/-- **C115**: the imported graph meets the conditions of C50 and C113 if the exported one does: its index is correct, too. -/
theorem C115_history_partial : History schema nameKey typeKey tokKey cap' l' g' ∧ Linear.Chains (E g' schema.order) ∧
    ∀ i j, E g' schema.order i j → IsTok schema tokKey g' i ∧ IsTok schema tokKey g' j := by
  obtain ⟨_, h2, h3, h4, _⟩ := C115_events_partial h hv hr himp
  have hf := history_facts schema_ok (by decide) h
  have hT := textOk_of (reads_of_facts hf) hf.seg hf.order hc ht
  rw [← h2, ← hu] at hT
  have := history_of_text (by decide) hch hup (by rw [hu]; exact h3) (by rw [hu]; exact h4) hT
  rw [hu] at this
  exact this

/-- **C115**: besides the generated ones, the imported graph has the components of the exported graph which are not empty. -/
theorem C115_components_partial {c : CKey Str} (h1 : c ≠ schema.left) (h2 : c ≠ schema.right) (h3 : c ≠ schema.inh) :
    c ∈ g'.comps.keys ↔ ∃ a b, E g c a b := by
  obtain ⟨_, q2, _, q4, q5⟩ := C115_events_partial h hv hr himp
  have hf := history_facts schema_ok (by decide) h
  have hf' := history_facts schema_ok (by decide) (C115_history_partial h hv hr himp hc ht hch hu hup).1
  have hR := reads_of_facts hf
  have hR' := reads_of_facts hf'
  have hn := agree_noIndex (GSpec.empty.run nameKey typeKey l' : GSpec Str Str (CKey Str))
  constructor
  · intro hk
    obtain ⟨e, he, hue⟩ := update_keys hup (by rw [hu]; exact q4) h1 h2 h3 hk
    obtain ⟨x, y, hxy⟩ := q5 e (by rw [← hu]; exact he) c hue
    obtain ⟨⟨i, hi⟩, j, hj⟩ := hR.node c x y hxy
    exact ⟨i, j, (hR.edge c h1 h2 h3 i j).2 ⟨x, y, hi, hj, hxy⟩⟩
  · rintro ⟨i, j, hij⟩
    obtain ⟨x, y, _, _, hxy⟩ := (hR.edge c h1 h2 h3 i j).1 hij
    rw [← q2, ← hn.edge c h1 h2 h3] at hxy
    obtain ⟨⟨a, ha⟩, b, hb⟩ := hR'.node c x y hxy
    exact edge_mem_keys ((hR'.edge c h1 h2 h3 a b).2 ⟨x, y, ha, hb, hxy⟩)

end

/-! ### Answers -/

section
variable {m m' : GSpec Str Str (CKey Str)} (ha : Agree schema m m') {K K' : CKey Str → Prop}
  (hK : ∀ c, c ≠ schema.left → c ≠ schema.right → c ≠ schema.inh → (K c ↔ K' c)) {env : NsEnv Str Str} {cname : CKey Str → Str} {part : CKey Str}
  {segc : Str → CKey Str} (hpart : part ≠ schema.left ∧ part ≠ schema.right ∧ part ≠ schema.inh)
  (hseg : ∀ seg, segc seg ≠ schema.left ∧ segc seg ≠ schema.right ∧ segc seg ≠ schema.inh)
include ha

theorem first_congr {tok : AnnoKey Str} : Names.First schema tok m = Names.First schema tok m' := by
  funext x y
  unfold Names.First
  rw [covered_congr ha, next_congr ha]

theorem last_congr {tok : AnnoKey Str} : Names.Last schema tok m = Names.Last schema tok m' := by
  funext x y
  unfold Names.Last
  rw [covered_congr ha, next_congr ha]

theorem cov_congr {tok : AnnoKey Str} : Names.Cov schema tok m = Names.Cov schema tok m' := by
  funext x y
  unfold Names.Cov
  rw [covered_congr ha, direct_congr ha]

theorem path_congr {P P' : CKey Str → Prop} (hP : ∀ c, P c ↔ P' c) (hi : ∀ c, P c → c ≠ schema.left ∧ c ≠ schema.right ∧ c ≠ schema.inh)
    {dist : RangeSpec} {anno : Option Parse.EdgeSpec} {a b : Str} : Names.Path env m P dist anno a b ↔ Names.Path env m' P' dist anno a b := by
  unfold Names.Path
  refine exists_congr fun c => ?_
  rw [← hP c]
  refine and_congr_right fun hc => ?_
  obtain ⟨c1, c2, c3⟩ := hi c hc
  rw [ha.edge c c1 c2 c3, ha.eanno c c1 c2 c3]

include hK hpart hseg

theorem means_congr : Names.Means schema env cname part segc K m = Names.Means schema env cname part segc K' m' := by
  have kd : ∀ {k : CKind} {n : Str} (hk : k = .dominance ∨ k = .pointing) (c : CKey Str), (K c ∧ schema.kind c = k ∧ cname c = n) →
      c ≠ schema.left ∧ c ≠ schema.right ∧ c ≠ schema.inh := by
    rintro k n hk c ⟨_, h1, _⟩
    refine kind_not_index ?_ ?_ ?_
    · rw [h1]; rcases hk with rfl | rfl <;> decide
    · rw [h1]; rcases hk with rfl | rfl <;> decide
    · rintro rfl
      rcases hk with rfl | rfl <;> cases h1
  have kK : ∀ {k : CKind} {n : Str} (hk : k = .dominance ∨ k = .pointing) (c : CKey Str), (K c ∧ schema.kind c = k ∧ cname c = n) ↔
      (K' c ∧ schema.kind c = k ∧ cname c = n) := by
    intro k n hk c
    constructor
    · intro h
      obtain ⟨c1, c2, c3⟩ := kd hk c h
      exact ⟨(hK c c1 c2 c3).1 h.1, h.2⟩
    · rintro ⟨h1, h2, h3⟩
      have hc : c ≠ schema.left ∧ c ≠ schema.right ∧ c ≠ schema.inh := by
        refine kind_not_index ?_ ?_ ?_
        · rw [h2]; rcases hk with rfl | rfl <;> decide
        · rw [h2]; rcases hk with rfl | rfl <;> decide
        · rintro rfl
          rcases hk with rfl | rfl <;> cases h2
      exact ⟨(hK c hc.1 hc.2.1 hc.2.2).2 h1, h2, h3⟩
  have se : ∀ seg, m.edge (segc seg) = m'.edge (segc seg) := fun seg => ha.edge _ (hseg seg).1 (hseg seg).2.1 (hseg seg).2.2
  have sk : ∀ seg, K (segc seg) = K' (segc seg) := fun seg => propext (hK _ (hseg seg).1 (hseg seg).2.1 (hseg seg).2.2)
  funext op a b
  unfold Names.Means
  split
  · exact propext (path_congr ha (kK (Or.inl rfl)) (kd (Or.inl rfl)))
  · exact propext (path_congr ha (kK (Or.inr rfl)) (kd (Or.inr rfl)))
  · rw [tok_congr ha, first_congr ha, last_congr ha, next_congr ha]
  · rw [tok_congr ha, first_congr ha, last_congr ha, next_congr ha]
  · rw [se, sk]
  · rw [se, sk]
  · exact propext (path_congr ha (fun c => Iff.rfl) (by rintro c rfl; exact hpart))
  · rw [tok_congr ha, cov_congr ha]
  · rw [tok_congr ha, first_congr ha, last_congr ha]
  · rw [tok_congr ha, first_congr ha, last_congr ha, next_congr ha]
  · rw [tok_congr ha, first_congr ha]
  · rw [tok_congr ha, last_congr ha]
  · rfl
  · rfl

omit hK hpart hseg in
theorem arity_congr : Names.Arity schema m = Names.Arity schema m' := by
  funext range a
  unfold Names.Arity
  have : ∀ b, (∃ c, (schema.kind c = .dominance ∨ schema.kind c = .pointing) ∧ m.edge c a b = true) ↔
      ∃ c, (schema.kind c = .dominance ∨ schema.kind c = .pointing) ∧ m'.edge c a b = true := by
    intro b
    refine exists_congr fun c => and_congr_right fun hk => ?_
    have hc : c ≠ schema.left ∧ c ≠ schema.right ∧ c ≠ schema.inh := by
      refine kind_not_index ?_ ?_ ?_
      · rcases hk with hk | hk <;> rw [hk] <;> decide
      · rcases hk with hk | hk <;> rw [hk] <;> decide
      · rintro rfl
        rcases hk with hk | hk <;> cases hk
    rw [ha.edge c hc.1 hc.2.1 hc.2.2]
  simp only [this]

theorem answers_congr {d : NMatch} {alts : List (List Parse.QLit)} {Ls : List (List (Aql.Occ (NsSpec Str Str)))} {i : Nat} {row : List NMatch} :
    Names.AnswersAlt schema env cname part segc K m d alts Ls i row ↔ Names.AnswersAlt schema env cname part segc K' m' d alts Ls i row := by
  unfold Names.AnswersAlt
  rw [means_congr ha hK hpart hseg, arity_congr ha, cov_congr ha, ha.label]

end

/-- Without optional nodes the match for them plays no role. -/
theorem answers_default {m : GSpec Str Str (CKey Str)} {K : CKey Str → Prop} {env : NsEnv Str Str} {cname : CKey Str → Str} {part : CKey Str}
    {segc : Str → CKey Str} {d d' : NMatch} {alts : List (List Parse.QLit)} {Ls : List (List (Aql.Occ (NsSpec Str Str)))} {i : Nat} {row : List NMatch}
    (hd : (∀ L ∈ Ls, ∀ o ∈ L, o.optional = false) ∨ d = d')
    (h : Names.AnswersAlt schema env cname part segc K m d alts Ls i row) : Names.AnswersAlt schema env cname part segc K m d' alts Ls i row := by
  rcases hd with hd | rfl
  · obtain ⟨c, L, h1, h2, h3⟩ := h
    refine ⟨c, L, h1, h2, { h3 with default := ?_ }⟩
    intro n o x ho hopt
    rw [hd L (List.mem_of_getElem? h2) o (List.mem_of_getElem? ho)] at hopt
    cases hopt
  · exact h

/-! ### Results -/

/-- An exported graph `g` (after the events `l`) was imported again: `g'` is the graph of the import (after the events `l'`). The conditions are
those of C50, C58 and C113 on the exported graph; and all its components have edges, as components without edges are not exported. -/
structure Reimport (cap cap' : Nat) (l : List (Event Str Str (CKey Str))) (g : Graph Str Str (CKey Str)) (l' : List (Event Str Str (CKey Str)))
    (g' : Graph Str Str (CKey Str)) : Prop where
  history : History schema nameKey typeKey tokKey cap l g
  chains : Linear.Chains (E g schema.order)
  tokens : ∀ i j, E g schema.order i j → IsTok schema tokKey g i ∧ IsTok schema tokKey g j
  full : ∀ c ∈ g.comps.keys, c ≠ schema.left → c ≠ schema.right → c ≠ schema.inh → ∃ a b, E g c a b
  imported : ∃ (v : Visits (CKey Str)) (printC : CKey Str → Str) (parseC : Str → Option (CKey Str)) (config config' : Option Str),
    v.Ok ∧ Readable printC parseC (Spec.noIndex schema (GSpec.empty.run nameKey typeKey l)) ∧
    importEvents typeKey parseC ((toDoc schema nameKey typeKey v g config).export printC) = some (l', config')
  updated : ∃ (ch : Choices) (u : List (Nat × Event Str Str (CKey Str))), (∀ l, (ch.iter l).Perm l) ∧ evs u = l' ∧
    update schema nameKey typeKey tokKey cap' ch Graph.new u = some g'

/-- The settings of both corpora are for the same data model; statistics and estimations may be different. -/
structure SameModel (s s' : Setting (CKey Str)) : Prop where
  schema : s.sc = schema
  schema' : s'.sc = Rel.schema
  tok : s.tok = tokKey
  env : s'.env = s.env
  cname : s'.cname = s.cname
  part : s'.part = s.part
  segc : s'.segc = s.segc

section
variable {cap cap' : Nat} {l l' : List (Event Str Str (CKey Str))} {g g' : Graph Str Str (CKey Str)} {s s' : Setting (CKey Str)}

theorem Reimport.before (h : Reimport cap cap' l g l' g') (hm : SameModel s s') : History s.sc nameKey typeKey s.tok cap l g ∧ DataOk s g := by
  rw [hm.schema, hm.tok]
  have ht : AnnoKey.mk s.env.annis s.env.tok = tokKey := hm.tok
  refine ⟨h.history, ⟨by rw [hm.schema]; exact h.chains, ?_⟩⟩
  rw [ht, hm.schema]
  exact h.tokens

theorem Reimport.after (h : Reimport cap cap' l g l' g') (hm : SameModel s s') : History s'.sc nameKey typeKey s'.tok cap' l' g' ∧ DataOk s' g' := by
  obtain ⟨v, printC, parseC, config, config', hv, hr, himp⟩ := h.imported
  obtain ⟨ch, u, hch, hu, hup⟩ := h.updated
  obtain ⟨h1, h2, h3⟩ := C115_history_partial h.history hv hr himp h.chains h.tokens hch hu hup
  have ht : AnnoKey.mk s'.env.annis s'.env.tok = tokKey := by rw [hm.env]; exact hm.tok
  have ht' : s'.tok = tokKey := ht
  rw [hm.schema', ht']
  refine ⟨h1, ⟨by rw [hm.schema']; exact h2, ?_⟩⟩
  rw [ht, hm.schema']
  exact h3

/-- **C115**: a row of names answers a query in the graph before the export iff it does in the graph after the import. -/
theorem C115_answers_partial (h : Reimport cap cap' l g l' g') (hm : SameModel s s') (hs : SettingOk s g) {d d' : NMatch}
    {alts : List (List Parse.QLit)} {Ls : List (List (Aql.Occ (NsSpec Str Str)))} (hd : (∀ L ∈ Ls, ∀ o ∈ L, o.optional = false) ∨ d = d')
    {i : Nat} {row : List NMatch} :
    Names.AnswersAlt s.sc s.env s.cname s.part s.segc (· ∈ g.comps.keys) (GSpec.empty.run nameKey typeKey l) d alts Ls i row ↔
      Names.AnswersAlt s'.sc s'.env s'.cname s'.part s'.segc (· ∈ g'.comps.keys) (GSpec.empty.run nameKey typeKey l') d' alts Ls i row := by
  obtain ⟨v, printC, parseC, config, config', hv, hr, himp⟩ := h.imported
  obtain ⟨ch, u, hch, hu, hup⟩ := h.updated
  have hk : ∀ c, c ≠ schema.left → c ≠ schema.right → c ≠ schema.inh → (c ∈ g.comps.keys ↔ c ∈ g'.comps.keys) := by
    intro c c1 c2 c3
    rw [C115_components_partial h.history hv hr himp h.chains h.tokens hch hu hup c1 c2 c3]
    exact ⟨fun hk => h.full c hk c1 c2 c3, fun ⟨a, b, hab⟩ => edge_mem_keys hab⟩
  have ha : Agree schema (GSpec.empty.run nameKey typeKey l') (GSpec.empty.run nameKey typeKey l) := by
    rw [(C115_events_partial h.history hv hr himp).2.1]
    exact agree_noIndex _
  have hpart := hs.part
  have hseg := hs.segc
  rw [hm.schema] at hpart hseg
  rw [hm.schema, hm.schema', hm.env, hm.cname, hm.part, hm.segc]
  rw [answers_congr (K := (· ∈ g'.comps.keys)) (K' := (· ∈ g.comps.keys)) ha (fun c c1 c2 c3 => (hk c c1 c2 c3).symm) hpart hseg]
  exact ⟨answers_default hd, answers_default (hd.imp_right Eq.symm)⟩

variable {text : Str} {e : Parse.Q} {ps : List Parse.PTok} {tree : Parse.Disj} {Er : Type} (h : Reimport cap cap' l g l' g') (hm : SameModel s s')
  (hs : SettingOk s g) (hs' : SettingOk s' g') (hp : Parse.parseQuery text = .ok e)
  (htree : Parse.Spec.Tree text ps tree) (hflat : Parse.Spec.Flat tree) (doc : NsSpec Str Str) {qs : List QConj}
  (hqs : Aql.parse false doc e = .ok qs) (d d' : SMatch NodeID64 (AnnoKey Str)) {Ls : List (List (Aql.Occ (NsSpec Str Str)))}
  (hLs : Searches (Aql.alternatives e) Ls) (hnames : ∀ L ∈ Ls, Aql.NamesDistinct L)
  (hok : ∀ (i : Nat) c L, (Aql.alternatives e)[i]? = some c → Ls[i]? = some L → Names.AltOk s g (before Ls i) c L)
  (hok' : ∀ (i : Nat) c L, (Aql.alternatives e)[i]? = some c → Ls[i]? = some L → Names.AltOk s' g' (before Ls i) c L)
  (hopt : (∀ L ∈ Ls, ∀ o ∈ L, o.optional = false) ∨ nameMatch nameKey g d = nameMatch nameKey g' d')
  (hdist : ∀ (i : Nat) L row, Ls[i]? = some L → Names.AnswersAlt s.sc s.env s.cname s.part s.segc (· ∈ g.comps.keys) (GSpec.empty.run nameKey typeKey l)
    (nameMatch nameKey g d) (Aql.alternatives e) Ls i row → DistinctBy L row)
include h hm hs hs' hp htree hflat hqs hLs hnames hok hok' hopt hdist

/-- **C115**: a query has the same results before the export and after the import, by the names of the nodes, up to their order. -/
theorem C115_results_partial {out out' : List (Except (Fail Er) (Row NodeID64 (AnnoKey Str)))}
    (hout : Answers (E := Er) (corpusOf s g).env (corpusOf s g).g (corpusOf s g).db (corpusOf s g).th (corpusOf s g).order doc d text out)
    (hout' : Answers (E := Er) (corpusOf s' g').env (corpusOf s' g').g (corpusOf s' g').db (corpusOf s' g').th (corpusOf s' g').order doc d' text out') :
    ∃ rows rows' : List (Row NodeID64 (AnnoKey Str)), out = rows.map .ok ∧ out' = rows'.map .ok ∧
      (rows.map (List.map (nameMatch nameKey g))).Perm (rows'.map (List.map (nameMatch nameKey g'))) := by
  obtain ⟨b1, b2⟩ := h.before hm
  obtain ⟨a1, a2⟩ := h.after hm
  obtain ⟨rows, r1, r2, r3⟩ := C113_results_partial b1 (by decide) hs b2 hp htree hflat doc hqs d hLs hnames hok hdist hout
  obtain ⟨rows', r1', r2', r3'⟩ := C113_results_partial a1 (by decide) hs' a2 hp htree hflat doc hqs d' hLs hnames hok'
    (fun i L row hL ha => hdist i L row hL ((C115_answers_partial h hm hs hopt).2 ha)) hout'
  refine ⟨rows, rows', r1, r1', (List.perm_ext_iff_of_nodup r2 r2').2 fun row => ?_⟩
  rw [r3, r3']
  exact exists_congr fun i => C115_answers_partial h hm hs hopt

/-- **C115**: `count` gives the same number. -/
theorem C115_count_partial {n n' : Nat} (hc : CountAll Er doc d text [corpusOf s g] n) (hc' : CountAll Er doc d' text [corpusOf s' g'] n') : n = n' := by
  obtain ⟨b1, b2⟩ := h.before hm
  obtain ⟨a1, a2⟩ := h.after hm
  have hc0 := hc
  obtain ⟨outs, ho, _⟩ := hc0
  cases ho with
  | cons h1 h2 =>
    obtain ⟨qs', alts, ⟨e', p1, p2⟩, p3, p4⟩ := h1
    obtain ⟨rows, _, r2, r3⟩ := C113_results_partial b1 (by decide) hs b2 hp htree hflat doc hqs d hLs hnames hok hdist (Answers.mk p1 p2 p3 p4)
    rw [C113_count_partial b1 (by decide) hs b2 hp htree hflat doc hqs d hLs hnames hok hdist hc r2 r3]
    refine (C113_count_partial a1 (by decide) hs' a2 hp htree hflat doc hqs d' hLs hnames hok'
      (fun i L row hL ha => hdist i L row hL ((C115_answers_partial h hm hs hopt).2 ha)) hc' r2 fun row => ?_).symm
    rw [r3]
    exact exists_congr fun i => C115_answers_partial h hm hs hopt

end

section
variable {cap cap' : Nat} {l l' : List (Event Str Str (CKey Str))} {g g' : Graph Str Str (CKey Str)} {s s' : Setting (CKey Str)}

/-- **C115**: `find` without limits gives the same identifiers, up to their order. -/
theorem C115_find_partial {Er : Type} (h : Reimport cap cap' l g l' g') (hm : SameModel s s') (hs : SettingOk s g) (hs' : SettingOk s' g')
    {doc : NsSpec Str Str} {text : Str} {e : Parse.Q} {qs : List QConj} {Ls : List (List (Aql.Occ (NsSpec Str Str)))} {d d' : SMatch NodeID64 (AnnoKey Str)}
    (ht : QueryText doc text e qs Ls)
    (hok : ∀ (i : Nat) c L, (Aql.alternatives e)[i]? = some c → Ls[i]? = some L → Names.AltOk s g (before Ls i) c L)
    (hok' : ∀ (i : Nat) c L, (Aql.alternatives e)[i]? = some c → Ls[i]? = some L → Names.AltOk s' g' (before Ls i) c L)
    (hopt : (∀ L ∈ Ls, ∀ o ∈ L, o.optional = false) ∨ nameMatch nameKey g d = nameMatch nameKey g' d')
    (hfit : (known (history_facts hs.schema (by decide) (h.before hm).1) hs (h.before hm).2).Fits d (Aql.alternatives e) Ls)
    (hfit' : (known (history_facts hs'.schema (by decide) (h.after hm).1) hs' (h.after hm).2).Fits d' (Aql.alternatives e) Ls)
    {order order' : ResultOrder} (hor : order = .normal ∨ order = .inverted) (hor' : order' = .normal ∨ order' = .inverted) {page page' : List Str}
    (hfind : FindAll Er doc d text [corpusOf s g] order 0 none page) (hfind' : FindAll Er doc d' text [corpusOf s' g'] order' 0 none page') :
    page.Perm page' := by
  obtain ⟨rows, r1, r2, rfl⟩ := C113_find_partial (h.before hm).1 (by decide) hs (h.before hm).2 ht hok hfit hor hfind
  obtain ⟨rows', r1', r2', rfl⟩ := C113_find_partial (h.after hm).1 (by decide) hs' (h.after hm).2 ht hok' hfit' hor' hfind'
  have : rows.Perm rows' := (List.perm_ext_iff_of_nodup r1 r1').2 fun row => by
    rw [r2, r2']
    exact exists_congr fun i => C115_answers_partial h hm hs hopt
  simpa [slice] using this.map (Names.idOf Ls)

end

end Exported
