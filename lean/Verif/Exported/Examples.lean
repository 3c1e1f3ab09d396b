import Verif.Exported.Props
import Verif.Queried.Examples

/-!
# An example for C115: the corpus of C114 is exported and imported again
-/

set_option linter.unusedSimpArgs false
set_option linter.unusedVariables false
set_option maxRecDepth 8000

namespace Exported.Ex

open Graph Graph.Index
open Answer hiding nameKey
open Answer.Ex hiding loadedOf
open Answer.Transport Whole TextSpec
open Rel (schema nameKey typeKey tokKey schema_ok comp compOf compOf_inj)
open Rel.QueriedEx (g events history set set_tok set_ok loadedOf catN tokN pre row1 distinct_names alts_names updated)

/-! ## The document -/

def visits : Visits (CKey Str) := ⟨id, List.reverse, id, List.reverse, id⟩

theorem visits_ok : visits.Ok := ⟨fun _ => .refl _, fun l => List.reverse_perm l, fun _ => .refl _, fun l => List.reverse_perm l, fun _ => .refl _⟩

def doc : GDoc (CKey Str) := toDoc schema nameKey typeKey visits g (some "cfg".toList)

theorem presents : Presents nameKey typeKey doc (Spec.noIndex schema (GSpec.empty.run nameKey typeKey events)) :=
  C115_document schema_ok (by decide) history.1 visits_ok _

/-- C115 (document): all nine nodes and no generated component. -/
theorem C115_document_nonvacuous : doc.nodes.length = 9 ∧ (g.comp schema.left).sources ≠ [] ∧
    doc.edges.all (fun e => !isIndex schema e.2.2.1) = true ∧ (pre ['v'], pre ['s'], Rel.QueriedEx.depC) ∈ doc.edges.map fun e => (e.1, e.2.1, e.2.2.1) := by
  refine ⟨by decide +kernel, by decide +kernel, by decide +kernel, by decide +kernel⟩

theorem plain_of {k : AnnoKey Str} (h : (∀ c ∈ k.ns ++ k.name, c.toNat < 128 ∧ qnameSet (UInt8.ofNat c.toNat) = false) ∧ NoXml k.ns ∧ NoXml k.name) :
    PlainKey k := ⟨fun c hc => h.1 c (List.mem_append.2 hc), h.2⟩

theorem readable : Readable printComp parseComp (Spec.noIndex schema (GSpec.empty.run nameKey typeKey events)) := by
  refine readable_of_doc presents ?_ ?_ ?_
  · have h : ∀ k ∈ doc.keys, (∀ c ∈ k.ns ++ k.name, c.toNat < 128 ∧ qnameSet (UInt8.ofNat c.toNat) = false) ∧ NoXml k.ns ∧ NoXml k.name := by
      decide +kernel
    exact fun k hk => plain_of (h k hk)
  · decide +kernel
  · have h1 : ∀ e ∈ doc.edges, NoXml (printComp e.2.2.1) := by decide +kernel
    have h2 : (doc.edges.all fun e => decide (parseComp (printComp e.2.2.1) = some e.2.2.1)) = true := by decide +kernel
    exact fun e he => ⟨h1 e he, of_decide_eq_true (List.all_eq_true.1 h2 e he)⟩

/-! ## The import -/

def events2 : List (Event Str Str (CKey Str)) := ((importEvents typeKey parseComp (doc.export printComp)).map Prod.fst).getD []
def numbered2 : List (Nat × Event Str Str (CKey Str)) := events2.map fun e => (0, e)
def g2 : Graph Str Str (CKey Str) := (update schema nameKey typeKey tokKey 4 Rel.QueriedEx.ch Graph.new numbered2).getD Graph.new

theorem imported2 : importEvents typeKey parseComp (doc.export printComp) = some (events2, some "cfg".toList) := by
  have h : (importEvents typeKey parseComp (doc.export printComp)).map Prod.snd = some (some "cfg".toList) := by decide +kernel
  unfold events2
  cases hc : importEvents typeKey parseComp (doc.export printComp) with
  | none => rw [hc] at h; cases h
  | some r =>
    rw [hc] at h
    simp only [Option.map_some, Option.some.injEq] at h
    obtain ⟨r1, r2⟩ := r
    subst h
    rfl

theorem updated2 : update schema nameKey typeKey tokKey 4 Rel.QueriedEx.ch Graph.new numbered2 = some g2 := Index.Demo.some_getD (by decide +kernel)

theorem full : ∀ c ∈ g.comps.keys, c ≠ schema.left → c ≠ schema.right → c ≠ schema.inh → ∃ a b, E g c a b := by
  have h : (g.comps.keys.all fun c => isIndex schema c || ([0, 1, 2, 3, 4, 5, 6, 7, 8] : List NodeID64).any fun a => !((g.comp c).out a).isEmpty) = true := by
    decide +kernel
  intro c hc h1 h2 h3
  have := List.all_eq_true.1 h c hc
  rw [isIndex_false.2 ⟨h1, h2, h3⟩, Bool.false_or] at this
  obtain ⟨a, _, ha⟩ := List.any_eq_true.1 this
  cases ho : (g.comp c).out a with
  | nil => rw [ho] at ha; cases ha
  | cons b r => exact ⟨a, b, by unfold E; rw [ho]; simp⟩

set_option maxHeartbeats 1000000 in
theorem reimport : Reimport 4 4 events g events2 g2 where
  history := history.1
  chains := history.2.1
  tokens := history.2.2
  full := full
  imported := ⟨visits, printComp, parseComp, some "cfg".toList, some "cfg".toList, visits_ok, readable, imported2⟩
  updated := ⟨Rel.QueriedEx.ch, numbered2, fun l => List.Perm.refl l, by simp [evs, numbered2], updated2⟩

theorem same : SameModel set set := ⟨rfl, rfl, set_tok, rfl, rfl, rfl, rfl⟩

/-! ## The settings -/

namespace Second

def compsB : Bool := g2.comps.keys.all fun c =>
  !(decide (schema.kind c = .dominance) || decide (schema.kind c = .pointing) || decide (c = set.part)) ||
    decide ((loadedOf (storeOf g2 c)).sources = (g2.comp c).sources)

theorem set_ok : SettingOk set g2 where
  schema := schema_ok
  exact := by intro v w; simp [Rel.QueriedEx.set, env]
  part := by
    have h : set.part ≠ schema.left ∧ set.part ≠ schema.right ∧ set.part ≠ schema.inh := ⟨by decide +kernel, by decide +kernel, by decide +kernel⟩
    exact h
  segc := fun seg => by
    show comp .ordering "default_ns".toList seg ≠ comp .leftToken "annis".toList [] ∧ comp .ordering "default_ns".toList seg ≠ comp .rightToken "annis".toList [] ∧
      comp .ordering "default_ns".toList seg ≠ comp .coverage "annis".toList "inherited-coverage".toList
    refine ⟨?_, ?_, ?_⟩ <;> intro h <;> exact absurd (compOf_inj (congrArg some h : compOf _ _ _ = compOf _ _ _)).1 (by decide)
  nodes := by intro c h; cases h
  allOrdered := by intro h; cases h
  loaded := by
    intro c hc
    by_cases hk : c ∈ g2.comps.keys
    · have h : compsB = true := by decide +kernel
      have := List.all_eq_true.1 h c hk
      simp only [Bool.or_eq_true, Bool.not_eq_true', decide_eq_true_eq, Bool.or_eq_false_iff, decide_eq_false_iff_not] at this
      rcases this with h | h
      · rcases hc with hc | hc | hc
        · exact absurd hc h.1.1
        · exact absurd hc h.1.2
        · exact absurd hc h.2
      · exact h
    · have he : g2.comp c = Adj.new := by
        unfold Graph.comp
        rw [OMap.get_eq_none_iff.2 hk]; rfl
      change (loadedOf (storeOf g2 c)).sources = _
      unfold loadedOf storeOf
      rw [he]
      decide +kernel

theorem no_cost {spec : NsSpec Str Str} {op : Aql.BinSpec Parse.OpSpec} {neg : Bool} :
    Replaceable (corpusOf set g2).db set.env (relsOf set g2) spec op neg := by
  intro est e h; cases h

theorem tokens_found : (corpusOf set g2).g.anyTokens ≠ none := by
  have : (corpusOf set g2).g.anyTokens.isSome = true := by decide +kernel
  intro h
  rw [h] at this
  cases this

theorem alt1_names : Answer.Names.AltOk set g2 0 alt1 list1 where
  nonempty := alt1_ok.nonempty
  unambiguous := alt1_ok.unambiguous
  connected := alt1_ok.connected
  required := by
    intro lhs op rhs h i o hd ho
    simp only [alt1, List.mem_cons, List.not_mem_nil, or_false, Aql.Literal.bin.injEq, Bool.false_eq_true, and_false] at h
    obtain ⟨rfl, rfl, rfl, _⟩ := h
    rw [den1_0, den1_1] at hd
    rcases at1.1 ho with ⟨rfl, rfl⟩ | ⟨rfl, rfl⟩ | ⟨rfl, rfl⟩
    · rfl
    · rfl
    · omega
  supported := by
    intro lhs op rhs neg h
    simp only [alt1, List.mem_cons, List.not_mem_nil, or_false, Aql.Literal.bin.injEq] at h
    rcases h with ⟨_, rfl, _, _⟩ | ⟨_, rfl, _, _⟩ <;> trivial
  segments := by
    intro lhs op rhs neg h
    simp only [alt1, List.mem_cons, List.not_mem_nil, or_false, Aql.Literal.bin.injEq] at h
    rcases h with ⟨_, rfl, _, _⟩ | ⟨_, rfl, _, _⟩ <;> trivial
  overlap := by intro lhs rhs neg h; simp [alt1] at h
  arity := alt1_ok.arity
  patterns := alt1_ok.patterns
  tokens := fun _ _ _ => tokens_found
  replaced := fun _ _ _ _ _ _ _ _ _ _ _ _ _ _ _ => no_cost

theorem alt2_names : Answer.Names.AltOk set g2 3 alt2 list2 where
  nonempty := alt2_ok.nonempty
  unambiguous := alt2_ok.unambiguous
  connected := alt2_ok.connected
  required := by
    intro lhs op rhs h i o hd ho
    rcases at2.1 ho with ⟨rfl, rfl⟩ | ⟨rfl, rfl⟩ <;> rfl
  supported := by
    intro lhs op rhs neg h
    simp only [alt2, List.mem_cons, List.not_mem_nil, or_false, Aql.Literal.bin.injEq, reduceCtorEq] at h
    obtain ⟨_, rfl, _, _⟩ := h
    trivial
  segments := by
    intro lhs op rhs neg h
    simp only [alt2, List.mem_cons, List.not_mem_nil, or_false, Aql.Literal.bin.injEq, reduceCtorEq] at h
    obtain ⟨_, rfl, _, _⟩ := h
    trivial
  overlap := by intro lhs rhs neg h; simp [alt2] at h
  arity := alt2_ok.arity
  patterns := alt2_ok.patterns
  tokens := fun _ _ _ => tokens_found
  replaced := fun _ _ _ _ _ _ _ _ _ _ _ _ _ _ _ => no_cost

theorem alts_names (i : Nat) (c : List Parse.QLit) (L : List (Aql.Occ (NsSpec Str Str))) (hc : [alt1, alt2][i]? = some c)
    (hL : [list1, list2][i]? = some L) : Answer.Names.AltOk set g2 (before [list1, list2] i) c L := by
  match i with
  | 0 => cases hc; cases hL; exact alt1_names
  | 1 => cases hc; cases hL; exact alt2_names
  | n + 2 => simp at hc

end Second

/-- C115: the nodes have other identifiers after the import. -/
theorem C115_identifiers_nonvacuous : g.annos.getValue 0 nameKey = some (pre ['a']) ∧ g2.annos.getValue 0 nameKey ≠ some (pre ['a']) := by decide +kernel

/-- Concrete case: after the export and the import the query of C114 can be executed, and every execution finds the same matches as an execution
before; one of them is the span `v` with the token `a`. The nodes have other identifiers now. -/
theorem C115_nonvacuous (sp : NsSpec Str Str) (d d' : SMatch NodeID64 (AnnoKey Str)) (hd : nameMatch nameKey g d = nameMatch nameKey g2 d') :
    (∃ out', Answers (E := Empty) (corpusOf set g2).env (corpusOf set g2).g (corpusOf set g2).db (corpusOf set g2).th (corpusOf set g2).order sp d'
      text out') ∧
    ∀ out out', Answers (E := Empty) (corpusOf set g).env (corpusOf set g).g (corpusOf set g).db (corpusOf set g).th (corpusOf set g).order sp d text out →
      Answers (E := Empty) (corpusOf set g2).env (corpusOf set g2).g (corpusOf set g2).db (corpusOf set g2).th (corpusOf set g2).order sp d' text out' →
      ∃ rows rows' : List (_root_.Row NodeID64 (AnnoKey Str)), out = rows.map .ok ∧ out' = rows'.map .ok ∧
        (rows.map (List.map (nameMatch nameKey g))).Perm (rows'.map (List.map (nameMatch nameKey g2))) ∧
        [catN (pre ['v']), tokN (pre ['a'])] ∈ rows'.map (List.map (nameMatch nameKey g2)) := by
  obtain ⟨e, ps, tree, h1, h2, h3, h4⟩ := text_parsed
  obtain ⟨qs, hqs⟩ := accepted sp h4
  obtain ⟨a1, a2⟩ := reimport.after same
  have facts := history_facts Second.set_ok.schema (by decide) a1
  obtain ⟨ops, ho⟩ := facts.made.annos
  obtain ⟨Ls, hLs, _, hex, _⟩ := C101_query_partial (E := Empty) (corpus_ok facts Second.set_ok a2 ho) (db_ok facts Second.set_ok) h1 h2 h3 sp hqs d' (by
    intro Ls hLs i c L hc hL
    rw [h4] at hLs hc
    rw [searches_unique hLs] at hL ⊢
    exact ⟨by
      match i with
      | 0 => cases hL; unfold Aql.NamesDistinct; decide
      | 1 => cases hL; unfold Aql.NamesDistinct; decide
      | n + 2 => simp at hc, altOk facts Second.set_ok a2 (Second.alts_names i c L hc hL)⟩)
  refine ⟨hex, fun out out' hout hout' => ?_⟩
  have hLs' := hLs
  rw [h4] at hLs'
  have := searches_unique hLs'
  subst this
  have hnd : ∀ L ∈ [list1, list2], Aql.NamesDistinct L := by
    intro L hL; simp only [List.mem_cons, List.not_mem_nil, or_false] at hL; rcases hL with rfl | rfl <;> (unfold Aql.NamesDistinct; decide)
  obtain ⟨rows, rows', r1, r2, r3⟩ := C115_results_partial (Er := Empty) reimport same set_ok Second.set_ok h1 h2 h3 sp hqs d d' hLs hnd
    (by rw [h4]; exact alts_names) (by rw [h4]; exact Second.alts_names) (Or.inr hd) (by rw [h4]; exact distinct_names _) hout hout'
  obtain ⟨rows0, r1', _, r3'⟩ := C113_results_partial (Er := Empty) (reimport.before same).1 (by decide) set_ok (reimport.before same).2 h1 h2 h3 sp hqs d hLs hnd
    (by rw [h4]; exact alts_names) (by rw [h4]; exact distinct_names _) hout
  refine ⟨rows, rows', r1, r2, r3, r3.subset ?_⟩
  have hrr : rows = rows0 := by
    rw [r1] at r1'
    exact List.map_injective_iff.2 (fun a b h => by cases h; rfl) r1'
  rw [hrr]
  rw [h4] at r3'
  exact (r3' _).2 ⟨0, row1 _⟩

/-- There are such `d` and `d'`: the token `a` before and after. -/
theorem C115_default_nonvacuous : nameMatch nameKey g ⟨0, typeKey⟩ = nameMatch nameKey g2 ⟨8, typeKey⟩ := by decide +kernel

/-! ## Without the conditions -/

/-- C115: a node whose label `annis::node_type` was deleted is still there and named, but not exported. -/
theorem C115_untyped_fails : ∃ (g : Graph Str Str (CKey Str)), ∃ i, g.annos.getValue i nameKey = some ['x'] ∧
    (docNodes nameKey typeKey visits g).map Prod.fst = [['y']] := by
  refine ⟨(update schema nameKey typeKey tokKey 4 Rel.QueriedEx.ch Graph.new
    [(1, .addNode ['x'] "node".toList), (2, .addNode ['y'] "node".toList), (3, .deleteNodeLabel ['x'] typeKey)]).getD Graph.new, 0, by decide +kernel, by decide +kernel⟩

end Exported.Ex
