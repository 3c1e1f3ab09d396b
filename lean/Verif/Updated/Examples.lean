import Verif.Updated.Props
import Verif.Index.Examples
import Verif.Answer.Examples

/-!
# An example for C113
-/

set_option linter.unusedSimpArgs false
set_option linter.unusedVariables false
set_option maxRecDepth 4000

namespace Answer.UpdatedEx

open Whole TextSpec Graph Graph.Index Answer.Ex Transport

def sc : Schema Nat :=
  { kind := fun c => match c with
      | 0 => .coverage | 1 => .dominance | 2 => .ordering | 3 => .leftToken | 4 => .rightToken | 5 => .coverage | 6 => .dominance
      | 8 => .partOf | _ => .pointing
    unnamed := fun c => c ≠ 1 ∧ c ≠ 5
    order := 2, left := 3, right := 4, inh := 5 }

def tk : AnnoKey Str := AnnoKey.mk annis nodeType
def tok : AnnoKey Str := AnnoKey.mk annis tokName
def ch : Choices := ⟨fun l => l, 5, fun _ _ => []⟩

def token (n : Str) : List (Event Str Str Nat) := [.addNode n "node".toList, .addNodeLabel n tok n]
def span (n : Str) : List (Event Str Str Nat) := [.addNode n "node".toList, .addNodeLabel n (AnnoKey.mk [] cat) n]
def edge (s t : Str) (c : Nat) : Event Str Str Nat := .addEdge s t (some c)
def number (l : List (Event Str Str Nat)) : List (Nat × Event Str Str Nat) := l.map fun e => (0, e)

/-- Three tokens; `s` covers `b` and `c`, `v` covers `a` and `b` and points to `s`. -/
def u1 : List (Event Str Str Nat) :=
  token ['a'] ++ token ['b'] ++ token ['c'] ++ span ['s'] ++ span ['v'] ++ [edge ['a'] ['b'] 2, edge ['b'] ['c'] 2, edge ['s'] ['b'] 0,
    edge ['s'] ['c'] 0, edge ['v'] ['a'] 0, edge ['v'] ['b'] 0, edge ['v'] ['s'] 7]

/-- A fourth token; `s` covers it, but no longer `b`. -/
def u2 : List (Event Str Str Nat) := token ['d'] ++ [edge ['c'] ['d'] 2, edge ['s'] ['d'] 0, .deleteEdge ['s'] ['b'] (some 0)]

def step (g : Graph Str Str Nat) (l : List (Event Str Str Nat)) : Graph Str Str Nat := (update sc nameKey tk tok 4 ch g (number l)).getD Graph.new

def g1 : Graph Str Str Nat := step Graph.new u1
def g2 : Graph Str Str Nat := step g1 u2

def stepB (g : Graph Str Str Nat) (l : List (Event Str Str Nat)) : Bool :=
  (update sc nameKey tk tok 4 ch g (number l)).isSome && (((evs (number l)).all fun e => eventB nameKey tk tok g e && addsOnly e) &&
    (namedB sc g && (segB sc tok (step g l) && (orderB sc tok (step g l) && stableB sc tok g (step g l)))))

theorem b1 : stepB Graph.new u1 = true := by decide +kernel
theorem b2 : stepB g1 u2 = true := by decide +kernel

theorem sc_ok : SchemaOk sc := ⟨rfl, rfl, rfl, rfl⟩
theorem keys_ne : nameKey ≠ tk := by decide

theorem evs_number (l : List (Event Str Str Nat)) : evs (number l) = l := by
  simp [evs, number]

theorem history_step {l0 : List (Event Str Str Nat)} {g : Graph Str Str Nat} (h : History sc nameKey tk tok 4 l0 g) (l : List (Event Str Str Nat))
    (hb : stepB g l = true) : History sc nameKey tk tok 4 (l0 ++ evs (number l)) (step g l) := by
  have hf := history_facts sc_ok keys_ne h
  unfold stepB at hb
  simp only [Bool.and_eq_true] at hb
  obtain ⟨h1, h2, h3, h4, h5, h6⟩ := hb
  refine .step (number l) ch (fun l => List.Perm.refl l) h (Demo.some_getD h1) (updateOk_of hf.inv (by simpa [List.all_eq_true] using h2) h3 h4 h5 h6) ?_
  intro l1 l2 n hl
  simp only [List.all_eq_true, Bool.and_eq_true] at h2
  have := (h2 (.deleteNode n) (by rw [hl]; simp)).2
  cases this

theorem history : History sc nameKey tk tok 4 (([] ++ evs (number u1)) ++ evs (number u2)) g2 :=
  history_step (history_step .new u1 b1) u2 b2

/-! ## The settings -/

/-- The sources of a component, among the nodes of the example. -/
def loadedOf (c : EdgeStore NodeID64 Str Str) : PocStore NodeID64 where
  sources := ([0, 1, 2, 3, 4, 5] : List NodeID64).filter fun n => match c.g.out n with
    | some (_ :: _) => true
    | _ => false
  nodes := none

def set : Setting Nat where
  name := "c".toList
  env := env
  sc := sc
  cname c := if c = 7 then dep else []
  part := 8
  segc _ := 9
  nodes _ := none
  allOrdered := false
  cmp a b := some (compare a b)
  fuel := 5
  pivots := []
  loaded := loadedOf
  tokenComps _ := []
  cost _ := none

def edgesB (c : Nat) (ps : List (NodeID64 × NodeID64)) : Bool := (ends g2).all fun a => ((g2.comp c).out a).all fun b => decide ((a, b) ∈ ps)

theorem edges_of {c : Nat} {ps : List (NodeID64 × NodeID64)} (h : edgesB c ps = true) {a b : NodeID64} (hab : E g2 c a b) : (a, b) ∈ ps := by
  unfold edgesB at h
  simp only [List.all_eq_true, decide_eq_true_eq] at h
  exact h a (mem_ends hab).1 b hab

theorem facts : Facts set.sc nameKey tk set.tok (([] ++ evs (number u1)) ++ evs (number u2)) g2 := history_facts sc_ok keys_ne history

theorem order_edges {a b : NodeID64} : E g2 2 a b ↔ (a, b) ∈ [((0 : NodeID64), (1 : NodeID64)), (1, 2), (2, 5)] := by
  constructor
  · exact edges_of (by decide +kernel)
  · intro h
    simp only [List.mem_cons, Prod.mk.injEq, List.not_mem_nil, or_false] at h
    rcases h with ⟨rfl, rfl⟩ | ⟨rfl, rfl⟩ | ⟨rfl, rfl⟩ <;> (unfold E; decide +kernel)

theorem tok_of {n : NodeID64} (h : n ∈ ([0, 1, 2, 5] : List NodeID64)) : IsTok sc tok g2 n := by
  rw [← tokB_iff]
  simp only [List.mem_cons, List.not_mem_nil, or_false] at h
  rcases h with rfl | rfl | rfl | rfl <;> decide +kernel

theorem keys_eq : g2.comps.keys = [0, 2, 3, 4, 5, 7] := by decide +kernel

theorem set_ok : SettingOk set g2 where
  schema := sc_ok
  exact := by intro v w; simp [set, env]
  part := by decide
  segc := fun _ => by show (9 : Nat) ≠ 3 ∧ (9 : Nat) ≠ 4 ∧ (9 : Nat) ≠ 5; decide
  nodes := by intro c h; cases h
  allOrdered := by intro h; cases h
  loaded := by
    intro c hc
    by_cases h7 : c = 7
    · subst h7; decide +kernel
    · have hk : c ∉ g2.comps.keys := by
        rw [keys_eq]
        intro hm
        simp only [List.mem_cons, List.not_mem_nil, or_false] at hm
        rcases hm with rfl | rfl | rfl | rfl | rfl | rfl <;> revert hc <;> first | decide | exact fun _ => h7 rfl
      have he : g2.comp c = Adj.new := by
        unfold Graph.comp
        rw [OMap.get_eq_none_iff.2 hk]; rfl
      change (loadedOf (storeOf g2 c)).sources = _
      unfold loadedOf storeOf
      rw [he]
      decide +kernel

theorem data_ok : DataOk set g2 where
  chains := by
    refine ⟨?_, ?_, ?_⟩
    · intro a b c h1 h2
      have h1 := order_edges.1 h1
      have h2 := order_edges.1 h2
      simp only [List.mem_cons, Prod.mk.injEq, List.not_mem_nil, or_false] at h1 h2
      rcases h1 with ⟨rfl, rfl⟩ | ⟨rfl, rfl⟩ | ⟨rfl, rfl⟩ <;> rcases h2 with ⟨h, rfl⟩ | ⟨h, rfl⟩ | ⟨h, rfl⟩ <;> first | rfl | exact absurd h (by decide)
    · intro a b c h1 h2
      have h1 := order_edges.1 h1
      have h2 := order_edges.1 h2
      simp only [List.mem_cons, Prod.mk.injEq, List.not_mem_nil, or_false] at h1 h2
      rcases h1 with ⟨rfl, rfl⟩ | ⟨rfl, rfl⟩ | ⟨rfl, rfl⟩ <;> rcases h2 with ⟨rfl, h⟩ | ⟨rfl, h⟩ | ⟨rfl, h⟩ <;> first | rfl | exact absurd h (by decide)
    · have hlt : ∀ a b, E g2 2 a b → a < b := by
        intro a b h1
        have h1 := order_edges.1 h1
        simp only [List.mem_cons, Prod.mk.injEq, List.not_mem_nil, or_false] at h1
        rcases h1 with ⟨rfl, rfl⟩ | ⟨rfl, rfl⟩ | ⟨rfl, rfl⟩ <;> decide
      intro a ha
      have : ∀ b, Relation.TransGen (E g2 2) a b → a < b := by
        intro b hb
        induction hb with
        | single h => exact hlt _ _ h
        | tail _ h ih => exact lt_trans ih (hlt _ _ h)
      exact lt_irrefl _ (this a ha)
  tokens := by
    intro a b h1
    have h1 := order_edges.1 h1
    simp only [List.mem_cons, Prod.mk.injEq, List.not_mem_nil, or_false] at h1
    rcases h1 with ⟨rfl, rfl⟩ | ⟨rfl, rfl⟩ | ⟨rfl, rfl⟩ <;> exact ⟨tok_of (by simp), tok_of (by simp)⟩

/-! ## The query -/

theorem no_cost {spec : NsSpec Str Str} {op : Aql.BinSpec Parse.OpSpec} {neg : Bool} :
    Replaceable (corpusOf set g2).db set.env (relsOf set g2) spec op neg := by
  intro est e h; cases h

theorem tokens_found : (corpusOf set g2).g.anyTokens ≠ none := by
  have : (corpusOf set g2).g.anyTokens.isSome = true := by decide +kernel
  intro h
  rw [h] at this
  cases this

theorem alt1_names : Names.AltOk set g2 0 alt1 list1 where
  nonempty := alt1_ok.nonempty
  unambiguous := alt1_ok.unambiguous
  connected := alt1_ok.connected
  required := by
    intro lhs op rhs h i o hd ho
    simp only [alt1, List.mem_cons, List.not_mem_nil, or_false, Aql.Literal.bin.injEq, Bool.false_eq_true, and_false] at h
    obtain ⟨rfl, rfl, rfl, _⟩ := h
    rw [den1_0, den1_1] at hd
    rcases at1.1 ho with ⟨rfl, rfl⟩ | ⟨rfl, rfl⟩ | ⟨rfl, rfl⟩
    · rfl
    · rfl
    · omega
  supported := by
    intro lhs op rhs neg h
    simp only [alt1, List.mem_cons, List.not_mem_nil, or_false, Aql.Literal.bin.injEq] at h
    rcases h with ⟨_, rfl, _, _⟩ | ⟨_, rfl, _, _⟩ <;> trivial
  segments := by
    intro lhs op rhs neg h
    simp only [alt1, List.mem_cons, List.not_mem_nil, or_false, Aql.Literal.bin.injEq] at h
    rcases h with ⟨_, rfl, _, _⟩ | ⟨_, rfl, _, _⟩ <;> trivial
  overlap := by intro lhs rhs neg h; simp [alt1] at h
  arity := alt1_ok.arity
  patterns := alt1_ok.patterns
  tokens := fun _ _ _ => tokens_found
  replaced := fun _ _ _ _ _ _ _ _ _ _ _ _ _ _ _ => no_cost

theorem alt2_names : Names.AltOk set g2 3 alt2 list2 where
  nonempty := alt2_ok.nonempty
  unambiguous := alt2_ok.unambiguous
  connected := alt2_ok.connected
  required := by
    intro lhs op rhs h i o hd ho
    rcases at2.1 ho with ⟨rfl, rfl⟩ | ⟨rfl, rfl⟩ <;> rfl
  supported := by
    intro lhs op rhs neg h
    simp only [alt2, List.mem_cons, List.not_mem_nil, or_false, Aql.Literal.bin.injEq, reduceCtorEq] at h
    obtain ⟨_, rfl, _, _⟩ := h
    trivial
  segments := by
    intro lhs op rhs neg h
    simp only [alt2, List.mem_cons, List.not_mem_nil, or_false, Aql.Literal.bin.injEq, reduceCtorEq] at h
    obtain ⟨_, rfl, _, _⟩ := h
    trivial
  overlap := by intro lhs rhs neg h; simp [alt2] at h
  arity := alt2_ok.arity
  patterns := alt2_ok.patterns
  tokens := fun _ _ _ => tokens_found
  replaced := fun _ _ _ _ _ _ _ _ _ _ _ _ _ _ _ => no_cost

theorem alts_names (i : Nat) (c : List Parse.QLit) (L : List (Aql.Occ (NsSpec Str Str))) (hc : [alt1, alt2][i]? = some c)
    (hL : [list1, list2][i]? = some L) : Names.AltOk set g2 (before [list1, list2] i) c L := by
  match i with
  | 0 => cases hc; cases hL; exact alt1_names
  | 1 => cases hc; cases hL; exact alt2_names
  | n + 2 => simp at hc

/-! ## The answers -/

/-- The graph that the events describe. -/
abbrev spec : GSpec Str Str Nat := GSpec.empty.run nameKey tk (([] ++ evs (number u1)) ++ evs (number u2))

theorem name_a : HasName nameKey g2 0 ['a'] := by unfold HasName; decide +kernel
theorem name_b : HasName nameKey g2 1 ['b'] := by unfold HasName; decide +kernel
theorem name_s : HasName nameKey g2 3 ['s'] := by unfold HasName; decide +kernel
theorem name_v : HasName nameKey g2 4 ['v'] := by unfold HasName; decide +kernel

theorem dep_edge {x y : Str} (h : spec.edge 7 x y = true) : x = ['v'] ∧ y = ['s'] := by
  obtain ⟨a, b, ha, hb, hab⟩ := edge_bwd (s := set) facts (c := 7) (by decide) x y h
  have := edges_of (c := 7) (ps := [(4, 3)]) (by decide +kernel) hab
  simp only [List.mem_singleton, Prod.mk.injEq] at this
  obtain ⟨rfl, rfl⟩ := this
  exact ⟨(names_unique facts).fn _ _ _ ha name_v, (names_unique facts).fn _ _ _ hb name_s⟩

theorem means_dep {x y : Str} : Names.Means sc env set.cname 8 set.segc (· ∈ g2.comps.keys) spec (.join (.pointing dep (.bound 1 1) none)) x y ↔
    x = ['v'] ∧ y = ['s'] := by
  constructor
  · rintro ⟨c, ⟨h1, h2, h3⟩, ⟨n, ⟨p, ⟨g1, g3, g4⟩, _, hl⟩, hw⟩, _⟩
    have hn : n = 1 := by
      obtain ⟨w1, w2⟩ := hw
      simp only [RangeSpec.minDist, RangeSpec.maxDist] at w1 w2
      omega
    subst hn
    have hc : c = 7 := by
      by_contra hc
      simp only [set, if_neg hc] at h3
      exact absurd h3 (by decide)
    subst hc
    match p, hl with
    | [x, y], _ =>
      simp at g1 g3
      subst g1 g3
      exact dep_edge (by simpa using g4)
  · rintro ⟨rfl, rfl⟩
    exact ⟨7, ⟨by rw [keys_eq]; decide, rfl, rfl⟩, ⟨1, ⟨[['v'], ['s']], ⟨rfl, rfl, by simp; decide +kernel⟩, by decide, rfl⟩, ⟨le_refl 1, le_refl 1⟩⟩,
      by simp⟩

def catN (n : Str) : NMatch := (some n, AnnoKey.mk [] cat)
def tokN (n : Str) : NMatch := (some n, AnnoKey.mk annis nodeType)

abbrev Found (sp : NsSpec Str Str) (x : NMatch) : Prop :=
  ∃ n k, x.1 = some n ∧ NodeSearch.Wanted env spec.label (Names.Cov sc tok spec) sp n k ∧ x.2 = NodeSearch.ShownKey env sp k

theorem found_cat (n : Str) (h : n = ['s'] ∨ n = ['v']) : Found catS (catN n) := by
  rcases h with rfl | rfl
  · exact ⟨['s'], AnnoKey.mk [] cat, rfl, ⟨rfl, fun _ h => by simp at h, ['s'], by decide +kernel, by simp⟩, rfl⟩
  · exact ⟨['v'], AnnoKey.mk [] cat, rfl, ⟨rfl, fun _ h => by simp at h, ['v'], by decide +kernel, by simp⟩, rfl⟩

theorem tok_a : Names.Tok sc tok spec ['a'] := (tok_at facts set_ok name_a).1 (tok_of (by simp))

theorem not_cov {t : Str} : ¬ Names.Cov sc tok spec ['a'] t := by
  rintro (h | ⟨_, _, h⟩)
  · exact tok_a.2 ⟨t, h⟩
  · rw [Relation.TransGen.head'_iff] at h
    obtain ⟨u, h | ⟨c, h1, h2⟩, _⟩ := h
    · exact tok_a.2 ⟨u, h⟩
    · have hc : c = 1 ∨ c = 6 := by
        change sc.kind c = _ at h1
        unfold sc at h1
        simp only at h1
        split at h1 <;> first | (left; rfl) | (right; rfl) | cases h1
      rcases hc with rfl | rfl
      · obtain ⟨a, b, _, _, hab⟩ := edge_bwd (s := set) facts (c := 1) (by decide) _ _ h2
        exact absurd (edges_of (c := 1) (ps := []) (by decide +kernel) hab) (by simp)
      · obtain ⟨a, b, _, _, hab⟩ := edge_bwd (s := set) facts (c := 6) (by decide) _ _ h2
        exact absurd (edges_of (c := 6) (ps := []) (by decide +kernel) hab) (by simp)

theorem found_tok : Found .anyToken (tokN ['a']) :=
  ⟨['a'], AnnoKey.mk annis tokName, rfl, ⟨⟨rfl, fun _ h => by simpa [env] using h, ['a'], by decide +kernel, trivial⟩, fun ⟨_, h⟩ => not_cov h⟩, rfl⟩

theorem first_v : Names.First sc tok spec ['v'] ['a'] := (first_at facts set_ok name_v name_a).1 ((firstB_iff _ _).1 (by decide +kernel))
theorem last_v : Names.Last sc tok spec ['v'] ['b'] := (last_at facts set_ok name_v name_b).1 ((lastB_iff _ _).1 (by decide +kernel))
theorem not_tok_v : ¬ Names.Tok sc tok spec ['v'] := by
  intro h
  have := (tokB_iff (sc := sc) (tok := tok) (g := g2) 4).2 ((tok_at facts set_ok name_v).2 h)
  exact absurd this (by decide +kernel)

theorem row1 (d : NMatch) : Names.AnswersAlt sc env set.cname 8 set.segc (· ∈ g2.comps.keys) spec d [alt1, alt2] [list1, list2] 0 [catN ['v'], tokN ['a']] := by
  refine ⟨alt1, list1, rfl, rfl, ?_⟩
  constructor
  · intro i
    constructor
    · intro h
      simp only [List.length_cons, List.length_nil] at h
      exact ⟨1, ⟨8, .anyToken, none, false⟩, by omega, rfl, rfl⟩
    · rintro ⟨n, o, hi, ho, hopt⟩
      simp only [List.length_cons, List.length_nil]
      rcases at1.1 ho with ⟨rfl, rfl⟩ | ⟨rfl, rfl⟩ | ⟨rfl, rfl⟩
      · omega
      · omega
      · simp at hopt
  · intro n o ho hopt
    rcases at1.1 ho with ⟨rfl, rfl⟩ | ⟨rfl, rfl⟩ | ⟨rfl, rfl⟩
    · exact ⟨_, rfl, found_cat _ (by simp)⟩
    · exact ⟨_, rfl, found_tok⟩
    · simp at hopt
  · intro n o x ho hopt hx
    rcases at1.1 ho with ⟨rfl, rfl⟩ | ⟨rfl, rfl⟩ | ⟨rfl, rfl⟩
    · simp at hopt
    · simp at hopt
    · simp at hx
  · intro lhs op rhs h i j hi hj
    simp only [alt1, List.mem_cons, List.not_mem_nil, or_false, Aql.Literal.bin.injEq, Bool.false_eq_true, and_false] at h
    obtain ⟨rfl, rfl, rfl, _⟩ := h
    rw [show before [list1, list2] 0 = 0 from rfl, den1_0] at hi
    rw [show before [list1, list2] 0 = 0 from rfl, den1_1] at hj
    subst hi hj
    refine ⟨_, _, rfl, rfl, ['v'], ['a'], rfl, rfl, ['a'], ['b'], ['a'], ['a'], Or.inr ⟨not_tok_v, first_v⟩, Or.inr ⟨not_tok_v, last_v⟩, Or.inl ⟨tok_a, rfl⟩,
      Or.inl ⟨tok_a, rfl⟩, ⟨.refl, .single ?_⟩, ⟨.refl, .single ?_⟩⟩ <;> (unfold Names.Next; decide +kernel)
  · intro lhs op rhs h i j a b hi hj ha hb hoa hob
    simp only [alt1, List.mem_cons, List.not_mem_nil, or_false, Aql.Literal.bin.injEq, Bool.true_eq_false, and_false, false_or] at h
    obtain ⟨rfl, rfl, rfl, _⟩ := h
    rw [show before [list1, list2] 0 = 0 from rfl, den1_2] at hi
    subst hi
    rcases at1.1 ha with ⟨h, _⟩ | ⟨h, _⟩ | ⟨_, rfl⟩
    · omega
    · omega
    · simp at hoa
  · intro lhs op rhs h i j a b hi hj ha hb hoa hob
    simp only [alt1, List.mem_cons, List.not_mem_nil, or_false, Aql.Literal.bin.injEq, Bool.true_eq_false, and_false, false_or] at h
    obtain ⟨rfl, rfl, rfl, _⟩ := h
    rw [show before [list1, list2] 0 = 0 from rfl, den1_2] at hi
    subst hi
    rcases at1.1 ha with ⟨h, _⟩ | ⟨h, _⟩ | ⟨_, rfl⟩
    · omega
    · omega
    · simp at hoa
  · intro lhs op rhs h i j a b hi hj ha hb hoa hob
    simp only [alt1, List.mem_cons, List.not_mem_nil, or_false, Aql.Literal.bin.injEq, Bool.true_eq_false, and_false, false_or] at h
    obtain ⟨rfl, rfl, rfl, _⟩ := h
    rw [show before [list1, list2] 0 = 0 from rfl, den1_ref] at hj
    subst hj
    refine ⟨_, rfl, ?_⟩
    rintro ⟨x, _, a, b, _, hb, hm⟩
    cases hb
    exact absurd (means_dep.1 hm).2 (by decide)
  · intro ref range h; simp [alt1] at h

theorem distinct_names (d : NMatch) (i : Nat) (L : List (Aql.Occ (NsSpec Str Str))) (row : List NMatch) (hL : [list1, list2][i]? = some L)
    (h : Names.AnswersAlt sc env set.cname 8 set.segc (· ∈ g2.comps.keys) spec d [alt1, alt2] [list1, list2] i row) : DistinctBy L row := by
  obtain ⟨c, L', hc, hL', ha⟩ := h
  rw [hL] at hL'
  cases hL'
  match i with
  | 0 =>
    cases hc; cases hL
    obtain ⟨x, hx, _, k, _, hk, hxk⟩ := ha.found 0 _ rfl rfl
    obtain ⟨y, hy, _, k', _, hk', hyk⟩ := ha.found 1 _ rfl rfl
    have hne : x ≠ y := by
      intro e
      subst e
      rw [hxk] at hyk
      have : cat = nodeType := by
        rw [← hk.1]
        exact congrArg AnnoKey.name hyk
      exact absurd this (by decide)
    intro i j z a b hij ha hb hoa hob h1 h2
    rcases at1.1 ha with ⟨rfl, rfl⟩ | ⟨rfl, rfl⟩ | ⟨rfl, rfl⟩ <;> rcases at1.1 hb with ⟨rfl, rfl⟩ | ⟨rfl, rfl⟩ | ⟨rfl, rfl⟩ <;>
      first
      | exact hij rfl
      | (simp at hoa; done)
      | (simp at hob; done)
      | exact hne (Option.some.inj (hx.symm.trans (h1.trans (h2.symm.trans hy))))
      | exact hne (Option.some.inj (hx.symm.trans (h2.trans (h1.symm.trans hy))))
  | 1 =>
    cases hc; cases hL
    obtain ⟨x, y, hx, hy, a, b, hxa, hyb, hm⟩ := ha.holds _ _ _ (by simp only [alt2]; exact List.mem_cons_self) 0 1 (den2_0.2 rfl) (den2_1.2 rfl)
    have hm := means_dep.1 hm
    have hne : x ≠ y := by
      intro e
      subst e
      rw [hxa, hm.1, hm.2] at hyb
      exact absurd hyb (by decide)
    intro i j z a b hij ha hb hoa hob h1 h2
    rcases at2.1 ha with ⟨rfl, rfl⟩ | ⟨rfl, rfl⟩ <;> rcases at2.1 hb with ⟨rfl, rfl⟩ | ⟨rfl, rfl⟩ <;>
      first
      | exact hij rfl
      | exact hne (Option.some.inj (hx.symm.trans (h1.trans (h2.symm.trans hy))))
      | exact hne (Option.some.inj (hx.symm.trans (h2.trans (h1.symm.trans hy))))
  | n + 2 => simp at hc

/-- Concrete case: after the two updates the query `cat _i_ tok & cat? !->dep #1 | cat ->dep cat & #4:arity=1` can be executed, and every execution
finds the span `v` with the token `a`. The span `s` with the token `c` is never found, because `v` points to `s`. -/
theorem C113_nonvacuous (doc : NsSpec Str Str) (d : SMatch NodeID64 (AnnoKey Str)) :
    (∃ out, Answers (E := Empty) (corpusOf set g2).env (corpusOf set g2).g (corpusOf set g2).db (corpusOf set g2).th (corpusOf set g2).order doc d
      text out) ∧
    ∀ out, Answers (E := Empty) (corpusOf set g2).env (corpusOf set g2).g (corpusOf set g2).db (corpusOf set g2).th (corpusOf set g2).order doc d
      text out → ∃ rows : List (Row NodeID64 (AnnoKey Str)), out = rows.map .ok ∧
        [catN ['v'], tokN ['a']] ∈ rows.map (List.map (nameMatch nameKey g2)) ∧
        [catN ['s'], tokN ['c']] ∉ rows.map (List.map (nameMatch nameKey g2)) := by
  obtain ⟨e, ps, tree, h1, h2, h3, h4⟩ := text_parsed
  obtain ⟨qs, hqs⟩ := accepted doc h4
  obtain ⟨ops, ho⟩ := facts.made.annos
  obtain ⟨Ls, hLs, _, hex, _⟩ := C101_query_partial (E := Empty) (corpus_ok facts set_ok data_ok ho) (db_ok facts set_ok) h1 h2 h3 doc hqs d (by
    intro Ls hLs i c L hc hL
    rw [h4] at hLs hc
    rw [searches_unique hLs] at hL ⊢
    exact ⟨by
      match i with
      | 0 => cases hL; unfold Aql.NamesDistinct; decide
      | 1 => cases hL; unfold Aql.NamesDistinct; decide
      | n + 2 => simp at hc, altOk facts set_ok data_ok (alts_names i c L hc hL)⟩)
  refine ⟨hex, fun out hout => ?_⟩
  have hLs' := hLs
  rw [h4] at hLs'
  have := searches_unique hLs'
  subst this
  obtain ⟨rows, hr1, _, hr2⟩ := C113_results_partial (Er := Empty) history keys_ne set_ok data_ok h1 h2 h3 doc hqs d hLs
    (by intro L hL; simp only [List.mem_cons, List.not_mem_nil, or_false] at hL; rcases hL with rfl | rfl <;> (unfold Aql.NamesDistinct; decide))
    (by rw [h4]; exact alts_names) (by rw [h4]; exact distinct_names _) hout
  rw [h4] at hr2
  refine ⟨rows, hr1, (hr2 _).2 ⟨0, row1 _⟩, fun hm => ?_⟩
  obtain ⟨i, c, L, hc, hL, ha⟩ := (hr2 _).1 hm
  match i with
  | 0 =>
    cases hc; cases hL
    obtain ⟨y, hy, hn⟩ := ha.missingLeft _ _ _ (by simp only [alt1]; exact List.mem_cons_of_mem _ List.mem_cons_self) 2 0 _ _ (den1_2.2 rfl)
      (den1_ref.2 rfl) rfl rfl rfl rfl
    cases hy
    exact hn ⟨_, found_cat ['v'] (by simp), ['v'], ['s'], rfl, rfl, means_dep.2 ⟨rfl, rfl⟩⟩
  | 1 =>
    cases hc; cases hL
    obtain ⟨x, y, hx, hy, a, b, hxa, _, hm⟩ := ha.holds _ _ _ (by simp only [alt2]; exact List.mem_cons_self) 0 1 (den2_0.2 rfl) (den2_1.2 rfl)
    cases hx
    cases hxa
    exact absurd (means_dep.1 hm).1 (by decide)
  | n + 2 => simp at hc

end Answer.UpdatedEx
