import Verif.Answer.FindProps
import Verif.Answer.Examples

/-!
# Example for C108: two corpora with the same texts
-/

set_option linter.unusedSimpArgs false
set_option linter.unusedVariables false

open AnnoStore TextOp Whole

namespace Answer.Ex

def nodeNames : List (NodeID64 × Str) := [(1, "t1".toList), (2, "t2".toList), (3, "t3".toList), (10, "s10".toList), (11, "s11".toList)]

/-- The example corpus with node names in the document `p/d`. -/
def named (p : Char) : List (AnnoStore.Op NodeID64 Str Str) :=
  changes ++ nodeNames.map fun x => .insert x.1 nameKey (p :: '/' :: 'd' :: '#' :: x.2)

def corpus (p : Char) : Corpus NodeID64 := ⟨[p], env, { graph with annos := run (named p) }, db, demoTh, demoOrder⟩

theorem spec_named (p : Char) (n : NodeID64) {k : AnnoKey Str} (hk : k ≠ nameKey) : AnnoStore.spec (named p) n k = AnnoStore.spec changes n k := by
  unfold AnnoStore.spec named
  rw [List.foldl_append]
  simp [nodeNames, specStep, hk]

theorem spec_changes (n : NodeID64) (k : AnnoKey Str) : AnnoStore.spec changes n k ≠ none →
    (k = AnnoKey.mk annis tokName ∧ n ∈ ([1, 2, 3] : List NodeID64)) ∨ (k = AnnoKey.mk [] cat ∧ n ∈ ([10, 11] : List NodeID64)) := by
  intro h
  simp only [AnnoStore.spec, changes, List.foldl, specStep] at h
  split at h
  · rename_i h'; exact .inr ⟨h'.2, by simp [h'.1]⟩
  split at h
  · rename_i h'; exact .inr ⟨h'.2, by simp [h'.1]⟩
  split at h
  · rename_i h'; exact .inl ⟨h'.2, by simp [h'.1]⟩
  split at h
  · rename_i h'; exact .inl ⟨h'.2, by simp [h'.1]⟩
  split at h
  · rename_i h'; exact .inl ⟨h'.2, by simp [h'.1]⟩
  · exact absurd rfl h

theorem spec_name (p : Char) (n : NodeID64) (k : AnnoKey Str) (hk : k.name = cat ∨ k.name = tokName) :
    AnnoStore.spec (named p) n k = AnnoStore.spec changes n k := by
  refine spec_named p n ?_
  rintro rfl
  rcases hk with hk | hk <;> exact absurd hk (by decide)

theorem nodeName_eq (p : Char) (n : NodeID64) : (corpus p).nodeName n =
    if n = 11 then some (p :: "/d#s11".toList) else if n = 10 then some (p :: "/d#s10".toList) else if n = 3 then some (p :: "/d#t3".toList) else
    if n = 2 then some (p :: "/d#t2".toList) else if n = 1 then some (p :: "/d#t1".toList) else none := by
  unfold Corpus.nodeName corpus
  simp only
  rw [(run_refines (named p)).2]
  have h : AnnoStore.spec changes n nameKey = none := by
    by_contra h
    rcases spec_changes n nameKey h with ⟨h, _⟩ | ⟨h, _⟩ <;> exact absurd h (by decide)
  have h' : AnnoStore.spec (named p) n nameKey = (nodeNames.map fun x => Op.insert x.1 nameKey (p :: '/' :: 'd' :: '#' :: x.2)).foldl specStep
      (AnnoStore.spec changes) n nameKey := by
    unfold AnnoStore.spec named
    rw [List.foldl_append]
  rw [h']
  simp only [nodeNames, List.map_cons, List.map_nil, List.foldl, specStep, and_true, h]
  rfl

theorem corpus_any (p : Char) : (corpus p).g.anyTokens = some [1, 2, 3] := by unfold corpus graph; rfl
theorem graph_any : graph.anyTokens = some [1, 2, 3] := by unfold graph; rfl
theorem corpus_coverage (p : Char) : (corpus p).g.coverage = graph.coverage := by unfold corpus; rfl

attribute [local irreducible] AnnoStore.run

theorem corpus_tokens (p : Char) : NodeSearch.TokensOk env (corpus p).g (AnnoStore.spec (named p)) rels.cov := by
  intro l hl
  rw [corpus_any, ← graph_any] at hl
  obtain ⟨h1, h2⟩ := corpus_ok.tokens l hl
  refine ⟨h1, fun n => ?_⟩
  have h3 := h2 n
  rw [← spec_name p n (AnnoKey.mk env.annis env.tok) (.inr rfl)] at h3
  exact h3

theorem corpus_cov (p : Char) : NodeSearch.CovOk (corpus p).g rels.cov := by
  have h := corpus_ok.coverage
  unfold NodeSearch.CovOk at h ⊢
  rw [corpus_coverage]
  exact h

theorem corpus_known (p : Char) : CorpusOk (named p) (corpus p).env (corpus p).g rels (corpus p).th (corpus p).order demoE (fun _ => True) GStore.anyRange where
  annos := by unfold corpus; rfl
  coverage := corpus_cov p
  exact := corpus_ok.exact
  tokens := corpus_tokens p
  text := corpus_ok.text

def known (p : Char) : Known NodeID64 where
  c := corpus p
  ops := named p
  r := rels
  Ec := demoE
  D := fun _ => True
  Rg := GStore.anyRange
  De := fun _ _ => True
  Re := fun _ => GStore.anyRange
  corpus := corpus_known p
  db := db_ok

/-! ### The query -/

/-- A span that points to a span, or a token. -/
def text6 : Str := "cat ->dep cat | tok".toList

def alt6 : List Parse.QLit :=
  [.bin (.lit catS 0 none false) (.join (.pointing dep (.bound 1 1) none)) (.lit catS 10 none false) false]
def alt7 : List Parse.QLit := [.node .anyToken 16 none false]

def list6 : List (Aql.Occ (NsSpec Str Str)) := [⟨0, catS, none, false⟩, ⟨10, catS, none, false⟩]
def list7 : List (Aql.Occ (NsSpec Str Str)) := [⟨16, .anyToken, none, false⟩]

theorem alts6 : alts text6 = some [alt6, alt7] := by decide +kernel

theorem isList6 : Aql.IsNodeList alt6 list6 := by
  refine ⟨by decide, fun o => ?_⟩
  simp [alt6, list6, Aql.Literal.occs, Aql.Operand.occs]

theorem isList7 : Aql.IsNodeList alt7 list7 := by
  refine ⟨by decide, fun o => ?_⟩
  simp [alt7, list7, Aql.Literal.occs]

theorem at6 {i : Nat} {o : Aql.Occ (NsSpec Str Str)} : list6[i]? = some o ↔
    (i = 0 ∧ o = ⟨0, catS, none, false⟩) ∨ (i = 1 ∧ o = ⟨10, catS, none, false⟩) := by
  match i with
  | 0 => simp [list6, eq_comm]
  | 1 => simp [list6, eq_comm]
  | n + 2 => simp [list6]

theorem at7 {i : Nat} {o : Aql.Occ (NsSpec Str Str)} : list7[i]? = some o ↔ i = 0 ∧ o = ⟨16, .anyToken, none, false⟩ := by
  match i with
  | 0 => simp [list7, eq_comm]
  | n + 1 => simp [list7]

theorem den6_0 {i : Nat} : Aql.Denotes 0 list6 (.lit catS 0 none false) i ↔ i = 0 := by
  rw [den]
  constructor
  · rintro ⟨x, hx, hp⟩
    rcases at6.1 hx with ⟨rfl, rfl⟩ | ⟨rfl, rfl⟩ <;> simp at hp ⊢
  · rintro rfl; exact ⟨_, rfl, rfl⟩

theorem den6_1 {i : Nat} : Aql.Denotes 0 list6 (.lit catS 10 none false) i ↔ i = 1 := by
  rw [den]
  constructor
  · rintro ⟨x, hx, hp⟩
    rcases at6.1 hx with ⟨rfl, rfl⟩ | ⟨rfl, rfl⟩ <;> simp at hp ⊢
  · rintro rfl; exact ⟨_, rfl, rfl⟩

theorem query (doc : NsSpec Str Str) : ∃ e qs, Aql.alternatives e = [alt6, alt7] ∧ QueryText doc text6 e qs [list6, list7] := by
  obtain ⟨e, he, ha⟩ := of_alts alts6
  obtain ⟨ps, t, ht, _⟩ := Parse.ok_tree he
  have hl := (Parse.C91_lex _ _).2 ht.1
  have hn : ((Parse.lex text6).toOption.any fun ps => ps.all fun t => decide (t.tk ≠ .kw .lpar)) = true := by decide +kernel
  rw [hl] at hn
  obtain ⟨t, h1, h2⟩ := Parse.C92_no_parens he hl (by simpa [Except.toOption] using hn)
  have key : (Aql.parse false doc e).toOption.isSome = true := by
    unfold Aql.parse
    rw [ha]
    rfl
  have key' : ∃ qs, Aql.parse false doc e = .ok qs := by
    cases hq : Aql.parse false doc e with
    | ok qs => exact ⟨qs, rfl⟩
    | error x => rw [hq] at key; simp [Except.toOption] at key
  obtain ⟨qs, hqs⟩ := key'
  refine ⟨e, qs, ha, he, ⟨ps, t, h1, h2⟩, hqs, ?_, ?_, .inr ?_⟩
  · rw [ha]; exact .cons isList6 (.cons isList7 .nil)
  · intro L hL
    rcases List.mem_cons.1 hL with rfl | hL
    · unfold Aql.NamesDistinct; decide
    · rw [List.mem_singleton] at hL; subst hL
      unfold Aql.NamesDistinct; decide
  · intro L hL o ho
    rcases List.mem_cons.1 hL with rfl | hL
    · simp only [list6, List.mem_cons, List.not_mem_nil, or_false] at ho
      rcases ho with rfl | rfl <;> rfl
    · rw [List.mem_singleton] at hL; subst hL
      simp only [list7, List.mem_cons, List.not_mem_nil, or_false] at ho
      rw [ho]

/-! ### The answers -/

theorem finds_cat_iff (p : Char) (x : SMatch NodeID64 (AnnoKey Str)) : Finds env (AnnoStore.spec (named p)) rels catS x ↔
    x = catM 10 ∨ x = catM 11 := by
  constructor
  · rintro ⟨k, ⟨h1, _, w, hw, _⟩, hk⟩
    rw [spec_name p _ _ (.inl h1)] at hw
    obtain ⟨n, key⟩ := x
    simp only at hw hk
    rcases spec_changes n k (by rw [hw]; simp) with ⟨rfl, _⟩ | ⟨rfl, hn⟩
    · exact absurd h1 (by decide)
    · have : key = AnnoKey.mk [] cat := hk
      subst this
      simpa [catM] using hn
  · intro h
    have hf := finds_cat x.node (by rcases h with rfl | rfl <;> simp [catM])
    obtain ⟨k, ⟨h1, h2, w, hw, h3⟩, hk⟩ := hf
    refine ⟨k, ⟨h1, h2, w, ?_, h3⟩, ?_⟩
    · rw [spec_name p _ _ (.inl h1)]; exact hw
    · rw [← hk]; rcases h with rfl | rfl <;> rfl

theorem finds_tok_iff (p : Char) (x : SMatch NodeID64 (AnnoKey Str)) : Finds env (AnnoStore.spec (named p)) rels .anyToken x ↔
    x = tokM 1 ∨ x = tokM 2 ∨ x = tokM 3 := by
  constructor
  · rintro ⟨k, ⟨⟨h1, _, w, hw, _⟩, _⟩, hk⟩
    rw [spec_name p _ _ (.inr h1)] at hw
    obtain ⟨n, key⟩ := x
    simp only at hw hk
    rcases spec_changes n k (by rw [hw]; simp) with ⟨rfl, hn⟩ | ⟨rfl, hn⟩
    · have : key = AnnoKey.mk annis nodeType := hk
      subst this
      simpa [tokM] using hn
    · exact absurd h1 (by decide)
  · intro h
    have h' : ∃ w, AnnoStore.spec changes x.node (AnnoKey.mk annis tokName) = some w := by
      rcases h with rfl | rfl | rfl
      · exact ⟨['a'], by decide⟩
      · exact ⟨['b'], by decide⟩
      · exact ⟨['c'], by decide⟩
    obtain ⟨w, hw⟩ := h'
    refine ⟨AnnoKey.mk annis tokName, ⟨⟨rfl, fun _ h => by simpa [env] using h, w, ?_, trivial⟩, ?_⟩, ?_⟩
    · rw [spec_name p _ _ (.inr rfl)]; exact hw
    · rcases h with rfl | rfl | rfl <;> simp [rels, tokM]
    · rcases h with rfl | rfl | rfl <;> rfl

/-- The answers in their order: token 1, then span 11 that begins at token 2, then the other tokens. -/
def demoRows : List (Row NodeID64 (AnnoKey Str)) := [[tokM 1], [catM 11, catM 10], [tokM 2], [tokM 3]]

theorem answer6 (p : Char) (d : SMatch NodeID64 (AnnoKey Str)) (row : Row NodeID64 (AnnoKey Str)) :
    TextAnswer db env (AnnoStore.spec (named p)) rels d 0 alt6 list6 row ↔ row = [catM 11, catM 10] := by
  constructor
  · intro h
    obtain ⟨x, hx, fx⟩ := h.found 0 _ rfl rfl
    obtain ⟨y, hy, fy⟩ := h.found 1 _ rfl rfl
    have hlen : row.length = 2 := by
      have h1 : 1 < row.length := (h.length 1).2 ⟨1, _, le_refl _, rfl, rfl⟩
      have h2 : ¬ 2 < row.length := by
        rw [h.length]
        rintro ⟨n, o, hn, ho, _⟩
        rcases at6.1 ho with ⟨rfl, _⟩ | ⟨rfl, _⟩ <;> omega
      omega
    obtain ⟨a, b, rfl⟩ := List.length_eq_two.1 hlen
    have e1 : a = x := by simpa using hx
    have e2 : b = y := by simpa using hy
    rw [← e1] at fx
    rw [← e2] at fy
    obtain ⟨x, y, hx, hy, hm⟩ := h.holds _ _ _ (by simp only [alt6]; exact List.mem_cons_self) 0 1 (den6_0.2 rfl) (den6_1.2 rfl)
    have e1 : a = x := by simpa using hx
    have e2 : b = y := by simpa using hy
    rw [← e1, ← e2] at hm
    obtain ⟨m1, m2⟩ := (means_dep _ _).1 hm
    rcases (finds_cat_iff p a).1 fx with rfl | rfl <;> rcases (finds_cat_iff p b).1 fy with rfl | rfl <;>
      first
      | rfl
      | exact absurd m1 (by decide)
      | exact absurd m2 (by decide)
  · rintro rfl
    exact
      { length := by
          intro i
          constructor
          · intro h
            simp only [List.length_cons, List.length_nil] at h
            exact ⟨1, ⟨10, catS, none, false⟩, by omega, rfl, rfl⟩
          · rintro ⟨n, o, hi, ho, hopt⟩
            simp only [List.length_cons, List.length_nil]
            rcases at6.1 ho with ⟨rfl, rfl⟩ | ⟨rfl, rfl⟩ <;> omega
        found := by
          intro n o ho hopt
          rcases at6.1 ho with ⟨rfl, rfl⟩ | ⟨rfl, rfl⟩
          · exact ⟨_, rfl, (finds_cat_iff p _).2 (.inr rfl)⟩
          · exact ⟨_, rfl, (finds_cat_iff p _).2 (.inl rfl)⟩
        default := by
          intro n o x ho hopt hx
          rcases at6.1 ho with ⟨rfl, rfl⟩ | ⟨rfl, rfl⟩ <;> simp at hopt
        holds := by
          intro lhs op rhs h i j hi hj
          simp only [alt6, List.mem_cons, List.not_mem_nil, or_false, Aql.Literal.bin.injEq, reduceCtorEq] at h
          obtain ⟨rfl, rfl, rfl, _⟩ := h
          rw [den6_0] at hi
          rw [den6_1] at hj
          subst hi hj
          exact ⟨_, _, rfl, rfl, (means_dep _ _).2 ⟨rfl, rfl⟩⟩
        negated := by intro lhs op rhs h; simp [alt6] at h
        missingRight := by intro lhs op rhs h; simp [alt6] at h
        missingLeft := by intro lhs op rhs h; simp [alt6] at h
        arity := by intro ref range h; simp [alt6] at h }

theorem answer7 (p : Char) (d : SMatch NodeID64 (AnnoKey Str)) (row : Row NodeID64 (AnnoKey Str)) :
    TextAnswer db env (AnnoStore.spec (named p)) rels d 2 alt7 list7 row ↔ row = [tokM 1] ∨ row = [tokM 2] ∨ row = [tokM 3] := by
  constructor
  · intro h
    obtain ⟨x, hx, fx⟩ := h.found 0 _ rfl rfl
    have hlen : row.length = 1 := by
      have h1 : 0 < row.length := (h.length 0).2 ⟨0, _, le_refl _, rfl, rfl⟩
      have h2 : ¬ 1 < row.length := by
        rw [h.length]
        rintro ⟨n, o, hn, ho, _⟩
        obtain ⟨rfl, _⟩ := at7.1 ho
        omega
      omega
    obtain ⟨a, rfl⟩ := List.length_eq_one_iff.1 hlen
    have e1 : a = x := by simpa using hx
    rw [← e1] at fx
    rcases (finds_tok_iff p a).1 fx with rfl | rfl | rfl <;> simp
  · intro hr
    obtain ⟨x, rfl, hx⟩ : ∃ x, row = [x] ∧ Finds env (AnnoStore.spec (named p)) rels .anyToken x := by
      rcases hr with rfl | rfl | rfl <;> exact ⟨_, rfl, (finds_tok_iff p _).2 (by simp)⟩
    exact
      { length := by
          intro i
          constructor
          · intro h
            simp only [List.length_cons, List.length_nil] at h
            exact ⟨0, ⟨16, .anyToken, none, false⟩, by omega, rfl, rfl⟩
          · rintro ⟨n, o, hi, ho, hopt⟩
            simp only [List.length_cons, List.length_nil]
            obtain ⟨rfl, _⟩ := at7.1 ho
            omega
        found := by
          intro n o ho hopt
          obtain ⟨rfl, rfl⟩ := at7.1 ho
          exact ⟨_, rfl, hx⟩
        default := by
          intro n o x ho hopt hx
          obtain ⟨rfl, rfl⟩ := at7.1 ho
          simp at hopt
        holds := by intro lhs op rhs h; simp [alt7] at h
        negated := by intro lhs op rhs h; simp [alt7] at h
        missingRight := by intro lhs op rhs h; simp [alt7] at h
        missingLeft := by intro lhs op rhs h; simp [alt7] at h
        arity := by intro ref range h; simp [alt7] at h }

theorem answer_iff (p : Char) (d : SMatch NodeID64 (AnnoKey Str)) (i : Nat) (row : Row NodeID64 (AnnoKey Str)) :
    AnswersAlt (corpus p).db (corpus p).env (AnnoStore.spec (named p)) rels d [alt6, alt7] [list6, list7] i row ↔
    (i = 0 ∧ row = [catM 11, catM 10]) ∨ (i = 1 ∧ (row = [tokM 1] ∨ row = [tokM 2] ∨ row = [tokM 3])) := by
  constructor
  · rintro ⟨c, L, hc, hL, ha⟩
    match i with
    | 0 => cases hc; cases hL; exact .inl ⟨rfl, (answer6 p d row).1 ha⟩
    | 1 => cases hc; cases hL; exact .inr ⟨rfl, (answer7 p d row).1 ha⟩
    | n + 2 => simp at hc
  · rintro (⟨rfl, h⟩ | ⟨rfl, h⟩)
    · exact ⟨alt6, list6, rfl, rfl, (answer6 p d row).2 h⟩
    · exact ⟨alt7, list7, rfl, rfl, (answer7 p d row).2 h⟩

theorem conn_iff (a b : NodeID64) : (demoOrder.isConnected a b 1 .unbounded == some true) = true ↔ (a, b) ∈ [((1 : NodeID64), (2 : NodeID64)), (2, 3), (1, 3)] := by
  constructor
  · intro h
    obtain ⟨r, hr, hi⟩ := (listStore_is [(1, 2), (2, 3)] (by decide)).conn a b 1 .unbounded (by simp [GStore.anyRange])
    unfold demoOrder at h
    rw [hr] at h
    obtain ⟨_, n, hp, hw⟩ := hi.1 (by simpa using h)
    have hw := hp.walk
    have hn : 1 ≤ n := by rename_i h'; exact h'.1
    obtain ⟨n, rfl⟩ : ∃ m, n = m + 1 := ⟨n - 1, by omega⟩
    clear hp hi hr h hn
    have key : ∀ (n : Nat) (a b : NodeID64), Walk.WalkLen (fun a b => (a, b) ∈ [((1 : NodeID64), (2 : NodeID64)), (2, 3)]) a b (n + 1) →
        (a, b) ∈ [((1 : NodeID64), (2 : NodeID64)), (2, 3), (1, 3)] := by
      intro n
      induction n with
      | zero =>
        intro a b h
        obtain ⟨c, hc, h⟩ := Walk.walkLen_succ.1 h
        rw [Walk.walkLen_zero] at h
        subst h
        simp only [List.mem_cons, List.not_mem_nil, or_false] at hc ⊢
        tauto
      | succ n ih =>
        intro a b h
        obtain ⟨c, hc, h⟩ := Walk.walkLen_succ.1 h
        have := ih c b h
        simp only [List.mem_cons, List.not_mem_nil, or_false, Prod.mk.injEq] at hc this ⊢
        rcases hc with ⟨rfl, rfl⟩ | ⟨rfl, rfl⟩ <;> rcases this with ⟨h1, h2⟩ | ⟨h1, h2⟩ | ⟨h1, h2⟩ <;>
          first
          | exact absurd h1 (by decide)
          | (subst h2; simp)
    exact key n a b hw
  · intro h
    simp only [List.mem_cons, List.not_mem_nil, or_false, Prod.mk.injEq] at h
    rcases h with ⟨rfl, rfl⟩ | ⟨rfl, rfl⟩ | ⟨rfl, rfl⟩ <;> decide +kernel

theorem left_tok : demoTh.leftTokenFor 1 = some (some 1) ∧ demoTh.leftTokenFor 2 = some (some 2) ∧ demoTh.leftTokenFor 3 = some (some 3) ∧
    demoTh.leftTokenFor 10 = some (some 1) ∧ demoTh.leftTokenFor 11 = some (some 2) := by decide +kernel

theorem ordered (p : Char) : (corpus p).sortEnv.Ordered fun n => n ∈ ([1, 2, 3, 10, 11] : List NodeID64) where
  coll := defaultColl_ord
  named := by
    intro n hn
    show (corpus p).nodeName n ≠ none
    rw [nodeName_eq]
    simp only [List.mem_cons, List.not_mem_nil, or_false] at hn
    rcases hn with rfl | rfl | rfl | rfl | rfl <;> simp
  irrefl := by
    intro t
    rw [Bool.eq_false_iff]
    intro h
    have := (conn_iff t t).1 h
    simp only [List.mem_cons, List.not_mem_nil, or_false, Prod.mk.injEq] at this
    rcases this with ⟨rfl, h⟩ | ⟨rfl, h⟩ | ⟨rfl, h⟩ <;> exact absurd h (by decide)
  trans := by
    intro a b c h1 h2
    refine (conn_iff a c).2 ?_
    have h1 := (conn_iff a b).1 h1
    have h2 := (conn_iff b c).1 h2
    simp only [List.mem_cons, List.not_mem_nil, or_false, Prod.mk.injEq] at h1 h2 ⊢
    rcases h1 with ⟨rfl, rfl⟩ | ⟨rfl, rfl⟩ | ⟨rfl, rfl⟩ <;> rcases h2 with ⟨h, rfl⟩ | ⟨h, rfl⟩ | ⟨h, rfl⟩ <;>
      first
      | exact absurd h (by decide)
      | simp
  chain := by
    intro a b ha hb _
    right
    have hleft : ∀ n ∈ ([1, 2, 3, 10, 11] : List NodeID64), ∃ t ∈ ([1, 2, 3] : List NodeID64), (corpus p).sortEnv.leftTok n = some t := by
      obtain ⟨h1, h2, h3, h4, h5⟩ := left_tok
      intro n hn
      simp only [List.mem_cons, List.not_mem_nil, or_false] at hn
      have e : ∀ n, (corpus p).sortEnv.leftTok n = (demoTh.leftTokenFor n).getD none := fun _ => rfl
      rcases hn with rfl | rfl | rfl | rfl | rfl <;> rw [e]
      · exact ⟨1, by simp, by rw [h1]; rfl⟩
      · exact ⟨2, by simp, by rw [h2]; rfl⟩
      · exact ⟨3, by simp, by rw [h3]; rfl⟩
      · exact ⟨1, by simp, by rw [h4]; rfl⟩
      · exact ⟨2, by simp, by rw [h5]; rfl⟩
    obtain ⟨ta, hta, ea⟩ := hleft a ha
    obtain ⟨tb, htb, eb⟩ := hleft b hb
    refine ⟨ta, tb, ea, eb, ?_⟩
    have e : ∀ x y, (corpus p).sortEnv.conn x y = true ↔ (x, y) ∈ [((1 : NodeID64), (2 : NodeID64)), (2, 3), (1, 3)] := conn_iff
    rw [e, e]
    simp only [List.mem_cons, List.not_mem_nil, or_false] at hta htb
    rcases hta with rfl | rfl | rfl <;> rcases htb with rfl | rfl | rfl <;> simp

theorem alt6_ok : AltOk db env graph rels demoTh demoE GStore.anyRange (fun _ _ => True) (fun _ => GStore.anyRange) 0 alt6 list6 where
  nonempty := ⟨⟨0, catS, none, false⟩, by simp [list6], rfl⟩
  unambiguous := by
    intro o ho _
    simp only [list6, List.mem_cons, List.not_mem_nil, or_false] at ho
    rcases ho with rfl | rfl <;> trivial
  connected := by
    have h01 : Relation.EqvGen (fun i j => ∃ lhs op rhs, .bin lhs op rhs false ∈ alt6 ∧ Aql.Denotes 0 list6 lhs i ∧ Aql.Denotes 0 list6 rhs j) 0 1 :=
      .rel _ _ ⟨_, _, _, by simp only [alt6]; exact List.mem_cons_self, den6_0.2 rfl, den6_1.2 rfl⟩
    rintro i j ⟨a, ha, hoa⟩ ⟨b, hb, hob⟩
    rcases at6.1 ha with ⟨rfl, rfl⟩ | ⟨rfl, rfl⟩ <;> rcases at6.1 hb with ⟨rfl, rfl⟩ | ⟨rfl, rfl⟩ <;>
      first
      | exact .refl _
      | exact h01
      | exact .symm _ _ h01
  supported := by
    intro lhs op rhs neg h
    simp only [alt6, List.mem_cons, List.not_mem_nil, or_false, Aql.Literal.bin.injEq, reduceCtorEq] at h
    obtain ⟨_, rfl, _, _⟩ := h
    trivial
  fits := by
    intro lhs op rhs neg h
    simp only [alt6, List.mem_cons, List.not_mem_nil, or_false, Aql.Literal.bin.injEq, reduceCtorEq] at h
    obtain ⟨_, rfl, _, _⟩ := h
    exact dep_fits
  arity := by intro ref range h; simp [alt6] at h
  patterns := by
    intro o ho _ p hp
    simp only [list6, List.mem_cons, List.not_mem_nil, or_false] at ho
    rcases ho with rfl | rfl <;> simp [catS, NodeSearch.patternOf] at hp
  tokens := by intro o _ _; simp [graph]
  replaced := by
    intro lhs op rhs neg h i j a b hi hj ha hb h1 h2
    simp only [alt6, List.mem_cons, List.not_mem_nil, or_false, Aql.Literal.bin.injEq, reduceCtorEq] at h
    obtain ⟨_, rfl, _, rfl⟩ := h
    rcases at6.1 ha with ⟨rfl, rfl⟩ | ⟨rfl, rfl⟩
    · exact dep_replaceable
    · exact dep_replaceable

theorem alt7_ok : AltOk db env graph rels demoTh demoE GStore.anyRange (fun _ _ => True) (fun _ => GStore.anyRange) 2 alt7 list7 where
  nonempty := ⟨⟨16, .anyToken, none, false⟩, by simp [list7], rfl⟩
  unambiguous := by
    intro o ho _
    simp only [list7, List.mem_cons, List.not_mem_nil, or_false] at ho
    subst ho
    trivial
  connected := by
    rintro i j ⟨a, ha, hoa⟩ ⟨b, hb, hob⟩
    obtain ⟨rfl, _⟩ := at7.1 ha
    obtain ⟨rfl, _⟩ := at7.1 hb
    exact .refl _
  supported := by intro lhs op rhs neg h; simp [alt7] at h
  fits := by intro lhs op rhs neg h; simp [alt7] at h
  arity := by intro ref range h; simp [alt7] at h
  patterns := by
    intro o ho _ p hp
    simp only [list7, List.mem_cons, List.not_mem_nil, or_false] at ho
    subst ho
    simp [NodeSearch.patternOf] at hp
  tokens := by intro o _ _; simp [graph]
  replaced := by intro lhs op rhs neg h; simp [alt7] at h

theorem fits (p : Char) (hp : p = 'a' ∨ p = 'b') (d : SMatch NodeID64 (AnnoKey Str)) : (known p).Fits d [alt6, alt7] [list6, list7] where
  alternatives := by
    intro i c L hc hL
    match i with
    | 0 =>
      cases hc; cases hL
      exact { alt6_ok with tokens := alt6_ok.tokens }
    | 1 =>
      cases hc; cases hL
      exact { alt7_ok with tokens := alt7_ok.tokens }
    | n + 2 => simp at hc
  distinct := by
    intro i L row hL h
    rcases (answer_iff p d i row).1 h with ⟨rfl, rfl⟩ | ⟨rfl, _⟩
    · cases hL
      intro i j x a b hij ha hb hoa hob hx hy
      rcases at6.1 ha with ⟨rfl, rfl⟩ | ⟨rfl, rfl⟩ <;> rcases at6.1 hb with ⟨rfl, rfl⟩ | ⟨rfl, rfl⟩ <;>
        first
        | exact hij rfl
        | (simp only [List.getElem?_cons_succ, List.getElem?_cons_zero, Option.some.injEq] at hx hy
           subst hx
           exact absurd (congrArg SMatch.node hy) (by decide))
    · cases hL
      intro i j x a b hij ha hb hoa hob hx hy
      obtain ⟨rfl, _⟩ := at7.1 ha
      obtain ⟨rfl, _⟩ := at7.1 hb
      exact hij rfl
  ordered := by
    refine ⟨_, ordered p, ?_⟩
    rintro row ⟨i, h⟩ m hm
    have hm : m ∈ row := by
      unfold visible at hm
      obtain ⟨x, hx, rfl⟩ := List.mem_map.1 hm
      exact List.fst_mem_of_mem_zipIdx (List.mem_filter.1 hx).1
    rcases (answer_iff p d i row).1 h with ⟨_, rfl⟩ | ⟨_, rfl | rfl | rfl⟩ <;> simp only [List.mem_cons, List.not_mem_nil, or_false] at hm
    · rcases hm with rfl | rfl <;> simp [catM]
    all_goals subst hm; simp [tokM]
  tokens := by
    intro _ l hl
    have : l = [1, 2, 3] := (Option.some.inj hl).symm
    subst this
    rcases hp with rfl | rfl
    · show List.Pairwise (fun a b => compareMatch (corpus 'a').sortEnv (⟨a, NodeSearch.typeKey env⟩ : SMatch NodeID64 (AnnoKey Str)) ⟨b, NodeSearch.typeKey env⟩ = .lt) [1, 2, 3]
      decide +kernel
    · show List.Pairwise (fun a b => compareMatch (corpus 'b').sortEnv (⟨a, NodeSearch.typeKey env⟩ : SMatch NodeID64 (AnnoKey Str)) ⟨b, NodeSearch.typeKey env⟩ = .lt) [1, 2, 3]
      decide +kernel

theorem listing (p : Char) (hp : p = 'a' ∨ p = 'b') (d : SMatch NodeID64 (AnnoKey Str)) :
    (known p).Listing d [alt6, alt7] [list6, list7] demoRows where
  ascending := by
    rcases hp with rfl | rfl
    · show demoRows.Pairwise fun a b => compareGroup (corpus 'a').sortEnv a b = .lt
      decide +kernel
    · show demoRows.Pairwise fun a b => compareGroup (corpus 'b').sortEnv a b = .lt
      decide +kernel
  mem := by
    intro row
    constructor
    · intro h
      simp only [demoRows, List.mem_cons, List.not_mem_nil, or_false] at h
      rcases h with h | h | h | h
      · exact ⟨1, (answer_iff p d 1 row).2 (.inr ⟨rfl, .inl h⟩)⟩
      · exact ⟨0, (answer_iff p d 0 row).2 (.inl ⟨rfl, h⟩)⟩
      · exact ⟨1, (answer_iff p d 1 row).2 (.inr ⟨rfl, .inr (.inl h)⟩)⟩
      · exact ⟨1, (answer_iff p d 1 row).2 (.inr ⟨rfl, .inr (.inr h)⟩)⟩
    · rintro ⟨i, h⟩
      rcases (answer_iff p d i row).1 h with ⟨_, rfl⟩ | ⟨_, rfl | rfl | rfl⟩ <;> simp [demoRows]

theorem perm_pair {α : Type} {l : List α} {a b : α} (h : l.Perm [a, b]) : l = [a, b] ∨ l = [b, a] := by
  obtain ⟨x, y, rfl⟩ := List.length_eq_two.1 h.length_eq
  have hx : x = a ∨ x = b := by simpa using h.mem_iff.1 (show x ∈ [x, y] by simp)
  rcases hx with rfl | rfl
  · exact .inl (by rw [List.perm_cons, List.perm_singleton] at h; simpa using h)
  · have : [y].Perm [a] := (List.perm_cons x).1 (h.trans (List.Perm.swap x a []))
    rw [List.perm_singleton] at this
    exact .inr (by simpa using this)

/-- Concrete case: the query `cat ->dep cat | tok` on the corpora `b` and `a` has 4 results in each. The page from the fourth result with two
results has the last token of `a` and the first token of `b`; the inverted order begins with the last token of `b`. -/
theorem C108_nonvacuous (doc : NsSpec Str Str) (d : SMatch NodeID64 (AnnoKey Str)) :
    (∃ page, FindAll Empty doc d text6 [corpus 'b', corpus 'a'] .normal 3 (some 2) page) ∧
    (∀ page, FindAll Empty doc d text6 [corpus 'b', corpus 'a'] .normal 3 (some 2) page → page = ["a/d#t3".toList, "b/d#t1".toList]) ∧
    (∀ page, FindAll Empty doc d text6 [corpus 'b', corpus 'a'] .inverted 0 (some 3) page →
      page = ["b/d#t3".toList, "b/d#t2".toList, "cat::b/d#s11 cat::b/d#s10".toList]) ∧
    ∀ n, CountAll Empty doc d text6 [corpus 'b', corpus 'a'] n → n = 8 := by
  obtain ⟨e, qs, ha, ht⟩ := query doc
  have hf : ∀ k ∈ [known 'b', known 'a'], k.Fits d (Aql.alternatives e) [list6, list7] := by
    intro k hk
    rw [ha]
    simp only [List.mem_cons, List.not_mem_nil, or_false] at hk
    rcases hk with rfl | rfl
    · exact fits _ (.inr rfl) d
    · exact fits _ (.inl rfl) d
  have hl : ∀ k ∈ [known 'b', known 'a'], k.Listing d (Aql.alternatives e) [list6, list7] ((fun _ => demoRows) k) := by
    intro k hk
    rw [ha]
    simp only [List.mem_cons, List.not_mem_nil, or_false] at hk
    rcases hk with rfl | rfl
    · exact listing _ (.inr rfl) d
    · exact listing _ (.inl rfl) d
  have hab : ([('b' : Char)] : Str) ≤ ['a'] → False := by decide
  refine ⟨C108_no_error_partial (E := Empty) ht [known 'b', known 'a'] hf _ _ _, ?_, ?_, ?_⟩
  · intro page h
    obtain ⟨ks', h1, h2, rfl⟩ := C108_find_partial (E := Empty) ht [known 'b', known 'a'] hf _ hl (.inl rfl) h
    rcases perm_pair h1 with rfl | rfl
    · exfalso
      simp only [NameOrder, List.pairwise_cons, List.mem_singleton, forall_eq, reduceCtorEq, if_false] at h2
      exact hab h2.1
    · decide +kernel
  · intro page h
    obtain ⟨ks', h1, h2, rfl⟩ := C108_find_partial (E := Empty) ht [known 'b', known 'a'] hf _ hl (.inr rfl) h
    rcases perm_pair h1 with rfl | rfl
    · decide +kernel
    · exfalso
      simp only [NameOrder, List.pairwise_cons, List.mem_singleton, forall_eq, if_true] at h2
      exact hab h2.1
  · intro n h
    rw [C108_count_partial (E := Empty) ht [known 'b', known 'a'] hf _ hl h]
    rfl

/-- Concrete case for the identifiers: all four are different. -/
theorem C108_ids_nonvacuous (d : SMatch NodeID64 (AnnoKey Str)) : (demoRows.map (idOf (corpus 'a') [list6, list7])).Nodup := by
  obtain ⟨e, qs, ha, ht⟩ := query .anyNode
  refine C108_ids_partial (k := known 'a') (e := e) (d := d) (by rw [ha]; exact fits _ (.inl rfl) d) (by rw [ha]; exact listing _ (.inl rfl) d) ?_ ?_
  · have hin : ∀ n, (corpus 'a').nodeName n ≠ none → n ∈ ([11, 10, 3, 2, 1] : List NodeID64) := by
      intro n hn
      rw [nodeName_eq] at hn
      by_contra h
      simp only [List.mem_cons, List.not_mem_nil, or_false, not_or] at h
      simp [h] at hn
    have hall : ∀ x ∈ ([11, 10, 3, 2, 1] : List NodeID64), ∀ y ∈ ([11, 10, 3, 2, 1] : List NodeID64),
        (corpus 'a').nodeName x = (corpus 'a').nodeName y → x = y := by
      intro x hx y hy h
      have hl : ([11, 10, 3, 2, 1].map fun n => (corpus 'a').nodeName n).Nodup := by decide +kernel
      exact List.inj_on_of_nodup_map hl hx hy h
    intro x y h1 h2
    have h1 : (corpus 'a').nodeName x = (corpus 'a').nodeName y := h1
    have h2 : (corpus 'a').nodeName x ≠ none := h2
    exact hall x (hin x h2) y (hin y (by rw [← h1]; exact h2)) h1
  · intro row hr m hm
    have hm' : m ∈ row := by
      unfold visible at hm
      obtain ⟨x, hx, rfl⟩ := List.mem_map.1 hm
      exact List.fst_mem_of_mem_zipIdx (List.mem_filter.1 hx).1
    simp only [demoRows, List.mem_cons, List.not_mem_nil, or_false] at hr
    unfold OutMatch.Ok
    rcases hr with rfl | rfl | rfl | rfl <;> simp only [List.mem_cons, List.not_mem_nil, or_false] at hm'
    · subst hm'; exact show (_ ∧ _) by decide +kernel
    · rcases hm' with rfl | rfl <;> exact show (_ ∧ _) by decide +kernel
    · subst hm'; exact show (_ ∧ _) by decide +kernel
    · subst hm'; exact show (_ ∧ _) by decide +kernel

end Answer.Ex
