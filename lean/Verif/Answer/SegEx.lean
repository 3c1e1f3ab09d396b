import Verif.Answer.Examples

/-!
# An example and a failing case for C101 with segmentations
-/

set_option linter.unusedSimpArgs false
set_option linter.unusedVariables false

open AnnoStore TextOp Whole

namespace Answer.SegEx

open Answer.Ex

def seg : Str := "seg".toList

/-- The corpus of `Answer.Ex` with a segmentation `seg` of the spans, in which 11 comes before 10. -/
def sdb : Db NodeID64 := { db with segment := fun s => if s = seg then some depStore else none }

theorem sdb_ok : DbOk sdb rels (fun _ _ => True) (fun _ => GStore.anyRange) where
  dominance := db_ok.dominance
  pointing := db_ok.pointing
  partOf := db_ok.partOf
  segment := by
    intro s c h
    simp only [sdb] at h
    split at h
    · cases h; exact listStore_is _ (by decide)
    · cases h
  once := db_ok.once
  sources := db_ok.sources

/-- A span and the next or the next but one in the segmentation. -/
def stext : Str := "cat .seg,1,2 cat".toList

def sop : Aql.BinSpec Parse.OpSpec := .dist (.precedence (some seg)) (.bound 1 2)

def salt : List Parse.QLit := [.bin (.lit catS 0 none false) sop (.lit catS 13 none false) false]
def slist : List (Aql.Occ (NsSpec Str Str)) := [⟨0, catS, none, false⟩, ⟨13, catS, none, false⟩]

def sparsed : Option (List (List Parse.QLit)) :=
  match Parse.parseQuery stext with
  | .ok e => some (Aql.alternatives e)
  | _ => none

theorem sparsed_eq : sparsed = some [salt] := by decide +kernel

theorem isSList : Aql.IsNodeList salt slist := by
  refine ⟨by decide, fun o => ?_⟩
  simp [salt, slist, Aql.Literal.occs, Aql.Operand.occs]

theorem ats {i : Nat} {o : Aql.Occ (NsSpec Str Str)} : slist[i]? = some o ↔
    (i = 0 ∧ o = ⟨0, catS, none, false⟩) ∨ (i = 1 ∧ o = ⟨13, catS, none, false⟩) := by
  match i with
  | 0 => simp [slist, eq_comm]
  | 1 => simp [slist, eq_comm]
  | n + 2 => simp [slist]

theorem dens_0 {i : Nat} : Aql.Denotes 0 slist (.lit catS 0 none false) i ↔ i = 0 := by
  rw [den]
  constructor
  · rintro ⟨x, hx, hp⟩
    rcases ats.1 hx with ⟨rfl, rfl⟩ | ⟨rfl, rfl⟩ <;> simp at hp ⊢
  · rintro rfl; exact ⟨_, rfl, rfl⟩

theorem dens_1 {i : Nat} : Aql.Denotes 0 slist (.lit catS 13 none false) i ↔ i = 1 := by
  rw [den]
  constructor
  · rintro ⟨x, hx, hp⟩
    rcases ats.1 hx with ⟨rfl, rfl⟩ | ⟨rfl, rfl⟩ <;> simp at hp ⊢
  · rintro rfl; exact ⟨_, rfl, rfl⟩

theorem salt_ok : AltOk sdb env graph rels demoTh demoE GStore.anyRange (fun _ _ => True) (fun _ => GStore.anyRange) 0 salt slist where
  nonempty := ⟨⟨0, catS, none, false⟩, by simp [slist], rfl⟩
  unambiguous := by
    intro o ho _
    simp only [slist, List.mem_cons, List.not_mem_nil, or_false] at ho
    rcases ho with rfl | rfl <;> trivial
  connected := by
    have h01 : Relation.EqvGen (fun i j => ∃ lhs op rhs, .bin lhs op rhs false ∈ salt ∧ Aql.Denotes 0 slist lhs i ∧ Aql.Denotes 0 slist rhs j) 0 1 :=
      .rel _ _ ⟨_, _, _, by simp only [salt]; exact List.mem_cons_self, dens_0.2 rfl, dens_1.2 rfl⟩
    rintro i j ⟨a, ha, hoa⟩ ⟨b, hb, hob⟩
    rcases ats.1 ha with ⟨rfl, rfl⟩ | ⟨rfl, rfl⟩ <;> rcases ats.1 hb with ⟨rfl, rfl⟩ | ⟨rfl, rfl⟩ <;>
      first
      | exact .refl _
      | exact h01
      | exact .symm _ _ h01
  supported := by
    intro lhs op rhs neg h
    simp only [salt, List.mem_cons, List.not_mem_nil, or_false, Aql.Literal.bin.injEq] at h
    obtain ⟨_, rfl, _, _⟩ := h
    intro _ hn
    simp [sdb] at hn
  fits := by
    intro lhs op rhs neg h
    simp only [salt, List.mem_cons, List.not_mem_nil, or_false, Aql.Literal.bin.injEq] at h
    obtain ⟨_, rfl, _, _⟩ := h
    intro c _
    refine ⟨by simp [GStore.anyRange, RangeSpec.maxDist], le_refl 1, fun a b hab x => ?_⟩
    simp only [rels, depEdges, List.mem_singleton, Prod.mk.injEq] at hab
    obtain ⟨rfl, rfl⟩ := hab
    simp [rels]
  arity := by intro ref range h; simp [salt] at h
  patterns := by
    intro o ho _ p hp
    simp only [slist, List.mem_cons, List.not_mem_nil, or_false] at ho
    rcases ho with rfl | rfl <;> simp [catS, NodeSearch.patternOf] at hp
  tokens := by intro o _ _; simp [graph]
  replaced := by
    intro lhs op rhs neg h i j a b hi hj ha hb h1 h2
    simp only [salt, List.mem_cons, List.not_mem_nil, or_false, Aql.Literal.bin.injEq] at h
    obtain ⟨_, rfl, _, _⟩ := h
    intro est e he hc hlt
    cases he
    cases hc
    exact absurd hlt (by decide)

theorem saccepted (doc : NsSpec Str Str) {e : Parse.Q} (h : Aql.alternatives e = [salt]) : ∃ qs, Aql.parse false doc e = .ok qs := by
  unfold Aql.parse
  rw [h]
  cases hr : Aql.mapAlternatives false doc (if false = true then Aql.metaSearches [salt] else []) [salt] 0 with
  | ok qs => exact ⟨qs, rfl⟩
  | error x =>
    exfalso
    have : (Aql.mapAlternatives false doc (if false = true then Aql.metaSearches [salt] else []) [salt] 0).toOption.isSome = true := by
      rfl
    rw [hr] at this
    simp [Except.toOption] at this

theorem stext_parsed : ∃ e ps tree, Parse.parseQuery stext = .ok e ∧ Parse.Spec.Tree stext ps tree ∧ Parse.Spec.Flat tree ∧
    Aql.alternatives e = [salt] := by
  have h := sparsed_eq
  unfold sparsed at h
  split at h
  · rename_i e he
    obtain ⟨ps, d, ht, _⟩ := Parse.ok_tree he
    have hl := (Parse.C91_lex _ _).2 ht.1
    have hn : ((Parse.lex stext).toOption.any fun ps => ps.all fun t => decide (t.tk ≠ .kw .lpar)) = true := by decide +kernel
    rw [hl] at hn
    obtain ⟨d, h1, h2⟩ := Parse.C92_no_parens he hl (by simpa [Except.toOption] using hn)
    exact ⟨e, ps, d, he, h1, h2, by simpa using h⟩
  · cases h

/-- A path in the segmentation is its only edge. -/
theorem means_seg (a b : NodeID64) : Means sdb env rels sop a b ↔ a = 11 ∧ b = 10 := by
  constructor
  · rintro ⟨c, _, n, ⟨p, ⟨h1, h2, h3⟩, hnd, hl⟩, hw⟩
    obtain ⟨w1, w2⟩ := hw
    simp only [RangeSpec.minDist, RangeSpec.maxDist] at w1 w2
    match p, hl with
    | [], hl => simp at h1
    | [x], hl => simp only [List.length_singleton] at hl; omega
    | [x, y], _ =>
      simp at h1 h2
      subst h1 h2
      simpa [rels] using h3
    | x :: y :: z :: p, _ =>
      exfalso
      simp only [List.isChain_cons_cons] at h3
      obtain ⟨e1, e2, _⟩ := h3
      simp only [rels, depEdges, List.mem_singleton, Prod.mk.injEq] at e1 e2
      exact absurd (e1.2.symm.trans e2.1) (by decide)
  · rintro ⟨rfl, rfl⟩
    exact ⟨depStore, by simp [sdb], 1, ⟨[11, 10], ⟨rfl, rfl, by simp [rels]⟩, by decide, rfl⟩, ⟨le_refl 1, by show (1 : Nat) ≤ 2; omega⟩⟩

theorem srow (d : SMatch NodeID64 (AnnoKey Str)) : TextAnswer sdb env (AnnoStore.spec changes) rels d 0 salt slist [catM 11, catM 10] where
  length := by
    intro i
    constructor
    · intro h
      simp only [List.length_cons, List.length_nil] at h
      exact ⟨1, ⟨13, catS, none, false⟩, by omega, rfl, rfl⟩
    · rintro ⟨n, o, hi, ho, hopt⟩
      simp only [List.length_cons, List.length_nil]
      rcases ats.1 ho with ⟨rfl, rfl⟩ | ⟨rfl, rfl⟩ <;> omega
  found := by
    intro n o ho hopt
    rcases ats.1 ho with ⟨rfl, rfl⟩ | ⟨rfl, rfl⟩
    · exact ⟨_, rfl, finds_cat 11 (by simp)⟩
    · exact ⟨_, rfl, finds_cat 10 (by simp)⟩
  default := by
    intro n o x ho hopt hx
    rcases ats.1 ho with ⟨rfl, rfl⟩ | ⟨rfl, rfl⟩ <;> simp at hopt
  holds := by
    intro lhs op rhs h i j hi hj
    simp only [salt, List.mem_cons, List.not_mem_nil, or_false, Aql.Literal.bin.injEq] at h
    obtain ⟨rfl, rfl, rfl, _⟩ := h
    rw [dens_0] at hi
    rw [dens_1] at hj
    subst hi hj
    exact ⟨_, _, rfl, rfl, (means_seg _ _).2 ⟨rfl, rfl⟩⟩
  negated := by intro lhs op rhs h; simp [salt] at h
  missingRight := by intro lhs op rhs h; simp [salt] at h
  missingLeft := by intro lhs op rhs h; simp [salt] at h
  arity := by intro ref range h; simp [salt] at h

/-- Concrete case: `cat .seg,1,2 cat` has one result, the span 11 and the span 10 after it in the segmentation. -/
theorem C101_segmentation_nonvacuous (doc : NsSpec Str Str) (d : SMatch NodeID64 (AnnoKey Str)) :
    (∃ out, Answers (E := Empty) env graph sdb demoTh demoOrder doc d stext out) ∧
    ∀ out, Answers (E := Empty) env graph sdb demoTh demoOrder doc d stext out → out = [.ok [catM 11, catM 10]] := by
  obtain ⟨e, ps, tree, h1, h2, h3, h4⟩ := stext_parsed
  obtain ⟨qs, hqs⟩ := saccepted doc h4
  have uniq : ∀ {Ls : List (List (Aql.Occ (NsSpec Str Str)))}, Searches [salt] Ls → Ls = [slist] := by
    intro Ls h
    cases h with
    | cons h1 h2 => cases h2; rw [h1.unique isSList]
  obtain ⟨Ls, hs, _, hex, hall⟩ := C101_query_partial (E := Empty) corpus_ok sdb_ok h1 h2 h3 doc hqs d (by
    intro Ls hLs i c L hc hL
    rw [h4] at hLs hc
    rw [uniq hLs] at hL ⊢
    match i with
    | 0 => cases hc; cases hL; exact ⟨by unfold Aql.NamesDistinct; decide, salt_ok⟩
    | n + 1 => simp at hc)
  rw [h4] at hs hall
  have hs' := uniq hs
  subst hs'
  refine ⟨hex, fun out hout => ?_⟩
  obtain ⟨rows, rfl, hnd, hr1, hr2⟩ := hall out hout
  have hin : [catM 11, catM 10] ∈ rows := by
    refine hr2 0 slist _ rfl ⟨salt, slist, rfl, rfl, srow d⟩ ?_
    intro i j x a b hij ha hb hoa hob hx hy
    rcases ats.1 ha with ⟨rfl, rfl⟩ | ⟨rfl, rfl⟩ <;> rcases ats.1 hb with ⟨rfl, rfl⟩ | ⟨rfl, rfl⟩ <;>
      first
      | exact hij rfl
      | (simp only [List.getElem?_cons_succ, List.getElem?_cons_zero, Option.some.injEq] at hx hy
         subst hx
         exact absurd (congrArg SMatch.node hy) (by decide))
  have hon : ∀ row ∈ rows, row = [catM 11, catM 10] := by
    intro row hrow
    obtain ⟨i, c, L, hc, hL, ha⟩ := hr1 _ hrow
    match i with
    | n + 1 => simp at hc
    | 0 =>
      cases hc; cases hL
      obtain ⟨x, y, hx, hy, hm⟩ := ha.holds _ _ _ (by simp only [salt]; exact List.mem_cons_self) 0 1 (dens_0.2 rfl) (dens_1.2 rfl)
      obtain ⟨m1, m2⟩ := (means_seg _ _).1 hm
      have key : ∀ (n : Nat) z, row[n]? = some z → n ≤ 1 → z.key = AnnoKey.mk [] cat := by
        intro n z hz hn
        have hfound : ∃ x, row[n]? = some x ∧ Finds env (AnnoStore.spec changes) rels catS x := by
          match n with
          | 0 => exact ha.found 0 _ rfl rfl
          | 1 => exact ha.found 1 _ rfl rfl
          | n + 2 => omega
        obtain ⟨x', hx', k, hk, hxk⟩ := hfound
        rw [hz] at hx'
        cases hx'
        rw [hxk]
        obtain ⟨e1, e2, v, hv, _⟩ := hk
        have hmem := hv
        simp only [AnnoStore.spec, changes, List.foldl, specStep] at hmem
        have : ∀ a : AnnoKey Str, a = AnnoKey.mk annis tokName → a.name ≠ cat := by rintro _ rfl; decide
        have hk' : k = AnnoKey.mk [] cat := by
          by_contra hne
          simp [hne] at hmem
          have := this k
          grind
        rw [hk']
        rfl
      have hlen : row.length = 2 := by
        have a1 : 1 < row.length := (List.getElem?_eq_some_iff.1 hy).1
        have a2 : ¬ 2 < row.length := by
          intro h
          obtain ⟨n, o, hn, ho, _⟩ := (ha.length 2).1 h
          rcases ats.1 ho with ⟨rfl, _⟩ | ⟨rfl, _⟩ <;> omega
        omega
      match row, hlen with
      | [p, q], _ =>
        simp only [List.getElem?_cons_succ, List.getElem?_cons_zero, Option.some.injEq] at hx hy
        subst hx hy
        have k1 := key 0 p rfl (by omega)
        have k2 := key 1 q rfl (by omega)
        obtain ⟨pn, pk⟩ := p
        obtain ⟨qn, qk⟩ := q
        simp only at m1 m2 k1 k2
        subst m1 m2 k1 k2
        rfl
  match rows, hnd, hin, hon with
  | [x], _, _, hon => rw [hon x (by simp)]; rfl
  | x :: y :: r, hnd, _, hon =>
    have e1 := hon x (by simp)
    have e2 := hon y (by simp)
    simp [e1, e2] at hnd

/-- A span that includes a token which does not come after it in the segmentation. -/
def text5 : Str := "cat _i_ tok & #1 !.seg #2".toList

def alt5 : List Parse.QLit :=
  [.bin (.lit catS 0 none false) (.other .inclusion) (.lit .anyToken 8 none false) false,
    .bin (.ref (.id 1)) (.dist (.precedence (some seg)) (.bound 1 1)) (.ref (.id 2)) true]

def parsed5 : Option (List (List Parse.QLit)) :=
  match Parse.parseQuery text5 with
  | .ok e => some (Aql.alternatives e)
  | _ => none

theorem parsed5_eq : parsed5 = some [alt5] := by decide +kernel

theorem isList5 : Aql.IsNodeList alt5 list3 := by
  refine ⟨by decide, fun o => ?_⟩
  simp [alt5, list3, Aql.Literal.occs, Aql.Operand.occs]

theorem row5 (d : SMatch NodeID64 (AnnoKey Str)) : TextAnswer db env (AnnoStore.spec changes) rels d 0 alt5 list3 [catM 11, tokM 2] where
  length := (row3 d).length
  found := (row3 d).found
  default := (row3 d).default
  holds := by
    intro lhs op rhs h
    refine (row3 d).holds lhs op rhs ?_
    simp only [alt5, List.mem_cons, List.not_mem_nil, or_false, Aql.Literal.bin.injEq, Bool.false_eq_true, and_false] at h
    obtain ⟨rfl, rfl, rfl, _⟩ := h
    simp only [alt3]; exact List.mem_cons_self
  negated := by
    intro lhs op rhs h i j a b hi hj ha hb hoa hob
    simp only [alt5, List.mem_cons, List.not_mem_nil, or_false, Aql.Literal.bin.injEq, Bool.true_eq_false, and_false, false_or] at h
    obtain ⟨rfl, rfl, rfl, _⟩ := h
    have := den3_ref 0 hi
    have := den3_ref 1 hj
    subst i j
    refine ⟨_, _, rfl, rfl, ?_⟩
    rintro ⟨c, hc, _⟩
    simp [db] at hc
  missingRight := by
    intro lhs op rhs h i j a b hi hj ha hb hoa hob
    rcases at3.1 hb with ⟨rfl, rfl⟩ | ⟨rfl, rfl⟩ <;> simp at hob
  missingLeft := by
    intro lhs op rhs h i j a b hi hj ha hb hoa hob
    rcases at3.1 ha with ⟨rfl, rfl⟩ | ⟨rfl, rfl⟩ <;> simp at hoa
  arity := by intro ref range h; simp [alt5] at h

/-- A negated operator on a segmentation that the corpus does not have holds, but the query has no results: the component is looked for before,
and the error that it does not exist is dropped for the alternative. The answer would be the span 11 and the token 2. -/
theorem C101_segmentation_fails (doc : NsSpec Str Str) (d : SMatch NodeID64 (AnnoKey Str)) :
    (∃ e, Parse.parseQuery text5 = .ok e ∧ Aql.alternatives e = [alt5] ∧ Aql.IsNodeList alt5 list3 ∧
      TextAnswer db env (AnnoStore.spec changes) rels d 0 alt5 list3 [catM 11, tokM 2]) ∧
    (∃ out, Answers (E := Empty) env graph db demoTh demoOrder doc d text5 out) ∧
    ∀ out, Answers (E := Empty) env graph db demoTh demoOrder doc d text5 out → out = [] := by
  have h := parsed5_eq
  unfold parsed5 at h
  split at h
  · rename_i e he
    have ha : Aql.alternatives e = [alt5] := by simpa using h
    have key : ((Aql.parse false doc e).toOption.any fun qs => decide (qs.length = 1) && (qs.all fun q => lacksAny db q && checkConnected (shape q))) = true := by
      unfold Aql.parse
      rw [ha]
      rfl
    have key' : ∃ qs, Aql.parse false doc e = .ok qs := by
      cases hq : Aql.parse false doc e with
      | ok qs => exact ⟨qs, rfl⟩
      | error x => rw [hq] at key; simp [Except.toOption] at key
    obtain ⟨qs, hqs⟩ := key'
    rw [hqs] at key
    simp only [Except.toOption, Option.any_some, Bool.and_eq_true, decide_eq_true_eq, List.all_eq_true] at key
    obtain ⟨hl, hu⟩ := key
    obtain ⟨q, rfl⟩ := List.length_eq_one_iff.1 hl
    refine ⟨⟨e, he, ha, isList5, row5 d⟩, ⟨[], .mk he hqs (.cons (.missing (hu q (by simp)).2 (hu q (by simp)).1) .nil) ?_⟩, ?_⟩
    · exact .done (s' := ([], [])) (by simp [planNextMulti])
    · intro out hout
      cases hout with
      | mk he' hqs' hf ho =>
        rw [he] at he'
        cases he'
        rw [hqs] at hqs'
        cases hqs'
        cases hf with
        | cons h1 h2 =>
          cases h2
          rw [not_planned (hu q (by simp)).1 h1] at ho
          exact ho.unique (.done (s' := ([], [])) (by simp [planNextMulti]))
  · cases h

end Answer.SegEx
