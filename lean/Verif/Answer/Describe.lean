import Verif.Answer.FindProps
import Verif.Parse.Values

/-!
# Descriptions of the nodes of a query, and validation

`node_descriptions` (graphannis/src/annis/db/corpusstorage.rs 2362-2381) and `validate_query` (1542-1560).
-/

namespace Answer

open Whole

/-- `QueryAttributeDescription` (graphannis/src/annis/types.rs 26-39). -/
structure Desc where
  alternative : Nat
  fragment : Str
  var : Str
  annoName : Option Str
  optional : Bool
deriving DecidableEq, Repr

/-- The string of a variable: the decimal digits of a number (`(idx + 1).to_string()`, conjunction.rs 302), or a name. -/
def showVar : Aql.Var → Str
  | .num n => Nat.toDigits 10 n
  | .name s => s

/-- The name of the annotation (conjunction.rs 265-269). -/
def annoNameOf : NsSpec Str Str → Option Str
  | .exact _ name _ _ => some name
  | .regex _ name _ _ => some name
  | _ => none

/-- `get_node_descriptions` (conjunction.rs 262-280) with the number of the alternative (corpusstorage.rs 2375-2376). -/
def describe (alternative : Nat) (q : QConj) : List Desc :=
  q.nodes.map fun n => ⟨alternative, Parse.display n.spec, showVar n.var, annoNameOf n.spec, n.optional⟩

/-- The loop over the alternatives (corpusstorage.rs 2374-2379), from the alternative `i`. -/
def describeFrom (i : Nat) : List QConj → List Desc
  | [] => []
  | q :: r => describe i q ++ describeFrom (i + 1) r

/-- What `aql::parse` can end with instead of a query. -/
inductive NoQuery
  | syntaxError
  | panic
  | semantic (e : Aql.Err)
deriving DecidableEq

/-- `aql::parse` (aql/mod.rs 495-559); `doc` is the search for `annis:doc`. The laws of `boolean_expression` are left out. -/
def toQuery (quirks : Bool) (doc : NsSpec Str Str) (text : Str) : Except NoQuery (List QConj) :=
  match Parse.parseQuery text with
  | .syntaxError => .error .syntaxError
  | .panic => .error .panic
  | .ok e =>
    match Aql.parse quirks doc e with
    | .error e => .error (.semantic e)
    | .ok qs => .ok qs

/-- `node_descriptions` (corpusstorage.rs 2362-2381). -/
def nodeDescriptions (quirks : Bool) (doc : NsSpec Str Str) (text : Str) : Except NoQuery (List Desc) :=
  match toQuery quirks doc text with
  | .error e => .error e
  | .ok qs => .ok (describeFrom 0 qs)

/-- `validate_query` (corpusstorage.rs 1542-1560) returns `true`: in each corpus the text is parsed, and there is a plan or an error that is
dropped for each alternative. -/
def Validated {T : Type} [LinearOrder T] (E : Type) (doc : NsSpec Str Str) (d : SMatch T (AnnoKey Str)) (text : Str) (cs : List (Corpus T)) :
    Prop :=
  ∀ c ∈ cs, ∃ qs, toQuery false doc text = .ok qs ∧
    ∃ alts : List (Option (List (Except (Fail E) (Row T (AnnoKey Str))))), List.Forall₂ (AltRows c.env c.g c.db c.th c.order d) qs alts

/-! ## Specification -/

/-- A description says the same as the node search `o` of the alternative `i`, which is the node with the number `n` (from 0) of the text. -/
structure Describes (i n : Nat) (o : Aql.Occ (NsSpec Str Str)) (x : Desc) : Prop where
  alternative : x.alternative = i
  fragment : Parse.Spec.Unsplit o.spec → Parse.Spec.eraseOut (Parse.parseQuery x.fragment) = .ok (.term (.node o.spec 0 none false))
  named : ∀ s, o.vname = some s → x.var = s
  numbered : o.vname = none → x.var = Nat.toDigits 10 (n + 1)
  anno : ∀ s, x.annoName = some s ↔ (∃ ns v m, o.spec = .exact ns s v m) ∨ ∃ ns v m, o.spec = .regex ns s v m
  optional : x.optional = o.optional

/-- A text of one token, which is a reference to the node `j` of an alternative. -/
def RefersTo (offset : Nat) (L : List (Aql.Occ (NsSpec Str Str))) (text : Str) (j : Nat) : Prop :=
  ∃ r : Parse.Ref, ∃ a : Aql.Ref, (∃ ps, Parse.lex text = .ok ps ∧ ps.map (·.tk) = r.yield) ∧ r.act = some a ∧ Aql.DenotesRef offset L a j

/-! ## C111 -/

section
variable {T E : Type} [LinearOrder T] {k : Known T} {d : SMatch T (AnnoKey Str)} {doc : NsSpec Str Str} {text : Str} {e : Parse.Q}
  {qs : List QConj} {Ls : List (List (Aql.Occ (NsSpec Str Str)))}

theorem toQuery_ok {quirks : Bool} : toQuery quirks doc text = .ok qs ↔ ∃ e, Parse.parseQuery text = .ok e ∧ Aql.parse quirks doc e = .ok qs := by
  unfold toQuery
  cases hp : Parse.parseQuery text with
  | ok e =>
    cases ha : Aql.parse quirks doc e with
    | ok q => simp [ha]
    | error x => simp [ha]
  | syntaxError => simp
  | panic => simp

theorem describeFrom_get {i : Nat} {n : Nat} : ∀ {qs : List QConj} (a : Nat) (q : QConj) (j : Nat), qs[a]? = some q → j < q.nodes.length →
    n = ((qs.take a).flatMap Aql.Conj.nodes).length + j → (describeFrom i qs)[n]? = (describe (i + a) q)[j]?
  | [], a, q, j, h, _, _ => by simp at h
  | q' :: r, 0, q, j, h, hj, hn => by
    simp only [List.getElem?_cons_zero, Option.some.injEq] at h
    subst h
    simp only [List.take_zero, List.flatMap_nil, List.length_nil, Nat.zero_add] at hn
    subst hn
    unfold describeFrom
    rw [List.getElem?_append_left (by simpa [describe] using hj), Nat.add_zero]
  | q' :: r, a + 1, q, j, h, hj, hn => by
    simp only [List.take_succ_cons, List.flatMap_cons, List.length_append] at hn
    have hl : (describe i q').length = q'.nodes.length := by simp [describe]
    unfold describeFrom
    rw [List.getElem?_append_right (by omega), hl,
      describeFrom_get (i := i + 1) (n := n - q'.nodes.length) a q j (by simpa using h) hj (by omega)]
    congr 2
    omega

theorem describeFrom_length {i : Nat} {qs : List QConj} : (describeFrom i qs).length = (qs.flatMap Aql.Conj.nodes).length := by
  induction qs generalizing i with
  | nil => rfl
  | cons q r ih => simp [describeFrom, describe, ih]

/-- What the translation of a text gives for each alternative. -/
theorem translated (hqs : Aql.parse false doc e = .ok qs) (hLs : Searches (Aql.alternatives e) Ls)
    (hn : ∀ L ∈ Ls, Aql.NamesDistinct L) :
    qs.length = Ls.length ∧ ∀ (i : Nat) q L, qs[i]? = some q → Ls[i]? = some L → ∃ c, (Aql.alternatives e)[i]? = some c ∧
      ((qs.take i).flatMap Aql.Conj.nodes).length = before Ls i ∧ Aql.Translated false (before Ls i) c L q := by
  have hlenL := hLs.length_eq
  obtain ⟨hlen, htr⟩ := Aql.C69_query_partial doc e qs hqs fun c hc => by
    obtain ⟨i, hi⟩ := List.mem_iff_getElem?.1 hc
    obtain ⟨hlt, _⟩ := List.getElem?_eq_some_iff.1 hi
    have g2 := List.getElem?_eq_getElem (l := Ls) (i := i) (by omega)
    exact ⟨_, forall₂_get hLs i c _ hi g2, hn _ (List.getElem_mem _)⟩
  have htr' : ∀ (i : Nat) c q L, (Aql.alternatives e)[i]? = some c → qs[i]? = some q → Ls[i]? = some L →
      Aql.Translated false ((qs.take i).flatMap Aql.Conj.nodes).length c L q := by
    intro i c q L hc hq hL
    obtain ⟨L', h1, h2⟩ := htr i c q hc hq
    rw [(forall₂_get hLs i c L hc hL).unique h1]
    exact h2
  have hoff : ∀ i, ((qs.take i).flatMap Aql.Conj.nodes).length = before Ls i := by
    refine offsets (forall₂_of_get (by omega) fun i q L hq hL => ?_)
    obtain ⟨hlt, _⟩ := List.getElem?_eq_some_iff.1 hq
    have g1 := List.getElem?_eq_getElem (l := Aql.alternatives e) (i := i) (by omega)
    rw [(htr' i _ q L g1 hq hL).nodes, List.length_mapIdx]
  refine ⟨by omega, fun i q L hq hL => ?_⟩
  obtain ⟨hlt, _⟩ := List.getElem?_eq_some_iff.1 hq
  have g1 := List.getElem?_eq_getElem (l := Aql.alternatives e) (i := i) (by omega)
  refine ⟨_, g1, hoff i, ?_⟩
  rw [← hoff i]
  exact htr' i _ q L g1 hq hL

theorem before_all : before Ls Ls.length = (Ls.map List.length).sum := by
  unfold before
  rw [List.take_length]

theorem literals_of_alternatives {ps : List Parse.PTok} {tree : Parse.Disj} (hp : Parse.parseQuery text = .ok e)
    (ht : Parse.Spec.Tree text ps tree) (hf : Parse.Spec.Flat tree) {c : List Parse.QLit} (hc : c ∈ Aql.alternatives e) :
    ∀ l ∈ c, l ∈ e.literals := by
  intro l hl
  rw [← Aql.C69_literals_partial e (Parse.C92_flat hp ht hf)]
  exact List.mem_flatten.2 ⟨c, hc, hl⟩

/-- **C111**, restricted to texts without parentheses in which no name is used twice, outside of quirks mode: the descriptions are those of the
node searches of all alternatives in the order of the text, so the `n`-th one describes the node `#n`. -/
theorem C111_descriptions_partial {ps : List Parse.PTok} {tree : Parse.Disj} (hp : Parse.parseQuery text = .ok e)
    (htree : Parse.Spec.Tree text ps tree) (hf : Parse.Spec.Flat tree) (hqs : Aql.parse false doc e = .ok qs)
    (hLs : Searches (Aql.alternatives e) Ls) (hn : ∀ L ∈ Ls, Aql.NamesDistinct L) :
    ∃ ds, nodeDescriptions false doc text = .ok ds ∧ ds.length = (Ls.map List.length).sum ∧
      ∀ (i j : Nat) L o, Ls[i]? = some L → L[j]? = some o →
        ∃ x, ds[before Ls i + j]? = some x ∧ Describes i (before Ls i + j) o x ∧
          (before Ls i + j + 1 < 2 ^ 64 → RefersTo (before Ls i) L ('#' :: x.var) j) := by
  obtain ⟨hlen, htr⟩ := translated hqs hLs hn
  refine ⟨describeFrom 0 qs, ?_, ?_, fun i j L o hL ho => ?_⟩
  · unfold nodeDescriptions
    rw [toQuery_ok.2 ⟨e, hp, hqs⟩]
  · rw [describeFrom_length, ← before_all]
    have := offsets (qs := qs) (Ls := Ls) (forall₂_of_get hlen fun i q L hq hL => by
      obtain ⟨c, _, _, h⟩ := htr i q L hq hL
      rw [h.nodes, List.length_mapIdx]) Ls.length
    rw [← this, List.take_of_length_le (by omega)]
  obtain ⟨hlt, _⟩ := List.getElem?_eq_some_iff.1 hL
  have hq := List.getElem?_eq_getElem (l := qs) (i := i) (by omega)
  obtain ⟨c, hc, hoff, ht⟩ := htr i _ L hq hL
  obtain ⟨hjlt, _⟩ := List.getElem?_eq_some_iff.1 ho
  have hnode : (qs[i]).nodes[j]? = some ⟨Aql.varOf (before Ls i) j o.vname, o.spec, o.optional⟩ := by
    rw [ht.nodes, List.getElem?_mapIdx, ho]
    rfl
  have hget := describeFrom_get (i := 0) (n := before Ls i + j) i qs[i] j hq (List.getElem?_eq_some_iff.1 hnode).1 (by omega)
  have hd : (describe (0 + i) qs[i])[j]? =
      some ⟨0 + i, Parse.display o.spec, showVar (Aql.varOf (before Ls i) j o.vname), annoNameOf o.spec, o.optional⟩ := by
    unfold describe
    rw [List.getElem?_map, hnode]
    rfl
  -- the search is written in the text
  obtain ⟨l, hl, hol⟩ := ((forall₂_get hLs i c L hc hL).mem o).1 (List.mem_of_getElem? ho)
  have hlit := literals_of_alternatives hp htree hf (List.mem_of_getElem? hc) l hl
  refine ⟨_, hget.trans hd, ⟨Nat.zero_add i, fun hu => ?_, fun s hs => ?_, fun hs => ?_, fun s => ?_, rfl⟩, fun hsmall => ?_⟩
  · exact Parse.C94_display_partial hp hlit hol hu
  · show showVar (Aql.varOf _ _ _) = s
    rw [hs]
    rfl
  · show showVar (Aql.varOf _ _ _) = _
    rw [hs]
    rfl
  · show annoNameOf o.spec = some s ↔ _
    cases o.spec <;> simp [annoNameOf]
  · show RefersTo _ _ ('#' :: showVar (Aql.varOf _ _ _)) j
    cases hv : o.vname with
    | none =>
      refine ⟨.num (Nat.toDigits 10 (before Ls i + j + 1)), .id (before Ls i + j + 1), ?_, ?_, o, ho, hv, rfl⟩
      · obtain ⟨ps, h1, h2⟩ := Parse.C91_texts (ts := [.nodeRef (Nat.toDigits 10 (before Ls i + j + 1))]) (by
          intro t ht
          obtain rfl := List.mem_singleton.1 ht
          refine ⟨?_, ?_⟩
          · intro h
            have := Nat.toDigits_ne_nil (n := before Ls i + j + 1) (b := 10)
            exact this h
          · rw [List.all_eq_true]
            intro x hx
            exact Nat.isDigit_of_mem_toDigits (by decide) (by decide) hx) (Parse.texts_single _)
        exact ⟨ps, h1, h2⟩
      · simp only [Parse.Ref.act, Parse.usize, Parse.C94_digits, if_pos hsmall, Option.map_some]
    | some w =>
      refine ⟨.var w, .name w, ?_, rfl, o, ho, hv⟩
      obtain ⟨ps, h1, h2⟩ := Parse.C91_texts (ts := [.varRef w]) (by
        intro t ht
        obtain rfl := List.mem_singleton.1 ht
        exact (Parse.C93_names hp hlit hol hv).1) (Parse.texts_single _)
      exact ⟨ps, h1, h2⟩

/-- There are descriptions exactly for the texts that are accepted; the errors are those of the parser. -/
theorem C111_errors (quirks : Bool) :
    (nodeDescriptions quirks doc text = .error .syntaxError ↔ ¬ ∃ ps tree, Parse.Spec.Tree text ps tree) ∧
    (nodeDescriptions quirks doc text = .error .panic ↔ ∃ ps tree, Parse.Spec.Tree text ps tree ∧ ¬ Parse.Spec.RefsFit (ps.map (·.tk))) := by
  rw [← Parse.C92_syntax, ← Parse.C94_panic]
  unfold nodeDescriptions toQuery
  cases hp : Parse.parseQuery text with
  | ok e =>
    cases ha : Aql.parse quirks doc e with
    | ok q => simp [ha]
    | error x => simp [ha]
  | syntaxError => simp
  | panic => simp

/-! ### Columns of the results -/

theorem visible_zip {M O : Type} (f : O → Bool) : ∀ (row : List M) (pre L : List O), row.length ≤ L.length →
    ((row.zipIdx pre.length).filter fun p => ((pre ++ L)[p.2]?).any f).map Prod.fst = ((row.zip L).filter fun p => f p.2).map Prod.fst
  | [], _, _, _ => by simp
  | x :: row, pre, [], h => by simp at h
  | x :: row, pre, o :: L, h => by
    have ih := visible_zip f row (pre ++ [o]) L (by simpa using h)
    simp only [List.length_append, List.length_cons, List.length_nil, List.append_assoc, List.cons_append, List.nil_append] at ih
    simp only [List.zipIdx_cons, List.zip_cons_cons, List.filter_cons]
    have : ((pre ++ o :: L)[pre.length]?).any f = f o := by simp
    simp only [this]
    split
    · simp only [List.map_cons]
      rw [ih]
    · exact ih

theorem forall₂_zip {M O : Type} {R : O → M → Prop} (f : O → Bool) : ∀ (row : List M) (L : List O),
    (∀ (n : Nat) o, L[n]? = some o → f o = true → ∃ x, row[n]? = some x ∧ R o x) →
    List.Forall₂ R (L.filter f) (((row.zip L).filter fun p => f p.2).map Prod.fst)
  | row, [], _ => by simp
  | [], o :: L, h => by
    have : (o :: L).filter f = [] := by
      rw [List.filter_eq_nil_iff]
      intro a ha hf
      obtain ⟨n, hn⟩ := List.mem_iff_getElem?.1 ha
      obtain ⟨x, hx, _⟩ := h n a hn hf
      simp at hx
    rw [this]
    simp
  | x :: row, o :: L, h => by
    have ih := forall₂_zip f row L fun n o' hn hf => by simpa using h (n + 1) o' (by simpa using hn) hf
    simp only [List.zip_cons_cons, List.filter_cons]
    by_cases hf : f o = true
    · rw [if_pos hf, if_pos hf, List.map_cons]
      refine .cons ?_ ih
      obtain ⟨y, hy, hR⟩ := h 0 o rfl hf
      simp only [List.getElem?_cons_zero, Option.some.injEq] at hy
      subst hy
      exact hR
    · rw [if_neg hf, if_neg hf]
      exact ih

theorem describeFrom_filter {f : Desc → Bool} : ∀ {qs : List QConj} (s i : Nat) (q : QConj), qs[i]? = some q →
    ((describeFrom s qs).filter fun x => decide (x.alternative = s + i) && f x) = (describe (s + i) q).filter f
  | [], _, _, _, h => by simp at h
  | q' :: r, s, i, q, h => by
    have hother : ∀ (r : List QConj) (s' : Nat), s < s' →
        ((describeFrom s' r).filter fun x => decide (x.alternative = s) && f x) = [] := by
      intro r
      induction r with
      | nil => intros; rfl
      | cons a r ih =>
        intro s' hs
        unfold describeFrom
        rw [List.filter_append, ih (s' + 1) (by omega), List.append_nil, List.filter_eq_nil_iff]
        intro x hx
        obtain ⟨n, _, rfl⟩ := List.mem_map.1 hx
        have : s' ≠ s := by omega
        simp [this]
    unfold describeFrom
    rw [List.filter_append]
    cases i with
    | zero =>
      simp only [List.getElem?_cons_zero, Option.some.injEq] at h
      subst h
      rw [Nat.add_zero, hother r (s + 1) (by omega), List.append_nil]
      refine List.filter_congr fun x hx => ?_
      obtain ⟨n, _, rfl⟩ := List.mem_map.1 hx
      simp
    | succ i =>
      have e1 : s + (i + 1) = (s + 1) + i := by omega
      rw [e1, describeFrom_filter (s + 1) i q (by simpa using h)]
      have : ((describe s q').filter fun x => decide (x.alternative = s + 1 + i) && f x) = [] := by
        rw [List.filter_eq_nil_iff]
        intro x hx
        obtain ⟨n, _, rfl⟩ := List.mem_map.1 hx
        have : s ≠ s + 1 + i := by omega
        simp [this]
      rw [this, List.nil_append]

/-- **C111**: the descriptions of an alternative that are not optional are, in this order, those of the nodes that `find` shows of its
answers (`idOf`, C108): each node is found by a search that the text of its description is read as. -/
theorem C111_columns_partial (ht : QueryText doc text e qs Ls) {i : Nat} {row : Row T (AnnoKey Str)}
    (ha : AnswersAlt k.c.db k.c.env (AnnoStore.spec k.ops) k.r d (Aql.alternatives e) Ls i row) :
    ∃ ds, nodeDescriptions false doc text = .ok ds ∧
      List.Forall₂ (fun (x : Desc) m => ∃ p, Finds k.c.env (AnnoStore.spec k.ops) k.r p m ∧
          (Parse.Spec.Unsplit p → Parse.Spec.eraseOut (Parse.parseQuery x.fragment) = .ok (.term (.node p 0 none false))))
        (ds.filter fun x => decide (x.alternative = i) && !x.optional) (visible Ls row) := by
  obtain ⟨ps, tree, htree, hflat⟩ := ht.flat
  obtain ⟨hlen, htr⟩ := translated ht.translated ht.searches ht.names
  refine ⟨describeFrom 0 qs, ?_, ?_⟩
  · unfold nodeDescriptions
    rw [toQuery_ok.2 ⟨e, ht.parsed, ht.translated⟩]
  obtain ⟨c, L, hc, hL, hta⟩ := ha
  obtain ⟨hlt, _⟩ := List.getElem?_eq_some_iff.1 hL
  have hq := List.getElem?_eq_getElem (l := qs) (i := i) (by omega)
  obtain ⟨c', hc', _, hT⟩ := htr i _ L hq hL
  rw [hc] at hc'
  cases hc'
  have hrow : row.length ≤ L.length := by
    by_contra hcon
    obtain ⟨n, o, hn, ho, _⟩ := (hta.length L.length).1 (by omega)
    have := (List.getElem?_eq_some_iff.1 ho).1
    omega
  -- the descriptions of the alternative
  have hD : ∀ n : Nat, (describe i qs[i])[n]? = (L[n]?).map fun o =>
      (⟨i, Parse.display o.spec, showVar (Aql.varOf (before Ls i) n o.vname), annoNameOf o.spec, o.optional⟩ : Desc) := by
    intro n
    unfold describe
    rw [hT.nodes, List.getElem?_map, List.getElem?_mapIdx]
    cases L[n]? <;> rfl
  have hDlen : (describe i qs[i]).length = L.length := by simp [describe, hT.nodes]
  have hvis : visible Ls row = ((row.zip (describe i qs[i])).filter fun p => !p.2.optional).map Prod.fst := by
    by_cases h1 : Ls.length = 1
    · obtain ⟨L', rfl⟩ := List.length_eq_one_iff.1 h1
      obtain rfl : L' = L := by
        cases i with
        | zero => simpa using hL
        | succ n => simp at hL
      rw [← visible_zip (fun o : Desc => !o.optional) row [] (describe i qs[i]) (by omega)]
      unfold visible
      congr 1
      refine List.filter_congr fun p _ => ?_
      rw [List.nil_append, hD, Option.any_map]
    · rw [visible_all h1]
      rcases ht.columns with hcol | hcol
      · exact absurd hcol h1
      have : ((row.zip (describe i qs[i])).filter fun p => !p.2.optional) = row.zip (describe i qs[i]) := by
        rw [List.filter_eq_self]
        intro p hp
        obtain ⟨n, hn⟩ := List.mem_iff_getElem?.1 (List.of_mem_zip hp).2
        rw [hD] at hn
        obtain ⟨o, ho, ho'⟩ := Option.map_eq_some_iff.1 hn
        rw [← ho', hcol L (List.mem_of_getElem? hL) o (List.mem_of_getElem? ho)]
        rfl
      rw [this, List.map_fst_zip (by omega)]
  have hds := describeFrom_filter (f := fun x => !x.optional) 0 i qs[i] hq
  simp only [Nat.zero_add] at hds
  rw [hds, hvis]
  refine forall₂_zip (fun x : Desc => !x.optional) row _ fun n x hn hx => ?_
  rw [hD] at hn
  obtain ⟨o, ho, rfl⟩ := Option.map_eq_some_iff.1 hn
  obtain ⟨m, hm, hfind⟩ := hta.found n o ho (by simpa using hx)
  refine ⟨m, hm, o.spec, hfind, fun hu => ?_⟩
  obtain ⟨l, hl, hol⟩ := ((forall₂_get ht.searches i c L hc hL).mem o).1 (List.mem_of_getElem? ho)
  exact Parse.C94_display_partial ht.parsed (literals_of_alternatives ht.parsed htree hflat (List.mem_of_getElem? hc) l hl) hol hu

/-! ### Validation -/

theorem output_exists {plans : List (List (Except (Fail E) (Row T (AnnoKey Str))))} : ∃ out, Output plans out := by
  unfold Output
  split
  · exact ⟨_, C44_single _⟩
  · exact ⟨_, planNextMulti_runs _ _⟩

/-- A query is valid exactly if `count` gives a number. -/
theorem C111_valid_iff_count {cs : List (Corpus T)} : Validated E doc d text cs ↔ ∃ n, CountAll E doc d text cs n := by
  constructor
  · intro h
    have : ∃ outs : List (List (Except (Fail E) (Row T (AnnoKey Str)))),
        List.Forall₂ (fun c out => ∃ qs alts, Planned doc d text c qs alts out) cs outs := by
      induction cs with
      | nil => exact ⟨[], .nil⟩
      | cons c cs ih =>
        obtain ⟨outs, ho⟩ := ih fun c hc => h c (List.mem_cons_of_mem _ hc)
        obtain ⟨qs, hq, alts, ha⟩ := h c List.mem_cons_self
        obtain ⟨out, hout⟩ := output_exists (plans := alts.filterMap id)
        exact ⟨out :: outs, .cons ⟨qs, alts, toQuery_ok.1 hq, ha, hout⟩ ho⟩
    obtain ⟨outs, ho⟩ := this
    exact ⟨_, outs, ho, rfl⟩
  · rintro ⟨_, outs, ho, _⟩ c hc
    obtain ⟨i, hi⟩ := List.mem_iff_getElem?.1 hc
    have hlt := (List.getElem?_eq_some_iff.1 hi).1
    have g := List.getElem?_eq_getElem (l := outs) (i := i) (by rw [← ho.length_eq]; exact hlt)
    obtain ⟨qs, alts, hp⟩ := forall₂_get ho i _ _ hi g
    exact ⟨qs, toQuery_ok.2 hp.translated, alts, hp.rows⟩

/-- A query that is refused in one of the corpora is not valid. -/
theorem C111_refused {cs : List (Corpus T)} (h : Validated E doc d text cs) {c : Corpus T} (hc : c ∈ cs) :
    ¬ Refused (E := E) c.env c.g doc text := by
  intro hr
  obtain ⟨qs, hq, alts, ha⟩ := h c hc
  obtain ⟨e, hp, hqs⟩ := toQuery_ok.1 hq
  obtain ⟨q, hmem, href⟩ := hr e hp qs hqs
  obtain ⟨i, hi⟩ := List.mem_iff_getElem?.1 hmem
  have hlt := (List.getElem?_eq_some_iff.1 hi).1
  rw [ha.length_eq] at hlt
  have hrow := forall₂_get ha i _ _ hi (List.getElem?_eq_getElem hlt)
  have hus : ∀ {decU : Nat → Bool × Bool} {us : List (Nat × (SMatch T (AnnoKey Str) → Except (Fail E) Bool))},
      unariesOf (E := E) c.env c.g c.db c.th c.order decU q = some us → q.uns = [] → us = [] := by
    intro decU us h1 h2
    unfold unariesOf at h1
    rw [h2] at h1
    simpa [allSome] using h1.symm
  generalize alts[i]'hlt = x at hrow
  rcases href with href | ⟨h1, h2, h3⟩
  · cases hrow with
    | plan hcc => rw [href] at hcc; cases hcc
    | failed hcc => rw [href] at hcc; cases hcc
    | missing hcc => rw [href] at hcc; cases hcc
  · cases hrow with
    | plan _ _ hu _ _ hs =>
      rw [hus hu h2] at hs; obtain ⟨_, hs⟩ := planned_searches hs; rw [h3] at hs
      cases hs
    | failed _ hu hs hre =>
      rw [hus hu h2, h3] at hs
      cases hs
      rcases hre rfl with h | h
      · exact h h1
      · exact h h2
    | missing _ hu =>
      unfold lacksAny at hu
      rw [h1, h2] at hu
      simp at hu

/-- A query that fulfills the conditions of C108 is valid. -/
theorem C111_valid_partial (ht : QueryText doc text e qs Ls) (ks : List (Known T)) (hf : ∀ k ∈ ks, k.Fits d (Aql.alternatives e) Ls) :
    Validated E doc d text (ks.map (·.c)) := by
  intro c hc
  obtain ⟨k, hk, rfl⟩ := List.mem_map.1 hc
  obtain ⟨ps, tree, htree, hflat⟩ := ht.flat
  obtain ⟨_, _, _, ⟨out, hout⟩, _⟩ := C101_query_partial (E := E) k.corpus k.db ht.parsed htree hflat doc ht.translated d (by
    intro Ls' h' i c L hc hL
    have hLs : Ls' = Ls := by
      refine List.ext_getElem? fun i => ?_
      have e1 := h'.length_eq
      have e2 := ht.searches.length_eq
      cases hi : (Aql.alternatives e)[i]? with
      | none =>
        rw [List.getElem?_eq_none_iff] at hi
        rw [List.getElem?_eq_none_iff.2 (by omega), List.getElem?_eq_none_iff.2 (by omega)]
      | some c =>
        obtain ⟨hlt, _⟩ := List.getElem?_eq_some_iff.1 hi
        have g1 := List.getElem?_eq_getElem (l := Ls') (i := i) (by omega)
        have g2 := List.getElem?_eq_getElem (l := Ls) (i := i) (by omega)
        rw [g1, g2, (forall₂_get h' i c _ hi g1).unique (forall₂_get ht.searches i c _ hi g2)]
    rw [hLs] at hL ⊢
    exact ⟨ht.names L (List.mem_of_getElem? hL), (hf k hk).alternatives i c L hc hL⟩)
  cases hout with
  | mk h1 h2 h3 h4 => exact ⟨_, toQuery_ok.2 ⟨_, h1, h2⟩, _, h3⟩

end
end Answer
