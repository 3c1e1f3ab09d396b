import Verif.NodeSearch.Model

/-!
# C66: a node search gives the nodes with the annotation that is looked for
-/

set_option linter.unusedSimpArgs false
set_option linter.unusedSectionVars false
set_option linter.unusedVariables false

open AnnoStore

namespace NodeSearch

variable {T N V E : Type} [LinearOrder T] [LinearOrder N] [OrderBot N] [LinearOrder V]

/-! ## Specification -/

/-- The node has an annotation with this key that the query asks for. `m` are the annotations, `Cov` the coverage edges. Search patterns
match whole values. -/
def Wanted (env : NsEnv N V) (m : Spec T N V) (Cov : T → T → Prop) : NsSpec N V → T → AnnoKey N → Prop
  | .exact ns name v _, n, k => Hit m ns name (fun w => ∀ x, v = some x → w = x) n k
  | .notExact ns name v _, n, k => Hit m ns name (fun w => w ≠ v) n k
  | .regex ns name p _, n, k => Hit m ns name (fun w => ∃ f, env.compile p = some f ∧ f w = true) n k
  | .notRegex ns name p _, n, k => Hit m ns name (fun w => ∃ f, env.compile p = some f ∧ f w = false) n k
  | .exactTok v leafs, n, k => Hit m (some env.annis) env.tok (fun w => w = v) n k ∧ (leafs = true → ¬ ∃ t, Cov n t)
  | .notExactTok v, n, k => Hit m (some env.annis) env.tok (fun w => w ≠ v) n k ∧ ¬ ∃ t, Cov n t
  | .regexTok p leafs, n, k =>
    Hit m (some env.annis) env.tok (fun w => ∃ f, env.compile p = some f ∧ f w = true) n k ∧ (leafs = true → ¬ ∃ t, Cov n t)
  | .notRegexTok p, n, k =>
    Hit m (some env.annis) env.tok (fun w => ∃ f, env.compile p = some f ∧ f w = false) n k ∧ ¬ ∃ t, Cov n t
  | .anyToken, n, k => Hit m (some env.annis) env.tok (fun _ => True) n k ∧ ¬ ∃ t, Cov n t
  | .anyNode, n, k => Hit m (some env.annis) env.nodeType (fun w => w = env.nodeVal) n k

/-- The annotation key in the result: the found annotation for searches by annotation name, otherwise (tokens, `node`, metadata) the node
type. -/
def ShownKey (env : NsEnv N V) : NsSpec N V → AnnoKey N → AnnoKey N
  | .exact _ _ _ false, k => k
  | .notExact _ _ _ false, k => k
  | .regex _ _ _ false, k => k
  | .notRegex _ _ _ false, k => k
  | _, _ => AnnoKey.mk env.annis env.nodeType

/-- The coverage storages answer correctly and those with statistics for 0 nodes have no edges. -/
def CovOk (g : NsGraph T N V) (Cov : T → T → Prop) : Prop :=
  ∃ Ed : GStore T × Option Nat → T → T → Prop,
    (∀ c ∈ g.coverage, (∃ D R, c.1.Is (Ed c) D R) ∧ (c.2 = some 0 → ∀ a b, ¬ Ed c a b)) ∧
    ∀ a b, Cov a b ↔ ∃ c ∈ g.coverage, Ed c a b

/-- A pattern that is replaced by an exact value matches only this value (C57 says for which patterns this holds). -/
def ExactOk (env : NsEnv N V) : Prop := ∀ p v f, env.exact p = some v → env.compile p = some f → ∀ w, f w = true ↔ w = v

/-- The search for all tokens is correct (C49 says when this holds). -/
def TokensOk (env : NsEnv N V) (g : NsGraph T N V) (m : Spec T N V) (Cov : T → T → Prop) : Prop :=
  ∀ l, g.anyTokens = some l → l.Nodup ∧ ∀ n, n ∈ l ↔ (m n (AnnoKey.mk env.annis env.tok)).isSome ∧ ¬ ∃ t, Cov n t

/-! ## Lemmas -/

theorem AnnoKey.eq_mk {k : AnnoKey N} {ns name : N} (h1 : k.name = name) (h2 : k.ns = ns) : k = AnnoKey.mk ns name := by
  subst h1 h2; rfl

theorem isLeaf_iff {g : NsGraph T N V} {Cov : T → T → Prop} (h : CovOk g Cov) (n : T) : isLeaf g n = true ↔ ¬ ∃ t, Cov n t := by
  obtain ⟨Ed, h1, h2⟩ := h
  unfold isLeaf covStores
  simp only [List.all_eq_true, List.mem_map, List.mem_filter, forall_exists_index, and_imp, h2]
  constructor
  · rintro h ⟨t, c, hc, he⟩
    obtain ⟨⟨D, R, hi⟩, hz⟩ := h1 c hc
    obtain ⟨l, hl, _, hm⟩ := hi.out n
    have hp : (match c.2 with | some nodes => decide (nodes > 0) | none => true) = true := by
      rcases h3 : c.2 with _ | k
      · rfl
      · rcases k with _ | k
        · exact absurd he (hz h3 n t)
        · simp
    have := h c.1 c hc hp rfl
    rw [hl] at this
    have : l = [] := by simpa using this
    have h4 := (hm t).2 he
    rw [this] at h4
    simp at h4
  · intro h x c hc _ hx
    subst hx
    obtain ⟨⟨D, R, hi⟩, hz⟩ := h1 c hc
    obtain ⟨l, hl, _, hm⟩ := hi.out n
    rw [hl]
    cases l with
    | nil => rfl
    | cons t l => exact absurd ⟨t, c, hc, (hm t).1 (by simp)⟩ h

theorem anyTokenFilter_eq {g : NsGraph T N V} {Cov : T → T → Prop} (h : CovOk g Cov) (m : SMatch T (AnnoKey N)) :
    anyTokenFilter (E := E) (covStores g) m = .ok (isLeaf g m.node) := by
  obtain ⟨Ed, h1, h2⟩ := h
  have hall : ∀ c ∈ covStores g, ∃ l, c.out m.node = some l := by
    intro c hc
    simp only [covStores, List.mem_map, List.mem_filter] at hc
    obtain ⟨c', ⟨hc', _⟩, rfl⟩ := hc
    obtain ⟨⟨D, R, hi⟩, _⟩ := h1 c' hc'
    obtain ⟨l, hl, _⟩ := hi.out m.node
    exact ⟨l, hl⟩
  unfold isLeaf
  generalize covStores g = L at *
  induction L with
  | nil => rfl
  | cons c L ih =>
    obtain ⟨l, hl⟩ := hall c (by simp)
    rw [anyTokenFilter]
    simp only [List.all_cons, hl]
    cases l with
    | nil => simpa using ih fun c hc => hall c (by simp [hc])
    | cons x l => rfl

theorem uniq_aux {A : Type} [DecidableEq A] (l : List A) : ∀ acc : List A, (acc ++ l).Nodup →
    l.foldl (fun acc a => if a ∈ acc then acc else acc ++ [a]) acc = acc ++ l := by
  induction l with
  | nil => intro acc _; simp
  | cons a l ih =>
    intro acc h
    have h1 : a ∉ acc := by
      intro h2
      exact (List.nodup_append.1 h).2.2 a h2 a (by simp) rfl
    rw [List.foldl_cons, if_neg h1, ih]
    · simp
    · simpa using h

theorem uniq_eq {A : Type} [DecidableEq A] {l : List A} (h : l.Nodup) : uniq l = l := by
  unfold uniq
  rw [uniq_aux l [] (by simpa using h)]
  rfl

theorem annoOutput_eq (env : NsEnv N V) (g : NsGraph T N V) (name : N) (isMeta : Bool) {base : List (T × AnnoKey N)} (h : base.Nodup) :
    annoOutput env g name isMeta base = base.map fun m => ⟨m.1, if isMeta then typeKey env else m.2⟩ := by
  unfold annoOutput
  cases isMeta
  · simp
  · simp [uniq_eq h]

/-- All searches: a list without duplicates of the wanted annotations, shown with the constant key. -/
theorem items_base (ops : List (Op T N V)) (env : NsEnv N V) (g : NsGraph T N V) (hg : g.annos = run ops) {Cov : T → T → Prop}
    (hc : CovOk g Cov) (hx : ExactOk env) (ht : TokensOk env g (spec ops) Cov) (q : NsSpec N V) {rows : List (SMatch T (AnnoKey N))}
    (hr : items env g q = some rows) (hv : (valueFilters (E := E) env g q).isSome) :
    ∃ base : List (T × AnnoKey N), base.Nodup ∧ (∀ n k, (n, k) ∈ base ↔ Wanted env (spec ops) Cov q n k) ∧
      rows = base.map fun m => ⟨m.1, ShownKey env q m.2⟩ := by
  have tokBase : ∀ (base : List (T × AnnoKey N)) (P : V → Prop) (leafs : Bool), base.Nodup →
      (∀ n k, (n, k) ∈ base ↔ Hit (spec ops) (some env.annis) env.tok P n k) →
      ∃ b : List (T × AnnoKey N), b.Nodup ∧
        (∀ n k, (n, k) ∈ b ↔ Hit (spec ops) (some env.annis) env.tok P n k ∧ (leafs = true → ¬ ∃ t, Cov n t)) ∧
        tokenSearch env g base leafs = b.map fun m => ⟨m.1, typeKey env⟩ := by
    intro base P leafs hn hm
    cases leafs with
    | false => exact ⟨base, hn, by simpa using hm, by simp [tokenSearch]⟩
    | true =>
      refine ⟨base.filter fun m => isLeaf g m.1, hn.filter _, fun n k => ?_, by simp [tokenSearch]⟩
      rw [List.mem_filter, hm]
      simp only [isLeaf_iff hc, forall_const]
  cases q with
  | exact ns name v m =>
    obtain ⟨h1, h2⟩ := C03_exact_search ops ns name (optSearch v)
    simp only [items, hg, Option.some.injEq] at hr
    rw [annoOutput_eq env g name m h2] at hr
    refine ⟨_, h2, fun n k => ?_, ?_⟩
    · rw [h1]
      cases v <;> simp [Wanted, Hit, optSearch, accepts]
    · rw [← hr]; cases m <;> simp [ShownKey, typeKey]
  | notExact ns name v m =>
    obtain ⟨h1, h2⟩ := C03_exact_search ops ns name (.notSome v)
    simp only [items, hg, Option.some.injEq] at hr
    rw [annoOutput_eq env g name m h2] at hr
    refine ⟨_, h2, fun n k => ?_, ?_⟩
    · rw [h1]; simp [Wanted, Hit, accepts]
    · rw [← hr]; cases m <;> simp [ShownKey, typeKey]
  | regex ns name p m =>
    obtain ⟨f, hf⟩ : ∃ f, env.compile p = some f := by
      simpa [valueFilters, Option.isSome_map, Option.isSome_iff_exists] using hv
    simp only [items, hg] at hr
    cases he : env.exact p with
    | some v =>
      obtain ⟨h1, h2⟩ := C03_exact_search ops ns name (.some v)
      simp only [he, Option.some.injEq] at hr
      rw [annoOutput_eq env g name m h2] at hr
      refine ⟨_, h2, fun n k => ?_, ?_⟩
      · rw [h1]; simp [Wanted, Hit, accepts, hf, hx p v f he hf]
      · rw [← hr]; cases m <;> simp [ShownKey, typeKey]
    | none =>
      obtain ⟨h1, h2⟩ := C03_regex_search ops ns name (env.compile p) false
      simp only [he, Option.some.injEq] at hr
      rw [annoOutput_eq env g name m h2] at hr
      refine ⟨_, h2, fun n k => ?_, ?_⟩
      · rw [h1]; simp [Wanted, Hit, hf]
      · rw [← hr]; cases m <;> simp [ShownKey, typeKey]
  | notRegex ns name p m =>
    obtain ⟨f, hf⟩ : ∃ f, env.compile p = some f := by
      simpa [valueFilters, Option.isSome_map, Option.isSome_iff_exists] using hv
    simp only [items, hg] at hr
    cases he : env.exact p with
    | some v =>
      obtain ⟨h1, h2⟩ := C03_exact_search ops ns name (.notSome v)
      simp only [he, Option.some.injEq] at hr
      rw [annoOutput_eq env g name m h2] at hr
      refine ⟨_, h2, fun n k => ?_, ?_⟩
      · rw [h1]
        have := hx p v f he hf
        simp only [Wanted, Hit, accepts, hf, Option.some.injEq, exists_eq_left']
        simp only [← Bool.not_eq_true, this, ne_eq]
      · rw [← hr]; cases m <;> simp [ShownKey, typeKey]
    | none =>
      obtain ⟨h1, h2⟩ := C03_regex_search ops ns name (env.compile p) true
      simp only [he, Option.some.injEq] at hr
      rw [annoOutput_eq env g name m h2] at hr
      refine ⟨_, h2, fun n k => ?_, ?_⟩
      · rw [h1]; simp [Wanted, Hit, hf]
      · rw [← hr]; cases m <;> simp [ShownKey, typeKey]
  | exactTok v leafs =>
    obtain ⟨h1, h2⟩ := C03_exact_search ops (some env.annis) env.tok (.some v)
    obtain ⟨b, h3, h4, h5⟩ := tokBase _ _ leafs h2 h1
    simp only [items, hg, Option.some.injEq] at hr
    exact ⟨b, h3, h4, by rw [← hr, h5]; rfl⟩
  | notExactTok v =>
    obtain ⟨h1, h2⟩ := C03_exact_search ops (some env.annis) env.tok (.notSome v)
    obtain ⟨b, h3, h4, h5⟩ := tokBase _ _ true h2 h1
    simp only [items, hg, Option.some.injEq] at hr
    exact ⟨b, h3, fun n k => by rw [h4]; simp [Wanted, accepts, Hit], by rw [← hr, h5]; rfl⟩
  | regexTok p leafs =>
    obtain ⟨f, hf⟩ : ∃ f, env.compile p = some f := by
      simpa [valueFilters, Option.isSome_map, Option.isSome_iff_exists] using hv
    obtain ⟨h1, h2⟩ := C03_regex_search ops (some env.annis) env.tok (env.compile p) false
    obtain ⟨b, h3, h4, h5⟩ := tokBase _ _ leafs h2 h1
    simp only [items, hg, Option.some.injEq] at hr
    exact ⟨b, h3, fun n k => by rw [h4]; simp [Wanted, Hit, hf], by rw [← hr, h5]; rfl⟩
  | notRegexTok p =>
    obtain ⟨f, hf⟩ : ∃ f, env.compile p = some f := by
      simpa [valueFilters, Option.isSome_map, Option.isSome_iff_exists] using hv
    obtain ⟨h1, h2⟩ := C03_regex_search ops (some env.annis) env.tok (env.compile p) true
    obtain ⟨b, h3, h4, h5⟩ := tokBase _ _ true h2 h1
    simp only [items, hg, Option.some.injEq] at hr
    exact ⟨b, h3, fun n k => by rw [h4]; simp [Wanted, Hit, hf], by rw [← hr, h5]; rfl⟩
  | anyToken =>
    simp only [items, Option.map_eq_some_iff] at hr
    obtain ⟨l, hl, rfl⟩ := hr
    obtain ⟨h1, h2⟩ := ht l hl
    refine ⟨l.map fun n => (n, tokKey env), h1.map fun a b h => by simpa using h, fun n k => ?_, by simp [ShownKey, typeKey]⟩
    simp only [List.mem_map, Prod.mk.injEq, Wanted, Hit, and_true]
    constructor
    · rintro ⟨a, ha, rfl, rfl⟩
      obtain ⟨h3, h4⟩ := (h2 a).1 ha
      obtain ⟨v, hv⟩ := Option.isSome_iff_exists.1 h3
      exact ⟨⟨rfl, fun x hx => by injection hx, v, hv⟩, h4⟩
    · rintro ⟨⟨h3, h4, v, hv⟩, h5⟩
      have hk := AnnoKey.eq_mk h3 (h4 env.annis rfl)
      subst hk
      exact ⟨n, (h2 n).2 ⟨by rw [hv]; rfl, h5⟩, rfl, rfl⟩
  | anyNode =>
    obtain ⟨h1, h2⟩ := C03_exact_search ops (some env.annis) env.nodeType (.some env.nodeVal)
    simp only [items, hg, Option.some.injEq] at hr
    refine ⟨_, h2, fun n k => by rw [h1]; simp [Wanted, Hit, accepts], ?_⟩
    rw [← hr]
    refine List.map_congr_left fun m hm => ?_
    obtain ⟨h3, h4, _⟩ := (h1 m.1 m.2).1 hm
    have := AnnoKey.eq_mk h3 (h4 env.annis rfl)
    simp [ShownKey, this]

/-! ## C66 -/

section
variable (ops : List (Op T N V)) (env : NsEnv N V) (g : NsGraph T N V) (hg : g.annos = run ops) {Cov : T → T → Prop} (hc : CovOk g Cov)
  (hx : ExactOk env) (ht : TokensOk env g (spec ops) Cov) (q : NsSpec N V)

include hg hc hx ht in
/-- C66: after any history of changes, a search gives exactly the nodes with a wanted annotation. -/
theorem C66_search {rows : List (SMatch T (AnnoKey N))} {d : NsDesc T (AnnoKey N) E} (h : fromSpec env g q = .ok (rows, d))
    (m : SMatch T (AnnoKey N)) :
    m ∈ rows ↔ ∃ k, Wanted env (spec ops) Cov q m.node k ∧ m.key = ShownKey env q k := by
  unfold fromSpec at h
  split at h
  · simp at h
  · rename_i fs hfs
    split at h
    · simp at h
    · rename_i l hl
      simp only [Except.ok.injEq, Prod.mk.injEq] at h
      obtain ⟨rfl, _⟩ := h
      obtain ⟨base, _, h2, rfl⟩ := items_base (E := E) ops env g hg hc hx ht q hl (by rw [hfs]; rfl)
      simp only [List.mem_map]
      constructor
      · rintro ⟨b, hb, rfl⟩; exact ⟨b.2, (h2 _ _).1 hb, rfl⟩
      · rintro ⟨k, hk, hmk⟩
        exact ⟨(m.node, k), (h2 _ _).2 hk, by cases m; simp_all⟩

include hg hc hx ht in
/-- C66, restricted: no match is given twice if no node has two wanted annotations that are shown with the same key. Missing:
`C66_meta_fails`. -/
theorem C66_nodup_partial {rows : List (SMatch T (AnnoKey N))} {d : NsDesc T (AnnoKey N) E} (h : fromSpec env g q = .ok (rows, d))
    (hu : ∀ n k k', Wanted env (spec ops) Cov q n k → Wanted env (spec ops) Cov q n k' → ShownKey env q k = ShownKey env q k' → k = k') :
    rows.Nodup := by
  unfold fromSpec at h
  split at h
  · simp at h
  · rename_i fs hfs
    split at h
    · simp at h
    · rename_i l hl
      simp only [Except.ok.injEq, Prod.mk.injEq] at h
      obtain ⟨rfl, _⟩ := h
      obtain ⟨base, h1, h2, rfl⟩ := items_base (E := E) ops env g hg hc hx ht q hl (by rw [hfs]; rfl)
      refine h1.map_on ?_
      rintro ⟨n, k⟩ hb ⟨n', k'⟩ hb' he
      simp only [SMatch.mk.injEq] at he
      obtain ⟨rfl, he⟩ := he
      rw [hu n k k' ((h2 _ _).1 hb) ((h2 _ _).1 hb') he]

/-- The condition of `C66_nodup_partial` holds for all searches but those for metadata without a namespace. -/
theorem C66_unique (hm : match q with
      | .exact none _ _ true | .notExact none _ _ true | .regex none _ _ true | .notRegex none _ _ true => False
      | _ => True) (n : T) (k k' : AnnoKey N)
    (h : Wanted env (spec ops) Cov q n k) (h' : Wanted env (spec ops) Cov q n k') (hs : ShownKey env q k = ShownKey env q k') : k = k' := by
  have hit : ∀ {ns : N} {name : N} {P : V → Prop}, Hit (spec ops) (some ns) name P n k → Hit (spec ops) (some ns) name P n k' → k = k' := by
    intro ns name P h1 h2
    rw [AnnoKey.eq_mk h1.1 (h1.2.1 ns rfl), AnnoKey.eq_mk h2.1 (h2.2.1 ns rfl)]
  cases q with
  | exact ns name v m =>
    cases m
    · exact hs
    · cases ns
      · exact hm.elim
      · exact hit h h'
  | notExact ns name v m =>
    cases m
    · exact hs
    · cases ns
      · exact hm.elim
      · exact hit h h'
  | regex ns name v m =>
    cases m
    · exact hs
    · cases ns
      · exact hm.elim
      · exact hit h h'
  | notRegex ns name v m =>
    cases m
    · exact hs
    · cases ns
      · exact hm.elim
      · exact hit h h'
  | exactTok v l => exact hit h.1 h'.1
  | notExactTok v => exact hit h.1 h'.1
  | regexTok v l => exact hit h.1 h'.1
  | notRegexTok v => exact hit h.1 h'.1
  | anyToken => exact hit h.1 h'.1
  | anyNode => exact hit h h'

/-- The pattern of a search, if there is one. -/
def patternOf : NsSpec N V → Option V
  | .regex _ _ p _ => some p
  | .notRegex _ _ p _ => some p
  | .regexTok p _ => some p
  | .notRegexTok p => some p
  | _ => none

/-- C66: the only errors are a pattern that does not compile and an error of the search for all tokens. -/
theorem C66_errors :
    (fromSpec (E := E) env g q = .error .regex ↔ ∃ p, patternOf q = some p ∧ env.compile p = none) ∧
    (fromSpec (E := E) env g q = .error .tokens ↔ q = .anyToken ∧ g.anyTokens = none) := by
  cases q with
  | exact ns name v m => cases v <;> simp [fromSpec, valueFilters, items, patternOf]
  | notExact ns name v m => simp [fromSpec, valueFilters, items, patternOf]
  | regex ns name p m =>
    cases h : env.compile p <;> cases h' : env.exact p <;> simp [fromSpec, valueFilters, items, patternOf, h, h']
  | notRegex ns name p m =>
    cases h : env.compile p <;> cases h' : env.exact p <;> simp [fromSpec, valueFilters, items, patternOf, h, h']
  | exactTok v l => simp [fromSpec, valueFilters, items, patternOf]
  | notExactTok v => simp [fromSpec, valueFilters, items, patternOf]
  | regexTok p l => cases h : env.compile p <;> simp [fromSpec, valueFilters, items, patternOf, h]
  | notRegexTok p => cases h : env.compile p <;> simp [fromSpec, valueFilters, items, patternOf, h]
  | anyToken => cases h : g.anyTokens <;> simp [fromSpec, valueFilters, items, patternOf, h]
  | anyNode => simp [fromSpec, valueFilters, items, patternOf]

/-! ### The description -/

theorem keysForIterator_eq (s : AnnoStore T N V) (ns : Option N) (name : N) (it : List T) :
    s.keysForIterator ns (some name) it = it.flatMap fun n => s.keysForIterator ns (some name) [n] := by
  unfold keysForIterator
  cases ns with
  | some ns =>
    dsimp only
    cases s.keys.getSymbol (AnnoKey.mk ns name) with
    | none => simp
    | some k =>
      dsimp only
      induction it with
      | nil => simp
      | cons a it ih => 
        rw [List.flatMap_cons, ← ih]
        rw [show a :: it = [a] ++ it from rfl, List.filterMap_append]
  | none => simp

/-- What index joins ask for (`get_keys_for_iterator`, exec/indexjoin.rs 110-114) are the keys of the description for each node. -/
theorem keysForIterator_keysOf (ns : Option N) (name : N) (it : List T) :
    g.annos.keysForIterator ns (some name) it = it.flatMap fun n => (keysOf g (ns, name) n).map fun k => (n, k) := by
  rw [keysForIterator_eq]
  congr 1
  funext n
  simp only [keysOf, List.map_map]
  refine (List.map_id _).symm.trans (List.map_congr_left fun m hm => ?_)
  have : m.1 = n := by
    unfold keysForIterator at hm
    cases ns with
    | some ns =>
      dsimp only at hm
      split at hm
      · simp only [List.mem_filterMap, List.mem_singleton] at hm
        obtain ⟨a, rfl, ha⟩ := hm
        split at ha
        · split at ha
          · simp only [Option.some.injEq] at ha; rw [← ha]
          · simp at ha
        · simp at ha
      · simp at hm
    | none =>
      simp only [List.mem_flatMap, List.mem_filterMap, List.mem_singleton] at hm
      obtain ⟨a, rfl, p, _, ha⟩ := hm
      split at ha
      · split at ha
        · simp only [Option.some.injEq] at ha; rw [← ha]
        · simp at ha
      · simp at ha
  simp [← this]

include hg in
theorem mem_keysOf (ns : Option N) (name : N) (n : T) (k : AnnoKey N) :
    k ∈ keysOf g (ns, name) n ↔ Hit (spec ops) ns name (fun _ => True) n k := by
  have h1 := C03_keys_for_iterator ops ns (some name) (by simp) [n] n k
  rw [← hg, keysForIterator_keysOf] at h1
  simp only [List.flatMap_cons, List.flatMap_nil, List.append_nil, List.mem_map, Prod.mk.injEq, true_and, exists_eq_right,
    List.mem_singleton, Option.some.injEq, forall_eq'] at h1
  rw [h1]
  simp only [Hit, Option.isSome_iff_exists, and_true]
  tauto

include hg in
theorem nodup_keysOf (ns : Option N) (name : N) (n : T) : (keysOf g (ns, name) n).Nodup := by
  have hq : ((run ops).qnames name).Nodup := nodup_qnames (run_refines ops).1 name
  unfold keysOf keysForIterator
  rw [hg]
  cases ns with
  | some ns =>
    dsimp only
    split
    · simp only [List.filterMap_cons, List.filterMap_nil]
      split
      · simp
      · simp
    · simp
  | none =>
    dsimp only
    simp only [List.flatMap_cons, List.flatMap_nil, List.append_nil]
    rw [List.map_filterMap, List.filterMap_filterMap]
    refine List.Nodup.filterMap ?_ hq
    intro a b c hc hc'
    simp only [Option.mem_def, Option.bind_eq_some_iff, Option.map_eq_some_iff] at hc hc'
    obtain ⟨_, ⟨x, _, rfl⟩, y, hy, rfl⟩ := hc
    obtain ⟨_, ⟨x', _, rfl⟩, y', hy', h3⟩ := hc'
    have key : ∀ {x : Nat} {a : AnnoKey N} {y : T × AnnoKey N}, (match (run ops).byContainer.get n with
        | some row => if (row.get x).isSome = true then some (n, a) else none
        | none => none) = some y → y.2 = a := by
      intro x a y h
      split at h
      · split at h
        · simp only [Option.some.injEq] at h; rw [← h]
        · simp at h
      · simp at h
    have e1 : y.2 = a := key hy
    have e2 : y'.2 = b := key hy'
    rw [← e1, ← e2, h3]

theorem valueFilter_eq (p : V → Bool) (m : SMatch T (AnnoKey N)) :
    valueFilter (E := E) g p m = .ok ((g.annos.getValue m.node m.key).any p) := by
  unfold valueFilter
  cases g.annos.getValue m.node m.key <;> rfl

include hg hc in
/-- The conditions of the description never fail, and together with the name they say which annotations are wanted. -/
theorem cond_spec {filters : List (SMatch T (AnnoKey N) → Except (Fail E) Bool)} (hf : valueFilters env g q = some filters) :
    ∃ cond : SMatch T (AnnoKey N) → Bool, (∀ m, allConds m (descOf env g q filters).cond = .ok (cond m)) ∧
      ∀ n k, (k ∈ (descOf env g q filters).keys n ∧ cond ⟨n, k⟩ = true) ↔ Wanted env (spec ops) Cov q n k := by
  have hv : ∀ m : SMatch T (AnnoKey N), g.annos.getValue m.node m.key = spec ops m.node m.key := fun m => by
    rw [hg, C02_get_value]
  have one : ∀ (ns : Option N) (name : N) (p : V → Bool) (n : T) (k : AnnoKey N),
      (k ∈ keysOf g (ns, name) n ∧ (spec ops n k).any p = true) ↔ Hit (spec ops) ns name (fun w => p w = true) n k := by
    intro ns name p n k
    rw [mem_keysOf ops g hg]
    unfold Hit
    cases spec ops n k <;> simp [and_assoc]
  have hl := isLeaf_iff hc
  have a1 : ∀ (p : V → Bool) (m : SMatch T (AnnoKey N)), allConds (E := E) m [valueFilter g p] = .ok ((spec ops m.node m.key).any p) := by
    intro p m
    simp only [allConds, valueFilter_eq, hv]
    cases (spec ops m.node m.key).any p <;> rfl
  have a2 : ∀ (p : V → Bool) (leafs : Bool) (m : SMatch T (AnnoKey N)),
      allConds (E := E) m (valueFilter g p :: if leafs then [leafFilter g] else []) =
        .ok ((spec ops m.node m.key).any p && (!leafs || isLeaf g m.node)) := by
    intro p leafs m
    cases leafs with
    | false => simpa using a1 p m
    | true =>
      simp only [if_true, allConds, valueFilter_eq, hv, leafFilter]
      cases (spec ops m.node m.key).any p <;> cases isLeaf g m.node <;> rfl
  have b2 : ∀ (p : V → Bool) (leafs : Bool) (n : T) (k : AnnoKey N),
      (k ∈ keysOf g (some env.annis, env.tok) n ∧ ((spec ops n k).any p && (!leafs || isLeaf g n)) = true) ↔
        Hit (spec ops) (some env.annis) env.tok (fun w => p w = true) n k ∧ (leafs = true → ¬ ∃ t, Cov n t) := by
    intro p leafs n k
    rw [Bool.and_eq_true, ← and_assoc, one, Bool.or_eq_true, hl]
    cases leafs <;> simp
  cases q with
  | exact ns name v m =>
    cases v with
    | none =>
      simp only [valueFilters, Option.some.injEq] at hf
      subst hf
      refine ⟨fun _ => true, fun m => rfl, fun n k => ?_⟩
      simp only [descOf, qname, and_true, mem_keysOf ops g hg]
      simp [Wanted, Hit]
    | some v =>
      simp only [valueFilters, Option.some.injEq] at hf
      subst hf
      refine ⟨_, fun m => a1 _ m, fun n k => (one _ _ _ _ _).trans ?_⟩
      simp [Wanted, Hit]
  | notExact ns name v m =>
    simp only [valueFilters, Option.some.injEq] at hf
    subst hf
    refine ⟨_, fun m => a1 _ m, fun n k => (one _ _ _ _ _).trans ?_⟩
    simp [Wanted, Hit]
  | regex ns name p m =>
    simp only [valueFilters, Option.map_eq_some_iff] at hf
    obtain ⟨f, h1, rfl⟩ := hf
    refine ⟨_, fun m => a1 _ m, fun n k => (one _ _ _ _ _).trans ?_⟩
    simp [Wanted, Hit, h1]
  | notRegex ns name p m =>
    simp only [valueFilters, Option.map_eq_some_iff] at hf
    obtain ⟨f, h1, rfl⟩ := hf
    refine ⟨_, fun m => a1 _ m, fun n k => (one _ _ _ _ _).trans ?_⟩
    simp [Wanted, Hit, h1]
  | exactTok v leafs =>
    simp only [valueFilters, Option.some.injEq] at hf
    subst hf
    refine ⟨_, fun m => a2 _ leafs m, fun n k => (b2 _ _ _ _).trans ?_⟩
    simp [Wanted, Hit]
  | notExactTok v =>
    simp only [valueFilters, Option.some.injEq] at hf
    subst hf
    refine ⟨_, fun m => a2 _ true m, fun n k => (b2 _ _ _ _).trans ?_⟩
    simp [Wanted, Hit]
  | regexTok p leafs =>
    simp only [valueFilters, Option.map_eq_some_iff] at hf
    obtain ⟨f, h1, rfl⟩ := hf
    refine ⟨_, fun m => a2 _ leafs m, fun n k => (b2 _ _ _ _).trans ?_⟩
    simp [Wanted, Hit, h1]
  | notRegexTok p =>
    simp only [valueFilters, Option.map_eq_some_iff] at hf
    obtain ⟨f, h1, rfl⟩ := hf
    refine ⟨_, fun m => a2 _ true m, fun n k => (b2 _ _ _ _).trans ?_⟩
    simp [Wanted, Hit, h1]
  | anyToken =>
    refine ⟨fun m => isLeaf g m.node, fun m => ?_, fun n k => ?_⟩
    · simp only [descOf, allConds, anyTokenFilter_eq hc]
      cases isLeaf g m.node <;> rfl
    · simp only [descOf, qname, mem_keysOf ops g hg, hl]
      rfl
  | anyNode =>
    simp only [valueFilters, Option.some.injEq] at hf
    subst hf
    refine ⟨_, fun m => a1 _ m, fun n k => (one _ _ _ _ _).trans ?_⟩
    simp [Wanted, Hit]

/-- `ShownKey` is the constant output of the description, if there is one. -/
theorem shownKey_eq (k : AnnoKey N) : ShownKey env q k = (constOutput env q).getD k := by
  cases q with
  | exact ns name v m => cases m <;> rfl
  | notExact ns name v m => cases m <;> rfl
  | regex ns name v m => cases m <;> rfl
  | notRegex ns name v m => cases m <;> rfl
  | _ => rfl

include hg hc hx ht in
/-- C66, restricted: an index join that uses the description of the search to check the nodes an operator retrieves accepts the matches
of the search and no others (`IndexOk` in C61). Missing: metadata without a namespace, where the search gives a node twice and the index
join once (`C66_meta_fails`). -/
theorem C66_index_partial {rows : List (SMatch T (AnnoKey N))} {d : NsDesc T (AnnoKey N) E} (h : fromSpec env g q = .ok (rows, d))
    (hu : ∀ n k k', Wanted env (spec ops) Cov q n k → Wanted env (spec ops) Cov q n k' → ShownKey env q k = ShownKey env q k' → k = k') :
    ∃ (cond : SMatch T (AnnoKey N) → Bool) (all : List T), all.Nodup ∧ (∀ m, allConds m d.cond = .ok (cond m)) ∧
      (∀ n, d.keys n ≠ [] → n ∈ all) ∧
      ∀ nodes, rows.Perm ((IjSpec.mk nodes d.keys cond).rhs d.constOutput all) := by
  have hmem := C66_search ops env g hg hc hx ht q h
  have hnd := C66_nodup_partial ops env g hg hc hx ht q h hu
  unfold fromSpec at h
  split at h
  · simp at h
  · rename_i fs hfs
    split at h
    · simp at h
    · simp only [Except.ok.injEq, Prod.mk.injEq] at h
      obtain ⟨_, rfl⟩ := h
      obtain ⟨cond, hc1, hc2⟩ := cond_spec ops env g hg hc q hfs
      have hk : ∀ n, (descOf env g q fs).keys n = keysOf g (qname env q) n := fun n => rfl
      have hkn : ∀ n, ((descOf env g q fs).keys n).Nodup := fun n => by
        rw [hk]; exact nodup_keysOf ops g hg _ _ n
      refine ⟨cond, (((run ops).exactSearch (qname env q).1 (qname env q).2 .any).map Prod.fst).dedup, List.nodup_dedup _, hc1, ?_, ?_⟩
      · intro n hn
        obtain ⟨k, hkm⟩ := List.exists_mem_of_ne_nil _ hn
        rw [hk] at hkm
        have := (mem_keysOf ops g hg _ _ n k).1 hkm
        rw [List.mem_dedup, List.mem_map]
        exact ⟨(n, k), ((C03_exact_search ops _ _ .any).1 n k).2 this, rfl⟩
      · intro nodes
        have hall : ∀ n k, k ∈ (descOf env g q fs).keys n →
            n ∈ (((run ops).exactSearch (qname env q).1 (qname env q).2 .any).map Prod.fst).dedup := by
          intro n k hkm
          rw [hk] at hkm
          have := (mem_keysOf ops g hg _ _ n k).1 hkm
          rw [List.mem_dedup, List.mem_map]
          exact ⟨(n, k), ((C03_exact_search ops _ _ .any).1 n k).2 this, rfl⟩
        have hdn := List.nodup_dedup (((run ops).exactSearch (qname env q).1 (qname env q).2 .any).map Prod.fst)
        generalize (((run ops).exactSearch (qname env q).1 (qname env q).2 .any).map Prod.fst).dedup = all at hall hdn
        have hco : (descOf env g q fs).constOutput = constOutput env q := rfl
        simp only [shownKey_eq] at hmem
        unfold IjSpec.rhs
        rw [hco]
        cases hcst : constOutput env q with
        | none =>
          rw [hcst] at hmem
          refine (List.perm_ext_iff_of_nodup hnd ?_).2 fun m => ?_
          · rw [List.nodup_flatMap]
            refine ⟨fun n _ => ((hkn n).map fun a b h => by simpa using h).filter _, hdn.imp ?_⟩
            intro a b hab x hxa hxb
            simp only [List.mem_filter, List.mem_map] at hxa hxb
            obtain ⟨⟨_, _, rfl⟩, _⟩ := hxa
            obtain ⟨⟨_, _, h3⟩, _⟩ := hxb
            simp only [SMatch.mk.injEq] at h3
            exact hab h3.1.symm
          · rw [hmem]
            simp only [Option.getD_none, List.mem_flatMap, List.mem_filter, List.mem_map]
            constructor
            · rintro ⟨k, hw, hmk⟩
              have h4 := (hc2 m.node k).2 hw
              refine ⟨m.node, hall _ _ h4.1, ⟨k, h4.1, by cases m; simp_all⟩, ?_⟩
              have : m = ⟨m.node, k⟩ := by cases m; simp_all
              rw [this]; exact h4.2
            · rintro ⟨n, _, ⟨k, h4, rfl⟩, h5⟩
              exact ⟨k, (hc2 n k).1 ⟨h4, h5⟩, rfl⟩
        | some c =>
          rw [hcst] at hmem
          dsimp only
          refine (List.perm_ext_iff_of_nodup hnd ?_).2 fun m => ?_
          · exact (hdn.filter _).map fun a b h => by simpa using h
          · rw [hmem]
            simp only [Option.getD_some, List.mem_map, List.mem_filter, List.any_eq_true]
            constructor
            · rintro ⟨k, hw, hmk⟩
              have h4 := (hc2 m.node k).2 hw
              exact ⟨m.node, ⟨hall _ _ h4.1, k, h4.1, h4.2⟩, by cases m; simp_all⟩
            · rintro ⟨n, ⟨_, k, h4, h5⟩, rfl⟩
              exact ⟨k, (hc2 n k).1 ⟨h4, h5⟩, rfl⟩

/-! ### The search for all tokens -/

theorem CovOk.covIs {g : NsGraph T N V} {Cov : T → T → Prop} (h : CovOk g Cov) : TokenSearch.CovIs (covStores g) Cov := by
  obtain ⟨Ed, h1, h2⟩ := h
  have he : ∀ c ∈ g.coverage, (fun a b => ∃ l, c.1.out a = some l ∧ b ∈ l) = Ed c := by
    intro c hc
    obtain ⟨⟨D, R, hi⟩, _⟩ := h1 c hc
    funext a b
    obtain ⟨l, hl, _, hm⟩ := hi.out a
    simp [hl, hm]
  refine ⟨fun c a b => ∃ l, c.out a = some l ∧ b ∈ l, ?_, ?_⟩
  · intro c hc
    simp only [covStores, List.mem_map, List.mem_filter] at hc
    obtain ⟨c', ⟨hc', _⟩, rfl⟩ := hc
    obtain ⟨⟨D, R, hi⟩, _⟩ := h1 c' hc'
    exact ⟨D, R, by have e := he c' hc'; dsimp only at e ⊢; rw [e]; exact hi⟩
  · intro a b
    rw [h2]
    constructor
    · rintro ⟨c, hc, hab⟩
      refine ⟨c.1, ?_, ?_⟩
      · simp only [covStores, List.mem_map, List.mem_filter]
        refine ⟨c, ⟨hc, ?_⟩, rfl⟩
        rcases h3 : c.2 with _ | k
        · rfl
        · rcases k with _ | k
          · exact absurd hab ((h1 c hc).2 h3 a b)
          · simp
      · have := he c hc
        rw [← this] at hab
        exact hab
    · rintro ⟨c, hc, hab⟩
      simp only [covStores, List.mem_map, List.mem_filter] at hc
      obtain ⟨c', ⟨hc', _⟩, rfl⟩ := hc
      exact ⟨c', hc', by rw [← he c' hc']; exact hab⟩

/-- The nodes with the token annotation (tokensearch.rs 108-111). -/
def tokNodes (env : NsEnv N V) (g : NsGraph T N V) : List T := (g.annos.exactSearch (some env.annis) env.tok .any).map Prod.fst

theorem tokNodes_spec (hg : g.annos = run ops) : (tokNodes env g).Nodup ∧
    ∀ n, n ∈ tokNodes env g ↔ (spec ops n (AnnoKey.mk env.annis env.tok)).isSome := by
  obtain ⟨h1, h2⟩ := C03_exact_search ops (some env.annis) env.tok .any
  unfold tokNodes
  rw [hg]
  constructor
  · refine h2.map_on ?_
    rintro ⟨n, k⟩ hb ⟨n', k'⟩ hb' he
    have e1 := (h1 n k).1 hb
    have e2 := (h1 n' k').1 hb'
    rw [AnnoKey.eq_mk e1.1 (e1.2.1 _ rfl), AnnoKey.eq_mk e2.1 (e2.2.1 _ rfl)]
    simp_all
  · intro n
    simp only [List.mem_map, Prod.exists, exists_and_right, exists_eq_right, h1]
    constructor
    · rintro ⟨k, h3, h4, v, hv, _⟩
      rw [← AnnoKey.eq_mk h3 (h4 _ rfl), hv]; rfl
    · intro h
      obtain ⟨v, hv⟩ := Option.isSome_iff_exists.1 h
      exact ⟨_, rfl, fun x hx => by injection hx, v, hv, trivial⟩

include hg hc in
/-- C66, restricted: under the conditions of `C49_token_search_partial` the search `tok` gives the tokens. -/
theorem C66_any_token_partial {o : OrderStore T} {O : T → T → Prop} {D : T → Prop} (ho : TokenSearch.OrderIs o O D)
    (hO : Linear.Chains O) (hl : ∀ a b, O a b → TokenSearch.IsTok (tokNodes env g) Cov a ∧ TokenSearch.IsTok (tokNodes env g) Cov b)
    {stat : Bool} (hs : stat = true → ∀ n, TokenSearch.IsTok (tokNodes env g) Cov n → ∃ b, O n b ∨ O b n)
    (hd : ∀ n, TokenSearch.IsTok (tokNodes env g) Cov n → (¬ ∃ a, O a n) → D n)
    (cmp : T → T → Option Ordering) (fuel : Nat) (rs : List (Nat × Nat × Nat))
    (hs' : g.anyTokens = TokenSearch.search (some o) (some (covStores g)) stat (tokNodes env g) cmp fuel rs) :
    TokensOk env g (spec ops) Cov := by
  intro l h
  rw [hs'] at h
  obtain ⟨h1, h2⟩ := tokNodes_spec ops env g hg
  obtain ⟨h3, h4⟩ := TokenSearch.C49_token_search_partial ho hc.covIs hO h1 hl hs hd cmp fuel rs h
  refine ⟨h3, fun n => ?_⟩
  rw [h4, TokenSearch.IsTok, h2]

include hg hc in
/-- C66: without an order of the tokens the search `tok` gives the tokens. -/
theorem C66_any_token_no_order (stat : Bool) (cmp : T → T → Option Ordering) (fuel : Nat) (rs : List (Nat × Nat × Nat))
    (hs' : g.anyTokens = TokenSearch.search none (some (covStores g)) stat (tokNodes env g) cmp fuel rs) :
    TokensOk env g (spec ops) Cov := by
  intro l h
  rw [hs'] at h
  obtain ⟨h1, h2⟩ := tokNodes_spec ops env g hg
  obtain ⟨h3, h4⟩ := TokenSearch.C49_no_order hc.covIs h1 stat cmp fuel rs h
  refine ⟨h3, fun n => ?_⟩
  rw [h4, TokenSearch.IsTok, h2]

end
end NodeSearch
