import Verif.Rel.Rows
import Verif.Util.OMap
import Mathlib.Data.Char
import Mathlib.Data.List.Lex

/-!
# The configuration of an imported relANNIS corpus (relannis.rs 35-109 and 457-718) (C87)
-/

set_option linter.unusedSimpArgs false

namespace Rel

/-- `VisualizerRuleElement` (types.rs 238-244). -/
inductive Elem
  | node | edge
  deriving DecidableEq

/-- `VisualizerVisibility` (types.rs 225-236). -/
inductive Visibility
  | hidden | visible | permanent | preloaded
  deriving DecidableEq

/-- `VisualizerRule` (types.rs 206-223). -/
structure Rule where
  display : Str
  visType : Str
  element : Option Elem
  layer : Option Str
  visibility : Visibility
  mappings : List (Str × Str)
  deriving DecidableEq

/-- An entry of `rules_by_order`: the order, whether it is a default rule, and the rule. -/
abbrev RuleEntry := Int × Bool × Rule

/-- `DEFAULT_VISUALIZER_RULES` (relannis.rs 37-110). -/
def defaultRules : List RuleEntry :=
  [(-1, true, ⟨"kwic".toList, "kwic".toList, none, none, .permanent, []⟩),
    (101, true, ⟨"tree".toList, "tree".toList, some .node, some "tiger".toList, .hidden, []⟩),
    (102, true, ⟨"exmaralda".toList, "grid".toList, some .node, some "exmaralda".toList, .hidden, []⟩),
    (103, true, ⟨"mmax".toList, "grid".toList, some .node, some "mmax".toList, .hidden, []⟩),
    (104, true, ⟨"coref".toList, "discourse".toList, some .edge, some "mmax".toList, .hidden, []⟩),
    (105, true, ⟨"urml".toList, "grid".toList, some .node, some "urml".toList, .hidden, []⟩)]

/-- `str::parse::<i64>`. -/
def parseI64 (s : Str) : Option Int :=
  match s with
  | '-' :: r => if r ≠ [] ∧ r.all Char.isDigit ∧ Nat.ofDigitChars 10 r 0 ≤ 2 ^ 63 then some (-(Nat.ofDigitChars 10 r 0 : Int)) else none
  | _ => (parseNat (2 ^ 63) s).map Int.ofNat

/-- `str::trim`. -/
def trimStr (s : Str) : Str := ((s.dropWhile isWs).reverse.dropWhile isWs).reverse

/-- The mappings of a rule (relannis.rs 514-532), a map as sorted list; a later key replaces an earlier one. -/
def parseMappings (s : Str) : OMap Str Str :=
  ((splitAll ';' s).filterMap fun e => (splitOnce ':' e).map fun p => (trimStr p.1, trimStr p.2)).foldl (fun m p => OMap.insert m p.1 p.2) []

/-- The columns of a line of the visualizer table (relannis.rs 489-532). -/
structure VisRow where
  /-- the visibility is `removed` -/
  removed : Bool
  order : Int
  rule : Rule
  deriving DecidableEq

/-- The names of the visibilities (relannis.rs 543-549); unknown ones are the default. -/
def visibilityOf (s : Str) : Visibility :=
  if s = "visible".toList then .visible
  else if s = "permanent".toList then .permanent
  else if s = "preloaded".toList then .preloaded
  else .hidden

def elementOf (s : Str) : Option Elem :=
  if s = "node".toList then some .node
  else if s = "edge".toList then some .edge
  else none

def parseVisRow (is33 : Bool) (r : Row) : Option VisRow := do
  let hasVis := is33 || r.length == 9
  let layer ← getField r 2
  let element ← getField r 3
  let visType ← getNotNull r 4
  let display ← getNotNull r 5
  let visibility ← if hasVis then getNotNull r 6 else some "hidden".toList
  let order ← getField r (if hasVis then 7 else 6)
  let mappings := match getField r (if hasVis then 8 else 7) with
    | some m => parseMappings (m.getD [])
    | none => []
  return ⟨visibility == "removed".toList, (order.bind parseI64).getD 0,
    ⟨display, visType, element.bind elementOf, layer, visibilityOf visibility, mappings⟩⟩

/-- The loop of `slice::binary_search_by` of the standard library (since Rust 1.82; the code needs Rust 1.88): in each step the lower
bound moves to the middle unless the key there is too large. -/
def searchLoop (keys : List Int) (key : Int) (size base : Nat) : Nat :=
  if size ≤ 1 then base
  else searchLoop keys key (size - size / 2) (if key < keys.getD (base + size / 2) 0 then base else base + size / 2)
  termination_by size

/-- `slice::binary_search_by_key`: the position of an entry with this key, or else where it has to be inserted. -/
def binarySearch (keys : List Int) (key : Int) : Nat ⊕ Nat :=
  if keys.length = 0 then .inr 0
  else
    let b := searchLoop keys key keys.length 0
    if keys.getD b 0 = key then .inl b
    else .inr (if keys.getD b 0 < key then b + 1 else b)

/-- Inserting a rule by its order (relannis.rs 566-570). -/
def insertRule (rules : List RuleEntry) (order : Int) (rule : Rule) : List RuleEntry :=
  match binarySearch (rules.map Prod.fst) order with
  | .inl i => rules.insertIdx (i + 1) (order, false, rule)
  | .inr i => rules.insertIdx i (order, false, rule)

/-- One line of the visualizer table (relannis.rs 533-571). -/
def applyRow (rules : List RuleEntry) (r : VisRow) : List RuleEntry :=
  if r.removed then
    rules.filter fun e => !e.2.1 || e.2.2.display ≠ r.rule.display || e.2.2.element ≠ r.rule.element || e.2.2.layer ≠ r.rule.layer ||
      e.2.2.visType ≠ r.rule.visType
  else insertRule (rules.filter fun e => !e.2.1 || e.2.2.layer.isNone || e.2.2.layer ≠ r.rule.layer) r.order r.rule

/-- `load_resolver_vis_map` (relannis.rs 457-577) for the rows of the file. -/
def loadRules (rows : List VisRow) : List RuleEntry := rows.foldl applyRow defaultRules

/-! ### Specification -/

namespace Spec

/-- A row of the file replaces or removes a default rule. -/
def Drops (r : VisRow) (d : Rule) : Prop :=
  if r.removed = true then d.display = r.rule.display ∧ d.element = r.rule.element ∧ d.layer = r.rule.layer ∧ d.visType = r.rule.visType
  else ∃ l, d.layer = some l ∧ r.rule.layer = some l

instance (r : VisRow) (d : Rule) : Decidable (Drops r d) :=
  if h : r.removed = true then
    decidable_of_iff (d.display = r.rule.display ∧ d.element = r.rule.element ∧ d.layer = r.rule.layer ∧ d.visType = r.rule.visType)
      (by unfold Drops; rw [if_pos h])
  else
    decidable_of_iff (d.layer.isSome = true ∧ d.layer = r.rule.layer) (by
      unfold Drops
      rw [if_neg h]
      cases d.layer with
      | none => simp
      | some l => simp [eq_comm])

/-- The default rules which remain. -/
def kept (rows : List VisRow) : List RuleEntry := defaultRules.filter fun e => decide (∀ r ∈ rows, ¬ Drops r e.2.2)

/-- The rules of the file, in the order of its lines. -/
def added (rows : List VisRow) : List RuleEntry := (rows.filter fun r => !r.removed).map fun r => (r.order, false, r.rule)

end Spec

/-! ### Binary search -/

theorem getD_eq {X : Type} {l : List X} {i : Nat} {d : X} (h : i < l.length) : l.getD i d = l[i] := by
  simp [List.getD, h]

section
variable {keys : List Int} {key : Int}

theorem searchLoop_spec (hs : keys.Pairwise (· ≤ ·)) : ∀ (size base : Nat), 0 < size → base + size ≤ keys.length →
    (∀ i, base + size ≤ i → ∀ (h : i < keys.length), key < keys[i]) → (∀ i, i < base → ∀ (h : i < keys.length), keys[i] ≤ key) →
    searchLoop keys key size base < keys.length ∧
    (∀ i, searchLoop keys key size base < i → ∀ (h : i < keys.length), key < keys[i]) ∧
    (∀ i, i < searchLoop keys key size base → ∀ (h : i < keys.length), keys[i] ≤ key) := by
  intro size
  induction size using Nat.strong_induction_on with
  | _ size ih =>
    intro base h0 hl hhi hlo
    rw [searchLoop]
    split_ifs with h1 h2
    · exact ⟨by omega, fun i hi h => hhi i (by omega) h, hlo⟩
    · have hm : base + size / 2 < keys.length := by omega
      rw [getD_eq hm] at h2
      refine ih _ (by omega) base (by omega) (by omega) ?_ hlo
      intro i hi h
      rcases Nat.eq_or_lt_of_le (show base + size / 2 ≤ i by omega) with e | e
      · subst e; exact h2
      · exact lt_of_lt_of_le h2 (List.pairwise_iff_getElem.1 hs _ _ hm h e)
    · have hm : base + size / 2 < keys.length := by omega
      rw [getD_eq hm, not_lt] at h2
      refine ih _ (by omega) (base + size / 2) (by omega) (by omega) (fun i hi h => hhi i (by omega) h) ?_
      intro i hi h
      exact le_trans (List.pairwise_iff_getElem.1 hs _ _ h hm hi) h2

/-- Where a new entry is inserted: after all entries with a smaller or the same key. -/
def insertPos (keys : List Int) (key : Int) : Nat :=
  match binarySearch keys key with
  | .inl i => i + 1
  | .inr i => i

theorem insertPos_spec (hs : keys.Pairwise (· ≤ ·)) : insertPos keys key ≤ keys.length ∧
    (∀ i, insertPos keys key ≤ i → ∀ (h : i < keys.length), key < keys[i]) ∧
    (∀ i, i < insertPos keys key → ∀ (h : i < keys.length), keys[i] ≤ key) := by
  unfold insertPos binarySearch
  by_cases h0 : keys.length = 0
  · rw [if_pos h0]
    exact ⟨by simp, fun i _ h => by omega, fun i h => by simp at h⟩
  · rw [if_neg h0]
    obtain ⟨h1, h2, h3⟩ := searchLoop_spec (key := key) hs keys.length 0 (by omega) (by omega) (fun i hi h => by omega) (fun i hi => by omega)
    simp only [getD_eq h1]
    generalize searchLoop keys key keys.length 0 = b at h1 h2 h3
    split_ifs with e1 e2
    · refine ⟨h1, fun i hi h => h2 i (by simp only at hi; omega) h, fun i hi h => ?_⟩
      rcases Nat.lt_or_ge i b with e | e
      · exact h3 i e h
      · have : i = b := by simp only at hi; omega
        subst this
        exact le_of_eq e1
    · refine ⟨h1, fun i hi h => h2 i (by simp only at hi; omega) h, fun i hi h => ?_⟩
      rcases Nat.lt_or_ge i b with e | e
      · exact h3 i e h
      · have : i = b := by simp only at hi; omega
        subst this
        exact le_of_lt e2
    · refine ⟨le_of_lt h1, fun i hi h => ?_, h3⟩
      rcases Nat.eq_or_lt_of_le hi with e | e
      · simp only at e
        subst e
        omega
      · exact h2 i e h

end

theorem insertRule_eq (rules : List RuleEntry) (o : Int) (rule : Rule) :
    insertRule rules o rule = rules.insertIdx (insertPos (rules.map Prod.fst) o) (o, false, rule) := by
  unfold insertRule insertPos
  cases binarySearch (rules.map Prod.fst) o <;> rfl

theorem insertIdx_eq_append {X : Type} (x : X) : ∀ (l : List X) (n : Nat), n ≤ l.length → l.insertIdx n x = l.take n ++ x :: l.drop n
  | l, 0, _ => by simp
  | [], n + 1, h => by simp at h
  | y :: l, n + 1, h => by
    rw [List.insertIdx_succ_cons, insertIdx_eq_append x l n (by simpa using h)]
    simp

theorem insertRule_split {rules : List RuleEntry} (hs : (rules.map Prod.fst).Pairwise (· ≤ ·)) (o : Int) (rule : Rule) :
    ∃ a b, rules = a ++ b ∧ insertRule rules o rule = a ++ (o, false, rule) :: b ∧ (∀ e ∈ a, e.1 ≤ o) ∧ (∀ e ∈ b, o < e.1) := by
  obtain ⟨h1, h2, h3⟩ := insertPos_spec (key := o) hs
  rw [List.length_map] at h1
  refine ⟨rules.take (insertPos (rules.map Prod.fst) o), rules.drop (insertPos (rules.map Prod.fst) o), (List.take_append_drop _ _).symm, ?_, ?_, ?_⟩
  · rw [insertRule_eq, insertIdx_eq_append _ _ _ h1]
  · intro e he
    obtain ⟨i, hi, rfl⟩ := List.mem_iff_getElem.1 he
    have hi' : i < rules.length := by
      rw [List.length_take] at hi
      omega
    have := h3 i (by rw [List.length_take] at hi; omega) (by simpa using hi')
    simpa using this
  · intro e he
    obtain ⟨i, hi, rfl⟩ := List.mem_iff_getElem.1 he
    rw [List.length_drop] at hi
    have := h2 (insertPos (rules.map Prod.fst) o + i) (by omega) (by simpa using (by omega : insertPos (rules.map Prod.fst) o + i < rules.length))
    simpa using this

/-! ### The rules -/

open Spec

/-- The state after some rows of the file. -/
structure RulesOf (rows : List VisRow) (R : List RuleEntry) : Prop where
  sorted : (R.map Prod.fst).Pairwise (· ≤ ·)
  perOrder : ∀ o : Int, R.filter (fun e => e.1 = o) = (kept rows).filter (fun e => e.1 = o) ++ (added rows).filter (fun e => e.1 = o)

theorem kept_append (rows : List VisRow) (r : VisRow) :
    kept (rows ++ [r]) = (kept rows).filter fun e => decide (¬ Drops r e.2.2) := by
  unfold kept
  rw [List.filter_filter]
  apply List.filter_congr
  intro e _
  rw [← Bool.decide_and]
  apply decide_eq_decide.2
  constructor
  · intro h
    exact ⟨h r (by simp), fun q hq => h q (by simp [hq])⟩
  · rintro ⟨h1, h2⟩ q hq
    rw [List.mem_append, List.mem_singleton] at hq
    rcases hq with hq | rfl
    · exact h2 q hq
    · exact h1

theorem kept_default {rows : List VisRow} {e : RuleEntry} (h : e ∈ kept rows) : e.2.1 = true := by
  have h' := (List.mem_filter.1 h).1
  have : ∀ e ∈ defaultRules, e.2.1 = true := by decide
  exact this e h'

theorem added_file {rows : List VisRow} {e : RuleEntry} (h : e ∈ added rows) : e.2.1 = false := by
  obtain ⟨r, _, rfl⟩ := List.mem_map.1 h
  rfl

theorem added_append (rows : List VisRow) (r : VisRow) :
    added (rows ++ [r]) = added rows ++ if r.removed = true then [] else [(r.order, false, r.rule)] := by
  unfold added
  rw [List.filter_append, List.map_append]
  congr 1
  cases h : r.removed <;> simp [h]

/-- The filter of `applyRow`. -/
def keeps (r : VisRow) (e : RuleEntry) : Bool := !e.2.1 || decide (¬ Drops r e.2.2)

theorem applyRow_eq (R : List RuleEntry) (r : VisRow) :
    applyRow R r = if r.removed = true then R.filter (keeps r) else insertRule (R.filter (keeps r)) r.order r.rule := by
  unfold applyRow
  by_cases h : r.removed = true
  · rw [if_pos h, if_pos h]
    apply List.filter_congr
    intro e _
    unfold keeps Drops
    rw [Bool.eq_iff_iff]
    simp only [if_pos h, Bool.or_eq_true, decide_eq_true_eq]
    tauto
  · rw [if_neg h, if_neg h]
    congr 1
    apply List.filter_congr
    intro e _
    unfold keeps Drops
    rw [Bool.eq_iff_iff]
    simp only [if_neg h, Bool.or_eq_true, decide_eq_true_eq]
    cases hl : e.2.2.layer with
    | none => simp
    | some l =>
      simp only [Option.isNone_some, Bool.false_eq_true, or_false, Option.some.injEq]
      constructor
      · rintro (h | h)
        · exact Or.inl h
        · exact Or.inr (by rintro ⟨l', rfl, h'⟩; exact h h'.symm)
      · rintro (h | h)
        · exact Or.inl h
        · exact Or.inr (fun e => h ⟨l, rfl, e.symm⟩)

theorem rulesOf_step {rows : List VisRow} {R : List RuleEntry} (h : RulesOf rows R) (r : VisRow) : RulesOf (rows ++ [r]) (applyRow R r) := by
  have hsub : ((R.filter (keeps r)).map Prod.fst).Pairwise (· ≤ ·) := h.sorted.sublist (List.Sublist.map _ List.filter_sublist)
  have hper : ∀ o : Int, (R.filter (keeps r)).filter (fun e => e.1 = o) =
      (kept (rows ++ [r])).filter (fun e => e.1 = o) ++ (added rows).filter (fun e => e.1 = o) := by
    intro o
    rw [List.filter_comm, h.perOrder o, List.filter_append]
    congr 1
    · rw [kept_append, List.filter_comm]
      congr 1
      apply List.filter_congr
      intro e he
      have := kept_default he
      unfold keeps
      rw [this]
      rfl
    · rw [List.filter_eq_self]
      intro e he
      have := added_file (List.mem_filter.1 he).1
      unfold keeps
      rw [this]
      rfl
  rw [applyRow_eq]
  by_cases hr : r.removed = true
  · rw [if_pos hr]
    refine ⟨hsub, ?_⟩
    intro o
    rw [hper, added_append, if_pos hr, List.append_nil]
  · rw [if_neg hr]
    obtain ⟨a, b, hab, e, ha, hb⟩ := insertRule_split hsub r.order r.rule
    rw [e]
    rw [hab] at hsub hper
    refine ⟨?_, ?_⟩
    · rw [List.map_append, List.pairwise_append] at hsub
      rw [List.map_append, List.map_cons, List.pairwise_append, List.pairwise_cons]
      refine ⟨hsub.1, ⟨?_, hsub.2.1⟩, ?_⟩
      · intro x hx
        obtain ⟨y, hy, rfl⟩ := List.mem_map.1 hx
        exact le_of_lt (hb y hy)
      · intro x hx y hy
        rw [List.mem_cons] at hy
        rcases hy with rfl | hy
        · obtain ⟨z, hz, rfl⟩ := List.mem_map.1 hx
          exact ha z hz
        · exact hsub.2.2 x hx y hy
    · intro o
      rw [added_append, if_neg hr, List.filter_append (l₁ := added rows), ← List.append_assoc, ← hper o, List.filter_append, List.filter_append,
        List.filter_cons]
      by_cases ho : r.order = o
      · have : b.filter (fun e => decide (e.1 = o)) = [] := by
          rw [List.filter_eq_nil_iff]
          intro e he
          have := hb e he
          simp only [decide_eq_true_eq]
          omega
        rw [this]
        simp [ho]
      · simp [ho]

/-- C87: the visualizers of an imported corpus are sorted by their order; for each order there are first the default rules which no
row removes or replaces, then the rules of the file in the order of its lines. -/
theorem C87_visualizers (rows : List VisRow) :
    ((loadRules rows).map Prod.fst).Pairwise (· ≤ ·) ∧
    ∀ o : Int, (loadRules rows).filter (fun e => e.1 = o) =
      (kept rows).filter (fun e => e.1 = o) ++ (added rows).filter (fun e => e.1 = o) := by
  have : RulesOf rows (loadRules rows) := by
    unfold loadRules
    induction rows using List.reverseRecOn with
    | nil =>
      refine ⟨by decide, ?_⟩
      intro o
      have : kept [] = defaultRules := by
        unfold kept
        rw [List.filter_eq_self]
        simp
      rw [this]
      simp [added]
    | append_singleton l r ih =>
      rw [List.foldl_append]
      exact rulesOf_step ih r
  exact ⟨this.sorted, this.perOrder⟩

end Rel
