import Verif.Rel.Config

/-!
# The properties of a relANNIS corpus (`load_corpus_properties`, relannis.rs 624-718) (C87)
-/

set_option linter.unusedSimpArgs false

namespace Rel

/-- The end of a line `\r\n`: `cur` is the line before `\n`, reversed. -/
def stripCr (cur : Str) : Str := if cur.head? = some '\r' then cur.tail.reverse else cur.reverse

/-- `str::lines`: a line ends with `\n` or `\r\n`, the last line may lack the end.  `cur` is the current line, reversed. -/
def linesFrom (cur : Str) : Str → List Str
  | [] => if cur = [] then [] else [cur.reverse]
  | c :: r =>
    if c = '\n' then stripCr cur :: linesFrom [] r
    else linesFrom (c :: cur) r

def strLines (s : Str) : List Str := linesFrom [] s

/-- `TimelineStrategy` (types.rs 141-155). -/
inductive Timeline
  | explicit
  | fromNamespace
  | fromMapping (m : OMap Str Str)
  deriving DecidableEq

/-- The parts of `ContextConfiguration` and `ViewConfiguration` (types.rs 111-194) which can be set. -/
structure Config where
  max : Option Nat := none
  default : Nat := 5
  sizes : List Nat := [0, 1, 2, 5, 10]
  segmentation : Option Str := none
  baseText : Option Str := none
  pageSize : Nat := 10
  hidden : List Str := []
  timeline : Timeline := .explicit
  deriving DecidableEq

/-- `str::parse::<usize>`. -/
def parseUsize : Str → Option Nat := parseNat u64Max

/-- The mapping of a virtual tokenization (relannis.rs 686-690). -/
def tokMapping (v : Str) : OMap Str Str := ((splitAll ',' v).filterMap (splitOnce '=')).foldl (fun m p => OMap.insert m p.1 p.2) []

/-- `to_lowercase` for the comparison with `true`: no character outside of ASCII becomes one of its letters. -/
def lower (s : Str) : Str := s.map Char.toLower

/-- The first loop (relannis.rs 645-697) for one line. -/
def setProp (c : Config) (line : Str) : Config :=
  match splitOnce '=' line with
  | none => c
  | some (k, v) =>
    if k = "max-context".toList then (match parseUsize v with | some n => { c with max := some n } | none => c)
    else if k = "default-context".toList then (match parseUsize v with | some n => { c with default := n } | none => c)
    else if k = "results-per-page".toList then (match parseUsize v with | some n => { c with pageSize := n } | none => c)
    else if k = "default-context-segmentation".toList ∧ v ≠ [] then { c with segmentation := some v }
    else if k = "default-base-text-segmentation".toList ∧ v ≠ [] then { c with baseText := some v }
    else if k = "hidden_annos".toList ∧ v ≠ [] then { c with hidden := (splitAll ',' v).map trimStr }
    else if k = "virtual_tokenization_from_namespace".toList ∧ lower v = "true".toList then { c with timeline := .fromNamespace }
    else if k = "virtual_tokenization_mapping".toList ∧ v ≠ [] then { c with timeline := .fromMapping (tokMapping v) }
    else c

/-- The elements of `(start..=max).step_by(step)`; `fuel` bounds their number. -/
def stepFrom (step max : Nat) : Nat → Nat → List Nat
  | 0, _ => []
  | fuel + 1, x => if x ≤ max then x :: stepFrom step max fuel (x + step) else []

/-- The second loop (relannis.rs 701-715) for one line; `none`: `step_by` panics for zero. -/
def setSteps (c : Config) (line : Str) : Option Config :=
  match splitOnce '=' line with
  | some (k, v) =>
    if k = "context-steps".toList then
      match parseUsize v with
      | some n => if n = 0 then none else some { c with sizes := stepFrom n (c.max.getD n) (c.max.getD n + 1) n }
      | none => some c
    else some c
  | none => some c

/-- `load_corpus_properties` (relannis.rs 624-718) for the content of the file. -/
def loadProperties (content : Str) (c : Config) : Option Config :=
  (strLines content).foldlM setSteps ((strLines content).foldl setProp c)

/-! ### Specification -/

namespace Spec

/-- The values for a key, in the order of the lines. -/
def valuesOf (content : Str) (key : String) : List Str :=
  (strLines content).filterMap fun l => match splitOnce '=' l with
    | some (k, v) => if k = key.toList then some v else none
    | none => none

/-- The last value which can be read, or the default. -/
def lastOf {X : Type} (parse : Str → Option X) (values : List Str) (d : X) : X := ((values.filterMap parse).getLast?).getD d

def nonEmpty (v : Str) : Option Str := if v = [] then none else some v

/-- A line which sets the timeline strategy. -/
def timelineLine (l : Str) : Option Timeline :=
  match splitOnce '=' l with
  | some (k, v) =>
    if k = "virtual_tokenization_from_namespace".toList then (if lower v = "true".toList then some .fromNamespace else none)
    else if k = "virtual_tokenization_mapping".toList then (nonEmpty v).map fun v => .fromMapping (tokMapping v)
    else none
  | none => none

/-- The multiples of `n` from `n` up to `max`. -/
def multiples (n max : Nat) : List Nat := (List.range (max / n)).map fun k => (k + 1) * n

end Spec

open Spec

/-- Writing lines and reading them again. -/
theorem linesFrom_end (a : Str) (h : '\n' ∉ a) (cur r : Str) :
    linesFrom cur (a ++ '\n' :: r) = stripCr (a.reverse ++ cur) :: linesFrom [] r := by
  induction a generalizing cur with
  | nil => simp [linesFrom]
  | cons c a ih =>
    rw [List.mem_cons, not_or] at h
    rw [List.cons_append, linesFrom, if_neg (fun e => h.1 e.symm), ih h.2]
    simp

theorem C87_lines (nl : Str) (hn : nl = ['\n'] ∨ nl = ['\r', '\n']) (ls : List Str) (h : ∀ l ∈ ls, '\n' ∉ l ∧ l.getLast? ≠ some '\r') :
    strLines (ls.flatMap (· ++ nl)) = ls := by
  unfold strLines
  induction ls with
  | nil => rfl
  | cons l ls ih =>
    obtain ⟨h1, h2⟩ := h l (by simp)
    have ih' := ih fun l hl => h l (List.mem_cons_of_mem _ hl)
    rw [List.flatMap_cons]
    rcases hn with rfl | rfl
    · rw [List.append_assoc, List.singleton_append, linesFrom_end l h1, ih', List.append_nil]
      congr 1
      rw [List.getLast?_eq_head?_reverse] at h2
      unfold stripCr
      rw [if_neg h2, List.reverse_reverse]
    · have e : l ++ ['\r', '\n'] ++ List.flatMap (fun x => x ++ ['\r', '\n']) ls =
          (l ++ ['\r']) ++ '\n' :: List.flatMap (fun x => x ++ ['\r', '\n']) ls := by simp
      rw [e, linesFrom_end (l ++ ['\r']) (by simp [h1]), ih', List.append_nil]
      congr 1
      simp [stripCr]

theorem linesFrom_rest (a : Str) (h : '\n' ∉ a) (cur : Str) : linesFrom cur a = if a.reverse ++ cur = [] then [] else [(a.reverse ++ cur).reverse] := by
  induction a generalizing cur with
  | nil => by_cases hc : cur = [] <;> simp [linesFrom, hc]
  | cons c a ih =>
    rw [List.mem_cons, not_or] at h
    rw [linesFrom, if_neg (fun e => h.1 e.symm), ih h.2]
    simp

/-- The end of the last line may be missing; then its carriage return stays. -/
theorem C87_lines_last (nl : Str) (hn : nl = ['\n'] ∨ nl = ['\r', '\n']) (ls : List Str) (h : ∀ l ∈ ls, '\n' ∉ l ∧ l.getLast? ≠ some '\r')
    (l : Str) (hl : '\n' ∉ l) (h0 : l ≠ []) : strLines (ls.flatMap (· ++ nl) ++ l) = ls ++ [l] := by
  unfold strLines
  induction ls with
  | nil => simp [linesFrom_rest l hl, h0]
  | cons m ls ih =>
    obtain ⟨h1, h2⟩ := h m (by simp)
    have ih' := ih fun l hl => h l (List.mem_cons_of_mem _ hl)
    rw [List.flatMap_cons]
    rcases hn with rfl | rfl
    · rw [List.append_assoc, List.append_assoc, List.singleton_append, linesFrom_end m h1, ih', List.append_nil, List.cons_append]
      congr 1
      rw [List.getLast?_eq_head?_reverse] at h2
      unfold stripCr
      rw [if_neg h2, List.reverse_reverse]
    · have e : m ++ ['\r', '\n'] ++ List.flatMap (fun x => x ++ ['\r', '\n']) ls ++ l =
          (m ++ ['\r']) ++ '\n' :: (List.flatMap (fun x => x ++ ['\r', '\n']) ls ++ l) := by simp
      rw [e, linesFrom_end (m ++ ['\r']) (by simp [h1]), ih', List.append_nil, List.cons_append]
      congr 1
      simp [stripCr]

theorem stepFrom_eq (n max : Nat) (hn : 0 < n) : ∀ (fuel k : Nat), max / n ≤ fuel + k →
    stepFrom n max fuel ((k + 1) * n) = (List.range (max / n - k)).map fun i => (k + i + 1) * n
  | 0, k, h => by
    rw [stepFrom, show max / n - k = 0 by omega]
    rfl
  | fuel + 1, k, h => by
    rw [stepFrom]
    have hle : (k + 1) * n ≤ max ↔ k + 1 ≤ max / n := (Nat.le_div_iff_mul_le hn).symm
    split_ifs with hx
    · rw [hle] at hx
      have := stepFrom_eq n max hn fuel (k + 1) (by omega)
      rw [show (k + 1) * n + n = (k + 1 + 1) * n by rw [Nat.add_mul (k + 1) 1 n, Nat.one_mul], this,
        show max / n - k = (max / n - (k + 1)) + 1 by omega, List.range_succ_eq_map, List.map_cons, List.map_map]
      congr 1
      apply List.map_congr_left
      intro i _
      simp only [Function.comp_def]
      congr 1
      omega
    · rw [hle] at hx
      rw [show max / n - k = 0 by omega]
      rfl

theorem stepFrom_multiples {n max : Nat} (hn : 0 < n) : stepFrom n max (max + 1) n = multiples n max := by
  have := stepFrom_eq n max hn (max + 1) 0 (by have := Nat.div_le_self max n; omega)
  rw [Nat.zero_add, Nat.one_mul] at this
  rw [this]
  unfold multiples
  simp

theorem lastOf_append {X : Type} (parse : Str → Option X) (vs : List Str) (v : Str) (d : X) :
    lastOf parse (vs ++ [v]) d = (parse v).getD (lastOf parse vs d) := by
  unfold lastOf
  rw [List.filterMap_append]
  cases h : parse v with
  | none => simp [h]
  | some x => simp [h]

/-- The values for a key in a list of lines. -/
def valuesIn (ls : List Str) (key : String) : List Str :=
  ls.filterMap fun l => match splitOnce '=' l with
    | some (k, v) => if k = key.toList then some v else none
    | none => none

theorem valuesIn_none {ls : List Str} {l : Str} (h : splitOnce '=' l = none) (key : String) : valuesIn (ls ++ [l]) key = valuesIn ls key := by
  unfold valuesIn
  rw [List.filterMap_append]
  simp [h]

theorem valuesIn_some {ls : List Str} {l k v : Str} (h : splitOnce '=' l = some (k, v)) (key : String) :
    valuesIn (ls ++ [l]) key = valuesIn ls key ++ if k = key.toList then [v] else [] := by
  unfold valuesIn
  rw [List.filterMap_append]
  congr 1
  split_ifs with hk <;> simp [h, hk]

/-- What the first loop does. -/
theorem setProps_spec (c : Config) (ls : List Str) :
    let d := ls.foldl setProp c
    d.max = lastOf (fun v => (parseUsize v).map some) (valuesIn ls "max-context") c.max ∧
    d.default = lastOf parseUsize (valuesIn ls "default-context") c.default ∧
    d.pageSize = lastOf parseUsize (valuesIn ls "results-per-page") c.pageSize ∧
    d.segmentation = lastOf (fun v => (nonEmpty v).map some) (valuesIn ls "default-context-segmentation") c.segmentation ∧
    d.baseText = lastOf (fun v => (nonEmpty v).map some) (valuesIn ls "default-base-text-segmentation") c.baseText ∧
    d.hidden = lastOf (fun v => (nonEmpty v).map fun v => (splitAll ',' v).map trimStr) (valuesIn ls "hidden_annos") c.hidden ∧
    d.sizes = c.sizes := by
  intro d
  induction ls using List.reverseRecOn with
  | nil => exact ⟨rfl, rfl, rfl, rfl, rfl, rfl, rfl⟩
  | append_singleton ls l ih =>
    obtain ⟨i1, i2, i3, i4, i5, i6, i7⟩ := ih
    have hd : d = setProp (ls.foldl setProp c) l := by
      change List.foldl setProp c (ls ++ [l]) = _
      rw [List.foldl_append]
      rfl
    rw [hd]
    generalize ls.foldl setProp c = e at i1 i2 i3 i4 i5 i6 i7
    cases hl : splitOnce '=' l with
    | none =>
      have : setProp e l = e := by unfold setProp; rw [hl]
      rw [this]
      simp only [valuesIn_none hl]
      exact ⟨i1, i2, i3, i4, i5, i6, i7⟩
    | some kv =>
      obtain ⟨k, v⟩ := kv
      simp only [valuesIn_some hl]
      unfold setProp
      rw [hl]
      simp only
      by_cases k1 : k = "max-context".toList
      · subst k1
        simp only [if_true]
        have n2 : ("max-context".toList = "default-context".toList) = False := by decide
        have n3 : ("max-context".toList = "results-per-page".toList) = False := by decide
        have n4 : ("max-context".toList = "default-context-segmentation".toList) = False := by decide
        have n5 : ("max-context".toList = "default-base-text-segmentation".toList) = False := by decide
        have n6 : ("max-context".toList = "hidden_annos".toList) = False := by decide
        simp only [n2, n3, n4, n5, n6, if_false, List.append_nil]
        rw [lastOf_append, ← i1]
        cases parseUsize v with
        | none => exact ⟨rfl, i2, i3, i4, i5, i6, i7⟩
        | some n => exact ⟨rfl, i2, i3, i4, i5, i6, i7⟩
      rw [if_neg k1, if_neg k1, List.append_nil]
      by_cases k2 : k = "default-context".toList
      · subst k2
        simp only [if_true]
        have n3 : ("default-context".toList = "results-per-page".toList) = False := by decide
        have n4 : ("default-context".toList = "default-context-segmentation".toList) = False := by decide
        have n5 : ("default-context".toList = "default-base-text-segmentation".toList) = False := by decide
        have n6 : ("default-context".toList = "hidden_annos".toList) = False := by decide
        simp only [n3, n4, n5, n6, if_false, List.append_nil]
        rw [lastOf_append, ← i2]
        cases parseUsize v with
        | none => exact ⟨i1, rfl, i3, i4, i5, i6, i7⟩
        | some n => exact ⟨i1, rfl, i3, i4, i5, i6, i7⟩
      rw [if_neg k2, if_neg k2, List.append_nil]
      by_cases k3 : k = "results-per-page".toList
      · subst k3
        simp only [if_true]
        have n4 : ("results-per-page".toList = "default-context-segmentation".toList) = False := by decide
        have n5 : ("results-per-page".toList = "default-base-text-segmentation".toList) = False := by decide
        have n6 : ("results-per-page".toList = "hidden_annos".toList) = False := by decide
        simp only [n4, n5, n6, if_false, List.append_nil]
        rw [lastOf_append, ← i3]
        cases parseUsize v with
        | none => exact ⟨i1, i2, rfl, i4, i5, i6, i7⟩
        | some n => exact ⟨i1, i2, rfl, i4, i5, i6, i7⟩
      rw [if_neg k3, if_neg k3, List.append_nil]
      by_cases hv : v = []
      · subst hv
        have hlow : ¬ lower [] = "true".toList := by decide
        simp only [ne_eq, not_true_eq_false, and_false, if_false, hlow]
        refine ⟨i1, i2, i3, ?_, ?_, ?_, i7⟩
        · split_ifs
          · rw [lastOf_append, ← i4]; rfl
          · rw [List.append_nil]; exact i4
        · split_ifs
          · rw [lastOf_append, ← i5]; rfl
          · rw [List.append_nil]; exact i5
        · split_ifs
          · rw [lastOf_append, ← i6]; rfl
          · rw [List.append_nil]; exact i6
      have hne : nonEmpty v = some v := if_neg hv
      simp only [ne_eq, hv, not_false_eq_true, and_true]
      by_cases k4 : k = "default-context-segmentation".toList
      · subst k4
        have n5 : ("default-context-segmentation".toList = "default-base-text-segmentation".toList) = False := by decide
        have n6 : ("default-context-segmentation".toList = "hidden_annos".toList) = False := by decide
        simp only [if_true, n5, n6, if_false, List.append_nil]
        rw [lastOf_append, hne]
        exact ⟨i1, i2, i3, rfl, i5, i6, i7⟩
      rw [if_neg k4, if_neg k4, List.append_nil]
      by_cases k5 : k = "default-base-text-segmentation".toList
      · subst k5
        have n6 : ("default-base-text-segmentation".toList = "hidden_annos".toList) = False := by decide
        simp only [if_true, n6, if_false, List.append_nil]
        rw [lastOf_append, hne]
        exact ⟨i1, i2, i3, i4, rfl, i6, i7⟩
      rw [if_neg k5, if_neg k5, List.append_nil]
      by_cases k6 : k = "hidden_annos".toList
      · subst k6
        simp only [if_true]
        rw [lastOf_append, hne]
        exact ⟨i1, i2, i3, i4, i5, rfl, i7⟩
      rw [if_neg k6, if_neg k6, List.append_nil]
      split_ifs
      · exact ⟨i1, i2, i3, i4, i5, i6, i7⟩
      · exact ⟨i1, i2, i3, i4, i5, i6, i7⟩
      · exact ⟨i1, i2, i3, i4, i5, i6, i7⟩

/-- The timeline strategy after the first loop. -/
theorem setProps_timeline (c : Config) (ls : List Str) :
    (ls.foldl setProp c).timeline = ((ls.filterMap timelineLine).getLast?).getD c.timeline := by
  induction ls using List.reverseRecOn with
  | nil => rfl
  | append_singleton ls l ih =>
    rw [List.foldl_append, List.filterMap_append]
    have step : ∀ e : Config, (setProp e l).timeline = (timelineLine l).getD e.timeline := by
      intro e
      unfold setProp timelineLine
      cases hl : splitOnce '=' l with
      | none => rfl
      | some kv =>
        obtain ⟨k, v⟩ := kv
        simp only
        by_cases k7 : k = "virtual_tokenization_from_namespace".toList
        · subst k7
          have n1 : ("virtual_tokenization_from_namespace".toList = "max-context".toList) = False := by decide
          have n2 : ("virtual_tokenization_from_namespace".toList = "default-context".toList) = False := by decide
          have n3 : ("virtual_tokenization_from_namespace".toList = "results-per-page".toList) = False := by decide
          have n4 : ("virtual_tokenization_from_namespace".toList = "default-context-segmentation".toList) = False := by decide
          have n5 : ("virtual_tokenization_from_namespace".toList = "default-base-text-segmentation".toList) = False := by decide
          have n6 : ("virtual_tokenization_from_namespace".toList = "hidden_annos".toList) = False := by decide
          have n8 : ("virtual_tokenization_from_namespace".toList = "virtual_tokenization_mapping".toList) = False := by decide
          simp only [n1, n2, n3, n4, n5, n6, n8, false_and, true_and, if_false, if_true]
          split_ifs <;> rfl
        by_cases k8 : k = "virtual_tokenization_mapping".toList
        · subst k8
          have n1 : ("virtual_tokenization_mapping".toList = "max-context".toList) = False := by decide
          have n2 : ("virtual_tokenization_mapping".toList = "default-context".toList) = False := by decide
          have n3 : ("virtual_tokenization_mapping".toList = "results-per-page".toList) = False := by decide
          have n4 : ("virtual_tokenization_mapping".toList = "default-context-segmentation".toList) = False := by decide
          have n5 : ("virtual_tokenization_mapping".toList = "default-base-text-segmentation".toList) = False := by decide
          have n6 : ("virtual_tokenization_mapping".toList = "hidden_annos".toList) = False := by decide
          have n7 : ("virtual_tokenization_mapping".toList = "virtual_tokenization_from_namespace".toList) = False := by decide
          simp only [n1, n2, n3, n4, n5, n6, n7, false_and, true_and, if_false, if_true, nonEmpty]
          by_cases hv : v = []
          · rw [if_neg (fun h => h hv), if_pos hv]; rfl
          · rw [if_pos hv, if_neg hv]; rfl
        simp only [k7, k8, false_and, if_false, Option.getD_none]
        cases parseUsize v <;> split_ifs <;> rfl
    rw [List.foldl_cons, List.foldl_nil, step, ih]
    cases h : timelineLine l with
    | none => simp [h]
    | some t => simp [h]

/-- What the second loop does. -/
theorem setSteps_spec (ls : List Str) : ∀ (c : Config),
    (ls.foldlM setSteps c = none ↔ some 0 ∈ (valuesIn ls "context-steps").map parseUsize) ∧
    ∀ d, ls.foldlM setSteps c = some d →
      d = { c with sizes := lastOf (fun v => (parseUsize v).map fun n => multiples n (c.max.getD n)) (valuesIn ls "context-steps") c.sizes } := by
  induction ls using List.reverseRecOn with
  | nil =>
    intro c
    refine ⟨⟨fun h => (Option.some_ne_none c h).elim, fun h => (List.not_mem_nil h).elim⟩, ?_⟩
    intro d hd
    have : c = d := Option.some.inj hd
    subst this
    rfl
  | append_singleton ls l ih =>
    intro c
    obtain ⟨ih1, ih2⟩ := ih c
    rw [List.foldlM_append]
    cases he : ls.foldlM setSteps c with
    | none =>
      refine ⟨?_, ?_⟩
      · have hm := ih1.1 he
        have : some 0 ∈ (valuesIn (ls ++ [l]) "context-steps").map parseUsize := by
          unfold valuesIn
          rw [List.filterMap_append, List.map_append, List.mem_append]
          exact Or.inl hm
        exact ⟨fun _ => this, fun _ => rfl⟩
      · intro d hd
        cases hd
    | some e =>
      have hno : some 0 ∉ (valuesIn ls "context-steps").map parseUsize := fun h => by rw [ih1.2 h] at he; cases he
      have e2 := ih2 e he
      have hx : (some e >>= fun s => List.foldlM setSteps s [l]) = setSteps e l := by
        change List.foldlM setSteps e [l] = _
        rw [List.foldlM_cons, show (fun s' => List.foldlM setSteps s' []) = (fun s' : Config => (pure s' : Option Config)) from rfl, bind_pure]
      rw [hx]
      unfold setSteps
      cases hl : splitOnce '=' l with
      | none =>
        rw [valuesIn_none hl]
        refine ⟨by simp [hno], ?_⟩
        intro d hd
        cases hd
        exact e2
      | some kv =>
        obtain ⟨k, v⟩ := kv
        rw [valuesIn_some hl]
        simp only
        by_cases hk : k = "context-steps".toList
        · rw [if_pos hk, if_pos hk, List.map_append, List.mem_append, lastOf_append]
          cases hp : parseUsize v with
          | none =>
            refine ⟨by simp [hno, hp], ?_⟩
            intro d hd
            cases hd
            exact e2
          | some n =>
            simp only
            by_cases hn : n = 0
            · rw [if_pos hn]
              refine ⟨by simp [hp, hn], ?_⟩
              intro d hd
              cases hd
            · rw [if_neg hn]
              refine ⟨?_, ?_⟩
              · simp only [List.map_cons, List.map_nil, List.mem_singleton, hp, Option.some.injEq, reduceCtorEq, false_iff, not_or]
                exact ⟨hno, fun h => hn h.symm⟩
              · intro d hd
                cases hd
                rw [stepFrom_multiples (by omega)]
                rw [e2]
                rfl
        · rw [if_neg hk, if_neg hk, List.append_nil]
          refine ⟨by simp [hno], ?_⟩
          intro d hd
          cases hd
          exact e2

/-- C87: each property has the value of its last line with a valid value, and the context sizes are the multiples of the step up to
the maximum.  Without a step of zero, which stops the import (`C87_step_fails`). -/
theorem C87_properties_partial (content : Str) (c : Config) (h0 : some 0 ∉ (valuesOf content "context-steps").map parseUsize) :
    ∃ d, loadProperties content c = some d ∧
      d.max = lastOf (fun v => (parseUsize v).map some) (valuesOf content "max-context") c.max ∧
      d.default = lastOf parseUsize (valuesOf content "default-context") c.default ∧
      d.pageSize = lastOf parseUsize (valuesOf content "results-per-page") c.pageSize ∧
      d.segmentation = lastOf (fun v => (nonEmpty v).map some) (valuesOf content "default-context-segmentation") c.segmentation ∧
      d.baseText = lastOf (fun v => (nonEmpty v).map some) (valuesOf content "default-base-text-segmentation") c.baseText ∧
      d.hidden = lastOf (fun v => (nonEmpty v).map fun v => (splitAll ',' v).map trimStr) (valuesOf content "hidden_annos") c.hidden ∧
      d.timeline = ((strLines content).filterMap timelineLine).getLast?.getD c.timeline ∧
      d.sizes = lastOf (fun v => (parseUsize v).map fun n => multiples n (d.max.getD n)) (valuesOf content "context-steps") c.sizes := by
  obtain ⟨s1, s2, s3, s4, s5, s6, s7⟩ := setProps_spec c (strLines content)
  obtain ⟨t1, t2⟩ := setSteps_spec (strLines content) ((strLines content).foldl setProp c)
  unfold loadProperties
  cases hd : (strLines content).foldlM setSteps ((strLines content).foldl setProp c) with
  | none => exact absurd (t1.1 hd) h0
  | some d =>
    have e := t2 d hd
    refine ⟨d, rfl, ?_⟩
    rw [e]
    refine ⟨s1, s2, s3, s4, s5, s6, setProps_timeline c _, ?_⟩
    simp only [s7]
    rfl

/-- C87: the multiples of the step. -/
theorem C87_steps (n max x : Nat) (hn : 0 < n) : x ∈ multiples n max ↔ n ∣ x ∧ 0 < x ∧ x ≤ max := by
  unfold multiples
  rw [List.mem_map]
  constructor
  · rintro ⟨k, hk, rfl⟩
    rw [List.mem_range] at hk
    exact ⟨Nat.dvd_mul_left _ _, Nat.mul_pos (by omega) hn, (Nat.le_div_iff_mul_le hn).1 hk⟩
  · rintro ⟨⟨q, rfl⟩, h1, h2⟩
    have hq : 0 < q := Nat.pos_of_mul_pos_left h1
    refine ⟨q - 1, ?_, ?_⟩
    · rw [List.mem_range]
      have : q ≤ max / n := (Nat.le_div_iff_mul_le hn).2 (by rw [Nat.mul_comm]; exact h2)
      omega
    · rw [show q - 1 + 1 = q by omega, Nat.mul_comm]

/-- C87: the keys of the lines are distinguished exactly: a line `key=value` without `=` in the key is read as this key and value. -/
theorem C87_line (k v : Str) (h : '=' ∉ k) : splitOnce '=' (k ++ '=' :: v) = some (k, v) := splitOnce_append h v

/-- A step of zero is a valid number, but `step_by` panics: the whole import is lost. -/
theorem C87_step_fails :
    ∃ content, loadProperties content {} = none ∧ Spec.valuesOf content "context-steps" = ["0".toList] :=
  ⟨"max-context=20\ncontext-steps=0\n".toList, by decide +kernel, by decide +kernel⟩

/-- The loop of `load_example_queries` (relannis.rs 607-620): a query and its description for each line where both are not NULL. -/
def exampleStep (acc : List (Str × Str)) (r : Row) : Option (List (Str × Str)) :=
  match getField r 0, getField r 1 with
  | some (some q), some (some d) => some (acc ++ [(q, d)])
  | some _, some _ => some acc
  | _, _ => none

/-- `load_example_queries` (relannis.rs 579-622). -/
def loadExamples (rows : List Row) : Option (List (Str × Str)) := rows.foldlM exampleStep []

/-- C87: the examples are those of the lines with a query and a description, in their order. -/
theorem C87_examples (rows : List Row) (h : ∀ r ∈ rows, 2 ≤ r.length) :
    loadExamples rows = some (rows.filterMap fun r => (getNotNull r 0).bind fun q => (getNotNull r 1).map fun d => (q, d)) := by
  unfold loadExamples
  have key : ∀ (rs : List Row) (acc : List (Str × Str)), (∀ r ∈ rs, 2 ≤ r.length) →
      rs.foldlM exampleStep acc =
        some (acc ++ rs.filterMap fun r => (getNotNull r 0).bind fun q => (getNotNull r 1).map fun d => (q, d)) := by
    intro rs
    induction rs with
    | nil => intro acc _; simp
    | cons r rs ih =>
      intro acc hl
      have hr := hl r (by simp)
      have ih' := fun acc => ih acc fun r hr => hl r (List.mem_cons_of_mem _ hr)
      obtain ⟨q, hq⟩ : ∃ q, getField r 0 = some q := by
        unfold getField
        rw [List.getElem?_eq_getElem (by omega)]
        exact ⟨_, rfl⟩
      obtain ⟨d, hd⟩ : ∃ d, getField r 1 = some d := by
        unfold getField
        rw [List.getElem?_eq_getElem (by omega)]
        exact ⟨_, rfl⟩
      rw [List.foldlM_cons]
      have hq' : getNotNull r 0 = q := by unfold getNotNull; rw [hq]; rfl
      have hd' : getNotNull r 1 = d := by unfold getNotNull; rw [hd]; rfl
      have hs : exampleStep acc r = some (acc ++ (q.bind fun q => d.map fun d => (q, d)).toList) := by
        unfold exampleStep
        rw [hq, hd]
        cases q <;> cases d <;> simp
      rw [hs, List.filterMap_cons, hq', hd']
      change List.foldlM exampleStep _ rs = _
      rw [ih']
      cases q <;> cases d <;> simp
  simpa using key rows [] h

/-- A rule of the file for the layer `mmax` removes both default rules of this layer, though a comment of the code (relannis.rs
560-561) says that only rules with the same conditions and the same visualizer are replaced: the discourse view for edges is lost. -/
theorem C87_layer_fails :
    ∃ r : VisRow, r.removed = false ∧ r.rule.element = some .node ∧ r.rule.visType = "grid".toList ∧
      (∃ e ∈ defaultRules, e.2.2.element = some .edge ∧ e.2.2.visType = "discourse".toList) ∧
      ¬ ∃ e ∈ loadRules [r], e.2.2.element = some .edge :=
  ⟨⟨false, 1, ⟨"my grid".toList, "grid".toList, some .node, some "mmax".toList, .visible, []⟩⟩, rfl, rfl, rfl, by decide +kernel,
    by decide +kernel⟩

/-- The configuration of a small corpus. -/
def exProps : Str :=
  "max-context=20\r\ncontext-steps=5\r\ndefault-context=5\r\ndefault-context=x\r\nhidden_annos=a, b\r\nvirtual_tokenization_mapping=p=q".toList

def exResolver : List Row :=
  ["c\tNULL\tmmax\tnode\tgrid\tmy grid\tvisible\t104\tannos:a; b :c".toList, "c\tNULL\ttiger\tnode\ttree\ttree\tremoved\t1\tNULL".toList,
    "c\tNULL\tNULL\tNULL\tkwic\tx\tpermanent\tbad\tNULL".toList].map (splitAll '\t')

/-- The hypotheses of the theorems of this property are met by a file with comments, repeated and unreadable values. -/
theorem C87_nonvacuous :
    (some 0 ∉ (valuesOf exProps "context-steps").map parseUsize) ∧
    loadProperties exProps {} = some { max := some 20, default := 5, sizes := [5, 10, 15, 20], hidden := ["a".toList, "b".toList],
                                       timeline := .fromMapping [("p".toList, "q".toList)] } ∧
    ((exResolver.filterMap (parseVisRow false)).map fun r => (r.removed, r.order, r.rule.mappings)) =
      [(false, 104, [("annos".toList, "a".toList), ("b".toList, "c".toList)]), (true, 1, []), (false, 0, [])] ∧
    ((loadRules (exResolver.filterMap (parseVisRow false))).map fun e => (e.1, String.ofList e.2.2.display)) =
      [(-1, "kwic"), (0, "x"), (102, "exmaralda"), (104, "my grid"), (105, "urml")] := by
  refine ⟨by decide +kernel, by decide +kernel, by decide +kernel, by decide +kernel⟩

end Rel
