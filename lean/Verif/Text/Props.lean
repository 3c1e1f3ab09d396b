import Verif.Text.Model
import Mathlib.Order.BoundedOrder.Basic
import Mathlib.Order.Nat
import Mathlib.Data.List.TakeWhile

/-!
# Properties of names, paths and positions (C29, C30, C31, C32, C38, C39, C40)
-/

set_option linter.unusedSimpArgs false
set_option linter.unusedSectionVars false

/-! ### Splitting -/

theorem splitOnce_none {c : Char} {s : Str} (h : c ∉ s) : splitOnce c s = none := by
  induction s with
  | nil => rfl
  | cons x r ih =>
    simp only [List.mem_cons, not_or] at h
    rw [splitOnce, if_neg (Ne.symm h.1), ih h.2]
    rfl

theorem splitOnce_append {c : Char} {a : Str} (h : c ∉ a) (b : Str) : splitOnce c (a ++ c :: b) = some (a, b) := by
  induction a with
  | nil => simp [splitOnce]
  | cons x r ih =>
    simp only [List.mem_cons, not_or] at h
    rw [List.cons_append, splitOnce, if_neg (Ne.symm h.1), ih h.2]
    rfl

/-- The part before the separator does not contain it. -/
theorem splitOnce_some {c : Char} {s a b : Str} (h : splitOnce c s = some (a, b)) : c ∉ a ∧ s = a ++ c :: b := by
  induction s generalizing a with
  | nil => cases h
  | cons x r ih =>
    rw [splitOnce] at h
    split at h
    · rename_i e
      obtain ⟨rfl, rfl⟩ := Prod.mk.inj (Option.some.inj h)
      exact ⟨by simp, by simp [e]⟩
    · rename_i e
      obtain ⟨⟨a', b'⟩, h1, h2⟩ := Option.map_eq_some_iff.1 h
      obtain ⟨rfl, rfl⟩ := Prod.mk.inj h2
      obtain ⟨i1, i2⟩ := ih h1
      refine ⟨?_, by rw [i2]; rfl⟩
      simp only [List.mem_cons, not_or]
      exact ⟨fun hc => e hc.symm, i1⟩

theorem splitAll_single {c : Char} {s : Str} (h : c ∉ s) : splitAll c s = [s] := by
  induction s with
  | nil => rfl
  | cons x r ih =>
    simp only [List.mem_cons, not_or] at h
    rw [splitAll, if_neg (Ne.symm h.1), ih h.2]

theorem splitColons_none {s : Str} (h : ':' ∉ s) : splitColons s = none := by
  induction s with
  | nil => rfl
  | cons x r ih =>
    simp only [List.mem_cons, not_or] at h
    cases r with
    | nil => rfl
    | cons y r =>
      rw [splitColons, if_neg (fun hc => h.1 hc.1.symm), ih h.2]
      rfl

theorem splitColons_append {a : Str} (h : ':' ∉ a) (b : Str) : splitColons (a ++ ':' :: ':' :: b) = some (a, b) := by
  induction a with
  | nil => simp [splitColons]
  | cons x r ih =>
    simp only [List.mem_cons, not_or] at h
    have : ∃ y t, r ++ ':' :: ':' :: b = y :: t := by
      cases r with
      | nil => exact ⟨_, _, rfl⟩
      | cons y t => exact ⟨_, _, rfl⟩
    obtain ⟨y, t, e⟩ := this
    rw [List.cons_append, e, splitColons, if_neg (fun hc => h.1 hc.1.symm), ← e, ih h.2]
    rfl

/-! ### Qualified names -/

theorem colon_not_mem {s : Str} : ':' ∉ pctEncode qnameSet s :=
  not_mem_pctEncode (n := 58) (by decide) (by decide) (by decide) (by decide)

/-- What splitting the joined form gives: the encoded parts. -/
theorem split_join (ns name : Str) : splitQName (joinQName ns name) =
    (if ns = [] then none else some (pctEncode qnameSet ns), pctEncode qnameSet name) := by
  unfold splitQName joinQName
  by_cases h : ns = []
  · simp [h, splitColons_none colon_not_mem]
  · simp only [h, ne_eq, not_false_eq_true, if_true, if_false, List.append_assoc, List.cons_append, List.nil_append]
    rw [splitColons_append colon_not_mem]

/-- C32, restricted: the parts of the joined form are the percent-encoded namespace and name, so decoding them gives back the
original ones.  Missing: `split_qname` itself does not decode (`C32_fails`). -/
theorem C32_qname_partial (lossy : List UInt8 → Str) (ns name : Str) :
    ((splitQName (joinQName ns name)).1.map (pctDecodeStr lossy)).getD [] = ns ∧
    pctDecodeStr lossy (splitQName (joinQName ns name)).2 = name := by
  rw [split_join]
  have hp : qnameSet 37 = true := by decide
  refine ⟨?_, pctDecodeStr_pctEncode _ _ hp _⟩
  by_cases h : ns = []
  · simp [h]
  · simp only [h, if_false, Option.map_some, Option.getD_some]
    exact pctDecodeStr_pctEncode _ _ hp _

/-- C32, restricted: without decoding the round trip holds for ASCII names without blanks, control characters, `:` and `%`. -/
theorem C32_plain_partial (ns name : Str)
    (h : ∀ c, c ∈ ns ∨ c ∈ name → c.toNat < 128 ∧ qnameSet (UInt8.ofNat c.toNat) = false) :
    splitQName (joinQName ns name) = (if ns = [] then none else some ns, name) := by
  rw [split_join, pctEncode_eq_self fun c hc => h c (Or.inl hc), pctEncode_eq_self fun c hc => h c (Or.inr hc)]

/-- C32: different qualified names have different joined forms. -/
theorem C32_injective (ns name ns' name' : Str) (h : joinQName ns name = joinQName ns' name') : ns = ns' ∧ name = name' := by
  have h1 := C32_qname_partial (fun _ => []) ns name
  have h2 := C32_qname_partial (fun _ => []) ns' name'
  rw [h] at h1
  exact ⟨h1.1.symm.trans h2.1, h1.2.symm.trans h2.2⟩

/-- C32 fails: a name with a blank, and a name outside ASCII. -/
theorem C32_fails :
    splitQName (joinQName "ns".toList "a b".toList) = (some "ns".toList, "a%20b".toList) ∧
    splitQName (joinQName [] "ä".toList) = (none, "%C3%A4".toList) := by decide

theorem C32_nonvacuous : joinQName "annis".toList "node_name".toList = "annis::node_name".toList ∧
    (∀ c, c ∈ "annis".toList ∨ c ∈ "node_name".toList → c.toNat < 128 ∧ qnameSet (UInt8.ofNat c.toNat) = false) := by
  refine ⟨by decide, ?_⟩
  have : ∀ c ∈ "annis".toList ++ "node_name".toList, c.toNat < 128 ∧ qnameSet (UInt8.ofNat c.toNat) = false := by decide
  intro c hc
  exact this c (List.mem_append.2 hc)

/-! ### Paths -/

/-- A string that is a file name. -/
def PlainName (s : Str) : Prop := s ≠ [] ∧ '/' ∉ s ∧ s ≠ ['.'] ∧ s ≠ ['.', '.']

instance (s : Str) : Decidable (PlainName s) := inferInstanceAs (Decidable (_ ∧ _))

theorem pushPath_plain (p : List Str) {s : Str} (h : PlainName s) : pushPath p s = p ++ [s] := by
  obtain ⟨h1, h2, h3, h4⟩ := h
  unfold pushPath
  rw [splitAll_single h2, if_neg]
  · simp [pushSeg, h1, h3, h4]
  · cases s with
    | nil => simp
    | cons x r =>
      simp only [List.head?_cons, Option.some.injEq]
      rintro rfl
      simp at h2

theorem pushPath_empty (p : List Str) : pushPath p [] = p := by simp [pushPath, splitAll, pushSeg]

theorem corpus_plain {name : Str} (h1 : name ≠ []) (h2 : name ≠ ['.']) (h3 : name ≠ ['.', '.']) :
    PlainName (pctEncode pathSet name) := by
  have hp : pathSet 37 = true := by decide
  refine ⟨?_, not_mem_pctEncode (n := 47) (by decide) (by decide) (by decide) (by decide), ?_, ?_⟩
  · intro h; exact h1 (pctEncode_injective hp (b := []) h)
  · intro h; exact h2 (pctEncode_injective hp (h.trans (by decide)))
  · intro h; exact h3 (pctEncode_injective hp (h.trans (by decide)))

/-- C38, restricted to names other than the empty one, `.` and `..` (missing because of `C38_fails`): the directory lies directly
in the data directory, different names have different directories, and listing the directories gives the names. -/
theorem C38_corpus_dirs_partial (lossy : List UInt8 → Str) (base : List Str) (names : List Str)
    (h : ∀ n ∈ names, n ≠ [] ∧ n ≠ ['.'] ∧ n ≠ ['.', '.']) :
    (∀ n ∈ names, ∃ dir, corpusDir base n = base ++ [dir]) ∧
    (∀ n ∈ names, ∀ n' ∈ names, corpusDir base n = corpusDir base n' → n = n') ∧
    ∃ dirs, names.map (corpusDir base) = dirs.map (fun d => base ++ [d]) ∧ listFromDisk lossy dirs = names := by
  have hp : pathSet 37 = true := by decide
  have hd : ∀ n ∈ names, corpusDir base n = base ++ [pctEncode pathSet n] := fun n hn =>
    pushPath_plain base (corpus_plain (h n hn).1 (h n hn).2.1 (h n hn).2.2)
  refine ⟨fun n hn => ⟨_, hd n hn⟩, ?_, names.map (pctEncode pathSet), ?_, ?_⟩
  · intro n hn n' hn' he
    rw [hd n hn, hd n' hn'] at he
    exact pctEncode_injective hp (by simpa using he)
  · rw [List.map_map]
    exact List.map_congr_left hd
  · unfold listFromDisk
    rw [List.map_map]
    conv_rhs => rw [← List.map_id names]
    exact List.map_congr_left fun n _ => pctDecodeStr_pctEncode lossy pathSet hp n

/-- C38 fails for the empty name and for dots: the directory is the data directory itself or its parent. -/
theorem C38_fails (base : List Str) :
    corpusDir base [] = base ∧ corpusDir base ['.'] = base ∧ corpusDir base ['.', '.'] = base.dropLast := by
  refine ⟨pushPath_empty base, ?_, ?_⟩
  · have : pctEncode pathSet ['.'] = ['.'] := by decide
    unfold corpusDir
    rw [this]
    simp [pushPath, splitAll, pushSeg]
  · have : pctEncode pathSet ['.', '.'] = ['.', '.'] := by decide
    unfold corpusDir
    rw [this]
    simp [pushPath, splitAll, pushSeg]

theorem C38_nonvacuous : corpusDir ["data".toList] "a/../b".toList = ["data".toList, "a%2F..%2Fb".toList] := by decide

/-! ### Component paths -/

section
variable {T : Type}

/-- Components whose path can be read back. -/
def Component.Good (c : Component T) : Prop :=
  c.layer ≠ defaultLayer ∧ (c.layer = [] ∨ PlainName c.layer) ∧ (c.name = [] ∨ PlainName c.name)

/-- The directory name of a layer. -/
def layerDir (layer : Str) : Str := if layer = [] then defaultLayer else layer

theorem layerDir_plain {c : Component T} (h : c.Good) : PlainName (layerDir c.layer) := by
  unfold layerDir
  split
  · decide
  · rename_i hn
    exact h.2.1.resolve_left hn

theorem layerDir_back {c : Component T} (h : c.Good) : (if layerDir c.layer = defaultLayer then [] else layerDir c.layer) = c.layer := by
  unfold layerDir
  by_cases hl : c.layer = []
  · simp [hl]
  · simp only [hl, if_false]
    rw [if_neg h.1]

variable (tyName : T → Str)

theorem gs_plain : PlainName "gs".toList := by decide

theorem componentPath_good (hty : ∀ t, PlainName (tyName t)) (base : List Str) {c : Component T} (h : c.Good) :
    componentPath tyName base c =
      base ++ ["gs".toList, tyName c.ty, layerDir c.layer] ++ (if c.name = [] then [] else [c.name]) := by
  have hlay : (if c.layer = [] then defaultLayer else c.layer) = layerDir c.layer := rfl
  unfold componentPath
  rw [hlay, pushPath_plain base gs_plain, pushPath_plain _ (hty _), pushPath_plain _ (layerDir_plain h)]
  rcases h.2.2 with hn | hn
  · rw [hn, pushPath_empty]
    simp
  · rw [pushPath_plain _ hn, if_neg hn.1]
    simp

theorem componentPath_injective (hty : ∀ t, PlainName (tyName t)) (hinj : ∀ t t', tyName t = tyName t' → t = t')
    (base : List Str) {c c' : Component T} (h : c.Good) (h' : c'.Good)
    (he : componentPath tyName base c = componentPath tyName base c') : c = c' := by
  rw [componentPath_good tyName hty base h, componentPath_good tyName hty base h'] at he
  simp only [List.append_assoc, List.append_cancel_left_eq, List.cons_append, List.nil_append, List.cons.injEq] at he
  obtain ⟨_, h2, h3, h4⟩ := he
  have hl : c.layer = c'.layer := by
    rw [← layerDir_back h, ← layerDir_back h', h3]
  have hn : c.name = c'.name := by
    by_cases e : c.name = []
    · by_cases e' : c'.name = []
      · rw [e, e']
      · simp [e, e'] at h4
    · by_cases e' : c'.name = []
      · simp [e, e'] at h4
      · simpa [e, e'] using h4
  obtain ⟨t, l, n⟩ := c
  obtain ⟨t', l', n'⟩ := c'
  simp only at h2 hl hn
  rw [hinj _ _ h2, hl, hn]

theorem mem_dirChildren {cfgs : List (List Str)} {d : List Str} {x : Str} :
    x ∈ dirChildren cfgs d ↔ ∃ t, d ++ x :: t ∈ cfgs := by
  unfold dirChildren
  rw [List.mem_filterMap]
  constructor
  · rintro ⟨p, hp, hx⟩
    split at hx
    · rename_i hpre
      rw [List.isPrefixOf_iff_prefix] at hpre
      obtain ⟨t, rfl⟩ := hpre
      rw [List.drop_left] at hx
      cases t with
      | nil => cases hx
      | cons y t =>
        simp only [List.head?_cons, Option.some.injEq] at hx
        subst hx
        exact ⟨t, hp⟩
    · cases hx
  · rintro ⟨t, ht⟩
    refine ⟨_, ht, ?_⟩
    rw [if_pos (by rw [List.isPrefixOf_iff_prefix]; exact List.prefix_append _ _), List.drop_left]
    rfl

/-- C29, restricted to components whose layer and name contain no `/`, are not `.` or `..`, and whose layer is not called
`default_layer` (missing because of `C29_default_layer_fails` and `C29_slash_fails`): different components have different
directories, and searching the folder finds exactly the stored components. -/
theorem C29_component_dirs_partial (hty : ∀ t, PlainName (tyName t)) (hinj : ∀ t t', tyName t = tyName t' → t = t')
    (types : List T) (hall : ∀ t, t ∈ types) (base : List Str) (cs : List (Component T)) (hg : ∀ c ∈ cs, c.Good) :
    (∀ c ∈ cs, ∀ c' ∈ cs, componentPath tyName base c = componentPath tyName base c' → c = c') ∧
    ∀ c, c ∈ findComponents tyName types base (cs.map (componentPath tyName base)) ↔ c ∈ cs := by
  refine ⟨fun c hc c' hc' => componentPath_injective tyName hty hinj base (hg c hc) (hg c' hc'), ?_⟩
  have hbase : ∀ t, pushPath (pushPath base "gs".toList) (tyName t) = base ++ ["gs".toList, tyName t] := by
    intro t
    rw [pushPath_plain base gs_plain, pushPath_plain _ (hty t)]
    simp
  -- a path found below a layer directory is one of the stored ones
  have hsub : ∀ (t : T) (l : Str) (r : List Str), base ++ ["gs".toList, tyName t] ++ l :: r ∈ cs.map (componentPath tyName base) →
      ∃ c ∈ cs, c.ty = t ∧ layerDir c.layer = l ∧ (if c.name = [] then [] else [c.name]) = r := by
    intro t l r hm
    obtain ⟨c, hc, he⟩ := List.mem_map.1 hm
    rw [componentPath_good tyName hty base (hg c hc)] at he
    simp only [List.append_assoc, List.append_cancel_left_eq, List.cons_append, List.nil_append, List.cons.injEq] at he
    exact ⟨c, hc, hinj _ _ he.2.1, he.2.2.1, he.2.2.2⟩
  intro c
  unfold findComponents
  simp only [hbase, List.mem_flatMap]
  constructor
  · rintro ⟨t, _, l, hl, hm⟩
    obtain ⟨r, hr⟩ := mem_dirChildren.1 hl
    obtain ⟨c0, hc0, rfl, rfl, _⟩ := hsub t l r hr
    rw [layerDir_back (hg c0 hc0)] at hm
    rcases List.mem_append.1 hm with hm | hm
    · split at hm
      · rename_i hin
        simp only [List.mem_cons, List.not_mem_nil, or_false] at hm
        subst hm
        obtain ⟨c1, hc1, he⟩ := List.mem_map.1 hin
        have hgood : (⟨c0.ty, c0.layer, []⟩ : Component T).Good := ⟨(hg c0 hc0).1, (hg c0 hc0).2.1, Or.inl rfl⟩
        exact componentPath_injective tyName hty hinj base (hg c1 hc1) hgood he ▸ hc1
      · simp at hm
    · obtain ⟨n, hn, hm⟩ := List.mem_filterMap.1 hm
      split at hm
      · rename_i hin
        obtain rfl := Option.some.inj hm
        obtain ⟨c1, hc1, he⟩ := List.mem_map.1 hin
        obtain ⟨r', hr'⟩ := mem_dirChildren.1 hn
        have hr2 : base ++ ["gs".toList, tyName c0.ty] ++ layerDir c0.layer :: n :: r' ∈ cs.map (componentPath tyName base) := by
          simpa using hr'
        obtain ⟨c2, hc2, h1, h2, h3⟩ := hsub _ _ _ hr2
        have hname : c2.name = n ∧ c2.name ≠ [] := by
          by_cases e : c2.name = []
          · simp [e] at h3
          · simp [e] at h3
            exact ⟨h3.1, e⟩
        have hgood : (⟨c0.ty, c0.layer, n⟩ : Component T).Good := by
          refine ⟨(hg c0 hc0).1, (hg c0 hc0).2.1, Or.inr ?_⟩
          rw [← hname.1]
          exact (hg c2 hc2).2.2.resolve_left hname.2
        exact componentPath_injective tyName hty hinj base (hg c1 hc1) hgood he ▸ hc1
      · cases hm
  · intro hc
    have hpath : componentPath tyName base c ∈ cs.map (componentPath tyName base) := List.mem_map_of_mem hc
    have hpath2 := hpath
    rw [componentPath_good tyName hty base (hg c hc)] at hpath2
    refine ⟨c.ty, hall _, layerDir c.layer, ?_, ?_⟩
    · exact mem_dirChildren.2 ⟨if c.name = [] then [] else [c.name], by simpa using hpath2⟩
    · rw [layerDir_back (hg c hc)]
      by_cases e : c.name = []
      · refine List.mem_append.2 (Or.inl ?_)
        obtain ⟨t, l, n⟩ := c
        simp only at e
        subst e
        rw [if_pos hpath]
        simp
      · refine List.mem_append.2 (Or.inr (List.mem_filterMap.2 ⟨c.name, ?_, ?_⟩))
        · refine mem_dirChildren.2 ⟨[], ?_⟩
          simpa [e] using hpath2
        · rw [if_pos hpath]

end

open AnnotationComponentType in
theorem annotationType_plain : (∀ t, PlainName (print t)) ∧ (∀ t t', print t = print t' → t = t') ∧ ∀ t, t ∈ all := by
  refine ⟨?_, ?_, ?_⟩
  · intro t; cases t <;> decide
  · intro t t'; cases t <;> cases t' <;> first | (intro _; rfl) | (intro h; exact absurd h (by decide))
  · intro t; cases t <;> decide

/-- C29 fails: a layer named like the replacement of the empty layer shares its directory. -/
theorem C29_default_layer_fails (base : List Str) (n : Str) :
    componentPath AnnotationComponentType.print base ⟨.ordering, [], n⟩ =
      componentPath AnnotationComponentType.print base ⟨.ordering, defaultLayer, n⟩ := rfl

/-- C29 fails: a component with a slash in its layer is not found again, an absolute name leaves the folder. -/
theorem C29_slash_fails :
    findComponents AnnotationComponentType.print AnnotationComponentType.all ["c".toList]
      [componentPath AnnotationComponentType.print ["c".toList] ⟨.dominance, "a/b".toList, "n".toList⟩] = [] ∧
    componentPath AnnotationComponentType.print ["c".toList] ⟨.dominance, "a".toList, "/etc".toList⟩ = ["etc".toList] := by
  decide

theorem C29_nonvacuous :
    findComponents AnnotationComponentType.print AnnotationComponentType.all ["c".toList]
      (([⟨.dominance, "s".toList, []⟩, ⟨.dominance, "s".toList, "edge".toList⟩, ⟨.ordering, [], []⟩] :
        List (Component AnnotationComponentType)).map (componentPath AnnotationComponentType.print ["c".toList])) ≠ [] ∧
    (⟨.dominance, "s".toList, "edge".toList⟩ : Component AnnotationComponentType).Good := by
  refine ⟨by decide, by decide, ?_, ?_⟩
  · exact Or.inr (by decide)
  · exact Or.inr (by decide)

/-! ### Component identifiers -/

section
variable {T : Type}

/-- C30: the printed form is parsed to the same component if and only if the layer has no slash; component types are any type
whose names contain no slash and can be parsed. -/
theorem C30_component_text (tyName : T → Str) (parseTy : Str → Option T) (hp : ∀ t, parseTy (tyName t) = some t)
    (hs : ∀ t, '/' ∉ tyName t) (c : Component T) :
    Component.parse parseTy (c.print tyName) = some c ↔ '/' ∉ c.layer := by
  have e1 : c.print tyName = tyName c.ty ++ '/' :: (c.layer ++ '/' :: c.name) := by simp [Component.print]
  have e2 : splitOnce '/' (c.print tyName) = some (tyName c.ty, c.layer ++ '/' :: c.name) := by
    rw [e1]; exact splitOnce_append (hs _) _
  constructor
  · intro h hc
    unfold Component.parse splitn3 at h
    rw [e2] at h
    simp only at h
    cases h2 : splitOnce '/' (c.layer ++ '/' :: c.name) with
    | none => rw [h2] at h; cases h
    | some p =>
      obtain ⟨b, r⟩ := p
      rw [h2] at h
      simp only [hp, Option.map_some, Option.some.injEq] at h
      have := (splitOnce_some h2).1
      rw [← h] at hc
      exact this hc
  · intro hl
    unfold Component.parse splitn3
    rw [e2]
    simp only [splitOnce_append hl, hp, Option.map_some]

end

/-- C30 for annotation graphs, restricted to layers without a slash; missing because of `C30_fails`. -/
theorem C30_annotation_component_partial (c : Component AnnotationComponentType) (h : '/' ∉ c.layer) :
    Component.parse AnnotationComponentType.parse (c.print AnnotationComponentType.print) = some c := by
  refine (C30_component_text _ _ ?_ ?_ c).2 h
  · intro t; cases t <;> decide
  · intro t; exact (annotationType_plain.1 t).2.1

/-- C30 fails for a layer with a slash: another component is returned. -/
theorem C30_fails :
    Component.parse AnnotationComponentType.parse
      ((⟨.pointing, "a/b".toList, "c".toList⟩ : Component AnnotationComponentType).print AnnotationComponentType.print) =
      some ⟨.pointing, "a".toList, "b/c".toList⟩ := by decide

theorem C30_nonvacuous :
    (⟨.pointing, [], "c/d".toList⟩ : Component AnnotationComponentType).print AnnotationComponentType.print =
      "Pointing//c/d".toList := by decide

/-! ### Listing components -/

section
variable {T S : Type} [DecidableEq T] [LinearOrder S] [OrderBot S]

theorem sorted_range {X : Type} [LinearOrder X] (p : X → Bool) (lo : X) (l : List X) (hs : l.Pairwise (· < ·))
    (hlo : ∀ x ∈ l, p x = true → lo ≤ x) (hconv : ∀ x ∈ l, ∀ y ∈ l, lo ≤ x → x ≤ y → p y = true → p x = true) :
    (l.dropWhile (· < lo)).takeWhile p = l.filter p := by
  induction l with
  | nil => rfl
  | cons x r ih =>
    have h1 := List.pairwise_cons.1 hs
    have ih' := ih h1.2 (fun y hy => hlo y (List.mem_cons_of_mem _ hy))
      (fun y hy z hz => hconv y (List.mem_cons_of_mem _ hy) z (List.mem_cons_of_mem _ hz))
    rw [List.dropWhile_cons]
    by_cases hx : x < lo
    · have hpx : p x = false := by
        by_contra hc
        exact absurd (hlo x (by simp) (by simpa using hc)) (not_le.2 hx)
      simp only [hx, decide_true, if_true]
      rw [ih', List.filter_cons, hpx]
      simp
    · simp only [hx, decide_false]
      have hle : lo ≤ x := not_lt.1 hx
      have hr : r.dropWhile (· < lo) = r := by
        cases r with
        | nil => rfl
        | cons y t =>
          have : ¬ y < lo := not_lt.2 (le_trans hle (le_of_lt (h1.1 y (by simp))))
          simp [this]
      rw [hr] at ih'
      simp only [Bool.false_eq_true, if_false]
      rw [List.takeWhile_cons, List.filter_cons]
      by_cases hp : p x = true
      · rw [if_pos hp, if_pos hp, ih']
      · rw [if_neg hp, if_neg hp]
        symm
        rw [List.filter_eq_nil_iff]
        intro y hy hpy
        exact hp (hconv x (by simp) y (List.mem_cons_of_mem _ hy) hle (le_of_lt (h1.1 y hy)) hpy)

/-- What the filter asks for. -/
def componentWanted (toU16 : T → Nat) (ctype : Option T) (name : Option S) (c : CKey S) : Prop :=
  (∀ t, ctype = some t → (ofLex c).1 = toU16 t) ∧ (∀ n, name = some n → (ofLex (ofLex c).2).1 = n)

/-- C31: the listed components are exactly those of the map with the given type and name, in the order of the map, for all sets
of components whose type number belongs to a type. -/
theorem C31_get_all_components (toU16 : T → Nat) (ofU16 : Nat → T) (hret : ∀ t, ofU16 (toU16 t) = t) (keys : List (CKey S))
    (hs : keys.Pairwise (· < ·)) (hk : ∀ c ∈ keys, ∃ t, (ofLex c).1 = toU16 t) (ctype : Option T) (name : Option S) :
    (getAllComponents toU16 ofU16 keys ctype name).Sublist keys ∧
    ∀ c, c ∈ getAllComponents toU16 ofU16 keys ctype name ↔ c ∈ keys ∧ componentWanted toU16 ctype name c := by
  have hty : ∀ c ∈ keys, ∀ t, ofU16 (ofLex c).1 = t ↔ (ofLex c).1 = toU16 t := by
    intro c hc t
    obtain ⟨t', ht'⟩ := hk c hc
    rw [ht', hret]
    constructor
    · rintro rfl; rfl
    · intro h
      have := congrArg ofU16 h
      rwa [hret, hret] at this
  have hlt : ∀ a b : CKey S, a ≤ b → (ofLex a).1 < (ofLex b).1 ∨ (ofLex a).1 = (ofLex b).1 ∧ (ofLex a).2 ≤ (ofLex b).2 := by
    intro a b h
    exact (Prod.Lex.le_iff).1 h
  have hlt2 : ∀ a b : S ×ₗ S, a ≤ b → (ofLex a).1 < (ofLex b).1 ∨ (ofLex a).1 = (ofLex b).1 ∧ (ofLex a).2 ≤ (ofLex b).2 := by
    intro a b h
    exact (Prod.Lex.le_iff).1 h
  cases ctype with
  | none =>
    refine ⟨List.filter_sublist, ?_⟩
    intro c
    unfold getAllComponents componentWanted
    cases name with
    | none => simp
    | some n => simp [eq_comm]
  | some t =>
    cases name with
    | none =>
      have e : getAllComponents toU16 ofU16 keys (some t) (none : Option S) =
          keys.filter fun c => !decide (ofU16 (ofLex c).1 ≠ t) := by
        unfold getAllComponents rangeFrom
        refine sorted_range _ _ keys hs ?_ ?_
        · intro c hc hp
          have : (ofLex c).1 = toU16 t := (hty c hc t).1 (by simpa using hp)
          rw [Prod.Lex.le_iff]
          refine Or.inr ⟨this.symm, ?_⟩
          show (toLex (⊥, ⊥) : S ×ₗ S) ≤ (ofLex c).2
          rw [Prod.Lex.le_iff]
          rcases eq_or_lt_of_le (bot_le (a := (ofLex (ofLex c).2).1)) with h | h
          · exact Or.inr ⟨h, bot_le⟩
          · exact Or.inl h
        · intro x hx y hy hlo hxy hp
          have hy2 : (ofLex y).1 = toU16 t := (hty y hy t).1 (by simpa using hp)
          have h1 := hlt _ _ hlo
          have h2 := hlt _ _ hxy
          have : (ofLex x).1 = toU16 t := by
            have a1 : toU16 t ≤ (ofLex x).1 := h1.elim (fun h => le_of_lt h) (fun h => le_of_eq h.1)
            have a2 : (ofLex x).1 ≤ (ofLex y).1 := h2.elim (fun h => le_of_lt h) (fun h => le_of_eq h.1)
            omega
          simpa using (hty x hx t).2 this
      rw [e]
      refine ⟨List.filter_sublist, ?_⟩
      intro c
      rw [List.mem_filter]
      unfold componentWanted
      constructor
      · rintro ⟨hc, hp⟩
        refine ⟨hc, ?_, fun n h => by cases h⟩
        intro t' ht'
        obtain rfl := Option.some.inj ht'
        exact (hty c hc _).1 (by simpa using hp)
      · rintro ⟨hc, hp, _⟩
        exact ⟨hc, by simpa using (hty c hc t).2 (hp t rfl)⟩
    | some n =>
      have e : getAllComponents toU16 ofU16 keys (some t) (some n) =
          keys.filter fun c => !(decide ((ofLex (ofLex c).2).1 ≠ n) || decide (ofU16 (ofLex c).1 ≠ t)) := by
        unfold getAllComponents rangeFrom
        refine sorted_range _ _ keys hs ?_ ?_
        · intro c hc hp
          simp only [Bool.not_eq_true', Bool.or_eq_false_iff, decide_eq_false_iff_not, not_not] at hp
          have : (ofLex c).1 = toU16 t := (hty c hc t).1 hp.2
          rw [Prod.Lex.le_iff]
          refine Or.inr ⟨this.symm, ?_⟩
          show (toLex (n, ⊥) : S ×ₗ S) ≤ (ofLex c).2
          rw [Prod.Lex.le_iff]
          exact Or.inr ⟨hp.1.symm, bot_le⟩
        · intro x hx y hy hlo hxy hp
          simp only [Bool.not_eq_true', Bool.or_eq_false_iff, decide_eq_false_iff_not, not_not] at hp ⊢
          have hy2 : (ofLex y).1 = toU16 t := (hty y hy t).1 hp.2
          have h1 := hlt _ _ hlo
          have h2 := hlt _ _ hxy
          have a1 : toU16 t ≤ (ofLex x).1 := h1.elim (fun h => le_of_lt h) (fun h => le_of_eq h.1)
          have a2 : (ofLex x).1 ≤ (ofLex y).1 := h2.elim (fun h => le_of_lt h) (fun h => le_of_eq h.1)
          have hx2 : (ofLex x).1 = toU16 t := by omega
          have b1 : (toLex (n, ⊥) : S ×ₗ S) ≤ (ofLex x).2 := by
            rcases h1 with h1 | h1
            · exact absurd h1 (by show ¬ toU16 t < _; omega)
            · exact h1.2
          have b2 : (ofLex x).2 ≤ (ofLex y).2 := by
            rcases h2 with h2 | h2
            · exact absurd h2 (by omega)
            · exact h2.2
          have c1 : n ≤ (ofLex (ofLex x).2).1 := (hlt2 _ _ b1).elim (fun h => le_of_lt h) (fun h => le_of_eq h.1)
          have c2 : (ofLex (ofLex x).2).1 ≤ n := by
            rw [← hp.1]
            exact (hlt2 _ _ b2).elim (fun h => le_of_lt h) (fun h => le_of_eq h.1)
          exact ⟨le_antisymm c2 c1, (hty x hx t).2 hx2⟩
      rw [e]
      refine ⟨List.filter_sublist, ?_⟩
      intro c
      rw [List.mem_filter]
      unfold componentWanted
      constructor
      · rintro ⟨hc, hp⟩
        simp only [Bool.not_eq_true', Bool.or_eq_false_iff, decide_eq_false_iff_not, not_not] at hp
        refine ⟨hc, ?_, ?_⟩
        · intro t' ht'
          obtain rfl := Option.some.inj ht'
          exact (hty c hc _).1 hp.2
        · intro n' hn'
          obtain rfl := Option.some.inj hn'
          exact hp.1
      · rintro ⟨hc, hp, hq⟩
        refine ⟨hc, ?_⟩
        simp only [Bool.not_eq_true', Bool.or_eq_false_iff, decide_eq_false_iff_not, not_not]
        exact ⟨hq n rfl, (hty c hc t).2 (hp t rfl)⟩

end

theorem annotationType_u16 (t : AnnotationComponentType) : AnnotationComponentType.ofU16 t.toU16 = t := by cases t <;> rfl

theorem C31_nonvacuous :
    getAllComponents AnnotationComponentType.toU16 AnnotationComponentType.ofU16
      ([toLex (0, toLex (0, 4)), toLex (2, toLex (0, 1)), toLex (2, toLex (3, 1)), toLex (2, toLex (3, 2)), toLex (3, toLex (3, 0))] :
        List (CKey Nat)) (some .dominance) (some 3) = [toLex (2, toLex (3, 1)), toLex (2, toLex (3, 2))] := by decide

/-! ### Match identifiers -/

theorem not_ws_encoded {s : Str} {c : Char} (h : c ∈ pctEncode nodeNameSet s) : isWs c = false := by
  rcases mem_pctEncode h with rfl | h | ⟨b, hb, hs, rfl⟩
  · decide
  · have : ∀ c ∈ hexDigits, isWs c = false := by decide
    exact this c h
  · have key : ∀ n : Fin 128, nodeNameSet (UInt8.ofNat n.val) = false → isWs (Char.ofNat n.val) = false := by decide
    have := key ⟨b.toNat, hb⟩
    simp only [UInt8.ofNat_toNat] at this
    exact this hs

theorem colon_not_mem_node {s : Str} : ':' ∉ pctEncode nodeNameSet s :=
  not_mem_pctEncode (n := 58) (by decide) (by decide) (by decide) (by decide)

theorem wordsFrom_word (cur w rest : Str) (h : ∀ c ∈ w, isWs c = false) :
    wordsFrom cur (w ++ rest) = wordsFrom (cur ++ w) rest := by
  induction w generalizing cur with
  | nil => simp
  | cons c r ih =>
    rw [List.cons_append, wordsFrom, h c (by simp)]
    simp only [Bool.false_eq_true, if_false]
    rw [ih (cur ++ [c]) fun x hx => h x (List.mem_cons_of_mem _ hx)]
    simp

/-- The parts of a node name that cannot be parsed. -/
def OutMatch.Ok (m : OutMatch) : Prop := m.node ≠ [] ∧ (∀ c ∈ m.node, isWs c = false) ∧ splitColons m.node = none

theorem matchDesc_not_ws {m : OutMatch} (h : m.Ok) : ∀ c ∈ matchDesc m, isWs c = false := by
  intro c hc
  unfold matchDesc at hc
  rcases List.mem_append.1 hc with hc | hc
  · split at hc
    · rcases List.mem_append.1 hc with hc | hc
      · rcases List.mem_append.1 hc with hc | hc
        · split at hc
          · rcases List.mem_append.1 hc with hc | hc
            · exact not_ws_encoded hc
            · simp only [List.mem_cons, List.not_mem_nil, or_false, or_self] at hc
              subst hc; decide
          · simp at hc
        · exact not_ws_encoded hc
      · simp only [List.mem_cons, List.not_mem_nil, or_false, or_self] at hc
        subst hc; decide
    · simp at hc
  · exact h.2.1 c hc

theorem matchDesc_ne_nil {m : OutMatch} (h : m.Ok) : matchDesc m ≠ [] := by
  unfold matchDesc
  intro hc
  exact h.1 (List.append_eq_nil_iff.1 hc).2

theorem matchDesc_last {m : OutMatch} (h : m.Ok) : (splitn3Colons (matchDesc m)).getLast? = some m.node := by
  unfold matchDesc
  split
  · by_cases hns : m.ns = []
    · simp only [hns, ne_eq, not_true_eq_false, if_false, List.nil_append, List.append_assoc, List.cons_append]
      unfold splitn3Colons
      rw [splitColons_append colon_not_mem_node]
      simp only [h.2.2]
      rfl
    · simp only [hns, ne_eq, not_false_eq_true, if_true, List.append_assoc, List.cons_append, List.nil_append]
      unfold splitn3Colons
      rw [splitColons_append colon_not_mem_node]
      simp only [splitColons_append colon_not_mem_node]
      rfl
  · unfold splitn3Colons
    simp [h.2.2]

theorem words_matchId (ms : List OutMatch) (h : ∀ m ∈ ms, m.Ok) : splitWhitespace (matchId ms) = ms.map matchDesc := by
  unfold splitWhitespace
  induction ms with
  | nil => rfl
  | cons m r ih =>
    have hm := h m (by simp)
    cases r with
    | nil =>
      simp only [matchId, List.map_cons, List.map_nil]
      have := wordsFrom_word [] (matchDesc m) [] (matchDesc_not_ws hm)
      simp only [List.append_nil, List.nil_append] at this
      rw [this, wordsFrom, if_neg (matchDesc_ne_nil hm)]
    | cons m2 r =>
      rw [matchId]
      · rw [List.append_assoc, wordsFrom_word _ _ _ (matchDesc_not_ws hm)]
        simp only [List.nil_append, List.cons_append]
        rw [wordsFrom]
        have : isWs ' ' = true := by decide
        rw [this]
        simp only [if_true, matchDesc_ne_nil hm, if_false]
        rw [ih fun x hx => h x (List.mem_cons_of_mem _ hx)]
        rfl
      · intro hc; cases hc

/-- C39, restricted to non-empty node names without white space and without `::` (missing because of `C39_fails`): the names
extracted from a match identifier are the names of the matched nodes in order, for all matched annotations. -/
theorem C39_match_ids_partial (ms : List OutMatch) (h : ∀ m ∈ ms, m.Ok) :
    nodeNamesFromMatch (matchId ms) = ms.map OutMatch.node := by
  have hw := words_matchId ms h
  unfold nodeNamesFromMatch
  rw [hw, List.filterMap_map, ← List.filterMap_eq_map]
  clear hw
  induction ms with
  | nil => rfl
  | cons m r ih =>
    simp only [List.filterMap_cons, Function.comp_apply, matchDesc_last (h m (by simp))]
    rw [ih fun x hx => h x (List.mem_cons_of_mem _ hx)]

/-- The parts of a description: the namespace if it is not empty, the name and the node; nothing but the node for a match of
the node type. -/
theorem matchDesc_parts {m : OutMatch} (h : m.Ok) : splitn3Colons (matchDesc m) =
    if m.ns = "annis".toList ∧ m.name = "node_type".toList then [m.node]
    else if m.ns = [] then [pctEncode nodeNameSet m.name, m.node]
    else [pctEncode nodeNameSet m.ns, pctEncode nodeNameSet m.name, m.node] := by
  by_cases ht : m.ns = "annis".toList ∧ m.name = "node_type".toList
  · rw [if_pos ht]
    have : ¬ (m.ns ≠ annisNs ∨ m.name ≠ nodeTypeName) := by
      rintro (h | h)
      · exact h ht.1
      · exact h ht.2
    unfold matchDesc
    rw [if_neg this]
    unfold splitn3Colons
    simp [h.2.2]
  · rw [if_neg ht]
    have : m.ns ≠ annisNs ∨ m.name ≠ nodeTypeName := by
      by_contra hc
      push Not at hc
      exact ht hc
    unfold matchDesc
    rw [if_pos this]
    by_cases hns : m.ns = []
    · simp only [hns, ne_eq, not_true_eq_false, if_false, List.nil_append, List.append_assoc, List.cons_append]
      unfold splitn3Colons
      rw [splitColons_append colon_not_mem_node]
      simp only [h.2.2]
      rfl
    · simp only [hns, ne_eq, not_false_eq_true, if_true, List.append_assoc, List.cons_append, List.nil_append]
      unfold splitn3Colons
      rw [splitColons_append colon_not_mem_node]
      simp only [splitColons_append colon_not_mem_node]
      rfl

/-- C39 with the same restriction: two different matches never have the same identifier, so the identifier determines the
matched nodes and also the matched annotations. -/
theorem C39_match_ids_injective_partial (ms ms' : List OutMatch) (h : ∀ m ∈ ms, m.Ok) (h' : ∀ m ∈ ms', m.Ok)
    (he : matchId ms = matchId ms') : ms = ms' := by
  have hw : ms.map matchDesc = ms'.map matchDesc := by rw [← words_matchId ms h, ← words_matchId ms' h', he]
  clear he
  induction ms generalizing ms' with
  | nil =>
    cases ms' with
    | nil => rfl
    | cons m r => simp at hw
  | cons m r ih =>
    cases ms' with
    | nil => simp at hw
    | cons m' r' =>
      rw [List.map_cons, List.map_cons, List.cons.injEq] at hw
      rw [ih r' (fun x hx => h x (List.mem_cons_of_mem _ hx)) (fun x hx => h' x (List.mem_cons_of_mem _ hx)) hw.2]
      have p := matchDesc_parts (h m (by simp))
      rw [hw.1, matchDesc_parts (h' m' (by simp))] at p
      have inj : ∀ {a b : Str}, pctEncode nodeNameSet a = pctEncode nodeNameSet b → a = b :=
        fun h => pctEncode_injective (by decide) h
      obtain ⟨ns, name, node⟩ := m
      obtain ⟨ns', name', node'⟩ := m'
      simp only at p
      congr 1
      by_cases a : ns = "annis".toList ∧ name = "node_type".toList <;>
        by_cases b : ns' = "annis".toList ∧ name' = "node_type".toList
      · rw [if_pos a, if_pos b] at p
        simp only [List.cons.injEq, and_true] at p
        rw [a.1, a.2, b.1, b.2, p]
      · rw [if_pos a, if_neg b] at p
        by_cases c : ns' = [] <;> simp [c] at p
      · rw [if_neg a, if_pos b] at p
        by_cases c : ns = [] <;> simp [c] at p
      · rw [if_neg a, if_neg b] at p
        by_cases c : ns = [] <;> by_cases d : ns' = [] <;> simp only [c, d, if_true, if_false, List.cons.injEq, and_true] at p
        · rw [c, d, inj p.1, p.2]
        · simp at p
        · simp at p
        · rw [inj p.1, inj p.2.1, p.2.2]

/-- C39 fails: a node name with a blank is split, a node name with `::` is cut. -/
theorem C39_fails :
    nodeNamesFromMatch (matchId [⟨"annis".toList, "node_type".toList, "a b".toList⟩]) = ["a".toList, "b".toList] ∧
    nodeNamesFromMatch (matchId [⟨[], "pos".toList, "a::b".toList⟩]) = ["b".toList] := by decide

theorem C39_nonvacuous :
    matchId [⟨"t t".toList, "pos".toList, "c/d#t1".toList⟩, ⟨"annis".toList, "node_type".toList, "c/d#t2".toList⟩] =
      "t%20t::pos::c/d#t1 c/d#t2".toList ∧
    (⟨"t t".toList, "pos".toList, "c/d#t1".toList⟩ : OutMatch).Ok := by
  refine ⟨by decide, by decide, by decide, by decide⟩

/-! ### Positions -/

/-- The entry of the line which contains the position: number of line breaks before it, and the offset after the last of them. -/
def lineStart (input : List UInt8) (pos : Nat) : Nat × Nat :=
  let before := input.take pos
  (pos - (before.reverse.takeWhile (· ≠ 10)).length, before.count 10)

theorem splitLines_ne_nil (s : List UInt8) : splitLines s ≠ [] := by
  cases s with
  | nil => simp [splitLines]
  | cons x r =>
    rw [splitLines]
    split
    · simp
    · split <;> simp

theorem offsets_ge (o l : Nat) (ls : List (List UInt8)) : ∀ p ∈ lineOffsetsFrom o l ls, o ≤ p.1 := by
  induction ls generalizing o l with
  | nil => simp [lineOffsetsFrom]
  | cons line r ih =>
    intro p hp
    rw [lineOffsetsFrom] at hp
    rcases List.mem_cons.1 hp with rfl | hp
    · exact Nat.le_refl _
    · have := ih _ _ p hp
      omega

/-- The last entry not after a position, relative to the rest of the input. -/
theorem last_offset (input : List UInt8) : ∀ (o l k : Nat), k ≤ input.length →
    ((lineOffsetsFrom o l (splitLines input)).filter fun p => p.1 ≤ o + k).getLast? =
      some (o + (lineStart input k).1, l + (lineStart input k).2) := by
  induction input with
  | nil =>
    intro o l k hk
    have : k = 0 := by simpa using hk
    subst this
    simp [splitLines, lineOffsetsFrom, lineStart]
  | cons x r ih =>
    intro o l k hk
    cases k with
    | zero =>
      -- only the first entry is not after the position
      have h0 : lineStart (x :: r) 0 = (0, 0) := by simp [lineStart]
      rw [h0]
      obtain ⟨line, ls, hls⟩ : ∃ line ls, splitLines (x :: r) = line :: ls := by
        cases h : splitLines (x :: r) with
        | nil => exact absurd h (splitLines_ne_nil _)
        | cons a b => exact ⟨a, b, rfl⟩
      rw [hls, lineOffsetsFrom, List.filter_cons]
      have : (lineOffsetsFrom (o + line.length + 1) (l + 1) ls).filter (fun p => decide (p.1 ≤ o + 0)) = [] := by
        rw [List.filter_eq_nil_iff]
        intro p hp
        have := offsets_ge _ _ _ p hp
        simp only [decide_eq_true_eq]
        omega
      rw [this]
      simp
    | succ k =>
      have hk' : k ≤ r.length := by simpa using hk
      by_cases hx : x = 10
      · subst hx
        have e : splitLines (10 :: r) = [] :: splitLines r := by rw [splitLines, if_pos rfl]
        rw [e, lineOffsetsFrom, List.filter_cons]
        have hi := ih (o + 1) (l + 1) k hk'
        have hf : (lineOffsetsFrom (o + ([] : List UInt8).length + 1) (l + 1) (splitLines r)).filter
            (fun p => decide (p.1 ≤ o + (k + 1))) =
            (lineOffsetsFrom (o + 1) (l + 1) (splitLines r)).filter fun p => decide (p.1 ≤ o + 1 + k) := by
          have : o + (k + 1) = o + 1 + k := by omega
          rw [this]
          rfl
        rw [hf]
        rw [if_pos (by simp), List.getLast?_cons, hi]
        simp only [Option.getD_some, Option.some.injEq, Prod.mk.injEq]
        have hb : lineStart (10 :: r) (k + 1) = ((lineStart r k).1 + 1, (lineStart r k).2 + 1) := by
          unfold lineStart
          simp only [List.take_succ_cons, List.reverse_cons, List.count_cons_self, Prod.mk.injEq, and_true]
          have hlen : ((r.take k).reverse.takeWhile fun x => decide (x ≠ 10)).length ≤ k := by
            refine le_trans (List.takeWhile_sublist _).length_le ?_
            simp
          have ht : ((r.take k).reverse ++ [10]).takeWhile (fun x => decide (x ≠ 10)) =
              (r.take k).reverse.takeWhile fun x => decide (x ≠ 10) := by
            rw [List.takeWhile_append]
            split
            · rename_i hc
              have := List.IsPrefix.eq_of_length (List.takeWhile_prefix (l := (r.take k).reverse) fun x => decide (x ≠ 10)) hc
              rw [this]
              simp
            · rfl
          rw [ht]
          omega
        rw [hb]
        constructor <;> simp <;> omega
      · obtain ⟨line, ls, hls⟩ : ∃ line ls, splitLines r = line :: ls := by
          cases h : splitLines r with
          | nil => exact absurd h (splitLines_ne_nil _)
          | cons a b => exact ⟨a, b, rfl⟩
        have e : splitLines (x :: r) = (x :: line) :: ls := by rw [splitLines, if_neg hx, hls]
        have hi := ih (o + 1) l k hk'
        rw [hls, lineOffsetsFrom, List.filter_cons] at hi
        rw [e, lineOffsetsFrom, List.filter_cons]
        have hf : (lineOffsetsFrom (o + (x :: line).length + 1) (l + 1) ls).filter
            (fun p => decide (p.1 ≤ o + (k + 1))) =
            (lineOffsetsFrom (o + 1 + line.length + 1) (l + 1) ls).filter fun p => decide (p.1 ≤ o + 1 + k) := by
          have h1 : o + (k + 1) = o + 1 + k := by omega
          have h2 : o + (x :: line).length + 1 = o + 1 + line.length + 1 := by simp; omega
          rw [h1, h2]
        rw [hf, if_pos (by simp)]
        rw [if_pos (by simp)] at hi
        -- the first entry differs by the consumed byte
        have htw : ((r.take k).reverse ++ [x]).takeWhile (fun x => decide (x ≠ 10)) =
            if ((r.take k).reverse.takeWhile fun x => decide (x ≠ 10)).length = (r.take k).reverse.length
            then (r.take k).reverse ++ [x] else (r.take k).reverse.takeWhile fun x => decide (x ≠ 10) := by
          rw [List.takeWhile_append]
          split
          · simp [hx]
          · rfl
        have hcnt : (x :: r.take k).count 10 = (r.take k).count 10 := by
          rw [List.count_cons_of_ne hx]
        have hlen : (r.take k).reverse.length = k := by simp [hk']
        by_cases hall : ((r.take k).reverse.takeWhile fun x => decide (x ≠ 10)).length = (r.take k).reverse.length
        · -- no line break before the position
          have hst : lineStart r k = (0, (r.take k).count 10) := by
            unfold lineStart
            simp only [hall, hlen, Nat.sub_self]
          have hst2 : lineStart (x :: r) (k + 1) = (0, (r.take k).count 10) := by
            unfold lineStart
            simp only [List.take_succ_cons, List.reverse_cons, htw, if_pos hall, hcnt]
            simp [hk']
          have h0 : (r.take k).count 10 = 0 := by
            rw [List.count_eq_zero]
            intro hm
            have hp := List.IsPrefix.eq_of_length (List.takeWhile_prefix (l := (r.take k).reverse) fun x => decide (x ≠ 10)) hall
            have := List.mem_takeWhile_imp (p := fun x => decide (x ≠ 10)) (l := (r.take k).reverse)
              (x := 10) (by rw [hp]; exact List.mem_reverse.2 hm)
            simp at this
          rw [hst] at hi
          rw [hst2]
          have hnil : (lineOffsetsFrom (o + 1 + line.length + 1) (l + 1) ls).filter (fun p => decide (p.1 ≤ o + 1 + k)) = [] := by
            cases hq : (lineOffsetsFrom (o + 1 + line.length + 1) (l + 1) ls).filter fun p => decide (p.1 ≤ o + 1 + k) with
            | nil => rfl
            | cons a b =>
              rw [hq, List.getLast?_cons] at hi
              have hm : (b.getLast?.getD a) ∈ a :: b := by
                cases hb : b.getLast? with
                | none => simp
                | some y => exact List.mem_cons_of_mem _ (List.mem_of_getLast? hb)
              have hm2 : ((a :: b).getLast?.getD (o + 1, l)) ∈ a :: b := by
                rw [List.getLast?_cons]
                exact hm
              simp only [Option.some.injEq] at hi
              rw [hi, ← hq] at hm2
              have := offsets_ge _ _ _ _ ((List.mem_filter.1 hm2).1)
              simp only at this
              omega
          rw [hnil, h0]
          rfl
        · have hst : (lineStart (x :: r) (k + 1)).1 = (lineStart r k).1 + 1 ∧
              (lineStart (x :: r) (k + 1)).2 = (lineStart r k).2 := by
            unfold lineStart
            simp only [List.take_succ_cons, List.reverse_cons, htw, if_neg hall, hcnt, and_true]
            have : ((r.take k).reverse.takeWhile fun x => decide (x ≠ 10)).length ≤ k := by
              refine le_trans (List.takeWhile_sublist _).length_le ?_
              simp
            omega
          rw [hst.1, hst.2]
          -- the last entry is not the first one
          cases hq : (lineOffsetsFrom (o + 1 + line.length + 1) (l + 1) ls).filter fun p => decide (p.1 ≤ o + 1 + k) with
          | nil =>
            exfalso
            rw [hq] at hi
            simp only [List.getLast?_singleton, Option.some.injEq, Prod.mk.injEq] at hi
            have h1 : (lineStart r k).1 = 0 := by omega
            unfold lineStart at h1
            simp only at h1
            have hle : ((r.take k).reverse.takeWhile fun x => decide (x ≠ 10)).length ≤ (r.take k).reverse.length :=
              (List.takeWhile_sublist _).length_le
            rw [hlen] at hle hall
            omega
          | cons a b =>
            rw [hq] at hi
            rw [List.getLast?_cons_cons] at hi ⊢
            rw [hi]
            simp only [Option.some.injEq, Prod.mk.injEq, and_true]
            omega

/-- C40: for every position in a query, the line is the number of line breaks before it and the column is its distance (in bytes,
from 1) to the start of that line. -/
theorem C40_positions (input : List UInt8) (pos : Nat) (h : pos ≤ input.length) :
    lineAndColumn pos (lineOffsets input) = ((input.take pos).count 10,
      ((input.take pos).reverse.takeWhile (· ≠ 10)).length + 1) := by
  have := last_offset input 0 0 pos h
  unfold lineAndColumn lineOffsets
  simp only [Nat.zero_add] at this
  rw [this]
  unfold lineStart
  simp only [Prod.mk.injEq, true_and]
  have hle : ((input.take pos).reverse.takeWhile fun x => decide (x ≠ 10)).length ≤ pos := by
    refine le_trans (List.takeWhile_sublist _).length_le ?_
    simp
  omega

/-- C40: different positions have different lines or columns. -/
theorem C40_injective (input : List UInt8) (p q : Nat) (hp : p ≤ input.length) (hq : q ≤ input.length)
    (h : lineAndColumn p (lineOffsets input) = lineAndColumn q (lineOffsets input)) : p = q := by
  have key : ∀ p q, p < q → q ≤ input.length →
      lineAndColumn p (lineOffsets input) ≠ lineAndColumn q (lineOffsets input) := by
    intro p q hlt hq he
    rw [C40_positions input p (by omega), C40_positions input q hq] at he
    obtain ⟨h1, h2⟩ := Prod.mk.inj he
    -- the text between the two positions has no line break
    have hsplit : input.take q = input.take p ++ (input.drop p).take (q - p) := by
      have : q = p + (q - p) := by omega
      conv_lhs => rw [this, List.take_add]
    have hz : ((input.drop p).take (q - p)).count 10 = 0 := by
      rw [hsplit, List.count_append] at h1
      omega
    have hnm : (10 : UInt8) ∉ (input.drop p).take (q - p) := List.count_eq_zero.1 hz
    have hlen : ((input.drop p).take (q - p)).length = q - p := by
      simp
      omega
    rw [hsplit, List.reverse_append, List.takeWhile_append] at h2
    have hall : ((input.drop p).take (q - p)).reverse.takeWhile (fun x => decide (x ≠ 10)) =
        ((input.drop p).take (q - p)).reverse := by
      rw [List.takeWhile_eq_self_iff]
      intro x hx
      simp only [decide_eq_true_eq]
      rintro rfl
      exact hnm (List.mem_reverse.1 hx)
    rw [hall] at h2
    simp only [if_true, List.length_append, List.length_reverse, hlen] at h2
    omega
  rcases Nat.lt_trichotomy p q with h' | h' | h'
  · exact absurd h (key p q h' hq)
  · exact h'
  · exact absurd h.symm (key q p h' hp)

/-- C40, restricted: the location of a parser error is computed without underflow for every token of at least one byte, and at
the end of a non-empty query.  Missing: the empty query (`C40_empty_fails`). -/
theorem C40_extract_location_partial (input : List UInt8) (e : ParseErr)
    (h : match e with
      | .token a b => a < b
      | .unrecognizedEof => input ≠ []
      | _ => True) : (extractLocation e input).isSome = true := by
  cases e with
  | invalidToken l => rfl
  | token a b =>
    simp only at h
    simp only [extractLocation]
    rw [if_neg (by omega)]
    rfl
  | unrecognizedEof =>
    simp only at h
    simp only [extractLocation]
    rw [if_neg (by simpa using h)]
    rfl
  | user => rfl

/-- C40 fails for the empty query: `input.len() - 1` underflows. -/
theorem C40_empty_fails : extractLocation .unrecognizedEof [] = none := rfl

theorem C40_nonvacuous : lineAndColumn 5 (lineOffsets [97, 10, 98, 99, 10, 100]) = (2, 1) ∧
    lineAndColumn 4 (lineOffsets [97, 10, 98, 99, 10, 100]) = (1, 3) := by decide
