import Verif.Capi.Model
import Verif.Update.Props
import Verif.Text.Props
import Verif.Util.Utf8

/-!
# C99: what the C interface passes on
-/

namespace Capi

/-! ## Strings -/

/-- NUL. -/
abbrev nul : Char := Char.ofNat 0

/-- What remains of a text on the way to C. -/
def clean (s : Str) : Str := if nul ∈ s then [] else s

theorem zero_mem_utf8 {s : Str} : 0 ∈ utf8 s ↔ nul ∈ s := by
  constructor
  · intro h
    by_contra hn
    refine zero_not_mem_utf8Nat hn ?_
    unfold utf8Nat
    exact List.mem_map.2 ⟨0, h, rfl⟩
  · intro h
    unfold utf8
    exact List.mem_flatMap.2 ⟨nul, h, by decide⟩

theorem newCString_eq (s : Str) : newCString s = if nul ∈ s then none else some (utf8 s) := by
  unfold newCString
  simp only [zero_mem_utf8]

theorem cstring_eq (s : Str) : cstring s = if nul ∈ s then [] else utf8 s := by
  unfold cstring
  rw [newCString_eq]
  split <;> rfl

/-- A text without NUL in the memory of the client, with something behind it. -/
theorem cstr_utf8 (lossy : List UInt8 → Str) {s : Str} (h : nul ∉ s) (rest : List UInt8) : cstr lossy (some (utf8 s ++ 0 :: rest)) = s := by
  unfold cstr
  have : (utf8 s ++ 0 :: rest).takeWhile (· ≠ 0) = utf8 s := by
    rw [List.takeWhile_append_of_pos]
    · simp
    · intro x hx
      simp only [ne_eq, decide_not, Bool.not_eq_eq_eq_not, Bool.not_true, decide_eq_false_iff_not]
      rintro rfl
      exact h (zero_mem_utf8.1 hx)
  simp only
  rw [this, decodeLossy_utf8]

/-- **C99**: a text that the interface hands out is read by the client, and by functions of the interface that the client gives it to, as the
same text if it has no NUL, otherwise as the empty text. -/
theorem C99_to_c (lossy : List UInt8 → Str) (s : Str) : cstr lossy (asPtr (cstring s)) = clean s := by
  unfold clean asPtr
  rw [cstring_eq]
  split
  · exact cstr_utf8 lossy (s := []) (by simp) []
  · exact cstr_utf8 lossy (by assumption) []

/-- **C99**: exactly the texts without NUL survive. -/
theorem C99_to_c_iff (lossy : List UInt8 → Str) (s : Str) : cstr lossy (asPtr (cstring s)) = s ↔ nul ∉ s := by
  rw [C99_to_c]
  unfold clean
  split
  · rename_i h
    refine ⟨fun e => ?_, fun hn => absurd h hn⟩
    rw [← e] at h
    exact absurd h (by simp)
  · simp_all

/-- `to_string_lossy` adds no NUL. -/
def Lossy (lossy : List UInt8 → Str) : Prop := ∀ b, 0 ∉ b → nul ∉ lossy b

theorem cstr_no_nul {lossy : List UInt8 → Str} (hl : Lossy lossy) (p : CPtr) : nul ∉ cstr lossy p := by
  cases p with
  | none => simp [cstr]
  | some p =>
    unfold cstr
    simp only
    have hz : 0 ∉ p.takeWhile (· ≠ 0) := by
      intro h
      simpa using List.mem_takeWhile_imp h
    generalize p.takeWhile (· ≠ 0) = b at hz ⊢
    unfold decodeLossy
    cases hd : b.toByteArray.utf8Decode? with
    | none => exact hl b hz
    | some a =>
      simp only
      have h1 := ByteArray.utf8Encode_get_utf8Decode? (b := b.toByteArray) (h := by rw [hd]; rfl)
      simp only [hd, Option.get_some] at h1
      have h2 : utf8 a.toList = b := by
        have : (utf8 a.toList).toByteArray = b.toByteArray := h1
        have h3 := congrArg (fun x : ByteArray => x.data.toList) this
        simpa using h3
      rw [← h2] at hz
      exact fun hc => hz (zero_mem_utf8.2 hc)

/-! ## Vectors of strings -/

section
variable {σ G : Type} (lossy : List UInt8 → Str)

/-- The client reads all strings of a vector. -/
def readVec (p : Option Nat) (s : St σ G) : Except Stop (List Str) := do
  let n ← vecSize p s
  (List.range n).mapM fun i => do return cstr lossy (← vecGet p i s)

/-- The client makes a vector from strings. -/
def pushAll (p : Option Nat) : List CPtr → St σ G → Except Stop (St σ G)
  | [], s => .ok s
  | v :: r, s => do pushAll p r (← vecPush lossy p v s)

theorem mapM_ok {α β : Type} (f : Nat → Except Stop β) (g : α → β) (l : List α)
    (h : ∀ i x, l[i]? = some x → f i = .ok (g x)) : (List.range l.length).mapM f = .ok (l.map g) := by
  have h1 : (List.range l.length).map f = (l.map g).map Except.ok := by
    refine List.ext_getElem? fun i => ?_
    simp only [List.getElem?_map]
    by_cases hi : i < l.length
    · rw [List.getElem?_range hi, Option.map_some, h i l[i] (List.getElem?_eq_getElem hi), List.getElem?_eq_getElem hi]
      rfl
    · rw [List.getElem?_eq_none (by simpa using hi), List.getElem?_eq_none (by simpa using hi)]
      rfl
  have h2 : ∀ (k : List Nat) (r : List β), k.map f = r.map Except.ok → k.mapM f = .ok r := by
    intro k
    induction k with
    | nil => intro r hr; cases r with
      | nil => rfl
      | cons => simp at hr
    | cons x k ih =>
      intro r hr
      cases r with
      | nil => simp at hr
      | cons y r =>
        simp only [List.map_cons, List.cons.injEq] at hr
        rw [List.mapM_cons, hr.1]
        simp only [bind, Except.bind]
        rw [ih r hr.2]
        rfl
  exact h2 _ _ h1

theorem readVec_eq {p : Nat} {s : St σ G} {v : List CString} (h : s.heap[p]? = some (some (.vecStr v))) :
    readVec lossy (some p) s = .ok (v.map fun c => cstr lossy (asPtr c)) := by
  unfold readVec vecSize vecGet cast
  simp only [h, bind, Except.bind]
  exact mapM_ok _ _ v fun i x hx => by rw [hx]; rfl

/-- A string in a vector. -/
theorem cstr_of_c {s : Str} (h : nul ∉ s) : cstr lossy (asPtr (utf8 s)) = s := cstr_utf8 lossy h []

/-- **C99**: a vector that the client makes has all strings, and the functions of the library see them as the client gave them: none is left out. -/
theorem C99_vector (hl : Lossy lossy) (ps : List CPtr) (s : St σ G) :
    ∃ s' p, (vecNew s).1 = .ptr p ∧ pushAll lossy (some p) ps (vecNew s).2 = .ok s' ∧
      vecSize (some p) s' = .ok ps.length ∧ readVec lossy (some p) s' = .ok (ps.map (cstr lossy)) ∧
      stringsAt lossy (some p) s' = .ok (ps.map (cstr lossy)) ∧
      (∀ i, ps.length ≤ i → vecGet (some p) i s' = .ok none) ∧
      (∀ q, q < s.heap.length → s'.heap[q]? = s.heap[q]?) ∧ s'.vars = s.vars := by
  refine ⟨?_, s.heap.length, rfl, ?_⟩
  · exact { s with heap := s.heap ++ [some (.vecStr (ps.map fun p => utf8 (cstr lossy p)))] }
  have key : ∀ (ps : List CPtr) (acc : List CString), pushAll lossy (some s.heap.length) ps { s with heap := s.heap ++ [some (.vecStr acc)] } =
      .ok { s with heap := s.heap ++ [some (.vecStr (acc ++ ps.map fun p => utf8 (cstr lossy p)))] } := by
    intro ps
    induction ps with
    | nil => intro acc; simp [pushAll]
    | cons p ps ih =>
      intro acc
      have hn : newCString (cstr lossy p) = some (utf8 (cstr lossy p)) := by
        rw [newCString_eq, if_neg (cstr_no_nul hl p)]
      simp only [pushAll, vecPush, cast, List.getElem?_append_right (Nat.le_refl _), Nat.sub_self, List.getElem?_cons_zero, hn, bind,
        Except.bind, store]
      rw [List.set_append_right _ _ (Nat.le_refl _), Nat.sub_self, List.set_cons_zero, ih]
      simp
  have hget : (s.heap ++ [some (.vecStr (ps.map fun p => utf8 (cstr lossy p)))] : List (Option (Obj σ G)))[s.heap.length]? =
      some (some (.vecStr (ps.map fun p => utf8 (cstr lossy p)))) := by
    rw [List.getElem?_append_right (Nat.le_refl _)]; simp
  refine ⟨?_, ?_, ?_, ?_, ?_, ?_, rfl⟩
  · have := key ps []
    simpa [vecNew, give, alloc] using this
  · unfold vecSize cast
    simp only [hget, List.length_map]
  · rw [readVec_eq lossy hget, List.map_map]
    congr 1
    refine List.map_congr_left fun p _ => ?_
    exact cstr_of_c lossy (cstr_no_nul hl p)
  · unfold stringsAt cast
    simp only [hget, List.map_map]
    congr 1
    refine List.map_congr_left fun p _ => ?_
    exact decodeLossy_utf8 _ _
  · intro i hi
    unfold vecGet cast
    simp only [hget]
    rw [List.getElem?_eq_none (by simpa using hi)]
    rfl
  · intro q hq
    exact List.getElem?_append_left hq

/-! ## Results -/

/-- The client reads the table behind a pointer. -/
def readMatrix (p : Option Nat) (s : St σ G) : Except Stop (List (List Str)) := do
  let n ← matrixRows p s
  let m ← matrixCols p s
  (List.range n).mapM fun i => (List.range m).mapM fun j => do return cstr lossy (← matrixGet p i j s)

/-- The client reads the frequency table behind a pointer. -/
def readFreq (p : Option Nat) (s : St σ G) : Except Stop (List (List Str × Nat)) := do
  let n ← freqRows p s
  let m ← freqCols p s
  (List.range n).mapM fun i => do
    let c ← freqCount p i s
    return (← (List.range m).mapM fun j => do return cstr lossy (← freqGet p i j s), c)

theorem readMatrix_eq {p n : Nat} {s : St σ G} {m : List (List CString)} (h : s.heap[p]? = some (some (.matrix m)))
    (hn : ∀ r ∈ m, r.length = n) : readMatrix lossy (some p) s = .ok (m.map fun r => r.map fun c => cstr lossy (asPtr c)) := by
  unfold readMatrix matrixRows matrixCols matrixGet cast
  simp only [h, bind, Except.bind]
  refine mapM_ok _ _ m fun i r hr => ?_
  have hlen : (m.head?.map List.length).getD 0 = r.length := by
    cases m with
    | nil => simp at hr
    | cons x m => rw [List.head?_cons, Option.map_some, Option.getD_some, hn x (by simp), hn r (List.mem_of_getElem? hr)]
  rw [hlen]
  exact mapM_ok _ _ r fun j c hc => by rw [hr, Option.bind_some, hc]; rfl

theorem readFreq_eq {p n : Nat} {s : St σ G} {m : List (List CString × Nat)} (h : s.heap[p]? = some (some (.freqTable m)))
    (hn : ∀ r ∈ m, r.1.length = n) :
    readFreq lossy (some p) s = .ok (m.map fun r => (r.1.map fun c => cstr lossy (asPtr c), r.2)) := by
  unfold readFreq freqRows freqCols freqGet freqCount cast
  simp only [h, bind, Except.bind]
  refine mapM_ok _ _ m fun i r hr => ?_
  have hlen : (m.head?.map fun r => r.1.length).getD 0 = r.1.length := by
    cases m with
    | nil => simp at hr
    | cons x m => rw [List.head?_cons, Option.map_some, Option.getD_some, hn x (by simp), hn r (List.mem_of_getElem? hr)]
  rw [hlen, mapM_ok _ (fun c => cstr lossy (asPtr c)) r.1 fun j c hc => by rw [hr, Option.bind_some, hc]; rfl]
  rw [hr]
  rfl

theorem request_ok {α : Type} {ptr : Nat} {x : σ} {s : St σ G} (hx : s.heap[ptr]? = some (some (.storage x))) {f : σ → Except Err α × σ}
    {err : Option Nat} {ok : α → Ret σ G} {failed : Val} {a : α} (hf : (f x).1 = .ok a) :
    request (some ptr) f err ok failed s = .ok (give (ok a) (store ptr (.storage (f x).2) s)) := by
  unfold request cast
  simp only [hx, answer, mapCerr, hf]

theorem give_obj (o : Obj σ G) (ptr : Nat) (y : Obj σ G) (s : St σ G) :
    ∃ s', give (.obj o) (store ptr y s) = (.ptr s.heap.length, s') ∧ s'.heap[s.heap.length]? = some (some o) := by
  refine ⟨(alloc o (store ptr y s)).2, ?_, ?_⟩
  · unfold give alloc store
    simp
  · unfold alloc store
    simp only
    rw [List.getElem?_append_right (by simp)]
    simp

theorem stringsAt_ok {p : Nat} {s : St σ G} {v : List CString} (h : s.heap[p]? = some (some (.vecStr v))) :
    stringsAt lossy (some p) s = .ok (v.map (decodeLossy lossy)) := by
  unfold stringsAt cast
  simp only [h]

variable (L : Lib σ G)

/-- **C99**: the client of `annis_cs_find` gets all match identifiers of the library in the same order, those with NUL as empty texts; the library
got the query, the corpora, offset, limit and order of the client. -/
theorem C99_find {ptr ns : Nat} {x : σ} {v : List CString} {s : St σ G} (hx : s.heap[ptr]? = some (some (.storage x)))
    (hv : s.heap[ns]? = some (some (.vecStr v))) (q : CPtr) (l o : Nat) (li : Option Nat) (ord : Nat) (err : Option Nat) {ids : List Str}
    (hf : (L.find x ⟨cstr lossy q, v.map (decodeLossy lossy), l⟩ o li ord).1 = .ok ids) :
    ∃ p s', exec lossy L (.find (some ptr) (some ns) q l o li ord) err s = .ok (.ptr p, s') ∧
      readVec lossy (some p) s' = .ok (ids.map clean) := by
  simp only [exec, stringsAt_ok lossy hv, bind, Except.bind]
  rw [request_ok hx hf]
  obtain ⟨s', h1, h2⟩ := give_obj (.vecStr (ids.map cstring)) ptr (.storage (L.find x ⟨cstr lossy q, v.map (decodeLossy lossy), l⟩ o li ord).2) s
  refine ⟨_, s', by rw [h1], ?_⟩
  rw [readVec_eq lossy h2, List.map_map]
  congr 1
  exact List.map_congr_left fun i _ => C99_to_c lossy i

/-- **C99**: the client of `annis_cs_list` gets the names of the corpora, those with NUL are left out. -/
theorem C99_list {ptr : Nat} {x : σ} {s : St σ G} (hx : s.heap[ptr]? = some (some (.storage x))) (err : Option Nat) {names : List Str}
    (hf : (L.list x).1 = .ok names) :
    ∃ p s', exec lossy L (.list (some ptr)) err s = .ok (.ptr p, s') ∧ readVec lossy (some p) s' = .ok (names.filter fun n => nul ∉ n) := by
  simp only [exec]
  rw [request_ok hx hf]
  obtain ⟨s', h1, h2⟩ := give_obj (.vecStr (names.filterMap newCString)) ptr (.storage (L.list x).2) s
  refine ⟨_, s', by rw [h1], ?_⟩
  rw [readVec_eq lossy h2]
  congr 1
  clear hf h1 h2
  induction names with
  | nil => rfl
  | cons n r ih =>
    rw [List.filterMap_cons, newCString_eq]
    by_cases hn : nul ∈ n
    · simp [hn, ih]
    · simp [hn, ih, cstr_of_c lossy hn]

/-- The rows of a table of annotations for the client. -/
def shownAnnos (l : List Anno) : List (List Str) :=
  (l.filter fun a => nul ∉ a.ns ∧ nul ∉ a.name ∧ nul ∉ a.val).map fun a => [a.ns, a.name, a.val]

theorem annoRows_eq (l : List Anno) : (∀ r ∈ annoRows l, r.length = 3) ∧
    (annoRows l).map (fun r => r.map fun c => cstr lossy (asPtr c)) = shownAnnos l := by
  unfold annoRows shownAnnos
  induction l with
  | nil => simp
  | cons a r ih =>
    simp only [List.filterMap_cons, newCString_eq]
    by_cases h1 : nul ∈ a.ns
    · simp only [h1, if_true, not_true, false_and, decide_false, Bool.false_eq_true, not_false_eq_true, List.filter_cons_of_neg]
      simpa only [newCString_eq] using ih
    by_cases h2 : nul ∈ a.name
    · simp only [h1, h2, if_true, if_false, not_true, false_and, and_false, decide_false, Bool.false_eq_true, not_false_eq_true, List.filter_cons_of_neg]
      simpa only [newCString_eq] using ih
    by_cases h3 : nul ∈ a.val
    · simp only [h1, h2, h3, if_true, if_false, not_true, and_false, decide_false, Bool.false_eq_true, not_false_eq_true, List.filter_cons_of_neg]
      simpa only [newCString_eq] using ih
    · simp only [newCString_eq] at ih
      simp only [h1, h2, h3, if_false, not_false_eq_true, and_self, decide_true, List.filter_cons_of_pos, List.map_cons, List.map_nil,
        cstr_of_c lossy h1, cstr_of_c lossy h2, cstr_of_c lossy h3]
      refine ⟨?_, by rw [ih.2]⟩
      intro x hx
      rcases List.mem_cons.1 hx with rfl | hx
      · rfl
      · exact ih.1 x hx

/-- **C99**: the client of `annis_cs_list_node_annotations` gets a row with namespace, name and value for each annotation without NUL. -/
theorem C99_node_annotations {ptr : Nat} {x : σ} {s : St σ G} (hx : s.heap[ptr]? = some (some (.storage x))) (c : CPtr) (v o : Bool)
    (err : Option Nat) {l : List Anno} (hf : (L.nodeAnnos x (cstr lossy c) v o).1 = .ok l) :
    ∃ p s', exec lossy L (.listNodeAnnotations (some ptr) c v o) err s = .ok (.ptr p, s') ∧
      readMatrix lossy (some p) s' = .ok (shownAnnos l) := by
  simp only [exec]
  rw [request_ok hx hf]
  obtain ⟨s', h1, h2⟩ := give_obj (.matrix (annoRows l)) ptr (.storage (L.nodeAnnos x (cstr lossy c) v o).2) s
  exact ⟨_, s', by rw [h1], by rw [readMatrix_eq lossy h2 (annoRows_eq lossy l).1, (annoRows_eq lossy l).2]⟩

/-- **C99**: the client of `annis_cs_list_edge_annotations` gets the annotations of the component it named. -/
theorem C99_edge_annotations {ptr : Nat} {x : σ} {s : St σ G} (hx : s.heap[ptr]? = some (some (.storage x))) (c : CPtr) (comp : Comp)
    (hn : nul ∉ comp.name) (hly : nul ∉ comp.layer) (v o : Bool)
    (err : Option Nat) {l : List Anno} (hf : (L.edgeAnnos x (cstr lossy c) comp v o).1 = .ok l) :
    ∃ p s', exec lossy L (.listEdgeAnnotations (some ptr) c comp.ty (asPtr (utf8 comp.name)) (asPtr (utf8 comp.layer)) v o) err s = .ok (.ptr p, s') ∧
      readMatrix lossy (some p) s' = .ok (shownAnnos l) := by
  simp only [exec, cstr_of_c lossy hn, cstr_of_c lossy hly]
  have e : (⟨comp.ty, comp.layer, comp.name⟩ : Comp) = comp := rfl
  rw [e, request_ok hx hf]
  obtain ⟨s', h1, h2⟩ := give_obj (.matrix (annoRows l)) ptr (.storage (L.edgeAnnos x (cstr lossy c) comp v o).2) s
  exact ⟨_, s', by rw [h1], by rw [readMatrix_eq lossy h2 (annoRows_eq lossy l).1, (annoRows_eq lossy l).2]⟩

/-- **C99**: the client of `annis_cs_frequency` gets all rows with their counts, values with NUL as empty texts, if all rows have the same number of
columns, which C37 shows. -/
theorem C99_frequency {ptr ns n : Nat} {x : σ} {v : List CString} {s : St σ G} (hx : s.heap[ptr]? = some (some (.storage x)))
    (hv : s.heap[ns]? = some (some (.vecStr v))) (q : CPtr) (l : Nat) (d : CPtr) (err : Option Nat) {t : List (List Str × Nat)}
    (hf : (L.frequency x ⟨cstr lossy q, v.map (decodeLossy lossy), l⟩ (tableDef (cstr lossy d))).1 = .ok t) (hn : ∀ r ∈ t, r.1.length = n) :
    ∃ p s', exec lossy L (.frequency (some ptr) (some ns) q l d) err s = .ok (.ptr p, s') ∧
      readFreq lossy (some p) s' = .ok (t.map fun r => (r.1.map clean, r.2)) := by
  simp only [exec, stringsAt_ok lossy hv, bind, Except.bind]
  rw [request_ok hx hf]
  obtain ⟨s', h1, h2⟩ := give_obj (.freqTable (t.map fun r => (r.1.map cstring, r.2))) ptr
    (.storage (L.frequency x ⟨cstr lossy q, v.map (decodeLossy lossy), l⟩ (tableDef (cstr lossy d))).2) s
  refine ⟨_, s', by rw [h1], ?_⟩
  rw [readFreq_eq lossy (n := n) h2, List.map_map]
  · congr 1
    refine List.map_congr_left fun r _ => ?_
    simp only [Function.comp_apply, List.map_map]
    congr 1
    exact List.map_congr_left fun i _ => C99_to_c lossy i
  · intro r hr
    obtain ⟨r', hr', rfl⟩ := List.mem_map.1 hr
    simp [hn r' hr']

end

/-! ## Definitions of frequency tables -/

/-- The text of a column: node, and qualified name. -/
def defText (d : FreqDef) : Str := d.nodeRef ++ ':' :: (match d.ns with | none => d.name | some ns => ns ++ ':' :: ':' :: d.name)

/-- The texts of the columns, separated by commas. -/
def defsText : List FreqDef → Str
  | [] => []
  | [d] => defText d
  | d :: r => defText d ++ ',' :: defsText r

/-- The text of the column can be read. -/
def FreqDef.Ok (d : FreqDef) : Prop :=
  ',' ∉ defText d ∧ ':' ∉ d.nodeRef ∧ match d.ns with | none => splitColons d.name = none | some ns => ':' ∉ ns

theorem parseDef_text {d : FreqDef} (h : d.Ok) : parseDef (defText d) = some d := by
  obtain ⟨ns, name, ref⟩ := d
  obtain ⟨_, h2, h3⟩ := h
  unfold parseDef defText
  rw [splitOnce_append h2]
  unfold splitQName
  cases ns with
  | none => simp only at h3 ⊢; rw [h3]
  | some ns => simp only at h3 ⊢; rw [splitColons_append h3]

/-- **C99**: the columns of a frequency table that the client describes are the columns that the library gets, if no text has a comma and nodes and
namespaces have no colon. -/
theorem C99_definition_partial : ∀ ds : List FreqDef, (∀ d ∈ ds, d.Ok) → tableDef (defsText ds) = ds
  | [], _ => by decide
  | [d], h => by
    unfold tableDef defsText
    rw [splitAll_single (h d (by simp)).1]
    simp [parseDef_text (h d (by simp))]
  | d :: e :: r, h => by
    have ih := C99_definition_partial (e :: r) fun x hx => h x (by simp [hx])
    unfold tableDef at ih ⊢
    rw [defsText, splitAll_append_comma (h d (by simp)).1, List.filterMap_cons, parseDef_text (h d (by simp)), ih]
    · simp
where
  splitAll_append_comma {c : Char} {a : Str} (h : c ∉ a) (b : Str) : splitAll c (a ++ c :: b) = a :: splitAll c b := by
    induction a with
    | nil => simp [splitAll]
    | cons x r ih =>
      simp only [List.mem_cons, not_or] at h
      rw [List.cons_append, splitAll, if_neg (Ne.symm h.1), ih h.2]

/-- Columns that cannot be read are left out without an error: the table has fewer columns than the client asked for. -/
theorem C99_definition_fails : tableDef "1:pos,2,3:lemma".toList = [⟨none, "pos".toList, "1".toList⟩, ⟨none, "lemma".toList, "3".toList⟩] := by decide

/-! ## Updates -/

/-- A text of the client. -/
def send (s : Str) : CPtr := asPtr (utf8 s)

/-- The function of the interface for an event, with the arguments that its documentation names. -/
def callFor (p : Option Nat) : Event → Fn
  | .addNode n t => .addNode p (send n) (send t)
  | .deleteNode n => .deleteNode p (send n)
  | .addNodeLabel n ns a v => .addNodeLabel p (send n) (send ns) (send a) (send v)
  | .deleteNodeLabel n ns a => .deleteNodeLabel p (send n) (send ns) (send a)
  | .addEdge a b l t c => .addEdge p (send a) (send b) (send l) (send t) (send c)
  | .deleteEdge a b l t c => .deleteEdge p (send a) (send b) (send l) (send t) (send c)
  | .addEdgeLabel a b l t c ns n v => .addEdgeLabel p (send a) (send b) (send l) (send t) (send c) (send ns) (send n) (send v)
  | .deleteEdgeLabel a b l t c ns n => .deleteEdgeLabel p (send a) (send b) (send l) (send t) (send c) (send ns) (send n)

/-- The texts of an event. -/
def Event.texts : Event → List Str
  | .addNode n t => [n, t]
  | .deleteNode n => [n]
  | .addNodeLabel n ns a v => [n, ns, a, v]
  | .deleteNodeLabel n ns a => [n, ns, a]
  | .addEdge a b l t c => [a, b, l, t, c]
  | .deleteEdge a b l t c => [a, b, l, t, c]
  | .addEdgeLabel a b l t c ns n v => [a, b, l, t, c, ns, n, v]
  | .deleteEdgeLabel a b l t c ns n => [a, b, l, t, c, ns, n]

/-- Calls one after the other, each with its variable for errors. -/
def execAll {σ G : Type} (lossy : List UInt8 → Str) (L : Lib σ G) : List (Fn × Option Nat) → St σ G → Except Stop (List Val × St σ G)
  | [], s => .ok ([], s)
  | (f, e) :: r, s => do
    let (v, s) ← exec lossy L f e s
    let (vs, s) ← execAll lossy L r s
    return (v :: vs, s)

section
variable {σ G : Type} (lossy : List UInt8 → Str) (L : Lib σ G)

theorem exec_event {e : Event} (h : ∀ t ∈ e.texts, nul ∉ t) (p err : Option Nat) (s : St σ G) : exec lossy L (callFor p e) err s = pushEvent p e s := by
  have hs : ∀ t ∈ e.texts, cstr lossy (send t) = t := fun t ht => cstr_of_c lossy (h t ht)
  cases e <;> simp only [callFor, exec] <;> simp only [Event.texts, List.mem_cons, List.not_mem_nil, or_false, forall_eq_or_imp, forall_eq] at hs <;>
    simp only [hs]

/-- **C99**: an update that the client builds call by call has exactly the events of the calls, in their order and with the texts of the client in
the fields of the same name. No call fails, and no other object and no variable is changed. -/
theorem C99_update (es : List Event) (h : ∀ e ∈ es, ∀ t ∈ e.texts, nul ∉ t) (err : Event → Option Nat) (s : St σ G) :
    ∃ p s' u vs, (updateNew s).1 = .ptr p ∧ execAll lossy L (es.map fun e => (callFor (some p) e, err e)) (updateNew s).2 = .ok (vs, s') ∧
      s'.heap[p]? = some (some (.update u)) ∧ u.iter.2.map Prod.snd = es ∧ u.len = es.length ∧
      (∀ q, q < s.heap.length → s'.heap[q]? = s.heap[q]?) ∧ s'.vars = s.vars := by
  obtain ⟨u, h1, h2, _, h4, _⟩ := GraphUpdate.C21_update_log (es.map GraphUpdate.Op.add)
  have hadd : GraphUpdate.added (es.map GraphUpdate.Op.add) = es := by
    clear h1 h2 h4 h
    induction es with
    | nil => rfl
    | cons e r ih => simpa [GraphUpdate.added] using ih
  rw [hadd] at h2 h4
  refine ⟨s.heap.length, { s with heap := s.heap ++ [some (.update u)] }, u, es.map fun _ => .unit, rfl, ?_, ?_, h2, h4, ?_, rfl⟩
  · have key : ∀ (es : List Event) (w w' : GraphUpdate Event), (∀ e ∈ es, ∀ t ∈ e.texts, nul ∉ t) →
        (es.map GraphUpdate.Op.add).foldlM (fun u o => GraphUpdate.step u o) w = some w' →
        execAll lossy L (es.map fun e => (callFor (some s.heap.length) e, err e)) { s with heap := s.heap ++ [some (.update w)] } =
          .ok (es.map fun _ => .unit, { s with heap := s.heap ++ [some (.update w')] }) := by
      intro es
      induction es with
      | nil =>
        intro w w' _ hw
        simp only [List.map_nil, List.foldlM_nil, Option.pure_def, Option.some.injEq] at hw
        subst hw; rfl
      | cons e r ih =>
        intro w w' he hw
        simp only [List.map_cons, List.foldlM_cons, Option.bind_eq_bind, Option.bind_eq_some_iff] at hw
        obtain ⟨w1, hw1, hw2⟩ := hw
        have hst : w.addEvent e = some w1 := hw1
        have hx : exec lossy L (callFor (some s.heap.length) e) (err e) { s with heap := s.heap ++ [some (.update w)] } =
            .ok (.unit, { s with heap := s.heap ++ [some (.update w1)] }) := by
          rw [exec_event lossy L (he e (by simp))]
          simp only [pushEvent, cast, List.getElem?_append_right (Nat.le_refl _), Nat.sub_self, List.getElem?_cons_zero, hst, store]
          rw [List.set_append_right _ _ (Nat.le_refl _), Nat.sub_self, List.set_cons_zero]
        simp only [List.map_cons, execAll, hx, bind, Except.bind, ih w1 w' (fun x hx => he x (by simp [hx])) hw2]
        rfl
    exact key es _ _ h h1
  · rw [List.getElem?_append_right (Nat.le_refl _)]; simp
  · intro q hq
    exact List.getElem?_append_left hq

end
end Capi
