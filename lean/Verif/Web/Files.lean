import Verif.Web.Props

/-!
# Files of a corpus (C72), and what users can find out (C71)
-/

set_option linter.unusedSimpArgs false

namespace Web

variable {C D Q R : Type}

/-! ## Bytes and characters -/

theorem mem_utf8Char {b : UInt8} {c : Char} (hb : b.toNat < 128) (h : b ∈ String.utf8EncodeChar c) : c = Char.ofNat b.toNat := by
  unfold String.utf8EncodeChar at h
  dsimp only at h
  have key : ∀ n : Nat, n < 256 → 128 ≤ n → b ≠ UInt8.ofNat n := by
    intro n hn hn2 he
    rw [he, UInt8.toNat_ofNat'] at hb
    omega
  split at h
  · rename_i h1
    simp only [List.mem_singleton] at h
    have h2 : b.toNat = c.val.toNat := by
      rw [h, UInt8.toNat_ofNat']
      omega
    rw [h2]
    exact (Char.ofNat_toNat c).symm
  · exfalso
    split at h
    · simp only [List.mem_cons, List.not_mem_nil, or_false] at h
      rcases h with h | h <;> exact key _ (by omega) (by omega) h
    · split at h
      · simp only [List.mem_cons, List.not_mem_nil, or_false] at h
        rcases h with h | h | h <;> exact key _ (by omega) (by omega) h
      · simp only [List.mem_cons, List.not_mem_nil, or_false] at h
        rcases h with h | h | h | h <;> exact key _ (by omega) (by omega) h

theorem mem_utf8_ascii {b : UInt8} {s : Str} (hb : b.toNat < 128) (h : b ∈ utf8 s) : Char.ofNat b.toNat ∈ s := by
  unfold utf8 at h
  obtain ⟨c, hc, hm⟩ := List.mem_flatMap.1 h
  rwa [← mem_utf8Char hb hm]

theorem pctDecode_id : ∀ l : List UInt8, 37 ∉ l → pctDecode l = l
  | [], _ => rfl
  | b :: r, h => by
    rw [pctDecode_raw fun he => h (by simp [he]), pctDecode_id r fun hm => h (by simp [hm])]

theorem pctDecodeStr_id (lossy : List UInt8 → Str) {s : Str} (h : '%' ∉ s) : pctDecodeStr lossy s = s := by
  unfold pctDecodeStr
  rw [pctDecode_id, decodeLossy_utf8]
  exact fun hm => h (mem_utf8_ascii (b := 37) (by decide) hm)

theorem enc_cross {set set' : AsciiSet} (h : set 37 = true) (h' : set' 37 = true) {a b : Str} (he : pctEncode set a = pctEncode set' b) :
    a = b := by
  rw [← pctDecodeStr_pctEncode (fun _ => []) set h a, he, pctDecodeStr_pctEncode _ set' h']

theorem web_plain {name : Str} (h : DirName name) : PlainName (pctEncode webSet name) := by
  have hp : webSet 37 = true := by decide
  refine ⟨?_, not_mem_pctEncode (n := 47) (by decide) (by decide) (by decide) (by decide), ?_, ?_⟩
  · intro he; exact h.1 (pctEncode_injective hp (b := []) he)
  · intro he; exact h.2.1 (pctEncode_injective hp (he.trans (by decide)))
  · intro he; exact h.2.2 (pctEncode_injective hp (he.trans (by decide)))

theorem filesDir_eq (base : List Str) {n : Str} (h : DirName n) : filesDir base n = base ++ [pctEncode webSet n, "files".toList] := by
  unfold filesDir
  rw [pushPath_plain base (web_plain h), pushPath_plain _ (by decide : PlainName "files".toList)]
  simp

theorem corpusDir_eq (base : List Str) {n : Str} (h : DirName n) : corpusDir base n = base ++ [pctEncode pathSet n] :=
  pushPath_plain base (corpus_plain h.1 h.2.1 h.2.2)

/-! ## Relative paths -/

theorem hasDots_iff (s : Str) : hasDots s = true ↔ ['.', '.'] <:+: s := by
  induction s with
  | nil => simp [hasDots]
  | cons a r ih =>
    rw [hasDots, Bool.or_eq_true, ih, List.infix_cons_iff]
    apply or_congr _ Iff.rfl
    cases r with
    | nil => simp
    | cons b t =>
      simp only [List.head?_cons, Option.some.injEq, Bool.and_eq_true, decide_eq_true_eq, List.cons_prefix_cons, List.nil_prefix, and_true]
      exact ⟨fun h => ⟨h.1.symm, h.2.symm⟩, fun h => ⟨h.1.symm, h.2.symm⟩⟩

theorem mem_splitAll_infix {c : Char} : ∀ {s x : Str}, x ∈ splitAll c s → x <:+: s
  | [], x, h => by
    simp only [splitAll, List.mem_singleton] at h
    rw [h]
    exact List.infix_rfl
  | a :: r, x, h => by
    have key : ∀ (p : Str) (ps : List Str), splitAll c r = p :: ps → p <+: r := by
      clear h x
      induction r with
      | nil => intro p ps h; simp only [splitAll, List.cons.injEq] at h; rw [← h.1]; exact List.prefix_rfl
      | cons b t ih =>
        intro p ps h
        rw [splitAll] at h
        split at h
        · cases h; exact List.nil_prefix
        · cases hs : splitAll c t with
          | nil => rw [hs] at h; cases h; simp
          | cons q qs =>
            rw [hs] at h
            cases h
            exact List.cons_prefix_cons.2 ⟨rfl, ih _ _ hs⟩
    rw [splitAll] at h
    split at h
    · rcases List.mem_cons.1 h with rfl | h
      · exact List.nil_infix
      · exact (mem_splitAll_infix h).trans (List.suffix_cons a r).isInfix
    · cases hs : splitAll c r with
      | nil =>
        rw [hs] at h
        simp only [List.mem_singleton] at h
        rw [h]
        exact ⟨[], r, rfl⟩
      | cons q qs =>
        rw [hs] at h
        rcases List.mem_cons.1 h with rfl | h
        · exact (List.cons_prefix_cons.2 ⟨rfl, key _ _ hs⟩).isInfix
        · exact (mem_splitAll_infix (by rw [hs]; exact List.mem_cons_of_mem _ h)).trans (List.suffix_cons a r).isInfix

/-- The names in a relative path. -/
def parts (rel : Str) : List Str := (splitAll '/' rel).filter fun s => s ≠ [] ∧ s ≠ ['.']

theorem foldl_pushSeg (l : List Str) : ∀ p : List Str, ['.', '.'] ∉ l →
    l.foldl pushSeg p = p ++ l.filter fun s => s ≠ [] ∧ s ≠ ['.'] := by
  induction l with
  | nil => simp
  | cons a r ih =>
    intro p h
    simp only [List.mem_cons, not_or] at h
    rw [List.foldl_cons, ih _ h.2]
    unfold pushSeg
    by_cases ha : a = [] ∨ a = ['.']
    · rw [if_pos ha, List.filter_cons_of_neg]
      simp only [decide_eq_true_eq]
      tauto
    · rw [if_neg ha, if_neg (Ne.symm h.1), List.filter_cons_of_pos]
      · simp
      · simp only [decide_eq_true_eq]
        tauto

theorem pushPath_rel (p : List Str) {rel : Str} (h : ¬ ['.', '.'] <:+: rel) (h0 : rel.head? ≠ some '/') :
    pushPath p rel = p ++ parts rel := by
  unfold pushPath
  rw [if_neg h0, foldl_pushSeg]
  · rfl
  · exact fun hm => h (mem_splitAll_infix hm)

theorem checkPath_ok {p q : Str} (h : checkPath p = .ok q) : q = trim p ∧ ¬ ['.', '.'] <:+: q ∧ q.head? ≠ some '/' := by
  unfold checkPath at h
  dsimp only at h
  split at h
  · cases h
  · rename_i h1
    split at h
    · cases h
    · rename_i h2
      cases h
      exact ⟨rfl, fun hi => h1 ((hasDots_iff _).2 hi), h2⟩

theorem checkPath_of {p : Str} (h1 : ¬ ['.', '.'] <:+: trim p) (h2 : (trim p).head? ≠ some '/') : checkPath p = .ok (trim p) := by
  unfold checkPath
  dsimp only
  rw [if_neg (fun h => h1 ((hasDots_iff _).1 h)), if_neg h2]

/-! ## C72 -/

/-- What a path has to do with a corpus: it is in the directory `files` of a directory with the encoded name of the corpus. -/
def InFiles (lossy : List UInt8 → Str) (base : List Str) (n : Str) (rest p : List Str) : Prop :=
  ∃ dir, PlainName dir ∧ pctDecodeStr lossy dir = n ∧ p = base ++ [dir, "files".toList] ++ rest

theorem inFiles_filesDir (lossy : List UInt8 → Str) (base : List Str) {n : Str} (h : DirName n) (rest : List Str) :
    InFiles lossy base n rest (filesDir base n ++ rest) :=
  ⟨_, web_plain h, pctDecodeStr_pctEncode _ _ (by decide) _, by rw [filesDir_eq base h]⟩

theorem Fs.mem_of_file {fs : Fs D} {p : List Str} {d : D} (h : fs.file p = some d) : (p, d) ∈ fs.files := by
  unfold Fs.file at h
  obtain ⟨e, he, rfl⟩ := Option.map_eq_some_iff.1 h
  have h1 := List.mem_of_find?_eq_some he
  have h2 := List.find?_some he
  simp only [decide_eq_true_eq] at h2
  rw [← h2]
  exact h1

/-- C72, for corpora with an own directory: only files of the corpus are sent. Missing: the names `.` and `..` (`C72_escape_fails`). -/
theorem C72_content_partial (lossy : List UInt8 → Str) (base : List Str) (fs : Fs D) (n name : Str) (hn : DirName n) (d : D)
    (h : fileContent lossy base fs n name = .ok d) : ∃ rest p, (p, d) ∈ fs.files ∧ InFiles lossy base n rest p := by
  unfold fileContent at h
  split at h
  · cases h
  · rename_i q hq
    obtain ⟨-, h1, h2⟩ := checkPath_ok hq
    rw [pushPath_rel _ h1 h2] at h
    split at h
    · rename_i d' hd
      cases h
      exact ⟨parts q, _, Fs.mem_of_file hd, inFiles_filesDir lossy base hn _⟩
    · split at h <;> cases h

/-- C72: nothing of another corpus is in the directory of the files of a corpus. -/
theorem C72_disjoint (lossy : List UInt8 → Str) (base : List Str) (n m : Str) (hm : DirName m) (rest p : List Str)
    (h : InFiles lossy base n rest p) (hp : corpusDir base m <+: p) : m = n := by
  obtain ⟨dir, _, hd, rfl⟩ := h
  rw [corpusDir_eq base hm, List.append_assoc, List.prefix_append_right_inj] at hp
  simp only [List.cons_append, List.cons_prefix_cons] at hp
  rw [← hd, ← hp.1, pctDecodeStr_pctEncode _ _ (by decide)]

/-- A consistent file system. -/
structure Fs.Tree (fs : Fs D) : Prop where
  nodup : (fs.files.map Prod.fst).Nodup
  parents : ∀ e ∈ fs.files, ∀ q, q <+: e.1 → q ≠ e.1 → q ∈ fs.dirs
  distinct : ∀ e ∈ fs.files, e.1 ∉ fs.dirs
  names : ∀ e ∈ fs.files, ∀ s ∈ e.1, PlainName s

theorem relative_ok (base : List Str) (l : List (List Str)) (h : ∀ p ∈ l, base <+: p) :
    relative base l = .ok (l.map fun p => pathText (p.drop base.length)) := by
  induction l with
  | nil => rfl
  | cons p r ih =>
    rw [relative, if_pos (List.isPrefixOf_iff_prefix.2 (h p (by simp))), ih fun q hq => h q (by simp [hq])]
    rfl

theorem relative_mem {base : List Str} : ∀ {l : List (List Str)} {ts : List Str}, relative base l = .ok ts →
    ∀ t, t ∈ ts → ∃ p ∈ l, base <+: p ∧ t = pathText (p.drop base.length)
  | [], ts, h, t, ht => by cases h; cases ht
  | p :: r, ts, h, t, ht => by
    rw [relative] at h
    split at h
    · rename_i hp
      split at h
      · rename_i l hl
        cases h
        rcases List.mem_cons.1 ht with rfl | ht
        · exact ⟨p, by simp, List.isPrefixOf_iff_prefix.1 hp, rfl⟩
        · obtain ⟨q, h1, h2⟩ := relative_mem hl t ht
          exact ⟨q, List.mem_cons_of_mem _ h1, h2⟩
      · cases h
    · cases h

theorem Fs.mem_walk {fs : Fs D} {dir p : List Str} : p ∈ fs.walk dir ↔ dir <+: p ∧ ∃ d, (p, d) ∈ fs.files := by
  simp only [Fs.walk, List.mem_map, List.mem_filter, List.isPrefixOf_iff_prefix]
  constructor
  · rintro ⟨⟨q, d⟩, ⟨h1, h2⟩, rfl⟩
    exact ⟨h2, d, h1⟩
  · rintro ⟨h1, d, h2⟩
    exact ⟨(p, d), ⟨h2, h1⟩, rfl⟩

/-- C72, for corpora with an own directory: only files of the corpus are listed. -/
theorem C72_list_partial (lossy : List UInt8 → Str) (base : List Str) (fs : Fs D) (n : Str) (node : Option Str) (hn : DirName n)
    (l : List Str) (h : listFiles base fs n node = .ok l) (t : Str) (ht : t ∈ l) :
    ∃ rest p d, (p, d) ∈ fs.files ∧ InFiles lossy base n rest p ∧ t = pathText rest := by
  unfold listFiles at h
  split at h
  · split at h
    · cases h
    · rename_i search _
      split at h
      · obtain ⟨p, hp, ⟨rest, rfl⟩, rfl⟩ := relative_mem h t ht
        obtain ⟨_, d, hd⟩ := Fs.mem_walk.1 hp
        exact ⟨rest, _, d, hd, inFiles_filesDir lossy base hn _, by simp⟩
      · cases h; cases ht
  · cases h

/-! ### Paths as text -/

theorem splitAll_append {c : Char} {a : Str} (h : c ∉ a) (b : Str) : splitAll c (a ++ c :: b) = a :: splitAll c b := by
  induction a with
  | nil => simp [splitAll]
  | cons x r ih =>
    simp only [List.mem_cons, not_or] at h
    rw [List.cons_append, splitAll, if_neg (Ne.symm h.1), ih h.2]

theorem splitAll_pathText : ∀ p : List Str, p ≠ [] → (∀ s ∈ p, PlainName s) → splitAll '/' (pathText p) = p
  | [], h, _ => absurd rfl h
  | [a], _, h => by
    have := (h a (by simp)).2.1
    simp [pathText, splitAll_single this]
  | a :: b :: r, _, h => by
    have ha := (h a (by simp)).2.1
    have e : pathText (a :: b :: r) = a ++ '/' :: pathText (b :: r) := by
      simp [pathText, List.intercalate, List.intersperse]
    rw [e, splitAll_append ha, splitAll_pathText (b :: r) (by simp) fun s hs => h s (by simp [List.mem_cons.1 hs])]

theorem parts_pathText {p : List Str} (h : ∀ s ∈ p, PlainName s) : parts (pathText p) = p := by
  cases p with
  | nil => simp [pathText, parts, splitAll, List.intercalate]
  | cons a r =>
    unfold parts
    rw [splitAll_pathText _ (by simp) h, List.filter_eq_self]
    intro s hs
    have := h s hs
    simp [this.1, this.2.2.1]

theorem pathText_head {p : List Str} (h : ∀ s ∈ p, PlainName s) : (pathText p).head? ≠ some '/' := by
  cases p with
  | nil => simp [pathText, List.intercalate]
  | cons a r =>
    have ha := h a (by simp)
    cases a with
    | nil => exact absurd rfl ha.1
    | cons x t =>
      have hx : x ≠ '/' := fun he => ha.2.1 (by simp [he])
      have : (pathText ((x :: t) :: r)).head? = some x := by
        cases r <;> simp [pathText, List.intercalate, List.intersperse]
      rw [this]
      simpa using hx

/-- The directory whose files are wanted, as a path relative to the files of the corpus. -/
def wanted (n : Str) (node : Option Str) : Str :=
  match node with
  | some x => trim x
  | none => n

theorem searchPath_ok (base : List Str) (n : Str) (node : Option Str)
    (hw : ¬ ['.', '.'] <:+: wanted n node) (hw' : (wanted n node).head? ≠ some '/') :
    searchPath base n node = .ok (base ++ parts (wanted n node)) := by
  cases node with
  | none => exact congrArg Except.ok (pushPath_rel base (rel := n) hw hw')
  | some x =>
    simp only [searchPath, checkPath_of (p := x) hw hw']
    exact congrArg Except.ok (pushPath_rel base (rel := trim x) hw hw')

/-- C72, for paths that stay in the directory: the list is complete: it has exactly the files below the wanted directory, each once. -/
theorem C72_list_complete_partial (base : List Str) (fs : Fs D) (hfs : fs.Tree) (n : Str) (node : Option Str)
    (hw : ¬ ['.', '.'] <:+: wanted n node) (hw' : (wanted n node).head? ≠ some '/') (hd : filesDir base n ∈ fs.dirs) :
    ∃ l, listFiles base fs n node = .ok l ∧ l.Nodup ∧
      ∀ t, t ∈ l ↔ ∃ rest d, (filesDir base n ++ parts (wanted n node) ++ rest, d) ∈ fs.files ∧ rest ≠ [] ∧
        t = pathText (parts (wanted n node) ++ rest) := by
  unfold listFiles
  rw [if_pos hd, searchPath_ok _ _ _ hw hw']
  dsimp only
  generalize parts (wanted n node) = w
  generalize filesDir base n = b
  by_cases hx : b ++ w ∈ fs.dirs
  · rw [if_pos hx]
    have hpre : ∀ p ∈ fs.walk (b ++ w), b <+: p := fun p hp => (List.prefix_append b w).trans (Fs.mem_walk.1 hp).1
    refine ⟨_, relative_ok _ _ hpre, ?_, fun t => ?_⟩
    · have hnd : (fs.walk (b ++ w)).Nodup := by
        unfold Fs.walk
        exact (hfs.nodup.sublist ((List.filter_sublist).map _))
      refine List.Nodup.map_on ?_ hnd
      intro p hp q hq he
      obtain ⟨_, d, hd1⟩ := Fs.mem_walk.1 hp
      obtain ⟨_, d', hd2⟩ := Fs.mem_walk.1 hq
      obtain ⟨r1, rfl⟩ := hpre p hp
      obtain ⟨r2, rfl⟩ := hpre q hq
      simp only [List.drop_left] at he
      have e1 := parts_pathText fun s hs => hfs.names _ hd1 s (List.mem_append_right _ hs)
      have e2 := parts_pathText fun s hs => hfs.names _ hd2 s (List.mem_append_right _ hs)
      rw [← e1, he, e2]
    · simp only [List.mem_map, Fs.mem_walk]
      constructor
      · rintro ⟨p, ⟨⟨rest, rfl⟩, d, hd1⟩, rfl⟩
        refine ⟨rest, d, hd1, ?_, by simp [List.append_assoc]⟩
        rintro rfl
        rw [List.append_nil] at hd1
        exact hfs.distinct _ hd1 hx
      · rintro ⟨rest, d, hd1, _, rfl⟩
        exact ⟨_, ⟨List.prefix_append _ _, d, hd1⟩, by simp [List.append_assoc]⟩
  · rw [if_neg hx]
    refine ⟨[], rfl, List.nodup_nil, fun t => ?_⟩
    simp only [List.not_mem_nil, false_iff]
    rintro ⟨rest, d, hd1, hr, _⟩
    exact hx (hfs.parents _ hd1 _ (List.prefix_append _ _) (by simpa using hr))

theorem Fs.file_of_mem {fs : Fs D} (h : (fs.files.map Prod.fst).Nodup) {p : List Str} {d : D} (hm : (p, d) ∈ fs.files) :
    fs.file p = some d := by
  unfold Fs.file
  cases hf : fs.files.find? fun e => e.1 = p with
  | none =>
    rw [List.find?_eq_none] at hf
    exact absurd (decide_eq_true rfl) (hf _ hm)
  | some e =>
    have h1 := List.mem_of_find?_eq_some hf
    have h2 := List.find?_some hf
    simp only [decide_eq_true_eq] at h2
    have := List.inj_on_of_nodup_map h h1 hm h2
    rw [this]
    rfl

/-- C72, restricted to names without `..`, `%` and surrounding space (missing: `C72_listed_fails`, `C72_decoded_fails`): a file of the
corpus is sent if the name in the list is asked for. -/
theorem C72_fetch_partial (lossy : List UInt8 → Str) (base : List Str) (fs : Fs D) (hfs : fs.Tree) (n : Str) (rest : List Str) (d : D)
    (hm : (filesDir base n ++ rest, d) ∈ fs.files) (h1 : ¬ ['.', '.'] <:+: pathText rest) (h2 : '%' ∉ pathText rest)
    (h3 : trim (pathText rest) = pathText rest) : fileContent lossy base fs n (pathText rest) = .ok d := by
  have hp : ∀ s ∈ rest, PlainName s := fun s hs => hfs.names _ hm s (List.mem_append_right _ hs)
  unfold fileContent
  rw [pctDecodeStr_id lossy h2, checkPath_of (by rw [h3]; exact h1) (by rw [h3]; exact pathText_head hp), h3]
  dsimp only
  rw [pushPath_rel _ h1 (pathText_head hp), parts_pathText hp, Fs.file_of_mem hfs.nodup hm]

/-! ### The directory of the storage -/

theorem mem_utf8_of {b : UInt8} {s : Str} (hb : b.toNat < 128) (h : Char.ofNat b.toNat ∈ s) : b ∈ utf8 s := by
  unfold utf8
  refine List.mem_flatMap.2 ⟨_, h, ?_⟩
  rw [utf8_ascii hb]
  simp

/-- C72: the web service looks for the files where the storage has them exactly if the name of the corpus has none of the characters `:`,
`|`, `*` and `\\`. -/
theorem C72_same_directory (base : List Str) (n : Str) (hn : DirName n) :
    filesDir base n = pushPath (corpusDir base n) "files".toList ↔ ∀ c ∈ n, c ≠ ':' ∧ c ≠ '|' ∧ c ≠ '*' ∧ c ≠ '\\' := by
  rw [filesDir_eq base hn, corpusDir_eq base hn, pushPath_plain _ (by decide : PlainName "files".toList), List.append_assoc,
    List.append_cancel_left_eq]
  simp only [List.cons_append, List.nil_append, List.cons.injEq, and_true]
  constructor
  · intro he c hc
    have key : ∀ k : Nat, k < 128 → pathSet (UInt8.ofNat k) = true → webSet (UInt8.ofNat k) = false → Char.ofNat k ≠ '%' →
        Char.ofNat k ∉ hexDigits → (UInt8.ofNat k).toNat = k → c ≠ Char.ofNat k := by
      intro k hk h1 h2 h3 h4 h5 hck
      have hnot := not_mem_pctEncode (s := n) hk h1 h3 h4
      rw [← he] at hnot
      apply hnot
      unfold pctEncode
      refine List.mem_flatMap.2 ⟨UInt8.ofNat k, mem_utf8_of (by omega) (by rw [h5, ← hck]; exact hc), ?_⟩
      unfold encByte
      rw [if_neg]
      · simp [h5]
      · rw [h5, h2]; simp; omega
    exact ⟨key 58 (by decide) (by decide) (by decide) (by decide) (by decide) (by decide),
      key 124 (by decide) (by decide) (by decide) (by decide) (by decide) (by decide),
      key 42 (by decide) (by decide) (by decide) (by decide) (by decide) (by decide),
      key 92 (by decide) (by decide) (by decide) (by decide) (by decide) (by decide)⟩
  · intro h
    unfold pctEncode
    apply List.flatMap_congr
    intro b hb
    by_cases hlt : b.toNat < 128
    · have hm := mem_utf8_ascii hlt hb
      have := h _ hm
      have hset : ∀ k : Fin 128, Char.ofNat k ≠ ':' ∧ Char.ofNat k ≠ '|' ∧ Char.ofNat k ≠ '*' ∧ Char.ofNat k ≠ '\\' →
          webSet (UInt8.ofNat k) = pathSet (UInt8.ofNat k) := by decide +kernel
      have := hset ⟨b.toNat, hlt⟩ this
      simp only [UInt8.ofNat_toNat] at this
      unfold encByte
      rw [this]
    · unfold encByte
      rw [if_pos (.inl (by omega)), if_pos (.inl (by omega))]

/-! ## What users can find out -/

theorem not_hidden {s : Settings} {db : Db} {c : Claims} {n : Str} (hn : DirName n) (hp : Permitted db c n) {p : List Str}
    (h : filesDir s.dataDir n <+: p) : ¬ Hidden s db c p := by
  rintro ⟨m, hm, hmp, hpre⟩
  obtain ⟨rest, rfl⟩ := h
  have := C72_disjoint (fun _ => []) s.dataDir n m hm rest _ (inFiles_filesDir _ _ hn rest) hpre
  exact hmp (this ▸ hp)

theorem PathName.dirName {n : Str} (h : PathName n) : DirName n :=
  ⟨h.1, h.2.1, fun he => h.2.2.1 (he ▸ List.infix_rfl)⟩

theorem find?_filter_of {A : Type} (l : List A) (p H : A → Bool) (h : ∀ a, p a = true → H a = true) : l.find? p = (l.filter H).find? p := by
  induction l with
  | nil => rfl
  | cons a r ih =>
    by_cases hp : p a = true
    · rw [List.find?_cons_of_pos hp, List.filter_cons_of_pos (h a hp), List.find?_cons_of_pos hp]
    · rw [List.find?_cons_of_neg hp, ih]
      by_cases hH : H a = true
      · rw [List.filter_cons_of_pos hH, List.find?_cons_of_neg hp]
      · rw [List.filter_cons_of_neg hH]

theorem find?_same {A : Type} {l l' : List A} {p H : A → Bool} (he : l.filter H = l'.filter H) (h : ∀ a, p a = true → H a = true) :
    l.find? p = l'.find? p := by
  rw [find?_filter_of l p H h, he, ← find?_filter_of l' p H h]

theorem filter_filter_of {A : Type} (l : List A) (p H : A → Bool) (h : ∀ a, p a = true → H a = true) : l.filter p = (l.filter H).filter p := by
  rw [List.filter_filter]
  apply List.filter_congr
  intro a _
  by_cases hp : p a = true
  · simp [hp, h a hp]
  · simp [hp]

theorem filter_same {A : Type} {l l' : List A} {p H : A → Bool} (he : l.filter H = l'.filter H) (h : ∀ a, p a = true → H a = true) :
    l.filter p = l'.filter p := by
  rw [filter_filter_of l p H h, he, ← filter_filter_of l' p H h]

theorem SameFor.file {s : Settings} {c : Claims} {st st' : State C D Q R} (h : SameFor s c st st') {p : List Str}
    (hp : ¬ Hidden s st.db c p) : st.fs.file p = st'.fs.file p := by
  unfold Fs.file
  rw [find?_same h.files]
  intro e he
  simp only [decide_eq_true_eq]
  rw [of_decide_eq_true he]
  exact hp

theorem SameFor.walk {s : Settings} {c : Claims} {st st' : State C D Q R} (h : SameFor s c st st') {dir : List Str}
    (hp : ∀ p, dir <+: p → ¬ Hidden s st.db c p) : st.fs.walk dir = st'.fs.walk dir := by
  unfold Fs.walk
  rw [filter_same h.files]
  intro e he
  simp only [decide_eq_true_eq]
  exact hp _ (List.isPrefixOf_iff_prefix.1 he)

/-- C71, restricted to permitted corpora whose name is harmless as a path (missing: `C71_path_fails`): the answers to a user who is not an
administrator do not depend on corpora that are not permitted. -/
theorem C71_noninterference_partial (fk : Bool) (lossy : List UInt8 → Str) (s : Settings) (b : Backend C Q R) (st st' : State C D Q R)
    (header : Option (Option Str)) (r : Req Q) (c : Claims) (hc : claimsOf s header = .ok c) (hadm : ¬ IsAdmin c) (hall : s.anonymousAll = false)
    (hnames : ∀ n, Permitted st.db c n → PathName n) (hd : st.Distinct) (hd' : st'.Distinct) (hsame : SameFor s c st st') :
    (handle fk lossy s b st header r).1 = (handle fk lossy s b st' header r).1 := by
  have hcheck : ∀ l, checkRead s st.db c l = .ok () → ∀ n ∈ l, Permitted st.db c n := by
    intro l h n hn
    rcases checkRead_ok.1 h n hn with h1 | h1 | h1
    · exact absurd h1 hadm
    · rw [hall] at h1; cases h1
    · exact h1
  have hc' : checkAdmin c = .error (.notAdmin c.sub) := if_neg hadm
  cases r with
  | docs => rfl
  | describe q => rfl
  | search q corpora =>
    simp only [handle, Req.takesClaims, if_true, hc, dispatch, handleSearch, ← hsame.db]
    cases hr : checkRead s st.db c corpora with
    | error e => rfl
    | ok u =>
      have : (corpora.map fun n => (n, st.corpus n)) = corpora.map fun n => (n, st'.corpus n) := by
        apply List.map_congr_left
        intro n hn
        rw [hsame.corpora n (hcheck _ hr n hn)]
      simp only [this]
  | read q corpus =>
    simp only [handle, Req.takesClaims, if_true, hc, dispatch, handleRead, ← hsame.db]
    cases hr : checkRead s st.db c [corpus] with
    | error e => rfl
    | ok u => simp only [hsame.corpora corpus (hcheck _ hr corpus (by simp))]
  | files corpus node =>
    simp only [handle, Req.takesClaims, if_true, hc, dispatch, handleFiles, ← hsame.db]
    cases hr : checkRead s st.db c [corpus] with
    | error e => rfl
    | ok u =>
      have hp := hcheck _ hr corpus (by simp)
      have hn := hnames _ hp
      have hbase := not_hidden (s := s) hn.dirName hp (List.prefix_rfl)
      have key : listFiles s.dataDir st.fs corpus node = listFiles s.dataDir st'.fs corpus node := by
        unfold listFiles
        simp only [hsame.dirs _ hbase]
        have hs : ∀ search, searchPath (filesDir s.dataDir corpus) corpus node = .ok search → filesDir s.dataDir corpus <+: search := by
          intro search h
          cases node with
          | none =>
            simp only [searchPath, Except.ok.injEq] at h
            rw [← h, pushPath_rel _ hn.2.2.1 hn.2.2.2]
            exact List.prefix_append _ _
          | some x =>
            simp only [searchPath] at h
            split at h
            · rename_i q hq
              obtain ⟨-, h1, h2⟩ := checkPath_ok hq
              rw [pushPath_rel _ h1 h2] at h
              cases h
              exact List.prefix_append _ _
            · cases h
        cases hsp : searchPath (filesDir s.dataDir corpus) corpus node with
        | error e => rfl
        | ok search =>
          have hpre := hs _ hsp
          have hw := hsame.walk (dir := search) fun p hsp => not_hidden hn.dirName hp (hpre.trans hsp)
          simp only [hsame.dirs _ (not_hidden hn.dirName hp hpre), hw]
      simp only [key]
  | file corpus name =>
    simp only [handle, Req.takesClaims, if_true, hc, dispatch, handleFile, ← hsame.db]
    cases hr : checkRead s st.db c [corpus] with
    | error e => rfl
    | ok u =>
      have hp := hcheck _ hr corpus (by simp)
      have hn := hnames _ hp
      have key : fileContent lossy s.dataDir st.fs corpus name = fileContent lossy s.dataDir st'.fs corpus name := by
        unfold fileContent
        cases hq : checkPath (pctDecodeStr lossy name) with
        | error e => rfl
        | ok q =>
          obtain ⟨-, h1, h2⟩ := checkPath_ok hq
          have hnh : ¬ Hidden s st.db c (pushPath (filesDir s.dataDir corpus) q) := by
            rw [pushPath_rel _ h1 h2]
            exact not_hidden hn.dirName hp (List.prefix_append _ _)
          simp only [hsame.file hnh, hsame.dirs _ hnh]
      simp only [key]
  | list =>
    simp only [handle, Req.takesClaims, if_true, hc, dispatch]
    congr 2
    obtain ⟨a1, a2⟩ := C71_list s st c hd
    obtain ⟨b1, b2⟩ := C71_list s st' c hd'
    refine a1.eq_of_mem_iff b1 fun n => ?_
    rw [a2, b2, ← hsame.db]
    constructor
    all_goals
      rintro ⟨h1, h2⟩
      have hp : Permitted st.db c n := by
        rcases h2 with h | h | h
        · exact absurd h hadm
        · rw [hall] at h; cases h
        · exact h
      exact ⟨(hsame.corpora n hp) ▸ h1, h2⟩
  | delete corpus => simp [handle, Req.takesClaims, hc, dispatch, handleDelete, hc']
  | imp q id => simp [handle, Req.takesClaims, hc, dispatch, handleImport, hc']
  | exp l id => simp [handle, Req.takesClaims, hc, dispatch, handleExport, hc']
  | job id => simp [handle, Req.takesClaims, hc, dispatch, handleJob, hc']
  | groups => simp [handle, Req.takesClaims, hc, dispatch, handleGroups, hc']
  | deleteGroup name => simp [handle, Req.takesClaims, hc, dispatch, handleDeleteGroup, hc']
  | putGroup path name l => simp [handle, Req.takesClaims, hc, dispatch, handlePutGroup, hc']

/-- C71: what may be read is answered by the storage (and nothing else is needed). -/
theorem C71_answered (fk : Bool) (lossy : List UInt8 → Str) (s : Settings) (b : Backend C Q R) (st : State C D Q R)
    (header : Option (Option Str)) (c : Claims) (hc : claimsOf s header = .ok c) (q : Q) :
    (∀ l, (∀ n ∈ l, MayRead s st.db c n) →
      (handle fk lossy s b st header (.search q l)).1 = (b.search q (l.map fun n => (n, st.corpus n))).map .data) ∧
    (∀ n, MayRead s st.db c n → (handle fk lossy s b st header (.read q n)).1 = (b.read q n (st.corpus n)).map .data) ∧
    (∀ n x, MayRead s st.db c n → (handle fk lossy s b st header (.files n x)).1 = (listFiles s.dataDir st.fs n x).map .names) ∧
    (∀ n x, MayRead s st.db c n → (handle fk lossy s b st header (.file n x)).1 = (fileContent lossy s.dataDir st.fs n x).map .content) := by
  refine ⟨fun l h => ?_, fun n h => ?_, fun n x h => ?_, fun n x h => ?_⟩
  · simp [handle, Req.takesClaims, hc, dispatch, handleSearch, checkRead_ok.2 h]
  all_goals
    have h' : checkRead s st.db c [n] = .ok () := checkRead_ok.2 (by simpa using h)
    simp [handle, Req.takesClaims, hc, dispatch, handleRead, handleFiles, handleFile, h']

end Web
