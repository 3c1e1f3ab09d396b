import Verif.Cli.Selection

/-!
# Completion (C105) and file formats (C106) of the command line
-/

set_option linter.unusedSimpArgs false

namespace Cli

variable {W : Type}

/-! ## Known commands -/

theorem ask'known (env : Env W) (st : St W) (r : Request) : (ask_ env st r).2 ≠ some .unknownCommand := by
  unfold ask_ ask
  by_cases h : st.opened = true
  · simp only [h, if_true]
    cases (env.call st.world r).1 <;> simp
  · simp [h]

theorem askAll_known (env : Env W) : ∀ (rs : List Request) (st : St W), (askAll env st rs).2 ≠ some .unknownCommand
  | [], _ => by simp [askAll]
  | r :: rs, st => by
    unfold askAll
    have := ask'known env st r
    rcases e : ask_ env st r with ⟨s, _ | x⟩
    · exact askAll_known env rs s
    · rw [e] at this; exact this

theorem ifSelected_known {st : St W} {f : St W × Res} (h : f.2 ≠ some .unknownCommand) : (ifSelected st f).2 ≠ some .unknownCommand := by
  unfold ifSelected; split
  · simp
  · exact h

theorem cmd_known (env : Env W) (st : St W) (a : Str) (c : Cmd) : (runCmd env st a c).2 ≠ some .unknownCommand := by
  cases c <;> simp only [runCmd]
  · simp only [importCmd]
    repeat' split
    all_goals first | exact ask'known _ _ _ | simp
  · simp only [exportCmd]
    repeat' split
    all_goals first | exact ask'known _ _ _ | simp
  · exact ask'known _ _ _
  · simp only [deleteCmd]; split
    · simp
    · exact ask'known _ _ _
  · unfold corpusCmd
    split
    · simp
    · by_cases h : st.opened = true
      · cases hc : (env.call st.world .list).1 with
        | none =>
          have : ask env st .list = ({ st with world := (env.call st.world .list).2, trace := st.trace ++ [.list] }, .error .storage) := by
            simp [ask, h, hc]
          rw [this]; simp
        | some names => rw [ask_ok h hc]; simp
      · rw [ask_closed env (by simpa using h)]; simp
  · simp only [setOffset]; split <;> [simp; (split <;> simp)]
  · simp only [setLimit]; split <;> [simp; (split <;> simp)]
  · simp only [setOrder]; repeat' split
    all_goals simp
  · simp only [setTimeout]; split <;> [simp; (split <;> simp)]
  · exact ifSelected_known (askAll_known _ _ _)
  · exact ifSelected_known (ask'known _ _ _)
  · exact askAll_known _ _ _
  · exact ifSelected_known (ask'known _ _ _)
  · exact ifSelected_known (ask'known _ _ _)
  · refine ifSelected_known ?_
    unfold frequencyCmd; split
    · simp
    · exact ask'known _ _ _
  · unfold setParallel
    split
    · simp
    · split
      · split <;> simp
      · simp
  · simp only [setDisk]; split <;> simp
  · simp only [setQuirks]; split <;> simp
  · exact ifSelected_known (askAll_known _ _ _)
  · simp

/-- The completer knows exactly the commands that can be executed: a line is refused as unknown exactly if it is not one of these commands with an
argument. -/
theorem C105_commands (env : Env W) (st : St W) (l : Str) :
    (exec env st l).2.1 = some .unknownCommand ↔ ¬ ∃ c ∈ knownCommands, l = c ∨ ∃ a, l = c ++ ' ' :: a := by
  have hk : ∀ s ∈ knownCommands, ∃ c, s ∈ (nameOf c).map String.toList := by
    have : ∀ s ∈ knownCommands, (cmdTable.lookup s).isSome := by decide
    intro s hs
    obtain ⟨c, hc⟩ := Option.isSome_iff_exists.1 (this s hs)
    exact ⟨c, (lookup_iff s c).1 hc⟩
  have hk' : ∀ c ∈ [Cmd.importCmd, .exportCmd, .list, .delete, .corpus, .setOffset, .setLimit, .setOrder, .setTimeout,
    .preload, .plan, .reoptimize, .count, .find, .frequency, .setParallel, .setDisk, .setQuirks, .info, .quit],
    ∀ n ∈ nameOf c, n.toList ∈ knownCommands := by decide
  have key : (∃ c ∈ knownCommands, l = c ∨ ∃ a, l = c ++ ' ' :: a) ↔ ∃ c, ∃ n ∈ nameOf c, ∃ a, Line n a l := by
    constructor
    · rintro ⟨s, hs, h⟩
      obtain ⟨c, hc⟩ := hk s hs
      obtain ⟨n, hn, rfl⟩ := List.mem_map.1 hc
      rcases h with h | ⟨a, h⟩
      · exact ⟨c, n, hn, [], .inr ⟨h, rfl⟩⟩
      · exact ⟨c, n, hn, a, .inl h⟩
    · rintro ⟨c, n, hn, a, h⟩
      refine ⟨n.toList, hk' c (all_cmds c) n hn, ?_⟩
      rcases h with h | ⟨h, _⟩
      · exact .inr ⟨a, h⟩
      · exact .inl h
  rw [key]
  rcases exec_cases env st l with ⟨c, n, a, _, hn, hL, e⟩ | ⟨⟨a, hQ⟩, e⟩ | ⟨hN, e⟩
  · rw [e]
    constructor
    · intro h; exact absurd h (cmd_known env st a c)
    · intro h; exact absurd ⟨c, n, hn, a, hL⟩ h
  · rw [e]
    constructor
    · intro h; cases h
    · intro h
      rcases hQ with hQ | hQ
      · exact absurd ⟨.quit, "quit", by decide, a, hQ⟩ h
      · exact absurd ⟨.quit, "exit", by decide, a, hQ⟩ h
  · rw [e]
    constructor
    · rintro _ ⟨c, n, hn, a, h⟩; exact hN c n hn a h
    · intro _; rfl

/-! ## Completion -/

/-- The line for which the completion is not about files or corpora. -/
def PlainLine (l : Str) : Prop :=
  ¬ "import ".toList <+: l ∧ ¬ "export ".toList <+: l ∧ ¬ "corpus ".toList <+: l ∧ ¬ "delete ".toList <+: l

/-- At the end of a line all commands are offered which continue it, and they replace the whole line. -/
theorem C105_plain (corpora : List Str) (l : Str) (h : PlainLine l) : ∃ cs, complete corpora l (utf8 l).length = .at 0 cs ∧
    ∀ c, c ∈ cs ↔ c ∈ knownCommands ∧ ∃ r, c = l ++ r := by
  obtain ⟨h1, h2, h3, h4⟩ := h
  refine ⟨knownCommands.filter fun c => l.isPrefixOf c, by simp only [complete, h1, h2, h3, h4, or_self, if_false, if_true], ?_⟩
  intro c
  rw [List.mem_filter, List.isPrefixOf_iff_prefix]
  constructor
  · rintro ⟨h, r, hr⟩; exact ⟨h, r, hr.symm⟩
  · rintro ⟨h, r, hr⟩; exact ⟨h, r, hr.symm⟩

theorem splitAll_last {c : Char} {b : Str} (h : c ∉ b) : ∀ a : Str, (splitAll c (a ++ c :: b)).getLast? = some b
  | [] => by
    simp only [List.nil_append, splitAll, if_true]
    rw [splitAll_single h]; rfl
  | x :: a => by
    have ih := splitAll_last h a
    simp only [List.cons_append, splitAll]
    split
    · rw [List.getLast?_cons, ih]; rfl
    · cases hs : splitAll c (a ++ c :: b) with
      | nil => rw [hs] at ih; cases ih
      | cons p ps =>
        rw [hs] at ih
        cases ps with
        | nil =>
          -- the splitted text contains the separator
          exfalso
          have : ∀ a : Str, 2 ≤ (splitAll c (a ++ c :: b)).length := by
            intro a
            induction a with
            | nil => simp [splitAll, splitAll_single h]
            | cons y a ih =>
              simp only [List.cons_append, splitAll]
              split
              · simp only [List.length_cons]; omega
              · cases hs : splitAll c (a ++ c :: b) with
                | nil => rw [hs] at ih; simp at ih
                | cons p ps => rw [hs] at ih; simpa using ih
          have := this a
          rw [hs] at this; simp at this
        | cons q qs => simpa [List.getLast?_cons] using ih

theorem afterLastSpace_eq {a w : Str} (h : ' ' ∉ w) : afterLastSpace (a ++ ' ' :: w) = some w := by
  unfold afterLastSpace
  rw [if_pos (by simp), splitAll_last h]

/-- A line which starts with `corpus ` or `delete ` and whose last word is `w`. -/
def CorpusLine (front w : Str) : Prop :=
  ' ' ∉ w ∧ ("corpus ".toList <+: front ++ [' '] ∨ "delete ".toList <+: front ++ [' '])

theorem corpusLine_prefix {front w : Str} (h : CorpusLine front w) :
    ¬ ("import ".toList <+: front ++ ' ' :: w ∨ "export ".toList <+: front ++ ' ' :: w) ∧
      ("corpus ".toList <+: front ++ ' ' :: w ∨ "delete ".toList <+: front ++ ' ' :: w) := by
  have e : front ++ ' ' :: w = (front ++ [' ']) ++ w := by simp
  have hc : "corpus ".toList <+: front ++ ' ' :: w ∨ "delete ".toList <+: front ++ ' ' :: w := by
    rw [e]
    exact h.2.imp (fun h => h.trans (List.prefix_append _ _)) (fun h => h.trans (List.prefix_append _ _))
  refine ⟨?_, hc⟩
  have hd : ∀ s t : Str, s <+: front ++ ' ' :: w → t <+: front ++ ' ' :: w → s.head? = none ∨ t.head? = none ∨ s.head? = t.head? := by
    rintro s t ⟨x, hx⟩ ⟨y, hy⟩
    cases s with
    | nil => exact .inl rfl
    | cons a s =>
      cases t with
      | nil => exact .inr (.inl rfl)
      | cons b t =>
        rw [← hy] at hx
        simp only [List.cons_append, List.cons.injEq] at hx
        exact .inr (.inr (by simp [hx.1]))
  intro hi
  rcases hi with hi | hi <;> rcases hc with hc | hc <;> have := hd _ _ hi hc <;> revert this <;> decide

/-- The completion of the names of corpora for every place of the cursor. -/
theorem complete_corpus (corpora : List Str) {front w : Str} (h : CorpusLine front w) (pos : Nat) :
    complete corpora (front ++ ' ' :: w) pos =
      if (utf8 w).length ≤ pos then .at (pos - (utf8 w).length) (corpora.filter fun c => w.isPrefixOf c) else .overflow := by
  obtain ⟨h1, h2⟩ := corpusLine_prefix h
  simp only [complete, if_neg h1, if_pos h2, afterLastSpace_eq h.1]

/-- The line after a candidate was chosen: it replaces the bytes from `start` up to the cursor. -/
def chosen (line : List UInt8) (start pos : Nat) (cand : List UInt8) : List UInt8 := line.take start ++ cand ++ line.drop pos

/-- With the cursor at the end of the line exactly the corpora are offered whose names continue the last word, and a chosen name replaces that word. -/
theorem C105_corpus_partial (corpora : List Str) {front w : Str} (h : CorpusLine front w) :
    ∃ start cs, complete corpora (front ++ ' ' :: w) (utf8 (front ++ ' ' :: w)).length = .at start cs ∧
      (∀ c, c ∈ cs ↔ c ∈ corpora ∧ ∃ r, c = w ++ r) ∧
      ∀ c, chosen (utf8 (front ++ ' ' :: w)) start (utf8 (front ++ ' ' :: w)).length (utf8 c) = utf8 (front ++ ' ' :: c) := by
  have hu : ∀ a b : Str, utf8 (a ++ b) = utf8 a ++ utf8 b := by intro a b; simp [utf8]
  have e : ∀ x : Str, front ++ ' ' :: x = (front ++ [' ']) ++ x := by simp
  rw [complete_corpus corpora h]
  have hl : (utf8 w).length ≤ (utf8 (front ++ ' ' :: w)).length := by
    rw [e, hu, List.length_append]; omega
  rw [if_pos hl]
  refine ⟨_, _, rfl, ?_, ?_⟩
  · intro c
    rw [List.mem_filter, List.isPrefixOf_iff_prefix]
    constructor
    · rintro ⟨h, r, hr⟩; exact ⟨h, r, hr.symm⟩
    · rintro ⟨h, r, hr⟩; exact ⟨h, r, hr.symm⟩
  · intro c
    unfold chosen
    rw [e w, e c, hu, hu _ c, List.length_append, Nat.add_sub_cancel, List.take_left, List.drop_eq_nil_of_le (by simp), List.append_nil]

/-- The subtraction overflows exactly if the cursor is nearer to the begin of the line than the length of the last word. -/
theorem C105_overflow (corpora : List Str) {front w : Str} (h : CorpusLine front w) (pos : Nat) :
    complete corpora (front ++ ' ' :: w) pos = .overflow ↔ pos < (utf8 w).length := by
  rw [complete_corpus corpora h]
  split
  · constructor
    · intro h; cases h
    · intro h; omega
  · constructor
    · intro _; omega
    · intro _; rfl

/-! ## File formats (C106) -/

/-- The file name has an extension: a directory, a name and the text behind its last dot. -/
def HasExt (p e : Str) : Prop :=
  ∃ dir stem, p = dir ++ (stem ++ '.' :: e) ∧ (dir = [] ∨ ∃ d, dir = d ++ ['/']) ∧ stem ≠ [] ∧ '/' ∉ stem ∧ '/' ∉ e ∧ '.' ∉ e ∧ e ≠ []

/-- The file name has no dot. -/
def NoExt (p : Str) : Prop := ∃ dir name, p = dir ++ name ∧ (dir = [] ∨ ∃ d, dir = d ++ ['/']) ∧ name ≠ [] ∧ '/' ∉ name ∧ '.' ∉ name

theorem lastSegment {dir name : Str} (hd : dir = [] ∨ ∃ d, dir = d ++ ['/']) (hn : '/' ∉ name) (h1 : name ≠ []) (h2 : name ≠ ['.']) :
    ((splitAll '/' (dir ++ name)).filter fun s => s ≠ [] ∧ s ≠ ['.']).getLast? = some name := by
  have hl : (splitAll '/' (dir ++ name)).getLast? = some name := by
    rcases hd with rfl | ⟨d, rfl⟩
    · rw [List.nil_append, splitAll_single hn]; rfl
    · rw [List.append_assoc, List.singleton_append]; exact splitAll_last hn d
  obtain ⟨xs, hx⟩ := List.getLast?_eq_some_iff.1 hl
  rw [hx, List.filter_append]
  have : List.filter (fun s => decide (s ≠ [] ∧ s ≠ ['.'])) [name] = [name] := by simp [h1, h2]
  rw [this, List.getLast?_append_of_ne_nil _ (by simp)]; rfl

theorem extension_some {p e : Str} (h : HasExt p e) : extension p = some e := by
  obtain ⟨dir, stem, rfl, hd, hs, hs1, he1, he2, he⟩ := h
  have hn : '/' ∉ stem ++ '.' :: e := by simp [hs1, he1]
  have h0 : stem ++ '.' :: e ≠ [] := by simp
  have hlen : 3 ≤ (stem ++ '.' :: e).length := by
    have := List.length_pos_iff.2 hs
    have := List.length_pos_iff.2 he
    simp only [List.length_append, List.length_cons]; omega
  have h1 : stem ++ '.' :: e ≠ ['.'] := by intro h; rw [h] at hlen; simp at hlen
  have h2 : stem ++ '.' :: e ≠ ['.', '.'] := by intro h; rw [h] at hlen; simp at hlen
  unfold extension
  rw [lastSegment hd hn h0 h1]
  simp only [if_neg h2]
  cases stem with
  | nil => exact absurd rfl hs
  | cons x s =>
    simp only [List.cons_append, lastDot]
    rw [if_pos (by simp), splitAll_last he2]

theorem extension_none {p : Str} (h : NoExt p) : extension p = none := by
  obtain ⟨dir, name, rfl, hd, hn, hn1, hn2⟩ := h
  have h1 : name ≠ ['.'] := by rintro rfl; simp at hn2
  have h2 : name ≠ ['.', '.'] := by rintro rfl; simp at hn2
  unfold extension
  rw [lastSegment hd hn1 hn h1]
  simp only [if_neg h2]
  cases name with
  | nil => rfl
  | cons x s =>
    simp only [lastDot]
    rw [if_neg (fun h => hn2 (by simp [h]))]

theorem mem_splitAll_no {c : Char} : ∀ {s x : Str}, x ∈ splitAll c s → c ∉ x
  | [], x, h => by simp only [splitAll, List.mem_cons, List.not_mem_nil, or_false] at h; subst h; simp
  | y :: s, x, h => by
    simp only [splitAll] at h
    split at h
    · rcases List.mem_cons.1 h with rfl | h
      · simp
      · exact mem_splitAll_no h
    · rename_i hy
      cases hs : splitAll c s with
      | nil =>
        rw [hs] at h
        simp only [List.mem_cons, List.not_mem_nil, or_false] at h
        subst h; simpa using fun e => hy e.symm
      | cons p ps =>
        rw [hs] at h
        rcases List.mem_cons.1 h with rfl | h
        · have := mem_splitAll_no (c := c) (s := s) (x := p) (by rw [hs]; simp)
          simp only [List.mem_cons, not_or]
          exact ⟨fun e => hy e.symm, this⟩
        · exact mem_splitAll_no (by rw [hs]; simp [h])

theorem extension_no_dot {p e : Str} (h : extension p = some e) : '.' ∉ e := by
  unfold extension at h
  split at h
  · cases h
  · rename_i s _
    split at h
    · cases h
    · cases s with
      | nil => cases h
      | cons x s =>
        simp only [lastDot] at h
        split at h
        · exact mem_splitAll_no (List.mem_of_getLast? h)
        · cases h

/-- The check for a single corpus is never effective: no extension starts with a dot. -/
theorem C106_check_fails (env : Env W) (st : St W) (l : Str) (h : (exec env st l).2.1 = some .notSingle) : ∀ a, ¬ Line "export" a l := by
  intro a ha
  rw [exec_line env st (c := .exportCmd) (n := "export") (by decide) (by decide) ha] at h
  have hk : ∀ r, (ask_ env st r).2 ≠ some .notSingle := by
    intro r
    unfold ask_ ask
    by_cases h : st.opened = true
    · simp only [h, if_true]
      cases (env.call st.world r).1 <;> simp
    · simp [h]
  simp only [runCmd, exportCmd] at h
  split at h
  · cases h
  split at h
  · rename_i ext hext
    split at h
    · exact hk _ h
    · split at h
      · rename_i hc
        have := extension_no_dot hext
        rw [hc.1] at this
        exact this (by decide)
      · exact hk _ h
  · exact hk _ h

/-- The request of an import and the format of an export agree. -/
def Agree : ExportFormat → Request → Prop
  | .graphMLZip, .importZip _ _ => True
  | .graphML, .importFs _ f _ _ => f = .graphML
  | _, _ => False

/-- The format in which a file is exported. -/
theorem export_request (env : Env W) (st : St W) (ho : st.opened = true) (p : Str) (hp : ' ' ∉ p) :
    (exec env st ("export ".toList ++ p)).1.trace = st.trace ++ [.exportFs st.sel p
      (match (extension p).map Rel.lower with
        | none => .graphMLDirectory
        | some e => if e = "zip".toList then .graphMLZip else .graphML)] := by
  have hx := exec_line env st (c := .exportCmd) (n := "export") (a := p) (l := "export ".toList ++ p) (by decide) (by decide) (.inl rfl)
  rw [hx]
  simp only [runCmd, exportCmd, splitAll_single hp, List.headD_cons, List.cons_ne_nil, if_false]
  cases he : extension p with
  | none => simp [ask'fst, ask, ho]
  | some e =>
    have hd : e ≠ ".graphml".toList := by
      intro h; have := extension_no_dot he; rw [h] at this; exact this (by decide)
    simp only [Option.map_some]
    split
    · simp [ask'fst, ask, ho]
    · rw [if_neg (fun h => hd h.1)]; simp [ask'fst, ask, ho]

theorem import_request (env : Env W) (st : St W) (ho : st.opened = true) (p : Str) (hp : ' ' ∉ p) (hx : env.pathExists st.world p = true)
    (hf : env.fileOpens st.world p = true) :
    (exec env st ("import ".toList ++ p)).1.trace = st.trace ++ [
      if (extension p).map Rel.lower = some "zip".toList then .importZip p st.disk
      else .importFs p (if (extension p).map Rel.lower = some "graphml".toList ∨ (extension p).map Rel.lower = some "xml".toList then .graphML
        else .relANNIS) none st.disk] := by
  have hx' := exec_line env st (c := .importCmd) (n := "import") (a := p) (l := "import ".toList ++ p) (by decide) (by decide) (.inl rfl)
  rw [hx']
  simp only [runCmd, importCmd, splitAll_single hp, List.headD_cons, List.cons_ne_nil, if_false, hx, if_true, hf]
  split <;> simp [ask'fst, ask, ho]

/-- A file with an extension is exported in a format and imported in the same format exactly if the extension is one of `zip`, `graphml` and `xml`
in any case of letters. -/
theorem C106_round_partial (env : Env W) (st st' : St W) (ho : st.opened = true) (ho' : st'.opened = true) (p e : Str) (hp : ' ' ∉ p)
    (hx : env.pathExists st'.world p = true) (hf : env.fileOpens st'.world p = true) (he : HasExt p e) :
    ∃ f r, (exec env st ("export ".toList ++ p)).1.trace = st.trace ++ [.exportFs st.sel p f] ∧
      (exec env st' ("import ".toList ++ p)).1.trace = st'.trace ++ [r] ∧
      (Agree f r ↔ e.map Char.toLower = "zip".toList ∨ e.map Char.toLower = "graphml".toList ∨ e.map Char.toLower = "xml".toList) := by
  refine ⟨_, _, export_request env st ho p hp, import_request env st' ho' p hp hx hf, ?_⟩
  rw [extension_some he]
  simp only [Option.map_some, Option.some.injEq, Rel.lower]
  by_cases hz : e.map Char.toLower = "zip".toList
  · simp only [hz, if_true, Agree, true_or]
  · simp only [hz, if_false, false_or, Agree]
    split <;> simp_all

/-- A directory is exported as directory of GraphML files, but always imported as relANNIS corpus. -/
theorem C106_directory_fails (env : Env W) (st st' : St W) (ho : st.opened = true) (ho' : st'.opened = true) (p : Str) (hp : ' ' ∉ p)
    (hx : env.pathExists st'.world p = true) (hf : env.fileOpens st'.world p = true) (hn : NoExt p) :
    (exec env st ("export ".toList ++ p)).1.trace = st.trace ++ [.exportFs st.sel p .graphMLDirectory] ∧
      (exec env st' ("import ".toList ++ p)).1.trace = st'.trace ++ [.importFs p .relANNIS none st'.disk] := by
  have h1 := export_request env st ho p hp
  have h2 := import_request env st' ho' p hp hx hf
  rw [extension_none hn] at h1 h2
  exact ⟨h1, by simpa using h2⟩

/-- An import of a path that does not exist asks the storage for nothing, and reports no error. -/
theorem C106_missing_fails (env : Env W) (st : St W) (p : Str) (hp : ' ' ∉ p) (hx : env.pathExists st.world p = false) :
    exec env st ("import ".toList ++ p) = (st, none, true) := by
  have hx' := exec_line env st (c := .importCmd) (n := "import") (a := p) (l := "import ".toList ++ p) (by decide) (by decide) (.inl rfl)
  rw [hx']
  simp [runCmd, importCmd, splitAll_single hp, hx]

end Cli
