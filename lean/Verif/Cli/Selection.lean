import Verif.Cli.Settings

/-!
# The selected corpora (C103) and the corpus storage of the command line (C104)
-/

set_option linter.unusedSimpArgs false

namespace Cli

variable {W : Type}

/-! ## Specification -/

def AllAsciiWs (s : Str) : Prop := ∀ c ∈ s, isAsciiWs c = true

/-- A word without white space. -/
def IsWord (s : Str) : Prop := s ≠ [] ∧ ∀ c ∈ s, isAsciiWs c = false

/-- The text consists of these words with white space between them. -/
inductive Spelled : Str → List Str → Prop
  | done (s : Str) (h : AllAsciiWs s) : Spelled s []
  | word (pre w rest : Str) (ws : List Str) (hp : AllAsciiWs pre) (hw : IsWord w) (hr : Spelled rest ws)
      (hs : ∀ c, rest.head? = some c → isAsciiWs c = true) : Spelled (pre ++ w ++ rest) (w :: ws)

/-- The corpora of a storage, which only disappear if they are deleted. -/
structure Keeps (env : Env W) (corpora : W → List Str) : Prop where
  answer : ∀ w a, (env.call w .list).1 = some a → ∀ n ∈ a, n ∈ corpora (env.call w .list).2
  call : ∀ w r n, n ∈ corpora w → r ≠ .delete n → n ∈ corpora (env.call w r).2
  reopen : ∀ w v w', env.reopen w v = some w' → ∀ n ∈ corpora w, n ∈ corpora w'

/-! ## Words -/

theorem wordsFrom_ws {s : Str} (h : AllAsciiWs s) : asciiWordsFrom [] s = [] := by
  induction s with
  | nil => rfl
  | cons c r ih => simp [asciiWordsFrom, h c (by simp), ih fun d hd => h d (by simp [hd])]

theorem wordsFrom_skip {pre : Str} (h : AllAsciiWs pre) (s : Str) : asciiWordsFrom [] (pre ++ s) = asciiWordsFrom [] s := by
  induction pre with
  | nil => rfl
  | cons c r ih => simp [asciiWordsFrom, h c (by simp), ih fun d hd => h d (by simp [hd])]

theorem wordsFrom_word : ∀ (w cur rest : Str), (∀ c ∈ w, isAsciiWs c = false) → asciiWordsFrom cur (w ++ rest) = asciiWordsFrom (cur ++ w) rest
  | [], cur, rest, _ => by simp
  | c :: w, cur, rest, h => by
    simp only [List.cons_append, asciiWordsFrom, h c (by simp), Bool.false_eq_true, if_false]
    rw [wordsFrom_word w (cur ++ [c]) rest fun d hd => h d (by simp [hd])]
    simp

theorem wordsFrom_end {cur rest : Str} (hc : cur ≠ []) (hs : ∀ c, rest.head? = some c → isAsciiWs c = true) :
    asciiWordsFrom cur rest = cur :: asciiWordsFrom [] rest := by
  cases rest with
  | nil => simp [asciiWordsFrom, hc]
  | cons c r => simp [asciiWordsFrom, hc, hs c rfl]

theorem words_spelled {s : Str} {ws : List Str} (h : Spelled s ws) : asciiWords s = ws := by
  induction h with
  | done s h => exact wordsFrom_ws h
  | word pre w rest ws hp hw hr hs ih =>
    unfold asciiWords at ih ⊢
    rw [List.append_assoc, wordsFrom_skip hp, wordsFrom_word w [] rest hw.2, List.nil_append, wordsFrom_end hw.1 hs, ih]

theorem wordsFrom_are : ∀ (s cur : Str), (∀ c ∈ cur, isAsciiWs c = false) → ∀ w ∈ asciiWordsFrom cur s, IsWord w
  | [], cur, hc, w, hw => by
    simp only [asciiWordsFrom] at hw
    split at hw
    · simp at hw
    · rename_i h; simp only [List.mem_cons, List.not_mem_nil, or_false] at hw; subst hw; exact ⟨h, hc⟩
  | c :: s, cur, hc, w, hw => by
    simp only [asciiWordsFrom] at hw
    split at hw
    · split at hw
      · exact wordsFrom_are s [] (by simp) w hw
      · rename_i h
        rcases List.mem_cons.1 hw with rfl | hw
        · exact ⟨h, hc⟩
        · exact wordsFrom_are s [] (by simp) w hw
    · rename_i h
      refine wordsFrom_are s (cur ++ [c]) ?_ w hw
      intro d hd
      rcases List.mem_append.1 hd with hd | hd
      · exact hc d hd
      · simp only [List.mem_cons, List.not_mem_nil, or_false] at hd; subst hd; simpa using h

/-! ## The selection -/

theorem ask_ok {env : Env W} {st : St W} (ho : st.opened = true) {r : Request} {a : List Str} (h : (env.call st.world r).1 = some a) :
    ask env st r = ({ st with world := (env.call st.world r).2, trace := st.trace ++ [r] }, .ok a) := by
  simp only [ask, ho, if_true, h]

theorem step_cmd (env : Env W) (st : St W) (lines : List Str) (l : Str) :
    runCommands env st (lines ++ [l]) = (exec env (runCommands env st lines) l).1 := by simp [runCommands]

/-- The command `corpus` selects the words of its argument which are names of corpora, in their order and as often as they are given. -/
theorem C103_corpus (env : Env W) (st : St W) (lines : List Str) (a : Str) (ws names : List Str) (ha : a ≠ []) (hw : Spelled a ws)
    (ho : (runCommands env st lines).opened = true) (hn : (env.call (runCommands env st lines).world .list).1 = some names) :
    (runCommands env st (lines ++ ["corpus ".toList ++ a])).sel = ws.filter (· ∈ names) := by
  have hx := exec_line env (runCommands env st lines) (c := .corpus) (n := "corpus") (a := a) (l := "corpus ".toList ++ a) (by decide) (by decide)
    (.inl rfl)
  rw [step_cmd, hx]
  simp only [runCmd, corpusCmd, if_neg ha, ask_ok ho hn, words_spelled hw]

/-- A corpus is selected by its name if and only if its name is a word. -/
theorem C103_select (env : Env W) (st : St W) (lines : List Str) (n : Str) (names : List Str)
    (ho : (runCommands env st lines).opened = true) (hn : (env.call (runCommands env st lines).world .list).1 = some names) (hm : n ∈ names) :
    (runCommands env st (lines ++ ["corpus ".toList ++ n])).sel = [n] ↔ IsWord n := by
  constructor
  · intro h
    by_cases ha : n = []
    · subst ha
      have hx := exec_line env (runCommands env st lines) (c := .corpus) (n := "corpus") (a := []) (l := "corpus ".toList ++ []) (by decide) (by decide)
        (.inl rfl)
      rw [step_cmd, hx] at h
      simp [runCmd, corpusCmd] at h
    · have hx := exec_line env (runCommands env st lines) (c := .corpus) (n := "corpus") (a := n) (l := "corpus ".toList ++ n) (by decide) (by decide)
        (.inl rfl)
      rw [step_cmd, hx] at h
      simp only [runCmd, corpusCmd, if_neg ha, ask_ok ho hn] at h
      refine wordsFrom_are n [] (by simp) n ?_
      have : n ∈ (asciiWords n).filter (· ∈ names) := by rw [h]; simp
      exact (List.mem_filter.1 this).1
  · intro h
    have hs : Spelled n [n] := by
      have := Spelled.word [] n [] [] (by simp [AllAsciiWs]) h (.done [] (by simp [AllAsciiWs])) (by simp)
      simpa using this
    rw [C103_corpus env st lines n [n] names h.1 hs ho hn]
    simp [hm]

/-- No other command changes the selection; a failed selection keeps it. -/
theorem sel_step (env : Env W) (st : St W) (l : Str) :
    (exec env st l).1.sel = st.sel ∨
      (exec env st l).1.sel = [] ∨ ∃ a names, (env.call st.world .list).1 = some names ∧ (exec env st l).1.world = (env.call st.world .list).2 ∧
        (exec env st l).1.sel = (asciiWords a).filter (· ∈ names) := by
  rcases exec_cases env st l with ⟨c, n, a, _, hn, hL, e⟩ | ⟨_, e⟩ | ⟨_, e⟩
  · rw [e]
    cases hq : c.isQuiet with
    | true => exact .inl (quiet_same env st a c hq).sel
    | false =>
      cases c <;> simp only [Cmd.isQuiet] at hq <;> try exact absurd hq (by decide)
      · simp only [runCmd, corpusCmd]
        split
        · exact .inr (.inl rfl)
        · cases ho : st.opened with
          | false =>
            have : ask env st .list = (st, .error .noStorage) := by simp [ask, ho]
            rw [this]; exact .inl rfl
          | true =>
            cases hc : (env.call st.world .list).1 with
            | none =>
              have : ask env st .list = ({ st with world := (env.call st.world .list).2, trace := st.trace ++ [.list] }, .error .storage) := by
                simp [ask, ho, hc]
              rw [this]; exact .inl rfl
            | some names =>
              rw [ask_ok ho hc]
              exact .inr (.inr ⟨a, names, rfl, rfl, rfl⟩)
      · simp only [runCmd, setOffset]; left; split <;> [rfl; (split <;> rfl)]
      · simp only [runCmd, setLimit]; left; split <;> [rfl; (split <;> rfl)]
      · simp only [runCmd, setOrder]; left; repeat' split
        all_goals rfl
      · simp only [runCmd, setTimeout]; left; split <;> [rfl; (split <;> rfl)]
      · exact .inl (parallel_same env st a).sel
      · simp only [runCmd, setDisk]; left; split <;> rfl
      · simp only [runCmd, setQuirks]; left; split <;> rfl
  · rw [e]; exact .inl rfl
  · rw [e]; exact .inl rfl

/-- Only words are ever selected. -/
theorem C103_words (env : Env W) (st : St W) (lines : List Str) (h : ∀ c ∈ st.sel, IsWord c) :
    ∀ c ∈ (runCommands env st lines).sel, IsWord c := by
  induction lines using List.reverseRecOn with
  | nil => exact h
  | append_singleton ls l ih =>
    rw [step_cmd]
    intro c hc
    rcases sel_step env (runCommands env st ls) l with e | e | ⟨a, names, _, _, e⟩
    · rw [e] at hc; exact ih c hc
    · rw [e] at hc; simp at hc
    · rw [e] at hc
      exact wordsFrom_are a [] (by simp) c (List.mem_filter.1 hc).1

/-! ### Deleted corpora -/

theorem world_ask {env : Env W} {corpora : W → List Str} (hk : Keeps env corpora) (st : St W) (r : Request) {n : Str} (h : n ∈ corpora st.world)
    (hr : r ≠ .delete n) : n ∈ corpora (ask env st r).1.world := by
  unfold ask; split
  · exact hk.call _ _ _ h hr
  · exact h

theorem world_ask' {env : Env W} {corpora : W → List Str} (hk : Keeps env corpora) (st : St W) (r : Request) {n : Str} (h : n ∈ corpora st.world)
    (hr : r ≠ .delete n) : n ∈ corpora (ask_ env st r).1.world := by
  rw [ask'fst]; exact world_ask hk st r h hr

theorem world_askAll {env : Env W} {corpora : W → List Str} (hk : Keeps env corpora) {n : Str} : ∀ (rs : List Request) (st : St W),
    n ∈ corpora st.world → (∀ r ∈ rs, r ≠ .delete n) → n ∈ corpora (askAll env st rs).1.world
  | [], _, h, _ => h
  | r :: rs, st, h, hr => by
    unfold askAll
    have := world_ask' hk st r h (hr r (by simp))
    rcases e : ask_ env st r with ⟨s, _ | x⟩
    · rw [e] at this; exact world_askAll hk rs s this fun r' h' => hr r' (by simp [h'])
    · rw [e] at this; exact this

theorem world_ifSelected {corpora : W → List Str} {st : St W} {f : St W × Res} {n : Str} (h : n ∈ corpora st.world) (hf : n ∈ corpora f.1.world) :
    n ∈ corpora (ifSelected st f).1.world := by
  unfold ifSelected; split
  · exact h
  · exact hf

/-- A command keeps the corpora, but `delete` may remove the one it is given. -/
theorem world_cmd {env : Env W} {corpora : W → List Str} (hk : Keeps env corpora) (st : St W) (a : Str) (c : Cmd) {n : Str}
    (h : n ∈ corpora st.world) (hd : c = .delete → a ≠ [] → a ≠ n) : n ∈ corpora (runCmd env st a c).1.world := by
  cases c <;> simp only [runCmd]
  · simp only [importCmd]
    split
    · exact h
    split
    · split
      · split
        · exact world_ask' hk _ _ h (by simp)
        · exact h
      · exact world_ask' hk _ _ h (by simp)
    · exact h
  · simp only [exportCmd]
    split
    · exact h
    split
    · split
      · exact world_ask' hk _ _ h (by simp)
      · split
        · exact h
        · exact world_ask' hk _ _ h (by simp)
    · exact world_ask' hk _ _ h (by simp)
  · exact world_ask' hk _ _ h (by simp)
  · simp only [deleteCmd]
    split
    · exact h
    · rename_i ha
      refine world_ask' hk _ _ h ?_
      intro e; exact hd rfl ha (Request.delete.inj e)
  · unfold corpusCmd
    split
    · exact h
    · have := world_ask hk st .list h (by simp)
      rcases e : ask env st .list with ⟨s, x | x⟩ <;> (rw [e] at this; exact this)
  · simp only [setOffset]; split <;> [exact h; (split <;> exact h)]
  · simp only [setLimit]; split <;> [exact h; (split <;> exact h)]
  · simp only [setOrder]; repeat' split
    all_goals exact h
  · simp only [setTimeout]; split <;> [exact h; (split <;> exact h)]
  · exact world_ifSelected h (world_askAll hk _ _ h (by simp))
  · exact world_ifSelected h (world_ask' hk _ _ h (by simp))
  · exact world_askAll hk _ _ h (by simp)
  · exact world_ifSelected h (world_ask' hk _ _ h (by simp))
  · exact world_ifSelected h (world_ask' hk _ _ h (by simp))
  · refine world_ifSelected h ?_
    unfold frequencyCmd
    split
    · exact h
    · exact world_ask' hk _ _ h (by simp)
  · unfold setParallel
    split
    · exact h
    · split
      · split
        · rename_i w' e; exact hk.reopen _ _ _ e _ h
        · exact h
      · exact h
  · simp only [setDisk]; split <;> exact h
  · simp only [setQuirks]; split <;> exact h
  · exact world_ifSelected h (world_askAll hk _ _ h (by simp))
  · exact h

/-- A selected corpus exists, unless a line deleted it while it was selected. -/
theorem C103_exists_partial {env : Env W} {corpora : W → List Str} (hk : Keeps env corpora) (st : St W) (hst : ∀ c ∈ st.sel, c ∈ corpora st.world)
    (lines : List Str) : ∀ c ∈ (runCommands env st lines).sel, c ∈ corpora (runCommands env st lines).world ∨
      ∃ before after, lines = before ++ ("delete ".toList ++ c) :: after ∧ c ∈ (runCommands env st before).sel := by
  induction lines using List.reverseRecOn with
  | nil => intro c hc; exact .inl (hst c hc)
  | append_singleton ls l ih =>
    intro c hc
    rw [step_cmd] at hc ⊢
    rcases sel_step env (runCommands env st ls) l with e | e | ⟨a, names, hn, hw, e⟩
    · rw [e] at hc
      rcases ih c hc with h | ⟨b, af, hb, hs⟩
      · by_cases hd : l = "delete ".toList ++ c
        · exact .inr ⟨ls, [], by rw [hd], hc⟩
        · refine .inl ?_
          rcases exec_cases env (runCommands env st ls) l with ⟨cm, n, a, _, hcn, hL, e'⟩ | ⟨_, e'⟩ | ⟨_, e'⟩
          · rw [e']
            refine world_cmd hk _ a cm h ?_
            rintro rfl hne rfl
            simp only [nameOf, List.mem_cons, List.not_mem_nil, or_false] at hcn
            subst hcn
            rcases hL with hL | ⟨hL, ha⟩
            · exact hd hL
            · exact hne ha
          · rw [e']; exact h
          · rw [e']; exact h
      · exact .inr ⟨b, af ++ [l], by simp [hb], hs⟩
    · rw [e] at hc; simp at hc
    · left
      rw [e] at hc
      rw [hw]
      exact hk.answer _ _ hn _ (by simpa using (List.mem_filter.1 hc).2)

/-- The selected corpora exist as long as no line deletes a corpus. -/
theorem C103_no_delete_partial {env : Env W} {corpora : W → List Str} (hk : Keeps env corpora) (st : St W) (hst : ∀ c ∈ st.sel, c ∈ corpora st.world)
    (lines : List Str) (hd : ∀ l ∈ lines, ∀ a, ¬ Line "delete" a l) :
    ∀ c ∈ (runCommands env st lines).sel, c ∈ corpora (runCommands env st lines).world := by
  intro c hc
  rcases C103_exists_partial hk st hst lines c hc with h | ⟨b, af, hb, _⟩
  · exact h
  · exact absurd (.inl rfl) (hd ("delete ".toList ++ c) (by simp [hb]) c)

/-! ## The storage (C104) -/

theorem ask_closed (env : Env W) {st : St W} (h : st.opened = false) (r : Request) : ask env st r = (st, .error .noStorage) := by simp [ask, h]

theorem ask'closed (env : Env W) {st : St W} (h : st.opened = false) (r : Request) : ask_ env st r = (st, some .noStorage) := by
  simp [ask_, ask_closed env h]

theorem askAll_closed (env : Env W) {st : St W} (h : st.opened = false) (rs : List Request) : (askAll env st rs).1 = st := by
  cases rs with
  | nil => rfl
  | cons r rs => simp [askAll, ask'closed env h]

theorem ifSelected_trace {st : St W} {f : St W × Res} (h : f.1.trace = st.trace) : (ifSelected st f).1.trace = st.trace := by
  unfold ifSelected; split
  · rfl
  · exact h

/-- Without a storage nothing is asked, but by `set-parallel-search`. -/
theorem trace_closed (env : Env W) (st : St W) (a : Str) (c : Cmd) (hc : c ≠ .setParallel) (h : st.opened = false) :
    (runCmd env st a c).1.trace = st.trace := by
  cases c <;> simp only [runCmd]
  · simp only [importCmd, ask'closed env h]
    repeat' split
    all_goals rfl
  · simp only [exportCmd, ask'closed env h]
    repeat' split
    all_goals rfl
  · rw [ask'closed env h]
  · simp only [deleteCmd, ask'closed env h]; split <;> rfl
  · simp only [corpusCmd, ask_closed env h]; split <;> rfl
  · simp only [setOffset]; split <;> [rfl; (split <;> rfl)]
  · simp only [setLimit]; split <;> [rfl; (split <;> rfl)]
  · simp only [setOrder]; repeat' split
    all_goals rfl
  · simp only [setTimeout]; split <;> [rfl; (split <;> rfl)]
  · exact ifSelected_trace (by rw [askAll_closed env h])
  · exact ifSelected_trace (by rw [ask'closed env h])
  · rw [askAll_closed env h]
  · exact ifSelected_trace (by rw [ask'closed env h])
  · exact ifSelected_trace (by rw [ask'closed env h])
  · refine ifSelected_trace ?_
    unfold frequencyCmd; split
    · rfl
    · rw [ask'closed env h]
  · exact absurd rfl hc
  · simp only [setDisk]; split <;> rfl
  · simp only [setQuirks]; split <;> rfl
  · exact ifSelected_trace (by rw [askAll_closed env h])

/-- The other commands neither open nor close the storage. -/
theorem handle_others (env : Env W) (st : St W) (a : Str) (c : Cmd) (hc : c ≠ .setParallel) :
    (runCmd env st a c).1.opened = st.opened ∧ (runCmd env st a c).1.parallel = st.parallel := by
  cases hq : c.isQuiet with
  | true => exact ⟨(quiet_same env st a c hq).opened, (quiet_same env st a c hq).parallel⟩
  | false =>
    cases c <;> simp only [Cmd.isQuiet] at hq <;> try exact absurd hq (by decide)
    · exact ⟨(corpus_same env st a).opened, (corpus_same env st a).parallel⟩
    · simp only [runCmd, setOffset]; split <;> [exact ⟨rfl, rfl⟩; (split <;> exact ⟨rfl, rfl⟩)]
    · simp only [runCmd, setLimit]; split <;> [exact ⟨rfl, rfl⟩; (split <;> exact ⟨rfl, rfl⟩)]
    · simp only [runCmd, setOrder]; repeat' split
      all_goals exact ⟨rfl, rfl⟩
    · simp only [runCmd, setTimeout]; split <;> [exact ⟨rfl, rfl⟩; (split <;> exact ⟨rfl, rfl⟩)]
    · exact absurd rfl hc
    · simp only [runCmd, setDisk]; split <;> exact ⟨rfl, rfl⟩
    · simp only [runCmd, setQuirks]; split <;> exact ⟨rfl, rfl⟩

/-- What a line does to the storage: only a line that switches the parallel search to the other value closes the storage and tries to open it. -/
theorem handle_step (env : Env W) (st : St W) (l : Str) :
    ((exec env st l).1.opened = st.opened ∧ (exec env st l).1.parallel = st.parallel ∧ (st.opened = false → (exec env st l).1.trace = st.trace) ∧
      ¬ SetsSwitch "set-parallel-search" l (! st.parallel)) ∨
    (SetsSwitch "set-parallel-search" l (! st.parallel) ∧ (exec env st l).1.trace = st.trace ++ [.openStorage (! st.parallel)] ∧
      (((env.reopen st.world (! st.parallel)).isSome ∧ (exec env st l).1.opened = true ∧ (exec env st l).1.parallel = ! st.parallel) ∨
        (env.reopen st.world (! st.parallel) = none ∧ (exec env st l).1.opened = false ∧ (exec env st l).1.parallel = st.parallel ∧
          (exec env st l).2.1 = some .storage))) := by
  by_cases hl : ∃ a, Line "set-parallel-search" a l
  · obtain ⟨a, ha⟩ := hl
    have hx := exec_line env st (c := .setParallel) (n := "set-parallel-search") (by decide) (by decide) ha
    have huniq : ∀ v, SetsSwitch "set-parallel-search" l v ↔ onOff a = some v := by
      intro v
      rw [onOff_iff]
      constructor
      · rintro ⟨a', pre, w, post, h', h⟩
        obtain ⟨_, rfl⟩ := line_unique (c := .setParallel) (c' := .setParallel) (by decide) (by decide) ha h'
        exact ⟨pre, w, post, h⟩
      · rintro ⟨pre, w, post, h⟩
        exact ⟨a, pre, w, post, ha, h⟩
    rw [hx]
    simp only [runCmd, huniq]
    cases ho : onOff a with
    | none => left; simp [setParallel, ho]
    | some v =>
      by_cases hv : st.parallel = v
      · left
        subst hv
        simp [setParallel, ho]
      · right
        have hv' : v = ! st.parallel := by cases v <;> cases hp : st.parallel <;> simp_all
        subst hv'
        cases hr : env.reopen st.world (! st.parallel) with
        | none => simp [setParallel, ho, hr]
        | some w => simp [setParallel, ho, hr]
  · left
    have hns : ¬ SetsSwitch "set-parallel-search" l (! st.parallel) := fun ⟨a, _, _, _, h, _⟩ => hl ⟨a, h⟩
    rcases exec_cases env st l with ⟨c, n, a, _, hn, hL, e⟩ | ⟨_, e⟩ | ⟨_, e⟩
    · have hc : c ≠ .setParallel := by
        rintro rfl
        simp only [nameOf, List.mem_cons, List.not_mem_nil, or_false] at hn
        subst hn
        exact hl ⟨a, hL⟩
      rw [e]
      exact ⟨(handle_others env st a c hc).1, (handle_others env st a c hc).2, trace_closed env st a c hc, hns⟩
    · rw [e]; exact ⟨rfl, rfl, fun _ => rfl, hns⟩
    · rw [e]; exact ⟨rfl, rfl, fun _ => rfl, hns⟩

/-- The storage stays open after any lines if it can always be opened. -/
theorem C104_open_partial (env : Env W) (hr : ∀ w v, (env.reopen w v).isSome) (st : St W) (ho : st.opened = true) (lines : List Str) :
    (runCommands env st lines).opened = true := by
  induction lines using List.reverseRecOn with
  | nil => exact ho
  | append_singleton ls l ih =>
    rw [step_cmd]
    rcases handle_step env (runCommands env st ls) l with ⟨h, _⟩ | ⟨_, _, ⟨_, h, _⟩ | ⟨h, _⟩⟩
    · rw [h]; exact ih
    · exact h
    · have := hr (runCommands env st ls).world (! (runCommands env st ls).parallel)
      rw [h] at this; cases this

/-- The storage is closed after a line exactly if it was closed and the line does not switch the parallel search, or the line switches it and the
storage cannot be opened again. -/
theorem C104_closed (env : Env W) (st : St W) (l : Str) : (exec env st l).1.opened = false ↔
    (st.opened = false ∧ ¬ SetsSwitch "set-parallel-search" l (! st.parallel)) ∨
      (SetsSwitch "set-parallel-search" l (! st.parallel) ∧ env.reopen st.world (! st.parallel) = none) := by
  rcases handle_step env st l with ⟨h, _, _, hn⟩ | ⟨hs, _, ⟨hr, h, _⟩ | ⟨hr, h, _⟩⟩
  · rw [h]; simp [hn]
  · rw [h]
    simp only [hs, not_true, and_false, false_or, true_and]
    constructor
    · intro h'; cases h'
    · intro h'; rw [h'] at hr; cases hr
  · rw [h]; simp [hs, hr]

/-- A closed storage is not asked anything, and stays closed, until a line switches the parallel search to the value it did not have before. -/
theorem C104_stays_closed (env : Env W) (st : St W) (ho : st.opened = false) (lines : List Str)
    (hn : ∀ l ∈ lines, ¬ SetsSwitch "set-parallel-search" l (! st.parallel)) :
    (runCommands env st lines).opened = false ∧ (runCommands env st lines).trace = st.trace ∧ (runCommands env st lines).parallel = st.parallel := by
  induction lines using List.reverseRecOn with
  | nil => exact ⟨ho, rfl, rfl⟩
  | append_singleton ls l ih =>
    obtain ⟨h1, h2, h3⟩ := ih fun l hl => hn l (by simp [hl])
    rw [step_cmd]
    rcases handle_step env (runCommands env st ls) l with ⟨g1, g2, g3, _⟩ | ⟨hs, _⟩
    · exact ⟨g1.trans h1, (g3 h1).trans h2, g2.trans h3⟩
    · rw [h3] at hs
      exact absurd hs (hn l (by simp))

/-- The trace is extended by requests other than opening a storage. -/
def Ext (a b : St W) : Prop := ∃ rs, b.trace = a.trace ++ rs ∧ ∀ v, Request.openStorage v ∉ rs

theorem Ext.same {a b : St W} (h : b.trace = a.trace) : Ext a b := ⟨[], by simp [h], by simp⟩

theorem Ext.trans {a b c : St W} (h : Ext a b) (g : Ext b c) : Ext a c := by
  obtain ⟨r, h1, h2⟩ := h
  obtain ⟨s, g1, g2⟩ := g
  exact ⟨r ++ s, by simp [g1, h1], fun v hv => (List.mem_append.1 hv).elim (h2 v) (g2 v)⟩

theorem ask_ext (env : Env W) (st : St W) (r : Request) (h : ∀ v, r ≠ .openStorage v) : Ext st (ask env st r).1 := by
  unfold ask; split
  · exact ⟨[r], rfl, fun v hv => h v (List.mem_singleton.1 hv).symm⟩
  · exact Ext.same rfl

theorem ask'ext (env : Env W) (st : St W) (r : Request) (h : ∀ v, r ≠ .openStorage v) : Ext st (ask_ env st r).1 := by
  rw [ask'fst]; exact ask_ext env st r h

theorem askAll_ext (env : Env W) : ∀ (rs : List Request) (st : St W), (∀ r ∈ rs, ∀ v, r ≠ .openStorage v) → Ext st (askAll env st rs).1
  | [], _, _ => Ext.same rfl
  | r :: rs, st, h => by
    unfold askAll
    have := ask'ext env st r (h r (by simp))
    rcases e : ask_ env st r with ⟨s, _ | x⟩
    · rw [e] at this; exact this.trans (askAll_ext env rs s fun r' h' => h r' (by simp [h']))
    · rw [e] at this; exact this

theorem ifSelected_ext {st : St W} {f : St W × Res} (h : Ext st f.1) : Ext st (ifSelected st f).1 := by
  unfold ifSelected; split
  · exact Ext.same rfl
  · exact h

theorem cmd_ext (env : Env W) (st : St W) (a : Str) (c : Cmd) (hc : c ≠ .setParallel) : Ext st (runCmd env st a c).1 := by
  cases c <;> simp only [runCmd]
  · simp only [importCmd]
    repeat' split
    all_goals first | exact Ext.same rfl | exact ask'ext _ _ _ (by simp)
  · simp only [exportCmd]
    repeat' split
    all_goals first | exact Ext.same rfl | exact ask'ext _ _ _ (by simp)
  · exact ask'ext _ _ _ (by simp)
  · simp only [deleteCmd]; split
    · exact Ext.same rfl
    · exact ask'ext _ _ _ (by simp)
  · unfold corpusCmd
    split
    · exact Ext.same rfl
    · have := ask_ext env st .list (by simp)
      rcases e : ask env st .list with ⟨s, x | x⟩ <;> (rw [e] at this; exact this)
  · simp only [setOffset]; split <;> [exact Ext.same rfl; (split <;> exact Ext.same rfl)]
  · simp only [setLimit]; split <;> [exact Ext.same rfl; (split <;> exact Ext.same rfl)]
  · simp only [setOrder]; repeat' split
    all_goals exact Ext.same rfl
  · simp only [setTimeout]; split <;> [exact Ext.same rfl; (split <;> exact Ext.same rfl)]
  · exact ifSelected_ext (askAll_ext _ _ _ (by simp))
  · exact ifSelected_ext (ask'ext _ _ _ (by simp))
  · exact askAll_ext _ _ _ (by simp)
  · exact ifSelected_ext (ask'ext _ _ _ (by simp))
  · exact ifSelected_ext (ask'ext _ _ _ (by simp))
  · refine ifSelected_ext ?_
    unfold frequencyCmd; split
    · exact Ext.same rfl
    · exact ask'ext _ _ _ (by simp)
  · exact absurd rfl hc
  · simp only [setDisk]; split <;> exact Ext.same rfl
  · simp only [setQuirks]; split <;> exact Ext.same rfl
  · exact ifSelected_ext (askAll_ext _ _ _ (by simp))
  · exact Ext.same rfl

/-- The ways in which the storage was opened. -/
def opens (trace : List Request) : List Bool := trace.filterMap fun r => match r with | .openStorage v => some v | _ => none

theorem opens_ext {a b : St W} (h : Ext a b) : opens b.trace = opens a.trace := by
  obtain ⟨rs, h1, h2⟩ := h
  rw [h1, opens, List.filterMap_append]
  have : rs.filterMap (fun r => match r with | .openStorage v => some v | _ => none) = [] := by
    rw [List.filterMap_eq_nil_iff]
    intro r hr
    cases r <;> first | rfl | exact absurd hr (h2 _)
  rw [this, List.append_nil]; rfl

/-- The parallel search which the runner believes in is the one with which the open storage was opened last. -/
theorem C104_parallel (env : Env W) (w : W) (st : St W) (hst : start env w = some st) (lines : List Str)
    (ho : (runCommands env st lines).opened = true) :
    (opens (runCommands env st lines).trace).getLast? = some (runCommands env st lines).parallel := by
  have h0 : st.opened = true ∧ opens st.trace = [true] ∧ st.parallel = true := by
    unfold start at hst
    cases hr : env.reopen w true with
    | none => simp [hr] at hst
    | some w' =>
      simp only [hr, Option.map_some, Option.some.injEq] at hst
      subst hst; exact ⟨rfl, rfl, rfl⟩
  clear hst
  induction lines using List.reverseRecOn with
  | nil =>
    show (opens st.trace).getLast? = some st.parallel
    rw [h0.2.1, h0.2.2]; rfl
  | append_singleton ls l ih =>
    rw [step_cmd] at ho ⊢
    rcases handle_step env (runCommands env st ls) l with ⟨g1, g2, _, hn⟩ | ⟨_, ht, ⟨_, _, hp⟩ | ⟨_, hc, _⟩⟩
    · rw [g1] at ho
      rw [g2, ← ih ho]
      congr 1
      refine opens_ext ?_
      rcases exec_cases env (runCommands env st ls) l with ⟨c, n, a, _, hcn, hL, e⟩ | ⟨_, e⟩ | ⟨_, e⟩
      · rw [e]
        by_cases hc : c = .setParallel
        · subst hc
          refine Ext.same ?_
          simp only [runCmd, setParallel]
          cases hv : onOff a with
          | none => rfl
          | some v =>
            have hpv : (runCommands env st ls).parallel = v := by
              by_contra hne
              apply hn
              have : v = ! (runCommands env st ls).parallel := by
                cases v <;> cases hp : (runCommands env st ls).parallel <;> simp_all
              rw [← this]
              simp only [nameOf, List.mem_cons, List.not_mem_nil, or_false] at hcn
              subst hcn
              obtain ⟨pre, w, post, h⟩ := (onOff_iff a v).1 hv
              exact ⟨a, pre, w, post, hL, h⟩
            simp [hpv]
        · exact cmd_ext env _ a c hc
      · rw [e]; exact Ext.same rfl
      · rw [e]; exact Ext.same rfl
    · rw [ht, hp]
      simp [opens]
    · rw [hc] at ho; cases ho

end Cli
