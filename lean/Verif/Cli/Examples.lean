import Verif.Cli.Completion

/-!
# Examples for the command line (C102-C106)
-/

set_option linter.unusedSimpArgs false

namespace Cli

/-- A storage whose state is the list of its corpora. -/
def exEnv : Env (List Str) where
  call := fun w r =>
    match r with
    | .list => (some w, w)
    | .delete n => (some [], w.filter (· ≠ n))
    | _ => (some [], w)
  reopen := fun w _ => some w
  pathExists := fun _ p => p == "a.GraphML".toList || p == "dir".toList
  fileOpens := fun _ _ => true

/-- The same storage, which cannot be opened a second time without parallel search. -/
def exLocked : Env (List Str) := { exEnv with reopen := fun w v => if v then some w else none }

def exSt : St (List Str) := { world := ["a".toList, "b c".toList, "d".toList] }

def ls (l : List String) : List Str := l.map String.toList

theorem exKeeps : Keeps exEnv id where
  answer := by
    intro w a h n hn
    have : w = a := by simpa [exEnv] using h
    subst this; exact hn
  call := by
    intro w r n h hr
    cases r <;> try exact h
    rename_i m
    have hnm : n ≠ m := fun e => hr (by rw [e])
    show n ∈ w.filter (· ≠ m)
    simp only [List.mem_filter, decide_eq_true_eq]
    exact ⟨h, hnm⟩
  reopen := by
    intro w v w' h n hn
    have : w = w' := by simpa [exEnv] using h
    subst this; exact hn

/-- The hypotheses of the theorems about settings and selections hold after some lines; the search uses the last values. -/
theorem C102_nonvacuous :
    (runCommands exEnv exSt (ls ["set-offset 7", "set-limit  +05 ", "corpus d  a x a", "set-order Random", "set-offset x", "set-quirks-mode ON",
      "find tok"])).trace =
      [.list, .find ⟨["d".toList, "a".toList, "a".toList], "tok".toList, true, none⟩ 7 (some 5) .randomized] ∧
    (runCommands exEnv exSt (ls ["set-offset 7", "set-offset", "corpus d"])).offset = 0 := by decide

/-- With `-c` the commands behind `quit` are executed, other than in the interactive loop. -/
theorem C102_quit_fails : (runCommands exEnv exSt (ls ["quit", "delete a"])).world = ["b c".toList, "d".toList] ∧
    (runLoop exEnv exSt (ls ["quit", "delete a"])).world = ["a".toList, "b c".toList, "d".toList] := by decide

/-- White space at the end makes the name of an order invalid, other than for numbers and switches. -/
theorem C102_order_space_fails : (runCommands exEnv exSt (ls ["set-order inverted "])).order = .normal ∧
    (runCommands exEnv exSt (ls ["set-limit 3 "])).limit = some 3 := by decide

/-- A deleted corpus stays selected, and the storage is asked for it. -/
theorem C103_deleted_fails :
    "a".toList ∈ (runCommands exEnv exSt (ls ["corpus a", "delete a"])).sel ∧ "a".toList ∉ (runCommands exEnv exSt (ls ["corpus a", "delete a"])).world ∧
    Request.count ⟨["a".toList], "tok".toList, false, none⟩ ∈ (runCommands exEnv exSt (ls ["corpus a", "delete a", "count tok"])).trace := by decide

/-- A corpus with a space in its name cannot be selected, but deleted. -/
theorem C103_space_fails : (runCommands exEnv exSt (ls ["corpus b c"])).sel = [] ∧ ¬ IsWord "b c".toList ∧
    (runCommands exEnv exSt (ls ["delete b c"])).world = ["a".toList, "d".toList] := by
  refine ⟨by decide, ?_, by decide⟩
  intro h
  have := h.2 ' ' (by decide)
  revert this; decide

theorem C103_nonvacuous : Spelled " d  a".toList ["d".toList, "a".toList] ∧ (∀ c ∈ exSt.sel, c ∈ exSt.world) ∧
    (runCommands exEnv exSt (ls ["corpus d a"])).sel = ["d".toList, "a".toList] := by
  refine ⟨?_, by decide, by decide⟩
  have h2 := Spelled.word "  ".toList "a".toList [] [] (by simp [AllAsciiWs, isAsciiWs]) ⟨by decide, by decide⟩ (.done [] (by simp [AllAsciiWs])) (by simp)
  exact Spelled.word " ".toList "d".toList _ _ (by simp [AllAsciiWs, isAsciiWs]) ⟨by decide, by decide⟩ h2 (by decide)

/-- If the storage cannot be opened again it is gone: the same command with the old value reports success but opens nothing, and all other commands
fail. -/
theorem C104_lost_fails :
    (exec exLocked exSt "set-parallel-search off".toList).2.1 = some .storage ∧
    (exec exLocked (runCommands exLocked exSt (ls ["set-parallel-search off"])) "set-parallel-search on".toList).2.1 = none ∧
    (runCommands exLocked exSt (ls ["set-parallel-search off", "set-parallel-search on"])).opened = false ∧
    (exec exLocked (runCommands exLocked exSt (ls ["set-parallel-search off", "set-parallel-search on"])) "list".toList).2.1 = some .noStorage := by
  decide

theorem C104_nonvacuous : (∀ w v, (exEnv.reopen w v).isSome) ∧ (start exEnv exSt.world).isSome ∧
    (runCommands exEnv exSt (ls ["set-parallel-search off", "list"])).opened = true ∧
    (runCommands exEnv exSt (ls ["set-parallel-search off", "list"])).parallel = false := by
  refine ⟨fun _ _ => rfl, by decide, by decide, by decide⟩

/-- With the cursor inside of the line the completion replaces a part of the command, or its computation overflows. -/
theorem C105_cursor_fails :
    complete ["abc".toList] "corpus ab".toList 8 = .at 6 ["abc".toList] ∧
    chosen (utf8 "corpus ab".toList) 6 8 (utf8 "abc".toList) = utf8 "corpusabcb".toList ∧
    complete [] "corpus abc".toList 2 = .overflow := by decide

theorem C105_nonvacuous : CorpusLine "corpus a".toList "bc".toList ∧ PlainLine "set-".toList ∧
    complete [] "set-o".toList 5 = .at 0 ["set-offset".toList, "set-order".toList] := by
  refine ⟨⟨by decide, by decide⟩, ⟨by decide, by decide, by decide, by decide⟩, by decide⟩

theorem C106_nonvacuous : HasExt "x/a.GraphML".toList "GraphML".toList ∧ NoExt "x/dir".toList ∧
    (runCommands exEnv { exSt with sel := ["a".toList] } (ls ["export a.GraphML", "import a.GraphML"])).trace =
      [.exportFs ["a".toList] "a.GraphML".toList .graphML, .importFs "a.GraphML".toList .graphML none false] := by
  refine ⟨⟨"x/".toList, "a".toList, by decide, .inr ⟨"x".toList, by decide⟩, by decide, by decide, by decide, by decide, by decide⟩,
    ⟨"x/".toList, "dir".toList, by decide, .inr ⟨"x".toList, by decide⟩, by decide, by decide, by decide⟩, by decide⟩

/-- A GraphML file with another extension is imported as relANNIS corpus. -/
theorem C106_txt_fails : ¬ Agree .graphML (.importFs "a.txt".toList .relANNIS none false) ∧
    (exportCmd exEnv exSt "a.txt".toList).1.trace = [.exportFs [] "a.txt".toList .graphML] := by
  refine ⟨by simp [Agree], by decide⟩

end Cli
