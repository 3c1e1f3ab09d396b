import Verif.Cli.Model
import Verif.Rel.VisRows

/-!
# Settings of the command line (C102)
-/

set_option linter.unusedSimpArgs false

namespace Cli

variable {W : Type}

/-! ## Specification -/

/-- A line consists of a command and an argument: the argument follows after the first space, and is empty without a space. -/
def Line (cmd : String) (arg line : Str) : Prop := line = cmd.toList ++ ' ' :: arg ∨ (line = cmd.toList ∧ arg = [])

def AllWs (s : Str) : Prop := ∀ c ∈ s, isWs c = true

/-- The text shows a number of at most 64 bits, between white space and maybe with a plus sign. -/
def ShowsNum (a : Str) (n : Nat) : Prop :=
  ∃ pre plus ds post, a = pre ++ (plus ++ ds) ++ post ∧ AllWs pre ∧ AllWs post ∧ (plus = [] ∨ plus = ['+']) ∧ ds ≠ [] ∧
    (∀ c ∈ ds, c.isDigit) ∧ Nat.ofDigitChars 10 ds 0 = n ∧ n < 2 ^ 64

/-- The line sets a number, which is back at `dflt` without an argument. -/
def SetsNum {α : Type} (cmd : String) (dflt : α) (f : Nat → α) (line : Str) (v : α) : Prop :=
  ∃ a, Line cmd a line ∧ ((a = [] ∧ v = dflt) ∨ ∃ n, ShowsNum a n ∧ v = f n)

/-- The names of the orders. -/
def orderName : ResultOrder → String
  | .normal => "normal"
  | .inverted => "inverted"
  | .randomized => "random"
  | .notSorted => "unsorted"

/-- The line sets the order. -/
def SetsOrder (line : Str) (o : ResultOrder) : Prop :=
  ∃ a, Line "set-order" a line ∧ ((a = [] ∧ o = .normal) ∨ a.map Char.toLower = (orderName o).toList)

/-- The line sets a switch. -/
def SetsSwitch (cmd : String) (line : Str) (v : Bool) : Prop :=
  ∃ a pre w post, Line cmd a line ∧ a = pre ++ w ++ post ∧ AllWs pre ∧ AllWs post ∧
    w.map Char.toLower ∈ (if v then ["on".toList, "true".toList] else ["off".toList, "false".toList])

/-- The value that the last of the lines sets which sets one, and the first value if there is none. -/
def LastSet {α : Type} (P : Str → α → Prop) (init : α) (lines : List Str) (v : α) : Prop :=
  (∃ before l after, lines = before ++ l :: after ∧ P l v ∧ ∀ x ∈ after, ∀ u, ¬ P x u) ∨
    (v = init ∧ ∀ x ∈ lines, ∀ u, ¬ P x u)

/-- The line ends the program. -/
def Quits (line : Str) : Prop := ∃ a, Line "quit" a line ∨ Line "exit" a line

/-! ## Lines -/

theorem cmdArgs_line {cmd : String} {a l : Str} (hc : ' ' ∉ cmd.toList) (h : Line cmd a l) : cmdArgs l = (cmd.toList, a) := by
  rcases h with h | ⟨h, ha⟩
  · subst h; simp only [cmdArgs, splitOnce_append hc a]
  · subst h; subst ha; simp only [cmdArgs, splitOnce_none hc]

theorem line_cmdArgs (l : Str) (cmd : String) (h : (cmdArgs l).1 = cmd.toList) : Line cmd (cmdArgs l).2 l := by
  unfold cmdArgs at h ⊢
  cases hs : splitOnce ' ' l with
  | none => simp only [hs] at h ⊢; exact .inr ⟨h, rfl⟩
  | some p =>
    obtain ⟨a, b⟩ := p
    simp only [hs] at h ⊢
    subst h
    exact .inl (splitOnce_some hs).2

theorem line_iff {cmd : String} (hc : ' ' ∉ cmd.toList) {a l : Str} : Line cmd a l ↔ cmdArgs l = (cmd.toList, a) := by
  constructor
  · exact cmdArgs_line hc
  · intro h
    have := line_cmdArgs l cmd (by rw [h])
    rw [h] at this
    exact this

theorem lookup_mem {α β : Type} [BEq α] [LawfulBEq α] {a : α} {b : β} : ∀ {t : List (α × β)}, t.lookup a = some b → (a, b) ∈ t
  | [], h => by simp at h
  | (x, y) :: t, h => by
    rw [List.lookup_cons] at h
    cases hx : a == x with
    | true => simp only [hx] at h; rw [eq_of_beq hx]; simp_all
    | false => simp only [hx] at h; exact List.mem_cons_of_mem _ (lookup_mem h)

/-- The names of the commands. -/
def nameOf : Cmd → List String
  | .importCmd => ["import"]
  | .exportCmd => ["export"]
  | .list => ["list"]
  | .delete => ["delete"]
  | .corpus => ["corpus"]
  | .setOffset => ["set-offset"]
  | .setLimit => ["set-limit"]
  | .setOrder => ["set-order"]
  | .setTimeout => ["set-timeout"]
  | .preload => ["preload"]
  | .plan => ["plan"]
  | .reoptimize => ["re-optimize"]
  | .count => ["count"]
  | .find => ["find"]
  | .frequency => ["frequency"]
  | .setParallel => ["set-parallel-search"]
  | .setDisk => ["set-disk-based"]
  | .setQuirks => ["set-quirks-mode"]
  | .info => ["info"]
  | .quit => ["quit", "exit"]

theorem table_names : ∀ p ∈ cmdTable, p.1 ∈ (nameOf p.2).map String.toList := by decide
theorem names_table : ∀ c ∈ [Cmd.importCmd, .exportCmd, .list, .delete, .corpus, .setOffset, .setLimit, .setOrder, .setTimeout,
    .preload, .plan, .reoptimize, .count, .find, .frequency, .setParallel, .setDisk, .setQuirks, .info, .quit],
    ∀ n ∈ nameOf c, cmdTable.lookup n.toList = some c ∧ ' ' ∉ n.toList := by decide

theorem all_cmds (c : Cmd) : c ∈ [Cmd.importCmd, .exportCmd, .list, .delete, .corpus, .setOffset, .setLimit, .setOrder, .setTimeout,
    .preload, .plan, .reoptimize, .count, .find, .frequency, .setParallel, .setDisk, .setQuirks, .info, .quit] := by
  cases c <;> decide

theorem lookup_iff (s : Str) (c : Cmd) : cmdTable.lookup s = some c ↔ s ∈ (nameOf c).map String.toList := by
  constructor
  · intro h
    exact table_names _ (lookup_mem h)
  · intro h
    obtain ⟨n, hn, rfl⟩ := List.mem_map.1 h
    exact (names_table c (all_cmds c) n hn).1

theorem not_space {c : Cmd} {n : String} (hn : n ∈ nameOf c) : ' ' ∉ n.toList := (names_table c (all_cmds c) n hn).2

/-- The effect of a line with a command. -/
theorem exec_line (env : Env W) (st : St W) {c : Cmd} (hq : c ≠ .quit) {n : String} (hn : n ∈ nameOf c) {a l : Str} (h : Line n a l) :
    exec env st l = ((runCmd env st a c).1, (runCmd env st a c).2, true) := by
  have hl : cmdTable.lookup n.toList = some c := (lookup_iff _ _).2 (List.mem_map.2 ⟨n, hn, rfl⟩)
  simp only [exec, cmdArgs_line (not_space hn) h, hl]

/-- A line is a command, or not known. -/
theorem exec_cases (env : Env W) (st : St W) (l : Str) :
    (∃ c n a, c ≠ .quit ∧ n ∈ nameOf c ∧ Line n a l ∧ exec env st l = ((runCmd env st a c).1, (runCmd env st a c).2, true)) ∨
      (Quits l ∧ exec env st l = (st, none, false)) ∨
      ((∀ c, ∀ n ∈ nameOf c, ∀ a, ¬ Line n a l) ∧ exec env st l = (st, some .unknownCommand, true)) := by
  cases hl : cmdTable.lookup (cmdArgs l).1 with
  | none =>
    refine .inr (.inr ⟨?_, by simp only [exec, hl]⟩)
    intro c n hn a h
    rw [cmdArgs_line (not_space hn) h, (lookup_iff _ c).2 (List.mem_map.2 ⟨n, hn, rfl⟩)] at hl
    cases hl
  | some c =>
    obtain ⟨n, hn, hne⟩ := List.mem_map.1 ((lookup_iff _ _).1 hl)
    have hL := line_cmdArgs l n hne.symm
    by_cases hq : c = .quit
    · subst hq
      refine .inr (.inl ⟨?_, by simp only [exec, hl]⟩)
      simp only [nameOf, List.mem_cons, List.not_mem_nil, or_false] at hn
      rcases hn with rfl | rfl
      · exact ⟨_, .inl hL⟩
      · exact ⟨_, .inr hL⟩
    · exact .inl ⟨c, n, _, hq, hn, hL, exec_line env st hq hn hL⟩

/-- The command of a line is determined. -/
theorem line_unique {c c' : Cmd} {n n' : String} (hn : n ∈ nameOf c) (hn' : n' ∈ nameOf c') {a a' l : Str} (h : Line n a l)
    (h' : Line n' a' l) : c = c' ∧ a = a' := by
  have e := cmdArgs_line (not_space hn) h
  rw [cmdArgs_line (not_space hn') h'] at e
  obtain ⟨e1, e2⟩ := Prod.mk.inj e
  have l1 := (lookup_iff _ c).2 (List.mem_map.2 ⟨n, hn, rfl⟩)
  have l2 := (lookup_iff _ c').2 (List.mem_map.2 ⟨n', hn', rfl⟩)
  rw [e1, l1] at l2
  exact ⟨Option.some.inj l2, e2.symm⟩

/-! ## Numbers and switches -/

theorem trim_parts (a : Str) : ∃ pre post, a = pre ++ Rel.trimStr a ++ post ∧ AllWs pre ∧ AllWs post := by
  refine ⟨a.takeWhile isWs, ((a.dropWhile isWs).reverse.takeWhile isWs).reverse, ?_, ?_, ?_⟩
  · unfold Rel.trimStr
    rw [List.append_assoc, ← List.reverse_append, List.takeWhile_append_dropWhile, List.reverse_reverse,
      List.takeWhile_append_dropWhile]
  · intro c hc; exact List.mem_takeWhile_imp hc
  · intro c hc; exact List.mem_takeWhile_imp (List.mem_reverse.1 hc)

theorem digit_not_ws {c : Char} (h : c.isDigit) : isWs c = false := by
  have h1 : 48 ≤ c.toNat ∧ c.toNat ≤ 57 := by
    simp only [Char.isDigit, Bool.and_eq_true, decide_eq_true_eq] at h
    exact ⟨by have := UInt32.le_iff_toNat_le.1 h.1; simpa using this, by have := UInt32.le_iff_toNat_le.1 h.2; simpa using this⟩
  obtain ⟨h1, h2⟩ := h1
  simp only [isWs, Bool.or_eq_false_iff, Bool.and_eq_false_iff, decide_eq_false_iff_not, beq_eq_false_iff_ne]
  omega

theorem trim_eq {a pre w post : Str} (h : a = pre ++ w ++ post) (h1 : AllWs pre) (h2 : AllWs post) (hw : Rel.Spec.Trimmed w) :
    Rel.trimStr a = w := by
  rw [h]; exact Rel.C87_trim h1 h2 hw

theorem parse_iff (a : Str) (n : Nat) : Rel.parseNat Rel.u64Max (Rel.trimStr a) = some n ↔ ShowsNum a n := by
  constructor
  · intro h
    obtain ⟨pre, post, ha, h1, h2⟩ := trim_parts a
    unfold Rel.parseNat at h
    split at h
    · rename_i hd
      split at h
      · rename_i hb
        obtain ⟨hne, hall⟩ := hd
        have hs : ∃ plus, Rel.trimStr a = plus ++ Rel.stripPlus (Rel.trimStr a) ∧ (plus = [] ∨ plus = ['+']) := by
          generalize Rel.trimStr a = t
          cases t with
          | nil => exact ⟨[], rfl, .inl rfl⟩
          | cons c r =>
            by_cases hc : c = '+'
            · exact ⟨['+'], by simp [Rel.stripPlus, hc], .inr rfl⟩
            · exact ⟨[], by simp [Rel.stripPlus, hc], .inl rfl⟩
        obtain ⟨plus, hp, hpp⟩ := hs
        refine ⟨pre, plus, Rel.stripPlus (Rel.trimStr a), post, ?_, h1, h2, hpp, hne, ?_, by simpa using h, ?_⟩
        · rw [← hp]; exact ha
        · intro c hc; exact List.all_eq_true.1 hall c hc
        · have := Option.some.inj h; rw [← this]; exact hb
      · cases h
    · cases h
  · rintro ⟨pre, plus, ds, post, ha, h1, h2, hp, hne, hd, hv, hb⟩
    have ht : Rel.trimStr a = plus ++ ds := by
      refine trim_eq ha h1 h2 ⟨?_, ?_⟩
      · intro c hc
        rcases hp with rfl | rfl
        · exact digit_not_ws (hd c (List.mem_of_mem_head? (by simpa using hc)))
        · simp only [List.cons_append, List.head?_cons, Option.some.injEq] at hc
          subst hc; decide
      · intro c hc
        rw [List.getLast?_append_of_ne_nil _ hne] at hc
        exact digit_not_ws (hd c (List.mem_of_getLast? hc))
    have hs : Rel.stripPlus (plus ++ ds) = ds := by
      rcases hp with rfl | rfl
      · cases ds with
        | nil => rfl
        | cons c r =>
          have : c ≠ '+' := by
            intro h; have := hd c (by simp); subst h; revert this; decide
          simp [Rel.stripPlus, this]
      · simp [Rel.stripPlus]
    unfold Rel.parseNat
    rw [ht, hs, if_pos ⟨hne, List.all_eq_true.2 hd⟩, hv, if_pos (show n < Rel.u64Max from hb)]

theorem lower_length (w : Str) : (Rel.lower w).length = w.length := by simp [Rel.lower]

theorem lower_not_ws {c : Char} (h : isWs c = true) : isWs c.toLower = true := by
  unfold Char.toLower
  split
  · rename_i hc
    exfalso
    simp only [isWs, Bool.or_eq_true, Bool.and_eq_true, decide_eq_true_eq, beq_iff_eq] at h
    have h1 : 65 ≤ c.toNat ∧ c.toNat ≤ 90 := by
      refine ⟨?_, ?_⟩
      · have := UInt32.le_iff_toNat_le.1 hc.1; simpa using this
      · have := UInt32.le_iff_toNat_le.1 hc.2; simpa using this
    omega
  · exact h

theorem trimmed_of_lower {w : Str} (h : Rel.Spec.Trimmed (Rel.lower w)) : Rel.Spec.Trimmed w := by
  constructor
  · intro c hc
    cases hb : isWs c with
    | false => rfl
    | true =>
      have := h.1 c.toLower (by unfold Rel.lower; rw [List.head?_map, hc]; rfl)
      rw [lower_not_ws hb] at this; cases this
  · intro c hc
    cases hb : isWs c with
    | false => rfl
    | true =>
      have := h.2 c.toLower (by unfold Rel.lower; rw [List.getLast?_map, hc]; rfl)
      rw [lower_not_ws hb] at this; cases this

theorem onOff_iff (a : Str) (v : Bool) : onOff a = some v ↔
    ∃ pre w post, a = pre ++ w ++ post ∧ AllWs pre ∧ AllWs post ∧
      w.map Char.toLower ∈ (if v then ["on".toList, "true".toList] else ["off".toList, "false".toList]) := by
  constructor
  · intro h
    obtain ⟨pre, post, ha, h1, h2⟩ := trim_parts a
    refine ⟨pre, _, post, ha, h1, h2, ?_⟩
    simp only [onOff] at h
    split at h
    · rename_i hw
      cases Option.some.inj h
      simpa [Rel.lower] using hw
    · split at h
      · rename_i hw
        cases Option.some.inj h
        simpa [Rel.lower] using hw
      · cases h
  · rintro ⟨pre, w, post, ha, h1, h2, hw⟩
    have ht : Rel.trimStr a = w := by
      refine trim_eq ha h1 h2 (trimmed_of_lower ?_)
      have : ∀ s ∈ ["on".toList, "true".toList, "off".toList, "false".toList], s.head?.any (! isWs ·) = true ∧ s.getLast?.any (! isWs ·) = true := by decide
      have hm : Rel.lower w ∈ ["on".toList, "true".toList, "off".toList, "false".toList] := by
        unfold Rel.lower
        cases v <;> simp only [if_true, Bool.false_eq_true, if_false, List.mem_cons, List.not_mem_nil, or_false] at hw ⊢ <;> tauto
      obtain ⟨g1, g2⟩ := this _ hm
      constructor
      · intro c hc; rw [hc] at g1; simpa using g1
      · intro c hc; rw [hc] at g2; simpa using g2
    simp only [onOff, ht]
    have hne : ¬ ("off".toList = "on".toList ∨ "off".toList = "true".toList) ∧ ¬ ("false".toList = "on".toList ∨ "false".toList = "true".toList) := by decide
    cases v
    · simp only [Bool.false_eq_true, if_false, List.mem_cons, List.not_mem_nil, or_false] at hw
      have hw' : Rel.lower w = "off".toList ∨ Rel.lower w = "false".toList := hw
      rcases hw' with e | e
      · rw [e, if_neg hne.1]; simp
      · rw [e, if_neg hne.2]; simp
    · simp only [if_true, List.mem_cons, List.not_mem_nil, or_false] at hw
      exact if_pos hw

/-! ## What the commands keep -/

/-- Nothing but the state of the storage and the trace changes. -/
structure Same (a b : St W) : Prop where
  opened : b.opened = a.opened
  sel : b.sel = a.sel
  offset : b.offset = a.offset
  limit : b.limit = a.limit
  order : b.order = a.order
  parallel : b.parallel = a.parallel
  disk : b.disk = a.disk
  quirks : b.quirks = a.quirks
  timeout : b.timeout = a.timeout

theorem Same.refl (a : St W) : Same a a := ⟨rfl, rfl, rfl, rfl, rfl, rfl, rfl, rfl, rfl⟩

theorem Same.trans {a b c : St W} (h : Same a b) (g : Same b c) : Same a c :=
  ⟨g.1.trans h.1, g.2.trans h.2, g.3.trans h.3, g.4.trans h.4, g.5.trans h.5, g.6.trans h.6, g.7.trans h.7, g.8.trans h.8, g.9.trans h.9⟩

theorem ask_same (env : Env W) (st : St W) (r : Request) : Same st (ask env st r).1 := by
  unfold ask; split
  · exact ⟨rfl, rfl, rfl, rfl, rfl, rfl, rfl, rfl, rfl⟩
  · exact Same.refl _

theorem ask'fst (env : Env W) (st : St W) (r : Request) : (ask_ env st r).1 = (ask env st r).1 := by
  unfold ask_
  rcases h : ask env st r with ⟨s, e | a⟩ <;> rfl

theorem ask'same (env : Env W) (st : St W) (r : Request) : Same st (ask_ env st r).1 := by
  rw [ask'fst]; exact ask_same env st r

theorem askAll_same (env : Env W) : ∀ (rs : List Request) (st : St W), Same st (askAll env st rs).1
  | [], st => Same.refl st
  | r :: rs, st => by
    unfold askAll
    have h := ask'same env st r
    rcases hr : ask_ env st r with ⟨s, _ | e⟩
    · rw [hr] at h; exact h.trans (askAll_same env rs s)
    · rw [hr] at h; exact h

theorem ifSelected_same {st : St W} {f : St W × Res} (h : Same st f.1) : Same st (ifSelected st f).1 := by
  unfold ifSelected; split
  · exact Same.refl _
  · exact h

/-- The commands which change no setting and no selection. -/
def Cmd.isQuiet : Cmd → Bool
  | .corpus | .setOffset | .setLimit | .setOrder | .setTimeout | .setParallel | .setDisk | .setQuirks => false
  | _ => true

theorem quiet_same (env : Env W) (st : St W) (args : Str) (c : Cmd) (h : c.isQuiet = true) : Same st (runCmd env st args c).1 := by
  cases c <;> simp only [Cmd.isQuiet, Bool.false_eq_true] at h <;> simp only [runCmd]
  · simp only [importCmd]
    split
    · exact Same.refl _
    split
    · split
      · split
        · exact ask'same _ _ _
        · exact Same.refl _
      · exact ask'same _ _ _
    · exact Same.refl _
  · simp only [exportCmd]
    split
    · exact Same.refl _
    split
    · split
      · exact ask'same _ _ _
      · split
        · exact Same.refl _
        · exact ask'same _ _ _
    · exact ask'same _ _ _
  · exact ask'same _ _ _
  · simp only [deleteCmd]
    split
    · exact Same.refl _
    · exact ask'same _ _ _
  · exact ifSelected_same (askAll_same _ _ _)
  · exact ifSelected_same (ask'same _ _ _)
  · exact askAll_same _ _ _
  · exact ifSelected_same (ask'same _ _ _)
  · exact ifSelected_same (ask'same _ _ _)
  · refine ifSelected_same ?_
    unfold frequencyCmd
    split
    · exact Same.refl _
    · exact ask'same _ _ _
  · exact ifSelected_same (askAll_same _ _ _)
  · exact Same.refl _

theorem corpus_same (env : Env W) (st : St W) (args : Str) : Same st { (corpusCmd env st args).1 with sel := st.sel } := by
  unfold corpusCmd
  split
  · exact ⟨rfl, rfl, rfl, rfl, rfl, rfl, rfl, rfl, rfl⟩
  · have h := ask_same env st .list
    rcases hr : ask env st .list with ⟨s, e | a⟩
    · rw [hr] at h; exact ⟨h.1, rfl, h.3, h.4, h.5, h.6, h.7, h.8, h.9⟩
    · rw [hr] at h; exact ⟨h.1, rfl, h.3, h.4, h.5, h.6, h.7, h.8, h.9⟩

theorem parallel_same (env : Env W) (st : St W) (args : Str) :
    Same st { (setParallel env st args).1 with opened := st.opened, parallel := st.parallel } := by
  unfold setParallel
  split
  · exact ⟨rfl, rfl, rfl, rfl, rfl, rfl, rfl, rfl, rfl⟩
  · split
    · split <;> exact ⟨rfl, rfl, rfl, rfl, rfl, rfl, rfl, rfl, rfl⟩
    · exact ⟨rfl, rfl, rfl, rfl, rfl, rfl, rfl, rfl, rfl⟩

/-! ## The last value -/

theorem lastSet_of_step {α : Type} (env : Env W) (f : St W → α) (P : Str → α → Prop)
    (h : ∀ (st : St W) (l : Str), P l (f (exec env st l).1) ∨ ((∀ u, ¬ P l u) ∧ f (exec env st l).1 = f st)) (st : St W) (lines : List Str) :
    LastSet P (f st) lines (f (runCommands env st lines)) := by
  induction lines using List.reverseRecOn with
  | nil => exact .inr ⟨rfl, by simp⟩
  | append_singleton ls l ih =>
    have e : runCommands env st (ls ++ [l]) = (exec env (runCommands env st ls) l).1 := by simp [runCommands]
    rw [e]
    rcases h (runCommands env st ls) l with hp | ⟨hn, he⟩
    · exact .inl ⟨ls, l, [], rfl, hp, by simp⟩
    · rw [he]
      rcases ih with ⟨b, x, a, hl, hx, ha⟩ | ⟨hv, hx⟩
      · refine .inl ⟨b, x, a ++ [l], by simp [hl], hx, ?_⟩
        intro y hy
        rcases List.mem_append.1 hy with hy | hy
        · exact ha y hy
        · simp only [List.mem_cons, List.not_mem_nil, or_false] at hy; subst hy; exact hn
      · refine .inr ⟨hv, ?_⟩
        intro y hy
        rcases List.mem_append.1 hy with hy | hy
        · exact hx y hy
        · simp only [List.mem_cons, List.not_mem_nil, or_false] at hy; subst hy; exact hn

/-- It is enough to look at the command which sets the value. -/
theorem step_of_cmd {α : Type} (env : Env W) (f : St W → α) (P : Str → α → Prop) (c : Cmd) (n : String) (hn : n ∈ nameOf c) (hq : c ≠ .quit)
    (hP : ∀ l u, P l u → ∃ a, Line n a l)
    (hc : ∀ (st : St W) (a l : Str), Line n a l → P l (f (runCmd env st a c).1) ∨ ((∀ u, ¬ P l u) ∧ f (runCmd env st a c).1 = f st))
    (ho : ∀ (st : St W) (a : Str) (c' : Cmd), c' ≠ c → f (runCmd env st a c').1 = f st) (st : St W) (l : Str) :
    P l (f (exec env st l).1) ∨ ((∀ u, ¬ P l u) ∧ f (exec env st l).1 = f st) := by
  by_cases hl : ∃ a, Line n a l
  · obtain ⟨a, ha⟩ := hl
    rw [exec_line env st hq hn ha]
    exact hc st a l ha
  · refine .inr ⟨fun u hu => hl (hP l u hu), ?_⟩
    rcases exec_cases env st l with ⟨c', n', a, _, hn', hL, e⟩ | ⟨_, e⟩ | ⟨_, e⟩
    · rw [e]
      refine ho st a c' ?_
      intro he
      subst he
      have : n' = n := by
        cases c' <;> simp only [nameOf, List.mem_cons, List.not_mem_nil, or_false] at hn hn' <;> first | exact absurd rfl hq | (rw [hn, hn'])
      subst this
      exact hl ⟨a, hL⟩
    · rw [e]
    · rw [e]

/-- The other commands keep the value. -/
theorem others_keep {α : Type} (env : Env W) (f : St W → α) (c : Cmd)
    (hs : ∀ a b : St W, Same a b → f b = f a) (h1 : ∀ (st : St W) s, f { st with sel := s } = f st)
    (h2 : ∀ (st : St W) o p, f { st with opened := o, parallel := p } = f st)
    (hoff : c ≠ .setOffset → ∀ (st : St W) v, f { st with offset := v } = f st)
    (hlim : c ≠ .setLimit → ∀ (st : St W) v, f { st with limit := v } = f st)
    (hord : c ≠ .setOrder → ∀ (st : St W) v, f { st with order := v } = f st)
    (htim : c ≠ .setTimeout → ∀ (st : St W) v, f { st with timeout := v } = f st)
    (hdis : c ≠ .setDisk → ∀ (st : St W) v, f { st with disk := v } = f st)
    (hqui : c ≠ .setQuirks → ∀ (st : St W) v, f { st with quirks := v } = f st)
    (st : St W) (a : Str) (c' : Cmd) (hne : c' ≠ c) : f (runCmd env st a c').1 = f st := by
  cases hq : c'.isQuiet with
  | true => exact hs _ _ (quiet_same env st a c' hq)
  | false =>
    cases c' <;> simp only [Cmd.isQuiet] at hq <;> try exact absurd hq (by decide)
    · simp only [runCmd]
      rw [← h1 (corpusCmd env st a).1 st.sel]; exact hs _ _ (corpus_same env st a)
    · simp only [runCmd, setOffset]
      split
      · exact hoff hne.symm _ _
      · split
        · exact hoff hne.symm _ _
        · rfl
    · simp only [runCmd, setLimit]
      split
      · exact hlim hne.symm _ _
      · split
        · exact hlim hne.symm _ _
        · rfl
    · simp only [runCmd, setOrder]
      repeat' split
      all_goals exact hord hne.symm _ _
    · simp only [runCmd, setTimeout]
      split
      · exact htim hne.symm _ _
      · split
        · exact htim hne.symm _ _
        · rfl
    · simp only [runCmd]
      rw [← h2 (setParallel env st a).1 st.opened st.parallel]; exact hs _ _ (parallel_same env st a)
    · simp only [runCmd, setDisk]
      split
      · exact hdis hne.symm _ _
      · rfl
    · simp only [runCmd, setQuirks]
      split
      · exact hqui hne.symm _ _
      · rfl

theorem setsNum_step {α : Type} {cmd : String} (hc : ' ' ∉ cmd.toList) (dflt : α) (g : Nat → α) (f : St W → α) (st : St W) (a l : Str) (r : St W)
    (hl : Line cmd a l) (h0 : a = [] → f r = dflt) (h1 : a ≠ [] → ∀ n, ShowsNum a n → f r = g n)
    (h2 : a ≠ [] → (∀ n, ¬ ShowsNum a n) → f r = f st) :
    SetsNum cmd dflt g l (f r) ∨ ((∀ u, ¬ SetsNum cmd dflt g l u) ∧ f r = f st) := by
  by_cases ha : a = []
  · exact .inl ⟨a, hl, .inl ⟨ha, h0 ha⟩⟩
  · by_cases hn : ∃ n, ShowsNum a n
    · obtain ⟨n, hn⟩ := hn
      exact .inl ⟨a, hl, .inr ⟨n, hn, h1 ha n hn⟩⟩
    · refine .inr ⟨?_, h2 ha (fun n h => hn ⟨n, h⟩)⟩
      rintro u ⟨a', hl', h⟩
      have : a' = a := by
        have e := cmdArgs_line hc hl
        rw [cmdArgs_line hc hl'] at e
        exact (Prod.mk.inj e).2
      subst this
      rcases h with ⟨h, _⟩ | ⟨n, h, _⟩
      · exact ha h
      · exact hn ⟨n, h⟩

/-! ## C102 -/

/-- The offset is the one of the last line which sets an offset: its number, or zero without a number. -/
theorem C102_offset (env : Env W) (st : St W) (lines : List Str) :
    LastSet (SetsNum "set-offset" 0 id) st.offset lines (runCommands env st lines).offset := by
  refine lastSet_of_step env St.offset _ (step_of_cmd env St.offset _ .setOffset "set-offset" (by decide) (by decide) ?_ ?_ ?_) st lines
  · rintro l u ⟨a, h, _⟩; exact ⟨a, h⟩
  · intro st a l hl
    refine setsNum_step (by decide) 0 id St.offset st a l _ hl ?_ ?_ ?_
    · intro h; simp [runCmd, setOffset, h]
    · intro h n hn
      have := (parse_iff a n).2 hn
      simp [runCmd, setOffset, h, Rel.parseUsize, this]
    · intro h hn
      have : Rel.parseNat Rel.u64Max (Rel.trimStr a) = none := by
        cases hp : Rel.parseNat Rel.u64Max (Rel.trimStr a) with
        | none => rfl
        | some n => exact absurd ((parse_iff a n).1 hp) (hn n)
      simp [runCmd, setOffset, h, Rel.parseUsize, this]
  · exact others_keep env St.offset .setOffset (fun _ _ h => h.offset) (fun _ _ => rfl) (fun _ _ _ => rfl) (fun h => absurd rfl h) (fun _ _ _ => rfl)
      (fun _ _ _ => rfl) (fun _ _ _ => rfl) (fun _ _ _ => rfl) (fun _ _ _ => rfl)

/-- The limit is the one of the last line which sets a limit: its number, or no limit without a number. -/
theorem C102_limit (env : Env W) (st : St W) (lines : List Str) :
    LastSet (SetsNum "set-limit" none some) st.limit lines (runCommands env st lines).limit := by
  refine lastSet_of_step env St.limit _ (step_of_cmd env St.limit _ .setLimit "set-limit" (by decide) (by decide) ?_ ?_ ?_) st lines
  · rintro l u ⟨a, h, _⟩; exact ⟨a, h⟩
  · intro st a l hl
    refine setsNum_step (by decide) none some St.limit st a l _ hl ?_ ?_ ?_
    · intro h; simp [runCmd, setLimit, h]
    · intro h n hn
      have := (parse_iff a n).2 hn
      simp [runCmd, setLimit, h, Rel.parseUsize, this]
    · intro h hn
      have : Rel.parseNat Rel.u64Max (Rel.trimStr a) = none := by
        cases hp : Rel.parseNat Rel.u64Max (Rel.trimStr a) with
        | none => rfl
        | some n => exact absurd ((parse_iff a n).1 hp) (hn n)
      simp [runCmd, setLimit, h, Rel.parseUsize, this]
  · exact others_keep env St.limit .setLimit (fun _ _ h => h.limit) (fun _ _ => rfl) (fun _ _ _ => rfl) (fun _ _ _ => rfl) (fun h => absurd rfl h)
      (fun _ _ _ => rfl) (fun _ _ _ => rfl) (fun _ _ _ => rfl) (fun _ _ _ => rfl)

/-- The time limit in seconds is the one of the last line which sets one: its number, or none without a number. -/
theorem C102_timeout (env : Env W) (st : St W) (lines : List Str) :
    LastSet (SetsNum "set-timeout" none some) st.timeout lines (runCommands env st lines).timeout := by
  refine lastSet_of_step env St.timeout _ (step_of_cmd env St.timeout _ .setTimeout "set-timeout" (by decide) (by decide) ?_ ?_ ?_) st lines
  · rintro l u ⟨a, h, _⟩; exact ⟨a, h⟩
  · intro st a l hl
    refine setsNum_step (by decide) none some St.timeout st a l _ hl ?_ ?_ ?_
    · intro h; simp [runCmd, setTimeout, h]
    · intro h n hn
      have := (parse_iff a n).2 hn
      simp [runCmd, setTimeout, h, this]
    · intro h hn
      have : Rel.parseNat Rel.u64Max (Rel.trimStr a) = none := by
        cases hp : Rel.parseNat Rel.u64Max (Rel.trimStr a) with
        | none => rfl
        | some n => exact absurd ((parse_iff a n).1 hp) (hn n)
      simp [runCmd, setTimeout, h, this]
  · exact others_keep env St.timeout .setTimeout (fun _ _ h => h.timeout) (fun _ _ => rfl) (fun _ _ _ => rfl) (fun _ _ _ => rfl) (fun _ _ _ => rfl)
      (fun _ _ _ => rfl) (fun h => absurd rfl h) (fun _ _ _ => rfl) (fun _ _ _ => rfl)

/-- The order of the results is the one of the last line which sets an order. -/
theorem C102_order (env : Env W) (st : St W) (lines : List Str) :
    LastSet SetsOrder st.order lines (runCommands env st lines).order := by
  refine lastSet_of_step env St.order _ (step_of_cmd env St.order _ .setOrder "set-order" (by decide) (by decide) ?_ ?_ ?_) st lines
  · rintro l u ⟨a, h, _⟩; exact ⟨a, h⟩
  · intro st a l hl
    simp only [runCmd, setOrder]
    by_cases h0 : a = []
    · rw [if_pos h0]; exact .inl ⟨a, hl, .inl ⟨h0, rfl⟩⟩
    rw [if_neg h0]
    by_cases h1 : Rel.lower a = "normal".toList
    · rw [if_pos h1]; exact .inl ⟨a, hl, .inr h1⟩
    rw [if_neg h1]
    by_cases h2 : Rel.lower a = "inverted".toList
    · rw [if_pos h2]; exact .inl ⟨a, hl, .inr h2⟩
    rw [if_neg h2]
    by_cases h3 : Rel.lower a = "random".toList
    · rw [if_pos h3]; exact .inl ⟨a, hl, .inr h3⟩
    rw [if_neg h3]
    by_cases h4 : Rel.lower a = "unsorted".toList
    · rw [if_pos h4]; exact .inl ⟨a, hl, .inr h4⟩
    rw [if_neg h4]
    refine .inr ⟨?_, rfl⟩
    rintro u ⟨a', hl', h⟩
    have : a' = a := by
      have e := cmdArgs_line (cmd := "set-order") (by decide) hl
      rw [cmdArgs_line (cmd := "set-order") (by decide) hl'] at e
      exact (Prod.mk.inj e).2
    subst this
    rcases h with ⟨h, _⟩ | h
    · exact h0 h
    · cases u
      · exact h1 h
      · exact h2 h
      · exact h3 h
      · exact h4 h
  · exact others_keep env St.order .setOrder (fun _ _ h => h.order) (fun _ _ => rfl) (fun _ _ _ => rfl) (fun _ _ _ => rfl) (fun _ _ _ => rfl)
      (fun h => absurd rfl h) (fun _ _ _ => rfl) (fun _ _ _ => rfl) (fun _ _ _ => rfl)

theorem setsSwitch_step {cmd : String} (hc : ' ' ∉ cmd.toList) (f : St W → Bool) (st : St W) (a l : Str) (r : St W)
    (hl : Line cmd a l) (h1 : ∀ v, onOff a = some v → f r = v) (h2 : onOff a = none → f r = f st) :
    SetsSwitch cmd l (f r) ∨ ((∀ u, ¬ SetsSwitch cmd l u) ∧ f r = f st) := by
  cases ho : onOff a with
  | some v =>
    obtain ⟨pre, w, post, h⟩ := (onOff_iff a v).1 ho
    rw [h1 v ho]
    exact .inl ⟨a, pre, w, post, hl, h⟩
  | none =>
    refine .inr ⟨?_, h2 ho⟩
    rintro u ⟨a', pre, w, post, hl', h⟩
    have : a' = a := by
      have e := cmdArgs_line hc hl
      rw [cmdArgs_line hc hl'] at e
      exact (Prod.mk.inj e).2
    subst this
    rw [(onOff_iff a' u).2 ⟨pre, w, post, h⟩] at ho
    cases ho

/-- Whether corpora are kept on disk is what the last line with a valid value for it says. -/
theorem C102_disk (env : Env W) (st : St W) (lines : List Str) :
    LastSet (SetsSwitch "set-disk-based") st.disk lines (runCommands env st lines).disk := by
  refine lastSet_of_step env St.disk _ (step_of_cmd env St.disk _ .setDisk "set-disk-based" (by decide) (by decide) ?_ ?_ ?_) st lines
  · rintro l u ⟨a, _, _, _, h, _⟩; exact ⟨a, h⟩
  · intro st a l hl
    refine setsSwitch_step (by decide) St.disk st a l _ hl ?_ ?_
    · intro v h; simp [runCmd, setDisk, h]
    · intro h; simp [runCmd, setDisk, h]
  · exact others_keep env St.disk .setDisk (fun _ _ h => h.disk) (fun _ _ => rfl) (fun _ _ _ => rfl) (fun _ _ _ => rfl) (fun _ _ _ => rfl)
      (fun _ _ _ => rfl) (fun _ _ _ => rfl) (fun h => absurd rfl h) (fun _ _ _ => rfl)

/-- The language of the queries is what the last line with a valid value for the quirks mode says. -/
theorem C102_quirks (env : Env W) (st : St W) (lines : List Str) :
    LastSet (SetsSwitch "set-quirks-mode") st.quirks lines (runCommands env st lines).quirks := by
  refine lastSet_of_step env St.quirks _ (step_of_cmd env St.quirks _ .setQuirks "set-quirks-mode" (by decide) (by decide) ?_ ?_ ?_) st lines
  · rintro l u ⟨a, _, _, _, h, _⟩; exact ⟨a, h⟩
  · intro st a l hl
    refine setsSwitch_step (by decide) St.quirks st a l _ hl ?_ ?_
    · intro v h; simp [runCmd, setQuirks, h]
    · intro h; simp [runCmd, setQuirks, h]
  · exact others_keep env St.quirks .setQuirks (fun _ _ h => h.quirks) (fun _ _ => rfl) (fun _ _ _ => rfl) (fun _ _ _ => rfl) (fun _ _ _ => rfl)
      (fun _ _ _ => rfl) (fun _ _ _ => rfl) (fun _ _ _ => rfl) (fun h => absurd rfl h)

/-- A search uses the last values of all settings and the text behind the command, if a corpus is selected and the storage is open. -/
theorem C102_find (env : Env W) (st : St W) (lines : List Str) (q : Str) (hs : (runCommands env st lines).sel ≠ [])
    (ho : (runCommands env st lines).opened = true) :
    ∃ offset limit order quirks timeout,
      LastSet (SetsNum "set-offset" 0 id) st.offset lines offset ∧ LastSet (SetsNum "set-limit" none some) st.limit lines limit ∧
      LastSet SetsOrder st.order lines order ∧ LastSet (SetsSwitch "set-quirks-mode") st.quirks lines quirks ∧
      LastSet (SetsNum "set-timeout" none some) st.timeout lines timeout ∧
      (runCommands env st (lines ++ ["find ".toList ++ q])).trace = (runCommands env st lines).trace ++
        [.find ⟨(runCommands env st lines).sel, q, quirks, timeout⟩ offset limit order] := by
  refine ⟨_, _, _, _, _, C102_offset env st lines, C102_limit env st lines, C102_order env st lines, C102_quirks env st lines,
    C102_timeout env st lines, ?_⟩
  have e : runCommands env st (lines ++ ["find ".toList ++ q]) = (exec env (runCommands env st lines) ("find ".toList ++ q)).1 := by
    simp [runCommands]
  have hx := exec_line env (runCommands env st lines) (c := .find) (n := "find") (a := q) (l := "find ".toList ++ q) (by decide) (by decide) (.inl rfl)
  rw [e, hx]
  simp only [runCmd, ifSelected, if_neg hs, ask'fst, ask, ho, if_true, queryOf]

/-- The same for counting, which does not depend on offset, limit and order. -/
theorem C102_count (env : Env W) (st : St W) (lines : List Str) (q : Str) (hs : (runCommands env st lines).sel ≠ [])
    (ho : (runCommands env st lines).opened = true) :
    ∃ quirks timeout, LastSet (SetsSwitch "set-quirks-mode") st.quirks lines quirks ∧
      LastSet (SetsNum "set-timeout" none some) st.timeout lines timeout ∧
      (runCommands env st (lines ++ ["count ".toList ++ q])).trace = (runCommands env st lines).trace ++
        [.count ⟨(runCommands env st lines).sel, q, quirks, timeout⟩] := by
  refine ⟨_, _, C102_quirks env st lines, C102_timeout env st lines, ?_⟩
  have e : runCommands env st (lines ++ ["count ".toList ++ q]) = (exec env (runCommands env st lines) ("count ".toList ++ q)).1 := by
    simp [runCommands]
  have hx := exec_line env (runCommands env st lines) (c := .count) (n := "count") (a := q) (l := "count ".toList ++ q) (by decide) (by decide) (.inl rfl)
  rw [e, hx]
  simp only [runCmd, ifSelected, if_neg hs, ask'fst, ask, ho, if_true, queryOf]

/-- The interactive loop executes the lines before the first one which ends the program, and no other. -/
theorem C102_loop (env : Env W) : ∀ (lines : List Str) (st : St W),
    ∃ before after, lines = before ++ after ∧ (∀ l ∈ before, ¬ Quits l) ∧ (after = [] ∨ ∃ l rest, after = l :: rest ∧ Quits l) ∧
      runLoop env st lines = runCommands env st before
  | [], st => ⟨[], [], rfl, by simp, .inl rfl, rfl⟩
  | l :: ls, st => by
    rcases exec_cases env st l with ⟨c, n, a, hq, hn, hL, e⟩ | ⟨hQ, e⟩ | ⟨hN, e⟩
    · obtain ⟨b, af, h1, h2, h3, h4⟩ := C102_loop env ls (exec env st l).1
      refine ⟨l :: b, af, by simp [h1], ?_, h3, ?_⟩
      · intro x hx
        rcases List.mem_cons.1 hx with rfl | hx
        · rintro ⟨a', h | h⟩
          · exact hq (line_unique hn (c' := .quit) (by decide) hL h).1
          · exact hq (line_unique hn (c' := .quit) (by decide) hL h).1
        · exact h2 x hx
      · have : (exec env st l).2.2 = true := by rw [e]
        simp only [runLoop, this, if_true, h4, runCommands, List.foldl_cons]
    · refine ⟨[], l :: ls, rfl, by simp, .inr ⟨l, ls, rfl, hQ⟩, ?_⟩
      simp [runLoop, e, runCommands]
    · obtain ⟨b, af, h1, h2, h3, h4⟩ := C102_loop env ls (exec env st l).1
      refine ⟨l :: b, af, by simp [h1], ?_, h3, ?_⟩
      · intro x hx
        rcases List.mem_cons.1 hx with rfl | hx
        · rintro ⟨a', h | h⟩
          · exact hN .quit _ (by decide) _ h
          · exact hN .quit _ (by decide) _ h
        · exact h2 x hx
      · have : (exec env st l).2.2 = true := by rw [e]
        simp only [runLoop, this, if_true, h4, runCommands, List.foldl_cons]

end Cli
