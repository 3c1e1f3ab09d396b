import Verif.Parse.LexLemmas

set_option linter.unusedSimpArgs false

/-!
# C91: the tokens of a query
-/

namespace Parse

open Spec

theorem byteLen_append (a b : Str) : byteLen (a ++ b) = byteLen a + byteLen b := by
  simp [byteLen, utf8]

theorem byteLen_nil : byteLen [] = 0 := rfl

namespace Spec

/-- A text of blanks. -/
def Blank (g : Str) : Prop := ∀ c ∈ g, isSpace c = true

/-- Tokens with positions, written one after the other with blanks around them. -/
inductive Written : Nat → List PTok → Str → Prop
  | nil {pos g} : Blank g → Written pos [] g
  | cons {pos g t ts s} : Blank g → t.start = pos + byteLen g → t.stop = t.start + byteLen t.tk.text →
      Written t.stop ts s → Written pos (t :: ts) (g ++ (t.tk.text ++ s))

/-- Texts for a list of tokens: blanks may stand anywhere and may be omitted where the token before cannot be continued by the text after it. -/
inductive Texts : List Tk → Str → Prop
  | nil {g} : Blank g → Texts [] g
  | cons {g t ts s} : Blank g → Clear t s → Texts ts s → Texts (t :: ts) (g ++ (t.text ++ s))

/-- Texts for a list of tokens with at least one blank between two tokens. -/
inductive Spaced : List Tk → Str → Prop
  | nil {g} : Blank g → Spaced [] g
  | last {g t g'} : Blank g → Blank g' → Spaced [t] (g ++ (t.text ++ g'))
  | cons {g t c ts s} : Blank g → isSpace c = true → Spaced ts s → Spaced (t :: ts) (g ++ (t.text ++ c :: s))

end Spec

/-! ### Blanks -/

theorem take_takeWhile (p : Char → Bool) (s : Str) : s.take (s.takeWhile p).length = s.takeWhile p :=
  (List.prefix_iff_eq_take.1 (List.takeWhile_prefix p)).symm

theorem drop_takeWhile (p : Char → Bool) (s : Str) : s.drop (s.takeWhile p).length = s.dropWhile p := by
  have h := List.takeWhile_append_dropWhile (p := p) (l := s)
  have h2 := List.take_append_drop (s.takeWhile p).length s
  rw [take_takeWhile] at h2
  exact List.append_cancel_left (h2.trans h.symm)

theorem mem_takeWhile_true {p : Char → Bool} {s : Str} {x : Char} (h : x ∈ s.takeWhile p) : p x = true := by
  induction s with
  | nil => simp at h
  | cons c s ih =>
    rw [List.takeWhile_cons] at h
    split at h
    · rcases List.mem_cons.1 h with rfl | h
      · assumption
      · exact ih h
    · simp at h

theorem next_space {c : Char} {s : Str} (hc : isSpace c = true) :
    Next (c :: s) .space ((c :: s).takeWhile isSpace).length := by
  have e : (c :: s).take ((c :: s).takeWhile isSpace).length = (c :: s).takeWhile isSpace := take_takeWhile _ _
  have hsh : Shape .space ((c :: s).takeWhile isSpace) := by
    refine ⟨c, s.takeWhile isSpace, by simp [List.takeWhile_cons, hc], hc, ?_⟩
    rw [List.all_eq_true]
    intro x hx
    exact mem_takeWhile_true hx
  have first : ∀ (k : Kind) (w : Str), Shape k (c :: w) → k = .space := by
    intro k w h
    have c1 := cls_spec h
    have h1' := isSpace_iff.1 hc
    have : cls (c :: w) = some .space := by
      simp only [cls]
      rw [if_neg (by omega), if_neg (by omega), if_neg (by omega), if_neg (by omega), if_neg (by omega), if_neg (by omega), if_neg (by omega),
        if_pos hc]
    exact special_eq (c1.symm.trans this)
  refine ⟨?_, by rw [e]; exact (lang_iff _ _).2 hsh, ?_, ?_⟩
  · exact (List.takeWhile_prefix _).length_le
  · intro k m hm hl
    rw [lang_iff] at hl
    cases m with
    | zero => exact Nat.zero_le _
    | succ m =>
      rw [List.take_succ_cons] at hl
      obtain rfl := first k _ hl
      obtain ⟨d, r, e', h1, h2⟩ := hl
      have hall : ∀ x ∈ (c :: s).take (m + 1), isSpace x = true := by
        rw [List.take_succ_cons, e']
        intro x hx
        rcases List.mem_cons.1 hx with rfl | hx
        · exact h1
        · exact List.all_eq_true.1 h2 x hx
      have : ((c :: s).take (m + 1)) <+: (c :: s).takeWhile isSpace := by
        conv_rhs => rw [← List.take_append_drop (m + 1) (c :: s)]
        rw [List.takeWhile_append_of_pos hall]
        exact List.prefix_append _ _
      have := this.length_le
      rw [List.length_take] at this
      omega
  · intro k hl
    rw [e, lang_iff, List.takeWhile_cons, if_pos hc] at hl
    rw [first k _ hl]

theorem tokens_blank_cons {pos : Nat} {c : Char} {s : Str} {ts : List PTok} (hc : isSpace c = true)
    (h : Tokens (pos + byteLen [c]) s ts) : Tokens pos (c :: s) ts := by
  have hN := next_space (s := s) hc
  have e : (c :: s).take ((c :: s).takeWhile isSpace).length = (c :: s).takeWhile isSpace := take_takeWhile _ _
  have e' : (c :: s).drop ((c :: s).takeWhile isSpace).length = (c :: s).dropWhile isSpace := drop_takeWhile _ _
  refine .space hN ?_
  rw [e, e', List.takeWhile_cons, List.dropWhile_cons, if_pos hc, if_pos hc]
  cases s with
  | nil => simpa using h
  | cons d s =>
    by_cases hd : isSpace d = true
    · have hN' := next_space (s := s) hd
      have f : (d :: s).take ((d :: s).takeWhile isSpace).length = (d :: s).takeWhile isSpace := take_takeWhile _ _
      have f' : (d :: s).drop ((d :: s).takeWhile isSpace).length = (d :: s).dropWhile isSpace := drop_takeWhile _ _
      rcases h.inv hN' with ⟨_, h'⟩ | ⟨t, ts', _, e2, _⟩
      · rw [f, f'] at h'
        rw [show c :: (d :: s).takeWhile isSpace = [c] ++ (d :: s).takeWhile isSpace from rfl, byteLen_append, ← Nat.add_assoc]
        exact h'
      · simp [Kind.token] at e2
    · rw [List.takeWhile_cons, List.dropWhile_cons, if_neg hd, if_neg hd]
      exact h

theorem tokens_blank {pos : Nat} {g s : Str} {ts : List PTok} (hg : Blank g) (h : Tokens (pos + byteLen g) s ts) : Tokens pos (g ++ s) ts := by
  induction g generalizing pos with
  | nil => exact h
  | cons c g ih =>
    refine tokens_blank_cons (hg c (by simp)) (ih (fun x hx => hg x (by simp [hx])) ?_)
    rw [Nat.add_assoc, ← byteLen_append]
    exact h

theorem tokens_valid {pos : Nat} {t : Tk} {s : Str} {ts : List PTok} (hv : Valid t) (hc : Clear t s)
    (h : Tokens (pos + byteLen t.text) s ts) : Tokens pos (t.text ++ s) (⟨pos, t, pos + byteLen t.text⟩ :: ts) := by
  have hN := next_of_valid hv hc
  have e : (t.text ++ s).take t.text.length = t.text := by simp
  have e' : (t.text ++ s).drop t.text.length = s := by simp
  have := Tokens.tok (pos := pos) (t := t) (ts := ts) hN (kind_ne_space t) rfl e.symm (by rw [e, e']; exact h)
  rwa [e] at this

theorem clear_nil (t : Tk) : Clear t [] := by
  intro k v hv hp
  exact absurd (List.prefix_nil.1 hp) hv

theorem texts_of_spaced {ts : List Tk} {s : Str} (hv : ∀ t ∈ ts, Valid t) (h : Spaced ts s) : Texts ts s := by
  induction h with
  | nil hg => exact .nil hg
  | @last g t g' hg hg' =>
    refine .cons hg ?_ (.nil hg')
    cases g' with
    | nil => exact clear_nil t
    | cons c g' => exact clear_opens (hv t (by simp)) (by simp [opens, hg' c (by simp)])
  | @cons g t c ts s hg hc _ ih =>
    refine .cons hg (clear_opens (hv t (by simp)) (by simp [opens, hc])) ?_
    have := ih (fun t ht => hv t (by simp [ht]))
    -- the blank belongs to the text of the remaining tokens
    cases this with
    | nil hg' => exact .nil (g := c :: _) (by
        intro x hx
        rcases List.mem_cons.1 hx with rfl | hx
        · exact hc
        · exact hg' x hx)
    | @cons g' t' ts' s' hg' hc' h' =>
      refine Texts.cons (g := c :: g') ?_ hc' h'
      intro x hx
      rcases List.mem_cons.1 hx with rfl | hx
      · exact hc
      · exact hg' x hx

theorem tokens_of_texts {ts : List Tk} {s : Str} (hv : ∀ t ∈ ts, Valid t) (h : Texts ts s) :
    ∀ pos, ∃ ps, Tokens pos s ps ∧ ps.map (·.tk) = ts := by
  induction h with
  | @nil g hg =>
    intro pos
    refine ⟨[], ?_, rfl⟩
    have := tokens_blank (pos := pos) (s := []) (ts := []) hg .nil
    rwa [List.append_nil] at this
  | @cons g t ts s hg hc _ ih =>
    intro pos
    obtain ⟨ps, h1, h2⟩ := ih (fun t ht => hv t (by simp [ht])) (pos + byteLen g + byteLen t.text)
    exact ⟨_, tokens_blank hg (tokens_valid (hv t (by simp)) hc h1), by simp [h2]⟩

/-! ### The property -/

/-- The next token is the longest text of any terminal, and belongs to the terminal with the highest precedence. -/
theorem C91_next (s : Str) (k : Kind) (n : Nat) : munch s = some (k, n) ↔ Next s k n := munch_iff

/-- The tokens of a text are those the longest-match rule gives; they are unique. -/
theorem C91_lex (s : Str) (ts : List PTok) : lex s = .ok ts ↔ Tokens 0 s ts := lexFrom_ok le_rfl

theorem C91_unique {s : Str} {ts ts' : List PTok} (h : Tokens 0 s ts) (h' : Tokens 0 s ts') : ts = ts' := by
  have := ((C91_lex s ts).2 h).symm.trans ((C91_lex s ts').2 h')
  cases this; rfl

/-- An error names the first place where no terminal has a text. -/
theorem C91_error {s : Str} {p : Nat} (h : lex s = .error p) :
    ∃ a b ts, s = a ++ b ∧ p = byteLen a ∧ b ≠ [] ∧ lex a = .ok ts ∧
      ∀ (k : Kind) (w v : Str), b = w ++ v → ¬ k.rx.Lang w := by
  obtain ⟨a, b, ts, h1, h2, h3, h4, h5⟩ := lexFrom_error le_rfl h
  refine ⟨a, b, ts, h1, by omega, h3, (C91_lex a ts).2 h5, ?_⟩
  rintro k w v rfl hl
  exact h4 k w.length (by simp) (by simpa using hl)

/-- Nothing is lost: the text is the texts of the tokens at their positions with blanks around them. -/
theorem C91_written {s : Str} {ts : List PTok} (h : lex s = .ok ts) : Written 0 ts s := by
  have key : ∀ {pos s ts}, Tokens pos s ts → Written pos ts s := by
    intro pos s ts h
    induction h with
    | nil => exact .nil (by simp [Blank])
    | @space pos s n ts hN _ ih =>
      have hb : Blank (s.take n) := by
        obtain ⟨c, r, e, h1, h2⟩ := (lang_iff _ _).1 hN.lang
        rw [e]
        intro x hx
        rcases List.mem_cons.1 hx with rfl | hx
        · exact h1
        · exact List.all_eq_true.1 h2 x hx
      rw [← List.take_append_drop n s]
      generalize hq : pos + byteLen (s.take n) = q at ih
      generalize s.drop n = v at ih
      cases ih with
      | nil hg =>
        exact .nil (by
          intro x hx
          rcases List.mem_append.1 hx with hx | hx
          · exact hb x hx
          · exact hg x hx)
      | @cons _ g t ts s' hg h1 h2 h3 =>
        rw [← List.append_assoc]
        refine .cons ?_ ?_ h2 h3
        · intro x hx
          rcases List.mem_append.1 hx with hx | hx
          · exact hb x hx
          · exact hg x hx
        · rw [byteLen_append, h1, ← hq, Nat.add_assoc]
    | @tok pos s k n t ts hN _ _ ht _ ih =>
      have : Written pos (⟨pos, t, pos + byteLen (s.take n)⟩ :: ts) ([] ++ (t.text ++ s.drop n)) :=
        .cons (by simp [Blank]) (by simp [byteLen_nil]) (by simp [ht]) ih
      rwa [List.nil_append, ht, List.take_append_drop] at this
  exact key ((C91_lex s ts).1 h)

/-- Every token is one that can be written. -/
theorem C91_valid {s : Str} {ts : List PTok} (h : lex s = .ok ts) : ∀ t ∈ ts, Valid t.tk := by
  have key : ∀ {pos s ts}, Tokens pos s ts → ∀ t ∈ ts, Valid t.tk := by
    intro pos s ts h
    induction h with
    | nil => simp
    | space _ _ ih => exact ih
    | @tok pos s k n t ts hN hk htk ht _ ih =>
      intro x hx
      rcases List.mem_cons.1 hx with rfl | hx
      · refine valid_of_shape (by rw [htk, ht]; exact (lang_iff _ _).1 hN.lang) ?_
        intro y hy hid e
        have := hN.first (.kw y) (by rw [← ht, e]; exact (lang_iff _ _).2 rfl)
        rw [← htk, hid] at this
        exact absurd (idx_word y) (by omega)
      · exact ih x hx
  exact key ((C91_lex s ts).1 h)

/-- Tokens that can be written are read back, wherever blanks are put and wherever they are omitted before a text that does not continue the
token. -/
theorem C91_texts {ts : List Tk} {s : Str} (hv : ∀ t ∈ ts, Valid t) (h : Texts ts s) :
    ∃ ps, lex s = .ok ps ∧ ps.map (·.tk) = ts := by
  obtain ⟨ps, h1, h2⟩ := tokens_of_texts hv h 0
  exact ⟨ps, (C91_lex s ps).2 h1, h2⟩

/-- Tokens separated by any blanks are read back. -/
theorem C91_spaced {ts : List Tk} {s : Str} (hv : ∀ t ∈ ts, Valid t) (h : Spaced ts s) :
    ∃ ps, lex s = .ok ps ∧ ps.map (·.tk) = ts := C91_texts hv (texts_of_spaced hv h)

/-- A blank may be omitted before a character that opens a token. -/
theorem C91_opens {t : Tk} (h : Valid t) {c : Char} (rest : Str) (hc : opens c = true) : Clear t (c :: rest) := clear_opens h hc

/-- Terminals of one character that end wherever they stand. -/
def Spec.single : List Kw := [.bar, .amp, .lpar, .rpar, .quest, .at_, .lbr, .rbr, .comma, .star]

/-- A blank may be omitted after these. -/
theorem C91_single {k : Kw} (h : k ∈ single) (rest : Str) : Clear (.kw k) rest := by
  have key : ∀ (k : Kw) (a : Char) (w : Str), k ∈ single → k.text = [a] → ∀ k', Shape k' (a :: w) → w = [] := by
    intro k a w hk e k' hs
    have hidx : cls (a :: w) = special k' := cls_spec hs
    simp only [single, List.mem_cons, List.not_mem_nil, or_false] at hk
    cases k' with
    | kw y =>
      have hy : a :: w = y.text := hs
      have : ∀ x ∈ single, ∀ y : Kw, y.text.head? = x.text.head? → y.text.tail = [] := by
        intro x hx y
        revert x
        cases y <;> decide
      have h2 := this k (by simpa [single] using hk) y (by rw [← hy, e]; rfl)
      rw [← hy] at h2
      exact h2
    | id =>
      obtain ⟨c, r, e', h1, _⟩ := hs
      cases e'
      rcases hk with rfl | rfl | rfl | rfl | rfl | rfl | rfl | rfl | rfl | rfl <;> cases e <;> exact absurd h1 (by decide)
    | varDef =>
      obtain ⟨c, r, e', h1, _⟩ := hs
      cases e'
      rcases hk with rfl | rfl | rfl | rfl | rfl | rfl | rfl | rfl | rfl | rfl <;> cases e <;> exact absurd h1 (by decide)
    | digits =>
      obtain ⟨c, r, e', h1, _⟩ := hs
      cases e'
      rcases hk with rfl | rfl | rfl | rfl | rfl | rfl | rfl | rfl | rfl | rfl <;> cases e <;> exact absurd h1 (by decide)
    | space =>
      obtain ⟨c, r, e', h1, _⟩ := hs
      cases e'
      rcases hk with rfl | rfl | rfl | rfl | rfl | rfl | rfl | rfl | rfl | rfl <;> cases e <;> exact absurd h1 (by decide)
    | dom =>
      rcases hs with e' | ⟨_, _, e', _⟩ <;> cases e' <;>
      rcases hk with rfl | rfl | rfl | rfl | rfl | rfl | rfl | rfl | rfl | rfl <;> cases e
    | prec =>
      rcases hs with e' | ⟨_, _, e', _⟩ <;> cases e' <;>
      rcases hk with rfl | rfl | rfl | rfl | rfl | rfl | rfl | rfl | rfl | rfl <;> cases e
    | near =>
      rcases hs with e' | ⟨_, _, e', _⟩ <;> cases e' <;>
      rcases hk with rfl | rfl | rfl | rfl | rfl | rfl | rfl | rfl | rfl | rfl <;> cases e
    | nodeRef =>
      obtain ⟨c, r, e', h1, _⟩ := hs
      cases e'
      rcases hk with rfl | rfl | rfl | rfl | rfl | rfl | rfl | rfl | rfl | rfl <;> cases e
    | varRef =>
      obtain ⟨c, r, e', h1, _⟩ := hs
      cases e'
      rcases hk with rfl | rfl | rfl | rfl | rfl | rfl | rfl | rfl | rfl | rfl <;> cases e
    | point =>
      obtain ⟨c, r, e', h1, _⟩ := hs
      cases e'
      rcases hk with rfl | rfl | rfl | rfl | rfl | rfl | rfl | rfl | rfl | rfl <;> cases e
    | quoted =>
      obtain ⟨b, e', h1⟩ := hs
      cases e'
      rcases hk with rfl | rfl | rfl | rfl | rfl | rfl | rfl | rfl | rfl | rfl <;> cases e
    | regex =>
      obtain ⟨b, e', h1⟩ := hs
      cases e'
      rcases hk with rfl | rfl | rfl | rfl | rfl | rfl | rfl | rfl | rfl | rfl <;> cases e
  intro k' v hv _ hl
  rw [lang_iff] at hl
  obtain ⟨a, e⟩ : ∃ a, k.text = [a] := by
    have : ∀ k ∈ single, ∃ a, k.text = [a] := by
      intro k hk
      simp only [single, List.mem_cons, List.not_mem_nil, or_false] at hk
      rcases hk with rfl | rfl | rfl | rfl | rfl | rfl | rfl | rfl | rfl | rfl <;> exact ⟨_, rfl⟩
    exact this k h
  have : Shape k' (a :: v) := by
    have : (Tk.kw k).text = [a] := e
    rw [this] at hl
    exact hl
  exact hv (key k a v h e k' this)

/-- No two terminals share a text, except words and identifiers. -/
theorem C91_overlap {k k' : Kind} {w : Str} (h : k.rx.Lang w) (h' : k'.rx.Lang w) (hne : k ≠ k') :
    ∃ x ∈ words, w = x.text ∧ ((k = .kw x ∧ k' = .id) ∨ (k = .id ∧ k' = .kw x)) := by
  rcases shape_overlap ((lang_iff _ _).1 h) ((lang_iff _ _).1 h') with e | e
  · exact absurd e hne
  · exact e

/-! ### Examples -/

/-- The tokens of a text without positions. -/
def lexTks (s : String) : Except Nat (List Tk) := (lex s.toList).map (·.map (·.tk))

/-- Blanks cannot be omitted everywhere: a minus sign is swallowed by the identifier before it, so `pos->dep tok` has other tokens than
`pos ->dep tok`, and is a query for dominance of an annotation `pos-`. -/
theorem C91_arrow_fails :
    lexTks "pos ->dep tok" = .ok [.id "pos".toList, .point "dep".toList, .kw .tok] ∧
    lexTks "pos->dep tok" = .ok [.id "pos-".toList, .dom "dep".toList, .kw .tok] := by decide +kernel

/-- A name after a precedence operator is swallowed by the operator, and an operator between underscores by names around it. -/
theorem C91_name_fails :
    lexTks "tok . tok" = .ok [.kw .tok, .prec [], .kw .tok] ∧
    lexTks "tok.tok" = .ok [.kw .tok, .prec "tok".toList] ∧
    lexTks "node _o_ node" = .ok [.kw .node, .kw .overlap, .kw .node] ∧
    lexTks "node_o_node" = .ok [.id "node_o_node".toList] := by decide +kernel

theorem C91_nonvacuous :
    lexTks "n1#pos=\"N N\" & tok!=/a\\/b/ .2,5 #n1 & #2:arity=3" =
      .ok [.varDef "n1".toList, .id "pos".toList, .kw .eq, .quoted "N N".toList, .kw .amp, .kw .tok, .kw .neq, .regex "a\\/b".toList,
        .prec [], .digits "2".toList, .kw .comma, .digits "5".toList, .varRef "n1".toList, .kw .amp, .nodeRef "2".toList, .kw .arity, .kw .eq,
        .digits "3".toList] ∧
    (∃ t, lex "ä \"ö\"".toList = .error t) ∧ lex "\"ö\"$".toList = .error 4 := by
  refine ⟨by decide +kernel, ⟨0, by decide +kernel⟩, by decide +kernel⟩

end Parse
