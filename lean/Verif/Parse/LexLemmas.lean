import Verif.Parse.Lex
import Mathlib.Data.List.Induction
import Mathlib.Data.List.Basic
import Mathlib.Tactic.Push

set_option linter.unusedSimpArgs false

/-!
# Lemmas about the lexer
-/

namespace Parse

open Spec

theorem mem_kinds (k : Kind) : k ∈ kinds := by
  cases k with
  | kw k => cases k <;> decide
  | _ => decide

theorem nodup_kinds : kinds.Nodup := by decide

/-! ### The choice of the next token -/

/-- What the loop over the first terminals has found. -/
def Best (L : List Kind) (s : Str) (k : Kind) (n : Nat) : Prop :=
  k ∈ L ∧ k.rx.longest s = some n ∧ ∀ k' ∈ L, ∀ m, k'.rx.longest s = some m → m ≤ n ∧ (m = n → L.idxOf k ≤ L.idxOf k')

theorem better_none (b : Option (Kind × Nat)) (k : Kind) : better b k none = b := by cases b <;> rfl

theorem better_first (k : Kind) (n : Nat) : better none k (some n) = some (k, n) := rfl

theorem better_some (k k' : Kind) (n m : Nat) :
    better (some (k', m)) k (some n) = if m < n then some (k, n) else some (k', m) := rfl

theorem fold_better (s : Str) (L : List Kind) (hn : L.Nodup) :
    (∀ k n, L.foldl (fun best k => better best k (k.rx.longest s)) none = some (k, n) ↔ Best L s k n) ∧
    (L.foldl (fun best k => better best k (k.rx.longest s)) none = none ↔ ∀ k ∈ L, k.rx.longest s = none) := by
  induction L using List.reverseRecOn with
  | nil => simp [Best]
  | append_singleton L x ih =>
    rw [List.nodup_append] at hn
    obtain ⟨hL, -, hx⟩ := hn
    have hxL : x ∉ L := fun h => hx x h x (by simp) rfl
    obtain ⟨ih1, ih2⟩ := ih hL
    rw [List.foldl_append, List.foldl_cons, List.foldl_nil]
    have idx1 : ∀ k ∈ L, (L ++ [x]).idxOf k = L.idxOf k := fun k h => List.idxOf_append_of_mem h
    have idxx : (L ++ [x]).idxOf x = L.length := by rw [List.idxOf_append_of_notMem hxL]; simp
    have lt : ∀ k ∈ L, L.idxOf k < L.length := fun k h => List.idxOf_lt_length_of_mem h
    cases hx : x.rx.longest s with
    | none =>
      simp only [better_none]
      constructor
      · intro k n
        rw [ih1]
        constructor
        · rintro ⟨h1, h2, h3⟩
          refine ⟨by simp [h1], h2, ?_⟩
          intro k' hk' m hm
          rw [List.mem_append, List.mem_singleton] at hk'
          rcases hk' with hk' | rfl
          · rw [idx1 k h1, idx1 k' hk']; exact h3 k' hk' m hm
          · rw [hx] at hm; cases hm
        · rintro ⟨h1, h2, h3⟩
          rw [List.mem_append, List.mem_singleton] at h1
          rcases h1 with h1 | rfl
          · refine ⟨h1, h2, ?_⟩
            intro k' hk' m hm
            have := h3 k' (by simp [hk']) m hm
            rwa [idx1 k h1, idx1 k' hk'] at this
          · rw [hx] at h2; cases h2
      · rw [ih2]; simp only [List.mem_append, List.mem_singleton]
        constructor
        · rintro h k (hk | rfl)
          · exact h k hk
          · exact hx
        · intro h k hk; exact h k (.inl hk)
    | some n =>
      cases hf : L.foldl (fun best k => better best k (k.rx.longest s)) none with
      | none =>
        rw [ih2] at hf
        simp only [better_first]
        constructor
        · intro k n'
          simp only [Option.some.injEq, Prod.mk.injEq]
          constructor
          · rintro ⟨rfl, rfl⟩
            refine ⟨by simp, hx, ?_⟩
            intro k' hk' m hm
            rw [List.mem_append, List.mem_singleton] at hk'
            rcases hk' with hk' | rfl
            · rw [hf k' hk'] at hm; cases hm
            · rw [hx] at hm; cases hm; exact ⟨le_rfl, fun _ => le_rfl⟩
          · rintro ⟨h1, h2, _⟩
            rw [List.mem_append, List.mem_singleton] at h1
            rcases h1 with h1 | rfl
            · rw [hf k h1] at h2; cases h2
            · rw [hx] at h2; cases h2; exact ⟨rfl, rfl⟩
        · simp only [reduceCtorEq, false_iff]
          intro h
          rw [h x (by simp)] at hx; cases hx
      | some p =>
        obtain ⟨k0, m0⟩ := p
        obtain ⟨b1, b2, b3⟩ := (ih1 k0 m0).1 hf
        simp only [better_some]
        constructor
        · intro k n'
          by_cases hlt : m0 < n
          · rw [if_pos hlt]
            simp only [Option.some.injEq, Prod.mk.injEq]
            constructor
            · rintro ⟨rfl, rfl⟩
              refine ⟨by simp, hx, ?_⟩
              intro k' hk' m hm
              rw [List.mem_append, List.mem_singleton] at hk'
              rcases hk' with hk' | rfl
              · have := (b3 k' hk' m hm).1
                exact ⟨by omega, fun h => absurd h (by omega)⟩
              · rw [hx] at hm; cases hm; exact ⟨le_rfl, fun _ => le_rfl⟩
            · rintro ⟨h1, h2, h3⟩
              rw [List.mem_append, List.mem_singleton] at h1
              have hle := (h3 x (by simp) n hx).1
              rcases h1 with h1 | rfl
              · have := (b3 k h1 n' h2).1
                omega
              · rw [hx] at h2; cases h2; exact ⟨rfl, rfl⟩
          · rw [if_neg hlt]
            simp only [Option.some.injEq, Prod.mk.injEq]
            constructor
            · rintro ⟨rfl, rfl⟩
              refine ⟨by simp [b1], b2, ?_⟩
              intro k' hk' m hm
              rw [List.mem_append, List.mem_singleton] at hk'
              rcases hk' with hk' | rfl
              · rw [idx1 _ b1, idx1 k' hk']; exact b3 k' hk' m hm
              · rw [hx] at hm; cases hm
                refine ⟨by omega, fun _ => ?_⟩
                rw [idx1 _ b1, idxx]
                exact (lt _ b1).le
            · rintro ⟨h1, h2, h3⟩
              rw [List.mem_append, List.mem_singleton] at h1
              rcases h1 with h1 | rfl
              · have e := b3 k h1 n' h2
                have e' := h3 k0 (by simp [b1]) m0 b2
                rw [idx1 _ h1, idx1 _ b1] at e'
                have : m0 = n' := by omega
                have i1 := e.2 this.symm
                have i2 := e'.2 this
                have : L.idxOf k0 = L.idxOf k := by omega
                exact ⟨(List.idxOf_inj b1).1 this, ‹m0 = n'›⟩
              · rw [hx] at h2; cases h2
                have e' := h3 k0 (by simp [b1]) m0 b2
                have : m0 = n := by omega
                have := e'.2 this
                rw [idx1 _ b1, idxx] at this
                have := lt _ b1
                omega
        · constructor
          · intro h; split at h <;> cases h
          · intro h
            rw [h x (by simp)] at hx; cases hx

/-- The next token is the longest one with the highest precedence. -/
theorem munch_iff {s : Str} {k : Kind} {n : Nat} : munch s = some (k, n) ↔ Next s k n := by
  unfold munch
  rw [(fold_better s kinds nodup_kinds).1]
  constructor
  · rintro ⟨_, h2, h3⟩
    obtain ⟨a1, a2, a3⟩ := Rx.longest_eq_some.1 h2
    have max : ∀ (k' : Kind) (m : Nat), m ≤ s.length → k'.rx.Lang (s.take m) → m ≤ n := by
      intro k' m hm hl
      cases e : k'.rx.longest s with
      | none => exact absurd hl (Rx.longest_eq_none.1 e m hm)
      | some m' =>
        have := (Rx.longest_eq_some.1 e).2.2 m hm hl
        have := (h3 k' (mem_kinds k') m' e).1
        omega
    refine ⟨a1, a2, max, ?_⟩
    intro k' hl
    have e : k'.rx.longest s = some n := Rx.longest_eq_some.2 ⟨a1, hl, fun m hm hl => max k' m hm hl⟩
    exact (h3 k' (mem_kinds k') n e).2 rfl
  · rintro ⟨h1, h2, h3, h4⟩
    refine ⟨mem_kinds k, Rx.longest_eq_some.2 ⟨h1, h2, h3 k⟩, ?_⟩
    intro k' _ m hm
    obtain ⟨a1, a2, _⟩ := Rx.longest_eq_some.1 hm
    refine ⟨h3 k' m a1 a2, ?_⟩
    rintro rfl
    exact h4 k' a2

theorem munch_none {s : Str} : munch s = none ↔ ∀ (k : Kind) (m : Nat), m ≤ s.length → ¬ k.rx.Lang (s.take m) := by
  unfold munch
  rw [(fold_better s kinds nodup_kinds).2]
  constructor
  · intro h k m hm
    exact Rx.longest_eq_none.1 (h k (mem_kinds k)) m hm
  · intro h k _
    exact Rx.longest_eq_none.2 (h k)

theorem Spec.Next.unique {s : Str} {k k' : Kind} {n n' : Nat} (h : Next s k n) (h' : Next s k' n') : k = k' ∧ n = n' := by
  have := (munch_iff.2 h).symm.trans (munch_iff.2 h')
  simpa using this

/-! ### The texts of the terminals -/

/-- The texts of a terminal in words. -/
def Shape : Kind → Str → Prop
  | .kw k, w => w = k.text
  | .id, w => ∃ c r, w = c :: r ∧ idStart c = true ∧ r.all idCont = true
  | .nodeRef, w => ∃ c r, w = '#' :: c :: r ∧ c.isDigit = true ∧ r.all Char.isDigit = true
  | .varRef, w => ∃ c r, w = '#' :: c :: r ∧ c.isAlpha = true ∧ r.all Char.isAlphanum = true
  | .varDef, w => ∃ c r, w = c :: (r ++ ['#']) ∧ c.isAlpha = true ∧ r.all Char.isAlphanum = true
  | .digits, w => ∃ c r, w = c :: r ∧ c.isDigit = true ∧ r.all Char.isDigit = true
  | .dom, w => w = ['>'] ∨ ∃ c r, w = '>' :: c :: r ∧ idStart c = true ∧ r.all idCont = true
  | .point, w => ∃ c r, w = '-' :: '>' :: c :: r ∧ idStart c = true ∧ r.all idCont = true
  | .prec, w => w = ['.'] ∨ ∃ c r, w = '.' :: c :: r ∧ idStart c = true ∧ r.all idCont = true
  | .near, w => w = ['^'] ∨ ∃ c r, w = '^' :: c :: r ∧ idStart c = true ∧ r.all idCont = true
  | .quoted, w => ∃ b, w = '"' :: (b ++ ['"']) ∧ ∀ c ∈ b, c ≠ '"'
  | .regex, w => ∃ b, w = '/' :: (b ++ ['/']) ∧ regexBody false b = true
  | .space, w => ∃ c r, w = c :: r ∧ isSpace c = true ∧ r.all isSpace = true

/-- The characters of a regular expression that end nothing. -/
def plain (c : Char) : Bool := c != '/' && c != '\\'

theorem lang_regexBody : ∀ (n : Nat) (s : Str), s.length ≤ n →
    (regexBodyRx.Lang s ↔ regexBody false s = true) := by
  -- the two parts of the pattern
  have key : ∀ s : Str, regexBodyRx.Lang s ↔ ∃ u v, s = u ++ v ∧ u.all plain = true ∧
      (Rx.star (.cat (.cat (.chr (· == '\\')) (.chr (· != '\n'))) (.star (.chr plain)))).Lang v := by
    intro s
    show (Rx.cat (.star (.chr plain)) (.star (.cat (.cat (.chr (· == '\\')) (.chr (· != '\n'))) (.star (.chr plain))))).Lang s ↔ _
    simp only [Rx.lang_cat, Rx.lang_star_chr]
  have start : ∀ (c : Char) (v : Str), (Rx.star (.cat (.cat (.chr (· == '\\')) (.chr (· != '\n'))) (.star (.chr plain)))).Lang (c :: v) ↔
      c = '\\' ∧ ∃ d r, v = d :: r ∧ d ≠ '\n' ∧ regexBodyRx.Lang r := by
    intro c v
    rw [Rx.lang_star_cons]
    constructor
    · rintro ⟨u, w, rfl, h, h'⟩
      rw [Rx.lang_cat] at h
      obtain ⟨x, y, hxy, hx, hy⟩ := h
      rw [Rx.lang_cat] at hx
      obtain ⟨x1, x2, rfl, h1, h2⟩ := hx
      obtain ⟨c1, rfl, hc1⟩ := Rx.lang_chr.1 h1
      obtain ⟨d, rfl, hd⟩ := Rx.lang_chr.1 h2
      simp only [List.cons_append, List.nil_append, List.cons.injEq] at hxy
      obtain ⟨rfl, rfl⟩ := hxy
      refine ⟨by simpa using hc1, d, y ++ w, by simp, by simpa using hd, ?_⟩
      rw [key]
      exact ⟨y, w, rfl, Rx.lang_star_chr.1 hy, h'⟩
    · rintro ⟨rfl, d, r, rfl, hd, hr⟩
      rw [key] at hr
      obtain ⟨u, w, rfl, hu, hw⟩ := hr
      refine ⟨d :: u, w, rfl, ?_, hw⟩
      refine Rx.Lang.cat (s := ['\\', d]) (t := u) ?_ (Rx.lang_star_chr.2 hu)
      exact Rx.Lang.cat (s := ['\\']) (t := [d]) (.chr (by simp)) (.chr (by simpa using hd))
  intro n
  induction n with
  | zero =>
    intro s hs
    have : s = [] := List.length_eq_zero_iff.1 (Nat.le_zero.1 hs)
    subst this
    simp [regexBody, Rx.lang_nil, regexBodyRx, Rx.nullable]
  | succ n ih =>
    intro s hs
    cases s with
    | nil => simp [regexBody, Rx.lang_nil, regexBodyRx, Rx.nullable]
    | cons c s =>
      have hs' : s.length ≤ n := by simpa using hs
      rw [key]
      by_cases hc : c = '\\'
      · subst hc
        have : (∃ u v, '\\' :: s = u ++ v ∧ u.all plain = true ∧
            (Rx.star (.cat (.cat (.chr (· == '\\')) (.chr (· != '\n'))) (.star (.chr plain)))).Lang v) ↔
            ∃ d r, s = d :: r ∧ d ≠ '\n' ∧ regexBodyRx.Lang r := by
          constructor
          · rintro ⟨u, v, h, hu, hv⟩
            cases u with
            | nil =>
              simp only [List.nil_append] at h
              subst h
              exact ((start _ _).1 hv).2
            | cons x u =>
              simp only [List.cons_append, List.cons.injEq] at h
              rw [← h.1] at hu
              simp [plain] at hu
          · intro h
            exact ⟨[], '\\' :: s, rfl, rfl, (start _ _).2 ⟨rfl, h⟩⟩
        rw [this]
        cases s with
        | nil => simp [regexBody]
        | cons d r =>
          have hb : regexBody false ('\\' :: d :: r) = (d != '\n' && regexBody false r) := by
            simp [regexBody]
          simp only [List.cons.injEq, hb, Bool.and_eq_true, bne_iff_ne, ne_eq]
          rw [← ih r (by simp only [List.length_cons] at hs'; omega)]
          constructor
          · rintro ⟨d', r', ⟨rfl, rfl⟩, h, h'⟩; exact ⟨h, h'⟩
          · intro h
            exact ⟨d, r, ⟨rfl, rfl⟩, h⟩
      · have hb : regexBody false (c :: s) = (c != '/' && regexBody false s) := by
          have : (c == '\\') = false := by simpa using hc
          simp only [regexBody, this]
        rw [hb]
        by_cases hs2 : c = '/'
        · subst hs2
          simp only [bne_self_eq_false, Bool.false_and, Bool.false_eq_true, iff_false]
          rintro ⟨u, v, h, hu, hv⟩
          cases u with
          | nil =>
            simp only [List.nil_append] at h
            subst h
            exact hc ((start _ _).1 hv).1
          | cons x u =>
            simp only [List.cons_append, List.cons.injEq] at h
            rw [← h.1] at hu
            simp [plain] at hu
        · have hp : plain c = true := by simp [plain, hc, hs2]
          have : (c != '/') = true := by simpa using hs2
          rw [this, Bool.true_and, ← ih s hs', key]
          constructor
          · rintro ⟨u, v, h, hu, hv⟩
            cases u with
            | nil =>
              simp only [List.nil_append] at h
              subst h
              exact absurd ((start _ _).1 hv).1 hc
            | cons x u =>
              simp only [List.cons_append, List.cons.injEq] at h
              simp only [List.all_cons, Bool.and_eq_true] at hu
              exact ⟨u, v, h.2, hu.2, hv⟩
          · rintro ⟨u, v, rfl, hu, hv⟩
            exact ⟨c :: u, v, rfl, by simp [hp, hu], hv⟩

theorem lang_idRx {w : Str} : idRx.Lang w ↔ ∃ c r, w = c :: r ∧ idStart c = true ∧ r.all idCont = true := Rx.lang_chr_star

theorem lang_varRx {w : Str} : varRx.Lang w ↔ ∃ c r, w = c :: r ∧ c.isAlpha = true ∧ r.all Char.isAlphanum = true := Rx.lang_chr_star

theorem lang_plus {p : Char → Bool} {w : Str} : (Rx.plus (.chr p)).Lang w ↔ ∃ c r, w = c :: r ∧ p c = true ∧ r.all p = true :=
  Rx.lang_chr_star

theorem lang_optId {p w : Str} : (Rx.cat (.lit p) (.opt idRx)).Lang w ↔
    w = p ∨ ∃ c r, w = p ++ c :: r ∧ idStart c = true ∧ r.all idCont = true := by
  rw [Rx.lang_lit_cat]
  simp only [Rx.lang_opt, lang_idRx]
  constructor
  · rintro ⟨v, rfl, rfl | ⟨c, r, rfl, h⟩⟩
    · simp
    · exact .inr ⟨c, r, rfl, h⟩
  · rintro (rfl | ⟨c, r, rfl, h⟩)
    · exact ⟨[], by simp, .inl rfl⟩
    · exact ⟨c :: r, rfl, .inr ⟨c, r, rfl, h⟩⟩

/-- The texts of the patterns. -/
theorem lang_iff (k : Kind) (w : Str) : k.rx.Lang w ↔ Shape k w := by
  cases k with
  | kw k => exact Rx.lang_lit
  | id => exact lang_idRx
  | nodeRef =>
    show (Rx.cat (.lit ['#']) (.plus (.chr Char.isDigit))).Lang w ↔ _
    simp only [Rx.lang_lit_cat, lang_plus, Shape]
    constructor
    · rintro ⟨_, rfl, c, r, rfl, h⟩; exact ⟨c, r, rfl, h⟩
    · rintro ⟨c, r, rfl, h⟩; exact ⟨c :: r, rfl, c, r, rfl, h⟩
  | varRef =>
    show (Rx.cat (.lit ['#']) varRx).Lang w ↔ _
    simp only [Rx.lang_lit_cat, lang_varRx, Shape]
    constructor
    · rintro ⟨_, rfl, c, r, rfl, h⟩; exact ⟨c, r, rfl, h⟩
    · rintro ⟨c, r, rfl, h⟩; exact ⟨c :: r, rfl, c, r, rfl, h⟩
  | varDef =>
    show (Rx.cat varRx (.lit ['#'])).Lang w ↔ _
    simp only [Rx.lang_cat_lit, lang_varRx, Shape]
    constructor
    · rintro ⟨_, rfl, c, r, rfl, h⟩; exact ⟨c, r, rfl, h⟩
    · rintro ⟨c, r, rfl, h⟩; exact ⟨c :: r, rfl, c, r, rfl, h⟩
  | digits => exact lang_plus
  | dom => exact lang_optId
  | point =>
    show (Rx.cat (.lit ['-', '>']) idRx).Lang w ↔ _
    simp only [Rx.lang_lit_cat, lang_idRx, Shape]
    constructor
    · rintro ⟨_, rfl, c, r, rfl, h⟩; exact ⟨c, r, rfl, h⟩
    · rintro ⟨c, r, rfl, h⟩; exact ⟨c :: r, rfl, c, r, rfl, h⟩
  | prec => exact lang_optId
  | near => exact lang_optId
  | quoted =>
    show (Rx.cat (.lit ['"']) (.cat (.star (.chr (· != '"'))) (.lit ['"']))).Lang w ↔ _
    simp only [Rx.lang_lit_cat, Rx.lang_cat_lit, Rx.lang_star_chr, Shape, List.all_eq_true, bne_iff_ne]
    constructor
    · rintro ⟨_, rfl, b, rfl, h⟩; exact ⟨b, rfl, h⟩
    · rintro ⟨b, rfl, h⟩; exact ⟨_, rfl, b, rfl, h⟩
  | regex =>
    show (Rx.cat (.lit ['/']) (.cat regexBodyRx (.lit ['/']))).Lang w ↔ _
    simp only [Rx.lang_lit_cat, Rx.lang_cat_lit, Shape]
    constructor
    · rintro ⟨_, rfl, b, rfl, h⟩; exact ⟨b, rfl, (lang_regexBody _ b le_rfl).1 h⟩
    · rintro ⟨b, rfl, h⟩; exact ⟨_, rfl, b, rfl, (lang_regexBody _ b le_rfl).2 h⟩
  | space => exact lang_plus

theorem shape_nil (k : Kind) : ¬ Shape k [] := by
  cases k with
  | kw k => cases k <;> simp [Shape, Kw.text]
  | _ => simp [Shape]

theorem Spec.Next.pos {s : Str} {k : Kind} {n : Nat} (h : Next s k n) : 0 < n := by
  rcases Nat.eq_zero_or_pos n with rfl | h'
  · have := (lang_iff k _).1 h.lang
    rw [List.take_zero] at this
    exact absurd this (shape_nil k)
  · exact h'

/-! ### From texts to tokens -/

theorem kind_token (t : Tk) : t.kind.token t.text = some t := by
  cases t <;> simp [Kind.token, Tk.text, Tk.kind]

theorem token_iff {k : Kind} {w : Str} {t : Tk} (h : Shape k w) : k.token w = some t ↔ k ≠ .space ∧ t.kind = k ∧ t.text = w := by
  constructor
  · intro ht
    cases k with
    | kw k => simp only [Shape] at h; subst h; simp [Kind.token] at ht; subst ht; simp [Tk.kind, Tk.text]
    | space => simp [Kind.token] at ht
    | id => simp [Kind.token] at ht; subst ht; simp [Tk.kind, Tk.text]
    | digits => simp [Kind.token] at ht; subst ht; simp [Tk.kind, Tk.text]
    | dom => rcases h with rfl | ⟨c, r, rfl, _⟩ <;> simp [Kind.token] at ht <;> subst ht <;> simp [Tk.kind, Tk.text]
    | prec => rcases h with rfl | ⟨c, r, rfl, _⟩ <;> simp [Kind.token] at ht <;> subst ht <;> simp [Tk.kind, Tk.text]
    | near => rcases h with rfl | ⟨c, r, rfl, _⟩ <;> simp [Kind.token] at ht <;> subst ht <;> simp [Tk.kind, Tk.text]
    | nodeRef => obtain ⟨c, r, rfl, _⟩ := h; simp [Kind.token] at ht; subst ht; simp [Tk.kind, Tk.text]
    | varRef => obtain ⟨c, r, rfl, _⟩ := h; simp [Kind.token] at ht; subst ht; simp [Tk.kind, Tk.text]
    | varDef =>
      obtain ⟨c, r, rfl, _⟩ := h
      have e : (c :: (r ++ ['#'])).dropLast = c :: r := by rw [← List.cons_append, List.dropLast_concat]
      simp only [Kind.token, e, Option.some.injEq] at ht; subst ht; simp [Tk.kind, Tk.text]
    | point => obtain ⟨c, r, rfl, _⟩ := h; simp [Kind.token] at ht; subst ht; simp [Tk.kind, Tk.text]
    | quoted => obtain ⟨b, rfl, _⟩ := h; simp [Kind.token] at ht; subst ht; simp [Tk.kind, Tk.text]
    | regex => obtain ⟨b, rfl, _⟩ := h; simp [Kind.token] at ht; subst ht; simp [Tk.kind, Tk.text]
  · rintro ⟨_, rfl, rfl⟩
    exact kind_token t

theorem token_none {k : Kind} {w : Str} : k.token w = none ↔ k = .space := by
  cases k <;> simp [Kind.token]

theorem Spec.Tokens.nil_inv {pos : Nat} {ts : List PTok} (h : Tokens pos [] ts) : ts = [] := by
  cases h with
  | nil => rfl
  | space h => have := h.pos; have := h.le; simp at this; omega
  | tok h => have := h.pos; have := h.le; simp at this; omega

theorem Spec.Tokens.inv {pos : Nat} {s : Str} {ts : List PTok} {k : Kind} {n : Nat} (hn : Next s k n) (h : Tokens pos s ts) :
    (k = .space ∧ Tokens (pos + byteLen (s.take n)) (s.drop n) ts) ∨
    ∃ t ts', ts = ⟨pos, t, pos + byteLen (s.take n)⟩ :: ts' ∧ k.token (s.take n) = some t ∧
      Tokens (pos + byteLen (s.take n)) (s.drop n) ts' := by
  cases h with
  | nil => have := hn.pos; have := hn.le; simp at this; omega
  | space h h' => obtain ⟨rfl, rfl⟩ := hn.unique h; exact .inl ⟨rfl, h'⟩
  | tok h h1 h2 h3 h' =>
    obtain ⟨rfl, rfl⟩ := hn.unique h
    refine .inr ⟨_, _, rfl, ?_, h'⟩
    rw [← h2, ← h3]; exact kind_token _

theorem lexFrom_ok {fuel pos : Nat} {s : Str} {ts : List PTok} (hf : s.length ≤ fuel) :
    lexFrom fuel pos s = .ok ts ↔ Tokens pos s ts := by
  induction fuel generalizing pos s ts with
  | zero =>
    have : s = [] := List.length_eq_zero_iff.1 (Nat.le_zero.1 hf)
    subst this
    simp only [lexFrom, if_true]
    constructor
    · intro h; cases h; exact .nil
    · intro h; rw [h.nil_inv]
  | succ fuel ih =>
    by_cases hs : s = []
    · subst hs
      simp only [lexFrom, if_true]
      constructor
      · intro h; cases h; exact .nil
      · intro h; rw [h.nil_inv]
    · rw [lexFrom, if_neg hs]
      cases hm : munch s with
      | none =>
        simp only [reduceCtorEq, false_iff]
        have := munch_none.1 hm
        intro h
        cases h with
        | nil => exact hs rfl
        | space h => exact this _ _ h.le h.lang
        | tok h => exact this _ _ h.le h.lang
      | some p =>
        obtain ⟨k, n⟩ := p
        have hN := munch_iff.1 hm
        have hpos := hN.pos
        have hle : (s.drop n).length ≤ fuel := by rw [List.length_drop]; omega
        obtain ⟨n, rfl⟩ : ∃ m, n = m + 1 := ⟨n - 1, by omega⟩
        simp only
        have hsh := (lang_iff _ _).1 hN.lang
        constructor
        · intro h
          split at h
          · cases h
          · rename_i ts' e
            have e' := (ih hle).1 e
            split at h
            · rename_i e2
              cases h
              have := token_none.1 e2
              subst this
              exact .space hN e'
            · rename_i t e2
              cases h
              obtain ⟨a, b, c⟩ := (token_iff hsh).1 e2
              exact .tok hN a b c e'
        · intro h
          rcases h.inv hN with ⟨rfl, h'⟩ | ⟨t, ts', rfl, e, h'⟩
          · rw [(ih hle).2 h']; rfl
          · rw [(ih hle).2 h', e]

theorem lexFrom_error {fuel pos p : Nat} {s : Str} (hf : s.length ≤ fuel) (h : lexFrom fuel pos s = .error p) :
    ∃ a b ts, s = a ++ b ∧ pos + byteLen a = p ∧ b ≠ [] ∧ (∀ (k : Kind) (m : Nat), m ≤ b.length → ¬ k.rx.Lang (b.take m)) ∧
      Tokens pos a ts := by
  induction fuel generalizing pos s with
  | zero =>
    have : s = [] := List.length_eq_zero_iff.1 (Nat.le_zero.1 hf)
    subst this
    simp [lexFrom] at h
  | succ fuel ih =>
    by_cases hs : s = []
    · subst hs; simp [lexFrom] at h
    · rw [lexFrom, if_neg hs] at h
      cases hm : munch s with
      | none =>
        rw [hm] at h
        cases h
        exact ⟨[], s, [], rfl, by simp [byteLen, utf8], hs, munch_none.1 hm, .nil⟩
      | some q =>
        obtain ⟨k, n⟩ := q
        rw [hm] at h
        have hN := munch_iff.1 hm
        have hpos := hN.pos
        have hle : (s.drop n).length ≤ fuel := by rw [List.length_drop]; omega
        obtain ⟨n, rfl⟩ : ∃ m, n = m + 1 := ⟨n - 1, by omega⟩
        simp only at h
        cases e : lexFrom fuel (pos + byteLen (s.take (n + 1))) (s.drop (n + 1)) with
        | ok ts => rw [e] at h; simp only at h; split at h <;> cases h
        | error p' =>
          rw [e] at h
          cases h
          obtain ⟨a, b, ts, h1, h2, h3, h4, h5⟩ := ih hle e
          have hl : (s.take (n + 1)).length = n + 1 := by rw [List.length_take]; have := hN.le; omega
          have hsplit : s = (s.take (n + 1) ++ a) ++ b := by rw [List.append_assoc, ← h1, List.take_append_drop]
          have ht : (s.take (n + 1) ++ a).take (n + 1) = s.take (n + 1) := by
            rw [List.take_append_of_le_length (by omega), List.take_of_length_le (by omega)]
          have hd : (s.take (n + 1) ++ a).drop (n + 1) = a := by
            rw [List.drop_append_of_le_length (by omega), List.drop_of_length_le (by omega), List.nil_append]
          have hN' : Next (s.take (n + 1) ++ a) k (n + 1) := by
            refine ⟨by simp only [List.length_append]; omega, by rw [ht]; exact hN.lang, ?_, by rw [ht]; exact hN.first⟩
            intro k' m hm hl'
            refine hN.max k' m ?_ ?_
            · have : s.length = (s.take (n + 1) ++ a).length + b.length := by rw [← List.length_append, ← hsplit]
              omega
            · rw [hsplit, List.take_append_of_le_length hm]; exact hl'
          by_cases hk : k = .space
          · subst hk
            refine ⟨s.take (n + 1) ++ a, b, ts, hsplit, ?_, h3, h4, .space hN' (by rw [ht, hd]; exact h5)⟩
            rw [← h2]; simp [byteLen, utf8, Nat.add_assoc]
          · obtain ⟨t, ht'⟩ : ∃ t, k.token (s.take (n + 1)) = some t := by
              cases e : k.token (s.take (n + 1)) with
              | none => exact absurd (token_none.1 e) hk
              | some t => exact ⟨t, rfl⟩
            obtain ⟨a1, a2, a3⟩ := (token_iff ((lang_iff _ _).1 hN.lang)).1 ht'
            refine ⟨s.take (n + 1) ++ a, b, _, hsplit, ?_, h3, h4, .tok hN' a1 a2 (by rw [ht]; exact a3) (by rw [ht, hd]; exact h5)⟩
            rw [← h2]; simp [byteLen, utf8, Nat.add_assoc]

/-! ### Tokens that can be written -/

theorem words_spec : ∀ k : Kw, (idStart (k.text.headD ' ') = true ∧ k.text.tail.all idCont = true) → k ∈ words := by
  intro k; cases k <;> decide

theorem toNat_inj {c d : Char} (h : c.toNat = d.toNat) : c = d := by
  apply Char.ext
  exact UInt32.toNat_inj.1 h

theorem isDigit_iff {c : Char} : c.isDigit = true ↔ 48 ≤ c.toNat ∧ c.toNat ≤ 57 := by
  simp [Char.isDigit, UInt32.le_iff_toNat_le]

theorem isAlpha_iff {c : Char} : c.isAlpha = true ↔ (65 ≤ c.toNat ∧ c.toNat ≤ 90) ∨ (97 ≤ c.toNat ∧ c.toNat ≤ 122) := by
  simp [Char.isAlpha, Char.isUpper, Char.isLower, UInt32.le_iff_toNat_le]

theorem isSpace_iff {c : Char} : isSpace c = true ↔ (9 ≤ c.toNat ∧ c.toNat ≤ 13) ∨ (0x2000 ≤ c.toNat ∧ c.toNat ≤ 0x200a) ∨
    c.toNat = 0x20 ∨ c.toNat = 0x85 ∨ c.toNat = 0xa0 ∨ c.toNat = 0x1680 ∨ c.toNat = 0x2028 ∨ c.toNat = 0x2029 ∨ c.toNat = 0x202f ∨
    c.toNat = 0x205f ∨ c.toNat = 0x3000 := by
  simp [isSpace, or_assoc]

theorem beq_iff {c d : Char} : (c == d) = true ↔ c.toNat = d.toNat := by
  rw [beq_iff_eq]
  exact ⟨fun h => by rw [h], toNat_inj⟩

theorem idStart_iff {c : Char} : idStart c = true ↔
    (65 ≤ c.toNat ∧ c.toNat ≤ 90) ∨ (97 ≤ c.toNat ∧ c.toNat ≤ 122) ∨ c.toNat = 95 ∨ c.toNat = 37 := by
  simp only [idStart, Bool.or_eq_true, isAlpha_iff, beq_iff, or_assoc]
  rfl

theorem idCont_iff {c : Char} : idCont c = true ↔
    (65 ≤ c.toNat ∧ c.toNat ≤ 90) ∨ (97 ≤ c.toNat ∧ c.toNat ≤ 122) ∨ (48 ≤ c.toNat ∧ c.toNat ≤ 57) ∨
      c.toNat = 95 ∨ c.toNat = 45 ∨ c.toNat = 37 := by
  simp only [idCont, Char.isAlphanum, Bool.or_eq_true, isAlpha_iff, isDigit_iff, beq_iff, or_assoc]
  rfl

/-- The terminal of a text by its first and last characters, for terminals which are neither words nor identifiers. -/
def cls : Str → Option Kind
  | [] => none
  | c :: r =>
    if c.toNat = 35 then
      match r with
      | [] => none
      | d :: _ => if d.isDigit then some .nodeRef else some .varRef
    else if c.toNat = 62 then some .dom
    else if c.toNat = 45 then some .point
    else if c.toNat = 46 then some .prec
    else if c.toNat = 94 then some .near
    else if c.toNat = 34 then some .quoted
    else if c.toNat = 47 then some .regex
    else if isSpace c then some .space
    else if c.isDigit then some .digits
    else if r.getLast? = some '#' then some .varDef
    else none

theorem cls_kw (x : Kw) : cls x.text = none := by cases x <;> decide

/-- The terminals that are neither words nor identifiers. -/
def special : Kind → Option Kind
  | .kw _ => none
  | .id => none
  | k => some k

theorem special_eq {k k' : Kind} (h : special k = some k') : k = k' := by
  cases k <;> simp [special] at h <;> exact h

theorem cls_spec {k : Kind} {w : Str} (h : Shape k w) : cls w = special k := by
  cases k with
  | kw x => simp only [Shape] at h; subst h; exact cls_kw x
  | id =>
    obtain ⟨c, r, rfl, h1, h2⟩ := h
    rw [idStart_iff] at h1
    have h3 : ¬ isSpace c = true := by rw [isSpace_iff]; omega
    have h4 : ¬ c.isDigit = true := by rw [isDigit_iff]; omega
    have h5 : r.getLast? ≠ some '#' := by
      intro e
      have := List.all_eq_true.1 h2 _ (List.mem_of_getLast? e)
      revert this; decide
    simp only [cls]
    rw [if_neg (by omega), if_neg (by omega), if_neg (by omega), if_neg (by omega), if_neg (by omega), if_neg (by omega), if_neg (by omega),
      if_neg h3, if_neg h4, if_neg h5]; rfl
  | nodeRef => obtain ⟨c, r, rfl, h1, h2⟩ := h; simp [cls, special, h1]
  | varRef =>
    obtain ⟨c, r, rfl, h1, h2⟩ := h
    have : c.isDigit = false := by
      rw [isAlpha_iff] at h1
      rw [← Bool.not_eq_true, isDigit_iff]; omega
    simp [cls, special, this]
  | varDef =>
    obtain ⟨c, r, rfl, h1, h2⟩ := h
    rw [isAlpha_iff] at h1
    have h3 : ¬ isSpace c = true := by rw [isSpace_iff]; omega
    have h4 : ¬ c.isDigit = true := by rw [isDigit_iff]; omega
    simp only [cls]
    rw [if_neg (by omega), if_neg (by omega), if_neg (by omega), if_neg (by omega), if_neg (by omega), if_neg (by omega), if_neg (by omega),
      if_neg h3, if_neg h4, if_pos (by simp)]; rfl
  | digits =>
    obtain ⟨c, r, rfl, h1, h2⟩ := h
    have h1' := isDigit_iff.1 h1
    have h3 : ¬ isSpace c = true := by rw [isSpace_iff]; omega
    simp only [cls]
    rw [if_neg (by omega), if_neg (by omega), if_neg (by omega), if_neg (by omega), if_neg (by omega), if_neg (by omega), if_neg (by omega),
      if_neg h3, if_pos h1]; rfl
  | dom => rcases h with rfl | ⟨c, r, rfl, _⟩ <;> simp [cls, special]
  | point => obtain ⟨c, r, rfl, _⟩ := h; simp [cls, special]
  | prec => rcases h with rfl | ⟨c, r, rfl, _⟩ <;> simp [cls, special]
  | near => rcases h with rfl | ⟨c, r, rfl, _⟩ <;> simp [cls, special]
  | quoted => obtain ⟨b, rfl, _⟩ := h; simp [cls, special]
  | regex => obtain ⟨b, rfl, _⟩ := h; simp [cls, special]
  | space =>
    obtain ⟨c, r, rfl, h1, h2⟩ := h
    have h1' := isSpace_iff.1 h1
    simp only [cls]
    rw [if_neg (by omega), if_neg (by omega), if_neg (by omega), if_neg (by omega), if_neg (by omega), if_neg (by omega), if_neg (by omega),
      if_pos h1]; rfl

theorem text_inj {x y : Kw} (h : x.text = y.text) : x = y := by
  revert h; cases x <;> cases y <;> decide

/-- Two terminals share a text only if one is a word and the other one stands for identifiers. -/
theorem shape_overlap {k k' : Kind} {w : Str} (h : Shape k w) (h' : Shape k' w) :
    k = k' ∨ ∃ x ∈ words, w = x.text ∧ ((k = .kw x ∧ k' = .id) ∨ (k = .id ∧ k' = .kw x)) := by
  have key : ∀ {x : Kw}, Shape .id x.text → x ∈ words := by
    rintro x ⟨c, r, e, h1, h2⟩
    apply words_spec
    rw [e]; exact ⟨h1, h2⟩
  have c1 := cls_spec h
  have c2 := cls_spec h'
  rw [c1] at c2
  cases k with
  | kw x =>
    have hx : w = x.text := h
    cases k' with
    | kw y => have hy : w = y.text := h'; left; rw [text_inj (hx.symm.trans hy)]
    | id => right; exact ⟨x, key (hx ▸ h'), hx, .inl ⟨rfl, rfl⟩⟩
    | _ => simp [special] at c2
  | id =>
    cases k' with
    | kw y => have hy : w = y.text := h'; right; exact ⟨y, key (hy ▸ h), hy, .inr ⟨rfl, rfl⟩⟩
    | id => exact .inl rfl
    | _ => simp [special] at c2
  | _ => cases k' <;> simp [special] at c2 ⊢

theorem valid_of_shape {t : Tk} (h : Shape t.kind t.text) (hw : ∀ x ∈ words, t.kind = .id → t.text ≠ x.text) : Valid t := by
  cases t with
  | kw x => trivial
  | id s => exact ⟨h, fun x hx => hw x hx rfl⟩
  | nodeRef s => obtain ⟨c, r, e, h1, h2⟩ := h; simp only [Tk.text, List.cons.injEq, true_and] at e; subst e; simp [Valid, h1]; simpa using h2
  | digits s => obtain ⟨c, r, e, h1, h2⟩ := h; simp only [Tk.text] at e; subst e; simp [Valid, h1]; simpa using h2
  | varRef s => obtain ⟨c, r, e, h1⟩ := h; simp only [Tk.text, List.cons.injEq, true_and] at e; exact ⟨c, r, e, h1⟩
  | varDef s =>
    obtain ⟨c, r, e, h1⟩ := h
    simp only [Tk.text, ← List.cons_append, List.append_cancel_right_eq] at e
    exact ⟨c, r, e, h1⟩
  | dom s => rcases h with e | ⟨c, r, e, h1⟩ <;> simp only [Tk.text, List.cons.injEq, true_and] at e
             · exact .inl e
             · exact .inr ⟨c, r, e, h1⟩
  | prec s => rcases h with e | ⟨c, r, e, h1⟩ <;> simp only [Tk.text, List.cons.injEq, true_and] at e
              · exact .inl e
              · exact .inr ⟨c, r, e, h1⟩
  | near s => rcases h with e | ⟨c, r, e, h1⟩ <;> simp only [Tk.text, List.cons.injEq, true_and] at e
              · exact .inl e
              · exact .inr ⟨c, r, e, h1⟩
  | point s => obtain ⟨c, r, e, h1⟩ := h; simp only [Tk.text, List.cons.injEq, true_and] at e; exact ⟨c, r, e, h1⟩
  | quoted s => obtain ⟨b, e, h1⟩ := h; simp only [Tk.text, List.cons.injEq, true_and, List.append_cancel_right_eq] at e; exact e ▸ h1
  | regex s => obtain ⟨b, e, h1⟩ := h; simp only [Tk.text, List.cons.injEq, true_and, List.append_cancel_right_eq] at e; exact e ▸ h1

theorem shape_of_valid {t : Tk} (h : Valid t) : Shape t.kind t.text := by
  have num : ∀ s : Str, s ≠ [] ∧ s.all Char.isDigit = true → ∃ c r, s = c :: r ∧ c.isDigit = true ∧ r.all Char.isDigit = true := by
    rintro (_ | ⟨c, r⟩) ⟨h1, h2⟩
    · exact absurd rfl h1
    · simp only [List.all_cons, Bool.and_eq_true] at h2
      exact ⟨c, r, rfl, h2⟩
  cases t with
  | kw x => rfl
  | id s => exact h.1
  | nodeRef s => obtain ⟨c, r, rfl, h1⟩ := num s h; exact ⟨c, r, rfl, h1⟩
  | digits s => exact num s h
  | varRef s => obtain ⟨c, r, rfl, h1⟩ := h; exact ⟨c, r, rfl, h1⟩
  | varDef s => obtain ⟨c, r, rfl, h1⟩ := h; exact ⟨c, r, rfl, h1⟩
  | dom s => rcases h with rfl | ⟨c, r, rfl, h1⟩
             · exact .inl rfl
             · exact .inr ⟨c, r, rfl, h1⟩
  | prec s => rcases h with rfl | ⟨c, r, rfl, h1⟩
              · exact .inl rfl
              · exact .inr ⟨c, r, rfl, h1⟩
  | near s => rcases h with rfl | ⟨c, r, rfl, h1⟩
              · exact .inl rfl
              · exact .inr ⟨c, r, rfl, h1⟩
  | point s => obtain ⟨c, r, rfl, h1⟩ := h; exact ⟨c, r, rfl, h1⟩
  | quoted s => exact ⟨s, rfl, h⟩
  | regex s => exact ⟨s, rfl, h⟩

theorem kind_ne_space (t : Tk) : t.kind ≠ .space := by cases t <;> simp [Tk.kind]

theorem idx_word (x : Kw) : kinds.idxOf (.kw x) < kinds.idxOf .id := by cases x <;> decide

/-- The next token of a text that begins with a token which cannot be extended. -/
theorem next_of_valid {t : Tk} {rest : Str} (h : Valid t) (hc : Clear t rest) : Next (t.text ++ rest) t.kind t.text.length := by
  have hs := shape_of_valid h
  have ht : (t.text ++ rest).take t.text.length = t.text := by simp
  refine ⟨by simp, by rw [ht]; exact (lang_iff _ _).2 hs, ?_, ?_⟩
  · intro k' m hm hl
    by_contra hlt
    push Not at hlt
    rw [List.take_append, List.take_of_length_le hlt.le] at hl
    refine hc k' (rest.take (m - t.text.length)) ?_ (List.take_prefix _ _) hl
    intro e
    have := congrArg List.length e
    simp only [List.length_take, List.length_nil, List.length_append] at this hm
    omega
  · intro k' hl
    rw [ht, lang_iff] at hl
    rcases shape_overlap hs hl with e | ⟨x, hx, e, ⟨e1, e2⟩ | ⟨e1, e2⟩⟩
    · rw [e]
    · rw [e1, e2]; exact (idx_word x).le
    · cases t with
      | id s => exact absurd e (h.2 x hx)
      | _ => simp [Tk.kind] at e1

/-! ### Places where a token ends -/

theorem regexBody_slash {esc : Bool} {s u : Str} (h : regexBody esc s = true) : regexBody esc (s ++ '/' :: u) = false := by
  induction s generalizing esc with
  | nil => cases esc <;> simp [regexBody] at h ⊢
  | cons c s ih =>
    cases esc with
    | true =>
      simp only [regexBody, Bool.and_eq_true] at h
      simp [regexBody, ih h.2]
    | false =>
      simp only [regexBody, Bool.and_eq_true] at h
      simp [regexBody, ih h.2]

/-- The characters of a terminal after the first one. -/
theorem shape_tail {k : Kind} {a : Char} {w : Str} (h : Shape k (a :: w)) (h1 : k ≠ .quoted) (h2 : k ≠ .regex) (h3 : k ≠ .space) :
    ∀ c ∈ w, idCont c = true ∨ c = '#' ∨ c = '=' ∨ c = ':' ∨ (a = '-' ∧ ∃ r, w = '>' :: r ∧ ∀ c ∈ r, idCont c = true) := by
  have dig : ∀ c : Char, c.isDigit = true → idCont c = true := by
    intro c hc; rw [isDigit_iff] at hc; rw [idCont_iff]; omega
  have aln : ∀ c : Char, c.isAlphanum = true → idCont c = true := by
    intro c hc; simp [idCont, hc]
  have alp : ∀ c : Char, c.isAlpha = true → idCont c = true := by
    intro c hc; rw [isAlpha_iff] at hc; rw [idCont_iff]; omega
  have sta : ∀ c : Char, idStart c = true → idCont c = true := by
    intro c hc; rw [idStart_iff] at hc; rw [idCont_iff]; omega
  intro c hc
  cases k with
  | kw x =>
    have key : ∀ x : Kw, ∀ c ∈ x.text.tail, idCont c = true ∨ c = '#' ∨ c = '=' ∨ c = ':' := by
      intro x; cases x <;> decide
    have : w = x.text.tail := by have : a :: w = x.text := h; rw [← this]; rfl
    rcases key x c (this ▸ hc) with e | e | e | e
    · exact .inl e
    · exact .inr (.inl e)
    · exact .inr (.inr (.inl e))
    · exact .inr (.inr (.inr (.inl e)))
  | id => obtain ⟨b, r, e, _, h5⟩ := h; cases e; exact .inl (List.all_eq_true.1 h5 c hc)
  | digits => obtain ⟨b, r, e, _, h5⟩ := h; cases e; exact .inl (dig c (List.all_eq_true.1 h5 c hc))
  | nodeRef =>
    obtain ⟨b, r, e, h4, h5⟩ := h; cases e
    rcases List.mem_cons.1 hc with rfl | hc
    · exact .inl (dig _ h4)
    · exact .inl (dig c (List.all_eq_true.1 h5 c hc))
  | varRef =>
    obtain ⟨b, r, e, h4, h5⟩ := h; cases e
    rcases List.mem_cons.1 hc with rfl | hc
    · exact .inl (alp _ h4)
    · exact .inl (aln c (List.all_eq_true.1 h5 c hc))
  | varDef =>
    obtain ⟨b, r, e, h4, h5⟩ := h; cases e
    rcases List.mem_append.1 hc with hc | hc
    · exact .inl (aln c (List.all_eq_true.1 h5 c hc))
    · exact .inr (.inl (List.mem_singleton.1 hc))
  | dom =>
    rcases h with e | ⟨b, r, e, h4, h5⟩ <;> cases e
    · cases hc
    · rcases List.mem_cons.1 hc with rfl | hc
      · exact .inl (sta _ h4)
      · exact .inl (List.all_eq_true.1 h5 c hc)
  | prec =>
    rcases h with e | ⟨b, r, e, h4, h5⟩ <;> cases e
    · cases hc
    · rcases List.mem_cons.1 hc with rfl | hc
      · exact .inl (sta _ h4)
      · exact .inl (List.all_eq_true.1 h5 c hc)
  | near =>
    rcases h with e | ⟨b, r, e, h4, h5⟩ <;> cases e
    · cases hc
    · rcases List.mem_cons.1 hc with rfl | hc
      · exact .inl (sta _ h4)
      · exact .inl (List.all_eq_true.1 h5 c hc)
  | point =>
    obtain ⟨b, r, e, h4, h5⟩ := h; cases e
    refine .inr (.inr (.inr (.inr ⟨rfl, b :: r, rfl, ?_⟩)))
    intro c hc
    rcases List.mem_cons.1 hc with rfl | hc
    · exact sta _ h4
    · exact List.all_eq_true.1 h5 c hc
  | quoted => exact absurd rfl h1
  | regex => exact absurd rfl h2
  | space => exact absurd rfl h3

theorem opens_spec {c : Char} (h : opens c = true) : idCont c = false ∧ c ≠ '#' ∧ c ≠ '=' ∧ c ≠ ':' := by
  simp only [opens, Bool.or_eq_true, List.contains_iff_mem] at h
  rcases h with h | h
  · rw [isSpace_iff] at h
    refine ⟨?_, ?_, ?_, ?_⟩
    · rw [← Bool.not_eq_true, idCont_iff]; omega
    all_goals (rintro rfl; revert h; decide)
  · simp only [List.mem_cons, List.not_mem_nil, or_false] at h
    rcases h with h | h | h | h | h | h | h | h | h | h | h | h | h | h | h | h <;> subst h <;> decide

theorem text_ne_nil {t : Tk} (h : Valid t) : t.text ≠ [] := by
  intro e
  have := shape_of_valid h
  rw [e] at this
  exact shape_nil _ this

/-- A token ends before a character that opens another token or is whitespace. -/
theorem clear_opens {t : Tk} (h : Valid t) {c : Char} {rest : Str} (hc : opens c = true) : Clear t (c :: rest) := by
  intro k v hv hp hl
  obtain ⟨u, rfl⟩ : ∃ u, v = c :: u := by
    cases v with
    | nil => exact absurd rfl hv
    | cons d u =>
      rw [List.cons_prefix_cons] at hp
      exact ⟨u, by rw [hp.1]⟩
  have hs := shape_of_valid h
  rw [lang_iff] at hl
  obtain ⟨a, w, ha⟩ : ∃ a w, t.text = a :: w := List.exists_cons_of_ne_nil (text_ne_nil h)
  rw [ha, List.cons_append] at hl
  rw [ha] at hs
  -- the first character decides about values and whitespace
  have c1 := cls_spec hs
  have c2 := cls_spec hl
  by_cases hq : k = .quoted
  · subst hq
    have hk : t.kind = .quoted := by
      obtain ⟨b, e, _⟩ := hl
      simp only [List.cons.injEq] at e
      obtain ⟨rfl, _⟩ := e
      exact special_eq (c1.symm.trans (by simp [cls]))
    rw [hk] at hs
    obtain ⟨b, e, hb⟩ := hl
    obtain ⟨b', e', hb'⟩ := hs
    cases e'
    simp only [List.append_assoc, List.cons_append, List.nil_append, List.cons.injEq, true_and] at e
    have : '"' ∈ b := by
      have e2 : (b' ++ '"' :: c :: u).dropLast = b := by rw [e, List.dropLast_concat]
      rw [← e2, List.dropLast_append_of_ne_nil (by simp)]
      simp
    exact hb _ this rfl
  by_cases hr : k = .regex
  · subst hr
    have hk : t.kind = .regex := by
      obtain ⟨b, e, _⟩ := hl
      simp only [List.cons.injEq] at e
      obtain ⟨rfl, _⟩ := e
      exact special_eq (c1.symm.trans (by simp [cls]))
    rw [hk] at hs
    obtain ⟨b, e, hb⟩ := hl
    obtain ⟨b', e', hb'⟩ := hs
    cases e'
    simp only [List.append_assoc, List.cons_append, List.nil_append, List.cons.injEq, true_and] at e
    have e2 : (b' ++ '/' :: c :: u).dropLast = b := by rw [e, List.dropLast_concat]
    rw [List.dropLast_append_of_ne_nil (by simp), List.dropLast_cons_of_ne_nil (by simp)] at e2
    have := regexBody_slash (u := (c :: u).dropLast) hb'
    rw [e2, hb] at this
    cases this
  by_cases hsp : k = .space
  · subst hsp
    obtain ⟨b, r, e, hb, _⟩ := hl
    cases e
    have : cls (a :: w) = some .space := by
      have h1' := isSpace_iff.1 hb
      simp only [cls]
      rw [if_neg (by omega), if_neg (by omega), if_neg (by omega), if_neg (by omega), if_neg (by omega), if_neg (by omega), if_neg (by omega),
        if_pos hb]
    exact kind_ne_space t (special_eq (c1.symm.trans this))
  obtain ⟨o1, o2, o3, o4⟩ := opens_spec hc
  rcases shape_tail hl hq hr hsp c (by simp) with e | e | e | e | ⟨rfl, r, e, e'⟩
  · rw [o1] at e; cases e
  · exact o2 e
  · exact o3 e
  · exact o4 e
  · cases w with
    | nil =>
      -- a minus sign alone is no token
      have hk : t.kind = .point := special_eq (c1.symm.trans (by decide))
      rw [hk] at hs
      obtain ⟨_, _, e, _⟩ := hs
      cases e
    | cons b w =>
      simp only [List.cons_append, List.cons.injEq] at e
      have := e' c (by rw [← e.2]; simp)
      rw [o1] at this; cases this

end Parse
