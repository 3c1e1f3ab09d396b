import Verif.Text.Percent
import Mathlib.Data.Nat.Find
import Mathlib.Order.Basic

/-!
# Regular expressions for the terminals of the grammar

LALRPOP makes an automaton from the patterns of the terminals (`lalrpop_util::lexer`).  Here it is given by derivatives: the state after
reading a text is the expression for the remaining texts.
-/

namespace Parse

/-- A pattern: nothing, the empty text, one character, sequence, alternative, repetition. -/
inductive Rx
  | nothing
  | eps
  | chr (p : Char → Bool)
  | cat (a b : Rx)
  | alt (a b : Rx)
  | star (a : Rx)

namespace Rx

/-- The texts of a pattern. -/
inductive Lang : Rx → Str → Prop
  | eps : Lang .eps []
  | chr {p c} : p c = true → Lang (.chr p) [c]
  | cat {a b s t} : Lang a s → Lang b t → Lang (.cat a b) (s ++ t)
  | altL {a b s} : Lang a s → Lang (.alt a b) s
  | altR {a b s} : Lang b s → Lang (.alt a b) s
  | starNil {a} : Lang (.star a) []
  | starCons {a s t} : Lang a s → Lang (.star a) t → Lang (.star a) (s ++ t)

/-- A fixed text. -/
def lit : Str → Rx
  | [] => .eps
  | c :: s => .cat (.chr (· == c)) (lit s)

/-- `r?` -/
def opt (a : Rx) : Rx := .alt .eps a

/-- `r+` -/
def plus (a : Rx) : Rx := .cat a (.star a)

/-- Sequences and alternatives without useless parts. -/
def mkCat : Rx → Rx → Rx
  | .nothing, _ => .nothing
  | .eps, b => b
  | a, b => .cat a b

def mkAlt : Rx → Rx → Rx
  | .nothing, b => b
  | a, .nothing => a
  | a, b => .alt a b

/-- Whether the empty text is a text of the pattern (accepting states of the automaton). -/
def nullable : Rx → Bool
  | .nothing => false
  | .eps => true
  | .chr _ => false
  | .cat a b => a.nullable && b.nullable
  | .alt a b => a.nullable || b.nullable
  | .star _ => true

/-- The next state of the automaton. -/
def deriv (c : Char) : Rx → Rx
  | .nothing => .nothing
  | .eps => .nothing
  | .chr p => if p c then .eps else .nothing
  | .cat a b => if a.nullable then mkAlt (mkCat (a.deriv c) b) (b.deriv c) else mkCat (a.deriv c) b
  | .alt a b => mkAlt (a.deriv c) (b.deriv c)
  | .star a => mkCat (a.deriv c) (.star a)

/-- The length of the longest match at the begin of the text. -/
def longest : Rx → Str → Option Nat
  | r, [] => if r.nullable then some 0 else none
  | r, c :: s =>
    match (r.deriv c).longest s with
    | some n => some (n + 1)
    | none => if r.nullable then some 0 else none

theorem not_lang_nothing (s : Str) : ¬ Lang .nothing s := by rintro ⟨⟩

theorem lang_eps {s : Str} : Lang .eps s ↔ s = [] := ⟨fun h => by cases h; rfl, fun h => h ▸ .eps⟩

theorem lang_chr {p : Char → Bool} {s : Str} : Lang (.chr p) s ↔ ∃ c, s = [c] ∧ p c = true :=
  ⟨fun h => by cases h with | chr h => exact ⟨_, rfl, h⟩, fun ⟨_, h, h'⟩ => h ▸ .chr h'⟩

theorem lang_cat {a b : Rx} {s : Str} : Lang (.cat a b) s ↔ ∃ u v, s = u ++ v ∧ Lang a u ∧ Lang b v :=
  ⟨fun h => by cases h with | cat h h' => exact ⟨_, _, rfl, h, h'⟩, fun ⟨_, _, h, h', h''⟩ => h ▸ .cat h' h''⟩

theorem lang_alt {a b : Rx} {s : Str} : Lang (.alt a b) s ↔ Lang a s ∨ Lang b s :=
  ⟨fun h => by cases h with | altL h => exact .inl h | altR h => exact .inr h, fun h => h.elim .altL .altR⟩

theorem lang_mkCat {a b : Rx} {s : Str} : Lang (mkCat a b) s ↔ Lang (.cat a b) s := by
  unfold mkCat
  split
  · simp [lang_cat, not_lang_nothing]
  · rw [lang_cat]
    constructor
    · intro h; exact ⟨[], s, rfl, .eps, h⟩
    · rintro ⟨u, v, rfl, h, h'⟩
      rw [lang_eps.1 h]
      exact h'
  · rfl

theorem lang_mkAlt {a b : Rx} {s : Str} : Lang (mkAlt a b) s ↔ Lang (.alt a b) s := by
  unfold mkAlt
  split
  · simp [lang_alt, not_lang_nothing]
  · simp [lang_alt, not_lang_nothing]
  · rfl

theorem lang_nil {r : Rx} : Lang r [] ↔ r.nullable = true := by
  induction r with
  | nothing => simp [nullable, not_lang_nothing]
  | eps => simp [nullable, lang_eps]
  | chr p => simp [nullable, lang_chr]
  | cat a b iha ihb =>
    simp only [nullable, lang_cat, Bool.and_eq_true, ← iha, ← ihb]
    constructor
    · rintro ⟨u, v, h, h1, h2⟩
      obtain ⟨rfl, rfl⟩ := List.append_eq_nil_iff.1 h.symm
      exact ⟨h1, h2⟩
    · rintro ⟨h1, h2⟩; exact ⟨[], [], rfl, h1, h2⟩
  | alt a b iha ihb => simp [nullable, lang_alt, ← iha, ← ihb]
  | star a _ => simp [nullable, Lang.starNil]

theorem lang_star_cons {a : Rx} {c : Char} {s : Str} : Lang (.star a) (c :: s) ↔ ∃ u v, s = u ++ v ∧ Lang a (c :: u) ∧ Lang (.star a) v := by
  constructor
  · intro h
    generalize hr : Rx.star a = r at h
    generalize ht : c :: s = t at h
    induction h with
    | @starCons a' u v h1 h2 _ ih =>
      injection hr with hr
      subst hr
      cases u with
      | nil => exact ih rfl (by simpa using ht)
      | cons d u =>
        simp only [List.cons_append, List.cons.injEq] at ht
        obtain ⟨rfl, rfl⟩ := ht
        exact ⟨u, v, rfl, h1, h2⟩
    | starNil => cases ht
    | _ => cases hr
  · rintro ⟨u, v, rfl, h, h'⟩
    exact Lang.starCons (s := c :: u) h h'

theorem lang_deriv {r : Rx} {c : Char} {s : Str} : Lang (r.deriv c) s ↔ Lang r (c :: s) := by
  induction r generalizing s with
  | nothing => simp [deriv, not_lang_nothing]
  | eps => simp [deriv, not_lang_nothing, lang_eps]
  | chr p =>
    unfold deriv
    split
    · next h =>
      rw [lang_eps, lang_chr]
      constructor
      · rintro rfl; exact ⟨c, rfl, h⟩
      · rintro ⟨d, e, _⟩; cases e; rfl
    · simp_all [not_lang_nothing, lang_chr]
  | cat a b iha ihb =>
    have key : Lang (.cat a b) (c :: s) ↔ (∃ u v, s = u ++ v ∧ Lang a (c :: u) ∧ Lang b v) ∨ (a.nullable = true ∧ Lang b (c :: s)) := by
      rw [lang_cat]
      constructor
      · rintro ⟨u, v, h, h1, h2⟩
        cases u with
        | nil =>
          refine .inr ⟨lang_nil.1 h1, ?_⟩
          simp only [List.nil_append] at h
          exact h ▸ h2
        | cons d u =>
          simp only [List.cons_append, List.cons.injEq] at h
          obtain ⟨rfl, rfl⟩ := h
          exact .inl ⟨u, v, rfl, h1, h2⟩
      · rintro (⟨u, v, rfl, h1, h2⟩ | ⟨h1, h2⟩)
        · exact ⟨c :: u, v, rfl, h1, h2⟩
        · exact ⟨[], c :: s, rfl, lang_nil.2 h1, h2⟩
    rw [key]
    unfold deriv
    split
    · next h => simp [lang_mkAlt, lang_alt, lang_mkCat, lang_cat, iha, ihb, h]
    · next h => simp [lang_mkCat, lang_cat, iha, h]
  | alt a b iha ihb => simp [deriv, lang_mkAlt, lang_alt, iha, ihb]
  | star a ih => rw [deriv, lang_mkCat, lang_cat, lang_star_cons]; simp [ih]

/-- `longest` is the length of the longest text of the pattern at the begin. -/
theorem longest_eq_some {r : Rx} {s : Str} {n : Nat} :
    r.longest s = some n ↔ n ≤ s.length ∧ Lang r (s.take n) ∧ ∀ m, m ≤ s.length → Lang r (s.take m) → m ≤ n := by
  induction s generalizing r n with
  | nil =>
    unfold longest
    split
    · next h =>
      rw [← lang_nil] at h
      simp only [Option.some.injEq, List.length_nil, Nat.le_zero, List.take_nil]
      constructor
      · rintro rfl; exact ⟨rfl, h, fun m hm _ => hm.le⟩
      · rintro ⟨h1, _⟩; exact h1.symm
    · next h =>
      rw [← lang_nil] at h
      simp [h]
  | cons c s ih =>
    have hnone : (r.deriv c).longest s = none ↔ ∀ m, m ≤ s.length → ¬ Lang r ((c :: s).take (m + 1)) := by
      constructor
      · intro h m hm hl
        rw [List.take_succ_cons, ← lang_deriv] at hl
        have : ∃ k, k ≤ s.length ∧ Lang (r.deriv c) (s.take k) ∧ ∀ m, m ≤ s.length → Lang (r.deriv c) (s.take m) → m ≤ k := by
          classical
          have hex : ∃ k, k ≤ s.length ∧ Lang (r.deriv c) (s.take k) := ⟨m, hm, hl⟩
          let P := fun k => k ≤ s.length ∧ Lang (r.deriv c) (s.take k)
          refine ⟨Nat.findGreatest P s.length, ?_, ?_, ?_⟩
          · exact Nat.findGreatest_le _
          · exact (Nat.findGreatest_spec (P := P) hm ⟨hm, hl⟩).2
          · intro m hm hl; exact Nat.le_findGreatest hm ⟨hm, hl⟩
        obtain ⟨k, hk⟩ := this
        rw [(ih (n := k)).2 hk] at h
        cases h
      · intro h
        cases e : (r.deriv c).longest s with
        | none => rfl
        | some k =>
          obtain ⟨h1, h2, _⟩ := ih.1 e
          rw [lang_deriv] at h2
          exact absurd h2 (h k h1)
    unfold longest
    cases e : (r.deriv c).longest s with
    | none =>
      rw [hnone] at e
      have e' : ∀ m, m ≤ (c :: s).length → Lang r ((c :: s).take m) → m = 0 := by
        intro m hm hl
        cases m with
        | zero => rfl
        | succ m => exact absurd hl (e m (by simpa using hm))
      by_cases h : r.nullable = true
      · simp only [h, if_true, Option.some.injEq]
        constructor
        · rintro rfl
          exact ⟨Nat.zero_le _, lang_nil.2 h, fun m hm hl => (e' m hm hl).le⟩
        · rintro ⟨h1, h2, _⟩; exact (e' n h1 h2).symm
      · simp only [h, if_false, Bool.false_eq_true, reduceCtorEq, false_iff]
        rintro ⟨h1, h2, _⟩
        have := e' n h1 h2
        subst this
        exact h (lang_nil.1 h2)
    | some k =>
      obtain ⟨h1, h2, h3⟩ := ih.1 e
      rw [lang_deriv] at h2
      simp only [Option.some.injEq]
      have max : ∀ m, m ≤ (c :: s).length → Lang r ((c :: s).take m) → m ≤ k + 1 := by
        intro m hm hl
        cases m with
        | zero => omega
        | succ m =>
          have := h3 m (by simpa using hm) (by rwa [lang_deriv])
          omega
      constructor
      · rintro rfl; exact ⟨by simpa using h1, h2, max⟩
      · rintro ⟨a1, a2, a3⟩
        have := a3 (k + 1) (by simpa using h1) h2
        have := max n a1 a2
        omega

theorem longest_eq_none {r : Rx} {s : Str} : r.longest s = none ↔ ∀ m, m ≤ s.length → ¬ Lang r (s.take m) := by
  constructor
  · intro h m hm hl
    classical
    let P := fun k => Lang r (s.take k)
    have : r.longest s = some (Nat.findGreatest P s.length) := by
      rw [longest_eq_some]
      refine ⟨Nat.findGreatest_le _, Nat.findGreatest_spec (P := P) hm hl, fun m hm hl => Nat.le_findGreatest hm hl⟩
    rw [h] at this
    cases this
  · intro h
    cases e : r.longest s with
    | none => rfl
    | some n =>
      obtain ⟨h1, h2, _⟩ := longest_eq_some.1 e
      exact absurd h2 (h n h1)

/-! ### Languages of the patterns used -/

theorem lang_lit {w s : Str} : Lang (lit w) s ↔ s = w := by
  induction w generalizing s with
  | nil => exact lang_eps
  | cons c w ih =>
    simp only [lit, lang_cat, lang_chr, ih]
    constructor
    · rintro ⟨u, v, rfl, ⟨d, rfl, h⟩, rfl⟩
      have : d = c := by simpa using h
      subst this
      rfl
    · rintro rfl
      exact ⟨[c], w, rfl, ⟨c, rfl, by simp⟩, rfl⟩

theorem lang_opt {a : Rx} {s : Str} : Lang (opt a) s ↔ s = [] ∨ Lang a s := by simp [opt, lang_alt, lang_eps]

theorem lang_star_chr {p : Char → Bool} {s : Str} : Lang (.star (.chr p)) s ↔ s.all p = true := by
  induction s with
  | nil => simp [Lang.starNil]
  | cons c s ih =>
    rw [lang_star_cons]
    simp only [lang_chr, List.all_cons, Bool.and_eq_true]
    constructor
    · rintro ⟨u, v, rfl, ⟨d, h, hp⟩, hv⟩
      simp only [List.cons.injEq] at h
      obtain ⟨rfl, rfl⟩ := h
      exact ⟨hp, ih.1 hv⟩
    · rintro ⟨hp, hs⟩
      exact ⟨[], s, rfl, ⟨c, rfl, hp⟩, ih.2 hs⟩

theorem lang_chr_star {p q : Char → Bool} {s : Str} :
    Lang (.cat (.chr p) (.star (.chr q))) s ↔ ∃ c r, s = c :: r ∧ p c = true ∧ r.all q = true := by
  simp only [lang_cat, lang_chr, lang_star_chr]
  constructor
  · rintro ⟨u, v, rfl, ⟨c, rfl, h⟩, h'⟩; exact ⟨c, v, rfl, h, h'⟩
  · rintro ⟨c, r, rfl, h, h'⟩; exact ⟨[c], r, rfl, ⟨c, rfl, h⟩, h'⟩

theorem lang_lit_cat {w s : Str} {a : Rx} : Lang (.cat (lit w) a) s ↔ ∃ v, s = w ++ v ∧ Lang a v := by
  simp only [lang_cat, lang_lit]
  constructor
  · rintro ⟨u, v, rfl, rfl, h⟩; exact ⟨v, rfl, h⟩
  · rintro ⟨v, rfl, h⟩; exact ⟨w, v, rfl, rfl, h⟩

theorem lang_cat_lit {w s : Str} {a : Rx} : Lang (.cat a (lit w)) s ↔ ∃ v, s = v ++ w ∧ Lang a v := by
  simp only [lang_cat, lang_lit]
  constructor
  · rintro ⟨u, v, rfl, h, rfl⟩; exact ⟨u, rfl, h⟩
  · rintro ⟨v, rfl, h⟩; exact ⟨v, w, rfl, h, rfl⟩

end Rx

end Parse
