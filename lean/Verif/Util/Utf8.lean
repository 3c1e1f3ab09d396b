import Verif.Text.Percent
import Mathlib.Data.Char
import Verif.Keys.Lemmas

/-!
# UTF-8 keeps the order of strings
-/

open Keys

/-- `str::as_bytes` with bytes as numbers. -/
def utf8Nat (s : Str) : Bytes := (utf8 s).map UInt8.toNat

/-- The bytes of a character with this code point. -/
def encNat (v : Nat) : Bytes :=
  if v ≤ 0x7f then [v]
  else if v ≤ 0x7ff then [v / 64 + 0xc0, v % 64 + 0x80]
  else if v ≤ 0xffff then [v / 4096 + 0xe0, v / 64 % 64 + 0x80, v % 64 + 0x80]
  else [v / 262144 + 0xf0, v / 4096 % 64 + 0x80, v / 64 % 64 + 0x80, v % 64 + 0x80]

theorem char_lt_max (c : Char) : c.toNat < 0x110000 := by
  have := c.valid
  have e : c.toNat = c.val.toNat := rfl
  rcases this with h | ⟨_, h⟩
  · rw [e]
    have : c.val.toNat < 0xd800 := h
    omega
  · exact h

theorem encChar_eq (c : Char) : (String.utf8EncodeChar c).map UInt8.toNat = encNat c.toNat := by
  have hc := char_lt_max c
  have e : c.toNat = c.val.toNat := rfl
  rw [e] at hc ⊢
  unfold String.utf8EncodeChar encNat
  generalize c.val.toNat = v at hc
  have h8 : ∀ n, n < 256 → (UInt8.ofNat n).toNat = n := fun n h => by
    rw [UInt8.toNat_ofNat']
    omega
  simp only
  split_ifs with h1 h2 h3
  · simp only [List.map_cons, List.map_nil]
    rw [h8 _ (by omega)]
  · simp only [List.map_cons, List.map_nil]
    rw [h8 _ (by omega), h8 _ (by omega), Nat.mod_eq_of_lt (by omega : v / 64 < 32)]
  · simp only [List.map_cons, List.map_nil]
    rw [h8 _ (by omega), h8 _ (by omega), h8 _ (by omega), Nat.mod_eq_of_lt (by omega : v / 4096 < 16)]
  · simp only [List.map_cons, List.map_nil]
    rw [h8 _ (by omega), h8 _ (by omega), h8 _ (by omega), h8 _ (by omega), Nat.mod_eq_of_lt (by omega : v / 262144 < 8)]

theorem utf8Nat_cons (c : Char) (s : Str) : utf8Nat (c :: s) = encNat c.toNat ++ utf8Nat s := by
  unfold utf8Nat utf8
  rw [List.flatMap_cons, List.map_append, encChar_eq]

theorem utf8Nat_nil : utf8Nat [] = [] := rfl

theorem utf8Nat_append (a b : Str) : utf8Nat (a ++ b) = utf8Nat a ++ utf8Nat b := by
  unfold utf8Nat
  rw [utf8_append, List.map_append]

theorem encNat_ne_nil (v : Nat) : encNat v ≠ [] := by
  unfold encNat
  split_ifs <;> simp

theorem encNat_lt {v w : Nat} (h : v < w) (hw : w < 0x110000) (x y : Bytes) : encNat v ++ x < encNat w ++ y := by
  unfold encNat
  split_ifs <;> simp only [List.cons_append, List.nil_append, List.cons_lt_cons_iff] <;> omega

theorem char_lt_iff {c d : Char} : c < d ↔ c.toNat < d.toNat := Iff.rfl

theorem utf8Nat_mono {a b : Str} (h : a < b) : utf8Nat a < utf8Nat b := by
  induction a generalizing b with
  | nil =>
    cases b with
    | nil => exact absurd h (lt_irrefl _)
    | cons d b =>
      rw [utf8Nat_cons, utf8Nat_nil]
      obtain ⟨z, q, hz⟩ := List.exists_cons_of_ne_nil (encNat_ne_nil d.toNat)
      rw [hz, List.cons_append]
      exact List.nil_lt_cons _ _
  | cons c a ih =>
    cases b with
    | nil => exact absurd h (List.not_lt_nil _)
    | cons d b =>
      rw [utf8Nat_cons, utf8Nat_cons]
      rw [List.cons_lt_cons_iff] at h
      rcases h with h | ⟨rfl, h⟩
      · exact encNat_lt (char_lt_iff.1 h) (char_lt_max d) _ _
      · exact (lt_append_iff rfl _ _).2 (Or.inr ⟨rfl, ih h⟩)

/-- Rust compares strings by their bytes, which is the order of the code points. -/
theorem utf8Nat_lt_iff {a b : Str} : utf8Nat a < utf8Nat b ↔ a < b := by
  constructor
  · intro h
    rcases lt_trichotomy a b with h' | h' | h'
    · exact h'
    · rw [h'] at h; exact absurd h (lt_irrefl _)
    · exact absurd (utf8Nat_mono h') (lt_asymm h)
  · exact utf8Nat_mono

theorem utf8Nat_injective {a b : Str} (h : utf8Nat a = utf8Nat b) : a = b := by
  rcases lt_trichotomy a b with h' | h' | h'
  · have := utf8Nat_mono h'; rw [h] at this; exact absurd this (lt_irrefl _)
  · exact h'
  · have := utf8Nat_mono h'; rw [h] at this; exact absurd this (lt_irrefl _)

theorem mem_encNat_zero {v : Nat} (hv : 0 ∈ encNat v) : v = 0 := by
  unfold encNat at hv
  split_ifs at hv <;> simp at hv <;> omega

theorem zero_not_mem_utf8Nat {s : Str} (h : Char.ofNat 0 ∉ s) : 0 ∉ utf8Nat s := by
  induction s with
  | nil => simp [utf8Nat_nil]
  | cons c s ih =>
    rw [utf8Nat_cons, List.mem_append]
    rintro (h' | h')
    · have e := mem_encNat_zero h'
      apply h
      rw [List.mem_cons]
      left
      rw [← e, Char.ofNat_toNat]
    · exact ih (fun h'' => h (List.mem_cons_of_mem _ h'')) h'
