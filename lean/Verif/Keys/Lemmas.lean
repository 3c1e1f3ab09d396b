import Verif.Keys.Model
import Mathlib.Tactic.Set

set_option linter.unusedSimpArgs false

namespace Keys

theorem lt_append_iff {a b : Bytes} (h : a.length = b.length) (x y : Bytes) :
    a ++ x < b ++ y ↔ a < b ∨ (a = b ∧ x < y) := by
  induction a generalizing b with
  | nil =>
    cases b with
    | nil => simp
    | cons _ _ => simp at h
  | cons p a ih =>
    cases b with
    | nil => simp at h
    | cons q b =>
      simp only [List.length_cons, Nat.add_right_cancel_iff] at h
      simp only [List.cons_append, List.cons_lt_cons_iff, ih h, List.cons.injEq]
      constructor
      · rintro (h1 | ⟨h1, h2 | ⟨h2, h3⟩⟩)
        · exact Or.inl (Or.inl h1)
        · exact Or.inl (Or.inr ⟨h1, h2⟩)
        · exact Or.inr ⟨⟨h1, h2⟩, h3⟩
      · rintro ((h1 | ⟨h1, h2⟩) | ⟨⟨h1, h2⟩, h3⟩)
        · exact Or.inl h1
        · exact Or.inr ⟨h1, Or.inl h2⟩
        · exact Or.inr ⟨h1, Or.inr ⟨h2, h3⟩⟩

theorem be_length (w n : Nat) : (be w n).length = w := by
  induction w with
  | zero => rfl
  | succ w ih => simp [be, ih]

theorem be_byte (w n : Nat) : ∀ b ∈ be w n, b < 256 := by
  induction w with
  | zero => simp [be]
  | succ w ih =>
    intro b hb
    simp only [be, List.mem_cons] at hb
    rcases hb with rfl | hb
    · exact Nat.mod_lt _ (by decide)
    · exact ih b hb

theorem be_mod (w n : Nat) : be w (n % 256 ^ w) = be w n := by
  have : ∀ w v, w ≤ v → be w (n % 256 ^ v) = be w n := by
    intro w
    induction w with
    | zero => intros; rfl
    | succ w ih =>
      intro v hv
      simp only [be]
      rw [ih v (by omega)]
      congr 1
      obtain ⟨d, rfl⟩ : ∃ d, v = w + 1 + d := ⟨v - (w+1), by omega⟩
      have h1 : 256 ^ (w + 1 + d) = 256 ^ w * (256 * 256 ^ d) := by
        rw [Nat.pow_add, Nat.pow_succ, Nat.mul_assoc]
      rw [h1, Nat.mod_mul_right_div_self, Nat.mod_mul_right_mod]
  exact this w w (Nat.le_refl _)

theorem be_lt_iff (w : Nat) : ∀ {a b : Nat}, a < 256 ^ w → b < 256 ^ w → (be w a < be w b ↔ a < b) := by
  induction w with
  | zero => intro a b ha hb; simp at ha hb; simp [be, ha, hb]
  | succ w ih =>
    intro a b ha hb
    simp only [be, List.cons_lt_cons_iff]
    have hp : 0 < 256 ^ w := Nat.pow_pos (by decide)
    have ha' : a / 256 ^ w < 256 := by
      rw [Nat.div_lt_iff_lt_mul hp]; rw [Nat.pow_succ] at ha; omega
    have hb' : b / 256 ^ w < 256 := by
      rw [Nat.div_lt_iff_lt_mul hp]; rw [Nat.pow_succ] at hb; omega
    rw [Nat.mod_eq_of_lt ha', Nat.mod_eq_of_lt hb', ← be_mod w a, ← be_mod w b,
      ih (Nat.mod_lt _ hp) (Nat.mod_lt _ hp)]
    have ea := Nat.div_add_mod a (256 ^ w)
    have eb := Nat.div_add_mod b (256 ^ w)
    constructor
    · rintro (h | ⟨h1, h2⟩)
      · exact Nat.lt_of_div_lt_div h
      · rw [← ea, ← eb, h1]; omega
    · intro h
      rcases Nat.lt_or_ge (a / 256 ^ w) (b / 256 ^ w) with hlt | hge
      · exact Or.inl hlt
      · have he : a / 256 ^ w = b / 256 ^ w := Nat.le_antisymm (Nat.div_le_div_right (Nat.le_of_lt h)) hge
        refine Or.inr ⟨he, ?_⟩
        rw [he] at ea
        omega

theorem be_inj (w : Nat) {a b : Nat} (ha : a < 256 ^ w) (hb : b < 256 ^ w) (h : be w a = be w b) : a = b := by
  rcases Nat.lt_trichotomy a b with h' | h' | h'
  · exact absurd ((be_lt_iff w ha hb).2 h') (by rw [h]; exact lt_irrefl _)
  · exact h'
  · exact absurd ((be_lt_iff w hb ha).2 h') (by rw [h]; exact lt_irrefl _)

theorem foldl_be (w : Nat) : ∀ (n acc : Nat), n < 256 ^ w →
    (be w n).foldl (fun acc x => acc * 256 + x) acc = acc * 256 ^ w + n := by
  induction w with
  | zero => intro n acc h; simp at h; simp [be, h]
  | succ w ih =>
    intro n acc h
    have hp : 0 < 256 ^ w := Nat.pow_pos (by decide)
    have hn' : n / 256 ^ w < 256 := by
      rw [Nat.div_lt_iff_lt_mul hp]; rw [Nat.pow_succ] at h; omega
    simp only [be, List.foldl_cons]
    rw [← be_mod w n, ih _ _ (Nat.mod_lt _ hp), Nat.mod_eq_of_lt hn', Nat.add_mul]
    have e := Nat.div_add_mod n (256 ^ w)
    rw [Nat.pow_succ, Nat.mul_assoc acc 256, Nat.mul_comm 256 (256 ^ w)]
    rw [Nat.mul_comm (n / 256 ^ w)]
    omega

theorem parseBe_be (w n : Nat) (h : n < 256 ^ w) (rest : Bytes) : parseBe w (be w n ++ rest) = some n := by
  unfold parseBe
  have hl := be_length w n
  rw [if_pos (by simp [hl])]
  rw [List.take_append_of_le_length (by omega), List.take_of_length_le (by omega), foldl_be w n 0 h]
  simp

theorem minId_le (b : Bytes) (h : 8 ≤ b.length) : minId ≤ b := by
  have : ∀ (n : Nat) (b : Bytes), n ≤ b.length → ¬ b < List.replicate n 0 := by
    intro n
    induction n with
    | zero => intro b _; simp
    | succ n ih =>
      intro b hb
      cases b with
      | nil => simp at hb
      | cons x b =>
        simp only [List.length_cons] at hb
        simp only [List.replicate_succ, List.cons_lt_cons_iff]
        rintro (h | ⟨_, h⟩)
        · omega
        · exact ih b (by omega) h
  have hm : minId = List.replicate 8 0 := by decide
  rw [hm]
  exact not_lt.1 (this 8 b h)

end Keys
