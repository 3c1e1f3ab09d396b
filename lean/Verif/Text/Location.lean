import Verif.Text.Props
import Mathlib.Data.List.TakeWhile

/-!
# The text of an error (C40)

`Display` of `LineColumn`, `LineColumnRange` (graphannis/src/annis/types.rs 41-72) and `AQLError` (graphannis/src/annis/errors.rs 179-193).
-/

/-- `Display` of `LineColumn` (types.rs 47-51). -/
def lineColumnText (p : Nat × Nat) : Str := Nat.toDigits 10 p.1 ++ ':' :: Nat.toDigits 10 p.2

/-- `Display` of `LineColumnRange` (types.rs 59-72). -/
def rangeText (r : (Nat × Nat) × Option (Nat × Nat)) : Str :=
  match r.2 with
  | some stop => if r.1 = stop then lineColumnText r.1 else lineColumnText r.1 ++ '-' :: lineColumnText stop
  | none => lineColumnText r.1

/-- `Display` of `AQLError` (errors.rs 185-193). -/
def aqlErrorText (location : Option ((Nat × Nat) × Option (Nat × Nat))) (desc : Str) : Str :=
  match location with
  | some r => '[' :: (rangeText r ++ "] ".toList ++ desc)
  | none => desc

theorem split_class {α : Type} {p : α → Bool} {u u' v v' : List α} {x x' : α} (hu : ∀ c ∈ u, p c = true) (hu' : ∀ c ∈ u', p c = true) (hx : p x = false)
    (hx' : p x' = false) (h : u ++ x :: v = u' ++ x' :: v') : u = u' ∧ x = x' ∧ v = v' := by
  induction u generalizing u' with
  | nil =>
    cases u' with
    | nil => simpa using h
    | cons a r =>
      simp only [List.nil_append, List.cons_append, List.cons.injEq] at h
      rw [h.1, hu' a (by simp)] at hx
      cases hx
  | cons a r ih =>
    cases u' with
    | nil =>
      simp only [List.nil_append, List.cons_append, List.cons.injEq] at h
      rw [← h.1, hu a (by simp)] at hx'
      cases hx'
    | cons a' r' =>
      simp only [List.cons_append, List.cons.injEq] at h
      obtain ⟨e1, e2, e3⟩ := ih (fun c hc => hu c (by simp [hc])) (fun c hc => hu' c (by simp [hc])) h.2
      exact ⟨by rw [h.1, e1], e2, e3⟩

theorem digits_class (n : Nat) : ∀ c ∈ Nat.toDigits 10 n, c.isDigit = true := fun _ hc => Nat.isDigit_of_mem_toDigits (by decide) (by decide) hc

theorem digits_inj {m n : Nat} (h : Nat.toDigits 10 m = Nat.toDigits 10 n) : m = n := by
  rw [← Nat.ofDigitChars_ten_toDigits (n := m), h, Nat.ofDigitChars_ten_toDigits]

theorem lineColumn_split {p p' : Nat × Nat} {x x' : Char} {v v' : Str} (hx : x.isDigit = false) (hx' : x'.isDigit = false)
    (h : lineColumnText p ++ x :: v = lineColumnText p' ++ x' :: v') : p = p' ∧ x = x' ∧ v = v' := by
  unfold lineColumnText at h
  simp only [List.append_assoc, List.cons_append] at h
  obtain ⟨h1, _, h2⟩ := split_class (digits_class _) (digits_class _) (by decide) (by decide) h
  obtain ⟨h3, h4, h5⟩ := split_class (digits_class _) (digits_class _) hx hx' h2
  exact ⟨Prod.ext (digits_inj h1) (digits_inj h3), h4, h5⟩

/-- **C40**: the text of an error with a location tells where it starts, where it ends, and its description. -/
theorem C40_text {r r' : (Nat × Nat) × Option (Nat × Nat)} {d d' : Str} (h : aqlErrorText (some r) d = aqlErrorText (some r') d') :
    r.1 = r'.1 ∧ r.2.getD r.1 = r'.2.getD r'.1 ∧ d = d' := by
  obtain ⟨a, o⟩ := r
  obtain ⟨a', o'⟩ := r'
  have key : ∀ o : Option (Nat × Nat), (∃ b, o = some b ∧ a ≠ b) ∨ o.getD a = a := by
    intro o
    cases o with
    | none => exact Or.inr rfl
    | some b => by_cases hb : a = b <;> simp [hb]
  have key' : ∀ o : Option (Nat × Nat), (∃ b, o = some b ∧ a' ≠ b) ∨ o.getD a' = a' := by
    intro o
    cases o with
    | none => exact Or.inr rfl
    | some b => by_cases hb : a' = b <;> simp [hb]
  have one : ∀ (a : Nat × Nat) (o : Option (Nat × Nat)), o.getD a = a → rangeText (a, o) = lineColumnText a := by
    intro a o ho
    unfold rangeText
    cases o with
    | none => rfl
    | some b => simp only [Option.getD_some] at ho; simp [ho]
  have two : ∀ (a b : Nat × Nat), a ≠ b → rangeText (a, some b) = lineColumnText a ++ '-' :: lineColumnText b := by
    intro a b hb
    simp [rangeText, hb]
  simp only [aqlErrorText, List.cons.injEq, true_and] at h
  rcases key o with ⟨b, rfl, hb⟩ | ho <;> rcases key' o' with ⟨b', rfl, hb'⟩ | ho'
  · rw [two a b hb, two a' b' hb'] at h
    simp only [List.append_assoc, List.cons_append] at h
    obtain ⟨h1, _, h2⟩ := lineColumn_split (by decide) (by decide) h
    obtain ⟨h3, _, h4⟩ := lineColumn_split (x := ']') (x' := ']') (by decide) (by decide) h2
    exact ⟨h1, h3, List.cons.inj h4 |>.2⟩
  · rw [two a b hb, one a' o' ho'] at h
    simp only [List.append_assoc, List.cons_append] at h
    obtain ⟨_, h2, _⟩ := lineColumn_split (x := '-') (x' := ']') (by decide) (by decide) h
    exact absurd h2 (by decide)
  · rw [one a o ho, two a' b' hb'] at h
    simp only [List.append_assoc, List.cons_append] at h
    obtain ⟨_, h2, _⟩ := lineColumn_split (x := ']') (x' := '-') (by decide) (by decide) h
    exact absurd h2 (by decide)
  · rw [one a o ho, one a' o' ho'] at h
    simp only [List.append_assoc] at h
    obtain ⟨h1, _, h2⟩ := lineColumn_split (x := ']') (x' := ']') (by decide) (by decide) h
    exact ⟨h1, by rw [ho, ho', h1], (List.cons.inj h2).2⟩

/-- The bytes of the query an error is about, by their first and last position (aql/mod.rs 634-669); an error of the grammar's own actions covers none. -/
def ParseErr.Covers (input : List UInt8) : ParseErr → Nat → Nat → Prop
  | .invalidToken l, p, q => p = l ∧ q = l ∧ l ≤ input.length
  | .token a b, p, q => p = a ∧ q + 1 = b ∧ a < b ∧ b ≤ input.length
  | .unrecognizedEof, p, q => p + 1 = input.length ∧ q = p
  | .user, _, _ => False

theorem extractLocation_covers {input : List UInt8} {e : ParseErr} {p q : Nat} (h : e.Covers input p q) :
    p ≤ input.length ∧ q ≤ input.length ∧ ∃ r, extractLocation e input = some (some r) ∧ r.1 = lineAndColumn p (lineOffsets input) ∧
      r.2.getD r.1 = lineAndColumn q (lineOffsets input) := by
  cases e with
  | invalidToken l =>
    obtain ⟨rfl, rfl, hl⟩ := h
    exact ⟨hl, hl, _, rfl, rfl, rfl⟩
  | token a b =>
    obtain ⟨rfl, rfl, hab, hb⟩ := h
    refine ⟨by omega, by omega, (lineAndColumn p (lineOffsets input), some (lineAndColumn q (lineOffsets input))), ?_, rfl, rfl⟩
    simp [extractLocation]
  | unrecognizedEof =>
    obtain ⟨hp, rfl⟩ := h
    refine ⟨by omega, by omega, (lineAndColumn q (lineOffsets input), none), ?_, rfl, rfl⟩
    simp [extractLocation, ← hp]
  | user => exact absurd h (by simp [ParseErr.Covers])

/-- **C40**: two syntax errors of the same query with the same text have the same description and are about the same bytes. -/
theorem C40_text_token {input : List UInt8} {e e' : ParseErr} {p q p' q' : Nat} {l l' : Option ((Nat × Nat) × Option (Nat × Nat))} {d d' : Str}
    (hc : e.Covers input p q) (hc' : e'.Covers input p' q') (hl : extractLocation e input = some l) (hl' : extractLocation e' input = some l')
    (h : aqlErrorText l d = aqlErrorText l' d') : p = p' ∧ q = q' ∧ d = d' := by
  obtain ⟨h1, h2, r, hr, s1, s2⟩ := extractLocation_covers hc
  obtain ⟨h1', h2', r', hr', s1', s2'⟩ := extractLocation_covers hc'
  rw [hr] at hl
  rw [hr'] at hl'
  cases hl
  cases hl'
  obtain ⟨e1, e2, e3⟩ := C40_text h
  exact ⟨C40_injective input p p' h1 h1' (by rw [← s1, ← s1', e1]), C40_injective input q q' h2 h2' (by rw [← s2, ← s2', e2]), e3⟩

/-- The second token of `a⏎bc`. -/
theorem C40_text_token_nonvacuous : ParseErr.Covers [97, 10, 98, 99] (.token 2 4) 2 3 ∧
    (extractLocation (.token 2 4) [97, 10, 98, 99]).map (aqlErrorText · "x".toList) = some "[1:1-1:2] x".toList :=
  ⟨⟨rfl, rfl, by decide, by decide⟩, by decide +kernel⟩

/-- An error in line 1, columns 3 to 5. -/
theorem C40_text_nonvacuous : aqlErrorText (some ((1, 3), some (1, 5))) "Unexpected token".toList = "[1:3-1:5] Unexpected token".toList := by decide +kernel

/-- **C40 fails** for texts of all errors: one without a location can have the text of one with a location. -/
theorem C40_text_fails : aqlErrorText none "[1:3] x".toList = aqlErrorText (some ((1, 3), none)) "x".toList := by decide +kernel
