/-!
# Strings and percent encoding

Strings are lists of Unicode characters; `utf8` gives their bytes.  The crate `percent_encoding` is a dependency; the three
functions of it which are used are modelled here after their documentation: `utf8_percent_encode` encodes the bytes of an ASCII
set and all bytes above 127, `percent_decode_str` decodes every `%` that is followed by two hexadecimal digits and keeps all
other bytes, and `decode_utf8_lossy` decodes UTF-8 and replaces invalid sequences (the replacement is a parameter).
-/

abbrev Str := List Char

/-- `str::as_bytes`. -/
def utf8 (s : Str) : List UInt8 := s.flatMap String.utf8EncodeChar

/-- `AsciiSet`. -/
abbrev AsciiSet := UInt8 → Bool

/-- `CONTROLS`. -/
def controls : AsciiSet := fun b => b < 0x20 || b == 0x7f

def hexDigits : List Char := ['0', '1', '2', '3', '4', '5', '6', '7', '8', '9', 'A', 'B', 'C', 'D', 'E', 'F']

def hexDigit (n : Nat) : Char := hexDigits.getD n '0'

def hexVal (b : UInt8) : Option Nat :=
  if 48 ≤ b.toNat ∧ b.toNat ≤ 57 then some (b.toNat - 48)
  else if 65 ≤ b.toNat ∧ b.toNat ≤ 70 then some (b.toNat - 55)
  else if 97 ≤ b.toNat ∧ b.toNat ≤ 102 then some (b.toNat - 87)
  else none

/-- Encoding of one byte. -/
def encByte (set : AsciiSet) (b : UInt8) : Str :=
  if 128 ≤ b.toNat ∨ set b = true then ['%', hexDigit (b.toNat / 16), hexDigit (b.toNat % 16)] else [Char.ofNat b.toNat]

/-- `utf8_percent_encode`. -/
def pctEncode (set : AsciiSet) (s : Str) : Str := (utf8 s).flatMap (encByte set)

/-- `percent_decode`. -/
def pctDecode : List UInt8 → List UInt8
  | [] => []
  | [a] => [a]
  | [a, b] => [a, b]
  | a :: h :: l :: r =>
    if a = 37 then
      match hexVal h, hexVal l with
      | some x, some y => UInt8.ofNat (x * 16 + y) :: pctDecode r
      | _, _ => a :: pctDecode (h :: l :: r)
    else a :: pctDecode (h :: l :: r)

/-- `decode_utf8_lossy`. -/
def decodeLossy (lossy : List UInt8 → Str) (bytes : List UInt8) : Str :=
  match (bytes.toByteArray).utf8Decode? with
  | some a => a.toList
  | none => lossy bytes

/-- `percent_decode_str(s).decode_utf8_lossy()`. -/
def pctDecodeStr (lossy : List UInt8 → Str) (s : Str) : Str := decodeLossy lossy (pctDecode (utf8 s))

/-! ### Lemmas -/

theorem utf8_append (a b : Str) : utf8 (a ++ b) = utf8 a ++ utf8 b := by simp [utf8]

theorem decodeLossy_utf8 (lossy : List UInt8 → Str) (s : Str) : decodeLossy lossy (utf8 s) = s := by
  unfold decodeLossy
  have : (utf8 s).toByteArray = s.utf8Encode := rfl
  rw [this, List.utf8Decode?_utf8Encode]

theorem utf8_injective {a b : Str} (h : utf8 a = utf8 b) : a = b := by
  rw [← decodeLossy_utf8 (fun _ => []) a, h, decodeLossy_utf8]

theorem ascii_toNat {n : Nat} (h : n < 128) : (Char.ofNat n).toNat = n := by
  have hv : n.isValidChar := Or.inl (by omega)
  simp [Char.ofNat, hv, Char.toNat, Char.ofNatAux]

theorem utf8_ascii {n : Nat} (h : n < 128) : String.utf8EncodeChar (Char.ofNat n) = [UInt8.ofNat n] := by
  have hn := ascii_toNat h
  unfold String.utf8EncodeChar
  have : (Char.ofNat n).val.toNat = n := hn
  simp only [this]
  rw [if_pos (by omega)]

theorem hexDigit_val (n : Nat) (h : n < 16) :
    ∃ b, String.utf8EncodeChar (hexDigit n) = [b] ∧ hexVal b = some n := by
  have : ∀ m : Fin 16, (String.utf8EncodeChar (hexDigit m)).head?.bind hexVal = some m.val ∧
      (String.utf8EncodeChar (hexDigit m)).length = 1 := by decide
  obtain ⟨h1, h2⟩ := this ⟨n, h⟩
  simp only at h1 h2
  match hl : String.utf8EncodeChar (hexDigit n), h1, h2 with
  | [b], h1, _ => exact ⟨b, rfl, by simpa using h1⟩

theorem pctDecode_raw {b : UInt8} (h : b ≠ 37) (t : List UInt8) : pctDecode (b :: t) = b :: pctDecode t := by
  match t with
  | [] => simp [pctDecode]
  | [x] => simp [pctDecode]
  | x :: y :: r => rw [pctDecode, if_neg h]

theorem pctDecode_encByte (set : AsciiSet) (hp : set 37 = true) (b : UInt8) (t : List UInt8) :
    pctDecode (utf8 (encByte set b) ++ t) = b :: pctDecode t := by
  have hb := b.toNat_lt
  unfold encByte
  split
  · obtain ⟨x, hx, hx2⟩ := hexDigit_val (b.toNat / 16) (by omega)
    obtain ⟨y, hy, hy2⟩ := hexDigit_val (b.toNat % 16) (by omega)
    have e : utf8 ['%', hexDigit (b.toNat / 16), hexDigit (b.toNat % 16)] = [37, x, y] := by
      simp only [utf8, List.flatMap_cons, List.flatMap_nil, hx, hy]
      rfl
    rw [e]
    simp only [List.cons_append, List.nil_append]
    rw [pctDecode, if_pos rfl]
    simp only [hx2, hy2]
    have : b.toNat / 16 * 16 + b.toNat % 16 = b.toNat := by omega
    rw [this]
    simp
  · rename_i hn
    have h1 : b.toNat < 128 := Nat.lt_of_not_le fun hc => hn (Or.inl hc)
    have h2 : set b ≠ true := fun hc => hn (Or.inr hc)
    have e : utf8 [Char.ofNat b.toNat] = [b] := by
      simp only [utf8, List.flatMap_cons, List.flatMap_nil, utf8_ascii h1]
      simp
    rw [e]
    have h37 : b ≠ 37 := fun hc => h2 (hc ▸ hp)
    simp only [List.cons_append, List.nil_append]
    rw [pctDecode_raw h37]

/-- Decoding gives back the bytes of the original string if `%` is encoded. -/
theorem pctDecode_pctEncode (set : AsciiSet) (hp : set 37 = true) (s : Str) : pctDecode (utf8 (pctEncode set s)) = utf8 s := by
  unfold pctEncode
  generalize utf8 s = l
  induction l with
  | nil => rfl
  | cons b r ih =>
    simp only [List.flatMap_cons, utf8_append]
    rw [pctDecode_encByte set hp, ih]

theorem pctDecodeStr_pctEncode (lossy : List UInt8 → Str) (set : AsciiSet) (hp : set 37 = true) (s : Str) :
    pctDecodeStr lossy (pctEncode set s) = s := by
  unfold pctDecodeStr
  rw [pctDecode_pctEncode set hp, decodeLossy_utf8]

theorem pctEncode_injective {set : AsciiSet} (hp : set 37 = true) {a b : Str} (h : pctEncode set a = pctEncode set b) : a = b := by
  rw [← pctDecodeStr_pctEncode (fun _ => []) set hp a, h, pctDecodeStr_pctEncode _ set hp]

/-- The characters of an encoded string: ASCII, and outside the set except for `%` and the digits. -/
theorem mem_pctEncode {set : AsciiSet} {s : Str} {c : Char} (h : c ∈ pctEncode set s) :
    c = '%' ∨ c ∈ hexDigits ∨ ∃ b : UInt8, b.toNat < 128 ∧ set b = false ∧ c = Char.ofNat b.toNat := by
  unfold pctEncode at h
  obtain ⟨b, _, hb⟩ := List.mem_flatMap.1 h
  have hdig : ∀ n : Nat, n < 16 → hexDigit n ∈ hexDigits := by
    intro n hn
    have : ∀ m : Fin 16, hexDigit m ∈ hexDigits := by decide
    exact this ⟨n, hn⟩
  have hlt := b.toNat_lt
  unfold encByte at hb
  split at hb
  · simp only [List.mem_cons, List.not_mem_nil, or_false] at hb
    rcases hb with rfl | rfl | rfl
    · exact Or.inl rfl
    · exact Or.inr (Or.inl (hdig _ (by omega)))
    · exact Or.inr (Or.inl (hdig _ (by omega)))
  · rename_i hn
    simp only [List.mem_cons, List.not_mem_nil, or_false] at hb
    exact Or.inr (Or.inr ⟨b, Nat.lt_of_not_le fun hc => hn (Or.inl hc), by simpa using fun hc => hn (Or.inr hc), hb⟩)

/-- A character of the set does not occur in an encoded string, unless it is `%` or a digit. -/
theorem not_mem_pctEncode {set : AsciiSet} {s : Str} {n : Nat} (hn : n < 128) (hset : set (UInt8.ofNat n) = true)
    (h1 : Char.ofNat n ≠ '%') (h2 : Char.ofNat n ∉ hexDigits) : Char.ofNat n ∉ pctEncode set s := by
  intro h
  rcases mem_pctEncode h with h | h | ⟨b, hb, hs, hc⟩
  · exact h1 h
  · exact h2 h
  · have := congrArg Char.toNat hc
    rw [ascii_toNat hn, ascii_toNat hb] at this
    rw [this] at hset
    simp [hs] at hset

/-- A string without bytes of the set and without non-ASCII characters is not changed. -/
theorem pctEncode_eq_self {set : AsciiSet} {s : Str} (h : ∀ c ∈ s, c.toNat < 128 ∧ set (UInt8.ofNat c.toNat) = false) :
    pctEncode set s = s := by
  induction s with
  | nil => rfl
  | cons c r ih =>
    obtain ⟨h1, h2⟩ := h c (by simp)
    have e : pctEncode set (c :: r) = pctEncode set [c] ++ pctEncode set r := by
      simp [pctEncode, utf8]
    rw [e, ih fun x hx => h x (List.mem_cons_of_mem _ hx)]
    have hc : Char.ofNat c.toNat = c := Char.ofNat_toNat c
    have hu := utf8_ascii h1
    rw [hc] at hu
    have hm : (UInt8.ofNat c.toNat).toNat = c.toNat := by
      simp only [UInt8.toNat_ofNat']
      omega
    have : pctEncode set [c] = [c] := by
      simp only [pctEncode, utf8, List.flatMap_cons, List.flatMap_nil, hu, List.append_nil, encByte, hm]
      rw [if_neg (by simp [h2]; omega), hc]
    rw [this]
    rfl
