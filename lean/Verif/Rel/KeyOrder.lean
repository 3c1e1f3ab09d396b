import Verif.Rel.Model
import Verif.Util.Utf8
import Verif.Keys.Props

/-!
# The keys of the tables on disk during a relANNIS import (C86)

The maps of the import are `DiskMap`s, whose sorted tables use the bytes of `create_key` (C08 needs that these keep the order of
the keys and can be read again).
-/

set_option linter.unusedSimpArgs false

namespace Rel

open Keys

/-- `create_key` of `TextProperty` (relannis.rs 121-128) with `create_str_vec_key` (util/mod.rs 32-42). -/
def propKey (p : TProp) : Bytes := utf8Nat p.seg ++ 0 :: (be 4 p.corpus ++ (be 4 p.text ++ be 4 p.val))

/-- `String::from_utf8_lossy`.  Simplified: each byte of an invalid sequence is replaced by its own U+FFFD, while Rust uses one for
several bytes. -/
def fromUtf8Lossy (b : List UInt8) : Str :=
  match b with
  | [] => []
  | x :: r => match (x :: r).toByteArray.utf8DecodeChar? 0 with
    | some c => c :: fromUtf8Lossy ((x :: r).drop c.utf8Size)
    | none => Char.ofNat 0xFFFD :: fromUtf8Lossy r
  termination_by b.length
  decreasing_by
    · have := c.utf8Size_pos
      simp only [List.length_drop, List.length_cons]
      omega
    · simp

/-- `parse_key` of `TextProperty` (relannis.rs 130-160): the part before the first NUL of the key as string, and the last twelve
bytes.  `none`: the subtraction panics for shorter keys. -/
def parsePropKey (b : Bytes) : Option TProp :=
  if b.length < 12 then none
  else
    let o := b.length - 12
    match parseBe 4 ((b.drop o).take 4), parseBe 4 ((b.drop (o + 4)).take 4), parseBe 4 ((b.drop (o + 8)).take 4) with
    | some c, some x, some v => some (tprop ((fromUtf8Lossy (b.map UInt8.ofNat)).takeWhile (· ≠ Char.ofNat 0)) c x v)
    | _, _, _ => none

/-- `create_key` of `TextKey` (relannis.rs 169-176). -/
def textKeyBytes (id : Nat) (corpus : Option Nat) : Bytes := be 4 id ++ corpus.elim [] (be 4)

/-- `parse_key` of `TextKey` (relannis.rs 178-190). -/
def parseTextKey (b : Bytes) : Option (Nat × Option Nat) :=
  match parseBe 4 (b.take 4) with
  | none => none
  | some id => if b.length = 8 then (parseBe 4 (b.drop 4)).map fun c => (id, some c) else some (id, none)

/-- `create_key` of `NodeByTextEntry` (relannis.rs 201-207). -/
def nodeTextKey (text corpus node : Nat) : Bytes := be 4 text ++ (be 4 corpus ++ be 8 node)

/-- `parse_key` of `NodeByTextEntry` (relannis.rs 209-226); the rest must have exactly eight bytes. -/
def parseNodeTextKey (b : Bytes) : Option (Nat × Nat × Nat) :=
  match parseBe 4 (b.take 4), parseBe 4 ((b.drop 4).take 4), parseBe 8 (b.drop 8) with
  | some t, some c, some n => if b.length = 16 then some (t, c, n) else none
  | _, _, _ => none

/-! ### Lemmas -/

theorem toByteArray_append (a b : List UInt8) : (a ++ b).toByteArray = a.toByteArray ++ b.toByteArray := by
  apply ByteArray.ext
  simp

theorem lossy_utf8 (s : Str) (r : List UInt8) : fromUtf8Lossy (utf8 s ++ r) = s ++ fromUtf8Lossy r := by
  induction s with
  | nil => rfl
  | cons c s ih =>
    have e : utf8 (c :: s) ++ r = String.utf8EncodeChar c ++ (utf8 s ++ r) := by
      simp [utf8]
    have hd := ByteArray.utf8DecodeChar?_utf8EncodeChar_append (b := (utf8 s ++ r).toByteArray) (c := c)
    rw [← toByteArray_append, ← e] at hd
    have hne : utf8 (c :: s) ++ r ≠ [] := by
      rw [e]
      intro h
      have := congrArg List.length h
      rw [List.length_append, String.length_utf8EncodeChar] at this
      have := c.utf8Size_pos
      simp only [List.length_nil] at *
      omega
    obtain ⟨x, q, hq⟩ := List.exists_cons_of_ne_nil hne
    rw [hq] at hd ⊢
    rw [fromUtf8Lossy]
    simp only [hd]
    rw [← hq, e, List.drop_append_of_le_length (by rw [String.length_utf8EncodeChar]),
      List.drop_of_length_le (by rw [String.length_utf8EncodeChar]), List.nil_append, ih]
    rfl

theorem takeWhile_nul {s r : Str} (h : Char.ofNat 0 ∉ s) : (s ++ Char.ofNat 0 :: r).takeWhile (· ≠ Char.ofNat 0) = s := by
  induction s with
  | nil => simp
  | cons c s ih =>
    rw [List.mem_cons, not_or] at h
    rw [List.cons_append, List.takeWhile_cons, if_pos (by simpa using fun e => h.1 e.symm), ih h.2]

theorem utf8Nat_ofNat (s : Str) : (utf8Nat s).map UInt8.ofNat = utf8 s := by
  unfold utf8Nat
  rw [List.map_map]
  conv_rhs => rw [← List.map_id (utf8 s)]
  apply List.map_congr_left
  intro b _
  simp

theorem be_lt_iff' {w a b : Nat} (ha : a < 256 ^ w) (hb : b < 256 ^ w) (x y : Bytes) :
    be w a ++ x < be w b ++ y ↔ a < b ∨ (a = b ∧ x < y) := by
  rw [lt_append_iff (by simp [be_length]), be_lt_iff w ha hb]
  constructor
  · rintro (h | ⟨h1, h2⟩)
    · exact Or.inl h
    · exact Or.inr ⟨be_inj w ha hb h1, h2⟩
  · rintro (h | ⟨h1, h2⟩)
    · exact Or.inl h
    · exact Or.inr ⟨by rw [h1], h2⟩

/-- All numbers of a key are `u32`. -/
def Valid (p : TProp) : Prop := p.corpus < 256 ^ 4 ∧ p.text < 256 ^ 4 ∧ p.val < 256 ^ 4

/-- C86: keys of `TextProperty` keep the order, and are read again, if the names of the segmentations have no NUL. -/
theorem C86_text_property_partial (p q : TProp) (hp : Valid p) (hq : Valid q) (np : Char.ofNat 0 ∉ p.seg) (nq : Char.ofNat 0 ∉ q.seg) :
    (propKey p < propKey q ↔ p < q) ∧ parsePropKey (propKey p) = some p ∧ (propKey p = propKey q → p = q) := by
  have hparse : ∀ p : TProp, Valid p → Char.ofNat 0 ∉ p.seg → parsePropKey (propKey p) = some p := by
    intro p hp np
    obtain ⟨h1, h2, h3⟩ := hp
    have hlen : (propKey p).length = (utf8Nat p.seg).length + 1 + 12 := by
      unfold propKey
      simp [be_length]
    unfold parsePropKey
    rw [if_neg (by omega)]
    have e0 : (propKey p).drop ((propKey p).length - 12) = be 4 p.corpus ++ (be 4 p.text ++ be 4 p.val) := by
      have : (propKey p).length - 12 = (utf8Nat p.seg ++ [0]).length := by rw [hlen]; simp
      rw [this]
      unfold propKey
      rw [show utf8Nat p.seg ++ 0 :: (be 4 p.corpus ++ (be 4 p.text ++ be 4 p.val)) =
        (utf8Nat p.seg ++ [0]) ++ (be 4 p.corpus ++ (be 4 p.text ++ be 4 p.val)) by simp]
      rw [List.drop_left]
    have e1 : (propKey p).drop ((propKey p).length - 12 + 4) = be 4 p.text ++ be 4 p.val := by
      rw [← List.drop_drop, e0, List.drop_append_of_le_length (by simp [be_length]), List.drop_of_length_le (by simp [be_length]), List.nil_append]
    have e2 : (propKey p).drop ((propKey p).length - 12 + 8) = be 4 p.val := by
      rw [show (propKey p).length - 12 + 8 = ((propKey p).length - 12 + 4) + 4 by omega, ← List.drop_drop, e1,
        List.drop_append_of_le_length (by simp [be_length]), List.drop_of_length_le (by simp [be_length]), List.nil_append]
    have t : ∀ n rest, (be 4 n ++ rest).take 4 = be 4 n := by
      intro n rest
      rw [List.take_append_of_le_length (by simp [be_length]), List.take_of_length_le (by simp [be_length])]
    have pb : ∀ n, n < 256 ^ 4 → parseBe 4 (be 4 n) = some n := by
      intro n hn
      have := parseBe_be 4 n hn []
      rwa [List.append_nil] at this
    have t2 : (be 4 p.val).take 4 = be 4 p.val := List.take_of_length_le (by simp [be_length])
    simp only [e0, e1, e2, t, t2, pb _ h1, pb _ h2, pb _ h3]
    have hs : (propKey p).map UInt8.ofNat = utf8 (p.seg ++ [Char.ofNat 0]) ++ (be 4 p.corpus ++ (be 4 p.text ++ be 4 p.val)).map UInt8.ofNat := by
      unfold propKey
      rw [List.map_append, utf8Nat_ofNat, utf8_append, List.append_assoc]
      rfl
    rw [hs, lossy_utf8, List.append_assoc, List.singleton_append, takeWhile_nul np]
    rfl
  refine ⟨?_, hparse p hp np, ?_⟩
  · have z : ∀ {s : Str}, Char.ofNat 0 ∉ s → NoNul (utf8Nat s) := by
      intro s h b hb e
      subst e
      exact zero_not_mem_utf8Nat h hb
    obtain ⟨h1, h2, h3⟩ := hp
    obtain ⟨k1, k2, k3⟩ := hq
    unfold propKey
    rw [val_lt_iff (z np) (z nq), utf8Nat_lt_iff, be_lt_iff' h1 k1, be_lt_iff' h2 k2, be_lt_iff 4 h3 k3, Prod.Lex.lt_iff, Prod.Lex.lt_iff,
      Prod.Lex.lt_iff]
    have e : utf8Nat p.seg = utf8Nat q.seg ↔ p.seg = q.seg := ⟨utf8Nat_injective, fun h => by rw [h]⟩
    rw [e]
    rfl
  · intro h
    have := hparse p hp np
    rw [h, hparse q hq nq] at this
    exact (Option.some.inj this).symm

/-- C86 fails: with NUL in the name of a segmentation a key is read as another key, and two keys change their order. -/
theorem C86_nul_fails :
    let a : Str := ['a']
    let a0 : Str := ['a', Char.ofNat 0]
    (parsePropKey (propKey (tprop a0 1 2 3))).map TProp.seg = some a ∧
      tprop a 1 0 0 < tprop a0 0 0 0 ∧ propKey (tprop a0 0 0 0) < propKey (tprop a 1 0 0) := by
  refine ⟨?_, by decide +kernel, by decide +kernel⟩
  have : parsePropKey (propKey (tprop ['a', Char.ofNat 0] 1 2 3)) =
      some (tprop ((fromUtf8Lossy ((propKey (tprop ['a', Char.ofNat 0] 1 2 3)).map UInt8.ofNat)).takeWhile (· ≠ Char.ofNat 0)) 1 2 3) := by
    rfl
  rw [this]
  have e : (propKey (tprop ['a', Char.ofNat 0] 1 2 3)).map UInt8.ofNat = utf8 ['a', Char.ofNat 0] ++ [0, 0, 0, 0, 1, 0, 0, 0, 2, 0, 0, 0, 3] := by
    decide +kernel
  rw [e, lossy_utf8]
  rfl

/-- C86: keys of `TextKey` keep the order (texts without a corpus come first) and are read again. -/
theorem C86_text_key (i j : Nat) (c d : Option Nat) (hi : i < 256 ^ 4) (hj : j < 256 ^ 4) (hc : ∀ x ∈ c, x < 256 ^ 4)
    (hd : ∀ x ∈ d, x < 256 ^ 4) :
    (textKeyBytes i c < textKeyBytes j d ↔ textKey i c < textKey j d) ∧ parseTextKey (textKeyBytes i c) = some (i, c) := by
  constructor
  · unfold textKeyBytes
    rw [be_lt_iff' hi hj]
    unfold textKey
    rw [Prod.Lex.lt_iff]
    have e : c.elim [] (be 4) < d.elim [] (be 4) ↔
        c.elim 0 (· + 1) < d.elim 0 (· + 1) := by
      cases c with
      | none =>
        cases d with
        | none => simp
        | some d =>
          simp only [Option.elim, Nat.succ_pos, iff_true]
          have : be 4 d ≠ [] := by
            intro h
            have := congrArg List.length h
            simp [be_length] at this
          obtain ⟨x, q, hq⟩ := List.exists_cons_of_ne_nil this
          rw [hq]
          exact List.nil_lt_cons _ _
      | some c =>
        cases d with
        | none => simp
        | some d =>
          simp only [Option.elim]
          rw [be_lt_iff 4 (hc c rfl) (hd d rfl)]
          omega
    rw [e]
    cases c <;> cases d <;> rfl
  · have t : (textKeyBytes i c).take 4 = be 4 i := by
      unfold textKeyBytes
      rw [List.take_append_of_le_length (by simp [be_length]), List.take_of_length_le (by simp [be_length])]
    have p : ∀ n, n < 256 ^ 4 → parseBe 4 (be 4 n) = some n := by
      intro n hn
      have := parseBe_be 4 n hn []
      rwa [List.append_nil] at this
    unfold parseTextKey
    rw [t, p i hi]
    cases c with
    | none =>
      have : (textKeyBytes i none).length = 4 := by simp [textKeyBytes, be_length]
      simp [this]
    | some c =>
      have h8 : (textKeyBytes i (some c)).length = 8 := by simp [textKeyBytes, be_length]
      have hd' : (textKeyBytes i (some c)).drop 4 = be 4 c := by
        unfold textKeyBytes
        rw [List.drop_append_of_le_length (by simp [be_length]), List.drop_of_length_le (by simp [be_length])]
        rfl
      simp only [h8, if_true, hd', p c (hc c rfl)]
      rfl

/-- C86: keys of `NodeByTextEntry` keep the order and are read again. -/
theorem C86_node_by_text (x y c d m n : Nat) (hx : x < 256 ^ 4) (hy : y < 256 ^ 4) (hc : c < 256 ^ 4) (hd : d < 256 ^ 4)
    (hm : m < 256 ^ 8) (hn : n < 256 ^ 8) :
    (nodeTextKey x c m < nodeTextKey y d n ↔ (toLex (x, toLex (c, m)) : Nat ×ₗ Nat ×ₗ Nat) < toLex (y, toLex (d, n))) ∧
    parseNodeTextKey (nodeTextKey x c m) = some (x, c, m) := by
  constructor
  · unfold nodeTextKey
    rw [be_lt_iff' hx hy, be_lt_iff' hc hd, be_lt_iff 8 hm hn, Prod.Lex.lt_iff, Prod.Lex.lt_iff]
    rfl
  · have t : ∀ w n rest, (be w n ++ rest).take w = be w n := by
      intro w n rest
      rw [List.take_append_of_le_length (by simp [be_length]), List.take_of_length_le (by simp [be_length])]
    have d : ∀ w n rest, (be w n ++ rest).drop w = rest := by
      intro w n rest
      rw [List.drop_append_of_le_length (by simp [be_length]), List.drop_of_length_le (by simp [be_length])]
      rfl
    have p : ∀ w n, n < 256 ^ w → parseBe w (be w n) = some n := by
      intro w n hn
      have := parseBe_be w n hn []
      rwa [List.append_nil] at this
    have e8 : (nodeTextKey x c m).drop 8 = be 8 m := by
      unfold nodeTextKey
      rw [show 8 = 4 + 4 from rfl, ← List.drop_drop, d, d]
    have h16 : (nodeTextKey x c m).length = 16 := by simp [nodeTextKey, be_length]
    unfold parseNodeTextKey
    rw [e8]
    simp only [h16, if_true]
    unfold nodeTextKey
    rw [t, d, t, p 4 x hx, p 4 c hc, p 8 m hm]

/-- C86: the range from the smallest to the largest node (relannis.rs 2172-2181) has exactly the nodes of the text. -/
theorem C86_text_range (x y c d m : Nat) (hx : x < 256 ^ 4) (hy : y < 256 ^ 4) (hc : c < 256 ^ 4) (hd : d < 256 ^ 4) (hm : m < 256 ^ 8) :
    (nodeTextKey x c 0 ≤ nodeTextKey y d m ∧ nodeTextKey y d m ≤ nodeTextKey x c (256 ^ 8 - 1)) ↔ y = x ∧ d = c := by
  rw [← not_lt, ← not_lt, (C86_node_by_text y x d c m 0 hy hx hd hc hm (by decide)).1,
    (C86_node_by_text x y c d (256 ^ 8 - 1) m hx hy hc hd (by decide) hm).1, Prod.Lex.lt_iff, Prod.Lex.lt_iff, Prod.Lex.lt_iff, Prod.Lex.lt_iff]
  simp only [ofLex_toLex]
  omega

/-- The hypotheses of C86 hold for keys with characters of one to four bytes. -/
theorem C86_nonvacuous : Valid (tprop "äa�".toList 7 0 (256 ^ 4 - 1)) ∧ Char.ofNat 0 ∉ "äa�".toList ∧
    tprop "äa�".toList 7 0 (256 ^ 4 - 1) < tprop "ä𝄞".toList 0 0 0 ∧
    propKey (tprop "äa�".toList 7 0 (256 ^ 4 - 1)) < propKey (tprop "ä𝄞".toList 0 0 0) := by
  refine ⟨by unfold Valid; decide +kernel, by decide +kernel, by decide +kernel, by decide +kernel⟩

end Rel
