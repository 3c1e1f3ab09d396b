import Verif.Parse.Values

set_option linter.unusedSimpArgs false

/-!
# C92, C94: what operators and searches mean

Specifications that say for the tokens of an operator or a search what they mean, independent of the syntax trees and actions.
-/

namespace Parse

open Spec

namespace Spec

/-- The value of a number in a distance: one that needs more than 64 bits counts as 0. -/
def dist (s : Str) : Nat := if Nat.ofDigitChars 10 s 0 < 2 ^ 64 then Nat.ofDigitChars 10 s 0 else 0

/-- `2,3`, `,2,3`, `2`, `,2` and `*`. -/
inductive RangeText : List Tk → RangeSpec → Prop
  | two (a b : Str) : RangeText [.digits a, .kw .comma, .digits b] (.bound (dist a) (dist b))
  | two' (a b : Str) : RangeText [.kw .comma, .digits a, .kw .comma, .digits b] (.bound (dist a) (dist b))
  | one (a : Str) : RangeText [.digits a] (.bound (dist a) (dist a))
  | one' (a : Str) : RangeText [.kw .comma, .digits a] (.bound (dist a) (dist a))
  | star : RangeText [.kw .star] .unbound

/-- A range that may be missing: then it is one step. -/
inductive OptRange : List Tk → RangeSpec → Prop
  | none : OptRange [] (.bound 1 1)
  | some {ts : List Tk} {r : RangeSpec} : RangeText ts r → OptRange ts r

/-- `name` or `ns:name`. -/
inductive NameText : List Tk → Option Str → Str → Prop
  | plain (n : Str) : NameText [.id n] none n
  | qualified (ns n : Str) : NameText [.id ns, .kw .colon, .id n] (some ns) n

/-- `[ns:name="value"]` and so on. -/
inductive EdgeText : List Tk → EdgeSpec → Prop
  | exact {q : List Tk} {ns : Option Str} {n v : Str} : NameText q ns n →
      EdgeText (.kw .lbr :: (q ++ [.kw .eq, .quoted v, .kw .rbr])) (.exact ns n (some v))
  | notExact {q : List Tk} {ns : Option Str} {n v : Str} : NameText q ns n →
      EdgeText (.kw .lbr :: (q ++ [.kw .neq, .quoted v, .kw .rbr])) (.notExact ns n v)
  | regex {q : List Tk} {ns : Option Str} {n v : Str} : NameText q ns n →
      EdgeText (.kw .lbr :: (q ++ [.kw .eq, .regex v, .kw .rbr])) (.regex ns n v)
  | notRegex {q : List Tk} {ns : Option Str} {n v : Str} : NameText q ns n →
      EdgeText (.kw .lbr :: (q ++ [.kw .neq, .regex v, .kw .rbr])) (.notRegex ns n v)

/-- What the tokens of a binary operator mean. -/
inductive OpText : List Tk → Aql.BinSpec OpSpec → Prop
  | dominance (n : Str) {ts : List Tk} {r : RangeSpec} : OptRange ts r → OpText (.dom n :: ts) (.join (.dominance n r none))
  | dominanceAnno (n : Str) {ts : List Tk} {a : EdgeSpec} : EdgeText ts a → OpText (.dom n :: ts) (.join (.dominance n (.bound 1 1) (some a)))
  | pointing (n : Str) {ts : List Tk} {r : RangeSpec} : OptRange ts r → OpText (.point n :: ts) (.join (.pointing n r none))
  | pointingAnno (n : Str) {ts : List Tk} {a : EdgeSpec} : EdgeText ts a → OpText (.point n :: ts) (.join (.pointing n (.bound 1 1) (some a)))
  | precedence {ts : List Tk} {r : RangeSpec} : OptRange ts r → OpText (.prec [] :: ts) (.dist (.precedence none) r)
  | precedenceOf (c : Char) (n : Str) {ts : List Tk} {r : RangeSpec} : OptRange ts r →
      OpText (.prec (c :: n) :: ts) (.dist (.precedence (some (c :: n))) r)
  | near {ts : List Tk} {r : RangeSpec} : OptRange ts r → OpText (.near [] :: ts) (.dist (.near none) r)
  | nearOf (c : Char) (n : Str) {ts : List Tk} {r : RangeSpec} : OptRange ts r → OpText (.near (c :: n) :: ts) (.dist (.near (some (c :: n))) r)
  | partOf {ts : List Tk} {r : RangeSpec} : OptRange ts r → OpText (.kw .at_ :: ts) (.other (.partOf r))
  | overlap : OpText [.kw .overlap] (.other .overlap)
  | coverage : OpText [.kw .identCov] (.other .identicalCoverage)
  | inclusion : OpText [.kw .inclusion] (.other .inclusion)
  | left : OpText [.kw .leftAligned] (.other .leftAlignment)
  | right : OpText [.kw .rightAligned] (.other .rightAlignment)
  | same : OpText [.kw .identNode] (.other .identicalNode)

/-- What the tokens of a node search mean. -/
inductive SearchText : List Tk → NsSpec Str Str → Prop
  | node : SearchText [.kw .node] .anyNode
  | tok : SearchText [.kw .tok] .anyToken
  | tokEq (v : Str) : SearchText [.kw .tok, .kw .eq, .quoted v] (.exactTok v true)
  | tokNe (v : Str) : SearchText [.kw .tok, .kw .neq, .quoted v] (.notExactTok v)
  | tokRegex (v : Str) : SearchText [.kw .tok, .kw .eq, .regex v] (.regexTok v true)
  | tokNotRegex (v : Str) : SearchText [.kw .tok, .kw .neq, .regex v] (.notRegexTok v)
  | text (v : Str) : SearchText [.quoted v] (.exactTok v false)
  | textRegex (v : Str) : SearchText [.regex v] (.regexTok v false)
  | name {q : List Tk} {ns : Option Str} {n : Str} : NameText q ns n → SearchText q (.exact ns n none false)
  | exact {q : List Tk} {ns : Option Str} {n : Str} (v : Str) : NameText q ns n → SearchText (q ++ [.kw .eq, .quoted v]) (.exact ns n (some v) false)
  | notExact {q : List Tk} {ns : Option Str} {n : Str} (v : Str) : NameText q ns n → SearchText (q ++ [.kw .neq, .quoted v]) (.notExact ns n v false)
  | regex {q : List Tk} {ns : Option Str} {n : Str} (v : Str) : NameText q ns n → SearchText (q ++ [.kw .eq, .regex v]) (.regex ns n v false)
  | notRegex {q : List Tk} {ns : Option Str} {n : Str} (v : Str) : NameText q ns n → SearchText (q ++ [.kw .neq, .regex v]) (.notRegex ns n v false)

/-- What the tokens after `meta::` mean. -/
inductive MetaText : List Tk → NsSpec Str Str → Prop
  | exact {q : List Tk} {ns : Option Str} {n : Str} (v : Str) : NameText q ns n → MetaText (q ++ [.kw .eq, .quoted v]) (.exact ns n (some v) true)
  | notExact {q : List Tk} {ns : Option Str} {n : Str} (v : Str) : NameText q ns n → MetaText (q ++ [.kw .neq, .quoted v]) (.notExact ns n v true)
  | regex {q : List Tk} {ns : Option Str} {n : Str} (v : Str) : NameText q ns n → MetaText (q ++ [.kw .eq, .regex v]) (.regex ns n v true)
  | notRegex {q : List Tk} {ns : Option Str} {n : Str} (v : Str) : NameText q ns n → MetaText (q ++ [.kw .neq, .regex v]) (.notRegex ns n v true)

/-- What the token of a reference means; a number of more than 64 bits has no meaning. -/
inductive RefText : Tk → Aql.Ref → Prop
  | num (s : Str) : Nat.ofDigitChars 10 s 0 < 2 ^ 64 → RefText (.nodeRef s) (.id (Nat.ofDigitChars 10 s 0))
  | var (s : Str) : RefText (.varRef s) (.name s)

end Spec

theorem dist_eq (s : Str) : (usize s).getD 0 = dist s := by
  unfold usize dist
  rw [natOf_eq]
  split <;> rfl

theorem rangeText_act (r : Rng) : RangeText r.yield r.act := by
  cases r with
  | two b x y =>
    simp only [Rng.act, dist_eq]
    cases b
    · exact .two x y
    · exact .two' x y
  | one b x =>
    simp only [Rng.act, dist_eq]
    cases b
    · exact .one x
    · exact .one' x
  | star => exact .star

theorem optRange_act (r : Option Rng) : OptRange (rngYield r) (rngAct r) := by
  cases r with
  | none => exact .none
  | some r => exact .some (rangeText_act r)

theorem nameText_qn (q : QN) : NameText q.yield q.ns q.name := by
  obtain ⟨ns, n⟩ := q
  cases ns
  · exact .plain n
  · exact .qualified _ n

theorem edgeText_act (a : EA) : EdgeText a.yield a.act := by
  obtain ⟨q, c, t⟩ := a
  have h := nameText_qn q
  cases t <;> cases c
  · exact .exact h
  · exact .notExact h
  · exact .regex h
  · exact .notRegex h

/-- The tokens of an operator mean the operator of the tree. -/
theorem C92_operator (b : BOp) : OpText b.yield b.act := by
  cases b with
  | dom n t =>
    cases t with
    | none => exact .dominance n .none
    | rng r => exact .dominance n (.some (rangeText_act r))
    | anno a => exact .dominanceAnno n (edgeText_act a)
  | point n t =>
    cases t with
    | none => exact .pointing n .none
    | rng r => exact .pointing n (.some (rangeText_act r))
    | anno a => exact .pointingAnno n (edgeText_act a)
  | prec n r =>
    cases n with
    | nil => exact .precedence (optRange_act r)
    | cons c n => exact .precedenceOf c n (optRange_act r)
  | near n r =>
    cases n with
    | nil => exact .near (optRange_act r)
    | cons c n => exact .nearOf c n (optRange_act r)
  | partOf r => exact .partOf (optRange_act r)
  | overlap => exact .overlap
  | cov => exact .coverage
  | incl => exact .inclusion
  | left => exact .left
  | right => exact .right
  | ident => exact .same

/-- The tokens of a node search mean the search of the tree. -/
theorem C94_search (s : NS) : SearchText s.yield s.act := by
  cases s with
  | node => exact .node
  | tok => exact .tok
  | tokCmp c t =>
    cases t <;> cases c
    · exact .tokEq _
    · exact .tokNe _
    · exact .tokRegex _
    · exact .tokNotRegex _
  | txt t =>
    cases t
    · exact .text _
    · exact .textRegex _
  | named q c t =>
    have h := nameText_qn q
    cases t <;> cases c
    · exact .exact _ h
    · exact .notExact _ h
    · exact .regex _ h
    · exact .notRegex _ h
  | name q => exact .name (nameText_qn q)

/-- The tokens of a search for metadata mean the search of the tree. -/
theorem C94_meta (q : QN) (c : Cmp) (t : Txt) : MetaText (q.yield ++ (c.yield ++ t.yield)) (valueSpec q c true t) := by
  have h := nameText_qn q
  cases t <;> cases c
  · exact .exact _ h
  · exact .notExact _ h
  · exact .regex _ h
  · exact .notRegex _ h

/-- References mean the number or the name. -/
theorem C94_ref (r : Ref) (x : Aql.Ref) : r.act = some x ↔ ∃ t, r.yield = [t] ∧ RefText t x := by
  cases r with
  | num s =>
    simp only [Ref.act, usize, natOf_eq, Ref.yield, List.cons.injEq, and_true, exists_eq_left']
    constructor
    · intro h
      split at h
      · rename_i hlt
        cases h
        exact .num s hlt
      · cases h
    · rintro ⟨⟩
      rename_i hlt
      rw [if_pos hlt]
      rfl
  | var s =>
    simp only [Ref.act, Option.some.injEq, Ref.yield, List.cons.injEq, and_true, exists_eq_left']
    constructor
    · rintro rfl; exact .var s
    · rintro ⟨⟩; rfl

/-! ### The specifications are unambiguous -/

/-- The tree of an operator in the specification. -/
theorem opText_tree {ts : List Tk} {o : Aql.BinSpec OpSpec} (h : OpText ts o) : ∃ b : BOp, b.yield = ts ∧ b.act = o := by
  have hr : ∀ {ts : List Tk} {r : RangeSpec}, OptRange ts r → ∃ x : Option Rng, rngYield x = ts ∧ rngAct x = r := by
    intro ts r h
    cases h with
    | none => exact ⟨none, rfl, rfl⟩
    | some h =>
      cases h with
      | two a b => exact ⟨some (.two false a b), rfl, by simp [rngAct, Rng.act, dist_eq]⟩
      | two' a b => exact ⟨some (.two true a b), rfl, by simp [rngAct, Rng.act, dist_eq]⟩
      | one a => exact ⟨some (.one false a), rfl, by simp [rngAct, Rng.act, dist_eq]⟩
      | one' a => exact ⟨some (.one true a), rfl, by simp [rngAct, Rng.act, dist_eq]⟩
      | star => exact ⟨some .star, rfl, rfl⟩
  have ht : ∀ {ts : List Tk} {r : RangeSpec}, OptRange ts r → ∃ x : Tail, x.yield = ts ∧ x.act = (r, none) := by
    intro ts r h
    obtain ⟨x, h1, h2⟩ := hr h
    cases x with
    | none => exact ⟨.none, h1, by rw [← h2]; rfl⟩
    | some x => exact ⟨.rng x, h1, by rw [← h2]; rfl⟩
  have hq : ∀ {ts : List Tk} {ns : Option Str} {n : Str}, NameText ts ns n → (QN.mk ns n).yield = ts := by
    intro ts ns n h
    cases h <;> rfl
  have he : ∀ {ts : List Tk} {a : EdgeSpec}, EdgeText ts a → ∃ x : EA, x.yield = ts ∧ x.act = a := by
    intro ts a h
    cases h with
    | @exact q ns n v h => exact ⟨⟨⟨ns, n⟩, .eq, .exact v⟩, by simp [EA.yield, hq h, Cmp.yield, Txt.yield], rfl⟩
    | @notExact q ns n v h => exact ⟨⟨⟨ns, n⟩, .ne, .exact v⟩, by simp [EA.yield, hq h, Cmp.yield, Txt.yield], rfl⟩
    | @regex q ns n v h => exact ⟨⟨⟨ns, n⟩, .eq, .regex v⟩, by simp [EA.yield, hq h, Cmp.yield, Txt.yield], rfl⟩
    | @notRegex q ns n v h => exact ⟨⟨⟨ns, n⟩, .ne, .regex v⟩, by simp [EA.yield, hq h, Cmp.yield, Txt.yield], rfl⟩
  cases h with
  | dominance n h => obtain ⟨x, rfl, h2⟩ := ht h; exact ⟨.dom n x, rfl, by simp [BOp.act, h2]⟩
  | dominanceAnno n h => obtain ⟨x, rfl, rfl⟩ := he h; exact ⟨.dom n (.anno x), rfl, rfl⟩
  | pointing n h => obtain ⟨x, rfl, h2⟩ := ht h; exact ⟨.point n x, rfl, by simp [BOp.act, h2]⟩
  | pointingAnno n h => obtain ⟨x, rfl, rfl⟩ := he h; exact ⟨.point n (.anno x), rfl, rfl⟩
  | precedence h => obtain ⟨x, rfl, rfl⟩ := hr h; exact ⟨.prec [] x, rfl, rfl⟩
  | precedenceOf c n h => obtain ⟨x, rfl, rfl⟩ := hr h; exact ⟨.prec (c :: n) x, rfl, rfl⟩
  | near h => obtain ⟨x, rfl, rfl⟩ := hr h; exact ⟨.near [] x, rfl, rfl⟩
  | nearOf c n h => obtain ⟨x, rfl, rfl⟩ := hr h; exact ⟨.near (c :: n) x, rfl, rfl⟩
  | partOf h => obtain ⟨x, rfl, rfl⟩ := hr h; exact ⟨.partOf x, rfl, rfl⟩
  | overlap => exact ⟨.overlap, rfl, rfl⟩
  | coverage => exact ⟨.cov, rfl, rfl⟩
  | inclusion => exact ⟨.incl, rfl, rfl⟩
  | left => exact ⟨.left, rfl, rfl⟩
  | right => exact ⟨.right, rfl, rfl⟩
  | same => exact ⟨.ident, rfl, rfl⟩

/-- A query of two tokens with the operator between them. -/
def around (b : BOp) : Disj := .one (.one (.lit (.chain (.search ⟨none, .tok, false⟩) ⟨false, b, .search ⟨none, .tok, false⟩⟩ [])))

/-- The tokens of an operator have one meaning, and every meaning in the specification is that of a tree. -/
theorem C92_operator_unique {ts : List Tk} {o o' : Aql.BinSpec OpSpec} (h : OpText ts o) (h' : OpText ts o') : o = o' := by
  obtain ⟨b, h1, rfl⟩ := opText_tree h
  obtain ⟨b', h2, rfl⟩ := opText_tree h'
  have : around b = around b' := C92_unambiguous (by
    simp [around, Disj.yield, Conj.yield, Fac.yield, Lit.yield, Opd.yield, Link.yield, h1, h2])
  simp only [around, Disj.one.injEq, Conj.one.injEq, Fac.lit.injEq, Lit.chain.injEq, Link.mk.injEq] at this
  rw [this.2.1.2.1]

theorem searchText_tree {ts : List Tk} {o : NsSpec Str Str} (h : SearchText ts o) : ∃ b : NS, b.yield = ts ∧ b.act = o := by
  have hq : ∀ {ts : List Tk} {ns : Option Str} {n : Str}, NameText ts ns n → (QN.mk ns n).yield = ts := by
    intro ts ns n h
    cases h <;> rfl
  cases h with
  | node => exact ⟨.node, rfl, rfl⟩
  | tok => exact ⟨.tok, rfl, rfl⟩
  | tokEq v => exact ⟨.tokCmp .eq (.exact v), rfl, rfl⟩
  | tokNe v => exact ⟨.tokCmp .ne (.exact v), rfl, rfl⟩
  | tokRegex v => exact ⟨.tokCmp .eq (.regex v), rfl, rfl⟩
  | tokNotRegex v => exact ⟨.tokCmp .ne (.regex v), rfl, rfl⟩
  | text v => exact ⟨.txt (.exact v), rfl, rfl⟩
  | textRegex v => exact ⟨.txt (.regex v), rfl, rfl⟩
  | @name q ns n h => exact ⟨.name ⟨ns, n⟩, hq h, rfl⟩
  | @exact q ns n v h => exact ⟨.named ⟨ns, n⟩ .eq (.exact v), by rw [← hq h]; rfl, rfl⟩
  | @notExact q ns n v h => exact ⟨.named ⟨ns, n⟩ .ne (.exact v), by rw [← hq h]; rfl, rfl⟩
  | @regex q ns n v h => exact ⟨.named ⟨ns, n⟩ .eq (.regex v), by rw [← hq h]; rfl, rfl⟩
  | @notRegex q ns n v h => exact ⟨.named ⟨ns, n⟩ .ne (.regex v), by rw [← hq h]; rfl, rfl⟩

/-- The tokens of a search have one meaning. -/
theorem C94_search_unique {ts : List Tk} {o o' : NsSpec Str Str} (h : SearchText ts o) (h' : SearchText ts o') : o = o' := by
  obtain ⟨b, h1, rfl⟩ := searchText_tree h
  obtain ⟨b', h2, rfl⟩ := searchText_tree h'
  have : oneSearch ⟨none, b, false⟩ = oneSearch ⟨none, b', false⟩ := C92_unambiguous (by
    simp [oneSearch, Disj.yield, Conj.yield, Fac.yield, Lit.yield, Search.yield, h1, h2])
  simp only [oneSearch, Disj.one.injEq, Conj.one.injEq, Fac.lit.injEq, Lit.search.injEq, Search.mk.injEq] at this
  rw [this.2.1]

/-- `>dep[cat="S"]`, `.tok,2` and `ns:pos!=/N.*/` are among the texts of the specification. -/
theorem C92_operator_nonvacuous :
    OpText [.dom "dep".toList, .kw .lbr, .id "cat".toList, .kw .eq, .quoted ['S'], .kw .rbr]
      (.join (.dominance "dep".toList (.bound 1 1) (some (.exact none "cat".toList (some ['S']))))) ∧
    OpText [.prec "tok".toList, .kw .comma, .digits ['2']] (.dist (.precedence (some "tok".toList)) (.bound 2 2)) ∧
    SearchText [.id "ns".toList, .kw .colon, .id "pos".toList, .kw .neq, .regex "N.*".toList]
      (.notRegex (some "ns".toList) "pos".toList "N.*".toList false) :=
  ⟨.dominanceAnno _ (.exact (q := [.id "cat".toList]) (.plain _)), .precedenceOf 't' "ok".toList (.some (.one' ['2'])),
    .notRegex (q := [.id "ns".toList, .kw .colon, .id "pos".toList]) _ (.qualified _ _)⟩

end Parse
