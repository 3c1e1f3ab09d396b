import Verif.Parse.Rx

/-!
# The tokens of a query

`graphannis/src/annis/db/aql/parser.lalrpop`: the terminals of the grammar and the lexer LALRPOP generates for them.  It takes the longest
text which is a text of some terminal, for several terminals the one with the highest precedence, and skips whitespace.  Positions are
offsets in bytes.
-/

namespace Parse

/-- Terminals with a fixed text: the first group of the `match` block (parser.lalrpop 25-32) and all strings in the rules. -/
inductive Kw
  | tok | node | identCov | identNode | overlap | inclusion | leftAligned | rightAligned
  | bar | amp | lpar | rpar | quest | bang | metaK | at_ | eqeq | neq | arity | eq | lbr | rbr | comma | star | colon
deriving DecidableEq, Repr

/-- The texts of these terminals (parser.lalrpop 25-32 and the strings in the rules). -/
def Kw.text : Kw → Str
  | .tok => ['t', 'o', 'k']
  | .node => ['n', 'o', 'd', 'e']
  | .identCov => ['_', '=', '_']
  | .identNode => ['_', 'i', 'd', 'e', 'n', 't', '_']
  | .overlap => ['_', 'o', '_']
  | .inclusion => ['_', 'i', '_']
  | .leftAligned => ['_', 'l', '_']
  | .rightAligned => ['_', 'r', '_']
  | .bar => ['|']
  | .amp => ['&']
  | .lpar => ['(']
  | .rpar => [')']
  | .quest => ['?']
  | .bang => ['!']
  | .metaK => ['m', 'e', 't', 'a', ':', ':']
  | .at_ => ['@']
  | .eqeq => ['=', '=']
  | .neq => ['!', '=']
  | .arity => [':', 'a', 'r', 'i', 't', 'y']
  | .eq => ['=']
  | .lbr => ['[']
  | .rbr => [']']
  | .comma => [',']
  | .star => ['*']
  | .colon => [':']

/-- All terminals, and the whitespace between them. -/
inductive Kind
  | kw (k : Kw)
  | id | nodeRef | varRef | varDef | digits | dom | point | prec | near | quoted | regex | space
deriving DecidableEq, Repr

/-- `[a-zA-Z_%]` -/
def idStart (c : Char) : Bool := c.isAlpha || c == '_' || c == '%'

/-- `[a-zA-Z0-9_\-%]` -/
def idCont (c : Char) : Bool := c.isAlphanum || c == '_' || c == '-' || c == '%'

/-- `\s` of the crate `regex`: the characters with the Unicode property White_Space. -/
def isSpace (c : Char) : Bool :=
  (9 ≤ c.toNat && c.toNat ≤ 13) || (0x2000 ≤ c.toNat && c.toNat ≤ 0x200a) ||
    [0x20, 0x85, 0xa0, 0x1680, 0x2028, 0x2029, 0x202f, 0x205f, 0x3000].contains c.toNat

/-- `[a-zA-Z_%][a-zA-Z0-9_\-%]*` -/
def idRx : Rx := .cat (.chr idStart) (.star (.chr idCont))

/-- `[a-zA-Z][a-zA-Z0-9]*` -/
def varRx : Rx := .cat (.chr Char.isAlpha) (.star (.chr Char.isAlphanum))

/-- `[^/\\]*(\\.[^/\\]*)*` -/
def regexBodyRx : Rx :=
  .cat (.star (.chr fun c => c != '/' && c != '\\'))
    (.star (.cat (.cat (.chr (· == '\\')) (.chr (· != '\n'))) (.star (.chr fun c => c != '/' && c != '\\'))))

/-- The patterns of the terminals (parser.lalrpop 24-40, 322-394, 463-466). -/
def Kind.rx : Kind → Rx
  | .kw k => .lit k.text
  | .id => idRx
  | .nodeRef => .cat (.lit ['#']) (.plus (.chr Char.isDigit))
  | .varRef => .cat (.lit ['#']) varRx
  | .varDef => .cat varRx (.lit ['#'])
  | .digits => .plus (.chr Char.isDigit)
  | .dom => .cat (.lit ['>']) (.opt idRx)
  | .point => .cat (.lit ['-', '>']) idRx
  | .prec => .cat (.lit ['.']) (.opt idRx)
  | .near => .cat (.lit ['^']) (.opt idRx)
  | .quoted => .cat (.lit ['"']) (.cat (.star (.chr (· != '"'))) (.lit ['"']))
  | .regex => .cat (.lit ['/']) (.cat regexBodyRx (.lit ['/']))
  | .space => .plus (.chr isSpace)

/-- All terminals by decreasing precedence: the first group of the `match` block, then strings, then patterns
(parser.lalrpop 24-40; `_` stands for all other terminals, and LALRPOP prefers strings to patterns); whitespace comes last. -/
def kinds : List Kind :=
  [.kw .tok, .kw .node, .kw .identCov, .kw .identNode, .kw .overlap, .kw .inclusion, .kw .leftAligned, .kw .rightAligned,
   .kw .bar, .kw .amp, .kw .lpar, .kw .rpar, .kw .quest, .kw .bang, .kw .metaK, .kw .at_, .kw .eqeq, .kw .neq, .kw .arity, .kw .eq,
   .kw .lbr, .kw .rbr, .kw .comma, .kw .star, .kw .colon,
   .id, .nodeRef, .varRef, .varDef, .digits, .dom, .point, .prec, .near, .quoted, .regex, .space]

/-- The better of two matches: the longer one, the first one if they have the same length. -/
def better (best : Option (Kind × Nat)) (k : Kind) (n : Option Nat) : Option (Kind × Nat) :=
  match n, best with
  | none, b => b
  | some n, none => some (k, n)
  | some n, some (k', m) => if m < n then some (k, n) else some (k', m)

/-- The terminal and the length of the next token. -/
def munch (s : Str) : Option (Kind × Nat) := kinds.foldl (fun best k => better best k (k.rx.longest s)) none

/-- Tokens with the part of their text the rules of the grammar use (`v[1..]`, `v[1..v.len()-1]`, `type_def[">".len()..]`). -/
inductive Tk
  | kw (k : Kw)
  | id (s : Str)
  | nodeRef (s : Str)
  | varRef (s : Str)
  | varDef (s : Str)
  | digits (s : Str)
  | dom (s : Str)
  | point (s : Str)
  | prec (s : Str)
  | near (s : Str)
  | quoted (s : Str)
  | regex (s : Str)
deriving DecidableEq, Repr

/-- The token of a terminal with a text (parser.lalrpop 72, 188, 315-316, 323, 332, 349, 358, 375, 395, 463-466); whitespace is skipped. -/
def Kind.token (w : Str) : Kind → Option Tk
  | .kw k => some (.kw k)
  | .id => some (.id w)
  | .nodeRef => some (.nodeRef (w.drop 1))
  | .varRef => some (.varRef (w.drop 1))
  | .varDef => some (.varDef w.dropLast)
  | .digits => some (.digits w)
  | .dom => some (.dom (w.drop 1))
  | .point => some (.point (w.drop 2))
  | .prec => some (.prec (w.drop 1))
  | .near => some (.near (w.drop 1))
  | .quoted => some (.quoted (w.drop 1).dropLast)
  | .regex => some (.regex (w.drop 1).dropLast)
  | .space => none

/-- The length of a text in bytes. -/
def byteLen (s : Str) : Nat := (utf8 s).length

/-- A token with its position. -/
structure PTok where
  start : Nat
  tk : Tk
  stop : Nat
deriving DecidableEq, Repr

/-- The lexer at a position: the tokens, or the position of an invalid token.  The first number bounds the number of steps; the length of
the text is enough, because every step reads at least one character. -/
def lexFrom : Nat → Nat → Str → Except Nat (List PTok)
  | 0, pos, s => if s = [] then .ok [] else .error pos
  | fuel + 1, pos, s =>
    if s = [] then .ok [] else
    match munch s with
    | none => .error pos
    | some (_, 0) => .error pos
    | some (k, n) =>
      let w := s.take n
      match lexFrom fuel (pos + byteLen w) (s.drop n) with
      | .error e => .error e
      | .ok ts =>
        match k.token w with
        | none => .ok ts
        | some tk => .ok (⟨pos, tk, pos + byteLen w⟩ :: ts)

/-- The tokens of a text. -/
def lex (s : Str) : Except Nat (List PTok) := lexFrom s.length 0 s

/-! ### Specification -/

/-- The text of a token. -/
def Tk.text : Tk → Str
  | .kw k => k.text
  | .id s => s
  | .nodeRef s => '#' :: s
  | .varRef s => '#' :: s
  | .varDef s => s ++ ['#']
  | .digits s => s
  | .dom s => '>' :: s
  | .point s => '-' :: '>' :: s
  | .prec s => '.' :: s
  | .near s => '^' :: s
  | .quoted s => '"' :: (s ++ ['"'])
  | .regex s => '/' :: (s ++ ['/'])

/-- The terminal of a token. -/
def Tk.kind : Tk → Kind
  | .kw k => .kw k
  | .id _ => .id
  | .nodeRef _ => .nodeRef
  | .varRef _ => .varRef
  | .varDef _ => .varDef
  | .digits _ => .digits
  | .dom _ => .dom
  | .point _ => .point
  | .prec _ => .prec
  | .near _ => .near
  | .quoted _ => .quoted
  | .regex _ => .regex

namespace Spec

/-- The keywords that look like identifiers. -/
def words : List Kw := [.tok, .node, .identNode, .overlap, .inclusion, .leftAligned, .rightAligned]

/-- Whether a character can stand between an unescaped slash and the end of a regular expression: `esc` after a backslash. -/
def regexBody : Bool → Str → Bool
  | esc, [] => !esc
  | true, c :: s => c != '\n' && regexBody false s
  | false, c :: s => c != '/' && regexBody (c == '\\') s

/-- The tokens that can be written, in words: identifiers that are no keywords, numbers, names of variables, values without quotation
marks, regular expressions without slashes that are not escaped. -/
def Valid : Tk → Prop
  | .kw _ => True
  | .id s => (∃ c r, s = c :: r ∧ idStart c = true ∧ r.all idCont = true) ∧ ∀ k ∈ words, s ≠ k.text
  | .nodeRef s => s ≠ [] ∧ s.all Char.isDigit = true
  | .digits s => s ≠ [] ∧ s.all Char.isDigit = true
  | .varRef s => ∃ c r, s = c :: r ∧ c.isAlpha = true ∧ r.all Char.isAlphanum = true
  | .varDef s => ∃ c r, s = c :: r ∧ c.isAlpha = true ∧ r.all Char.isAlphanum = true
  | .dom s => s = [] ∨ ∃ c r, s = c :: r ∧ idStart c = true ∧ r.all idCont = true
  | .point s => ∃ c r, s = c :: r ∧ idStart c = true ∧ r.all idCont = true
  | .prec s => s = [] ∨ ∃ c r, s = c :: r ∧ idStart c = true ∧ r.all idCont = true
  | .near s => s = [] ∨ ∃ c r, s = c :: r ∧ idStart c = true ∧ r.all idCont = true
  | .quoted s => ∀ c ∈ s, c ≠ '"'
  | .regex s => regexBody false s = true

/-- The next token of a text: no terminal has a longer text at this place, and none with a higher precedence has the same text. -/
structure Next (s : Str) (k : Kind) (n : Nat) : Prop where
  le : n ≤ s.length
  lang : k.rx.Lang (s.take n)
  max : ∀ (k' : Kind) (m : Nat), m ≤ s.length → k'.rx.Lang (s.take m) → m ≤ n
  first : ∀ k' : Kind, k'.rx.Lang (s.take n) → kinds.idxOf k ≤ kinds.idxOf k'

/-- A token is not continued by the text after it: no terminal has a longer text at this place. -/
def Clear (t : Tk) (rest : Str) : Prop := ∀ (k : Kind) (v : Str), v ≠ [] → v <+: rest → ¬ k.rx.Lang (t.text ++ v)

/-- The characters that never continue a token. -/
def opens (c : Char) : Bool :=
  isSpace c || ['&', '|', '(', ')', '?', '[', ']', ',', '*', '@', '"', '/', '^', '.', '>', '!'].contains c

/-- Tokens of a text with positions. -/
inductive Tokens : Nat → Str → List PTok → Prop
  | nil {pos} : Tokens pos [] []
  | space {pos s n ts} : Next s .space n → Tokens (pos + byteLen (s.take n)) (s.drop n) ts → Tokens pos s ts
  | tok {pos s k n t ts} : Next s k n → k ≠ .space → t.kind = k → t.text = s.take n →
      Tokens (pos + byteLen (s.take n)) (s.drop n) ts → Tokens pos s (⟨pos, t, pos + byteLen (s.take n)⟩ :: ts)

end Spec

end Parse
