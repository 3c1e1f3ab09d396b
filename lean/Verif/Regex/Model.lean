import Verif.Text.Percent

/-!
# Model of regular expression conditions

The crates `regex` and `regex_syntax` are dependencies.  They are modelled for a subset of the syntax: literals, escaped
literals, `.`, groups, alternation, `*`, and the assertions `\A`, `\z`, `^`, `$` and `\b`; every other meta character makes the
model of the parser return `none`, as an unbalanced pattern does.  As in `regex_syntax` the parser reads one character at a
time with a stack of open groups.
-/

inductive Look
  | start
  | stop
  | wordBoundary
deriving DecidableEq

/-- Regular expressions.  `cls` is a character class given by its characters. -/
inductive Re
  | empty
  | lit (c : Char)
  | any
  | cls (cs : List Char)
  | look (l : Look)
  | cat (a b : Re)
  | alt (a b : Re)
  | star (a : Re)
  | group (a : Re)
deriving DecidableEq

def isWord (c : Char) : Bool := c.isAlphanum || c == '_'

/-- Whether an assertion holds between the two parts of the text. -/
def Look.holds (l : Look) (left right : Str) : Bool :=
  match l with
  | .start => left.isEmpty
  | .stop => right.isEmpty
  | .wordBoundary => (left.getLast?.any isWord) != (right.head?.any isWord)

/-- `e` matches the middle part of the text `l ++ m ++ r`. -/
inductive Re.Match : Re → Str → Str → Str → Prop
  | empty {l r} : Match .empty l [] r
  | lit {c l r} : Match (.lit c) l [c] r
  | any {c l r} : c ≠ '\n' → Match .any l [c] r
  | cls {cs c l r} : c ∈ cs → Match (.cls cs) l [c] r
  | look {a l r} : a.holds l r = true → Match (.look a) l [] r
  | cat {a b l m m' r} : Match a l m (m' ++ r) → Match b (l ++ m) m' r → Match (.cat a b) l (m ++ m') r
  | altL {a b l m r} : Match a l m r → Match (.alt a b) l m r
  | altR {a b l m r} : Match b l m r → Match (.alt a b) l m r
  | starNil {a l r} : Match (.star a) l [] r
  | starCons {a l m m' r} : Match a l m (m' ++ r) → Match (.star a) (l ++ m) m' r → Match (.star a) l (m ++ m') r
  | group {a l m r} : Match a l m r → Match (.group a) l m r

/-- `Regex::is_match`: somewhere in the text. -/
def Re.IsMatch (e : Re) (w : Str) : Prop := ∃ l m r, w = l ++ m ++ r ∧ e.Match l m r

/-- An open group: the finished alternatives and the current items, both in reversed order. -/
structure ReFrame where
  alts : List Re
  items : List Re

structure ReState where
  stack : List ReFrame
  cur : ReFrame
  esc : Bool

def ReFrame.new : ReFrame := ⟨[], []⟩

/-- A concatenation from its reversed items. -/
def reConcat (items : List Re) : Re := items.reverse.foldr .cat .empty

/-- The expression of a finished group. -/
def ReFrame.finish (f : ReFrame) : Re := f.alts.foldl (fun acc a => .alt a acc) (reConcat f.items)

def ReState.push (s : ReState) (e : Re) : ReState := { s with cur := { s.cur with items := e :: s.cur.items }, esc := false }

/-- Characters that can be escaped to stand for themselves. -/
def reMeta : List Char := ['\\', '.', '+', '*', '?', '(', ')', '|', '[', ']', '{', '}', '^', '$', '#', '&', '-', '~', '/']

/-- One character of the pattern. -/
def ReState.step (s : ReState) (c : Char) : Option ReState :=
  if s.esc then
    if c = 'A' then some (s.push (.look .start))
    else if c = 'z' then some (s.push (.look .stop))
    else if c = 'b' then some (s.push (.look .wordBoundary))
    else if c ∈ reMeta then some (s.push (.lit c))
    else none
  else if c = '\\' then some { s with esc := true }
  else if c = '(' then some ⟨s.cur :: s.stack, .new, false⟩
  else if c = ')' then
    match s.stack with
    | [] => none
    | f :: fs => some ⟨fs, { f with items := .group s.cur.finish :: f.items }, false⟩
  else if c = '|' then some { s with cur := ⟨reConcat s.cur.items :: s.cur.alts, []⟩ }
  else if c = '*' then
    match s.cur.items with
    | [] => none
    | x :: xs => some { s with cur := { s.cur with items := .star x :: xs } }
  else if c = '.' then some (s.push .any)
  else if c = '^' then some (s.push (.look .start))
  else if c = '$' then some (s.push (.look .stop))
  else if c ∈ ['[', ']', '{', '}', '?', '+'] then none
  else some (s.push (.lit c))

def ReState.run (s : ReState) (p : Str) : Option ReState := p.foldlM ReState.step s

/-- Parsing a pattern. -/
def reParse (p : Str) : Option Re :=
  match ReState.run ⟨[], .new, false⟩ p with
  | some ⟨[], cur, false⟩ => some cur.finish
  | _ => none

/-- `regex_full_match` (core/src/util/mod.rs 33-40). -/
def regexFullMatch (p : Str) : Str := ['\\', 'A', '('] ++ p ++ [')', '\\', 'z']

/-- A literal of the extractor: text and whether it is exact. -/
abbrev ReLit := Str × Bool

/-- Removing duplicates; literals which differ in the flag become inexact (`Seq::dedup`; here also for literals that are not
neighbours, which is the same for sequences with one literal). -/
def reDedup : List ReLit → List ReLit
  | [] => []
  | (s, x) :: r =>
    match reDedup r with
    | (s', x') :: r' => if s = s' then (s, x && x') :: r' else (s, x) :: (s', x') :: r'
    | [] => [(s, x)]

/-- `Extractor::extract` for prefixes, `none` is the infinite sequence.  Assertions give the empty literal.  Simplified: the
limits on the number and length of literals, which only turn exact literals into inexact ones or the sequence into the infinite
one, are the oracle `limit`. -/
def reExtract (limit : List ReLit → Option (List ReLit)) : Re → Option (List ReLit)
  | .empty => some [([], true)]
  | .look _ => some [([], true)]
  | .lit c => some [([c], true)]
  | .any => none
  | .cls cs => limit (cs.map fun c => ([c], true))
  | .group a => reExtract limit a
  | .cat a b =>
    match reExtract limit a with
    | none => none
    | some s =>
      match reExtract limit b with
      | none => limit (s.map fun p => (p.1, false))
      | some t => limit (reDedup (s.flatMap fun p => if p.2 then t.map (fun q => (p.1 ++ q.1, q.2)) else [p]))
  | .alt a b =>
    match reExtract limit a, reExtract limit b with
    | some s, some t => limit (reDedup (s ++ t))
    | _, _ => none
  | .star a => (reExtract limit a).bind fun s => limit (reDedup (s.map (fun p => (p.1, false)) ++ [([], true)]))

/-- `exact_value_for_regex` on a parsed pattern (graphannis/src/annis/util/mod.rs 16-27). -/
def exactValue (limit : List ReLit → Option (List ReLit)) (e : Re) : Option Str :=
  match reExtract limit e with
  | some [] => some []
  | some [(s, true)] => some s
  | _ => none

/-- A condition with a regular expression (graphannis/src/annis/db/exec/nodesearch.rs 425-452): searching the exact value if
there is one, otherwise matching the full pattern.  `none` is an invalid pattern. -/
def regexCondition (limit : List ReLit → Option (List ReLit)) (p : Str) : Option (Str → Prop) :=
  match (reParse p).bind (exactValue limit) with
  | some v => some fun w => w = v
  | none => (reParse (regexFullMatch p)).map fun e w => e.IsMatch w
