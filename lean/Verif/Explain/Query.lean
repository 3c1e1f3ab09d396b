import Verif.Explain.Props
import Verif.Parse.LexProps

/-!
# Operators of queries and their texts (C120)
-/

namespace Explain

open Parse Parse.Spec Spec

/-- The operator that is executed for one of a query, or its inverse: `create_operator` of the specifications (edge_op.rs 634-660, 685-712,
739-770, precedence.rs 72-80, near.rs 62-70, overlap.rs 53-61, equal_value.rs 32-45 and so on) and `get_inverse_operator` (edge_op.rs 324-350,
precedence.rs 192-210, 298-309), which gives an operator of the same text for the symmetric ones (overlap.rs 128-137, near.rs 185-194,
equal_value.rs 164-174).  Whether there is an inverse operator, and when it is used, is not part of this.  Inclusion has no inverse operator.  The specification of an overlap is not reflexive (parser.lalrpop 426). -/
def operOf (inverse : Bool) : Aql.BinSpec OpSpec → Option Oper
  | .join (.dominance n d a) => some (.dominance n inverse d a)
  | .join (.pointing n d a) => some (.pointing n inverse d a)
  | .dist (.precedence s) d => some (.precedence inverse s d)
  | .dist (.near s) d => some (.near s d)
  | .other (.partOf d) => some (.partOf inverse d)
  | .other .overlap => some (.simple (.overlap false))
  | .other .identicalCoverage => some (.simple .identicalCoverage)
  | .other .inclusion => some (.simple .inclusion)
  | .other .leftAlignment => some (.simple .leftAlignment)
  | .other .rightAlignment => some (.simple .rightAlignment)
  | .other .identicalNode => some (.simple .identicalNode)
  | .other (.valueComparison .eq) => some (.simple (.equalValue false))
  | .other (.valueComparison .ne) => some (.simple (.equalValue true))
  | _ => none

/-- The operator of a link in a query: negated if there is an exclamation mark. -/
def linkOper (inverse neg : Bool) (op : BOp) : Option Oper := (operOf inverse op.act).map fun o => if neg then .negated o else o

theorem operOf_inj {i i' : Bool} {b b' : Aql.BinSpec OpSpec} {o : Oper} (h : operOf i b = some o) (h' : operOf i' b' = some o) : b = b' := by
  unfold operOf at h
  split at h <;> first | cases h | skip
  all_goals
    unfold operOf at h'
    split at h' <;> first | rfl | (cases h'; rfl) | cases h'

theorem operOf_not_negated {i : Bool} {b : Aql.BinSpec OpSpec} {o : Oper} (h : operOf i b = some o) : ∀ x, o ≠ .negated x := by
  intro x e
  subst e
  unfold operOf at h
  split at h <;> cases h

theorem qn_ok {q : QN} (h : ∀ t ∈ q.yield, Valid t) : (∀ n, q.ns = some n → Ident n) ∧ Ident q.name := by
  obtain ⟨ns, name⟩ := q
  cases ns with
  | none => exact ⟨by simp, (h (.id name) (by simp [QN.yield])).1⟩
  | some n =>
    refine ⟨?_, (h (.id name) (by simp [QN.yield])).1⟩
    intro m e
    cases e
    exact (h (.id n) (by simp [QN.yield])).1

theorem ea_ok {a : EA} (h : ∀ t ∈ a.yield, Valid t) : AnnoOk a.act := by
  have hq := qn_ok (q := a.q) (fun t ht => h t (by simp [EA.yield, ht]))
  obtain ⟨q, c, t⟩ := a
  cases t <;> cases c <;> exact hq

theorem tail_ok {x : Tail} (h : ∀ t ∈ x.yield, Valid t) : ∀ e, x.act.2 = some e → AnnoOk e := by
  intro e he
  cases x with
  | anno a => cases he; exact ea_ok h
  | _ => cases he

theorem seg_ok {n : Str} (h : n = [] ∨ ∃ c r, n = c :: r ∧ idStart c = true ∧ r.all idCont = true) : ∀ s, segName n = some s → Ident s := by
  intro s hs
  unfold segName at hs
  split at hs
  · cases hs
  · rename_i hne
    cases hs
    rcases h with rfl | h
    · exact absurd rfl hne
    · exact h

/-- The operators of queries have names that can be written in queries. -/
theorem operOf_ok {i : Bool} {op : BOp} {o : Oper} (hv : ∀ t ∈ op.yield, Valid t) (h : operOf i op.act = some o) : Ok o := by
  cases op with
  | dom n t =>
    cases h
    exact ⟨hv (.dom n) (by simp [BOp.yield]), tail_ok fun x hx => hv x (by simp [BOp.yield, hx])⟩
  | point n t =>
    cases h
    exact ⟨Or.inr (hv (.point n) (by simp [BOp.yield])), tail_ok fun x hx => hv x (by simp [BOp.yield, hx])⟩
  | prec n r => cases h; exact seg_ok (hv (.prec n) (by simp [BOp.yield]))
  | near n r => cases h; exact seg_ok (hv (.near n) (by simp [BOp.yield]))
  | _ => cases h; trivial

theorem link_ok {i neg : Bool} {op : BOp} {o : Oper} (hv : ∀ t ∈ op.yield, Valid t) (h : linkOper i neg op = some o) : Ok o := by
  unfold linkOper at h
  cases ho : operOf i op.act with
  | none => rw [ho] at h; cases h
  | some x =>
    rw [ho] at h
    cases h
    cases neg
    · exact operOf_ok hv ho
    · exact operOf_ok (o := x) hv ho

/-- Every operator of the grammar has a text. -/
theorem C120_shown (i neg : Bool) (op : BOp) : (linkOper i neg op).isSome = true := by
  cases op <;> rfl

/-- **C120**: operators anywhere in two texts of queries have, as they are executed, the same text only if they are the same for the rest of the
program, and both or none of them are negated. -/
theorem C120_query {s s' : Str} {ts ts' : List PTok} (hl : lex s = .ok ts) (hl' : lex s' = .ok ts') {i i' neg neg' : Bool} {op op' : BOp}
    (hop : op.yield <:+: ts.map (·.tk)) (hop' : op'.yield <:+: ts'.map (·.tk)) {o o' : Oper} (ho : linkOper i neg op = some o)
    (ho' : linkOper i' neg' op' = some o') (h : o.text = o'.text) : neg = neg' ∧ op.act = op'.act := by
  have valid : ∀ {s : Str} {ts : List PTok} {op : BOp}, lex s = .ok ts → op.yield <:+: ts.map (·.tk) → ∀ t ∈ op.yield, Valid t := by
    intro s ts op hl hop t ht
    obtain ⟨p, hp, rfl⟩ := List.mem_map.1 (hop.subset ht)
    exact C91_valid hl p hp
  have e := C120_operator (link_ok (valid hl hop) ho) (link_ok (valid hl' hop') ho') h
  subst e
  unfold linkOper at ho ho'
  cases hx : operOf i op.act with
  | none => rw [hx] at ho; cases ho
  | some x =>
    cases hy : operOf i' op'.act with
    | none => rw [hy] at ho'; cases ho'
    | some y =>
      rw [hx] at ho
      rw [hy] at ho'
      simp only [Option.map_some, Option.some.injEq] at ho ho'
      rw [← ho'] at ho
      cases neg <;> cases neg' <;> simp only [Bool.false_eq_true, if_false, if_true] at ho
      · subst ho; exact ⟨rfl, operOf_inj hx hy⟩
      · exact absurd ho (operOf_not_negated hx _)
      · exact absurd ho.symm (operOf_not_negated hy _)
      · cases ho; exact ⟨rfl, operOf_inj hx hy⟩

/-- A query with an operator, its tokens and the text of its inverse. -/
theorem C120_query_nonvacuous :
    ∃ ts, lex "tok !.ref 2,5 tok".toList = .ok ts ∧ (BOp.prec "ref".toList (some (.two false ['2'] ['5']))).yield <:+: ts.map (·.tk) ∧
      (linkOper true true (.prec "ref".toList (some (.two false ['2'] ['5'])))).map Oper.text = some "!.⃖ref 2,5".toList := by
  refine ⟨[⟨0, .kw .tok, 3⟩, ⟨4, .kw .bang, 5⟩, ⟨5, .prec "ref".toList, 9⟩, ⟨10, .digits ['2'], 11⟩, ⟨11, .kw .comma, 12⟩, ⟨12, .digits ['5'], 13⟩,
    ⟨14, .kw .tok, 17⟩], by decide +kernel, ⟨[.kw .tok, .kw .bang], [.kw .tok], by decide +kernel⟩, by decide +kernel⟩

end Explain
