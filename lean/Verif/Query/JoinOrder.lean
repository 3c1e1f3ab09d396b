import Verif.Query.PlanOrder
import Mathlib.Data.List.Range

/-!
# The choice of the order of joins (C95)

`Conjunction::optimize_join_order_heuristics` (graphannis/src/annis/db/aql/conjunction.rs 445-549): a random search for a cheap order of
the binary operators.

`cost` is the sum of the intermediate results of the plan for an order (conjunction.rs 472-478 and 519-525), `none` an error when the plan
is made.  The cache of output sizes keeps estimates of node searches, which are the same for every order; it is not modelled.  The random
generator is an oracle: `pairs k` are the four pairs of positions of round `k`.  Simplified: the loop that draws until both positions are
different (501-504) is not modelled, so nothing is said about how long it takes.
-/

namespace JoinOrder

/-- `slice::swap`. -/
def swapAt (l : List Nat) (a b : Nat) : List Nat :=
  match l[a]?, l[b]? with
  | some x, some y => (l.set a y).set b x
  | _, _ => l

/-- The new orders of a round, each from the one before (conjunction.rs 491-508). -/
def family (base : List Nat) : List (Nat × Nat) → List (List Nat)
  | [] => []
  | (a, b) :: r => swapAt base a b :: family (swapAt base a b) r

/-- The state of the search: the best order, its cost, and the number of rounds without success. -/
structure State where
  best : List Nat
  cost : Nat
  failed : Nat
deriving DecidableEq, Repr

/-- The loop over the new orders (conjunction.rs 510-541), with the value of `found_better_plan`. -/
def tryAll (cost : List Nat → Option Nat) : List (List Nat) → State × Bool → Option (State × Bool)
  | [], s => some s
  | o :: r, (s, found) =>
    match cost o with
    | none => none
    | some c => tryAll cost r (if c < s.cost then (⟨o, c, 0⟩, true) else (s, found))

/-- One round (conjunction.rs 490-546). -/
def round (cost : List Nat → Option Nat) (s : State) (pairs : List (Nat × Nat)) : Option State :=
  (tryAll cost (family s.best pairs) (s, false)).map fun (s, found) => if found then s else { s with failed := s.failed + 1 }

/-- The result of the search. -/
inductive Res
  | error
  /-- the bound for the number of rounds is too small -/
  | tooShort
  | ok (order : List Nat)
deriving DecidableEq, Repr

/-- The loop (conjunction.rs 490-548); `k` is the number of the round and the first number bounds the number of rounds. -/
def loop (cost : List Nat → Option Nat) (pairs : Nat → List (Nat × Nat)) (maxTries : Nat) : Nat → Nat → State → Res
  | 0, _, _ => .tooShort
  | fuel + 1, k, s =>
    if s.failed < maxTries then
      match round cost s (pairs k) with
      | none => .error
      | some s => loop cost pairs maxTries fuel (k + 1) s
    else .ok s.best

/-- `optimize_join_order_heuristics` for `n` operators. -/
def optimize (cost : List Nat → Option Nat) (pairs : Nat → List (Nat × Nat)) (fuel n : Nat) : Res :=
  if n = 0 then .ok []
  else if n = 1 then .ok [0]
  else
    match cost (List.range n) with
    | none => .error
    | some c => loop cost pairs (5 * n) fuel 0 ⟨List.range n, c, 0⟩

/-! ### Specification -/

namespace Spec

/-- Four pairs of different positions. -/
def Drawn (n : Nat) (pairs : Nat → List (Nat × Nat)) : Prop :=
  ∀ k, (pairs k).length = 4 ∧ ∀ p ∈ pairs k, p.1 ≠ p.2 ∧ p.1 < n ∧ p.2 < n

/-- Two orders differ in the positions of two operators. -/
def Exchanged (l m : List Nat) : Prop :=
  ∃ a b, a < b ∧ b < l.length ∧ m.length = l.length ∧ m[a]? = l[b]? ∧ m[b]? = l[a]? ∧ ∀ i, i ≠ a → i ≠ b → m[i]? = l[i]?

/-- A run of exchanges. -/
inductive Chain : List Nat → List (List Nat) → Prop
  | nil (l : List Nat) : Chain l []
  | cons {l m : List Nat} {r : List (List Nat)} : Exchanged l m → Chain m r → Chain l (m :: r)

/-- The run of a search: the orders tried in each round, starting from the best order before the round. -/
inductive Search (cost : List Nat → Option Nat) : List Nat → List (List (List Nat)) → List Nat → Prop
  | stop (l : List Nat) : Search cost l [] l
  | round {l m : List Nat} {c d : Nat} {tried : List (List Nat)} {rest : List (List (List Nat))} {r : List Nat} :
      Chain l tried → tried.length = 4 → cost l = some c → cost m = some d → m ∈ l :: tried →
      (∀ x ∈ l :: tried, ∃ e, cost x = some e ∧ d ≤ e) → (d = c → m = l) → Search cost m rest r → Search cost l (tried :: rest) r

end Spec

open Spec

theorem swapAt_spec {l : List Nat} {a b : Nat} (hab : a ≠ b) (ha : a < l.length) (hb : b < l.length) :
    (swapAt l a b).length = l.length ∧ (swapAt l a b)[a]? = l[b]? ∧ (swapAt l a b)[b]? = l[a]? ∧
      ∀ i, i ≠ a → i ≠ b → (swapAt l a b)[i]? = l[i]? := by
  have e : swapAt l a b = (l.set a l[b]).set b l[a] := by
    unfold swapAt
    rw [List.getElem?_eq_getElem ha, List.getElem?_eq_getElem hb]
  rw [e]
  refine ⟨by simp, ?_, ?_, fun i h1 h2 => ?_⟩
  · rw [List.getElem?_set_ne hab.symm, List.getElem?_set_self ha, List.getElem?_eq_getElem hb]
  · rw [List.getElem?_set_self (by simpa using hb), List.getElem?_eq_getElem ha]
  · rw [List.getElem?_set_ne h2.symm, List.getElem?_set_ne h1.symm]

theorem swapAt_exchanged {l : List Nat} {a b : Nat} (hab : a ≠ b) (ha : a < l.length) (hb : b < l.length) : Exchanged l (swapAt l a b) := by
  obtain ⟨h1, h2, h3, h4⟩ := swapAt_spec hab ha hb
  rcases Nat.lt_or_gt_of_ne hab with h | h
  · exact ⟨a, b, h, hb, h1, h2, h3, h4⟩
  · exact ⟨b, a, h, ha, h1, h3, h2, fun i hi hj => h4 i hj hi⟩

theorem swapAt_perm {l : List Nat} {a b : Nat} (hab : a ≠ b) (ha : a < l.length) (hb : b < l.length) : (swapAt l a b).Perm l := by
  have e : swapAt l a b = (l.set a l[b]).set b l[a] := by
    unfold swapAt
    rw [List.getElem?_eq_getElem ha, List.getElem?_eq_getElem hb]
  rw [e]
  exact List.set_set_perm ha hb

theorem family_chain {n : Nat} : ∀ (ps : List (Nat × Nat)) (l : List Nat), (∀ p ∈ ps, p.1 ≠ p.2 ∧ p.1 < n ∧ p.2 < n) → l.length = n →
    Chain l (family l ps) ∧ (family l ps).length = ps.length ∧ ∀ m ∈ family l ps, m.Perm l
  | [], l, _, _ => ⟨.nil l, rfl, by simp [family]⟩
  | (a, b) :: r, l, h, hl => by
    obtain ⟨hab, ha, hb⟩ := h (a, b) (by simp)
    rw [← hl] at ha hb
    have hp := swapAt_perm hab ha hb
    obtain ⟨h1, h2, h3⟩ := family_chain r (swapAt l a b) (fun p hp => h p (by simp [hp])) (by rw [hp.length_eq, hl])
    refine ⟨.cons (swapAt_exchanged hab ha hb) h1, by simp [family, h2], fun m hm => ?_⟩
    rw [family, List.mem_cons] at hm
    rcases hm with rfl | hm
    · exact hp
    · exact (h3 m hm).trans hp

/-- What the loop over the new orders does. -/
theorem tryAll_spec (cost : List Nat → Option Nat) : ∀ (os : List (List Nat)) (s : State) (found : Bool) (s' : State) (found' : Bool),
    tryAll cost os (s, found) = some (s', found') →
    (∀ o ∈ os, ∃ c, cost o = some c ∧ s'.cost ≤ c) ∧ s'.cost ≤ s.cost ∧
      (s' = s ∧ found' = found ∨ s'.cost < s.cost ∧ s'.failed = 0 ∧ found' = true ∧ s'.best ∈ os ∧ cost s'.best = some s'.cost)
  | [], s, found, s', found', h => by
    simp only [tryAll, Option.some.injEq, Prod.mk.injEq] at h
    obtain ⟨rfl, rfl⟩ := h
    exact ⟨by simp, le_refl _, Or.inl ⟨rfl, rfl⟩⟩
  | o :: r, s, found, s', found', h => by
    rw [tryAll] at h
    cases hc : cost o with
    | none => rw [hc] at h; simp at h
    | some c =>
      rw [hc] at h
      simp only at h
      by_cases hlt : c < s.cost
      · rw [if_pos hlt] at h
        obtain ⟨h1, h2, h3⟩ := tryAll_spec cost r _ _ _ _ h
        simp only at h2 h3
        refine ⟨fun x hx => ?_, by omega, Or.inr ?_⟩
        · rcases List.mem_cons.1 hx with rfl | hx
          · exact ⟨c, hc, h2⟩
          · exact h1 x hx
        · rcases h3 with ⟨rfl, rfl⟩ | ⟨h3, h4, h5, h6, h7⟩
          · exact ⟨hlt, rfl, rfl, by simp, hc⟩
          · exact ⟨by omega, h4, h5, by simp [h6], h7⟩
      · rw [if_neg hlt] at h
        obtain ⟨h1, h2, h3⟩ := tryAll_spec cost r _ _ _ _ h
        refine ⟨fun x hx => ?_, h2, ?_⟩
        · rcases List.mem_cons.1 hx with rfl | hx
          · exact ⟨c, hc, by omega⟩
          · exact h1 x hx
        · rcases h3 with h3 | ⟨h3, h4, h5, h6, h7⟩
          · exact Or.inl h3
          · exact Or.inr ⟨h3, h4, h5, by simp [h6], h7⟩

theorem tryAll_some (cost : List Nat → Option Nat) : ∀ (os : List (List Nat)) (s : State × Bool), (∀ o ∈ os, (cost o).isSome) →
    (tryAll cost os s).isSome
  | [], _, _ => rfl
  | o :: r, (s, found), h => by
    obtain ⟨c, hc⟩ := Option.isSome_iff_exists.1 (h o (by simp))
    rw [tryAll, hc]
    exact tryAll_some cost r _ fun x hx => h x (by simp [hx])

theorem round_spec {cost : List Nat → Option Nat} {s s' : State} {ps : List (Nat × Nat)} (h : round cost s ps = some s')
    (hs : cost s.best = some s.cost) :
    s'.best ∈ s.best :: family s.best ps ∧ cost s'.best = some s'.cost ∧ s'.cost ≤ s.cost ∧
      (∀ x ∈ s.best :: family s.best ps, ∃ e, cost x = some e ∧ s'.cost ≤ e) ∧ (s'.cost = s.cost → s'.best = s.best) ∧
      (s'.cost < s.cost ∧ s'.failed = 0 ∨ s'.best = s.best ∧ s'.cost = s.cost ∧ s'.failed = s.failed + 1) := by
  unfold round at h
  cases ht : tryAll cost (family s.best ps) (s, false) with
  | none => rw [ht] at h; cases h
  | some r =>
    obtain ⟨t, found⟩ := r
    rw [ht] at h
    simp only [Option.map_some, Option.some.injEq] at h
    obtain ⟨h1, h2, h3⟩ := tryAll_spec cost _ _ _ _ _ ht
    rcases h3 with ⟨rfl, rfl⟩ | ⟨h3, h4, rfl, h5, h6⟩
    · rw [if_neg (by simp)] at h
      subst h
      refine ⟨by simp, hs, le_refl _, fun x hx => ?_, fun _ => rfl, Or.inr ⟨rfl, rfl, rfl⟩⟩
      rcases List.mem_cons.1 hx with rfl | hx
      · exact ⟨_, hs, le_refl _⟩
      · exact h1 x hx
    · rw [if_pos rfl] at h
      subst h
      refine ⟨by simp [h5], h6, h2, fun x hx => ?_, fun e => by omega, Or.inl ⟨h3, h4⟩⟩
      rcases List.mem_cons.1 hx with rfl | hx
      · exact ⟨_, hs, h2⟩
      · exact h1 x hx

/-- The state of a search that follows the specification. -/
theorem loop_spec {cost : List Nat → Option Nat} {pairs : Nat → List (Nat × Nat)} {n maxTries : Nat} (hd : Drawn n pairs) :
    ∀ (fuel k : Nat) (s : State) (r : List Nat), loop cost pairs maxTries fuel k s = .ok r → s.best.length = n → cost s.best = some s.cost →
      s.failed ≤ maxTries → r.Perm s.best ∧ ∃ runs, Search cost s.best runs r ∧ maxTries - s.failed ≤ runs.length ∧
        (∃ c, cost r = some c ∧ c ≤ s.cost ∧ (∀ t ∈ runs, ∀ x ∈ t, ∃ e, cost x = some e ∧ c ≤ e)) ∧
        (runs.length = maxTries - s.failed ∧ r = s.best ∨ ∃ before last, runs = before ++ last ∧ last.length = maxTries)
  | 0, _, _, _, h, _, _, _ => by cases h
  | fuel + 1, k, s, r, h, hl, hc, hf => by
    rw [loop] at h
    by_cases hlt : s.failed < maxTries
    · rw [if_pos hlt] at h
      cases hr : round cost s (pairs k) with
      | none => rw [hr] at h; cases h
      | some t =>
        rw [hr] at h
        simp only at h
        obtain ⟨h1, h2, h3, h4, h5, h6⟩ := round_spec hr hc
        obtain ⟨f1, f2, f3⟩ := family_chain (pairs k) s.best (hd k).2 hl
        have hp : t.best.Perm s.best := by
          rcases List.mem_cons.1 h1 with e | e
          · rw [e]
          · exact f3 _ e
        obtain ⟨i1, runs, i2, i3, ⟨c, i4, i5, i6⟩, i7⟩ := loop_spec hd fuel (k + 1) t r h (by rw [hp.length_eq, hl]) h2
          (by rcases h6 with h6 | h6 <;> omega)
        refine ⟨i1.trans hp, family s.best (pairs k) :: runs, .round f1 (by rw [f2, (hd k).1]) hc h2 h1 h4 h5 i2, ?_, ⟨c, i4, by omega, ?_⟩, ?_⟩
        · rw [List.length_cons]
          rcases h6 with h6 | h6 <;> omega
        · intro x hx y hy
          rcases List.mem_cons.1 hx with rfl | hx
          · obtain ⟨e, he, hle⟩ := h4 y (List.mem_cons_of_mem _ hy)
            exact ⟨e, he, by omega⟩
          · exact i6 x hx y hy
        · rcases h6 with h6 | h6
          · rcases i7 with i7 | ⟨b, l, rfl, hl⟩
            · exact Or.inr ⟨[family s.best (pairs k)], runs, rfl, by omega⟩
            · exact Or.inr ⟨family s.best (pairs k) :: b, l, rfl, hl⟩
          · rcases i7 with ⟨i7, e⟩ | ⟨b, l, rfl, hl⟩
            · refine Or.inl ⟨?_, by rw [e, h6.1]⟩
              rw [List.length_cons]
              omega
            · exact Or.inr ⟨family s.best (pairs k) :: b, l, rfl, hl⟩
    · rw [if_neg hlt] at h
      cases h
      exact ⟨.refl _, [], .stop _, by simp; omega, ⟨_, hc, le_refl _, by simp⟩, Or.inl ⟨by simp; omega, rfl⟩⟩

/-- The bound for the number of rounds. -/
theorem loop_ends {cost : List Nat → Option Nat} {pairs : Nat → List (Nat × Nat)} {maxTries : Nat} :
    ∀ (fuel k : Nat) (s : State), cost s.best = some s.cost → s.failed ≤ maxTries →
      s.cost * (maxTries + 1) + (maxTries - s.failed) < fuel → loop cost pairs maxTries fuel k s ≠ .tooShort
  | 0, _, _, _, _, h => by omega
  | fuel + 1, k, s, hc, hf, h => by
    rw [loop]
    by_cases hlt : s.failed < maxTries
    · rw [if_pos hlt]
      cases hr : round cost s (pairs k) with
      | none => simp
      | some t =>
        obtain ⟨-, h2, h3, -, -, h6⟩ := round_spec hr hc
        refine loop_ends fuel (k + 1) t h2 (by rcases h6 with h6 | h6 <;> omega) ?_
        rcases h6 with ⟨h6, h7⟩ | ⟨-, h6, h7⟩
        · have : t.cost * (maxTries + 1) + (maxTries + 1) ≤ s.cost * (maxTries + 1) := by
            rw [← Nat.succ_mul]
            exact Nat.mul_le_mul_right _ h6
          omega
        · rw [h6]
          omega
    · rw [if_neg hlt]
      simp

theorem loop_noError {cost : List Nat → Option Nat} {pairs : Nat → List (Nat × Nat)} {n maxTries : Nat} (hd : Drawn n pairs)
    (hall : ∀ l : List Nat, l.Perm (List.range n) → (cost l).isSome) :
    ∀ (fuel k : Nat) (s : State), s.best.Perm (List.range n) → cost s.best = some s.cost → loop cost pairs maxTries fuel k s ≠ .error
  | 0, _, _, _, _ => by simp [loop]
  | fuel + 1, k, s, hp, hc => by
    rw [loop]
    by_cases hlt : s.failed < maxTries
    · rw [if_pos hlt]
      obtain ⟨f1, f2, f3⟩ := family_chain (pairs k) s.best (hd k).2 (by rw [hp.length_eq, List.length_range])
      obtain ⟨t, ht⟩ := Option.isSome_iff_exists.1 (tryAll_some cost (family s.best (pairs k)) (s, false) fun o ho => hall o ((f3 o ho).trans hp))
      obtain ⟨t, ht⟩ : ∃ t, round cost s (pairs k) = some t := by
        unfold round
        rw [ht]
        exact ⟨_, rfl⟩
      rw [ht]
      obtain ⟨h1, h2, -⟩ := round_spec ht hc
      refine loop_noError hd hall fuel (k + 1) t ?_ h2
      rcases List.mem_cons.1 h1 with e | e
      · rw [e]; exact hp
      · exact (f3 _ e).trans hp
    · rw [if_neg hlt]
      simp

/-- **C95**: the order contains each operator once, it is at least as cheap as the order of the query and as every order that was tried;
if another order than that of the query is chosen then the last `5 * n` rounds have not found a cheaper one. -/
theorem C95_order {cost : List Nat → Option Nat} {pairs : Nat → List (Nat × Nat)} {fuel n : Nat} (hd : Drawn n pairs) (hn : 2 ≤ n)
    {r : List Nat} (h : optimize cost pairs fuel n = .ok r) :
    r.Perm (List.range n) ∧ ∃ runs c c0, Search cost (List.range n) runs r ∧ cost (List.range n) = some c0 ∧ cost r = some c ∧ c ≤ c0 ∧
      (∀ t ∈ runs, t.length = 4 ∧ ∀ x ∈ t, x.Perm (List.range n) ∧ ∃ e, cost x = some e ∧ c ≤ e) ∧ 5 * n ≤ runs.length ∧
      (r ≠ List.range n → ∃ before last, runs = before ++ last ∧ last.length = 5 * n) := by
  unfold optimize at h
  rw [if_neg (by omega), if_neg (by omega)] at h
  cases hc : cost (List.range n) with
  | none => rw [hc] at h; cases h
  | some c0 =>
    rw [hc] at h
    obtain ⟨h1, runs, h2, h3, ⟨c, h4, h5, h6⟩, h7⟩ := loop_spec hd fuel 0 ⟨List.range n, c0, 0⟩ r h (by simp) hc (by simp)
    refine ⟨h1, runs, c, c0, h2, rfl, h4, h5, fun t ht => ⟨?_, fun x hx => ⟨?_, h6 t ht x hx⟩⟩, by simpa using h3, fun hne => ?_⟩
    · clear h3 h6 h7 h
      have key : ∀ {l : List Nat} {runs : List (List (List Nat))} {r : List Nat}, Search cost l runs r → ∀ t ∈ runs, t.length = 4 := by
        intro l runs r hs
        induction hs with
        | stop => simp
        | round _ h _ _ _ _ _ _ ih =>
          intro t ht
          rcases List.mem_cons.1 ht with rfl | ht
          · exact h
          · exact ih t ht
      exact key h2 t ht
    · clear h3 h6 h7 h hc h4 h5 h1
      have hchain : ∀ {l : List Nat} {ts : List (List Nat)}, Chain l ts → ∀ m ∈ ts, m.Perm l := by
        intro l ts hch
        induction hch with
        | nil => simp
        | @cons l m r hx _ ih =>
          have hm : m.Perm l := by
            obtain ⟨a, b, hab, hb, hlen, e1, e2, e3⟩ := hx
            have ha : a < l.length := by omega
            have : m = swapAt l a b := by
              obtain ⟨s1, s2, s3, s4⟩ := swapAt_spec (Nat.ne_of_lt hab) ha hb
              refine List.ext_getElem? fun i => ?_
              by_cases hi : i = a
              · rw [hi, e1, s2]
              · by_cases hj : i = b
                · rw [hj, e2, s3]
                · rw [e3 i hi hj, s4 i hi hj]
            rw [this]
            exact swapAt_perm (Nat.ne_of_lt hab) ha hb
          intro x hx
          rcases List.mem_cons.1 hx with rfl | hx
          · exact hm
          · exact (ih x hx).trans hm
      have key : ∀ {l : List Nat} {runs : List (List (List Nat))} {r : List Nat}, Search cost l runs r → ∀ t ∈ runs, ∀ x ∈ t, x.Perm l := by
        intro l runs r hs
        induction hs with
        | stop => simp
        | @round l m c d tried rest r hch _ _ _ hm _ _ _ ih =>
          have hml : m.Perm l := by
            rcases List.mem_cons.1 hm with rfl | hm
            · exact .refl _
            · exact hchain hch m hm
          intro t ht x hx
          rcases List.mem_cons.1 ht with rfl | ht
          · exact hchain hch x hx
          · exact (ih t ht x hx).trans hml
      exact key h2 t ht x hx
    · rcases h7 with ⟨-, e⟩ | h7
      · exact absurd e hne
      · exact h7

/-- **C95**: if every order has a plan then the search ends with an order after at most `cost * (5 * n + 1) + 5 * n` rounds, whatever the
random numbers are. -/
theorem C95_terminates {cost : List Nat → Option Nat} {pairs : Nat → List (Nat × Nat)} {n : Nat} (hd : Drawn n pairs)
    (hall : ∀ l : List Nat, l.Perm (List.range n) → (cost l).isSome) :
    ∃ bound, ∀ fuel, bound < fuel → ∃ r, optimize cost pairs fuel n = .ok r := by
  obtain ⟨c, hc⟩ := Option.isSome_iff_exists.1 (hall _ (.refl _))
  refine ⟨c * (5 * n + 1) + 5 * n, fun fuel hf => ?_⟩
  unfold optimize
  split
  · exact ⟨_, rfl⟩
  split
  · exact ⟨_, rfl⟩
  rw [hc]
  simp only
  have h1 := loop_ends (cost := cost) (pairs := pairs) (maxTries := 5 * n) fuel 0 ⟨List.range n, c, 0⟩ hc (by simp) (by simpa using hf)
  have h2 := loop_noError hd (maxTries := 5 * n) hall fuel 0 ⟨List.range n, c, 0⟩ (.refl _) hc
  cases h : loop cost pairs (5 * n) fuel 0 ⟨List.range n, c, 0⟩ with
  | error => exact absurd h h2
  | tooShort => exact absurd h h1
  | ok r => exact ⟨r, rfl⟩

/-- For less than two operators nothing is searched. -/
theorem C95_small {cost : List Nat → Option Nat} {pairs : Nat → List (Nat × Nat)} {fuel n : Nat} (hn : n < 2) :
    optimize cost pairs fuel n = .ok (List.range n) := by
  match n, hn with
  | 0, _ => rfl
  | 1, _ => rfl

/-- The number of rounds is not more than needed: a larger bound gives the same order. -/
theorem loop_mono {cost : List Nat → Option Nat} {pairs : Nat → List (Nat × Nat)} {maxTries : Nat} :
    ∀ (fuel more k : Nat) (s : State), loop cost pairs maxTries fuel k s ≠ .tooShort →
      loop cost pairs maxTries (fuel + more) k s = loop cost pairs maxTries fuel k s
  | 0, _, _, _, h => absurd rfl h
  | fuel + 1, more, k, s, h => by
    rw [show fuel + 1 + more = (fuel + more) + 1 by omega, loop, loop]
    rw [loop] at h
    by_cases hlt : s.failed < maxTries
    · rw [if_pos hlt, if_pos hlt]
      rw [if_pos hlt] at h
      cases hr : round cost s (pairs k) with
      | none => rfl
      | some t =>
        rw [hr] at h
        exact loop_mono fuel more (k + 1) t h
    · rw [if_neg hlt, if_neg hlt]

/-! ### The answers -/

section
variable {N K E : Type} [DecidableEq N] [DecidableEq K]

/-- The operators in the chosen order are a permutation of the operators. -/
theorem chosen_perm {α : Type} (ops : List α) {cost : List Nat → Option Nat} {pairs : Nat → List (Nat × Nat)} {fuel : Nat}
    (hd : Drawn ops.length pairs) {order : List Nat} (h : optimize cost pairs fuel ops.length = .ok order) :
    (order.filterMap (ops[·]?)).Perm ops := by
  have hp : order.Perm (List.range ops.length) := by
    by_cases hn : 2 ≤ ops.length
    · exact (C95_order hd hn h).1
    · rw [C95_small (by omega)] at h
      cases h
      exact .refl _
  have e : (List.range ops.length).filterMap (ops[·]?) = ops := by
    clear h hp hd
    induction ops using List.reverseRecOn with
    | nil => rfl
    | append_singleton l a ih =>
      rw [List.length_append, List.length_singleton, List.range_succ, List.filterMap_append]
      have : (List.range l.length).filterMap ((l ++ [a])[·]?) = (List.range l.length).filterMap (l[·]?) :=
        List.filterMap_congr fun i hi => by rw [List.getElem?_append_left (List.mem_range.1 hi)]
      rw [this, ih]
      simp
  calc order.filterMap (ops[·]?) |>.Perm ((List.range ops.length).filterMap (ops[·]?)) := hp.filterMap _
    _ |>.Perm ops := by rw [e]

/-- **C95** with **C61**: the plan of the chosen order gives the answers of the query, if no operator demands that matches differ which are
not its operands (the hypothesis of C61). -/
theorem C95_answers_partial (d : SMatch N K) (searches : List (Option (List (SMatch N K) × Option (NsDesc N K E))))
    (H : QOp N K E → SMatch N K → SMatch N K → Bool) (ops : List (QOp N K E))
    (hok : ∀ o ∈ ops, OpOk (candidatesOf d searches) (descOf searches) (H o) o)
    (hin : ∀ o ∈ ops, o.left ∈ mandatory searches ∧ o.right ∈ mandatory searches) (hne : mandatory searches ≠ [])
    (binding : QOp N K E → Bool) (offset : Nat) (hconn : checkConnected (shapeOf searches ops binding offset) = true)
    {cost : List Nat → Option Nat} {pairs : Nat → List (Nat × Nat)} {fuel : Nat} (hd : Drawn ops.length pairs) {order : List Nat}
    (h : optimize cost pairs fuel ops.length = .ok order) :
    (∃ e, MakePlan searches (order.filterMap (ops[·]?)) e) ∧
    ∀ e, MakePlan searches (order.filterMap (ops[·]?)) e →
      ∃ rows : List (Row N K), e.rows.map (reorderMatch d (inversePos e.pos)) = rows.map some ∧ rows.Perm (answers d searches H ops) := by
  exact C61_join_order_partial d searches H ops hok hin hne binding offset hconn _ (chosen_perm ops hd h)

/-- **C95** with **C61**: whatever the operators say about reflexivity, the plan of the chosen order gives answers of the query, none too
often, and all answers with pairwise distinct matches. -/
theorem C95_between (d : SMatch N K) (searches : List (Option (List (SMatch N K) × Option (NsDesc N K E))))
    (H : QOp N K E → SMatch N K → SMatch N K → Bool) (ops : List (QOp N K E))
    (hok : ∀ o ∈ ops, OpOk (candidatesOf d searches) (descOf searches) (H o) o true)
    (hin : ∀ o ∈ ops, o.left ∈ mandatory searches ∧ o.right ∈ mandatory searches) (hne : mandatory searches ≠ [])
    (binding : QOp N K E → Bool) (offset : Nat) (hconn : checkConnected (shapeOf searches ops binding offset) = true)
    {cost : List Nat → Option Nat} {pairs : Nat → List (Nat × Nat)} {fuel : Nat} (hd : Drawn ops.length pairs) {order : List Nat}
    (h : optimize cost pairs fuel ops.length = .ok order) :
    (∃ e, MakePlan searches (order.filterMap (ops[·]?)) e) ∧
    ∀ e, MakePlan searches (order.filterMap (ops[·]?)) e →
      ∃ rows : List (Row N K), e.rows.map (reorderMatch d (inversePos e.pos)) = rows.map some ∧
        (distinctAnswers d searches H ops).Subperm rows ∧ rows.Subperm (answers d searches H ops) := by
  exact C61_between d searches H ops hok hin hne binding offset hconn _ (chosen_perm ops hd h)

end

/-- The cost of an order in the example: the position of operator 2. -/
def exCost (l : List Nat) : Option Nat := some (l.idxOf 2)

def exPairs (_ : Nat) : List (Nat × Nat) := [(0, 1), (1, 2), (0, 1), (2, 0)]

/-- A search which moves an expensive operator to the beginning. -/
theorem C95_nonvacuous : Drawn 3 exPairs ∧ (∀ l : List Nat, l.Perm (List.range 3) → (exCost l).isSome) ∧
    optimize exCost exPairs 100 3 = .ok [2, 1, 0] ∧ exCost [2, 1, 0] = some 0 ∧ exCost (List.range 3) = some 2 :=
  ⟨fun _ => by unfold exPairs; decide, fun _ _ => rfl, by decide +kernel, by decide, by decide⟩

end JoinOrder
