import Mathlib.Data.List.Chain
import Mathlib.Data.List.Nodup
import Mathlib.Logic.Relation
import Mathlib.Data.Nat.Find

/-!
# Walks and simple paths of a relation

Specification vocabulary that is shared by the graph storage properties.  Nothing here refers to the model.
-/

namespace Walk

variable {N : Type}

/-- `p` is a walk along `E` from `a` to `b` (listed with both ends). -/
def IsWalk (E : N → N → Prop) (a b : N) (p : List N) : Prop :=
  p.head? = some a ∧ p.getLast? = some b ∧ List.IsChain E p

/-- There is a path without repeated nodes and with `d` edges from `a` to `b`. -/
def SimplePath (E : N → N → Prop) (a b : N) (d : Nat) : Prop :=
  ∃ p, IsWalk E a b p ∧ p.Nodup ∧ p.length = d + 1

/-- There is a walk with `d` edges from `a` to `b`. -/
def WalkLen (E : N → N → Prop) (a b : N) (d : Nat) : Prop :=
  ∃ p, IsWalk E a b p ∧ p.length = d + 1

theorem SimplePath.walk {E : N → N → Prop} {a b : N} {d : Nat} (h : SimplePath E a b d) : WalkLen E a b d := by
  obtain ⟨p, hp, _, hl⟩ := h
  exact ⟨p, hp, hl⟩

theorem walkLen_zero {E : N → N → Prop} {a b : N} : WalkLen E a b 0 ↔ a = b := by
  constructor
  · rintro ⟨p, ⟨h1, h2, _⟩, hl⟩
    match p, hl with
    | [x], _ => simp at h1 h2; rw [← h1, ← h2]
  · rintro rfl
    exact ⟨[a], ⟨rfl, rfl, by simp⟩, rfl⟩

theorem walkLen_succ {E : N → N → Prop} {a b : N} {d : Nat} :
    WalkLen E a b (d + 1) ↔ ∃ c, E a c ∧ WalkLen E c b d := by
  constructor
  · rintro ⟨p, ⟨h1, h2, h3⟩, hl⟩
    match p, hl with
    | x :: y :: r, hl =>
      simp only [List.head?_cons, Option.some.injEq] at h1
      subst h1
      rw [List.isChain_cons_cons] at h3
      refine ⟨y, h3.1, y :: r, ⟨rfl, ?_, h3.2⟩, by simpa using hl⟩
      rw [← h2, List.getLast?_cons_cons]
  · rintro ⟨c, hc, p, ⟨h1, h2, h3⟩, hl⟩
    match p, hl with
    | y :: r, hl =>
      simp only [List.head?_cons, Option.some.injEq] at h1
      subst h1
      refine ⟨a :: y :: r, ⟨rfl, ?_, ?_⟩, by simpa using hl⟩
      · rw [← h2, List.getLast?_cons_cons]
      · rw [List.isChain_cons_cons]; exact ⟨hc, h3⟩

theorem reach_iff_walk {E : N → N → Prop} {a b : N} : Relation.ReflTransGen E a b ↔ ∃ d, WalkLen E a b d := by
  constructor
  · intro h
    induction h using Relation.ReflTransGen.head_induction_on with
    | refl => exact ⟨0, walkLen_zero.2 rfl⟩
    | head h _ ih =>
      obtain ⟨d, hd⟩ := ih
      exact ⟨d + 1, walkLen_succ.2 ⟨_, h, hd⟩⟩
  · rintro ⟨d, hd⟩
    induction d generalizing a with
    | zero => rw [walkLen_zero.1 hd]
    | succ d ih =>
      obtain ⟨c, hc, hw⟩ := walkLen_succ.1 hd
      exact Relation.ReflTransGen.head hc (ih hw)

/-- A shortest walk does not repeat a node. -/
theorem simple_of_shortest {E : N → N → Prop} {a b : N} {d : Nat} (h : WalkLen E a b d)
    (hmin : ∀ d', WalkLen E a b d' → d ≤ d') : SimplePath E a b d := by
  obtain ⟨p, hp, hl⟩ := h
  refine ⟨p, hp, ?_, hl⟩
  by_contra hnd
  rw [List.nodup_iff_pairwise_ne, List.pairwise_iff_getElem] at hnd
  push Not at hnd
  obtain ⟨i, j, hi, hj, hij, heq⟩ := hnd
  -- cut out the part between the two occurrences
  have hchain := hp.2.2
  have hq : WalkLen E a b (d - (j - i)) := by
    refine ⟨p.take i ++ p.drop j, ⟨?_, ?_, ?_⟩, ?_⟩
    · by_cases h0 : i = 0
      · subst h0
        simp only [List.take_zero, List.nil_append]
        rw [List.head?_drop, List.getElem?_eq_getElem hj, ← heq, ← hp.1, List.head?_eq_getElem?,
          List.getElem?_eq_getElem hi]
      · rw [List.head?_append, List.head?_take]
        simp only [h0, if_false]
        rw [hp.1]; rfl
    · rw [List.getLast?_append, List.getLast?_drop]
      rw [if_neg (by omega), hp.2.1]; rfl
    · rw [List.isChain_append]
      refine ⟨hchain.take i, hchain.drop j, ?_⟩
      intro x hx y hy
      rw [List.getLast?_take] at hx
      by_cases h0 : i = 0
      · simp [h0] at hx
      · simp only [h0, if_false] at hx
        rw [List.getElem?_eq_getElem (by omega)] at hx
        rw [List.head?_drop, List.getElem?_eq_getElem hj, ← heq] at hy
        simp at hx hy
        subst hx hy
        have := List.isChain_iff_getElem.1 hchain (i - 1) (by omega)
        have e : i - 1 + 1 = i := by omega
        simp only [e] at this
        exact this
    · simp only [List.length_append, List.length_take, List.length_drop]; omega
  have := hmin _ hq
  omega

/-- Reachability is reachability by a simple path. -/
theorem reach_iff_simple {E : N → N → Prop} {a b : N} : Relation.ReflTransGen E a b ↔ ∃ d, SimplePath E a b d := by
  constructor
  · intro h
    have hex := reach_iff_walk.1 h
    classical
    exact ⟨Nat.find hex, simple_of_shortest (Nat.find_spec hex) (fun d' hd => Nat.find_min' hex hd)⟩
  · rintro ⟨d, hd⟩
    exact reach_iff_walk.2 ⟨d, hd.walk⟩

/-- Turn a path around. -/
theorem simplePath_flip {E : N → N → Prop} {a b : N} {d : Nat} :
    SimplePath (fun x y => E y x) b a d ↔ SimplePath E a b d := by
  have key : ∀ (E : N → N → Prop) (a b : N), SimplePath E a b d → SimplePath (fun x y => E y x) b a d := by
    rintro E a b ⟨p, ⟨h1, h2, h3⟩, hn, hl⟩
    refine ⟨p.reverse, ⟨?_, ?_, ?_⟩, ?_, ?_⟩
    · rw [List.head?_reverse, h2]
    · rw [List.getLast?_reverse, h1]
    · rw [List.isChain_reverse]; exact h3
    · rw [List.nodup_reverse]; exact hn
    · simpa using hl
  exact ⟨key (fun x y => E y x) b a, key E a b⟩

/-- The relation has no cycle. -/
def Acyclic (E : N → N → Prop) : Prop := ∀ a, ¬ Relation.TransGen E a a

/-- In an acyclic relation every walk is a simple path. -/
theorem simple_of_acyclic {E : N → N → Prop} (hac : Acyclic E) {a b : N} {d : Nat} (h : WalkLen E a b d) :
    SimplePath E a b d := by
  obtain ⟨p, hp, hl⟩ := h
  refine ⟨p, hp, ?_, hl⟩
  have hch : List.IsChain (Relation.TransGen E) p := hp.2.2.imp (fun _ _ h => Relation.TransGen.single h)
  have hpw : p.Pairwise (Relation.TransGen E) := List.isChain_iff_pairwise.1 hch
  rw [List.nodup_iff_pairwise_ne]
  exact hpw.imp (fun {x y} h e => by subst e; exact hac _ h)

end Walk
