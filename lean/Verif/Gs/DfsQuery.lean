import Verif.Adj.Props

/-!
# Queries that are answered with a traversal, for any neighbour function

Shared by the storages that implement `find_connected`, `find_connected_inverse`, `distance` and `is_connected` with
`CycleSafeDFS`.
-/

set_option linter.unusedSimpArgs false
set_option linter.unusedSectionVars false

namespace DfsQuery

variable {N : Type} [LinearOrder N] [U64 N]

theorem max_some {max : Bnd Nat} (hmax : max ≠ .excluded 0) : ∃ m, maxDistance max = some m := by
  cases max with
  | unbounded => exact ⟨_, rfl⟩
  | included k => exact ⟨_, rfl⟩
  | excluded k =>
    have : k ≠ 0 := fun e => hmax (by rw [e])
    exact ⟨k - 1, by simp [maxDistance, this]⟩

section
variable {next : N → List N} {V : List N} (hV : ∀ a c, c ∈ next a → c ∈ V) {E : N → N → Prop}
  (hE : ∀ a b, b ∈ next a ↔ E a b) (inv : Bool)
include hV hE

theorem mem_steps (a b : N) (min d m : Nat) :
    (b, d) ∈ Dfs.steps next V a min m inv ↔ Walk.SimplePath E a b d ∧ min ≤ d ∧ d ≤ m := by
  rw [Dfs.C10_steps min m a inv hV, Adj.simplePath_congr (E := Dfs.Edge next) (fun x y => hE x y)]

theorem mem_firstVisits_steps (a : N) (min m : Nat) (max : Bnd Nat) (hm : maxDistance max = some m) (b : N) :
    b ∈ firstVisits [] (Dfs.steps next V a min m inv) ↔ ∃ d, Walk.SimplePath E a b d ∧ Within min max d := by
  rw [mem_firstVisits]
  simp only [List.not_mem_nil, not_false_eq_true, true_and, mem_steps hV hE inv]
  constructor
  · rintro ⟨d, hp, hc⟩; exact ⟨d, hp, (Adj.within_max hm (Adj.simplePath_le hp)).1 hc⟩
  · rintro ⟨d, hp, hc⟩; exact ⟨d, hp, (Adj.within_max hm (Adj.simplePath_le hp)).2 hc⟩

theorem any_steps (a b : N) (min m : Nat) (max : Bnd Nat) (hm : maxDistance max = some m) :
    ((Dfs.steps next V a min m inv).any fun x => b = x.1) = true ↔ ∃ d, Walk.SimplePath E a b d ∧ Within min max d := by
  rw [List.any_eq_true]
  constructor
  · rintro ⟨⟨n, d⟩, hp, hc⟩
    simp only [decide_eq_true_eq] at hc
    subst hc
    rw [mem_steps hV hE inv] at hp
    exact ⟨d, hp.1, (Adj.within_max hm (Adj.simplePath_le hp.1)).1 hp.2⟩
  · rintro ⟨d, hp, hc⟩
    exact ⟨(b, d), (mem_steps hV hE inv a b min d m).2 ⟨hp, (Adj.within_max hm (Adj.simplePath_le hp)).2 hc⟩, by simp⟩

theorem find_steps (a b : N) :
    ((((Dfs.steps next V a 0 usizeMax inv).find? fun x => b = x.1).map fun x => x.2) = none ↔ ¬ ∃ d, Walk.SimplePath E a b d) ∧
    ∀ d, (((Dfs.steps next V a 0 usizeMax inv).find? fun x => b = x.1).map fun x => x.2) = some d → Walk.SimplePath E a b d := by
  constructor
  · rw [Option.map_eq_none_iff, List.find?_eq_none]
    constructor
    · rintro h ⟨d, hp⟩
      have := h (b, d) ((mem_steps hV hE inv a b 0 d usizeMax).2 ⟨hp, Nat.zero_le _, Adj.simplePath_le hp⟩)
      simp at this
    · rintro h ⟨n, d⟩ hx
      simp only [decide_eq_true_eq]
      rintro rfl
      exact h ⟨d, ((mem_steps hV hE inv a b 0 d usizeMax).1 hx).1⟩
  · intro d hd
    rw [Option.map_eq_some_iff] at hd
    obtain ⟨⟨n, e⟩, hf, rfl⟩ := hd
    have h1 := List.mem_of_find?_eq_some hf
    have h2 := List.find?_some hf
    simp only [decide_eq_true_eq] at h2
    subst h2
    exact ((mem_steps hV hE inv a b 0 e usizeMax).1 h1).1

end

end DfsQuery
