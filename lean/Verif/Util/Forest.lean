import Verif.Util.Walk
import Mathlib.Data.List.Perm.Subperm

/-!
# Further facts about walks: composition, determinism, roots of finite acyclic relations
-/

namespace Walk

variable {N : Type} {E : N → N → Prop}

/-- Every node has at most one successor. -/
def Functional (E : N → N → Prop) : Prop := ∀ x y z, E x y → E x z → y = z

/-- Every node has at most one predecessor. -/
def InjectiveRel (E : N → N → Prop) : Prop := ∀ x y z, E x z → E y z → x = y

theorem walkLen_add {a b : N} {i j : Nat} : WalkLen E a b (i + j) ↔ ∃ c, WalkLen E a c i ∧ WalkLen E c b j := by
  induction i generalizing a with
  | zero =>
    rw [Nat.zero_add]
    constructor
    · intro h; exact ⟨a, walkLen_zero.2 rfl, h⟩
    · rintro ⟨c, h1, h2⟩; rw [walkLen_zero.1 h1]; exact h2
  | succ i ih =>
    have e : i + 1 + j = (i + j) + 1 := by omega
    rw [e, walkLen_succ]
    constructor
    · rintro ⟨c, hc, hw⟩
      obtain ⟨x, h1, h2⟩ := ih.1 hw
      exact ⟨x, walkLen_succ.2 ⟨c, hc, h1⟩, h2⟩
    · rintro ⟨x, h1, h2⟩
      obtain ⟨c, hc, hw⟩ := walkLen_succ.1 h1
      exact ⟨c, hc, ih.2 ⟨x, hw, h2⟩⟩

theorem walkLen_one {a b : N} : WalkLen E a b 1 ↔ E a b := by
  rw [walkLen_succ]
  constructor
  · rintro ⟨c, hc, hw⟩; rw [← walkLen_zero.1 hw]; exact hc
  · intro h; exact ⟨b, h, walkLen_zero.2 rfl⟩

theorem walkLen_snoc {a b : N} {d : Nat} : WalkLen E a b (d + 1) ↔ ∃ c, WalkLen E a c d ∧ E c b := by
  rw [walkLen_add]
  simp only [walkLen_one]

theorem walk_functional (hf : Functional E) {a b c : N} {d : Nat} (h1 : WalkLen E a b d) (h2 : WalkLen E a c d) : b = c := by
  induction d generalizing b c with
  | zero => rw [← walkLen_zero.1 h1, ← walkLen_zero.1 h2]
  | succ d ih =>
    obtain ⟨x, hx, hxb⟩ := walkLen_snoc.1 h1
    obtain ⟨y, hy, hyc⟩ := walkLen_snoc.1 h2
    rw [ih hx hy] at hxb
    exact hf _ _ _ hxb hyc

theorem walk_injective (hf : InjectiveRel E) {a b c : N} {d : Nat} (h1 : WalkLen E a c d) (h2 : WalkLen E b c d) : a = b := by
  induction d generalizing a b with
  | zero => rw [walkLen_zero.1 h1, walkLen_zero.1 h2]
  | succ d ih =>
    obtain ⟨x, hx, hxb⟩ := walkLen_succ.1 h1
    obtain ⟨y, hy, hyc⟩ := walkLen_succ.1 h2
    rw [ih hxb hyc] at hx
    exact hf _ _ _ hx hy

theorem transGen_of_walk {a b : N} {d : Nat} (hd : 0 < d) (h : WalkLen E a b d) : Relation.TransGen E a b := by
  obtain ⟨e, rfl⟩ : ∃ e, d = e + 1 := ⟨d - 1, by omega⟩
  obtain ⟨c, hc, hw⟩ := walkLen_succ.1 h
  exact Relation.TransGen.head' hc (reach_iff_walk.2 ⟨e, hw⟩)

theorem walk_self (hac : Acyclic E) {a : N} {d : Nat} (h : WalkLen E a a d) : d = 0 := by
  by_contra hd
  exact hac a (transGen_of_walk (by omega) h)

/-- In an acyclic relation whose targets are all in `V`, walks have at most `V.length` edges. -/
theorem walk_le (hac : Acyclic E) {V : List N} (hV : ∀ a b, E a b → b ∈ V) {a b : N} {d : Nat} (h : WalkLen E a b d) :
    d ≤ V.length := by
  classical
  obtain ⟨p, hw, hn, hl⟩ := simple_of_acyclic hac h
  cases p with
  | nil => simp at hl
  | cons x t =>
    have hsub : t ⊆ V := by
      intro y hy
      obtain ⟨i, hi, rfl⟩ := List.getElem_of_mem hy
      have := List.isChain_iff_getElem.1 hw.2.2 i (by simp; omega)
      exact hV _ _ this
    have := ((List.nodup_cons.1 hn).2.subperm hsub).length_le
    simp at hl
    omega

/-- Every node of a finite acyclic relation is reachable from a node without predecessor. -/
theorem exists_root (hac : Acyclic E) {V : List N} (hV : ∀ a b, E a b → b ∈ V) (b : N) :
    ∃ r d, WalkLen E r b d ∧ ¬ ∃ x, E x r := by
  by_contra hno
  push Not at hno
  have hall : ∀ n, ∃ a, WalkLen E a b n := by
    intro n
    induction n with
    | zero => exact ⟨b, walkLen_zero.2 rfl⟩
    | succ n ih =>
      obtain ⟨a, ha⟩ := ih
      obtain ⟨x, hx⟩ := hno a n ha
      exact ⟨x, walkLen_succ.2 ⟨a, hx, ha⟩⟩
  obtain ⟨a, ha⟩ := hall (V.length + 1)
  have := walk_le hac hV ha
  omega

/-- With at most one predecessor per node, root and depth of a node are unique. -/
theorem root_unique (hi : InjectiveRel E) {r r' b : N} {d d' : Nat} (h : WalkLen E r b d) (h' : WalkLen E r' b d')
    (hr : ¬ ∃ x, E x r) (hr' : ¬ ∃ x, E x r') : r = r' ∧ d = d' := by
  have key : ∀ {r r' : N} {d d' : Nat}, WalkLen E r b d → WalkLen E r' b d' → (¬ ∃ x, E x r) → d ≤ d' → r = r' ∧ d = d' := by
    intro r r' d d' h h' hr hle
    obtain ⟨k, rfl⟩ := Nat.exists_eq_add_of_le hle
    rw [Nat.add_comm] at h'
    obtain ⟨c, h1, h2⟩ := walkLen_add.1 h'
    have hc := walk_injective hi h h2
    subst hc
    cases k with
    | zero => exact ⟨(walkLen_zero.1 h1).symm, by omega⟩
    | succ k =>
      obtain ⟨x, _, hx⟩ := walkLen_snoc.1 h1
      exact absurd ⟨x, hx⟩ hr
  rcases Nat.le_total d d' with hle | hle
  · exact key h h' hr hle
  · obtain ⟨a, b⟩ := key h' h hr' hle
    exact ⟨a.symm, b.symm⟩

/-- Relative position of two nodes below the same root, if every node has at most one successor. -/
theorem walk_between (hf : Functional E) {r a b : N} {i j : Nat} (ha : WalkLen E r a i) (hb : WalkLen E r b (i + j)) :
    WalkLen E a b j := by
  obtain ⟨c, h1, h2⟩ := walkLen_add.1 hb
  rw [walk_functional hf ha h1]; exact h2

end Walk
