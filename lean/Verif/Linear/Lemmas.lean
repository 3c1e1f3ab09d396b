import Verif.Linear.Model
import Verif.Adj.Props
import Verif.Gs.SourceLemmas
import Verif.Util.Forest

/-!
# Helper lemmas for the linear storage
-/

set_option linter.unusedSimpArgs false
set_option linter.unusedSectionVars false

namespace Dfs

variable {N : Type} [DecidableEq N]

/-- If every node has at most one successor, the traversal reports increasing distances. -/
theorem dist_of_functional {next : N → List N} (hone : ∀ a, (next a).length ≤ 1) (min max : Nat) :
    ∀ (k : Nat) (p : List N) (node : N) (i : Nat) (x : N × Nat), min ≤ p.length →
      ((subPaths next max k p node).filterMap (report min max))[i]? = some x → x.2 = p.length + i := by
  intro k
  induction k with
  | zero => intro p node i x _ h; simp [subPaths] at h
  | succ k ih =>
    intro p node i x hm h
    unfold subPaths at h
    by_cases hmem : node ∈ p
    · simp [hmem] at h
    · simp only [hmem, if_false] at h
      have hr : report min max (p ++ [node]) =
          if min ≤ p.length ∧ p.length ≤ max then some (node, p.length) else none := by
        unfold report; simp
      rw [List.filterMap_cons, hr] at h
      by_cases hc : p.length ≤ max
      · rw [if_pos ⟨hm, hc⟩] at h
        simp only at h
        cases i with
        | zero => simp at h; rw [← h]; simp
        | succ i =>
          rw [List.getElem?_cons_succ] at h
          by_cases hlt : p.length < max
          · rw [if_pos hlt] at h
            have h1 := hone node
            cases hn : next node with
            | nil => rw [hn] at h; simp at h
            | cons c r =>
              rw [hn] at h1
              have : r = [] := by cases r with | nil => rfl | cons _ _ => simp at h1
              subst this
              rw [hn] at h
              simp only [List.reverse_cons, List.reverse_nil, List.nil_append, List.flatMap_cons, List.flatMap_nil,
                List.append_nil] at h
              have := ih (p ++ [node]) c i x (by simp; omega) h
              rw [this]; simp; omega
          · rw [if_neg hlt] at h; simp at h
      · rw [if_neg (by tauto), if_neg (by omega)] at h
        simp at h

theorem steps_dist {next : N → List N} {V : List N} (hV : Covers V next) (hone : ∀ a, (next a).length ≤ 1) (max : Nat)
    (start : N) (i : Nat) (x : N × Nat) (h : (steps next V start 1 max)[i]? = some x) : x.2 = i + 1 := by
  rw [steps_eq 1 max start false hV, List.length_cons] at h
  unfold subPaths at h
  simp only [List.not_mem_nil, if_false, List.nil_append, List.length_nil] at h
  have hr : report 1 max [start] = none := by simp [report]
  rw [List.filterMap_cons, hr] at h
  simp only at h
  by_cases hlt : 0 < max
  · rw [if_pos hlt] at h
    have h1 := hone start
    cases hn : next start with
    | nil => rw [hn] at h; simp at h
    | cons c r =>
      rw [hn] at h1
      have : r = [] := by cases r with | nil => rfl | cons _ _ => simp at h1
      subst this
      rw [hn] at h
      simp only [List.reverse_cons, List.reverse_nil, List.nil_append, List.flatMap_cons, List.flatMap_nil,
        List.append_nil] at h
      have := dist_of_functional hone 1 max _ [start] c i x (by simp) h
      rw [this]; simp; omega
  · rw [if_neg hlt] at h; simp at h

end Dfs

namespace Source

variable {N S W : Type} [LinearOrder N] [LinearOrder S] [OrderBot S] [LinearOrder W]

theorem Is.dcovers {o : Source N S W} {E : N → N → Prop} {A : N → N → AnnoKey S → Option W} (h : o.Is E A) :
    Dfs.Covers o.nodes o.out := fun a c hc => h.covers a c ((h.out_iff a c).1 hc)

theorem Is.mem_steps [U64 N] {o : Source N S W} {E : N → N → Prop} {A : N → N → AnnoKey S → Option W} (h : o.Is E A)
    (a b : N) (min max d : Nat) :
    (b, d) ∈ Dfs.steps o.out o.nodes a min max ↔ Walk.SimplePath E a b d ∧ min ≤ d ∧ d ≤ max := by
  rw [Dfs.C10_steps min max a false h.dcovers, Adj.simplePath_congr (E := Dfs.Edge o.out) (fun x y => h.out_iff x y)]

theorem Is.out_length {o : Source N S W} {E : N → N → Prop} {A : N → N → AnnoKey S → Option W} (h : o.Is E A)
    (hf : Walk.Functional E) (a : N) : (o.out a).length ≤ 1 := by
  have hn := h.out_nodup a
  have hi := h.out_iff a
  cases hl : o.out a with
  | nil => simp
  | cons x r =>
    cases r with
    | nil => simp
    | cons y r =>
      rw [hl] at hn hi
      have := hf a x y ((hi x).1 (by simp)) ((hi y).1 (by simp))
      subst this
      simp at hn

end Source

namespace Linear

variable {N S W : Type} [LinearOrder N] [LinearOrder S] [OrderBot S] [LinearOrder W]
variable {o : Source N S W} {E : N → N → Prop} {A : N → N → AnnoKey S → Option W}

/-- The chain built for a root. -/
def chainOf (o : Source N S W) (r : N) : List N := r :: (Dfs.steps o.out o.nodes r 1 usizeMax).map fun s => s.1

theorem chainOf_get [U64 N] (h : o.Is E A) (hf : Walk.Functional E) (hac : Walk.Acyclic E) (r b : N) (d : Nat) :
    (chainOf o r)[d]? = some b ↔ Walk.WalkLen E r b d := by
  cases d with
  | zero => simp [chainOf, Walk.walkLen_zero]
  | succ i =>
    unfold chainOf
    rw [List.getElem?_cons_succ, List.getElem?_map]
    constructor
    · intro hx
      rw [Option.map_eq_some_iff] at hx
      obtain ⟨⟨n, e⟩, hx, rfl⟩ := hx
      have := Dfs.steps_dist h.dcovers (h.out_length hf) usizeMax r i _ hx
      simp only at this
      subst this
      exact ((h.mem_steps r n 1 usizeMax (i + 1)).1 (List.mem_of_getElem? hx)).1.walk
    · intro hw
      have hs := Walk.simple_of_acyclic hac hw
      have hm := (h.mem_steps r b 1 usizeMax (i + 1)).2 ⟨hs, by omega, Adj.simplePath_le hs⟩
      obtain ⟨j, hj⟩ := List.mem_iff_getElem?.1 hm
      have := Dfs.steps_dist h.dcovers (h.out_length hf) usizeMax r j _ hj
      simp only at this
      have : i = j := by omega
      subst this
      rw [hj]; rfl

theorem foldl_copyStep (cap : Nat) (root : N) (l : List N) : ∀ (m : OMap N (N × Nat)) (c : List N), m.Sorted →
    c.length + l.length ≤ cap + 1 → l.Nodup →
    (l.foldl (copyStep cap root) (m, c)).2 = c ++ l ∧ (l.foldl (copyStep cap root) (m, c)).1.Sorted ∧
    ∀ n, (l.foldl (copyStep cap root) (m, c)).1.get n =
      if n ∈ l then some (root, c.length + l.idxOf n) else m.get n := by
  induction l with
  | nil => intro m c hs _ _; exact ⟨by simp, hs, by simp⟩
  | cons x r ih =>
    intro m c hs hl hn
    simp only [List.length_cons] at hl
    rw [List.nodup_cons] at hn
    simp only [List.foldl_cons]
    have e : copyStep cap root (m, c) x = (m.insert x (root, c.length), c ++ [x]) := by
      unfold copyStep
      rw [if_pos (by simp only; omega)]
    rw [e]
    obtain ⟨i1, i2, i3⟩ := ih (m.insert x (root, c.length)) (c ++ [x]) (OMap.sorted_insert hs _ _)
      (by rw [List.length_append, List.length_singleton]; omega) hn.2
    refine ⟨by rw [i1]; simp, i2, ?_⟩
    intro n
    rw [i3]
    by_cases hnr : n ∈ r
    · have hne : x ≠ n := fun e => hn.1 (e ▸ hnr)
      have hb : (x == n) = false := by simp [hne]
      rw [if_pos hnr, if_pos (by simp [hnr]), List.idxOf_cons, hb]
      simp only [cond_false, List.length_append, List.length_singleton]
      congr 2; omega
    · rw [if_neg hnr, OMap.get_insert]
      by_cases hnx : n = x
      · subst hnx; simp
      · simp [hnx, hnr]

/-- What a copied storage contains. -/
structure Rep (g : Linear N S W) (E : N → N → Prop) (A : N → N → AnnoKey S → Option W) (R : N → Prop) : Prop where
  cs : g.chains.Sorted
  ps : g.nodeToPos.Sorted
  pos : ∀ n r d, g.nodeToPos.get n = some (r, d) ↔ R r ∧ Walk.WalkLen E r n d
  chain : ∀ r c, g.chains.get r = some c → R r ∧ ∀ d b, c[d]? = some b ↔ Walk.WalkLen E r b d
  root : ∀ r, R r → ∃ c, g.chains.get r = some c
  anno : g.annos.Inv
  val : ∀ a b k, g.annos.getValue (toLex (a, b)) k = if (g.nodeToPos.get a).isSome then A a b k else none

/-- The structural requirement: the component is a disjoint union of chains. -/
structure Chains (E : N → N → Prop) : Prop where
  fn : Walk.Functional E
  inj : Walk.InjectiveRel E
  ac : Walk.Acyclic E

theorem chainOf_nodup [U64 N] (h : o.Is E A) (hE : Chains E) (r : N) : (chainOf o r).Nodup := by
  rw [List.nodup_iff_pairwise_ne, List.pairwise_iff_getElem]
  intro i j hi hj hij heq
  have h1 := (chainOf_get h hE.fn hE.ac r _ i).1 (List.getElem?_eq_getElem hi)
  have h2 := (chainOf_get h hE.fn hE.ac r _ j).1 (List.getElem?_eq_getElem hj)
  rw [← heq] at h2
  obtain ⟨k, rfl⟩ := Nat.exists_eq_add_of_lt hij
  rw [Nat.add_assoc] at h2
  have := Walk.walk_between hE.fn h1 h2
  have := Walk.walk_self hE.ac this
  omega

theorem chainOf_length [U64 N] (h : o.Is E A) (hE : Chains E) {cap : Nat} (hcap : ∀ a b d, Walk.WalkLen E a b d → d < cap)
    (r : N) : (chainOf o r).length ≤ cap := by
  have hpos : 0 < (chainOf o r).length := by simp [chainOf]
  have hl := (chainOf_get h hE.fn hE.ac r _ ((chainOf o r).length - 1)).1 (List.getElem?_eq_getElem (by omega))
  have := hcap _ _ _ hl
  omega

theorem copyRoot_rep [U64 N] (h : o.Is E A) (hE : Chains E) {cap : Nat} (hcap : ∀ a b d, Walk.WalkLen E a b d → d < cap)
    {g : Linear N S W} {R : N → Prop} (hg : Rep g E A R) {root : N} (hroot : ¬ ∃ x, E x root)
    (hR : ∀ r, R r → ¬ ∃ x, E x r) (hnot : ¬ R root) :
    Rep (copyRoot cap o g root) E A (fun r => R r ∨ r = root) := by
  have hch : ∀ d b, (chainOf o root)[d]? = some b ↔ Walk.WalkLen E root b d := fun d b =>
    chainOf_get h hE.fn hE.ac root b d
  have hnd := chainOf_nodup h hE root
  have hlen := chainOf_length h hE hcap root
  obtain ⟨l, hl⟩ : ∃ l, l = (Dfs.steps o.out o.nodes root 1 usizeMax).map fun s => s.1 := ⟨_, rfl⟩
  have hcl : chainOf o root = root :: l := by rw [hl]; rfl
  rw [hcl] at hch hnd hlen
  rw [List.nodup_cons] at hnd
  simp only [List.length_cons] at hlen
  obtain ⟨f1, f2, f3⟩ := foldl_copyStep cap root l (g.nodeToPos.insert root (root, 0)) [root]
    (OMap.sorted_insert hg.ps _ _) (by simp; omega) hnd.2
  have hdef : copyRoot cap o g root =
      ⟨(l.foldl (copyStep cap root) (g.nodeToPos.insert root (root, 0), [root])).1,
        g.chains.insert root (root :: l), (root :: l).foldl (fun s a => o.copyNodeAnnos s a) g.annos⟩ := by
    unfold copyRoot
    simp only [← hl, f1]
    rfl
  -- positions
  have hpos : ∀ n, (copyRoot cap o g root).nodeToPos.get n =
      if n ∈ root :: l then some (root, (root :: l).idxOf n) else g.nodeToPos.get n := by
    intro n
    rw [hdef]
    simp only
    rw [f3, OMap.get_insert]
    by_cases hnr : n = root
    · subst hnr; rw [if_neg hnd.1]; simp
    · by_cases hnl : n ∈ l
      · have hb : (root == n) = false := by rw [beq_eq_false_iff_ne]; exact fun e => hnr e.symm
        rw [if_pos hnl, if_pos (by simp [hnl]), List.idxOf_cons, hb]
        simp only [cond_false, List.length_singleton]
        congr 2; omega
      · simp [hnr, hnl]
  have hmem : ∀ n, n ∈ root :: l → Walk.WalkLen E root n ((root :: l).idxOf n) := by
    intro n hn
    rw [← hch]
    exact List.getElem?_idxOf hn
  have hval := Source.copyNodes_spec h (root :: l) hg.anno
  refine ⟨?_, ?_, ?_, ?_, ?_, ?_, ?_⟩
  · rw [hdef]; exact OMap.sorted_insert hg.cs _ _
  · rw [hdef]; exact f2
  · intro n r d
    rw [hpos]
    by_cases hn : n ∈ root :: l
    · rw [if_pos hn]
      have hw := hmem n hn
      constructor
      · intro e
        injection e with e
        injection e with e1 e2
        subst e1 e2
        exact ⟨Or.inr rfl, hw⟩
      · rintro ⟨hr, hwr⟩
        have hrr : ¬ ∃ x, E x r := by
          rcases hr with hr | rfl
          · exact hR r hr
          · exact hroot
        obtain ⟨rfl, rfl⟩ := Walk.root_unique hE.inj hw hwr hroot hrr
        rfl
    · rw [if_neg hn, hg.pos]
      constructor
      · rintro ⟨a, b⟩; exact ⟨Or.inl a, b⟩
      · rintro ⟨a | rfl, b⟩
        · exact ⟨a, b⟩
        · exact absurd (List.mem_of_getElem? ((hch d n).2 b)) hn
  · intro r c
    rw [hdef]
    simp only
    rw [OMap.get_insert]
    by_cases hr : r = root
    · subst hr
      rw [if_pos rfl]
      intro e
      injection e with e
      subst e
      exact ⟨Or.inr rfl, hch⟩
    · rw [if_neg hr]
      intro e
      obtain ⟨a, b⟩ := hg.chain r c e
      exact ⟨Or.inl a, b⟩
  · intro r hr
    rw [hdef]
    simp only
    rw [OMap.get_insert]
    by_cases hrr : r = root
    · exact ⟨_, by rw [if_pos hrr]⟩
    · rw [if_neg hrr]
      rcases hr with hr | hr
      · exact hg.root r hr
      · exact absurd hr hrr
  · rw [hdef]; exact hval.1
  · intro a b k
    rw [hpos]
    have hv := hval.2 a b k
    rw [hdef]
    simp only
    rw [hv, hg.val]
    by_cases ha : a ∈ root :: l
    · rw [if_pos ha]
      have hnone : g.nodeToPos.get a = none := by
        cases hga : g.nodeToPos.get a with
        | none => rfl
        | some p =>
          obtain ⟨r, d⟩ := p
          obtain ⟨h1, h2⟩ := (hg.pos a r d).1 hga
          obtain ⟨rfl, _⟩ := Walk.root_unique hE.inj (hmem a ha) h2 hroot (hR r h1)
          exact absurd h1 hnot
      simp only [ha, true_and, Option.isSome_some, if_true, hnone, Option.isSome_none, Bool.false_eq_true, if_false]
      cases hA : A a b k <;> simp
    · rw [if_neg ha]
      simp [ha]

theorem copy_rep [U64 N] (h : o.Is E A) (hE : Chains E) {cap : Nat} (hcap : ∀ a b d, Walk.WalkLen E a b d → d < cap)
    (g0 : Linear N S W) : Rep (copy cap g0 o) E A (fun r => r ∈ o.roots) := by
  unfold copy
  suffices H : ∀ (l : List N) (g : Linear N S W) (R : N → Prop), Rep g E A R → (∀ r, R r → ¬ ∃ x, E x r) →
      (∀ r ∈ l, ¬ ∃ x, E x r) → l.Nodup → (∀ r ∈ l, ¬ R r) →
      Rep (l.foldl (copyRoot cap o) g) E A (fun r => R r ∨ r ∈ l) by
    have h0 : Rep g0.clear E A (fun _ => False) := by
      refine ⟨OMap.sorted_nil, OMap.sorted_nil, ?_, ?_, ?_, AnnoStore.Inv.clear _, ?_⟩
      · intro n r d; simp [clear]
      · intro r c; simp [clear]
      · intro r hr; exact hr.elim
      · intro a b k; simp [clear, Adj.getValue_clear]
    have := H o.roots g0.clear (fun _ => False) h0 (by simp) (fun r hr => ((h.root_iff r).1 hr).2) h.root_nodup (by simp)
    simpa using this
  intro l
  induction l with
  | nil => intro g R hg _ _ _ _; simpa using hg
  | cons x r ih =>
    intro g R hg hR hl hn hd
    rw [List.nodup_cons] at hn
    have h1 := copyRoot_rep h hE hcap hg (hl x (by simp)) hR (hd x (by simp))
    have h2 := ih _ _ h1 (by
        rintro y (hy | rfl)
        · exact hR y hy
        · exact hl y (by simp)) (fun y hy => hl y (by simp [hy])) hn.2 (by
        rintro y hy (hc | rfl)
        · exact hd y (by simp [hy]) hc
        · exact hn.1 hy)
    have e : (fun y => (R y ∨ y = x) ∨ y ∈ r) = (fun y => R y ∨ y ∈ x :: r) := by
      funext y; rw [List.mem_cons, or_assoc]
    rw [← e]
    exact h2

end Linear
