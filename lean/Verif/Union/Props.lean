import Verif.Union.Model
import Verif.Gs.DfsQuery

/-!
# Properties of the union of edge containers (C20)
-/

set_option linter.unusedSimpArgs false
set_option linter.unusedSectionVars false

section
variable {ε N : Type}

theorem collect_ok {l : List (Except ε N)} (h : ∀ x ∈ l, ∃ y, x = .ok y) : collectResults l = .ok (Container.oks l) := by
  induction l with
  | nil => rfl
  | cons x l ih =>
    obtain ⟨y, rfl⟩ := h x (by simp)
    unfold collectResults
    rw [ih (fun z hz => h z (by simp [hz]))]
    simp [Container.oks, Except.map]

theorem collect_error {l : List (Except ε N)} {e : ε} (h : .error e ∈ l) : ∃ e', collectResults l = .error e' ∧ .error e' ∈ l := by
  induction l with
  | nil => simp at h
  | cons x l ih =>
    cases x with
    | error e' => exact ⟨e', rfl, by simp⟩
    | ok y =>
      rw [List.mem_cons] at h
      obtain ⟨e', h1, h2⟩ := ih (h.resolve_left (by simp))
      refine ⟨e', ?_, by simp [h2]⟩
      unfold collectResults
      rw [h1]
      rfl

theorem mem_setExtend [DecidableEq N] (l : List N) : ∀ (s : List N) (x : N), x ∈ setExtend s l ↔ x ∈ s ∨ x ∈ l := by
  induction l with
  | nil => intro s x; simp [setExtend]
  | cons y l ih =>
    intro s x
    show x ∈ setExtend (if y ∈ s then s else s ++ [y]) l ↔ _
    rw [ih, List.mem_cons]
    by_cases h : y ∈ s
    · rw [if_pos h]
      constructor
      · rintro (h1 | h1) <;> simp [h1]
      · rintro (h1 | rfl | h1) <;> simp [h, *]
    · rw [if_neg h, List.mem_append, List.mem_singleton]; tauto

theorem nodup_setExtend [DecidableEq N] (l : List N) : ∀ (s : List N), s.Nodup → (setExtend s l).Nodup := by
  induction l with
  | nil => intro s h; exact h
  | cons y l ih =>
    intro s h
    show (setExtend (if y ∈ s then s else s ++ [y]) l).Nodup
    apply ih
    by_cases hy : y ∈ s
    · rwa [if_pos hy]
    · rw [if_neg hy, List.nodup_append]
      refine ⟨h, by simp, ?_⟩
      intro a ha b hb
      rw [List.mem_singleton] at hb
      rintro rfl
      exact hy (hb ▸ ha)

theorem mem_oks {l : List (Except ε N)} {x : N} : x ∈ Container.oks l ↔ .ok x ∈ l := by
  unfold Container.oks
  rw [List.mem_filterMap]
  constructor
  · rintro ⟨y, hy, h⟩
    cases y with
    | ok z => simp only [Option.some.injEq] at h; exact h ▸ hy
    | error e => simp at h
  · intro h; exact ⟨_, h, rfl⟩

theorem hasAny_ok {l : List (Except ε N)} (h : ∀ x ∈ l, ∃ y, x = .ok y) :
    ∃ b, Container.hasAny l = .ok b ∧ (b = true ↔ ∃ y, .ok y ∈ l) := by
  cases l with
  | nil => exact ⟨false, rfl, by simp⟩
  | cons x l =>
    obtain ⟨y, rfl⟩ := h x (by simp)
    exact ⟨true, rfl, by simp⟩

end

namespace UnionContainer

variable {ε N : Type}

theorem merge_fold [DecidableEq N] (ls : List (List (Except ε N))) : ∀ (acc : List N × List ε), acc.1.Nodup →
    (ls.foldl mergeStep acc).1.Nodup ∧
    ((∀ l ∈ ls, ∀ x ∈ l, ∃ y, x = .ok y) →
      (ls.foldl mergeStep acc).2 = acc.2 ∧ ∀ x, x ∈ (ls.foldl mergeStep acc).1 ↔ x ∈ acc.1 ∨ ∃ l ∈ ls, .ok x ∈ l) ∧
    (∀ e, e ∈ (ls.foldl mergeStep acc).2 → e ∈ acc.2 ∨ ∃ l ∈ ls, .error e ∈ l) ∧
    ((acc.2 ≠ [] ∨ ∃ l ∈ ls, ∃ e, .error e ∈ l) → (ls.foldl mergeStep acc).2 ≠ []) := by
  induction ls with
  | nil =>
    intro acc h
    refine ⟨h, fun _ => ⟨rfl, by simp⟩, fun e he => Or.inl he, ?_⟩
    rintro (h | ⟨l, hl, _⟩)
    · exact h
    · simp at hl
  | cons l ls ih =>
    intro acc h
    rw [List.foldl_cons]
    have hn : (mergeStep acc l).1.Nodup := by
      unfold mergeStep
      split
      · exact nodup_setExtend _ _ h
      · exact h
    obtain ⟨i1, i2, i3, i4⟩ := ih (mergeStep acc l) hn
    refine ⟨i1, ?_, ?_, ?_⟩
    · intro hok
      obtain ⟨j1, j2⟩ := i2 (fun l' hl' => hok l' (by simp [hl']))
      have hm : mergeStep acc l = (setExtend acc.1 (Container.oks l), acc.2) := by
        unfold mergeStep
        rw [collect_ok (hok l (by simp))]
      rw [j1]
      refine ⟨by rw [hm], fun x => ?_⟩
      rw [j2, hm]
      simp only [mem_setExtend, mem_oks, List.exists_mem_cons_iff, or_assoc]
    · intro e he
      rcases i3 e he with h1 | ⟨l', hl', h1⟩
      · unfold mergeStep at h1
        cases hc : collectResults l with
        | ok r => rw [hc] at h1; exact Or.inl h1
        | error e' =>
          rw [hc] at h1
          simp only [List.mem_append, List.mem_singleton] at h1
          rcases h1 with h1 | rfl
          · exact Or.inl h1
          · right
            refine ⟨l, by simp, ?_⟩
            by_contra hno
            by_cases hex : ∃ e', Except.error e' ∈ l
            · obtain ⟨e', he'⟩ := hex
              obtain ⟨e'', h2, h3⟩ := collect_error he'
              rw [hc] at h2
              injection h2 with h2
              exact hno (h2 ▸ h3)
            · rw [collect_ok] at hc
              · simp at hc
              · intro x hx
                cases x with
                | ok y => exact ⟨y, rfl⟩
                | error e' => exact absurd ⟨e', hx⟩ hex
      · exact Or.inr ⟨l', by simp [hl'], h1⟩
    · intro h1
      apply i4
      rcases h1 with h1 | ⟨l', hl', e, he⟩
      · left
        unfold mergeStep
        split <;> simp [h1]
      · rcases List.mem_cons.1 hl' with rfl | hl'
        · left
          obtain ⟨e', h2, _⟩ := collect_error he
          unfold mergeStep
          rw [h2]
          simp
        · exact Or.inr ⟨l', hl', e, he⟩

theorem merge_ok [DecidableEq N] (ls : List (List (Except ε N))) (h : ∀ l ∈ ls, ∀ x ∈ l, ∃ y, x = .ok y) :
    (∀ x ∈ merge ls, ∃ y, x = .ok y) ∧ (merge ls).Nodup ∧ ∀ x, .ok x ∈ merge ls ↔ ∃ l ∈ ls, .ok x ∈ l := by
  obtain ⟨i1, i2, _⟩ := merge_fold ls ([], []) (by simp)
  obtain ⟨j1, j2⟩ := i2 h
  have hm : merge ls = (ls.foldl mergeStep ([], [])).1.map .ok := by
    unfold merge
    simp [j1]
  rw [hm]
  refine ⟨?_, ?_, ?_⟩
  · intro x hx
    obtain ⟨y, _, rfl⟩ := List.mem_map.1 hx
    exact ⟨y, rfl⟩
  · exact List.Nodup.map (fun a b hab => by injection hab) i1
  · intro x
    rw [List.mem_map]
    constructor
    · rintro ⟨y, hy, e⟩
      injection e with e
      subst e
      simpa using (j2 y).1 hy
    · intro hx; exact ⟨x, (j2 x).2 (Or.inr hx), rfl⟩

section
variable [DecidableEq N] (cs : List (Container ε N))

/-- C20: the union lists every neighbour found in any of the containers exactly once, its sources are the sources of the
containers, and its roots are the sources without an incoming edge in any of the containers. -/
theorem C20_union (h : ∀ c ∈ cs, c.NoError) :
    (union cs).NoError ∧
    (∀ n, ((union cs).out n).Nodup ∧ ∀ b, .ok b ∈ (union cs).out n ↔ ∃ c ∈ cs, .ok b ∈ c.out n) ∧
    (∀ n, ((union cs).inn n).Nodup ∧ ∀ b, .ok b ∈ (union cs).inn n ↔ ∃ c ∈ cs, .ok b ∈ c.inn n) ∧
    (∀ n, ∃ b, (union cs).hasIn n = .ok b ∧ (b = true ↔ ∃ c ∈ cs, ∃ a, .ok a ∈ c.inn n)) ∧
    (∀ n, .ok n ∈ (union cs).sources ↔ ∃ c ∈ cs, .ok n ∈ c.sources) ∧ (union cs).sources.Nodup ∧
    (∀ n, .ok n ∈ (union cs).roots ↔ (∃ c ∈ cs, .ok n ∈ c.sources) ∧ ¬ ∃ c ∈ cs, ∃ a, .ok a ∈ c.inn n) := by
  have ho := fun n => merge_ok (cs.map fun c => c.out n) (by
    intro l hl x hx
    obtain ⟨c, hc, rfl⟩ := List.mem_map.1 hl
    exact (h c hc).1 n x hx)
  have hi := fun n => merge_ok (cs.map fun c => c.inn n) (by
    intro l hl x hx
    obtain ⟨c, hc, rfl⟩ := List.mem_map.1 hl
    exact (h c hc).2.1 n x hx)
  have hs : sources cs = (setExtend [] (Container.oks (cs.flatMap fun c => c.sources))).map .ok := by
    unfold sources
    rw [collect_ok]
    intro x hx
    obtain ⟨c, hc, hx⟩ := List.mem_flatMap.1 hx
    exact (h c hc).2.2 x hx
  have hsm : ∀ n, .ok n ∈ sources cs ↔ ∃ c ∈ cs, .ok n ∈ c.sources := by
    intro n
    rw [hs, List.mem_map]
    constructor
    · rintro ⟨y, hy, e⟩
      injection e with e
      subst e
      simpa [mem_setExtend, mem_oks] using hy
    · intro hx
      exact ⟨n, by simpa [mem_setExtend, mem_oks] using hx, rfl⟩
  have hin : ∀ n, ∃ b, (union cs).hasIn n = .ok b ∧ (b = true ↔ ∃ c ∈ cs, ∃ a, .ok a ∈ c.inn n) := by
    intro n
    obtain ⟨b, h1, h2⟩ := hasAny_ok (hi n).1
    refine ⟨b, h1, ?_⟩
    rw [h2]
    constructor
    · rintro ⟨y, hy⟩
      obtain ⟨l, hl, hy⟩ := ((hi n).2.2 y).1 hy
      obtain ⟨c, hc, rfl⟩ := List.mem_map.1 hl
      exact ⟨c, hc, y, hy⟩
    · rintro ⟨c, hc, y, hy⟩
      exact ⟨y, ((hi n).2.2 y).2 ⟨_, List.mem_map.2 ⟨c, hc, rfl⟩, hy⟩⟩
  refine ⟨⟨fun n => (ho n).1, fun n => (hi n).1, ?_⟩, fun n => ⟨(ho n).2.1, fun b => ?_⟩, fun n => ⟨(hi n).2.1, fun b => ?_⟩,
    hin, hsm, ?_, ?_⟩
  · intro x hx
    have hx : x ∈ sources cs := hx
    rw [hs] at hx
    obtain ⟨y, _, rfl⟩ := List.mem_map.1 hx
    exact ⟨y, rfl⟩
  · refine ((ho n).2.2 b).trans ?_
    simp
  · refine ((hi n).2.2 b).trans ?_
    simp
  · show (sources cs).Nodup
    rw [hs]
    exact List.Nodup.map (fun a b hab => by injection hab) (nodup_setExtend _ _ (by simp))
  · intro n
    unfold Container.roots
    rw [List.mem_filterMap]
    constructor
    · rintro ⟨x, hx, hr⟩
      cases x with
      | error e => simp at hr
      | ok m =>
        obtain ⟨b, h1, h2⟩ := hin m
        simp only [h1] at hr
        by_cases hb : b = true
        · simp [hb] at hr
        · simp only [hb, Bool.false_eq_true, if_false, Option.some.injEq, Except.ok.injEq] at hr
          subst hr
          exact ⟨(hsm m).1 hx, fun hc => hb (h2.2 hc)⟩
    · rintro ⟨h1, h2⟩
      refine ⟨.ok n, (hsm n).2 h1, ?_⟩
      obtain ⟨b, h3, h4⟩ := hin n
      have hb : b = false := by
        cases b with
        | false => rfl
        | true => exact absurd (h4.1 rfl) h2
      simp [h3, hb]

/-- C20: if any container fails, the union reports errors of the containers and nothing else, at least one. -/
theorem C20_errors (n : N) (h : ∃ c ∈ cs, ∃ e, .error e ∈ c.out n) :
    (∃ e, .error e ∈ (union cs).out n) ∧
    ∀ x ∈ (union cs).out n, ∃ e, x = .error e ∧ ∃ c ∈ cs, .error e ∈ c.out n := by
  obtain ⟨_, _, i3, i4⟩ := merge_fold (cs.map fun c => c.out n) ([], []) (by simp)
  have hne := i4 (Or.inr (by
    obtain ⟨c, hc, e, he⟩ := h
    exact ⟨_, List.mem_map.2 ⟨c, hc, rfl⟩, e, he⟩))
  have hm : (union cs).out n = ((cs.map fun c => c.out n).foldl mergeStep ([], [])).2.map .error := by
    show merge _ = _
    unfold merge
    rw [if_neg (by simpa using hne)]
  rw [hm]
  constructor
  · obtain ⟨e, he⟩ := List.exists_mem_of_ne_nil _ hne
    exact ⟨e, List.mem_map.2 ⟨e, he, rfl⟩⟩
  · intro x hx
    obtain ⟨e, he, rfl⟩ := List.mem_map.1 hx
    refine ⟨e, rfl, ?_⟩
    rcases i3 e he with h1 | ⟨l, hl, h1⟩
    · simp at h1
    · obtain ⟨c, hc, rfl⟩ := List.mem_map.1 hl
      exact ⟨c, hc, h1⟩

end

/-- C20: the traversal over the union enumerates exactly the simple paths of the union graph, each distance in the interval. -/
theorem C20_traversal [LinearOrder N] [U64 N] (cs : List (Container ε N)) (h : ∀ c ∈ cs, c.NoError) (V : List N)
    (hV : ∀ c ∈ cs, ∀ a b, .ok b ∈ c.out a → b ∈ V) (a b : N) (min d m : Nat) :
    (b, d) ∈ Dfs.steps (fun n => Container.oks ((union cs).out n)) V a min m ↔
      Walk.SimplePath (fun x y => ∃ c ∈ cs, .ok y ∈ c.out x) a b d ∧ min ≤ d ∧ d ≤ m := by
  have hE : ∀ x y, y ∈ Container.oks ((union cs).out x) ↔ ∃ c ∈ cs, .ok y ∈ c.out x := by
    intro x y
    rw [mem_oks]
    exact ((C20_union cs h).2.1 x).2 y
  refine DfsQuery.mem_steps (fun x y hxy => ?_) hE false a b min d m
  obtain ⟨c, hc, hy⟩ := (hE x y).1 hxy
  exact hV c hc x y hy

/-- Two containers with a shared edge, one edge each; the shared neighbour is listed once. -/
theorem C20_nonvacuous :
    let c1 : Container Nat Nat := ⟨fun n => if n = 1 then [.ok 2, .ok 3] else [], fun n => if n = 2 ∨ n = 3 then [.ok 1] else [], [.ok 1]⟩
    let c2 : Container Nat Nat := ⟨fun n => if n = 1 then [.ok 3] else if n = 3 then [.ok 4] else [],
      fun n => if n = 3 then [.ok 1] else if n = 4 then [.ok 3] else [], [.ok 1, .ok 3]⟩
    Container.oks ((union [c1, c2]).out 1) = [2, 3] ∧ Container.oks ((union [c1, c2]).roots) = [1] := by decide

end UnionContainer
