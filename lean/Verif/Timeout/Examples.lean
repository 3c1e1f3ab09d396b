import Verif.Timeout.Props

/-!
# C112: examples and counterexamples
-/

namespace Timed.Ex

/-- Two node searches with two results each, joined by a nested loop with an operator that always holds. -/
def row (n : Nat) : Row Nat Nat := [⟨n, 0⟩]
def op : BinOp Nat Nat (TErr Unit) := ⟨fun _ _ => .ok true, true⟩
def conf : NlConf Nat Nat (TErr Unit) := ⟨op, 0, 0, true, false⟩
def tree : Tree Nat Nat Unit := .nested conf (.search [.ok (row 1), .ok (row 2)]) (.search [.ok (row 3), .ok (row 4)])
def plan : QPlan Nat Nat Unit := [(id, tree)]
def items : List (Item Nat Nat (TErr Unit)) :=
  [.ok (row 1 ++ row 3), .ok (row 1 ++ row 4), .ok (row 2 ++ row 3), .ok (row 2 ++ row 4)]

/-- The limit is exceeded from the check with number 2 on. -/
def at2 (i : Nat) : Bool := decide (2 ≤ i)
def never (_ : Nat) : Bool := false

theorem at2_clock : Clock at2 := by intro i j h1 h2; simp only [at2, decide_eq_true_eq] at *; omega
theorem never_clock : Clock never := by intro i j _ h; cases h

theorem tree_full : tree.Full items := by
  refine .nested (.search _) (.search _) ?_
  exact nestedLoop_items conf _ _

theorem plan_full : plan.Full items := ⟨[(id, items)], .cons ⟨rfl, tree_full⟩ .nil, by decide⟩

theorem no_timeout : timeout ∉ items := by decide

theorem one_full {C : Type} (c : C) : List.Forall₂ (fun (p : C × QPlan Nat Nat Unit) q => p.1 = q.1 ∧ QPlan.Full p.2 q.2)
    [(c, plan)] [(c, items)] := .cons ⟨rfl, plan_full⟩ .nil

theorem clean {C : Type} (c : C) : ∀ p ∈ [(c, items)], timeout ∉ p.2 := by
  intro p hp
  rw [List.mem_singleton] at hp
  subst hp
  exact no_timeout

/-- The hypotheses of `C112_items`; and a run in which the limit is exceeded after the first result. -/
theorem C112_items_nonvacuous : Clock at2 ∧ plan.Full items ∧ timeout ∉ items ∧
    ∃ s' n', Calls (QNext at2) plan.start 0 [some (.ok (row 1 ++ row 3)), some timeout, some timeout] s' n' := by
  refine ⟨at2_clock, plan_full, no_timeout, ?_⟩
  let i1 : List (Item Nat Nat (TErr Unit)) := [.ok (row 4)]
  let s1 : tree.St := (⟨([.ok (row 2)], some (some (.ok (row 1)))), i1, [row 3], none⟩ : TNl _ _ _ _ _)
  have h1 : tree.next at2 tree.start 0 (some (.ok (row 1 ++ row 3))) s1 2 := by
    refine NlNext.ret (NlBody.innerHit (n1 := 1) (.fetch ?_) (.hit ?_ ?_))
    · rfl
    · rfl
    · rfl
  have h2 : ∀ n, 2 ≤ n → tree.next at2 s1 n (some timeout) s1 (n + 1) := by
    intro n hn
    refine NlNext.ret (NlBody.innerHit .peeked (.err ?_))
    show searchNext at2 i1 n = _
    unfold searchNext
    rw [if_pos (show at2 n = true by simpa [at2] using hn)]
  refine ⟨_, _, .cons (.mk (.proxyRow rfl (.mk h1))) (.cons (.mk (.err (.mk (h2 2 (le_refl _))))) (.cons (.mk (.err (.mk (h2 3 (by omega))))) .nil))⟩

/-- Without a limit the number of results is counted. -/
theorem C112_count_nonvacuous : Clock never ∧ List.Forall₂ QPlan.Full [plan] [items] ∧ (∀ l ∈ [items], timeout ∉ l) ∧
    ∃ n', Count never (QNext never) ([plan].map QPlan.start) 0 0 (.ok 4) n' := by
  have h1 : List.Forall₂ QPlan.Full [plan] [items] := .cons plan_full .nil
  have h2 : ∀ l ∈ [items], timeout ∉ l := fun l hl => by rw [List.mem_singleton.1 hl]; exact no_timeout
  refine ⟨never_clock, h1, h2, ?_⟩
  obtain ⟨⟨r, n', hr⟩, h⟩ := C112_count never_clock h1 h2
  obtain ⟨-, rfl, -⟩ | ⟨-, h⟩ := h r n' hr
  · exact ⟨n', hr⟩
  · cases h

/-- The first results of the plan if the limit is exceeded from the check with number 2 on. -/
theorem two : ∃ s1 n1 s2 n2, QNext at2 plan.start 0 (some (.ok (row 1 ++ row 3))) s1 n1 ∧ QNext at2 s1 n1 (some timeout) s2 n2 := by
  obtain ⟨-, -, -, s', n', h⟩ := C112_items_nonvacuous
  cases h with
  | cons h1 h =>
    cases h with
    | cons h2 h => exact ⟨_, _, _, _, h1, h2⟩

/-- With the limit, `frequency` returns the time out error. -/
theorem C112_frequency_nonvacuous (c : FreqInfo Nat Nat) (nodes : Row Nat Nat → List Nat) :
    Clock at2 ∧ List.Forall₂ (fun (p : FreqInfo Nat Nat × QPlan Nat Nat Unit) q => p.1 = q.1 ∧ QPlan.Full p.2 q.2) [(c, plan)] [(c, items)] ∧
    (∀ p ∈ [(c, items)], timeout ∉ p.2) ∧
    ∃ n', Freq at2 (QNext at2) (FreqInfo.add nodes) ([(c, plan)].map fun p => (p.1, QPlan.start p.2)) [] 0 timeout n' := by
  obtain ⟨s1, n1, s2, n2, h1, h2⟩ := two
  exact ⟨at2_clock, one_full c, clean c, _, .fail (.item h1 (by decide) (.err h2))⟩

/-- With the limit, `count_extra` returns the time out error. -/
theorem C112_count_extra_nonvacuous (c : ExtraInfo (Row Nat Nat) Nat) :
    ∃ n', Extra at2 (QNext at2) ExtraInfo.docs ([(c, plan)].map fun p => (p.1, QPlan.start p.2)) (0, 0) 0 timeout n' := by
  obtain ⟨s1, n1, s2, n2, h1, h2⟩ := two
  exact ⟨_, .fail (.item h1 (by decide) (.err h2))⟩

/-- The texts are the numbers of the nodes. -/
def info : FindInfo (Row Nat Nat) (List Nat) := ⟨true, fun _ _ => some .eq, fun r => some (r.map (·.node))⟩
def rnd : Rnd (Row Nat Nat) := ⟨id, 100, []⟩

/-- `find` with and without the limit. -/
theorem C112_find_nonvacuous :
    (∃ n', Find at2 (QNext at2) 0 none ([(info, plan)].map fun p => (p.1.corpus () rnd false .inverted, QPlan.start p.2)) 0 timeout n') ∧
    (∃ n', Find never (QNext never) 1 (some 2) ([(info, plan)].map fun p => (p.1.corpus () rnd false .normal, QPlan.start p.2)) 0
      (.ok [[1, 4], [2, 3]]) n') := by
  constructor
  · obtain ⟨s1, n1, s2, n2, h1, h2⟩ := two
    exact ⟨_, .oneErr (.collectErr rfl (.item h1 rfl (.err h2)))⟩
  · obtain ⟨⟨r, n', hr⟩, h⟩ := C112_find never_clock () rnd false .normal 1 (some 2) (one_full info) (clean info)
    obtain ⟨h1, -, h2⟩ | ⟨-, h⟩ := h r n' hr
    · have h3 : r.toOption = some [[1, 4], [2, 3]] := h2
      cases r with
      | error e => cases h3
      | ok v => cases h3; exact ⟨n', hr⟩
    · cases h

/-- C112 fails: the same two searches below a parallel nested loop.  The call never returns, while the nested loop that is not parallel
returns the time out error (`C112_items_nonvacuous`). -/
theorem C112_parallel_fails :
    let s : TPnl (List (Item Nat Nat (TErr Unit))) (List (Item Nat Nat (TErr Unit))) Nat Nat :=
      ⟨[.ok (row 1), .ok (row 2)], none, [.ok (row 3), .ok (row 4)], [], none⟩
    let M : Mach (List (Item Nat Nat (TErr Unit))) (Item Nat Nat (TErr Unit)) := fun s n x s' n' => searchNext at2 s n = (x, s', n')
    (∀ s' b' n', ¬ NextBuffer 1024 M M s ⟨[], []⟩ 0 s' b' n') ∧
    ∃ s1 n1 s2 n2, QNext at2 plan.start 0 (some (.ok (row 1 ++ row 3))) s1 n1 ∧ QNext at2 s1 n1 (some timeout) s2 n2 := by
  intro s M
  refine ⟨?_, two⟩
  -- after the first outer and the first inner row only time outs are left
  have inner : ∀ {c b i' c' b' full n'}, b.pairs.length < 1000 → 
      ¬ FillInner 1024 M (row 1) [.ok (row 3), .ok (row 4)] c b 1 i' c' b' full n' := by
    intro c b i' c' b' full n' hb h
    cases h with
    | stop hm => cases hm
    | err hm _ => cases hm
    | full hm hmax => omega
    | row hm _ hrest =>
      cases hm
      exact fillInner_dead at2_clock hrest (search_dead at2_clock _) rfl
  have body : ∀ {s' b' full n'}, ¬ FillBody 1024 M M ⟨[.ok (row 1), .ok (row 2)], none, [.ok (row 3), .ok (row 4)], [], none⟩ ⟨[], []⟩ 0 s' b' full n' := by
    intro s' b' full n' h
    cases h with
    | err hp => cases hp with | err hm => cases hm
    | none hp => cases hp with | stop hm => cases hm
    | inner hp hf =>
      cases hp with
      | row hm =>
        cases hm
        exact inner (by simp) hf
  intro s' b' n' h
  cases h with
  | max h => simp at h
  | full _ h => exact body h
  | stop _ h _ => exact body h
  | row _ h _ _ => exact body h
  | err _ h _ _ => exact body h

/-- Without a limit the parallel nested loop gives its block. -/
theorem C112_parallel_nonvacuous : ∃ s' n',
    NextBuffer 1024 ((Tree.search (N := Nat) (K := Nat) (E := Unit) [.ok (row 1)]).next never)
      ((Tree.search (N := Nat) (K := Nat) (E := Unit) [.ok (row 3)]).next never)
      ⟨[.ok (row 1)], none, [.ok (row 3)], [], none⟩ ⟨[], []⟩ 0 s' ⟨[], [(row 1, row 3)]⟩ n' := by
  refine ⟨_, _, .stop (by simp) (.inner (full := false) (n1 := 1) (outer' := ([] : List (Item Nat Nat (TErr Unit)))) (.row rfl)
    (.row (s1 := ([] : List (Item Nat Nat (TErr Unit)))) (n1 := 2) rfl (by simp)
      (.stop (s' := ([] : List (Item Nat Nat (TErr Unit)))) (n' := 3) rfl)))
    (.stop (s' := ([] : List (Item Nat Nat (TErr Unit)))) (n' := 4) rfl)⟩

end Timed.Ex
