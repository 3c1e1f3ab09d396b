import Verif.Regex.Model

/-!
# Properties of regular expression conditions (C57)
-/

set_option linter.unusedSimpArgs false

/-- Reading a character with more open groups below. -/
theorem ReState.step_below {s s' : ReState} {c : Char} (h : s.step c = some s') (k : List ReFrame) :
    ReState.step ⟨s.stack ++ k, s.cur, s.esc⟩ c = some ⟨s'.stack ++ k, s'.cur, s'.esc⟩ := by
  obtain ⟨st, cur, esc⟩ := s
  unfold ReState.step at h ⊢
  simp only at h ⊢
  split at h
  · rename_i he
    rw [if_pos he]
    split at h
    · rename_i e; rw [if_pos e]; obtain rfl := Option.some.inj h; rfl
    · rename_i e; rw [if_neg e]
      split at h
      · rename_i e; rw [if_pos e]; obtain rfl := Option.some.inj h; rfl
      · rename_i e; rw [if_neg e]
        split at h
        · rename_i e; rw [if_pos e]; obtain rfl := Option.some.inj h; rfl
        · rename_i e; rw [if_neg e]
          split at h
          · rename_i e; rw [if_pos e]; obtain rfl := Option.some.inj h; rfl
          · cases h
  · rename_i he
    rw [if_neg he]
    split at h
    · rename_i e; rw [if_pos e]; obtain rfl := Option.some.inj h; rfl
    · rename_i e; rw [if_neg e]
      split at h
      · rename_i e; rw [if_pos e]; obtain rfl := Option.some.inj h; rfl
      · rename_i e; rw [if_neg e]
        split at h
        · rename_i e; rw [if_pos e]
          cases st with
          | nil => cases h
          | cons f fs => simp only at h; obtain rfl := Option.some.inj h; rfl
        · rename_i e; rw [if_neg e]
          split at h
          · rename_i e; rw [if_pos e]; obtain rfl := Option.some.inj h; rfl
          · rename_i e; rw [if_neg e]
            split at h
            · rename_i e; rw [if_pos e]
              cases hi : cur.items with
              | nil => rw [hi] at h; cases h
              | cons x xs => rw [hi] at h; simp only at h ⊢; obtain rfl := Option.some.inj h; rfl
            · rename_i e; rw [if_neg e]
              split at h
              · rename_i e; rw [if_pos e]; obtain rfl := Option.some.inj h; rfl
              · rename_i e; rw [if_neg e]
                split at h
                · rename_i e; rw [if_pos e]; obtain rfl := Option.some.inj h; rfl
                · rename_i e; rw [if_neg e]
                  split at h
                  · rename_i e; rw [if_pos e]; obtain rfl := Option.some.inj h; rfl
                  · rename_i e; rw [if_neg e]
                    split at h
                    · cases h
                    · rename_i e; rw [if_neg e]; obtain rfl := Option.some.inj h; rfl

theorem ReState.run_below (p : Str) : ∀ {s s' : ReState}, s.run p = some s' → ∀ k : List ReFrame,
    ReState.run ⟨s.stack ++ k, s.cur, s.esc⟩ p = some ⟨s'.stack ++ k, s'.cur, s'.esc⟩ := by
  induction p with
  | nil =>
    intro s s' h k
    simp only [ReState.run, List.foldlM_nil] at h ⊢
    obtain rfl := Option.some.inj h
    rfl
  | cons c r ih =>
    intro s s' h k
    simp only [ReState.run, List.foldlM_cons] at h ⊢
    cases hs : s.step c with
    | none => rw [hs] at h; cases h
    | some s1 =>
      rw [hs] at h
      rw [ReState.step_below hs k]
      exact ih (s := s1) h k

theorem ReState.run_append (s : ReState) (p q : Str) : s.run (p ++ q) = (s.run p).bind fun s => s.run q := by
  simp [ReState.run, List.foldlM_append]

/-- The wrapped pattern is parsed to the wrapped expression. -/
theorem reParse_full {p : Str} {e : Re} (h : reParse p = some e) :
    reParse (regexFullMatch p) = some (.cat (.look .start) (.cat (.group e) (.cat (.look .stop) .empty))) := by
  unfold reParse at h
  split at h
  · rename_i cur hr
    obtain rfl := Option.some.inj h
    unfold reParse regexFullMatch
    rw [ReState.run_append, ReState.run_append]
    have h1 : ReState.run ⟨[], .new, false⟩ ['\\', 'A', '('] = some ⟨[⟨[], [.look .start]⟩], .new, false⟩ := rfl
    rw [h1, Option.bind_some]
    have h2 := ReState.run_below p hr [⟨[], [.look .start]⟩]
    simp only [List.nil_append] at h2
    rw [h2, Option.bind_some]
    rfl
  · cases h

theorem full_match_iff (e : Re) (w : Str) :
    Re.IsMatch (.cat (.look .start) (.cat (.group e) (.cat (.look .stop) .empty))) w ↔ e.Match [] w [] := by
  constructor
  · rintro ⟨l, m, r, rfl, h⟩
    cases h with
    | @cat _ _ _ m1 m2 _ h1 h2 =>
      cases h1 with
      | look hl =>
        have hl' : l = [] := by simpa [Look.holds] using hl
        subst hl'
        cases h2 with
        | @cat _ _ _ m3 m4 _ h3 h4 =>
          cases h4 with
          | @cat _ _ _ m5 m6 _ h5 h6 =>
            cases h6
            cases h5 with
            | look hr =>
              have hr' : r = [] := by simpa [Look.holds] using hr
              subst hr'
              cases h3 with
              | group h3 => simpa using h3
  · intro h
    refine ⟨[], w, [], by simp, ?_⟩
    have e1 : w = [] ++ (w ++ ([] ++ [])) := by simp
    rw [e1]
    refine .cat (.look rfl) (.cat (.group (by simpa using h)) (.cat (.look ?_) .empty))
    simp [Look.holds]

/-- C57: for every valid pattern, the wrapped pattern is valid and finds a match in a value if and only if the pattern matches the
whole value. -/
theorem C57_full_match {p : Str} {e : Re} (h : reParse p = some e) :
    ∃ f, reParse (regexFullMatch p) = some f ∧ ∀ w, f.IsMatch w ↔ e.Match [] w [] :=
  ⟨_, reParse_full h, full_match_iff e⟩

/-- C57 fails for invalid patterns: an unbalanced pattern becomes valid by wrapping it, and accepts values by their start. -/
theorem C57_unbalanced_fails :
    reParse "a)|(b".toList = none ∧
    ∃ f, reParse (regexFullMatch "a)|(b".toList) = some f ∧ f.IsMatch "ax".toList := by
  refine ⟨rfl, ?_⟩
  refine ⟨.alt (.cat (.look .start) (.cat (.group (.cat (.lit 'a') .empty)) .empty))
    (.cat (.group (.cat (.lit 'b') .empty)) (.cat (.look .stop) .empty)), rfl, ?_⟩
  refine ⟨[], ['a'], ['x'], rfl, .altL ?_⟩
  exact .cat (m := []) (m' := ['a']) (.look rfl) (.cat (m := ['a']) (m' := [])
    (.group (.cat (m := ['a']) (m' := []) .lit .empty)) .empty)

/-! ### Exact values -/

/-- Expressions without assertions and without empty character classes. -/
def Re.Plain : Re → Prop
  | .empty => True
  | .lit _ => True
  | .any => True
  | .cls cs => cs ≠ []
  | .look _ => False
  | .cat a b => a.Plain ∧ b.Plain
  | .alt a b => a.Plain ∧ b.Plain
  | .star a => a.Plain
  | .group a => a.Plain

/-- A literal admits a text. -/
def ReLit.admits (p : ReLit) (w : Str) : Prop := if p.2 then w = p.1 else p.1 <+: w

/-- What the literals say about the matched texts; `P` is the set of them. -/
def LitsFor (P : Str → Prop) (s : List ReLit) : Prop :=
  (∀ w, P w → ∃ p ∈ s, ReLit.admits p w) ∧ (∀ p ∈ s, p.2 = true → P p.1) ∧ s ≠ []

/-- Limiting the literals: the result says the same or less, and is not empty. -/
def LimitOk (limit : List ReLit → Option (List ReLit)) : Prop :=
  ∀ P s s', LitsFor P s → limit s = some s' → LitsFor P s'

theorem reDedup_spec (s : List ReLit) :
    (∀ p ∈ s, ∃ q ∈ reDedup s, p.1 = q.1 ∧ (q.2 = true → p.2 = true)) ∧
    (∀ q ∈ reDedup s, q.2 = true → q ∈ s) ∧ (s ≠ [] → reDedup s ≠ []) := by
  induction s with
  | nil => simp [reDedup]
  | cons a r ih =>
    obtain ⟨t, x⟩ := a
    obtain ⟨h1, h2, h3⟩ := ih
    rw [reDedup]
    cases hd : reDedup r with
    | nil =>
      simp only
      refine ⟨?_, ?_, by simp⟩
      · intro p hp
        rcases List.mem_cons.1 hp with rfl | hp
        · exact ⟨_, by simp, rfl, id⟩
        · obtain ⟨q, hq, _⟩ := h1 p hp
          rw [hd] at hq
          simp at hq
      · intro q hq _
        simp only [List.mem_cons, List.not_mem_nil, or_false] at hq
        subst hq
        simp
    | cons b r' =>
      obtain ⟨t', x'⟩ := b
      simp only
      by_cases e : t = t'
      · subst e
        simp only [if_true]
        refine ⟨?_, ?_, by simp⟩
        · intro p hp
          rcases List.mem_cons.1 hp with rfl | hp
          · exact ⟨(t, x && x'), List.mem_cons_self, rfl, fun h => (Bool.and_eq_true_iff.1 h).1⟩
          · obtain ⟨q, hq, e1, e2⟩ := h1 p hp
            rw [hd] at hq
            rcases List.mem_cons.1 hq with rfl | hq
            · exact ⟨(t, x && x'), by simp, e1, fun h => e2 (by simp at h; exact h.2)⟩
            · exact ⟨q, List.mem_cons_of_mem _ hq, e1, e2⟩
        · intro q hq hx
          rcases List.mem_cons.1 hq with rfl | hq
          · simp only [Bool.and_eq_true] at hx
            simp [hx.1, hx.2]
          · exact List.mem_cons_of_mem _ (h2 q (by rw [hd]; exact List.mem_cons_of_mem _ hq) hx)
      · simp only [e, if_false]
        refine ⟨?_, ?_, by simp⟩
        · intro p hp
          rcases List.mem_cons.1 hp with rfl | hp
          · exact ⟨_, by simp, rfl, id⟩
          · obtain ⟨q, hq, e1⟩ := h1 p hp
            rw [hd] at hq
            exact ⟨q, List.mem_cons_of_mem _ hq, e1⟩
        · intro q hq hx
          rcases List.mem_cons.1 hq with rfl | hq
          · simp
          · exact List.mem_cons_of_mem _ (h2 q (by rw [hd]; exact hq) hx)

theorem LitsFor.dedup {P : Str → Prop} {s : List ReLit} (h : LitsFor P s) : LitsFor P (reDedup s) := by
  obtain ⟨h1, h2, h3⟩ := h
  obtain ⟨d1, d2, d3⟩ := reDedup_spec s
  refine ⟨?_, fun p hp hx => h2 p (d2 p hp hx) hx, d3 h3⟩
  intro w hw
  obtain ⟨p, hp, ha⟩ := h1 w hw
  obtain ⟨q, hq, e1, e2⟩ := d1 p hp
  refine ⟨q, hq, ?_⟩
  unfold ReLit.admits at ha ⊢
  by_cases hx : q.2 = true
  · rw [if_pos (e2 hx)] at ha
    rw [if_pos hx, ← e1, ha]
  · rw [if_neg hx, ← e1]
    split at ha
    · rw [ha]; exact List.prefix_refl _
    · exact ha

/-- Plain expressions do not look at their context. -/
theorem Re.Match.context {e : Re} {l m r : Str} (h : e.Match l m r) (hp : e.Plain) : ∀ l' r', e.Match l' m r' := by
  induction h with
  | empty => intro l' r'; exact .empty
  | lit => intro l' r'; exact .lit
  | any h => intro l' r'; exact .any h
  | cls h => intro l' r'; exact .cls h
  | look => exact absurd hp (by simp [Re.Plain])
  | cat _ _ ih1 ih2 => intro l' r'; exact .cat (ih1 hp.1 _ _) (ih2 hp.2 _ _)
  | altL _ ih => intro l' r'; exact .altL (ih hp.1 _ _)
  | altR _ ih => intro l' r'; exact .altR (ih hp.2 _ _)
  | starNil => intro l' r'; exact .starNil
  | starCons _ _ ih1 ih2 => intro l' r'; exact .starCons (ih1 hp _ _) (ih2 hp _ _)
  | group _ ih => intro l' r'; exact .group (ih hp _ _)

theorem reExtract_lits {limit : List ReLit → Option (List ReLit)} (hl : LimitOk limit) (e : Re) (hp : e.Plain) :
    ∀ s, reExtract limit e = some s → LitsFor (fun w => e.Match [] w []) s := by
  induction e with
  | empty =>
    intro s h
    obtain rfl := Option.some.inj h
    refine ⟨?_, ?_, by simp⟩
    · intro w hw
      cases hw
      exact ⟨_, List.mem_singleton.2 rfl, rfl⟩
    · intro p hp _
      simp only [List.mem_cons, List.not_mem_nil, or_false] at hp
      subst hp
      exact .empty
  | lit c =>
    intro s h
    obtain rfl := Option.some.inj h
    refine ⟨?_, ?_, by simp⟩
    · intro w hw
      cases hw
      exact ⟨_, List.mem_singleton.2 rfl, rfl⟩
    · intro p hp _
      simp only [List.mem_cons, List.not_mem_nil, or_false] at hp
      subst hp
      exact .lit
  | any => intro s h; cases h
  | cls cs =>
    intro s h
    refine hl _ _ _ ?_ h
    refine ⟨?_, ?_, ?_⟩
    · intro w hw
      cases hw with
      | cls hc => exact ⟨_, List.mem_map_of_mem hc, by simp [ReLit.admits]⟩
    · intro p hp _
      obtain ⟨c, hc, rfl⟩ := List.mem_map.1 hp
      exact .cls hc
    · simpa [Re.Plain] using hp
  | look l => exact absurd hp (by simp [Re.Plain])
  | group a ih =>
    intro s h
    obtain ⟨h1, h2, h3⟩ := ih hp s h
    refine ⟨?_, fun p hp hx => .group (h2 p hp hx), h3⟩
    intro w hw
    cases hw with
    | group hw => exact h1 w hw
  | cat a b iha ihb =>
    intro s h
    simp only [reExtract] at h
    cases ha : reExtract limit a with
    | none => rw [ha] at h; cases h
    | some sa =>
      rw [ha] at h
      simp only at h
      obtain ⟨a1, a2, a3⟩ := iha hp.1 sa ha
      have split : ∀ w, (Re.cat a b).Match [] w [] → ∃ m m', w = m ++ m' ∧ a.Match [] m [] ∧ b.Match [] m' [] := by
        intro w hw
        cases hw with
        | @cat _ _ _ m m' _ h1 h2 => exact ⟨m, m', rfl, h1.context hp.1 _ _, h2.context hp.2 _ _⟩
      cases hb : reExtract limit b with
      | none =>
        rw [hb] at h
        refine hl _ _ _ ?_ h
        refine ⟨?_, ?_, by simpa using a3⟩
        · intro w hw
          obtain ⟨m, m', rfl, hm, _⟩ := split w hw
          obtain ⟨p, hpm, had⟩ := a1 m hm
          refine ⟨(p.1, false), List.mem_map.2 ⟨p, hpm, rfl⟩, ?_⟩
          unfold ReLit.admits at had ⊢
          simp only [Bool.false_eq_true, if_false]
          split at had
          · rw [had]; exact List.prefix_append _ _
          · exact had.trans (List.prefix_append _ _)
        · intro p hpm hx
          obtain ⟨q, _, rfl⟩ := List.mem_map.1 hpm
          simp at hx
      | some sb =>
        rw [hb] at h
        obtain ⟨b1, b2, b3⟩ := ihb hp.2 sb hb
        refine hl _ _ _ (LitsFor.dedup ?_) h
        refine ⟨?_, ?_, ?_⟩
        · intro w hw
          obtain ⟨m, m', rfl, hm, hm'⟩ := split w hw
          obtain ⟨p, hpm, had⟩ := a1 m hm
          obtain ⟨q, hqm, hbd⟩ := b1 m' hm'
          by_cases hx : p.2 = true
          · refine ⟨(p.1 ++ q.1, q.2), List.mem_flatMap.2 ⟨p, hpm, ?_⟩, ?_⟩
            · rw [if_pos hx]; exact List.mem_map.2 ⟨q, hqm, rfl⟩
            · unfold ReLit.admits at had hbd ⊢
              rw [if_pos hx] at had
              subst had
              simp only
              split at hbd
              · rename_i hy
                rw [if_pos hy, hbd]
              · rename_i hy
                rw [if_neg hy]
                exact List.prefix_append_right_inj _ |>.2 hbd
          · refine ⟨p, List.mem_flatMap.2 ⟨p, hpm, by rw [if_neg hx]; simp⟩, ?_⟩
            unfold ReLit.admits at had ⊢
            rw [if_neg hx] at had ⊢
            exact had.trans (List.prefix_append _ _)
        · intro p hpm hx
          obtain ⟨q, hqm, hpq⟩ := List.mem_flatMap.1 hpm
          split at hpq
          · rename_i hy
            obtain ⟨t, htm, rfl⟩ := List.mem_map.1 hpq
            exact .cat ((a2 q hqm hy).context hp.1 _ _) ((b2 t htm hx).context hp.2 _ _)
          · rename_i hy
            simp only [List.mem_cons, List.not_mem_nil, or_false] at hpq
            subst hpq
            exact absurd hx hy
        · obtain ⟨p, hpm⟩ := List.exists_mem_of_ne_nil _ a3
          obtain ⟨q, hqm⟩ := List.exists_mem_of_ne_nil _ b3
          intro hc
          have : ∀ x, x ∉ sa.flatMap fun p => if p.2 = true then sb.map (fun q => (p.1 ++ q.1, q.2)) else [p] := by
            rw [hc]; simp
          by_cases hx : p.2 = true
          · exact this (p.1 ++ q.1, q.2) (List.mem_flatMap.2 ⟨p, hpm, by rw [if_pos hx]; exact List.mem_map.2 ⟨q, hqm, rfl⟩⟩)
          · exact this p (List.mem_flatMap.2 ⟨p, hpm, by rw [if_neg hx]; simp⟩)
  | alt a b iha ihb =>
    intro s h
    simp only [reExtract] at h
    cases ha : reExtract limit a with
    | none => rw [ha] at h; cases h
    | some sa =>
      cases hb : reExtract limit b with
      | none => rw [ha, hb] at h; cases h
      | some sb =>
        rw [ha, hb] at h
        obtain ⟨a1, a2, a3⟩ := iha hp.1 sa ha
        obtain ⟨b1, b2, b3⟩ := ihb hp.2 sb hb
        refine hl _ _ _ (LitsFor.dedup ?_) h
        refine ⟨?_, ?_, by simp [a3]⟩
        · intro w hw
          cases hw with
          | altL hw =>
            obtain ⟨p, hpm, had⟩ := a1 w hw
            exact ⟨p, List.mem_append_left _ hpm, had⟩
          | altR hw =>
            obtain ⟨p, hpm, had⟩ := b1 w hw
            exact ⟨p, List.mem_append_right _ hpm, had⟩
        · intro p hpm hx
          rcases List.mem_append.1 hpm with hpm | hpm
          · exact .altL (a2 p hpm hx)
          · exact .altR (b2 p hpm hx)
  | star a ih =>
    intro s h
    simp only [reExtract] at h
    cases ha : reExtract limit a with
    | none => rw [ha] at h; cases h
    | some sa =>
      rw [ha] at h
      simp only [Option.bind_some] at h
      obtain ⟨a1, a2, a3⟩ := ih hp sa ha
      refine hl _ _ _ (LitsFor.dedup ?_) h
      refine ⟨?_, ?_, by simp⟩
      · intro w hw
        cases hw with
        | starNil => exact ⟨([], true), by simp, by simp [ReLit.admits]⟩
        | @starCons _ _ m m' _ h1 h2 =>
          obtain ⟨p, hpm, had⟩ := a1 m (h1.context hp _ _)
          refine ⟨(p.1, false), List.mem_append_left _ (List.mem_map.2 ⟨p, hpm, rfl⟩), ?_⟩
          unfold ReLit.admits at had ⊢
          simp only [Bool.false_eq_true, if_false]
          split at had
          · rw [had]; exact List.prefix_append _ _
          · exact had.trans (List.prefix_append _ _)
      · intro p hpm hx
        rcases List.mem_append.1 hpm with hpm | hpm
        · obtain ⟨q, _, rfl⟩ := List.mem_map.1 hpm
          simp at hx
        · simp only [List.mem_cons, List.not_mem_nil, or_false] at hpm
          subst hpm
          exact .starNil

/-- C57, restricted to valid patterns without assertions and empty character classes (missing because of
`C57_assertion_fails` and `C57_empty_class_fails`): a condition accepts exactly the values which the pattern matches as a whole,
no matter whether it was replaced by a search for an exact value. -/
theorem C57_regex_condition_partial {limit : List ReLit → Option (List ReLit)} (hl : LimitOk limit) {p : Str} {e : Re}
    (h : reParse p = some e) (hp : e.Plain) :
    ∃ cond, regexCondition limit p = some cond ∧ ∀ w, cond w ↔ e.Match [] w [] := by
  unfold regexCondition
  rw [h, Option.bind_some]
  cases hx : exactValue limit e with
  | none =>
    rw [reParse_full h]
    exact ⟨_, rfl, full_match_iff e⟩
  | some v =>
    refine ⟨_, rfl, ?_⟩
    unfold exactValue at hx
    cases hs : reExtract limit e with
    | none => rw [hs] at hx; cases hx
    | some s =>
      rw [hs] at hx
      obtain ⟨h1, h2, h3⟩ := reExtract_lits hl e hp s hs
      match s, hx, h1, h2, h3 with
      | [(t, true)], hx, h1, h2, _ =>
        obtain rfl := Option.some.inj hx
        intro w
        constructor
        · rintro rfl
          exact h2 _ (List.mem_singleton.2 rfl) rfl
        · intro hw
          obtain ⟨q, hq, had⟩ := h1 w hw
          simp only [List.mem_cons, List.not_mem_nil, or_false] at hq
          subst hq
          simpa [ReLit.admits] using had

/-- C57 fails with assertions: the pattern `a\bb` matches nothing, but is replaced by a search for the value `ab`. -/
theorem C57_assertion_fails :
    ∃ e, reParse "a\\bb".toList = some e ∧ (∀ w, ¬ e.Match [] w []) ∧
      ∃ cond, regexCondition some "a\\bb".toList = some cond ∧ cond "ab".toList := by
  refine ⟨.cat (.lit 'a') (.cat (.look .wordBoundary) (.cat (.lit 'b') .empty)), rfl, ?_, _, rfl, rfl⟩
  intro w h
  cases h with
  | cat h1 h2 =>
    cases h1
    cases h2 with
    | cat h3 h4 =>
      cases h3 with
      | look hb =>
        cases h4 with
        | cat h5 h6 =>
          cases h5
          cases h6
          revert hb
          decide

/-- C57 fails for an expression without any match, as `[a&&b]`: it is replaced by a search for the empty value. -/
theorem C57_empty_class_fails : exactValue some (.cls []) = some [] ∧ ∀ w, ¬ Re.Match (.cls []) [] w [] := by
  refine ⟨rfl, ?_⟩
  intro w h
  cases h with
  | cls hc => simp at hc

theorem C57_nonvacuous :
    LimitOk some ∧ (reParse "ab*|c\\.".toList).isSome = true ∧ (reParse "a/b".toList).bind (exactValue some) = some "a/b".toList := by
  refine ⟨?_, rfl, by decide⟩
  intro P s s' h hs
  obtain rfl := Option.some.inj hs
  exact h
