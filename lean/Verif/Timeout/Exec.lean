import Verif.Timeout.Model

/-!
# Execution nodes under a time limit

An iterator is exact for a list if its calls give the items of the list and then `none`, until from some call on every call gives the
time out error.
-/

namespace Timed

section
variable {S So Si N K E R : Type}

/-- Every call returns, and gives the time out error. -/
def Dead (late : Nat → Bool) (M : Mach S (TItem R E)) (s : S) : Prop :=
  ∃ P : S → Prop, P s ∧ ∀ s, P s → ∀ n, late n = true →
    (∃ x s' n', M s n x s' n') ∧ ∀ x s' n', M s n x s' n' → x = some timeout ∧ n ≤ n' ∧ P s'

/-- Every call returns. The calls give the items of the list, followed by `none`, until the limit is exceeded in a call that gives the
time out error, as do all calls after it. -/
def Exact (late : Nat → Bool) (M : Mach S (TItem R E)) (s : S) (l : List (TItem R E)) : Prop :=
  ∃ P : S → List (TItem R E) → Prop, P s l ∧ ∀ s l, P s l → ∀ n,
    (∃ x s' n', M s n x s' n') ∧ ∀ x s' n', M s n x s' n' → n ≤ n' ∧
      ((x = l.head? ∧ P s' l.tail) ∨ (x = some timeout ∧ late n' = true ∧ Dead late M s'))

variable {late : Nat → Bool} {M : Mach S (TItem R E)} {s : S} {l : List (TItem R E)}

theorem Dead.ex (h : Dead late M s) {n : Nat} (hn : late n = true) : ∃ x s' n', M s n x s' n' := by
  obtain ⟨P, hs, hp⟩ := h
  exact (hp s hs n hn).1

theorem Dead.all (h : Dead late M s) {n : Nat} (hn : late n = true) {x s' n'} (hm : M s n x s' n') :
    x = some timeout ∧ n ≤ n' ∧ Dead late M s' := by
  obtain ⟨P, hs, hp⟩ := h
  obtain ⟨h1, h2, h3⟩ := (hp s hs n hn).2 x s' n' hm
  exact ⟨h1, h2, P, h3, hp⟩

theorem Exact.ex (h : Exact late M s l) (n : Nat) : ∃ x s' n', M s n x s' n' := by
  obtain ⟨P, hs, hp⟩ := h
  exact (hp s l hs n).1

theorem Exact.all (h : Exact late M s l) {n x s' n'} (hm : M s n x s' n') :
    n ≤ n' ∧ ((x = l.head? ∧ Exact late M s' l.tail) ∨ (x = some timeout ∧ late n' = true ∧ Dead late M s')) := by
  obtain ⟨P, hs, hp⟩ := h
  obtain ⟨h1, h2⟩ := (hp s l hs n).2 x s' n' hm
  refine ⟨h1, h2.imp ?_ id⟩
  rintro ⟨h2, h3⟩
  exact ⟨h2, P, h3, hp⟩

theorem search_dead (hc : Clock late) (s : List (TItem R E)) :
    Dead late (fun s n x s' n' => searchNext late s n = (x, s', n')) s := by
  refine ⟨fun _ => True, trivial, ?_⟩
  intro s _ n hn
  refine ⟨⟨_, _, _, rfl⟩, ?_⟩
  intro x s' n' h
  simp only [searchNext, hn, if_true, Prod.mk.injEq] at h
  obtain ⟨h1, h2, h3⟩ := h
  exact ⟨h1.symm, by omega, trivial⟩

theorem search_exact (hc : Clock late) (l : List (TItem R E)) :
    Exact late (fun s n x s' n' => searchNext late s n = (x, s', n')) l l := by
  refine ⟨fun s l => s = l, rfl, ?_⟩
  rintro s l rfl n
  refine ⟨⟨_, _, _, rfl⟩, ?_⟩
  intro x s' n' h
  simp only [searchNext] at h
  split at h <;> simp only [Prod.mk.injEq] at h <;> obtain ⟨h1, h2, h3⟩ := h
  · next hn => exact ⟨by omega, .inr ⟨h1.symm, hc n n' (by omega) hn, search_dead hc s'⟩⟩
  · exact ⟨by omega, .inl ⟨h1.symm, h2.symm⟩⟩

theorem listNext_exact (late : Nat → Bool) (l : List (TItem R E)) : Exact late listNext l l := by
  refine ⟨fun s l => s = l, rfl, ?_⟩
  rintro s l rfl n
  refine ⟨⟨_, _, _, rfl, rfl, rfl⟩, ?_⟩
  rintro x s' n' ⟨h1, h2, h3⟩
  exact ⟨by omega, .inl ⟨h1, h2⟩⟩

/-! ## Filters -/

theorem filter_dead {f : TItem R E → Option (TItem R E)} (hf : f timeout = some timeout) (hc : Clock late) (h : Dead late M s) :
    Dead late (FilterNext f M) s := by
  refine ⟨Dead late M, h, ?_⟩
  intro s hs n hn
  refine ⟨?_, ?_⟩
  · obtain ⟨x, s', n', hm⟩ := hs.ex hn
    obtain ⟨rfl, -, -⟩ := hs.all hn hm
    exact ⟨_, _, _, .hit hm hf⟩
  · intro x s' n' hm
    induction hm with
    | stop hm => exact absurd (hs.all hn hm).1 (by simp)
    | hit hm hx =>
      obtain ⟨h1, h2, h3⟩ := hs.all hn hm
      cases h1
      rw [hf] at hx
      cases hx
      exact ⟨rfl, h2, h3⟩
    | miss hm hx _ ih =>
      obtain ⟨h1, h2, h3⟩ := hs.all hn hm
      cases h1
      rw [hf] at hx
      cases hx

theorem filter_ex {f : TItem R E → Option (TItem R E)} (hf : f timeout = some timeout) (hc : Clock late) :
    ∀ (l : List (TItem R E)) (s : S) (n : Nat), Exact late M s l → ∃ x s' n', FilterNext f M s n x s' n' := by
  intro l
  induction l with
  | nil =>
    intro s n h
    obtain ⟨x, s', n', hm⟩ := h.ex n
    obtain ⟨-, ⟨rfl, -⟩ | ⟨rfl, -, -⟩⟩ := h.all hm
    · exact ⟨_, _, _, .stop hm⟩
    · exact ⟨_, _, _, .hit hm hf⟩
  | cons a l ih =>
    intro s n h
    obtain ⟨x, s', n', hm⟩ := h.ex n
    obtain ⟨-, ⟨rfl, h2⟩ | ⟨rfl, -, -⟩⟩ := h.all hm
    · cases ha : f a with
      | some y => exact ⟨_, _, _, .hit hm ha⟩
      | none =>
        obtain ⟨x, s2, n2, h3⟩ := ih s' n' h2
        exact ⟨_, _, _, .miss hm ha h3⟩
    · exact ⟨_, _, _, .hit hm hf⟩

theorem filter_all {f : TItem R E → Option (TItem R E)} (hf : f timeout = some timeout) (hc : Clock late)
    {x s' n n'} (hm : FilterNext f M s n x s' n') : ∀ l, Exact late M s l → n ≤ n' ∧
      ((∃ l', Exact late M s' l' ∧ x = (l.filterMap f).head? ∧ l'.filterMap f = (l.filterMap f).tail) ∨
        (x = some timeout ∧ late n' = true ∧ Dead late (FilterNext f M) s')) := by
  induction hm with
  | stop hm =>
    intro l h
    obtain ⟨h0, ⟨h1, h2⟩ | ⟨h1, -, -⟩⟩ := h.all hm
    · cases l with
      | nil => exact ⟨h0, .inl ⟨_, h2, rfl, rfl⟩⟩
      | cons a l => simp at h1
    · simp at h1
  | hit hm hx =>
    intro l h
    obtain ⟨h0, ⟨h1, h2⟩ | ⟨h1, h2, h3⟩⟩ := h.all hm
    · cases l with
      | nil => simp at h1
      | cons a l =>
        simp only [List.head?_cons, Option.some.injEq] at h1
        subst h1
        exact ⟨h0, .inl ⟨_, h2, by simp [hx], by simp [hx]⟩⟩
    · cases h1
      rw [hf] at hx
      cases hx
      exact ⟨h0, .inr ⟨rfl, h2, filter_dead hf hc h3⟩⟩
  | miss hm hx _ ih =>
    intro l h
    obtain ⟨h0, ⟨h1, h2⟩ | ⟨h1, h2, h3⟩⟩ := h.all hm
    · cases l with
      | nil => simp at h1
      | cons a l =>
        simp only [List.head?_cons, Option.some.injEq] at h1
        subst h1
        obtain ⟨h4, h5⟩ := ih _ h2
        refine ⟨by omega, ?_⟩
        simpa [List.filterMap_cons, hx] using h5
    · cases h1
      rw [hf] at hx
      cases hx

theorem filter_exact {f : TItem R E → Option (TItem R E)} (hf : f timeout = some timeout) (hc : Clock late)
    (h : Exact late M s l) : Exact late (FilterNext f M) s (l.filterMap f) := by
  refine ⟨fun s l => ∃ l0, Exact late M s l0 ∧ l = l0.filterMap f, ⟨l, h, rfl⟩, ?_⟩
  rintro s l ⟨l0, h, rfl⟩ n
  refine ⟨filter_ex hf hc l0 s n h, ?_⟩
  intro x s' n' hm
  obtain ⟨h1, h2⟩ := filter_all hf hc hm l0 h
  refine ⟨h1, h2.imp ?_ id⟩
  rintro ⟨l', h3, h4, h5⟩
  exact ⟨h4, l', h3, h5.symm⟩

/-! ## Peeking -/

/-- The items that are left, with the one that was peeked. -/
def PEx (late : Nat → Bool) (M : Mach S (TItem R E)) (p : S × Option (Option (TItem R E))) (l : List (TItem R E)) : Prop :=
  match p.2 with
  | none => Exact late M p.1 l
  | some x => x = l.head? ∧ Exact late M p.1 l.tail

theorem peek_ex {p : S × Option (Option (TItem R E))} (h : PEx late M p l) (n : Nat) : ∃ x p' n', Peek M p n x p' n' := by
  obtain ⟨s, q⟩ := p
  cases q with
  | none =>
    obtain ⟨x, s', n', hm⟩ := Exact.ex h n
    exact ⟨_, _, _, .fetch hm⟩
  | some x => exact ⟨_, _, _, .peeked⟩

theorem peek_all {p p' : S × Option (Option (TItem R E))} {n x n'} (h : PEx late M p l) (hp : Peek M p n x p' n') :
    n ≤ n' ∧ p'.2 = some x ∧ ((x = l.head? ∧ PEx late M p' l) ∨ (x = some timeout ∧ late n' = true ∧ Dead late M p'.1)) := by
  cases hp with
  | peeked => exact ⟨le_refl _, rfl, .inl ⟨h.1, h⟩⟩
  | fetch hm =>
    obtain ⟨h1, h2⟩ := Exact.all h hm
    refine ⟨h1, rfl, h2.imp ?_ id⟩
    rintro ⟨h3, h4⟩
    exact ⟨h3, h3, h4⟩

theorem pnext_of_peeked {p p' : S × Option (Option (TItem R E))} {n x y n'} (hx : p.2 = some x) (hp : PNext M p n y p' n') :
    y = x ∧ n' = n ∧ p' = (p.1, none) := by
  cases hp with
  | peeked => cases hx; exact ⟨rfl, rfl, rfl⟩
  | fetch _ => cases hx

theorem pnext_peeked {p : S × Option (Option (TItem R E))} {n x} (hx : p.2 = some x) : PNext M p n x (p.1, none) n := by
  obtain ⟨s, q⟩ := p
  cases hx
  exact .peeked

theorem pex_pop {p : S × Option (Option (TItem R E))} {x} (h : PEx late M p l) (hx : p.2 = some x) :
    PEx late M (p.1, none) l.tail := by
  obtain ⟨s, q⟩ := p
  cases hx
  exact h.2

/-! ## The nested loop -/

variable [DecidableEq N] [DecidableEq K] {c : NlConf N K (TErr E)} {Mo : Mach So (Item N K (TErr E))}
  {Mi : Mach Si (Item N K (TErr E))}

theorem scanInner_all {o : Row N K} {s : Si} {cache n r s' cache' n'} (h : ScanInner c Mi o s cache n r s' cache' n') :
    ∀ li, Exact late Mi s li → n ≤ n' ∧ ((∃ li', c.scanInner o li cache = (r, li', cache') ∧ Exact late Mi s' li') ∨
      (r = some timeout ∧ late n' = true ∧ Dead late Mi s')) := by
  induction h with
  | stop hm =>
    intro li h
    obtain ⟨h0, ⟨h1, h2⟩ | ⟨h1, -, -⟩⟩ := h.all hm
    · cases li with
      | nil => exact ⟨h0, .inl ⟨[], rfl, h2⟩⟩
      | cons a l => simp at h1
    · simp at h1
  | err hm =>
    intro li h
    obtain ⟨h0, ⟨h1, h2⟩ | ⟨h1, h2, h3⟩⟩ := h.all hm
    · cases li with
      | nil => simp at h1
      | cons a l =>
        simp only [List.head?_cons, Option.some.injEq] at h1
        subst h1
        exact ⟨h0, .inl ⟨l, rfl, h2⟩⟩
    · exact ⟨h0, .inr ⟨h1, h2, h3⟩⟩
  | fail hm hf =>
    intro li h
    obtain ⟨h0, ⟨h1, h2⟩ | ⟨h1, h2, h3⟩⟩ := h.all hm
    · cases li with
      | nil => simp at h1
      | cons a l =>
        simp only [List.head?_cons, Option.some.injEq] at h1
        subst h1
        exact ⟨h0, .inl ⟨l, by simp [NlConf.scanInner, hf], h2⟩⟩
    · cases h1
  | hit hm hf =>
    intro li h
    obtain ⟨h0, ⟨h1, h2⟩ | ⟨h1, h2, h3⟩⟩ := h.all hm
    · cases li with
      | nil => simp at h1
      | cons a l =>
        simp only [List.head?_cons, Option.some.injEq] at h1
        subst h1
        exact ⟨h0, .inl ⟨l, by simp [NlConf.scanInner, hf], h2⟩⟩
    · cases h1
  | miss hm hf _ ih =>
    intro li h
    obtain ⟨h0, ⟨h1, h2⟩ | ⟨h1, h2, h3⟩⟩ := h.all hm
    · cases li with
      | nil => simp at h1
      | cons a l =>
        simp only [List.head?_cons, Option.some.injEq] at h1
        subst h1
        obtain ⟨h4, h5⟩ := ih l h2
        refine ⟨by omega, ?_⟩
        simpa [NlConf.scanInner, hf] using h5
    · cases h1

theorem scanInner_ex {o : Row N K} : ∀ (li : List (Item N K (TErr E))) (s : Si) (cache : List (Row N K)) (n : Nat),
    Exact late Mi s li → ∃ r s' cache' n', ScanInner c Mi o s cache n r s' cache' n' := by
  intro li
  induction li with
  | nil =>
    intro s cache n h
    obtain ⟨x, s', n', hm⟩ := h.ex n
    obtain ⟨-, ⟨rfl, -⟩ | ⟨rfl, -, -⟩⟩ := h.all hm
    · exact ⟨_, _, _, _, .stop hm⟩
    · exact ⟨_, _, _, _, .err hm⟩
  | cons a l ih =>
    intro s cache n h
    obtain ⟨x, s', n', hm⟩ := h.ex n
    obtain ⟨-, ⟨rfl, h2⟩ | ⟨rfl, -, -⟩⟩ := h.all hm
    · cases a with
      | error e => exact ⟨_, _, _, _, .err hm⟩
      | ok i =>
        cases hf : c.pairFirst o i with
        | error e => exact ⟨_, _, _, _, .fail hm hf⟩
        | ok b =>
          cases b with
          | true => exact ⟨_, _, _, _, .hit hm hf⟩
          | false =>
            obtain ⟨r, s2, c2, n2, h3⟩ := ih s' (cache ++ [i]) n' h2
            exact ⟨_, _, _, _, .miss hm hf h3⟩
    · exact ⟨_, _, _, _, .err hm⟩

/-- The states in which a nested loop only gives the time out error. -/
def NlDead (late : Nat → Bool) (Mo : Mach So (Item N K (TErr E))) (Mi : Mach Si (Item N K (TErr E))) (s : TNl So Si N K E) : Prop :=
  (∃ o, s.outer.2 = some (some (.ok o)) ∧ s.pos = none ∧ Dead late Mi s.inner) ∨ (s.outer.2 = none ∧ Dead late Mo s.outer.1)

theorem scanInner_dead {o : Row N K} {s : Si} {cache n r s' cache' n'} (hd : Dead late Mi s) (hn : late n = true)
    (h : ScanInner c Mi o s cache n r s' cache' n') : r = some timeout ∧ n ≤ n' ∧ Dead late Mi s' := by
  cases h with
  | stop hm => exact absurd (hd.all hn hm).1 (by simp)
  | err hm => exact hd.all hn hm
  | fail hm _ => have := (hd.all hn hm).1; cases this
  | hit hm _ => have := (hd.all hn hm).1; cases this
  | miss hm _ _ => have := (hd.all hn hm).1; cases this

theorem nl_dead (hc : Clock late) {s : TNl So Si N K E} (h : NlDead late Mo Mi s) : Dead late (NlNext c Mo Mi) s := by
  refine ⟨NlDead late Mo Mi, h, ?_⟩
  intro s hs n hn
  obtain ⟨⟨so, q⟩, si, cache, pos⟩ := s
  obtain ⟨o, h1, h2, h3⟩ | ⟨h1, h2⟩ := hs
  · cases h1
    cases h2
    refine ⟨?_, ?_⟩
    · obtain ⟨x, s', n', hm⟩ := h3.ex hn
      obtain ⟨rfl, -, -⟩ := h3.all hn hm
      exact ⟨_, _, _, .ret (.innerHit .peeked (.err hm))⟩
    · intro x s' n' hm
      cases hm with
      | ret hb =>
        cases hb with
        | innerHit hp hsc =>
          cases hp
          obtain ⟨h4, h5, h6⟩ := scanInner_dead h3 hn hsc
          exact ⟨h4, h5, .inl ⟨o, rfl, rfl, h6⟩⟩
      | stop hb _ =>
        cases hb with
        | innerEnd hp hsc => cases hp; exact absurd (scanInner_dead h3 hn hsc).1 (by simp)
        | skip hp hr => cases hp; simp [isRow] at hr
      | err hb _ =>
        cases hb with
        | innerEnd hp hsc => cases hp; exact absurd (scanInner_dead h3 hn hsc).1 (by simp)
        | skip hp hr => cases hp; simp [isRow] at hr
      | again hb _ _ =>
        cases hb with
        | innerEnd hp hsc => cases hp; exact absurd (scanInner_dead h3 hn hsc).1 (by simp)
        | skip hp hr => cases hp; simp [isRow] at hr
  · cases h1
    refine ⟨?_, ?_⟩
    · obtain ⟨x, s', n', hm⟩ := h2.ex hn
      obtain ⟨rfl, -, -⟩ := h2.all hn hm
      exact ⟨_, _, _, .err (.skip (.fetch hm) rfl) .peeked⟩
    · have key : ∀ {x outer' n'}, Peek Mo (so, none) n x outer' n' →
          x = some timeout ∧ n ≤ n' ∧ outer'.2 = some (some timeout) ∧ Dead late Mo outer'.1 := by
        intro x outer' n' hp
        cases hp with
        | fetch hm =>
          obtain ⟨rfl, h4, h5⟩ := h2.all hn hm
          exact ⟨rfl, h4, rfl, h5⟩
      have body : ∀ {r s1 n1}, NlBody c Mo Mi ⟨(so, none), si, cache, pos⟩ n r s1 n1 →
          r = none ∧ n ≤ n1 ∧ s1.outer.2 = some (some timeout) ∧ Dead late Mo s1.outer.1 := by
        intro r s1 n1 hb
        cases hb with
        | cacheHit hp _ => have := (key hp).1; cases this
        | cacheEnd hp _ => have := (key hp).1; cases this
        | innerHit hp _ => have := (key hp).1; cases this
        | innerEnd hp _ => have := (key hp).1; cases this
        | skip hp _ => obtain ⟨-, h5, h6, h7⟩ := key hp; exact ⟨rfl, h5, h6, h7⟩
      intro x s' n' hm
      cases hm with
      | ret hb => exact absurd (body hb).1 (by simp)
      | stop hb hp =>
        obtain ⟨-, h4, h5, h6⟩ := body hb
        exact absurd (pnext_of_peeked h5 hp).1 (by simp)
      | err hb hp =>
        obtain ⟨-, h4, h5, h6⟩ := body hb
        obtain ⟨h7, rfl, rfl⟩ := pnext_of_peeked h5 hp
        exact ⟨h7, h4, .inr ⟨rfl, h6⟩⟩
      | again hb hp _ =>
        obtain ⟨-, h4, h5, h6⟩ := body hb
        have := (pnext_of_peeked h5 hp).1
        cases this

/-- The state of the nested loop belongs to a state of the nested loop over lists. -/
def NlLive (late : Nat → Bool) (Mo : Mach So (Item N K (TErr E))) (Mi : Mach Si (Item N K (TErr E))) (s : TNl So Si N K E)
    (st : NlState N K (TErr E)) : Prop :=
  PEx late Mo s.outer st.outer ∧ Exact late Mi s.inner st.inner ∧ s.cache = st.cache ∧ s.pos = st.pos

theorem nlBody_all (hc : Clock late) {s : TNl So Si N K E} {n r s1 n1} (h : NlBody c Mo Mi s n r s1 n1) {st : NlState N K (TErr E)}
    (hl : NlLive late Mo Mi s st) : n ≤ n1 ∧
      ((∃ x st', r = some x ∧ c.next st = (some x, st') ∧ NlLive late Mo Mi s1 st') ∨
       (∃ o os inner cache, r = none ∧ st.outer = .ok o :: os ∧ s1.outer.2 = some (some (.ok o)) ∧
          c.next st = c.next ⟨os, inner, cache, some 0⟩ ∧ NlLive late Mo Mi ⟨(s1.outer.1, none), s1.inner, s1.cache, s1.pos⟩
            ⟨os, inner, cache, some 0⟩) ∨
       (r = none ∧ isRow st.outer.head? = false ∧ s1.outer.2 = some st.outer.head? ∧ NlLive late Mo Mi s1 st) ∨
       (r = some timeout ∧ late n1 = true ∧ NlDead late Mo Mi s1) ∨
       (r = none ∧ s1.outer.2 = some (some timeout) ∧ late n1 = true ∧ Dead late Mo s1.outer.1)) := by
  obtain ⟨lo, li, lc, lp⟩ := st
  obtain ⟨ho, hi, hcache, hpos⟩ := hl
  cases h with
  | @cacheHit outer inner cache p n o outer' n' r p' hp hs =>
    simp only at ho hi hcache hpos
    subst hcache
    subst hpos
    obtain ⟨h1, h2, ⟨h3, h4⟩ | ⟨h3, -, -⟩⟩ := peek_all ho hp
    · refine ⟨h1, .inl ?_⟩
      cases lo with
      | nil => simp at h3
      | cons a os =>
        simp only [List.head?_cons, Option.some.injEq] at h3
        subst h3
        refine ⟨r, ⟨.ok o :: os, li, cache, some p'⟩, rfl, ?_, h4, hi, rfl, rfl⟩
        rw [NlConf.next, hs]
    · cases h3
  | @cacheEnd outer inner cache p n o outer' n' hp hs =>
    simp only at ho hi hcache hpos
    subst hcache
    subst hpos
    obtain ⟨h1, h2, ⟨h3, h4⟩ | ⟨h3, -, -⟩⟩ := peek_all ho hp
    · refine ⟨h1, .inr (.inl ?_)⟩
      cases lo with
      | nil => simp at h3
      | cons a os =>
        simp only [List.head?_cons, Option.some.injEq] at h3
        subst h3
        refine ⟨o, os, li, cache, rfl, rfl, h2, ?_, pex_pop h4 h2, hi, rfl, rfl⟩
        rw [NlConf.next, hs]
    · cases h3
  | @innerHit outer inner cache n o outer' n1 r inner' cache' n' hp hs =>
    simp only at ho hi hcache hpos
    subst hcache
    subst hpos
    obtain ⟨h1, h2, ⟨h3, h4⟩ | ⟨h3, -, -⟩⟩ := peek_all ho hp
    · obtain ⟨h5, ⟨li', h6, h7⟩ | ⟨h6, h7, h8⟩⟩ := scanInner_all hs li hi
      · refine ⟨by omega, .inl ?_⟩
        cases lo with
        | nil => simp at h3
        | cons a os =>
          simp only [List.head?_cons, Option.some.injEq] at h3
          subst h3
          refine ⟨r, ⟨.ok o :: os, li', cache', none⟩, rfl, ?_, h4, h7, rfl, rfl⟩
          rw [NlConf.next, h6]
      · refine ⟨by omega, .inr (.inr (.inr (.inl ⟨h6, h7, .inl ⟨o, h2, rfl, h8⟩⟩)))⟩
    · cases h3
  | @innerEnd outer inner cache n o outer' n1 inner' cache' n' hp hs =>
    simp only at ho hi hcache hpos
    subst hcache
    subst hpos
    obtain ⟨h1, h2, ⟨h3, h4⟩ | ⟨h3, -, -⟩⟩ := peek_all ho hp
    · obtain ⟨h5, ⟨li', h6, h7⟩ | ⟨h6, h7, h8⟩⟩ := scanInner_all hs li hi
      · refine ⟨by omega, .inr (.inl ?_)⟩
        cases lo with
        | nil => simp at h3
        | cons a os =>
          simp only [List.head?_cons, Option.some.injEq] at h3
          subst h3
          refine ⟨o, os, li', cache', rfl, rfl, h2, ?_, pex_pop h4 h2, h7, rfl, rfl⟩
          rw [NlConf.next, h6]
      · cases h6
    · cases h3
  | @skip outer inner cache pos n x outer' n' hp hr =>
    simp only at ho hi hcache hpos
    subst hcache
    subst hpos
    obtain ⟨h1, h2, ⟨h3, h4⟩ | ⟨h3, h4, h5⟩⟩ := peek_all ho hp
    · subst h3
      exact ⟨h1, .inr (.inr (.inl ⟨rfl, hr, h2, h4, hi, rfl, rfl⟩))⟩
    · subst h3
      exact ⟨h1, .inr (.inr (.inr (.inr ⟨rfl, h2, h4, h5⟩)))⟩

theorem nl_next_none {inner : List (Item N K (TErr E))} {cache pos} :
    c.next ⟨[], inner, cache, pos⟩ = (none, ⟨[], inner, cache, pos⟩) := by
  rw [NlConf.next]

theorem nl_next_error {e : Fail (TErr E)} {os inner : List (Item N K (TErr E))} {cache pos} :
    c.next ⟨.error e :: os, inner, cache, pos⟩ = (some (.error e), ⟨os, inner, cache, pos⟩) := by
  rw [NlConf.next]

theorem nl_all (hc : Clock late) {s : TNl So Si N K E} {n r s' n'} (h : NlNext c Mo Mi s n r s' n') :
    ∀ st, NlLive late Mo Mi s st → n ≤ n' ∧ ((∃ st', c.next st = (r, st') ∧ NlLive late Mo Mi s' st') ∨
      (r = some timeout ∧ late n' = true ∧ NlDead late Mo Mi s')) := by
  induction h with
  | ret hb =>
    intro st hl
    obtain ⟨h0, h⟩ := nlBody_all hc hb hl
    refine ⟨h0, ?_⟩
    obtain ⟨x, st', h1, h2, h3⟩ | ⟨_, _, _, _, h1, _⟩ | ⟨h1, _⟩ | ⟨h1, h2, h3⟩ | ⟨h1, _⟩ := h
    · cases h1; exact .inl ⟨st', h2, h3⟩
    · cases h1
    · cases h1
    · exact .inr ⟨h1, h2, h3⟩
    · cases h1
  | @stop s n outer inner cache pos n1 outer' n' hb hp =>
    intro st hl
    obtain ⟨h0, h⟩ := nlBody_all hc hb hl
    obtain ⟨x, st', h1, h2, h3⟩ | ⟨_, _, _, _, h1, _, h3, _⟩ | ⟨h1, h2, h3, h4⟩ | ⟨h1, h2, h3⟩ | ⟨h1, h2, _⟩ := h
    · cases h1
    · have := (pnext_of_peeked h3 hp).1; cases this
    · obtain ⟨h5, rfl, rfl⟩ := pnext_of_peeked h3 hp
      refine ⟨h0, .inl ⟨st, ?_, ?_⟩⟩
      · obtain ⟨lo, li, lc, lp⟩ := st
        cases lo with
        | nil => exact nl_next_none
        | cons a os => simp at h5
      · obtain ⟨h6, h7, h8, h9⟩ := h4
        refine ⟨?_, h7, h8, h9⟩
        have := pex_pop h6 h3
        obtain ⟨lo, li, lc, lp⟩ := st
        cases lo with
        | nil => exact this
        | cons a os => simp at h5
    · cases h1
    · have := (pnext_of_peeked h2 hp).1; cases this
  | @err s n outer inner cache pos n1 e outer' n' hb hp =>
    intro st hl
    obtain ⟨h0, h⟩ := nlBody_all hc hb hl
    obtain ⟨x, st', h1, h2, h3⟩ | ⟨_, _, _, _, h1, _, h3, _⟩ | ⟨h1, h2, h3, h4⟩ | ⟨h1, h2, h3⟩ | ⟨h1, h2, h3, h4⟩ := h
    · cases h1
    · have := (pnext_of_peeked h3 hp).1; cases this
    · obtain ⟨h5, rfl, rfl⟩ := pnext_of_peeked h3 hp
      obtain ⟨lo, li, lc, lp⟩ := st
      cases lo with
      | nil => simp at h5
      | cons a os =>
        simp only [List.head?_cons, Option.some.injEq] at h5
        subst h5
        obtain ⟨h6, h7, h8, h9⟩ := h4
        refine ⟨h0, .inl ⟨⟨os, li, lc, lp⟩, nl_next_error, pex_pop h6 h3, h7, h8, h9⟩⟩
    · cases h1
    · obtain ⟨h5, rfl, rfl⟩ := pnext_of_peeked h2 hp
      exact ⟨h0, .inr ⟨h5, h3, .inr ⟨rfl, h4⟩⟩⟩
  | @again s n outer inner cache pos n1 o outer' n2 r s' n' hb hp _ ih =>
    intro st hl
    obtain ⟨h0, h⟩ := nlBody_all hc hb hl
    obtain ⟨x, st', h1, h2, h3⟩ | ⟨o', os, li, lc, h1, h2, h3, h4, h5⟩ | ⟨h1, h2, h3, h4⟩ | ⟨h1, h2, h3⟩ | ⟨h1, h2, h3, h4⟩ := h
    · cases h1
    · obtain ⟨h6, rfl, rfl⟩ := pnext_of_peeked h3 hp
      obtain ⟨h7, h8⟩ := ih _ h5
      refine ⟨by omega, ?_⟩
      rw [h4]
      exact h8
    · obtain ⟨h5, -, -⟩ := pnext_of_peeked h3 hp
      rw [← h5] at h2
      simp [isRow] at h2
    · cases h1
    · have := (pnext_of_peeked h2 hp).1; cases this

theorem nl_ex (hc : Clock late) : ∀ (k : Nat) (s : TNl So Si N K E) (st : NlState N K (TErr E)) (n : Nat), st.outer.length = k →
    NlLive late Mo Mi s st → ∃ x s' n', NlNext c Mo Mi s n x s' n' := by
  intro k
  induction k with
  | zero =>
    intro s st n hk hl
    obtain ⟨outer, inner, cache, pos⟩ := s
    obtain ⟨x, p', n1, hp⟩ := peek_ex hl.1 n
    obtain ⟨h1, h2, ⟨h3, h4⟩ | ⟨h3, h4, h5⟩⟩ := peek_all hl.1 hp
    · rw [List.length_eq_zero_iff.1 hk] at h3
      subst h3
      exact ⟨_, _, _, .stop (.skip hp rfl) (pnext_peeked h2)⟩
    · subst h3
      exact ⟨_, _, _, .err (.skip hp rfl) (pnext_peeked h2)⟩
  | succ k ih =>
    intro s st n hk hl
    have hl' := hl
    obtain ⟨outer, inner, cache, pos⟩ := s
    obtain ⟨x, p', n1, hp⟩ := peek_ex hl.1 n
    have again : ∀ {o outer1 inner1 cache1 pos1 n1}, outer1.2 = some (some (.ok o)) →
        NlBody c Mo Mi ⟨outer, inner, cache, pos⟩ n none ⟨outer1, inner1, cache1, pos1⟩ n1 →
        ∃ x s' n', NlNext c Mo Mi ⟨outer, inner, cache, pos⟩ n x s' n' := by
      intro o outer1 inner1 cache1 pos1 n1 ho hb
      obtain ⟨-, h⟩ := nlBody_all hc hb hl'
      obtain ⟨x, st', h1, h2, h3⟩ | ⟨o', os, li, lc, h1, h2, h3, h4, h5⟩ | ⟨h1, h2, h3, h4⟩ | ⟨h1, h2, h3⟩ | ⟨h1, h2, h3, h4⟩ := h
      · cases h1
      · obtain ⟨x, s', n', h6⟩ := ih _ _ n1 (by rw [h2] at hk; simpa using hk) h5
        exact ⟨x, s', n', .again hb (pnext_peeked ho) h6⟩
      · rw [ho] at h3
        rw [← Option.some.inj h3] at h2
        simp [isRow] at h2
      · cases h1
      · rw [ho] at h2; cases h2
    obtain ⟨h1, h2, ⟨h3, h4⟩ | ⟨h3, h4, h5⟩⟩ := peek_all hl.1 hp
    · obtain ⟨lo, li, lc, lp⟩ := st
      cases lo with
      | nil => simp at hk
      | cons a os =>
        simp only [List.head?_cons] at h3
        subst h3
        cases a with
        | error e => exact ⟨_, _, _, .err (.skip hp rfl) (pnext_peeked h2)⟩
        | ok o =>
          cases pos with
          | some p =>
            cases hs : c.scanCache o (cache.drop p) p with
            | some q => exact ⟨_, _, _, .ret (.cacheHit hp (by rw [hs]))⟩
            | none => exact again h2 (.cacheEnd hp hs)
          | none =>
            obtain ⟨r, s', cache', n', hsc⟩ := scanInner_ex (c := c) (o := o) li inner cache n1 hl.2.1
            cases r with
            | some r => exact ⟨_, _, _, .ret (.innerHit hp hsc)⟩
            | none => exact again h2 (.innerEnd hp hsc)
    · subst h3
      exact ⟨_, _, _, .err (.skip hp rfl) (pnext_peeked h2)⟩

theorem nl_fused : ∀ (k : Nat) (st st' : NlState N K (TErr E)), st.outer.length = k → c.next st = (none, st') →
    c.next st' = (none, st') := by
  intro k
  induction k with
  | zero =>
    intro st st' hk h
    obtain ⟨lo, li, lc, lp⟩ := st
    cases List.length_eq_zero_iff.1 hk
    rw [nl_next_none] at h
    cases h
    exact nl_next_none
  | succ k ih =>
    intro st st' hk h
    obtain ⟨lo, li, lc, lp⟩ := st
    cases lo with
    | nil => simp at hk
    | cons a os =>
      have hk' : os.length = k := by simpa using hk
      cases a with
      | error e => rw [nl_next_error] at h; simp at h
      | ok o =>
        cases lp with
        | some p =>
          rw [NlConf.next] at h
          cases hs : c.scanCache o (lc.drop p) p with
          | some q => rw [hs] at h; simp at h
          | none => rw [hs] at h; exact ih _ _ hk' h
        | none =>
          rw [NlConf.next] at h
          rcases hq : c.scanInner o li lc with ⟨r, li', lc'⟩
          rw [hq] at h
          cases r with
          | some r => simp at h
          | none => exact ih _ _ hk' h

theorem runs_head_tail {σ α : Type} {next : σ → Option α × σ} (hf : ∀ s s', next s = (none, s') → next s' = (none, s')) {s : σ}
    {l : List α} (h : Runs next s l) {r s'} (hr : next s = (r, s')) : r = l.head? ∧ Runs next s' l.tail := by
  cases h with
  | done h1 =>
    rw [h1] at hr
    cases hr
    exact ⟨rfl, .done (hf _ _ h1)⟩
  | step h1 h2 =>
    rw [h1] at hr
    cases hr
    exact ⟨rfl, h2⟩

theorem nl_exact (hc : Clock late) {so : So} {si : Si} {lo li l : List (Item N K (TErr E))} (ho : Exact late Mo so lo)
    (hi : Exact late Mi si li) (hr : Runs c.next (nlStart lo li) l) :
    Exact late (NlNext c Mo Mi) (⟨(so, none), si, [], none⟩ : TNl So Si N K E) l := by
  refine ⟨fun s l => ∃ st, NlLive late Mo Mi s st ∧ Runs c.next st l, ⟨nlStart lo li, ⟨ho, hi, rfl, rfl⟩, hr⟩, ?_⟩
  rintro s l ⟨st, hl, hr⟩ n
  refine ⟨nl_ex hc _ s st n rfl hl, ?_⟩
  intro x s' n' hm
  obtain ⟨h1, ⟨st', h2, h3⟩ | ⟨h2, h3, h4⟩⟩ := nl_all hc hm st hl
  · obtain ⟨h4, h5⟩ := runs_head_tail (fun a b => nl_fused _ a b rfl) hr h2
    exact ⟨h1, .inl ⟨h4, st', h3, h5⟩⟩
  · exact ⟨h1, .inr ⟨h2, h3, nl_dead hc h4⟩⟩

/-! ## The index join -/

variable {ci : IjConf N K (TErr E)} {Ml : Mach S (Item N K (TErr E))}

theorem nextCandidates_head (l : List (Item N K (TErr E))) : ci.nextCandidates l = ci.nextCandidates l.head?.toList := by
  cases l with
  | nil => rfl
  | cons a l => cases a <;> rfl

/-- The states in which an index join only gives the time out error. -/
def IjDead (late : Nat → Bool) (M : Mach S (Item N K (TErr E))) (s : TIj S N K E) : Prop := s.lhs.2 = none ∧ Dead late M s.lhs.1

/-- The state of the index join belongs to a state of the index join over lists. -/
def IjLive (late : Nat → Bool) (M : Mach S (Item N K (TErr E))) (s : TIj S N K E) (st : IjState N K (TErr E)) : Prop :=
  PEx late M s.lhs st.lhs ∧ s.cand = st.cand

theorem ijLoop_peeked {s : TIj S N K E} {n r s' n'} (h : IjLoop ci Ml s n r s' n') (hs : s.lhs.2 = some (some timeout))
    (hd : Dead late Ml s.lhs.1) : r = some timeout ∧ n ≤ n' ∧ IjDead late Ml s' := by
  have key : ∀ {p : S × Option (Option (Item N K (TErr E)))} {x p' n'}, p.2 = some (some timeout) → Peek Ml p n x p' n' →
      x = some timeout ∧ n' = n ∧ p' = p := by
    intro p x p' n' hp hk
    cases hk with
    | peeked => cases hp; exact ⟨rfl, rfl, rfl⟩
    | fetch _ => cases hp
  cases h with
  | noCand hp => have := (key hs hp).1; cases this
  | hit hp _ => have := (key hs hp).1; cases this
  | nextRow hp _ _ _ _ _ => have := (key hs hp).1; cases this
  | candErr hp _ _ _ _ => have := (key hs hp).1; cases this
  | stop hp _ hn =>
    obtain ⟨-, rfl, rfl⟩ := key hs hp
    have := (pnext_of_peeked hs hn).1
    cases this
  | err hp _ hn =>
    obtain ⟨-, rfl, rfl⟩ := key hs hp
    obtain ⟨h1, rfl, rfl⟩ := pnext_of_peeked hs hn
    exact ⟨h1, le_refl _, rfl, hd⟩

theorem ij_dead (hc : Clock late) {s : TIj S N K E} (h : IjDead late Ml s) : Dead late (IjNext ci Ml) s := by
  refine ⟨IjDead late Ml, h, ?_⟩
  intro s hs n hn
  obtain ⟨⟨sl, q⟩, cand⟩ := s
  obtain ⟨h1, h2⟩ := hs
  cases h1
  have key : ∀ {x p' n'}, Peek Ml (sl, none) n x p' n' →
      x = some timeout ∧ n ≤ n' ∧ p'.2 = some (some timeout) ∧ Dead late Ml p'.1 := by
    intro x p' n' hp
    cases hp with
    | fetch hm =>
      obtain ⟨rfl, h4, h5⟩ := h2.all hn hm
      exact ⟨rfl, h4, rfl, h5⟩
  refine ⟨?_, ?_⟩
  · obtain ⟨x, s', n', hm⟩ := h2.ex hn
    obtain ⟨rfl, -, -⟩ := h2.all hn hm
    cases cand with
    | some cs => exact ⟨_, _, _, .run (.err (.fetch hm) rfl .peeked)⟩
    | none => exact ⟨_, _, _, .init (.fetch hm) rfl (.err .peeked rfl .peeked)⟩
  · intro x s' n' hm
    cases hm with
    | run hl =>
      cases hl with
      | hit hp _ => have := (key hp).1; cases this
      | nextRow hp _ _ _ _ _ => have := (key hp).1; cases this
      | candErr hp _ _ _ _ => have := (key hp).1; cases this
      | stop hp _ hp2 =>
        obtain ⟨-, h4, h5, h6⟩ := key hp
        have := (pnext_of_peeked h5 hp2).1
        cases this
      | err hp _ hp2 =>
        obtain ⟨-, h4, h5, h6⟩ := key hp
        obtain ⟨h7, rfl, rfl⟩ := pnext_of_peeked h5 hp2
        exact ⟨h7, h4, rfl, h6⟩
    | init hp hcand hl =>
      obtain ⟨-, h4, h5, h6⟩ := key hp
      obtain ⟨h7, h8, h9⟩ := ijLoop_peeked hl h5 h6
      exact ⟨h7, by omega, h9⟩
    | initErr hp hcand =>
      obtain ⟨rfl, -, -, -⟩ := key hp
      cases hcand

theorem ijLoop_all (hc : Clock late) {s : TIj S N K E} {n r s' n'} (h : IjLoop ci Ml s n r s' n') :
    ∀ st, IjLive late Ml s st → n ≤ n' ∧ ((∃ st', ci.loop st = (r, st') ∧ IjLive late Ml s' st') ∨
      (r = some timeout ∧ late n' = true ∧ IjDead late Ml s')) := by
  induction h with
  | @noCand lhs n l lhs' n' hp =>
    rintro ⟨ls, cand⟩ ⟨h1, h2⟩
    simp only at h1 h2
    subst h2
    obtain ⟨h3, h4, ⟨h5, h6⟩ | ⟨h5, -, -⟩⟩ := peek_all h1 hp
    · cases ls with
      | nil => simp at h5
      | cons a ls =>
        simp only [List.head?_cons, Option.some.injEq] at h5
        subst h5
        exact ⟨h3, .inl ⟨⟨.ok l :: ls, none⟩, by rw [IjConf.loop], h6, rfl⟩⟩
    · cases h5
  | @hit lhs n l lhs' n' cs r cs' hp hs =>
    rintro ⟨ls, cand⟩ ⟨h1, h2⟩
    simp only at h1 h2
    subst h2
    obtain ⟨h3, h4, ⟨h5, h6⟩ | ⟨h5, -, -⟩⟩ := peek_all h1 hp
    · cases ls with
      | nil => simp at h5
      | cons a ls =>
        simp only [List.head?_cons, Option.some.injEq] at h5
        subst h5
        exact ⟨h3, .inl ⟨⟨.ok l :: ls, some cs'⟩, by rw [IjConf.loop, hs], h6, rfl⟩⟩
    · cases h5
  | @nextRow lhs n l lhs1 n1 cs o lhs2 n2 x lhs3 n3 cand r s' n' hp hs hn hp2 hcand hl ih =>
    rintro ⟨ls, cand0⟩ ⟨h1, h2⟩
    simp only at h1 h2
    subst h2
    obtain ⟨h3, h4, ⟨h5, h6⟩ | ⟨h5, -, -⟩⟩ := peek_all h1 hp
    · cases ls with
      | nil => simp at h5
      | cons a ls =>
        simp only [List.head?_cons, Option.some.injEq] at h5
        subst h5
        obtain ⟨h7, rfl, rfl⟩ := pnext_of_peeked h4 hn
        have h8 := pex_pop h6 h4
        obtain ⟨h9, h10, ⟨h11, h12⟩ | ⟨h11, h12, h13⟩⟩ := peek_all h8 hp2
        · subst h11
          have h14 : ci.nextCandidates ls = .ok cand := by rw [nextCandidates_head]; exact hcand
          obtain ⟨h15, h16⟩ := ih ⟨ls, cand⟩ ⟨h12, rfl⟩
          refine ⟨by omega, ?_⟩
          rw [IjConf.loop, hs, h14]
          exact h16
        · subst h11
          obtain ⟨h14, h15, h16⟩ := ijLoop_peeked hl h10 h13
          exact ⟨by omega, .inr ⟨h14, hc _ _ h15 h12, h16⟩⟩
    · cases h5
  | @candErr lhs n l lhs1 n1 cs o lhs2 n2 x lhs3 n3 e hp hs hn hp2 hcand =>
    rintro ⟨ls, cand0⟩ ⟨h1, h2⟩
    simp only at h1 h2
    subst h2
    obtain ⟨h3, h4, ⟨h5, h6⟩ | ⟨h5, -, -⟩⟩ := peek_all h1 hp
    · cases ls with
      | nil => simp at h5
      | cons a ls =>
        simp only [List.head?_cons, Option.some.injEq] at h5
        subst h5
        obtain ⟨h7, rfl, rfl⟩ := pnext_of_peeked h4 hn
        have h8 := pex_pop h6 h4
        obtain ⟨h9, h10, ⟨h11, h12⟩ | ⟨h11, h12, h13⟩⟩ := peek_all h8 hp2
        · subst h11
          have h14 : ci.nextCandidates ls = .error e := by rw [nextCandidates_head]; exact hcand
          refine ⟨by omega, .inl ⟨⟨ls, some []⟩, ?_, h12, rfl⟩⟩
          rw [IjConf.loop, hs, h14]
        · subst h11
          cases hcand
    · cases h5
  | @stop lhs cand n x lhs1 n1 lhs2 n2 hp hr hn =>
    rintro ⟨ls, cand0⟩ ⟨h1, h2⟩
    simp only at h1 h2
    subst h2
    obtain ⟨h3, h4, ⟨h5, h6⟩ | ⟨h5, -, -⟩⟩ := peek_all h1 hp
    · obtain ⟨h7, rfl, rfl⟩ := pnext_of_peeked h4 hn
      have h8 := pex_pop h6 h4
      cases ls with
      | nil => exact ⟨h3, .inl ⟨⟨[], cand⟩, by rw [IjConf.loop], h8, rfl⟩⟩
      | cons a ls => rw [← h7] at h5; simp at h5
    · subst h5
      have := (pnext_of_peeked h4 hn).1
      cases this
  | @err lhs cand n x lhs1 n1 e lhs2 n2 hp hr hn =>
    rintro ⟨ls, cand0⟩ ⟨h1, h2⟩
    simp only at h1 h2
    subst h2
    obtain ⟨h3, h4, ⟨h5, h6⟩ | ⟨h5, h6, h7⟩⟩ := peek_all h1 hp
    · obtain ⟨h7, rfl, rfl⟩ := pnext_of_peeked h4 hn
      have h8 := pex_pop h6 h4
      cases ls with
      | nil => rw [← h7] at h5; simp at h5
      | cons a ls =>
        rw [← h7] at h5
        simp only [List.head?_cons, Option.some.injEq] at h5
        subst h5
        exact ⟨h3, .inl ⟨⟨ls, cand⟩, by rw [IjConf.loop], h8, rfl⟩⟩
    · subst h5
      obtain ⟨h8, rfl, rfl⟩ := pnext_of_peeked h4 hn
      exact ⟨h3, .inr ⟨h8, h6, rfl, h7⟩⟩

theorem ijLoop_timeout {lhs : S × Option (Option (Item N K (TErr E)))} (h : lhs.2 = some (some timeout)) (cand) (n : Nat) :
    ∃ x s' n', IjLoop ci Ml ⟨lhs, cand⟩ n x s' n' := by
  obtain ⟨sl, q⟩ := lhs
  cases h
  exact ⟨_, _, _, .err .peeked rfl .peeked⟩

theorem ijLoop_ex (hc : Clock late) : ∀ (k : Nat) (s : TIj S N K E) (st : IjState N K (TErr E)) (n : Nat), st.lhs.length = k →
    IjLive late Ml s st → ∃ x s' n', IjLoop ci Ml s n x s' n' := by
  intro k
  induction k with
  | zero =>
    rintro ⟨lhs, cand⟩ ⟨ls, cand'⟩ n hk ⟨h1, h2⟩
    obtain ⟨x, p', n1, hp⟩ := peek_ex h1 n
    obtain ⟨h3, h4, ⟨h5, h6⟩ | ⟨h5, -, -⟩⟩ := peek_all h1 hp
    · simp only at hk h5
      rw [List.length_eq_zero_iff.1 hk] at h5
      subst h5
      exact ⟨_, _, _, .stop hp rfl (pnext_peeked h4)⟩
    · subst h5
      exact ⟨_, _, _, .err hp rfl (pnext_peeked h4)⟩
  | succ k ih =>
    rintro ⟨lhs, cand⟩ ⟨ls, cand'⟩ n hk ⟨h1, h2⟩
    obtain ⟨x, p', n1, hp⟩ := peek_ex h1 n
    obtain ⟨h3, h4, ⟨h5, h6⟩ | ⟨h5, -, -⟩⟩ := peek_all h1 hp
    · cases ls with
      | nil => simp at hk
      | cons a ls =>
        simp only [List.head?_cons] at h5
        subst h5
        cases a with
        | error e => exact ⟨_, _, _, .err hp rfl (pnext_peeked h4)⟩
        | ok l =>
          cases cand with
          | none => exact ⟨_, _, _, .noCand hp⟩
          | some cs =>
            cases hs : ci.scan l cs with
            | some q => exact ⟨_, _, _, .hit hp (by rw [hs])⟩
            | none =>
              have h7 := pex_pop h6 h4
              have hn := pnext_peeked (M := Ml) (n := n1) h4
              obtain ⟨x2, p2, n2, hp2⟩ := peek_ex h7 n1
              cases hcand : ci.nextCandidates x2.toList with
              | error e => exact ⟨_, _, _, .candErr hp hs hn hp2 hcand⟩
              | ok cand2 =>
                obtain ⟨h8, h9, ⟨h10, h11⟩ | ⟨h10, h11, h12⟩⟩ := peek_all h7 hp2
                · obtain ⟨y, s', n', h12⟩ := ih ⟨p2, cand2⟩ ⟨ls, cand2⟩ n2 (by simpa using hk) ⟨h11, rfl⟩
                  exact ⟨_, _, _, .nextRow hp hs hn hp2 hcand h12⟩
                · subst h10
                  obtain ⟨y, s', n', h13⟩ := ijLoop_timeout (ci := ci) (Ml := Ml) h9 cand2 n2
                  exact ⟨_, _, _, .nextRow hp hs hn hp2 hcand h13⟩
    · subst h5
      exact ⟨_, _, _, .err hp rfl (pnext_peeked h4)⟩

theorem ij_all (hc : Clock late) {s : TIj S N K E} {n r s' n'} (h : IjNext ci Ml s n r s' n') {st : IjState N K (TErr E)}
    (hl : IjLive late Ml s st) : n ≤ n' ∧ ((∃ st', ci.next st = (r, st') ∧ IjLive late Ml s' st') ∨
      (r = some timeout ∧ late n' = true ∧ IjDead late Ml s')) := by
  obtain ⟨ls, cand0⟩ := st
  obtain ⟨h1, h2⟩ := hl
  cases h with
  | run hloop =>
    simp only at h1 h2
    subst h2
    exact ijLoop_all hc hloop ⟨ls, _⟩ ⟨h1, rfl⟩
  | @init lhs n x lhs1 n1 cand r s' n' hp hcand hloop =>
    simp only at h1 h2
    subst h2
    obtain ⟨h3, h4, ⟨h5, h6⟩ | ⟨h5, h6, h7⟩⟩ := peek_all h1 hp
    · subst h5
      have h14 : ci.nextCandidates ls = .ok cand := by rw [nextCandidates_head]; exact hcand
      obtain ⟨h15, h16⟩ := ijLoop_all hc hloop ⟨ls, cand⟩ ⟨h6, rfl⟩
      refine ⟨by omega, ?_⟩
      simpa [IjConf.next, h14] using h16
    · subst h5
      obtain ⟨h14, h15, h16⟩ := ijLoop_peeked hloop h4 h7
      exact ⟨by omega, .inr ⟨h14, hc _ _ h15 h6, h16⟩⟩
  | @initErr lhs n x lhs1 n1 e hp hcand =>
    simp only at h1 h2
    subst h2
    obtain ⟨h3, h4, ⟨h5, h6⟩ | ⟨h5, h6, h7⟩⟩ := peek_all h1 hp
    · subst h5
      have h14 : ci.nextCandidates ls = .error e := by rw [nextCandidates_head]; exact hcand
      refine ⟨h3, .inl ⟨⟨ls, none⟩, ?_, h6, rfl⟩⟩
      simp [IjConf.next, h14]
    · subst h5
      cases hcand

theorem ij_ex (hc : Clock late) {s : TIj S N K E} {st : IjState N K (TErr E)} (hl : IjLive late Ml s st) (n : Nat) :
    ∃ x s' n', IjNext ci Ml s n x s' n' := by
  obtain ⟨lhs, cand⟩ := s
  cases cand with
  | some cs =>
    obtain ⟨x, s', n', h⟩ := ijLoop_ex (ci := ci) hc _ _ st n rfl hl
    exact ⟨_, _, _, .run h⟩
  | none =>
    obtain ⟨x, p', n1, hp⟩ := peek_ex hl.1 n
    cases hcand : ci.nextCandidates x.toList with
    | error e => exact ⟨_, _, _, .initErr hp hcand⟩
    | ok cand =>
      obtain ⟨h3, h4, ⟨h5, h6⟩ | ⟨h5, h6, h7⟩⟩ := peek_all hl.1 hp
      · obtain ⟨y, s', n', h⟩ := ijLoop_ex (ci := ci) hc _ ⟨p', cand⟩ ⟨st.lhs, cand⟩ n1 rfl ⟨h6, rfl⟩
        exact ⟨_, _, _, .init hp hcand h⟩
      · subst h5
        obtain ⟨y, s', n', h⟩ := ijLoop_timeout (ci := ci) (Ml := Ml) h4 cand n1
        exact ⟨_, _, _, .init hp hcand h⟩

theorem ijLoop_none : ∀ (k : Nat) (st st' : IjState N K (TErr E)), st.lhs.length = k → (st.cand = none → isRow st.lhs.head? = false) →
    ci.loop st = (none, st') → st'.lhs = [] := by
  intro k
  induction k with
  | zero =>
    rintro ⟨ls, cand⟩ st' hk _ h
    cases List.length_eq_zero_iff.1 hk
    rw [IjConf.loop] at h
    cases h
    rfl
  | succ k ih =>
    rintro ⟨ls, cand⟩ st' hk hcand h
    cases ls with
    | nil => simp at hk
    | cons a ls =>
      cases a with
      | error e => rw [IjConf.loop] at h; simp at h
      | ok l =>
        cases cand with
        | none => simp [isRow] at hcand
        | some cs =>
          rw [IjConf.loop] at h
          cases hs : ci.scan l cs with
          | some q => rw [hs] at h; simp at h
          | none =>
            rw [hs] at h
            cases hn : ci.nextCandidates ls with
            | error e => rw [hn] at h; simp at h
            | ok cand =>
              rw [hn] at h
              refine ih ⟨ls, cand⟩ st' (by simpa using hk) ?_ h
              intro hnone
              simp only at hnone
              subst hnone
              cases ls with
              | nil => rfl
              | cons b ls =>
                cases b with
                | error e => rfl
                | ok l2 =>
                  simp only [IjConf.nextCandidates, bind, Except.bind, pure, Except.pure] at hn
                  split at hn
                  · cases hn
                  · split at hn <;> cases hn

theorem nextCandidates_none {ls : List (Item N K (TErr E))} (h : ci.nextCandidates ls = .ok none) : isRow ls.head? = false := by
  cases ls with
  | nil => rfl
  | cons b ls =>
    cases b with
    | error e => rfl
    | ok l2 =>
      simp only [IjConf.nextCandidates, bind, Except.bind, pure, Except.pure] at h
      split at h
      · cases h
      · split at h <;> cases h

theorem ij_fused {st st' : IjState N K (TErr E)} (h : ci.next st = (none, st')) : ci.next st' = (none, st') := by
  have hl : st'.lhs = [] := by
    obtain ⟨ls, cand⟩ := st
    cases cand with
    | some cs => exact ijLoop_none _ ⟨ls, some cs⟩ st' rfl (by simp) h
    | none =>
      simp only [IjConf.next] at h
      cases hn : ci.nextCandidates ls with
      | error e => rw [hn] at h; simp at h
      | ok cand =>
        rw [hn] at h
        refine ijLoop_none _ ⟨ls, cand⟩ st' rfl ?_ h
        intro hc
        simp only at hc
        subst hc
        exact nextCandidates_none hn
  obtain ⟨ls, cand⟩ := st'
  simp only at hl
  subst hl
  cases cand with
  | some cs => simp [IjConf.next, IjConf.loop]
  | none => simp [IjConf.next, IjConf.nextCandidates, IjConf.loop]

theorem ij_exact (hc : Clock late) {sl : S} {ls l : List (Item N K (TErr E))} (hl : Exact late Ml sl ls)
    (hr : Runs ci.next ⟨ls, none⟩ l) : Exact late (IjNext ci Ml) (⟨(sl, none), none⟩ : TIj S N K E) l := by
  refine ⟨fun s l => ∃ st, IjLive late Ml s st ∧ Runs ci.next st l, ⟨⟨ls, none⟩, ⟨hl, rfl⟩, hr⟩, ?_⟩
  rintro s l ⟨st, hl, hr⟩ n
  refine ⟨ij_ex hc hl n, ?_⟩
  intro x s' n' hm
  obtain ⟨h1, ⟨st', h2, h3⟩ | ⟨h2, h3, h4⟩⟩ := ij_all hc hm hl
  · obtain ⟨h4, h5⟩ := runs_head_tail (fun a b => ij_fused) hr h2
    exact ⟨h1, .inl ⟨h4, st', h3, h5⟩⟩
  · exact ⟨h1, .inr ⟨h2, h3, ij_dead hc h4⟩⟩

/-! ## Trees -/

omit [DecidableEq N] [DecidableEq K] in
theorem filterBinary_eq (op : BinOp N K (TErr E)) (i j : Nat) (l : List (Item N K (TErr E))) :
    filterBinary op i j l = l.filterMap (binStep op i j) := by
  unfold filterBinary
  refine congrArg (List.filterMap · l) (funext fun r => ?_)
  unfold binStep
  split <;> simp_all

omit [DecidableEq N] [DecidableEq K] in
theorem filterUnary_eq (p : SMatch N K → Except (Fail (TErr E)) Bool) (i : Nat) (l : List (Item N K (TErr E))) :
    filterUnary p i l = l.filterMap (unStep p i) := by
  unfold filterUnary
  refine congrArg (List.filterMap · l) (funext fun r => ?_)
  unfold unStep
  split <;> simp_all

theorem tree_exact (hc : Clock late) {t : Tree N K E} {l : List (Item N K (TErr E))} (h : t.Full l) :
    Exact late (t.next late) t.start l := by
  induction h with
  | search l => exact search_exact hc l
  | @filterBin op i j _ _ _ ih => rw [filterBinary_eq]; exact filter_exact (f := binStep op i j) rfl hc ih
  | @filterUn p i _ _ _ ih => rw [filterUnary_eq]; exact filter_exact (f := unStep p i) rfl hc ih
  | nested _ _ hr ho hi => exact nl_exact hc ho hi hr
  | index _ hr ih => exact ij_exact hc ih hr

end
end Timed
