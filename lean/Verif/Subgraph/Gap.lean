import Verif.Subgraph.Extract
import Verif.Subgraph.Seg

/-!
# C55: the edges for gaps
-/

set_option linter.unusedSimpArgs false
set_option linter.unusedSectionVars false
set_option linter.unusedVariables false

open TextSpec

namespace SubgraphSpec

variable {N : Type}

/-- `b` is the next token of the selected tokens `W` after `a`, and there are tokens between them that are not selected. -/
def Gap (O : N → N → Prop) (W : N → Prop) (a b : N) : Prop :=
  W a ∧ W b ∧ (∃ d, 1 < d ∧ Walk.WalkLen O a b d) ∧ ∀ c, W c → Between O a c b → c = a ∨ c = b

/-- A strict total order of the selected tokens in which each text is in order and in one block. -/
structure BlockOrder (O : N → N → Prop) (W : N → Prop) (lt : N → N → Prop) : Prop where
  trans : ∀ a b c, lt a b → lt b c → lt a c
  irr : ∀ a, ¬ lt a a
  total : ∀ a b, W a → W b → a = b ∨ lt a b ∨ lt b a
  mono : ∀ a b, O a b → lt a b
  block : ∀ a b c, W a → W b → W c → lt a b → lt b c → Relation.ReflTransGen O a c → Between O a b c

theorem BlockOrder.reach {O : N → N → Prop} {W : N → Prop} {lt : N → N → Prop} (h : BlockOrder O W lt) {a b : N}
    (hr : Relation.ReflTransGen O a b) : a = b ∨ lt a b := by
  induction hr with
  | refl => exact Or.inl rfl
  | tail _ h2 ih =>
    rcases ih with rfl | ih
    · exact Or.inr (h.mono _ _ h2)
    · exact Or.inr (h.trans _ _ _ ih (h.mono _ _ h2))

theorem next_pairwise {lt : N → N → Prop} (htr : ∀ a b c, lt a b → lt b c → lt a c) (hirr : ∀ a, ¬ lt a a) :
    ∀ {l : List N}, l.Pairwise lt → ∀ a b, Next l a b ↔ a ∈ l ∧ b ∈ l ∧ lt a b ∧ ∀ c ∈ l, ¬ (lt a c ∧ lt c b) := by
  intro l hl a b
  constructor
  · rintro ⟨p, q, rfl⟩
    rw [List.pairwise_append] at hl
    obtain ⟨h1, h2, h3⟩ := hl
    rw [List.pairwise_cons, List.pairwise_cons] at h2
    refine ⟨by simp, by simp, h2.1 b (by simp), ?_⟩
    rintro c hcm ⟨hac, hcb⟩
    rcases List.mem_append.1 hcm with hcm | hcm
    · exact hirr _ (htr _ _ _ hac (h3 c hcm a (by simp)))
    · rcases List.mem_cons.1 hcm with rfl | hcm
      · exact hirr _ hac
      · rcases List.mem_cons.1 hcm with rfl | hcm
        · exact hirr _ hcb
        · exact hirr _ (htr _ _ _ hcb (h2.2.1 c hcm))
  · rintro ⟨ha, hb, hab, hno⟩
    obtain ⟨p, q, rfl⟩ := List.append_of_mem ha
    rw [List.pairwise_append] at hl
    obtain ⟨h1, h2, h3⟩ := hl
    rw [List.pairwise_cons] at h2
    rcases List.mem_append.1 hb with hb | hb
    · exact absurd (htr _ _ _ hab (h3 b hb a (by simp))) (hirr _)
    · rcases List.mem_cons.1 hb with rfl | hb
      · exact absurd hab (hirr _)
      · cases q with
        | nil => simp at hb
        | cons c q =>
          rcases List.mem_cons.1 hb with rfl | hb
          · exact ⟨p, q, rfl⟩
          · refine absurd ⟨h2.1 c (by simp), ?_⟩ (hno c (by simp))
            exact (List.pairwise_cons.1 h2.2).1 b hb

theorem firsts_pairwise [DecidableEq N] {lt : N → N → Prop} : ∀ {l : List N},
    (∀ p x q, l = p ++ x :: q → x ∉ p → ∀ u ∈ p, lt u x) → (firsts l).Pairwise lt := by
  intro l
  induction l using List.reverseRecOn with
  | nil => intro _; exact .nil
  | append_singleton l x ih =>
    intro h
    have i := ih (fun p y q e hy u hu => h p y (q ++ [x]) (by rw [e]; simp) hy u hu)
    rw [firsts_snoc]
    by_cases hx : x ∈ l
    · rw [if_pos hx]; exact i
    · rw [if_neg hx, List.pairwise_append]
      refine ⟨i, List.pairwise_singleton _ _, fun u hu y hy => ?_⟩
      rw [List.mem_singleton.1 hy]
      exact h l x [] rfl hx u (mem_firsts.1 hu)

theorem flat_split : ∀ {tss : List (List N)} {p q : List N} {x : N}, tss.flatMap id = p ++ x :: q →
    ∃ A ts B p' q', tss = A ++ ts :: B ∧ ts = p' ++ x :: q' ∧ p = A.flatMap id ++ p' := by
  intro tss
  induction tss with
  | nil => intro p q x h; simp at h
  | cons t tss ih =>
    intro p q x h
    rw [List.flatMap_cons, id_eq, List.append_eq_append_iff] at h
    rcases h with ⟨a, h1, h2⟩ | ⟨a, h1, h2⟩
    · obtain ⟨A, ts, B, p', q', e1, e2, e3⟩ := ih h2
      exact ⟨t :: A, ts, B, p', q', by rw [e1]; rfl, e2, by rw [h1, e3]; simp⟩
    · cases a with
      | nil =>
        simp only [List.nil_append] at h2
        obtain ⟨A, ts, B, p', q', e1, e2, e3⟩ := ih (p := []) (q := q) (x := x) (by rw [List.nil_append]; exact h2.symm)
        refine ⟨t :: A, ts, B, p', q', by rw [e1]; rfl, e2, ?_⟩
        rw [List.append_nil] at h1
        rw [List.flatMap_cons, id_eq, List.append_assoc, ← e3, List.append_nil, h1]
      | cons y a =>
        simp only [List.cons_append, List.cons.injEq] at h2
        obtain ⟨rfl, _⟩ := h2
        exact ⟨[], t, tss, p, a, rfl, h1, rfl⟩

end SubgraphSpec

open SubgraphSpec

namespace Subgraph

variable {N : Type} [LinearOrder N]
variable {S W K : Type} [LinearOrder S] [OrderBot S] [LinearOrder W] [DecidableEq K]
variable {th : TokenHelper N} {L R : N → N → Prop} {E : GStore N → N → N → Prop}
variable {ord : GStore N} {O : N → N → Prop} {D : N → Prop} {Rg : Nat → Bnd Nat → Prop}

theorem chain_before {O : N → N → Prop} {p q : List N} {x u : N} (h : List.IsChain O (p ++ x :: q)) (hu : u ∈ p) :
    Relation.TransGen O u x := by
  have hp := (List.isChain_iff_pairwise (R := Relation.TransGen O)).1 (h.imp fun _ _ e => .single e)
  exact (List.pairwise_append.1 hp).2.2 u hu x (by simp)

/-- The first occurrences of the tokens of sorted regions are in order. -/
theorem flat_sorted {T : N → Prop} {lt : N → N → Prop} (hb : BlockOrder O T lt) {rs : List (Region N)} {tss : List (List N)}
    (h : List.Forall₂ (fun (r : Region N) ts => List.IsChain O ts ∧ ts.head? = some r.start ∧ ∀ x, x ∈ ts ↔ Between O r.start x r.stop) rs tss)
    (hT : ∀ r ∈ rs, Relation.ReflTransGen O r.start r.stop ∧ ∀ t, Between O r.start t r.stop → T t)
    (hs : rs.Pairwise fun r r' => r.start = r'.start ∨ lt r.start r'.start) : (firsts (tss.flatMap id)).Pairwise lt := by
  refine firsts_pairwise fun p x q e hx u hu => ?_
  obtain ⟨A, ts, B, p', q', rfl, e2, e3⟩ := flat_split e
  obtain ⟨rA, rB', hA, hB, hrs⟩ : ∃ rA rB', List.Forall₂ _ rA A ∧ List.Forall₂ _ rB' (ts :: B) ∧ rs = rA ++ rB' := by
    have e1 := List.forall₂_take_append _ _ _ h
    have e2 := List.forall₂_drop_append _ _ _ h
    exact ⟨_, _, e1, e2, (List.take_append_drop _ _).symm⟩
  cases hB with
  | @cons r _ rB _ hr hB =>
    subst hrs
    rw [e3] at hu hx
    rcases List.mem_append.1 hu with hu | hu
    · obtain ⟨r', hr', hbt⟩ := (mem_iterAll hA u).1 hu
      have hxr : Between O r.start x r.stop := (hr.2.2 x).1 (by rw [e2]; simp)
      have hTr := hT r (by simp)
      have hTr' := hT r' (by simp [hr'])
      rcases hb.total u x (hTr'.2 u hbt) (hTr.2 x hxr) with rfl | hlt | hlt
      · exact absurd (List.mem_append_left _ hu) hx
      · exact hlt
      · have hst : r'.start = r.start ∨ lt r'.start r.start := (List.pairwise_append.1 hs).2.2 r' hr' r (by simp)
        have hle : r'.start = x ∨ lt r'.start x := by
          rcases hst with e | e
          · rw [e]; exact hb.reach hxr.1
          · rcases hb.reach hxr.1 with e' | e'
            · rw [← e']; exact Or.inr e
            · exact Or.inr (hb.trans _ _ _ e e')
        have hbx : Between O r'.start x u := by
          rcases hle with e | e
          · rw [e]; exact ⟨.refl, e ▸ hbt.1⟩
          · exact hb.block _ _ _ (hTr'.2 _ ⟨.refl, hTr'.1⟩) (hTr.2 x hxr) (hTr'.2 u hbt) e hlt hbt.1
        exact absurd (List.mem_append_left _ ((mem_iterAll hA x).2 ⟨r', hr', hbx.1, hbx.2.trans hbt.2⟩)) hx
    · have := chain_before (e2 ▸ hr.1) hu
      rcases hb.reach this.to_reflTransGen with e | e
      · subst e
        exact absurd (List.mem_append_right _ hu) hx
      · exact e

/-- The gap edges between the tokens of a list in order. -/
theorem gapNext_iff (hc : Linear.Chains O) {T : N → Prop} {lt : N → N → Prop} (hb : BlockOrder O T lt) {l : List N} (hl : l.Pairwise lt)
    (hm : ∀ t, t ∈ l ↔ T t) (a b : N) : GapNext O l a b ↔ Gap O T a b := by
  unfold GapNext
  rw [next_pairwise hb.trans hb.irr hl]
  constructor
  · rintro ⟨⟨ha, hbm, _, hno⟩, hd⟩
    refine ⟨(hm a).1 ha, (hm b).1 hbm, hd, fun c hcT hbt => ?_⟩
    rcases hb.reach hbt.1 with e | e
    · exact Or.inl e.symm
    · rcases hb.reach hbt.2 with e' | e'
      · exact Or.inr e'
      · exact absurd ⟨e, e'⟩ (hno c ((hm c).2 hcT))
  · rintro ⟨ha, hbm, ⟨d, hd, hw⟩, hno⟩
    have hr : Relation.ReflTransGen O a b := Walk.reach_iff_walk.2 ⟨d, hw⟩
    have hlt : lt a b := by
      rcases hb.reach hr with e | e
      · subst e
        have := Walk.walk_self hc.ac hw
        omega
      · exact e
    refine ⟨⟨(hm a).2 ha, (hm b).2 hbm, hlt, ?_⟩, d, hd, hw⟩
    rintro c hcm ⟨h1, h2⟩
    rcases hno c ((hm c).1 hcm) (hb.block a c b ha ((hm c).1 hcm) hbm h1 h2 hr) with e | e
    · subst e; exact hb.irr _ h1
    · subst e; exact hb.irr _ h2

/-! ## Sorting the regions -/

theorem conn_lt (ho : ord.Is O D Rg) (h1 : Rg 1 .unbounded) (hc : Linear.Chains O) (a b : N) :
    ∃ r, ord.isConnected a b 1 .unbounded = some r ∧ (r = true ↔ Relation.TransGen O a b) := by
  obtain ⟨r, r1, r2⟩ := ho.conn a b 1 .unbounded h1
  refine ⟨r, r1, r2.trans ?_⟩
  constructor
  · rintro ⟨_, d, hp, hd, _⟩
    obtain ⟨j, rfl⟩ : ∃ j, d = j + 1 := ⟨d - 1, by omega⟩
    obtain ⟨c, hx, hw⟩ := Walk.walkLen_succ.1 hp.walk
    exact Relation.TransGen.head' hx (Walk.reach_iff_walk.2 ⟨_, hw⟩)
  · intro h
    obtain ⟨c, hx, hr⟩ := Relation.TransGen.head'_iff.1 h
    obtain ⟨d, hw⟩ := Walk.reach_iff_walk.1 hr
    have hw' : Walk.WalkLen O a b (d + 1) := Walk.walkLen_succ.2 ⟨c, hx, hw⟩
    exact ⟨(ho.dom _ _ hx).1, d + 1, Walk.simple_of_acyclic hc.ac hw', by omega, trivial⟩

/-- If the ids of the tokens increase in each text, then the regions are sorted by the ids of their first tokens. -/
theorem sort_regions_ids (ho : ord.Is O D Rg) (h1 : Rg 1 .unbounded) (hc : Linear.Chains O) (hmono : ∀ a b, O a b → a < b)
    {rs srt : List (Region N)} (hrs : ∀ r ∈ rs, Relation.ReflTransGen O r.start r.stop) {fuel : Nat} {rnd : List (Nat × Nat × Nat)}
    (h : sortAll (regionCmp ord) fuel rnd rs = some srt) : srt.Pairwise fun r r' => r.start = r'.start ∨ r.start < r'.start := by
  have hre : ∀ {a b : N}, Relation.ReflTransGen O a b → a ≤ b := by
    intro a b hr
    induction hr with
    | refl => exact le_rfl
    | tail _ e ih => exact ih.trans (hmono _ _ e).le
  have htg : ∀ {a b : N}, Relation.TransGen O a b → a < b := by
    intro a b hr
    obtain ⟨c, hx, hr⟩ := Relation.TransGen.head'_iff.1 hr
    exact (hmono _ _ hx).trans_le (hre hr)
  have := (C33_sort_on (fun r r' : Region N => r.start < r'.start ∨ (r.start = r'.start ∧ r.stop ≤ r'.stop)) ?_ ?_ ?_ h).2
  · exact this.imp fun hx => by
      rcases hx with hx | hx
      · exact Or.inr hx
      · exact Or.inl hx.1
  · rintro x _ y _ z _ (hxy | ⟨hxy, hxy'⟩) (hyz | ⟨hyz, hyz'⟩)
    · exact Or.inl (hxy.trans hyz)
    · exact Or.inl (hyz ▸ hxy)
    · exact Or.inl (hxy ▸ hyz)
    · exact Or.inr ⟨hxy.trans hyz, hxy'.trans hyz'⟩
  · intro x _ y _
    rcases lt_trichotomy x.start y.start with e | e | e
    · exact Or.inl (Or.inl e)
    · rcases le_total x.stop y.stop with e' | e'
      · exact Or.inl (Or.inr ⟨e, e'⟩)
      · exact Or.inr (Or.inr ⟨e.symm, e'⟩)
    · exact Or.inr (Or.inl e)
  · intro x hx y hy o hcmp
    have hxr := hre (hrs x hx)
    have hyr := hre (hrs y hy)
    unfold regionCmp at hcmp
    by_cases heq : x.start = y.start ∧ x.stop = y.stop
    · rw [if_pos heq, Option.some.injEq] at hcmp
      subst hcmp
      exact ⟨⟨fun _ => Or.inr ⟨heq.1, heq.2.le⟩, fun _ => rfl⟩, ⟨fun _ => Or.inr ⟨heq.1.symm, heq.2.symm.le⟩, fun _ => rfl⟩⟩
    · rw [if_neg heq] at hcmp
      obtain ⟨r, r1, r2⟩ := conn_lt ho h1 hc x.stop y.start
      obtain ⟨q, q1, q2⟩ := conn_lt ho h1 hc y.stop x.start
      rw [r1] at hcmp
      cases r with
      | true =>
        simp only [Option.some.injEq] at hcmp
        subst hcmp
        have hlt : x.start < y.start := hxr.trans_lt (htg (r2.1 rfl))
        refine ⟨⟨fun _ => Or.inl hlt, fun _ => rfl⟩, ⟨(fun h => by cases h), ?_⟩⟩
        rintro (h | ⟨h, _⟩)
        · exact absurd h hlt.asymm
        · exact absurd h hlt.ne'
      | false =>
        simp only [q1] at hcmp
        cases q with
        | true =>
          simp only [Option.some.injEq] at hcmp
          subst hcmp
          have hlt : y.start < x.start := hyr.trans_lt (htg (q2.1 rfl))
          refine ⟨⟨(fun h => by cases h), ?_⟩, ⟨fun _ => Or.inl hlt, fun _ => rfl⟩⟩
          rintro (h | ⟨h, _⟩)
          · exact absurd h hlt.asymm
          · exact absurd h hlt.ne'
        | false =>
          simp only [Option.some.injEq] at hcmp
          rw [← hcmp]
          rcases lt_trichotomy x.start y.start with e | e | e
          · rw [compare_lt_iff_lt.2 e]
            simp [Ordering.then, e, e.asymm, e.ne']
          · rw [compare_eq_iff_eq.2 e]
            rcases lt_trichotomy x.stop y.stop with e' | e' | e'
            · rw [compare_lt_iff_lt.2 e']; simp [Ordering.then, e, e'.le, e']
            · rw [compare_eq_iff_eq.2 e']; simp [Ordering.then, e, e']
            · rw [compare_gt_iff_gt.2 e']; simp [Ordering.then, e, e'.le, e']
          · rw [compare_gt_iff_gt.2 e]
            simp [Ordering.then, e, e.asymm, e.ne']

/-- Regions that are equal or one after the other are sorted by their position, whatever the ids are. -/
theorem sort_regions_disjoint (ho : ord.Is O D Rg) (h1 : Rg 1 .unbounded) (hc : Linear.Chains O)
    {rs srt : List (Region N)} (hrs : ∀ r ∈ rs, Relation.ReflTransGen O r.start r.stop)
    (hdis : ∀ r ∈ rs, ∀ r' ∈ rs, (r.start = r'.start ∧ r.stop = r'.stop) ∨ Relation.TransGen O r.stop r'.start ∨ Relation.TransGen O r'.stop r.start)
    {fuel : Nat} {rnd : List (Nat × Nat × Nat)}
    (h : sortAll (regionCmp ord) fuel rnd rs = some srt) :
    srt.Pairwise fun r r' => r.start = r'.start ∨ Relation.TransGen O r.start r'.start := by
  have hcyc : ∀ {x y : Region N}, x ∈ rs → y ∈ rs → Relation.TransGen O x.stop y.start → Relation.TransGen O y.stop x.start → False := by
    intro x y hx hy h2 h3
    have : Relation.TransGen O x.stop x.stop :=
      (h2.trans_left (hrs y hy)).trans (h3.trans_left (hrs x hx))
    exact hc.ac _ this
  have hself : ∀ {x y : Region N}, x ∈ rs → (x.start = y.start ∧ x.stop = y.stop) → ¬ Relation.TransGen O x.stop y.start := by
    intro x y hx e h2
    rw [← e.1] at h2
    exact hc.ac _ (h2.trans_left (hrs x hx))
  have := (C33_sort_on (fun r r' : Region N => (r.start = r'.start ∧ r.stop = r'.stop) ∨ Relation.TransGen O r.stop r'.start) ?_ ?_ ?_ h)
  · refine this.2.imp_of_mem fun {a b} ha hb hx => ?_
    rcases hx with hx | hx
    · exact Or.inl hx.1
    · exact Or.inr (Relation.TransGen.trans_right (hrs a (this.1.mem_iff.1 ha)) hx)
  · rintro x hx y hy z hz (⟨e1, e2⟩ | h2) (⟨e3, e4⟩ | h3)
    · exact Or.inl ⟨e1.trans e3, e2.trans e4⟩
    · exact Or.inr (e2 ▸ h3)
    · exact Or.inr (e3 ▸ h2)
    · exact Or.inr ((h2.trans_left (hrs y hy)).trans h3)
  · intro x hx y hy
    rcases hdis x hx y hy with e | e | e
    · exact Or.inl (Or.inl e)
    · exact Or.inl (Or.inr e)
    · exact Or.inr (Or.inr e)
  · intro x hx y hy o hcmp
    unfold regionCmp at hcmp
    by_cases heq : x.start = y.start ∧ x.stop = y.stop
    · rw [if_pos heq, Option.some.injEq] at hcmp
      subst hcmp
      exact ⟨⟨fun _ => Or.inl heq, fun _ => rfl⟩, ⟨fun _ => Or.inl ⟨heq.1.symm, heq.2.symm⟩, fun _ => rfl⟩⟩
    · rw [if_neg heq] at hcmp
      obtain ⟨r, r1, r2⟩ := conn_lt ho h1 hc x.stop y.start
      obtain ⟨q, q1, q2⟩ := conn_lt ho h1 hc y.stop x.start
      rw [r1] at hcmp
      cases r with
      | true =>
        simp only [Option.some.injEq] at hcmp
        subst hcmp
        refine ⟨⟨fun _ => Or.inr (r2.1 rfl), fun _ => rfl⟩, ⟨(fun h => by cases h), ?_⟩⟩
        rintro (h | h)
        · exact absurd ⟨h.1.symm, h.2.symm⟩ heq
        · exact absurd h fun h => hcyc hx hy (r2.1 rfl) h
      | false =>
        have hn : ¬ Relation.TransGen O x.stop y.start := fun h => by simpa using r2.2 h
        have hq : Relation.TransGen O y.stop x.start := ((hdis x hx y hy).resolve_left heq).resolve_left hn
        have := q2.2 hq
        subst this
        simp only [q1, Option.some.injEq] at hcmp
        subst hcmp
        refine ⟨⟨(fun h => by cases h), ?_⟩, ⟨fun _ => Or.inr hq, fun _ => rfl⟩⟩
        rintro (h | h)
        · exact absurd h heq
        · exact absurd h hn

/-! ## The tokens of the context -/

open Classical in
theorem filter_block (h : th.Ok L R E) {ch : Choice N} (hch : ch.Ok) : ∀ {l : List N}, (∀ t ∈ l, th.Tok E t) →
    (l.flatMap (block ch th)).filter (fun n => decide (th.Tok E n)) = l := by
  intro l
  induction l with
  | nil => intro _; rfl
  | cons t l ih =>
    intro hl
    rw [List.flatMap_cons, List.filter_append, ih (fun x hx => hl x (by simp [hx]))]
    have : (block ch th t).filter (fun n => decide (th.Tok E n)) = [t] := by
      unfold block
      rw [List.filter_append]
      have h2 : (ch.hash t ((covering th t).getD [])).filter (fun n => decide (th.Tok E n)) = [] := by
        rw [List.filter_eq_nil_iff]
        intro x hx
        obtain ⟨c, c1, _, c3⟩ := covering_spec h t
        rw [(hch _ _).mem_iff, c1, Option.getD_some, c3] at hx
        simp only [decide_eq_true_eq]
        exact fun hx' => hx'.2 ⟨t, hx⟩
      rw [h2, List.nil_append]
      simp [hl t (by simp)]
    rw [this]
    rfl

/-- The tokens among the nodes of a context, in the order of extraction, are the tokens of the windows in the order `lt`. -/
theorem context_toks (h : th.Ok L R E) (ho : ord.Is O D Rg) (hc : Linear.Chains O) {ch : Choice N} (hch : ch.Ok)
    {partOf : GStore N} {P : N → N → Prop} {DP : N → Prop} {RP : Nat → Bnd Nat → Prop} (hp : partOf.Is P DP RP) (hrp : RP 1 .unbounded)
    (hPtok : ∀ a b, P a b → ¬ th.Tok E b)
    {seg : Option (GStore N)} {cl cr : Nat} {Wn : N → N → Prop} {nodes l : List N}
    (hW : ∀ n ∈ nodes, ∀ x, fromNode ch th ord seg cl cr n = some x → IsRegion O (Wn n) x)
    (hWtok : ∀ n ∈ nodes, ∀ t, Wn n t → th.Tok E t) {lt : N → N → Prop}
    (hb : BlockOrder O (fun t => ∃ n ∈ nodes, Wn n t) lt)
    (hsort : ∀ rs srt, regions ch th ord seg cl cr nodes = some rs → sortAll (regionCmp ord) ch.fuel ch.rndRegions rs = some srt →
      srt.Pairwise fun r r' => r.start = r'.start ∨ lt r.start r'.start)
    (hl : contextNodes ch th ord partOf seg cl cr nodes = some l) :
    (toks (th.Tok E) (firsts (l.map fun n => (n, ())))).Pairwise lt ∧
      ∀ t, t ∈ toks (th.Tok E) (firsts (l.map fun n => (n, ()))) ↔ ∃ n ∈ nodes, Wn n t := by
  classical
  have e0 : toks (th.Tok E) (firsts (l.map fun n => (n, ()))) = firsts (l.filter fun n => decide (th.Tok E n)) := by
    unfold toks
    rw [firsts_map (fun a b e => by simpa using e), ← firsts_filter]
    simp [List.map_map, Function.comp_def]
  rw [e0]
  unfold contextNodes at hl
  obtain ⟨p, p1, p2⟩ := parents_spec hp hrp nodes
  obtain ⟨m, m1, m2⟩ := filterOpt_spec (p := fun n => (th.isToken n).map fun b => !b) (P := fun n => ¬ th.Tok E n) (l := nodes) (by
    intro n _
    obtain ⟨b, b1, b2⟩ := TokenHelper.isToken_spec h n
    exact ⟨!b, by simp [b1], by rw [← b2]; simp⟩)
  rw [p1, m1] at hl
  cases h1 : overlapped ch th ord seg cl cr nodes with
  | none => rw [h1] at hl; simp at hl
  | some o =>
    rw [h1] at hl
    simp only [Option.some.injEq] at hl
    subst hl
    unfold overlapped at h1
    cases h2 : regions ch th ord seg cl cr nodes with
    | none => rw [h2] at h1; simp at h1
    | some rs =>
      rw [h2] at h1
      simp only at h1
      cases h3 : sortAll (regionCmp ord) ch.fuel ch.rndRegions rs with
      | none => rw [h3] at h1; simp at h1
      | some srt =>
        rw [h3] at h1
        simp only at h1
        obtain ⟨r1, r2⟩ := regions_spec hW h2
        have hperm := sortAll_perm h3
        have hreach : ∀ r ∈ srt, Relation.ReflTransGen O r.start r.stop := fun r hr => by
          obtain ⟨n, _, hn⟩ := r1 r (hperm.mem_iff.1 hr)
          exact hn.1
        obtain ⟨tss, t1, t2⟩ := iterAll_spec h ho hc ch hreach h1
        have hTs : ∀ t, t ∈ tss.flatMap id ↔ ∃ n ∈ nodes, Wn n t := by
          intro t
          rw [mem_iterAll t2]
          constructor
          · rintro ⟨r, hr, hbt⟩
            obtain ⟨n, hn, hreg⟩ := r1 r (hperm.mem_iff.1 hr)
            exact ⟨n, hn, (hreg.2 t).1 hbt⟩
          · rintro ⟨n, hn, hw⟩
            obtain ⟨r, hr, hreg⟩ := r2 n hn ⟨t, hw⟩
            exact ⟨r, hperm.mem_iff.2 hr, (hreg.2 t).2 hw⟩
        have ef : (m ++ o ++ p).filter (fun n => decide (th.Tok E n)) = tss.flatMap id := by
          rw [List.filter_append, List.filter_append, t1, filter_block h hch (fun t ht => by
            obtain ⟨n, hn, hw⟩ := (hTs t).1 ht
            exact hWtok n hn t hw)]
          have em : m.filter (fun n => decide (th.Tok E n)) = [] := by
            rw [List.filter_eq_nil_iff]
            intro x hx
            simpa using ((m2 x).1 hx).2
          have ep : p.filter (fun n => decide (th.Tok E n)) = [] := by
            rw [List.filter_eq_nil_iff]
            intro x hx
            obtain ⟨n, _, d, hd, hpath⟩ := (p2 x).1 hx
            obtain ⟨j, rfl⟩ : ∃ j, d = j + 1 := ⟨d - 1, by omega⟩
            obtain ⟨c, _, hx⟩ := Walk.walkLen_snoc.1 hpath.walk
            simpa using hPtok c x hx
          rw [em, ep, List.nil_append, List.append_nil]
        rw [ef]
        refine ⟨flat_sorted hb t2 (fun r hr => ⟨hreach r hr, fun t ht => ?_⟩) (hsort rs srt h2 h3), fun t => ?_⟩
        · exact (hTs t).1 ((mem_iterAll t2 t).2 ⟨r, hr, ht⟩)
        · rw [mem_firsts, hTs]

end Subgraph
