import Verif.Storage.Lemmas

/-!
# C51: cache eviction, C52: existence of corpora
-/

set_option linter.unusedSimpArgs false
set_option linter.unusedSectionVars false
set_option linter.unusedVariables false

open Store

variable {Nm A C K U : Type} [LinearOrder Nm] [LinearOrder C]

/-! ### Which entries are evicted -/

/-- The measurement after `i` removals; a missing one counts as the largest number. -/
def Mem.at (m : Mem) : Nat → Nat
  | 0 => m.size
  | i + 1 => m.later.getD i usizeMax

theorem evictLoop_spec (loaded : Nat → Bool) (keep : List Nm) (max : Nat) (l : List (Nm × Nat)) :
    ∀ size later, ∃ k, k ≤ (l.filter fun e => loaded e.2 && decide (e.1 ∉ keep)).length ∧
      (evictLoop loaded keep max l size later).filter (fun e => loaded e.2 && decide (e.1 ∉ keep)) =
        (l.filter fun e => loaded e.2 && decide (e.1 ∉ keep)).drop k ∧
      (evictLoop loaded keep max l size later).filter (fun e => !(loaded e.2 && decide (e.1 ∉ keep))) =
        l.filter (fun e => !(loaded e.2 && decide (e.1 ∉ keep))) ∧
      (∀ i < k, max < (Mem.mk size max later).at i) ∧
      ((Mem.mk size max later).at k ≤ max ∨ k = (l.filter fun e => loaded e.2 && decide (e.1 ∉ keep)).length) := by
  induction l with
  | nil =>
    intro size later
    exact ⟨0, by simp, by simp [evictLoop], by simp [evictLoop], fun i hi => absurd hi (Nat.not_lt_zero _), .inr rfl⟩
  | cons e r ih =>
    intro size later
    rw [evictLoop]
    by_cases hs : size > max
    · rw [if_pos hs]
      by_cases he : loaded e.2 = true ∧ e.1 ∉ keep
      · rw [if_pos he]
        have hb : (loaded e.2 && decide (e.1 ∉ keep)) = true := by simp [he]
        obtain ⟨k, h0, h1, h2, h3, h4⟩ := ih (later.headD usizeMax) later.tail
        have hat : ∀ i, (Mem.mk (later.headD usizeMax) max later.tail).at i = (Mem.mk size max later).at (i + 1) := by
          intro i
          cases later with
          | nil => cases i <;> rfl
          | cons x t => cases i <;> rfl
        refine ⟨k + 1, ?_, ?_, ?_, ?_, ?_⟩
        · rw [List.filter_cons_of_pos (by simpa using hb), List.length_cons]; omega
        · rw [h1, List.filter_cons_of_pos (by simpa using hb), List.drop_succ_cons]
        · rw [h2, List.filter_cons_of_neg (by simpa using he)]
        · intro i hi
          cases i with
          | zero => exact hs
          | succ i => rw [← hat]; exact h3 i (by omega)
        · rw [← hat, List.filter_cons_of_pos (by simpa using hb), List.length_cons]
          rcases h4 with h4 | h4
          · exact .inl h4
          · exact .inr (by omega)
      · rw [if_neg he]
        have hb : ¬ (loaded e.2 && decide (e.1 ∉ keep)) = true := by simpa using he
        obtain ⟨k, h0, h1, h2, h3, h4⟩ := ih size later
        have hb' : (!(loaded e.2 && decide (e.1 ∉ keep))) = true := by
          rw [Bool.not_eq_true'] ; exact Bool.eq_false_iff.2 hb
        refine ⟨k, ?_, ?_, ?_, h3, ?_⟩
        · rw [List.filter_cons_of_neg (by simpa using he)]; exact h0
        · rw [List.filter_cons_of_neg (by simpa using he), List.filter_cons_of_neg (by simpa using he)]; exact h1
        · rw [List.filter_cons_of_pos (by exact hb'), List.filter_cons_of_pos (by exact hb'), h2]
        · rw [List.filter_cons_of_neg (by simpa using he)]; exact h4
    · rw [if_neg hs]
      exact ⟨0, Nat.zero_le _, rfl, rfl, fun i hi => absurd hi (Nat.not_lt_zero _), .inl (Nat.le_of_not_lt hs)⟩

/-- C51, eviction: of the entries that are loaded and not to be kept exactly the `k` oldest are removed, where `k` is the first
number of removals after which the measured size is within the limit (all of them, if there is none).  All other entries stay, and
the order of entries does not change. -/
theorem C51_eviction (s : Store Nm A C K U) (m : Mem) (keep : List Nm) :
    let removable : Nm × Nat → Bool := fun e => (s.graph e.2).isSome && decide (e.1 ∉ keep)
    ∃ k, k ≤ (s.cache.filter removable).length ∧
      (s.evict m keep).cache.filter removable = (s.cache.filter removable).drop k ∧
      (s.evict m keep).cache.filter (fun e => !removable e) = s.cache.filter (fun e => !removable e) ∧
      (s.evict m keep).cache.Sublist s.cache ∧
      (∀ i < k, m.max < m.at i) ∧ (m.at k ≤ m.max ∨ k = (s.cache.filter removable).length) := by
  obtain ⟨k, h0, h1, h2, h3, h4⟩ := evictLoop_spec (fun p => (s.graph p).isSome) keep m.max s.cache m.size m.later
  exact ⟨k, h0, h1, h2, evictLoop_sublist _ _ _ _ _ _, h3, h4⟩

/-! ### Evictions are invisible -/

theorem step_rel {o : GraphOps A C K U} {s : Store Nm A C K U} {a : Abs Nm A C K} (hf : o.fresh.comps.Sorted)
    (hsort : ∀ g u, g.comps.Sorted → (o.apply g u).1.comps.Sorted) (h : Rel o s a [] []) (m1 m2 m3 : Mem) (op : Op Nm A C K U)
    (ha : a.Safe o s op) : Rel o (s.step o m1 m2 m3 op).1 (a.step o op).1 [] [] ∧ (s.step o m1 m2 m3 op).2 = (a.step o op).2 := by
  cases op with
  | info n => exact ⟨(h.getEntry n).1, rfl⟩
  | list =>
    refine ⟨?_, ?_⟩
    · refine Rel.touchAll _ s h fun n hn => ?_
      obtain ⟨d, hd⟩ := OMap.mem_keys_iff.1 hn
      show (a.corpora.get n).isSome = true
      rw [← h.dom, hd]; rfl
    · show Out.names _ = Out.names _
      rw [h.keys]
  | query n =>
    unfold Store.step Abs.step
    simp only
    cases hg : a.corpora.get n with
    | some g =>
      obtain ⟨s', p, e1, e2, e3, e4, _⟩ := h.getLoaded_some hg false m1 m2 (ha (by rw [hg]; simp))
      rw [e1]
      simp only [e3]
      exact ⟨e2.evict m3 [n], trivial⟩
    | none =>
      obtain ⟨s', e1, e2⟩ := h.getLoaded_missing hg m1 m2
      rw [e1]
      exact ⟨e2, rfl⟩
  | update n u =>
    have key : ∀ (s : Store Nm A C K U) (a' : Abs Nm A C K) (g : Content A C K) (p : Nat), Rel o s a' [] [] →
        a'.corpora.get n = some g → s.graph p = some g → (n, p) ∈ s.cache → g.comps.Sorted →
        ((o.apply g u).2 = false → a'.pend n ≤ 1) → ((o.apply g u).2 = true → ∀ j ∈ s.jobs, j.1 = n → j.2 = p) →
        Rel o (match applyEntry o s n p u with
          | (s, .error e) => ((s, Out.err e) : Store Nm A C K U × Out Nm A C K)
          | (s, .ok _) => (s, .unit)).1
          (if (o.apply g u).2 then { a'.put n (o.apply g u).1 (a'.pend n + 1) with jobs := a'.jobs ++ [n] } else a') [] [] ∧
        (match applyEntry o s n p u with
          | (s, .error e) => ((s, Out.err e) : Store Nm A C K U × Out Nm A C K)
          | (s, .ok _) => (s, .unit)).2 =
          (if (o.apply g u).2 then .unit else .err .updateFailed) := by
      intro s a' g p h hg hp hm hs hk hj
      by_cases hu : (o.apply g u).2 = true
      · obtain ⟨s', e1, e2, _, _⟩ := h.applyEntry_ok hp hg u hu (hsort g u hs)
          (by
            intro e he hn _
            rw [List.append_nil] at he
            rcases List.mem_append.1 he with he | he
            · obtain ⟨e1, e2⟩ := e
              have hn : e1 = n := hn
              subst hn
              exact nodup_unique h.nodup he hm
            · exact hj hu e he hn)
          (by simp [hm])
        rw [e1, if_pos hu, if_pos hu]
        exact ⟨e2, rfl⟩
      · rw [h.applyEntry_fail hp hg u (by simpa using hu) (hk (by simpa using hu)), if_neg hu, if_neg hu]
        exact ⟨h, rfl⟩
    cases hg : a.corpora.get n with
    | some g =>
      unfold Abs.Safe at ha
      simp only [hg] at ha
      obtain ⟨ha1, ha2, ha3⟩ := ha
      obtain ⟨s', p, e1, e2, e3, e4, e5, e6⟩ := h.getLoaded_some hg true m1 m2 ha1
      obtain ⟨d, hd⟩ := h.disk_some hg
      have := key s' a g p e2 hg e3 e4 (h.disk n d g hd hg).1 ha2 (by
        intro hu j hj hjn
        rw [e5] at hj
        obtain ⟨g', hg', _⟩ := h.jobsOk j hj
        exact (e6 j.2 (ha3 hu j hj hjn) (by rw [hg']; rfl)).symm)
      unfold Store.step Abs.step
      simp only [hg, Option.getD_some, e1, Option.isSome_some, if_true]
      by_cases hu : (o.apply g u).2 = true
      · rw [if_pos hu, if_pos hu] at this
        rw [if_pos hu]
        exact this
      · rw [if_neg hu, if_neg hu] at this
        rw [if_neg hu, h.put_same hg]
        exact this
    | none =>
      have hj : n ∉ a.jobs := by
        unfold Abs.Safe at ha
        simp only [hg] at ha
        exact ha
      obtain ⟨s', p, e1, e2, e3, e4⟩ := h.getLoaded_create hg m1 m2 hf hj (by simp)
      have hg' : (a.put n o.fresh 0).corpora.get n = some o.fresh := OMap.get_insert_self _ _ _
      have hp0 : (a.put n o.fresh 0).pend n = 0 := Function.update_self _ _ _
      have := key s' (a.put n o.fresh 0) o.fresh p e2 hg' e3 e4 hf (fun _ => by rw [hp0]; omega) (by
        intro _ j hj' hjn
        refine absurd ?_ hj
        have : (a.put n o.fresh 0).jobs = a.jobs := rfl
        rw [← this, ← e2.jobs, ← hjn]
        exact List.mem_map.2 ⟨j, hj', rfl⟩)
      rw [hp0] at this
      unfold Store.step Abs.step
      simp only [hg, Option.getD_none, e1, Option.isSome_none, if_false, Bool.false_eq_true]
      by_cases hu : (o.apply o.fresh u).2 = true
      · rw [if_pos hu, if_pos hu] at this
        rw [if_pos hu]
        have e : (a.put n o.fresh 0).put n (o.apply o.fresh u).1 (0 + 1) = a.put n (o.apply o.fresh u).1 (0 + 1) := by
          unfold Abs.put
          have : (a.corpora.insert n o.fresh).insert n (o.apply o.fresh u).1 = a.corpora.insert n (o.apply o.fresh u).1 := by
            refine OMap.ext (OMap.sorted_insert (OMap.sorted_insert h.sc _ _) _ _) (OMap.sorted_insert h.sc _ _) fun k => ?_
            rw [OMap.get_insert, OMap.get_insert, OMap.get_insert]
            split <;> rfl
          simp only [this, List.filter_filter, Function.update_idem]
          simp
        rw [e] at this
        exact this
      · rw [if_neg hu, if_neg hu] at this
        rw [if_neg hu]
        exact this
  | create n =>
    unfold Store.step Abs.step
    simp only
    by_cases hk : a.known n = true
    · rw [if_pos ((h.known n).2 hk), if_pos hk]
      exact ⟨h, rfl⟩
    · rw [if_neg (fun hc => hk ((h.known n).1 hc)), if_neg hk]
      have hg : a.corpora.get n = none := by
        cases hg : a.corpora.get n with
        | none => rfl
        | some g => unfold Abs.known at hk; rw [hg] at hk; simp at hk
      obtain ⟨s', p, e1, e2, _, _⟩ := h.loadEntry_create hg m1 m2 hf (ha (by simpa using hk)) (by simp)
      rw [e1]
      exact ⟨e2, rfl⟩
  | delete n =>
    refine ⟨h.delete n (by simp), ?_⟩
    show Out.bool _ = Out.bool _
    congr 1
    rw [Bool.eq_iff_iff, Bool.or_eq_true, or_comm]
    exact h.known n
  | unload n => exact ⟨h.unload n, rfl⟩
  | «import» n g overwrite =>
    have h' := h.evict m1 []
    unfold Store.step Abs.step
    simp only
    by_cases hk : (!overwrite && a.known n) = true
    · have hk' := hk
      rw [Bool.and_eq_true] at hk'
      rw [if_pos hk, if_pos ⟨hk'.1, (h'.known n).2 hk'.2⟩]
      exact ⟨h', rfl⟩
    · rw [if_neg hk, if_neg (fun hc => hk (by rw [Bool.and_eq_true]; exact ⟨hc.1, (h'.known n).1 hc.2⟩))]
      obtain ⟨hj, hs⟩ := ha (by
        intro ho
        rw [ho] at hk
        simpa using hk)
      have hsy := Rel.saved_synced' (U := U) o.apply g hs
      exact ⟨(h'.put n _ g 0 none (fun g' hg => by cases hg) hs (Rel.stored_synced hsy) (fun _ => rfl) (.inr ⟨hj, by simp⟩)).evict m2 [n],
        rfl⟩
  | work i => exact ⟨(h.work i).1, rfl⟩

theorem run_rel {o : GraphOps A C K U} (hf : o.fresh.comps.Sorted)
    (hsort : ∀ g u, g.comps.Sorted → (o.apply g u).1.comps.Sorted) (ops : List ((Mem × Mem × Mem) × Op Nm A C K U)) :
    ∀ (s : Store Nm A C K U) (a : Abs Nm A C K), Rel o s a [] [] → Abs.AllSafe o s a ops →
      Rel o (Store.run o s ops).1 (a.run o (ops.map Prod.snd)).1 [] [] ∧ (Store.run o s ops).2 = (a.run o (ops.map Prod.snd)).2 := by
  induction ops with
  | nil => intro s a h _; exact ⟨h, rfl⟩
  | cons x r ih =>
    intro s a h ha
    obtain ⟨h1, h2⟩ := step_rel hf hsort h x.1.1 x.1.2.1 x.1.2.2 x.2 ha.1
    obtain ⟨h3, h4⟩ := ih _ _ h1 ha.2
    refine ⟨h3, ?_⟩
    show _ :: _ = _ :: _
    rw [h2, h4]

/-- If updates are only made after the write-back of the former one, then every operation is safe with all measurements. -/
theorem allowed_safe {o : GraphOps A C K U} {s : Store Nm A C K U} {a : Abs Nm A C K} (h : Rel o s a [] [])
    (hp : ∀ n, a.pend n ≤ 1) (op : Op Nm A C K U) (ha : a.Allowed o op) :
    a.Safe o s op ∧ ∀ n, (a.step o op).1.pend n ≤ 1 := by
  have hput : ∀ (n : Nm) (g : Content A C K) (k : Nat), k ≤ 1 → ∀ x, (a.put n g k).pend x ≤ 1 := by
    intro n g k hk x
    show Function.update a.pend n k x ≤ 1
    by_cases e : x = n
    · rw [e, Function.update_self]; exact hk
    · rw [Function.update_of_ne e]; exact hp x
  have htouch : ∀ (n : Nm) x, (a.touch n).pend x ≤ 1 := by
    intro n x
    unfold Abs.touch
    split <;> exact hp x
  cases op with
  | info n => exact ⟨trivial, htouch n⟩
  | list => exact ⟨trivial, hp⟩
  | query n =>
    refine ⟨fun _ => .inr (hp n), ?_⟩
    unfold Abs.step
    simp only
    cases a.corpora.get n with
    | some g => exact hp
    | none => exact htouch n
  | update n u =>
    have hj : ∀ g, a.corpora.get n = some g → (o.apply g u).2 = true → n ∉ a.jobs :=
      fun g hg hu => ha (.inr (by rw [hg]; exact hu))
    refine ⟨?_, ?_⟩
    · unfold Abs.Safe
      cases hg : a.corpora.get n with
      | none =>
        simp only [hg]
        exact ha (.inl hg)
      | some g =>
        simp only [hg]
        refine ⟨.inr (hp n), fun _ => hp n, fun hu j hjm hjn => ?_⟩
        refine absurd ?_ (hj g hg hu)
        rw [← h.jobs, ← hjn]
        exact List.mem_map.2 ⟨j, hjm, rfl⟩
    · unfold Abs.step
      simp only
      cases hg : a.corpora.get n with
      | none =>
        simp only [Option.getD_none, Option.isSome_none, if_false, Bool.false_eq_true]
        split
        · exact hput n (o.apply o.fresh u).1 _ (by omega)
        · exact hput n _ _ (by omega)
      | some g =>
        simp only [Option.getD_some, Option.isSome_some, if_true]
        split
        · rename_i hu
          exact hput n (o.apply g u).1 _ (by rw [h.idle n (hj g hg hu)])
        · exact hput n _ _ (hp n)
  | create n =>
    refine ⟨fun _ => ha, ?_⟩
    unfold Abs.step
    simp only
    split
    · exact hp
    · exact hput n _ _ (by omega)
  | delete n => exact ⟨trivial, hp⟩
  | unload n => exact ⟨trivial, hp⟩
  | «import» n g overwrite =>
    refine ⟨fun _ => ha, ?_⟩
    unfold Abs.step
    simp only
    split
    · exact hp
    · exact hput n _ _ (by omega)
  | work i =>
    refine ⟨trivial, fun x => ?_⟩
    show (a.written i).pend x ≤ 1
    unfold Abs.written
    cases a.jobs[i]? with
    | none => exact hp x
    | some n =>
      show Function.update a.pend n 0 x ≤ 1
      by_cases e : x = n
      · rw [e, Function.update_self]; omega
      · rw [Function.update_of_ne e]; exact hp x

theorem allAllowed_safe {o : GraphOps A C K U} (hf : o.fresh.comps.Sorted)
    (hsort : ∀ g u, g.comps.Sorted → (o.apply g u).1.comps.Sorted) (ops : List ((Mem × Mem × Mem) × Op Nm A C K U)) :
    ∀ (s : Store Nm A C K U) (a : Abs Nm A C K), Rel o s a [] [] → (∀ n, a.pend n ≤ 1) → a.AllAllowed o (ops.map Prod.snd) →
      Abs.AllSafe o s a ops := by
  induction ops with
  | nil => intro s a _ _ _; trivial
  | cons x r ih =>
    intro s a h hp ha
    obtain ⟨h1, h2⟩ := allowed_safe h hp x.2 ha.1
    exact ⟨h1, ih _ _ (step_rel hf hsort h x.1.1 x.1.2.1 x.1.2.2 x.2 h1).1 h2 ha.2⟩

/-- A storage opened on a directory. -/
def Store.opened (disk : OMap Nm (Disk A C K U)) : Store Nm A C K U := ⟨disk, [], [], []⟩

/-- The directory contains exactly these corpora, completely written. -/
def Holds (o : GraphOps A C K U) (disk : OMap Nm (Disk A C K U)) (corpora : OMap Nm (Content A C K)) : Prop :=
  disk.Sorted ∧ corpora.Sorted ∧ (∀ n, (disk.get n).isSome = (corpora.get n).isSome) ∧
    ∀ n d g, disk.get n = some d → corpora.get n = some g → g.comps.Sorted ∧ Synced o.apply d g

theorem opened_rel {o : GraphOps A C K U} {disk : OMap Nm (Disk A C K U)} {corpora : OMap Nm (Content A C K)}
    (h : Holds o disk corpora) : Rel o (Store.opened disk) ⟨corpora, [], [], fun _ => 0⟩ [] [] := by
  obtain ⟨h1, h2, h3, h4⟩ := h
  refine ⟨h1, h2, h3, ?_, fun _ _ => rfl, ?_, ?_, rfl, ?_, ?_, ?_, ?_⟩
  · intro n d g hd hg
    obtain ⟨i1, i2⟩ := h4 n d g hd hg
    exact ⟨i1, Rel.stored_synced i2⟩
  all_goals simp [Store.opened]

/-- C51, restricted: the results of all operations are those of a storage without cache, also if there are several updates of a corpus
before the background writers run.  Missing: loading a corpus (after an eviction or `unload`) and failing updates while two or more
updates are not written back, updates while a writer for an evicted entry is left, and creation and import while a writer for a
deleted corpus is left, for which it is false (`C51_fails`, `C51_failed_update_fails`, `C51_stale_writer_fails`,
`C51_recreated_fails`). -/
theorem C51_loaded_partial (o : GraphOps A C K U) (hf : o.fresh.comps.Sorted)
    (hsort : ∀ g u, g.comps.Sorted → (o.apply g u).1.comps.Sorted) (disk : OMap Nm (Disk A C K U))
    (corpora : OMap Nm (Content A C K)) (hd : Holds o disk corpora) (ops : List ((Mem × Mem × Mem) × Op Nm A C K U))
    (ha : Abs.AllSafe o (Store.opened disk) (Abs.mk corpora [] [] fun _ => 0) ops) :
    (Store.run o (Store.opened disk) ops).2 = ((Abs.mk corpora [] [] fun _ => 0).run o (ops.map Prod.snd)).2 :=
  (run_rel hf hsort ops _ _ (opened_rel hd) ha).2

/-- C51, restricted: the results of all operations do not depend on the memory measurements; they are those of a storage without
cache.  Missing: successful updates, creation and import of a corpus while an earlier update of a corpus with this name is not
written back, for which it is false (`C51_fails`, `C51_stale_writer_fails`, `C51_recreated_fails`). -/
theorem C51_invisible_partial (o : GraphOps A C K U) (hf : o.fresh.comps.Sorted)
    (hsort : ∀ g u, g.comps.Sorted → (o.apply g u).1.comps.Sorted) (disk : OMap Nm (Disk A C K U))
    (corpora : OMap Nm (Content A C K)) (hd : Holds o disk corpora) (ops : List ((Mem × Mem × Mem) × Op Nm A C K U))
    (ha : (Abs.mk corpora [] [] fun _ => 0).AllAllowed o (ops.map Prod.snd)) :
    (Store.run o (Store.opened disk) ops).2 = ((Abs.mk corpora [] [] fun _ => 0).run o (ops.map Prod.snd)).2 :=
  C51_loaded_partial o hf hsort disk corpora hd ops (allAllowed_safe hf hsort ops _ _ (opened_rel hd) (fun _ => Nat.zero_le _) ha)

/-- C51, restricted as before: two histories that only differ in the memory measurements have the same results. -/
theorem C51_independent_partial (o : GraphOps A C K U) (hf : o.fresh.comps.Sorted)
    (hsort : ∀ g u, g.comps.Sorted → (o.apply g u).1.comps.Sorted) (disk : OMap Nm (Disk A C K U))
    (corpora : OMap Nm (Content A C K)) (hd : Holds o disk corpora) (ops ops' : List ((Mem × Mem × Mem) × Op Nm A C K U))
    (hsame : ops.map Prod.snd = ops'.map Prod.snd) (ha : (Abs.mk corpora [] [] fun _ => 0).AllAllowed o (ops.map Prod.snd)) :
    (Store.run o (Store.opened disk) ops).2 = (Store.run o (Store.opened disk) ops').2 := by
  rw [C51_invisible_partial o hf hsort disk corpora hd ops ha,
    C51_invisible_partial o hf hsort disk corpora hd ops' (by rw [← hsame]; exact ha), hsame]

/-! ### C52 -/

namespace Store

/-- Whether the corpus exists after the operations, given whether it did before. -/
def live (n : Nm) (b : Bool) (ops : List (Op Nm A C K U)) : Bool :=
  ops.foldl (fun b op =>
    match op with
    | .create m => if m = n then true else b
    | .update m _ => if m = n then true else b
    | .import m _ _ => if m = n then true else b
    | .delete m => if m = n then false else b
    | _ => b) b

/-- Only existing corpora are asked for. -/
def Asked (exist : Nm → Bool) : List (Op Nm A C K U) → Prop
  | [] => True
  | op :: r =>
    (match op with
      | .info n => exist n = true
      | .query n => exist n = true
      | _ => True) ∧ Asked (fun n => live n (exist n) [op]) r

/-- Every entry of the cache belongs to a directory. -/
structure Backed (s : Store Nm A C K U) (exist : Nm → Bool) : Prop where
  sorted : s.disk.Sorted
  exact_ : ∀ n, (s.disk.get n).isSome = exist n
  backed : ∀ n, n ∈ s.cache.map Prod.fst → (s.disk.get n).isSome = true

namespace Backed

variable {o : GraphOps A C K U} {s : Store Nm A C K U} {exist : Nm → Bool}

theorem evict (h : Backed s exist) (m : Mem) (keep : List Nm) : Backed (s.evict m keep) exist :=
  ⟨h.sorted, h.exact_, fun n hn => by
    obtain ⟨e, he, rfl⟩ := List.mem_map.1 hn
    exact h.backed _ (List.mem_map.2 ⟨e, (evictLoop_sublist _ _ _ _ _ _).subset he, rfl⟩)⟩

theorem getEntry (h : Backed s exist) {n : Nm} (hn : (s.disk.get n).isSome = true) : Backed (s.getEntry n).1 exist := by
  unfold Store.getEntry
  cases hg : cacheGet s.cache n with
  | some p => exact h
  | none =>
    refine ⟨h.sorted, h.exact_, fun x hx => ?_⟩
    rw [List.map_append, List.mem_append] at hx
    rcases hx with hx | hx
    · exact h.backed x hx
    · simp only [List.map_cons, List.map_nil, List.mem_singleton] at hx
      rw [hx]; exact hn

/-- Writing a directory, exchanging the cache entry and changing the rest. -/
theorem put (h : Backed s exist) (n : Nm) (d : Disk A C K U) (hp : List (Option (Content A C K))) (p : Nat) (j : List (Nm × Nat)) :
    Backed ⟨s.disk.insert n d, hp, cacheRemove s.cache n ++ [(n, p)], j⟩ (fun x => if n = x then true else exist x) := by
  refine ⟨OMap.sorted_insert h.sorted _ _, ?_, ?_⟩
  · intro x
    show ((s.disk.insert n d).get x).isSome = _
    rw [OMap.get_insert]
    by_cases e : x = n
    · rw [if_pos e, if_pos e.symm]; rfl
    · rw [if_neg e, if_neg (fun h => e h.symm)]; exact h.exact_ x
  · intro x hx
    show ((s.disk.insert n d).get x).isSome = true
    rw [OMap.get_insert]
    by_cases e : x = n
    · rw [if_pos e]; rfl
    · rw [if_neg e]
      rw [List.map_append, List.mem_append, keys_cacheRemove] at hx
      rcases hx with hx | hx
      · exact h.backed x hx.1
      · simp only [List.map_cons, List.map_nil, List.mem_singleton] at hx
        exact absurd hx e

theorem same (h : Backed s exist) (n : Nm) (d : Disk A C K U) (hn : (s.disk.get n).isSome = true) (hp : List (Option (Content A C K)))
    (j : List (Nm × Nat)) : Backed ⟨s.disk.insert n d, hp, s.cache, j⟩ exist := by
  refine ⟨OMap.sorted_insert h.sorted _ _, ?_, ?_⟩
  · intro x
    show ((s.disk.insert n d).get x).isSome = _
    rw [OMap.get_insert]
    split
    · rename_i e; rw [e, ← h.exact_, hn]; rfl
    · exact h.exact_ x
  · intro x hx
    show ((s.disk.insert n d).get x).isSome = true
    rw [OMap.get_insert]
    split
    · rfl
    · exact h.backed x hx

theorem congr {exist' : Nm → Bool} (h : Backed s exist) (he : ∀ n, exist n = exist' n) : Backed s exist' :=
  ⟨h.sorted, fun n => (h.exact_ n).trans (he n), h.backed⟩

/-- Loading, for a corpus that exists or is created. -/
theorem loadEntry (h : Backed s exist) {n : Nm} (create : Bool) (hc : (s.disk.get n).isSome = true ∨ create = true) (m1 m2 : Mem) :
    Backed (Store.loadEntry o s n create m1 m2).1 (fun x => if n = x then true else exist x) := by
  unfold Store.loadEntry
  cases hd : s.disk.get n with
  | none =>
    rw [hd] at hc
    simp only [Option.isSome_none, Bool.false_eq_true, false_or] at hc
    simp only [hc, if_true]
    exact ((h.evict m1 [n]).put n _ _ _ _).evict m2 [n]
  | some d =>
    have he : exist n = true := by rw [← h.exact_, hd]; rfl
    simp only
    cases openGraph o.apply d with
    | none =>
      refine (h.evict m1 [n]).congr fun x => ?_
      split
      · rename_i e; rw [← e, he]
      · rfl
    | some r => exact ((h.evict m1 [n]).put n _ _ _ _).evict m2 [n]

end Backed

end Store

open Store in
theorem loadEntry_ok_graph {o : GraphOps A C K U} {s s' : Store Nm A C K U} {n : Nm} {create : Bool} {m1 m2 : Mem} {p : Nat}
    (h : Store.loadEntry o s n create m1 m2 = (s', .ok p)) : (s'.disk.get n).isSome = true := by
  unfold Store.loadEntry at h
  cases hd : s.disk.get n with
  | none =>
    rw [hd] at h
    cases create with
    | false => cases h
    | true =>
      have := (Prod.mk.inj h).1
      rw [← this]
      show ((OMap.insert _ n _).get n).isSome = true
      rw [OMap.get_insert_self]; rfl
  | some d =>
    rw [hd] at h
    simp only at h
    cases hx : openGraph o.apply d with
    | none => rw [hx] at h; cases (Prod.mk.inj h).2
    | some r =>
      rw [hx] at h
      have := (Prod.mk.inj h).1
      rw [← this]
      show ((OMap.insert _ n _).get n).isSome = true
      rw [OMap.get_insert_self]; rfl

open Store in
theorem step_backed {o : GraphOps A C K U} {s : Store Nm A C K U} {exist : Nm → Bool} (h : Backed s exist) (m1 m2 m3 : Mem)
    (op : Op Nm A C K U) (ha : Asked exist [op]) :
    Backed (s.step o m1 m2 m3 op).1 (fun n => live n (exist n) [op]) := by
  have getL : ∀ n create, (s.disk.get n).isSome = true →
      Backed (Store.getLoaded o s n create m1 m2).1 exist := by
    intro n create hn
    have h1 := h.getEntry hn
    have hd : ((s.getEntry n).1.disk.get n).isSome = true := by rw [h1.exact_, ← h.exact_, hn]
    unfold Store.getLoaded
    simp only
    split
    · exact h1
    · refine (h1.loadEntry (o := o) create (.inl hd) m1 m2).congr fun x => ?_
      split
      · rename_i e; rw [← e, ← h1.exact_, hd]
      · rfl
  cases op with
  | info n => exact h.getEntry (by rw [h.exact_]; exact ha.1)
  | list =>
    have : ∀ (l : List Nm) (s : Store Nm A C K U), Backed s exist → (∀ n ∈ l, exist n = true) →
        Backed (l.foldl (fun s n => (s.getEntry n).1) s) exist := by
      intro l
      induction l with
      | nil => intro s h _; exact h
      | cons x r ih =>
        intro s h hl
        exact ih _ (h.getEntry (by rw [h.exact_]; exact hl x (by simp))) fun m hm => hl m (by simp [hm])
    refine this _ s h fun n hn => ?_
    obtain ⟨d, hd⟩ := OMap.mem_keys_iff.1 hn
    rw [← h.exact_, hd]; rfl
  | query n =>
    have hb := getL n false (by rw [h.exact_]; exact ha.1)
    unfold Store.step
    simp only
    generalize Store.getLoaded o s n false m1 m2 = r at hb
    obtain ⟨s', e | p⟩ := r
    · exact hb
    · simp only
      cases s'.graph p with
      | none => exact hb
      | some g => exact hb.evict m3 [n]
  | update n u =>
    have key : Backed (Store.getLoaded o s n true m1 m2).1 (fun x => if n = x then true else exist x) := by
      by_cases hn : (s.disk.get n).isSome = true
      · refine (getL n true hn).congr fun x => ?_
        split
        · rename_i e; rw [← e, ← h.exact_, hn]
        · rfl
      · -- the entry is not loaded unless it is in the cache, which needs a directory
        have hc : cacheGet s.cache n = none := by
          cases hg : cacheGet s.cache n with
          | none => rfl
          | some p => exact absurd (h.backed n (List.mem_map.2 ⟨_, cacheGet_some hg, rfl⟩)) hn
        have hd : s.disk.get n = none := by
          cases hd : s.disk.get n with
          | none => rfl
          | some d => rw [hd] at hn; exact absurd rfl hn
        unfold Store.getLoaded Store.getEntry
        rw [hc]
        simp only
        rw [if_neg (by rw [graph_append_eq]; simp)]
        unfold Store.loadEntry
        rw [show (⟨s.disk, s.heap ++ [none], s.cache ++ [(n, s.heap.length)], s.jobs⟩ : Store Nm A C K U).disk.get n = none from hd]
        simp only [if_true]
        have hrem : ∀ m : Mem, cacheRemove (Store.evict (⟨s.disk, s.heap ++ [none], s.cache ++ [(n, s.heap.length)], s.jobs⟩ : Store Nm A C K U) m [n]).cache n
            = cacheRemove (cacheRemove (Store.evict (⟨s.disk, s.heap ++ [none], s.cache ++ [(n, s.heap.length)], s.jobs⟩ : Store Nm A C K U) m [n]).cache n) n := by
          intro m
          unfold cacheRemove
          rw [List.filter_filter]
          simp
        have hb : Backed (⟨s.disk, s.heap ++ [none], cacheRemove (Store.evict (⟨s.disk, s.heap ++ [none], s.cache ++ [(n, s.heap.length)], s.jobs⟩ : Store Nm A C K U) m1 [n]).cache n, s.jobs⟩ : Store Nm A C K U) exist := by
          refine ⟨h.sorted, h.exact_, fun x hx => ?_⟩
          rw [keys_cacheRemove] at hx
          obtain ⟨e, he, rfl⟩ := List.mem_map.1 hx.1
          have := (evictLoop_sublist _ _ _ _ _ _).subset he
          rcases List.mem_append.1 this with he | he
          · exact h.backed _ (List.mem_map.2 ⟨e, he, rfl⟩)
          · rw [List.mem_singleton] at he
            rw [he] at hx
            exact absurd rfl hx.2
        unfold Store.addEntry
        refine Backed.evict ?_ m2 [n]
        simp only
        rw [hrem m1]
        exact hb.put n _ _ _ _
    have hex : ∀ s' p, Store.getLoaded o s n true m1 m2 = (s', .ok p) → (s'.disk.get n).isSome = true := by
      intro s' p hs
      rw [hs] at key
      rw [key.exact_, if_pos rfl]
    unfold Store.step
    simp only
    show Backed _ (fun x => if n = x then true else exist x)
    generalize hr : Store.getLoaded o s n true m1 m2 = r at key
    obtain ⟨s', e | p⟩ := r
    · exact key
    · simp only
      have hd := hex s' p hr
      unfold Store.applyEntry
      cases s'.graph p with
      | none => exact key
      | some g =>
        simp only
        cases applyUpdate o.apply g ((s'.disk.get n).getD ⟨none, none⟩) u with
        | none => exact ⟨key.sorted, key.exact_, key.backed⟩
        | some x =>
          obtain ⟨⟨g', d'⟩, b⟩ := x
          cases b with
          | true => exact key.same n d' hd _ _
          | false =>
            simp only
            rw [if_pos hd]
            exact key.same n d' hd _ _
  | create n =>
    unfold Store.step
    simp only
    show Backed _ (fun x => if n = x then true else exist x)
    split
    · rename_i hk
      have : exist n = true := by
        rw [← h.exact_]
        rcases hk with hk | hk
        · exact h.backed n (cacheGet_isSome.1 hk)
        · exact hk
      refine h.congr fun x => ?_
      split
      · rename_i e; rw [← e, this]
      · rfl
    · have hb := h.loadEntry (o := o) (n := n) true (.inr rfl) m1 m2
      generalize Store.loadEntry o s n true m1 m2 = r at hb
      obtain ⟨s', e | p⟩ := r <;> exact hb
  | delete n =>
    show Backed _ (fun x => if n = x then false else exist x)
    have hg : ∀ x, (s.disk.erase n).get x = if x = n then none else s.disk.get x := fun x => OMap.get_erase h.sorted _ _
    refine ⟨OMap.sorted_erase h.sorted _, ?_, ?_⟩
    · intro x
      show ((s.disk.erase n).get x).isSome = _
      rw [hg]
      by_cases e : x = n
      · rw [if_pos e, if_pos e.symm]; rfl
      · rw [if_neg e, if_neg (fun h => e h.symm)]; exact h.exact_ x
    · intro x hx
      change x ∈ (cacheRemove s.cache n).map Prod.fst at hx
      rw [keys_cacheRemove] at hx
      show ((s.disk.erase n).get x).isSome = true
      rw [hg, if_neg hx.2]
      exact h.backed x hx.1
  | unload n =>
    refine ⟨h.sorted, h.exact_, fun x hx => ?_⟩
    change x ∈ (cacheRemove s.cache n).map Prod.fst at hx
    rw [keys_cacheRemove] at hx
    exact h.backed x hx.1
  | «import» n g overwrite =>
    have hb := h.evict m1 []
    unfold Store.step
    simp only
    show Backed _ (fun x => if n = x then true else exist x)
    split
    · rename_i hk
      have : exist n = true := by
        rw [← hb.exact_]
        rcases hk.2 with hk | hk
        · exact hb.backed n (cacheGet_isSome.1 hk)
        · exact hk
      refine hb.congr fun x => ?_
      split
      · rename_i e; rw [← e, this]
      · rfl
    · exact (hb.put n _ _ _ _).evict m2 [n]
  | work i =>
    show Backed (s.work i) exist
    unfold Store.work
    cases hi : s.jobs[i]? with
    | none => exact h
    | some j =>
      obtain ⟨n, p⟩ := j
      simp only
      cases Store.graph (⟨s.disk, s.heap, s.cache, s.jobs.eraseIdx i⟩ : Store Nm A C K U) p with
      | none => exact ⟨h.sorted, h.exact_, h.backed⟩
      | some g =>
        cases hd : s.disk.get n with
        | none => exact ⟨h.sorted, h.exact_, h.backed⟩
        | some d =>
          simp only
          split
          · exact ⟨h.sorted, h.exact_, h.backed⟩
          · exact h.same n _ (by rw [hd]; rfl) _ _

open Store in
theorem run_backed {o : GraphOps A C K U} (ops : List ((Mem × Mem × Mem) × Op Nm A C K U)) :
    ∀ (s : Store Nm A C K U) (exist : Nm → Bool), Backed s exist → Asked exist (ops.map Prod.snd) →
      Backed (Store.run o s ops).1 (fun n => live n (exist n) (ops.map Prod.snd)) := by
  induction ops with
  | nil => intro s e h _; exact h
  | cons x r ih =>
    intro s e h ha
    exact ih _ _ (step_backed h x.1.1 x.1.2.1 x.1.2.2 x.2 ⟨ha.1, trivial⟩) ha.2

open Store in
/-- C52, restricted: after every history, also with pending writers and failed updates, creating a corpus answers whether it was
missing, deleting whether it was there, and the list contains exactly the existing corpora in order.  Whether a corpus exists is
determined by the operations of the history alone.  Missing: histories with requests for corpora that do not exist, for which it is
false (`C52_fails`). -/
theorem C52_partial (o : GraphOps A C K U) (disk : OMap Nm (Disk A C K U)) (hs : disk.Sorted)
    (ops : List ((Mem × Mem × Mem) × Op Nm A C K U)) (ha : Asked (fun n => (disk.get n).isSome) (ops.map Prod.snd))
    (m1 m2 m3 : Mem) (n : Nm) :
    let s := (Store.run o (Store.opened disk) ops).1
    let ex := fun n => live n (disk.get n).isSome (ops.map Prod.snd)
    (s.step o m1 m2 m3 (.create n)).2 = .bool (!ex n) ∧ (s.step o m1 m2 m3 (.delete n)).2 = .bool (ex n) ∧
      ∃ l : List Nm, (s.step o m1 m2 m3 .list).2 = .names l ∧ l.Pairwise (· < ·) ∧ ∀ x, x ∈ l ↔ ex x = true := by
  intro s ex
  have h : Backed s ex := run_backed ops _ _ ⟨hs, fun _ => rfl, fun n hn => by simp [Store.opened] at hn⟩ ha
  have hk : ((cacheGet s.cache n).isSome = true ∨ (s.disk.get n).isSome = true) ↔ ex n = true := by
    rw [← h.exact_]
    constructor
    · rintro (hk | hk)
      · exact h.backed n (cacheGet_isSome.1 hk)
      · exact hk
    · exact .inr
  refine ⟨?_, ?_, s.disk.keys, rfl, OMap.sorted_keys h.sorted, ?_⟩
  · unfold Store.step
    simp only
    by_cases he : ex n = true
    · rw [if_pos (hk.2 he), he]; rfl
    · rw [if_neg (fun hc => he (hk.1 hc))]
      have hd : s.disk.get n = none := by
        have := h.exact_ n
        cases hd : s.disk.get n with
        | none => rfl
        | some d => rw [hd] at this; exact absurd this.symm he
      unfold Store.loadEntry
      rw [hd]
      simp only [if_true]
      rw [Bool.eq_false_iff.2 he]
      rfl
  · show Out.bool _ = Out.bool _
    congr 1
    rw [Bool.eq_iff_iff, Bool.or_eq_true, or_comm]
    exact hk
  · intro x
    rw [OMap.mem_keys_iff, ← Option.isSome_iff_exists, h.exact_]

/-! ### Examples -/

namespace StorageEx
open Graph PersistEx Store

abbrev St := Store Nat (AnnoStore NodeID64 Nat Nat) Nat (Adj NodeID64 Nat Nat) (List (Nat × ExEvent))
abbrev SOp := Store.Op Nat (AnnoStore NodeID64 Nat Nat) Nat (Adj NodeID64 Nat Nat) (List (Nat × ExEvent))
abbrev SOut := Store.Out Nat (AnnoStore NodeID64 Nat Nat) Nat (Adj NodeID64 Nat Nat)

def ops : GraphOps (AnnoStore NodeID64 Nat Nat) Nat (Adj NodeID64 Nat Nat) (List (Nat × ExEvent)) := ⟨app, g0, g0⟩

def start : St := Store.opened []

/-- Enough memory and too little memory. -/
def big : Mem := ⟨0, 1000, []⟩
def small : Mem := ⟨1000, 0, []⟩

/-- What is compared of the results: for queries, which of the nodes 10 and 12 are found. -/
def view : SOut → Option (Bool × Bool)
  | .graph g => some (g.annos.hasNodeName exNk 10, g.annos.hasNodeName exNk 12)
  | _ => none

def isBool (b : Bool) : SOut → Bool
  | .bool c => b == c
  | _ => false

def isErr (e : SErr) : SOut → Bool
  | .err c => decide (e = c)
  | _ => false

def with_ (m : Mem) (l : List SOp) : List ((Mem × Mem × Mem) × SOp) := l.map fun op => ((m, m, m), op)

/-- C51 fails: two updates before the first background writer finished.  If the corpus is evicted afterwards, the first update is
missing. -/
theorem C51_fails :
    let h : List SOp := [.create 1, .update 1 u1, .update 1 u2, .create 2, .query 1]
    ((Store.run ops start (with_ big h)).2.map view).getLast? = some (some (true, true)) ∧
    ((Store.run ops start (with_ small h)).2.map view).getLast? = some (some (false, true)) := by decide +kernel

/-- C51 fails: a failed update after two updates that are not written back.  The content is loaded from disk again, and the first
update is missing. -/
theorem C51_failed_update_fails :
    let h : List SOp := [.create 1, .update 1 u1, .update 1 u2, .query 1, .update 1 bad, .query 1]
    (Store.run ops start (with_ big h)).2.map view = [none, none, none, some (true, true), none, some (false, true)] := by
  decide +kernel

/-- C51 fails: an older background writer runs after the newer one, with the content of an entry that was evicted.  The second
update is lost, also on disk. -/
theorem C51_stale_writer_fails :
    let h : List SOp := [.create 1, .update 1 u1, .unload 1, .update 1 u2, .work 1, .work 0, .unload 1, .query 1]
    ((Store.run ops start (with_ big h)).2.map view).getLast? = some (some (true, false)) := by decide +kernel

/-- C51 fails: a corpus is deleted and created again while a background writer is left.  The content of the deleted corpus comes
back if the new one is evicted. -/
theorem C51_recreated_fails :
    let h : List SOp := [.create 1, .update 1 u1, .delete 1, .create 1, .work 0, .create 2, .query 1]
    ((Store.run ops start (with_ big h)).2.map view).getLast? = some (some (false, false)) ∧
    ((Store.run ops start (with_ small h)).2.map view).getLast? = some (some (true, false)) := by decide +kernel

/-- C52 fails: after a failed request for a corpus that does not exist it can not be created, although it is not listed;
deleting it claims that it existed; importing it is an error. -/
theorem C52_fails :
    let r := Store.run ops start (with_ big [.query 1, .create 1, .import 1 g0 false, .delete 1, .create 1])
    r.2.map (fun x => (isErr .noSuchCorpus x, isBool false x, isErr .corpusExists x, isBool true x)) =
      [(true, false, false, false), (false, true, false, false), (false, false, true, false), (false, false, false, true),
       (false, false, false, true)] ∧
    (Store.run ops start (with_ big [.query 1, .create 1])).1.disk.keys = [] := by decide +kernel

instance (o : GraphOps (AnnoStore NodeID64 Nat Nat) Nat (Adj NodeID64 Nat Nat) (List (Nat × ExEvent)))
    (a : Abs Nat (AnnoStore NodeID64 Nat Nat) Nat (Adj NodeID64 Nat Nat)) (n : Nat) (u : List (Nat × ExEvent)) :
    Decidable (a.Allowed o (.update n u)) :=
  have : Decidable (a.corpora.get n = none) := decidable_of_iff _ Option.isNone_iff_eq_none
  inferInstanceAs (Decidable ((_ ∨ _) → _))

/-- A history with two corpora, a failed update, and evictions; the results are checked to be the expected ones. -/
def good : List SOp :=
  [.create 1, .update 1 u1, .create 2, .query 1, .update 1 bad, .work 0, .update 1 u2, .unload 1, .query 1, .update 2 u2, .query 2,
   .delete 1, .query 1]

theorem C51_nonvacuous :
    (Abs.mk [] [] [] fun _ => 0).AllAllowed ops good ∧ Holds ops (Nm := Nat) [] [] ∧ ops.fresh.comps.Sorted ∧
    (∀ g u, g.comps.Sorted → (ops.apply g u).1.comps.Sorted) ∧
    (Store.run ops start (with_ small good)).2.map view =
      [none, none, none, some (true, false), none, none, none, none, some (true, true), none, some (false, true), none, none] ∧
    (Store.run ops start (with_ small good)).2.map (isErr .updateFailed) =
      [false, false, false, false, true, false, false, false, false, false, false, false, false] := by
  refine ⟨?_, ⟨OMap.sorted_nil, OMap.sorted_nil, fun _ => rfl, fun n d g h => by cases h⟩, OMap.sorted_nil,
    graphApply_sorted exNk exTk 1000 hook, ?_, ?_⟩
  · refine ⟨fun h => (by cases h), by decide +kernel, fun h => absurd h (by decide +kernel), trivial, by decide +kernel, trivial, by decide +kernel, trivial,
      trivial, by decide +kernel, trivial, trivial, trivial, trivial⟩
  · decide +kernel
  · decide +kernel

/-- Two updates and several queries before the writers run, and a load afterwards. -/
def quick : List SOp := [.create 1, .update 1 u1, .update 1 u2, .query 1, .work 1, .unload 1, .query 1, .work 0, .query 1]

theorem C51_loaded_nonvacuous :
    Abs.AllSafe ops start (Abs.mk [] [] [] fun _ => 0) (with_ big quick) ∧
    (Store.run ops start (with_ big quick)).2.map view =
      [none, none, none, some (true, true), none, none, some (true, true), none, some (true, true)] := by
  refine ⟨?_, by decide +kernel⟩
  refine ⟨fun _ h => (by cases h), ⟨?_, ?_, ?_⟩, ⟨?_, ?_, ?_⟩, fun _ => .inl ?_, trivial, trivial, fun _ => .inr ?_, trivial,
    fun _ => .inr ?_, trivial⟩
  · exact .inr (by decide +kernel)
  · exact fun _ => by decide +kernel
  · exact fun _ j hj => by cases hj
  · exact .inl ⟨_, rfl, by decide +kernel⟩
  · exact fun _ => by decide +kernel
  · intro _
    decide +kernel
  · exact ⟨_, rfl, by decide +kernel⟩
  · decide +kernel
  · decide +kernel

/-- Before the last request all requests are for existing corpora. -/
theorem C52_nonvacuous :
    Asked (fun _ => false) (good.take 12) ∧ live 1 false (good.take 12) = false ∧ live 2 false (good.take 12) = true := by
  refine ⟨?_, rfl, rfl⟩
  exact ⟨trivial, trivial, trivial, rfl, trivial, trivial, trivial, trivial, rfl, trivial, rfl, trivial, trivial⟩

end StorageEx
