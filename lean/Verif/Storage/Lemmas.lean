import Verif.Storage.Spec

/-!
# The functions of the corpus storage keep the relation to the abstract storage
-/

set_option linter.unusedSimpArgs false
set_option linter.unusedSectionVars false
set_option linter.unusedVariables false

namespace Store

variable {Nm A C K U : Type} [LinearOrder Nm] [LinearOrder C]

/-! ### Eviction -/

theorem evictLoop_sublist (loaded : Nat → Bool) (keep : List Nm) (max : Nat) (l : List (Nm × Nat)) :
    ∀ size later, (evictLoop loaded keep max l size later).Sublist l := by
  induction l with
  | nil => intro _ _; exact List.Sublist.refl _
  | cons e r ih =>
    intro size later
    rw [evictLoop]
    split
    · split
      · exact (ih _ _).cons _
      · exact (ih _ _).cons_cons _
    · exact List.Sublist.refl _

theorem evictLoop_mem (loaded : Nat → Bool) (keep : List Nm) (max : Nat) (l : List (Nm × Nat)) :
    ∀ size later, ∀ e ∈ l, (loaded e.2 = false ∨ e.1 ∈ keep) → e ∈ evictLoop loaded keep max l size later := by
  induction l with
  | nil => intro _ _ e he; cases he
  | cons x r ih =>
    intro size later e he hk
    rw [evictLoop]
    split
    · split
      · rename_i h
        rcases List.mem_cons.1 he with rfl | he
        · rcases hk with hk | hk
          · rw [hk] at h; exact absurd h.1 (by simp)
          · exact absurd hk h.2
        · exact ih _ _ e he hk
      · rcases List.mem_cons.1 he with rfl | he
        · exact List.mem_cons_self
        · exact List.mem_cons_of_mem _ (ih _ _ e he hk)
    · exact he

theorem mem_cacheRemove {l : List (Nm × Nat)} {n : Nm} {e : Nm × Nat} : e ∈ cacheRemove l n ↔ e ∈ l ∧ e.1 ≠ n := by
  unfold cacheRemove
  rw [List.mem_filter, decide_eq_true_eq]

theorem keys_cacheRemove {l : List (Nm × Nat)} {n x : Nm} :
    x ∈ (cacheRemove l n).map Prod.fst ↔ x ∈ l.map Prod.fst ∧ x ≠ n := by
  simp only [List.mem_map, mem_cacheRemove]
  constructor
  · rintro ⟨e, ⟨h1, h2⟩, rfl⟩; exact ⟨⟨e, h1, rfl⟩, h2⟩
  · rintro ⟨⟨e, h1, rfl⟩, h2⟩; exact ⟨e, ⟨h1, h2⟩, rfl⟩

theorem cacheGet_some {l : List (Nm × Nat)} {n : Nm} {p : Nat} (h : cacheGet l n = some p) : (n, p) ∈ l := by
  unfold cacheGet at h
  obtain ⟨e, h1, rfl⟩ := Option.map_eq_some_iff.1 h
  have h2 := List.find?_some h1
  rw [decide_eq_true_eq] at h2
  subst h2
  exact List.mem_of_find?_eq_some h1

theorem cacheGet_none {l : List (Nm × Nat)} {n : Nm} (h : cacheGet l n = none) : n ∉ l.map Prod.fst := by
  unfold cacheGet at h
  rw [Option.map_eq_none_iff, List.find?_eq_none] at h
  intro hn
  obtain ⟨e, he, rfl⟩ := List.mem_map.1 hn
  exact h e he (by simp)

theorem cacheGet_isSome {l : List (Nm × Nat)} {n : Nm} : (cacheGet l n).isSome = true ↔ n ∈ l.map Prod.fst := by
  constructor
  · intro h
    obtain ⟨p, hp⟩ := Option.isSome_iff_exists.1 h
    exact List.mem_map.2 ⟨_, cacheGet_some hp, rfl⟩
  · intro h
    cases hg : cacheGet l n with
    | none => exact absurd h (cacheGet_none hg)
    | some p => rfl

theorem nodup_unique {l : List (Nm × Nat)} (h : (l.map Prod.fst).Nodup) {n : Nm} {p q : Nat} (h1 : (n, p) ∈ l) (h2 : (n, q) ∈ l) :
    p = q := by
  have := List.inj_on_of_nodup_map h h1 h2 rfl
  exact (Prod.mk.inj this).2

theorem cacheGet_of_mem {l : List (Nm × Nat)} (h : (l.map Prod.fst).Nodup) {n : Nm} {p : Nat} (h1 : (n, p) ∈ l) :
    cacheGet l n = some p := by
  cases hg : cacheGet l n with
  | none => exact absurd (List.mem_map.2 ⟨_, h1, rfl⟩) (cacheGet_none hg)
  | some q => rw [nodup_unique h (cacheGet_some hg) h1]

/-! ### Entries -/

theorem graph_lt {s : Store Nm A C K U} {p : Nat} {g : Content A C K} (h : s.graph p = some g) : p < s.heap.length := by
  unfold graph at h
  by_contra hc
  rw [List.getElem?_eq_none (Nat.le_of_not_lt hc)] at h
  cases h

theorem graph_append {s : Store Nm A C K U} {h : List (Option (Content A C K))} {x : Option (Content A C K)} {p : Nat}
    {d c j} (hp : p < h.length) : Store.graph (⟨d, h ++ [x], c, j⟩ : Store Nm A C K U) p = (h[p]?).join := by
  unfold graph
  simp only
  rw [List.getElem?_append_left hp]

theorem graph_append_eq {h : List (Option (Content A C K))} {x : Option (Content A C K)}
    {d : OMap Nm (Disk A C K U)} {c j} : Store.graph (⟨d, h ++ [x], c, j⟩ : Store Nm A C K U) h.length = x := by
  unfold graph
  simp

theorem graph_set {h : List (Option (Content A C K))} {x : Content A C K} {p q : Nat} (hp : p < h.length)
    {d : OMap Nm (Disk A C K U)} {c j} :
    Store.graph (⟨d, h.set p (some x), c, j⟩ : Store Nm A C K U) q = if q = p then some x else (h[q]?).join := by
  unfold graph
  simp only
  by_cases e : q = p
  · subst e; rw [if_pos rfl, List.getElem?_set_self hp]; rfl
  · rw [if_neg e, List.getElem?_set_ne (fun h => e h.symm)]

end Store

namespace Rel

open Store

variable {Nm A C K U : Type} [LinearOrder Nm] [LinearOrder C]
variable {o : GraphOps A C K U} {s : Store Nm A C K U} {a : Abs Nm A C K} {held seen : List (Nm × Nat)}

theorem evict (h : Rel o s a held seen) (m : Mem) (keep : List Nm) : Rel o (s.evict m keep) a held seen := by
  have hs : (s.evict m keep).cache.Sublist s.cache := evictLoop_sublist _ _ _ _ _ _
  have hsub : ∀ e ∈ (s.evict m keep).cache ++ s.jobs ++ held ++ seen, e ∈ s.cache ++ s.jobs ++ held ++ seen := by
    intro e he
    simp only [List.mem_append] at he ⊢
    rcases he with ((he | he) | he) | he
    · exact .inl (.inl (.inl (hs.subset he)))
    · exact .inl (.inl (.inr he))
    · exact .inl (.inr he)
    · exact .inr he
  refine { h with cur := ?_, nodup := ?_, valid := ?_, sep := ?_, phantom := ?_ }
  · intro e he g hg
    refine h.cur e ?_ g hg
    rcases List.mem_append.1 he with he | he
    · exact List.mem_append_left _ (hs.subset he)
    · exact List.mem_append_right _ he
  · exact h.nodup.sublist (hs.map _)
  · intro e he; exact h.valid e (hsub e he)
  · intro e he e' he'; exact h.sep e (hsub e he) e' (hsub e' he')
  · intro n
    rw [h.phantom]
    refine and_congr_left fun hd => ?_
    constructor
    · intro hn
      obtain ⟨e, he, rfl⟩ := List.mem_map.1 hn
      refine List.mem_map.2 ⟨e, evictLoop_mem _ _ _ _ _ _ e he (.inl ?_), rfl⟩
      cases hg : s.graph e.2 with
      | none => rfl
      | some g =>
        have := h.cur e (List.mem_append_left _ he) g hg
        have hd' := h.dom e.1
        have hd2 : s.disk.get e.1 = none := hd
        rw [this, hd2] at hd'
        cases hd'
    · intro hn
      obtain ⟨e, he, rfl⟩ := List.mem_map.1 hn
      exact List.mem_map.2 ⟨e, hs.subset he, rfl⟩

/-- Exchanging the entry of a corpus in the cache for a new one with the given (or no) content, and storing the corpus. -/
theorem put (h : Rel o s a held seen) (n : Nm) (d : Disk A C K U) (g : Content A C K) (k : Nat) (x : Option (Content A C K))
    (hx : ∀ g', x = some g' → g' = g) (hs : g.comps.Sorted) (hc : Stored o.apply k d g) (hk : n ∉ a.jobs → k = 0)
    (hsame : a.corpora.get n = some g ∨ (n ∉ a.jobs ∧ n ∉ held.map Prod.fst)) :
    Rel o { s with disk := s.disk.insert n d, heap := s.heap ++ [x], cache := cacheRemove s.cache n ++ [(n, s.heap.length)] }
      (a.put n g k) held seen := by
  have hget : ∀ m, (a.corpora.insert n g).get m = if m = n then some g else a.corpora.get m := fun m => OMap.get_insert _ _ _ _
  have hget2 : ∀ m, (s.disk.insert n d).get m = if m = n then some d else s.disk.get m := fun m => OMap.get_insert _ _ _ _
  have hold : ∀ e, e ∈ (cacheRemove s.cache n ++ [(n, s.heap.length)]) ++ s.jobs ++ held ++ seen →
      e ∈ s.cache ++ s.jobs ++ held ++ seen ∨ e = (n, s.heap.length) := by
    intro e he
    simp only [List.mem_append, List.mem_singleton, mem_cacheRemove] at he ⊢
    rcases he with (((⟨he, _⟩ | he) | he) | he) | he
    · exact .inl (.inl (.inl (.inl he)))
    · exact .inr he
    · exact .inl (.inl (.inl (.inr he)))
    · exact .inl (.inl (.inr he))
    · exact .inl (.inr he)
  have hgr : ∀ p, p < s.heap.length →
      Store.graph (⟨s.disk.insert n d, s.heap ++ [x], cacheRemove s.cache n ++ [(n, s.heap.length)], s.jobs⟩ : Store Nm A C K U) p =
        s.graph p := fun p hp => graph_append (s := s) hp
  refine ⟨OMap.sorted_insert h.sd _ _, OMap.sorted_insert h.sc _ _, ?_, ?_, ?_, ?_, ?_, h.jobs, ?_, ?_, ?_, ?_⟩
  · intro m
    show ((s.disk.insert n d).get m).isSome = ((a.corpora.insert n g).get m).isSome
    rw [hget, hget2]
    split
    · rfl
    · exact h.dom m
  · intro m d' g' h1 h2
    change (s.disk.insert n d).get m = some d' at h1
    change (a.corpora.insert n g).get m = some g' at h2
    rw [hget] at h2
    rw [hget2] at h1
    by_cases e : m = n
    · rw [if_pos e] at h1 h2
      obtain rfl := Option.some.inj h1
      obtain rfl := Option.some.inj h2
      subst e
      exact ⟨hs, by show Stored _ (Function.update a.pend m k m) _ _; rw [Function.update_self]; exact hc⟩
    · rw [if_neg e] at h1 h2
      show _ ∧ Stored _ (Function.update a.pend n k m) _ _
      rw [Function.update_of_ne e]
      exact h.disk m d' g' h1 h2
  · intro m hm
    show Function.update a.pend n k m = 0
    by_cases e : m = n
    · subst e; rw [Function.update_self]; exact hk hm
    · rw [Function.update_of_ne e]; exact h.idle m hm
  · intro e he g' hg'
    show (a.corpora.insert n g).get e.1 = some g'
    rw [hget]
    rcases List.mem_append.1 he with he | he
    · rcases List.mem_append.1 he with he | he
      · obtain ⟨he, hne⟩ := mem_cacheRemove.1 he
        rw [if_neg hne]
        refine h.cur e (List.mem_append_left _ he) g' ?_
        rw [← hgr e.2 (h.valid e (by simp [he]))]
        exact hg'
      · rw [List.mem_singleton] at he
        subst he
        rw [if_pos rfl]
        have := (graph_append_eq (x := x)).symm.trans hg'
        rw [hx g' this]
    · have hv := h.valid e (by simp [he])
      have hg2 : s.graph e.2 = some g' := by rw [← hgr e.2 hv]; exact hg'
      have hcur := h.cur e (List.mem_append_right _ he) g' hg2
      split
      · rename_i e1
        rcases hsame with hsame | ⟨_, hsame⟩
        · rw [e1, hsame] at hcur; exact hcur
        · exact absurd (List.mem_map.2 ⟨e, he, e1⟩) hsame
      · exact hcur
  · show ((cacheRemove s.cache n ++ [(n, s.heap.length)]).map Prod.fst).Nodup
    rw [List.map_append, List.nodup_append]
    refine ⟨h.nodup.sublist (List.filter_sublist.map _), by simp, ?_⟩
    intro x hx y hy
    rw [keys_cacheRemove] at hx
    simp only [List.map_cons, List.map_nil, List.mem_singleton] at hy
    rw [hy]; exact hx.2
  · intro j hj
    obtain ⟨g', h1, h2⟩ := h.jobsOk j hj
    refine ⟨g', (hgr j.2 (graph_lt h1)).trans h1, ?_⟩
    intro g2 hg2
    change (a.corpora.insert n g).get j.1 = some g2 at hg2
    rw [hget] at hg2
    split at hg2
    · rename_i e
      obtain rfl := Option.some.inj hg2
      rcases hsame with hsame | ⟨hsame, _⟩
      · exact h2 _ (by rw [e]; exact hsame)
      · refine absurd ?_ hsame
        rw [← e, ← h.jobs]
        exact List.mem_map.2 ⟨j, hj, rfl⟩
    · exact h2 g2 hg2
  · intro e he
    show e.2 < (s.heap ++ [x]).length
    rw [List.length_append, List.length_singleton]
    rcases hold e he with he | rfl
    · exact Nat.lt_succ_of_lt (h.valid e he)
    · exact Nat.lt_succ_self _
  · intro e he e' he' hee
    rcases hold e he with he | rfl <;> rcases hold e' he' with he' | rfl
    · exact h.sep e he e' he' hee
    · exact absurd (h.valid e he) (by rw [hee]; exact Nat.lt_irrefl _)
    · exact absurd (h.valid e' he') (by rw [← hee]; exact Nat.lt_irrefl _)
    · rfl
  · intro m
    show m ∈ a.phantom.filter (fun x => x ≠ n) ↔ m ∈ (cacheRemove s.cache n ++ [(n, s.heap.length)]).map Prod.fst ∧
      (s.disk.insert n d).get m = none
    rw [List.mem_filter, h.phantom, hget2, List.map_append, List.mem_append, keys_cacheRemove]
    simp only [List.map_cons, List.map_nil, List.mem_singleton, decide_eq_true_eq]
    by_cases e : m = n
    · simp [e]
    · simp [e]

/-- `get_entry` leaves the name of a corpus that does not exist. -/
theorem getEntry (h : Rel o s a held seen) (n : Nm) :
    Rel o (s.getEntry n).1 (a.touch n) held seen ∧ (n, (s.getEntry n).2) ∈ (s.getEntry n).1.cache ∧
      (s.getEntry n).1.disk = s.disk := by
  have hdom : ∀ b : Bool, (a.corpora.get n).isSome = b ↔ (s.disk.get n).isSome = b := fun b => by rw [h.dom n]
  unfold Store.getEntry Abs.touch
  cases hg : cacheGet s.cache n with
  | some p =>
    refine ⟨?_, cacheGet_some hg, rfl⟩
    show Rel o s _ held seen
    split
    · exact h
    · rename_i hn
      refine { h with sc := h.sc, dom := h.dom, disk := h.disk, idle := h.idle, cur := h.cur, jobs := h.jobs, jobsOk := h.jobsOk, phantom := ?_ }
      intro m
      rw [List.mem_cons, h.phantom]
      constructor
      · rintro (rfl | hm)
        · refine ⟨List.mem_map.2 ⟨_, cacheGet_some hg, rfl⟩, ?_⟩
          cases hd : s.disk.get m with
          | none => rfl
          | some d => exact absurd ((hdom true).2 (by rw [hd]; rfl)) hn
        · exact hm
      · exact .inr
  | none =>
    have hnot := cacheGet_none hg
    refine ⟨?_, by simp, rfl⟩
    have hold : ∀ e, e ∈ (s.cache ++ [(n, s.heap.length)]) ++ s.jobs ++ held ++ seen →
        e ∈ s.cache ++ s.jobs ++ held ++ seen ∨ e = (n, s.heap.length) := by
      intro e he
      simp only [List.mem_append, List.mem_singleton] at he ⊢
      rcases he with (((he | he) | he) | he) | he
      · exact .inl (.inl (.inl (.inl he)))
      · exact .inr he
      · exact .inl (.inl (.inl (.inr he)))
      · exact .inl (.inl (.inr he))
      · exact .inl (.inr he)
    have hgr : ∀ p, p < s.heap.length →
        Store.graph (⟨s.disk, s.heap ++ [none], s.cache ++ [(n, s.heap.length)], s.jobs⟩ : Store Nm A C K U) p =
          s.graph p := fun p hp => graph_append (s := s) hp
    have hco : (if (a.corpora.get n).isSome then a else { a with phantom := n :: a.phantom }).corpora = a.corpora := by
      split <;> rfl
    have hjo : (if (a.corpora.get n).isSome then a else { a with phantom := n :: a.phantom }).jobs = a.jobs := by
      split <;> rfl
    have hpo : (if (a.corpora.get n).isSome then a else { a with phantom := n :: a.phantom }).pend = a.pend := by
      split <;> rfl
    refine ⟨h.sd, by rw [hco]; exact h.sc, by rw [hco]; exact h.dom, by rw [hco, hpo]; exact h.disk, by rw [hjo, hpo]; exact h.idle, ?_, ?_,
      by rw [hjo]; exact h.jobs, ?_, ?_, ?_, ?_⟩
    · rw [hco]
      intro e he g hg'
      rcases List.mem_append.1 he with he | he
      · rcases List.mem_append.1 he with he | he
        · exact h.cur e (List.mem_append_left _ he) g (by rw [← hgr e.2 (h.valid e (by simp [he]))]; exact hg')
        · rw [List.mem_singleton] at he
          subst he
          have := (graph_append_eq (x := none)).symm.trans hg'
          cases this
      · exact h.cur e (List.mem_append_right _ he) g (by rw [← hgr e.2 (h.valid e (by simp [he]))]; exact hg')
    · show ((s.cache ++ [(n, s.heap.length)]).map Prod.fst).Nodup
      rw [List.map_append, List.nodup_append]
      refine ⟨h.nodup, by simp, ?_⟩
      intro x hx y hy
      simp only [List.map_cons, List.map_nil, List.mem_singleton] at hy
      rw [hy]
      intro e
      exact hnot (e ▸ hx)
    · intro j hj
      obtain ⟨g', h1, h2⟩ := h.jobsOk j hj
      exact ⟨g', (hgr j.2 (graph_lt h1)).trans h1, by rw [hco]; exact h2⟩
    · intro e he
      show e.2 < (s.heap ++ [none]).length
      rw [List.length_append, List.length_singleton]
      rcases hold e he with he | rfl
      · exact Nat.lt_succ_of_lt (h.valid e he)
      · exact Nat.lt_succ_self _
    · intro e he e' he' hee
      rcases hold e he with he | rfl <;> rcases hold e' he' with he' | rfl
      · exact h.sep e he e' he' hee
      · exact absurd (h.valid e he) (by rw [hee]; exact Nat.lt_irrefl _)
      · exact absurd (h.valid e' he') (by rw [← hee]; exact Nat.lt_irrefl _)
      · rfl
    · intro m
      show _ ↔ m ∈ (s.cache ++ [(n, s.heap.length)]).map Prod.fst ∧ s.disk.get m = none
      rw [List.map_append, List.mem_append]
      simp only [List.map_cons, List.map_nil, List.mem_singleton]
      by_cases hs : (a.corpora.get n).isSome = true
      · rw [if_pos hs, h.phantom]
        constructor
        · rintro ⟨h1, h2⟩; exact ⟨.inl h1, h2⟩
        · rintro ⟨h1 | rfl, h2⟩
          · exact ⟨h1, h2⟩
          · have := (hdom true).1 hs
            rw [h2] at this; cases this
      · rw [if_neg hs, List.mem_cons, h.phantom]
        constructor
        · rintro (rfl | ⟨h1, h2⟩)
          · refine ⟨.inr rfl, ?_⟩
            cases hd : s.disk.get m with
            | none => rfl
            | some d => exact absurd ((hdom true).2 (by rw [hd]; rfl)) hs
          · exact ⟨.inl h1, h2⟩
        · rintro ⟨h1 | h1, h2⟩
          · exact .inr ⟨h1, h2⟩
          · exact .inl h1

/-! ### Loading -/

theorem touch_some {n : Nm} {g : Content A C K} (hg : a.corpora.get n = some g) : a.touch n = a := by
  unfold Abs.touch
  rw [hg]; rfl

theorem not_phantom (h : Rel o s a held seen) {n : Nm} {g : Content A C K} (hg : a.corpora.get n = some g) : n ∉ a.phantom := by
  rw [h.phantom]
  rintro ⟨_, hd⟩
  have := h.dom n
  rw [hd, hg] at this
  cases this

theorem disk_none (h : Rel o s a held seen) {n : Nm} (hg : a.corpora.get n = none) : s.disk.get n = none := by
  have := h.dom n
  rw [hg] at this
  cases hd : s.disk.get n with
  | none => rfl
  | some d => rw [hd] at this; cases this

theorem disk_some (h : Rel o s a held seen) {n : Nm} {g : Content A C K} (hg : a.corpora.get n = some g) :
    ∃ d, s.disk.get n = some d := by
  have := h.dom n
  rw [hg] at this
  exact Option.isSome_iff_exists.1 this

theorem filter_ne_of_not_mem {n : Nm} {l : List Nm} (h : n ∉ l) : l.filter (fun x => x ≠ n) = l := by
  rw [List.filter_eq_self]
  intro x hx
  rw [decide_eq_true_eq]
  rintro rfl
  exact h hx

theorem put_same (h : Rel o s a held seen) {n : Nm} {g : Content A C K} (hg : a.corpora.get n = some g) :
    a.put n g (a.pend n) = a := by
  have h1 : a.corpora.insert n g = a.corpora := by
    refine OMap.ext (OMap.sorted_insert h.sc _ _) h.sc fun k => ?_
    rw [OMap.get_insert]
    split
    · rename_i e; rw [e, hg]
    · rfl
  unfold Abs.put
  rw [h1, filter_ne_of_not_mem (h.not_phantom hg), Function.update_eq_self]

theorem put_touch {n : Nm} {g : Content A C K} {k : Nat} : (a.touch n).put n g k = a.put n g k := by
  unfold Abs.touch Abs.put
  split
  · rfl
  · simp

theorem saved_synced' (apply : Content A C K → U → Content A C K × Bool) (g : Content A C K) (hs : g.comps.Sorted) :
    Synced apply (Disk.exec (⟨none, none⟩ : Disk A C K U) (saveSteps .current g)) g := by
  obtain ⟨f, h1, h2⟩ := exec_save_fresh (U := U) g hs none
  refine ⟨?_, f, h1, ?_, by rw [h2]⟩
  · exact exec_backup _ (saveSteps_keeps .current g) _
  · unfold loadFiles
    rw [h2]
    simp [loadComps_some]

theorem open_clean {apply : Content A C K → U → Content A C K × Bool} {d : Disk A C K U} {g : Content A C K}
    (hc : Clean apply d g) : openGraph apply d = some (g, d) := by
  obtain ⟨h1, f, h2, h3⟩ := hc
  unfold openGraph openSteps
  rw [h1, h2]
  simp [h3, Disk.exec]

theorem putLog_clean {apply : Content A C K → U → Content A C K × Bool} {d : Disk A C K U} {g : Content A C K}
    (hc : Synced apply d g) (u : U) (ha : (apply g u).2 = true) : Clean apply (d.step (.putLog u)) (apply g u).1 := by
  obtain ⟨hb, f, hf, hl, hlog⟩ := hc
  refine ⟨hb, ⟨{ f.files with log := some u }, f.nested⟩, ?_, ?_⟩
  · simp [Disk.step, Disk.edit, hf]
  · unfold loadFiles at hl ⊢
    cases hfa : f.files.annos with
    | ok x =>
      rw [hfa] at hl
      simp only [hlog] at hl ⊢
      cases hlc : loadComps f.files.comps with
      | none => rw [hlc] at hl; cases hl
      | some comps =>
        rw [hlc] at hl
        simp only [Option.bind_some, Option.some.injEq] at hl ⊢
        rw [hl, if_pos ha]
    | absent => rw [hfa] at hl; cases hl
    | torn => rw [hfa] at hl; cases hl

theorem stored_synced {apply : Content A C K → U → Content A C K × Bool} {d : Disk A C K U} {g : Content A C K} {k : Nat}
    (h : Synced apply d g) : Stored apply k d g := by
  obtain ⟨h1, f, h2, h3, h4⟩ := h
  exact ⟨⟨h1, by rw [h2]; rfl⟩, fun _ => ⟨h1, f, h2, h3⟩, fun _ => ⟨h1, f, h2, h3, h4⟩⟩

/-- Writing the log. -/
theorem putLog_stored {apply : Content A C K → U → Content A C K × Bool} {d : Disk A C K U} {g : Content A C K} {k : Nat}
    (h : Stored apply k d g) (u : U) (ha : (apply g u).2 = true) : Stored apply (k + 1) (d.step (.putLog u)) (apply g u).1 := by
  obtain ⟨⟨h1, h2⟩, h3, h4⟩ := h
  obtain ⟨f, hf⟩ := Option.isSome_iff_exists.1 h2
  refine ⟨⟨h1, by simp [Disk.step, Disk.edit, hf]⟩, fun hk => putLog_clean (h4 (by omega)) u ha, fun hk => by omega⟩

/-- Adding a loaded graph. -/
theorem addEntry (h : Rel o s a held seen) (n : Nm) (d : Disk A C K U) (g : Content A C K) (k : Nat) (m : Mem)
    (hs : g.comps.Sorted) (hc : Stored o.apply k d g) (hk : n ∉ a.jobs → k = 0)
    (hsame : a.corpora.get n = some g ∨ (n ∉ a.jobs ∧ n ∉ held.map Prod.fst)) :
    ∃ s' p, Store.addEntry { s with disk := s.disk.insert n d } n g m = (s', .ok p) ∧ Rel o s' (a.put n g k) held seen ∧
      s'.graph p = some g ∧ (n, p) ∈ s'.cache ∧ s'.jobs = s.jobs := by
  have h1 := (h.put n d g k (some g) (fun g' hg => (Option.some.inj hg).symm) hs hc hk hsame).evict m [n]
  refine ⟨_, _, rfl, h1, graph_append_eq, ?_, rfl⟩
  exact evictLoop_mem _ _ _ _ _ _ _ (by simp) (.inr (by simp))

theorem loadEntry_some (h : Rel o s a held seen) {n : Nm} {g : Content A C K} (hg : a.corpora.get n = some g) (create : Bool)
    (m1 m2 : Mem) (hk : a.pend n ≤ 1) :
    ∃ s' p, Store.loadEntry o s n create m1 m2 = (s', .ok p) ∧ Rel o s' a held seen ∧ s'.graph p = some g ∧ (n, p) ∈ s'.cache ∧
      s'.jobs = s.jobs := by
  obtain ⟨d, hd⟩ := h.disk_some hg
  obtain ⟨h1, h2⟩ := h.disk n d g hd hg
  obtain ⟨s', p, e1, e2, e3, e4, e5⟩ := (h.evict m1 [n]).addEntry n d g (a.pend n) m2 h1 h2 (h.idle n) (.inl hg)
  refine ⟨s', p, ?_, by rw [h.put_same hg] at e2; exact e2, e3, e4, e5⟩
  unfold Store.loadEntry
  rw [hd]
  simp only
  rw [open_clean (h2.2.1 hk)]
  exact e1

theorem loadEntry_create (h : Rel o s a held seen) {n : Nm} (hg : a.corpora.get n = none) (m1 m2 : Mem)
    (hf : o.fresh.comps.Sorted) (hj : n ∉ a.jobs) (hh : n ∉ held.map Prod.fst) :
    ∃ s' p, Store.loadEntry o s n true m1 m2 = (s', .ok p) ∧ Rel o s' (a.put n o.fresh 0) held seen ∧
      s'.graph p = some o.fresh ∧ (n, p) ∈ s'.cache := by
  have hsy := saved_synced' o.apply o.fresh hf
  obtain ⟨s', p, e1, e2, e3, e4, _⟩ :=
    (h.evict m1 [n]).addEntry n _ o.fresh 0 m2 hf (stored_synced hsy) (fun _ => rfl) (.inr ⟨hj, hh⟩)
  refine ⟨s', p, ?_, e2, e3, e4⟩
  unfold Store.loadEntry
  rw [h.disk_none hg]
  exact e1

theorem getLoaded_some (h : Rel o s a held seen) {n : Nm} {g : Content A C K} (hg : a.corpora.get n = some g) (create : Bool)
    (m1 m2 : Mem) (hk : s.hasLoaded n ∨ a.pend n ≤ 1) :
    ∃ s' p, Store.getLoaded o s n create m1 m2 = (s', .ok p) ∧ Rel o s' a held seen ∧ s'.graph p = some g ∧ (n, p) ∈ s'.cache ∧
      s'.jobs = s.jobs ∧ (∀ q, cacheGet s.cache n = some q → (s.graph q).isSome = true → p = q) := by
  have hent : ∀ q, cacheGet s.cache n = some q → s.getEntry n = (s, q) := by
    intro q hq
    unfold Store.getEntry
    rw [hq]
  have hjo : (s.getEntry n).1.jobs = s.jobs := by
    unfold Store.getEntry
    cases cacheGet s.cache n <;> rfl
  obtain ⟨h1, h2, h3⟩ := h.getEntry n
  rw [touch_some hg] at h1
  unfold Store.getLoaded
  simp only
  cases hx : (s.getEntry n).1.graph (s.getEntry n).2 with
  | some g' =>
    have := h1.cur _ (List.mem_append_left _ h2) g' hx
    rw [hg] at this
    obtain rfl := Option.some.inj this
    refine ⟨_, _, if_pos rfl, h1, hx, h2, hjo, ?_⟩
    intro q hq _
    rw [hent q hq]
  | none =>
    have hno : ∀ q, cacheGet s.cache n = some q → ¬ (s.graph q).isSome = true := by
      intro q hq hc
      rw [hent q hq] at hx
      have hx' : s.graph q = none := hx
      rw [hx'] at hc
      cases hc
    have hk' : a.pend n ≤ 1 := by
      rcases hk with ⟨q, h4, h5⟩ | hk
      · exact absurd h5 (hno q h4)
      · exact hk
    rw [if_neg (by simp)]
    obtain ⟨s', p, e1, e2, e3, e4, e5⟩ := h1.loadEntry_some hg create m1 m2 hk'
    exact ⟨s', p, e1, e2, e3, e4, e5.trans hjo, fun q hq hc => absurd hc (hno q hq)⟩

theorem getLoaded_missing (h : Rel o s a held seen) {n : Nm} (hg : a.corpora.get n = none) (m1 m2 : Mem) :
    ∃ s', Store.getLoaded o s n false m1 m2 = (s', .error .noSuchCorpus) ∧ Rel o s' (a.touch n) held seen := by
  obtain ⟨h1, h2, h3⟩ := h.getEntry n
  have hco : (a.touch n).corpora = a.corpora := by unfold Abs.touch; split <;> rfl
  have hn : (s.getEntry n).1.graph (s.getEntry n).2 = none := by
    cases hx : (s.getEntry n).1.graph (s.getEntry n).2 with
    | none => rfl
    | some g' =>
      have := h1.cur _ (List.mem_append_left _ h2) g' hx
      rw [hco, hg] at this
      cases this
  refine ⟨(s.getEntry n).1, ?_, h1⟩
  unfold Store.getLoaded
  simp only
  rw [hn, if_neg (by simp)]
  unfold Store.loadEntry
  rw [h3, h.disk_none hg]
  rfl

theorem getLoaded_create (h : Rel o s a held seen) {n : Nm} (hg : a.corpora.get n = none) (m1 m2 : Mem)
    (hf : o.fresh.comps.Sorted) (hj : n ∉ a.jobs) (hh : n ∉ held.map Prod.fst) :
    ∃ s' p, Store.getLoaded o s n true m1 m2 = (s', .ok p) ∧ Rel o s' (a.put n o.fresh 0) held seen ∧
      s'.graph p = some o.fresh ∧ (n, p) ∈ s'.cache := by
  obtain ⟨h1, h2, h3⟩ := h.getEntry n
  have hco : (a.touch n).corpora = a.corpora := by unfold Abs.touch; split <;> rfl
  have hjo : (a.touch n).jobs = a.jobs := by unfold Abs.touch; split <;> rfl
  have hn : (s.getEntry n).1.graph (s.getEntry n).2 = none := by
    cases hx : (s.getEntry n).1.graph (s.getEntry n).2 with
    | none => rfl
    | some g' =>
      have := h1.cur _ (List.mem_append_left _ h2) g' hx
      rw [hco, hg] at this
      cases this
  have := h1.loadEntry_create (by rw [hco]; exact hg) m1 m2 hf (by rw [hjo]; exact hj) hh
  rw [put_touch] at this
  unfold Store.getLoaded
  simp only
  rw [hn, if_neg (by simp)]
  exact this

/-! ### Updates -/

theorem applyEntry_fail (h : Rel o s a held seen) {n : Nm} {p : Nat} {g : Content A C K} (hp : s.graph p = some g)
    (hg : a.corpora.get n = some g) (u : U) (hu : (o.apply g u).2 = false) (hk : a.pend n ≤ 1) :
    Store.applyEntry o s n p u = (s, .error .updateFailed) := by
  obtain ⟨d, hd⟩ := h.disk_some hg
  obtain ⟨h1, h2'⟩ := h.disk n d g hd hg
  have h2 := h2'.2.1 hk
  have hl := graph_lt hp
  have hdisk : s.disk.insert n d = s.disk := by
    refine OMap.ext (OMap.sorted_insert h.sd _ _) h.sd fun k => ?_
    rw [OMap.get_insert]
    split
    · rename_i e; rw [e, hd]
    · rfl
  have hheap : s.heap.set p (some g) = s.heap := by
    apply List.ext_getElem?
    intro i
    by_cases e : i = p
    · subst e
      rw [List.getElem?_set_self hl]
      unfold Store.graph at hp
      rw [List.getElem?_eq_getElem hl] at hp ⊢
      rw [Option.join_some] at hp
      rw [hp]
    · rw [List.getElem?_set_ne (fun h => e h.symm)]
  unfold Store.applyEntry
  rw [hp, hd]
  simp only [Option.getD_some]
  rw [failed_update o.apply h2 u hu]
  simp only [Option.isSome_some, if_true, hdisk, hheap]

/-- The only loaded entry of the corpus is the given one. -/
def Only (s : Store Nm A C K U) (held : List (Nm × Nat)) (n : Nm) (p : Nat) : Prop :=
  ∀ e ∈ s.cache ++ s.jobs ++ held, e.1 = n → (s.graph e.2).isSome → e.2 = p

theorem applyEntry_ok (h : Rel o s a held seen) {n : Nm} {p : Nat} {g : Content A C K} (hp : s.graph p = some g)
    (hg : a.corpora.get n = some g) (u : U) (hu : (o.apply g u).2 = true) (hsort : (o.apply g u).1.comps.Sorted)
    (honly : Only s held n p) (hmem : (n, p) ∈ s.cache ++ s.jobs ++ held ++ seen) :
    ∃ s', Store.applyEntry o s n p u = (s', .ok ()) ∧
      Rel o s' { a.put n (o.apply g u).1 (a.pend n + 1) with jobs := a.jobs ++ [n] } held seen ∧ s'.cache = s.cache ∧
      (∀ q, s'.graph q = if q = p then some (o.apply g u).1 else s.graph q) := by
  obtain ⟨d, hd⟩ := h.disk_some hg
  obtain ⟨h1, h2⟩ := h.disk n d g hd hg
  have hl := graph_lt hp
  have hc := putLog_stored h2 u hu
  have hgr : ∀ q, Store.graph ({ s with heap := s.heap.set p (some (o.apply g u).1), disk := s.disk.insert n (d.step (.putLog u)), jobs := s.jobs ++ [(n, p)] } : Store Nm A C K U) q =
      if q = p then some (o.apply g u).1 else s.graph q := fun q => graph_set hl
  refine ⟨{ s with heap := s.heap.set p (some (o.apply g u).1), disk := s.disk.insert n (d.step (.putLog u)),
                   jobs := s.jobs ++ [(n, p)] }, ?_, ?_, rfl, hgr⟩
  · unfold Store.applyEntry
    rw [hp, hd]
    simp only [Option.getD_some]
    unfold applyUpdate
    simp only
    rw [if_pos hu]
  · have hget : ∀ m, (a.corpora.insert n (o.apply g u).1).get m = if m = n then some (o.apply g u).1 else a.corpora.get m :=
      fun m => OMap.get_insert _ _ _ _
    have hget2 : ∀ m, (s.disk.insert n (d.step (.putLog u))).get m = if m = n then some (d.step (.putLog u)) else s.disk.get m :=
      fun m => OMap.get_insert _ _ _ _
    have hold : ∀ e ∈ s.cache ++ (s.jobs ++ [(n, p)]) ++ held ++ seen, e ∈ s.cache ++ s.jobs ++ held ++ seen := by
      intro e he
      simp only [List.mem_append, List.mem_singleton] at he hmem ⊢
      rcases he with ((he | he | rfl) | he) | he
      · exact .inl (.inl (.inl he))
      · exact .inl (.inl (.inr he))
      · exact hmem
      · exact .inl (.inr he)
      · exact .inr he
    have hname : ∀ e ∈ s.cache ++ s.jobs ++ held ++ seen, e.2 = p → e.1 = n := fun e he hep => h.sep e he (n, p) hmem hep
    refine ⟨OMap.sorted_insert h.sd _ _, OMap.sorted_insert h.sc _ _, ?_, ?_, ?_, ?_, h.nodup, ?_, ?_, ?_, ?_, ?_⟩
    · intro m
      show ((s.disk.insert n _).get m).isSome = ((a.corpora.insert n _).get m).isSome
      rw [hget, hget2]
      split
      · rfl
      · exact h.dom m
    · intro m d' g' e1 e2
      change (s.disk.insert n _).get m = some d' at e1
      change (a.corpora.insert n _).get m = some g' at e2
      show _ ∧ Stored _ (Function.update a.pend n (a.pend n + 1) m) _ _
      rw [hget] at e2
      rw [hget2] at e1
      by_cases e : m = n
      · rw [if_pos e] at e1 e2
        obtain rfl := Option.some.inj e1
        obtain rfl := Option.some.inj e2
        subst e
        rw [Function.update_self]
        exact ⟨hsort, hc⟩
      · rw [if_neg e] at e1 e2
        rw [Function.update_of_ne e]
        exact h.disk m d' g' e1 e2
    · intro m hm
      change m ∉ a.jobs ++ [n] at hm
      show Function.update a.pend n (a.pend n + 1) m = 0
      rw [List.mem_append, List.mem_singleton, not_or] at hm
      rw [Function.update_of_ne hm.2]
      exact h.idle m hm.1
    · intro e he g' hg'
      show (a.corpora.insert n _).get e.1 = some g'
      change e ∈ s.cache ++ held at he
      rw [hgr] at hg'
      rw [hget]
      by_cases ep : e.2 = p
      · rw [if_pos ep] at hg'
        have : e ∈ s.cache ++ s.jobs ++ held ++ seen := by
          simp only [List.mem_append] at he ⊢
          rcases he with he | he
          · exact .inl (.inl (.inl he))
          · exact .inl (.inr he)
        rw [if_pos (hname e this ep)]
        exact hg'
      · rw [if_neg ep] at hg'
        have hne : e.1 ≠ n := fun en => ep (honly e (by
          simp only [List.mem_append] at he ⊢
          rcases he with he | he
          · exact .inl (.inl he)
          · exact .inr he) en (by rw [hg']; rfl))
        rw [if_neg hne]
        exact h.cur e he g' hg'
    · show (s.jobs ++ [(n, p)]).map Prod.fst = a.jobs ++ [n]
      rw [List.map_append, h.jobs]
      rfl
    · intro j hj'
      change j ∈ s.jobs ++ [(n, p)] at hj'
      rw [hgr]
      rcases List.mem_append.1 hj' with hj' | hj'
      · obtain ⟨g', i1, i2⟩ := h.jobsOk j hj'
        by_cases hjn : j.1 = n
        · have hjp : j.2 = p := honly j (by simp [hj']) hjn (by rw [i1]; rfl)
          rw [if_pos hjp]
          refine ⟨_, rfl, ?_⟩
          intro g2 hg2
          change (a.corpora.insert n _).get j.1 = some g2 at hg2
          rw [hget, if_pos hjn] at hg2
          exact (Option.some.inj hg2).symm
        · have hjp : j.2 ≠ p := fun e => hjn (hname j (by simp [hj']) e)
          rw [if_neg hjp]
          refine ⟨g', i1, ?_⟩
          intro g2 hg2
          change (a.corpora.insert n _).get j.1 = some g2 at hg2
          rw [hget, if_neg hjn] at hg2
          exact i2 g2 hg2
      · rw [List.mem_singleton] at hj'
        subst hj'
        refine ⟨_, if_pos rfl, ?_⟩
        intro g2 hg2
        change (a.corpora.insert n _).get n = some g2 at hg2
        rw [hget, if_pos rfl] at hg2
        exact (Option.some.inj hg2).symm
    · intro e he
      show e.2 < (s.heap.set p _).length
      rw [List.length_set]
      exact h.valid e (hold e he)
    · intro e he e' he' hee
      exact h.sep e (hold e he) e' (hold e' he') hee
    · intro m
      show m ∈ a.phantom.filter (fun x => x ≠ n) ↔ m ∈ s.cache.map Prod.fst ∧ (s.disk.insert n _).get m = none
      rw [filter_ne_of_not_mem (h.not_phantom hg), h.phantom, hget2]
      by_cases e : m = n
      · rw [if_pos e, e, hd]
        simp
      · rw [if_neg e]

/-! ### Background writers -/

theorem mem_eraseIdx_of_ne {X : Type} {l : List X} {i : Nat} {x y : X} (hi : l[i]? = some y) (hx : x ∈ l) (hne : x ≠ y) :
    x ∈ l.eraseIdx i := by
  induction l generalizing i with
  | nil => cases hx
  | cons z r ih =>
    cases i with
    | zero =>
      simp only [List.getElem?_cons_zero, Option.some.injEq] at hi
      subst hi
      rcases List.mem_cons.1 hx with rfl | hx
      · exact absurd rfl hne
      · exact hx
    | succ i =>
      rw [List.getElem?_cons_succ] at hi
      rw [List.eraseIdx_cons_succ]
      rcases List.mem_cons.1 hx with rfl | hx
      · exact List.mem_cons_self
      · exact List.mem_cons_of_mem _ (ih hi hx)

theorem map_eraseIdx {X Y : Type} (f : X → Y) (l : List X) (i : Nat) : (l.eraseIdx i).map f = (l.map f).eraseIdx i := by
  induction l generalizing i with
  | nil => rfl
  | cons z r ih =>
    cases i with
    | zero => rfl
    | succ i => simp [ih]

theorem work_eq {i : Nat} {n : Nm} {p : Nat} {g : Content A C K} {d : Disk A C K U} (hi : s.jobs[i]? = some (n, p))
    (hg : s.graph p = some g) (hd : s.disk.get n = some d) (hif : ¬ (d.backup.isNone = true ∧ d.current.isNone = true)) :
    s.work i = { s with disk := s.disk.insert n (d.exec (syncSteps d g)), jobs := s.jobs.eraseIdx i } := by
  have hg' : Store.graph ({ s with jobs := s.jobs.eraseIdx i } : Store Nm A C K U) p = some g := hg
  unfold Store.work
  rw [hi]
  simp only [hg', hd, if_neg hif]

theorem work_missing {i : Nat} {n : Nm} {p : Nat} (hi : s.jobs[i]? = some (n, p)) (hd : s.disk.get n = none) :
    s.work i = { s with jobs := s.jobs.eraseIdx i } := by
  unfold Store.work
  rw [hi]
  simp only [hd]
  cases Store.graph (⟨s.disk, s.heap, s.cache, s.jobs.eraseIdx i⟩ : Store Nm A C K U) p <;> rfl

theorem work (h : Rel o s a held seen) (i : Nat) : Rel o (s.work i) (a.written i) held seen ∧
    (s.work i).cache = s.cache ∧ (s.work i).heap = s.heap := by
  cases hi : s.jobs[i]? with
  | none =>
    have : a.jobs.eraseIdx i = a.jobs := by
      rw [List.eraseIdx_of_length_le]
      rw [← h.jobs, List.length_map]
      exact List.getElem?_eq_none_iff.1 hi
    have e : s.work i = s := by unfold Store.work; rw [hi]
    have hai : a.jobs[i]? = none := by rw [← h.jobs, List.getElem?_map, hi]; rfl
    have ea : a.written i = a := by unfold Abs.written; rw [this, hai]
    rw [e, ea]
    exact ⟨h, rfl, rfl⟩
  | some j =>
    obtain ⟨n, p⟩ := j
    have hmem : (n, p) ∈ s.jobs := List.mem_of_getElem? hi
    obtain ⟨g, hgp, hgc⟩ := h.jobsOk _ hmem
    have hai : a.jobs[i]? = some n := by rw [← h.jobs, List.getElem?_map, hi]; rfl
    have hold : ∀ e ∈ s.cache ++ s.jobs.eraseIdx i ++ held ++ seen, e ∈ s.cache ++ s.jobs ++ held ++ seen := by
      intro e he
      simp only [List.mem_append] at he ⊢
      rcases he with ((he | he) | he) | he
      · exact .inl (.inl (.inl he))
      · exact .inl (.inl (.inr (List.mem_of_mem_eraseIdx he)))
      · exact .inl (.inr he)
      · exact .inr he
    have hothers : ∀ m, m ≠ n → m ∉ a.jobs.eraseIdx i → m ∉ a.jobs := fun m hm h1 h2 => h1 (mem_eraseIdx_of_ne hai h2 hm)
    have ea : a.written i = { a with jobs := a.jobs.eraseIdx i, pend := Function.update a.pend n 0 } := by
      unfold Abs.written; rw [hai]
    have hidle : ∀ m, m ∉ a.jobs.eraseIdx i → Function.update a.pend n 0 m = 0 := by
      intro m hm
      by_cases e : m = n
      · rw [e, Function.update_self]
      · rw [Function.update_of_ne e]; exact h.idle m (hothers m e hm)
    rw [ea]
    cases hd : s.disk.get n with
    | none =>
      rw [work_missing hi hd]
      refine ⟨?_, rfl, rfl⟩
      refine
        { sd := h.sd, sc := h.sc, dom := h.dom, idle := hidle, cur := h.cur, nodup := h.nodup, phantom := h.phantom, disk := ?_, jobs := ?_,
          jobsOk := fun j hj => h.jobsOk j (List.mem_of_mem_eraseIdx hj), valid := fun e he => h.valid e (hold e he),
          sep := fun e he e' he' => h.sep e (hold e he) e' (hold e' he') }
      · intro m d g h1 h2
        show _ ∧ Stored _ (Function.update a.pend n 0 m) _ _
        rw [Function.update_of_ne (by
          rintro rfl
          rw [hd] at h1
          cases h1)]
        exact h.disk m d g h1 h2
      · show (s.jobs.eraseIdx i).map Prod.fst = a.jobs.eraseIdx i
        rw [map_eraseIdx, h.jobs]
    | some d =>
      have hcn : ∃ g', a.corpora.get n = some g' := by
        have := h.dom n
        rw [hd] at this
        exact Option.isSome_iff_exists.1 this.symm
      obtain ⟨g', hg'⟩ := hcn
      obtain rfl := hgc g' hg'
      obtain ⟨i1, i2⟩ := h.disk n d g' hd hg'
      have hsy := sync_complete o.apply g' i1 i2.1.1
      have hif : ¬ (d.backup.isNone = true ∧ d.current.isNone = true) := by
        obtain ⟨f, hf⟩ := Option.isSome_iff_exists.1 i2.1.2
        rw [hf]
        simp
      suffices hh : Rel o { s with disk := s.disk.insert n (d.exec (syncSteps d g')), jobs := s.jobs.eraseIdx i }
          { a with jobs := a.jobs.eraseIdx i, pend := Function.update a.pend n 0 } held seen from by
        rw [work_eq hi hgp hd hif]
        exact ⟨hh, rfl, rfl⟩
      have hget2 : ∀ m, (s.disk.insert n (d.exec (syncSteps d g'))).get m = if m = n then some (d.exec (syncSteps d g')) else s.disk.get m :=
        fun m => OMap.get_insert _ _ _ _
      refine
        { sd := OMap.sorted_insert h.sd _ _, sc := h.sc, dom := ?_, idle := hidle, cur := h.cur, nodup := h.nodup, phantom := ?_, disk := ?_, jobs := ?_,
          jobsOk := fun j hj => h.jobsOk j (List.mem_of_mem_eraseIdx hj), valid := fun e he => h.valid e (hold e he),
          sep := fun e he e' he' => h.sep e (hold e he) e' (hold e' he') }
      · intro m
        show ((s.disk.insert n _).get m).isSome = _
        rw [hget2]
        split
        · rename_i e; rw [e]; exact (congrArg Option.isSome hg').symm
        · exact h.dom m
      · intro m d2 g2 h1 h2
        change (s.disk.insert n _).get m = some d2 at h1
        rw [hget2] at h1
        by_cases e : m = n
        · rw [if_pos e] at h1
          subst e
          obtain rfl := Option.some.inj h1
          have h2' : a.corpora.get m = some g2 := h2
          rw [hg'] at h2'
          obtain rfl := Option.some.inj h2'
          exact ⟨i1, stored_synced hsy⟩
        · rw [if_neg e] at h1
          show _ ∧ Stored _ (Function.update a.pend n 0 m) _ _
          rw [Function.update_of_ne e]
          exact h.disk m d2 g2 h1 h2
      · show (s.jobs.eraseIdx i).map Prod.fst = a.jobs.eraseIdx i
        rw [map_eraseIdx, h.jobs]
      · intro m
        show _ ↔ _ ∧ (s.disk.insert n _).get m = none
        rw [h.phantom, hget2]
        by_cases e : m = n
        · rw [if_pos e, e, hd]; simp
        · rw [if_neg e]

/-! ### Removing entries -/

theorem unload (h : Rel o s a held seen) (n : Nm) :
    Rel o { s with cache := cacheRemove s.cache n } { a with phantom := a.phantom.filter fun x => x ≠ n } held seen := by
  have hold : ∀ e ∈ cacheRemove s.cache n ++ s.jobs ++ held ++ seen, e ∈ s.cache ++ s.jobs ++ held ++ seen := by
    intro e he
    simp only [List.mem_append, mem_cacheRemove] at he ⊢
    rcases he with ((he | he) | he) | he
    · exact .inl (.inl (.inl he.1))
    · exact .inl (.inl (.inr he))
    · exact .inl (.inr he)
    · exact .inr he
  refine
    { sd := h.sd, sc := h.sc, dom := h.dom, disk := h.disk, idle := h.idle, jobs := h.jobs, jobsOk := h.jobsOk, cur := ?_, nodup := ?_,
      valid := fun e he => h.valid e (hold e he), sep := fun e he e' he' => h.sep e (hold e he) e' (hold e' he'), phantom := ?_ }
  · intro e he g hg
    refine h.cur e ?_ g hg
    rcases List.mem_append.1 he with he | he
    · exact List.mem_append_left _ (mem_cacheRemove.1 he).1
    · exact List.mem_append_right _ he
  · exact h.nodup.sublist (List.filter_sublist.map _)
  · intro m
    show m ∈ a.phantom.filter (fun x => x ≠ n) ↔ m ∈ (cacheRemove s.cache n).map Prod.fst ∧ s.disk.get m = none
    rw [List.mem_filter, h.phantom, keys_cacheRemove, decide_eq_true_eq]
    constructor
    · rintro ⟨⟨h1, h2⟩, h3⟩; exact ⟨⟨h1, h3⟩, h2⟩
    · rintro ⟨⟨h1, h2⟩, h3⟩; exact ⟨⟨h1, h3⟩, h2⟩

theorem delete (h : Rel o s a held seen) (n : Nm) (hh : n ∉ held.map Prod.fst) :
    Rel o { s with cache := cacheRemove s.cache n, disk := s.disk.erase n }
      { a with corpora := a.corpora.erase n, phantom := a.phantom.filter fun x => x ≠ n } held seen := by
  have h' := h.unload n
  have hget : ∀ m, (a.corpora.erase n).get m = if m = n then none else a.corpora.get m := fun m => OMap.get_erase h.sc _ _
  have hget2 : ∀ m, (s.disk.erase n).get m = if m = n then none else s.disk.get m := fun m => OMap.get_erase h.sd _ _
  refine
    { sd := OMap.sorted_erase h.sd _, sc := OMap.sorted_erase h.sc _, idle := h.idle, jobs := h.jobs, nodup := h'.nodup, valid := h'.valid,
      sep := h'.sep, dom := ?_, disk := ?_, jobsOk := ?_, cur := ?_, phantom := ?_ }
  · intro m
    show ((s.disk.erase n).get m).isSome = ((a.corpora.erase n).get m).isSome
    rw [hget, hget2]
    split
    · rfl
    · exact h.dom m
  · intro m d g h1 h2
    change (s.disk.erase n).get m = some d at h1
    change (a.corpora.erase n).get m = some g at h2
    rw [hget] at h2
    rw [hget2] at h1
    by_cases e : m = n
    · rw [if_pos e] at h1; cases h1
    · rw [if_neg e] at h1 h2; exact h.disk m d g h1 h2
  · intro e he g hg
    show (a.corpora.erase n).get e.1 = some g
    have hne : e.1 ≠ n := by
      rcases List.mem_append.1 he with he | he
      · exact (mem_cacheRemove.1 he).2
      · exact fun en => hh (List.mem_map.2 ⟨e, he, en⟩)
    rw [hget, if_neg hne]
    exact h'.cur e he g hg
  · intro j hj
    obtain ⟨g, h1, h2⟩ := h.jobsOk j hj
    refine ⟨g, h1, ?_⟩
    intro g' hg'
    change (a.corpora.erase n).get j.1 = some g' at hg'
    rw [hget] at hg'
    split at hg'
    · cases hg'
    · exact h2 g' hg'
  · intro m
    show m ∈ a.phantom.filter (fun x => x ≠ n) ↔ m ∈ (cacheRemove s.cache n).map Prod.fst ∧ (s.disk.erase n).get m = none
    rw [hget2]
    have := h'.phantom m
    change m ∈ a.phantom.filter (fun x => x ≠ n) ↔ m ∈ (cacheRemove s.cache n).map Prod.fst ∧ s.disk.get m = none at this
    by_cases e : m = n
    · rw [keys_cacheRemove]; simp [e]
    · rw [if_neg e]; exact this

theorem sorted_keys_ext {K1 : Type} [LinearOrder K1] (l : List K1) (hl : l.Pairwise (· < ·)) :
    ∀ l' : List K1, l'.Pairwise (· < ·) → (∀ k, k ∈ l ↔ k ∈ l') → l = l' := by
  induction l with
  | nil =>
    intro l' _ h
    cases l' with
    | nil => rfl
    | cons x r => exact absurd ((h x).2 (by simp)) (by simp)
  | cons x r ih =>
    intro l' hl' h
    cases l' with
    | nil => exact absurd ((h x).1 (by simp)) (by simp)
    | cons y t =>
      obtain ⟨h1, h2⟩ := List.pairwise_cons.1 hl
      obtain ⟨h3, h4⟩ := List.pairwise_cons.1 hl'
      have e : x = y := by
        rcases List.mem_cons.1 ((h x).1 (by simp)) with e | e
        · exact e
        · rcases List.mem_cons.1 ((h y).2 (by simp)) with e' | e'
          · exact e'.symm
          · exact absurd (h3 x e) (lt_asymm (h1 y e'))
      subst e
      rw [ih h2 t h4]
      intro k
      constructor
      · intro hk
        rcases List.mem_cons.1 ((h k).1 (by simp [hk])) with e | e
        · exact absurd (h1 k hk) (by rw [e]; exact lt_irrefl _)
        · exact e
      · intro hk
        rcases List.mem_cons.1 ((h k).2 (by simp [hk])) with e | e
        · exact absurd (h3 k hk) (by rw [e]; exact lt_irrefl _)
        · exact e

theorem keys (h : Rel o s a held seen) : s.disk.keys = a.corpora.keys := by
  refine sorted_keys_ext _ (OMap.sorted_keys h.sd) _ (OMap.sorted_keys h.sc) ?_
  intro k
  rw [OMap.mem_keys_iff, OMap.mem_keys_iff, ← Option.isSome_iff_exists, ← Option.isSome_iff_exists, h.dom]

theorem known (h : Rel o s a held seen) (n : Nm) :
    (cacheGet s.cache n).isSome = true ∨ (s.disk.get n).isSome = true ↔ a.known n = true := by
  unfold Abs.known
  rw [Bool.or_eq_true, decide_eq_true_eq, h.phantom, cacheGet_isSome, h.dom]
  have := h.dom n
  constructor
  · rintro (h1 | h1)
    · cases hd : s.disk.get n with
      | none => exact .inl ⟨h1, rfl⟩
      | some d => rw [hd] at this; exact .inr this.symm
    · exact .inr h1
  · rintro (⟨h1, _⟩ | h1)
    · exact .inl h1
    · exact .inr h1

/-- All names that are looked up belong to corpora. -/
theorem touchAll (l : List Nm) : ∀ s : Store Nm A C K U, Rel o s a held seen → (∀ n ∈ l, (a.corpora.get n).isSome = true) →
    Rel o (l.foldl (fun s n => (s.getEntry n).1) s) a held seen := by
  induction l with
  | nil => intro s h _; exact h
  | cons n r ih =>
    intro s h hl
    obtain ⟨g, hg⟩ := Option.isSome_iff_exists.1 (hl n (by simp))
    have := (h.getEntry n).1
    rw [touch_some hg] at this
    exact ih _ this fun m hm => hl m (by simp [hm])

end Rel
