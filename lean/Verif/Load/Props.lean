import Verif.Load.Model
import Verif.Text.Props

/-!
# C75: a query on a partly loaded corpus is answered like on a completely loaded one
-/

set_option linter.unusedSectionVars false

namespace Load

open AnnotationComponentType

variable {S σ E P N V : Type} [LinearOrder S] [OrderBot S]

/-! ### Specification -/

/-- The keys are sorted and their type numbers belong to component types. -/
structure WF (g : Comps S σ) : Prop where
  sorted : OMap.Sorted g
  typed : ∀ c ∈ OMap.keys g, ∃ t : AnnotationComponentType, (ofLex c).1 = t.toU16

/-- `f` is the completely loaded corpus for `g`: what `g` has in memory, and the rest from the disk. -/
def Complete (disk : CKey S → Except E σ) (g f : Comps S σ) : Prop :=
  OMap.Sorted f ∧ ∀ c, match OMap.get g c with
    | none => OMap.get f c = none
    | some (some s) => OMap.get f c = some (some s)
    | some none => ∃ s, disk c = .ok s ∧ OMap.get f c = some (some s)

/-- What other threads may do to the graph of a corpus while they have the write lock: load components, write to components in memory or
create new ones (`apply_update` loads everything first), and load the whole corpus again after a failed update (core/src/graph/mod.rs
718-726). -/
inductive Other : Comps S σ → Comps S σ → Prop
  | load {E : Type} (disk : CKey S → Except E σ) (g : Comps S σ) (cs : List (CKey S)) : Other g (ensureLoaded disk g cs).1
  | write (g : Comps S σ) (c : CKey S) (s : σ) : OMap.get g c ≠ some none → (∃ t : AnnotationComponentType, (ofLex c).1 = t.toU16) →
      Other g (OMap.insert g c (some s))
  | reload (g g' : Comps S σ) : WF g' → (∀ c, OMap.get g' c ≠ some none) → Other g g'

/-- The purposes for which everything that is used is also requested: not the extraction of a subgraph with one type of components. -/
def Purpose.Covered : Purpose → Prop
  | .subgraph t => t = none
  | _ => True

/-! ### Loading -/

theorem insertLoaded_get (g : Comps S σ) (l : List (CKey S × Except E σ)) (c : CKey S) :
    OMap.get (insertLoaded g l).1 c = OMap.get g c ∨ ∃ s, (c, .ok s) ∈ l ∧ OMap.get (insertLoaded g l).1 c = some (some s) := by
  induction l generalizing g with
  | nil => left; rfl
  | cons a r ih =>
    obtain ⟨k, x⟩ := a
    cases x with
    | error e => left; rfl
    | ok s =>
      have e : (insertLoaded g ((k, .ok s) :: r)).1 = (insertLoaded (OMap.insert g k (some s)) r).1 := by
        rw [insertLoaded]
        rcases h : insertLoaded (OMap.insert g k (some s)) r with ⟨g', x⟩
        cases x <;> rfl
      rw [e]
      rcases ih (OMap.insert g k (some s)) with h | ⟨s', h1, h2⟩
      · rw [h, OMap.get_insert]
        by_cases hk : c = k
        · right
          refine ⟨s, ?_, by rw [if_pos hk]⟩
          rw [hk]
          exact List.mem_cons_self
        · left
          rw [if_neg hk]
      · exact Or.inr ⟨s', List.mem_cons_of_mem _ h1, h2⟩

theorem insertLoaded_ok {g g' : Comps S σ} {l : List (CKey S × Except E σ)} {r : List (CKey S)}
    (h : insertLoaded g l = (g', .ok r)) : (∀ a ∈ l, ∃ s, a.2 = .ok s) ∧ r = l.map Prod.fst ∧
    ∀ c, c ∈ l.map Prod.fst → ∃ s, OMap.get g' c = some (some s) := by
  induction l generalizing g r with
  | nil =>
    obtain ⟨rfl, h2⟩ := Prod.mk.injEq .. ▸ h
    simp only [Except.ok.injEq] at h2
    simp [← h2]
  | cons a l ih =>
    obtain ⟨k, x⟩ := a
    cases x with
    | error e => simp [insertLoaded] at h
    | ok s =>
      rw [insertLoaded] at h
      rcases hi : insertLoaded (OMap.insert g k (some s)) l with ⟨g1, x⟩
      rw [hi] at h
      cases x with
      | error e => simp at h
      | ok l1 =>
        simp only [Prod.mk.injEq, Except.ok.injEq] at h
        obtain ⟨rfl, rfl⟩ := h
        obtain ⟨h1, h2, h3⟩ := ih hi
        refine ⟨?_, by rw [h2]; rfl, ?_⟩
        · rintro a ha
          rcases List.mem_cons.1 ha with rfl | ha
          · exact ⟨s, rfl⟩
          · exact h1 a ha
        · intro c hc
          rcases List.mem_cons.1 hc with e | hc
          · replace e : c = k := e
            subst e
            rcases insertLoaded_get (OMap.insert g c (some s)) l c with h | ⟨s', _, h⟩
            · rw [hi] at h
              exact ⟨s, by rw [h, OMap.get_insert_self]⟩
            · rw [hi] at h
              exact ⟨s', h⟩
          · exact h3 c hc

theorem insertLoaded_total (g : Comps S σ) {l : List (CKey S × Except E σ)} (h : ∀ a ∈ l, ∃ s, a.2 = .ok s) :
    ∃ g' r, insertLoaded g l = (g', .ok r) := by
  induction l generalizing g with
  | nil => exact ⟨g, [], rfl⟩
  | cons a l ih =>
    obtain ⟨k, x⟩ := a
    obtain ⟨s, rfl⟩ := h _ List.mem_cons_self
    obtain ⟨g', r, hi⟩ := ih (OMap.insert g k (some s)) fun a ha => h a (List.mem_cons_of_mem _ ha)
    exact ⟨g', k :: r, by rw [insertLoaded, hi]⟩

theorem insertLoaded_sorted {g : Comps S σ} (hs : OMap.Sorted g) (l : List (CKey S × Except E σ)) :
    OMap.Sorted (insertLoaded g l).1 := by
  induction l generalizing g with
  | nil => exact hs
  | cons a l ih =>
    obtain ⟨k, x⟩ := a
    cases x with
    | error e => exact hs
    | ok s =>
      have := ih (OMap.sorted_insert hs k (some s))
      rw [insertLoaded]
      rcases hi : insertLoaded (OMap.insert g k (some s)) l with ⟨g1, x⟩
      rw [hi] at this
      cases x <;> exact this

/-- The components that are loaded. -/
theorem mem_toLoad {g : Comps S σ} {cs : List (CKey S)} {c : CKey S} :
    c ∈ (cs.filter fun c => match OMap.get g c with
      | some none => true
      | _ => false) ↔ c ∈ cs ∧ OMap.get g c = some none := by
  rw [List.mem_filter]
  refine and_congr_right fun _ => ?_
  split
  · rename_i h; simp [h]
  · rename_i h; simpa using h

theorem ensureLoaded_get (disk : CKey S → Except E σ) (g : Comps S σ) (cs : List (CKey S)) (c : CKey S) :
    OMap.get (ensureLoaded disk g cs).1 c = OMap.get g c ∨
      ∃ s, c ∈ cs ∧ OMap.get g c = some none ∧ disk c = .ok s ∧ OMap.get (ensureLoaded disk g cs).1 c = some (some s) := by
  rcases insertLoaded_get g _ c with h | ⟨s, h1, h2⟩
  · exact Or.inl h
  · obtain ⟨c', hc', e⟩ := List.mem_map.1 h1
    simp only [Prod.mk.injEq] at e
    obtain ⟨rfl, hd⟩ := e
    obtain ⟨h3, h4⟩ := mem_toLoad.1 hc'
    exact Or.inr ⟨s, h3, h4, hd, h2⟩

theorem ensureLoaded_ok {disk : CKey S → Except E σ} {g g' : Comps S σ} {cs r : List (CKey S)}
    (h : ensureLoaded disk g cs = (g', .ok r)) {c : CKey S} (hc : c ∈ cs) : OMap.get g' c ≠ some none := by
  by_cases hn : OMap.get g c = some none
  · obtain ⟨_, _, h3⟩ := insertLoaded_ok h
    obtain ⟨s, hs⟩ := h3 c (List.mem_map.2 ⟨_, List.mem_map.2 ⟨c, mem_toLoad.2 ⟨hc, hn⟩, rfl⟩, rfl⟩)
    rw [hs]
    simp
  · rcases ensureLoaded_get disk g cs c with h' | ⟨s, _, h', _⟩
    · rw [h] at h'
      rwa [h']
    · exact absurd h' hn

theorem ensureLoaded_wf {g : Comps S σ} (h : WF g) (disk : CKey S → Except E σ) (cs : List (CKey S)) : WF (ensureLoaded disk g cs).1 := by
  refine ⟨insertLoaded_sorted h.sorted _, ?_⟩
  intro c hc
  obtain ⟨v, hv⟩ := OMap.mem_keys_iff.1 hc
  refine h.typed c (OMap.mem_keys_iff.2 ?_)
  rcases ensureLoaded_get disk g cs c with h' | ⟨s, _, h', _⟩
  · exact ⟨v, h' ▸ hv⟩
  · exact ⟨_, h'⟩

theorem Other.step {g g' : Comps S σ} (h : Other g g') (hg : WF g) :
    WF g' ∧ ∀ c, OMap.get g' c = some none → OMap.get g c = some none := by
  cases h with
  | load disk _ cs =>
    refine ⟨ensureLoaded_wf hg disk cs, fun c hc => ?_⟩
    rcases ensureLoaded_get disk g cs c with h' | ⟨s, _, _, _, h'⟩
    · rwa [h'] at hc
    · rw [h'] at hc
      simp at hc
  | write _ c s hn ht =>
    refine ⟨⟨OMap.sorted_insert hg.sorted _ _, ?_⟩, fun c' hc => ?_⟩
    · intro c' hc'
      obtain ⟨v, hv⟩ := OMap.mem_keys_iff.1 hc'
      rw [OMap.get_insert] at hv
      by_cases e : c' = c
      · rw [e]; exact ht
      · rw [if_neg e] at hv
        exact hg.typed c' (OMap.mem_keys_iff.2 ⟨v, hv⟩)
    · rw [OMap.get_insert] at hc
      by_cases e : c' = c
      · rw [if_pos e] at hc
        simp at hc
      · rwa [if_neg e] at hc
  | reload _ _ hw hl => exact ⟨hw, fun c hc => absurd hc (hl c)⟩

theorem Other.steps {g g' : Comps S σ} (h : Relation.ReflTransGen Other g g') (hg : WF g) :
    WF g' ∧ ∀ c, OMap.get g' c = some none → OMap.get g c = some none := by
  induction h with
  | refl => exact ⟨hg, fun _ h => h⟩
  | tail _ h ih =>
    obtain ⟨h1, h2⟩ := h.step ih.1
    exact ⟨h1, fun c hc => ih.2 c (h2 c hc)⟩

/-- Loading everything gives the completely loaded corpus. -/
theorem C75_load_all {disk : CKey S → Except E σ} {g f : Comps S σ} {r : List (CKey S)} (hg : WF g)
    (h : ensureLoadedAll disk g = (f, .ok r)) : Complete disk g f := by
  have hs : OMap.Sorted f := by
    have e : f = (ensureLoadedAll disk g).1 := by rw [h]
    rw [e]
    exact insertLoaded_sorted hg.sorted _
  refine ⟨hs, fun c => ?_⟩
  have hget := ensureLoaded_get disk g ((g.filter fun e => e.2.isNone).map Prod.fst) c
  rw [show ensureLoaded disk g _ = (f, .ok r) from h] at hget
  cases hc : OMap.get g c with
  | none =>
    rcases hget with h' | ⟨s, _, h', _⟩
    · simpa [hc] using h'
    · rw [hc] at h'; simp at h'
  | some v =>
    cases v with
    | some s =>
      rcases hget with h' | ⟨s', _, h', _⟩
      · simpa [hc] using h'
      · rw [hc] at h'; simp at h'
    | none =>
      have hm : c ∈ ((g.filter fun e => e.2.isNone).map Prod.fst) :=
        List.mem_map.2 ⟨(c, none), List.mem_filter.2 ⟨OMap.mem_of_get hc, rfl⟩, rfl⟩
      have := ensureLoaded_ok (show ensureLoaded disk g _ = (f, .ok r) from h) hm
      rcases hget with h' | ⟨s, _, _, hd, h'⟩
      · rw [hc] at h'; exact absurd h' this
      · exact ⟨s, hd, h'⟩

/-! ### What the completely loaded corpus has in common with a partly loaded one -/

theorem Complete.keys {disk : CKey S → Except E σ} {g f : Comps S σ} (h : Complete disk g f) (hg : WF g) :
    OMap.keys f = OMap.keys g := by
  have hp : ∀ c, c ∈ OMap.keys f ↔ c ∈ OMap.keys g := by
    intro c
    rw [OMap.mem_keys_iff, OMap.mem_keys_iff]
    have := h.2 c
    cases hc : OMap.get g c with
    | none => rw [hc] at this; simp only at this; simp [this]
    | some v =>
      cases v with
      | some s => rw [hc] at this; simp only at this; simp [this]
      | none => rw [hc] at this; obtain ⟨s, _, hs⟩ := this; simp [hs]
  have n1 := OMap.nodup_keys h.1
  have n2 := OMap.nodup_keys hg.sorted
  exact List.Perm.eq_of_pairwise (le := (· < ·)) (fun a b _ _ h1 h2 => absurd h1 (lt_asymm h2)) (OMap.sorted_keys h.1)
    (OMap.sorted_keys hg.sorted) ((List.perm_ext_iff_of_nodup n1 n2).2 hp)

/-- Both graphs have the same components, and the same storage for the components with `P`. -/
structure Same (f g : Comps S σ) (P : CKey S → Prop) : Prop where
  all : ∀ t n, allComps f t n = allComps g t n
  gs : ∀ c, P c → getGs f c = getGs g c

theorem Complete.same {disk : CKey S → Except E σ} {g f : Comps S σ} (h : Complete disk g f) (hg : WF g) :
    Same f g fun c => OMap.get g c ≠ some none := by
  refine ⟨fun t n => by unfold allComps; rw [h.keys hg], fun c hc => ?_⟩
  have := h.2 c
  unfold getGs
  cases he : OMap.get g c with
  | none => rw [he] at this; simp only at this; rw [this]
  | some v =>
    cases v with
    | some s => rw [he] at this; simp only at this; rw [this]
    | none => exact absurd he hc

namespace Same

variable {f g : Comps S σ} {A : CKey S → Prop} (h : Same f g A) (nm : Names S) (nodes : σ → Option Nat)
include h

theorem filterMap {l : List (CKey S)} (hl : ∀ c ∈ l, A c) : l.filterMap (getGs f) = l.filterMap (getGs g) :=
  List.filterMap_congr fun c hc => h.gs c (hl c hc)

theorem pairs {l : List (CKey S)} (hl : ∀ c ∈ l, A c) : (l.map fun c => (c, getGs f c)) = l.map fun c => (c, getGs g c) :=
  List.map_congr_left fun c hc => by rw [h.gs c (hl c hc)]

theorem need {c : CKey S} (hc : A c) : Load.need f c = Load.need g c := by unfold Load.need; rw [h.gs c hc]

theorem mapM {l : List (CKey S)} (hl : ∀ c ∈ l, A c) : l.mapM (Load.need f) = l.mapM (Load.need g) := by
  induction l with
  | nil => rfl
  | cons c r ih =>
    rw [List.mapM_cons, List.mapM_cons, h.need (hl c List.mem_cons_self), ih fun c hc => hl c (List.mem_cons_of_mem _ hc)]

theorem covGs (hl : ∀ c ∈ allComps g (some .coverage) none, A c) : Load.covGs nodes f = Load.covGs nodes g := by
  unfold Load.covGs
  rw [h.all, h.filterMap hl]

theorem helper (hl : ∀ c ∈ helperNeeds nm g, A c) : newHelper nm nodes f = newHelper nm nodes g := by
  unfold helperNeeds at hl
  unfold newHelper
  rw [h.need (hl _ List.mem_cons_self), h.need (hl _ (List.mem_cons_of_mem _ List.mem_cons_self)),
    h.covGs nodes fun c hc => hl c (List.mem_cons_of_mem _ (List.mem_cons_of_mem _ hc))]

theorem helperNeeds : Load.helperNeeds nm f = Load.helperNeeds nm g := by unfold Load.helperNeeds; rw [h.all]

theorem nodeInst (n : NsSpec N V) (hl : ∀ c ∈ nodeNeeds nm g n, A c) : Load.nodeInst nm nodes f n = Load.nodeInst nm nodes g n := by
  unfold nodeNeeds at hl
  unfold Load.nodeInst
  split
  · rw [h.gs _ (hl _ List.mem_cons_self), h.helper nm nodes fun c hc => hl c (List.mem_cons_of_mem _ hc),
      h.covGs nodes fun c hc => hl c (List.mem_cons_of_mem _ (List.mem_cons_of_mem _ (List.mem_cons_of_mem _ hc)))]
  · rw [h.covGs nodes hl]
  · rw [h.covGs nodes hl]
  · rw [h.covGs nodes hl]
  · rw [h.covGs nodes hl]
  · rfl

theorem binNeeds (op : BinSpec S P) : Load.binNeeds nm f op = Load.binNeeds nm g op := by
  induction op <;> simp only [Load.binNeeds, h.all, h.helperNeeds nm]
  assumption

theorem createOp (op : BinSpec S P) (hl : ∀ c ∈ Load.binNeeds nm g op, A c) :
    Load.createOp nm nodes f op = Load.createOp nm nodes g op := by
  induction op with
  | dominance n p =>
    simp only [Load.createOp, h.all]
    rw [h.mapM (by simpa only [Load.binNeeds] using hl)]
  | pointing n p =>
    simp only [Load.createOp, h.all]
    rw [h.mapM (by simpa only [Load.binNeeds] using hl)]
  | partOf p =>
    simp only [Load.createOp]
    rw [h.mapM (by simpa only [Load.binNeeds] using hl)]
  | precedence seg p =>
    simp only [Load.createOp]
    simp only [Load.binNeeds, List.mem_cons, forall_eq_or_imp] at hl
    rw [h.need hl.1, h.need hl.2.1, h.need hl.2.2.1, h.helper nm nodes hl.2.2.2]
  | near seg p =>
    simp only [Load.createOp]
    simp only [Load.binNeeds, List.mem_cons, forall_eq_or_imp] at hl
    rw [h.need hl.1, h.helper nm nodes hl.2]
  | inclusion =>
    simp only [Load.createOp]
    simp only [Load.binNeeds, List.mem_cons, forall_eq_or_imp] at hl
    rw [h.need hl.1, h.helper nm nodes hl.2]
  | overlap r =>
    simp only [Load.createOp]
    simp only [Load.binNeeds, List.mem_cons, forall_eq_or_imp] at hl
    rw [h.need hl.1, h.helper nm nodes hl.2]
  | identCov =>
    simp only [Load.createOp]
    simp only [Load.binNeeds, List.mem_cons, forall_eq_or_imp] at hl
    rw [h.need hl.1, h.need hl.2.1, h.helper nm nodes hl.2.2]
  | leftAlign => simp only [Load.createOp]; rw [h.helper nm nodes hl]
  | rightAlign => simp only [Load.createOp]; rw [h.helper nm nodes hl]
  | equalValue p => rfl
  | identNode => rfl
  | negated op ih => exact ih hl

theorem inverseHelper (op : BinSpec S P) (hl : ∀ c ∈ Load.binNeeds nm g op, A c) :
    Load.inverseHelper nm nodes f op = Load.inverseHelper nm nodes g op := by
  cases op <;> simp only [Load.inverseHelper, Load.binNeeds, List.mem_cons, forall_eq_or_imp] at hl ⊢
  · rw [h.helper nm nodes hl.2.2.2]
  · rw [h.helper nm nodes hl.2]
  · rw [h.helper nm nodes hl.2]
  · rw [h.helper nm nodes hl.2.2]
  · rw [h.helper nm nodes hl]
  · rw [h.helper nm nodes hl]

theorem createUn (u : UnSpec S P N V) (hl : ∀ c ∈ Load.unNeeds nm g u, A c) :
    Load.createUn nm nodes f u = Load.createUn nm nodes g u := by
  cases u with
  | arity p =>
    simp only [Load.createUn, h.all]
    rw [h.filterMap fun c hc => hl c (List.mem_append_left _ hc), h.filterMap fun c hc => hl c (List.mem_append_right _ hc)]
  | nonExisting op target left =>
    simp only [Load.createUn]
    rw [h.createOp nm nodes op fun c hc => hl c (List.mem_append_left _ hc),
      h.inverseHelper nm nodes op fun c hc => hl c (List.mem_append_left _ hc),
      h.nodeInst nm nodes target fun c hc => hl c (List.mem_append_right _ hc)]

theorem conjInst (q : Conj S P N V) (hl : ∀ c ∈ Load.conjNeeds nm g q, A c) :
    Load.conjInst nm nodes f q = Load.conjInst nm nodes g q := by
  have h1 : ∀ u ∈ q.unary, ∀ c ∈ unNeeds nm g u, A c := fun u hu c hc =>
    hl c (List.mem_append_left _ (List.mem_append_left _ (List.mem_flatMap.2 ⟨u, hu, hc⟩)))
  have h2 : ∀ u ∈ q.binary, ∀ c ∈ Load.binNeeds nm g u, A c := fun u hu c hc =>
    hl c (List.mem_append_left _ (List.mem_append_right _ (List.mem_flatMap.2 ⟨u, hu, hc⟩)))
  have h3 : ∀ u ∈ q.nodes, ∀ c ∈ nodeNeeds nm g u, A c := fun u hu c hc =>
    hl c (List.mem_append_right _ (List.mem_flatMap.2 ⟨u, hu, hc⟩))
  unfold Load.conjInst
  congr 1
  · exact List.map_congr_left fun u hu => h.nodeInst nm nodes u (h3 u hu)
  · exact List.map_congr_left fun u hu => h.createUn nm nodes u (h1 u hu)
  · exact List.map_congr_left fun u hu => by
      rw [h.createOp nm nodes u (h2 u hu), h.inverseHelper nm nodes u (h2 u hu), h.binNeeds nm u, h.pairs (h2 u hu)]

end Same

/-! ### The theorem -/

/-- If no component that the query needs is known but not loaded, then the answer is that of the completely loaded corpus. -/
theorem answer_same {R : Type} (nm : Names S) (nodes : σ → Option Nat) (ev : List (ConjInst S σ) → ExtraInst S σ → R)
    {disk : CKey S → Except E σ} {g f : Comps S σ} (hg : WF g) (hf : Complete disk g f) (q : List (Conj S P N V)) (p : Purpose)
    (hp : p.Covered) (h1 : ∀ c ∈ queryNeeds nm g q ++ additional nm g p, OMap.get g c ≠ some none) :
    answer nm nodes ev g q p = answer nm nodes ev f q p := by
  have hs := hf.same hg
  have hq : ∀ x ∈ q, conjInst nm nodes g x = conjInst nm nodes f x := fun x hx =>
    (hs.conjInst nm nodes x fun c hc => h1 c (List.mem_append_left _ (List.mem_flatMap.2 ⟨x, hx, hc⟩))).symm
  have ha : ∀ c ∈ additional nm g p, OMap.get g c ≠ some none := fun c hc => h1 c (List.mem_append_right _ hc)
  unfold answer
  rw [List.map_congr_left hq]
  congr 1
  cases p with
  | count => rfl
  | countExtra =>
    simp only [extraInst, hs.all]
    rw [hs.pairs (by simpa only [additional] using ha)]
  | find sorted =>
    cases sorted with
    | false => rfl
    | true =>
      simp only [additional, if_true, List.mem_cons, forall_eq_or_imp] at ha
      simp only [extraInst, if_true]
      rw [hs.gs _ ha.1, hs.helper nm nodes ha.2]
  | subgraph t =>
    have ht : t = none := hp
    subst ht
    have hall : ∀ c, OMap.get g c ≠ some none := by
      intro c hc
      refine ha c ?_ hc
      have hk : c ∈ OMap.keys g := OMap.mem_keys_iff.2 ⟨_, hc⟩
      simpa [additional, allComps, getAllComponents] using hk
    simp only [extraInst, hs.all]
    rw [hs.gs _ (hall _), hs.helper nm nodes fun c _ => hall c, hs.pairs fun c _ => hall c]

theorem mem_allComps {g : Comps S σ} (hg : WF g) {t : Option AnnotationComponentType} {n : Option S} {c : CKey S} :
    c ∈ allComps g t n ↔ c ∈ OMap.keys g ∧ componentWanted toU16 t n c :=
  (C31_get_all_components toU16 ofU16 annotationType_u16 (OMap.keys g) (OMap.sorted_keys hg.sorted) hg.typed t n).2 c

/-- A component that a query needs later and that was known before was needed before. -/
theorem needs_before (nm : Names S) {g g' : Comps S σ} (hg : WF g) (hg' : WF g') (q : List (Conj S P N V)) (p : Purpose) {c : CKey S}
    (hk : c ∈ OMap.keys g) (h : c ∈ queryNeeds nm g' q ++ additional nm g' p) : c ∈ queryNeeds nm g q ++ additional nm g p := by
  have hall : ∀ {t n}, c ∈ allComps g' t n → c ∈ allComps g t n := fun h =>
    (mem_allComps hg).2 ⟨hk, ((mem_allComps hg').1 h).2⟩
  have hh : c ∈ helperNeeds nm g' → c ∈ helperNeeds nm g := by
    unfold helperNeeds
    simp only [List.mem_cons]
    exact Or.imp_right (Or.imp_right hall)
  have hn : ∀ x : NsSpec N V, c ∈ nodeNeeds nm g' x → c ∈ nodeNeeds nm g x := by
    intro x
    unfold nodeNeeds
    split
    · simp only [List.mem_cons]
      exact Or.imp_right hh
    all_goals first | exact hall | exact fun h => h
  have hb : ∀ x : BinSpec S P, c ∈ binNeeds nm g' x → c ∈ binNeeds nm g x := by
    intro x
    induction x <;> simp only [binNeeds, List.mem_cons]
    case negated ih => exact ih
    case precedence => exact Or.imp_right (Or.imp_right (Or.imp_right hh))
    case identCov => exact Or.imp_right (Or.imp_right hh)
    all_goals first | exact hall | exact hh | exact Or.imp_right hh | exact fun h => h
  have hu : ∀ x : UnSpec S P N V, c ∈ unNeeds nm g' x → c ∈ unNeeds nm g x := by
    intro x
    cases x <;> simp only [unNeeds, List.mem_append]
    · exact Or.imp hall hall
    · exact Or.imp (hb _) (hn _)
  rcases List.mem_append.1 h with h | h
  · refine List.mem_append_left _ ?_
    obtain ⟨x, hx, h⟩ := List.mem_flatMap.1 h
    refine List.mem_flatMap.2 ⟨x, hx, ?_⟩
    rcases List.mem_append.1 h with h | h
    · refine List.mem_append_left _ ?_
      rcases List.mem_append.1 h with h | h
      · obtain ⟨y, hy, h⟩ := List.mem_flatMap.1 h
        exact List.mem_append_left _ (List.mem_flatMap.2 ⟨y, hy, hu y h⟩)
      · obtain ⟨y, hy, h⟩ := List.mem_flatMap.1 h
        exact List.mem_append_right _ (List.mem_flatMap.2 ⟨y, hy, hb y h⟩)
    · obtain ⟨y, hy, h⟩ := List.mem_flatMap.1 h
      exact List.mem_append_right _ (List.mem_flatMap.2 ⟨y, hy, hn y h⟩)
  · refine List.mem_append_right _ ?_
    cases p with
    | count => exact h
    | countExtra => exact hall h
    | find sorted =>
      cases sorted
      · exact h
      · simp only [additional, if_true, List.mem_cons] at h ⊢
        exact h.imp_right hh
    | subgraph t => exact hall h

theorem mem_missing {nm : Names S} {g : Comps S σ} {q : List (Conj S P N V)} {p : Purpose} {c : CKey S}
    (h : c ∈ queryNeeds nm g q ++ additional nm g p) (hn : OMap.get g c = some none) : c ∈ missing nm g q p := by
  unfold missing
  rw [List.mem_filter]
  refine ⟨h, ?_⟩
  have : getGs g c = none := by unfold getGs; rw [hn]
  simp [this]

/-- C75: a query that was prepared on any partly loaded corpus gives the answer of the completely loaded corpus, whatever is done with the
storages.  The components are looked up in the state `g0`, loaded in the state `g1` and used in the state `g3`; between these other threads
may load components, change components in memory and create new ones.  Partial: not for the subgraph of a query with a filter for the type
of components. -/
theorem C75_like_complete_partial {R E' : Type} (nm : Names S) (nodes : σ → Option Nat) (ev : List (ConjInst S σ) → ExtraInst S σ → R)
    {g0 g1 g2 g3 f : Comps S σ} (disk : CKey S → Except E σ) (disk' : CKey S → Except E' σ) {ord : List (CKey S) → List (CKey S)}
    (hord : ∀ l c, c ∈ ord l ↔ c ∈ l) {r : List (CKey S)} (q : List (Conj S P N V)) (p : Purpose) (hp : p.Covered) (h0 : WF g0)
    (h01 : Relation.ReflTransGen Other g0 g1) (h12 : ensureLoaded disk g1 (ord (missing nm g0 q p)) = (g2, .ok r))
    (h23 : Relation.ReflTransGen Other g2 g3) (hf : Complete disk' g3 f) :
    answer nm nodes ev g3 q p = answer nm nodes ev f q p := by
  obtain ⟨w1, m1⟩ := Other.steps h01 h0
  have e2 : g2 = (ensureLoaded disk g1 (ord (missing nm g0 q p))).1 := by rw [h12]
  have w2 : WF g2 := e2 ▸ ensureLoaded_wf w1 disk _
  obtain ⟨w3, m3⟩ := Other.steps h23 w2
  refine answer_same nm nodes ev w3 hf q p hp ?_
  intro c hc hn
  have n2 := m3 c hn
  have n1 : OMap.get g1 c = some none := by
    rcases ensureLoaded_get disk g1 (ord (missing nm g0 q p)) c with h' | ⟨s, _, h', _⟩
    · rw [← h', ← e2]; exact n2
    · exact h'
  have n0 := m1 c n1
  have hc0 := needs_before nm h0 w3 q p (OMap.mem_keys_iff.2 ⟨_, n0⟩) hc
  exact ensureLoaded_ok h12 ((hord _ _).2 (mem_missing hc0 n0)) n2

/-- C75: preparing a query loads exactly the components that its parts ask for, fails exactly if one of these cannot be read, and leaves everything else
as it is. -/
theorem C75_loads (nm : Names S) (disk : CKey S → Except E σ) {ord : List (CKey S) → List (CKey S)} (hord : ∀ l c, c ∈ ord l ↔ c ∈ l)
    (g : Comps S σ) (q : List (Conj S P N V)) (p : Purpose) :
    ((∃ g' r, prepare nm disk ord g q p = (g', .ok r)) ↔
      ∀ c ∈ queryNeeds nm g q ++ additional nm g p, OMap.get g c = some none → ∃ s, disk c = .ok s) ∧
    ∀ g' r, prepare nm disk ord g q p = (g', .ok r) → ∀ c,
      (c ∈ queryNeeds nm g q ++ additional nm g p ∧ OMap.get g c = some none → ∃ s, disk c = .ok s ∧ OMap.get g' c = some (some s)) ∧
      (¬ (c ∈ queryNeeds nm g q ++ additional nm g p ∧ OMap.get g c = some none) → OMap.get g' c = OMap.get g c) := by
  have hmem : ∀ c, c ∈ ord (missing nm g q p) ∧ OMap.get g c = some none ↔
      c ∈ queryNeeds nm g q ++ additional nm g p ∧ OMap.get g c = some none := by
    intro c
    constructor
    · rintro ⟨h, hn⟩
      rw [hord] at h
      exact ⟨(List.mem_filter.1 h).1, hn⟩
    · rintro ⟨h, hn⟩
      exact ⟨(hord _ _).2 (mem_missing h hn), hn⟩
  refine ⟨⟨?_, ?_⟩, ?_⟩
  · rintro ⟨g', r, h⟩ c hc hn
    exact (insertLoaded_ok h).1 (c, disk c) (List.mem_map.2 ⟨c, mem_toLoad.2 ((hmem c).2 ⟨hc, hn⟩), rfl⟩)
  · intro h
    refine insertLoaded_total g ?_
    intro a ha
    obtain ⟨c, hc, rfl⟩ := List.mem_map.1 ha
    obtain ⟨hc1, hn⟩ := (hmem c).1 (mem_toLoad.1 hc)
    exact h c hc1 hn
  · intro g' r h c
    have hget := ensureLoaded_get disk g (ord (missing nm g q p)) c
    rw [show ensureLoaded disk g _ = (g', .ok r) from h] at hget
    refine ⟨fun hc => ?_, fun hc => ?_⟩
    · rcases hget with h' | ⟨s, _, _, hd, h'⟩
      · exact absurd (h'.trans hc.2) (ensureLoaded_ok h ((hmem c).2 hc).1)
      · exact ⟨s, hd, h'⟩
    · rcases hget with h' | ⟨s, h1, h2, _⟩
      · exact h'
      · exact absurd ((hmem c).1 ⟨h1, h2⟩) hc

/-- C75: a graph given directly is only queried if all its components are loaded. -/
theorem C75_on_graph {R : Type} (nm : Names S) (nodes : σ → Option Nat) (ev : List (ConjInst S σ) → ExtraInst S σ → R)
    {disk : CKey S → Except E σ} {g f : Comps S σ} (hg : WF g) (hf : Complete disk g f) (q : List (Conj S P N V)) :
    ((∀ c, OMap.get g c ≠ some none) → executeOnGraph nm nodes ev g q = some (answer nm nodes ev f q .count)) ∧
    (∀ c, OMap.get g c = some none → executeOnGraph nm nodes ev g q = none) := by
  unfold executeOnGraph
  have hiff : ((allComps g none none).all fun c => (getGs g c).isSome) = true ↔ ∀ c, OMap.get g c ≠ some none := by
    rw [List.all_eq_true]
    constructor
    · intro h c hc
      have := h c ((mem_allComps hg).2 ⟨OMap.mem_keys_iff.2 ⟨_, hc⟩, by simp [componentWanted]⟩)
      unfold getGs at this
      rw [hc] at this
      simp at this
    · intro h c hc
      obtain ⟨v, hv⟩ := OMap.mem_keys_iff.1 ((mem_allComps hg).1 hc).1
      cases v with
      | none => exact absurd hv (h c)
      | some s => unfold getGs; rw [hv]; rfl
  refine ⟨fun h => ?_, fun c hc => ?_⟩
  · rw [if_pos (hiff.2 h), answer_same nm nodes ev hg hf q .count trivial fun c _ => h c]
  · rw [if_neg (fun h' => hiff.1 h' c hc)]

end Load
