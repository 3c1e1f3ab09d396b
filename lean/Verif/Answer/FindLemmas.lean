import Verif.Answer.Find

/-!
# Lemmas for C108: sorting with a comparison that is consistent on the results, loops over corpora, shown columns
-/

set_option linter.unusedSectionVars false
set_option linter.unusedSimpArgs false

namespace Answer

open Whole

/-! ### Sorting -/

section
variable {G R : Type} {P : G → Prop} {cmp : G → G → Ordering}

theorem CmpOrd.pair (ho : CmpOrd P cmp) {x y : G} (hx : P x) (hy : P y) : (cmp x y).isLE = true ∨ (cmp y x).isLE = true := by
  have := ho.swap x y hx hy
  cases e1 : cmp x y <;> cases e2 : cmp y x <;> simp [e1, e2] at this ⊢

/-- Sorting with a comparison that is consistent on the items can end. -/
theorem sort_can_terminate (ho : CmpOrd P cmp) (n : Nat) {l : List G} (hl : ∀ x ∈ l, P x) :
    ∃ fuel rs l', sortFirstN (fun a b => some (cmp a b)) n fuel rs l = some l' := by
  classical
  let le' : G → G → Prop := fun a b => b ∉ l ∨ a ∈ l ∧ (cmp a b).isLE = true
  let cmp' : G → G → Option Ordering := fun a b => if a ∈ l then (if b ∈ l then some (cmp a b) else some .lt) else if b ∈ l then some .gt else some .eq
  have ha : Agrees cmp' le' := by
    intro x y o h
    by_cases hx : x ∈ l <;> by_cases hy : y ∈ l <;> simp only [cmp', hx, hy, if_true, if_false, Option.some.injEq] at h <;> subst h <;>
      simp only [le', hx, hy, not_true_eq_false, not_false_eq_true, true_and, false_and, false_or, true_or, or_false, iff_true, iff_false] <;>
      try simp
    have := ho.swap x y (hl x hx) (hl y hy)
    rw [this]
    cases cmp y x <;> simp
  have ht : TotalPre le' := by
    constructor
    · rintro x y z h1 h2
      simp only [le'] at h1 h2 ⊢
      by_cases hz : z ∈ l
      · rcases h2 with h2 | ⟨hy, h2⟩
        · exact absurd hz h2
        · rcases h1 with h1 | ⟨hx, h1⟩
          · exact absurd hy h1
          · exact Or.inr ⟨hx, ho.trans x y z (hl x hx) (hl y hy) (hl z hz) h1 h2⟩
      · exact Or.inl hz
    · intro x y
      simp only [le']
      by_cases hy : y ∈ l
      · by_cases hx : x ∈ l
        · rcases CmpOrd.pair ho (hl x hx) (hl y hy) with h | h
          · exact Or.inl (Or.inr ⟨hx, h⟩)
          · exact Or.inr (Or.inr ⟨hy, h⟩)
        · exact Or.inr (Or.inl hx)
      · exact Or.inl (Or.inl hy)
  obtain ⟨fuel, rs, l', h⟩ := C33_can_terminate ha ht (fun x y => by
    by_cases hx : x ∈ l <;> by_cases hy : y ∈ l <;> simp [cmp', hx, hy]) n l
  refine ⟨fuel, rs, l', sortFirstN_congr (P := (· ∈ l)) ?_ (fun _ h => h) h⟩
  intro x y o hx hy h
  simpa [cmp', hx, hy] using h

/-- The comparison for the requested order is consistent, too. -/
theorem CmpOrd.inverted (ho : CmpOrd P cmp) : CmpOrd P fun a b => (cmp a b).swap := by
  constructor
  · intro a b ha hb
    rw [ho.swap a b ha hb]
  · intro a b c ha hb hc h1 h2
    have e : ∀ x y, P x → P y → (cmp x y).swap = cmp y x := fun x y hx hy => by rw [ho.swap x y hx hy]; cases cmp y x <;> rfl
    rw [e _ _ ha hb] at h1
    rw [e _ _ hb hc] at h2
    rw [e _ _ ha hc]
    exact ho.trans c b a hc hb ha h2 h1

/-- Items in strictly ascending order, whose plan has them in any order: the iterator gives them in order. -/
theorem iterator_sorted (ho : CmpOrd P cmp) (order : ResultOrder) (hor : order = .normal ∨ order = .inverted) {plan res : List G}
    (hp : plan.Perm res) (hP : ∀ g ∈ res, P g) (hr : res.Pairwise fun a b => cmp a b = .lt) (flag : Bool)
    (hflag : flag = true → plan = res) (render : G → Option R) (rnd : Rnd G) (offset : Nat) (limit : Option Nat)
    {it : List (Option G)}
    (h : createFindIterator ⟨plan.map some, flag, fun a b => some (cmp a b), render⟩ rnd false order offset limit = some it) :
    it.length = res.length ∧ ∀ n, (∀ k, limit = some k → n ≤ offset + k) →
      it.take n = ((if order = .inverted then res.reverse else res).map some).take n := by
  unfold createFindIterator at h
  split at h
  · rename_i hc
    have hn : order = .normal ∧ flag = true := by
      rcases hc with hc | hc
      · rcases hor with rfl | rfl <;> simp at hc
      · exact ⟨hc.1, by simpa using hc.2.1⟩
    obtain ⟨rfl, hf⟩ := hn
    simp only [Option.some.injEq] at h
    subst h
    rw [hflag hf]
    simp
  · have hrand : order ≠ .randomized := by rcases hor with rfl | rfl <;> simp
    simp only [TokenSearch.mapM_some, Option.bind_eq_bind, Option.bind_some, if_neg hrand, Option.bind_eq_some_iff, Option.pure_def,
      Option.some.injEq] at h
    obtain ⟨sorted, h1, rfl⟩ := h
    obtain ⟨m, hm1, hm2, h1⟩ : ∃ m, (∀ k, limit = some k → m = offset + k) ∧ (limit = none → m = plan.length) ∧
        sortFirstN (cmpFor order fun a b => some (cmp a b)) m rnd.fuel rnd.pivots plan = some sorted :=
      ⟨_, by rintro k rfl; rfl, by rintro rfl; rfl, h1⟩
    have hPl : ∀ g ∈ plan, P g := fun g hg => hP g (hp.mem_iff.1 hg)
    have hord : CmpOrd P fun a b => if order = .inverted then (cmp a b).swap else cmp a b := by
      rcases hor with rfl | rfl
      · simpa using ho
      · simpa using CmpOrd.inverted ho
    have hcf : (cmpFor order fun a b => some (cmp a b)) = fun a b => some (if order = .inverted then (cmp a b).swap else cmp a b) := by
      funext a b
      unfold cmpFor
      split <;> rfl
    rw [hcf] at h1
    generalize hc2 : (fun a b => if order = .inverted then (cmp a b).swap else cmp a b) = c2 at hord
    have key : sorted.Perm plan ∧ FirstSorted (fun x y => (c2 x y).isLE = true) m sorted := by
      refine C33_sort_first_n_on (fun x y => (c2 x y).isLE = true) ?_ ?_ ?_ h1
      · exact fun x hx y hy z hz e1 e2 => hord.trans x y z (hPl x hx) (hPl y hy) (hPl z hz) e1 e2
      · exact fun x hx y hy => CmpOrd.pair hord (hPl x hx) (hPl y hy)
      · intro x hx y hy w hw
        have hw' : c2 x y = w := by rw [← hc2]; simpa using hw
        subst hw'
        refine ⟨Iff.rfl, ?_⟩
        rw [hord.swap x y (hPl x hx) (hPl y hy)]
        cases c2 y x <;> simp
    obtain ⟨k1, k2⟩ := key
    have hlen : sorted.length = res.length := (k1.trans hp).length_eq
    refine ⟨by simpa using hlen, fun n hn => ?_⟩
    rw [← List.map_take, ← List.map_take]
    congr 1
    have hfs : FirstSorted (fun x y => (c2 x y).isLE = true) n sorted := by
      intro i j x y hij hi hx hy
      refine k2 i j x y hij ?_ hx hy
      cases limit with
      | some k => have := hn k rfl; have := hm1 k rfl; omega
      | none =>
        rw [hm2 rfl, ← k1.length_eq]
        exact (List.getElem?_eq_some_iff.1 hx).1
    have hnot : ∀ x y, P x → P y → c2 x y = .lt → ¬ (c2 y x).isLE = true := by
      intro x y hx hy hlt hle
      rw [hord.swap y x hy hx, hlt] at hle
      simp at hle
    rcases hor with rfl | rfl
    · simp only [reduceCtorEq, if_false] at hc2 ⊢
      subst hc2
      exact TokenSearch.take_of_firstSorted hr (fun x hx y hy hlt => hnot x y (hP x hx) (hP y hy) hlt) (k1.trans hp) hfs
    · simp only [if_true] at hc2 ⊢
      subst hc2
      have hrev : res.reverse.Pairwise fun a b => (cmp a b).swap = .lt := by
        rw [List.pairwise_reverse]
        refine hr.imp_of_mem fun {a b} ha hb h => ?_
        rw [ho.swap b a (hP b hb) (hP a ha), h]; rfl
      refine TokenSearch.take_of_firstSorted hrev ?_ ((k1.trans hp).trans (List.reverse_perm res).symm) hfs
      exact fun x hx y hy hlt => hnot x y (hP x (by simpa using hx)) (hP y (by simpa using hy)) hlt

/-- If the first items of an iterator are known, the results of a page are known. -/
theorem findSingle_of_take {c : FindCorpus G R} {f : G → R} (hren : ∀ g, c.render g = some (f g)) {rnd : Rnd G} {order : ResultOrder}
    {offset : Nat} {limit : Option Nat} {full : List G} {r : List R × Nat}
    (hit : ∀ it, createFindIterator c rnd false order offset limit = some it → it.length = full.length ∧
      ∀ n, (∀ k, limit = some k → n ≤ offset + k) → it.take n = (full.map some).take n)
    (h : findSingle c rnd false order offset limit = some r) : r = (slice (full.map f) offset limit, min offset (full.map f).length) := by
  unfold findSingle at h
  cases hi : createFindIterator c rnd false order offset limit with
  | none => simp [hi] at h
  | some it =>
    obtain ⟨h1, h2⟩ := hit it hi
    have hfun : (fun m : Option G => m.bind c.render) = fun m => m.map f := by
      funext m; cases m <;> simp [hren]
    have hm : ∀ l : List G, ((l.map some).mapM fun m : Option G => m.map f) = some (l.map f) := by
      intro l
      rw [List.mapM_map]
      have : ((fun m : Option G => m.map f) ∘ some) = fun g => some (f g) := rfl
      rw [this]
      induction l with
      | nil => rfl
      | cons x l ih => rw [List.mapM_cons, ih]; rfl
    simp only [hi, Option.bind_eq_bind, Option.bind_some, hfun, h1] at h
    cases limit with
    | none =>
      have := h2 it.length (by simp)
      rw [List.take_length, h1, ← List.length_map (f := some), List.take_length] at this
      rw [this, ← List.map_drop] at h
      simp only [hm, Option.bind_some, Option.pure_def, Option.some.injEq] at h
      rw [← h, slice, List.map_drop, List.length_map]
    | some k =>
      have := h2 (offset + k) (by simp)
      have e : (it.drop offset).take k = (((full.drop offset).take k).map some) := by
        rw [List.take_drop, this, ← List.map_take, ← List.map_drop, ← List.take_drop]
      simp only [e, hm, Option.bind_some, Option.pure_def, Option.some.injEq] at h
      rw [← h, slice, List.map_take, List.map_drop, List.length_map]

end

/-! ### The loop over the corpora, with an order of the results that may differ in each call -/

section
variable {C R : Type}

/-- A list as a corpus. -/
def listSingle (l : List R) (o : Nat) (k : Option Nat) : Option (List R × Nat) := some (slice l o k, min o l.length)

/-- One step of the loop, with the rest of it as a function. -/
def loopStep (offset : Nat) (limit : Option Nat) (cur : Nat) (res : List R) (p : List R × Nat) (rest : Nat → List R → Option (List R)) :
    Option (List R) :=
  let res' := match limit with
    | some k => if p.1.length ≤ k - res.length then res ++ p.1 else res ++ p.1.take (k - res.length)
    | none => res ++ p.1
  if limit = some res'.length then some res'
  else rest (if p.2 < offset then cur - p.2 else 0) res'

theorem findLoop_cons (single : C → Nat → Option Nat → Option (List R × Nat)) (offset : Nat) (limit : Option Nat) (c : C) (cs : List C)
    (cur : Nat) (res : List R) : findLoop single offset limit (c :: cs) cur res =
      (single c cur limit).bind fun p => loopStep offset limit cur res p (findLoop single offset limit cs) := rfl

theorem loopStep_cases {offset : Nat} {limit : Option Nat} {cur : Nat} {res : List R} {p : List R × Nat} {rest : Nat → List R → Option (List R)}
    {out : List R} (h : loopStep offset limit cur res p rest = some out) :
    (∀ rest', loopStep offset limit cur res p rest' = some out) ∨
    ∃ cur' res', rest cur' res' = some out ∧ ∀ rest', loopStep offset limit cur res p rest' = rest' cur' res' := by
  unfold loopStep at h ⊢
  generalize (match limit with
    | some k => if p.1.length ≤ k - res.length then res ++ p.1 else res ++ p.1.take (k - res.length)
    | none => res ++ p.1) = res' at h ⊢
  by_cases hl : limit = some res'.length
  · simp only [if_pos hl] at h ⊢
    exact .inl fun _ => h
  · simp only [if_neg hl] at h ⊢
    exact .inr ⟨_, _, h, fun _ => rfl⟩

theorem findLoop_perm (single : C → Nat → Option Nat → Option (List R × Nat)) (full : C → List R) (offset : Nat) (limit : Option Nat) :
    ∀ (cs : List C) (cur : Nat) (res out : List R),
      (∀ c ∈ cs, ∀ o k r, single c o k = some r → ∃ L, L.Perm (full c) ∧ r = (slice L o k, min o L.length)) →
      findLoop single offset limit cs cur res = some out →
      ∃ Ls, List.Forall₂ (fun c L => List.Perm L (full c)) cs Ls ∧ findLoop listSingle offset limit Ls cur res = some out := by
  intro cs
  induction cs with
  | nil => intro cur res out _ h; exact ⟨[], .nil, h⟩
  | cons c cs ih =>
    intro cur res out hp h
    rw [findLoop_cons] at h
    obtain ⟨r, hs, h⟩ := Option.bind_eq_some_iff.1 h
    obtain ⟨L, hL, rfl⟩ := hp c (by simp) _ _ _ hs
    rcases loopStep_cases h with h | ⟨cur', res', h1, h2⟩
    · refine ⟨L :: cs.map full, .cons hL ?_, ?_⟩
      · have self : ∀ l : List C, List.Forall₂ (fun c L => List.Perm L (full c)) l (l.map full) := by
          intro l
          induction l with
          | nil => exact .nil
          | cons c l ih => exact .cons (List.Perm.refl _) ih
        exact self cs
      · rw [findLoop_cons]
        exact h _
    · obtain ⟨Ls, h3, h4⟩ := ih _ _ _ (fun c hc => hp c (by simp [hc])) h1
      refine ⟨L :: Ls, .cons hL h3, ?_⟩
      rw [findLoop_cons]
      exact (h2 _).trans h4

theorem find_perm (single : C → Nat → Option Nat → Option (List R × Nat)) (full : C → List R) (cs : List C) (offset : Nat) (limit : Option Nat)
    (out : List R) (hp : ∀ c ∈ cs, ∀ o k r, single c o k = some r → ∃ L, L.Perm (full c) ∧ r = (slice L o k, min o L.length))
    (h : find single cs offset limit = some out) : ∃ L, L.Perm (cs.flatMap full) ∧ out = slice L offset limit := by
  have key : ∃ Ls : List (List R), List.Forall₂ (fun c L => List.Perm L (full c)) cs Ls ∧ find listSingle Ls offset limit = some out := by
    unfold find at h
    split at h
    · exact ⟨[], .nil, h⟩
    · rename_i c
      cases hs : single c offset limit with
      | none => simp [hs] at h
      | some r =>
        obtain ⟨L, hL, rfl⟩ := hp c (by simp) _ _ _ hs
        exact ⟨[L], .cons hL .nil, by simpa [hs, find, listSingle] using h⟩
    · rename_i hne1 hne2
      obtain ⟨Ls, h1, h2⟩ := findLoop_perm single full offset limit cs offset [] out hp h
      refine ⟨Ls, h1, ?_⟩
      cases h1 with
      | nil => exact absurd rfl hne1
      | cons ha ht =>
        cases ht with
        | nil => exact absurd rfl (hne2 _)
        | cons hb ht => exact h2
  obtain ⟨Ls, h1, h2⟩ := key
  have e := find_spec listSingle id Ls offset limit out (by intro L _ o k r hr; simpa [listSingle] using hr.symm) h2
  refine ⟨Ls.flatMap id, ?_, e⟩
  clear e h2 h hp
  induction h1 with
  | nil => exact List.Perm.refl _
  | cons ha _ ih => simpa using ha.append ih

end

/-! ### Columns -/

/-- Columns with equal items do not matter for the comparison. -/
theorem zipCmp_filter {α : Type} {cmp : α → α → Ordering} (hself : ∀ x, cmp x x = .eq) (mask : Nat → Bool) : ∀ (a b : List α) (k : Nat),
    a.length = b.length → (∀ (i : Nat) x y, mask (k + i) = false → a[i]? = some x → b[i]? = some y → x = y) →
    zipCmp cmp a b = zipCmp cmp (((a.zipIdx k).filter fun p => mask p.2).map Prod.fst) (((b.zipIdx k).filter fun p => mask p.2).map Prod.fst)
  | [], [], _, _, _ => rfl
  | [], _ :: _, _, h, _ => by simp at h
  | _ :: _, [], _, h, _ => by simp at h
  | x :: a, y :: b, k, h, hm => by
    have ih := zipCmp_filter hself mask a b (k + 1) (by simpa using h) (fun i u v h1 h2 h3 => hm (i + 1) u v (by rw [← h1]; congr 1; omega) h2 h3)
    have e : zipCmp cmp (x :: a) (y :: b) = (cmp x y).then (zipCmp cmp a b) := rfl
    rw [e, List.zipIdx_cons, List.zipIdx_cons]
    by_cases hk : mask k = true
    · rw [List.filter_cons_of_pos (by simpa using hk), List.filter_cons_of_pos (by simpa using hk), List.map_cons, List.map_cons, ih]
      rfl
    · rw [List.filter_cons_of_neg (by simpa using hk), List.filter_cons_of_neg (by simpa using hk), ← ih]
      have := hm 0 x y (by simpa using hk) rfl rfl
      subst this
      rw [hself]; rfl

theorem filter_zipIdx_length {α : Type} (mask : Nat → Bool) : ∀ (a b : List α) (k : Nat), a.length = b.length →
    ((a.zipIdx k).filter fun p => mask p.2).length = ((b.zipIdx k).filter fun p => mask p.2).length
  | [], [], _, _ => rfl
  | [], _ :: _, _, h => by simp at h
  | _ :: _, [], _, h => by simp at h
  | x :: a, y :: b, k, h => by
    have ih := filter_zipIdx_length mask a b (k + 1) (by simpa using h)
    rw [List.zipIdx_cons, List.zipIdx_cons]
    by_cases hk : mask k = true
    · rw [List.filter_cons_of_pos (by simpa using hk), List.filter_cons_of_pos (by simpa using hk), List.length_cons, List.length_cons, ih]
    · rw [List.filter_cons_of_neg (by simpa using hk), List.filter_cons_of_neg (by simpa using hk), ih]

/-- If two lists agree outside of the mask and inside of it, they are equal. -/
theorem eq_of_filter {α : Type} (mask : Nat → Bool) : ∀ (a b : List α) (k : Nat), a.length = b.length →
    (∀ (i : Nat) x y, mask (k + i) = false → a[i]? = some x → b[i]? = some y → x = y) →
    ((a.zipIdx k).filter fun p => mask p.2).map Prod.fst = ((b.zipIdx k).filter fun p => mask p.2).map Prod.fst → a = b
  | [], [], _, _, _, _ => rfl
  | [], _ :: _, _, h, _, _ => by simp at h
  | _ :: _, [], _, h, _, _ => by simp at h
  | x :: a, y :: b, k, h, hm, he => by
    have ih := eq_of_filter mask a b (k + 1) (by simpa using h) (fun i u v h1 h2 h3 => hm (i + 1) u v (by rw [← h1]; congr 1; omega) h2 h3)
    rw [List.zipIdx_cons, List.zipIdx_cons] at he
    by_cases hk : mask k = true
    · rw [List.filter_cons_of_pos (by simpa using hk), List.filter_cons_of_pos (by simpa using hk), List.map_cons, List.map_cons,
        List.cons.injEq] at he
      have e : x = y := he.1
      rw [e, ih he.2]
    · rw [List.filter_cons_of_neg (by simpa using hk), List.filter_cons_of_neg (by simpa using hk)] at he
      rw [hm 0 x y (by simpa using hk) rfl rfl, ih he]

theorem compareMatch_self {N K : Type} [LinearOrder N] [LinearOrder K] (E : SortEnv N) (x : SMatch N K) : compareMatch E x x = .eq := by
  simp [compareMatch]

end Answer
