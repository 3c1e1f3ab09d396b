import Verif.Aql.Spec
import Mathlib.Data.List.Forall2

set_option linter.unusedSimpArgs false
set_option linter.unusedVariables false

namespace Aql

variable {S O U : Type}

/-! ## Positions -/

/-- The map entry of a node search. -/
def Occ.entry (o : Occ S) : Nat × (S × Option (List Char) × Bool) := (o.pos, o.spec, o.vname, o.optional)

def Occ.ofEntry (e : Nat × (S × Option (List Char) × Bool)) : Occ S := ⟨e.1, e.2.1, e.2.2.1, e.2.2.2⟩

@[simp] theorem Occ.ofEntry_entry (o : Occ S) : Occ.ofEntry o.entry = o := rfl
@[simp] theorem Occ.entry_ofEntry (e : Nat × (S × Option (List Char) × Bool)) : (Occ.ofEntry e).entry = e := rfl

theorem addOperand_sorted (m : PosMap S) (x : Operand S) (h : OMap.Sorted m) : OMap.Sorted (addOperand m x) := by
  cases x with
  | ref r => exact h
  | lit spec pos v o =>
    simp only [addOperand]
    cases m.get pos with
    | some d => exact h
    | none => exact OMap.sorted_insert h _ _

theorem addOperand_get (m : PosMap S) (x : Operand S) (F : Nat → Option (S × Option (List Char) × Bool))
    (hm : ∀ p d, m.get p = some d → F p = some d) (hx : ∀ o ∈ x.occs, F o.pos = some (o.spec, o.vname, o.optional)) (p : Nat)
    (d : S × Option (List Char) × Bool) :
    (addOperand m x).get p = some d ↔ m.get p = some d ∨ (∃ o ∈ x.occs, o.entry = (p, d)) := by
  cases x with
  | ref r => simp [addOperand, Operand.occs]
  | lit spec pos v o =>
    simp only [Operand.occs, List.mem_singleton, forall_eq] at hx
    simp only [addOperand, Operand.occs, List.mem_singleton, exists_eq_left, Occ.entry, Prod.mk.injEq]
    cases hg : m.get pos with
    | some e =>
      have he := hm _ _ hg
      rw [hx] at he
      injection he with he
      constructor
      · exact .inl
      · rintro (h | ⟨rfl, h⟩)
        · exact h
        · dsimp only; rw [hg, ← he, h]
    | none =>
      dsimp only
      rw [OMap.get_insert]
      by_cases h : p = pos
      · subst h
        simp [hg, eq_comm]
      · simp [h, Ne.symm h, eq_comm]

theorem nodePositions_spec (quirks : Bool) (F : Nat → Option (S × Option (List Char) × Bool)) (c : List (Literal S O U)) :
    ∀ (m : PosMap S), OMap.Sorted m → (∀ p d, m.get p = some d → F p = some d) →
    (∀ l ∈ c, ∀ o ∈ l.occs, F o.pos = some (o.spec, o.vname, o.optional)) →
    (quirks = false → ∀ l ∈ c, l.isMeta = false) →
    ∃ m', nodePositions quirks c m = .ok m' ∧ OMap.Sorted m' ∧
      ∀ p d, m'.get p = some d ↔ m.get p = some d ∨ ∃ l ∈ c, ∃ o ∈ l.occs, o.entry = (p, d) := by
  induction c with
  | nil => intro m hs _ _ _; exact ⟨m, rfl, hs, by simp⟩
  | cons l r ih =>
    intro m hs hm hc hmeta
    have hr : ∀ l ∈ r, ∀ o ∈ l.occs, F o.pos = some (o.spec, o.vname, o.optional) := fun x hx => hc x (by simp [hx])
    have hmr : quirks = false → ∀ l ∈ r, l.isMeta = false := fun h x hx => hmeta h x (by simp [hx])
    have hl := hc l (by simp)
    cases l with
    | node spec pos v opt =>
      simp only [Literal.occs, List.mem_singleton, forall_eq] at hl
      have hm2 : ∀ p d, (m.insert pos (spec, v, opt)).get p = some d → F p = some d := by
        intro p d h
        rw [OMap.get_insert] at h
        by_cases hp : p = pos
        · rw [if_pos hp] at h; cases h; rw [hp, hl]
        · rw [if_neg hp] at h; exact hm _ _ h
      obtain ⟨m', h1, h2, h3⟩ := ih (m.insert pos (spec, v, opt)) (OMap.sorted_insert hs _ _) hm2 hr hmr
      refine ⟨m', h1, h2, fun p d => ?_⟩
      rw [h3, OMap.get_insert]
      simp only [List.mem_cons, exists_eq_or_imp, Literal.occs, List.not_mem_nil, or_false, exists_eq_left, Occ.entry, Prod.mk.injEq]
      rw [← or_assoc]
      refine or_congr ?_ Iff.rfl
      by_cases hp : p = pos
      · subst hp
        simp only [if_true, true_and, Option.some.injEq]
        constructor
        · exact .inr
        · rintro (h | h)
          · have := hm _ _ h; rw [hl] at this; exact Option.some.inj this
          · exact h
      · simp [hp, Ne.symm hp]
    | bin lhs op rhs neg =>
      simp only [Literal.occs, List.mem_append] at hl
      have g1 := addOperand_get m lhs F hm (fun o ho => hl o (.inl ho))
      have hm1 : ∀ p d, (addOperand m lhs).get p = some d → F p = some d := by
        intro p d h
        rcases (g1 p d).1 h with h | ⟨o, ho, e⟩
        · exact hm _ _ h
        · have := hl o (.inl ho)
          simp only [Occ.entry, Prod.mk.injEq] at e
          rw [← e.1, this, e.2]
      have g2 := addOperand_get (addOperand m lhs) rhs F hm1 (fun o ho => hl o (.inr ho))
      have hm2 : ∀ p d, (addOperand (addOperand m lhs) rhs).get p = some d → F p = some d := by
        intro p d h
        rcases (g2 p d).1 h with h | ⟨o, ho, e⟩
        · exact hm1 _ _ h
        · have := hl o (.inr ho)
          simp only [Occ.entry, Prod.mk.injEq] at e
          rw [← e.1, this, e.2]
      obtain ⟨m', h1, h2, h3⟩ := ih (addOperand (addOperand m lhs) rhs) (addOperand_sorted _ _ (addOperand_sorted _ _ hs)) hm2 hr hmr
      refine ⟨m', h1, h2, fun p d => ?_⟩
      rw [h3, g2, g1]
      constructor
      · rintro (((h | ⟨o, ho, e⟩) | ⟨o, ho, e⟩) | ⟨l, hl', o, ho, e⟩)
        · exact .inl h
        · exact .inr ⟨_, List.mem_cons_self, o, List.mem_append_left _ ho, e⟩
        · exact .inr ⟨_, List.mem_cons_self, o, List.mem_append_right _ ho, e⟩
        · exact .inr ⟨l, List.mem_cons_of_mem _ hl', o, ho, e⟩
      · rintro (h | ⟨l, hl', o, ho, e⟩)
        · exact .inl (.inl (.inl h))
        · rcases List.mem_cons.1 hl' with rfl | hl'
          · rcases List.mem_append.1 ho with ho | ho
            · exact .inl (.inl (.inr ⟨o, ho, e⟩))
            · exact .inl (.inr ⟨o, ho, e⟩)
          · exact .inr ⟨l, hl', o, ho, e⟩
    | un r u =>
      obtain ⟨m', h1, h2, h3⟩ := ih m hs hm hr hmr
      refine ⟨m', h1, h2, fun p d => ?_⟩
      rw [h3]; simp [Literal.occs]
    | legacyMeta s =>
      have hq : quirks = true := by
        cases quirks with
        | true => rfl
        | false => have := hmeta rfl (.legacyMeta s) (by simp); simp [Literal.isMeta] at this
      subst hq
      obtain ⟨m', h1, h2, h3⟩ := ih m hs hm hr hmr
      refine ⟨m', by simpa [nodePositions] using h1, h2, fun p d => ?_⟩
      rw [h3]; simp [Literal.occs]

theorem nodePositions_meta (c : List (Literal S O U)) : ∀ (m m' : PosMap S), nodePositions false c m = .ok m' → ∀ l ∈ c, l.isMeta = false := by
  induction c with
  | nil => intro m m' _ l hl; simp at hl
  | cons x r ih =>
    intro m m' h l hl
    rcases List.mem_cons.1 hl with rfl | hl'
    · cases l with
      | legacyMeta s => simp [nodePositions] at h
      | _ => rfl
    · cases x with
      | legacyMeta s => simp [nodePositions] at h
      | node spec pos v opt => exact ih _ _ (by simpa only [nodePositions] using h) l hl'
      | bin lhs op rhs neg => exact ih _ _ (by simpa only [nodePositions] using h) l hl'
      | un r' u => exact ih _ _ (by simpa only [nodePositions] using h) l hl'

/-- The list of node searches is determined by the conjunction. -/
theorem IsNodeList.unique {c : List (Literal S O U)} {L L' : List (Occ S)} (h : IsNodeList c L) (h' : IsNodeList c L') : L = L' := by
  have e : ∀ o, o ∈ L ↔ o ∈ L' := fun o => by rw [h.mem, h'.mem]
  have s1 := h.sorted
  have s2 := h'.sorted
  clear h h'
  induction L generalizing L' with
  | nil =>
    cases L' with
    | nil => rfl
    | cons b t => exact absurd ((e b).2 (by simp)) (by simp)
  | cons a t ih =>
    cases L' with
    | nil => exact absurd ((e a).1 (by simp)) (by simp)
    | cons b t' =>
      rw [List.pairwise_cons] at s1 s2
      have hab : a = b := by
        rcases List.mem_cons.1 ((e a).1 (by simp)) with h | h
        · exact h
        · rcases List.mem_cons.1 ((e b).2 (by simp)) with h' | h'
          · exact h'.symm
          · have := s2.1 a h; have := s1.1 b h'; omega
      subst hab
      rw [ih (L' := t') ?_ s1.2 s2.2]
      intro o
      constructor
      · intro ho
        rcases List.mem_cons.1 ((e o).1 (by simp [ho])) with h | h
        · subst h; have := s1.1 o ho; omega
        · exact h
      · intro ho
        rcases List.mem_cons.1 ((e o).2 (by simp [ho])) with h | h
        · subst h; have := s2.1 o ho; omega
        · exact h

theorem pos_inj {L : List (Occ S)} (hs : L.Pairwise fun a b => a.pos < b.pos) {i j : Nat} {a b : Occ S} (hi : L[i]? = some a)
    (hj : L[j]? = some b) (h : a.pos = b.pos) : i = j := by
  rw [List.pairwise_iff_getElem] at hs
  obtain ⟨hi', rfl⟩ := List.getElem?_eq_some_iff.1 hi
  obtain ⟨hj', rfl⟩ := List.getElem?_eq_some_iff.1 hj
  rcases Nat.lt_trichotomy i j with hlt | heq | hgt
  · have := hs i j hi' hj' hlt; omega
  · exact heq
  · have := hs j i hj' hi' hgt; omega

/-- The positions found are those of the node list. -/
theorem nodePositions_list (quirks : Bool) (c : List (Literal S O U)) (L : List (Occ S)) (hL : IsNodeList c L)
    (hmeta : quirks = false → ∀ l ∈ c, l.isMeta = false) : nodePositions quirks c [] = .ok (L.map Occ.entry) := by
  let F : Nat → Option (S × Option (List Char) × Bool) := fun p => OMap.get (L.map Occ.entry) p
  have hsL : OMap.Sorted (L.map Occ.entry) := by
    unfold OMap.Sorted
    rw [List.pairwise_map]
    exact hL.sorted
  obtain ⟨m', h1, h2, h3⟩ := nodePositions_spec quirks F c [] OMap.sorted_nil (by simp) (by
    intro l hl o ho
    apply OMap.get_of_mem hsL
    exact List.mem_map.2 ⟨o, (hL.mem o).2 ⟨l, hl, ho⟩, rfl⟩) hmeta
  rw [h1]
  congr 1
  apply OMap.ext h2 hsL
  intro k
  apply Option.ext
  intro d
  rw [h3, ← OMap.mem_iff_get hsL]
  simp only [OMap.get_nil, reduceCtorEq, false_or, List.mem_map, hL.mem]
  constructor
  · rintro ⟨l, hl, o, ho, e⟩; exact ⟨o, ⟨l, hl, ho⟩, e⟩
  · rintro ⟨o, ⟨l, hl, ho⟩, e⟩; exact ⟨l, hl, o, ho, e⟩

/-- Searches at the same position are the same. -/
def Consistent (c : List (Literal S O U)) : Prop :=
  ∀ l ∈ c, ∀ l' ∈ c, ∀ o ∈ l.occs, ∀ o' ∈ l'.occs, o.pos = o'.pos → o = o'

theorem nodePositions_quirks (c : List (Literal S O U)) : ∀ (m : PosMap S), ∃ m', nodePositions true c m = .ok m' := by
  induction c with
  | nil => exact fun m => ⟨m, rfl⟩
  | cons l r ih =>
    intro m
    cases l <;> simp only [nodePositions, if_true] <;> exact ih _

theorem exists_nodeList (c : List (Literal S O U)) (h : Consistent c) : ∃ L, IsNodeList c L := by
  classical
  let F : Nat → Option (S × Option (List Char) × Bool) := fun p =>
    if hp : ∃ o : Occ S, (∃ l ∈ c, o ∈ l.occs) ∧ o.pos = p then some (hp.choose.spec, hp.choose.vname, hp.choose.optional) else none
  obtain ⟨m', h1, h2, h3⟩ := nodePositions_spec true F c [] OMap.sorted_nil (by simp) (by
    intro l hl o ho
    have hp : ∃ o' : Occ S, (∃ l ∈ c, o' ∈ l.occs) ∧ o'.pos = o.pos := ⟨o, ⟨l, hl, ho⟩, rfl⟩
    simp only [F, dif_pos hp]
    obtain ⟨⟨l', hl', ho'⟩, e⟩ := hp.choose_spec
    rw [h l' hl' l hl _ ho' o ho e]) (by simp)
  refine ⟨m'.map Occ.ofEntry, ?_, ?_⟩
  · rw [List.pairwise_map]; exact h2
  · intro o
    simp only [List.mem_map]
    constructor
    · rintro ⟨e, he, rfl⟩
      have := (OMap.mem_iff_get h2 (k := e.1) (v := e.2)).1 he
      rw [h3] at this
      simp only [OMap.get_nil, reduceCtorEq, false_or] at this
      obtain ⟨l, hl, o, ho, e'⟩ := this
      refine ⟨l, hl, ?_⟩
      have : Occ.ofEntry e = o := by rw [← Occ.ofEntry_entry o, e']
      rw [this]; exact ho
    · rintro ⟨l, hl, ho⟩
      refine ⟨o.entry, ?_, rfl⟩
      exact OMap.mem_of_get ((h3 _ _).2 (.inr ⟨l, hl, o, ho, rfl⟩))

/-! ## Adding the nodes -/

/-- Different nodes have different variables. -/
theorem varOf_inj {offset : Nat} {L : List (Occ S)} (hn : NamesDistinct L) {i j : Nat} {a b : Occ S} (hi : L[i]? = some a)
    (hj : L[j]? = some b) (h : varOf offset i a.vname = varOf offset j b.vname) : i = j := by
  cases ha : a.vname with
  | none =>
    cases hb : b.vname with
    | none => rw [ha, hb] at h; simp only [varOf, Var.num.injEq] at h; omega
    | some t => rw [ha, hb] at h; simp [varOf] at h
  | some s =>
    cases hb : b.vname with
    | none => rw [ha, hb] at h; simp [varOf] at h
    | some t =>
      rw [ha, hb] at h
      simp only [varOf, Var.name.injEq] at h
      subst h
      unfold NamesDistinct at hn
      induction L generalizing i j with
      | nil => simp at hi
      | cons x r ih =>
        have hnr : (r.filterMap Occ.vname).Nodup := by
          rw [List.filterMap_cons] at hn
          split at hn
          · exact hn
          · exact (List.nodup_cons.1 hn).2
        have key : ∀ (k : Nat) (y : Occ S), r[k]? = some y → y.vname = some s → x.vname = some s → False := by
          intro k y hk hy hx
          rw [List.filterMap_cons, hx] at hn
          refine (List.nodup_cons.1 hn).1 ?_
          exact List.mem_filterMap.2 ⟨y, List.mem_of_getElem? hk, hy⟩
        cases i with
        | zero =>
          cases j with
          | zero => rfl
          | succ j =>
            simp only [List.getElem?_cons_zero, Option.some.injEq] at hi
            simp only [List.getElem?_cons_succ] at hj
            subst hi
            exact (key j b hj hb ha).elim
        | succ i =>
          cases j with
          | zero =>
            simp only [List.getElem?_cons_zero, Option.some.injEq] at hj
            simp only [List.getElem?_cons_succ] at hi
            subst hj
            exact (key i a hi ha hb).elim
          | succ j =>
            simp only [List.getElem?_cons_succ] at hi hj
            rw [ih hnr hi hj]

/-- The state after the nodes were added. -/
structure Nodes (offset : Nat) (L : List (Occ S)) (q : Conj S O U) : Prop where
  offset_eq : q.offset = offset
  nodes : q.nodes = L.mapIdx fun i o => ⟨varOf offset i o.vname, o.spec, o.optional⟩
  vars : ∀ v p, q.vars v = some p ↔ ∃ o, L[p]? = some o ∧ v = varOf offset p o.vname
  out : ∀ v, v ∈ q.out ↔ ∃ p o, L[p]? = some o ∧ v = varOf offset p o.vname ∧ o.optional = false

def IdsOk (offset : Nat) (L : List (Occ S)) (ids : OMap Nat Var) : Prop :=
  ∀ p v, ids.get p = some v ↔ ∃ i o, L[i]? = some o ∧ o.pos = p ∧ v = varOf offset i o.vname

theorem getElem?_snoc {A : Type} (l : List A) (a b : A) (p : Nat) :
    (l ++ [a])[p]? = some b ↔ l[p]? = some b ∨ (p = l.length ∧ a = b) := by
  rw [List.getElem?_append]
  split
  · rename_i h; constructor
    · exact .inl
    · rintro (h' | h')
      · exact h'
      · omega
  · rename_i h
    rw [List.getElem?_eq_none (by omega : l.length ≤ p)]
    by_cases hp : p = l.length
    · subst hp; simp
    · have : (p - l.length) ≠ 0 := by omega
      simp [List.getElem?_singleton, this, hp]

theorem addNodes_spec (offset : Nat) (rest : List (Occ S)) : ∀ (L0 : List (Occ S)) (q : Conj S O U) (ids : OMap Nat Var),
    NamesDistinct (L0 ++ rest) → (L0 ++ rest).Pairwise (fun a b => a.pos < b.pos) → Nodes offset L0 q → IdsOk offset L0 ids →
    OMap.Sorted ids →
    Nodes offset (L0 ++ rest) (addNodes (rest.map Occ.entry) q ids).1 ∧
    IdsOk offset (L0 ++ rest) (addNodes (rest.map Occ.entry) q ids).2 ∧
    OMap.Sorted (addNodes (rest.map Occ.entry) q ids).2 ∧
    (addNodes (rest.map Occ.entry) q ids).1.bins = q.bins ∧ (addNodes (rest.map Occ.entry) q ids).1.uns = q.uns := by
  induction rest with
  | nil => intro L0 q ids _ _ h1 h2 h3; simpa [addNodes] using ⟨h1, h2, h3⟩
  | cons o r ih =>
    intro L0 q ids hn hs h1 h2 h3
    have hlen : q.nodes.length = L0.length := by rw [h1.nodes]; simp
    have hL : L0 ++ o :: r = (L0 ++ [o]) ++ r := by simp
    have hn' := hn; have hs' := hs
    rw [hL] at hn' hs'
    have hn0 : NamesDistinct (L0 ++ [o]) := by
      unfold NamesDistinct at hn' ⊢
      rw [List.filterMap_append] at hn'
      exact (List.nodup_append.1 hn').1
    have hs0 : (L0 ++ [o]).Pairwise (fun a b => a.pos < b.pos) := (List.pairwise_append.1 hs').1
    have hv : (q.addNode o.spec o.vname true o.optional).2 = varOf offset L0.length o.vname := by
      simp only [Conj.addNode, hlen, h1.offset_eq]
      cases o.vname <;> rfl
    have hq : Nodes offset (L0 ++ [o]) (q.addNode o.spec o.vname true o.optional).1 := by
      have hv' := hv
      simp only [Conj.addNode] at hv'
      refine ⟨h1.offset_eq, ?_, ?_, ?_⟩
      · simp only [Conj.addNode]
        rw [hv', h1.nodes, List.mapIdx_append]
        simp
      · intro v p
        simp only [Conj.addNode]
        rw [hv', Function.update_apply, hlen]
        by_cases e : v = varOf offset L0.length o.vname
        · rw [if_pos e]
          constructor
          · intro hp; cases hp
            exact ⟨o, by simp, e⟩
          · rintro ⟨o', ho', e'⟩
            have := varOf_inj (offset := offset) hn0 ho' (by simp : (L0 ++ [o])[L0.length]? = some o) (by rw [← e', e])
            rw [this]
        · rw [if_neg e, h1.vars]
          constructor
          · rintro ⟨o', ho', e'⟩
            exact ⟨o', (getElem?_snoc _ _ _ _).2 (.inl ho'), e'⟩
          · rintro ⟨o', ho', e'⟩
            rcases (getElem?_snoc _ _ _ _).1 ho' with h | ⟨rfl, rfl⟩
            · exact ⟨o', h, e'⟩
            · exact absurd e' e
      · intro v
        simp only [Conj.addNode, Bool.true_and]
        rw [hv']
        constructor
        · intro h
          by_cases ho : o.optional = true
          · rw [ho] at h
            obtain ⟨p, o', ho', e⟩ := (h1.out v).1 h
            exact ⟨p, o', (getElem?_snoc _ _ _ _).2 (.inl ho'), e⟩
          · simp only [Bool.not_eq_true] at ho
            rw [ho] at h
            rcases List.mem_cons.1 h with h | h
            · exact ⟨L0.length, o, by simp, h, ho⟩
            · obtain ⟨p, o', ho', e⟩ := (h1.out v).1 h
              exact ⟨p, o', (getElem?_snoc _ _ _ _).2 (.inl ho'), e⟩
        · rintro ⟨p, o', ho', e, hopt⟩
          rcases (getElem?_snoc _ _ _ _).1 ho' with h | ⟨rfl, rfl⟩
          · have := (h1.out v).2 ⟨p, o', h, e, hopt⟩
            split
            · exact List.mem_cons_of_mem _ this
            · exact this
          · simp [hopt, e]
    have hids : IdsOk offset (L0 ++ [o]) (ids.insert o.pos (varOf offset L0.length o.vname)) := by
      intro p v
      rw [OMap.get_insert]
      by_cases e : p = o.pos
      · subst e
        rw [if_pos rfl]
        constructor
        · intro h; cases h
          exact ⟨L0.length, o, by simp, rfl, rfl⟩
        · rintro ⟨i, o', ho', e1, e2⟩
          have := pos_inj hs0 ho' (by simp : (L0 ++ [o])[L0.length]? = some o) e1
          subst this
          have : o = o' := by simpa using ho'
          rw [e2, this]
      · rw [if_neg e, h2]
        constructor
        · rintro ⟨i, o', ho', e1, e2⟩
          exact ⟨i, o', (getElem?_snoc _ _ _ _).2 (.inl ho'), e1, e2⟩
        · rintro ⟨i, o', ho', e1, e2⟩
          rcases (getElem?_snoc _ _ _ _).1 ho' with h | ⟨rfl, rfl⟩
          · exact ⟨i, o', h, e1, e2⟩
          · exact absurd e1.symm e
    have := ih (L0 ++ [o]) (q.addNode o.spec o.vname true o.optional).1 (ids.insert o.pos (varOf offset L0.length o.vname)) hn' hs' hq
      hids (OMap.sorted_insert h3 _ _)
    rw [← hL] at this
    have e : addNodes ((o :: r).map Occ.entry) q ids =
        addNodes (r.map Occ.entry) (q.addNode o.spec o.vname true o.optional).1 (ids.insert o.pos (varOf offset L0.length o.vname)) := by
      rw [← hv]; rfl
    rw [e]
    refine ⟨this.1, this.2.1, this.2.2.1, ?_, ?_⟩
    · rw [this.2.2.2.1]; rfl
    · rw [this.2.2.2.2]; rfl

theorem addNodes_list (offset : Nat) (L : List (Occ S)) (hn : NamesDistinct L) (hs : L.Pairwise (fun a b => a.pos < b.pos)) :
    Nodes offset L (addNodes (L.map Occ.entry) (Conj.empty offset : Conj S O U) []).1 ∧
    IdsOk offset L (addNodes (L.map Occ.entry) (Conj.empty offset : Conj S O U) []).2 ∧
    OMap.Sorted (addNodes (L.map Occ.entry) (Conj.empty offset : Conj S O U) []).2 ∧
    (addNodes (L.map Occ.entry) (Conj.empty offset : Conj S O U) []).1.bins = [] ∧
    (addNodes (L.map Occ.entry) (Conj.empty offset : Conj S O U) []).1.uns = [] := by
  have := addNodes_spec (O := O) (U := U) offset L [] (Conj.empty offset) [] hn hs
    ⟨rfl, rfl, by simp [Conj.empty], by simp [Conj.empty]⟩ (by intro p v; simp) OMap.sorted_nil
  rw [List.nil_append] at this
  exact this

/-! ## References -/

theorem ref_var {offset : Nat} {L : List (Occ S)} {r : Ref} {i : Nat} :
    DenotesRef offset L r i ↔ ∃ o, L[i]? = some o ∧ r.var = varOf offset i o.vname := by
  unfold DenotesRef
  refine exists_congr fun o => and_congr Iff.rfl ?_
  cases r with
  | id n =>
    simp only [Ref.var]
    cases o.vname <;> simp [varOf]
  | name s =>
    simp only [Ref.var]
    cases o.vname <;> simp [varOf, eq_comm]

theorem Nodes.setOps {offset : Nat} {L : List (Occ S)} {q : Conj S O U} (h : Nodes offset L q) (b : List (BinEntry S O))
    (u : List (UnEntry S O U)) : Nodes offset L { q with bins := b, uns := u } :=
  ⟨h.offset_eq, h.nodes, h.vars, h.out⟩

theorem addUnaries_spec (offset : Nat) (L : List (Occ S)) (c : List (Literal S O U)) : ∀ (q : Conj S O U), Nodes offset L q →
    ((∃ q', addUnaries c q = .ok q') ↔ ∀ l ∈ c, l.isUn = true → ∃ u, UnEffect offset L l u) ∧
    (∀ q', addUnaries c q = .ok q' → ∃ us, List.Forall₂ (UnEffect offset L) (c.filter Literal.isUn) us ∧
      q' = { q with uns := q.uns ++ us }) := by
  induction c with
  | nil => intro q hq; exact ⟨by simp [addUnaries], by simp [addUnaries]⟩
  | cons l r ih =>
    intro q hq
    by_cases hl : l.isUn = true
    · cases l with
      | un rf u =>
        simp only [addUnaries, Conj.addUnary]
        cases hv : q.vars rf.var with
        | none =>
          have hno : ¬ ∃ x, UnEffect (O := O) offset L (.un rf u) x := by
            rintro ⟨x, hx⟩
            cases hx with
            | mk h =>
              rw [ref_var] at h
              have := (hq.vars _ _).2 h
              rw [hv] at this; cases this
          refine ⟨?_, by simp⟩
          constructor
          · rintro ⟨q', h⟩; simp at h
          · intro h
            exact absurd (h (.un rf u) (by simp) rfl) hno
        | some p =>
          dsimp only
          have hden : DenotesRef offset L rf p := ref_var.2 ((hq.vars _ _).1 hv)
          have hq' := hq.setOps q.bins (q.uns ++ [⟨.user u, p⟩])
          obtain ⟨i1, i2⟩ := ih _ hq'
          constructor
          · rw [i1]
            constructor
            · intro h x hx hux
              rcases List.mem_cons.1 hx with rfl | hx
              · exact ⟨_, .mk hden⟩
              · exact h x hx hux
            · intro h x hx hux
              exact h x (by simp [hx]) hux
          · intro q' h
            obtain ⟨us, h1, h2⟩ := i2 q' h
            refine ⟨⟨.user u, p⟩ :: us, ?_, ?_⟩
            · rw [List.filter_cons_of_pos hl]
              exact .cons (.mk hden) h1
            · rw [h2]; simp
      | _ => simp [Literal.isUn] at hl
    · have e : addUnaries (l :: r) q = addUnaries r q := by
        cases l with
        | un rf u => simp [Literal.isUn] at hl
        | _ => rfl
      rw [e, List.filter_cons_of_neg hl]
      obtain ⟨i1, i2⟩ := ih q hq
      refine ⟨?_, i2⟩
      rw [i1]
      constructor
      · intro h x hx hux
        rcases List.mem_cons.1 hx with rfl | hx
        · exact absurd hux hl
        · exact h x hx hux
      · intro h x hx hux
        exact h x (by simp [hx]) hux

/-! ## Binary operators -/

/-- The variable of an operand is that of the node it means, and there is no new node. -/
theorem operandVar_spec {offset : Nat} {L : List (Occ S)} {q : Conj S O U} {ids : OMap Nat Var} (hq : Nodes offset L q)
    (hn : NamesDistinct L) (hs : L.Pairwise fun a b => a.pos < b.pos)
    (hi : IdsOk offset L ids) (x : Operand S) (hx : ∀ o ∈ x.occs, o ∈ L) :
    ∃ v, operandVar q ids x = (q, ids, v) ∧ ∀ i, q.vars v = some i ↔ Denotes offset L x i := by
  cases x with
  | ref r => exact ⟨r.var, rfl, fun i => by rw [hq.vars, Denotes, ref_var]⟩
  | lit spec pos vn opt =>
    obtain ⟨i, hi'⟩ := List.mem_iff_getElem?.1 (hx ⟨pos, spec, vn, opt⟩ (by simp [Operand.occs]))
    have hg : ids.get pos = some (varOf offset i vn) := (hi _ _).2 ⟨i, _, hi', rfl, rfl⟩
    refine ⟨varOf offset i vn, by simp only [operandVar, hg], fun j => ?_⟩
    rw [hq.vars, Denotes]
    constructor
    · rintro ⟨o, ho, e⟩
      have := varOf_inj hn hi' ho e
      subst this
      rw [hi'] at ho
      cases ho
      exact ⟨_, hi', rfl⟩
    · rintro ⟨o, ho, e⟩
      have := pos_inj hs hi' ho e.symm
      subst this
      rw [hi'] at ho
      cases ho
      exact ⟨_, hi', rfl⟩

theorem resolve_spec {offset : Nat} {L : List (Occ S)} {q : Conj S O U} (hq : Nodes offset L q) (v : Var) :
    (q.vars v = none ∧ q.resolve v = .error (.notFound v)) ∨
    ∃ i o, q.vars v = some i ∧ L[i]? = some o ∧ v = varOf offset i o.vname ∧
      q.resolvePos v = .ok (offset + i) ∧
      q.resolve v = .ok ⟨varOf offset i o.vname, o.spec, o.optional⟩ := by
  cases hv : q.vars v with
  | none => exact .inl ⟨rfl, by simp [Conj.resolve, Conj.resolvePos, hv]⟩
  | some i =>
    obtain ⟨o, ho, e⟩ := (hq.vars _ _).1 hv
    refine .inr ⟨i, o, rfl, ho, e, ?_, ?_⟩
    · simp [Conj.resolvePos, hv, hq.offset_eq, Nat.add_comm]
    · simp [Conj.resolve, Conj.resolvePos, hv, hq.offset_eq, hq.nodes, ho]

theorem opUsed_iff {quirks : Bool} {op op' : BinSpec O} : OpUsed quirks op op' ↔ op' = if quirks then quirksOp op else op := by
  constructor
  · intro h
    cases h <;> simp_all [quirksOp]
  · intro h
    subst h
    cases quirks with
    | false => exact .normal _ rfl
    | true =>
      cases op with
      | join o => exact .join o rfl
      | other o => exact .other o rfl
      | dist o r =>
        cases r with
        | bound a b => exact .bounded o a b rfl
        | unbound => exact .limited o rfl

theorem denotes_unique {offset : Nat} {L : List (Occ S)} (hn : NamesDistinct L) (hs : L.Pairwise fun a b => a.pos < b.pos)
    {x : Operand S} {i j : Nat} (hi : Denotes offset L x i) (hj : Denotes offset L x j) : i = j := by
  cases x with
  | ref r =>
    rw [Denotes, ref_var] at hi hj
    obtain ⟨a, ha, e1⟩ := hi
    obtain ⟨b, hb, e2⟩ := hj
    exact varOf_inj hn ha hb (by rw [← e1, e2])
  | lit s p v o =>
    obtain ⟨a, ha, e1⟩ := hi
    obtain ⟨b, hb, e2⟩ := hj
    exact pos_inj hs ha hb (by rw [e1, e2])

/-- What one binary operator gives. -/
def applyEffect (q : Conj S O U) : BinEntry S O ⊕ UnEntry S O U → Conj S O U
  | .inl b => { q with bins := q.bins ++ [b] }
  | .inr u => { q with uns := q.uns ++ [u] }

theorem addBinary_spec {offset : Nat} {L : List (Occ S)} {q : Conj S O U} (hq : Nodes offset L q) (hn : NamesDistinct L)
    (hs : L.Pairwise fun a b => a.pos < b.pos) (quirks : Bool) (lhs rhs : Operand S) (op : BinSpec O) (neg : Bool) (l r : Var) (i j : Nat)
    (a b : Occ S) (hl : Denotes offset L lhs i) (hr : Denotes offset L rhs j) (ha : L[i]? = some a) (hb : L[j]? = some b)
    (el : l = varOf offset i a.vname) (er : r = varOf offset j b.vname) :
    ((∃ q', addBinary q (if quirks then quirksOp op else op) neg quirks l r ⟨varOf offset i a.vname, a.spec, a.optional⟩
        ⟨varOf offset j b.vname, b.spec, b.optional⟩ = .ok q') ↔ ∃ e, Effect (U := U) quirks offset L (.bin lhs op rhs neg) e) ∧
    ∀ q', addBinary q (if quirks then quirksOp op else op) neg quirks l r ⟨varOf offset i a.vname, a.spec, a.optional⟩
        ⟨varOf offset j b.vname, b.spec, b.optional⟩ = .ok q' →
      ∃ e, Effect quirks offset L (.bin lhs op rhs neg) e ∧ q' = applyEffect q e := by
  have vl : q.vars l = some i := (hq.vars _ _).2 ⟨a, ha, el⟩
  have vr : q.vars r = some j := (hq.vars _ _).2 ⟨b, hb, er⟩
  have pl : q.resolvePos l = .ok (offset + i) := by simp [Conj.resolvePos, vl, hq.offset_eq, Nat.add_comm]
  have pr : q.resolvePos r = .ok (offset + j) := by simp [Conj.resolvePos, vr, hq.offset_eq, Nat.add_comm]
  have hu := opUsed_iff (quirks := quirks) (op := op) (op' := if quirks then quirksOp op else op) |>.2 rfl
  -- an operator that needs other flags has no effect
  have noEff : (∀ e, ¬ Effect (U := U) quirks offset L (.bin lhs op rhs neg) e) ∨
      ∃ q' e, addBinary q (if quirks then quirksOp op else op) neg quirks l r ⟨varOf offset i a.vname, a.spec, a.optional⟩
        ⟨varOf offset j b.vname, b.spec, b.optional⟩ = .ok q' ∧ Effect quirks offset L (.bin lhs op rhs neg) e ∧ q' = applyEffect q e := by
    have opts : ∀ {e}, Effect (U := U) quirks offset L (.bin lhs op rhs neg) e →
        (neg = false → a.optional = false ∧ b.optional = false) ∧ (neg = true → ¬ (a.optional = true ∧ b.optional = true)) := by
      intro e he
      have fin : ∀ {i' j' a' b'}, Denotes offset L lhs i' → Denotes offset L rhs j' → L[i']? = some a' → L[j']? = some b' →
          a' = a ∧ b' = b := by
        intro i' j' a' b' h1 h2 h3 h4
        have x1 := denotes_unique hn hs hl h1
        have x2 := denotes_unique hn hs hr h2
        subst x1; subst x2
        rw [ha] at h3; rw [hb] at h4; cases h3; cases h4; exact ⟨rfl, rfl⟩
      cases he with
      | plain h1 h2 h3 h4 h5 h6 h7 => obtain ⟨rfl, rfl⟩ := fin h1 h2 h3 h4; simp [h5, h6]
      | negated h1 h2 h3 h4 h5 h6 h7 => obtain ⟨rfl, rfl⟩ := fin h1 h2 h3 h4; simp [h5, h6]
      | leftMissing h1 h2 h3 h4 h5 h6 h7 => obtain ⟨rfl, rfl⟩ := fin h1 h2 h3 h4; simp [h5, h6]
      | rightMissing h1 h2 h3 h4 h5 h6 h7 => obtain ⟨rfl, rfl⟩ := fin h1 h2 h3 h4; simp [h5, h6]
    cases neg with
    | false =>
      cases hao : a.optional with
      | true => exact .inl fun e he => by have := (opts he).1 rfl; simp [hao] at this
      | false =>
        cases hbo : b.optional with
        | true => exact .inl fun e he => by have := (opts he).1 rfl; simp [hbo] at this
        | false =>
          refine .inr ⟨_, _, ?_, .plain hl hr ha hb hao hbo hu, rfl⟩
          simp [addBinary, Conj.addOperator, pl, pr, applyEffect]
    | true =>
      cases hao : a.optional with
      | true =>
        cases hbo : b.optional with
        | true => exact .inl fun e he => (opts he).2 rfl ⟨hao, hbo⟩
        | false =>
          refine .inr ⟨_, _, ?_, .leftMissing hl hr ha hb hao hbo hu, rfl⟩
          rw [er] at vr
          simp [addBinary, Conj.addUnary, vr, applyEffect]
      | false =>
        cases hbo : b.optional with
        | true =>
          refine .inr ⟨_, _, ?_, .rightMissing hl hr ha hb hao hbo hu, rfl⟩
          rw [el] at vl
          simp [addBinary, Conj.addUnary, vl, applyEffect]
        | false =>
          refine .inr ⟨_, _, ?_, .negated hl hr ha hb hao hbo hu, rfl⟩
          simp [addBinary, Conj.addOperator, pl, pr, applyEffect]
  rcases noEff with h | ⟨q', e, h1, h2, h3⟩
  · have hno : ∀ q', addBinary q (if quirks then quirksOp op else op) neg quirks l r ⟨varOf offset i a.vname, a.spec, a.optional⟩
        ⟨varOf offset j b.vname, b.spec, b.optional⟩ ≠ .ok q' := by
      intro q' hq'
      cases neg with
      | false =>
        cases hao : a.optional with
        | true => simp [addBinary, hao] at hq'
        | false =>
          cases hbo : b.optional with
          | true => simp [addBinary, hao, hbo] at hq'
          | false => exact h _ (.plain hl hr ha hb hao hbo hu)
      | true =>
        cases hao : a.optional with
        | true =>
          cases hbo : b.optional with
          | true => simp [addBinary, hao, hbo] at hq'
          | false => exact h _ (.leftMissing hl hr ha hb hao hbo hu)
        | false =>
          cases hbo : b.optional with
          | true => exact h _ (.rightMissing hl hr ha hb hao hbo hu)
          | false => exact h _ (.negated hl hr ha hb hao hbo hu)
    exact ⟨⟨fun ⟨q', hq'⟩ => absurd hq' (hno q'), fun ⟨e, he⟩ => absurd he (h e)⟩, fun q' hq' => absurd hq' (hno q')⟩
  · refine ⟨⟨fun _ => ⟨e, h2⟩, fun _ => ⟨q', h1⟩⟩, fun q'' hq'' => ?_⟩
    rw [h1] at hq''
    cases hq''
    exact ⟨e, h2, h3⟩

theorem applyEffect_nodes {offset : Nat} {L : List (Occ S)} {q : Conj S O U} (h : Nodes offset L q) (e : BinEntry S O ⊕ UnEntry S O U) :
    Nodes offset L (applyEffect q e) := by
  cases e <;> exact ⟨h.offset_eq, h.nodes, h.vars, h.out⟩

theorem foldl_applyEffect (es : List (BinEntry S O ⊕ UnEntry S O U)) : ∀ (q : Conj S O U),
    es.foldl applyEffect q = { q with bins := q.bins ++ es.filterMap Sum.getLeft?, uns := q.uns ++ es.filterMap Sum.getRight? } := by
  induction es with
  | nil => intro q; simp
  | cons e r ih =>
    intro q
    rw [List.foldl_cons, ih]
    cases e with
    | inl b => simp [applyEffect, List.filterMap_cons]
    | inr u => simp [applyEffect, List.filterMap_cons]

theorem joinsOf_cons (offset : Nat) (L : List (Occ S)) (i : Nat) (l : Literal S O U) (c : List (Literal S O U)) :
    joinsOf offset L i (l :: c) = joinsOf offset L i [l] + joinsOf offset L i c := by
  simp [joinsOf]

theorem addBinaries_spec (quirks : Bool) (offset : Nat) (L : List (Occ S)) (hn : NamesDistinct L)
    (hs : L.Pairwise fun a b => a.pos < b.pos) (ids : OMap Nat Var) (hi : IdsOk offset L ids) (c : List (Literal S O U)) :
    ∀ (q : Conj S O U) (counts : Var → Nat), Nodes offset L q → (∀ l ∈ c, ∀ o ∈ l.occs, o ∈ L) →
    ((∃ x, addBinaries quirks c q ids counts = .ok x) ↔ ∀ l ∈ c, l.isBin = true → ∃ e, Effect quirks offset L l e) ∧
    ∀ q' ids' counts', addBinaries quirks c q ids counts = .ok (q', ids', counts') →
      ids' = ids ∧ (∃ es, List.Forall₂ (Effect quirks offset L) (c.filter Literal.isBin) es ∧ q' = es.foldl applyEffect q) ∧
      (quirks = true → ∀ i o, L[i]? = some o →
        counts' (varOf offset i o.vname) = counts (varOf offset i o.vname) + joinsOf offset L i c) := by
  induction c with
  | nil =>
    intro q counts hq _
    refine ⟨by simp [addBinaries], ?_⟩
    intro q' ids' counts' h
    simp only [addBinaries, Except.ok.injEq, Prod.mk.injEq] at h
    obtain ⟨rfl, rfl, rfl⟩ := h
    exact ⟨rfl, ⟨[], by simp⟩, by simp [joinsOf]⟩
  | cons l r ih =>
    intro q counts hq hocc
    have hr : ∀ l ∈ r, ∀ o ∈ l.occs, o ∈ L := fun x hx => hocc x (by simp [hx])
    by_cases hl : l.isBin = true
    · cases l with
      | bin lhs op rhs neg =>
        have ho := hocc (.bin lhs op rhs neg) (by simp)
        simp only [Literal.occs, List.mem_append] at ho
        obtain ⟨vl, el, dl⟩ := operandVar_spec hq hn hs hi lhs (fun o h => ho o (.inl h))
        obtain ⟨vr, er, dr⟩ := operandVar_spec hq hn hs hi rhs (fun o h => ho o (.inr h))
        -- without a meaning there is an error
        have noEff : ∀ {e}, Effect (U := U) quirks offset L (.bin lhs op rhs neg) e →
            (∃ i, Denotes offset L lhs i) ∧ ∃ j, Denotes offset L rhs j := by
          intro e he
          cases he with
          | plain h1 h2 => exact ⟨⟨_, h1⟩, ⟨_, h2⟩⟩
          | negated h1 h2 => exact ⟨⟨_, h1⟩, ⟨_, h2⟩⟩
          | leftMissing h1 h2 => exact ⟨⟨_, h1⟩, ⟨_, h2⟩⟩
          | rightMissing h1 h2 => exact ⟨⟨_, h1⟩, ⟨_, h2⟩⟩
        simp only [addBinaries, el, er]
        rcases resolve_spec hq vl with ⟨n1, n2⟩ | ⟨i, a, v1, ha, e1, p1, r1⟩
        · rw [n2]
          have hno : ∀ e, ¬ Effect (U := U) quirks offset L (.bin lhs op rhs neg) e := by
            intro e he
            obtain ⟨⟨i, hi'⟩, _⟩ := noEff he
            have := (dl i).2 hi'
            rw [n1] at this; cases this
          refine ⟨⟨fun ⟨x, h⟩ => by simp at h, fun h => ?_⟩, by simp⟩
          obtain ⟨e, he⟩ := h _ (List.mem_cons_self) rfl
          exact absurd he (hno e)
        · rw [r1]
          rcases resolve_spec hq vr with ⟨n1, n2⟩ | ⟨j, b, v2, hb, e2, p2, r2⟩
          · rw [n2]
            have hno : ∀ e, ¬ Effect (U := U) quirks offset L (.bin lhs op rhs neg) e := by
              intro e he
              obtain ⟨_, ⟨i, hi'⟩⟩ := noEff he
              have := (dr i).2 hi'
              rw [n1] at this; cases this
            refine ⟨⟨fun ⟨x, h⟩ => by simp at h, fun h => ?_⟩, by simp⟩
            obtain ⟨e, he⟩ := h _ (List.mem_cons_self) rfl
            exact absurd he (hno e)
          · rw [r2]
            dsimp only
            have hdl := (dl i).1 v1
            have hdr := (dr j).1 v2
            obtain ⟨b1, b2⟩ := addBinary_spec hq hn hs quirks lhs rhs op neg vl vr i j a b hdl hdr ha hb e1 e2
            cases hab : addBinary q (if quirks then quirksOp op else op) neg quirks vl vr ⟨varOf offset i a.vname, a.spec, a.optional⟩
                ⟨varOf offset j b.vname, b.spec, b.optional⟩ with
            | error err =>
              have hno : ¬ ∃ e, Effect (U := U) quirks offset L (.bin lhs op rhs neg) e := by
                rw [← b1]; rintro ⟨q', h⟩; rw [hab] at h; cases h
              refine ⟨⟨fun ⟨x, h⟩ => by simp at h, fun h => ?_⟩, by simp⟩
              exact absurd (h _ (List.mem_cons_self) rfl) hno
            | ok q1 =>
              dsimp only
              obtain ⟨e, he, rfl⟩ := b2 q1 hab
              have hq1 := applyEffect_nodes hq e
              obtain ⟨i1, i2⟩ := ih (applyEffect q e) (if quirks then countJoin counts op vl vr else counts) hq1 hr
              constructor
              · rw [i1]
                constructor
                · intro h x hx hbx
                  rcases List.mem_cons.1 hx with rfl | hx
                  · exact ⟨e, he⟩
                  · exact h x hx hbx
                · intro h x hx hbx
                  exact h x (by simp [hx]) hbx
              · intro q' ids' counts' h
                obtain ⟨h1, ⟨es, h2, h3⟩, h4⟩ := i2 q' ids' counts' h
                refine ⟨h1, ⟨e :: es, ?_, ?_⟩, ?_⟩
                · rw [List.filter_cons_of_pos hl]
                  exact .cons he h2
                · rw [h3]; rfl
                · intro hqk k o hk
                  rw [h4 hqk k o hk, joinsOf_cons, hqk]
                  simp only [if_true]
                  cases op with
                  | join oo =>
                    have kl : varOf offset k o.vname = vl ↔ k = i := by
                      constructor
                      · intro h; exact varOf_inj hn hk ha (by rw [h, e1])
                      · rintro rfl; rw [ha] at hk; cases hk; exact e1.symm
                    have kr : varOf offset k o.vname = vr ↔ k = j := by
                      constructor
                      · intro h; exact varOf_inj hn hk hb (by rw [h, e2])
                      · rintro rfl; rw [hb] at hk; cases hk; exact e2.symm
                    have kdl : Denotes offset L lhs k ↔ k = i := by
                      constructor
                      · intro h; exact denotes_unique hn hs h hdl
                      · rintro rfl; exact hdl
                    have kdr : Denotes offset L rhs k ↔ k = j := by
                      constructor
                      · intro h; exact denotes_unique hn hs h hdr
                      · rintro rfl; exact hdr
                    have hc : countJoin counts (.join oo) vl vr (varOf offset k o.vname) =
                        counts (varOf offset k o.vname) + ((if k = i then 1 else 0) + (if k = j then 1 else 0)) := by
                      have hvv : vr = vl ↔ j = i := by
                        constructor
                        · intro h; exact varOf_inj hn hb ha (by rw [← e1, ← e2, h])
                        · rintro rfl; rw [ha] at hb; cases hb; rw [e1, e2]
                      simp only [countJoin, Function.update_apply, kl, kr, hvv]
                      by_cases hki : k = i
                      · by_cases hkj : k = j
                        · rw [if_pos hkj, if_pos (hkj ▸ hki), if_pos hki, if_pos hkj, kl.2 hki]
                        · rw [if_neg hkj, if_pos hki, if_pos hki, if_neg hkj, kl.2 hki]
                      · by_cases hkj : k = j
                        · rw [if_pos hkj, if_neg (fun h => hki (hkj.trans h)), if_neg hki, if_pos hkj, kr.2 hkj, Nat.zero_add]
                        · simp [hki, hkj]
                    rw [hc]
                    simp only [joinsOf, List.map_cons, List.map_nil, List.sum_cons, List.sum_nil, Nat.add_zero, kdl, kdr]
                    omega
                  | dist oo rg => simp [countJoin, joinsOf]
                  | other oo => simp [countJoin, joinsOf]
      | _ => simp [Literal.isBin] at hl
    · have e : addBinaries quirks (l :: r) q ids counts = addBinaries quirks r q ids counts := by
        cases l with
        | bin a b c d => simp [Literal.isBin] at hl
        | _ => rfl
      rw [e, List.filter_cons_of_neg hl]
      obtain ⟨i1, i2⟩ := ih q counts hq hr
      constructor
      · rw [i1]
        constructor
        · intro h x hx hux
          rcases List.mem_cons.1 hx with rfl | hx
          · exact absurd hux hl
          · exact h x hx hux
        · intro h x hx hux
          exact h x (by simp [hx]) hux
      · intro q' ids' counts' h
        obtain ⟨h1, h2, h3⟩ := i2 q' ids' counts' h
        refine ⟨h1, h2, fun hqk i o ho => ?_⟩
        rw [h3 hqk i o ho, joinsOf_cons]
        have : joinsOf offset L i [l] = 0 := by
          cases l with
          | bin a b c d => simp [Literal.isBin] at hl
          | _ => simp [joinsOf]
        omega

/-! ## Artificial nodes -/

/-- Variables are found, and numbers are numbers of nodes. -/
structure Numbered (offset : Nat) (q : Conj S O U) : Prop where
  offset_eq : q.offset = offset
  vars : ∀ v p, q.vars v = some p ↔ ∃ n, q.nodes[p]? = some n ∧ n.var = v
  nums : ∀ p n m, q.nodes[p]? = some n → n.var = .num m → m = offset + p + 1

theorem Nodes.numbered {offset : Nat} {L : List (Occ S)} {q : Conj S O U} (h : Nodes offset L q) : Numbered offset q := by
  refine ⟨h.offset_eq, fun v p => ?_, fun p n m hp hm => ?_⟩
  · rw [h.vars, h.nodes]
    simp only [List.getElem?_mapIdx, Option.map_eq_some_iff]
    constructor
    · rintro ⟨o, ho, rfl⟩; exact ⟨_, ⟨o, ho, rfl⟩, rfl⟩
    · rintro ⟨n, ⟨o, ho, rfl⟩, rfl⟩; exact ⟨o, ho, rfl⟩
  · rw [h.nodes] at hp
    simp only [List.getElem?_mapIdx, Option.map_eq_some_iff] at hp
    obtain ⟨o, ho, rfl⟩ := hp
    dsimp only at hm
    cases hv : o.vname with
    | none => rw [hv] at hm; simp only [varOf, Var.num.injEq] at hm; exact hm.symm
    | some s => rw [hv] at hm; simp [varOf] at hm

theorem Numbered.addNode {offset : Nat} {q : Conj S O U} (h : Numbered offset q) (spec : S) (b : Bool) (bins : List (BinEntry S O)) :
    Numbered offset { (q.addNode spec none b false).1 with bins := bins } := by
  have fresh : ∀ (p : Nat) (n : NodeEntry S), q.nodes[p]? = some n → n.var ≠ .num (offset + q.nodes.length + 1) := by
    intro p n hp e
    have := h.nums p n _ hp e
    have hlt := (List.getElem?_eq_some_iff.1 hp).1
    omega
  refine ⟨h.offset_eq, fun v p => ?_, fun p n m hp hm => ?_⟩
  · simp only [Conj.addNode, Function.update_apply, getElem?_snoc, h.offset_eq]
    by_cases e : v = .num (offset + q.nodes.length + 1)
    · rw [if_pos e]
      constructor
      · intro hp; cases hp
        exact ⟨_, .inr ⟨rfl, rfl⟩, e.symm⟩
      · rintro ⟨n, hn | ⟨rfl, rfl⟩, hv⟩
        · exact absurd (hv.trans e) (fresh _ _ hn)
        · rfl
    · rw [if_neg e, h.vars]
      constructor
      · rintro ⟨n, hn, hv⟩; exact ⟨n, .inl hn, hv⟩
      · rintro ⟨n, hn | ⟨rfl, rfl⟩, hv⟩
        · exact ⟨n, hn, hv⟩
        · exact absurd hv.symm e
  · simp only [Conj.addNode, getElem?_snoc, h.offset_eq] at hp
    rcases hp with hp | ⟨rfl, rfl⟩
    · exact h.nums p n m hp hm
    · simp only [Var.num.injEq] at hm
      omega

theorem addOperator_ok {offset : Nat} {q : Conj S O U} (h : Numbered offset q) (op : BOp S O) {v w : Var} {i j : Nat} (g : Bool)
    (hv : q.vars v = some i) (hw : q.vars w = some j) :
    q.addOperator op v w g = .ok { q with bins := q.bins ++ [⟨op, offset + i, offset + j, g⟩] } := by
  simp [Conj.addOperator, Conj.resolvePos, hv, hw, h.offset_eq, Nat.add_comm]

theorem addCopies_spec {offset : Nat} {L : List (Occ S)} (v : Var) (i : Nat) (o : Occ S) (ho : L[i]? = some o) (n : Nat) :
    ∀ (q : Conj S O U), Numbered offset q → q.vars v = some i → (∃ e, q.nodes[i]? = some e ∧ e.spec = o.spec ∧ e.var = v) →
    ∃ q', addCopies v n q = .ok q' ∧ Numbered offset q' ∧ (∀ (p : Nat) (e : NodeEntry S), q.nodes[p]? = some e → q'.nodes[p]? = some e) ∧
      (∀ r q'', Copies offset L q' r q'' → Copies offset L q (List.replicate n i ++ r) q'') := by
  induction n with
  | zero => intro q hq _ _; exact ⟨q, rfl, hq, fun _ _ h => h, by simp⟩
  | succ n ih =>
    rintro q hq hv ⟨e, he, hspec, hvar⟩
    have hres : q.resolve v = .ok e := by
      simp [Conj.resolve, Conj.resolvePos, hv, he]
    have hilt := (List.getElem?_eq_some_iff.1 he).1
    have hq1 := hq.addNode e.spec true q.bins
    have hx : { (q.addNode e.spec none true false).1 with bins := q.bins } = (q.addNode e.spec none true false).1 := rfl
    rw [hx] at hq1
    have hadd := addOperator_ok hq1 .ident (v := v) (w := (q.addNode e.spec none true false).2) (i := i) (j := q.nodes.length) false
      ((hq1.vars _ _).2 ⟨e, by simp only [Conj.addNode, getElem?_snoc]; exact .inl he, hvar⟩)
      ((hq1.vars _ _).2 ⟨_, by simp only [Conj.addNode, getElem?_snoc]; exact .inr ⟨trivial, rfl⟩, rfl⟩)
    have hq2 := hq.addNode e.spec true (q.bins ++ [⟨.ident, offset + i, offset + q.nodes.length, false⟩])
    have hget : ∀ (p : Nat) (x : NodeEntry S), q.nodes[p]? = some x → (q.addNode e.spec none true false).1.nodes[p]? = some x := by
      intro p x hp
      simp only [Conj.addNode, getElem?_snoc]
      exact .inl hp
    obtain ⟨q', h1, h2, h3, h4⟩ := ih _ hq2 ((hq2.vars _ _).2 ⟨e, hget _ _ he, hvar⟩) ⟨e, hget _ _ he, hspec, hvar⟩
    refine ⟨q', ?_, h2, fun p x hp => h3 p x (hget p x hp), ?_⟩
    · simp only [addCopies, hres]
      rw [hadd]
      exact h1
    · intro r q'' hc
      have := h4 r q'' hc
      rw [List.replicate_succ, List.cons_append]
      refine .cons ho ?_
      convert this using 1
      simp only [Conj.addNode, hq.offset_eq, hspec, Bool.true_and, Bool.not_false, if_true]
      congr 1
      funext w
      rw [Function.update_apply]

theorem addAllCopies_spec {offset : Nat} {L : List (Occ S)} (counts : Var → Nat) (ns : List (Nat × Occ S)) (pos : Occ S → Nat) :
    ∀ (q : Conj S O U), Numbered offset q → (∀ x ∈ ns, L[x.1]? = some x.2 ∧
      ∃ e, q.nodes[x.1]? = some e ∧ e.spec = x.2.spec ∧ e.var = varOf offset x.1 x.2.vname) →
    ∃ q', addAllCopies counts (ns.map fun x => (pos x.2, varOf offset x.1 x.2.vname)) q = .ok q' ∧
      Copies offset L q (ns.flatMap fun x => List.replicate (counts (varOf offset x.1 x.2.vname) - 1) x.1) q' := by
  induction ns with
  | nil => intro q _ _; exact ⟨q, rfl, .nil q⟩
  | cons x r ih =>
    intro q hq hx
    obtain ⟨h1, e, h2, h3, h4⟩ := hx x (by simp)
    obtain ⟨q1, a1, a2, a3, a4⟩ := addCopies_spec (varOf offset x.1 x.2.vname) x.1 x.2 h1 (counts (varOf offset x.1 x.2.vname) - 1) q hq
      ((hq.vars _ _).2 ⟨e, h2, h4⟩) ⟨e, h2, h3, h4⟩
    obtain ⟨q', b1, b2⟩ := ih q1 a2 (fun y hy => by
      obtain ⟨c1, e', c2, c3⟩ := hx y (by simp [hy])
      exact ⟨c1, e', a3 _ _ c2, c3⟩)
    refine ⟨q', ?_, ?_⟩
    · rw [List.map_cons, addAllCopies, a1]
      exact b1
    · rw [List.flatMap_cons]
      exact a4 _ _ b2

theorem ids_eq {offset : Nat} {L : List (Occ S)} (hs : L.Pairwise fun a b => a.pos < b.pos) {ids : OMap Nat Var} (h : IdsOk offset L ids)
    (hsort : OMap.Sorted ids) : ids = L.zipIdx.map fun x => (x.1.pos, varOf offset x.2 x.1.vname) := by
  have hsL : OMap.Sorted (L.zipIdx.map fun x => (x.1.pos, varOf offset x.2 x.1.vname)) := by
    unfold OMap.Sorted
    rw [List.pairwise_map]
    have : (L.zipIdx.map Prod.fst).Pairwise fun a b => a.pos < b.pos := by rwa [List.zipIdx_map_fst]
    rw [List.pairwise_map] at this
    exact this
  apply OMap.ext hsort hsL
  intro k
  apply Option.ext
  intro v
  rw [h, ← OMap.mem_iff_get hsL]
  simp only [List.mem_map, Prod.exists, List.mem_zipIdx_iff_getElem?, Prod.mk.injEq]
  constructor
  · rintro ⟨i, o, ho, e1, e2⟩; exact ⟨o, i, ho, e1, e2.symm⟩
  · rintro ⟨o, i, ho, e1, e2⟩; exact ⟨i, o, ho, e1, e2.symm⟩

/-- The translation before artificial nodes are added. -/
theorem mapConjunction_base (quirks : Bool) (offset : Nat) (c : List (Literal S O U)) (L : List (Occ S)) (hL : IsNodeList c L)
    (hn : NamesDistinct L) :
    ((∃ q, mapConjunction c offset quirks = .ok q) ↔ WellFormed quirks offset c L) ∧
    ∀ q, mapConjunction c offset quirks = .ok q → ∃ base, Translated quirks offset c L base ∧
      (quirks = false → q = base) ∧
      (quirks = true → Copies offset L base
        ((List.range L.length).flatMap fun i => List.replicate (joinsOf offset L i c - 1) i) q) := by
  by_cases hmeta : quirks = false → ∀ l ∈ c, l.isMeta = false
  · obtain ⟨n1, n2, n3, n4, n5⟩ := addNodes_list (O := O) (U := U) offset L hn hL.sorted
    simp only [mapConjunction, nodePositions_list quirks c L hL hmeta]
    generalize hx : addNodes (L.map Occ.entry) (Conj.empty offset : Conj S O U) [] = x at n1 n2 n3 n4 n5 ⊢
    obtain ⟨q0, ids⟩ := x
    dsimp only at n1 n2 n3 n4 n5 ⊢
    obtain ⟨u1, u2⟩ := addUnaries_spec offset L c q0 n1
    cases hu : addUnaries c q0 with
    | error e =>
      refine ⟨⟨fun ⟨q, h⟩ => by simp at h, fun h => ?_⟩, by simp⟩
      obtain ⟨q, hq⟩ := u1.2 h.uns
      rw [hu] at hq; cases hq
    | ok q1 =>
      dsimp only
      obtain ⟨us, f1, rfl⟩ := u2 q1 hu
      have m1 := n1.setOps q0.bins (q0.uns ++ us)
      obtain ⟨b1, b2⟩ := addBinaries_spec quirks offset L hn hL.sorted ids n2 c { q0 with uns := q0.uns ++ us } (fun _ => 0) m1
        (fun l hl o ho => (hL.mem o).2 ⟨l, hl, ho⟩)
      cases hb : addBinaries quirks c { q0 with uns := q0.uns ++ us } ids (fun _ => 0) with
      | error e =>
        refine ⟨⟨fun ⟨q, h⟩ => by simp at h, fun h => ?_⟩, by simp⟩
        obtain ⟨q, hq⟩ := b1.2 h.bins
        rw [hb] at hq; cases hq
      | ok x =>
        obtain ⟨q2, ids2, counts⟩ := x
        obtain ⟨rfl, ⟨es, g1, g2⟩, g3⟩ := b2 q2 ids2 counts hb
        dsimp only
        have wf : WellFormed quirks offset c L := ⟨hmeta, u1.1 ⟨_, hu⟩, b1.1 ⟨_, hb⟩⟩
        have tr : Translated quirks offset c L q2 := by
          rw [foldl_applyEffect] at g2
          subst g2
          refine ⟨n1.offset_eq, n1.nodes, ⟨us, es, f1, g1, ?_, ?_⟩, n1.vars, n1.out⟩
          · simp [n4]
          · simp [n5]
        cases quirks with
        | false =>
          refine ⟨⟨fun _ => wf, fun _ => ⟨q2, rfl⟩⟩, fun q hq => ⟨q2, tr, fun _ => ?_, by simp⟩⟩
          simp only [Bool.false_eq_true, if_false, Except.ok.injEq] at hq
          exact hq.symm
        | true =>
          simp only [if_true]
          have hnum : Numbered offset q2 := (Nodes.mk tr.offset_eq tr.nodes tr.vars tr.out).numbered
          obtain ⟨q', c1, c2⟩ := addAllCopies_spec (L := L) counts (L.zipIdx.map fun x => (x.2, x.1)) Occ.pos q2 hnum (by
            intro x hx
            simp only [List.mem_map, Prod.exists, List.mem_zipIdx_iff_getElem?] at hx
            obtain ⟨o, i, ho, rfl⟩ := hx
            refine ⟨ho, ⟨varOf offset i o.vname, o.spec, o.optional⟩, ?_, rfl, rfl⟩
            rw [tr.nodes]
            simp [ho])
          rw [List.map_map] at c1
          have hids := ids_eq hL.sorted n2 n3
          have e1 : (fun x : Occ S × Nat => (x.1.pos, varOf offset x.2 x.1.vname)) =
            (fun x : Nat × Occ S => (x.2.pos, varOf offset x.1 x.2.vname)) ∘ fun x : Occ S × Nat => (x.2, x.1) := rfl
          rw [hids, e1, c1]
          refine ⟨⟨fun _ => wf, fun _ => ⟨q', rfl⟩⟩, fun q hq => ⟨q2, tr, by simp, fun _ => ?_⟩⟩
          cases hq
          convert c2 using 1
          rw [List.flatMap_map]
          have e2 : (List.range L.length) = L.zipIdx.map Prod.snd := by
            rw [List.zipIdx_map_snd, List.range_eq_range']
          rw [e2, List.flatMap_map]
          apply List.flatMap_congr
          intro x hx
          have hx' := List.mem_zipIdx_iff_getElem?.1 (show (x.1, x.2) ∈ L.zipIdx from hx)
          rw [g3 rfl x.2 x.1 hx']
          simp
  · push Not at hmeta
    obtain ⟨rfl, l, hl, hm⟩ := hmeta
    have hno : ∀ q, mapConjunction c offset false ≠ .ok q := by
      intro q h
      simp only [mapConjunction] at h
      cases hp : nodePositions false c [] with
      | error e => rw [hp] at h; simp at h
      | ok m => exact absurd (nodePositions_meta c _ _ hp l hl) (by simp [hm])
    refine ⟨⟨fun ⟨q, h⟩ => absurd h (hno q), fun h => absurd (h.metas rfl l hl) (by simp [hm])⟩, fun q h => absurd h (hno q)⟩

end Aql
