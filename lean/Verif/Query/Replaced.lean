import Verif.Query.PlanOrder

/-!
# C61 with replaced node searches

`optimize_node_search_by_operator` (graphannis/src/annis/db/aql/conjunction.rs 551-614) may replace the search for a node by one with fewer
matches, but the description of the node search stays as it is (conjunction.rs 592-599, exec/nodesearch.rs 1063-1075). An index join only
uses the description, so it finds the matches of the original search, and all other joins use the matches of the new one. Here `C` is for
the original matches and `C'` for those of the searches in the plan.
-/

set_option linter.unusedSimpArgs false
set_option linter.unusedSectionVars false
set_option linter.unusedVariables false

section
variable {N K E : Type} [DecidableEq N] [DecidableEq K] {strict : Bool}

/-! ## Rows of merged components -/

theorem merge_key {C : Nat → List (SMatch N K)} {H : QOp N K E → SMatch N K → SMatch N K → Bool} {done : List (QOp N K E)}
    {A B : List Nat} {o : QOp N K E} {G : SMatch N K → SMatch N K → Bool} {a b : Nat} (ha : a ∈ A) (hb : b ∈ B) (hd : ∀ n ∈ A, n ∉ B)
    (hdone : ∀ o ∈ done, (o.left ∈ A ↔ o.right ∈ A) ∧ (o.left ∈ B ↔ o.right ∈ B))
    (ho : ∀ cols row, opHolds (H o) o.left o.right cols row = opHolds G a b cols row) :
    (prodRows C (A ++ B) = ((prodRows C A).product (prodRows C B)).map fun p => p.1 ++ p.2) ∧
    ∀ p ∈ (prodRows C A).product (prodRows C B), sat H (o :: done) (A ++ B) (p.1 ++ p.2) =
      (colsHold G (A.idxOf a) (B.idxOf b) p.1 p.2 && (sat H done A p.1 && sat H done B p.2)) := by
  constructor
  · rw [prodRows_append]
    unfold List.product
    rw [List.map_flatMap]
    refine List.flatMap_congr fun x _ => ?_
    rw [List.map_map]; rfl
  · intro p hp
    obtain ⟨h1, h2⟩ := List.mem_product.1 hp
    have l1 := length_of_mem_prodRows h1
    have l2 := length_of_mem_prodRows h2
    have : sat H (o :: done) (A ++ B) (p.1 ++ p.2) = (opHolds (H o) o.left o.right (A ++ B) (p.1 ++ p.2) && sat H done (A ++ B) (p.1 ++ p.2)) := rfl
    rw [this, sat_append l1 l2 hd hdone, ho]
    congr 1
    have hbA : b ∉ A := fun h => hd b h hb
    unfold opHolds colsHold
    rw [colVal_append_left l1 ha, colVal_append_right l1 hbA]
    obtain ⟨ma, _, h3⟩ := colVal_of_mem h1 ha
    obtain ⟨mb, _, h4⟩ := colVal_of_mem h2 hb
    rw [h3, h4]
    unfold colVal at h3 h4
    rw [h3, h4]

theorem merge_lower {C : Nat → List (SMatch N K)} {H : QOp N K E → SMatch N K → SMatch N K → Bool} {done : List (QOp N K E)}
    {A B : List Nat} {o : QOp N K E} {G : SMatch N K → SMatch N K → Bool} {a b : Nat} (ha : a ∈ A) (hb : b ∈ B) (hd : ∀ n ∈ A, n ∉ B)
    (hdone : ∀ o ∈ done, (o.left ∈ A ↔ o.right ∈ A) ∧ (o.left ∈ B ↔ o.right ∈ B))
    (ho : ∀ cols row, opHolds (H o) o.left o.right cols row = opHolds G a b cols row)
    {rA rB rows : List (Row N K)} (hA : ((prodRows C A).filter (satD strict H done A)).Subperm rA)
    (hB : ((prodRows C B).filter (satD strict H done B)).Subperm rB)
    (hr : Between strict (colsHold G (A.idxOf a) (B.idxOf b)) rA rB rows) :
    ((prodRows C (A ++ B)).filter (satD strict H (o :: done) (A ++ B))).Subperm rows := by
  obtain ⟨hprod, key⟩ := merge_key (C := C) ha hb hd hdone ho
  refine List.Subperm.trans ?_ ((Subperm.map' _ (joinPairs_subperm _ hA hB)).trans hr.lower)
  refine (List.Perm.of_eq ?_).subperm
  unfold joinPairs
  rw [filter_product, List.filter_filter, hprod, List.filter_map]
  congr 1
  refine List.filter_congr fun p hp => ?_
  simp only [Function.comp_apply]
  unfold satD
  rw [key p hp, nodup_apart]
  cases colsHold G (A.idxOf a) (B.idxOf b) p.1 p.2 <;> cases sat H done A p.1 <;> cases sat H done B p.2 <;>
    cases (!strict || decide p.1.Nodup) <;> cases (!strict || decide p.2.Nodup) <;> cases apart strict p.1 p.2 <;> rfl

theorem merge_upper {C : Nat → List (SMatch N K)} {H : QOp N K E → SMatch N K → SMatch N K → Bool} {done : List (QOp N K E)}
    {A B : List Nat} {o : QOp N K E} {G : SMatch N K → SMatch N K → Bool} {a b : Nat} (ha : a ∈ A) (hb : b ∈ B) (hd : ∀ n ∈ A, n ∉ B)
    (hdone : ∀ o ∈ done, (o.left ∈ A ↔ o.right ∈ A) ∧ (o.left ∈ B ↔ o.right ∈ B))
    (ho : ∀ cols row, opHolds (H o) o.left o.right cols row = opHolds G a b cols row)
    {rA rB rows : List (Row N K)} (hA : rA.Subperm ((prodRows C A).filter (sat H done A))) (hB : rB.Subperm ((prodRows C B).filter (sat H done B)))
    (hr : Between strict (colsHold G (A.idxOf a) (B.idxOf b)) rA rB rows) :
    rows.Subperm ((prodRows C (A ++ B)).filter (sat H (o :: done) (A ++ B))) := by
  obtain ⟨hprod, key⟩ := merge_key (C := C) ha hb hd hdone ho
  refine (hr.upper.trans (Subperm.map' _ (joinPairs_subperm _ hA hB))).trans ?_
  refine (List.Perm.of_eq ?_).subperm
  unfold joinPairs
  rw [filter_product, List.filter_filter, hprod, List.filter_map]
  congr 1
  refine List.filter_congr fun p hp => ?_
  simp only [Function.comp_apply]
  rw [key p hp]

/-! ## The invariant -/

/-- An execution node gives at least the combinations of matches of the searches in the plan, and only combinations of original matches. -/
structure RExecOk (strict : Bool) (C' C : Nat → List (SMatch N K)) (D : Nat → Option (NsDesc N K E)) (H : QOp N K E → SMatch N K → SMatch N K → Bool)
    (done : List (QOp N K E)) (n2c : OMap Nat Nat) (c : Nat) (e : Exec N K E) (cols : List Nat) : Prop where
  comp : e.comp = c
  nonempty : cols ≠ []
  mem : ∀ n, n ∈ cols ↔ n2c.get n = some c
  pos : PosOk e.pos cols
  lower : ((prodRows C' cols).filter (satD strict H done cols)).Subperm e.rows
  rows : e.rows.Subperm ((prodRows C cols).filter (sat H done cols))
  ns : ∀ d, e.ns = some d → ∃ n, cols = [n] ∧ D n = some d ∧ ∀ o ∈ done, o.left ≠ n

structure RPlanInv (strict : Bool) (C' C : Nat → List (SMatch N K)) (D : Nat → Option (NsDesc N K E)) (H : QOp N K E → SMatch N K → SMatch N K → Bool)
    (nodes : List Nat) (done : List (QOp N K E)) (s : PlanState N K E) : Prop where
  sorted : s.execs.Sorted
  n2cSorted : s.n2c.Sorted
  dom : ∀ n, (s.n2c.get n).isSome = true ↔ n ∈ nodes
  exec : ∀ n c, s.n2c.get n = some c → ∃ e, s.execs.get c = some e
  ok : ∀ c e, s.execs.get c = some e → ∃ cols, RExecOk strict C' C D H done s.n2c c e cols
  done : ∀ o ∈ done, o.left ∈ nodes ∧ o.right ∈ nodes ∧ s.n2c.get o.left = s.n2c.get o.right

variable {C' C : Nat → List (SMatch N K)} {D : Nat → Option (NsDesc N K E)} {H : QOp N K E → SMatch N K → SMatch N K → Bool}

theorem RExecOk.colIn {done : List (QOp N K E)} {n2c : OMap Nat Nat} {c : Nat} {e : Exec N K E} {cols : List Nat}
    (h : RExecOk strict C' C D H done n2c c e cols) {n i : Nat} (hn : e.pos.get n = some i) :
    n ∈ cols ∧ i = cols.idxOf n ∧ ColIn e.rows i (C n) := by
  rw [h.pos.get] at hn
  by_cases hm : n ∈ cols
  · rw [if_pos hm, Option.some.injEq] at hn
    refine ⟨hm, hn.symm, fun r hr => ?_⟩
    have := (List.mem_filter.1 (h.rows.subset hr)).1
    obtain ⟨m, h1, h2⟩ := colVal_of_mem this hm
    exact ⟨m, h1, by rw [← hn]; exact h2⟩
  · rw [if_neg hm] at hn; simp at hn

theorem RExecOk.other {done : List (QOp N K E)} {n2c n2c' : OMap Nat Nat} {c : Nat} {e : Exec N K E} {cols : List Nat}
    (h : RExecOk strict C' C D H done n2c c e cols) (hmem : ∀ n, n2c'.get n = some c ↔ n2c.get n = some c) {o : QOp N K E}
    (ho : o.left ∉ cols) : RExecOk strict C' C D H (o :: done) n2c' c e cols := by
  have key : ∀ (X : Nat → List (SMatch N K)), ∀ row ∈ prodRows X cols, sat H (o :: done) cols row = sat H done cols row := by
    intro X row hr
    have : opHolds (H o) o.left o.right cols row = true := by
      unfold opHolds
      rw [colVal_of_not_mem (length_of_mem_prodRows hr) ho]
    simp [sat, this]
  refine ⟨h.comp, h.nonempty, fun n => (h.mem n).trans (hmem n).symm, h.pos, ?_, ?_, fun d hd => ?_⟩
  · refine (List.Perm.of_eq (List.filter_congr fun row hr => ?_)).subperm.trans h.lower
    unfold satD
    rw [key C' row hr]
  · exact h.rows.trans (List.Perm.of_eq (List.filter_congr fun row hr => (key C row hr).symm)).subperm
  · obtain ⟨n, h1, h2, h3⟩ := h.ns d hd
    refine ⟨n, h1, h2, fun o' ho' => ?_⟩
    rcases List.mem_cons.1 ho' with rfl | h4
    · rintro rfl; exact ho (by rw [h1]; simp)
    · exact h3 o' h4

/-- After an operator has been added, the invariant holds again. -/
theorem RPlanInv.update {nodes : List Nat} {done : List (QOp N K E)} {s : PlanState N K E} (h : RPlanInv strict C' C D H nodes done s)
    {o : QOp N K E} {cl cr : Nat}
    {l r : Nat} (hl : s.n2c.get l = some cl) (hr : s.n2c.get r = some cr) (hlr : (l = o.left ∧ r = o.right) ∨ (l = o.right ∧ r = o.left))
    {new : Exec N K E} (hnew : new.comp = cl ∨ new.comp = cr) {execs' : OMap Nat (Exec N K E)} (hs : execs'.Sorted)
    (hget : ∀ c, execs'.get c = if c = new.comp then some new else if c = cl ∨ c = cr then none else s.execs.get c)
    (hok : ∃ cols, RExecOk strict C' C D H (o :: done) (updateComponents (updateComponents s.n2c cl new.comp) cr new.comp) new.comp new cols) :
    RPlanInv strict C' C D H nodes (o :: done) ⟨execs', updateComponents (updateComponents s.n2c cl new.comp) cr new.comp⟩ := by
  have hg := n2c_after h.n2cSorted cl cr new.comp hnew
  refine ⟨hs, updateComponents_sorted (updateComponents_sorted h.n2cSorted _ _) _ _, ?_, ?_, ?_, ?_⟩
  · intro n
    simp only [hg, Option.isSome_map]
    exact h.dom n
  · intro n c hc
    simp only [hg] at hc
    simp only [hget]
    cases hn : s.n2c.get n with
    | none => rw [hn] at hc; simp at hc
    | some x =>
      rw [hn] at hc
      simp only [Option.map_some, Option.some.injEq] at hc
      by_cases hx : x = cl ∨ x = cr
      · rw [if_pos hx] at hc
        rw [if_pos hc.symm]; exact ⟨_, rfl⟩
      · rw [if_neg hx] at hc
        subst hc
        have : x ≠ new.comp := by rintro rfl; exact hx hnew
        rw [if_neg this, if_neg hx]
        exact h.exec n x hn
  · intro c e hc
    rw [hget] at hc
    by_cases h1 : c = new.comp
    · rw [if_pos h1, Option.some.injEq] at hc
      subst hc h1
      exact hok
    · rw [if_neg h1] at hc
      by_cases h2 : c = cl ∨ c = cr
      · rw [if_pos h2] at hc; simp at hc
      · rw [if_neg h2] at hc
        obtain ⟨cols, hcols⟩ := h.ok c e hc
        refine ⟨cols, hcols.other (fun n => ?_) ?_⟩
        · rw [hg]
          cases hn : s.n2c.get n with
          | none => simp
          | some x =>
            simp only [Option.map_some, Option.some.injEq]
            by_cases hx : x = cl ∨ x = cr
            · rw [if_pos hx]
              constructor
              · intro h3; exact absurd h3.symm h1
              · rintro rfl; exact absurd hx h2
            · rw [if_neg hx]
        · rw [hcols.mem]
          rcases hlr with ⟨h3, _⟩ | ⟨_, h3⟩
          · rw [← h3, hl]; intro h4; simp only [Option.some.injEq] at h4; exact h2 (Or.inl h4.symm)
          · rw [← h3, hr]; intro h4; simp only [Option.some.injEq] at h4; exact h2 (Or.inr h4.symm)
  · have hin : l ∈ nodes ∧ r ∈ nodes := ⟨(h.dom l).1 (by rw [hl]; rfl), (h.dom r).1 (by rw [hr]; rfl)⟩
    intro o' ho'
    rcases List.mem_cons.1 ho' with rfl | h1
    · have key : (updateComponents (updateComponents s.n2c cl new.comp) cr new.comp).get l =
          (updateComponents (updateComponents s.n2c cl new.comp) cr new.comp).get r := by
        rw [hg, hg, hl, hr]; simp
      rcases hlr with ⟨h3, h4⟩ | ⟨h3, h4⟩
      · rw [← h3, ← h4]; exact ⟨hin.1, hin.2, key⟩
      · rw [← h3, ← h4]; exact ⟨hin.2, hin.1, key.symm⟩
    · obtain ⟨h2, h3, h4⟩ := h.done o' h1
      refine ⟨h2, h3, ?_⟩
      simp only [hg, h4]

theorem RPlanInv.filterStep {nodes : List Nat} {done : List (QOp N K E)} {s : PlanState N K E} (h : RPlanInv strict C' C D H nodes done s)
    {o : QOp N K E} (hopOk : OpOk C D (H o) o strict) {switch : Bool} {op : OpImpl N K E} {inv : Option (OpImpl N K E)} {l r : Nat}
    (hor : o.oriented switch = (op, inv, l, r)) {cl : Nat} (hl : s.n2c.get l = some cl) (hr : s.n2c.get r = some cl)
    {L : Exec N K E} (hL : s.execs.get cl = some L) {iL iR : Nat} (hiL : L.pos.get l = some iL) (hiR : L.pos.get r = some iR) :
    ∃ rows : List (Row N K), filterBinary op.base iL iR (L.rows.map .ok) = rows.map .ok ∧
      ∀ rows' : List (Row N K), filterBinary op.base iL iR (L.rows.map .ok) = rows'.map .ok →
        RPlanInv strict C' C D H nodes (o :: done) ⟨(s.execs.erase cl).insert L.comp ⟨L.comp, L.pos, rows', none⟩,
          updateComponents (updateComponents s.n2c cl L.comp) cl L.comp⟩ := by
  obtain ⟨G, hop, _, hG, hlr⟩ := oriented_spec hopOk hor
  obtain ⟨cols, hcols⟩ := h.ok cl L hL
  obtain ⟨hlm, hli, hlc⟩ := hcols.colIn hiL
  obtain ⟨hrm, hri, hrc⟩ := hcols.colIn hiR
  have hfb := filterBinary_eq (op := op.base) hop.filter hlc hrc
  refine ⟨_, hfb, fun rows' hrows' => ?_⟩
  have hrows : rows' = L.rows.filter fun t => colsHold G iL iR t t := map_ok_inj (hrows'.symm.trans hfb)
  have hcomp := hcols.comp
  refine h.update (new := ⟨L.comp, L.pos, rows', none⟩) hl hr hlr (Or.inl hcomp) ?_ ?_ ?_
  · exact OMap.sorted_insert (OMap.sorted_erase h.sorted _) _ _
  · intro c
    simp only [OMap.get_insert]
    by_cases h1 : c = L.comp
    · simp [h1]
    · rw [if_neg h1, if_neg h1, OMap.get_erase h.sorted]
      simp
  · have hsat : ∀ X : Nat → List (SMatch N K), ∀ row ∈ prodRows X cols,
        sat H (o :: done) cols row = (colsHold G iL iR row row && sat H done cols row) := by
      intro X row hrow
      have : sat H (o :: done) cols row = (opHolds (H o) o.left o.right cols row && sat H done cols row) := rfl
      rw [this, hG]
      congr 1
      obtain ⟨a, _, h1⟩ := colVal_of_mem hrow hlm
      obtain ⟨b, _, h2⟩ := colVal_of_mem hrow hrm
      unfold opHolds colsHold
      rw [h1, h2]
      unfold colVal at h1 h2
      rw [hli, hri, h1, h2]
    refine ⟨cols, ⟨rfl, hcols.nonempty, fun n => ?_, hcols.pos, ?_, ?_, fun d hd => by simp at hd⟩⟩
    · rw [hcols.mem, n2c_after h.n2cSorted _ _ _ (Or.inl hcomp)]
      cases hn : s.n2c.get n with
      | none => simp
      | some x => by_cases hx : x = cl <;> simp [hx, hcomp]
    · rw [hrows]
      refine List.Subperm.trans ?_ (List.Subperm.filter _ hcols.lower)
      refine (List.Perm.of_eq ?_).subperm
      rw [List.filter_filter]
      refine List.filter_congr fun row hrow => ?_
      unfold satD
      rw [hsat C' row hrow, Bool.and_assoc]
    · rw [hrows]
      refine (List.Subperm.filter _ hcols.rows).trans (List.Perm.of_eq ?_).subperm
      rw [List.filter_filter]
      exact List.filter_congr fun row hrow => (hsat C row hrow).symm

theorem RPlanInv.joinUpdate {nodes : List Nat} {done : List (QOp N K E)} {s : PlanState N K E} (h : RPlanInv strict C' C D H nodes done s)
    {o : QOp N K E} {l r : Nat} {G : SMatch N K → SMatch N K → Bool}
    (hG : ∀ cols row, opHolds (H o) o.left o.right cols row = opHolds G l r cols row)
    (hlr : (l = o.left ∧ r = o.right) ∨ (l = o.right ∧ r = o.left)) {cl cr : Nat} (hl : s.n2c.get l = some cl) (hr : s.n2c.get r = some cr)
    (hne : cl ≠ cr) {L R : Exec N K E} {A B : List Nat} (hA : RExecOk strict C' C D H done s.n2c cl L A)
    (hB : RExecOk strict C' C D H done s.n2c cr R B)
    {iL iR : Nat} (hiL : L.pos.get l = some iL) (hiR : R.pos.get r = some iR) {new : Exec N K E} (hj : JoinOk strict G L R iL iR new) :
    RPlanInv strict C' C D H nodes (o :: done) ⟨((s.execs.erase cl).erase cr).insert new.comp new,
      updateComponents (updateComponents s.n2c cl new.comp) cr new.comp⟩ := by
  obtain ⟨hlm, hli, hlc⟩ := hA.colIn hiL
  obtain ⟨hrm, hri, hrc⟩ := hB.colIn hiR
  have hdAB : ∀ n ∈ A, n ∉ B := by
    intro n h1 h2
    rw [hA.mem] at h1
    rw [hB.mem, h1] at h2
    simp only [Option.some.injEq] at h2
    exact hne h2
  have hdBA : ∀ n ∈ B, n ∉ A := fun n h1 h2 => hdAB n h2 h1
  have hsides : ∀ o ∈ done, (o.left ∈ A ↔ o.right ∈ A) ∧ (o.left ∈ B ↔ o.right ∈ B) := by
    intro o ho
    have := (h.done o ho).2.2
    rw [hA.mem, hA.mem, hB.mem, hB.mem, this]
    simp
  have hsides' := fun o ho => (hsides o ho).symm
  have hG' : ∀ cols row, opHolds (H o) o.left o.right cols row = opHolds (fun a b => G b a) r l cols row := by
    intro cols row
    rw [hG]
    unfold opHolds
    cases colVal cols row l <;> cases colVal cols row r <;> rfl
  have hcomp : new.comp = cl ∨ new.comp = cr := by
    rcases hj.rows with ⟨h1, _⟩ | ⟨h1, _⟩
    · exact Or.inl (h1.trans hA.comp)
    · exact Or.inr (h1.trans hB.comp)
  refine h.update hl hr hlr hcomp ?_ ?_ ?_
  · exact OMap.sorted_insert (OMap.sorted_erase (OMap.sorted_erase h.sorted _) _) _ _
  · intro c
    rw [OMap.get_insert]
    by_cases h1 : c = new.comp
    · simp [h1]
    · rw [if_neg h1, if_neg h1, OMap.get_erase (OMap.sorted_erase h.sorted _), OMap.get_erase h.sorted]
      by_cases h2 : c = cr
      · simp [h2]
      · by_cases h3 : c = cl <;> simp [h2, h3]
  · have hmem : ∀ n, (n ∈ A ∨ n ∈ B) ↔
        (updateComponents (updateComponents s.n2c cl new.comp) cr new.comp).get n = some new.comp := by
      intro n
      rw [hA.mem, hB.mem, n2c_after h.n2cSorted _ _ _ hcomp]
      cases hn : s.n2c.get n with
      | none => simp
      | some x =>
        simp only [Option.some.injEq, Option.map_some]
        by_cases hx : x = cl ∨ x = cr
        · simp [hx]
        · rw [if_neg hx]
          constructor
          · intro h1; exact absurd h1 hx
          · rintro rfl; exact hcomp
    rcases hj.rows with ⟨h1, h2, h3⟩ | ⟨h1, h2, h3⟩
    · rw [hli, hri] at h3
      refine ⟨A ++ B, ⟨rfl, by simp [hA.nonempty], fun n => by rw [List.mem_append]; exact hmem n, ?_, ?_, ?_, fun d hd => ?_⟩⟩
      · rw [h2]; exact hA.pos.join hB.pos hdAB
      · exact merge_lower hlm hrm hdAB hsides hG hA.lower hB.lower h3
      · exact merge_upper hlm hrm hdAB hsides hG hA.rows hB.rows h3
      · rw [hj.ns] at hd; simp at hd
    · rw [hli, hri] at h3
      refine ⟨B ++ A, ⟨rfl, by simp [hA.nonempty], fun n => by rw [List.mem_append, or_comm]; exact hmem n, ?_, ?_, ?_, fun d hd => ?_⟩⟩
      · rw [h2]; exact hB.pos.join hA.pos hdBA
      · exact merge_lower hrm hlm hdBA hsides' hG' hB.lower hA.lower h3
      · exact merge_upper hrm hlm hdBA hsides' hG' hB.rows hA.rows h3
      · rw [hj.ns] at hd; simp at hd

/-- The execution node as an index join sees it: with the original matches. -/
def Exec.full (C : Nat → List (SMatch N K)) (n : Nat) (e : Exec N K E) : Exec N K E := { e with rows := (C n).map fun m => [m] }

theorem RExecOk.full {done : List (QOp N K E)} {n2c : OMap Nat Nat} {c : Nat} {e : Exec N K E} {cols : List Nat}
    (h : RExecOk strict C' C D H done n2c c e cols) (hdone : ∀ o ∈ done, n2c.get o.left = n2c.get o.right)
    (hsub : ∀ n, (C' n).Subperm (C n)) {n : Nat} (hn : n ∈ cols) {d : NsDesc N K E} (hd : e.ns = some d) :
    RExecOk strict C' C D H done n2c c (e.full C n) cols ∧ D n = some d ∧ cols.idxOf n = 0 := by
  obtain ⟨x, rfl, h2, h3⟩ := h.ns d hd
  have : n = x := by simpa using hn
  subst this
  have hsat : ∀ X : Nat → List (SMatch N K), ∀ row ∈ prodRows X [n], sat H done [n] row = true := by
    intro X row hr
    unfold sat
    rw [List.all_eq_true]
    intro o ho
    unfold opHolds
    rw [colVal_of_not_mem (length_of_mem_prodRows hr) (by simpa using h3 o ho)]
  have hp : ∀ X : Nat → List (SMatch N K), prodRows X [n] = (X n).map fun m => [m] := by
    intro X; simp [prodRows, List.map_eq_flatMap]
  refine ⟨⟨h.comp, h.nonempty, h.mem, h.pos, ?_, ?_, h.ns⟩, h2, by simp⟩
  · refine (List.filter_sublist.subperm).trans ?_
    rw [hp]
    exact Subperm.map' _ (hsub n)
  · rw [List.filter_eq_self.2 (hsat C), hp]
    exact List.Subperm.refl _

/-- The execution node without the description of its search. -/
def Exec.plain (e : Exec N K E) : Exec N K E := { e with ns := none }

theorem RExecOk.plain {done : List (QOp N K E)} {n2c : OMap Nat Nat} {c : Nat} {e : Exec N K E} {cols : List Nat}
    (h : RExecOk strict C' C D H done n2c c e cols) : RExecOk strict C' C D H done n2c c e.plain cols :=
  ⟨h.comp, h.nonempty, h.mem, h.pos, h.lower, h.rows, fun d hd => by simp [Exec.plain] at hd⟩

theorem RPlanInv.joinStep {nodes : List Nat} {done : List (QOp N K E)} {s : PlanState N K E} (h : RPlanInv strict C' C D H nodes done s)
    (hsub : ∀ n, (C' n).Subperm (C n)) {o : QOp N K E}
    (hopOk : OpOk C D (H o) o strict) {switch : Bool} {op : OpImpl N K E} {inv : Option (OpImpl N K E)} {l r : Nat}
    (hor : o.oriented switch = (op, inv, l, r)) {cl cr : Nat} (hl : s.n2c.get l = some cl) (hr : s.n2c.get r = some cr) (hne : cl ≠ cr)
    {L R : Exec N K E} (hL : s.execs.get cl = some L) (hR : s.execs.get cr = some R)
    {iL iR : Nat} (hiL : L.pos.get l = some iL) (hiR : R.pos.get r = some iR) :
    (∃ new, CreateJoin op inv o.globalReflexivity L R iL iR new) ∧
      ∀ new, CreateJoin op inv o.globalReflexivity L R iL iR new →
        RPlanInv strict C' C D H nodes (o :: done) ⟨((s.execs.erase cl).erase cr).insert new.comp new,
          updateComponents (updateComponents s.n2c cl new.comp) cr new.comp⟩ := by
  obtain ⟨G, hop, hinv, hG, hlr⟩ := oriented_spec hopOk hor
  obtain ⟨A, hA⟩ := h.ok cl L hL
  obtain ⟨B, hB⟩ := h.ok cr R hR
  have hdone := fun o ho => (h.done o ho).2.2
  have hlm := (hA.colIn hiL).1
  have hli := (hA.colIn hiL).2.1
  have hrm := (hB.colIn hiR).1
  have hri := (hB.colIn hiR).2.1
  have none : ∀ (e : Exec N K E) {d : Option (NsDesc N K E)} {i : Nat} {rows : List (Row N K)},
      ∀ d', e.plain.ns = some d' → d = some d' ∧ i = 0 ∧ e.plain.rows = rows := by
    intro e d i rows d' hd'; simp [Exec.plain] at hd'
  -- the three ways to join
  have idx : ∀ d ret, R.ns = some d → op.retrieve = some ret →
      (∃ new, CreateJoin op inv o.globalReflexivity L.plain (R.full C r) iL iR new) ∧
      ∀ new, CreateJoin op inv o.globalReflexivity L.plain (R.full C r) iL iR new → JoinOk strict G L.plain (R.full C r) iL iR new := by
    intro d ret hd _
    obtain ⟨hF, hD, h0⟩ := hB.full hdone hsub hrm hd
    refine createJoin_spec hop hinv (hA.plain.colIn hiL).2.2 (hF.colIn hiR).2.2 (none L) fun d' hd' => ?_
    have : R.ns = some d' := hd'
    rw [hd] at this
    exact ⟨hD.trans this, by rw [hri]; exact h0, rfl⟩
  have idxInv : ∀ d, L.ns = some d →
      (∃ new, CreateJoin op inv o.globalReflexivity (L.full C l) R.plain iL iR new) ∧
      ∀ new, CreateJoin op inv o.globalReflexivity (L.full C l) R.plain iL iR new → JoinOk strict G (L.full C l) R.plain iL iR new := by
    intro d hd
    obtain ⟨hF, hD, h0⟩ := hA.full hdone hsub hlm hd
    refine createJoin_spec hop hinv (hF.colIn hiL).2.2 (hB.plain.colIn hiR).2.2 (fun d' hd' => ?_) (none R)
    have : L.ns = some d' := hd'
    rw [hd] at this
    exact ⟨hD.trans this, by rw [hli]; exact h0, rfl⟩
  have nested := createJoin_spec (L := L.plain) (R := R.plain) hop hinv (hA.plain.colIn hiL).2.2 (hB.plain.colIn hiR).2.2 (none L) (none R)
  constructor
  · by_cases h1 : R.ns = Option.none ∨ op.retrieve = Option.none
    · by_cases h2 : L.ns = Option.none ∨ ∀ o, inv = some o → o.retrieve = Option.none
      · obtain ⟨new, hnew⟩ := nested.1
        cases hnew with
        | index e1 => simp [Exec.plain] at e1
        | indexInv _ e1 => simp [Exec.plain] at e1
        | nestedLR _ _ e3 => exact ⟨_, .nestedLR h1 h2 e3⟩
        | nestedRL _ _ e3 => exact ⟨_, .nestedRL h1 h2 e3⟩
      · simp only [not_or, not_forall] at h2
        obtain ⟨hLn, i, hi, hir⟩ := h2
        obtain ⟨d, hd⟩ := Option.ne_none_iff_exists'.1 hLn
        obtain ⟨ret, hret⟩ := Option.ne_none_iff_exists'.1 hir
        obtain ⟨new, hnew⟩ := (idxInv d hd).1
        cases hnew with
        | index e1 => simp [Exec.plain] at e1
        | indexInv _ e1 e2 e3 e4 => exact ⟨_, .indexInv h1 e1 e2 e3 e4⟩
        | nestedLR _ e2 _ =>
          rcases e2 with e2 | e2
          · exact absurd e2 hLn
          · exact absurd (e2 i hi) hir
        | nestedRL _ e2 _ =>
          rcases e2 with e2 | e2
          · exact absurd e2 hLn
          · exact absurd (e2 i hi) hir
    · simp only [not_or] at h1
      obtain ⟨d, hd⟩ := Option.ne_none_iff_exists'.1 h1.1
      obtain ⟨ret, hret⟩ := Option.ne_none_iff_exists'.1 h1.2
      obtain ⟨new, hnew⟩ := (idx d ret hd hret).1
      cases hnew with
      | index e1 e2 e3 => exact ⟨_, .index e1 e2 e3⟩
      | indexInv e1 => rcases e1 with e1 | e1; exacts [absurd e1 h1.1, absurd e1 h1.2]
      | nestedLR e1 => rcases e1 with e1 | e1; exacts [absurd e1 h1.1, absurd e1 h1.2]
      | nestedRL e1 => rcases e1 with e1 | e1; exacts [absurd e1 h1.1, absurd e1 h1.2]
  · intro new hnew
    cases hnew with
    | index e1 e2 e3 =>
      obtain ⟨hF, _, _⟩ := hB.full hdone hsub hrm e1
      exact h.joinUpdate hG hlr hl hr hne hA.plain hF hiL hiR ((idx _ _ e1 e2).2 _ (.index e1 e2 e3))
    | indexInv e1 e2 e3 e4 e5 =>
      obtain ⟨hF, _, _⟩ := hA.full hdone hsub hlm e2
      exact h.joinUpdate hG hlr hl hr hne hF hB.plain hiL hiR ((idxInv _ e2).2 _ (.indexInv (Or.inl rfl) e2 e3 e4 e5))
    | nestedLR e1 e2 e3 =>
      exact h.joinUpdate hG hlr hl hr hne hA.plain hB.plain hiL hiR (nested.2 _ (.nestedLR (Or.inl rfl) (Or.inl rfl) e3))
    | nestedRL e1 e2 e3 =>
      exact h.joinUpdate hG hlr hl hr hne hA.plain hB.plain hiL hiR (nested.2 _ (.nestedRL (Or.inl rfl) (Or.inl rfl) e3))

theorem RPlanInv.addOp {nodes : List Nat} {done : List (QOp N K E)} {s s' : PlanState N K E} (h : RPlanInv strict C' C D H nodes done s)
    (hsub : ∀ n, (C' n).Subperm (C n)) {o : QOp N K E}
    (hop : OpOk C D (H o) o strict) (ha : AddOp o s s') : RPlanInv strict C' C D H nodes (o :: done) s' := by
  cases ha with
  | filter hor hl hr hL hiL hiR hrows =>
    obtain ⟨_, _, h2⟩ := h.filterStep hop hor hl hr hL hiL hiR
    exact h2 _ hrows
  | join hor hl hr hne hL hiL hR hiR hj => exact (h.joinStep hsub hop hor hl hr hne hL hR hiL hiR).2 _ hj

theorem RPlanInv.addOp_exists {nodes : List Nat} {done : List (QOp N K E)} {s : PlanState N K E} (h : RPlanInv strict C' C D H nodes done s)
    (hsub : ∀ n, (C' n).Subperm (C n)) {o : QOp N K E}
    (hop : OpOk C D (H o) o strict) (hl : o.left ∈ nodes) (hr : o.right ∈ nodes) : ∃ s', AddOp o s s' := by
  have hor : ∃ op inv, o.oriented false = (op, inv, o.left, o.right) := by
    unfold QOp.oriented
    cases o.inv with
    | none => exact ⟨_, _, rfl⟩
    | some i => exact ⟨_, _, rfl⟩
  obtain ⟨op, inv, hor⟩ := hor
  obtain ⟨cl, hcl⟩ := Option.isSome_iff_exists.1 ((h.dom _).2 hl)
  obtain ⟨cr, hcr⟩ := Option.isSome_iff_exists.1 ((h.dom _).2 hr)
  obtain ⟨L, hL⟩ := h.exec _ _ hcl
  obtain ⟨R, hR⟩ := h.exec _ _ hcr
  obtain ⟨A, hA⟩ := h.ok cl L hL
  obtain ⟨B, hB⟩ := h.ok cr R hR
  have hiL : L.pos.get o.left = some (A.idxOf o.left) := by rw [hA.pos.get, if_pos ((hA.mem _).2 hcl)]
  have hiR : R.pos.get o.right = some (B.idxOf o.right) := by rw [hB.pos.get, if_pos ((hB.mem _).2 hcr)]
  by_cases hc : cl = cr
  · subst hc
    rw [hL, Option.some.injEq] at hR
    subst hR
    obtain ⟨rows, hrows, _⟩ := h.filterStep hop hor hcl hcr hL hiL hiR
    exact ⟨_, .filter hor hcl hcr hL hiL hiR hrows⟩
  · obtain ⟨⟨new, hnew⟩, _⟩ := h.joinStep hsub hop hor hcl hcr hc hL hR hiL hiR
    exact ⟨_, .join hor hcl hcr hc hL hiL hR hiR hnew⟩

theorem RPlanInv.addOps {nodes : List Nat} (hsub : ∀ n, (C' n).Subperm (C n)) {ops : List (QOp N K E)} {s s' : PlanState N K E}
    (ha : AddOps ops s s') : ∀ {done}, RPlanInv strict C' C D H nodes done s → (∀ o ∈ ops, OpOk C D (H o) o strict) →
      RPlanInv strict C' C D H nodes (ops.reverse ++ done) s' := by
  induction ha with
  | nil => intro done h _; exact h
  | cons h1 _ ih =>
    intro done h hop
    have := ih (h.addOp hsub (hop _ List.mem_cons_self) h1) (fun o ho => hop o (List.mem_cons_of_mem _ ho))
    simpa using this

theorem RPlanInv.addOps_exists {nodes : List Nat} (hsub : ∀ n, (C' n).Subperm (C n)) (ops : List (QOp N K E)) :
    ∀ {done} {s : PlanState N K E}, RPlanInv strict C' C D H nodes done s → (∀ o ∈ ops, OpOk C D (H o) o strict) →
      (∀ o ∈ ops, o.left ∈ nodes ∧ o.right ∈ nodes) → ∃ s', AddOps ops s s' := by
  induction ops with
  | nil => intro done s _ _ _; exact ⟨s, .nil⟩
  | cons o ops ih =>
    intro done s h hop hn
    obtain ⟨s1, h1⟩ := h.addOp_exists hsub (hop o List.mem_cons_self) (hn o List.mem_cons_self).1 (hn o List.mem_cons_self).2
    obtain ⟨s2, h2⟩ := ih (h.addOp hsub (hop o List.mem_cons_self) h1) (fun o ho => hop o (List.mem_cons_of_mem _ ho))
      (fun o ho => hn o (List.mem_cons_of_mem _ ho))
    exact ⟨s2, .cons h1 h2⟩

/-! ## Searches with fewer matches -/

/-- The searches of the plan and the original ones: the same nodes are optional, the descriptions are the same, and there may be fewer
matches. -/
structure Fewer (S' S : List (Option (List (SMatch N K) × Option (NsDesc N K E)))) : Prop where
  length : S'.length = S.length
  search : ∀ n : Nat, (S[n]? = some none → S'[n]? = some none) ∧
    ∀ ms dd, S[n]? = some (some (ms, dd)) → ∃ ms', S'[n]? = some (some (ms', dd)) ∧ ms'.Subperm ms

variable {S' S : List (Option (List (SMatch N K) × Option (NsDesc N K E)))}

theorem Fewer.get (h : Fewer S' S) (n : Nat) : (S[n]? = none ∧ S'[n]? = none) ∨ (S[n]? = some none ∧ S'[n]? = some none) ∨
    ∃ ms ms' dd, S[n]? = some (some (ms, dd)) ∧ S'[n]? = some (some (ms', dd)) ∧ ms'.Subperm ms := by
  cases hs : S[n]? with
  | none =>
    left
    refine ⟨rfl, ?_⟩
    rw [List.getElem?_eq_none_iff] at hs ⊢
    rw [h.length]; exact hs
  | some x =>
    right
    cases x with
    | none => exact Or.inl ⟨rfl, (h.search n).1 hs⟩
    | some p =>
      obtain ⟨ms, dd⟩ := p
      obtain ⟨ms', h1, h2⟩ := (h.search n).2 ms dd hs
      exact Or.inr ⟨ms, ms', dd, rfl, h1, h2⟩

theorem Fewer.candidates (h : Fewer S' S) (d : SMatch N K) (n : Nat) : (candidatesOf d S' n).Subperm (candidatesOf d S n) := by
  unfold candidatesOf
  rcases h.get n with ⟨h1, h2⟩ | ⟨h1, h2⟩ | ⟨ms, ms', dd, h1, h2, h3⟩
  · rw [h1, h2]
  · rw [h1, h2]
  · rw [h1, h2]; exact h3

theorem Fewer.desc (h : Fewer S' S) : descOf S' = descOf S := by
  funext n
  unfold descOf
  rcases h.get n with ⟨h1, h2⟩ | ⟨h1, h2⟩ | ⟨ms, ms', dd, h1, h2, h3⟩ <;> rw [h1, h2]

theorem Fewer.mandatory (h : Fewer S' S) : mandatory S' = mandatory S := by
  unfold _root_.mandatory
  rw [h.length]
  refine List.filter_congr fun n _ => ?_
  rcases h.get n with ⟨h1, h2⟩ | ⟨h1, h2⟩ | ⟨ms, ms', dd, h1, h2, h3⟩ <;> rw [h1, h2]

theorem Fewer.isNone (h : Fewer S' S) : S'.map Option.isNone = S.map Option.isNone := by
  refine List.ext_getElem? fun n => ?_
  rw [List.getElem?_map, List.getElem?_map]
  rcases h.get n with ⟨h1, h2⟩ | ⟨h1, h2⟩ | ⟨ms, ms', dd, h1, h2, h3⟩ <;> rw [h1, h2] <;> rfl

theorem initPlan_rinv (h : Fewer S' S) (d : SMatch N K) (H : QOp N K E → SMatch N K → SMatch N K → Bool) :
    RPlanInv strict (candidatesOf d S') (candidatesOf d S) (descOf S) H (mandatory S) [] (initPlan S') := by
  have hi := initPlan_inv (strict := strict) d S' H
  refine ⟨hi.sorted, hi.n2cSorted, fun n => by rw [hi.dom, h.mandatory], hi.exec, fun c e hc => ?_, fun o ho => by simp at ho⟩
  obtain ⟨cols, hcols⟩ := hi.ok c e hc
  obtain ⟨_, h2, h3⟩ := initPlan_get S'
  have hone : ∃ n, cols = [n] := by
    have hne := hcols.nonempty
    have hall : ∀ n ∈ cols, n = c := by
      intro n hn
      have := (hcols.mem n).1 hn
      rw [(h3 n).2] at this
      rcases h.get n with ⟨_, g2⟩ | ⟨_, g2⟩ | ⟨_, _, _, _, g2, _⟩ <;> rw [g2] at this <;> simp at this
      exact this
    obtain ⟨x, rest, rfl⟩ := List.exists_cons_of_ne_nil hne
    have hx := hall x (by simp)
    cases rest with
    | nil => exact ⟨x, rfl⟩
    | cons y rest =>
      have hy := hall y (by simp)
      have := hcols.pos.nodup
      simp [hx, hy] at this
  obtain ⟨n, rfl⟩ := hone
  refine ⟨[n], ⟨hcols.comp, hcols.nonempty, hcols.mem, hcols.pos, hcols.lower, ?_, fun d' hd' => ?_⟩⟩
  · refine hcols.rows.trans ?_
    have hp : ∀ X : Nat → List (SMatch N K), prodRows X [n] = (X n).map fun m => [m] := by
      intro X; simp [prodRows, List.map_eq_flatMap]
    rw [hp, hp]
    exact List.Subperm.filter _ (Subperm.map' _ (h.candidates d n))
  · obtain ⟨x, g1, g2, _⟩ := hcols.ns d' hd'
    exact ⟨x, g1, by rw [← h.desc]; exact g2, fun o ho => by simp at ho⟩

/-- The rows of the first execution node when all nodes are in one component. -/
theorem RPlanInv.result (hS : Fewer S' S) (d : SMatch N K) {done : List (QOp N K E)} {s : PlanState N K E}
    (hfin : RPlanInv strict (candidatesOf d S') (candidatesOf d S) (descOf S) H (mandatory S) done s) {p : Nat × Exec N K E}
    (hp : s.execs.head? = some p) (hconn : ∀ a ∈ mandatory S, ∀ b ∈ mandatory S, s.n2c.get a = s.n2c.get b) :
    ∃ rows : List (Row N K), p.2.rows.map (reorderMatch d (inversePos p.2.pos)) = rows.map some ∧
      ((answers d S' H done).filter fun row => !strict || decide (distinctAnswer d S' row)).Subperm rows ∧
      rows.Subperm (answers d S H done) := by
  have hget : s.execs.get p.1 = some p.2 := by
    refine OMap.get_of_mem hfin.sorted ?_
    exact List.mem_of_mem_head? (by rw [hp]; exact rfl)
  obtain ⟨cols, hcols⟩ := hfin.ok _ _ hget
  obtain ⟨n0, hn0⟩ := List.exists_mem_of_ne_nil _ hcols.nonempty
  have hn0' := (hcols.mem n0).1 hn0
  have hn0m : n0 ∈ mandatory S := (hfin.dom n0).1 (by rw [hn0']; rfl)
  have hcm : ∀ n, n ∈ cols ↔ n ∈ mandatory S := by
    intro n
    rw [hcols.mem]
    constructor
    · intro h; exact (hfin.dom n).1 (by rw [h]; rfl)
    · intro h
      rw [← hconn _ hn0m _ h]; exact hn0'
  have hmn : (mandatory S).Nodup := List.nodup_range.filter _
  have hcp : cols.Perm (mandatory S) := (List.perm_ext_iff_of_nodup hcols.pos.nodup hmn).2 hcm
  have hcp' : cols.Perm (mandatory S') := by rw [hS.mandatory]; exact hcp
  have hopsIn : ∀ o ∈ done, o.left ∈ cols ∧ o.right ∈ cols := fun o ho => ⟨(hcm _).2 (hfin.done o ho).1, (hcm _).2 (hfin.done o ho).2.1⟩
  refine ⟨p.2.rows.map fun row => (List.range (outWidth cols)).map (assign d cols row), ?_, ?_, ?_⟩
  · rw [List.map_map]
    refine List.map_congr_left fun row hr => ?_
    have := length_of_mem_prodRows (List.mem_filter.1 (hcols.rows.subset hr)).1
    exact C44_reorder d hcols.pos this
  · exact (rows_to_answers (strict := strict) d S' H done hcp' hcols.pos.nodup hopsIn).symm.subperm.trans (Subperm.map' _ hcols.lower)
  · have := rows_to_answers (strict := false) d S H done hcp hcols.pos.nodup hopsIn
    simp only [Bool.not_false, Bool.true_or, List.filter_true] at this
    refine (Subperm.map' _ hcols.rows).trans (List.Perm.subperm ?_)
    refine (List.Perm.of_eq ?_).trans this
    congr 1
    refine List.filter_congr fun row _ => ?_
    simp [satD]

/-- C61 for plans in which node searches have been replaced by ones with fewer matches: there is a plan for every order, and the rows of
every plan are between the answers from the matches of the plan and those from the original matches. -/
theorem plan_fewer (hS : Fewer S' S) (d : SMatch N K) (H : QOp N K E → SMatch N K → SMatch N K → Bool) (ops : List (QOp N K E))
    (hok : ∀ o ∈ ops, OpOk (candidatesOf d S) (descOf S) (H o) o strict)
    (hin : ∀ o ∈ ops, o.left ∈ mandatory S ∧ o.right ∈ mandatory S) (hne : mandatory S ≠ [])
    (binding : QOp N K E → Bool) (offset : Nat) (hconn : checkConnected (shapeOf S ops binding offset) = true)
    (order : List (QOp N K E)) (horder : order.Perm ops) :
    (∃ e, MakePlan S' order e) ∧
    ∀ e, MakePlan S' order e →
      ∃ rows : List (Row N K), e.rows.map (reorderMatch d (inversePos e.pos)) = rows.map some ∧
        ((answers d S' H ops).filter fun row => !strict || decide (distinctAnswer d S' row)).Subperm rows ∧
        rows.Subperm (answers d S H ops) := by
  have hinit := initPlan_rinv (strict := strict) hS d H
  have hsub := hS.candidates d
  have hok' : ∀ o ∈ order, OpOk (candidatesOf d S) (descOf S) (H o) o strict := fun o ho => hok o (horder.mem_iff.1 ho)
  have hin' : ∀ o ∈ order, o.left ∈ mandatory S ∧ o.right ∈ mandatory S := fun o ho => hin o (horder.mem_iff.1 ho)
  constructor
  · obtain ⟨s, hs⟩ := RPlanInv.addOps_exists hsub order hinit hok' hin'
    have hfin := RPlanInv.addOps hsub hs hinit hok'
    obtain ⟨n, hn⟩ := List.exists_mem_of_ne_nil _ hne
    obtain ⟨c, hc⟩ := Option.isSome_iff_exists.1 ((hfin.dom n).2 hn)
    obtain ⟨e, he⟩ := hfin.exec n c hc
    cases hx : s.execs with
    | nil => rw [hx] at he; simp at he
    | cons p rest => exact ⟨p.2, .mk hs (by rw [hx]; rfl)⟩
  · intro e he
    cases he with
    | @mk s p hs hp =>
      have hfin := RPlanInv.addOps hsub hs hinit hok'
      -- all nodes are in the component
      have hsame : ∀ a b, Relation.EqvGen (shapeOf S ops binding offset).Edge a b → s.n2c.get (a - offset) = s.n2c.get (b - offset) := by
        intro a b hab
        induction hab with
        | rel x y hxy =>
          obtain ⟨h1, _, _⟩ := hxy
          obtain ⟨o, ho, h2⟩ := List.mem_map.1 h1
          simp only [Prod.mk.injEq] at h2
          obtain ⟨rfl, rfl, _⟩ := h2
          rw [Nat.add_sub_cancel_left, Nat.add_sub_cancel_left]
          exact (hfin.done o (by simpa using horder.mem_iff.2 ho)).2.2
        | refl x => rfl
        | symm x y _ ih => exact ih.symm
        | trans x y z _ _ ih1 ih2 => exact ih1.trans ih2
      have hcon := (C41_connected _).1 hconn
      have := hfin.result hS d hp fun a ha b hb => by
        have := hsame (offset + a) (offset + b)
          (hcon _ ((nodes_shapeOf S ops binding offset _).2 ⟨a, ha, rfl⟩) _
            ((nodes_shapeOf S ops binding offset _).2 ⟨b, hb, rfl⟩))
        rwa [Nat.add_sub_cancel_left, Nat.add_sub_cancel_left] at this
      have hmem : ∀ o, o ∈ order.reverse ++ [] ↔ o ∈ ops := fun o => by simpa using horder.mem_iff
      rwa [answers_congr d S H hmem, answers_congr d S' H hmem] at this

end
