import Verif.PrePost.Laminar
import Verif.Gs.AdjSource
import Verif.Linear.Lemmas

/-!
# What a copied pre/post-order storage contains
-/

set_option linter.unusedSimpArgs false
set_option linter.unusedSectionVars false

namespace PrePostGs

variable {N S W : Type} [LinearOrder N] [LinearOrder S] [OrderBot S] [LinearOrder W]
variable {o : Source N S W} {E : N → N → Prop} {A : N → N → AnnoKey S → Option W}

theorem edge_eq (h : o.Is E A) : Dfs.Edge o.out = E := by
  funext x y; exact propext (h.out_iff x y)

/-- The entries for one root. -/
def rootEnts (o : Source N S W) (root : N) (c : Nat) : List (Ent N) × Nat :=
  number o.out usizeMax (o.nodes.length + 1) [] root c

theorem mem_sub [U64 N] (h : o.Is E A) (hac : Walk.Acyclic E) (root : N) (q : List N) :
    q ∈ Dfs.subPaths o.out usizeMax (o.nodes.length + 1) [] root ↔ ∃ n, Walk.IsWalk E root n q := by
  have := Dfs.mem_paths usizeMax root h.dcovers q
  rw [List.length_cons, edge_eq h] at this
  rw [this]
  constructor
  · rintro ⟨_, h2, _⟩; exact h2
  · rintro ⟨n, hw⟩
    cases q with
    | nil => simp [Walk.IsWalk] at hw
    | cons x t =>
      have hs : Walk.SimplePath E root n t.length := Walk.simple_of_acyclic hac ⟨_, hw, by simp⟩
      refine ⟨?_, ⟨n, hw⟩, ?_⟩
      · have hpw : (x :: t).Pairwise (Relation.TransGen E) :=
          List.isChain_iff_pairwise.1 (hw.2.2.imp (fun _ _ h => Relation.TransGen.single h))
        rw [List.nodup_iff_pairwise_ne]
        exact hpw.imp (fun {x y} h e => by subst e; exact hac _ h)
      · have := Adj.simplePath_le hs
        simp only [List.length_cons]; omega

theorem copyRoot_eq [U64 N] (h : o.Is E A) (hac : Walk.Acyclic E) {lvlCap : Nat}
    (hl : ∀ a b d, Walk.WalkLen E a b d → d ≤ lvlCap) (st : CState N) (root : N) :
    copyRoot lvlCap o st root = ⟨(rootEnts o root st.cur).2, [], pushAll st.done (rootEnts o root st.cur).1⟩ := by
  have hlen : ∀ q ∈ Dfs.subPaths o.out usizeMax (o.nodes.length + 1) [] root, q.length ≤ lvlCap + 1 := by
    intro q hq
    obtain ⟨n, hw⟩ := (mem_sub h hac root q).1 hq
    cases q with
    | nil => simp
    | cons x t =>
      have := hl root n t.length ⟨_, hw, by simp⟩
      simp only [List.length_cons]; omega
  have hum : (0 : Nat) < usizeMax := by decide
  have hs : Dfs.steps o.out o.nodes root 1 usizeMax =
      (o.out root).reverse.flatMap (sub o.out usizeMax o.nodes.length [root]) := by
    rw [Dfs.steps_eq 1 usizeMax root false h.dcovers, List.length_cons]
    unfold Dfs.subPaths
    simp only [List.not_mem_nil, if_false, List.nil_append, List.length_nil, hum, if_true]
    have hr : Dfs.report 1 usizeMax [root] = none := by simp [Dfs.report]
    rw [List.filterMap_cons, hr]
    simp only
    rw [List.filterMap_flatMap]
    rfl
  unfold copyRoot
  rw [hs]
  obtain ⟨st2, last2, e2, a2, b2, x2⟩ := machine_children o.out usizeMax lvlCap o.nodes.length [root]
    (fun node st last hq g1 g2 => machine o.out usizeMax lvlCap o.nodes.length [root] node st last (by simp)
      (by simp only [List.length_singleton]; omega) hq g1 g2)
    (o.out root).reverse (enter { st with stack := [] } root 0) 0 (by
      intro c hc q hq
      apply hlen
      unfold Dfs.subPaths
      simp only [List.not_mem_nil, if_false, List.nil_append, List.length_nil, hum, if_true]
      exact List.mem_cons_of_mem _ (List.mem_flatMap.2 ⟨c, hc, hq⟩)) (by simp [enter]) (by simp)
  rw [e2]
  simp only
  rw [exitTo_succ (by omega)]
  have e1 : exitTo [root].length (enter { st with stack := [] } root 0) = enter { st with stack := [] } root 0 :=
    exitTo_of_le (by simp [enter])
  rw [e1] at x2
  simp only [List.length_singleton] at x2
  simp only [Nat.zero_add]
  rw [x2]
  unfold rootEnts
  rw [number_succ]
  simp only [List.not_mem_nil, if_false, List.nil_append, List.length_nil, hum, if_true, enter, exit, pushAll_append]
  simp only [pushAll, List.foldl_cons, List.foldl_nil, Ent.pp, List.length_singleton, Nat.sub_self]

/-- Facts about the entries collected for the roots in `R`. -/
structure Ents (E : N → N → Prop) (R : N → Prop) (l : List (Ent N)) (hi : Nat) : Prop where
  good : Good l 0 hi
  walk : ∀ e ∈ l, ∃ r, R r ∧ Walk.IsWalk E r e.node e.path
  complete : ∀ r n q, R r → Walk.IsWalk E r n q → ∃ e ∈ l, e.path = q ∧ e.node = n

theorem foldl_copyRoot [U64 N] (h : o.Is E A) (hac : Walk.Acyclic E) {lvlCap : Nat}
    (hl : ∀ a b d, Walk.WalkLen E a b d → d ≤ lvlCap) (rs : List N) : ∀ (R : N → Prop) (l : List (Ent N)) (c : Nat),
    Ents E R l c → rs.Nodup → (∀ r ∈ rs, ¬ R r) →
    ∃ l' c' , rs.foldl (copyRoot lvlCap o) ⟨c, [], pushAll [] l⟩ = ⟨c', [], pushAll [] l'⟩ ∧
      Ents E (fun r => R r ∨ r ∈ rs) l' c' := by
  induction rs with
  | nil => intro R l c he _ _; exact ⟨l, c, rfl, by simpa using he⟩
  | cons r rs ih =>
    intro R l c he hn hd
    rw [List.nodup_cons] at hn
    rw [List.foldl_cons, copyRoot_eq h hac hl]
    simp only
    rw [← pushAll_append]
    have hs := number_spec o.out usizeMax h.out_nodup (o.nodes.length + 1) [] r c
    have hE2 : Ents E (fun x => R x ∨ x = r) (l ++ (rootEnts o r c).1) (rootEnts o r c).2 := by
      refine ⟨?_, ?_, ?_⟩
      · have hg := hs.good
        refine ⟨le_trans he.good.le hg.le, ?_, ?_, ?_⟩
        · intro e hm
          rcases List.mem_append.1 hm with hm | hm
          · have := he.good.bounds e hm
            refine ⟨by omega, by omega, ?_⟩
            have h1 : e.post < c := by omega
            exact lt_of_lt_of_le h1 hg.le
          · have := hg.bounds e hm
            exact ⟨by omega, by omega, this.2.2⟩
        · have hinc : ∀ e ∈ l, ∀ f ∈ (rootEnts o r c).1, ¬ e.path <+: f.path ∧ ¬ f.path <+: e.path := by
            intro e hm f hf
            obtain ⟨r', hr', hw⟩ := he.walk e hm
            obtain ⟨⟨t, ht⟩, _⟩ := hs.shape f hf
            simp only [List.nil_append] at ht
            have hne : r' ≠ r := fun e => hd r (by simp) (e ▸ hr')
            have h1 := hw.1
            cases hp : e.path with
            | nil => rw [hp] at h1; simp at h1
            | cons x u =>
              rw [hp] at h1
              simp only [List.head?_cons, Option.some.injEq] at h1
              subst h1
              rw [ht]
              exact ⟨fun hpre => hne (List.cons_prefix_cons.1 hpre).1, fun hpre => hne (List.cons_prefix_cons.1 hpre).1.symm⟩
          exact (he.good.append hg hinc).lam
        · have := he.good.count
          have h2 := hg.count
          rw [List.length_append]
          unfold rootEnts
          omega
      · intro e hm
        rcases List.mem_append.1 hm with hm | hm
        · obtain ⟨r', hr', hw⟩ := he.walk e hm
          exact ⟨r', Or.inl hr', hw⟩
        · obtain ⟨n, hw⟩ := (mem_sub h hac r _).1 (hs.sound e hm)
          have h2 := (hs.shape e hm).2
          rw [hw.2.1] at h2
          injection h2 with h2
          subst h2
          exact ⟨r, Or.inr rfl, hw⟩
      · rintro r' n q (hr' | rfl) hw
        · obtain ⟨e, h1, h2⟩ := he.complete r' n q hr' hw
          exact ⟨e, List.mem_append.2 (Or.inl h1), h2⟩
        · obtain ⟨e, h1, h2⟩ := hs.complete q ((mem_sub h hac r' q).2 ⟨n, hw⟩)
          refine ⟨e, List.mem_append.2 (Or.inr h1), h2, ?_⟩
          have h3 := (hs.shape e h1).2
          rw [h2, hw.2.1] at h3
          injection h3 with h3
          exact h3.symm
    obtain ⟨l', c', e1, e2⟩ := ih _ _ _ hE2 hn.2 (by
      rintro y hy (hc | rfl)
      · exact hd y (by simp [hy]) hc
      · exact hn.1 hy)
    refine ⟨l', c', e1, ?_⟩
    have e : (fun y => (R y ∨ y = r) ∨ y ∈ rs) = (fun y => R y ∨ y ∈ r :: rs) := by
      funext y; rw [List.mem_cons, or_assoc]
    rw [← e]
    exact e2

/-- What a copied storage contains. -/
structure Rep (g : PrePostGs N S W) (E : N → N → Prop) (A : N → N → AnnoKey S → Option W) (R : N → Prop)
    (l : List (Ent N)) : Prop where
  ents : Ents E R l g.order.length
  sorted : g.nodeToOrder.Sorted
  isSome : ∀ n, (g.nodeToOrder.get n).isSome ↔ ∃ e ∈ l, e.node = n
  orders : ∀ n x, x ∈ (g.nodeToOrder.get n).getD [] ↔ ∃ e ∈ l, e.node = n ∧ e.pp = x
  pre : ∀ (i p v : Nat) (n : N), g.order[i]? = some (OEntry.pre p v n) ↔ ∃ e ∈ l, e.pre = i ∧ e.pp = ⟨i, p, v⟩ ∧ e.node = n
  post : ∀ (i p v : Nat) (n : N), g.order[i]? = some (OEntry.post p v n) ↔ ∃ e ∈ l, e.post = i ∧ e.pp = ⟨p, i, v⟩ ∧ e.node = n
  anno : g.annos.Inv
  val : ∀ a b k, g.annos.getValue (toLex (a, b)) k = if ∃ e ∈ l, e.node = a then A a b k else none

theorem mem_writes {m : OMap N (List PP)} (hs : m.Sorted) (w : Nat × OEntry N) :
    w ∈ writes m ↔ ∃ n x, x ∈ (m.get n).getD [] ∧
      (w = (x.pre, .pre x.post x.level n) ∨ w = (x.post, .post x.pre x.level n)) := by
  unfold writes
  simp only [List.mem_flatMap, Prod.exists, List.mem_cons, List.not_mem_nil, or_false]
  constructor
  · rintro ⟨n, xs, hx, x, hxm, hw⟩
    rw [OMap.mem_iff_get hs] at hx
    exact ⟨n, x, by rw [hx]; exact hxm, hw⟩
  · rintro ⟨n, x, hx, hw⟩
    cases hg : m.get n with
    | none => simp [hg] at hx
    | some xs =>
      rw [hg] at hx
      exact ⟨n, xs, (OMap.mem_iff_get hs).2 hg, x, hx, hw⟩

theorem foldl_annos (rs : List N) : ∀ (s : AnnoStore (N ×ₗ N) S W),
    rs.foldl (copyRootAnnos o) s =
      (rs.flatMap fun r => r :: (Dfs.steps o.out o.nodes r 1 usizeMax).map fun x => x.1).foldl
        (fun s a => o.copyNodeAnnos s a) s := by
  induction rs with
  | nil => intro s; rfl
  | cons r rs ih =>
    intro s
    rw [List.foldl_cons, ih, List.flatMap_cons, List.foldl_append]
    rfl

theorem copy_rep [U64 N] (h : o.Is E A) (hac : Walk.Acyclic E) {ordCap lvlCap : Nat}
    (hl : ∀ a b d, Walk.WalkLen E a b d → d ≤ lvlCap) (g0 : PrePostGs N S W) :
    ∃ l c, Ents E (fun r => r ∈ o.roots) l c ∧
      (c ≤ ordCap → (copy ordCap lvlCap g0 o).isSome) ∧
      ∀ g, copy ordCap lvlCap g0 o = some g → Rep g E A (fun r => r ∈ o.roots) l ∧ g.order.length = c := by
  have h0 : Ents E (fun _ => False) ([] : List (Ent N)) 0 := ⟨Good.nil 0, by simp, by simp⟩
  obtain ⟨l, c, e1, e2⟩ := foldl_copyRoot h hac hl o.roots (fun _ => False) [] 0 h0 h.root_nodup (by simp)
  simp only [false_or] at e2
  have hst : o.roots.foldl (copyRoot lvlCap o) ⟨0, [], []⟩ = ⟨c, [], pushAll [] l⟩ := e1
  refine ⟨l, c, e2, ?_, ?_⟩
  · intro hc
    unfold copy
    simp only [hst, hc, if_true]
    rfl
  · intro g hg
    unfold copy at hg
    simp only [hst] at hg
    split at hg
    swap
    · cases hg
    injection hg with hg
    obtain ⟨p1, p2, p3⟩ := pushAll_spec l [] OMap.sorted_nil
    have horders : ∀ n x, x ∈ ((pushAll [] l).get n).getD [] ↔ ∃ e ∈ l, e.node = n ∧ e.pp = x := by
      intro n x
      rw [p2]
      simp only [OMap.get_nil, Option.getD_none, List.nil_append, List.mem_map, List.mem_filter, decide_eq_true_eq,
        and_assoc]
    have hw : ∀ w, w ∈ writes (pushAll [] l) ↔ ∃ e ∈ l, w = (e.pre, .pre e.post (e.path.length - 1) e.node) ∨
        w = (e.post, .post e.pre (e.path.length - 1) e.node) := by
      intro w
      rw [mem_writes p1]
      constructor
      · rintro ⟨n, x, hx, hw⟩
        obtain ⟨e, he, rfl, rfl⟩ := (horders n x).1 hx
        exact ⟨e, he, hw⟩
      · rintro ⟨e, he, hw⟩
        exact ⟨e.node, e.pp, (horders _ _).2 ⟨e, he, rfl, rfl⟩, hw⟩
    have hdist : ∀ e ∈ l, ∀ f ∈ l, (e.pre = f.pre → e = f) ∧ (e.post = f.post → e = f) ∧ e.pre ≠ f.post := by
      intro e he f hf
      have b1 := e2.good.bounds e he
      have b2 := e2.good.bounds f hf
      rcases e2.good.lam e he f hf with rfl | ⟨_, _, h1, h2⟩ | ⟨_, _, h1, h2⟩ | ⟨_, _, h1⟩
      · exact ⟨fun _ => rfl, fun _ => rfl, by omega⟩
      · exact ⟨fun _ => by omega, fun _ => by omega, by omega⟩
      · exact ⟨fun _ => by omega, fun _ => by omega, by omega⟩
      · exact ⟨fun _ => by omega, fun _ => by omega, by omega⟩
    have hu : ∀ i a b, (i, a) ∈ writes (pushAll [] l) → (i, b) ∈ writes (pushAll [] l) → a = b := by
      intro i a b ha hb
      obtain ⟨e, he, ha⟩ := (hw _).1 ha
      obtain ⟨f, hf, hb⟩ := (hw _).1 hb
      obtain ⟨d1, d2, d3⟩ := hdist e he f hf
      have d4 := (hdist f hf e he).2.2
      rcases ha with ha | ha <;> rcases hb with hb | hb <;> injection ha with ha1 ha2 <;> injection hb with hb1 hb2
      · have := d1 (ha1.symm.trans hb1); subst this; rw [ha2, hb2]
      · exact absurd (ha1.symm.trans hb1) d3
      · exact absurd (hb1.symm.trans ha1) d4
      · have := d2 (ha1.symm.trans hb1); subst this; rw [ha2, hb2]
    obtain ⟨f1, f2⟩ := foldl_set (writes (pushAll [] l)) (List.replicate c OEntry.empty) hu
    rw [List.length_replicate] at f1 f2
    have hord : g.order = (writes (pushAll [] l)).foldl (fun v w => v.set w.1 w.2) (List.replicate c .empty) := by
      rw [← hg]
    have hlen : g.order.length = c := by rw [hord]; exact f1
    have hget : ∀ i a, a ≠ OEntry.empty → (g.order[i]? = some a ↔ (i, a) ∈ writes (pushAll [] l)) := by
      intro i a hne
      constructor
      · intro hi
        have hlt : i < c := by rw [← hlen]; exact (List.getElem?_eq_some_iff.1 hi).1
        rw [hord] at hi
        rcases f2 i hlt with ⟨b, hb, hx⟩ | ⟨_, hx⟩
        · rw [hi] at hx; injection hx with hx; rw [hx]; exact hb
        · rw [hi, List.getElem?_replicate] at hx
          simp [hlt] at hx
          exact absurd hx hne
      · intro hm
        have hlt : i < c := by
          obtain ⟨e, he, hx⟩ := (hw _).1 hm
          have b := e2.good.bounds e he
          rcases hx with hx | hx <;> injection hx with hx _ <;> omega
        rw [hord]
        rcases f2 i hlt with ⟨b, hb, hx⟩ | ⟨hno, _⟩
        · rw [hx, hu i b a hb hm]
        · exact absurd hm (hno a)
    have hannos : g.annos = o.roots.foldl (copyRootAnnos o) g0.clear.annos := by rw [← hg]
    have hnto : g.nodeToOrder = pushAll [] l := by rw [← hg]
    have hsp := Source.copyNodes_spec h (o.roots.flatMap fun r => r :: (Dfs.steps o.out o.nodes r 1 usizeMax).map fun x => x.1)
      (s := g0.clear.annos) (AnnoStore.Inv.clear _)
    rw [← foldl_annos, ← hannos] at hsp
    refine ⟨⟨by rw [hlen]; exact e2, by rw [hnto]; exact p1, ?_, ?_, ?_, ?_, hsp.1, ?_⟩, hlen⟩
    · intro n
      rw [hnto, p3]
      simp only [OMap.get_nil, Option.isSome_none, Bool.false_or, Bool.false_eq_true, false_or, List.any_eq_true, decide_eq_true_eq]
    · intro n x; rw [hnto]; exact horders n x
    · intro i p v n
      rw [hget i _ (by simp), hw]
      constructor
      · rintro ⟨e, he, hx | hx⟩
        · injection hx with hx1 hx2
          injection hx2 with x1 x2 x3
          exact ⟨e, he, hx1.symm, by unfold Ent.pp; rw [← x1, ← x2, ← hx1], x3.symm⟩
        · injection hx with _ hx2
          cases hx2
      · rintro ⟨e, he, rfl, hpp, rfl⟩
        unfold Ent.pp at hpp
        injection hpp with _ y2 y3
        exact ⟨e, he, Or.inl (by rw [y2, y3])⟩
    · intro i p v n
      rw [hget i _ (by simp), hw]
      constructor
      · rintro ⟨e, he, hx | hx⟩
        · injection hx with _ hx2
          cases hx2
        · injection hx with hx1 hx2
          injection hx2 with x1 x2 x3
          exact ⟨e, he, hx1.symm, by unfold Ent.pp; rw [← x1, ← x2, ← hx1], x3.symm⟩
      · rintro ⟨e, he, rfl, hpp, rfl⟩
        unfold Ent.pp at hpp
        injection hpp with y1 _ y3
        exact ⟨e, he, Or.inr (by rw [y1, y3])⟩
    · intro a b k
      rw [hsp.2]
      have hmem : (a ∈ o.roots.flatMap fun r => r :: (Dfs.steps o.out o.nodes r 1 usizeMax).map fun x => x.1) ↔
          ∃ e ∈ l, e.node = a := by
        simp only [List.mem_flatMap, List.mem_cons, List.mem_map, Prod.exists, exists_and_right, exists_eq_right]
        constructor
        · rintro ⟨r, hr, rfl | ⟨d, hd⟩⟩
          · obtain ⟨e, he, _, hn⟩ := e2.complete a a [a] hr ⟨rfl, rfl, by simp⟩
            exact ⟨e, he, hn⟩
          · obtain ⟨⟨q, hq, _⟩, _⟩ := (h.mem_steps r a 1 usizeMax d).1 hd
            obtain ⟨e, he, _, hn⟩ := e2.complete r a q hr hq
            exact ⟨e, he, hn⟩
        · rintro ⟨e, he, rfl⟩
          obtain ⟨r, hr, hw⟩ := e2.walk e he
          refine ⟨r, hr, ?_⟩
          cases hp : e.path with
          | nil => rw [hp] at hw; simp [Walk.IsWalk] at hw
          | cons x t =>
            rw [hp] at hw
            cases t with
            | nil =>
              left
              have h1 := hw.1
              have h2 := hw.2.1
              simp at h1 h2
              rw [← h1, ← h2]
            | cons y t =>
              right
              have hs := Walk.simple_of_acyclic hac (⟨_, hw, rfl⟩ : Walk.WalkLen E r e.node (t.length + 1))
              exact ⟨t.length + 1, (h.mem_steps r e.node 1 usizeMax _).2 ⟨hs, by omega, Adj.simplePath_le hs⟩⟩
      simp only [hmem]
      have hclear : g0.clear.annos.getValue (toLex (a, b)) k = none := Adj.getValue_clear _ _ _
      rw [hclear]
      by_cases hx : ∃ e ∈ l, e.node = a
      · simp only [hx, true_and, if_true]
        cases hA : A a b k <;> simp
      · simp [hx]

end PrePostGs
