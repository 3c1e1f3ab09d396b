import Verif.PrePost.Number

/-!
# The numbering is laminar: intervals are nested exactly for extended paths
-/

set_option linter.unusedSimpArgs false
set_option linter.unusedSectionVars false

namespace PrePostGs

variable {N : Type} [LinearOrder N]

/-- Relation between two numbered paths. -/
def Lam (e f : Ent N) : Prop :=
  e = f ∨ (e.path <+: f.path ∧ e.path ≠ f.path ∧ e.pre < f.pre ∧ f.post < e.post) ∨
    (f.path <+: e.path ∧ e.path ≠ f.path ∧ f.pre < e.pre ∧ e.post < f.post) ∨
    (¬ e.path <+: f.path ∧ ¬ f.path <+: e.path ∧ (e.post < f.pre ∨ f.post < e.pre))

theorem Lam.symm {e f : Ent N} (h : Lam e f) : Lam f e := by
  rcases h with h | ⟨a, b, c⟩ | ⟨a, b, c⟩ | ⟨a, b, c⟩
  · exact Or.inl h.symm
  · exact Or.inr (Or.inr (Or.inl ⟨a, fun e => b e.symm, c⟩))
  · exact Or.inr (Or.inl ⟨a, fun e => b e.symm, c⟩)
  · exact Or.inr (Or.inr (Or.inr ⟨b, a, c.symm⟩))

/-- The entries use the numbers `lo .. hi - 1` and are laminar. -/
structure Good (l : List (Ent N)) (lo hi : Nat) : Prop where
  le : lo ≤ hi
  bounds : ∀ e ∈ l, lo ≤ e.pre ∧ e.pre < e.post ∧ e.post < hi
  lam : ∀ e ∈ l, ∀ f ∈ l, Lam e f
  count : hi = lo + 2 * l.length

theorem Good.nil (c : Nat) : Good ([] : List (Ent N)) c c := ⟨le_refl _, by simp, by simp, by simp⟩

theorem Good.append {l1 l2 : List (Ent N)} {lo mid hi : Nat} (h1 : Good l1 lo mid) (h2 : Good l2 mid hi)
    (hinc : ∀ e ∈ l1, ∀ f ∈ l2, ¬ e.path <+: f.path ∧ ¬ f.path <+: e.path) : Good (l1 ++ l2) lo hi where
  le := le_trans h1.le h2.le
  bounds := by
    intro e he
    rcases List.mem_append.1 he with he | he
    · have := h1.bounds e he
      have := h2.le
      omega
    · have := h2.bounds e he
      have := h1.le
      omega
  lam := by
    intro e he f hf
    have cross : ∀ e ∈ l1, ∀ f ∈ l2, Lam e f := by
      intro e he f hf
      have a := h1.bounds e he
      have b := h2.bounds f hf
      exact Or.inr (Or.inr (Or.inr ⟨(hinc e he f hf).1, (hinc e he f hf).2, Or.inl (by omega)⟩))
    rcases List.mem_append.1 he with he | he <;> rcases List.mem_append.1 hf with hf | hf
    · exact h1.lam e he f hf
    · exact cross e he f hf
    · exact (cross f hf e he).symm
    · exact h2.lam e he f hf
  count := by
    have a := h1.count
    have b := h2.count
    rw [List.length_append]; omega

variable (next : N → List N) (max : Nat)

/-- Facts about the numbering of one subtree. -/
structure Spec (k : Nat) (p : List N) (node : N) (c : Nat) : Prop where
  good : Good (number next max k p node c).1 c (number next max k p node c).2
  shape : ∀ e ∈ (number next max k p node c).1, (∃ r, e.path = p ++ node :: r) ∧ e.path.getLast? = some e.node
  sound : ∀ e ∈ (number next max k p node c).1, e.path ∈ Dfs.subPaths next max k p node
  complete : ∀ q ∈ Dfs.subPaths next max k p node, ∃ e ∈ (number next max k p node c).1, e.path = q

theorem numbers_spec (k : Nat) (p : List N)
    (ih : ∀ (node : N) (c : Nat), Spec next max k p node c) (cs : List N) : cs.Nodup → ∀ c,
    Good (numbers next max k p cs c).1 c (numbers next max k p cs c).2 ∧
    (∀ e ∈ (numbers next max k p cs c).1, ∃ x ∈ cs, (∃ r, e.path = p ++ x :: r) ∧ e.path.getLast? = some e.node ∧
      e.path ∈ Dfs.subPaths next max k p x) ∧
    (∀ x ∈ cs, ∀ q ∈ Dfs.subPaths next max k p x, ∃ e ∈ (numbers next max k p cs c).1, e.path = q) := by
  induction cs with
  | nil => intro _ c; exact ⟨Good.nil c, by simp [numbers], by simp⟩
  | cons x cs ihc =>
    intro hn c
    rw [List.nodup_cons] at hn
    have hx := ih x c
    obtain ⟨g, s, cpl⟩ := ihc hn.2 (number next max k p x c).2
    rw [numbers_cons]
    simp only
    refine ⟨hx.good.append g ?_, ?_, ?_⟩
    · intro e he f hf
      obtain ⟨r, hr⟩ := (hx.shape e he).1
      obtain ⟨y, hy, ⟨r', hr'⟩, _⟩ := s f hf
      have hxy : x ≠ y := fun e => hn.1 (e ▸ hy)
      rw [hr, hr']
      constructor
      · intro hp
        rw [List.prefix_append_right_inj] at hp
        exact hxy (List.cons_prefix_cons.1 hp).1
      · intro hp
        rw [List.prefix_append_right_inj] at hp
        exact hxy (List.cons_prefix_cons.1 hp).1.symm
    · intro e he
      rcases List.mem_append.1 he with he | he
      · exact ⟨x, by simp, (hx.shape e he).1, (hx.shape e he).2, hx.sound e he⟩
      · obtain ⟨y, hy, h⟩ := s e he
        exact ⟨y, by simp [hy], h⟩
    · intro y hy q hq
      rcases List.mem_cons.1 hy with rfl | hy
      · obtain ⟨e, he, h⟩ := hx.complete q hq
        exact ⟨e, List.mem_append.2 (Or.inl he), h⟩
      · obtain ⟨e, he, h⟩ := cpl y hy q hq
        exact ⟨e, List.mem_append.2 (Or.inr he), h⟩

theorem number_spec (hnd : ∀ a, (next a).Nodup) (k : Nat) : ∀ (p : List N) (node : N) (c : Nat),
    Spec next max k p node c := by
  induction k with
  | zero =>
    intro p node c
    exact ⟨by simp [number, Good.nil], by simp [number], by simp [number], by simp [Dfs.subPaths]⟩
  | succ k ih =>
    intro p node c
    by_cases hmem : node ∈ p
    · have hn : number next max (k + 1) p node c = ([], c) := by rw [number_succ]; simp [hmem]
      have hs : Dfs.subPaths next max (k + 1) p node = [] := by unfold Dfs.subPaths; simp [hmem]
      exact ⟨by rw [hn]; exact Good.nil c, by rw [hn]; simp, by rw [hn]; simp, by rw [hs]; simp⟩
    · have hcs : (if p.length < max then (next node).reverse else []).Nodup := by
        split
        · exact List.nodup_reverse.2 (hnd node)
        · simp
      obtain ⟨g, s, cpl⟩ := numbers_spec next max k (p ++ [node]) (ih (p ++ [node])) _ hcs (c + 1)
      have hn := number_succ next max k p node c
      rw [if_neg hmem] at hn
      have hs : Dfs.subPaths next max (k + 1) p node = (p ++ [node]) ::
          (if p.length < max then (next node).reverse else []).flatMap (Dfs.subPaths next max k (p ++ [node])) := by
        conv_lhs => unfold Dfs.subPaths
        simp only [hmem, if_false]
        split <;> simp
      refine ⟨?_, ?_, ?_, ?_⟩
      · rw [hn]
        simp only
        refine ⟨by have := g.le; omega, ?_, ?_, ?_⟩
        · intro e he
          rcases List.mem_append.1 he with he | he
          · have := g.bounds e he
            omega
          · simp only [List.mem_singleton] at he
            subst he
            have := g.le
            simp only
            omega
        · have self : ∀ f ∈ (numbers next max k (p ++ [node]) (if p.length < max then (next node).reverse else []) (c + 1)).1,
              Lam ⟨p ++ [node], node, c,
                (numbers next max k (p ++ [node]) (if p.length < max then (next node).reverse else []) (c + 1)).2⟩ f := by
            intro f hf
            obtain ⟨x, _, ⟨r, hr⟩, _⟩ := s f hf
            have hb := g.bounds f hf
            refine Or.inr (Or.inl ⟨?_, ?_, by simp only; omega, hb.2.2⟩)
            · rw [hr]; exact List.prefix_append _ _
            · rw [hr]
              intro e
              have := congrArg List.length e
              simp at this
          intro e he f hf
          rcases List.mem_append.1 he with he | he <;> rcases List.mem_append.1 hf with hf | hf
          · exact g.lam e he f hf
          · simp only [List.mem_singleton] at hf
            subst hf
            exact (self e he).symm
          · simp only [List.mem_singleton] at he
            subst he
            exact self f hf
          · simp only [List.mem_singleton] at he hf
            subst he hf
            exact Or.inl rfl
        · have := g.count
          simp only [List.length_append, List.length_singleton]; omega
      · rw [hn]
        intro e he
        rcases List.mem_append.1 he with he | he
        · obtain ⟨x, _, ⟨r, hr⟩, hl, _⟩ := s e he
          exact ⟨⟨x :: r, by rw [hr]; simp⟩, hl⟩
        · simp only [List.mem_singleton] at he
          subst he
          exact ⟨⟨[], rfl⟩, by simp⟩
      · rw [hn, hs]
        intro e he
        rcases List.mem_append.1 he with he | he
        · obtain ⟨x, hx, _, _, hsub⟩ := s e he
          exact List.mem_cons_of_mem _ (List.mem_flatMap.2 ⟨x, hx, hsub⟩)
        · simp only [List.mem_singleton] at he
          subst he
          simp
      · rw [hn, hs]
        intro q hq
        rcases List.mem_cons.1 hq with rfl | hq
        · exact ⟨_, List.mem_append.2 (Or.inr (List.mem_singleton.2 rfl)), rfl⟩
        · obtain ⟨x, hx, hq⟩ := List.mem_flatMap.1 hq
          obtain ⟨e, he, h⟩ := cpl x hx q hq
          exact ⟨e, List.mem_append.2 (Or.inl he), h⟩

/-! ## Writing the order vector -/

theorem foldl_set {α : Type} (ws : List (Nat × α)) : ∀ (v : List α),
    (∀ i a b, (i, a) ∈ ws → (i, b) ∈ ws → a = b) →
    (ws.foldl (fun v w => v.set w.1 w.2) v).length = v.length ∧
    ∀ i, i < v.length → ((∃ a, (i, a) ∈ ws ∧ (ws.foldl (fun v w => v.set w.1 w.2) v)[i]? = some a) ∨
      ((∀ a, (i, a) ∉ ws) ∧ (ws.foldl (fun v w => v.set w.1 w.2) v)[i]? = v[i]?)) := by
  induction ws with
  | nil => intro v _; exact ⟨rfl, fun i _ => Or.inr ⟨by simp, rfl⟩⟩
  | cons w r ih =>
    intro v hu
    obtain ⟨j, b⟩ := w
    obtain ⟨h1, h2⟩ := ih (v.set j b) (fun i a c ha hc => hu i a c (by simp [ha]) (by simp [hc]))
    simp only [List.foldl_cons]
    rw [List.length_set] at h1 h2
    refine ⟨h1, ?_⟩
    intro i hi
    rcases h2 i hi with ⟨a, ha, hx⟩ | ⟨hno, hx⟩
    · exact Or.inl ⟨a, by simp [ha], hx⟩
    · by_cases hij : i = j
      · subst hij
        refine Or.inl ⟨b, by simp, ?_⟩
        rw [hx, List.getElem?_set]
        simp [hi]
      · refine Or.inr ⟨?_, ?_⟩
        · intro a ha
          rcases List.mem_cons.1 ha with e | e
          · injection e with e1 _; exact hij e1
          · exact hno a e
        · rw [hx, List.getElem?_set]
          have : ¬ j = i := fun e => hij e.symm
          simp [this]

/-! ## `node_to_order` -/

theorem pushAll_spec (es : List (Ent N)) : ∀ (m : OMap N (List PP)), m.Sorted →
    (pushAll m es).Sorted ∧
    (∀ n, ((pushAll m es).get n).getD [] = (m.get n).getD [] ++ (es.filter (fun e => e.node = n)).map Ent.pp) ∧
    (∀ n, ((pushAll m es).get n).isSome = ((m.get n).isSome || es.any (fun e => decide (e.node = n)))) := by
  induction es with
  | nil => intro m hs; exact ⟨hs, by simp [pushAll], by simp [pushAll]⟩
  | cons e r ih =>
    intro m hs
    obtain ⟨i1, i2, i3⟩ := ih (m.insert e.node ((m.get e.node).getD [] ++ [e.pp])) (OMap.sorted_insert hs _ _)
    have hp : pushAll m (e :: r) = pushAll (m.insert e.node ((m.get e.node).getD [] ++ [e.pp])) r := rfl
    rw [hp]
    refine ⟨i1, ?_, ?_⟩
    · intro n
      rw [i2, OMap.get_insert]
      by_cases hn : n = e.node
      · subst hn; simp
      · rw [if_neg hn, List.filter_cons, if_neg (by simpa using fun e => hn e.symm)]
    · intro n
      rw [i3, OMap.get_insert]
      by_cases hn : n = e.node
      · subst hn; simp
      · have : ¬ e.node = n := fun e => hn e.symm
        simp [hn, this]

end PrePostGs
