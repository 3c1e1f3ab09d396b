import Verif.Rel.Events

/-!
# The corpus tree of a relANNIS corpus (C78)
-/

set_option linter.unusedSimpArgs false
set_option linter.unusedSectionVars false

namespace Rel

/-! ### Specification: the tree of corpora and documents -/

namespace Spec

/-- A corpus with its sub-corpora and documents. -/
inductive CTree
  | node (id : Nat) (name : Str) (doc : Bool) (children : List CTree)

mutual
/-- Number of corpora in a tree. -/
def CTree.size : CTree → Nat
  | .node _ _ _ ch => 1 + CTree.sizes ch
def CTree.sizes : List CTree → Nat
  | [] => 0
  | t :: ts => t.size + CTree.sizes ts
end

mutual
/-- The rows of the corpus table for a tree: pre- and post-order values come from one counter, which starts with `k`. -/
def CTree.rows (k : Nat) : CTree → List CorpusRow
  | .node id name doc ch => ⟨id, name, doc, k, k + 1 + 2 * CTree.sizes ch⟩ :: CTree.forestRows (k + 1) ch
def CTree.forestRows (k : Nat) : List CTree → List CorpusRow
  | [] => []
  | t :: ts => t.rows k ++ CTree.forestRows (k + 2 * t.size) ts
end

def CTree.id : CTree → Nat
  | .node i _ _ _ => i
def CTree.name : CTree → Str
  | .node _ n _ _ => n
def CTree.children : CTree → List CTree
  | .node _ _ _ c => c

mutual
/-- Every corpus of the tree (with all below it) and the names from the root to its parent (`acc` before them). -/
def CTree.subs (acc : List Str) : CTree → List (List Str × CTree)
  | .node id name doc ch => (acc, .node id name doc ch) :: CTree.forestSubs (acc ++ [name]) ch
def CTree.forestSubs (acc : List Str) : List CTree → List (List Str × CTree)
  | [] => []
  | t :: ts => t.subs acc ++ CTree.forestSubs acc ts
end

mutual
/-- No two corpora with the same parent have the same name. -/
def CTree.SiblingsDiffer : CTree → Prop
  | .node _ _ _ ch => (ch.map CTree.name).Nodup ∧ CTree.SiblingsDifferAll ch
def CTree.SiblingsDifferAll : List CTree → Prop
  | [] => True
  | t :: ts => t.SiblingsDiffer ∧ CTree.SiblingsDifferAll ts
end

/-- The name of a node for a corpus, given its names from the root on: the percent encoded names with slashes between them. -/
def pathName (names : List Str) : Str := joinSlash (names.map fun n => pctEncode nodeNameSet n)

end Spec

open Spec

/-! ### Lemmas about the numbering -/

mutual
theorem rows_bounds (k : Nat) : ∀ (t : CTree) (r : CorpusRow), r ∈ t.rows k → k ≤ r.pre ∧ r.pre < r.post ∧ r.post < k + 2 * t.size
  | .node id name doc ch, r, h => by
    rw [CTree.rows, List.mem_cons] at h
    rw [CTree.size]
    rcases h with rfl | h
    · simp only; omega
    · have := forestRows_bounds (k + 1) ch r h
      omega
theorem forestRows_bounds (k : Nat) : ∀ (ts : List CTree) (r : CorpusRow), r ∈ CTree.forestRows k ts →
    k ≤ r.pre ∧ r.pre < r.post ∧ r.post < k + 2 * CTree.sizes ts
  | [], r, h => by rw [CTree.forestRows] at h; cases h
  | t :: ts, r, h => by
    rw [CTree.forestRows, List.mem_append] at h
    rw [CTree.sizes]
    rcases h with h | h
    · have := rows_bounds k t r h; omega
    · have := forestRows_bounds (k + 2 * t.size) ts r h; omega
end

mutual
theorem rows_sorted (k : Nat) : ∀ t : CTree, (t.rows k).Pairwise fun a b => a.pre < b.pre
  | .node id name doc ch => by
    rw [CTree.rows, List.pairwise_cons]
    refine ⟨fun r hr => ?_, forestRows_sorted (k + 1) ch⟩
    have := forestRows_bounds _ _ _ hr
    simp only; omega
theorem forestRows_sorted (k : Nat) : ∀ ts : List CTree, (CTree.forestRows k ts).Pairwise fun a b => a.pre < b.pre
  | [] => by rw [CTree.forestRows]; exact List.Pairwise.nil
  | t :: ts => by
    rw [CTree.forestRows, List.pairwise_append]
    refine ⟨rows_sorted k t, forestRows_sorted _ ts, fun a ha b hb => ?_⟩
    have := rows_bounds _ _ _ ha
    have := forestRows_bounds _ _ _ hb
    omega
end

/-- `q` has the pre- and post-order values of an ancestor of `r`. -/
def above (r q : CorpusRow) : Bool := decide (q.pre < r.pre) && decide (r.post < q.post)

theorem filter_none {X : Type} {p : X → Bool} {l : List X} (h : ∀ x ∈ l, p x = false) : l.filter p = [] := by
  rw [List.filter_eq_nil_iff]; intro x hx; simp [h x hx]

/-- The row belongs to this corpus: it has no room for other corpora exactly if there is nothing below the corpus. -/
def RowOf (s : CTree) (r : CorpusRow) : Prop := r.id = s.id ∧ r.name = s.name ∧ (r.pre + 1 = r.post ↔ s.children = [])

theorem sizes_eq_zero : ∀ ts : List CTree, CTree.sizes ts = 0 ↔ ts = []
  | [] => by simp [CTree.sizes]
  | .node _ _ _ _ :: ts => by simp [CTree.sizes, CTree.size]

mutual
/-- The rows above a row are its ancestors, in their order. -/
theorem rows_above (k : Nat) (acc : List Str) : ∀ (t : CTree) (anc : List Str) (s : CTree), (anc, s) ∈ t.subs acc →
    ∃ r ∈ t.rows k, RowOf s r ∧ anc = acc ++ ((t.rows k).filter (above r)).map CorpusRow.name
  | .node id0 name0 doc ch, anc, s, h => by
    rw [CTree.subs, List.mem_cons] at h
    rcases h with h | h
    · cases h
      refine ⟨_, by rw [CTree.rows]; exact List.mem_cons_self, ⟨rfl, rfl, ?_⟩, ?_⟩
      · rw [CTree.children, ← sizes_eq_zero]; simp only; omega
      rw [filter_none]
      · simp
      · intro x hx
        rw [CTree.rows, List.mem_cons] at hx
        rcases hx with rfl | hx
        · simp [above]
        · have := forestRows_bounds _ _ _ hx
          simp only [above, Bool.and_eq_false_iff, decide_eq_false_iff_not]
          omega
    · obtain ⟨r, hr, h1, h3⟩ := forestRows_above (k + 1) (acc ++ [name0]) ch anc s h
      refine ⟨r, by rw [CTree.rows]; exact List.mem_cons_of_mem _ hr, h1, ?_⟩
      have hb := forestRows_bounds _ _ _ hr
      rw [CTree.rows, List.filter_cons_of_pos, h3]
      · simp
      · simp only [above, Bool.and_eq_true, decide_eq_true_eq]; omega
theorem forestRows_above (k : Nat) (acc : List Str) : ∀ (ts : List CTree) (anc : List Str) (s : CTree),
    (anc, s) ∈ CTree.forestSubs acc ts →
    ∃ r ∈ CTree.forestRows k ts, RowOf s r ∧ anc = acc ++ ((CTree.forestRows k ts).filter (above r)).map CorpusRow.name
  | [], anc, s, h => by rw [CTree.forestSubs] at h; cases h
  | t :: ts, anc, s, h => by
    rw [CTree.forestSubs, List.mem_append] at h
    rcases h with h | h
    · obtain ⟨r, hr, h1, h3⟩ := rows_above k acc t anc s h
      have hb := rows_bounds _ _ _ hr
      refine ⟨r, by rw [CTree.forestRows]; exact List.mem_append_left _ hr, h1, ?_⟩
      rw [CTree.forestRows, List.filter_append, filter_none (l := CTree.forestRows (k + 2 * t.size) ts), List.append_nil]
      · exact h3
      · intro x hx
        have := forestRows_bounds _ _ _ hx
        simp only [above, Bool.and_eq_false_iff, decide_eq_false_iff_not]
        omega
    · obtain ⟨r, hr, h1, h3⟩ := forestRows_above (k + 2 * t.size) acc ts anc s h
      have hb := forestRows_bounds _ _ _ hr
      refine ⟨r, by rw [CTree.forestRows]; exact List.mem_append_right _ hr, h1, ?_⟩
      rw [CTree.forestRows, List.filter_append, filter_none (l := t.rows k), List.nil_append]
      · exact h3
      · intro x hx
        have := rows_bounds _ _ _ hx
        simp only [above, Bool.and_eq_false_iff, decide_eq_false_iff_not]
        omega
end

mutual
theorem rows_subs_ids (k : Nat) (acc : List Str) : ∀ t : CTree, (t.rows k).map CorpusRow.id = (t.subs acc).map fun p => p.2.id
  | .node id name doc ch => by
    rw [CTree.rows, CTree.subs, List.map_cons, List.map_cons, forestRows_subs_ids (k + 1) (acc ++ [name]) ch]
    rfl
theorem forestRows_subs_ids (k : Nat) (acc : List Str) : ∀ ts : List CTree,
    (CTree.forestRows k ts).map CorpusRow.id = (CTree.forestSubs acc ts).map fun p => p.2.id
  | [] => by rw [CTree.forestRows, CTree.forestSubs]; rfl
  | t :: ts => by
    rw [CTree.forestRows, CTree.forestSubs, List.map_append, List.map_append, rows_subs_ids k acc t,
      forestRows_subs_ids _ acc ts]
end

/-! ### The parsed table -/

/-- The rows are those of the tree in any order, with distinct identifiers. -/
structure TreeTable (k : Nat) (t : CTree) (rows : List CorpusRow) : Prop where
  perm : (renameFrom [] rows).Perm (t.rows k)
  ids : ((t.rows k).map CorpusRow.id).Nodup

theorem TreeTable.unique_id {k : Nat} {t : CTree} {rows : List CorpusRow} (h : TreeTable k t rows) {a b : CorpusRow}
    (ha : a ∈ t.rows k) (hb : b ∈ t.rows k) (e : a.id = b.id) : a = b :=
  List.inj_on_of_nodup_map h.ids ha hb e

theorem rows_unique_pre {k : Nat} {t : CTree} {a b : CorpusRow} (ha : a ∈ t.rows k) (hb : b ∈ t.rows k) (e : a.pre = b.pre) :
    a = b := by
  have : ((t.rows k).map CorpusRow.pre).Nodup := by
    rw [List.nodup_iff_pairwise_ne, List.pairwise_map]
    exact (rows_sorted k t).imp fun h => Nat.ne_of_lt h
  exact List.inj_on_of_nodup_map this ha hb e

theorem TreeTable.byId {k : Nat} {t : CTree} {rows : List CorpusRow} (h : TreeTable k t rows) {r : CorpusRow} (hr : r ∈ t.rows k) :
    (collect (fun r => some (r.id, r)) (renameFrom [] rows)).get r.id = some r := by
  refine get_collect (r := r) (h.perm.mem_iff.2 hr) rfl ?_
  intro r' hr' w hw
  have h1 := congrArg Prod.fst (Option.some.inj hw)
  have h2 := congrArg Prod.snd (Option.some.inj hw)
  simp only at h1 h2
  rw [← h2]
  exact h.unique_id (h.perm.mem_iff.1 hr') hr h1

theorem TreeTable.byPre {k : Nat} {t : CTree} {rows : List CorpusRow} (h : TreeTable k t rows) :
    collect (fun r => some (r.pre, r.id)) (renameFrom [] rows) = (t.rows k).map fun r => (r.pre, r.id) := by
  have hs : OMap.Sorted ((t.rows k).map fun r => (r.pre, r.id)) := by
    unfold OMap.Sorted
    rw [List.pairwise_map]
    exact rows_sorted k t
  refine OMap.ext (sorted_collect _ _) hs fun p => ?_
  cases hg : OMap.get ((t.rows k).map fun r => (r.pre, r.id)) p with
  | some i =>
    obtain ⟨r, hr, e⟩ := List.mem_map.1 (OMap.mem_of_get hg)
    cases e
    refine get_collect (r := r) (h.perm.mem_iff.2 hr) rfl ?_
    intro r' hr' w hw
    have h1 := congrArg Prod.fst (Option.some.inj hw)
    have h2 := congrArg Prod.snd (Option.some.inj hw)
    simp only at h1 h2
    rw [← h2, rows_unique_pre (h.perm.mem_iff.1 hr') hr h1]
  | none =>
    refine get_collect_none ?_
    intro r hr v e
    have h1 := congrArg Prod.fst (Option.some.inj e)
    simp only at h1
    have : OMap.get ((t.rows k).map fun r => (r.pre, r.id)) p = some r.id :=
      OMap.get_of_mem hs (List.mem_map.2 ⟨r, h.perm.mem_iff.1 hr, by rw [← h1]⟩)
    rw [hg] at this; cases this

/-- The table which is parsed. -/
theorem TreeTable.parse {k : Nat} {t : CTree} {rows : List CorpusRow} (h : TreeTable k t rows) :
    ∃ T, parseCorpus rows = some T ∧ T.top = t.name ∧ T.byPre = (t.rows k).map (fun r => (r.pre, r.id)) ∧
      ∀ r ∈ t.rows k, T.byId.get r.id = some r := by
  refine ⟨⟨t.name, (t.rows k).map (fun r => (r.pre, r.id)), collect (fun r => some (r.id, r)) (renameFrom [] rows)⟩, ?_, rfl, rfl,
    fun r hr => h.byId hr⟩
  unfold parseCorpus
  rw [h.byPre]
  obtain ⟨id, name, doc, ch⟩ := t
  have := h.byId (r := ⟨id, name, doc, k, k + 1 + 2 * CTree.sizes ch⟩) (by rw [CTree.rows]; exact List.mem_cons_self)
  simp only [CTree.rows, List.map_cons, List.head?_cons] at this ⊢
  rw [this]
  rfl

theorem filterMap_get {T : CTable} : ∀ {l : List CorpusRow}, (∀ r ∈ l, T.byId.get r.id = some r) →
    (l.map fun r => (r.pre, r.id)).filterMap (fun p => T.byId.get p.2) = l
  | [], _ => rfl
  | r :: l, h => by
    rw [List.map_cons, List.filterMap_cons]
    simp only [h r (by simp)]
    rw [filterMap_get fun x hx => h x (by simp [hx])]

theorem parentsOf_eq {k : Nat} {t : CTree} {T : CTable} (h1 : T.byPre = (t.rows k).map fun r => (r.pre, r.id))
    (h2 : ∀ r ∈ t.rows k, T.byId.get r.id = some r) (c : CorpusRow) : parentsOf T c = (t.rows k).filter (above c) := by
  unfold parentsOf
  rw [h1, List.filter_map, filterMap_get]
  · rw [List.filter_filter]
    apply List.filter_congr
    intro x _
    simp [above, Bool.and_comm]
  · intro r hr
    exact h2 r (List.mem_filter.1 hr).1

/-- C78: for every tree of corpora and every order of its rows the path of the parent of each corpus consists of the percent
encoded names of its ancestors, beginning with the root. -/
theorem C78_parent_path {k : Nat} {t : CTree} {rows : List CorpusRow} (h : TreeTable k t rows) :
    ∃ T, parseCorpus rows = some T ∧ T.top = t.name ∧
      ∀ anc s, (anc, s) ∈ t.subs [] → parentPath T s.id = some (pathName anc) := by
  obtain ⟨T, h1, h2, h3, h4⟩ := h.parse
  refine ⟨T, h1, h2, ?_⟩
  intro anc s hp
  obtain ⟨r, hr, ⟨h5, _, _⟩, ha⟩ := rows_above k [] t anc s hp
  unfold parentPath
  rw [← h5, h4 r hr, Option.map_some, parentsOf_eq h3 h4, ha]
  simp only [pathName, List.nil_append, List.map_map]
  rfl

theorem joinSlash_append {l : List Str} (h : l ≠ []) (s : Str) : joinSlash (l ++ [s]) = joinSlash l ++ '/' :: s := by
  match l, h with
  | [a], _ => rfl
  | a :: b :: l, _ =>
    have := joinSlash_append (l := b :: l) (by simp) s
    simp only [List.cons_append] at this ⊢
    rw [joinSlash, this]
    simp [joinSlash]

/-- C78: the path of every corpus below the root consists of the percent encoded names from the root to the corpus.  (For the
root itself see `C78_top_path_fails`.) -/
theorem C78_corpus_path_partial {k : Nat} {t : CTree} {rows : List CorpusRow} (h : TreeTable k t rows) :
    ∃ T, parseCorpus rows = some T ∧
      ∀ anc s, (anc, s) ∈ t.subs [] → anc ≠ [] → corpusPath T s.id = some (pathName (anc ++ [s.name])) := by
  obtain ⟨T, h1, h2, h3, h4⟩ := h.parse
  refine ⟨T, h1, ?_⟩
  intro anc s hp hne
  obtain ⟨T', h1', _, h5⟩ := C78_parent_path h
  rw [h1] at h1'
  cases h1'
  have hpp := h5 anc s hp
  obtain ⟨r, hr, ⟨e1, e2, _⟩, ha⟩ := rows_above k [] t anc s hp
  unfold corpusPath
  rw [hpp, ← e1, h4 r hr]
  simp only [Option.bind_some, Option.map_some, pathName, List.map_append, List.map_cons, List.map_nil]
  rw [joinSlash_append (by simpa using hne), e2]
  rfl

/-! ### The paths are distinct -/

theorem slash_not_mem_norm (s : Str) : '/' ∉ pctEncode nodeNameSet s :=
  not_mem_pctEncode (n := 47) (by decide) (by decide) (by decide) (by decide)

theorem splitAll_joinSlash : ∀ l : List Str, l ≠ [] → (∀ s ∈ l, '/' ∉ s) → splitAll '/' (joinSlash l) = l
  | [], h, _ => absurd rfl h
  | [s], _, h => splitAll_single (h s (by simp))
  | s :: t :: r, _, h => by
    rw [joinSlash, splitAll_append_tab (h s (by simp)), splitAll_joinSlash (t :: r) (by simp) fun x hx => h x (by simp [hx])]

theorem map_enc_injective : Function.Injective (List.map fun n : Str => pctEncode nodeNameSet n) :=
  List.map_injective_iff.2 fun _ _ h => pctEncode_injective (by decide) h

/-- C78: different lists of names have different paths. -/
theorem C78_path_injective {a b : List Str} (ha : a ≠ []) (hb : b ≠ []) (h : pathName a = pathName b) : a = b := by
  apply map_enc_injective
  have e := congrArg (splitAll '/') h
  unfold pathName at e
  rw [splitAll_joinSlash _ (by simpa using ha) fun s hs => ?_, splitAll_joinSlash _ (by simpa using hb) fun s hs => ?_] at e
  · exact e
  · obtain ⟨x, _, rfl⟩ := List.mem_map.1 hs; exact slash_not_mem_norm x
  · obtain ⟨x, _, rfl⟩ := List.mem_map.1 hs; exact slash_not_mem_norm x

mutual
theorem subs_prefix (acc : List Str) : ∀ (t : CTree) (p : List Str × CTree), p ∈ t.subs acc → ∃ s, p.1 ++ [p.2.name] = acc ++ t.name :: s
  | .node id name doc ch, p, h => by
    rw [CTree.subs, List.mem_cons] at h
    rcases h with rfl | h
    · exact ⟨[], rfl⟩
    · obtain ⟨t', _, s, hs⟩ := forestSubs_prefix (acc ++ [name]) ch p h
      exact ⟨t'.name :: s, by rw [hs]; simp [CTree.name]⟩
theorem forestSubs_prefix (acc : List Str) : ∀ (ts : List CTree) (p : List Str × CTree), p ∈ CTree.forestSubs acc ts →
    ∃ t ∈ ts, ∃ s, p.1 ++ [p.2.name] = acc ++ t.name :: s
  | [], p, h => by rw [CTree.forestSubs] at h; cases h
  | t :: ts, p, h => by
    rw [CTree.forestSubs, List.mem_append] at h
    rcases h with h | h
    · obtain ⟨s, hs⟩ := subs_prefix acc t p h
      exact ⟨t, by simp, s, hs⟩
    · obtain ⟨t', ht, s, hs⟩ := forestSubs_prefix acc ts p h
      exact ⟨t', by simp [ht], s, hs⟩
end

mutual
theorem subs_nodup (acc : List Str) : ∀ t : CTree, t.SiblingsDiffer → ((t.subs acc).map fun p => p.1 ++ [p.2.name]).Nodup
  | .node id name doc ch, h => by
    rw [CTree.SiblingsDiffer] at h
    rw [CTree.subs, List.map_cons, List.nodup_cons]
    refine ⟨?_, forestSubs_nodup (acc ++ [name]) ch h.1 h.2⟩
    intro hm
    obtain ⟨p, hp, e⟩ := List.mem_map.1 hm
    obtain ⟨t, _, s, hs⟩ := forestSubs_prefix _ _ _ hp
    rw [hs] at e
    have := congrArg List.length e
    simp at this
theorem forestSubs_nodup (acc : List Str) : ∀ ts : List CTree, (ts.map CTree.name).Nodup → CTree.SiblingsDifferAll ts →
    ((CTree.forestSubs acc ts).map fun p => p.1 ++ [p.2.name]).Nodup
  | [], _, _ => by rw [CTree.forestSubs]; exact List.nodup_nil
  | t :: ts, hn, h => by
    rw [CTree.SiblingsDifferAll] at h
    rw [List.map_cons, List.nodup_cons] at hn
    rw [CTree.forestSubs, List.map_append, List.nodup_append]
    refine ⟨subs_nodup acc t h.1, forestSubs_nodup acc ts hn.2 h.2, ?_⟩
    intro a ha b hb e
    obtain ⟨p, hp, rfl⟩ := List.mem_map.1 ha
    obtain ⟨q, hq, rfl⟩ := List.mem_map.1 hb
    obtain ⟨s, hs⟩ := subs_prefix acc t p hp
    obtain ⟨t', ht', s', hs'⟩ := forestSubs_prefix acc ts q hq
    rw [hs, hs', List.append_cancel_left_eq, List.cons.injEq] at e
    exact hn.1 (List.mem_map.2 ⟨t', ht', e.1.symm⟩)
end

/-- C78: if corpora with the same parent have different names, all corpora below the root have different paths. -/
theorem C78_distinct_paths {k : Nat} {t : CTree} {rows : List CorpusRow} (h : TreeTable k t rows) (hs : t.SiblingsDiffer) :
    ∃ T, parseCorpus rows = some T ∧ ∀ anc s anc' s', (anc, s) ∈ t.subs [] → (anc', s') ∈ t.subs [] →
      anc ≠ [] → anc' ≠ [] → corpusPath T s.id = corpusPath T s'.id → s.id = s'.id := by
  obtain ⟨T, h1, h2⟩ := C78_corpus_path_partial h
  refine ⟨T, h1, ?_⟩
  intro anc s anc' s' hp hp' hne hne' e
  rw [h2 anc s hp hne, h2 anc' s' hp' hne', Option.some.injEq] at e
  have e := C78_path_injective (by simp) (by simp) e
  have := List.inj_on_of_nodup_map (subs_nodup [] t hs) hp hp' e
  exact congrArg (fun x => x.2.id) this

/-! ### Renamed documents -/

/-- The names of the documents. -/
def docNames (rows : List CorpusRow) : List Str := (rows.filter CorpusRow.doc).map CorpusRow.name

/-- The text does not contain the suffix of renamed documents. -/
def NoSuffix (s : Str) : Prop := ∀ a b, s ≠ a ++ dupSuffix ++ b

theorem renamed_injective {a b : Str} {m n : Nat} (h : a ++ dupSuffix ++ Nat.toDigits 10 m = b ++ dupSuffix ++ Nat.toDigits 10 n) :
    a = b ∧ m = n := by
  have key : ∀ (x y u v : Str), '_' ∉ u → '_' ∉ v → x ++ '_' :: u = y ++ '_' :: v → x = y ∧ u = v := by
    intro x y u v hu hv e
    have e' := congrArg List.reverse e
    simp only [List.reverse_append, List.reverse_cons, List.append_assoc, List.singleton_append] at e'
    have s1 := splitOnce_append (c := '_') (a := u.reverse) (by simpa using hu) x.reverse
    have s2 := splitOnce_append (c := '_') (a := v.reverse) (by simpa using hv) y.reverse
    rw [e', s2, Option.some.injEq, Prod.mk.injEq] at s1
    exact ⟨(List.reverse_injective s1.2).symm, (List.reverse_injective s1.1).symm⟩
  have hd : dupSuffix = "_duplicated_document_name".toList ++ ['_'] := by decide
  rw [hd] at h
  simp only [List.append_assoc, List.singleton_append] at h
  rw [← List.append_assoc, ← List.append_assoc] at h
  obtain ⟨h1, h2⟩ := key _ _ _ _ Nat.underscore_not_in_toDigits Nat.underscore_not_in_toDigits h
  refine ⟨List.append_cancel_right h1, ?_⟩
  have := congrArg (fun l => Nat.ofDigitChars 10 l 0) h2
  simpa [Nat.ofDigitChars_ten_toDigits] using this

/-- The name of a document after `seen` documents. -/
def newName (seen : List Str) (n : Str) : Str :=
  if seen.count n + 1 > 1 then n ++ dupSuffix ++ Nat.toDigits 10 (seen.count n + 1) else n

theorem mem_renamed : ∀ (rows : List CorpusRow) (seen : List Str) (x : Str), x ∈ docNames (renameFrom seen rows) →
    ∃ n later, n ∈ docNames rows ∧ x = newName (later ++ seen) n
  | [], _, x, h => by simp [renameFrom, docNames] at h
  | r :: rs, seen, x, h => by
    unfold renameFrom at h
    by_cases hd : r.doc = true
    · rw [if_pos hd] at h
      unfold docNames at h
      rw [List.filter_cons_of_pos (by split <;> exact hd), List.map_cons, List.mem_cons] at h
      rcases h with h | h
      · refine ⟨r.name, [], by simp [docNames, hd], ?_⟩
        rw [h]
        unfold newName
        simp only [List.nil_append]
        split <;> rfl
      · obtain ⟨n, l, hn, e⟩ := mem_renamed rs (r.name :: seen) x h
        refine ⟨n, l ++ [r.name], ?_, by rw [e]; simp⟩
        simp only [docNames, List.filter_cons_of_pos hd, List.map_cons, List.mem_cons] at hn ⊢
        exact Or.inr hn
    · rw [if_neg hd] at h
      unfold docNames at h
      rw [List.filter_cons_of_neg hd] at h
      obtain ⟨n, l, hn, e⟩ := mem_renamed rs seen x h
      refine ⟨n, l, ?_, e⟩
      simpa [docNames, List.filter_cons_of_neg hd] using hn

/-- C78: after renaming, all documents have different names, as long as no document name contains the suffix of renamed
documents. -/
theorem C78_documents_distinct_partial (rows : List CorpusRow) (h : ∀ n ∈ docNames rows, NoSuffix n) :
    (docNames (renameFrom [] rows)).Nodup := by
  have main : ∀ (rows : List CorpusRow) (seen : List Str), (∀ n ∈ docNames rows, NoSuffix n) → (∀ n ∈ seen, NoSuffix n) →
      (docNames (renameFrom seen rows)).Nodup := by
    intro rows
    induction rows with
    | nil => intro seen _ _; exact List.nodup_nil
    | cons r rs ih =>
      intro seen h hs
      unfold renameFrom
      by_cases hd : r.doc = true
      · rw [if_pos hd]
        have hr : NoSuffix r.name := h r.name (by simp [docNames, hd])
        have hrs : ∀ n ∈ docNames rs, NoSuffix n := fun n hn => h n (by
          simp only [docNames, List.filter_cons_of_pos hd, List.map_cons, List.mem_cons] at hn ⊢; exact Or.inr hn)
        have hi := ih (r.name :: seen) hrs (by
          intro n hn; rcases List.mem_cons.1 hn with rfl | hn; exact hr; exact hs n hn)
        unfold docNames at hi ⊢
        rw [List.filter_cons_of_pos (by split <;> exact hd), List.map_cons, List.nodup_cons]
        refine ⟨?_, hi⟩
        intro hm
        obtain ⟨n, l, hn, e⟩ := mem_renamed rs (r.name :: seen) _ hm
        have e : newName seen r.name = newName (l ++ r.name :: seen) n := by
          rw [← e]
          unfold newName
          split <;> rfl
        unfold newName at e
        have hnn := hrs n hn
        split at e
        · split at e
          · obtain ⟨e1, e2⟩ := renamed_injective e
            subst e1
            rw [List.count_append, List.count_cons_self] at e2
            omega
          · exact hnn _ _ e.symm
        · split at e
          · exact hr _ _ e
          · rename_i h1 h2
            subst e
            rw [List.count_append, List.count_cons_self] at h2
            omega
      · rw [if_neg hd]
        unfold docNames
        rw [List.filter_cons_of_neg hd]
        exact ih seen (fun n hn => h n (by simpa [docNames, List.filter_cons_of_neg hd] using hn)) hs
  exact main rows [] h (fun n hn => by cases hn)

/-! ### Counterexamples and examples -/

/-- C78 fails: two documents with the name `a` and one document with the name of the renamed one. -/
theorem C78_documents_distinct_fails : docNames (renameFrom []
    [⟨1, "a".toList, true, 1, 2⟩, ⟨2, "a_duplicated_document_name_2".toList, true, 3, 4⟩, ⟨3, "a".toList, true, 5, 6⟩]) =
    ["a".toList, "a_duplicated_document_name_2".toList, "a_duplicated_document_name_2".toList] := by decide +kernel

/-- C78 fails: the path of the top-level corpus begins with a slash and is not the name of its node. -/
theorem C78_top_path_fails : (parseCorpus [⟨0, "c".toList, false, 0, 3⟩, ⟨1, "d".toList, true, 1, 2⟩]).map
    (fun T => (T.top, corpusPath T 0, corpusPath T 1)) = some ("c".toList, some "/c".toList, some "c/d".toList) := by
  decide +kernel

/-- A root with a sub-corpus of two documents and one more document, whose name occurs twice. -/
def exTree : CTree := .node 4 "root corpus".toList false
  [.node 5 "s".toList false [.node 2 "d/1".toList true [], .node 0 "d2_duplicated_document_name_2".toList true []],
    .node 6 "d2".toList true []]

def exCorpusRows : List CorpusRow := [⟨2, "d/1".toList, true, 2, 3⟩, ⟨6, "d2".toList, true, 7, 8⟩, ⟨0, "d2".toList, true, 4, 5⟩,
  ⟨5, "s".toList, false, 1, 6⟩, ⟨4, "root corpus".toList, false, 0, 9⟩]

/-- C78: rows in another order than that of the tree. -/
theorem C78_nonvacuous : TreeTable 0 exTree exCorpusRows ∧ exTree.SiblingsDiffer ∧
    (parseCorpus exCorpusRows).map (fun T => [0, 2, 5, 6].map (corpusPath T)) =
      some [some "root%20corpus/s/d2_duplicated_document_name_2".toList, some "root%20corpus/s/d%2F1".toList,
        some "root%20corpus/s".toList, some "root%20corpus/d2".toList] := by
  refine ⟨⟨?_, by decide +kernel⟩, ?_, by decide +kernel⟩
  · rw [List.perm_iff_count]
    intro a
    have h1 : renameFrom [] exCorpusRows = [⟨2, "d/1".toList, true, 2, 3⟩, ⟨6, "d2".toList, true, 7, 8⟩,
      ⟨0, "d2_duplicated_document_name_2".toList, true, 4, 5⟩, ⟨5, "s".toList, false, 1, 6⟩,
      ⟨4, "root corpus".toList, false, 0, 9⟩] := by decide +kernel
    have h2 : exTree.rows 0 = [⟨4, "root corpus".toList, false, 0, 9⟩, ⟨5, "s".toList, false, 1, 6⟩, ⟨2, "d/1".toList, true, 2, 3⟩,
      ⟨0, "d2_duplicated_document_name_2".toList, true, 4, 5⟩, ⟨6, "d2".toList, true, 7, 8⟩] := by decide +kernel
    rw [h1, h2]
    simp only [List.count_cons, List.count_nil]
    omega
  · simp only [exTree, CTree.SiblingsDiffer, CTree.SiblingsDifferAll, and_true]
    decide +kernel

end Rel
