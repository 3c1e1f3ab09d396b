import Verif.Web.Model
import Verif.Text.Props
import Mathlib.Data.List.Sort

/-!
# Authorisation (C71), files (C72) and jobs (C73) of the web service
-/

set_option linter.unusedSimpArgs false

namespace Web

variable {C D Q R : Type}

/-! ## Specification -/

/-- The corpora a user who is not an administrator was given: those of their groups and of the group for everyone. -/
def Permitted (db : Db) (c : Claims) (n : Str) : Prop :=
  ∃ g, (g ∈ c.groups ∨ g = "anonymous".toList) ∧ (g, n) ∈ db.rows

def IsAdmin (c : Claims) : Prop := "admin".toList ∈ c.roles

/-- The corpora a user may read. -/
def MayRead (s : Settings) (db : Db) (c : Claims) (n : Str) : Prop := IsAdmin c ∨ s.anonymousAll = true ∨ Permitted db c n

/-- Names whose directory is an own directory in the data directory (see C38). -/
def DirName (n : Str) : Prop := n ≠ [] ∧ n ≠ ['.'] ∧ n ≠ ['.', '.']

/-- Names that are harmless as a relative path. -/
def PathName (n : Str) : Prop := n ≠ [] ∧ n ≠ ['.'] ∧ ¬ ['.', '.'] <:+: n ∧ n.head? ≠ some '/'

/-- What must stay hidden: everything in the directory of a corpus that is not permitted. -/
def Hidden (s : Settings) (db : Db) (c : Claims) (p : List Str) : Prop :=
  ∃ m, DirName m ∧ ¬ Permitted db c m ∧ corpusDir s.dataDir m <+: p

open Classical in
/-- Two states that only differ in corpora that are not permitted. -/
structure SameFor (s : Settings) (c : Claims) (st st' : State C D Q R) : Prop where
  db : st.db = st'.db
  corpora : ∀ n, Permitted st.db c n → st.corpus n = st'.corpus n
  files : st.fs.files.filter (fun e => ¬ Hidden s st.db c e.1) = st'.fs.files.filter (fun e => ¬ Hidden s st.db c e.1)
  dirs : ∀ p, ¬ Hidden s st.db c p → (p ∈ st.fs.dirs ↔ p ∈ st'.fs.dirs)

/-- The storage has at most one corpus with a name. -/
def State.Distinct (st : State C D Q R) : Prop := (st.corpora.map Prod.fst).Nodup

/-! ## Authorisation -/

theorem mem_authorized {db : Db} {c : Claims} {n : Str} : n ∈ authorizedCorpora db c ↔ Permitted db c n := by
  unfold authorizedCorpora Permitted
  simp only [List.mem_map, List.mem_filter, decide_eq_true_eq, List.mem_cons]
  constructor
  · rintro ⟨⟨g, m⟩, ⟨h1, h2⟩, rfl⟩
    exact ⟨g, h2.symm, h1⟩
  · rintro ⟨g, h1, h2⟩
    exact ⟨(g, n), ⟨h2, h1.symm⟩, rfl⟩

theorem checkRead_ok {s : Settings} {db : Db} {c : Claims} {l : List Str} : checkRead s db c l = .ok () ↔ ∀ n ∈ l, MayRead s db c n := by
  unfold checkRead MayRead IsAdmin
  split
  · rename_i h
    simp only [true_iff]
    intro n _
    rcases h with h | h
    · exact .inl h
    · exact .inr (.inl h)
  · rename_i h
    rw [not_or] at h
    dsimp only
    split
    · rename_i h2
      simp only [true_iff]
      intro n hn
      rw [List.all_eq_true] at h2
      exact .inr (.inr (mem_authorized.1 (of_decide_eq_true (h2 n hn))))
    · rename_i h2
      simp only [reduceCtorEq, false_iff]
      intro hx
      apply h2
      rw [List.all_eq_true]
      intro n hn
      rcases hx n hn with h3 | h3 | h3
      · exact absurd h3 h.1
      · exact absurd h3 h.2
      · exact decide_eq_true (mem_authorized.2 h3)

/-- C71: a request for corpora is refused exactly if one of them may not be read, and the error names exactly those. -/
theorem C71_check (s : Settings) (db : Db) (c : Claims) (l : List Str) :
    (checkRead s db c l = .ok () ↔ ∀ n ∈ l, MayRead s db c n) ∧
    (∀ e, checkRead s db c l = .error e → ∃ bad, e = .forbidden bad ∧ bad ≠ [] ∧ ∀ n, n ∈ bad ↔ n ∈ l ∧ ¬ MayRead s db c n) := by
  refine ⟨checkRead_ok, fun e h => ?_⟩
  have hno : ¬ ∀ n ∈ l, MayRead s db c n := by
    rw [← checkRead_ok, h]; simp
  unfold checkRead at h
  split at h
  · cases h
  · rename_i h1
    rw [not_or] at h1
    dsimp only at h
    split at h
    · cases h
    · cases h
      refine ⟨_, rfl, ?_, fun n => ?_⟩
      · intro he
        apply hno
        intro n hn
        by_contra hc
        have : n ∈ l.filter fun n => n ∉ authorizedCorpora db c := by
          rw [List.mem_filter]
          exact ⟨hn, decide_eq_true fun hm => hc (.inr (.inr (mem_authorized.1 hm)))⟩
        rw [he] at this
        cases this
      · rw [List.mem_filter]
        simp only [decide_eq_true_eq, mem_authorized, MayRead]
        have h11 : ¬ IsAdmin c := h1.1
        simp [h11, h1.2]

/-- C71: the list of corpora has the existing corpora that may be read, sorted. -/
theorem C71_list (s : Settings) (st : State C D Q R) (c : Claims) (hd : st.Distinct) :
    (handleList s st c).Pairwise (· < ·) ∧
    ∀ n, n ∈ handleList s st c ↔ (st.corpus n).isSome ∧ MayRead s st.db c n := by
  have hsome : ∀ n, (st.corpus n).isSome ↔ n ∈ st.corpora.map Prod.fst := by
    intro n
    unfold State.corpus
    rw [Option.isSome_map, List.find?_isSome]
    simp [List.mem_map]
  have hperm : (handleList s st c).Perm (if admin ∈ c.roles ∨ s.anonymousAll = true then st.corpora.map Prod.fst
      else (st.corpora.map Prod.fst).filter fun n => n ∈ authorizedCorpora st.db c) := by
    unfold handleList
    exact List.mergeSort_perm _ _
  constructor
  · have hnd : (handleList s st c).Nodup := by
      rw [hperm.nodup_iff]
      split
      · exact hd
      · exact hd.filter _
    have hs : (handleList s st c).Pairwise fun a b => leStr a b = true := by
      unfold handleList
      apply List.pairwise_mergeSort
      · intro a b d h1 h2
        simp only [leStr, decide_eq_true_eq] at *
        exact le_trans h1 h2
      · intro a b
        simp only [leStr, Bool.or_eq_true, decide_eq_true_eq]
        exact le_total a b
    have hnd' : (handleList s st c).Pairwise (· ≠ ·) := hnd
    refine (hs.and hnd').imp fun h => ?_
    simp only [leStr, decide_eq_true_eq] at h
    exact lt_of_le_of_ne h.1 h.2
  · intro n
    rw [hperm.mem_iff, hsome]
    unfold MayRead
    split
    · rename_i h
      have : IsAdmin c ∨ s.anonymousAll = true ∨ Permitted st.db c n := by
        rcases h with h | h
        · exact .inl h
        · exact .inr (.inl h)
      exact ⟨fun h => ⟨h, this⟩, fun h => h.1⟩
    · rename_i h
      rw [not_or] at h
      have h11 : ¬ IsAdmin c := h.1
      rw [List.mem_filter, decide_eq_true_eq, mem_authorized]
      simp [h11, h.2]

/-- C71: requests by users who are not administrators change nothing. -/
theorem C71_readonly (fk : Bool) (lossy : List UInt8 → Str) (s : Settings) (b : Backend C Q R) (st : State C D Q R)
    (header : Option (Option Str)) (r : Req Q) (h : ∀ c, claimsOf s header = .ok c → ¬ IsAdmin c) :
    (handle fk lossy s b st header r).2 = st := by
  have key : ∀ c, ¬ IsAdmin c → (dispatch fk lossy s b st c r).2 = st := by
    intro c hc
    have hc' : checkAdmin c = .error (.notAdmin c.sub) := if_neg hc
    cases r <;> simp [dispatch, handleDelete, handleImport, handleExport, handleJob, handleDeleteGroup, handlePutGroup, hc']
  unfold handle
  split
  · split
    · rfl
    · rename_i c hc
      exact key c (h c hc)
  · rename_i hr
    apply key
    simp [IsAdmin]

/-- The requests of the administration. -/
def Req.administration : Req Q → Bool
  | .delete _ | .imp _ _ | .exp _ _ | .job _ | .groups | .deleteGroup _ | .putGroup _ _ _ => true
  | _ => false

/-- C71: requests of the administration are refused for everyone else. -/
theorem C71_administration (fk : Bool) (lossy : List UInt8 → Str) (s : Settings) (b : Backend C Q R) (st : State C D Q R)
    (header : Option (Option Str)) (r : Req Q) (c : Claims) (hr : r.administration = true) (hc : claimsOf s header = .ok c)
    (hn : ¬ IsAdmin c) : handle fk lossy s b st header r = (.error (.notAdmin c.sub), st) := by
  have hc' : checkAdmin c = .error (.notAdmin c.sub) := if_neg hn
  cases r <;> simp [Req.administration] at hr <;>
    simp [handle, Req.takesClaims, hc, dispatch, handleDelete, handleImport, handleExport, handleJob, handleGroups, handleDeleteGroup,
      handlePutGroup, hc']

/-- C71: a token that is not valid is never treated like no token: all requests but the documentation are refused. -/
theorem C71_token (fk : Bool) (lossy : List UInt8 → Str) (s : Settings) (b : Backend C Q R) (st : State C D Q R) (t : Str)
    (r : Req Q) (hr : r ≠ .docs) (hr' : ∀ q, r ≠ .describe q) (scheme : Str) (hs : scheme = "Bearer".toList ∨ scheme = "bearer".toList)
    (ht : s.verify (trim (' ' :: t)) = none) :
    handle fk lossy s b st (some (some (scheme ++ ' ' :: t))) r = (.error .token, st) := by
  have hc : claimsOf s (some (some (scheme ++ ' ' :: t))) = .error .token := by
    rcases hs with rfl | rfl <;> simp [claimsOf, ht]
  unfold handle
  rw [if_pos, hc]
  cases r with
  | docs => exact absurd rfl hr
  | describe q => exact absurd rfl (hr' q)
  | _ => rfl

theorem trim_infix (t : Str) : trim t <:+: t := by
  obtain ⟨a, ha⟩ := List.dropWhile_suffix (l := t) isWs
  obtain ⟨b, hb⟩ := List.dropWhile_suffix (l := (t.dropWhile isWs).reverse) isWs
  have hb' := congrArg List.reverse hb
  rw [List.reverse_append, List.reverse_reverse] at hb'
  exact ⟨a, b.reverse, by rw [List.append_assoc, trim, hb', ha]⟩

/-- C71: groups and roles come only from a token of the request that was verified; everybody else has none. -/
theorem C71_rights (s : Settings) (header : Option (Option Str)) (c : Claims) (h : claimsOf s header = .ok c) :
    (∃ x t, header = some (some x) ∧ t <:+: x ∧ s.verify t = some c) ∨ (c.groups = [] ∧ c.roles = [] ∧ ¬ IsAdmin c) := by
  have ha : ∀ c : Claims, c = ⟨anonymous, [], []⟩ → (c.groups = [] ∧ c.roles = [] ∧ ¬ IsAdmin c) := by
    rintro c rfl
    simp [IsAdmin]
  unfold claimsOf at h
  split at h
  · rename_i x
    split at h
    · split at h
      · rename_i c' hv
        cases h
        refine .inl ⟨x, _, rfl, (trim_infix _).trans (List.drop_suffix 6 x).isInfix, hv⟩
      · simp at h
    · cases h
      exact .inr (ha _ rfl)
  · cases h
    exact .inr (ha _ rfl)

/-- C71: the claims of a valid token are those of the user. -/
theorem C71_valid_token (s : Settings) (scheme t : Str) (hs : scheme = "Bearer".toList ∨ scheme = "bearer".toList) (c : Claims)
    (ht : s.verify (trim (' ' :: t)) = some c) : claimsOf s (some (some (scheme ++ ' ' :: t))) = .ok c := by
  rcases hs with rfl | rfl <;> simp [claimsOf, ht]

/-! ### Groups -/

/-- The constraints of the tables. -/
structure Db.Ok (db : Db) : Prop where
  groups : db.groups.Nodup
  rows : db.rows.Nodup
  refs : ∀ r ∈ db.rows, r.1 ∈ db.groups

theorem insertRows_spec (name : Str) (l : List Str) : ∀ db : Db, db.rows.Nodup →
    (∀ db', insertRows name l db = some db' → db' = ⟨db.groups, db.rows ++ l.map fun c => (name, c)⟩ ∧ db'.rows.Nodup) ∧
    ((∃ db', insertRows name l db = some db') ↔ l.Nodup ∧ ∀ c ∈ l, (name, c) ∉ db.rows) := by
  induction l with
  | nil =>
    intro db hn
    refine ⟨fun db' h => ?_, ?_⟩
    · cases h; exact ⟨by simp, hn⟩
    · simp [insertRows]
  | cons c r ih =>
    intro db hn
    by_cases hc : (name, c) ∈ db.rows
    · refine ⟨fun db' h => ?_, ?_⟩
      · simp [insertRows, hc] at h
      · simp [insertRows, hc]
    · have hn' : (db.rows ++ [(name, c)]).Nodup := by
        rw [List.nodup_append]
        refine ⟨hn, by simp, ?_⟩
        intro a ha b hb
        simp only [List.mem_singleton] at hb
        subst hb
        exact fun he => hc (he ▸ ha)
      obtain ⟨i1, i2⟩ := ih { db with rows := db.rows ++ [(name, c)] } hn'
      refine ⟨fun db' h => ?_, ?_⟩
      · rw [insertRows, if_neg hc] at h
        obtain ⟨j1, j2⟩ := i1 db' h
        refine ⟨?_, j2⟩
        rw [j1]
        simp
      · rw [insertRows, if_neg hc, i2]
        simp only [List.nodup_cons, List.mem_append, List.mem_cons, List.not_mem_nil, or_false, Prod.mk.injEq, true_and, not_or, forall_eq_or_imp]
        constructor
        · rintro ⟨h1, h2⟩
          exact ⟨⟨fun hm => (h2 c hm).2 rfl, h1⟩, hc, fun x hx => (h2 x hx).1⟩
        · rintro ⟨⟨h1, h2⟩, _, h3⟩
          exact ⟨h2, fun x hx => ⟨h3 x hx, fun he => h1 (he ▸ hx)⟩⟩

/-- C71: putting a group either fails, changes nothing and names a corpus twice, or afterwards the group has exactly the given corpora and
all other groups have what they had. -/
theorem C71_put (fk : Bool) (db : Db) (hdb : db.Ok) (name : Str) (corpora : List Str) :
    ((putGroup fk db name corpora).1 = .ok () ↔ corpora.Nodup) ∧
    (¬ corpora.Nodup → (putGroup fk db name corpora).2 = db) ∧
    (corpora.Nodup → ∀ g n, ((g, n) ∈ (putGroup fk db name corpora).2.rows ↔ if g = name then n ∈ corpora else (g, n) ∈ db.rows)) ∧
    (corpora.Nodup → ∀ g, g ∈ (putGroup fk db name corpora).2.groups ↔ g = name ∨ g ∈ db.groups) ∧
    (putGroup fk db name corpora).2.Ok := by
  set db3 : Db := ⟨db.groups.filter (· ≠ name) ++ [name], db.rows.filter fun r => r.1 ≠ name⟩ with hdb3
  have hrows : (deleteGroupRow fk { db with rows := db.rows.filter fun r => r.1 ≠ name } name).rows = db.rows.filter fun r => r.1 ≠ name := by
    unfold deleteGroupRow
    cases fk
    · rfl
    · simp [List.filter_filter]
  have hput : putGroup fk db name corpora = match insertRows name corpora db3 with
      | some db4 => (.ok (), db4)
      | none => (.error .database, db) := by
    unfold putGroup
    dsimp only
    rw [hrows]
    rfl
  have hnd : db3.rows.Nodup := hdb.rows.filter _
  obtain ⟨i1, i2⟩ := insertRows_spec name corpora db3 hnd
  have hfree : ∀ c ∈ corpora, (name, c) ∉ db3.rows := by
    intro c _ hm
    simp [hdb3, List.mem_filter] at hm
  cases hi : insertRows name corpora db3 with
  | none =>
    rw [hput, hi]
    have hno : ¬ corpora.Nodup := by
      intro hn
      obtain ⟨db', h⟩ := i2.2 ⟨hn, hfree⟩
      rw [hi] at h; cases h
    exact ⟨by simp [hno], fun _ => rfl, fun h => absurd h hno, fun h => absurd h hno, hdb⟩
  | some db4 =>
    rw [hput, hi]
    have hno : corpora.Nodup := (i2.1 ⟨_, hi⟩).1
    obtain ⟨j1, j2⟩ := i1 _ hi
    refine ⟨by simp [hno], fun h => absurd hno h, fun _ g n => ?_, fun _ g => ?_, ?_⟩
    · simp only [j1, hdb3, List.mem_append, List.mem_filter, List.mem_map, Prod.mk.injEq, decide_eq_true_eq]
      split
      · rename_i hg
        subst hg
        simp
      · rename_i hg
        constructor
        · rintro (⟨h, _⟩ | ⟨x, _, h, _⟩)
          · exact h
          · exact absurd h.symm hg
        · exact fun h => .inl ⟨h, hg⟩
    · simp only [j1, hdb3, List.mem_append, List.mem_filter, List.mem_singleton, decide_eq_true_eq]
      by_cases hg : g = name <;> simp [hg]
    · refine ⟨?_, j2, ?_⟩
      · simp only [j1, hdb3]
        rw [List.nodup_append]
        refine ⟨hdb.groups.filter _, by simp, ?_⟩
        intro a ha b hb he
        simp only [List.mem_singleton] at hb
        subst hb; subst he
        simp at ha
      · intro r hr
        simp only [j1, hdb3, List.mem_append, List.mem_filter, List.mem_map, decide_eq_true_eq] at hr ⊢
        rcases hr with ⟨h1, h2⟩ | ⟨x, _, rfl⟩
        · exact .inl ⟨hdb.refs _ h1, h2⟩
        · exact .inr (by simp)

/-- C71, if the database checks foreign keys: deleting a group takes away what it gave, and nothing else. Missing: without the check
(`C71_delete_fails`). -/
theorem C71_delete_partial (db : Db) (hdb : db.Ok) (name : Str) :
    (∀ g n, (g, n) ∈ (deleteGroup true db name).rows ↔ g ≠ name ∧ (g, n) ∈ db.rows) ∧
    (∀ g, g ∈ (deleteGroup true db name).groups ↔ g ≠ name ∧ g ∈ db.groups) ∧ (deleteGroup true db name).Ok := by
  refine ⟨fun g n => ?_, fun g => ?_, ⟨hdb.groups.filter _, hdb.rows.filter _, fun r hr => ?_⟩⟩
  · simp [deleteGroup, deleteGroupRow, and_comm]
  · simp [deleteGroup, deleteGroupRow, and_comm]
  · simp only [deleteGroup, deleteGroupRow, if_true, List.mem_filter, decide_eq_true_eq] at hr ⊢
    exact ⟨hdb.refs _ hr.1, hr.2⟩

/-- C71: the list of groups is complete: it has exactly the rows of the table. -/
theorem C71_groups (db : Db) (hdb : db.Ok) : (listGroups db).map Prod.fst = db.groups ∧
    ∀ g n, (∃ l, (g, l) ∈ listGroups db ∧ n ∈ l) ↔ (g, n) ∈ db.rows := by
  refine ⟨by simp [listGroups, Function.comp_def], fun g n => ?_⟩
  simp only [listGroups, List.mem_map, Prod.mk.injEq]
  constructor
  · rintro ⟨l, ⟨g', _, rfl, rfl⟩, hn⟩
    simp only [List.mem_map, List.mem_filter, decide_eq_true_eq] at hn
    obtain ⟨⟨a, b⟩, ⟨h1, h2⟩, h3⟩ := hn
    simp only at h2 h3
    rw [← h2, ← h3]; exact h1
  · intro h
    refine ⟨_, ⟨g, hdb.refs _ h, rfl, rfl⟩, ?_⟩
    simp only [List.mem_map, List.mem_filter, decide_eq_true_eq]
    exact ⟨(g, n), ⟨h, rfl⟩, rfl⟩

end Web
