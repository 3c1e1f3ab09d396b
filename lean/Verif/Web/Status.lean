import Verif.Web.Files

/-!
# C117: the status of an answer

`error_response` (webservice/src/errors.rs 50-86) and the status of the answers of the handlers (webservice/src/api/). Left out: the
bodies of the answers, answers of the framework itself (routes that do not exist, parameters that can not be read), and failures of the
database, of background threads and of `list`.
-/

set_option linter.unusedSimpArgs false
set_option linter.unusedVariables false

namespace Web

variable {C D Q R α : Type}

/-! ### Model -/

/-- The inner match of `error_response` (errors.rs 66-75). -/
def StorageErr.status : StorageErr → Nat
  | .timeout => 504
  | .semanticError => 400
  | .syntaxError => 400
  | .impossibleSearch => 400
  | _ => 500

/-- `error_response` (errors.rs 50-86). -/
def Err.status : Err → Nat
  | .token => 401
  | .forbidden _ => 403
  | .database => 502
  | .internal => 500
  | .uuid => 400
  | .illegalPath => 400
  | .storage e => e.status
  | .notFound => 404
  | .notAdmin _ => 403

/-- The status of the answers in api/search.rs 42, 57, 99, 132, api/corpora.rs 55, 89, 117, 134, 181, 204, 237, 295, 329, 338-342 and
api/administration.rs 58, 72, 82, 93, 175, 262, 279-303. -/
def Resp.status : Resp D R → Nat
  | .docs => 200
  | .data _ => 200
  | .names _ => 200
  | .content _ => 200
  | .deleted found => if found then 200 else 404
  | .reference _ => 202
  | .poll (.accepted _) => 202
  | .poll (.gone _) => 410
  | .poll (.file _) => 200
  | .poll (.ok _) => 200
  | .poll .notFound => 404
  | .groups _ => 200
  | .groupDeleted => 200
  | .groupPut => 200
  | .nameMismatch => 400

/-- The status of an outcome. -/
def statusOf : Except Err (Resp D R) → Nat
  | .ok r => r.status
  | .error e => e.status

/-- The status of the answer to a request. -/
def status (fk : Bool) (lossy : List UInt8 → Str) (s : Settings) (b : Backend C Q R) (st : State C D Q R) (header : Option (Option Str))
    (r : Req Q) : Nat := statusOf (handle fk lossy s b st header r).1

/-! ### Specification -/

/-- The errors of a query that its author can repair. -/
def StorageErr.OfQuery (e : StorageErr) : Prop := e = .syntaxError ∨ e = .semanticError ∨ e = .impossibleSearch

/-- The header has a token that is not valid. -/
def BadToken (s : Settings) (header : Option (Option Str)) : Prop :=
  ∃ h, header = some (some h) ∧ ("bearer".toList <+: h ∨ "Bearer".toList <+: h) ∧ s.verify (trim (h.drop 6)) = none

/-- The request is about the documentation or the text of a query, which everyone may ask. -/
def Req.Open : Req Q → Prop
  | .docs | .describe _ => True
  | _ => False

/-- The corpora that a request reads. -/
def Req.reads : Req Q → List Str
  | .search _ l => l
  | .read _ n | .files n _ | .file n _ => [n]
  | _ => []

/-- The rights that the request needs are missing. -/
def Lacks (s : Settings) (db : Db) (c : Claims) (r : Req Q) : Prop :=
  (r.administration = true ∧ ¬ IsAdmin c) ∨ ∃ n ∈ r.reads, ¬ MayRead s db c n

/-- The request passes the checks of its token and its rights. -/
def Admitted (s : Settings) (db : Db) (header : Option (Option Str)) (r : Req Q) : Prop :=
  r.Open ∨ ∃ c, claimsOf s header = .ok c ∧ ¬ Lacks s db c r

/-- The path of a file that is not accepted. -/
def BadPath (p : Str) : Prop := ['.', '.'] <:+: trim p ∨ (trim p).head? = some '/'

/-- What the storage answers to a request, if it is asked. -/
def asked (b : Backend C Q R) (st : State C D Q R) : Req Q → Option (Except Err R)
  | .describe q => some (b.describe q)
  | .search q l => some (b.search q (l.map fun n => (n, st.corpus n)))
  | .read q n => some (b.read q n (st.corpus n))
  | _ => none

/-- The errors of the storage are of the storage, or (from the export of a graph) reported as such of the database. -/
def Backend.Proper (b : Backend C Q R) : Prop :=
  ∀ e, ((∃ q, b.describe q = .error e) ∨ (∃ q l, b.search q l = .error e) ∨ ∃ q n x, b.read q n x = .error e) → e = .database ∨ ∃ k, e = .storage k

/-- The request itself is wrong. -/
def Mistaken (lossy : List UInt8 → Str) (s : Settings) (b : Backend C Q R) (st : State C D Q R) (r : Req Q) : Prop :=
  (∃ e, asked b st r = some (.error (.storage e)) ∧ e.OfQuery) ∨
  (∃ n node, r = .files n (some node) ∧ filesDir s.dataDir n ∈ st.fs.dirs ∧ BadPath node) ∨
  (∃ n name, r = .file n name ∧ BadPath (pctDecodeStr lossy name)) ∨ r = .job none ∨ ∃ p n l, r = .putGroup p n l ∧ p ≠ n

/-- The thing that the request is about does not exist. -/
def Missing (lossy : List UInt8 → Str) (s : Settings) (st : State C D Q R) (r : Req Q) : Prop :=
  (∃ n, r = .delete n ∧ st.corpus n = none) ∨ (∃ id, r = .job (some id) ∧ st.jobs id = none) ∨
  (∃ n node, r = .files n node ∧ filesDir s.dataDir n ∉ st.fs.dirs) ∨
  ∃ n name, r = .file n name ∧ ¬ BadPath (pctDecodeStr lossy name) ∧
    st.fs.file (pushPath (filesDir s.dataDir n) (trim (pctDecodeStr lossy name))) = none ∧
    pushPath (filesDir s.dataDir n) (trim (pctDecodeStr lossy name)) ∉ st.fs.dirs

/-! ### Proofs -/

def est : Except Err α → Nat
  | .ok _ => 200
  | .error e => e.status

/-- The status after the checks. -/
def inner (fk : Bool) (lossy : List UInt8 → Str) (s : Settings) (b : Backend C Q R) (st : State C D Q R) : Req Q → Nat
  | .docs => 200
  | .describe q => est (b.describe q)
  | .search q l => est (b.search q (l.map fun n => (n, st.corpus n)))
  | .read q n => est (b.read q n (st.corpus n))
  | .files n node => est (listFiles s.dataDir st.fs n node)
  | .file n name => est (fileContent lossy s.dataDir st.fs n name)
  | .list => 200
  | .delete n => if (st.corpus n).isSome then 200 else 404
  | .imp _ _ => 202
  | .exp _ _ => 202
  | .job none => 400
  | .job (some id) => Resp.status (D := D) (.poll (st.jobs.poll id).1)
  | .groups => 200
  | .deleteGroup _ => 200
  | .putGroup p n l => if p ≠ n then 400 else est (putGroup fk st.db n l).1

theorem statusOf_map {x : Except Err α} {f : α → Resp D R} (h : ∀ a, (f a).status = 200) : statusOf (x.map f) = est x := by
  cases x with
  | ok a => exact h a
  | error e => rfl

theorem claimsOf_error {s : Settings} {header : Option (Option Str)} {e : Err} (h : claimsOf s header = .error e) : e = .token ∧ BadToken s header := by
  unfold claimsOf at h
  split at h
  · rename_i x
    split at h
    · rename_i hp
      split at h
      · cases h
      · rename_i hv
        cases h
        rw [Bool.or_eq_true, List.isPrefixOf_iff_prefix, List.isPrefixOf_iff_prefix] at hp
        exact ⟨rfl, x, rfl, hp, hv⟩
    · cases h
  · cases h

theorem claimsOf_ok {s : Settings} {header : Option (Option Str)} {c : Claims} (h : claimsOf s header = .ok c) : ¬ BadToken s header := by
  rintro ⟨x, rfl, hp, hv⟩
  unfold claimsOf at h
  simp only at h
  rw [if_pos (by rw [Bool.or_eq_true, List.isPrefixOf_iff_prefix, List.isPrefixOf_iff_prefix]; exact hp), hv] at h
  cases h

section
variable (fk : Bool) (lossy : List UInt8 → Str) (s : Settings) (b : Backend C Q R) (st : State C D Q R)

theorem checkRead_error {db : Db} {c : Claims} {l : List Str} (h : ¬ ∀ n ∈ l, MayRead s db c n) : ∃ bad, checkRead s db c l = .error (.forbidden bad) := by
  cases hc : checkRead s db c l with
  | ok u => exact absurd (checkRead_ok.1 hc) h
  | error e =>
    obtain ⟨bad, rfl, _⟩ := (C71_check s db c l).2 e hc
    exact ⟨bad, rfl⟩

theorem dispatch_lacks {c : Claims} {r : Req Q} (h : Lacks s st.db c r) : statusOf (dispatch fk lossy s b st c r).1 = 403 := by
  rcases h with ⟨h1, h2⟩ | ⟨n, hn, hm⟩
  · have hc' : checkAdmin c = .error (.notAdmin c.sub) := if_neg h2
    cases r <;> simp [Req.administration] at h1 <;>
      simp [dispatch, handleDelete, handleImport, handleExport, handleJob, handleGroups, handleDeleteGroup, handlePutGroup, hc', statusOf, Err.status]
  · obtain ⟨bad, hb⟩ := checkRead_error s (db := st.db) (c := c) (l := r.reads) fun h => hm (h n hn)
    cases r <;> simp [Req.reads] at hn <;> simp only [Req.reads] at hb <;>
      simp [dispatch, handleSearch, handleRead, handleFiles, handleFile, hb, statusOf, Err.status]

theorem dispatch_admitted {c : Claims} {r : Req Q} (h : ¬ Lacks s st.db c r) : statusOf (dispatch fk lossy s b st c r).1 = inner fk lossy s b st r := by
  unfold Lacks at h
  simp only [not_or, not_and, not_not, not_exists] at h
  obtain ⟨h1, h2⟩ := h
  have hr : checkRead s st.db c r.reads = .ok () := checkRead_ok.2 h2
  have ha : r.administration = true → checkAdmin c = .ok () := fun h => if_pos (h1 h)
  cases r with
  | docs => rfl
  | describe q => exact statusOf_map fun _ => rfl
  | search q l =>
    simp only [Req.reads] at hr
    simp only [dispatch, handleSearch, hr]
    exact statusOf_map fun _ => rfl
  | read q n =>
    simp only [Req.reads] at hr
    simp only [dispatch, handleRead, hr]
    exact statusOf_map fun _ => rfl
  | files n node =>
    simp only [Req.reads] at hr
    simp only [dispatch, handleFiles, hr]
    exact statusOf_map fun _ => rfl
  | file n name =>
    simp only [Req.reads] at hr
    simp only [dispatch, handleFile, hr]
    exact statusOf_map fun _ => rfl
  | list => rfl
  | delete n => simp [dispatch, handleDelete, ha rfl, statusOf, Resp.status, inner]
  | imp q id => simp [dispatch, handleImport, ha rfl, statusOf, Resp.status, inner]
  | exp l id => simp [dispatch, handleExport, ha rfl, statusOf, Resp.status, inner]
  | job id =>
    cases id with
    | none => simp [dispatch, handleJob, ha rfl, statusOf, Err.status, inner]
    | some id => simp [dispatch, handleJob, ha rfl, statusOf, inner]
  | groups => simp [dispatch, handleGroups, ha rfl, statusOf, Resp.status, inner]
  | deleteGroup n => simp [dispatch, handleDeleteGroup, ha rfl, statusOf, Resp.status, inner]
  | putGroup p n l =>
    simp only [dispatch, handlePutGroup, ha rfl, inner]
    split
    · rfl
    · exact statusOf_map fun _ => rfl

theorem open_iff {r : Req Q} : r.takesClaims = false ↔ r.Open := by cases r <;> simp [Req.takesClaims, Req.Open]

theorem not_lacks_open {r : Req Q} (h : r.Open) (db : Db) (c : Claims) : ¬ Lacks s db c r := by
  cases r <;> simp [Req.Open] at h <;> simp [Lacks, Req.administration, Req.reads]

/-- The three cases. -/
theorem status_cases (header : Option (Option Str)) (r : Req Q) :
    (¬ r.Open ∧ BadToken s header ∧ ¬ Admitted s st.db header r ∧ status fk lossy s b st header r = 401) ∨
    ((∃ c, ¬ r.Open ∧ claimsOf s header = .ok c ∧ Lacks s st.db c r) ∧ ¬ Admitted s st.db header r ∧ status fk lossy s b st header r = 403) ∨
    (Admitted s st.db header r ∧ status fk lossy s b st header r = inner fk lossy s b st r) := by
  unfold status handle
  by_cases ho : r.Open
  · rw [if_neg (by rw [open_iff.2 ho]; simp)]
    exact Or.inr (Or.inr ⟨Or.inl ho, dispatch_admitted fk lossy s b st (not_lacks_open s ho _ _)⟩)
  · rw [if_pos (by cases h : r.takesClaims with | true => rfl | false => exact absurd (open_iff.1 h) ho)]
    cases hc : claimsOf s header with
    | error e =>
      obtain ⟨rfl, hb⟩ := claimsOf_error hc
      refine Or.inl ⟨ho, hb, ?_, rfl⟩
      rintro (h | ⟨c, h, _⟩)
      · exact ho h
      · rw [hc] at h; cases h
    | ok c =>
      by_cases hl : Lacks s st.db c r
      · refine Or.inr (Or.inl ⟨⟨c, ho, rfl, hl⟩, ?_, dispatch_lacks fk lossy s b st hl⟩)
        rintro (h | ⟨c', h, h'⟩)
        · exact ho h
        · rw [hc] at h; cases h; exact h' hl
      · exact Or.inr (Or.inr ⟨Or.inr ⟨c, hc, hl⟩, dispatch_admitted fk lossy s b st hl⟩)

theorem badPath_iff (p : Str) : BadPath p ↔ checkPath p = .error .illegalPath := by
  unfold BadPath checkPath
  simp only
  by_cases h : hasDots (trim p)
  · simp [h, (hasDots_iff _).1 h]
  · have : ¬ ['.', '.'] <:+: trim p := fun h' => h ((hasDots_iff _).2 h')
    simp only [h, this, false_or]
    by_cases h2 : (trim p).head? = some '/' <;> simp [h2, this]

theorem checkPath_good {p : Str} (h : ¬ BadPath p) : checkPath p = .ok (trim p) := by
  unfold BadPath at h
  push Not at h
  exact checkPath_of h.1 h.2

theorem relative_error {base : List Str} {l : List (List Str)} {e : Err} (h : relative base l = .error e) : e = .internal := by
  induction l with
  | nil => cases h
  | cons p r ih =>
    rw [relative] at h
    split at h
    · split at h
      · cases h
      · rename_i e' he
        cases h
        exact ih he
    · cases h; rfl

/-- The status of the list of files. -/
theorem listFiles_status (n : Str) (node : Option Str) :
    (filesDir s.dataDir n ∉ st.fs.dirs ∧ est (listFiles s.dataDir st.fs n node) = 404) ∨
    (filesDir s.dataDir n ∈ st.fs.dirs ∧ (∃ p, node = some p ∧ BadPath p) ∧ est (listFiles s.dataDir st.fs n node) = 400) ∨
    (filesDir s.dataDir n ∈ st.fs.dirs ∧ (∀ p, node = some p → ¬ BadPath p) ∧
      (est (listFiles s.dataDir st.fs n node) = 200 ∨ est (listFiles s.dataDir st.fs n node) = 500)) := by
  unfold listFiles
  by_cases hd : filesDir s.dataDir n ∈ st.fs.dirs
  · rw [if_pos hd]
    right
    have hrel : ∀ p, (∃ x, (if p ∈ st.fs.dirs then relative (filesDir s.dataDir n) (st.fs.walk p) else .ok []) = (.ok x : Except Err (List Str))) ∨
        (if p ∈ st.fs.dirs then relative (filesDir s.dataDir n) (st.fs.walk p) else .ok []) = .error .internal := by
      intro p
      split
      · cases h : relative (filesDir s.dataDir n) (st.fs.walk p) with
        | ok x => exact Or.inl ⟨x, rfl⟩
        | error e => rw [relative_error h]; exact Or.inr rfl
      · exact Or.inl ⟨[], rfl⟩
    cases node with
    | none =>
      right
      refine ⟨hd, by simp, ?_⟩
      simp only [searchPath]
      rcases hrel (pushPath (filesDir s.dataDir n) n) with ⟨x, h⟩ | h <;> rw [h]
      · exact Or.inl rfl
      · exact Or.inr rfl
    | some p =>
      by_cases hb : BadPath p
      · left
        refine ⟨hd, ⟨p, rfl, hb⟩, ?_⟩
        simp only [searchPath, (badPath_iff p).1 hb]
        rfl
      · right
        refine ⟨hd, by rintro _ ⟨rfl⟩; exact hb, ?_⟩
        simp only [searchPath, checkPath_good hb]
        rcases hrel (pushPath (filesDir s.dataDir n) (trim p)) with ⟨x, h⟩ | h <;> rw [h]
        · exact Or.inl rfl
        · exact Or.inr rfl
  · rw [if_neg hd]
    exact Or.inl ⟨hd, rfl⟩

/-- The status of a file. -/
theorem fileContent_status (n name : Str) :
    (BadPath (pctDecodeStr lossy name) ∧ est (fileContent lossy s.dataDir st.fs n name) = 400) ∨
    (¬ BadPath (pctDecodeStr lossy name) ∧ st.fs.file (pushPath (filesDir s.dataDir n) (trim (pctDecodeStr lossy name))) = none ∧
      pushPath (filesDir s.dataDir n) (trim (pctDecodeStr lossy name)) ∉ st.fs.dirs ∧ est (fileContent lossy s.dataDir st.fs n name) = 404) ∨
    (¬ BadPath (pctDecodeStr lossy name) ∧ st.fs.file (pushPath (filesDir s.dataDir n) (trim (pctDecodeStr lossy name))) = none ∧
      pushPath (filesDir s.dataDir n) (trim (pctDecodeStr lossy name)) ∈ st.fs.dirs ∧ est (fileContent lossy s.dataDir st.fs n name) = 500) ∨
    (¬ BadPath (pctDecodeStr lossy name) ∧ (∃ d, st.fs.file (pushPath (filesDir s.dataDir n) (trim (pctDecodeStr lossy name))) = some d) ∧
      est (fileContent lossy s.dataDir st.fs n name) = 200) := by
  unfold fileContent
  by_cases hb : BadPath (pctDecodeStr lossy name)
  · rw [(badPath_iff _).1 hb]
    exact Or.inl ⟨hb, rfl⟩
  · rw [checkPath_good hb]
    right
    simp only
    cases hf : st.fs.file (pushPath (filesDir s.dataDir n) (trim (pctDecodeStr lossy name))) with
    | some d => exact Or.inr (Or.inr ⟨hb, ⟨d, rfl⟩, rfl⟩)
    | none =>
      by_cases hd : pushPath (filesDir s.dataDir n) (trim (pctDecodeStr lossy name)) ∈ st.fs.dirs
      · simp only [if_pos hd]; exact Or.inr (Or.inl ⟨hb, trivial, hd, rfl⟩)
      · simp only [if_neg hd]; exact Or.inl ⟨hb, trivial, hd, rfl⟩

theorem poll_status (j : Jobs R) (id : Nat) : (j id = none ∧ Resp.status (D := D) (.poll (j.poll id).1) = 404) ∨
    (∃ x, j id = some x ∧ x.status = .running ∧ Resp.status (D := D) (.poll (j.poll id).1) = 202) ∨
    (∃ x, j id = some x ∧ x.status = .failed ∧ Resp.status (D := D) (.poll (j.poll id).1) = 410) ∨
    (∃ x f, j id = some x ∧ x.status = .finished f ∧ Resp.status (D := D) (.poll (j.poll id).1) = 200) := by
  unfold Jobs.poll
  cases hj : j id with
  | none => exact Or.inl ⟨rfl, rfl⟩
  | some x =>
    right
    simp only
    cases hs : x.status with
    | running => exact Or.inl ⟨x, rfl, hs, rfl⟩
    | failed => exact Or.inr (Or.inl ⟨x, rfl, hs, rfl⟩)
    | finished f => cases f <;> exact Or.inr (Or.inr ⟨x, _, rfl, hs, rfl⟩)

/-- The answers of the storage. -/
theorem est_storage {x : Except Err α} (h : ∀ e, x = .error e → e = .database ∨ ∃ k, e = .storage k) :
    (∃ a, x = .ok a ∧ est x = 200) ∨ (x = .error .database ∧ est x = 502) ∨ (∃ e, x = .error (.storage e) ∧ e.OfQuery ∧ est x = 400) ∨
      (x = .error (.storage .timeout) ∧ est x = 504) ∨
      (∃ e, x = .error (.storage e) ∧ ¬ e.OfQuery ∧ e ≠ .timeout ∧ est x = 500) := by
  cases x with
  | ok a => exact Or.inl ⟨a, rfl, rfl⟩
  | error e =>
    right
    rcases h e rfl with rfl | ⟨k, rfl⟩
    · exact Or.inl ⟨rfl, rfl⟩
    · right
      cases k
      · exact Or.inl ⟨_, rfl, Or.inl rfl, rfl⟩
      · exact Or.inl ⟨_, rfl, Or.inr (Or.inl rfl), rfl⟩
      · exact Or.inl ⟨_, rfl, Or.inr (Or.inr rfl), rfl⟩
      · exact Or.inr (Or.inl ⟨rfl, rfl⟩)
      · exact Or.inr (Or.inr ⟨_, rfl, by simp [StorageErr.OfQuery], by simp, rfl⟩)
      · exact Or.inr (Or.inr ⟨_, rfl, by simp [StorageErr.OfQuery], by simp, rfl⟩)

theorem asked_proper {r : Req Q} (hp : b.Proper) {x : Except Err R} (h : asked b st r = some x) : ∀ e, x = .error e → e = .database ∨ ∃ k, e = .storage k := by
  intro e he
  subst he
  cases r <;> simp only [asked, Option.some.injEq, reduceCtorEq] at h
  · exact hp e (Or.inl ⟨_, h⟩)
  · exact hp e (Or.inr (Or.inl ⟨_, _, h⟩))
  · exact hp e (Or.inr (Or.inr ⟨_, _, _, h⟩))

theorem inner_asked {r : Req Q} {x : Except Err R} (h : asked b st r = some x) : inner fk lossy s b st r = est x := by
  cases r <;> simp only [asked, Option.some.injEq, reduceCtorEq] at h <;> subst h <;> rfl

theorem putGroup_status (hdb : st.db.Ok) (n : Str) (l : List Str) : (l.Nodup ∧ est (putGroup fk st.db n l).1 = 200) ∨
    (¬ l.Nodup ∧ est (putGroup fk st.db n l).1 = 502) := by
  have h := (C71_put fk st.db hdb n l).1
  by_cases hn : l.Nodup
  · rw [h.2 hn]; exact Or.inl ⟨hn, rfl⟩
  · right
    refine ⟨hn, ?_⟩
    have hne : (putGroup fk st.db n l).1 ≠ .ok () := fun e => hn (h.1 e)
    unfold putGroup at hne ⊢
    simp only at hne ⊢
    split
    · rename_i h'; rw [h'] at hne; exact absurd rfl hne
    · rfl

theorem relative_fails {base : List Str} {l : List (List Str)} : relative base l = .error .internal ↔ ∃ p ∈ l, ¬ base <+: p := by
  constructor
  · intro h
    by_contra hno
    push Not at hno
    rw [relative_ok base l hno] at h
    cases h
  · rintro ⟨p, hp, hb⟩
    cases h : relative base l with
    | error e => rw [relative_error h]
    | ok ts =>
      exfalso
      induction l generalizing ts with
      | nil => cases hp
      | cons a r ih =>
        rw [relative] at h
        split at h
        · rename_i ha
          split at h
          · rename_i l' hl
            rcases List.mem_cons.1 hp with rfl | hp
            · exact hb (List.isPrefixOf_iff_prefix.1 ha)
            · exact ih hp l' hl
          · cases h
        · cases h

/-- A corpus name that leads out of the directory of its files. -/
def Outside (s : Settings) (fs : Fs D) (n : Str) : Prop :=
  filesDir s.dataDir n ∈ fs.dirs ∧ pushPath (filesDir s.dataDir n) n ∈ fs.dirs ∧
    ∃ p d, (p, d) ∈ fs.files ∧ pushPath (filesDir s.dataDir n) n <+: p ∧ ¬ filesDir s.dataDir n <+: p

theorem listFiles_internal (n : Str) (node : Option Str) : est (listFiles s.dataDir st.fs n node) = 500 ↔ node = none ∧ Outside s st.fs n := by
  have key : ∀ q, est (if q ∈ st.fs.dirs then relative (filesDir s.dataDir n) (st.fs.walk q) else .ok []) = 500 ↔
      q ∈ st.fs.dirs ∧ ∃ p d, (p, d) ∈ st.fs.files ∧ q <+: p ∧ ¬ filesDir s.dataDir n <+: p := by
    intro q
    by_cases hq : q ∈ st.fs.dirs
    · rw [if_pos hq]
      have hr := relative_fails (base := filesDir s.dataDir n) (l := st.fs.walk q)
      have h2 : (∃ p ∈ st.fs.walk q, ¬ filesDir s.dataDir n <+: p) ↔ ∃ p d, (p, d) ∈ st.fs.files ∧ q <+: p ∧ ¬ filesDir s.dataDir n <+: p := by
        simp only [Fs.mem_walk]
        exact ⟨fun ⟨p, ⟨h1, d, h2⟩, h3⟩ => ⟨p, d, h2, h1, h3⟩, fun ⟨p, d, h2, h1, h3⟩ => ⟨p, ⟨h1, d, h2⟩, h3⟩⟩
      rw [h2] at hr
      simp only [hq, true_and, ← hr]
      cases h : relative (filesDir s.dataDir n) (st.fs.walk q) with
      | ok x => simp [est]
      | error e => rw [relative_error h]; simp [est, Err.status]
    · rw [if_neg hq]; simp [hq, est]
  unfold listFiles
  by_cases hd : filesDir s.dataDir n ∈ st.fs.dirs
  · rw [if_pos hd]
    cases node with
    | none =>
      simp only [searchPath, true_and]
      rw [key]
      exact ⟨fun h => ⟨hd, h⟩, fun h => h.2⟩
    | some p =>
      refine iff_of_false ?_ (by simp)
      by_cases hb : BadPath p
      · simp only [searchPath, (badPath_iff p).1 hb]
        simp [est, Err.status]
      · simp only [searchPath, checkPath_good hb]
        rw [key]
        rintro ⟨_, q, d, _, h1, h2⟩
        unfold BadPath at hb
        push Not at hb
        rw [pushPath_rel _ hb.1 hb.2] at h1
        exact h2 ((List.prefix_append _ _).trans h1)
  · rw [if_neg hd]
    exact iff_of_false (by simp [est, Err.status]) fun h => hd h.2.1

/-- Why the status after the checks is what it is. -/
structure Reasons (fk : Bool) (lossy : List UInt8 → Str) (s : Settings) (b : Backend C Q R) (st : State C D Q R) (r : Req Q) (k : Nat) : Prop where
  bad : k = 400 ↔ Mistaken lossy s b st r
  missing : k = 404 ↔ Missing lossy s st r
  timeout : k = 504 ↔ asked b st r = some (.error (.storage .timeout))
  gateway : k = 502 ↔ asked b st r = some (.error .database) ∨ ∃ n l, r = .putGroup n n l ∧ ¬ l.Nodup
  internal : k = 500 ↔ (∃ e, asked b st r = some (.error (.storage e)) ∧ ¬ e.OfQuery ∧ e ≠ .timeout) ∨
    (∃ n name, r = .file n name ∧ ¬ BadPath (pctDecodeStr lossy name) ∧
      st.fs.file (pushPath (filesDir s.dataDir n) (trim (pctDecodeStr lossy name))) = none ∧
      pushPath (filesDir s.dataDir n) (trim (pctDecodeStr lossy name)) ∈ st.fs.dirs) ∨
    ∃ n, r = .files n none ∧ Outside s st.fs n
  accepted : k = 202 ↔ (∃ q id, r = .imp q id) ∨ (∃ l id, r = .exp l id) ∨ ∃ id x, r = .job (some id) ∧ st.jobs id = some x ∧ x.status = .running
  gone : k = 410 ↔ ∃ id x, r = .job (some id) ∧ st.jobs id = some x ∧ x.status = .failed
  known : k ∈ [200, 202, 400, 404, 410, 500, 502, 504]

theorem inner_reasons (hp : b.Proper) (hdb : st.db.Ok) (r : Req Q) : Reasons fk lossy s b st r (inner fk lossy s b st r) := by
  have hasked : ∀ x, asked b st r = some x → (∀ n node, r ≠ .files n node) → (∀ n name, r ≠ .file n name) → (∀ o, r ≠ .job o) →
      (∀ p n l, r ≠ .putGroup p n l) → (∀ n, r ≠ .delete n) → (∀ q id, r ≠ .imp q id) → (∀ l id, r ≠ .exp l id) →
      Reasons fk lossy s b st r (inner fk lossy s b st r) := by
    intro x hx h1 h2 h3 h4 h5 h6 h7
    rw [inner_asked fk lossy s b st hx]
    have hq : ¬ StorageErr.OfQuery .timeout := by simp [StorageErr.OfQuery]
    rcases est_storage (asked_proper b st hp hx) with ⟨a, rfl, e⟩ | ⟨rfl, e⟩ | ⟨k, rfl, hk, e⟩ | ⟨rfl, e⟩ | ⟨k, rfl, hk, hk', e⟩ <;> rw [e] <;>
      constructor <;> simp_all [Mistaken, Missing]
    all_goals (rintro rfl; exact hq hk)
  cases r with
  | describe q => exact hasked _ rfl (by simp) (by simp) (by simp) (by simp) (by simp) (by simp) (by simp)
  | search q l => exact hasked _ rfl (by simp) (by simp) (by simp) (by simp) (by simp) (by simp) (by simp)
  | read q n => exact hasked _ rfl (by simp) (by simp) (by simp) (by simp) (by simp) (by simp) (by simp)
  | files n node =>
    have h500 := listFiles_internal s st n node
    simp only [inner]
    rcases listFiles_status s st n node with ⟨h1, e⟩ | ⟨h1, ⟨p, rfl, h2⟩, e⟩ | ⟨h1, h2, e⟩
    · rw [e] at h500 ⊢
      constructor <;> simp_all [Mistaken, Missing, asked]
    · rw [e] at h500 ⊢
      constructor <;> simp_all [Mistaken, Missing, asked]
    · rcases e with e | e <;> rw [e] at h500 ⊢ <;> constructor <;> simp_all [Mistaken, Missing, asked]
  | file n name =>
    simp only [inner]
    rcases fileContent_status lossy s st n name with ⟨h1, e⟩ | ⟨h1, h2, h3, e⟩ | ⟨h1, h2, h3, e⟩ | ⟨h1, ⟨d, h2⟩, e⟩ <;> rw [e] <;>
      constructor <;> simp_all [Mistaken, Missing, asked]
  | delete n =>
    simp only [inner]
    cases h : st.corpus n <;> constructor <;> simp_all [Mistaken, Missing, asked]
  | job id =>
    cases id with
    | none => constructor <;> simp [inner, Mistaken, Missing, asked]
    | some id =>
      simp only [inner]
      rcases poll_status (D := D) st.jobs id with ⟨h, e⟩ | ⟨x, h, h', e⟩ | ⟨x, h, h', e⟩ | ⟨x, f, h, h', e⟩ <;> rw [e] <;>
        constructor <;> simp_all [Mistaken, Missing, asked]
  | putGroup p n l =>
    simp only [inner]
    by_cases hpn : p = n
    · subst hpn
      rw [if_neg (by simp)]
      rcases putGroup_status fk st hdb p l with ⟨h, e⟩ | ⟨h, e⟩ <;> rw [e] <;> constructor <;> simp_all [Mistaken, Missing, asked]
    · rw [if_pos hpn]
      constructor <;> simp_all [Mistaken, Missing, asked]
      intro x
      exact absurd x.symm hpn
  | docs => constructor <;> simp [inner, Mistaken, Missing, asked]
  | list => constructor <;> simp [inner, Mistaken, Missing, asked]
  | imp q id => constructor <;> simp [inner, Mistaken, Missing, asked]
  | exp q id => constructor <;> simp [inner, Mistaken, Missing, asked]
  | groups => constructor <;> simp [inner, Mistaken, Missing, asked]
  | deleteGroup n => constructor <;> simp [inner, Mistaken, Missing, asked]

end

section
variable (fk : Bool) (lossy : List UInt8 → Str) (s : Settings) {b : Backend C Q R} (hp : b.Proper) {st : State C D Q R} (hdb : st.db.Ok)
  (header : Option (Option Str)) (r : Req Q)
include hp hdb

/-- The status of a request that is admitted, and of one that is not. -/
theorem status_reasons : (Admitted s st.db header r ∧ Reasons fk lossy s b st r (status fk lossy s b st header r)) ∨
    (¬ Admitted s st.db header r ∧ (status fk lossy s b st header r = 401 ∨ status fk lossy s b st header r = 403)) := by
  rcases status_cases fk lossy s b st header r with ⟨_, _, h, e⟩ | ⟨_, h, e⟩ | ⟨h, e⟩
  · exact Or.inr ⟨h, Or.inl e⟩
  · exact Or.inr ⟨h, Or.inr e⟩
  · exact Or.inl ⟨h, e ▸ inner_reasons fk lossy s b st hp hdb r⟩

/-- **C117**: 401 is the answer exactly if the token is not valid, and the request is one that needs claims. -/
theorem C117_unauthorized : status fk lossy s b st header r = 401 ↔ ¬ r.Open ∧ BadToken s header := by
  rcases status_cases fk lossy s b st header r with ⟨h1, h2, _, e⟩ | ⟨⟨c, h1, h2, h3⟩, _, e⟩ | ⟨h, e⟩
  · simp [e, h1, h2]
  · simp [e, claimsOf_ok h2]
  · have hk := (inner_reasons fk lossy s b st hp hdb r).known
    rw [e]
    refine iff_of_false (fun h' => by rw [h'] at hk; simp at hk) ?_
    rintro ⟨h1, h2⟩
    rcases h with h | ⟨c, hc, _⟩
    · exact h1 h
    · exact claimsOf_ok hc h2

/-- **C117**: 403 is the answer exactly if the claims are valid, but do not give the rights that the request needs. -/
theorem C117_forbidden : status fk lossy s b st header r = 403 ↔ ∃ c, claimsOf s header = .ok c ∧ Lacks s st.db c r := by
  rcases status_cases fk lossy s b st header r with ⟨h1, h2, _, e⟩ | ⟨⟨c, h1, h2, h3⟩, _, e⟩ | ⟨h, e⟩
  · simp only [e]
    exact iff_of_false (by decide) fun ⟨c, hc, _⟩ => claimsOf_ok hc h2
  · simp only [e, true_iff]
    exact ⟨c, h2, h3⟩
  · have hk := (inner_reasons fk lossy s b st hp hdb r).known
    rw [e]
    refine iff_of_false (fun h' => by rw [h'] at hk; simp at hk) ?_
    rintro ⟨c, hc, hl⟩
    rcases h with h | ⟨c', hc', h⟩
    · exact not_lacks_open s h _ _ hl
    · rw [hc] at hc'; cases hc'; exact h hl

theorem of_reasons {k : Nat} {P : Prop} (h : ∀ j, Reasons fk lossy s b st r j → (j = k ↔ P)) (h1 : k ≠ 401) (h3 : k ≠ 403) :
    status fk lossy s b st header r = k ↔ Admitted s st.db header r ∧ P := by
  rcases status_reasons fk lossy s hp hdb header r with ⟨ha, hr⟩ | ⟨ha, e | e⟩
  · simp only [ha, true_and]; exact h _ hr
  · simp only [ha, false_and, iff_false, e]; exact fun h' => h1 h'.symm
  · simp only [ha, false_and, iff_false, e]; exact fun h' => h3 h'.symm

/-- **C117**: 400 is the answer exactly to a request that is admitted and wrong: an error of the query, a path or an identifier that is not
accepted, or two names of a group. -/
theorem C117_bad_request : status fk lossy s b st header r = 400 ↔ Admitted s st.db header r ∧ Mistaken lossy s b st r :=
  of_reasons fk lossy s hp hdb header r (fun _ h => h.bad) (by decide) (by decide)

/-- **C117**: 404 is the answer exactly if a job, a file, a directory of files or a corpus to delete does not exist. -/
theorem C117_not_found : status fk lossy s b st header r = 404 ↔ Admitted s st.db header r ∧ Missing lossy s st r :=
  of_reasons fk lossy s hp hdb header r (fun _ h => h.missing) (by decide) (by decide)

/-- **C117**: 504 is the answer exactly if the time limit was exceeded. -/
theorem C117_timeout : status fk lossy s b st header r = 504 ↔ Admitted s st.db header r ∧ asked b st r = some (.error (.storage .timeout)) :=
  of_reasons fk lossy s hp hdb header r (fun _ h => h.timeout) (by decide) (by decide)

/-- **C117**: 502 is the answer exactly if the export of a graph failed, or a group is put with a corpus named twice. -/
theorem C117_gateway : status fk lossy s b st header r = 502 ↔
    Admitted s st.db header r ∧ (asked b st r = some (.error .database) ∨ ∃ n l, r = .putGroup n n l ∧ ¬ l.Nodup) :=
  of_reasons fk lossy s hp hdb header r (fun _ h => h.gateway) (by decide) (by decide)

/-- **C117**: 500 is the answer exactly to the other errors of the storage, for a directory instead of a file, and for a corpus name that leads
out of the directory of its files. -/
theorem C117_internal : status fk lossy s b st header r = 500 ↔ Admitted s st.db header r ∧
    ((∃ e, asked b st r = some (.error (.storage e)) ∧ ¬ e.OfQuery ∧ e ≠ .timeout) ∨
    (∃ n name, r = .file n name ∧ ¬ BadPath (pctDecodeStr lossy name) ∧
      st.fs.file (pushPath (filesDir s.dataDir n) (trim (pctDecodeStr lossy name))) = none ∧
      pushPath (filesDir s.dataDir n) (trim (pctDecodeStr lossy name)) ∈ st.fs.dirs) ∨
    ∃ n, r = .files n none ∧ Outside s st.fs n) :=
  of_reasons fk lossy s hp hdb header r (fun _ h => h.internal) (by decide) (by decide)

/-- **C117**: 202 and 410 are about jobs. -/
theorem C117_jobs : (status fk lossy s b st header r = 202 ↔ Admitted s st.db header r ∧
      ((∃ q id, r = .imp q id) ∨ (∃ l id, r = .exp l id) ∨ ∃ id x, r = .job (some id) ∧ st.jobs id = some x ∧ x.status = .running)) ∧
    (status fk lossy s b st header r = 410 ↔ Admitted s st.db header r ∧
      ∃ id x, r = .job (some id) ∧ st.jobs id = some x ∧ x.status = .failed) :=
  ⟨of_reasons fk lossy s hp hdb header r (fun _ h => h.accepted) (by decide) (by decide),
    of_reasons fk lossy s hp hdb header r (fun _ h => h.gone) (by decide) (by decide)⟩

/-- **C117**: there is no other status than these and 200. -/
theorem C117_known : status fk lossy s b st header r ∈ [200, 202, 400, 401, 403, 404, 410, 500, 502, 504] := by
  rcases status_reasons fk lossy s hp hdb header r with ⟨_, hr⟩ | ⟨_, e | e⟩
  · have := hr.known
    simp only [List.mem_cons, List.not_mem_nil, or_false] at this ⊢
    omega
  · simp [e]
  · simp [e]

omit hp hdb in
/-- **C117**: the status of a request without the rights does not depend on what the storage has or answers. -/
theorem C117_hidden (b' : Backend C Q R) (st' : State C D Q R) (hst : st'.db = st.db) (h : ¬ Admitted s st.db header r) :
    status fk lossy s b st header r = status fk lossy s b' st' header r := by
  have h' : ¬ Admitted s st'.db header r := hst ▸ h
  rcases status_cases fk lossy s b st header r with ⟨_, h2, _, e⟩ | ⟨⟨c, _, h2, _⟩, _, e⟩ | ⟨ha, _⟩ <;>
    rcases status_cases fk lossy s b' st' header r with ⟨_, h2', _, e'⟩ | ⟨⟨c', _, h2', _⟩, _, e'⟩ | ⟨ha', _⟩
  all_goals first
    | exact absurd ha h
    | exact absurd ha' h'
    | exact e.trans e'.symm
    | exact absurd h2 (claimsOf_ok h2')
    | exact absurd h2' (claimsOf_ok h2)

end

end Web
