import Mathlib.Data.List.Infix
import Verif.Web.Files
import Verif.Web.Jobs

/-!
# Examples for C71, C72 and C73
-/

namespace Web.Ex

abbrev t (s : String) : Str := s.toList

/-- Two groups; the token of a user is their name. -/
def db : Db := ⟨[t "anonymous", t "staff"], [(t "anonymous", t "open"), (t "staff", t "secret"), (t "staff", t "my corpus")]⟩

def verify (s : Str) : Option Claims :=
  if s = t "ann" then some ⟨t "ann", [t "staff"], []⟩
  else if s = t "root" then some ⟨t "root", [], [t "admin"]⟩
  else none

def set : Settings := ⟨[t "srv", t "data"], false, verify⟩
def setAll : Settings := ⟨[t "srv", t "data"], true, verify⟩

def lossy : List UInt8 → Str := fun _ => []

def file (p : List String) (d : Nat) : List Str × Nat := (p.map String.toList, d)

def fs : Fs Nat := ⟨[file ["srv", "data", "open", "files", "open", "a.wav"] 1, file ["srv", "data", "secret", "files", "secret", "b.wav"] 2,
    file ["srv", "files", "key"] 3, file ["srv", "data", "a%3Ab", "files", "x"] 4, file ["srv", "data", "open", "files", "a..b"] 5,
    file ["srv", "data", "open", "files", "100%41"] 6, file ["srv", "data", "my%20corpus", "files", "my%20corpus", "c.wav"] 7],
  [[], ["srv"], ["srv", "data"], ["srv", "data", "open"], ["srv", "data", "open", "files"], ["srv", "data", "open", "files", "open"],
    ["srv", "data", "secret"], ["srv", "data", "secret", "files"], ["srv", "data", "secret", "files", "secret"], ["srv", "files"],
    ["srv", "data", "a%3Ab"], ["srv", "data", "a%3Ab", "files"], ["srv", "data", "my%20corpus"], ["srv", "data", "my%20corpus", "files"],
    ["srv", "data", "my%20corpus", "files", "my%20corpus"]].map (List.map String.toList)⟩

def st : State Nat Nat Unit Nat := ⟨db, [(t "secret", 10), (t "open", 20), (t "a:b", 30), (t "my corpus", 40)], fs, Jobs.none, []⟩

def backend : Backend Nat Unit Nat := ⟨fun _ => .ok 0, fun _ l => .ok (l.filterMap Prod.snd).sum, fun _ _ c => .ok (c.getD 0)⟩

/-- The answer to a request, as a comparable value. -/
def code (r : Except Err (Resp Nat Nat) × State Nat Nat Unit Nat) : Option (Err ⊕ List Str ⊕ Nat) :=
  match r.1 with
  | .error e => some (.inl e)
  | .ok (.names l) => some (.inr (.inl l))
  | .ok (.data n) => some (.inr (.inr n))
  | .ok (.content n) => some (.inr (.inr n))
  | .ok _ => none

def ask (s : Settings) (header : Option String) (r : Req Unit) : Option (Err ⊕ List Str ⊕ Nat) :=
  code (handle true lossy s backend st (header.map fun h => some (t h)) r)

/-- C71: what two users and an administrator see. -/
theorem C71_nonvacuous :
    ask set none .list = some (.inr (.inl [t "open"])) ∧
    ask set (some "Bearer bob") .list = some (.inl .token) ∧
    ask set none (.search () [t "open", t "secret"]) = some (.inl (.forbidden [t "secret"])) ∧
    ask set (some "bearer ann") (.search () [t "open", t "secret"]) = some (.inr (.inr 30)) ∧
    ask set (some "bearer ann") (.delete (t "open")) = some (.inl (.notAdmin (t "ann"))) ∧
    ask set none (.file (t "open") (t "open/a.wav")) = some (.inr (.inr 1)) ∧
    ask set none (.file (t "secret") (t "secret/b.wav")) = some (.inl (.forbidden [t "secret"])) := by
  refine ⟨?_, ?_, ?_, ?_, ?_, ?_, ?_⟩ <;> decide +kernel

theorem C71_list_nonvacuous :
    handleList set st ⟨t "ann", [t "staff"], []⟩ = [t "my corpus", t "open", t "secret"] ∧
    handleList set st ⟨t "root", [], [t "admin"]⟩ = [t "a:b", t "my corpus", t "open", t "secret"] ∧ st.Distinct := by
  refine ⟨?_, ?_, by unfold State.Distinct; decide⟩ <;>
    refine List.Perm.eq_of_pairwise (le := fun a b => leStr a b = true)
      (fun a b _ _ h1 h2 => _root_.le_antisymm (of_decide_eq_true h1) (of_decide_eq_true h2)) ?_ (by decide +kernel)
      ((List.mergeSort_perm _ _).trans (by decide +kernel))
  all_goals
    exact (C71_list set st _ (by unfold State.Distinct; decide)).1.imp fun h => decide_eq_true (_root_.le_of_lt h)

theorem db_ok : db.Ok := ⟨by decide, by decide, by decide⟩

/-- Both cases of `C71_rights`, and `C71_valid_token`. -/
theorem C71_rights_nonvacuous : claimsOf set (some (some (t "Basic ann"))) = .ok ⟨anonymous, [], []⟩ ∧
    claimsOf set (some (some (t "Bearer ann"))) = .ok ⟨t "ann", [t "staff"], []⟩ := by decide +kernel

/-- The hypotheses of `C71_noninterference_partial` are met by two states that differ in the corpus `secret`. -/
theorem C71_noninterference_nonvacuous :
    let c : Claims := ⟨anonymous, [], []⟩
    let st' : State Nat Nat Unit Nat := { st with corpora := [(t "open", 20), (t "secret", 11)] }
    claimsOf set none = .ok c ∧ ¬ IsAdmin c ∧ (∀ n, Permitted st.db c n → PathName n) ∧ st.Distinct ∧ st'.Distinct ∧
      SameFor set c st st' ∧ st.corpus (t "secret") ≠ st'.corpus (t "secret") := by
  have key : ∀ n, Permitted db ⟨anonymous, [], []⟩ n → n = t "open" := by
    rintro n ⟨g, hg, hm⟩
    have hg : g = t "anonymous" := hg.resolve_left (by simp)
    subst hg
    have : ∀ e ∈ db.rows, e.1 = t "anonymous" → e.2 = t "open" := by decide
    exact this _ hm rfl
  refine ⟨rfl, by simp [IsAdmin], ?_, by unfold State.Distinct; decide, by unfold State.Distinct; decide, ⟨rfl, ?_, rfl, fun _ _ => Iff.rfl⟩, by decide⟩
  · intro n hn
    rw [key n hn]
    refine ⟨by decide, by decide, fun h => ?_, by decide⟩
    have : hasDots (t "open") = true := (hasDots_iff _).2 h
    revert this
    decide
  · intro n hn
    rw [key n hn]
    decide

/-- C71 fails without foreign keys: users keep what a deleted group gave them. -/
theorem C71_delete_fails : Permitted (deleteGroup false db (t "staff")) ⟨t "ann", [t "staff"], []⟩ (t "secret") ∧
    t "staff" ∉ (deleteGroup false db (t "staff")).groups :=
  ⟨⟨t "staff", by simp, by decide⟩, by decide⟩

/-- A state with a corpus whose name leads to the files of another one. -/
def evil : Str := t "x/../../../secret/files"
def dbEvil : Db := ⟨[t "anonymous"], [(t "anonymous", evil)]⟩
def stEvil (files : List (List Str × Nat)) : State Nat Nat Unit Nat :=
  ⟨dbEvil, [(evil, 1), (t "secret", 2)], ⟨files, [[t "srv", t "data", t "x%2F..%2F..%2F..%2Fsecret%2Ffiles", t "files"],
    [t "srv", t "data", t "secret", t "files"]]⟩, Jobs.none, []⟩

open Classical in
/-- C71 fails: the answer for a permitted corpus with such a name depends on the files of a corpus that is not permitted. -/
theorem C71_path_fails :
    let c : Claims := ⟨anonymous, [], []⟩
    let st := stEvil []
    let st' := stEvil [file ["srv", "data", "secret", "files", "b.wav"] 2]
    SameFor set c st st' ∧ code (handle true lossy set backend st none (.files evil none)) = some (.inr (.inl [])) ∧
      code (handle true lossy set backend st' none (.files evil none)) = some (.inl .internal) := by
  refine ⟨⟨rfl, fun _ _ => rfl, ?_, fun _ _ => Iff.rfl⟩, by decide +kernel, by decide +kernel⟩
  have hid : Hidden set dbEvil ⟨anonymous, [], []⟩ (file ["srv", "data", "secret", "files", "b.wav"] 2).1 := by
    refine ⟨t "secret", by unfold DirName; decide, ?_, ?_⟩
    · rintro ⟨g, _, hm⟩
      have : (g, t "secret") ∈ [(t "anonymous", evil)] := hm
      simp only [List.mem_singleton, Prod.mk.injEq] at this
      exact absurd this.2 (by decide)
    · rw [← List.isPrefixOf_iff_prefix]
      decide
  simp only [stEvil, List.filter_nil]
  rw [List.filter_cons_of_neg, List.filter_nil]
  intro h
  first
    | exact of_decide_eq_true h hid
    | exact @of_decide_eq_true _ (Classical.propDecidable _) h hid

/-- C72: the files of a corpus. -/
theorem C72_nonvacuous : listFiles set.dataDir fs (t "open") none = .ok [t "open/a.wav"] ∧
    listFiles set.dataDir fs (t "open") (some (t "")) = .ok [t "open/a.wav", t "a..b", t "100%41"] ∧
    fileContent lossy set.dataDir fs (t "open") (t "open/a.wav") = .ok 1 ∧
    fileContent lossy set.dataDir fs (t "open") (t "../../secret/files/secret/b.wav") = .error .illegalPath ∧
    fileContent lossy set.dataDir fs (t "open") (t "%2e%2e/%2e%2e/secret/files/secret/b.wav") = .error .illegalPath ∧
    fileContent lossy set.dataDir fs (t "open") (t "/srv/files/key") = .error .illegalPath := by
  decide +kernel

theorem fs_tree : fs.Tree := by
  refine ⟨by decide +kernel, ?_, by decide +kernel, by decide +kernel⟩
  have key : ∀ e ∈ fs.files, ∀ q ∈ e.1.inits, q ≠ e.1 → q ∈ fs.dirs := by decide +kernel
  exact fun e he q hq hne => key e he q ((List.mem_inits _ _).2 hq) hne

/-- C72 fails for the name `..`, if everyone may read all corpora: files outside of the data directory are sent. -/
theorem C72_escape_fails : ask setAll none (.file (t "..") (t "key")) = some (.inr (.inr 3)) ∧
    ask setAll none (.files (t "..") (some (t ""))) = some (.inr (.inl [t "key"])) := by
  decide +kernel

/-- C72 fails for a corpus with a colon: the file that is in the directory of the corpus is not found. -/
theorem C72_colon_fails :
    fs.file (pushPath (pushPath (corpusDir set.dataDir (t "a:b")) (t "files")) (t "x")) = some 4 ∧
    fileContent lossy set.dataDir fs (t "a:b") (t "x") = .error .notFound ∧
    listFiles set.dataDir fs (t "a:b") (some (t "")) = .error .notFound := by
  decide +kernel

/-- C72 fails: a file that is listed is refused. -/
theorem C72_listed_fails : listFiles set.dataDir fs (t "open") (some (t "")) = .ok [t "open/a.wav", t "a..b", t "100%41"] ∧
    fileContent lossy set.dataDir fs (t "open") (t "a..b") = .error .illegalPath := by
  decide +kernel

/-- C72 fails: names are decoded a second time, so the file `100%41` is looked for as `100A`. -/
theorem C72_decoded_fails : fileContent lossy set.dataDir fs (t "open") (t "100%41") = .error .notFound := by
  decide +kernel

/-- C72 fails: without a node, the directory with the name of the corpus is searched, but nodes have names with a percent encoding
(relannis.rs 912), so nothing is listed for a corpus with a space. -/
theorem C72_corpus_node_fails : pctEncode nodeNameSet (t "my corpus") = t "my%20corpus" ∧
    listFiles set.dataDir fs (t "my corpus") none = .ok [] ∧
    listFiles set.dataDir fs (t "my corpus") (some (t "my%20corpus")) = .ok [t "my%20corpus/c.wav"] := by
  decide +kernel

/-- C73: an export that is asked for twice while running and twice after its end, next to an import. -/
theorem C73_nonvacuous :
    let a : List (Ev Nat) := [.start 1 .exp, .start 2 .imp, .message 1 (t "x"), .poll 1, .message 2 (t "y"), .message 1 (t "z")]
    let b : List (Ev Nat) := a ++ [.poll 1, .finish 2 (some (t "done")) (.finished none), .finish 1 none (.finished (some 7))]
    ((Jobs.none.run a).poll 1).1 = .accepted [t "x", t "z"] ∧ ((Jobs.none.run b).poll 1).1 = .file 7 ∧
    ((Jobs.none.run (b ++ [.poll 1])).poll 1).1 = .notFound ∧ ((Jobs.none.run (b ++ [.poll 1])).poll 2).1 = .ok [t "y", t "done"] := by
  decide +kernel

end Web.Ex
