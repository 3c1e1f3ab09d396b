import Verif.Web.Status
import Verif.Web.Examples

/-!
# Examples for C117
-/

namespace Web.Ex

/-- A storage that knows its corpora and three queries. As in the code, information about a corpus that does not exist is empty
(corpusstorage.rs 544-551, 2444), other requests have an error (650-657). -/
def storage : Backend Nat String Nat :=
  ⟨fun q => if q = "tok &" then .error (.storage .syntaxError) else .ok 1,
    fun q l => if (l.any fun e => e.2.isNone) then .error (.storage .noSuchCorpus) else if q = "tok &" then .error (.storage .syntaxError)
      else if q = "slow" then .error (.storage .timeout) else .ok 2,
    fun q _ c => match c with
      | none => if q = "configuration" || q = "node-annotations" then .ok 0 else .error (.storage .noSuchCorpus)
      | some _ => if q = "broken" then .error .database else .ok 3⟩

theorem storage_proper : storage.Proper := by
  rintro e (⟨q, h⟩ | ⟨q, l, h⟩ | ⟨q, n, x, h⟩)
  · simp only [storage] at h
    split at h <;> cases h
    exact Or.inr ⟨_, rfl⟩
  · simp only [storage] at h
    split at h
    · cases h; exact Or.inr ⟨_, rfl⟩
    · split at h
      · cases h; exact Or.inr ⟨_, rfl⟩
      · split at h <;> cases h
        exact Or.inr ⟨_, rfl⟩
  · simp only [storage] at h
    split at h
    · split at h <;> cases h
      exact Or.inr ⟨_, rfl⟩
    · split at h <;> cases h
      exact Or.inl rfl

def st2 : State Nat Nat String Nat := ⟨db, st.corpora, fs, Function.update Jobs.none 5 (some ⟨.imp, [], .failed⟩), []⟩

theorem st2_ok : st2.db.Ok := ⟨by decide, by decide, by decide⟩

def askStatus (header : Option String) (r : Req String) : Nat := status true lossy set storage st2 (header.map fun h => some (t h)) r

/-- C117: each status occurs. -/
theorem C117_nonvacuous :
    askStatus (some "Bearer ann") (.search "tok" [t "open", t "secret"]) = 200 ∧
    askStatus (some "Bearer root") (.imp "zip" 7) = 202 ∧
    askStatus (some "Bearer ann") (.search "tok &" [t "open"]) = 400 ∧
    askStatus none (.describe "tok &") = 400 ∧
    askStatus (some "Bearer root") (.job none) = 400 ∧
    askStatus (some "Bearer root") (.putGroup (t "a") (t "b") []) = 400 ∧
    askStatus none (.file (t "open") (t "../key")) = 400 ∧
    askStatus (some "Bearer bob") (.search "tok" [t "open"]) = 401 ∧
    askStatus none (.search "tok" [t "secret"]) = 403 ∧
    askStatus none (.delete (t "open")) = 403 ∧
    askStatus none (.file (t "open") (t "b.wav")) = 404 ∧
    askStatus (some "Bearer root") (.delete (t "other")) = 404 ∧
    askStatus (some "Bearer root") (.job (some 6)) = 404 ∧
    askStatus (some "Bearer root") (.job (some 5)) = 410 ∧
    askStatus none (.search "slow" [t "open"]) = 504 := by
  refine ⟨?_, ?_, ?_, ?_, ?_, ?_, ?_, ?_, ?_, ?_, ?_, ?_, ?_, ?_, ?_⟩ <;> decide +kernel

/-- **C117 fails**: what openapi.yml says about corpora that do not exist. For searches it is 400 (line 173), but the answer is an internal error; for
the configuration and annotations 404 (lines 405, 443), but the request succeeds. Without the rights 404 is documented, but the answer is 403. -/
theorem C117_unknown_fails : askStatus (some "Bearer root") (.search "tok" [t "other"]) = 500 ∧
    askStatus (some "Bearer root") (.read "subgraph" (t "other")) = 500 ∧
    askStatus (some "Bearer root") (.read "configuration" (t "other")) = 200 ∧
    askStatus (some "Bearer root") (.read "node-annotations" (t "other")) = 200 ∧
    askStatus none (.read "node-annotations" (t "secret")) = 403 := by
  refine ⟨?_, ?_, ?_, ?_, ?_⟩ <;> decide +kernel

/-- **C117 fails**: that an error of a request is not reported as one of a server. A group with a corpus named twice violates a constraint of
the table, and the name of a directory is not a file. -/
theorem C117_put_fails : askStatus (some "Bearer root") (.putGroup (t "g") (t "g") [t "open", t "open"]) = 502 ∧
    askStatus none (.file (t "open") (t "open")) = 500 := by
  refine ⟨?_, ?_⟩ <;> decide +kernel

/-- **C117 fails**: that 502 is only about the database of groups: an error of the export of a subgraph is reported as such
(errors.rs 163-167). -/
theorem C117_export_fails : askStatus none (.read "broken" (t "open")) = 502 := by decide +kernel

end Web.Ex
