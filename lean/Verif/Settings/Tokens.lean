import Verif.Settings.Props
import Verif.Web.Status

/-!
# Which tokens a service with a settings file accepts (C119)
-/

namespace Settings

/-- The settings as the request handlers see them: `verify_token` (webservice/src/extractors.rs 7-19) for an arbitrary function `decode`,
which stands for `jsonwebtoken::decode` with the key and algorithm of the settings (settings.rs 40-58). -/
def web (decode : Verification → Str → Option Web.Claims) (dataDir : List Str) (s : T) : Web.Settings := ⟨dataDir, s.anonymous, decode s.verification⟩

/-- **C119**: if the file sets a secret and does not choose public keys, groups and roles come only from tokens that are verified with
this secret. -/
theorem C119_rights (decode : Verification → Str → Option Web.Claims) (dir : List Str) {file : Conf} {s : T} {secret : Str}
    (h : withFile (some (some file)) = some s) (h1 : file.lookup .secret = some (.str secret))
    (h2 : file.lookup .verificationType ≠ some (.str "RS256".toList)) (header : Option (Option Str)) (c : Web.Claims)
    (hc : Web.claimsOf (web decode dir s) header = .ok c) :
    (∃ x t, header = some (some x) ∧ t <:+: x ∧ decode (.hs256 secret) t = some c) ∨ (c.groups = [] ∧ c.roles = [] ∧ ¬ Web.IsAdmin c) := by
  have hv := ((C119_in_effect file s).1 h).verification
  have hs : s.verification = .hs256 secret := by
    cases hc : s.verification with
    | hs256 n =>
      rw [hc] at hv
      rcases hv.2 with h | ⟨h, _⟩
      · rw [h1] at h
        rw [Value.str.inj (Option.some.inj h)]
      · rw [h1] at h; cases h
    | rs256 n => rw [hc] at hv; exact absurd hv.1 h2
  have := Web.C71_rights (web decode dir s) header c hc
  rw [← hs]
  exact this

variable {C D Q R : Type}

/-- **C119 fails**: with a file that does not set a secret, whoever has a token for an administrator that was signed with the published
secret is refused nothing. -/
theorem C119_forged_fails (decode : Verification → Str → Option Web.Claims) (dir : List Str) {file : Conf} {s : T}
    (h : withFile (some (some file)) = some s) (h1 : file.lookup .secret = none)
    (h2 : file.lookup .verificationType ≠ some (.str "RS256".toList)) {t : Str} {c : Web.Claims}
    (ht : decode (.hs256 "not-a-random-secret".toList) (Web.trim (' ' :: t)) = some c) (ha : Web.IsAdmin c)
    (fk : Bool) (lossy : List UInt8 → Str) {b : Web.Backend C Q R} (hp : b.Proper) {st : Web.State C D Q R} (hdb : st.db.Ok) (r : Web.Req Q) :
    Web.status fk lossy (web decode dir s) b st (some (some ("Bearer".toList ++ ' ' :: t))) r ≠ 401 ∧
    Web.status fk lossy (web decode dir s) b st (some (some ("Bearer".toList ++ ' ' :: t))) r ≠ 403 := by
  have hv : (web decode dir s).verify (Web.trim (' ' :: t)) = some c := by
    show decode s.verification _ = _
    rw [C119_secret_fails h h1 h2]
    exact ht
  have hc := Web.C71_valid_token (web decode dir s) "Bearer".toList t (Or.inl rfl) c hv
  constructor
  · intro h401
    exact Web.claimsOf_ok hc ((Web.C117_unauthorized fk lossy (web decode dir s) hp hdb _ r).1 h401).2
  · intro h403
    obtain ⟨c', hc', hl⟩ := (Web.C117_forbidden fk lossy (web decode dir s) hp hdb _ r).1 h403
    rw [hc] at hc'
    cases hc'
    rcases hl with ⟨_, hl⟩ | ⟨n, _, hl⟩
    · exact hl ha
    · exact hl (Or.inl ha)

/-- A token verified with the published secret by a (toy) signature: the file only allows anonymous access. -/
theorem C119_forged_nonvacuous :
    let decode : Verification → Str → Option Web.Claims := fun v t => if v = .hs256 t then some ⟨"eve".toList, [], ["admin".toList]⟩ else none
    (withFile (some (some [(.anonymous, .bool true)]))).isSome = true ∧
    decode (.hs256 "not-a-random-secret".toList) (Web.trim (' ' :: "not-a-random-secret".toList)) = some ⟨"eve".toList, [], ["admin".toList]⟩ ∧
    Web.IsAdmin ⟨"eve".toList, [], ["admin".toList]⟩ := by
  refine ⟨by decide +kernel, by decide +kernel, ?_⟩
  simp [Web.IsAdmin]

/-- A file with a secret. -/
theorem C119_rights_nonvacuous : (withFile (some (some [(.secret, .str "abc".toList)]))).map (·.verification) = some (.hs256 "abc".toList) := by
  decide +kernel

end Settings
