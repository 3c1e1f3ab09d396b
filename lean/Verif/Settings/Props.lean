import Verif.Settings.Model

/-!
# Which settings are in effect (C119)
-/

namespace Settings

namespace Spec

/-- The value of a key: that of the file, or the default if the file does not have the key. -/
def Eff (file : Conf) (k : Key) (dflt v : Value) : Prop := file.lookup k = some v ∨ (file.lookup k = none ∧ v = dflt)

/-- The settings that a file stands for. -/
structure InEffect (file : Conf) (s : T) : Prop where
  host : Eff file .host (.str "localhost".toList) (.str s.host)
  port : Eff file .port (.int 5711) (.int s.port)
  portRange : -32768 ≤ s.port ∧ s.port ≤ 32767
  graphannis : Eff file .graphannis (.str "data/".toList) (.str s.graphannis)
  sqlite : Eff file .sqlite (.str "service.sqlite".toList) (.str s.sqlite)
  diskBased : Eff file .diskBased (.bool false) (.bool s.diskBased)
  debug : Eff file .debug (.bool false) (.bool s.debug)
  logFile : file.lookup .logFile = s.logFile.map .str
  queryTimeout : file.lookup .queryTimeout = s.queryTimeout.map fun n => .int n
  anonymous : Eff file .anonymous (.bool false) (.bool s.anonymous)
  cache : match s.cache with
    | .fixed n => file.lookup .cacheFixed = some (.int n) ∧ file.lookup .cachePercent = none
    | .percent x => file.lookup .cacheFixed = none ∧ Eff file .cachePercent (.float "25.0".toList) (.float x)
  verification : match s.verification with
    | .hs256 secret => Eff file .verificationType (.str "HS256".toList) (.str "HS256".toList) ∧
        Eff file .secret (.str "not-a-random-secret".toList) (.str secret)
    | .rs256 key => file.lookup .verificationType = some (.str "RS256".toList) ∧ file.lookup .publicKey = some (.str key)

end Spec

open Spec

theorem lookup_merge (file : Conf) (k : Key) : (file ++ defaults).lookup k = (file.lookup k).or (defaults.lookup k) := List.lookup_append

theorem readStr_iff {c : Conf} {k : Key} {s : Str} : readStr c k = some s ↔ c.lookup k = some (.str s) := by
  unfold readStr
  cases c.lookup k with
  | none => simp
  | some v => cases v <;> simp

theorem readBool_iff {c : Conf} {k : Key} {b : Bool} : readBool c k = some b ↔ c.lookup k = some (.bool b) := by
  unfold readBool
  cases c.lookup k with
  | none => simp
  | some v => cases v <;> simp

theorem readBoolDefault_iff {c : Conf} {k : Key} {b : Bool} : readBoolDefault c k = some b ↔ Eff c k (.bool false) (.bool b) := by
  unfold readBoolDefault Eff
  cases c.lookup k with
  | none => simp [eq_comm]
  | some v => cases v <;> simp

theorem readStrOption_iff {c : Conf} {k : Key} {o : Option Str} : readStrOption c k = some o ↔ c.lookup k = o.map .str := by
  unfold readStrOption
  cases c.lookup k with
  | none => cases o <;> simp
  | some v => cases v <;> cases o <;> simp

theorem readPort_iff {c : Conf} {n : Int} : readPort c = some n ↔ c.lookup .port = some (.int n) ∧ -32768 ≤ n ∧ n ≤ 32767 := by
  unfold readPort
  cases c.lookup .port with
  | none => simp
  | some v =>
    cases v with
    | int m =>
      simp only [Option.some.injEq, Value.int.injEq]
      split
      · simp only [Option.some.injEq]
        omega
      · simp only [reduceCtorEq, false_iff]
        omega
    | _ => simp

theorem readTimeout_iff {c : Conf} {o : Option Nat} : readTimeout c = some o ↔ c.lookup .queryTimeout = o.map fun n => .int n := by
  unfold readTimeout
  cases c.lookup .queryTimeout with
  | none => cases o <;> simp
  | some v =>
    cases v with
    | int m =>
      cases o with
      | none => simp
      | some n =>
        simp only [Option.map_some, Option.some.injEq, Value.int.injEq]
        split
        · simp only [Option.some.injEq]
          omega
        · simp only [reduceCtorEq, false_iff]
          omega
    | _ => cases o <;> simp

theorem readCache_iff {c : Conf} {x : Cache} : readCache c = some x ↔ match x with
    | .fixed n => c.lookup .cacheFixed = some (.int n) ∧ c.lookup .cachePercent = none
    | .percent x => c.lookup .cacheFixed = none ∧ Eff c .cachePercent (.float "25.0".toList) (.float x) := by
  unfold readCache Eff
  cases c.lookup .cacheFixed with
  | none =>
    cases c.lookup .cachePercent with
    | none => cases x <;> simp [eq_comm]
    | some v => cases v <;> cases x <;> simp
  | some w =>
    cases c.lookup .cachePercent with
    | none =>
      cases w with
      | int m =>
        cases x with
        | fixed n =>
          simp only [and_true, Option.some.injEq, Value.int.injEq]
          split
          · simp only [Option.some.injEq, Cache.fixed.injEq]
            omega
          · simp only [reduceCtorEq, false_iff]
            omega
        | percent y => by_cases hm : 0 ≤ m <;> simp [hm]
      | _ => cases x <;> simp
    | some v => cases w <;> cases x <;> simp

theorem readVerification_iff {c : Conf} {x : Verification} : readVerification c = some x ↔ match x with
    | .hs256 secret => c.lookup .verificationType = some (.str "HS256".toList) ∧ c.lookup .secret = some (.str secret)
    | .rs256 key => c.lookup .verificationType = some (.str "RS256".toList) ∧ c.lookup .publicKey = some (.str key) := by
  have ne : "RS256".toList ≠ "HS256".toList := by decide +kernel
  unfold readVerification
  cases ht : readStr c .verificationType with
  | none =>
    have hn : ∀ t, c.lookup .verificationType ≠ some (.str t) := fun t h => by rw [readStr_iff.2 h] at ht; cases ht
    cases x <;> simp only [reduceCtorEq, false_iff] <;> exact fun h => hn _ h.1
  | some t =>
    have ht' := readStr_iff.1 ht
    simp only
    by_cases h1 : t = "HS256".toList
    · rw [if_pos h1, ht', h1]
      cases x with
      | hs256 s => simp [readStr_iff]
      | rs256 s =>
        simp only [Option.map_eq_some_iff, reduceCtorEq, and_false, exists_false, Option.some.injEq, Value.str.injEq, false_iff]
        exact fun h => ne h.1.symm
    · rw [if_neg h1, ht']
      by_cases h2 : t = "RS256".toList
      · rw [if_pos h2, h2]
        cases x with
        | rs256 s => simp [readStr_iff]
        | hs256 s =>
          simp only [Option.map_eq_some_iff, reduceCtorEq, and_false, exists_false, Option.some.injEq, Value.str.injEq, false_iff]
          exact fun h => ne h.1
      · rw [if_neg h2]
        cases x with
        | hs256 s => simp only [reduceCtorEq, false_iff, Option.some.injEq, Value.str.injEq]; exact fun h => h1 h.1
        | rs256 s => simp only [reduceCtorEq, false_iff, Option.some.injEq, Value.str.injEq]; exact fun h => h2 h.1

theorem or_eff {file : Conf} {k : Key} {d v : Value} (hd : defaults.lookup k = some d) :
    (file ++ defaults).lookup k = some v ↔ Eff file k d v := by
  rw [lookup_merge, hd, Eff]
  cases file.lookup k with
  | none => simp [eq_comm]
  | some w => simp

theorem or_none {file : Conf} {k : Key} (hd : defaults.lookup k = none) : (file ++ defaults).lookup k = file.lookup k := by
  rw [lookup_merge, hd, Option.or_none]

theorem eff_merge {file : Conf} {k : Key} {d v : Value} (hd : defaults.lookup k = none) : Eff (file ++ defaults) k d v ↔ Eff file k d v := by
  unfold Eff
  rw [or_none hd]

theorem read_iff {c : Conf} {s : T} : read c = some s ↔ readStr c .host = some s.host ∧ readPort c = some s.port ∧
    readStr c .graphannis = some s.graphannis ∧ readStr c .sqlite = some s.sqlite ∧ readBool c .diskBased = some s.diskBased ∧
    readCache c = some s.cache ∧ readTimeout c = some s.queryTimeout ∧ readBool c .debug = some s.debug ∧
    readStrOption c .logFile = some s.logFile ∧ readVerification c = some s.verification ∧
    readBoolDefault c .anonymous = some s.anonymous := by
  unfold read
  constructor
  · intro h
    simp only [Option.bind_eq_bind, Option.bind_eq_some_iff, Option.pure_def, Option.some.injEq] at h
    obtain ⟨a, ha, b, hb, c1, hc, d, hd, e, he, f, hf, g, hg, i, hi, j, hj, k, hk, l, hl, rfl⟩ := h
    exact ⟨ha, hb, hc, hd, he, hf, hg, hi, hj, hk, hl⟩
  · rintro ⟨ha, hb, hc, hd, he, hf, hg, hi, hj, hk, hl⟩
    simp [ha, hb, hc, hd, he, hf, hg, hi, hj, hk, hl]

/-- **C119**: a file is accepted exactly if it stands for some settings, and then these are in effect. -/
theorem C119_in_effect (file : Conf) (s : T) : withFile (some (some file)) = some s ↔ InEffect file s := by
  show read (file ++ defaults) = some s ↔ _
  rw [read_iff, readStr_iff, readStr_iff, readStr_iff, readBool_iff, readBool_iff, readPort_iff, readStrOption_iff, readTimeout_iff,
    readCache_iff, readVerification_iff, readBoolDefault_iff, or_eff (d := .str "localhost".toList) rfl, or_eff (d := .int 5711) rfl,
    or_eff (d := .str "data/".toList) rfl, or_eff (d := .str "service.sqlite".toList) rfl, or_eff (k := .diskBased) (d := .bool false) rfl,
    or_eff (k := .debug) (d := .bool false) rfl, or_none (k := .logFile) rfl, or_none (k := .queryTimeout) rfl,
    eff_merge (k := .anonymous) rfl]
  have hcache : ∀ x : Cache, (match x with
      | .fixed n => (file ++ defaults).lookup .cacheFixed = some (.int n) ∧ (file ++ defaults).lookup .cachePercent = none
      | .percent x => (file ++ defaults).lookup .cacheFixed = none ∧ Eff (file ++ defaults) .cachePercent (.float "25.0".toList) (.float x)) ↔
      (match x with
      | .fixed n => file.lookup .cacheFixed = some (.int n) ∧ file.lookup .cachePercent = none
      | .percent x => file.lookup .cacheFixed = none ∧ Eff file .cachePercent (.float "25.0".toList) (.float x)) := by
    intro x
    cases x with
    | fixed n => simp only [or_none (file := file) (k := .cacheFixed) rfl, or_none (file := file) (k := .cachePercent) rfl]
    | percent n => simp only [or_none (file := file) (k := .cacheFixed) rfl, eff_merge (file := file) (k := .cachePercent) rfl]
  have hver : ∀ x : Verification, (match x with
      | .hs256 secret => (file ++ defaults).lookup .verificationType = some (.str "HS256".toList) ∧ (file ++ defaults).lookup .secret = some (.str secret)
      | .rs256 key => (file ++ defaults).lookup .verificationType = some (.str "RS256".toList) ∧ (file ++ defaults).lookup .publicKey = some (.str key)) ↔
      (match x with
      | .hs256 secret => Eff file .verificationType (.str "HS256".toList) (.str "HS256".toList) ∧
          Eff file .secret (.str "not-a-random-secret".toList) (.str secret)
      | .rs256 key => file.lookup .verificationType = some (.str "RS256".toList) ∧ file.lookup .publicKey = some (.str key)) := by
    intro x
    cases x with
    | hs256 t =>
      simp only
      rw [or_eff (d := .str "HS256".toList) rfl, or_eff (d := .str "not-a-random-secret".toList) rfl]
    | rs256 t =>
      simp only
      rw [or_eff (d := .str "HS256".toList) rfl, or_none (k := .publicKey) rfl, Eff]
      constructor
      · rintro ⟨h | h, h2⟩
        · exact ⟨h, h2⟩
        · exact absurd (Value.str.inj h.2) (by decide +kernel)
      · rintro ⟨h, h2⟩
        exact ⟨Or.inl h, h2⟩
  rw [hcache, hver]
  constructor
  · rintro ⟨h1, ⟨h2, h2'⟩, h3, h4, h5, h6, h7, h8, h9, h10, h11⟩
    exact ⟨h1, h2, h2', h3, h4, h5, h8, h9, h7, h11, h6, h10⟩
  · rintro ⟨h1, h2, h2', h3, h4, h5, h8, h9, h7, h11, h6, h10⟩
    exact ⟨h1, ⟨h2, h2'⟩, h3, h4, h5, h6, h7, h8, h9, h10, h11⟩

/-- **C119**: without a file the defaults are in effect. -/
theorem C119_no_file (s : T) : withFile none = some s ↔ InEffect [] s := C119_in_effect [] s

/-- **C119**: only the values of the known keys matter. -/
theorem C119_unknown_keys (file file' : Conf) (h : ∀ k, (∀ name, k ≠ .other name) → file.lookup k = file'.lookup k) :
    withFile (some (some file)) = withFile (some (some file')) := by
  have key : ∀ file file' : Conf, (∀ k, (∀ name, k ≠ .other name) → file.lookup k = file'.lookup k) → ∀ s, InEffect file s → InEffect file' s := by
    intro file file' h s hs
    obtain ⟨h1, h2, h2', h3, h4, h5, h8, h9, h7, h11, h6, h10⟩ := hs
    unfold Eff at *
    rw [h _ (by simp)] at h1 h2 h3 h4 h5 h8 h9 h7 h11
    refine ⟨h1, h2, h2', h3, h4, h5, h8, h9, h7, h11, ?_, ?_⟩
    · cases hc : s.cache with
      | fixed n => rw [hc] at h6; simp only at h6 ⊢; rw [h _ (by simp), h .cachePercent (by simp)] at h6; exact h6
      | percent n => rw [hc] at h6; simp only [Eff] at h6 ⊢; rw [h _ (by simp), h .cachePercent (by simp)] at h6; exact h6
    · cases hc : s.verification with
      | hs256 n => rw [hc] at h10; simp only [Eff] at h10 ⊢; rw [h .verificationType (by simp), h .secret (by simp)] at h10; exact h10
      | rs256 n => rw [hc] at h10; simp only at h10 ⊢; rw [h .verificationType (by simp), h .publicKey (by simp)] at h10; exact h10
  apply Option.ext
  intro s
  rw [C119_in_effect, C119_in_effect]
  exact ⟨key _ _ h s, key _ _ (fun k hk => (h k hk).symm) s⟩

/-- **C119 fails**: every file that does not set a secret and does not choose public keys gives the published secret of the default
settings, if it is accepted: whoever read the source code can sign tokens for such a service. -/
theorem C119_secret_fails {file : Conf} {s : T} (h : withFile (some (some file)) = some s) (h1 : file.lookup .secret = none)
    (h2 : file.lookup .verificationType ≠ some (.str "RS256".toList)) : s.verification = .hs256 "not-a-random-secret".toList := by
  have hv := ((C119_in_effect file s).1 h).verification
  cases hc : s.verification with
  | hs256 n =>
    rw [hc] at hv
    rcases hv.2 with h | ⟨_, h⟩
    · rw [h1] at h; cases h
    · rw [Value.str.inj h]
  | rs256 n => rw [hc] at hv; exact absurd hv.1 h2

theorem intText_no_colon (n : Int) : ':' ∉ intText n := by
  have hd : ':' ∉ Nat.toDigits 10 n.natAbs := fun h => by have := digits_class _ _ h; revert this; decide
  unfold intText
  split
  · simp [hd]
  · exact hd

theorem intText_inj {m n : Int} (h : intText m = intText n) : m = n := by
  have hd : ∀ k : Nat, ∀ r, '-' :: r ≠ Nat.toDigits 10 k := fun k r h => by
    have := digits_class k '-' (by rw [← h]; simp)
    revert this
    decide
  unfold intText at h
  split at h <;> split at h
  · have := digits_inj (List.cons.inj h).2; omega
  · exact absurd h (hd _ _)
  · exact absurd h.symm (hd _ _)
  · have := digits_inj h; omega

/-- **C119**: the address the service listens on tells the host and the port. -/
theorem C119_bind {s s' : T} (h : bindAddress s = bindAddress s') : s.host = s'.host ∧ s.port = s'.port := by
  unfold bindAddress at h
  have h' := congrArg List.reverse h
  simp only [List.reverse_append, List.reverse_cons, List.append_assoc, List.singleton_append] at h'
  obtain ⟨h1, _, h2⟩ := split_class (p := fun c => decide (c ≠ ':'))
    (fun c hc => by
      have : c ≠ ':' := fun e => intText_no_colon s.port (by rw [← e]; exact List.mem_reverse.1 hc)
      simp [this])
    (fun c hc => by
      have : c ≠ ':' := fun e => intText_no_colon s'.port (by rw [← e]; exact List.mem_reverse.1 hc)
      simp [this]) (by simp) (by simp) h'
  exact ⟨List.reverse_inj.1 h2, intText_inj (List.reverse_inj.1 h1)⟩

end Settings
