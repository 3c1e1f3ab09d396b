import Verif.Text.Location

/-!
# The settings of the web service (C119)

`Settings::with_file` (webservice/src/settings.rs 84-98), the types it reads (8-82), default-settings.toml, and the address the service
listens on (webservice/src/main.rs 274).

Simplifications: a configuration is the list of its keys with values (no key twice, as TOML demands); merging two sources takes each
key from the last one that has it, as the crate config does for nested tables; a value of another type than the expected one is an
error (the crate config also turns texts such as "5711" into numbers); syntax errors of the file are not modelled.
-/

namespace Settings

/-- The keys the code looks at (settings.rs 8-82): `bind.host`, `bind.port`, `database.graphannis`, `database.sqlite`,
`database.disk_based`, `database.cache.FixedMaxMemory`, `database.cache.PercentOfFreeMemory`, `database.query_timeout`,
`logging.debug`, `logging.file`, `auth.token_verification.type`, `…secret`, `…public_key`, `auth.anonymous_access_all_corpora`, and
all others. -/
inductive Key
  | host | port | graphannis | sqlite | diskBased | cacheFixed | cachePercent | queryTimeout | debug | logFile
  | verificationType | secret | publicKey | anonymous
  | other (name : Str)
  deriving DecidableEq

/-- A value of TOML that is not a table; numbers with a fraction are kept as text. -/
inductive Value
  | str (s : Str)
  | int (n : Int)
  | bool (b : Bool)
  | float (x : Str)
  deriving DecidableEq

abbrev Conf := List (Key × Value)

/-- webservice/src/default-settings.toml. -/
def defaults : Conf :=
  [(.host, .str "localhost".toList), (.port, .int 5711), (.diskBased, .bool false), (.graphannis, .str "data/".toList),
   (.sqlite, .str "service.sqlite".toList), (.secret, .str "not-a-random-secret".toList), (.verificationType, .str "HS256".toList),
   (.debug, .bool false)]

/-- `JWTVerification` (settings.rs 33-38). -/
inductive Verification
  | hs256 (secret : Str)
  | rs256 (publicKey : Str)
  deriving DecidableEq

/-- `CacheStrategy` (graphannis/src/annis/db/corpusstorage.rs 263-274). -/
inductive Cache
  | fixed (megabytes : Nat)
  | percent (x : Str)
  deriving DecidableEq

/-- `Settings` with its parts (settings.rs 8-82). -/
structure T where
  host : Str
  port : Int
  graphannis : Str
  sqlite : Str
  diskBased : Bool
  cache : Cache
  queryTimeout : Option Nat
  debug : Bool
  logFile : Option Str
  verification : Verification
  anonymous : Bool
  deriving DecidableEq

/-- A field of the type `String`. -/
def readStr (c : Conf) (k : Key) : Option Str := match c.lookup k with
  | some (.str s) => some s
  | _ => none

/-- A field of the type `bool`. -/
def readBool (c : Conf) (k : Key) : Option Bool := match c.lookup k with
  | some (.bool b) => some b
  | _ => none

/-- A field of the type `bool` with `#[serde(default)]` (settings.rs 71-72). -/
def readBoolDefault (c : Conf) (k : Key) : Option Bool := match c.lookup k with
  | none => some false
  | some (.bool b) => some b
  | _ => none

/-- A field of the type `Option<String>` (settings.rs 12-13). -/
def readStrOption (c : Conf) (k : Key) : Option (Option Str) := match c.lookup k with
  | none => some none
  | some (.str s) => some (some s)
  | _ => none

/-- `port: i16` (settings.rs 18). -/
def readPort (c : Conf) : Option Int := match c.lookup .port with
  | some (.int n) => if -32768 ≤ n ∧ n < 32768 then some n else none
  | _ => none

/-- `query_timeout: Option<u64>` (settings.rs 29-30); integers of TOML have 64 bits with sign. -/
def readTimeout (c : Conf) : Option (Option Nat) := match c.lookup .queryTimeout with
  | none => some none
  | some (.int n) => if 0 ≤ n then some (some n.toNat) else none
  | _ => none

/-- `cache: CacheStrategy` with its default 25 percent (settings.rs 27-28, corpusstorage.rs 263-274, 292-296): a table with exactly one
of the two keys. -/
def readCache (c : Conf) : Option Cache := match c.lookup .cacheFixed, c.lookup .cachePercent with
  | none, none => some (.percent "25.0".toList)
  | some (.int n), none => if 0 ≤ n then some (.fixed n.toNat) else none
  | none, some (.float x) => some (.percent x)
  | _, _ => none

/-- `JWTVerification` with `#[serde(tag = "type")]` (settings.rs 33-38). -/
def readVerification (c : Conf) : Option Verification := match readStr c .verificationType with
  | some t =>
    if t = "HS256".toList then (readStr c .secret).map .hs256
    else if t = "RS256".toList then (readStr c .publicKey).map .rs256
    else none
  | none => none

/-- `try_deserialize` (settings.rs 97). -/
def read (c : Conf) : Option T := do
  let host ← readStr c .host
  let port ← readPort c
  let graphannis ← readStr c .graphannis
  let sqlite ← readStr c .sqlite
  let diskBased ← readBool c .diskBased
  let cache ← readCache c
  let queryTimeout ← readTimeout c
  let debug ← readBool c .debug
  let logFile ← readStrOption c .logFile
  let verification ← readVerification c
  let anonymous ← readBoolDefault c .anonymous
  pure ⟨host, port, graphannis, sqlite, diskBased, cache, queryTimeout, debug, logFile, verification, anonymous⟩

/-- `Settings::with_file` (settings.rs 85-98); the argument is the file given on the command line and what it contains, `some none` if
it does not exist. -/
def withFile (file : Option (Option Conf)) : Option T := match file with
  | none => read defaults
  | some none => none
  | some (some c) => read (c ++ defaults)

/-- Display of an integer. -/
def intText (n : Int) : Str := if n < 0 then '-' :: Nat.toDigits 10 n.natAbs else Nat.toDigits 10 n.natAbs

/-- `bind_address` (main.rs 274). -/
def bindAddress (s : T) : Str := s.host ++ ':' :: intText s.port

end Settings
