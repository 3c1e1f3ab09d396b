import Verif.Settings.Props

/-!
# Settings of the web service (C119)
-/

namespace Settings

/-- A file with a port, a cache size, a secret and an unknown key. -/
def exampleFile : Conf :=
  [(.port, .int 8080), (.cacheFixed, .int 8000), (.secret, .str "abc".toList), (.other "bind.adress".toList, .str "x".toList)]

theorem C119_nonvacuous : withFile (some (some exampleFile)) =
    some ⟨"localhost".toList, 8080, "data/".toList, "service.sqlite".toList, false, .fixed 8000, none, false, none, .hs256 "abc".toList, false⟩ ∧
    (withFile (some (some exampleFile))).map bindAddress = some "localhost:8080".toList := by decide +kernel

/-- The settings without a file. -/
theorem C119_no_file_nonvacuous : withFile none =
    some ⟨"localhost".toList, 5711, "data/".toList, "service.sqlite".toList, false, .percent "25.0".toList, none, false, none,
      .hs256 "not-a-random-secret".toList, false⟩ := by decide +kernel

/-- A file that only allows anonymous access meets the hypotheses of `C119_secret_fails`. -/
theorem C119_secret_nonvacuous : (withFile (some (some [(.anonymous, .bool true)]))).isSome = true ∧
    List.lookup Key.secret [(Key.anonymous, Value.bool true)] = none ∧
    List.lookup Key.verificationType [(Key.anonymous, Value.bool true)] ≠ some (.str "RS256".toList) := by decide +kernel

/-- **C119 fails**: the upper half of the ports can not be used, while numbers that are no ports are accepted. -/
theorem C119_port_fails : withFile (some (some [(.port, .int 49152)])) = none ∧
    (withFile (some (some [(.port, .int (-1))]))).map bindAddress = some "localhost:-1".toList := by decide +kernel

end Settings
