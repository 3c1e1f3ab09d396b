import Verif.Info.Props

/-!
# C116: examples
-/

set_option linter.unusedVariables false

namespace Info.Ex

open Load

/-- Two components. -/
def cov : CKey Nat := toLex (0, toLex (0, 1))
def dep : CKey Nat := toLex (3, toLex (4, 2))

/-- A corpus with two components. -/
def good : Dir Nat Nat Nat Nat := ⟨[cov, dep], fun c => .ok (if c = cov then 10 else 20), none, some (.ok 7)⟩

/-- A corpus with a configuration that can not be read. -/
def bad : Dir Nat Nat Nat Nat := ⟨[cov], fun _ => .ok 11, none, some (.error 99)⟩

/-- A corpus with a component that can not be read, without a configuration. -/
def broken : Dir Nat Nat Nat Nat := ⟨[cov, dep], fun c => if c = cov then .ok 12 else .error 98, none, none⟩

def reads : Reads Nat Nat := ⟨fun x => .ok (x + 1), fun x => List.replicate x 'a'⟩

def disk : OMap Nat (Dir Nat Nat Nat Nat) := [(1, good), (3, broken)]

theorem disk_sorted : OMap.Sorted disk := by unfold disk; simp [OMap.Sorted]

/-- A query that needs the component `dep` of the corpus 1, then an attempt to load all of the corpus 3. -/
def ops : List (Op Nat Nat Nat Nat) := [.use 1 (.ok fun _ => [dep]) [] [] [], .preload 3 [] [] []]

/-- The component of the query is described as loaded, the other one not. -/
theorem C116_info_nonvacuous : ∃ i, (info reads 0 (run reads 0 (start disk) ops) 1).2 = .ok i ∧ i.status = .partiallyLoaded ∧ i.config = 7 ∧
    i.graphstorages.map (fun k => (k.component, k.status, k.annotations)) = [(cov, .notLoaded, 0), (dep, .fullyLoaded, 21)] :=
  ⟨_, rfl, by decide +kernel, by decide +kernel, by decide +kernel⟩

/-- A failing `preload` leaves the corpus in memory without its components. -/
theorem C116_broken_nonvacuous : ∃ i, (info reads 0 (run reads 0 (start disk) ops) 3).2 = .ok i ∧ i.status = .partiallyLoaded ∧ i.config = 0 :=
  ⟨_, rfl, by decide +kernel, by decide +kernel⟩

/-- After `preload` the corpus is fully loaded, and the other one was removed. -/
theorem C116_preload_nonvacuous : ((run reads 0 (start disk) ops).preload 1 [] [] [3]).2 = .ok () ∧
    ∃ i j, (info reads 0 (run reads 0 (start disk) (ops ++ [.preload 1 [] [] [3]])) 1).2 = .ok i ∧ i.status = .fullyLoaded ∧
      (info reads 0 (run reads 0 (start disk) (ops ++ [.preload 1 [] [] [3]])) 3).2 = .ok j ∧ j.status = .notLoaded :=
  ⟨by rfl, _, _, rfl, by decide +kernel, rfl, by decide +kernel⟩

/-- The list has both corpora. -/
theorem C116_list_nonvacuous : ∃ l, (list reads 0 (run reads 0 (start disk) ops) true id).2 = .ok l ∧
    l.map (fun i => (i.name, i.status)) = [(1, .partiallyLoaded), (3, .partiallyLoaded)] :=
  ⟨_, rfl, by decide +kernel⟩

/-- After `unload`. -/
theorem C116_unload_nonvacuous : ∃ i, (info reads 0 (run reads 0 (start disk) (ops ++ [.unload 1])) 1).2 = .ok i ∧ i.status = .notLoaded :=
  ⟨_, rfl, by decide +kernel⟩

/-- **C116 fails**: that `list` describes the corpora which have a readable configuration. One corpus with a broken
`corpus-config.toml` makes `list` fail for all. -/
theorem C116_list_fails : (∃ i, (info reads 0 (start [(1, good), (2, bad)]) 1).2 = .ok i) ∧
    ∃ e, (list reads 0 (start [(1, good), (2, bad)]) true id).2 = .error e :=
  ⟨⟨_, rfl⟩, _, rfl⟩

/-- **C116 fails**: that `info` of a corpus which does not exist is an error. -/
theorem C116_unknown_fails : disk.get 2 = none ∧ ∃ i, (info reads 0 (start disk) 2).2 = .ok i ∧ i.name = 2 ∧ i.status = .notLoaded ∧ i.config = 0 :=
  ⟨by rfl, _, rfl, by decide +kernel, by decide +kernel, by decide +kernel⟩

end Info.Ex
