import Verif.SymbolTable.Lemmas
import Mathlib.Order.Nat

/-!
# C01 – the symbol table is a bijection with stable ids

Specification: an operation history, replayed on the table.  The statements below only use `getValue`, `getSymbol`,
`insert` and `remove` results (the public API), not the internal vectors.
-/

namespace SymbolTable

variable {V : Type _} [LinearOrder V]

/-- Operations of a client, including a save/load cycle. -/
inductive Op (V : Type _)
  | insert (v : V)
  | remove (id : Nat)
  | clear
  | saveLoad

def step (t : SymbolTable V) : Op V → SymbolTable V
  | .insert v => (t.insert v).1
  | .remove id => (t.remove id).1
  | .clear => t.clear
  | .saveLoad => load t.store

def run (ops : List (Op V)) : SymbolTable V := ops.foldl step new

theorem Inv.step {t : SymbolTable V} (h : Inv t) (op : Op V) : Inv (t.step op) := by
  cases op with
  | insert v => exact h.insert v
  | remove id => exact h.remove id
  | clear => exact Inv.clear t
  | saveLoad => simpa [SymbolTable.step, load_store h] using h

theorem Inv.run (ops : List (Op V)) : Inv (run ops) := by
  unfold SymbolTable.run
  suffices ∀ t : SymbolTable V, Inv t → Inv (ops.foldl SymbolTable.step t) from this _ Inv.new
  induction ops with
  | nil => intro t h; exact h
  | cons op ops ih => intro t h; exact ih _ (h.step op)

/-- Specification of the live contents: the set of live values after a history, defined without ids.
A removal by id is recorded with the value it hit. -/
def liveSpec : List (Op V) → V → Prop
  | [], _ => False
  | .insert v :: before, w => w = v ∨ liveSpec before w
  | .remove id :: before, w => liveSpec before w ∧ (run before.reverse).getValue id ≠ some w
  | .clear :: _, _ => False
  | .saveLoad :: before, w => liveSpec before w

/-- **C01** Lookup by value and lookup by id are inverse of each other after every history. -/
theorem C01_bijection (ops : List (Op V)) (v : V) (id : Nat) :
    (run ops).getSymbol v = some id ↔ (run ops).getValue id = some v :=
  (Inv.run ops).sym v id

/-- **C01** Two live values never share an id and a value never has two ids. -/
theorem C01_injective (ops : List (Op V)) (v w : V) (i j : Nat)
    (hv : (run ops).getSymbol v = some i) (hw : (run ops).getSymbol w = some j) : v = w ↔ i = j := by
  constructor
  · rintro rfl; rw [hv] at hw; injection hw
  · rintro rfl
    have a := (C01_bijection ops v i).1 hv
    have b := (C01_bijection ops w i).1 hw
    rw [a] at b; injection b

/-- **C01** The id returned by `insert` resolves to the inserted value. -/
theorem C01_insert_returns_id (ops : List (Op V)) (v : V) :
    ((run ops).insert v).1.getValue ((run ops).insert v).2 = some v ∧
    ((run ops).insert v).1.getSymbol v = some ((run ops).insert v).2 := by
  rw [getValue_insert (Inv.run ops), getSymbol_insert]; simp

/-- **C01** Inserting does not change the id of any live value. -/
theorem C01_insert_stable (ops : List (Op V)) (v w : V) (id : Nat) (h : (run ops).getSymbol w = some id) :
    ((run ops).insert v).1.getSymbol w = some id := by
  rw [getSymbol_insert]
  split
  · rename_i e; subst e
    rcases insert_id (Inv.run ops) w with h1 | h1
    · rw [← h1]; exact h
    · rw [h1.1] at h; simp at h
  · exact h

/-- **C01** Removing an id returns and removes exactly its value; all others keep their id. -/
theorem C01_remove (ops : List (Op V)) (i : Nat) :
    ((run ops).remove i).2 = (run ops).getValue i ∧
    (∀ w, ((run ops).remove i).1.getSymbol w =
      if (run ops).getValue i = some w then none else (run ops).getSymbol w) := by
  refine ⟨?_, fun w => getSymbol_remove (Inv.run ops) i w⟩
  unfold remove getValue
  split <;> simp_all

/-- **C01** Saving and loading a table changes no answer. -/
theorem C01_save_load (ops : List (Op V)) : load (run ops).store = run ops := load_store (Inv.run ops)

/-- **C01** A value is found after a history exactly when the history left it live. -/
theorem C01_live (ops : List (Op V)) (v : V) :
    (∃ id, (run ops).getSymbol v = some id) ↔ liveSpec ops.reverse v := by
  suffices H : ∀ rev : List (Op V), (∃ id, (run rev.reverse).getSymbol v = some id) ↔ liveSpec rev v by
    have := H ops.reverse
    rwa [List.reverse_reverse] at this
  intro rev
  induction rev with
  | nil => simp [run, new, getSymbol, liveSpec]
  | cons op rev ih =>
    have hrun : run (op :: rev).reverse = (run rev.reverse).step op := by
      simp [run]
    rw [hrun]
    cases op with
    | insert w =>
      simp only [SymbolTable.step, getSymbol_insert, liveSpec]
      by_cases e : v = w
      · simp [e]
      · simp [e, ih]
    | remove id =>
      simp only [SymbolTable.step, getSymbol_remove (Inv.run _), liveSpec, ← ih]
      by_cases e : (run rev.reverse).getValue id = some v
      · simp [e]
      · simp [e]
    | clear => simp [SymbolTable.step, clear, getSymbol, liveSpec]
    | saveLoad => simp only [SymbolTable.step, load_store (Inv.run _), liveSpec, ih]

/-- Non-vacuity: a history with slot reuse; the removed id 0 is reused for 30, 20 keeps its id. -/
example :
    let t := run [Op.insert 10, .insert 20, .remove 0, .saveLoad, .insert 30]
    t.getSymbol 30 = some 0 ∧ t.getSymbol 20 = some 1 ∧ t.getSymbol 10 = none ∧ t.getValue 0 = some 30 := by
  decide

end SymbolTable
