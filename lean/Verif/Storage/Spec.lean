import Verif.Storage.Model
import Verif.Persist.Props

/-!
# What clients should see of the corpus storage

A storage without cache: the corpora and their contents.  `phantom` are names of corpora that do not exist, but which were asked for
(see `C52_fails`), `jobs` the names of corpora with a background writer that did not finish, `pend` the number of updates since the
corpus was written to disk the last time.
-/

structure Abs (Nm A C K : Type) where
  corpora : OMap Nm (Content A C K)
  phantom : List Nm
  jobs : List Nm
  pend : Nm → Nat

namespace Abs

variable {Nm A C K U : Type} [LinearOrder Nm] [LinearOrder C]

/-- Asking for a corpus that does not exist leaves its name. -/
def touch (a : Abs Nm A C K) (n : Nm) : Abs Nm A C K :=
  if (a.corpora.get n).isSome then a else { a with phantom := n :: a.phantom }

/-- Storing a content, with `k` updates since it was written. -/
def put (a : Abs Nm A C K) (n : Nm) (g : Content A C K) (k : Nat) : Abs Nm A C K :=
  { a with corpora := a.corpora.insert n g, phantom := a.phantom.filter fun x => x ≠ n, pend := Function.update a.pend n k }

/-- The corpus exists or its name was left by a failed request. -/
def known (a : Abs Nm A C K) (n : Nm) : Bool := decide (n ∈ a.phantom) || (a.corpora.get n).isSome

/-- The background writer number `i` is finished. -/
def written (a : Abs Nm A C K) (i : Nat) : Abs Nm A C K :=
  { a with
    jobs := a.jobs.eraseIdx i
    pend := match a.jobs[i]? with
      | some n => Function.update a.pend n 0
      | none => a.pend }

def step (o : GraphOps A C K U) (a : Abs Nm A C K) : Store.Op Nm A C K U → Abs Nm A C K × Store.Out Nm A C K
  | .info n => (a.touch n, .unit)
  | .list => (a, .names a.corpora.keys)
  | .query n =>
    match a.corpora.get n with
    | some g => (a, .graph g)
    | none => (a.touch n, .err .noSuchCorpus)
  | .update n u =>
    let g := (a.corpora.get n).getD o.fresh
    let k := if (a.corpora.get n).isSome then a.pend n else 0
    let r := o.apply g u
    if r.2 then ({ a.put n r.1 (k + 1) with jobs := a.jobs ++ [n] }, .unit) else (a.put n g k, .err .updateFailed)
  | .create n => if a.known n then (a, .bool false) else (a.put n o.fresh 0, .bool true)
  | .delete n =>
    ({ a with corpora := a.corpora.erase n, phantom := a.phantom.filter fun x => x ≠ n }, .bool (a.known n))
  | .unload n => ({ a with phantom := a.phantom.filter fun x => x ≠ n }, .unit)
  | .import n g overwrite => if !overwrite && a.known n then (a, .err .corpusExists) else (a.put n g 0, .unit)
  | .work i => (a.written i, .unit)

/-- A successful update of a corpus, and creating or importing one, only happens if no background writer for this corpus is left. -/
def Allowed (o : GraphOps A C K U) (a : Abs Nm A C K) : Store.Op Nm A C K U → Prop
  | .update n u => (a.corpora.get n = none ∨ (o.apply ((a.corpora.get n).getD o.fresh) u).2 = true) → n ∉ a.jobs
  | .create n => n ∉ a.jobs
  | .import n g _ => n ∉ a.jobs ∧ g.comps.Sorted
  | _ => True

def run (o : GraphOps A C K U) : Abs Nm A C K → List (Store.Op Nm A C K U) → Abs Nm A C K × List (Store.Out Nm A C K)
  | a, [] => (a, [])
  | a, op :: r =>
    let x := a.step o op
    let y := run o x.1 r
    (y.1, x.2 :: y.2)

/-- All operations of a history are allowed. -/
def AllAllowed (o : GraphOps A C K U) : Abs Nm A C K → List (Store.Op Nm A C K U) → Prop
  | _, [] => True
  | a, op :: r => a.Allowed o op ∧ AllAllowed o (a.step o op).1 r

/-- The cache contains the corpus with its content. -/
def _root_.Store.hasLoaded (s : Store Nm A C K U) (n : Nm) : Prop :=
  ∃ p, Store.cacheGet s.cache n = some p ∧ (s.graph p).isSome = true

/-- A corpus is not loaded while it has more than one update that is not written to disk, an update does not fail in this situation, and
updates are not made while a background writer for another entry with the same name is left. -/
def Safe (o : GraphOps A C K U) (s : Store Nm A C K U) (a : Abs Nm A C K) : Store.Op Nm A C K U → Prop
  | .query n => a.corpora.get n ≠ none → s.hasLoaded n ∨ a.pend n ≤ 1
  | .update n u =>
    match a.corpora.get n with
    | none => n ∉ a.jobs
    | some g =>
      (s.hasLoaded n ∨ a.pend n ≤ 1) ∧ ((o.apply g u).2 = false → a.pend n ≤ 1) ∧
        ((o.apply g u).2 = true → ∀ j ∈ s.jobs, j.1 = n → Store.cacheGet s.cache n = some j.2)
  | .create n => a.known n = false → n ∉ a.jobs
  | .import n g overwrite => (overwrite = false → a.known n = false) → n ∉ a.jobs ∧ g.comps.Sorted
  | _ => True

/-- All operations of a history with these measurements are safe. -/
def AllSafe (o : GraphOps A C K U) : Store Nm A C K U → Abs Nm A C K → List ((Mem × Mem × Mem) × Store.Op Nm A C K U) → Prop
  | _, _, [] => True
  | s, a, (m, op) :: r => Safe o s a op ∧ AllSafe o (s.step o m.1 m.2.1 m.2.2 op).1 (a.step o op).1 r

end Abs

/-- What is on disk if there were so many updates since the last write-back. -/
def Stored {A C K U : Type} [LinearOrder C] (apply : Content A C K → U → Content A C K × Bool) (k : Nat) (d : Disk A C K U)
    (g : Content A C K) : Prop :=
  (d.backup = none ∧ d.current.isSome = true) ∧ (k ≤ 1 → Clean apply d g) ∧ (k = 0 → Synced apply d g)

/-- The store behaves like the abstract one.  `held` are loaded entries with the current content outside of the cache, `seen` are
other entries in use (both are empty for sequential clients). -/
structure Rel {Nm A C K U : Type} [LinearOrder Nm] [LinearOrder C] (o : GraphOps A C K U) (s : Store Nm A C K U)
    (a : Abs Nm A C K) (held seen : List (Nm × Nat)) : Prop where
  sd : s.disk.Sorted
  sc : a.corpora.Sorted
  dom : ∀ n, (s.disk.get n).isSome = (a.corpora.get n).isSome
  disk : ∀ n d g, s.disk.get n = some d → a.corpora.get n = some g →
    g.comps.Sorted ∧ Stored o.apply (a.pend n) d g
  idle : ∀ n, n ∉ a.jobs → a.pend n = 0
  cur : ∀ e ∈ s.cache ++ held, ∀ g, s.graph e.2 = some g → a.corpora.get e.1 = some g
  nodup : (s.cache.map Prod.fst).Nodup
  jobs : s.jobs.map Prod.fst = a.jobs
  jobsOk : ∀ j ∈ s.jobs, ∃ g, s.graph j.2 = some g ∧ ∀ g', a.corpora.get j.1 = some g' → g' = g
  valid : ∀ e ∈ s.cache ++ s.jobs ++ held ++ seen, e.2 < s.heap.length
  sep : ∀ e ∈ s.cache ++ s.jobs ++ held ++ seen, ∀ e' ∈ s.cache ++ s.jobs ++ held ++ seen, e.2 = e'.2 → e.1 = e'.1
  phantom : ∀ n, n ∈ a.phantom ↔ n ∈ s.cache.map Prod.fst ∧ s.disk.get n = none
