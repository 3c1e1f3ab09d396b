import Mathlib.Data.List.SplitOn
import Mathlib.Data.List.Infix
import Mathlib.Logic.Function.Basic
/-!
# Linked files of a corpus

`CorpusStorage::copy_linked_files_and_update_references` (graphannis/src/annis/db/corpusstorage.rs
1066-1116) copies the files that are linked by nodes of the type `file` into the directory of the
corpus, and `get_linked_files` (1120-1165) finds them there.

Paths are those of Unix.  A path is the list of its components as given by
`std::path::Path::components`: separators in a row and `.` are dropped, `..` is kept.  The file
system resolves `..`; symbolic links are not modelled.  Directories are implicit, so the error of
a file name that is also the name of a needed directory is not modelled.
-/
namespace Links

abbrev Str := List Char

/-- `Path::components` without the root (and without a leading `.`, which has no meaning after
`join`). -/
def segs (p : Str) : List Str := (p.splitOn '/').filter fun s => s ≠ [] ∧ s ≠ ['.']

/-- `Path::is_absolute`. -/
def isAbs (p : Str) : Bool := p.head? = some '/'

/-- `base.join(p)` for an absolute `base`. -/
def join (base : List Str) (p : Str) : List Str := if isAbs p then segs p else base ++ segs p

/-- `..` -/
def up : Str := ['.', '.']

/-- How the operating system resolves an absolute path: `..` goes to the parent directory. -/
def resolve (p : List Str) : List Str :=
  p.foldl (fun acc s => if s = up then acc.dropLast else acc ++ [s]) []

/-- `Path::strip_prefix`. -/
def stripPrefix (base p : List Str) : Option (List Str) :=
  if base <+: p then some (p.drop base.length) else none

/-- The path as text (`to_string_lossy` of the rest of a path).  Simplified: the code keeps
repeated separators inside of the rest; they have no meaning. -/
def text (p : List Str) : Str := ['/'].intercalate p

/-- The files by their resolved path. -/
abbrev Fs (D : Type) := List Str → Option D

/-- A node of the type `file`: its name and the value of `annis::file`. -/
structure FileNode where
  name : Str
  file : Str
  deriving DecidableEq

variable {D : Type}

/-- One iteration of the loop (corpusstorage.rs 1084-1113): the file system afterwards and the
node with its new link; `none` is the error of `strip_prefix` (1106), after which the copied file
stays. -/
def copyOne (oldBase base : List Str) (fs : Fs D) (n : FileNode) : Fs D × Option FileNode :=
  match fs (resolve (join oldBase n.file)) with
  | none => (fs, some n)
  | some d =>
    let new := join base n.name
    let fs := Function.update fs (resolve new) (some d)
    match stripPrefix base new with
    | none => (fs, none)
    | some rel => (fs, some { n with file := text rel })

/-- The loop over all file nodes; an error ends it. -/
def copyAll (oldBase base : List Str) : Fs D → List FileNode → Fs D × Option (List FileNode)
  | fs, [] => (fs, some [])
  | fs, n :: r =>
    match copyOne oldBase base fs n with
    | (fs, none) => (fs, none)
    | (fs, some n') =>
      match copyAll oldBase base fs r with
      | (fs, none) => (fs, none)
      | (fs, some r') => (fs, some (n' :: r'))

/-- `get_linked_files` (corpusstorage.rs 1157): where the file of a node is expected. -/
def location (base : List Str) (n : FileNode) : List Str := resolve (join base n.file)

/-! ## Specification -/

/-- A relative path without empty parts, `.` and `..`. -/
def Plain (p : Str) : Prop := ∀ s ∈ p.splitOn '/', s ≠ [] ∧ s ≠ ['.'] ∧ s ≠ up

/-- A directory path without `..`. -/
def Resolved (p : List Str) : Prop := up ∉ p

/-! ## Lemmas -/

theorem resolve_go (p acc : List Str) (h : up ∉ p) :
    p.foldl (fun acc s => if s = up then acc.dropLast else acc ++ [s]) acc = acc ++ p := by
  induction p generalizing acc with
  | nil => simp
  | cons s r ih =>
    have hs : s ≠ up := fun e => h (by simp [e])
    have hr : up ∉ r := fun e => h (by simp [e])
    simp only [List.foldl_cons, if_neg hs]
    rw [ih _ hr]
    simp

theorem resolve_eq {p : List Str} (h : up ∉ p) : resolve p = p := by
  simpa [resolve] using resolve_go p [] h

theorem segs_plain {p : Str} (h : Plain p) : segs p = p.splitOn '/' := by
  unfold segs
  rw [List.filter_eq_self]
  intro s hs
  have := h s hs
  simp [this.1, this.2.1]

theorem up_not_mem_segs {p : Str} (h : Plain p) : up ∉ segs p := by
  rw [segs_plain h]
  exact fun hm => (h _ hm).2.2 rfl

theorem plain_not_abs {p : Str} (h : Plain p) : isAbs p = false := by
  cases p with
  | nil => rfl
  | cons c r =>
    by_contra hc
    have : c = '/' := by simpa [isAbs] using hc
    subst this
    have hm : ([] : Str) ∈ ('/' :: r).splitOn '/' := by
      simp [List.splitOn, List.splitOnP_cons]
    exact (h _ hm).1 rfl

theorem segs_ne_nil {p : Str} (h : Plain p) : segs p ≠ [] := by
  rw [segs_plain h]
  exact List.splitOn_ne_nil _ _

theorem segs_inj {p q : Str} (hp : Plain p) (hq : Plain q) (h : segs p = segs q) : p = q := by
  rw [segs_plain hp, segs_plain hq] at h
  rw [← List.intercalate_splitOn '/' (xs := p), h, List.intercalate_splitOn]

theorem join_plain {base : List Str} {p : Str} (h : Plain p) : join base p = base ++ segs p := by
  simp [join, plain_not_abs h]

theorem resolve_join {base : List Str} {p : Str} (hb : Resolved base) (h : Plain p) :
    resolve (join base p) = base ++ segs p := by
  rw [join_plain h]
  apply resolve_eq
  intro hm
  rcases List.mem_append.1 hm with hm | hm
  · exact hb hm
  · exact up_not_mem_segs h hm

theorem text_segs {p : Str} (h : Plain p) : text (segs p) = p := by
  unfold text
  rw [segs_plain h]
  exact List.intercalate_splitOn '/'

theorem copyOne_plain {oldBase base : List Str} {fs : Fs D} {n : FileNode} {d : D}
    (h : Plain n.name) (hb : Resolved base) (hd : fs (resolve (join oldBase n.file)) = some d) :
    copyOne oldBase base fs n =
      (Function.update fs (base ++ segs n.name) (some d), some ⟨n.name, n.name⟩) := by
  unfold copyOne
  rw [hd]
  simp only [resolve_join hb h]
  simp [stripPrefix, join_plain h, text_segs h]

theorem copyOne_missing {oldBase base : List Str} {fs : Fs D} {n : FileNode}
    (hd : fs (resolve (join oldBase n.file)) = none) :
    copyOne oldBase base fs n = (fs, some n) := by
  unfold copyOne
  rw [hd]

/-- What the loop does when all names are plain and different and the sources are not below the
target directory. -/
theorem copyAll_plain {oldBase base : List Str} (hb : Resolved base) : ∀ (ns : List FileNode)
    (fs : Fs D), (∀ n ∈ ns, Plain n.name) → (ns.map FileNode.name).Nodup →
    (∀ n ∈ ns, ¬ base <+: resolve (join oldBase n.file)) →
    (copyAll oldBase base fs ns).2 = some (ns.map fun n =>
      if (fs (resolve (join oldBase n.file))).isSome then ⟨n.name, n.name⟩ else n) ∧
    (∀ p, ¬ base <+: p → (copyAll oldBase base fs ns).1 p = fs p) ∧
    (∀ n ∈ ns, (fs (resolve (join oldBase n.file))).isSome →
      (copyAll oldBase base fs ns).1 (base ++ segs n.name) =
        fs (resolve (join oldBase n.file))) ∧
    (∀ q, Plain q → q ∉ ns.map FileNode.name →
      (copyAll oldBase base fs ns).1 (base ++ segs q) = fs (base ++ segs q)) := by
  intro ns
  induction ns with
  | nil => intro fs _ _ _; simp [copyAll]
  | cons n r ih =>
    intro fs hp hn hs
    have hpn := hp n (by simp)
    have hpr : ∀ x ∈ r, Plain x.name := fun x hx => hp x (by simp [hx])
    rw [List.map_cons, List.nodup_cons] at hn
    have hsr : ∀ x ∈ r, ¬ base <+: resolve (join oldBase x.file) :=
      fun x hx => hs x (by simp [hx])
    cases hd : fs (resolve (join oldBase n.file)) with
    | none =>
      obtain ⟨i1, i2, i3, i4⟩ := ih fs hpr hn.2 hsr
      have hc : copyAll oldBase base fs (n :: r) =
          ((copyAll oldBase base fs r).1, some (n :: r.map fun n =>
            if (fs (resolve (join oldBase n.file))).isSome then ⟨n.name, n.name⟩ else n)) := by
        rw [copyAll, copyOne_missing hd]
        simp only
        cases hx : copyAll oldBase base fs r with
        | mk a b => rw [hx] at i1; simp only at i1; rw [i1]
      rw [hc]
      refine ⟨by simp [hd], i2, ?_, ?_⟩
      · intro x hx hxs
        rcases List.mem_cons.1 hx with rfl | hx
        · rw [hd] at hxs; simp at hxs
        · exact i3 x hx hxs
      · intro q hq hqn
        exact i4 q hq fun h => hqn (by simp [h])
    | some d =>
      have hstep := copyOne_plain (oldBase := oldBase) hpn hb hd
      generalize hfs' : Function.update fs (base ++ segs n.name) (some d) = fs' at hstep
      have hout : ∀ p, ¬ base <+: p → fs' p = fs p := by
        intro p hp'
        rw [← hfs', Function.update_of_ne]
        rintro rfl
        exact hp' (List.prefix_append _ _)
      obtain ⟨i1, i2, i3, i4⟩ := ih fs' hpr hn.2 hsr
      have hmap : (r.map fun n => if (fs' (resolve (join oldBase n.file))).isSome then
            (⟨n.name, n.name⟩ : FileNode) else n) = r.map fun n =>
          if (fs (resolve (join oldBase n.file))).isSome then ⟨n.name, n.name⟩ else n := by
        refine List.map_congr_left fun x hx => ?_
        rw [hout _ (hsr x hx)]
      have hc : copyAll oldBase base fs (n :: r) =
          ((copyAll oldBase base fs' r).1, some (⟨n.name, n.name⟩ :: r.map fun n =>
            if (fs (resolve (join oldBase n.file))).isSome then ⟨n.name, n.name⟩ else n)) := by
        rw [copyAll, hstep]
        simp only
        cases hx : copyAll oldBase base fs' r with
        | mk a b => rw [hx] at i1; simp only at i1; rw [i1, hmap]
      rw [hc]
      refine ⟨by simp [hd], fun p hp' => (i2 p hp').trans (hout p hp'), ?_, ?_⟩
      · intro x hx hxs
        rcases List.mem_cons.1 hx with rfl | hx
        · show (copyAll oldBase base fs' r).1 (base ++ segs x.name) = _
          rw [i4 _ hpn hn.1, ← hfs', Function.update_self, hd]
        · have := i3 x hx (by rw [hout _ (hsr x hx)]; exact hxs)
          rw [hout _ (hsr x hx)] at this
          exact this
      · intro q hq hqn
        show (copyAll oldBase base fs' r).1 (base ++ segs q) = _
        rw [i4 q hq fun h => hqn (by simp [h]), ← hfs', Function.update_of_ne]
        intro he
        have := segs_inj hq hpn (List.append_cancel_left he)
        exact hqn (by simp [this])

/-! ## C65 -/

/-- **C65**, inside: a file with a plain name is written below the directory of the corpus and its
link leads to it.  The full property has no condition on the name; `C65_escape_fails`,
`C65_absolute_fails` and `C65_collision_fails` show what goes wrong without it. -/
theorem C65_inside_partial {oldBase base : List Str} {fs : Fs D} {n : FileNode} {d : D}
    (h : Plain n.name) (hb : Resolved base) (hd : fs (resolve (join oldBase n.file)) = some d) :
    ∃ fs' n' rest, copyOne oldBase base fs n = (fs', some n') ∧ rest ≠ [] ∧
      location base n' = base ++ rest ∧ fs' (location base n') = some d ∧
      ∀ p, p ≠ location base n' → fs' p = fs p := by
  refine ⟨_, _, segs n.name, copyOne_plain h hb hd, segs_ne_nil h, ?_⟩
  have : location base ⟨n.name, n.name⟩ = base ++ segs n.name := resolve_join hb h
  rw [this]
  exact ⟨rfl, by simp, fun p hp => by simp [hp]⟩

/-- **C65**, all files: with plain and different names, the import succeeds, changes nothing
outside of the directory, and afterwards the link of every node whose file exists leads to the
content of the original file. -/
theorem C65_all_partial {oldBase base : List Str} {fs : Fs D} {ns : List FileNode}
    (hb : Resolved base) (hp : ∀ n ∈ ns, Plain n.name) (hn : (ns.map FileNode.name).Nodup)
    (hs : ∀ n ∈ ns, ¬ base <+: resolve (join oldBase n.file)) :
    ∃ fs' ns', copyAll oldBase base fs ns = (fs', some ns') ∧
      (∀ p, ¬ base <+: p → fs' p = fs p) ∧
      ns'.map FileNode.name = ns.map FileNode.name ∧
      ∀ (i : Nat) (n n' : FileNode), ns[i]? = some n → ns'[i]? = some n' →
        (fs (resolve (join oldBase n.file))).isSome →
        fs' (location base n') = fs (resolve (join oldBase n.file)) := by
  obtain ⟨i1, i2, i3, -⟩ := copyAll_plain (oldBase := oldBase) hb ns fs hp hn hs
  refine ⟨(copyAll oldBase base fs ns).1, ns.map fun n =>
    if (fs (resolve (join oldBase n.file))).isSome then ⟨n.name, n.name⟩ else n, ?_, i2, ?_, ?_⟩
  · cases hx : copyAll oldBase base fs ns with
    | mk a b => rw [hx] at i1; simp only at i1; rw [i1]
  · rw [List.map_map]
    refine List.map_congr_left fun n _ => ?_
    simp only [Function.comp]
    split <;> rfl
  · intro i n n' h1 h2 hsome
    rw [List.getElem?_map, h1] at h2
    simp only [Option.map_some, Option.some.injEq, hsome, if_true] at h2
    subst h2
    have hm := List.mem_of_getElem? h1
    have : location base ⟨n.name, n.name⟩ = base ++ segs n.name := resolve_join hb (hp n hm)
    rw [this]
    exact i3 n hm hsome

/-- A text literal as a list of characters. -/
def c (s : String) : Str := s.toList

/-- `/data/corpus/files` -/
def demoBase : List Str := [c "data", c "corpus", c "files"]

/-- `/import` -/
def demoOld : List Str := [c "import"]

/-- Two audio files to import, another file of the system and a file of another corpus. -/
def demoFs : Fs Nat := fun p =>
  if p = [c "import", c "a.wav"] then some 1
  else if p = [c "import", c "b.wav"] then some 2
  else if p = [c "etc", c "passwd"] then some 3
  else if p = [c "data", c "other", c "x"] then some 4
  else none

instance (p : Str) : Decidable (Plain p) := by unfold Plain; infer_instance
instance (p : List Str) : Decidable (Resolved p) := by unfold Resolved; infer_instance

/-- The hypotheses of `C65_all_partial` are met, and the links lead to the files. -/
theorem C65_nonvacuous :
    let ns := [⟨c "corpus/a.wav", c "a.wav"⟩, ⟨c "corpus/b.wav", c "b.wav"⟩]
    Resolved demoBase ∧ (∀ n ∈ ns, Plain n.name) ∧ (ns.map FileNode.name).Nodup ∧
      (∀ n ∈ ns, ¬ demoBase <+: resolve (join demoOld n.file)) ∧
      (copyAll demoOld demoBase demoFs ns).1
        [c "data", c "corpus", c "files", c "corpus", c "b.wav"] = some 2 := by
  decide +kernel

/-- **C65** fails: a node name with `..` writes a file into another corpus, and no error is
reported. -/
theorem C65_escape_fails :
    let r := copyOne demoOld demoBase demoFs ⟨c "../../other/x", c "a.wav"⟩
    r.2.isSome ∧ r.1 [c "data", c "other", c "x"] = some 1 ∧
      demoFs [c "data", c "other", c "x"] = some 4 := by
  decide +kernel

/-- **C65** fails: an absolute node name writes to any place; the error comes afterwards. -/
theorem C65_absolute_fails :
    let r := copyOne demoOld demoBase demoFs ⟨c "/etc/passwd", c "a.wav"⟩
    r.2 = none ∧ r.1 [c "etc", c "passwd"] = some 1 := by
  decide +kernel

/-- **C65** fails: the linked file can be any file of the system, it becomes part of the corpus. -/
theorem C65_source_fails :
    (copyOne demoOld demoBase demoFs ⟨c "x", c "../etc/passwd"⟩).1 (demoBase ++ [c "x"]) =
      some 3 := by
  decide +kernel

/-- **C65** fails: the names `a/b` and `a//b` are different nodes with one file, so the first
file is lost. -/
theorem C65_collision_fails :
    let r := copyAll demoOld demoBase demoFs [⟨c "a/b", c "a.wav"⟩, ⟨c "a//b", c "b.wav"⟩]
    r.2.isSome ∧ r.1 (demoBase ++ [c "a", c "b"]) = some 2 := by
  decide +kernel

end Links
