import Verif.Import.Zip

/-!
# Examples for ZIP files and directories of corpora (C96)
-/

namespace Zip.Ex

open Links hiding Str
open Zip.Spec

/-- The content of a file. -/
inductive Doc where
  | raw (n : Nat)
  | graph (g : Nat) (ns : List FileNode)
deriving DecidableEq

def ser (x : Nat × List FileNode) : Doc := .graph x.1 x.2

def de : Doc → Option (Nat × List FileNode)
  | .raw _ => none
  | .graph g ns => some (g, ns)

theorem de_ser (x : Nat × List FileNode) : de (ser x) = some x := rfl

def data : List Str := [c "data"]
def data2 : List Str := [c "srv"]
def tmp : List Str := [c "tmp", c "z"]
def out : List Str := [c "out"]

/-- No relANNIS corpus can be read. -/
def rel : Fs Doc → List Str → Option (Str × Nat × List FileNode) := fun _ _ => none

/-- Two corpora, the first with two linked files. -/
def ka : Corpus Nat := ⟨c "a b", 1, [⟨c "a b/x.wav", c "a b/x.wav"⟩, ⟨c "a b/doc/y.txt", c "a b/doc/y.txt"⟩], true⟩
def kb : Corpus Nat := ⟨c "c.d", 2, [], true⟩

def fs : Fs Doc := fun p =>
  if p = [c "data", c "a%20b", c "files", c "a b", c "x.wav"] then some (.raw 10)
  else if p = [c "data", c "a%20b", c "files", c "a b", c "doc", c "y.txt"] then some (.raw 11)
  else none

def empty : Store Doc Nat := ⟨fun _ => none, fun _ => none⟩

instance (s : Str) : Decidable (NameOk s) := by unfold NameOk; infer_instance

theorem ok : ∀ k ∈ [ka, kb], CorpusOk (corpusDir data) fs k := by
  intro k hk
  simp only [List.mem_cons, List.not_mem_nil, or_false] at hk
  rcases hk with rfl | rfl
  · refine ⟨by decide +kernel, rfl, fun n hn => ?_, by decide +kernel, by decide +kernel⟩
    simp only [ka, List.mem_cons, List.not_mem_nil, or_false] at hn
    rcases hn with rfl | rfl
    · exact ⟨by decide +kernel, by decide +kernel, rfl, by decide +kernel, by decide +kernel, by decide +kernel⟩
    · exact ⟨by decide +kernel, by decide +kernel, rfl, by decide +kernel, by decide +kernel, by decide +kernel⟩
  · exact ⟨by decide +kernel, rfl, fun n hn => by simp [kb] at hn, by decide +kernel, by decide +kernel⟩

instance (a b : List Str) : Decidable (Apart a b) := by unfold Apart; infer_instance

/-- The hypotheses of `C96_round_trip_partial` and `C96_directory_partial` are met by two corpora with linked files; names of the entries,
and what is imported. -/
theorem C96_nonvacuous :
    (∀ k ∈ [ka, kb], CorpusOk (corpusDir data) fs k) ∧ ([ka, kb].map Corpus.name).Nodup ∧ Resolved data2 ∧ Resolved tmp ∧
    Apart data2 tmp ∧ Apart data out ∧ Apart data2 out ∧
    (exportAll ser (corpusDir data) fs [ka, kb]).map (fun a => a.map Entry.name) =
      some [c "a b/a b.graphml", c "a b/a b/x.wav", c "a b/a b/doc/y.txt", c "c.d/c.d.graphml"] ∧
    (exportAll ser (corpusDir data) fs [ka, kb]).map (fun a => (importZip rel de (corpusDir data2) false tmp empty a).2) =
      some (some [c "a b", c "c.d"]) ∧
    (exportAll ser (corpusDir data) fs [ka, kb]).map (fun a => (importZip rel de (corpusDir data2) false tmp empty a).1.fs
      [c "srv", c "a%20b", c "files", c "a b", c "doc", c "y.txt"]) = some (some (.raw 11)) :=
  ⟨ok, by decide +kernel, by decide +kernel, by decide +kernel, by decide +kernel, by decide +kernel, by decide +kernel,
    by decide +kernel, by decide +kernel, by decide +kernel⟩

/-- The names of the imported corpora after an export to a ZIP file; the outer option is the error of the export, the inner one that of the
import. -/
def roundTrip (fs : Fs Doc) (overwrite : Bool) (ks : List (Corpus Nat)) : Option (Option (List Str)) :=
  (exportAll ser (corpusDir data) fs ks).map fun a => (importZip rel de (corpusDir data2) overwrite tmp empty a).2

/-- **C96** fails for names with `..` or with `/` in front: the corpus is left out on import and no error is reported. -/
theorem C96_dots_fails :
    roundTrip fs false [⟨c "../a", 1, [], true⟩] = some (some []) ∧ roundTrip fs false [⟨c "/a", 1, [], true⟩] = some (some []) ∧
    corpusDir data (c "../a") = [c "data", c "..%2Fa"] := by
  decide +kernel

/-- **C96** fails for names with `/`: the corpus gets another name, and corpora can replace each other. -/
theorem C96_slash_fails :
    roundTrip fs false [⟨c "a/b", 1, [], true⟩] = some (some [c "b"]) ∧
    roundTrip fs false [⟨c "a/x", 1, [], true⟩, ⟨c "b/x", 2, [], true⟩] = some none ∧
    roundTrip fs true [⟨c "a/x", 1, [], true⟩, ⟨c "b/x", 2, [], true⟩] = some (some [c "x", c "x"]) := by
  decide +kernel

/-- Linked files with other names. -/
def fsL : Fs Doc := fun p =>
  if p = [c "data", c "a", c "files", c "a", c "notes.GraphML"] then some (.raw 10)
  else if p = [c "data", c "a", c "files", c "a", c "corpus.tab"] then some (.raw 11)
  else if p = [c "data", c "a", c "files", c "old.wav"] then some (.raw 12)
  else if p = [c "data", c "a", c "files", c "other", c "x"] then some (.raw 13)
  else none

/-- **C96** fails: a linked file with the extension `graphml` is taken for a corpus; the import ends with an error, but the corpora before
it have been imported. -/
theorem C96_graphml_fails :
    roundTrip fsL false [⟨c "a", 1, [⟨c "a/notes.GraphML", c "a/notes.GraphML"⟩], true⟩] = some none ∧
    (exportAll ser (corpusDir data) fsL [⟨c "a", 1, [⟨c "a/notes.GraphML", c "a/notes.GraphML"⟩], true⟩]).map (fun a =>
      (importZip rel de (corpusDir data2) false tmp empty a).1.corpora (c "a")) =
      some (some (1, [⟨c "a/notes.GraphML", c "a/notes.GraphML"⟩])) := by
  decide +kernel

/-- **C96** fails: a linked file with the name `corpus.tab` makes its directory a relANNIS corpus; nothing is imported. -/
theorem C96_table_fails :
    roundTrip fsL false [⟨c "a", 1, [⟨c "a/corpus.tab", c "a/corpus.tab"⟩], true⟩] = some none ∧
    (exportAll ser (corpusDir data) fsL [⟨c "a", 1, [⟨c "a/corpus.tab", c "a/corpus.tab"⟩], true⟩]).map (fun a =>
      (importZip rel de (corpusDir data2) false tmp empty a).1.corpora (c "a")) = some none := by
  decide +kernel

/-- **C96** fails: if a linked file is missing, the export to a ZIP file ends with an error; the export to a directory leaves it out. -/
theorem C96_missing_fails :
    roundTrip fsL false [⟨c "a", 1, [⟨c "a/gone.wav", c "a/gone.wav"⟩], true⟩] = none ∧
    exportDirs ser (corpusDir data) out fsL [⟨c "a", 1, [⟨c "a/gone.wav", c "a/gone.wav"⟩], true⟩] [c "out", c "a.graphml"] =
      some (.graph 1 [⟨c "a/gone.wav", c "a/gone.wav"⟩]) := by
  decide +kernel

/-- The file after a missing one is copied (`C96_skipped`). -/
theorem C96_skipped_example :
    (∀ f ∈ [(c "a/gone.wav", [c "data", c "gone"]), (c "a/x.wav", [c "data", c "a%20b", c "files", c "a b", c "x.wav"])],
      ∀ g ∈ [(c "a/gone.wav", [c "data", c "gone"]), (c "a/x.wav", [c "data", c "a%20b", c "files", c "a b", c "x.wav"])],
      resolve (join out f.1) ≠ g.2) ∧
    copyTo out fs [(c "a/gone.wav", [c "data", c "gone"]), (c "a/x.wav", [c "data", c "a%20b", c "files", c "a b", c "x.wav"])]
      [c "out", c "a", c "x.wav"] = some (.raw 10) := by
  decide +kernel

/-- **C96** fails: the file is exported with the name of its node, but its link is kept; if they differ the imported corpus has lost the
file, and no error is reported. -/
theorem C96_link_fails :
    let k : Corpus Nat := ⟨c "a", 1, [⟨c "a/x.wav", c "old.wav"⟩], true⟩
    roundTrip fsL false [k] = some (some [c "a"]) ∧ fsL (location (corpusDir data (c "a") ++ [c "files"]) ⟨c "a/x.wav", c "old.wav"⟩) =
      some (.raw 12) ∧
    (exportAll ser (corpusDir data) fsL [k]).map (fun a => (importZip rel de (corpusDir data2) false tmp empty a).1.fs
      (location (corpusDir data2 (c "a") ++ [c "files"]) ⟨c "a/x.wav", c "old.wav"⟩)) = some none := by
  decide +kernel

/-- **C96** fails: a directory with the extension `graphml` is taken for a corpus, and the import ends with an error. -/
theorem C96_directory_entry_fails :
    (importZip rel de (corpusDir data2) false tmp empty
      [⟨c "x.graphml/", none⟩, ⟨c "x.graphml/a.graphml", some (ser (1, []))⟩]).2 = none ∧
    (importZip rel de (corpusDir data2) false tmp empty [⟨c "x/", none⟩, ⟨c "x/a.graphml", some (ser (1, []))⟩]).2 = some [c "a"] := by
  decide +kernel

/-- **C96** fails: the export to a directory writes outside of it, because of the name of a corpus or of a node. -/
theorem C96_directory_escape_fails :
    exportDirs ser (corpusDir data) out fsL [⟨c "../etc/a", 1, [], true⟩] [c "etc", c "a.graphml"] = some (.graph 1 []) ∧
    exportDirs ser (corpusDir data) out fsL [⟨c "a", 1, [⟨c "../etc/x", c "other/x"⟩], true⟩] [c "etc", c "x"] = some (.raw 13) ∧
    exportDirs ser (corpusDir data) out fsL [⟨c "a", 1, [⟨c "/etc/x", c "other/x"⟩], true⟩] [c "etc", c "x"] = some (.raw 13) := by
  decide +kernel

end Zip.Ex
