import Verif.Adj.Props
import Verif.Gs.SourceLemmas
import Verif.Util.Forest

/-!
# The adjacency list storage as the origin of a copy
-/

set_option linter.unusedSimpArgs false
set_option linter.unusedSectionVars false

namespace Adj

variable {N S W : Type} [LinearOrder N] [LinearOrder S] [OrderBot S] [LinearOrder W]

/-- Every adjacency list storage reached by edge operations is a source that represents its specification. -/
theorem asSource_is (ops : List (Op N S W)) :
    (run ops).asSource.Is (fun a b => (spec ops).edge a b = true) (spec ops).anno := by
  obtain ⟨c1, c2, c3, c4, c5, c6, c7, c8⟩ := C13_edges_in_sync ops
  obtain ⟨h, r1, r2⟩ := run_refines ops
  refine ⟨c1, fun a => nodup_of_lt (c3 a), c6, c7, ?_, c7.sublist List.filter_sublist, ?_, ?_, ?_, ?_⟩
  · intro r
    unfold asSource roots
    simp only [List.mem_filter, c6, List.isEmpty_iff]
    refine and_congr_right (fun _ => ?_)
    rw [List.eq_nil_iff_forall_not_mem, not_exists]
    refine forall_congr' (fun a => ?_)
    rw [c2]
  · intro a b hab
    exact covers_out _ a b ((c1 a b).2 hab)
  · intro a; simp [c8]
  · intro a b k v
    unfold asSource
    simp only
    rw [AnnoStore.mem_annosForItem h.anno, r2]
  · intro a b k v hv
    rw [← r2] at hv
    exact (r1 a b).1 (h.edge a b k (by simp [hv]))

end Adj
