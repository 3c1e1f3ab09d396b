import Verif.Linear.Model
import Verif.PrePost.Model
import Verif.Single.Model
import Verif.DiskAdj.Model

/-!
# Model of the component statistics and the choice of the storage implementation

* `calculate_statistics` (core/src/graph/storage/adjacencylist.rs 352-465)
* `get_optimal_impl_heuristic` and its helpers (core/src/graph/storage/registry.rs 76-168)
* `optimize_gs_impl` (core/src/graph/mod.rs 1023-1056)

Not modelled: the fields of the statistics that the choice does not use (`avg_fan_out`; the percentiles and `root_nodes` are in `Est/Stats.lean`).  The
two floating point comparisons of the heuristic are arbitrary functions (`FloatTests`), so no theorem depends on rounding.
-/

/-- `GraphStatistic` (core/src/graph/storage/mod.rs 32-64), the fields used by the heuristic.  `visits` is the numerator of
`dfs_visit_ratio`. -/
structure GsStats where
  maxDepth : Nat
  maxFanOut : Nat
  nodes : Nat
  visits : Nat
  cyclic : Bool
  rootedTree : Bool
deriving DecidableEq, Repr

/-- The test for repeated targets (adjacencylist.rs 379-385): false once a target is seen twice. -/
def targetsOnce {N : Type} [DecidableEq N] : List N → List N → Bool
  | _, [] => true
  | seen, t :: r => if t ∈ seen then false else targetsOnce (t :: seen) r

namespace Adj

variable {N S W : Type} [LinearOrder N] [LinearOrder S] [OrderBot S] [LinearOrder W]

/-- `roots` (adjacencylist.rs 371-398): all keys of the edge map that are no target.  A key whose targets were all deleted
still counts. -/
def statRoots (g : Adj N S W) : List N := g.edges.keys.filter fun n => decide (n ∉ targets g.edges)

/-- `all_nodes` (adjacencylist.rs 373-388). -/
def statNodes (g : Adj N S W) : List N := firstVisits [] ((g.edges.keys ++ targets g.edges).map fun n => (n, 0))

/-- The traversal from one root (adjacencylist.rs 436-441). -/
def statSteps (g : Adj N S W) (r : N) : List (N × Nat) := Dfs.steps g.out (targets g.edges) r 0 usizeMax

/-- `stats.cyclic` (adjacencylist.rs 432-446). -/
def statCyclic (g : Adj N S W) : Bool :=
  if g.statRoots.isEmpty && !g.edges.isEmpty then true
  else g.statRoots.any fun r => Dfs.isCyclic g.out (targets g.edges) r 0 usizeMax

/-- `calculate_statistics` (adjacencylist.rs 352-465). -/
def stats (g : Adj N S W) : GsStats :=
  let steps := g.statRoots.flatMap g.statSteps
  let cyc := g.statCyclic
  { maxDepth := if cyc then 0 else steps.foldl (fun m x => Nat.max m x.2) 1
    maxFanOut := (g.edges.vals.map List.length).foldl Nat.max 0
    nodes := g.statNodes.length
    visits := steps.length
    cyclic := cyc
    rootedTree := !cyc && targetsOnce [] (targets g.edges) }

end Adj

/-- The implementations that the heuristic chooses from.  Number types are given by their largest value. -/
inductive GsImpl
  | diskPath
  | diskAdj
  | adj
  | dense
  | linear (cap : Nat)
  | prepost (ordCap lvlCap : Nat)
deriving DecidableEq, Repr

/-- The two comparisons of floating point numbers: `dfs_visit_ratio <= 1.03` (registry.rs 100) as a function of the number of
visits and nodes, and `nodes / largest >= 0.75` (registry.rs 117). -/
structure FloatTests where
  almostTree : Nat → Nat → Bool
  dense : Nat → Nat → Bool

/-- `u8::MAX`, `u16::MAX` and `u32::MAX`. -/
def u8Max : Nat := 2 ^ 8 - 1
def u16Max : Nat := 2 ^ 16 - 1
def u32Max : Nat := 2 ^ 32 - 1

/-- `get_adjacencylist_impl` (registry.rs 110-125). -/
def adjacencyImpl (ft : FloatTests) (disk : Bool) (largest : Option Nat) (s : GsStats) : GsImpl :=
  if disk then .diskAdj else
    match largest with
    | some l => if s.maxFanOut ≤ 1 ∧ ft.dense s.nodes l = true then .dense else .adj
    | none => .adj

/-- `get_prepostorder_by_size` (registry.rs 127-155). -/
def prepostBySize (s : GsStats) : GsImpl :=
  if s.rootedTree then
    if s.nodes < u16Max / 2 then
      if s.maxDepth < u8Max then .prepost u16Max u8Max
      else if s.maxDepth < u32Max then .prepost u16Max u32Max
      else .prepost usizeMax usizeMax
    else if s.nodes < u32Max / 2 then
      if s.maxDepth < u8Max then .prepost u32Max u8Max
      else if s.maxDepth < u32Max then .prepost u32Max u32Max
      else .prepost usizeMax usizeMax
    else if s.maxDepth < u8Max then .prepost usizeMax u8Max
    else if s.maxDepth < u32Max then .prepost usizeMax u32Max
    else .prepost usizeMax usizeMax
  else if s.maxDepth < u8Max then .prepost usizeMax u8Max
  else .prepost usizeMax usizeMax

/-- `get_linear_by_size` (registry.rs 157-168). -/
def linearBySize (s : GsStats) : GsImpl :=
  if s.maxDepth < u8Max then .linear u8Max
  else if s.maxDepth < u16Max then .linear u16Max
  else if s.maxDepth < u32Max then .linear u32Max
  else .linear usizeMax

/-- `get_optimal_impl_heuristic` (registry.rs 76-108). -/
def chooseImpl (ft : FloatTests) (disk : Bool) (largest : Option Nat) (s : GsStats) : GsImpl :=
  if disk ∧ s.maxDepth ≤ pathMaxDepth ∧ s.maxFanOut = 1 ∧ s.cyclic = false then .diskPath
  else if s.maxDepth ≤ 1 then adjacencyImpl ft disk largest s
  else if s.rootedTree then (if s.maxFanOut ≤ 1 then linearBySize s else prepostBySize s)
  else if s.cyclic = false ∧ ft.almostTree s.visits s.nodes = true then prepostBySize s
  else adjacencyImpl ft disk largest s

/-- A storage of any implementation. -/
inductive AnyGs (S W : Type)
  | adj (g : Adj NodeID64 S W)
  | diskAdj (g : DiskAdj S W)
  | dense (g : Dense S W)
  | diskPath (g : DiskPath S W)
  | linear (cap : Nat) (g : Linear NodeID64 S W)
  | prepost (g : PrePostGs NodeID64 S W)

namespace AnyGs

variable {S W : Type} [LinearOrder S] [OrderBot S] [LinearOrder W]

/-- `get_outgoing_edges` of the implementation; `none` is a panic. -/
def out : AnyGs S W → NodeID64 → Option (List NodeID64)
  | .adj g, n => some (g.out n)
  | .diskAdj g, n => some (g.out n)
  | .dense g, n => some (g.out n)
  | .diskPath g, n => g.out n
  | .linear cap g, n => g.out cap n
  | .prepost g, n => g.out n

/-- `get_anno_storage` of the implementation. -/
def annos : AnyGs S W → AnnoStore (NodeID64 ×ₗ NodeID64) S W
  | .adj g => g.annos
  | .diskAdj g => g.annos
  | .dense g => g.annos
  | .diskPath g => g.annos
  | .linear _ g => g.annos
  | .prepost g => g.annos

end AnyGs

/-- `optimize_gs_impl` (graph/mod.rs 1023-1056) for a component whose current implementation is the writable adjacency list
storage with fresh statistics: the component is copied unless the chosen implementation is the current one.  `none` is a
panic. -/
def optimizeGs {S W : Type} [LinearOrder S] [OrderBot S] [LinearOrder W] (ft : FloatTests) (disk : Bool)
    (largest : Option NodeID64) (g : Adj NodeID64 S W) : Option (AnyGs S W) :=
  match chooseImpl ft disk (largest.map fun l => l.val) g.stats with
  | .adj => some (.adj g)
  | .diskAdj => some (.diskAdj (DiskAdj.copy DiskAdj.new g.asSource))
  | .dense => (Dense.copy largest Dense.new g.asSource).map .dense
  | .diskPath => some (.diskPath (DiskPath.copy DiskPath.new g.asSource))
  | .linear cap => some (.linear cap (Linear.copy cap Linear.new g.asSource))
  | .prepost oc lc => (PrePostGs.copy oc lc PrePostGs.new g.asSource).map .prepost
