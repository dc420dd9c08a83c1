import Verif.Model.MultiGraph
import Mathlib.Data.Nat.Log

/-!
# Uni-dimensional graph search

Models `implementation/src/algorithms/offline/uni_dimensional/optimal_graph_search.rs`.
-/

namespace Soco
namespace Uni

variable {C D : Type} [OutSuccess C] [OutFailure D]

/-- `f64::EPSILON`. -/
def epsilon : ℚ := 1 / 2 ^ 52

/-- The bound of `optimal_graph_search.rs:89`: `2^⌈log₂ m⌉`, for positive `m`. The logarithm is exact; the
overflow for large bounds is in `Model/Machine`. -/
def powBound (m : ℤ) : ℤ := 2 ^ Nat.clog 2 m.toNat

/-- The hitting cost of `optimal_graph_search.rs:98-106`. -/
def extendedHit (p : SSCO ℤ C D) (prevM : ℤ) (t : Int) (x : Config ℤ) : Res (Cost C D) := do
  let j ← idx x 0
  if j ≤ prevM then p.toProb.hitCost t x
  else do
    let c ← p.toProb.hitCost t [prevM]
    .ok ⟨ECost.mulQ (j : ℚ) (c.cost + ((epsilon : ℚ) : ECost)), c.output⟩

/-- `optimal_graph_search.rs:81-109` `make_pow_of_2`. -/
def makePowOf2 (p : SSCO ℤ C D) : Res (SSCO ℤ C D) := do
  let prevM ← idx p.bounds 0
  .ok
    { d := p.d
      tEnd := p.tEnd
      bounds := [powBound prevM]
      switchingCost := p.switchingCost
      hittingCost := CostFn.new 1 (SingleCostFn.certain (extendedHit p prevM)) }

/-- `optimal_graph_search.rs:111-115` `select_initial_rows`. -/
def initialRows (m : ℤ) : List ℤ := [0, 1, 2, 3, 4].map fun e : ℤ => e * m / 4

/-- `optimal_graph_search.rs:117-128` `select_next_rows`: panics if the schedule is too short. -/
def nextRows (m : ℤ) (xs : Schedule ℤ) (k : Nat) (t : Int) : Res (List ℤ) := do
  let x ← idx xs (t.toNat - 1)
  let j ← idx x 0
  .ok (([-2, -1, 0, 1, 2].map fun e : ℤ => j + e * 2 ^ k).filter
    fun j => decide (0 ≤ j) && decide (j ≤ m))

/-- `optimal_graph_search.rs:18-20` `Vertice`: slot and value. -/
abbrev Vertex := Int × ℤ

/-- `optimal_graph_search.rs:206-224` `build_cost`. -/
def buildCost (p : SSCO ℤ C D) (t : Int) (i j : ℤ) (alpha : ℚ) (inverted : Bool) : Res ECost := do
  let h ← p.toProb.hitCost t [j]
  let m ← p.toProb.movement [i] [j] inverted
  .ok (h.cost + ((alpha * m : ℚ) : ECost))

/-- The loop body of `optimal_graph_search.rs:194-202`. -/
def pickSource (p : SSCO ℤ C D) (paths : Paths Vertex) (t : Int) (dst : ℤ) (alpha : ℚ)
    (inverted : Bool) (picked : ℤ × ECost) (source : ℤ) : Res (ℤ × ECost) := do
  let prev ← paths.at (t - 1, source)
  let cost ← buildCost p t source dst alpha inverted
  .ok (if prev.cost + cost < picked.2 then (source, prev.cost + cost) else picked)

/-- `optimal_graph_search.rs:226-233` `update_paths`. -/
def updatePaths (paths : Paths Vertex) (t : Int) (i j : ℤ) (cost : ECost) : Res (Paths Vertex) := do
  let prev ← paths.at (t - 1, i)
  .ok (paths.insert (t, j) { xs := prev.xs.extend [j], cost := cost })

/-- `optimal_graph_search.rs:180-204` `find_shortest_subpath`. -/
def findShortestSubpath (p : SSCO ℤ C D) (t : Int) (src : List ℤ) (alpha : ℚ) (inverted : Bool)
    (paths : Paths Vertex) (dst : ℤ) : Res (Paths Vertex) := do
  let first ← idx src 0
  let picked ← src.foldlM (pickSource p paths t dst alpha inverted) (first, ⊤)
  updatePaths paths t picked.1 dst picked.2

/-- The loop body of `optimal_graph_search.rs:150-158`; the state is the paths and the previous rows. -/
def slot (p : SSCO ℤ C D) (rows : Int → Res (List ℤ)) (alpha : ℚ) (inverted : Bool)
    (s : Paths Vertex × List ℤ) (t : Int) : Res (Paths Vertex × List ℤ) := do
  let r ← rows t
  let paths ← r.foldlM (findShortestSubpath p t s.2 alpha inverted) s.1
  .ok (paths, r)

/-- The fold closure of `optimal_graph_search.rs:165-176`. -/
def pickEnd (tEnd : Int) (paths : Paths Vertex) (result : Path) (i : ℤ) : Res Path := do
  let path ← paths.at (tEnd, i)
  .ok (if path.cost < result.cost then path else result)

/-- `optimal_graph_search.rs:130-178` `find_schedule`. -/
def findSchedule (p : SSCO ℤ C D) (rows : Int → Res (List ℤ)) (alpha : ℚ) (inverted : Bool)
    (xStart : ℤ) : Res Path := do
  let init := (Paths.empty (V := Vertex)).insert (0, xStart) { xs := [], cost := 0 }
  let s ← (timeRange 1 p.tEnd).foldlM (slot p rows alpha inverted) (init, [xStart])
  s.2.foldlM (pickEnd p.tEnd s.1) { xs := [], cost := ⊤ }

/-- `k_init` of `optimal_graph_search.rs:59-63`. The logarithm is exact. -/
def kInit (m : ℤ) : Nat := if m > 2 then Nat.log 2 m.toNat - 2 else 0

/-- `optimal_graph_search.rs:55-57`. `is_pow_of_2` is used on positive bounds. -/
def roundBound (p : SSCO ℤ C D) : Res (SSCO ℤ C D) := do
  let m ← idx p.bounds 0
  if isPowOf2 m.toNat then .ok p else makePowOf2 p

/-- The loop of `optimal_graph_search.rs:65-75`. -/
def search (p : SSCO ℤ C D) (m : ℤ) (alpha : ℚ) (inverted : Bool) (xStart : ℤ) : Res Path := do
  let path ← findSchedule p (fun _ => .ok (initialRows m)) alpha inverted xStart
  (List.range (kInit m)).reverse.foldlM
    (fun path k => findSchedule p (nextRows m path.xs k) alpha inverted xStart) path

/-- `optimal_graph_search.rs:43-78` `optimal_graph_search`. -/
def optimalGraphSearch (p : SSCO ℤ C D) (xStart : ℤ) (o : OfflineOptions) : Res Path := do
  assertR o.l.isNone .unsupportedLConstrainedMovement
  assertR (decide (p.d = 1)) (.unsupportedProblemDimension p.d)
  let p ← roundBound p
  let m ← idx p.bounds 0
  search p m o.alpha o.inverted xStart

end Uni
end Soco
