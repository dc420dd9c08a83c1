import Verif.Model.UniGraph
import Verif.Model.RoundedCost

/-!
# Uni-dimensional graph search with rounded arithmetic

The same functions as in `Model/UniGraph`, but the result of every sum and product of costs is rounded by `fl`. Simplification: a
finite result is never rounded to infinity (no overflow).

Models `implementation/src/algorithms/offline/uni_dimensional/optimal_graph_search.rs`.
-/

namespace Soco
namespace Uni.Rounded

variable {C D : Type} [OutSuccess C] [OutFailure D]

/-- `a * c` of `f64` numbers, where `c` is finite or `+∞`. -/
def mulFl (fl : ℚ → ℚ) (a : ℚ) (c : ECost) : ECost := (ECost.mulQ a c).map fl

/-- The hitting cost of `optimal_graph_search.rs:98-106`. -/
def extendedHit (fl : ℚ → ℚ) (p : SSCO ℤ C D) (prevM : ℤ) (t : Int) (x : Config ℤ) : Res (Cost C D) := do
  let j ← idx x 0
  if j ≤ prevM then p.toProb.hitCost t x
  else do
    let c ← p.toProb.hitCost t [prevM]
    .ok ⟨mulFl fl (j : ℚ) (addFl fl c.cost ((epsilon : ℚ) : ECost)), c.output⟩

/-- `optimal_graph_search.rs:81-109` `make_pow_of_2`. -/
def makePowOf2 (fl : ℚ → ℚ) (p : SSCO ℤ C D) : Res (SSCO ℤ C D) := do
  let prevM ← idx p.bounds 0
  .ok
    { d := p.d
      tEnd := p.tEnd
      bounds := [powBound prevM]
      switchingCost := p.switchingCost
      hittingCost := CostFn.new 1 (SingleCostFn.certain (extendedHit fl p prevM)) }

/-- `optimal_graph_search.rs:206-224` `build_cost`. -/
def buildCost (fl : ℚ → ℚ) (p : SSCO ℤ C D) (t : Int) (i j : ℤ) (alpha : ℚ) (inverted : Bool) : Res ECost := do
  let h ← p.toProb.hitCost t [j]
  let m ← Soco.Rounded.scaledMovement fl p.switchingCost [j] [i] inverted
  .ok (addFl fl h.cost ((fl (alpha * m) : ℚ) : ECost))

/-- The loop body of `optimal_graph_search.rs:194-202`. -/
def pickSource (fl : ℚ → ℚ) (p : SSCO ℤ C D) (paths : Paths Vertex) (t : Int) (dst : ℤ) (alpha : ℚ)
    (inverted : Bool) (picked : ℤ × ECost) (source : ℤ) : Res (ℤ × ECost) := do
  let prev ← paths.at (t - 1, source)
  let cost ← buildCost fl p t source dst alpha inverted
  .ok (if addFl fl prev.cost cost < picked.2 then (source, addFl fl prev.cost cost) else picked)

/-- `optimal_graph_search.rs:180-204` `find_shortest_subpath`. -/
def findShortestSubpath (fl : ℚ → ℚ) (p : SSCO ℤ C D) (t : Int) (src : List ℤ) (alpha : ℚ) (inverted : Bool)
    (paths : Paths Vertex) (dst : ℤ) : Res (Paths Vertex) := do
  let first ← idx src 0
  let picked ← src.foldlM (pickSource fl p paths t dst alpha inverted) (first, ⊤)
  updatePaths paths t picked.1 dst picked.2

/-- The loop body of `optimal_graph_search.rs:150-158`; the state is the paths and the previous rows. -/
def slot (fl : ℚ → ℚ) (p : SSCO ℤ C D) (rows : Int → Res (List ℤ)) (alpha : ℚ) (inverted : Bool)
    (s : Paths Vertex × List ℤ) (t : Int) : Res (Paths Vertex × List ℤ) := do
  let r ← rows t
  let paths ← r.foldlM (findShortestSubpath fl p t s.2 alpha inverted) s.1
  .ok (paths, r)

/-- `optimal_graph_search.rs:130-178` `find_schedule`. -/
def findSchedule (fl : ℚ → ℚ) (p : SSCO ℤ C D) (rows : Int → Res (List ℤ)) (alpha : ℚ) (inverted : Bool)
    (xStart : ℤ) : Res Path := do
  let init := (Paths.empty (V := Vertex)).insert (0, xStart) { xs := [], cost := 0 }
  let s ← (timeRange 1 p.tEnd).foldlM (slot fl p rows alpha inverted) (init, [xStart])
  s.2.foldlM (pickEnd p.tEnd s.1) { xs := [], cost := ⊤ }

/-- `optimal_graph_search.rs:55-57`. -/
def roundBound (fl : ℚ → ℚ) (p : SSCO ℤ C D) : Res (SSCO ℤ C D) := do
  let m ← idx p.bounds 0
  if isPowOf2 m.toNat then .ok p else makePowOf2 fl p

/-- The loop of `optimal_graph_search.rs:65-75`. -/
def search (fl : ℚ → ℚ) (p : SSCO ℤ C D) (m : ℤ) (alpha : ℚ) (inverted : Bool) (xStart : ℤ) : Res Path := do
  let path ← findSchedule fl p (fun _ => .ok (initialRows m)) alpha inverted xStart
  (List.range (kInit m)).reverse.foldlM
    (fun path k => findSchedule fl p (nextRows m path.xs k) alpha inverted xStart) path

/-- `optimal_graph_search.rs:43-78` `optimal_graph_search`. -/
def optimalGraphSearch (fl : ℚ → ℚ) (p : SSCO ℤ C D) (xStart : ℤ) (o : OfflineOptions) : Res Path := do
  assertR o.l.isNone .unsupportedLConstrainedMovement
  assertR (decide (p.d = 1)) (.unsupportedProblemDimension p.d)
  let p ← roundBound fl p
  let m ← idx p.bounds 0
  search fl p m o.alpha o.inverted xStart

end Uni.Rounded
end Soco
