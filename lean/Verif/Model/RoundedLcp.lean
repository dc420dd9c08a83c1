import Verif.Model.Lcp
import Verif.Model.RoundedUni

/-!
# Lazy capacity provisioning with rounded arithmetic

The bounds are found by the graph search with rounded arithmetic, the rest of the algorithm only compares and subtracts numbers of
servers (`i32`), which needs no rounding.

Models `implementation/src/algorithms/capacity_provisioning.rs`, for integral problems.
-/

namespace Soco
namespace Lcp.Rounded

variable {C D : Type} [OutSuccess C] [OutFailure D]

/-- `capacity_provisioning.rs:202-228` `find_bound` of integral problems. -/
def findBoundInt (fl : ℚ → ℚ) (p : SSCO ℤ C D) (alpha : ℚ) (inverted : Bool) (w tEnd tStart : Int) (xStart : ℤ) : Res ℤ := do
  assertP (decide (tEnd ≤ p.tEnd))
  assertR (decide (p.d = 1)) (.unsupportedProblemDimension p.d)
  if tEnd ≤ 0 then .ok 0
  else do
    let q := p.reset tStart
    let path ← Uni.Rounded.optimalGraphSearch fl { q with tEnd := q.tEnd + w } xStart
      { inverted := inverted, alpha := alpha, l := none }
    assertP (decide (1 ≤ tEnd - tStart))
    let x ← idx path.xs ((tEnd - tStart).toNat - 1)
    idx x 0

/-- `capacity_provisioning.rs:168-195` `Bounded<i32>`. -/
def boundedInt (fl : ℚ → ℚ) (p : SSCO ℤ C D) : Bounded ℤ where
  d := p.d
  tEnd := p.tEnd
  find := findBoundInt fl p

end Lcp.Rounded
end Soco
