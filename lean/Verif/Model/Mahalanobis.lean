import Verif.Model.Basic
import Mathlib.LinearAlgebra.Matrix.NonsingularInverse
import Mathlib.Data.Matrix.Mul

/-!
# Mahalanobis distance

Models `implementation/src/distance.rs:63-80` `mahalanobis`. Floating point numbers are rational numbers, matrices are square
(`try_inverse` of the `nalgebra` crate panics on others) and their inverse is exact.
-/

namespace Soco
namespace Distance

/-- `DVector::from_vec`, at the dimension of the matrix. -/
def toVec (n : Nat) (d : List ℚ) : Fin n → ℚ := fun i => d.getD i 0

/-- `distance.rs:63-80` `mahalanobis`. Fails on singular matrices; the distance panics (a dimension mismatch in `nalgebra`) if the
difference to the mean does not have the dimension of the matrix. -/
noncomputable def mahalanobis {n : Nat} (q : Matrix (Fin n) (Fin n) ℚ) (mean : Config ℚ) : Res (Config ℚ → Res ℚ) :=
  if q.det = 0 then .error (.fail .matrixMustBeInvertible)
  else .ok fun x =>
    let d := Config.sub x mean
    if d.length = n then .ok (toVec n d ⬝ᵥ q⁻¹.mulVec (toVec n d)) else .error .panic

end Distance
end Soco
