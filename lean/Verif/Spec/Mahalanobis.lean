import Mathlib.Data.Matrix.Mul
import Mathlib.Algebra.Order.Field.Rat

/-! # Specification: squared distances with respect to a covariance matrix -/

namespace Soco.Spec

/-- The entries of a list as a vector. -/
def vec (n : Nat) (x : List ℚ) : Fin n → ℚ := fun i => x.getD i 0

/-- `q` is symmetric and positive definite. -/
structure Covariance {n : Nat} (q : Matrix (Fin n) (Fin n) ℚ) : Prop where
  symm : ∀ i j, q i j = q j i
  pos : ∀ v : Fin n → ℚ, v ≠ 0 → 0 < ∑ i, ∑ j, v i * q i j * v j

/-- `s` is the squared distance `d · w` of `x` and `y` with respect to `q`, where `d` is the difference of `x` and `y`, and `w` solves
`q w = d`. -/
def SquaredDistance {n : Nat} (q : Matrix (Fin n) (Fin n) ℚ) (x y : List ℚ) (s : ℚ) : Prop :=
  ∃ w : Fin n → ℚ, (∀ i, ∑ j, q i j * w j = vec n x i - vec n y i) ∧ s = ∑ i, (vec n x i - vec n y i) * w i

end Soco.Spec
