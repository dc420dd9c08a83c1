import Mathlib.Algebra.Order.Ring.Defs

/-! # Specification: norms -/

namespace Soco.Spec

/-- `N` is a seminorm on vectors of length `n`; `v` is the absolute value of scalars. -/
structure IsSeminorm {A R : Type} [Ring A] [Ring R] [LinearOrder R] (v : A → R) (n : Nat) (N : List A → R) : Prop where
  nonneg : ∀ x, x.length = n → 0 ≤ N x
  zero : N (List.replicate n 0) = 0
  symm : ∀ x, x.length = n → N (x.map fun a => -a) = N x
  homogeneous : ∀ c x, x.length = n → N (x.map fun a => c * a) = v c * N x
  triangle : ∀ x y, x.length = n → y.length = n → N (List.zipWith (· + ·) x y) ≤ N x + N y

/-- `N` is a norm on vectors of length `n`. -/
structure IsNorm {A R : Type} [Ring A] [Ring R] [LinearOrder R] (v : A → R) (n : Nat) (N : List A → R) : Prop
    extends IsSeminorm v n N where
  definite : ∀ x, x.length = n → N x = 0 → x = List.replicate n 0

end Soco.Spec
