import Verif.Model.DualNorm
import Verif.Spec.Optimiser
import Verif.Spec.Norm
import Mathlib.Order.Bounds.Basic

/-! # Specification: exact maximisation without bounds -/

namespace Soco.Spec
open Soco

/-- The sum of the products of the entries. -/
def inner (z x : List ℚ) : ℚ := (List.zipWith (· * ·) z x).sum

/-- `z` has `d` entries, which are multiples of the numeric precision, and meets the constraints. -/
def Candidate (d : Nat) (cs : List (List ℚ → Res Num.Slack)) (z : List ℚ) : Prop :=
  z.length = d ∧ (∀ j ∈ z, OnGrid j) ∧ Meets cs z

/-- The maximiser is exact: if there is a best candidate, then it ends with a best candidate. -/
structure ExactMax (M : Num.Maximizer) : Prop where
  shape : ∀ d f init cs, (M d f init cs).x.length = d
  probes : ∀ d f init cs, ∀ q ∈ (M d f init cs).probes, q.length = d
  ends : ∀ d f init cs, (M d f init cs).status ≠ .failed
  best : ∀ d (f : List ℚ → Res ℚ) init cs (g : List ℚ → ℚ), (∀ z, z.length = d → f z = .ok (g z)) →
    (∃ y, Candidate d cs y ∧ ∀ z, Candidate d cs z → g z ≤ g y) →
    Candidate d cs (Num.applyPrecisionVec (M d f init cs).x) ∧
      ∀ z, Candidate d cs z → g z ≤ g (Num.applyPrecisionVec (M d f init cs).x)

/-- The largest inner product of `x` with a vector of multiples of the numeric precision whose norm is at most 1. -/
def GridDual (n : Nat) (ν : List ℚ → ℚ) (x : List ℚ) (v : ℚ) : Prop :=
  IsGreatest { q | ∃ z : List ℚ, z.length = n ∧ (∀ j ∈ z, OnGrid j) ∧ ν z ≤ 1 ∧ q = inner z x } v

end Soco.Spec
