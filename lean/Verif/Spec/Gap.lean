import Mathlib.Data.Rat.Lemmas

/-! # Specification: servers which stay active in short gaps -/

namespace Soco.Spec

/-- In slot `k` (counted from zero) at least `v` servers are needed; or slot `k` lies between two slots in which at least
`v` servers are needed, and the number of slots between them satisfies `short`. -/
def Kept (short : ℕ → Prop) (need : List ℤ) (v : ℤ) (k : ℕ) : Prop :=
  v ≤ need.getD k 0 ∨ ∃ i j, i < k ∧ k < j ∧ j < need.length ∧ v ≤ need.getD i 0 ∧ v ≤ need.getD j 0 ∧ short (j - i - 1)

end Soco.Spec
