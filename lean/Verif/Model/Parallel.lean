import Verif.Model.Cost

/-!
# Parallel sums

Models rayon's `sum` over the costs of slots, as used by `implementation/src/problem.rs:479-498`.
-/

namespace Soco
variable {C D : Type} [OutSuccess C]

/-- How the parallel sum may split a list: into chunks which are summed sequentially, recursively. -/
inductive Split (α : Type) where
  | chunk (xs : List α)
  | node (l r : Split α)

/-- The list that was split. -/
def Split.toList {α : Type} : Split α → List α
  | .chunk xs => xs
  | .node l r => l.toList ++ r.toList

/-- The result of a parallel sum with the given splitting: a chunk is added to the (default) sum of
no elements, two parts are summed. Models rayon's `sum` over `cost.rs:68-83` (used by
`problem.rs:479-498`). -/
def Split.sum : Split (Cost C D) → Cost C D
  | .chunk xs => Cost.sum [Cost.dflt, Cost.sum xs]
  | .node l r => Cost.sum [l.sum, r.sum]

/-- No chunk is empty: rayon splits a range of `n` items at `n / 2`, and only if both halves have an item. -/
def Split.Proper {α : Type} : Split α → Prop
  | .chunk xs => xs ≠ []
  | .node l r => l.Proper ∧ r.Proper

end Soco
