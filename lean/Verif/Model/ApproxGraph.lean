import Verif.Model.MultiGraph
import Mathlib.Data.Rat.Floor
import Mathlib.Data.List.Sort

/-!
# Approximate graph search

Models `implementation/src/algorithms/offline/multi_dimensional/approx_graph_search.rs`.
-/

namespace Soco
namespace Multi

variable {C D : Type} [OutSuccess C] [OutFailure D]

/-- `approx_graph_search.rs:88-90` (also 96-98, 103-105): push unless present. -/
def pushNew (vs : List ℤ) (x : ℤ) : List ℤ := if x ∈ vs then vs else vs ++ [x]

/-- The `loop` of `approx_graph_search.rs:82-101`. The number of iterations is not bounded by the code:
the first argument is fuel, and `none` means that it was not enough. Powers are exact. -/
def powerLoop (gamma : ℚ) (maxBound : ℤ) : Nat → Nat → List ℤ → Option (List ℤ)
  | 0, _, _ => none
  | n + 1, i, vs =>
    let l := ⌊gamma ^ i⌋
    if l > maxBound then some vs
    else
      let vs := pushNew vs l
      let u := ⌈gamma ^ i⌉
      if u > maxBound then some vs
      else powerLoop gamma maxBound n (i + 1) (pushNew vs u)

/-- `approx_graph_search.rs:78-110` `build_values`: `none` if the fuel is not enough, an error value if
the code panics (no dimensions). -/
def buildValues (fuel : Nat) (bounds : List ℤ) (gamma : ℚ) : Option (Res (List ℤ)) :=
  match bounds.max? with
  | none => some (.error .panic)
  | some m =>
    match powerLoop gamma m fuel 1 [0] with
    | none => none
    | some vs => some (.ok ((bounds.foldl pushNew vs).insertionSort (· ≤ ·)))

/-- The index of `approx_graph_search.rs:70`: `unwrap` panics if the value is missing. -/
def positionOf (values : List ℤ) (m : ℤ) : Res Nat :=
  match values.findIdx? (fun j => j == m) with
  | some i => .ok i
  | none => .error .panic

/-- `approx_graph_search.rs:62-76` `cache_bound_indices`. -/
def cacheBoundIndices (fuel : Nat) (bounds : List ℤ) (gamma : ℚ) : Option (Res Values) :=
  (buildValues fuel bounds gamma).map fun r => do
    let values ← r
    let bi ← bounds.mapM (positionOf values)
    .ok { values := values, boundIndices := bi }

/-- `approx_graph_search.rs:47-59` `approx_graph_search`. -/
def approxGraphSearch (fuel : Nat) (p : SSCO ℤ C D) (cache : Option (Cache Vertex)) (gamma : ℚ)
    (o : OfflineOptions) : Option (Res (CachedPath Vertex)) :=
  (cacheBoundIndices fuel p.bounds gamma).map fun r => do
    let v ← r
    graphSearch p v cache o

end Multi
end Soco
