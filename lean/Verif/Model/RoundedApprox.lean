import Verif.Model.Rounded
import Verif.Model.ApproxGraph

/-!
# Approximate graph search with rounded arithmetic

Models `implementation/src/algorithms/offline/multi_dimensional/approx_graph_search.rs` with rounded costs as in `Model/Rounded`. The
powers `gamma.powi(i)` of the code are an oracle `pw i`, because the accuracy of `powi` is not specified.
-/

namespace Soco
namespace Multi.Rounded

variable {C D : Type} [OutSuccess C] [OutFailure D]

/-- The `loop` of `approx_graph_search.rs:82-101`, with fuel as in `Multi.powerLoop`. -/
def powerLoop (pw : Nat → ℚ) (maxBound : ℤ) : Nat → Nat → List ℤ → Option (List ℤ)
  | 0, _, _ => none
  | n + 1, i, vs =>
    let l := ⌊pw i⌋
    if l > maxBound then some vs
    else
      let vs := pushNew vs l
      let u := ⌈pw i⌉
      if u > maxBound then some vs
      else powerLoop pw maxBound n (i + 1) (pushNew vs u)

/-- `approx_graph_search.rs:78-110` `build_values`. -/
def buildValues (fuel : Nat) (bounds : List ℤ) (pw : Nat → ℚ) : Option (Res (List ℤ)) :=
  match bounds.max? with
  | none => some (.error .panic)
  | some m =>
    match powerLoop pw m fuel 1 [0] with
    | none => none
    | some vs => some (.ok ((bounds.foldl pushNew vs).insertionSort (· ≤ ·)))

/-- `approx_graph_search.rs:62-76` `cache_bound_indices`. -/
def cacheBoundIndices (fuel : Nat) (bounds : List ℤ) (pw : Nat → ℚ) : Option (Res Values) :=
  (buildValues fuel bounds pw).map fun r => do
    let values ← r
    let bi ← bounds.mapM (positionOf values)
    .ok { values := values, boundIndices := bi }

/-- `approx_graph_search.rs:47-59` `approx_graph_search`. -/
def approxGraphSearch (fl : ℚ → ℚ) (pw : Nat → ℚ) (fuel : Nat) (p : SSCO ℤ C D) (cache : Option (Cache Vertex))
    (o : OfflineOptions) : Option (Res (CachedPath Vertex)) :=
  (cacheBoundIndices fuel p.bounds pw).map fun r => do
    let v ← r
    graphSearch fl p v cache o

end Multi.Rounded
end Soco
