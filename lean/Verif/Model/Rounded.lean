import Verif.Model.MultiGraph

/-!
# Multi-dimensional graph search with rounded arithmetic

The same functions as in `Model/MultiGraph`, but sums and products of costs are rounded as by `f64`: the result of every addition
and multiplication is the exact result, rounded by `fl`. Additions with infinity are infinite. Simplification: a finite result is never
rounded to infinity (no overflow).

Models `implementation/src/algorithms/offline/multi_dimensional/{graph_search,optimal_graph_search}.rs`.
-/

namespace Soco

/-- `a + b` of `f64` numbers which are finite or `+∞`. -/
def addFl (fl : ℚ → ℚ) (a b : ECost) : ECost := (a + b).map fl

namespace Multi.Rounded

variable {C D : Type} [OutSuccess C] [OutFailure D]

/-- The cost of `multi_dimensional/graph_search.rs:287-299`: `alpha * switching_cost * movement`, from left to right. -/
def edgeCost (fl : ℚ → ℚ) (p : SSCO ℤ C D) (alpha : ℚ) (inverted up : Bool) (c pc : IConf) (l : Nat) : Res ECost :=
  if (up && !inverted) || (!up && inverted) then do
    let b ← idx p.switchingCost l
    let j ← idx c.config l
    let pj ← idx pc.config l
    .ok ((fl (fl (alpha * b) * ((scalarMovement j pj inverted : ℤ) : ℚ)) : ℚ) : ECost)
  else .ok 0

/-- The closure of `multi_dimensional/graph_search.rs:269-302`; `l` is 0-based. -/
def predEdge (fl : ℚ → ℚ) (p : SSCO ℤ C D) (alpha : ℚ) (inverted up : Bool) (c : IConf) (v : Values) (l : Nat) :
    Res (Option Edge) := do
  match ← buildConfig (!up) v c l with
  | none => .ok none
  | some pc => do
    let cost ← edgeCost fl p alpha inverted up c pc l
    .ok (some { src := { config := pc, up := up }, cost := cost })

/-- `multi_dimensional/graph_search.rs:253-328` `find_immediate_predecessors`. -/
def findPredecessors (fl : ℚ → ℚ) (p : SSCO ℤ C D) (alpha : ℚ) (inverted : Bool) (t : Int) (up : Bool) (k : Nat)
    (c : IConf) (v : Values) : Res (List Edge) := do
  let es ← (List.range k).mapM (predEdge fl p alpha inverted up c v)
  let inaction ← inactionEdges p t up c
  let preds := es.filterMap id ++ inaction
  assertP ((t == 1 && up && c.config == List.replicate p.d.toNat 0) || !preds.isEmpty)
  .ok preds

/-- The total cost of `multi_dimensional/graph_search.rs:350-355`. -/
def pickedCost (fl : ℚ → ℚ) : Option (Edge × Path) → ECost
  | none => ⊤
  | some (e, path) => addFl fl path.cost e.cost

/-- The fold closure of `multi_dimensional/graph_search.rs:345-361`. -/
def pick (fl : ℚ → ℚ) (paths : Paths Vertex) (picked : Option (Edge × Path)) (e : Edge) :
    Res (Option (Edge × Path)) := do
  let path ← paths.at e.src
  .ok (if addFl fl path.cost e.cost < pickedCost fl picked then some (e, path) else picked)

/-- `multi_dimensional/graph_search.rs:330-379` `find_optimal_predecessor`, sequentially. -/
def findOptimal (fl : ℚ → ℚ) (preds : List Edge) (paths : Paths Vertex) : Res (Option (Edge × Path)) := do
  assertP (preds.isEmpty || preds.any fun e => decide (e.cost ≠ ⊤))
  preds.foldlM (pick fl paths) none

/-- `multi_dimensional/graph_search.rs:381-404` `update_paths`. -/
def updatePaths (fl : ℚ → ℚ) (paths : Paths Vertex) (pred : Option (Edge × Path)) (dst : Vertex) : Paths Vertex :=
  paths.insert dst (match pred with
    | none => { xs := [], cost := 0 }
    | some (e, path) =>
      { xs := if e.src.up && !dst.up then path.xs.extend dst.config.config else path.xs
        cost := addFl fl path.cost e.cost })

/-- `multi_dimensional/graph_search.rs:157-194` `handle_config`. -/
def handleConfig (fl : ℚ → ℚ) (p : SSCO ℤ C D) (alpha : ℚ) (inverted : Bool) (t : Int) (k : Nat) (up : Bool)
    (v : Values) (paths : Paths Vertex) (c : IConf) : Res (Paths Vertex) := do
  let preds ← findPredecessors fl p alpha inverted t up k c v
  let opt ← findOptimal fl preds paths
  .ok (updatePaths fl paths opt { config := c, up := up })

/-- The `loop` of `multi_dimensional/graph_search.rs:120-138`, in dimension `k` (1-based). The fuel
exceeds the number of values; running out of it does not happen (`handleLoop_eq`). -/
def handleLoop (fl : ℚ → ℚ) (p : SSCO ℤ C D) (alpha : ℚ) (inverted : Bool) (t : Int) (k : Nat) (up : Bool)
    (v : Values) : Nat → IConf → Paths Vertex × List IConf → Res (Paths Vertex × List IConf)
  | 0, _, _ => .error .panic
  | n + 1, c, (paths, added) => do
    let paths ← handleConfig fl p alpha inverted t k up v paths c
    match ← buildConfig up v c (k - 1) with
    | none => .ok (paths, added)
    | some c' => handleLoop fl p alpha inverted t k up v n c' (paths, added ++ [c'])

/-- The body of the loop `multi_dimensional/graph_search.rs:111-139`. -/
def handleBase (fl : ℚ → ℚ) (p : SSCO ℤ C D) (alpha : ℚ) (inverted : Bool) (t : Int) (k : Nat) (up : Bool)
    (v : Values) (s : Paths Vertex × List IConf) (base : IConf) :
    Res (Paths Vertex × List IConf) := do
  let f ← firstConfig k up v base
  handleLoop fl p alpha inverted t k up v (v.values.length + 1) f.1 (s.1, s.2 ++ f.2)

/-- The recursion of `multi_dimensional/graph_search.rs:81-153` `handle_layer` over the dimensions;
the first argument is the number of dimensions left (`d + 1 - k`). -/
def handleDims (fl : ℚ → ℚ) (p : SSCO ℤ C D) (alpha : ℚ) (inverted : Bool) (t : Int) (up : Bool) (v : Values) :
    Nat → Nat → List IConf → Paths Vertex → Res (Paths Vertex)
  | 0, _, _, paths => .ok paths
  | n + 1, k, configs, paths => do
    let s ← configs.foldlM (handleBase fl p alpha inverted t k up v) (paths, [])
    handleDims fl p alpha inverted t up v n (k + 1) (configs ++ s.2) s.1

/-- `multi_dimensional/graph_search.rs:81-153` `handle_layer`. -/
def handleLayer (fl : ℚ → ℚ) (p : SSCO ℤ C D) (alpha : ℚ) (inverted : Bool) (t : Int) (up : Bool) (v : Values)
    (paths : Paths Vertex) : Res (Paths Vertex) :=
  handleDims fl p alpha inverted t up v p.d.toNat 1 [buildBaseConfig p.d.toNat p.bounds v up] paths

/-- One iteration of `multi_dimensional/graph_search.rs:60-63`. -/
def handleSlot (fl : ℚ → ℚ) (p : SSCO ℤ C D) (alpha : ℚ) (inverted : Bool) (v : Values) (paths : Paths Vertex)
    (t : Int) : Res (Paths Vertex) := do
  let paths ← handleLayer fl p alpha inverted t true v paths
  handleLayer fl p alpha inverted t false v paths

/-- `multi_dimensional/graph_search.rs:44-73` `graph_search`. -/
def graphSearch (fl : ℚ → ℚ) (p : SSCO ℤ C D) (v : Values) (cache : Option (Cache Vertex)) (o : OfflineOptions) :
    Res (CachedPath Vertex) := do
  assertR o.l.isNone .unsupportedLConstrainedMovement
  let init := readCache cache (1, Paths.empty)
  let paths ← (timeRange init.1 p.tEnd).foldlM (handleSlot fl p o.alpha o.inverted v) init.2
  let path ← paths.at { config := buildBaseConfig p.d.toNat p.bounds v true, up := false }
  .ok { path := path, cache := { t := p.tEnd, paths := paths } }

/-- `multi_dimensional/optimal_graph_search.rs:27-43` `optimal_graph_search`. -/
def optimalGraphSearch (fl : ℚ → ℚ) (p : SSCO ℤ C D) (cache : Option (Cache Vertex)) (o : OfflineOptions) :
    Res (CachedPath Vertex) := do
  let v ← allValues p.bounds
  graphSearch fl p v cache o

end Multi.Rounded

end Soco
