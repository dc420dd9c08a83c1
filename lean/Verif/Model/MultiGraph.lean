import Verif.Model.Problem

/-!
# Graph search: shared data structures and the multi-dimensional algorithm

Models `implementation/src/algorithms/offline/graph_search.rs` and
`implementation/src/algorithms/offline/multi_dimensional/{graph_search,optimal_graph_search}.rs`.
-/

namespace Soco

/-- `offline/graph_search.rs:20-27` `Path`. -/
structure Path where
  xs : Schedule ℤ
  cost : ECost

/-- `offline/graph_search.rs:60-61` `Paths`: a hash map, kept as a partial function. -/
abbrev Paths (V : Type) := V → Option Path

/-- The empty hash map. -/
def Paths.empty {V : Type} : Paths V := fun _ => none

/-- `HashMap::insert`. -/
def Paths.insert {V : Type} [DecidableEq V] (m : Paths V) (v : V) (p : Path) : Paths V :=
  fun w => if w = v then some p else m w

/-- Indexing a hash map, `map[&v]`: panics if the key is missing. -/
def Paths.at {V : Type} (m : Paths V) (v : V) : Res Path :=
  match m v with
  | some p => .ok p
  | none => .error .panic

/-- `offline/graph_search.rs:34-44` `Cache`. -/
structure Cache (V : Type) where
  t : Int
  paths : Paths V

/-- `offline/graph_search.rs:8-13` `CachedPath`. -/
structure CachedPath (V : Type) where
  path : Path
  cache : Cache V

/-- `offline/graph_search.rs:46-58` `read_cache`. -/
def readCache {V : Type} (cache : Option (Cache V)) (dflt : Int × Paths V) : Int × Paths V :=
  match cache with
  | some c => (c.t + 1, c.paths)
  | none => dflt

/-- `offline/mod.rs:65-78` `OfflineOptions`. -/
structure OfflineOptions where
  inverted : Bool
  alpha : ℚ
  l : Option ℚ

namespace Multi

/-- `multi_dimensional/graph_search.rs:20-25` `InternalConfig`. -/
structure IConf where
  config : Config ℤ
  indices : List Nat
deriving DecidableEq

/-- `multi_dimensional/graph_search.rs:27-34` `Vertice`. -/
structure Vertex where
  config : IConf
  up : Bool
deriving DecidableEq

/-- `multi_dimensional/graph_search.rs:36-41` `Edge`. -/
structure Edge where
  src : Vertex
  cost : ECost

/-- `multi_dimensional/mod.rs` `Values`: the allowed values in ascending order, and the index of the
upper bound of each dimension. -/
structure Values where
  values : List ℤ
  boundIndices : List Nat

variable {C D : Type} [OutSuccess C] [OutFailure D]

/-- `multi_dimensional/graph_search.rs:196-213` `build_base_config`. -/
def buildBaseConfig (d : Nat) (bounds : List ℤ) (v : Values) (bottom : Bool) : IConf :=
  if bottom then { config := List.replicate d 0, indices := List.replicate d 0 }
  else { config := bounds, indices := v.boundIndices }

/-- The index of `multi_dimensional/graph_search.rs:230-245`: `None` at the end of the range. `next`
stands for `Direction::Next`. `k` is 0-based. -/
def nextIndex (next : Bool) (v : Values) (c : IConf) (k : Nat) : Res (Option Nat) :=
  if next then do
    let i ← idx c.indices k
    let b ← idx v.boundIndices k
    .ok (if i = b then none else some (i + 1))
  else do
    let i ← idx c.indices k
    .ok (if i = 0 then none else some (i - 1))

/-- `multi_dimensional/graph_search.rs:222-250` `build_config`; `k` is 0-based here (`k_ - 1`). -/
def buildConfig (next : Bool) (v : Values) (c : IConf) (k : Nat) : Res (Option IConf) := do
  match ← nextIndex next v c k with
  | none => .ok none
  | some i => do
    let j ← idx v.values i
    let _ ← idx c.config k
    .ok (some { config := c.config.set k j, indices := c.indices.set k i })

/-- The cost of `multi_dimensional/graph_search.rs:287-299`. -/
def edgeCost (p : SSCO ℤ C D) (alpha : ℚ) (inverted up : Bool) (c pc : IConf) (l : Nat) : Res ECost :=
  if (up && !inverted) || (!up && inverted) then do
    let b ← idx p.switchingCost l
    let j ← idx c.config l
    let pj ← idx pc.config l
    .ok ((alpha * b * ((scalarMovement j pj inverted : ℤ) : ℚ) : ℚ) : ECost)
  else .ok 0

/-- The closure of `multi_dimensional/graph_search.rs:269-302`; `l` is 0-based. -/
def predEdge (p : SSCO ℤ C D) (alpha : ℚ) (inverted up : Bool) (c : IConf) (v : Values) (l : Nat) :
    Res (Option Edge) := do
  match ← buildConfig (!up) v c l with
  | none => .ok none
  | some pc => do
    let cost ← edgeCost p alpha inverted up c pc l
    .ok (some { src := { config := pc, up := up }, cost := cost })

/-- The cost of `multi_dimensional/graph_search.rs:311-315`. -/
def inactionCost (p : SSCO ℤ C D) (t : Int) (up : Bool) (c : IConf) : Res ECost :=
  if up then .ok 0 else do
    let h ← p.toProb.hitCost t c.config
    .ok h.cost

/-- The optional last predecessor of `multi_dimensional/graph_search.rs:305-318`. -/
def inactionEdges (p : SSCO ℤ C D) (t : Int) (up : Bool) (c : IConf) : Res (List Edge) :=
  if t > 1 ∨ up = false then do
    let cost ← inactionCost p t up c
    .ok [{ src := { config := c, up := !up }, cost := cost }]
  else .ok []

/-- `multi_dimensional/graph_search.rs:253-328` `find_immediate_predecessors` (the parallel
`filter_map` keeps the order). -/
def findPredecessors (p : SSCO ℤ C D) (alpha : ℚ) (inverted : Bool) (t : Int) (up : Bool) (k : Nat)
    (c : IConf) (v : Values) : Res (List Edge) := do
  let es ← (List.range k).mapM (predEdge p alpha inverted up c v)
  let inaction ← inactionEdges p t up c
  let preds := es.filterMap id ++ inaction
  assertP ((t == 1 && up && c.config == List.replicate p.d.toNat 0) || !preds.isEmpty)
  .ok preds

/-- The total cost of `multi_dimensional/graph_search.rs:350-355`. -/
def pickedCost : Option (Edge × Path) → ECost
  | none => ⊤
  | some (e, path) => path.cost + e.cost

/-- The fold closure of `multi_dimensional/graph_search.rs:345-361`. -/
def pick (paths : Paths Vertex) (picked : Option (Edge × Path)) (e : Edge) :
    Res (Option (Edge × Path)) := do
  let path ← paths.at e.src
  .ok (if path.cost + e.cost < pickedCost picked then some (e, path) else picked)

/-- The reduce closure of `multi_dimensional/graph_search.rs:365-377`. -/
def reducePick (a b : Option (Edge × Path)) : Option (Edge × Path) :=
  match a with
  | some a =>
    match b with
    | some b => if a.1.cost + a.2.cost ≤ b.1.cost + b.2.cost then some a else some b
    | none => some a
  | none => b

/-- `multi_dimensional/graph_search.rs:330-379` `find_optimal_predecessor`, sequentially. See C22 for
the parallel fold and reduce. -/
def findOptimal (preds : List Edge) (paths : Paths Vertex) : Res (Option (Edge × Path)) := do
  assertP (preds.isEmpty || preds.any fun e => decide (e.cost ≠ ⊤))
  preds.foldlM (pick paths) none

/-- `multi_dimensional/graph_search.rs:381-404` `update_paths`. -/
def updatePaths (paths : Paths Vertex) (pred : Option (Edge × Path)) (dst : Vertex) : Paths Vertex :=
  paths.insert dst (match pred with
    | none => { xs := [], cost := 0 }
    | some (e, path) =>
      { xs := if e.src.up && !dst.up then path.xs.extend dst.config.config else path.xs
        cost := path.cost + e.cost })

/-- `multi_dimensional/graph_search.rs:157-194` `handle_config`; `k` is the number of leading
dimensions considered, as in the code. -/
def handleConfig (p : SSCO ℤ C D) (alpha : ℚ) (inverted : Bool) (t : Int) (k : Nat) (up : Bool)
    (v : Values) (paths : Paths Vertex) (c : IConf) : Res (Paths Vertex) := do
  let preds ← findPredecessors p alpha inverted t up k c v
  let opt ← findOptimal preds paths
  .ok (updatePaths paths opt { config := c, up := up })

/-- The `loop` of `multi_dimensional/graph_search.rs:120-138`, in dimension `k` (1-based). The fuel
exceeds the number of values; running out of it does not happen (`handleLoop_eq`). -/
def handleLoop (p : SSCO ℤ C D) (alpha : ℚ) (inverted : Bool) (t : Int) (k : Nat) (up : Bool)
    (v : Values) : Nat → IConf → Paths Vertex × List IConf → Res (Paths Vertex × List IConf)
  | 0, _, _ => .error .panic
  | n + 1, c, (paths, added) => do
    let paths ← handleConfig p alpha inverted t k up v paths c
    match ← buildConfig up v c (k - 1) with
    | none => .ok (paths, added)
    | some c' => handleLoop p alpha inverted t k up v n c' (paths, added ++ [c'])

/-- The first configuration of `multi_dimensional/graph_search.rs:112-119` and the additions to
`added_configs`. -/
def firstConfig (k : Nat) (up : Bool) (v : Values) (base : IConf) : Res (IConf × List IConf) :=
  if k = 1 then .ok (base, [])
  else do
    match ← buildConfig up v base (k - 1) with
    | none => .error .panic
    | some c => .ok (c, [c])

/-- The body of the loop `multi_dimensional/graph_search.rs:111-139`. -/
def handleBase (p : SSCO ℤ C D) (alpha : ℚ) (inverted : Bool) (t : Int) (k : Nat) (up : Bool)
    (v : Values) (s : Paths Vertex × List IConf) (base : IConf) :
    Res (Paths Vertex × List IConf) := do
  let f ← firstConfig k up v base
  handleLoop p alpha inverted t k up v (v.values.length + 1) f.1 (s.1, s.2 ++ f.2)

/-- The recursion of `multi_dimensional/graph_search.rs:81-153` `handle_layer` over the dimensions;
the first argument is the number of dimensions left (`d + 1 - k`). -/
def handleDims (p : SSCO ℤ C D) (alpha : ℚ) (inverted : Bool) (t : Int) (up : Bool) (v : Values) :
    Nat → Nat → List IConf → Paths Vertex → Res (Paths Vertex)
  | 0, _, _, paths => .ok paths
  | n + 1, k, configs, paths => do
    let s ← configs.foldlM (handleBase p alpha inverted t k up v) (paths, [])
    handleDims p alpha inverted t up v n (k + 1) (configs ++ s.2) s.1

/-- `multi_dimensional/graph_search.rs:81-153` `handle_layer`. -/
def handleLayer (p : SSCO ℤ C D) (alpha : ℚ) (inverted : Bool) (t : Int) (up : Bool) (v : Values)
    (paths : Paths Vertex) : Res (Paths Vertex) :=
  handleDims p alpha inverted t up v p.d.toNat 1 [buildBaseConfig p.d.toNat p.bounds v up] paths

/-- One iteration of `multi_dimensional/graph_search.rs:60-63`. -/
def handleSlot (p : SSCO ℤ C D) (alpha : ℚ) (inverted : Bool) (v : Values) (paths : Paths Vertex)
    (t : Int) : Res (Paths Vertex) := do
  let paths ← handleLayer p alpha inverted t true v paths
  handleLayer p alpha inverted t false v paths

/-- `multi_dimensional/graph_search.rs:44-73` `graph_search`. -/
def graphSearch (p : SSCO ℤ C D) (v : Values) (cache : Option (Cache Vertex)) (o : OfflineOptions) :
    Res (CachedPath Vertex) := do
  assertR o.l.isNone .unsupportedLConstrainedMovement
  let init := readCache cache (1, Paths.empty)
  let paths ← (timeRange init.1 p.tEnd).foldlM (handleSlot p o.alpha o.inverted v) init.2
  let path ← paths.at { config := buildBaseConfig p.d.toNat p.bounds v true, up := false }
  .ok { path := path, cache := { t := p.tEnd, paths := paths } }

/-- `multi_dimensional/optimal_graph_search.rs:36-40`: all integers up to the largest bound (`unwrap`
panics without dimensions). Bounds are non-negative (`m as usize`). -/
def allValues (bounds : List ℤ) : Res Values :=
  match bounds.max? with
  | none => .error .panic
  | some m => .ok
      { values := (List.range (m + 1).toNat).map fun i : Nat => (i : ℤ)
        boundIndices := bounds.map Int.toNat }

/-- `multi_dimensional/optimal_graph_search.rs:27-43` `optimal_graph_search`. -/
def optimalGraphSearch (p : SSCO ℤ C D) (cache : Option (Cache Vertex)) (o : OfflineOptions) :
    Res (CachedPath Vertex) := do
  let v ← allValues p.bounds
  graphSearch p v cache o

end Multi

end Soco
