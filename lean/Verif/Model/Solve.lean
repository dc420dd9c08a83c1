import Verif.Model.ApproxGraph
import Verif.Model.Convert
import Verif.Model.BalancedBudgeting
import Verif.Model.Lcp
import Verif.Model.Loads
import Verif.Model.OfflineFrac
import Verif.Model.Static
import Verif.Model.UniGraph
import Verif.Model.Verifiers

/-!
# Solving an offline problem

Models `implementation/src/streaming/offline.rs` and the solvers for load problems in
`implementation/src/bindings/data_center/offline.rs`.
-/

namespace Soco
namespace Offline

/-- `streaming/offline.rs:24-59` `solve`: generates the instance, verifies it, runs the algorithm, and evaluates the
(plain) objective of the schedule found. `generated` is the result of `model.to(input)`, `xsOf` is `OfflineResult::xs`.
Simplification: the measured running time is left out, and so are logging and the panic hook. -/
def solve {P R T C D : Type} [Value T] [OutSuccess C] [OutFailure D] (generated : Res P) (verify : P → Res Unit)
    (toProb : P → Prob T C D) (alg : P → OfflineOptions → Res R) (xsOf : R → Schedule T) (o : OfflineOptions) :
    Res (Schedule T × Cost C D) := do
  let p ← generated
  verify p
  let r ← alg p o
  let c ← (toProb p).objective (xsOf r)
  .ok (xsOf r, c)

/-- `bindings/data_center/offline.rs:391-397` `optimal_graph_search_sblo`. The options are the cache. -/
def optimalSBLO (S : Num.Solver) (cache : Option (Cache Multi.Vertex)) (p : SBLO ℤ) (o : OfflineOptions) :
    Res (CachedPath Multi.Vertex) := Multi.optimalGraphSearch (p.intoSSCO S) cache o

/-- `bindings/data_center/offline.rs:399-405` `approx_graph_search_sblo`. -/
def approxSBLO (S : Num.Solver) (fuel : Nat) (cache : Option (Cache Multi.Vertex)) (gamma : ℚ) (p : SBLO ℤ)
    (o : OfflineOptions) : Option (Res (CachedPath Multi.Vertex)) :=
  Multi.approxGraphSearch fuel (p.intoSSCO S) cache gamma o

/-- `bindings/data_center/offline.rs:407-413` `static_integral_sblo`. -/
def staticSBLO (S : Num.Solver) (p : SBLO ℤ) (o : OfflineOptions) : Res (Schedule ℤ) :=
  Static.staticIntegral (p.intoSSCO S).intoSCO o

/-- `bindings/data_center/offline.rs:367-373` `optimal_graph_search_slo`. -/
def optimalSLO (S : Num.Solver) (cache : Option (Cache Multi.Vertex)) (p : SLO ℤ) (o : OfflineOptions) :
    Res (CachedPath Multi.Vertex) := optimalSBLO S cache p.intoSBLO o

/-- `bindings/data_center/offline.rs:375-381` `approx_graph_search_slo`. -/
def approxSLO (S : Num.Solver) (fuel : Nat) (cache : Option (Cache Multi.Vertex)) (gamma : ℚ) (p : SLO ℤ)
    (o : OfflineOptions) : Option (Res (CachedPath Multi.Vertex)) := approxSBLO S fuel cache gamma p.intoSBLO o

/-- `bindings/data_center/offline.rs:383-389` `static_integral_slo`. -/
def staticSLO (S : Num.Solver) (p : SLO ℤ) (o : OfflineOptions) : Res (Schedule ℤ) := staticSBLO S p.intoSBLO o

/-- `bindings/data_center/offline.rs:86-106` `optimal_graph_search_py`, on a generated instance, before `unwrap`. -/
def solveOptimal {C D : Type} [OutSuccess C] [OutFailure D] (generated : Res (SSCO ℤ C D))
    (cache : Option (Cache Multi.Vertex)) (o : OfflineOptions) : Res (Schedule ℤ × Cost C D) :=
  solve generated SSCO.verify SSCO.toProb (fun p o => Multi.optimalGraphSearch p cache o) (fun r => r.path.xs) o

/-- `bindings/data_center/offline.rs:134-154` `optimal_graph_search_sblo_py`. -/
def solveOptimalSBLO (S : Num.Solver) (generated : Res (SBLO ℤ)) (cache : Option (Cache Multi.Vertex))
    (o : OfflineOptions) : Res (Schedule ℤ × Cost DCSuccess DCFailure) :=
  solve generated SBLO.verify (SBLO.toProb S) (optimalSBLO S cache) (fun r => r.path.xs) o

/-- `bindings/data_center/offline.rs:110-130` `optimal_graph_search_slo_py`. -/
def solveOptimalSLO (S : Num.Solver) (generated : Res (SLO ℤ)) (cache : Option (Cache Multi.Vertex))
    (o : OfflineOptions) : Res (Schedule ℤ × Cost Unit DCFailure) :=
  solve generated SLO.verify SLO.toProb (optimalSLO S cache) (fun r => r.path.xs) o

/-- `bindings/data_center/offline.rs:293-313` `static_integral_slo_py`. -/
def solveStaticSLO (S : Num.Solver) (generated : Res (SLO ℤ)) (o : OfflineOptions) :
    Res (Schedule ℤ × Cost Unit DCFailure) := solve generated SLO.verify SLO.toProb (staticSLO S) id o

/-- `bindings/data_center/offline.rs:61-82` `optimal_graph_search_1d_py`. -/
def solveUni {C D : Type} [OutSuccess C] [OutFailure D] (generated : Res (SSCO ℤ C D)) (xStart : ℤ)
    (o : OfflineOptions) : Res (Schedule ℤ × Cost C D) :=
  solve generated SSCO.verify SSCO.toProb (fun p o => Uni.optimalGraphSearch p xStart o) (fun r => r.xs) o

/-- `bindings/data_center/offline.rs:158-178` `approx_graph_search_py`; the result is missing if the fuel for computing
the values does not suffice. -/
def solveApprox {C D : Type} [OutSuccess C] [OutFailure D] (fuel : Nat) (generated : Res (SSCO ℤ C D))
    (cache : Option (Cache Multi.Vertex)) (gamma : ℚ) (o : OfflineOptions) : Option (Res (Schedule ℤ × Cost C D)) :=
  match generated.bind fun p => p.verify.map fun _ => p with
  | .error e => some (.error e)
  | .ok p => (Multi.approxGraphSearch fuel p cache gamma o).map fun r =>
      solve (.ok p) SSCO.verify SSCO.toProb (fun _ _ => r) (fun r => r.path.xs) o

/-- `bindings/data_center/offline.rs:206-227` `approx_graph_search_sblo_py`; the fuel as for `solveApprox`. -/
def solveApproxSBLO (S : Num.Solver) (fuel : Nat) (generated : Res (SBLO ℤ)) (cache : Option (Cache Multi.Vertex))
    (gamma : ℚ) (o : OfflineOptions) : Option (Res (Schedule ℤ × Cost DCSuccess DCFailure)) :=
  match generated.bind fun p => p.verify.map fun _ => p with
  | .error e => some (.error e)
  | .ok p => (approxSBLO S fuel cache gamma p o).map fun r =>
      solve (.ok p) SBLO.verify (SBLO.toProb S) (fun _ _ => r) (fun r => r.path.xs) o

/-- `bindings/data_center/offline.rs:181-202` `approx_graph_search_slo_py`; the fuel as for `solveApprox`. -/
def solveApproxSLO (S : Num.Solver) (fuel : Nat) (generated : Res (SLO ℤ)) (cache : Option (Cache Multi.Vertex))
    (gamma : ℚ) (o : OfflineOptions) : Option (Res (Schedule ℤ × Cost Unit DCFailure)) :=
  match generated.bind fun p => p.verify.map fun _ => p with
  | .error e => some (.error e)
  | .ok p => (approxSLO S fuel cache gamma p o).map fun r =>
      solve (.ok p) SLO.verify SLO.toProb (fun _ _ => r) (fun r => r.path.xs) o

/-- `bindings/data_center/offline.rs:317-337` `static_integral_sblo_py`. -/
def solveStaticSBLO (S : Num.Solver) (generated : Res (SBLO ℤ)) (o : OfflineOptions) :
    Res (Schedule ℤ × Cost DCSuccess DCFailure) := solve generated SBLO.verify (SBLO.toProb S) (staticSBLO S) id o

/-- `bindings/data_center/offline.rs:270-289` `static_integral_py`. -/
def solveStatic {C D : Type} [OutSuccess C] [OutFailure D] (generated : Res (SCO ℤ C D)) (o : OfflineOptions) :
    Res (Schedule ℤ × Cost C D) := solve generated SCO.verify SCO.toProb Static.staticIntegral id o

/-- `bindings/data_center/offline.rs:47-59` `brcp_py`, with the optimiser as parameter. -/
def solveBackward {C D : Type} [OutSuccess C] [OutFailure D] (opt : Lcp.Minimizer) (generated : Res (SSCO ℚ C D))
    (o : OfflineOptions) : Res (Schedule ℚ × Cost C D) :=
  solve generated SSCO.verify SSCO.toProb (fun p o => Lcp.brcp (Lcp.boundedFrac opt p) o) Prod.fst o

/-- `bindings/data_center/offline.rs:229-244` `convex_optimization_py`. -/
def solveConvex {C D : Type} [OutSuccess C] [OutFailure D] (S : Num.Solver) (generated : Res (SCO ℚ C D)) (o : OfflineOptions) :
    Res (Schedule ℚ × Cost C D) := solve generated SCO.verify SCO.toProb (OfflineFrac.co S) id o

/-- `bindings/data_center/offline.rs:246-267` `static_fractional_py`. -/
def solveStaticFractional {C D : Type} [OutSuccess C] [OutFailure D] (S : Num.Solver) (generated : Res (SCO ℚ C D))
    (o : OfflineOptions) : Res (Schedule ℚ × Cost C D) :=
  solve generated SCO.verify SCO.toProb (OfflineFrac.staticFractional S) id o

end Offline
end Soco
