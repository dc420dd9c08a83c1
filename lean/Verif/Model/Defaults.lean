import Verif.Model.ApproxGraph
import Verif.Model.UniGraph
import Verif.Model.BalancedBudgeting
import Verif.Model.Descent
import Verif.Model.Rbg

/-!
# Default options

Models `implementation/src/algorithms/offline/mod.rs:36-116`, `implementation/src/algorithms/online/mod.rs:97-105` and the
`Default` implementations of the options of the algorithms. The decimal `1.1` is the rational `11/10`. The default step sizes of
online gradient descent (`online_gradient_descent.rs:20-26`) are irrational and not included.
-/

namespace Soco

/-- `offline/mod.rs:89-94` `inverted`. -/
def OfflineOptions.onlyInverted : OfflineOptions := { OfflineOptions.dflt with inverted := true }

/-- `offline/mod.rs:96-101` `alpha_unfair`. -/
def OfflineOptions.alphaUnfair (alpha : ℚ) : OfflineOptions := { OfflineOptions.dflt with alpha := alpha }

/-- `offline/mod.rs:103-108` `l_constrained`. -/
def OfflineOptions.lConstrained (l : ℚ) : OfflineOptions := { OfflineOptions.dflt with l := some l }

/-- `offline/mod.rs:45-52` `solve_with_default_options` (and `solve`, 36-43): `options` is `O::default`. -/
def solveDefault {P O A : Type} (options : P → O) (alg : P → O → OfflineOptions → A) (p : P) (o : OfflineOptions) : A :=
  alg p (options p) o

/-- `online/mod.rs:97-105` `next_with_default_options`: an algorithm with options becomes one without. `options` is
`O::default`, which may abort, and `memory` is `M::default`, which does not depend on the options. -/
def withDefaults {P T M O : Type} (options : P → Res O) (memory : Online P → M) (alg : O → OnlineAlgorithm P T M) :
    OnlineAlgorithm P T M where
  default := memory
  call o t xs m := do
    let opt ← options o.p
    (alg opt).call o t xs m

/-- `uni_dimensional/optimal_graph_search.rs:22-27`: the start is 0. -/
def Uni.searchDefault {C D : Type} [OutSuccess C] [OutFailure D] (p : SSCO ℤ C D) (o : OfflineOptions) : Res Path :=
  solveDefault (fun _ => (0 : ℤ)) Uni.optimalGraphSearch p o

/-- `multi_dimensional/optimal_graph_search.rs:13-24`: no cache. -/
def Multi.searchDefault {C D : Type} [OutSuccess C] [OutFailure D] (p : SSCO ℤ C D) (o : OfflineOptions) :
    Res (CachedPath Multi.Vertex) :=
  solveDefault (fun _ => none) Multi.optimalGraphSearch p o

/-- `approx_graph_search.rs:22-29`: no cache, `gamma` is 1.1. -/
def Multi.approxDefault {C D : Type} [OutSuccess C] [OutFailure D] (fuel : Nat) (p : SSCO ℤ C D) (o : OfflineOptions) :
    Option (Res (CachedPath Multi.Vertex)) :=
  solveDefault (fun _ => (none, (11 / 10 : ℚ)))
    (fun p (opt : Option (Cache Multi.Vertex) × ℚ) o => Multi.approxGraphSearch fuel p opt.1 opt.2 o) p o

/-- `lazy_budgeting/smoothed_balanced_load_optimization.rs:74-78`: `epsilon` is 0.25. -/
def Bb.algDefault (S : Num.Solver) : OnlineAlgorithm (SBLO ℤ) ℤ Bb.Memory :=
  withDefaults (fun _ => .ok (1 / 4 : ℚ)) Bb.Memory.dflt (Bb.alg S)

/-- `randomly_biased_greedy.rs:36-40`: `theta` is 1. -/
def Rbg.rbgDefault {C D : Type} [OutSuccess C] [OutFailure D] (P : Rbg.Player) (evict : Rbg.Cache → Rbg.Cache)
    (draw : Online (SCO ℚ C D) → ℚ) (world : Rbg.Cache) : OnlineAlgorithm (SCO ℚ C D) ℚ ℚ :=
  withDefaults (fun _ => .ok (1 : ℚ)) draw fun θ => Rbg.rbg P evict θ draw world

/-- `online_balanced_descent/{dual,greedy,meta,primal,regularized}.rs` `default` (`dual.rs:29-33`, `greedy.rs:25-29`,
`meta.rs:27-31`, `primal.rs:28-32`, `regularized.rs:23-27`): `unimplemented!()`, which aborts. `alg` is the descent
algorithm as a function of its options. -/
def Descent.descentDefault {C D O : Type} (alg : O → OnlineAlgorithm (SCO ℚ C D) ℚ Unit) : OnlineAlgorithm (SCO ℚ C D) ℚ Unit :=
  withDefaults (fun _ => .error .panic) (fun _ => ()) alg

end Soco
