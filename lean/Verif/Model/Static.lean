import Verif.Model.MultiGraph

/-!
# Static integral optimum

Models `implementation/src/algorithms/offline/multi_dimensional/static_integral.rs`.
-/

namespace Soco
namespace Static

/-- The loop of `static_integral.rs:49-59`: `picked` and `cost` are `picked_config` and `picked_cost`; the
values are visited in order, with an early exit as soon as the cost exceeds the best one. -/
def scan (eval : ℤ → Res (Config ℤ × ECost)) : List ℤ → Config ℤ → ECost → Res (Config ℤ × ECost)
  | [], picked, cost => .ok (picked, cost)
  | j :: js, picked, cost => do
    let r ← eval j
    if r.2 < cost then scan eval js r.1 r.2
    else if r.2 > cost then .ok (picked, cost)
    else scan eval js picked cost

/-- `lo..=hi` -/
def intRange (lo hi : ℤ) : List ℤ := (List.range (hi - lo + 1).toNat).map fun i : Nat => lo + (i : Int)

variable {C D : Type} [OutSuccess C] [OutFailure D]

/-- `static_integral.rs:35-73` `check_configs`, by recursion on the number `rem` of dimensions left
(`k = d - rem`). `alpha` is passed along but never used, as in the code. -/
def checkConfigs (p : SCO ℤ C D) (alpha : ℚ) : Nat → Config ℤ → Res (Config ℤ × ECost)
  | 0, base => do
    let c ← p.toProb.objective (List.replicate p.tEnd.toNat base)
    .ok (base, c.cost)
  | rem + 1, base => do
    let k := p.d.toNat - (rem + 1)
    let b ← idx p.bounds k
    scan (fun j => checkConfigs p alpha rem (base.set k j)) (intRange b.1 b.2) base ⊤

/-- `static_integral.rs:14-33` `static_integral`. -/
def staticIntegral (p : SCO ℤ C D) (o : OfflineOptions) : Res (Schedule ℤ) := do
  assertR (!o.inverted) .unsupportedInvertedCost
  assertR (o.l.isNone || o.l == some 0) .unsupportedLConstrainedMovement
  let r ← checkConfigs p o.alpha p.d.toNat (Config.repeat 0 p.d.toNat)
  .ok (List.replicate p.tEnd.toNat r.1)

end Static
end Soco
