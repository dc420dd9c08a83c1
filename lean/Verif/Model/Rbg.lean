import Verif.Model.Descent

/-!
# Randomly biased greedy

Models `implementation/src/algorithms/online/uni_dimensional/randomly_biased_greedy.rs`. The work function is cached in a
global variable while the optimiser asks for values, so here the optimiser is a strategy that asks for one value after
the other (`Strategy`), and the cache is passed along.
-/

namespace Soco
namespace Rbg
open Num

/-- NLopt without constraints as a player: it stops with a point, or asks for the value at a point and continues depending
on the answer. -/
inductive Strategy where
  | stop (x : List ℚ) (status : Status)
  | ask (y : List ℚ) (k : ECost → Strategy)

/-- How the player begins, given bounds and initial point. -/
abbrev Player := List (ℚ × ℚ) → List ℚ → Strategy

/-- Plays against a function which reads and writes a state; each question is rounded first
(`convex_optimization.rs:212-222` `evaluate`). -/
def Strategy.run {σ : Type} (f : List ℚ → σ → Res (ECost × σ)) : Strategy → σ → Res ((List ℚ × Status) × σ)
  | .stop x s, c => .ok ((x, s), c)
  | .ask y k, c => do
    let r ← f (applyPrecisionVec y) c
    (k r.1).run f r.2

/-- `convex_optimization.rs:60-65` `find_minimizer` of a function with state, see `Num.minimize`. -/
def minimizeC {σ : Type} (P : Player) (f : List ℚ → σ → Res (ECost × σ)) (bounds : List (ℚ × ℚ)) (c : σ) :
    Res ((List ℚ × ECost) × σ) := do
  let r ← (P bounds (bounds.map Prod.snd)).run f c
  assertP (r.1.2 != .failed)
  let x := applyPrecisionVec r.1.1
  let v ← f x r.2
  .ok ((x, if r.1.2 = .timedOut then ⊤ else v.1), v.2)

/-- The global `WORK` (`randomly_biased_greedy.rs:121-122`); keys are printed pairs of slot and configuration. -/
abbrev Cache := Nat → List ℚ → Option ECost

def Cache.empty : Cache := fun _ _ => none

/-- `randomly_biased_greedy.rs:64`: `cache_clear`. -/
def Cache.clear (_ : Cache) : Cache := Cache.empty

def Cache.set (c : Cache) (t : Nat) (x : List ℚ) (v : ECost) : Cache := fun s y => if s = t ∧ y = x then some v else c s y

/-- `cached_key!`: looks up the cache, else computes the value and stores it. The cache holds 1000 entries: `evict` decides
what it forgets. The cache is not locked while the value is computed. -/
def memo (evict : Cache → Cache) (t : Nat) (x : List ℚ) (c : Cache) (compute : Cache → Res (ECost × Cache)) : Res (ECost × Cache) :=
  match c t x with
  | some v => .ok (v, c)
  | none => do
    let r ← compute c
    .ok (r.1, evict (r.2.set t x r.1))

/-- `randomly_biased_greedy.rs:120-138` `w`. -/
def work (P : Player) (evict : Cache → Cache) (bounds : List (ℚ × ℚ)) (hit : Int → List ℚ → Res ECost)
    (switchingCost : List ℚ → Res ℚ) (θ : ℚ) : Nat → List ℚ → Cache → Res (ECost × Cache)
  | 0, x, c => memo evict 0 x c fun c => do
    let m ← switchingCost x
    .ok (((θ * m : ℚ) : ECost), c)
  | t + 1, x, c => memo evict (t + 1) x c fun c => do
    let r ← minimizeC P (fun y c => do
      let a ← work P evict bounds hit switchingCost θ t y c
      let b ← hit ((t + 1 : Nat) : Int) y
      let m ← switchingCost (Config.sub x y)
      .ok (a.1 + b + ((θ * m : ℚ) : ECost), a.2)) bounds c
    .ok (r.1.2, r.2)

section
variable {C D : Type} [OutSuccess C] [OutFailure D]

/-- The hitting cost as a number. -/
def hitOf (p : SCO ℚ C D) (t : Int) (x : List ℚ) : Res ECost := do
  let c ← p.toProb.hitCost t x
  .ok c.cost

/-- `randomly_biased_greedy.rs:50-109` `rbg` with `next`. `world` is the content of the global cache at the time of the
call, which is cleared. `draw` is the bias drawn for the memory if there is none (`randomly_biased_greedy.rs:21-27`); the
step never returns a memory. -/
def rbg (P : Player) (evict : Cache → Cache) (θ : ℚ) (draw : Online (SCO ℚ C D) → ℚ) (world : Cache) :
    OnlineAlgorithm (SCO ℚ C D) ℚ ℚ where
  default := draw
  call o t _ r := do
    assertR (decide (o.w = 0)) (.unsupportedPredictionWindow o.w)
    assertR (decide (o.p.d = 1)) (.unsupportedProblemDimension o.p.d)
    let t := t + 1
    let res ← minimizeC P (fun x c => do
      let a ← work P evict o.p.bounds (hitOf o.p) o.p.switchingCost θ (t - 1).toNat x c
      let m ← o.p.switchingCost x
      .ok (a.1 + ((r * θ * m : ℚ) : ECost), a.2)) o.p.bounds world.clear
    let x ← idx res.1.1 0
    .ok ([x], none)

end
end Rbg
end Soco
