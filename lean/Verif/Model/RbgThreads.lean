import Verif.Model.Rbg

/-!
# Randomly biased greedy in several threads

Models `implementation/src/algorithms/online/uni_dimensional/randomly_biased_greedy.rs` where several runs share a process:
each server runs in a thread of its own (`streaming/online.rs:81-83`), while the cache `WORK` is one global variable. A run is
a program which accesses the cache; between any two accesses of one thread other threads may access the cache as well.
-/

namespace Soco
namespace Rbg
open Num

/-- What remains to be done in a thread, up to the result: nothing, or an access to the global cache followed by the rest.
All else a thread does is local. -/
inductive Prog (α : Type) where
  | done (r : Res α)
  | clear (k : Prog α)
  | look (t : Nat) (x : List ℚ) (k : Option ECost → Prog α)
  | store (t : Nat) (x : List ℚ) (v : ECost) (k : Prog α)

/-- One program after the other. -/
def Prog.andThen {α β : Type} : Prog α → (α → Prog β) → Prog β
  | .done (.ok a), f => f a
  | .done (.error e), _ => .done (.error e)
  | .clear k, f => .clear (k.andThen f)
  | .look t x k, f => .look t x fun v => (k v).andThen f
  | .store t x v k, f => .store t x v (k.andThen f)

/-- `convex_optimization.rs:212-222` `evaluate`, for each question of the optimiser, see `Strategy.run`. -/
def Strategy.prog (f : List ℚ → Prog ECost) : Strategy → Prog (List ℚ × Status)
  | .stop x s => .done (.ok (x, s))
  | .ask y k => (f (applyPrecisionVec y)).andThen fun v => (k v).prog f

/-- `convex_optimization.rs:60-65` `find_minimizer`, see `minimizeC`. -/
def minimizeT (P : Player) (f : List ℚ → Prog ECost) (bounds : List (ℚ × ℚ)) : Prog (List ℚ × ECost) :=
  ((P bounds (bounds.map Prod.snd)).prog f).andThen fun r =>
    if r.2 = .failed then .done (.error .panic)
    else (f (applyPrecisionVec r.1)).andThen fun v =>
      .done (.ok (applyPrecisionVec r.1, if r.2 = .timedOut then ⊤ else v))

/-- `cached_key!`: the cache is locked to look up the value, and locked again to store it, but not in between. -/
def memoT (t : Nat) (x : List ℚ) (compute : Prog ECost) : Prog ECost :=
  .look t x fun
    | some v => .done (.ok v)
    | none => compute.andThen fun v => .store t x v (.done (.ok v))

/-- `randomly_biased_greedy.rs:120-138` `w`. -/
def workT (P : Player) (bounds : List (ℚ × ℚ)) (hit : Int → List ℚ → Res ECost) (switchingCost : List ℚ → Res ℚ) (θ : ℚ) :
    Nat → List ℚ → Prog ECost
  | 0, x => memoT 0 x (.done (do
    let m ← switchingCost x
    .ok ((θ * m : ℚ) : ECost)))
  | t + 1, x => memoT (t + 1) x ((minimizeT P (fun y =>
      (workT P bounds hit switchingCost θ t y).andThen fun a => .done (do
        let b ← hit ((t + 1 : Nat) : Int) y
        let m ← switchingCost (Config.sub x y)
        .ok (a + b + ((θ * m : ℚ) : ECost)))) bounds).andThen fun r => .done (.ok r.2))

section
variable {C D : Type} [OutSuccess C] [OutFailure D]

/-- `randomly_biased_greedy.rs:50-109` `rbg` with `next`, in slot `t` with bias `r`. -/
def rbgT (P : Player) (θ : ℚ) (o : Online (SCO ℚ C D)) (t : Int) (r : ℚ) : Prog (Config ℚ) :=
  if o.w = 0 then
    if o.p.d = 1 then
      .clear ((minimizeT P (fun x =>
        (workT P o.p.bounds (hitOf o.p) o.p.switchingCost θ (t + 1 - 1).toNat x).andThen fun a => .done (do
          let m ← o.p.switchingCost x
          .ok (a + ((r * θ * m : ℚ) : ECost)))) o.p.bounds).andThen fun res => .done (do
            let x ← idx res.1 0
            .ok [x]))
    else .done (.error (.fail (.unsupportedProblemDimension o.p.d)))
  else .done (.error (.fail (.unsupportedPredictionWindow o.w)))

end

/-- One access to the cache. When a value is stored the cache may forget (it holds 1000 entries). -/
inductive Access {α : Type} : Prog α → Cache → Prog α → Cache → Prop where
  | clear (k : Prog α) (c : Cache) : Access (.clear k) c k c.clear
  | look (t : Nat) (x : List ℚ) (k : Option ECost → Prog α) (c : Cache) : Access (.look t x k) c (k (c t x)) c
  | store (t : Nat) (x : List ℚ) (v : ECost) (k : Prog α) (c c' : Cache)
      (h : ∀ s y u, c' s y = some u → c.set t x v s y = some u) : Access (.store t x v k) c k c'

/-- The threads of a process and the global cache. -/
structure Process (α : Type) where
  threads : List (Prog α)
  cache : Cache

/-- Some thread does its next access. -/
inductive Process.Step {α : Type} : Process α → Process α → Prop where
  | mk (w : Process α) (i : Nat) (p p' : Prog α) (c' : Cache) (hp : w.threads[i]? = some p) (h : Access p w.cache p' c') :
      Process.Step w ⟨w.threads.set i p', c'⟩

end Rbg
end Soco
