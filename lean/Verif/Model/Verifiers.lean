import Verif.Model.Problem

/-!
# Verifiers

Models `implementation/src/verifiers.rs`.
-/

namespace Soco

/-- `verifiers.rs:294-300` `assert_validity`. -/
def assertValidity (pred : Bool) : Res Unit := assertR pred .invalid

/-- `for k in 0..n { body(k)? }`. -/
def forRange (n : Nat) (body : Nat → Res Unit) : Res Unit :=
  (List.range n).forM body

/-- `verifiers.rs:24-39` `verify` of SCO. `d as usize` for negative `d` is not reached. -/
def SCO.verify {T C D : Type} (p : SCO T C D) : Res Unit := do
  assertValidity (decide (p.d > 0))
  assertValidity (decide (p.tEnd ≥ 0))
  assertValidity (decide ((p.bounds.length : Int) = p.d))

/-- `verifiers.rs:47-80` `verify` of SSCO. -/
def SSCO.verify {T C D : Type} [Value T] (p : SSCO T C D) : Res Unit := do
  assertValidity (decide (p.d > 0))
  assertValidity (decide (p.tEnd ≥ 0))
  assertValidity (decide ((p.bounds.length : Int) = p.d))
  assertValidity (decide ((p.switchingCost.length : Int) = p.d))
  forRange p.d.toNat fun k => do
    assertValidity (decide ((← idx p.bounds k) > 0))
    assertValidity (decide ((← idx p.switchingCost k) > 0))

/-- `verifiers.rs:87-176` `verify` of SLO. -/
def SLO.verify {T : Type} [Value T] (p : SLO T) : Res Unit := do
  assertValidity (decide (p.d > 0))
  assertValidity (decide (p.tEnd ≥ 0))
  assertValidity (decide ((p.bounds.length : Int) = p.d))
  assertValidity (decide ((p.switchingCost.length : Int) = p.d))
  assertValidity (decide ((p.load.length : Int) ≥ p.tEnd))
  forRange p.d.toNat fun k => do
    assertValidity (decide ((← idx p.bounds k) > 0))
    assertValidity (decide ((← idx p.switchingCost k) > 0))
    assertValidity (decide ((← idx p.hittingCost k) ≥ 0))
    forRange p.d.toNat fun l => do
      if k ≠ l then
        let hk ← idx p.hittingCost k
        let hl ← idx p.hittingCost l
        if hk ≥ hl then
          assertValidity (!decide ((← idx p.switchingCost k) ≥ (← idx p.switchingCost l)))
  forRange (p.d.toNat - 1) fun i => do
    let k := i + 1
    assertValidity (decide ((← idx p.hittingCost k) < (← idx p.hittingCost (k - 1))))
    assertValidity (decide ((← idx p.switchingCost k) > (← idx p.switchingCost (k - 1))))
  forRange p.tEnd.toNat fun t => do
    assertValidity (decide ((← idx p.load t) ≥ 0))

/-- `verifiers.rs:242-249` `Online::verify`; `verifyP` is the verification of the wrapped problem. -/
def Online.verify {P : Type} (verifyP : P → Res Unit) (o : Online P) : Res Unit := do
  assertValidity (decide (o.w ≥ 0))
  verifyP o.p

/-- `verifiers.rs:256-273` `Config::verify`. `bounds[k]` panics if the configuration is longer than
the bounds; a shorter configuration is accepted. -/
def Config.verify {T : Type} [Value T] : Config T → List T → Res Unit
  | [], _ => .ok ()
  | j :: x, bounds => do
    assertValidity (decide (j ≥ 0))
    match bounds with
    | [] => .error .panic
    | b :: bs => do
      assertValidity (decide (j ≤ b))
      Config.verify x bs

/-- `verifiers.rs:280-291` `Schedule::verify`. -/
def Schedule.verify {T : Type} [Value T] (xs : Schedule T) (tEnd : Int) (bounds : List T) :
    Res Unit := do
  assertValidity (decide (xs.tEnd = tEnd))
  xs.forM fun x => Config.verify x bounds

end Soco
