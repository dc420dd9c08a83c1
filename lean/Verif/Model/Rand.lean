import Verif.Model.Streaming

/-!
# Randomised rounding

Models `implementation/src/algorithms/online/uni_dimensional/randomized.rs`. The draws of the random number generator
are parameters.
-/

namespace Soco
namespace Rand

/-- `r <= a / b` with IEEE division for a denominator `b ≥ 0`: dividing by zero gives `∞`, `-∞` or NaN, depending on
the sign of `a`, and no comparison with NaN holds. -/
def leDiv {K : Type} [Field K] [LinearOrder K] (r a b : K) : Bool :=
  if b = 0 then decide (0 < a) else decide (r ≤ a / b)

/-- `randomized.rs:156-189` `next`. `r` is the draw from `[0, 1]` (unused on some paths). Written over an arbitrary
ordered field with floors, so that it can be read over the rationals, as in the rest of the model, and over the reals,
where draws are distributed uniformly. The casts to `i32` are exact. `frac` is inlined. -/
def next {K : Type} [Field K] [LinearOrder K] [IsStrictOrderedRing K] [FloorRing K] (prevX : Int) (prevY y r : K) :
    Int :=
  if prevY ≤ y then
    if prevX = ⌈y⌉ then prevX
    else
      let proj := project prevY (⌊y⌋ : K) (⌈y⌉ : K)
      if leDiv r (y - proj) (1 - (proj - (⌊proj⌋ : K))) then ⌈y⌉ else ⌊y⌋
  else
    if prevX = ⌊y⌋ then prevX
    else
      let proj := project prevY (⌊y⌋ : K) (⌈y⌉ : K)
      if leDiv r (proj - y) (proj - (⌊proj⌋ : K)) then ⌊y⌋ else ⌈y⌉

/-- `randomized.rs:34-39` `Memory`. -/
structure Memory (M : Type) where
  y : Config ℚ
  relaxation : Option M
deriving DecidableEq

variable {C D M : Type} [OutSuccess C] [OutFailure D]

/-- `randomized.rs:128-154` `randomized`, for a relaxation algorithm `R` (`randomized.rs:71-123` wraps the
probabilistic algorithm and randomly biased greedy) and the draw of every slot. `problem.rs` `into_f` of the online
instance converts the problem and keeps the window; `Config::single(j)` is `[j]`. -/
def randomized (R : OnlineAlgorithm (SSCO ℚ C D) ℚ M) (draw : Int → ℚ) :
    OnlineAlgorithm (SSCO ℤ C D) ℤ (Memory M) where
  default _ := ⟨[0], none⟩
  call o t xs m := do
    assertR (o.w == 0) (.unsupportedPredictionWindow o.w)
    assertR (o.p.d == 1) (.unsupportedProblemDimension o.p.d)
    let step ← R.next ⟨o.p.intoF, o.w⟩ (Schedule.toF xs) m.relaxation
    let prevX ← idx (Schedule.nowWithDefault xs [0]) 0
    let prevY ← idx m.y 0
    let y ← idx step.1 0
    .ok ([next prevX prevY y (draw t)], some ⟨step.1, step.2⟩)

end Rand
end Soco
