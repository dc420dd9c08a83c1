import Verif.Model.Numerics
import Mathlib.Data.List.Sort

/-!
# Breakpoints and piecewise integration

Models `implementation/src/breakpoints.rs` and `implementation/src/numerics/quadrature/`.

The quadrature rules of the library `bacon_sci` are a parameter `J`, which gives the integral between two end points
before it is rounded. Breakpoints are rational numbers; limits of integration may be infinite.
-/

namespace Soco

/-- `breakpoints.rs:9-20` `Breakpoints`. -/
structure Breakpoints where
  bs : List ℚ
  next : Option (ℚ → Option ℚ × Option ℚ)

namespace Breakpoints

/-- `breakpoints.rs:23-28` `empty`. -/
def empty : Breakpoints := ⟨[], none⟩

/-- `breakpoints.rs:46-55` `add`. The parallel sort of a list of numbers returns the sorted list. -/
def add (b : Breakpoints) (bs : List ℚ) : Breakpoints :=
  { b with bs := (b.bs ++ bs.filter fun x => !b.bs.contains x).insertionSort (· ≤ ·) }

/-- `breakpoints.rs:31-33` `from`. -/
def «from» (bs : List ℚ) : Breakpoints := empty.add bs

/-- `breakpoints.rs:36-43` `grid`. -/
def grid (d : ℚ) : Breakpoints := ⟨[], some fun b => (some (⌈b⌉ - d), some (⌊b⌋ + d))⟩

end Breakpoints

namespace Num

/-- A limit of integration. -/
abbrev Endpoint := WithBot (WithTop ℚ)

/-- The value of a finite limit of integration. -/
def Endpoint.finite? : Endpoint → Option ℚ
  | some (some q) => some q
  | _ => none

/-- A finite limit of integration. -/
def Endpoint.of (q : ℚ) : Endpoint := some (some q)

/-- `numerics/quadrature/mod.rs:13-31` `integral`, without the panics for results which are not numbers. -/
def integral (J : Endpoint → Endpoint → ℚ) (a b : Endpoint) : ℚ := applyPrecision (J a b)

/-- `numerics/quadrature/piecewise.rs:9` `CONVERGENCE_THRESHOLD`. -/
def convergenceThreshold : Nat := 10

/-- `numerics/quadrature/piecewise.rs:58-62` `Direction`. -/
inductive Direction where
  | left
  | right
deriving DecidableEq

/-- The test of `piecewise.rs:76-87` and `piecewise.rs:148-158`. -/
def Direction.reached (dir : Direction) (to' : Endpoint) (b : ℚ) : Bool :=
  match dir with
  | .left => decide (Endpoint.of b ≤ to')
  | .right => decide (to' ≤ Endpoint.of b)

/-- The dynamic breakpoints around a point, `piecewise.rs:92-145`. -/
def dynamic (bp : Breakpoints) (b : ℚ) : Option ℚ × Option ℚ :=
  match bp.next with
  | none => (none, none)
  | some next => next b

/-- The next breakpoint and its index, `piecewise.rs:92-145`. -/
def nextBreakpoint (dir : Direction) (bp : Breakpoints) (b : ℚ) (i : Int) : Option ℚ × Int :=
  let fixed := if 0 ≤ i then bp.bs[i.toNat]? else none
  match fixed, dir with
  | none, .left => ((dynamic bp b).1, i)
  | none, .right => ((dynamic bp b).2, i)
  | some f, .left => match (dynamic bp b).1 with
    | none => (some f, i - 1)
    | some l => if f < l then (some l, i) else (some f, i - 1)
  | some f, .right => match (dynamic bp b).2 with
    | none => (some f, i + 1)
    | some r => if f > r then (some r, i) else (some f, i + 1)

/-- `piecewise.rs:64-184` `__piecewise_integral`. The recursion has no bound in the code: `none` means that `fuel`
calls did not suffice. -/
def piecewiseFrom (J : Endpoint → Endpoint → ℚ) (dir : Direction) (bp : Breakpoints) (to' : Endpoint) :
    Nat → ℚ → Int → Nat → Option ℚ
  | 0, _, _, _ => none
  | fuel + 1, b, i, n =>
    if dir.reached to' b then some 0
    else
      let rest := match dir with
        | .left => integral J to' (.of b)
        | .right => integral J (.of b) to'
      match nextBreakpoint dir bp b i with
      | (none, _) => some rest
      | (some c, i') =>
        if dir.reached to' c then some rest
        else
          let result := match dir with
            | .left => integral J (.of c) (.of b)
            | .right => integral J (.of b) (.of c)
          let n' := if result < precision then n + 1 else n
          if result < precision ∧ n' ≥ convergenceThreshold then some result
          else (piecewiseFrom J dir bp to' fuel c i' n').map (result + ·)

/-- The initial breakpoint, `piecewise.rs:20-28`. -/
def initial (a b : Endpoint) : ℚ :=
  match a.finite?, b.finite? with
  | none, none => 0
  | none, some b => b
  | some a, none => a
  | some a, some b => (b - a) / 2 + a

/-- `piecewise.rs:31-35`. -/
def nextIndex (bs : List ℚ) (init : ℚ) : Nat := bs.findIdx fun x => decide (init < x)

/-- `piecewise.rs:36-41`. -/
def prevIndex (bs : List ℚ) (init : ℚ) : Int :=
  let i := nextIndex bs init
  if i > 0 ∧ bs[i - 1]? = some init then (i : Int) - 2 else (i : Int) - 1

/-- `piecewise.rs:13-56` `piecewise_integral`. -/
def piecewiseIntegral (J : Endpoint → Endpoint → ℚ) (bp : Breakpoints) (a b : Endpoint) (fuel : Nat) : Option ℚ := do
  let init := initial a b
  let l ← piecewiseFrom J .left bp a fuel init (prevIndex bp.bs init) 0
  let r ← piecewiseFrom J .right bp b fuel init (nextIndex bp.bs init) 0
  some (l + r)

end Num
end Soco
