import Mathlib.Algebra.Order.Ring.Rat
import Mathlib.Algebra.Order.Ring.Int
import Mathlib.Algebra.Order.Monoid.WithTop
import Mathlib.Data.Rat.Cast.Order
import Mathlib.Data.Rat.Floor

/-!
# Basic vocabulary of the model: numbers, errors, utilities

Models `implementation/src/{utils,value,result,config,schedule,vec_wrapper}.rs`.

Global simplifications: `f64` and `noisy_float::N64` are exact rationals, extended by `⊤` for
`f64::INFINITY` where a value may be infinite; `i32`/`usize` are unbounded `Int`/`Nat`.
-/

namespace Soco

/-- Costs: `N64` values which may be `+∞` (`n64(f64::INFINITY)`), never NaN or `-∞`. -/
abbrev ECost := WithTop ℚ

/-- `result.rs:7-30` `enum Failure`. The payloads of error messages are kept where they are numbers,
`Invalid(String)` drops its text. -/
inductive Failure where
  | invalid
  | matrixMustBeInvertible
  | onlineInconsistentCurrentTimeSlot (previousTimeSlots currentTimeSlot : Int)
  | onlineOutOfDateMemory (previousTimeSlots memoryEntries : Int)
  | unsupportedInvertedCost
  | unsupportedLConstrainedMovement
  | unsupportedPredictionWindow (w : Int)
  | unsupportedProblemDimension (d : Int)
deriving DecidableEq, Repr

/-- How a computation can end other than by returning a value: a Rust panic (failed `assert!`,
`unwrap` on `None`, index out of bounds) or `Err(Failure)` (`result.rs:32-33`). -/
inductive Fault where
  | panic
  | fail (f : Failure)
deriving DecidableEq, Repr

/-- Result of a computation that may panic or return `Err`. Models `result.rs:32-33` together with
panics. -/
abbrev Res (α : Type) := Except Fault α

/-- `assert!(p)`: panics unless `p`. -/
def assertP (p : Bool) : Res Unit := if p then .ok () else .error .panic

/-- `utils.rs:9-15` `assert`: returns `Err(failure)` unless `pred`. -/
def assertR (pred : Bool) (f : Failure) : Res Unit := if pred then .ok () else .error (.fail f)

/-- Indexing `xs[i]` into a vector: panics when out of bounds. -/
def idx {α : Type} (xs : List α) (i : Nat) : Res α :=
  match xs[i]? with
  | some x => .ok x
  | none => .error .panic

/-- `value.rs:9-44` trait `Value`: the number types of configurations, here `ℤ` (`i32`) and `ℚ`
(`f64`). `toQHom` is the conversion into floats. -/
class Value (T : Type) extends CommRing T, LinearOrder T, IsStrictOrderedRing T where
  toQHom : T →+* ℚ
  toQ_mono : StrictMono toQHom

instance : Value ℤ where
  toQHom := Int.castRingHom ℚ
  toQ_mono := fun _ _ h => by simpa using h

instance : Value ℚ where
  toQHom := RingHom.id ℚ
  toQ_mono := fun _ _ h => by simpa using h

/-- `NumCast::from`/`ToPrimitive::to_f64` into floats (`num` crate). -/
def toQ {T : Type} [Value T] (x : T) : ℚ := (Value.toQHom : T →+* ℚ) x

/-- `config.rs:22` `Config<T>`: one value per dimension. -/
abbrev Config (T : Type) := List T

/-- `schedule.rs:18` `Schedule<T>`: configurations for the slots `1..t_end`. -/
abbrev Schedule (T : Type) := List (Config T)

section Utils

variable {T : Type}

/-- `utils.rs:23-32` `max`. -/
def umax [LT T] [DecidableLT T] (x y : T) : T := if x > y then x else y

/-- `utils.rs:35-44` `min`. -/
def umin [LT T] [DecidableLT T] (x y : T) : T := if x > y then y else x

/-- `utils.rs:47-52` `pos`, `max{0, x}`. -/
def pos [Zero T] [LT T] [DecidableLT T] (x : T) : T := umax 0 x

/-- `utils.rs:55-60` `project`, `max{a, min{b, x}}`. -/
def project [LT T] [DecidableLT T] (x a b : T) : T := umax a (umin b x)

/-- `utils.rs:18-20` `frac`. -/
def frac (x : ℚ) : ℚ := x - (⌊x⌋ : ℚ)

/-- `utils.rs:63-65` `is_pow_of_2`. Bitwise and on `i32` is modelled on natural numbers; callers pass
positive bounds. -/
def isPowOf2 (x : Nat) : Bool := x != 0 && (x &&& (x - 1)) == 0

/-- `utils.rs:68-74` `access`: 1-based lookup. -/
def access {α : Type} (xs : List α) (i : Int) : Option α :=
  if 1 ≤ i ∧ i ≤ xs.length then xs[(i - 1).toNat]? else none

/-- `utils.rs:83-85` `shift_time`. -/
def shiftTime (t tStart : Int) : Int := t + tStart - 1

/-- `utils.rs:88-90` `unshift_time`. -/
def unshiftTime (t tStart : Int) : Int := t - tStart + 1

/-- `utils.rs:93-100` `mean` on finite numbers: panics on an empty vector. -/
def meanQ (xs : List ℚ) : Res ℚ :=
  if xs.isEmpty then .error .panic else .ok (xs.sum / xs.length)

/-- Division of a possibly infinite cost by a finite positive number. -/
def ECost.divQ (c : ECost) (q : ℚ) : ECost := c.map (· / q)

/-- Multiplication of a possibly infinite cost by a finite positive number (Rust: `n64(x) * cost`). -/
def ECost.mulQ (q : ℚ) (c : ECost) : ECost := c.map (q * ·)

/-- `utils.rs:93-100` `mean` on costs. -/
def meanE (xs : List ECost) : Res ECost :=
  if xs.isEmpty then .error .panic else .ok (ECost.divQ xs.sum xs.length)

end Utils

section ConfigOps

variable {T : Type} [Value T]

/-- `config.rs:46-51` `Config::repeat`. A negative `d` (`d as usize`) is outside the model. -/
def Config.repeat (j : T) (d : Nat) : Config T := List.replicate d j

/-- `config.rs:69-71` `Config::total`. -/
def Config.total (x : Config T) : T := x.sum

/-- `config.rs:183-195` `Add for Config` (zips, so the shorter operand decides). -/
def Config.add (x y : Config T) : Config T := List.zipWith (· + ·) x y

/-- `config.rs:197-209` `Sub for Config`. -/
def Config.sub (x y : Config T) : Config T := List.zipWith (· - ·) x y

/-- `config.rs:211-221` dot product. -/
def Config.dot (x y : Config T) : T := (List.zipWith (· * ·) x y).sum

/-- `config.rs:223-230` scaling. -/
def Config.smul (c : ℚ) (x : Config ℚ) : Config ℚ := x.map (c * ·)

/-- `config.rs:232-239` division by a scalar. -/
def Config.divQ (x : Config ℚ) (c : ℚ) : Config ℚ := x.map (· / c)

/-- `schedule.rs:46-48` `t_end`. -/
def Schedule.tEnd (xs : Schedule T) : Int := xs.length

/-- `schedule.rs:51-53` `now`: panics on the empty schedule. -/
def Schedule.now (xs : Schedule T) : Res (Config T) := idx xs (xs.length - 1)

/-- `schedule.rs:56-62` `now_with_default`. -/
def Schedule.nowWithDefault (xs : Schedule T) (dflt : Config T) : Config T := xs.getLastD dflt

/-- `schedule.rs:65-67` `get`, 1-based. -/
def Schedule.get (xs : Schedule T) (t : Int) : Option (Config T) := access xs t

/-- `schedule.rs:70-72` `shift`: new first configuration. -/
def Schedule.shift (xs : Schedule T) (x : Config T) : Schedule T := x :: xs

/-- `schedule.rs:75-77` `push` and `schedule.rs:80-82` `extend`: new last configuration. -/
def Schedule.extend (xs : Schedule T) (x : Config T) : Schedule T := xs ++ [x]

/-- `schedule.rs:85-87` `skip`. -/
def Schedule.skip (xs : Schedule T) (delta : Nat) : Schedule T := xs.drop delta

/-- `schedule.rs:97-113` `from_raw`. -/
def Schedule.fromRaw (d w : Nat) (raw : List T) : Res (Schedule T) :=
  if raw.length = d * w then
    .ok ((List.range w).map fun t => (raw.drop (d * t)).take d)
  else .error .panic

/-- `schedule.rs:116-127` `build_raw` (its length assertion always holds, see `C12`). -/
def Schedule.buildRaw (w : Nat) (x : Config T) : List T :=
  (List.range w).flatMap fun _ => x

/-- `schedule.rs:130-132` `raw_encoding_len`. -/
def Schedule.rawEncodingLen (d w : Nat) : Nat := d * w

end ConfigOps

end Soco
