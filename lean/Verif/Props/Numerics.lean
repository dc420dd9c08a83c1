import Verif.Model.Numerics
import Mathlib.Tactic.Linarith
import Mathlib.Tactic.NormNum
import Mathlib.Tactic.FieldSimp
import Mathlib.Tactic.Ring
import Mathlib.Algebra.Order.Floor.Ring

/-!
# C48: rounding to the numeric precision is a projection
-/

namespace Soco
namespace Num

theorem roundAway_int (z : ℤ) : roundAway (z : ℚ) = z := by
  unfold roundAway
  split
  · rw [Int.floor_eq_iff]; constructor <;> linarith
  · rw [Int.ceil_eq_iff]; constructor <;> linarith

theorem roundAway_near (x : ℚ) : |(roundAway x : ℚ) - x| ≤ 1 / 2 := by
  unfold roundAway
  rw [abs_le]
  split
  · have h1 := Int.floor_le (x + 1 / 2)
    have h2 := Int.lt_floor_add_one (x + 1 / 2)
    constructor <;> linarith
  · have h1 := Int.le_ceil (x - 1 / 2)
    have h2 := Int.ceil_lt_add_one (x - 1 / 2)
    constructor <;> linarith

theorem roundAway_mono {x y : ℚ} (h : x ≤ y) : roundAway x ≤ roundAway y := by
  unfold roundAway
  split <;> split
  · exact Int.floor_mono (by linarith)
  · exfalso; linarith
  · have h1 : ⌈x - 1 / 2⌉ ≤ 0 := Int.ceil_le.2 (by push_cast; linarith)
    have h2 : 0 ≤ ⌊y + 1 / 2⌋ := Int.le_floor.2 (by push_cast; linarith)
    exact h1.trans h2
  · exact Int.ceil_mono (by linarith)

theorem roundAway_neg (x : ℚ) : roundAway (-x) = -roundAway x := by
  unfold roundAway
  rcases lt_trichotomy x 0 with h | h | h
  · rw [if_pos (by linarith), if_neg (by linarith), ← Int.floor_neg]; congr 1; ring
  · subst h; norm_num
  · rw [if_neg (by linarith), if_pos (by linarith), ← Int.ceil_neg]; congr 1; ring

/-- **C48** Rounding to the precision is idempotent, monotone, changes a value by at most half the precision, and fixes
exactly the multiples of the precision. The result is a multiple of the precision and no other multiple is nearer. -/
theorem C48_apply_precision (x y : ℚ) :
    applyPrecision (applyPrecision x) = applyPrecision x ∧
    (x ≤ y → applyPrecision x ≤ applyPrecision y) ∧
    |applyPrecision x - x| ≤ precision / 2 ∧
    (applyPrecision x = x ↔ ∃ z : ℤ, x = z * precision) ∧
    (∃ z : ℤ, applyPrecision x = z * precision) ∧
    (∀ z : ℤ, |applyPrecision x - x| ≤ |z * precision - x|) ∧
    applyPrecision (-x) = -applyPrecision x := by
  have hp : (0 : ℚ) < precision := by norm_num [precision]
  have hfix : ∀ z : ℤ, applyPrecision (z * precision) = z * precision := by
    intro z
    unfold applyPrecision
    rw [mul_div_assoc, div_self hp.ne', mul_one, roundAway_int]
  have hnear : |applyPrecision x - x| ≤ precision / 2 := by
    have h := roundAway_near (x / precision)
    unfold applyPrecision
    have e : (roundAway (x / precision) : ℚ) * precision - x =
        ((roundAway (x / precision) : ℚ) - x / precision) * precision := by
      field_simp
    rw [e, abs_mul, abs_of_pos hp]
    nlinarith
  refine ⟨hfix _, ?_, hnear, ⟨?_, ?_⟩, ⟨_, rfl⟩, ?_, ?_⟩
  · intro h
    unfold applyPrecision
    have h1 : x / precision ≤ y / precision := div_le_div_of_nonneg_right h hp.le
    have h2 : (roundAway (x / precision) : ℚ) ≤ roundAway (y / precision) := by exact_mod_cast roundAway_mono h1
    nlinarith
  · intro h; exact ⟨_, h.symm⟩
  · rintro ⟨z, rfl⟩; exact hfix z
  · intro z
    by_cases hz : z = roundAway (x / precision)
    · subst hz; rfl
    · -- a different multiple is at least half the precision away
      have hd : (1 : ℚ) ≤ |(z : ℚ) - roundAway (x / precision)| := by
        have : (1 : ℤ) ≤ |z - roundAway (x / precision)| := Int.one_le_abs (sub_ne_zero.2 hz)
        exact_mod_cast this
      have h3 : |(z : ℚ) * precision - applyPrecision x| ≥ precision := by
        have e : (z : ℚ) * precision - applyPrecision x = ((z : ℚ) - roundAway (x / precision)) * precision := by
          unfold applyPrecision; ring
        rw [e, abs_mul, abs_of_pos hp]; nlinarith
      have h4 := abs_sub_le ((z : ℚ) * precision) x (applyPrecision x)
      rw [abs_sub_comm x] at h4
      linarith
  · unfold applyPrecision
    rw [neg_div, roundAway_neg]; push_cast; ring

example : applyPrecision (1234 / 1000) = 123 / 100 ∧ applyPrecision (1235 / 1000) = 124 / 100 ∧
    applyPrecision (-1235 / 1000) = -124 / 100 := by decide +kernel

/-- Rounded points stay inside boxes whose corners are multiples of the precision, in particular inside integral
boxes. -/
theorem C48_box (a b : ℤ) (x : ℚ) (ha : (a : ℚ) * precision ≤ x) (hb : x ≤ (b : ℚ) * precision) :
    (a : ℚ) * precision ≤ applyPrecision x ∧ applyPrecision x ≤ (b : ℚ) * precision := by
  have h1 := (C48_apply_precision ((a : ℚ) * precision) x).2.1 ha
  have h2 := (C48_apply_precision x ((b : ℚ) * precision)).2.1 hb
  rw [(C48_apply_precision _ x).2.2.2.1.2 ⟨a, rfl⟩] at h1
  rw [(C48_apply_precision ((b : ℚ) * precision) x).2.2.2.1.2 ⟨b, rfl⟩] at h2
  exact ⟨h1, h2⟩

/-- A rounded value which violates non-negativity by at most the tolerance is non-negative. -/
theorem nonneg_of_tolerance (z : ℤ) (h : -((z : ℚ) * precision) ≤ tolerance) : 0 ≤ (z : ℚ) * precision := by
  have hz : -1 < z := by
    have h2 : -((z : ℚ)) * (1 / 100) ≤ 1 / 1000 := by
      have h3 := h
      unfold precision tolerance precision at h3
      linarith
    have : (-1 : ℚ) < z := by linarith
    exact_mod_cast this
  have : (0 : ℚ) ≤ z := by exact_mod_cast (by omega : 0 ≤ z)
  unfold precision
  positivity

end Num
end Soco
