import Verif.Spec.Convex
import Mathlib.Tactic.Linarith
import Mathlib.Tactic.Ring
import Mathlib.Tactic.NormNum
import Mathlib.Tactic.FieldSimp
import Mathlib.Data.Rat.Floor

/-! # Convex functions on integers -/

namespace Soco
open Spec

theorem convex_slope_up {m : ℤ} {f : ℤ → ℚ} (h : ConvexOn m f) (z : ℤ) (hz : 0 ≤ z) (k : Nat) :
    z + k + 1 ≤ m → f (z + 1) - f z ≤ f (z + k + 1) - f (z + k) := by
  induction k with
  | zero => intro _; simp
  | succ k ih =>
    intro hk
    push_cast at hk ⊢
    have h1 := ih (by omega)
    have h2 := h (z + k + 1) (by omega) (by omega)
    have e1 : z + (k : ℤ) + 1 - 1 = z + k := by ring
    have e2 : z + ((k : ℤ) + 1) + 1 = z + k + 1 + 1 := by ring
    have e3 : z + ((k : ℤ) + 1) = z + k + 1 := by ring
    rw [e1] at h2
    rw [e2, e3]
    linarith

/-- Slopes increase. -/
theorem convex_slope_mono {m : ℤ} {f : ℤ → ℚ} (h : ConvexOn m f) {y z : ℤ} (hy : 0 ≤ y)
    (hyz : y ≤ z) (hz : z + 1 ≤ m) : f (y + 1) - f y ≤ f (z + 1) - f z := by
  obtain ⟨k, hk⟩ := Int.eq_ofNat_of_zero_le (sub_nonneg.2 hyz)
  have e : z = y + k := by omega
  subst e
  exact convex_slope_up h y hy k hz

theorem convex_support_up {m : ℤ} {f : ℤ → ℚ} (h : ConvexOn m f) (z : ℤ) (hz : 0 ≤ z) (k : Nat) :
    z + k ≤ m → f z + (f (z + 1) - f z) * k ≤ f (z + k) := by
  induction k with
  | zero => intro _; simp
  | succ k ih =>
    intro hk
    push_cast at hk ⊢
    have h1 := ih (by omega)
    have h2 := convex_slope_up h z hz k (by omega)
    have e3 : z + ((k : ℤ) + 1) = z + k + 1 := by ring
    rw [e3]
    linarith

theorem convex_support_down {m : ℤ} {f : ℤ → ℚ} (h : ConvexOn m f) (z : ℤ) (hz : z + 1 ≤ m)
    (k : Nat) : 0 ≤ z - k → f z - (f (z + 1) - f z) * k ≤ f (z - k) := by
  induction k with
  | zero => intro _; simp
  | succ k ih =>
    intro hk
    push_cast at hk ⊢
    have h1 := ih (by omega)
    have h2 := convex_slope_mono h (y := z - k - 1) (z := z) (by omega) (by omega) hz
    have e3 : z - ((k : ℤ) + 1) = z - k - 1 := by ring
    have e4 : z - (k : ℤ) - 1 + 1 = z - k := by ring
    rw [e3]
    rw [e4] at h2
    linarith

/-- The line through two neighbouring points supports a convex function. -/
theorem convex_support {m : ℤ} {f : ℤ → ℚ} (h : ConvexOn m f) (z : ℤ) (hz : 0 ≤ z) (hz' : z + 1 ≤ m)
    (y : ℤ) (hy : 0 ≤ y) (hy' : y ≤ m) :
    f z + (f (z + 1) - f z) * ((y : ℚ) - z) ≤ f y := by
  rcases le_total z y with hzy | hzy
  · obtain ⟨k, hk⟩ := Int.eq_ofNat_of_zero_le (sub_nonneg.2 hzy)
    have e : y = z + k := by omega
    subst e
    have := convex_support_up h z hz k hy'
    push_cast; linarith
  · obtain ⟨k, hk⟩ := Int.eq_ofNat_of_zero_le (sub_nonneg.2 hzy)
    have e : y = z - k := by omega
    subst e
    have := convex_support_down h z hz' k hy
    push_cast; linarith

/-- Linear interpolation of a function on the integers. -/
def interp (f : ℤ → ℚ) (x : ℚ) : ℚ := f ⌊x⌋ + (f (⌊x⌋ + 1) - f ⌊x⌋) * (x - ⌊x⌋)

theorem interp_support {m : ℤ} {f : ℤ → ℚ} (h : ConvexOn m f) (z : ℤ) (hz : 0 ≤ z)
    (hz' : z + 1 ≤ m) (x : ℚ) (hx : 0 ≤ x) (hx' : x ≤ m) :
    f z + (f (z + 1) - f z) * (x - z) ≤ interp f x := by
  unfold interp
  have h1 : 0 ≤ ⌊x⌋ := Int.floor_nonneg.2 hx
  have h2 : (⌊x⌋ : ℚ) ≤ x := Int.floor_le x
  have h3 : x < ⌊x⌋ + 1 := Int.lt_floor_add_one x
  by_cases h4 : ⌊x⌋ + 1 ≤ m
  · have a1 := convex_support h z hz hz' ⌊x⌋ h1 (by omega)
    have a2 := convex_support h z hz hz' (⌊x⌋ + 1) (by omega) h4
    push_cast at a2
    have b1 := mul_le_mul_of_nonneg_left a1 (show (0 : ℚ) ≤ 1 - (x - ⌊x⌋) by linarith)
    have b2 := mul_le_mul_of_nonneg_left a2 (show (0 : ℚ) ≤ x - ⌊x⌋ by linarith)
    nlinarith
  · have h5 : m ≤ ⌊x⌋ := by omega
    have h6 : ⌊x⌋ = m := by
      have : (⌊x⌋ : ℚ) ≤ m := le_trans h2 hx'
      have : ⌊x⌋ ≤ m := by exact_mod_cast this
      omega
    have h7 : x = m := by
      have : (m : ℚ) ≤ x := by rw [← h6]; exact h2
      linarith
    have a1 := convex_support h z hz hz' ⌊x⌋ h1 (by omega)
    rw [h6] at a1 ⊢
    rw [h7]; linarith

/-- The interpolation of a convex function is convex. -/
theorem interp_convex {m : ℤ} {f : ℤ → ℚ} (h : ConvexOn m f) : ConvexOnQ m (interp f) := by
  intro x y hx hx' hy hy' a ha ha'
  have hm : 0 ≤ m := by
    have : (0 : ℚ) ≤ m := le_trans hx hx'
    exact_mod_cast this
  set w := (1 - a) * x + a * y with hw
  have hw0 : 0 ≤ w := by
    have := mul_nonneg (sub_nonneg.2 ha') hx
    have := mul_nonneg ha hy
    linarith
  have hwm : w ≤ m := by
    have := mul_le_mul_of_nonneg_left hx' (sub_nonneg.2 ha')
    have := mul_le_mul_of_nonneg_left hy' ha
    linarith
  rcases eq_or_lt_of_le hm with h0 | h0
  · have hx0 : x = 0 := by
      have : x ≤ 0 := by rw [← h0] at hx'; simpa using hx'
      linarith
    have hy0 : y = 0 := by
      have : y ≤ 0 := by rw [← h0] at hy'; simpa using hy'
      linarith
    have hw' : w = 0 := by rw [hw, hx0, hy0]; ring
    rw [hw', hx0, hy0]; linarith
  -- a unit interval containing `w`
  obtain ⟨z, hz, hz', hzw⟩ : ∃ z : ℤ, 0 ≤ z ∧ z + 1 ≤ m ∧
      interp f w = f z + (f (z + 1) - f z) * (w - z) := by
    have h1 : 0 ≤ ⌊w⌋ := Int.floor_nonneg.2 hw0
    by_cases h4 : ⌊w⌋ + 1 ≤ m
    · exact ⟨⌊w⌋, h1, h4, rfl⟩
    · have h2 : (⌊w⌋ : ℚ) ≤ w := Int.floor_le w
      have h6 : ⌊w⌋ = m := by
        have : (⌊w⌋ : ℚ) ≤ m := le_trans h2 hwm
        have : ⌊w⌋ ≤ m := by exact_mod_cast this
        omega
      have h7 : w = m := by
        have : (m : ℚ) ≤ w := by rw [← h6]; exact h2
        linarith
      refine ⟨m - 1, by omega, by omega, ?_⟩
      unfold interp
      rw [h6, h7]
      push_cast
      have : m - 1 + 1 = m := by ring
      rw [this]; ring
  have b1 := interp_support h z hz hz' x hx hx'
  have b2 := interp_support h z hz hz' y hy hy'
  have c1 := mul_le_mul_of_nonneg_left b1 (sub_nonneg.2 ha')
  have c2 := mul_le_mul_of_nonneg_left b2 ha
  rw [hzw, hw]
  nlinarith

end Soco
