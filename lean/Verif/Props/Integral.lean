import Verif.Spec.Integral
import Verif.Model.Quadrature
import Mathlib.Analysis.SpecialFunctions.Gaussian.GaussianIntegral
import Mathlib.MeasureTheory.Integral.IntegralEqImproper
import Mathlib.Analysis.Real.Pi.Bounds

/-!
# C91: numerical integration
-/

namespace Soco
open Spec MeasureTheory

namespace Quad

theorem round_near (x : ℝ) : |applyPrecision x - x| ≤ 1 / 200 ∧ ∃ k : ℤ, applyPrecision x = k / 100 := by
  unfold applyPrecision
  constructor
  · rw [abs_le]
    split_ifs with h
    · have h1 := Int.floor_le (x / (1 / 100) + 1 / 2)
      have h2 := Int.lt_floor_add_one (x / (1 / 100) + 1 / 2)
      constructor <;> linarith
    · have h1 := Int.le_ceil (x / (1 / 100) - 1 / 2)
      have h2 := Int.ceil_lt_add_one (x / (1 / 100) - 1 / 2)
      constructor <;> linarith
  · exact ⟨_, by ring⟩

theorem handle_ok (v : ℝ) : handleResult (.ok v) = v := rfl

theorem handle_error (v : ℝ) : handleResult (.error v) = v := rfl

theorem computes_round (x : ℝ) : Computes ((some x).map applyPrecision) x :=
  ⟨_, rfl, (round_near x).1, (round_near x).2⟩

end Quad

open Quad

/-- There are exact rules. -/
theorem Spec.exists_gauss : ∃ R : Quad.Rules, GaussRules R :=
  ⟨⟨fun a b f => .ok (∫ x in a..b, f x), fun f => some (∫ x in Set.Ioi 0, f x * Real.exp (-x)),
    fun f => some (∫ x, f x * Real.exp (-x ^ 2))⟩, fun _ _ _ _ => rfl, fun _ _ => rfl, fun _ _ => rfl⟩

/-- **C91** Over a finite interval the integral is computed. -/
theorem C91_finite (R : Quad.Rules) (hR : GaussRules R) (a b : ℝ) (f : ℝ → ℝ) (hf : IntervalIntegrable f volume a b) :
    Computes (Quad.integral R a b f) (∫ x in a..b, f x) := by
  have : Quad.integral R a b f = (some (∫ x in a..b, f x)).map applyPrecision := by
    rw [← handle_ok (∫ x in a..b, f x), ← hR.finite a b f hf]
    rfl
  rw [this]
  exact computes_round _

/-- **C91** An estimate which does not reach the tolerance is returned like one that does. -/
theorem C91_failed_estimate (R : Quad.Rules) (a b : ℝ) (f : ℝ → ℝ) (v : ℝ) (h : R.finite a b f = .error v) :
    Computes (Quad.integral R a b f) v := by
  have : Quad.integral R a b f = (some v).map applyPrecision := by
    rw [← handle_error v, ← h]
    rfl
  rw [this]
  exact computes_round _

/-- **C91** Over the numbers above `a` the integral is computed. -/
theorem C91_above (R : Quad.Rules) (hR : GaussRules R) (a : ℝ) (f : ℝ → ℝ) (hf : IntegrableOn f (Set.Ioi a)) :
    Computes (Quad.integral R a ⊤ f) (∫ x in Set.Ioi a, f x) := by
  have e : ∀ x, f (a + x) * Real.exp x * Real.exp (-x) = f (a + x) := by
    intro x
    rw [mul_assoc, ← Real.exp_add, add_neg_cancel, Real.exp_zero, mul_one]
  have hm : MeasurePreserving (fun x : ℝ => a + x) := measurePreserving_add_left volume a
  have he : MeasurableEmbedding (fun x : ℝ => a + x) := measurableEmbedding_addLeft a
  have hs : (fun x : ℝ => a + x) ⁻¹' Set.Ioi a = Set.Ioi 0 := by
    ext x; simp
  have hi : IntegrableOn (fun x => f (a + x)) (Set.Ioi 0) := by
    rw [← hs]
    exact (hm.integrableOn_comp_preimage he).2 hf
  have hv : ∫ x in Set.Ioi 0, f (a + x) = ∫ x in Set.Ioi a, f x := by
    rw [← hs]
    exact hm.setIntegral_preimage_emb he f _
  have : Quad.integral R a ⊤ f = (some (∫ x in Set.Ioi a, f x)).map applyPrecision := by
    have hL := hR.laguerre (fun x => f (a + x) * Real.exp x) (by simpa only [e] using hi)
    simp only [e, hv] at hL
    rw [← hL]
    rfl
  rw [this]
  exact computes_round _

/-- **C91** Over the numbers below `b` the integral is computed. -/
theorem C91_below (R : Quad.Rules) (hR : GaussRules R) (b : ℝ) (f : ℝ → ℝ) (hf : IntegrableOn f (Set.Iio b)) :
    Computes (Quad.integral R ⊥ b f) (∫ x in Set.Iio b, f x) := by
  have e : ∀ x, f (b - x) * Real.exp x * Real.exp (-x) = f (b - x) := by
    intro x
    rw [mul_assoc, ← Real.exp_add, add_neg_cancel, Real.exp_zero, mul_one]
  have hm : MeasurePreserving (fun x : ℝ => b - x) := Measure.measurePreserving_sub_left volume b
  have he : MeasurableEmbedding (fun x : ℝ => b - x) := measurableEmbedding_subLeft b
  have hs : (fun x : ℝ => b - x) ⁻¹' Set.Iio b = Set.Ioi 0 := by
    ext x; simp
  have hi : IntegrableOn (fun x => f (b - x)) (Set.Ioi 0) := by
    rw [← hs]
    exact (hm.integrableOn_comp_preimage he).2 hf
  have hv : ∫ x in Set.Ioi 0, f (b - x) = ∫ x in Set.Iio b, f x := by
    rw [← hs]
    exact hm.setIntegral_preimage_emb he f _
  have : Quad.integral R ⊥ b f = (some (∫ x in Set.Iio b, f x)).map applyPrecision := by
    have hL := hR.laguerre (fun x => f (b - x) * Real.exp x) (by simpa only [e] using hi)
    simp only [e, hv] at hL
    rw [← hL]
    rfl
  rw [this]
  exact computes_round _

/-- **C91** Over all numbers the integral is computed with the weight `exp (-x ^ 2)`, which the caller does not ask for. -/
theorem C91_whole_partial (R : Quad.Rules) (hR : GaussRules R) (f : ℝ → ℝ)
    (hf : Integrable fun x => f x * Real.exp (-x ^ 2)) :
    Computes (Quad.integral R ⊥ ⊤ f) (∫ x, f x * Real.exp (-x ^ 2)) := by
  have : Quad.integral R ⊥ ⊤ f = (some (∫ x, f x * Real.exp (-x ^ 2))).map applyPrecision := by
    rw [← hR.hermite f hf]
    rfl
  rw [this]
  exact computes_round _

/-- **C91** So over all numbers the result is not the integral: that of `exp (-x ^ 2)` is more than 1.7, and less than
1.3 is returned. -/
theorem C91_whole_counterexample (R : Quad.Rules) (hR : GaussRules R) :
    (Integrable fun x : ℝ => Real.exp (-x ^ 2)) ∧ 17 / 10 < ∫ x : ℝ, Real.exp (-x ^ 2) ∧
    ∃ v, Quad.integral R ⊥ ⊤ (fun x => Real.exp (-x ^ 2)) = some v ∧ v < 13 / 10 := by
  have e : ∀ x : ℝ, Real.exp (-x ^ 2) * Real.exp (-x ^ 2) = Real.exp (-2 * x ^ 2) := by
    intro x
    rw [← Real.exp_add]
    congr 1
    ring
  have i1 : Integrable fun x : ℝ => Real.exp (-x ^ 2) := by
    simpa using integrable_exp_neg_mul_sq (b := 1) one_pos
  have i2 : Integrable fun x : ℝ => Real.exp (-2 * x ^ 2) := integrable_exp_neg_mul_sq two_pos
  have g1 : ∫ x : ℝ, Real.exp (-x ^ 2) = √Real.pi := by simpa using integral_gaussian 1
  have g2 : ∫ x : ℝ, Real.exp (-2 * x ^ 2) = √(Real.pi / 2) := integral_gaussian 2
  refine ⟨i1, ?_, ?_⟩
  · rw [g1]
    apply Real.lt_sqrt_of_sq_lt
    have := Real.pi_gt_three
    norm_num
    linarith
  · obtain ⟨v, h1, h2, _⟩ := C91_whole_partial R hR (fun x => Real.exp (-x ^ 2)) (by simpa only [e] using i2)
    refine ⟨v, h1, ?_⟩
    simp only [e, g2] at h2
    have hs : √(Real.pi / 2) < 128 / 100 := by
      rw [Real.sqrt_lt' (by norm_num)]
      have := Real.pi_lt_d2
      norm_num
      linarith
    have := (abs_le.1 h2).2
    linarith

/-- **C91** The piecewise integration never asks for an integral over all numbers, so it is not affected. -/
theorem C91_piecewise (J J' : Num.Endpoint → Num.Endpoint → ℚ) (h : ∀ a b, ¬ (a = ⊥ ∧ b = ⊤) → J a b = J' a b)
    (bp : Breakpoints) (a b : Num.Endpoint) (fuel : Nat) :
    Num.piecewiseIntegral J bp a b fuel = Num.piecewiseIntegral J' bp a b fuel := by
  have key : ∀ dir to' fuel c i n, Num.piecewiseFrom J dir bp to' fuel c i n = Num.piecewiseFrom J' dir bp to' fuel c i n := by
    intro dir to' fuel
    have hb : ∀ q : ℚ, Num.Endpoint.of q ≠ ⊥ := fun q => by simp [Num.Endpoint.of]; exact nofun
    have ht : ∀ q : ℚ, Num.Endpoint.of q ≠ ⊤ := fun q => by
      intro hq
      have : (some (some q) : Option (Option ℚ)) = some none := hq
      simp at this
    induction fuel with
    | zero => intros; rfl
    | succ fuel ih =>
      intro c i n
      have e1 : ∀ x q, Num.integral J x (.of q) = Num.integral J' x (.of q) := fun x q => by
        unfold Num.integral
        rw [h _ _ fun h => ht q h.2]
      have e2 : ∀ x q, Num.integral J (.of q) x = Num.integral J' (.of q) x := fun x q => by
        unfold Num.integral
        rw [h _ _ fun h => hb q h.1]
      unfold Num.piecewiseFrom
      simp only [e1, e2, ih]
  unfold Num.piecewiseIntegral
  simp only [key]

/-! ## Examples -/

example (R : Quad.Rules) (hR : GaussRules R) := C91_finite R hR 1 2 (fun x => x ^ 2) (by
  exact (continuous_pow 2).intervalIntegrable 1 2)

example (R : Quad.Rules) (hR : GaussRules R) := C91_above R hR 0 (fun x => Real.exp (-x)) (integrableOn_exp_neg_Ioi 0)

example (R : Quad.Rules) (hR : GaussRules R) := C91_below R hR 3 Real.exp ((integrableOn_exp_Iic 3).mono_set Set.Iio_subset_Iic_self)

example := Spec.exists_gauss

end Soco
