import Verif.Lemmas.SkiRandom
import Verif.Model.Draw
import Verif.Spec.Rand
import Mathlib.MeasureTheory.Integral.Bochner.Set
import Mathlib.MeasureTheory.Function.Floor
import Mathlib.MeasureTheory.Function.SpecialFunctions.Basic

/-! # The expected cost of keeping servers for a random time -/

namespace Soco.Lb
open MeasureTheory

instance : IsProbabilityMeasure Spec.unif := ⟨by simp [Spec.unif]⟩

/-- The number of slots for which servers are kept. -/
noncomputable def slots (b r : ℝ) : Nat := max 1 ⌊sampleGamma r * b⌋₊

theorem arg_pos (r : ℝ) (h : 0 ≤ r) : 0 < r * (Real.exp 1 - 1) + 1 := by
  have := e_gt
  have : 0 ≤ r * (Real.exp 1 - 1) := mul_nonneg h (by linarith)
  linarith

theorem factor_le (r : ℝ) (h0 : 0 ≤ r) (h1 : r ≤ 1) : 0 ≤ sampleGamma r ∧ sampleGamma r ≤ 1 := by
  have he := e_gt
  have hp := arg_pos r h0
  constructor
  · apply Real.log_nonneg
    have : 0 ≤ r * (Real.exp 1 - 1) := mul_nonneg h0 (by linarith)
    linarith
  · unfold sampleGamma
    rw [Real.log_le_iff_le_exp hp]
    nlinarith

theorem lt_slots (b r : ℝ) (hb : 0 < b) (h0 : 0 ≤ r) (n : Nat) (hn : n ≠ 0) :
    n < slots b r ↔ (Real.exp (((n : ℝ) + 1) / b) - 1) / (Real.exp 1 - 1) ≤ r := by
  have he := e_gt
  have hp := arg_pos r h0
  unfold slots
  have h1 : n < max 1 ⌊sampleGamma r * b⌋₊ ↔ n + 1 ≤ ⌊sampleGamma r * b⌋₊ := by omega
  rw [h1, Nat.le_floor_iff' (by omega), div_le_iff₀ (by linarith), sub_le_iff_le_add]
  unfold sampleGamma
  rw [← div_le_iff₀ hb, Real.le_log_iff_exp_le hp]
  push_cast
  rfl

theorem measurable_slots (b : ℝ) : Measurable (slots b) := by
  unfold slots sampleGamma
  apply Measurable.max measurable_const
  apply Measurable.nat_floor
  apply Measurable.mul_const
  apply Real.measurable_log.comp
  exact (measurable_id.mul_const _).add_const _

/-- The probability of being active after `n` idle slots. -/
theorem prob_slots (b : ℝ) (hb : 0 < b) (n : Nat) :
    ∫ r, (if n < slots b r then (1 : ℝ) else 0) ∂Spec.unif = stay b n := by
  have he := e_gt
  by_cases hn : n = 0
  · subst hn
    have : ∀ r, 0 < slots b r := by intro r; unfold slots; omega
    simp [this, stay]
  have hset : MeasurableSet {r | n < slots b r} := measurable_slots b (measurableSet_Ioi (a := n))
  have e1 : (fun r => if n < slots b r then (1 : ℝ) else 0) = Set.indicator {r | n < slots b r} 1 := by
    funext r
    by_cases h : n < slots b r <;> simp [h]
  rw [e1, integral_indicator_one hset]
  set s := (Real.exp (((n : ℝ) + 1) / b) - 1) / (Real.exp 1 - 1) with hs
  have hs0 : 0 ≤ s := by
    apply div_nonneg
    · have := Real.one_le_exp (show 0 ≤ ((n : ℝ) + 1) / b by positivity)
      linarith
    · linarith
  have e2 : {r | n < slots b r} ∩ Set.Icc 0 1 = Set.Icc s 1 := by
    ext r
    simp only [Set.mem_inter_iff, Set.mem_setOf_eq, Set.mem_Icc]
    constructor
    · rintro ⟨h1, h2, h3⟩
      exact ⟨(lt_slots b r hb h2 n hn).1 h1, h3⟩
    · rintro ⟨h1, h2⟩
      exact ⟨(lt_slots b r hb (by linarith) n hn).2 h1, by linarith, h2⟩
  rw [measureReal_def, Spec.unif, Measure.restrict_apply hset, e2, Real.volume_Icc]
  unfold stay
  rw [if_neg hn]
  have hes : s * (Real.exp 1 - 1) = Real.exp (((n : ℝ) + 1) / b) - 1 := by
    rw [hs, div_mul_cancel₀]
    linarith
  by_cases hnb : (n : ℝ) + 1 ≤ b
  · have : ((n : ℝ) + 1) / b ≤ 1 := by rw [div_le_one hb]; exact hnb
    have := Real.exp_le_exp.2 this
    have hs1 : s ≤ 1 := by
      rw [hs, div_le_one (by linarith)]
      linarith
    rw [if_pos hnb, ENNReal.toReal_ofReal (by linarith), eq_div_iff (by linarith)]
    linarith
  · have : 1 ≤ ((n : ℝ) + 1) / b := by rw [le_div_iff₀ hb]; linarith
    have := Real.exp_le_exp.2 this
    have hs1 : 1 ≤ s := by
      rw [hs, le_div_iff₀ (by linarith)]
      linarith
    rw [if_neg hnb, ENNReal.ofReal_of_nonpos (by linarith)]
    rfl

theorem integrable_slots (b : ℝ) (f : Nat → ℝ) (C : ℝ) (h : ∀ n, |f n| ≤ C) :
    Integrable (fun r => f (slots b r)) Spec.unif := by
  apply Integrable.of_bound (C := C)
  · exact ((measurable_of_countable f).comp (measurable_slots b)).aestronglyMeasurable
  · exact Filter.Eventually.of_forall fun r => h _

/-! ## Idle slots without a limit -/

/-- Idle slots after a slot with load `l`. -/
def idleNext (l : ℤ) (a : Nat → Nat) (j : Nat) : Nat := if (j : ℤ) < l then 0 else a j + 1

/-- What is paid, where `q n` is the share of activity after `n` idle slots. -/
noncomputable def paid (c β : ℝ) (m : Nat) (q : Nat → ℝ) : (Nat → Nat) → List ℤ → ℝ
  | _, [] => 0
  | a, l :: ls => (∑ j ∈ Finset.range m, (c * q (idleNext l a j) + β * if (j : ℤ) < l then 1 - q (a j) else 0)) +
      paid c β m q (idleNext l a) ls

theorem idleStep_min (W : Nat) (hW : 1 ≤ W) (l : ℤ) (a : Nat → Nat) :
    idleStep W l (fun j => min (a j) W) = fun j => min (idleNext l a j) W := by
  funext j
  unfold idleStep idleNext
  simp only
  split <;> omega

theorem act_min (W m : Nat) (a : Nat → Nat) :
    (act W m (fun j => min (a j) W) : ℝ) = ∑ j ∈ Finset.range m, if a j < W then (1 : ℝ) else 0 := by
  have := act_sum W m fun j => min (a j) W
  have h2 : ((act W m (fun j => min (a j) W) : ℚ) : ℝ) = ((∑ j ∈ Finset.range m, if min (a j) W < W then (1 : ℚ) else 0 : ℚ) : ℝ) := by
    rw [this]
  push_cast at h2
  rw [h2]
  apply Finset.sum_congr rfl
  intro j _
  by_cases h : a j < W
  · rw [if_pos h, if_pos (by omega), Rat.cast_one]
  · rw [if_neg h, if_neg (by omega), Rat.cast_zero]

theorem line_le_paid (W m : Nat) (hW : 1 ≤ W) (c β : ℚ) (hβ : 0 ≤ β) (ls : List ℤ) (a : Nat → Nat) :
    ((lineCost c β (act W m fun j => min (a j) W) (rentals W m (fun j => min (a j) W) ls) : ℚ) : ℝ) ≤
      paid c β m (fun n => if n < W then 1 else 0) a ls := by
  induction ls generalizing a with
  | nil => simp [rentals, lineCost, paid]
  | cons l ls ih =>
    have h := ih (idleNext l a)
    simp only [rentals, lineCost, paid]
    rw [idleStep_min W hW]
    push_cast
    rw [act_min, act_min]
    have hβ' : (0 : ℝ) ≤ β := by exact_mod_cast hβ
    have key : max 0 ((∑ j ∈ Finset.range m, if idleNext l a j < W then (1 : ℝ) else 0) -
        ∑ j ∈ Finset.range m, if a j < W then (1 : ℝ) else 0) ≤
        ∑ j ∈ Finset.range m, if (j : ℤ) < l then 1 - (if a j < W then (1 : ℝ) else 0) else 0 := by
      apply max_le
      · apply Finset.sum_nonneg
        intro j _
        split_ifs <;> norm_num
      · rw [← Finset.sum_sub_distrib]
        apply Finset.sum_le_sum
        intro j _
        unfold idleNext
        by_cases h1 : (j : ℤ) < l
        · simp only [h1, if_true, show 0 < W by omega]
          exact le_refl _
        · simp only [h1, if_false]
          by_cases h2 : a j + 1 < W
          · rw [if_pos h2, if_pos (by omega)]; norm_num
          · rw [if_neg h2]; split_ifs <;> norm_num
    have := mul_le_mul_of_nonneg_left key hβ'
    rw [Finset.sum_add_distrib, ← Finset.mul_sum, ← Finset.mul_sum]
    linarith

theorem paid_integrable (c β b : ℝ) (m : Nat) (ls : List ℤ) (a : Nat → Nat) :
    Integrable (fun r => paid c β m (fun n => if n < slots b r then 1 else 0) a ls) Spec.unif := by
  induction ls generalizing a with
  | nil => simp [paid]
  | cons l ls ih =>
    simp only [paid]
    apply Integrable.add _ (ih _)
    apply integrable_finset_sum
    intro j _
    have hi : ∀ n, Integrable (fun r => if n < slots b r then (1 : ℝ) else 0) Spec.unif := fun n =>
      integrable_slots b (fun k => if n < k then (1 : ℝ) else 0) 1 (by intro k; split_ifs <;> norm_num)
    apply Integrable.add
    · exact (hi _).const_mul c
    · apply Integrable.const_mul
      split
      · exact (integrable_const 1).sub (hi _)
      · exact integrable_zero _ _ _

theorem paid_integral (c β b : ℝ) (hb : 0 < b) (m : Nat) (ls : List ℤ) (a : Nat → Nat) :
    ∫ r, paid c β m (fun n => if n < slots b r then 1 else 0) a ls ∂Spec.unif = paid c β m (stay b) a ls := by
  have hi : ∀ n, Integrable (fun r => if n < slots b r then (1 : ℝ) else 0) Spec.unif := fun n =>
    integrable_slots b (fun k => if n < k then (1 : ℝ) else 0) 1 (by intro k; split_ifs <;> norm_num)
  induction ls generalizing a with
  | nil => simp [paid]
  | cons l ls ih =>
    simp only [paid]
    have h2 : ∀ j : Nat, Integrable (fun r => if (j : ℤ) < l then 1 - (if a j < slots b r then (1 : ℝ) else 0) else 0)
        Spec.unif := by
      intro j
      split
      · exact (integrable_const 1).sub (hi _)
      · exact integrable_zero _ _ _
    rw [integral_add _ (paid_integrable c β b m ls _), ih, integral_finset_sum]
    · congr 1
      apply Finset.sum_congr rfl
      intro j _
      rw [integral_add ((hi _).const_mul c) ((h2 j).const_mul β), integral_const_mul, integral_const_mul, prob_slots b hb]
      congr 2
      split
      · rw [integral_sub (integrable_const 1) (hi _), prob_slots b hb]
        simp
      · simp
    · intro j _
      exact ((hi _).const_mul c).add ((h2 j).const_mul β)
    · apply integrable_finset_sum
      intro j _
      exact ((hi _).const_mul c).add ((h2 j).const_mul β)

theorem threshold_real (m : Nat) (y : ℤ) (h0 : 0 ≤ y) (hm : y ≤ m) :
    (y : ℝ) = ∑ j ∈ Finset.range m, if (j : ℤ) < y then (1 : ℝ) else 0 := by
  have := congrArg (fun q : ℚ => (q : ℝ)) (threshold_sum m y h0 hm)
  push_cast [apply_ite] at this
  exact this

theorem rise_real (m : Nat) (y y' : ℤ) (h0 : 0 ≤ y) (hm : y ≤ m) (h0' : 0 ≤ y') (hm' : y' ≤ m) :
    ∑ j ∈ Finset.range m, (if (j : ℤ) < y' ∧ ¬ (j : ℤ) < y then (1 : ℝ) else 0) = max 0 ((y' : ℝ) - y) := by
  have := congrArg (fun q : ℚ => (q : ℝ)) (rise_sum m y y' h0 hm h0' hm')
  push_cast [apply_ite] at this
  exact this

theorem paid_le (m : Nat) (c β : ℚ) (hc : 0 < c) (hβ : 0 < β) (ls ys : List ℤ)
    (h : List.Forall₂ (fun (l y : ℤ) => l ≤ y ∧ 0 ≤ y ∧ y ≤ (m : ℤ)) ls ys) (a : Nat → Nat) (y : ℤ) (hy0 : 0 ≤ y)
    (hym : y ≤ m) :
    paid c β m (stay ((β : ℝ) / c)) a ls ≤ eRatio * ((lineCost c β y ys : ℚ) : ℝ) +
      c * ∑ j ∈ Finset.range m, psi eRatio ((β : ℝ) / c) (left ((β : ℝ) / c)) (gain ((β : ℝ) / c)) (a j)
        (decide ((j : ℤ) < y)) := by
  have hc' : (0 : ℝ) < c := by exact_mod_cast hc
  have hβ' : (0 : ℝ) < β := by exact_mod_cast hβ
  set b := (β : ℝ) / c with hb
  have hb0 : 0 ≤ b := by positivity
  have hbc : (β : ℝ) = c * b := by rw [hb]; field_simp
  have F := fair b hb0
  induction h generalizing a y with
  | nil =>
    simp only [paid, lineCost, Rat.cast_zero, mul_zero, zero_add]
    exact mul_nonneg hc'.le (Finset.sum_nonneg fun j _ => F.psi_nonneg _ _)
  | @cons l y' ls ys hl _ ih =>
    obtain ⟨a1, a2, a3⟩ := hl
    have h1 := ih (idleNext l a) y' a2 a3
    simp only [paid, lineCost]
    have key : ∑ j ∈ Finset.range m, (stay b (idleNext l a j) + b * (if (j : ℤ) < l then 1 - stay b (a j) else 0) +
          psi eRatio b (left b) (gain b) (idleNext l a j) (decide ((j : ℤ) < y'))) ≤
        ∑ j ∈ Finset.range m, (eRatio * ((if (j : ℤ) < y' then (1 : ℝ) else 0) +
          b * (if (j : ℤ) < y' ∧ ¬ (j : ℤ) < y then (1 : ℝ) else 0)) +
          psi eRatio b (left b) (gain b) (a j) (decide ((j : ℤ) < y))) := by
      apply Finset.sum_le_sum
      intro j _
      have := F.lane (a j) (decide ((j : ℤ) < l)) (decide ((j : ℤ) < y)) (decide ((j : ℤ) < y'))
        (by simp only [decide_eq_true_eq]; omega)
      simpa only [decide_eq_true_eq, idleNext] using this
    simp only [Finset.sum_add_distrib, ← Finset.mul_sum] at key
    rw [← threshold_real m y' a2 a3, rise_real m y y' hy0 hym a2 a3] at key
    have key' := mul_le_mul_of_nonneg_left key hc'.le
    rw [Finset.sum_add_distrib, ← Finset.mul_sum, ← Finset.mul_sum]
    push_cast
    generalize paid _ _ m (stay b) (idleNext l a) ls = P at *
    rw [hbc]
    nlinarith

theorem slots_le (b : ℝ) (hb : 0 ≤ b) (r : ℝ) (hr : r ∈ Set.Icc (0 : ℝ) 1) : slots b r ≤ max 1 ⌊b⌋₊ := by
  have := (factor_le r hr.1 hr.2).2
  have h1 : ⌊sampleGamma r * b⌋₊ ≤ ⌊b⌋₊ := Nat.floor_le_floor (by nlinarith)
  unfold slots
  omega

theorem expected_integrable (b : ℝ) (hb : 0 ≤ b) (f : Nat → ℝ) : Integrable (fun r => f (slots b r)) Spec.unif := by
  set M := max 1 ⌊b⌋₊ with hM
  have hi := integrable_slots b (fun n => f (min n M)) (∑ k ∈ Finset.range (M + 1), |f k|) (by
    intro n
    exact Finset.single_le_sum (f := fun k => |f k|) (fun k _ => abs_nonneg _)
      (Finset.mem_range.2 (show min n M < M + 1 by omega)))
  refine hi.congr ?_
  unfold Spec.unif
  refine (ae_restrict_iff' measurableSet_Icc).2 (Filter.Eventually.of_forall fun r hr => ?_)
  have := slots_le b hb r hr
  show f (min (slots b r) M) = f (slots b r)
  rw [min_eq_left this]

/-- The expected cost is at most `e / (e - 1)` times the cost of any other way of handling the loads. -/
theorem expected_le (m : Nat) (c β : ℚ) (hc : 0 < c) (hβ : 0 < β) (ls ys : List ℤ)
    (h : List.Forall₂ (fun (l y : ℤ) => l ≤ y ∧ 0 ≤ y ∧ y ≤ (m : ℤ)) ls ys) :
    ∫ r, ((lineCost c β 0 (rentals (slots ((β : ℝ) / c) r) m (fun _ => slots ((β : ℝ) / c) r) ls) : ℚ) : ℝ) ∂Spec.unif ≤
      eRatio * ((lineCost c β 0 ys : ℚ) : ℝ) := by
  have hc' : (0 : ℝ) < c := by exact_mod_cast hc
  have hβ' : (0 : ℝ) < β := by exact_mod_cast hβ
  set b := (β : ℝ) / c with hb
  have hb0 : 0 < b := by positivity
  set M := max 1 ⌊b⌋₊ with hM
  have hWM : ∀ r ∈ Set.Icc (0 : ℝ) 1, slots b r ≤ M := slots_le b hb0.le
  have h1 := paid_le m c β hc hβ ls ys h (fun _ => M) 0 (le_refl _) (by omega)
  have hz : left b M = 0 := by
    unfold left
    apply Finset.sum_eq_zero
    intro i hi
    rw [Finset.mem_range] at hi
    rw [if_neg (by omega)]
  have h2 : ∑ j ∈ Finset.range m, psi eRatio b (left b) (gain b) M (decide ((j : ℤ) < 0)) = 0 := by
    apply Finset.sum_eq_zero
    intro j _
    have : ¬ ((j : ℤ) < 0) := by omega
    simp [psi, this, hz]
  rw [h2, mul_zero, add_zero] at h1
  refine le_trans ?_ h1
  rw [← paid_integral c β b hb0 m ls]
  have hpt : ∀ r ∈ Set.Icc (0 : ℝ) 1, ((lineCost c β 0 (rentals (slots b r) m (fun _ => slots b r) ls) : ℚ) : ℝ) ≤
      paid c β m (fun n => if n < slots b r then 1 else 0) (fun _ => M) ls := by
    intro r hr
    have := line_le_paid (slots b r) m (by unfold slots; omega) c β hβ.le ls (fun _ => M)
    have e : (fun _ : Nat => min M (slots b r)) = fun _ => slots b r := by
      funext j
      have := hWM r hr
      omega
    rw [e] at this
    have e2 : act (slots b r) m (fun _ => slots b r) = 0 := by simp [act]
    rwa [e2] at this
  apply integral_mono_ae (expected_integrable b hb0.le fun W =>
    ((lineCost c β 0 (rentals W m (fun _ => W) ls) : ℚ) : ℝ)) (paid_integrable c β b m ls _)
  unfold Spec.unif
  exact (ae_restrict_iff' measurableSet_Icc).2 (Filter.Eventually.of_forall hpt)

end Soco.Lb
