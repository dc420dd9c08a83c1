import Verif.Lemmas.SkiRental
import Mathlib.Analysis.SpecialFunctions.Exp
import Mathlib.Analysis.SpecialFunctions.Log.Basic
import Mathlib.Analysis.SpecialFunctions.ExpDeriv
import Mathlib.Analysis.Calculus.Deriv.MeanValue
import Mathlib.Analysis.Complex.ExponentialBounds

/-! # Keeping servers for a random time: servers of a single type -/

namespace Soco.Lb

/-- What a lane that has been idle for `a` slots is worth, if it is active with probability `p a`. -/
noncomputable def psi (R b : ℝ) (S G : Nat → ℝ) (a : Nat) (on : Bool) : ℝ :=
  if on then min (S 0 + G a) (R * (1 + b)) else S a

/-- What is needed of the probabilities `p a` of being active after `a` idle slots. -/
structure Fair (R b : ℝ) (p S G : Nat → ℝ) : Prop where
  one : 1 ≤ R
  b0 : 0 ≤ b
  p0 : p 0 = 1
  nonneg : ∀ a, 0 ≤ p a
  le_one : ∀ a, p a ≤ 1
  S_nonneg : ∀ a, 0 ≤ S a
  S_step : ∀ a, S a = p (a + 1) + S (a + 1)
  G0 : G 0 = 0
  G_step : ∀ a, G (a + 1) = G a + (R - p (a + 1))
  again : ∀ a, 1 + b * (1 - p a) ≤ R + G a
  rest : S 0 ≤ (R - 1) * (1 + b)

namespace Fair
variable {R b : ℝ} {p S G : Nat → ℝ}

theorem S_le (h : Fair R b p S G) (a : Nat) : S a ≤ S 0 := by
  induction a with
  | zero => exact le_refl _
  | succ a ih =>
    have h1 := h.S_step a
    have h2 := h.nonneg (a + 1)
    linarith

theorem G_nonneg (h : Fair R b p S G) (a : Nat) : 0 ≤ G a := by
  induction a with
  | zero => rw [h.G0]
  | succ a ih =>
    have h1 := h.G_step a
    have h2 := h.le_one (a + 1)
    have h3 := h.one
    linarith

theorem psi_nonneg (h : Fair R b p S G) (a : Nat) (on : Bool) : 0 ≤ psi R b S G a on := by
  have h1 := h.S_nonneg 0
  have h2 := h.S_nonneg a
  have h3 := h.G_nonneg a
  have h4 := h.one
  have h5 := h.b0
  unfold psi
  cases on
  · simpa using h2
  · simp only [if_true]
    apply le_min
    · linarith
    · nlinarith

theorem lane (h : Fair R b p S G) (a : Nat) (dem yo yn : Bool) (hd : dem = true → yn = true) :
    p (if dem then 0 else a + 1) + b * (if dem then 1 - p a else 0) + psi R b S G (if dem then 0 else a + 1) yn ≤
      R * ((if yn then 1 else 0) + b * (if yn = true ∧ ¬ yo = true then 1 else 0)) + psi R b S G a yo := by
  have h1 := h.one
  have hb := h.b0
  have hr := h.rest
  have hp0 := h.p0
  have hpa := h.nonneg a
  have hSa := h.S_nonneg a
  have hS1 := h.S_nonneg (a + 1)
  have hSs := h.S_step a
  have hSle := h.S_le a
  have hGs := h.G_step a
  have hG := h.G_nonneg a
  have hag := h.again a
  have hle := h.le_one (a + 1)
  have hnn := h.nonneg (a + 1)
  have hG0 := h.G0
  have hbp : b * p a ≥ 0 := mul_nonneg hb hpa
  have hRb : b ≤ R * b := by nlinarith
  unfold psi
  cases dem with
  | true =>
    have hyn := hd rfl
    subst hyn
    simp only [if_true, hp0, hG0, add_zero]
    have hm : min (S 0) (R * (1 + b)) ≤ S 0 := min_le_left _ _
    cases yo
    · simp; nlinarith
    · simp
      rcases le_total (S 0 + G a) (R * (1 + b)) with hc | hc
      · rw [min_eq_left hc]; linarith
      · rw [min_eq_right hc]; nlinarith
  | false =>
    simp only [Bool.false_eq_true, if_false, mul_zero, add_zero]
    cases yo <;> cases yn <;> simp
    · linarith
    · have : min (S 0 + G (a + 1)) (R * (1 + b)) ≤ R * (1 + b) := min_le_right _ _
      nlinarith
    · constructor
      · linarith
      · nlinarith
    · rcases le_total (S 0 + G a) (R * (1 + b)) with hc | hc
      · rw [min_eq_left hc]
        have : min (S 0 + G (a + 1)) (R * (1 + b)) ≤ S 0 + G (a + 1) := min_le_left _ _
        linarith
      · rw [min_eq_right hc]
        have : min (S 0 + G (a + 1)) (R * (1 + b)) ≤ R * (1 + b) := min_le_right _ _
        linarith

end Fair

/-! ## Exponential probabilities -/

theorem exp_two_mul_le (h : ℝ) (h0 : 0 ≤ h) : Real.exp (2 * h) * (1 - h) ≤ 1 + h := by
  have key : (1 - h) * Real.exp h ≤ (1 + h) * Real.exp (-h) := by
    have hd : ∀ x : ℝ, HasDerivAt (fun x => (1 + x) * Real.exp (-x) - (1 - x) * Real.exp x)
        (x * (Real.exp x - Real.exp (-x))) x := by
      intro x
      have h1 : HasDerivAt (fun x : ℝ => (1 + x) * Real.exp (-x)) (1 * Real.exp (-x) + (1 + x) * (Real.exp (-x) * (-1))) x :=
        ((hasDerivAt_id x).const_add 1).mul ((hasDerivAt_neg x).exp)
      have h2 : HasDerivAt (fun x : ℝ => (1 - x) * Real.exp x) ((-1) * Real.exp x + (1 - x) * Real.exp x) x :=
        ((hasDerivAt_id x).const_sub 1).mul (Real.hasDerivAt_exp x)
      have h3 := h1.sub h2
      have e : x * (Real.exp x - Real.exp (-x)) = 1 * Real.exp (-x) + (1 + x) * (Real.exp (-x) * (-1)) -
          ((-1) * Real.exp x + (1 - x) * Real.exp x) := by ring
      rw [e]
      exact h3
    have hm : MonotoneOn (fun x : ℝ => (1 + x) * Real.exp (-x) - (1 - x) * Real.exp x) (Set.Ici 0) := by
      apply monotoneOn_of_deriv_nonneg (convex_Ici 0)
      · exact fun x _ => (hd x).continuousAt.continuousWithinAt
      · exact fun x _ => (hd x).differentiableAt.differentiableWithinAt
      · intro x hx
        rw [interior_Ici] at hx
        rw [(hd x).deriv]
        have hx' : (0 : ℝ) < x := hx
        apply mul_nonneg hx'.le
        have := Real.exp_le_exp.2 (show -x ≤ x by linarith)
        linarith
    have := hm (show (0 : ℝ) ∈ Set.Ici 0 by simp) (show h ∈ Set.Ici 0 by simpa using h0) h0
    simp at this
    linarith
  have hp := Real.exp_pos h
  have h2 : Real.exp (2 * h) = Real.exp h * Real.exp h := by rw [← Real.exp_add]; ring_nf
  have h3 : Real.exp (-h) * Real.exp h = 1 := by rw [← Real.exp_add]; simp
  rw [h2]
  have := mul_le_mul_of_nonneg_right key hp.le
  nlinarith

/-- The probability of being active after `a` idle slots. -/
noncomputable def stay (b : ℝ) (a : Nat) : ℝ :=
  if a = 0 then 1 else if ((a : ℝ) + 1) ≤ b then (Real.exp 1 - Real.exp (((a : ℝ) + 1) / b)) / (Real.exp 1 - 1) else 0

/-- The competitive ratio. -/
noncomputable def eRatio : ℝ := Real.exp 1 / (Real.exp 1 - 1)

/-- Partial sums of `R - p`. -/
noncomputable def gain (b : ℝ) (a : Nat) : ℝ := ∑ i ∈ Finset.range a, (eRatio - stay b (i + 1))

/-- Remaining idle slots. -/
noncomputable def left (b : ℝ) (a : Nat) : ℝ := ∑ i ∈ Finset.range ⌊b⌋₊, if a < i then stay b i else 0

theorem e_gt : 2 < Real.exp 1 := by have := Real.exp_one_gt_d9; linarith
theorem e_lt : Real.exp 1 < 3 := by have := Real.exp_one_lt_d9; linarith

theorem eRatio_mul : eRatio * (Real.exp 1 - 1) = Real.exp 1 := by
  unfold eRatio
  have := e_gt
  rw [div_mul_cancel₀]
  linarith

theorem eRatio_ge : 3 / 2 ≤ eRatio := by
  unfold eRatio
  have := e_gt
  have := e_lt
  rw [le_div_iff₀ (by linarith)]
  linarith

theorem stay_zero (b : ℝ) : stay b 0 = 1 := by simp [stay]

theorem stay_le (b : ℝ) (hb : 0 ≤ b) (a : Nat) : 0 ≤ stay b a ∧ stay b a ≤ 1 := by
  have := e_gt
  unfold stay
  split_ifs with h1 h2
  · norm_num
  · have hb' : 0 < b := by
      have : (0 : ℝ) ≤ (a : ℝ) := by positivity
      linarith
    have h3 : ((a : ℝ) + 1) / b ≤ 1 := by rw [div_le_one hb']; exact h2
    have h4 : (0 : ℝ) ≤ ((a : ℝ) + 1) / b := by positivity
    have h5 := Real.exp_le_exp.2 h3
    have h6 := Real.one_le_exp h4
    constructor
    · apply div_nonneg <;> linarith
    · rw [div_le_one (by linarith)]; linarith
  · norm_num

theorem stay_eq_zero (b : ℝ) (a : Nat) (h0 : a ≠ 0) (h : ⌊b⌋₊ ≤ a) (hb : 0 ≤ b) : stay b a = 0 := by
  unfold stay
  rw [if_neg h0, if_neg]
  intro hc
  have : a + 1 ≤ ⌊b⌋₊ := Nat.le_floor (by push_cast; exact hc)
  omega

theorem stay_eq (b : ℝ) (a : Nat) (h0 : a ≠ 0) (h : (a : ℝ) + 1 ≤ b) :
    stay b a * (Real.exp 1 - 1) = Real.exp 1 - Real.exp (((a : ℝ) + 1) / b) := by
  have := e_gt
  unfold stay
  rw [if_neg h0, if_pos h, div_mul_cancel₀]
  linarith

theorem gain_succ (b : ℝ) (a : Nat) : gain b (a + 1) = gain b a + (eRatio - stay b (a + 1)) := by
  unfold gain
  rw [Finset.sum_range_succ]

theorem gain_mono (b : ℝ) (hb : 0 ≤ b) (a k : Nat) : gain b a ≤ gain b (a + k) := by
  induction k with
  | zero => exact le_refl _
  | succ k ih =>
    have := gain_succ b (a + k)
    have h1 := (stay_le b hb (a + k + 1)).2
    have h2 := eRatio_ge
    rw [← add_assoc]
    linarith

/-- The inequality for gaps shorter than the switching cost. -/
theorem again_short (b : ℝ) (a : Nat) (ha : 1 ≤ a) (h : (a : ℝ) + 1 ≤ b) : 1 + b * (1 - stay b a) ≤ eRatio + gain b a := by
  induction a, ha using Nat.le_induction with
  | base =>
    have hb : 2 ≤ b := by push_cast at h; linarith
    have h1 := stay_eq b 1 (by norm_num) h
    have he := e_gt
    have hR := eRatio_mul
    have h2 := exp_two_mul_le (1 / b) (by positivity)
    have e2 : ((1 : Nat) : ℝ) + 1 = 2 := by norm_num
    rw [e2, show (2 : ℝ) / b = 2 * (1 / b) by ring] at h1
    have h3 : gain b 1 = eRatio - stay b 1 := by simp [gain]
    rw [h3]
    set E := Real.exp (2 * (1 / b)) with hE
    have h4 : E * (b - 1) ≤ b + 1 := by
      have := mul_le_mul_of_nonneg_left h2 (show 0 ≤ b by linarith)
      have e : b * (1 / b) = 1 := by field_simp
      nlinarith
    have h5 : (1 + b * (1 - stay b 1)) * (Real.exp 1 - 1) ≤ (eRatio + (eRatio - stay b 1)) * (Real.exp 1 - 1) := by
      have a1 : (1 + b * (1 - stay b 1)) * (Real.exp 1 - 1) =
        (1 + b) * (Real.exp 1 - 1) - b * (stay b 1 * (Real.exp 1 - 1)) := by ring
      have a2 : (eRatio + (eRatio - stay b 1)) * (Real.exp 1 - 1) =
        2 * (eRatio * (Real.exp 1 - 1)) - stay b 1 * (Real.exp 1 - 1) := by ring
      rw [a1, a2, h1, hR]
      nlinarith
    exact le_of_mul_le_mul_right h5 (by linarith)
  | succ a ha ih =>
    push_cast at h
    have hb : 0 < b := by
      have : (0 : ℝ) ≤ (a : ℝ) := by positivity
      linarith
    have ih' := ih (by linarith)
    have h1 := stay_eq b a (by omega) (by linarith)
    have h2 := stay_eq b (a + 1) (by omega) (by push_cast; linarith)
    have he := e_gt
    have hR := eRatio_mul
    rw [gain_succ]
    push_cast at h2
    set y := ((a : ℝ) + 1) / b with hy
    have e1 : ((a : ℝ) + 1 + 1) / b = y + 1 / b := by rw [hy]; ring
    rw [e1, Real.exp_add] at h2
    have h3 : Real.exp (1 / b) - 1 ≤ 1 / b * Real.exp (1 / b) := by
      have h4 := Real.add_one_le_exp (-(1 / b))
      have h5 : Real.exp (-(1 / b)) * Real.exp (1 / b) = 1 := by rw [← Real.exp_add]; simp
      have := mul_le_mul_of_nonneg_right h4 (Real.exp_pos (1 / b)).le
      nlinarith
    have h4 : b * (Real.exp (1 / b) - 1) ≤ Real.exp (1 / b) := by
      have := mul_le_mul_of_nonneg_left h3 hb.le
      have e : b * (1 / b * Real.exp (1 / b)) = Real.exp (1 / b) := by field_simp
      linarith
    have h5 := mul_le_mul_of_nonneg_left h4 (Real.exp_pos y).le
    have h6 : (b * (stay b a - stay b (a + 1))) * (Real.exp 1 - 1) ≤ (eRatio - stay b (a + 1)) * (Real.exp 1 - 1) := by
      have a1 : (b * (stay b a - stay b (a + 1))) * (Real.exp 1 - 1) =
        b * (stay b a * (Real.exp 1 - 1) - stay b (a + 1) * (Real.exp 1 - 1)) := by ring
      rw [a1, sub_mul, h1, h2, hR]
      linarith
    have h7 := le_of_mul_le_mul_right h6 (by linarith)
    linarith

theorem left_step (b : ℝ) (hb : 0 ≤ b) (a : Nat) : left b a = stay b (a + 1) + left b (a + 1) := by
  unfold left
  by_cases h : a + 1 < ⌊b⌋₊
  · have e : stay b (a + 1) = ∑ i ∈ Finset.range ⌊b⌋₊, if i = a + 1 then stay b i else 0 := by
      rw [Finset.sum_ite_eq', if_pos (Finset.mem_range.2 h)]
    rw [e, ← Finset.sum_add_distrib]
    apply Finset.sum_congr rfl
    intro i _
    by_cases h1 : i = a + 1
    · subst h1; simp
    · by_cases h2 : a < i
      · rw [if_pos h2, if_neg h1, if_pos (by omega), zero_add]
      · rw [if_neg h2, if_neg h1, if_neg (by omega), zero_add]
  · rw [stay_eq_zero b (a + 1) (by omega) (by omega) hb, zero_add]
    rw [Finset.sum_eq_zero, Finset.sum_eq_zero]
    · intro i hi; rw [Finset.mem_range] at hi; rw [if_neg (by omega)]
    · intro i hi; rw [Finset.mem_range] at hi; rw [if_neg (by omega)]

theorem left_gain (b : ℝ) (hb : 0 ≤ b) (a : Nat) : left b 0 = left b a + a * eRatio - gain b a := by
  induction a with
  | zero => simp [gain]
  | succ a ih =>
    rw [ih, left_step b hb a, gain_succ]
    push_cast
    ring

theorem fair (b : ℝ) (hb : 0 ≤ b) : Fair eRatio b (stay b) (left b) (gain b) := by
  have hR := eRatio_ge
  have heR := eRatio_mul
  have he := e_gt
  -- the last gap
  have hlast : 2 ≤ b → 1 ≤ ⌊b⌋₊ - 1 ∧ ((⌊b⌋₊ - 1 : Nat) : ℝ) + 1 = ⌊b⌋₊ ∧ (⌊b⌋₊ : ℝ) ≤ b ∧ b < ⌊b⌋₊ + 1 ∧
      b * stay b (⌊b⌋₊ - 1) ≤ eRatio * (b - ⌊b⌋₊) := by
    intro h2
    have h3 : 2 ≤ ⌊b⌋₊ := Nat.le_floor (by exact_mod_cast h2)
    have h4 := Nat.floor_le hb
    have h5 := Nat.lt_floor_add_one b
    have h6 : ((⌊b⌋₊ - 1 : Nat) : ℝ) + 1 = ⌊b⌋₊ := by
      have : (⌊b⌋₊ - 1) + 1 = ⌊b⌋₊ := by omega
      exact_mod_cast congrArg (fun n : Nat => (n : ℝ)) this
    refine ⟨by omega, h6, h4, h5, ?_⟩
    have hs := stay_eq b (⌊b⌋₊ - 1) (by omega) (by rw [h6]; exact h4)
    rw [h6] at hs
    set n : ℝ := (⌊b⌋₊ : ℝ) with hn
    have e1 : Real.exp 1 = Real.exp (n / b) * Real.exp ((b - n) / b) := by
      rw [← Real.exp_add]
      congr 1
      field_simp
      ring
    have h7 := Real.add_one_le_exp (-((b - n) / b))
    have h8 : Real.exp (n / b) = Real.exp 1 * Real.exp (-((b - n) / b)) := by
      rw [← Real.exp_add]
      congr 1
      field_simp
      ring
    have h9 : b * stay b (⌊b⌋₊ - 1) * (Real.exp 1 - 1) ≤ eRatio * (b - n) * (Real.exp 1 - 1) := by
      have a1 : b * stay b (⌊b⌋₊ - 1) * (Real.exp 1 - 1) = b * (stay b (⌊b⌋₊ - 1) * (Real.exp 1 - 1)) := by ring
      have a2 : eRatio * (b - n) * (Real.exp 1 - 1) = (b - n) * (eRatio * (Real.exp 1 - 1)) := by ring
      rw [a1, a2, hs, heR, h8]
      have a3 : b * ((b - n) / b) = b - n := by field_simp
      have a4 : Real.exp 1 * (1 - Real.exp (-((b - n) / b))) ≤ Real.exp 1 * ((b - n) / b) :=
        mul_le_mul_of_nonneg_left (by linarith) (by linarith)
      have a5 := mul_le_mul_of_nonneg_left a4 hb
      nlinarith
    exact le_of_mul_le_mul_right h9 (by linarith)
  refine ⟨by linarith, hb, stay_zero b, fun a => (stay_le b hb a).1, fun a => (stay_le b hb a).2, ?_, left_step b hb,
    by simp [gain], gain_succ b, ?_, ?_⟩
  · intro a
    unfold left
    apply Finset.sum_nonneg
    intro i _
    split
    · exact (stay_le b hb i).1
    · exact le_refl _
  · intro a
    rcases Nat.eq_zero_or_pos a with h0 | h0
    · subst h0
      rw [stay_zero]
      simp [gain]
      linarith
    · rcases lt_or_ge b 2 with h2 | h2
      · have hz : stay b a = 0 := by
          unfold stay
          rw [if_neg (by omega), if_neg]
          have : (1 : ℝ) ≤ a := by exact_mod_cast h0
          linarith
        have hg := gain_mono b hb 1 (a - 1)
        rw [show 1 + (a - 1) = a by omega] at hg
        have hg1 : gain b 1 = eRatio := by
          have : stay b 1 = 0 := by
            unfold stay
            rw [if_neg (by norm_num), if_neg]
            push_cast
            linarith
          simp [gain, this]
        rw [hz]
        linarith
      · obtain ⟨l1, l2, l3, l4, l5⟩ := hlast h2
        rcases Nat.lt_or_ge a ⌊b⌋₊ with h3 | h3
        · apply again_short b a h0
          have : ((a + 1 : Nat) : ℝ) ≤ (⌊b⌋₊ : ℝ) := by exact_mod_cast h3
          push_cast at this
          linarith
        · have hz := stay_eq_zero b a (by omega) h3 hb
          have h4 := again_short b (⌊b⌋₊ - 1) l1 (by rw [l2]; exact l3)
          have h5 := gain_mono b hb (⌊b⌋₊ - 1 + 1) (a - ⌊b⌋₊)
          rw [show ⌊b⌋₊ - 1 + 1 + (a - ⌊b⌋₊) = a by omega, gain_succ,
            stay_eq_zero b (⌊b⌋₊ - 1 + 1) (by omega) (by omega) hb] at h5
          rw [hz]
          nlinarith
  · rcases lt_or_ge b 2 with h2 | h2
    · have : left b 0 = 0 := by
        unfold left
        apply Finset.sum_eq_zero
        intro i hi
        rw [Finset.mem_range] at hi
        have : ⌊b⌋₊ < 2 := (Nat.floor_lt hb).2 (by exact_mod_cast h2)
        rw [if_neg (by omega)]
      rw [this]
      apply mul_nonneg <;> linarith
    · obtain ⟨l1, l2, l3, l4, l5⟩ := hlast h2
      have h4 := again_short b (⌊b⌋₊ - 1) l1 (by rw [l2]; exact l3)
      have h5 := left_gain b hb (⌊b⌋₊ - 1)
      have h6 : left b (⌊b⌋₊ - 1) = 0 := by
        unfold left
        apply Finset.sum_eq_zero
        intro i hi
        rw [Finset.mem_range] at hi
        rw [if_neg (by omega)]
      rw [h6] at h5
      have l2' : ((⌊b⌋₊ - 1 : Nat) : ℝ) = ⌊b⌋₊ - 1 := by linarith
      rw [l2'] at h5
      rw [h5]
      nlinarith

end Soco.Lb
