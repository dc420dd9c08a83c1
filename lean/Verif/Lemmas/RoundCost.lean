import Verif.Props.Rand
import Mathlib.MeasureTheory.Integral.IntegrableOn
import Mathlib.MeasureTheory.Integral.Bochner.Set

/-!
# Expected costs of randomised rounding
-/

namespace Soco
namespace Rand
open MeasureTheory

/-- Linear interpolation between neighbouring integers. -/
noncomputable def lerp (c : ℤ → ℝ) (y : ℝ) : ℝ := (1 - Int.fract y) * c ⌊y⌋ + Int.fract y * c ⌈y⌉

/-- Costs of the values `xs` in the slots `t, t + 1, …`, coming from `x`. -/
noncomputable def intCost (c : Int → ℤ → ℝ) (β : ℝ) : Int → ℤ → List ℤ → ℝ
  | _, _, [] => 0
  | t, x, z :: xs => c t z + β * max 0 ((z : ℝ) - x) + intCost c β (t + 1) z xs

/-- Costs of the fractional values `ys` in the slots `t, t + 1, …`, coming from `y`, with interpolated hitting costs. -/
noncomputable def fracCost (c : Int → ℤ → ℝ) (β : ℝ) : Int → ℝ → List ℝ → ℝ
  | _, _, [] => 0
  | t, y, z :: ys => lerp (c t) z + β * max 0 (z - y) + fracCost c β (t + 1) z ys

theorem integral_ite (q a b : ℝ) : ∫ r, (if r ≤ q then a else b) ∂Spec.unif
    = (Spec.unif.real (Set.Iic q)) * a + (1 - Spec.unif.real (Set.Iic q)) * b := by
  have e : (fun r : ℝ => if r ≤ q then a else b) = fun r => (Set.Iic q).indicator (fun _ => a - b) r + b := by
    funext r
    by_cases h : r ≤ q
    · simp [h]
    · simp [h]
  rw [e, integral_add (Integrable.indicator (integrable_const _) measurableSet_Iic) (integrable_const _),
    integral_indicator_const _ measurableSet_Iic, integral_const]
  simp
  ring

theorem unif_Iic {q : ℝ} (h0 : 0 ≤ q) (h1 : q ≤ 1) : Spec.unif.real (Set.Iic q) = q := by
  rw [Measure.real, Spec.unif, Measure.restrict_apply measurableSet_Iic,
    show Set.Iic q ∩ Set.Icc 0 1 = Set.Icc 0 q by
      ext; simp only [Set.mem_inter_iff, Set.mem_Iic, Set.mem_Icc]; constructor <;> intro h <;> constructor <;> grind,
    Real.volume_Icc, sub_zero, ENNReal.toReal_ofReal h0]

/-- A step of the rounding is a draw between two values. -/
theorem next_two (x : ℤ) (py y : ℝ) : ∃ (p : ℝ) (u v : ℤ), ∀ H : ℤ → ℝ,
    ∫ r, H (next x py y r) ∂Spec.unif = p * H u + (1 - p) * H v := by
  have hc : ∀ k : ℤ, (∀ r, next x py y r = k) → ∃ (p : ℝ) (u v : ℤ), ∀ H : ℤ → ℝ,
      ∫ r, H (next x py y r) ∂Spec.unif = p * H u + (1 - p) * H v := by
    intro k hk
    refine ⟨1, k, k, fun H => ?_⟩
    simp only [hk]
    rw [integral_const]
    simp
  have hi : ∀ (q : ℝ) (u v : ℤ), (∀ r, next x py y r = if r ≤ q then u else v) → ∃ (p : ℝ) (u v : ℤ), ∀ H : ℤ → ℝ,
      ∫ r, H (next x py y r) ∂Spec.unif = p * H u + (1 - p) * H v := by
    intro q u v hk
    refine ⟨Spec.unif.real (Set.Iic q), u, v, fun H => ?_⟩
    rw [← integral_ite]
    congr 1
    funext r
    rw [hk]
    split_ifs <;> rfl
  by_cases h1 : py ≤ y
  · by_cases h2 : x = ⌈y⌉
    · exact hc x fun r => by unfold next; rw [if_pos h1, if_pos h2]
    · by_cases h3 : (1 - (project py (⌊y⌋ : ℝ) (⌈y⌉ : ℝ) - (⌊project py (⌊y⌋ : ℝ) (⌈y⌉ : ℝ)⌋ : ℝ))) = 0
      · by_cases h4 : 0 < y - project py (⌊y⌋ : ℝ) (⌈y⌉ : ℝ)
        · exact hc ⌈y⌉ fun r => by unfold next; rw [if_pos h1, if_neg h2]; simp only [leDiv, if_pos h3, h4]; simp
        · exact hc ⌊y⌋ fun r => by unfold next; rw [if_pos h1, if_neg h2]; simp only [leDiv, if_pos h3, h4]; simp
      · refine hi ((y - project py (⌊y⌋ : ℝ) (⌈y⌉ : ℝ)) /
          (1 - (project py (⌊y⌋ : ℝ) (⌈y⌉ : ℝ) - (⌊project py (⌊y⌋ : ℝ) (⌈y⌉ : ℝ)⌋ : ℝ)))) ⌈y⌉ ⌊y⌋ fun r => ?_
        unfold next
        rw [if_pos h1, if_neg h2]
        simp only [leDiv, if_neg h3, decide_eq_true_eq]
  · by_cases h2 : x = ⌊y⌋
    · exact hc x fun r => by unfold next; rw [if_neg h1, if_pos h2]
    · by_cases h3 : (project py (⌊y⌋ : ℝ) (⌈y⌉ : ℝ) - (⌊project py (⌊y⌋ : ℝ) (⌈y⌉ : ℝ)⌋ : ℝ)) = 0
      · by_cases h4 : 0 < project py (⌊y⌋ : ℝ) (⌈y⌉ : ℝ) - y
        · exact hc ⌊y⌋ fun r => by unfold next; rw [if_neg h1, if_neg h2]; simp only [leDiv, if_pos h3, h4]; simp
        · exact hc ⌈y⌉ fun r => by unfold next; rw [if_neg h1, if_neg h2]; simp only [leDiv, if_pos h3, h4]; simp
      · refine hi ((project py (⌊y⌋ : ℝ) (⌈y⌉ : ℝ) - y) /
          (project py (⌊y⌋ : ℝ) (⌈y⌉ : ℝ) - (⌊project py (⌊y⌋ : ℝ) (⌈y⌉ : ℝ)⌋ : ℝ))) ⌊y⌋ ⌈y⌉ fun r => ?_
        unfold next
        rw [if_neg h1, if_neg h2]
        simp only [leDiv, if_neg h3, decide_eq_true_eq]

/-- The expected cost of the rounding. -/
noncomputable def runCost (c : Int → ℤ → ℝ) (β : ℝ) (t : Int) (x : ℤ) (y : ℝ) (ys : List ℝ) : ℝ :=
  Spec.expect ys.length fun rs => intCost c β t x (Spec.roundAll next x y ys rs)

theorem expect_add (c : Int → ℤ → ℝ) (β : ℝ) : ∀ (ys : List ℝ) (t : Int) (x : ℤ) (y a : ℝ),
    Spec.expect ys.length (fun rs => a + intCost c β t x (Spec.roundAll next x y ys rs)) = a + runCost c β t x y ys := by
  intro ys
  induction ys with
  | nil => intro t x y a; rfl
  | cons z ys ih =>
    intro t x y a
    obtain ⟨p, u, v, hp⟩ := next_two x y z
    have e1 : ∀ (b : ℝ) (w : ℤ), Spec.expect ys.length (fun rs => b + (c t w + β * max 0 ((w : ℝ) - x)
        + intCost c β (t + 1) w (Spec.roundAll next w z ys rs)))
        = b + (c t w + β * max 0 ((w : ℝ) - x)) + runCost c β (t + 1) w z ys := by
      intro b w
      rw [← ih]
      congr 1
      funext rs
      ring
    have e2 : ∀ b : ℝ, Spec.expect (z :: ys).length (fun rs => b + intCost c β t x (Spec.roundAll next x y (z :: ys) rs))
        = p * (b + (c t u + β * max 0 ((u : ℝ) - x)) + runCost c β (t + 1) u z ys)
          + (1 - p) * (b + (c t v + β * max 0 ((v : ℝ) - x)) + runCost c β (t + 1) v z ys) := by
      intro b
      have := hp fun w => b + (c t w + β * max 0 ((w : ℝ) - x)) + runCost c β (t + 1) w z ys
      rw [← this]
      show ∫ r, Spec.expect ys.length _ ∂Spec.unif = _
      congr 1
      funext r
      exact e1 b _
    have e3 : runCost c β t x y (z :: ys) = Spec.expect (z :: ys).length
        (fun rs => 0 + intCost c β t x (Spec.roundAll next x y (z :: ys) rs)) := by
      unfold runCost
      congr 1
      funext rs
      rw [zero_add]
    rw [e3, e2, e2]
    ring

theorem runCost_cons (c : Int → ℤ → ℝ) (β : ℝ) (t : Int) (x : ℤ) (y z : ℝ) (ys : List ℝ) :
    runCost c β t x y (z :: ys) = ∫ r, (c t (next x y z r) + β * max 0 ((next x y z r : ℝ) - x)
      + runCost c β (t + 1) (next x y z r) z ys) ∂Spec.unif := by
  show ∫ r, Spec.expect ys.length _ ∂Spec.unif = _
  congr 1
  funext r
  rw [← expect_add]
  rfl

/-- One gentle step preserves expected costs. -/
theorem lerp_step (G : ℤ → ℝ) (β py y : ℝ) (h : Spec.GentleStep py y) :
    lerp (fun x => ∫ r, (G (next x py y r) + β * max 0 ((next x py y r : ℝ) - x)) ∂Spec.unif) py
      = lerp G y + β * max 0 (y - py) := by
  have f0 := Int.fract_nonneg py
  have f1 := Int.fract_lt_one py
  have g0 := Int.fract_nonneg y
  have g1 := Int.fract_lt_one y
  have hfy : Int.fract y = y - ⌊y⌋ := rfl
  have hfp : Int.fract py = py - ⌊py⌋ := rfl
  have hpl := Int.floor_le py
  have hpc := Int.le_ceil py
  have hint : ∀ (x k : ℤ), (∀ r, next x py y r = k) →
      ∫ r, (G (next x py y r) + β * max 0 ((next x py y r : ℝ) - x)) ∂Spec.unif = G k + β * max 0 ((k : ℝ) - x) := by
    intro x k hk
    simp only [hk]
    rw [integral_const]
    simp
  have hdraw : ∀ (x u v : ℤ) (q : ℝ), 0 ≤ q → q ≤ 1 → (∀ r, next x py y r = if r ≤ q then u else v) →
      ∫ r, (G (next x py y r) + β * max 0 ((next x py y r : ℝ) - x)) ∂Spec.unif
        = q * (G u + β * max 0 ((u : ℝ) - x)) + (1 - q) * (G v + β * max 0 ((v : ℝ) - x)) := by
    intro x u v q h0 h1 hk
    have := integral_ite q (G u + β * max 0 ((u : ℝ) - x)) (G v + β * max 0 ((v : ℝ) - x))
    rw [unif_Iic h0 h1] at this
    rw [← this]
    congr 1
    funext r
    rw [hk]
    split_ifs <;> rfl
  -- the mean of the rounding
  have hmean : (1 - Int.fract py) * (⌊py⌋ : ℝ) + Int.fract py * (⌈py⌉ : ℝ) = py := by
    by_cases hp : (⌊py⌋ : ℝ) = py
    · have : Int.fract py = 0 := by rw [hfp]; linarith
      rw [this]; linarith
    · rw [ceil_of_not hp, hfp]; push_cast; ring
  by_cases hy : (⌊y⌋ : ℝ) = y
  · unfold lerp
    beta_reduce
    rw [hint _ _ (next_integral hy _ py), hint _ _ (next_integral hy _ py)]
    have hf : Int.fract y = 0 := by rw [hfy]; linarith
    rw [hf, hy]
    rcases le_total py y with hle | hle
    · have h1 : (⌈py⌉ : ℝ) ≤ y := by rw [← hy]; exact_mod_cast Int.ceil_le.2 (by rw [hy]; exact hle)
      rw [max_eq_right (by linarith), max_eq_right (by linarith), max_eq_right (by linarith)]
      linear_combination (-β) * hmean
    · have h1 : y ≤ (⌊py⌋ : ℝ) := by rw [← hy]; exact_mod_cast Int.le_floor.2 (by rw [hy]; exact hle)
      rw [max_eq_left (by linarith), max_eq_left (by linarith), max_eq_left (by linarith)]
      ring
  have hc := ceil_of_not hy
  have hlt : y < ⌊y⌋ + 1 := Int.lt_floor_add_one y
  have hfl := Int.floor_le y
  have hcr : (⌈y⌉ : ℝ) = ⌊y⌋ + 1 := by rw [hc]; push_cast; ring
  rcases le_or_gt py y with hle | hgt
  · rcases le_or_gt py ⌊y⌋ with hpf | hpf
    · have h1 : (⌈py⌉ : ℝ) ≤ ⌊y⌋ := by exact_mod_cast Int.ceil_le.2 hpf
      unfold lerp
      beta_reduce
      rw [hdraw _ _ _ _ g0 g1.le (next_up_far hy hpf _ (Int.floor_le_ceil py)),
        hdraw _ _ _ _ g0 g1.le (next_up_far hy hpf _ le_rfl), hcr]
      rw [max_eq_right (by linarith), max_eq_right (by linarith), max_eq_right (by linarith),
        max_eq_right (by linarith), max_eq_right (by linarith)]
      rw [hfy]
      rw [hfp] at hmean ⊢
      linear_combination (-β) * hmean
    · have hfl' : ⌊py⌋ = ⌊y⌋ := by rw [Int.floor_eq_iff]; constructor <;> linarith
      have hpc' : ⌈py⌉ = ⌈y⌉ := by
        rw [hc, Int.ceil_eq_iff]
        constructor
        · push_cast; linarith
        · push_cast; linarith
      have hden : 0 < 1 - (py - ⌊y⌋) := by linarith
      unfold lerp
      beta_reduce
      rw [hfl', hpc', hdraw _ _ _ _ (div_nonneg (by linarith) hden.le) (by rw [div_le_one hden]; linarith)
          (fun r => (next_up_near hy hpf hle r).1), hint _ _ (fun r => (next_up_near hy hpf hle r).2), hcr, hfp, hfl', hfy]
      rw [max_eq_right (by linarith), sub_self, max_self, sub_self, max_self, max_eq_right (by linarith)]
      field_simp
      ring
  · rcases h with h | h | h
    · linarith
    · have h' : py < ⌊y⌋ + 1 := by rw [hc] at h; exact_mod_cast h
      have hfl' : ⌊py⌋ = ⌊y⌋ := by rw [Int.floor_eq_iff]; constructor <;> linarith
      have hpc' : ⌈py⌉ = ⌈y⌉ := by
        rw [hc, Int.ceil_eq_iff]
        constructor
        · push_cast; linarith
        · push_cast; linarith
      have hden : 0 < py - ⌊y⌋ := by linarith
      unfold lerp
      beta_reduce
      rw [hfl', hpc', hdraw _ _ _ _ (div_nonneg (by linarith) hden.le) (by rw [div_le_one hden]; linarith)
          (fun r => (next_down_near hy hgt h r).1), hint _ _ (fun r => (next_down_near hy hgt h r).2), hcr, hfp, hfl', hfy]
      simp only [sub_self, max_self]
      rw [max_eq_left (show (⌊y⌋ : ℝ) - (⌊y⌋ + 1) ≤ 0 by linarith), max_eq_left (show y - py ≤ 0 by linarith)]
      field_simp
      ring
    · exact absurd h hy

theorem lerp_runCost (c : Int → ℤ → ℝ) (β : ℝ) : ∀ (ys : List ℝ) (t : Int) (y : ℝ), Spec.Gentle y ys →
    lerp (fun x => runCost c β t x y ys) y = fracCost c β t y ys := by
  intro ys
  induction ys with
  | nil => intro t y _; simp [lerp, runCost, Spec.expect, Spec.roundAll, intCost, fracCost]
  | cons z ys ih =>
    intro t y h
    unfold Spec.Gentle at h
    rw [List.isChain_cons_cons] at h
    have e : (fun x => runCost c β t x y (z :: ys)) = fun x => ∫ r, ((fun w => c t w + runCost c β (t + 1) w z ys)
        (next x y z r) + β * max 0 ((next x y z r : ℝ) - x)) ∂Spec.unif := by
      funext x
      rw [runCost_cons]
      congr 1
      funext r
      ring
    rw [e]
    refine (lerp_step (fun w => c t w + runCost c β (t + 1) w z ys) β y z h.1).trans ?_
    have := ih (t + 1) z h.2
    rw [fracCost, ← this]
    unfold lerp
    ring

end Rand
end Soco
