import Verif.Model.Rand
import Verif.Spec.Rand
import Verif.Props.Examples
import Verif.Props.Convert

/-!
# C30, C31: randomised rounding
-/

namespace Soco
open Rand MeasureTheory

section support
variable {K : Type} [Field K] [LinearOrder K] [IsStrictOrderedRing K] [FloorRing K]

theorem Rand.next_support (x : ℤ) (py y r : K) : next x py y r = ⌊y⌋ ∨ next x py y r = ⌈y⌉ := by
  unfold next
  dsimp only
  split_ifs <;> simp_all

end support

section
variable {C D M : Type} [OutSuccess C] [OutFailure D]

/-- **C30.** Whatever the relaxation, the draws, the schedule so far and the memory: the value returned in a slot is
the floor or the ceiling of the fractional value memorised for that slot. Within the bound of the problem if the
fractional value is. -/
theorem C30_floor_or_ceiling (R : OnlineAlgorithm (SSCO ℚ C D) ℚ M) (draw : Int → ℚ) (o : Online (SSCO ℤ C D))
    (xs : Schedule ℤ) (pm : Option (Memory M)) (x : Config ℤ) (m' : Option (Memory M))
    (h : (randomized R draw).next o xs pm = .ok (x, m')) :
    ∃ (k : ℤ) (m : Memory M) (y : ℚ), x = [k] ∧ m' = some m ∧ m.y[0]? = some y ∧ (k = ⌊y⌋ ∨ k = ⌈y⌉) ∧
      ∀ b : ℤ, 0 ≤ y → y ≤ b → 0 ≤ k ∧ k ≤ b := by
  simp only [OnlineAlgorithm.next, randomized, bind, Except.bind] at h
  split at h
  · simp at h
  split at h
  · simp at h
  split at h
  · simp at h
  rename_i step hstep
  split at h
  · simp at h
  rename_i prevX hpx
  split at h
  · simp at h
  rename_i prevY hpy
  split at h
  · simp at h
  rename_i y hy
  simp only [Except.ok.injEq, Prod.mk.injEq] at h
  obtain ⟨rfl, rfl⟩ := h
  have hy' : step.1[0]? = some y := by
    unfold idx at hy
    cases h0 : step.1[0]? with
    | none => rw [h0] at hy; simp at hy
    | some z => rw [h0] at hy; simp at hy; rw [hy]
  refine ⟨_, _, y, rfl, rfl, hy', next_support _ _ _ _, ?_⟩
  intro b h0 hb
  have h1 : (0 : ℤ) ≤ ⌊y⌋ := Int.floor_nonneg.2 h0
  have h2 : ⌈y⌉ ≤ b := Int.ceil_le.2 hb
  have h3 := Int.floor_le_ceil y
  rcases next_support prevX prevY y (draw (Schedule.tEnd xs + 1)) with h | h <;> rw [h] <;> omega

end

/-! ### The distribution -/

instance : IsProbabilityMeasure Spec.unif := ⟨by simp [Spec.unif]⟩

theorem Rand.unif_map {p : ℝ} (h0 : 0 ≤ p) (h1 : p ≤ 1) (a b : ℤ) :
    Spec.unif.map (fun r => if r ≤ p then a else b)
      = ENNReal.ofReal p • Measure.dirac a + ENNReal.ofReal (1 - p) • Measure.dirac b := by
  have hm : Measurable fun r : ℝ => if r ≤ p then a else b :=
    Measurable.ite measurableSet_Iic measurable_const measurable_const
  have e1 : Spec.unif (Set.Iic p) = ENNReal.ofReal p := by
    rw [Spec.unif, Measure.restrict_apply measurableSet_Iic,
      show Set.Iic p ∩ Set.Icc 0 1 = Set.Icc 0 p by ext; simp only [Set.mem_inter_iff, Set.mem_Iic, Set.mem_Icc]; constructor <;> intro h <;> constructor <;> grind,
      Real.volume_Icc, sub_zero]
  have e2 : Spec.unif (Set.Ioi p) = ENNReal.ofReal (1 - p) := by
    rw [Spec.unif, Measure.restrict_apply measurableSet_Ioi,
      show Set.Ioi p ∩ Set.Icc 0 1 = Set.Ioc p 1 by ext; simp only [Set.mem_inter_iff, Set.mem_Ioi, Set.mem_Icc, Set.mem_Ioc]; constructor <;> intro h <;> constructor <;> grind,
      Real.volume_Ioc]
  ext s hs
  rw [Measure.map_apply hm hs]
  simp only [Measure.coe_add, Measure.coe_smul, Pi.add_apply, Pi.smul_apply, Measure.dirac_apply' _ hs, smul_eq_mul]
  by_cases ha : a ∈ s <;> by_cases hb : b ∈ s
  · rw [show (fun r : ℝ => if r ≤ p then a else b) ⁻¹' s = Set.univ by ext r; by_cases h : r ≤ p <;> simp [h, ha, hb]]
    simp only [Set.indicator_of_mem ha, Set.indicator_of_mem hb, Pi.one_apply, mul_one]
    rw [measure_univ, ← ENNReal.ofReal_add h0 (by linarith)]; simp
  · rw [show (fun r : ℝ => if r ≤ p then a else b) ⁻¹' s = Set.Iic p by ext r; by_cases h : r ≤ p <;> simp [h, ha, hb]]
    simp [ha, hb, e1]
  · rw [show (fun r : ℝ => if r ≤ p then a else b) ⁻¹' s = Set.Ioi p by ext r; by_cases h : r ≤ p <;> simp [h, ha, hb, not_lt.2, lt_of_not_ge]]
    simp [ha, hb, e2]
  · rw [show (fun r : ℝ => if r ≤ p then a else b) ⁻¹' s = ∅ by ext r; by_cases h : r ≤ p <;> simp [h, ha, hb]]
    simp [ha, hb]

theorem Rand.bind_two (c₁ c₂ : ENNReal) (a b : ℤ) (f : ℤ → Measure ℤ) :
    (c₁ • Measure.dirac a + c₂ • Measure.dirac b).bind f = c₁ • f a + c₂ • f b := by
  ext s hs
  rw [Measure.bind_apply hs (measurable_of_countable _).aemeasurable, lintegral_add_measure, lintegral_smul_measure,
    lintegral_smul_measure, lintegral_dirac, lintegral_dirac]
  simp

theorem Rand.project_real (a b c : ℝ) : project a b c = max b (min c a) := by
  unfold project umax umin
  rcases le_total c a with h | h
  · rw [min_eq_left h]
    rcases h.lt_or_eq with h' | h'
    · rw [if_neg (not_lt.2 h)]
      split_ifs with h2
      · rw [max_eq_left h2.le]
      · rw [max_eq_right (not_lt.1 h2)]
    · subst h'
      simp only [gt_iff_lt, lt_irrefl, if_false]
      split_ifs with h2
      · rw [max_eq_left h2.le]
      · rw [max_eq_right (not_lt.1 h2)]
  · rw [min_eq_right h]
    rcases h.lt_or_eq with h' | h'
    · rw [if_pos h']
      split_ifs with h2
      · rw [max_eq_left h2.le]
      · rw [max_eq_right (not_lt.1 h2)]
    · subst h'
      simp only [gt_iff_lt, lt_irrefl, if_false]
      split_ifs with h2
      · rw [max_eq_left h2.le]
      · rw [max_eq_right (not_lt.1 h2)]

theorem Rand.map_const (k : ℤ) : Spec.unif.map (fun _ => k) = Measure.dirac k := by
  rw [Measure.map_const, measure_univ, one_smul]

/-- Rounding an integral fractional value. -/
theorem Rand.next_integral {y : ℝ} (hy : (⌊y⌋ : ℝ) = y) (x : ℤ) (py r : ℝ) : next x py y r = ⌊y⌋ := by
  have hc : ⌈y⌉ = ⌊y⌋ := by
    apply le_antisymm _ (Int.floor_le_ceil y)
    rw [Int.ceil_le, hy]
  rcases next_support x py y r with h | h
  · exact h
  · rw [h, hc]

theorem Rand.ceil_of_not {y : ℝ} (hy : (⌊y⌋ : ℝ) ≠ y) : ⌈y⌉ = ⌊y⌋ + 1 := by
  apply le_antisymm (Int.ceil_le_floor_add_one y)
  rw [Int.add_one_le_iff, Int.lt_ceil]
  exact lt_of_le_of_ne (Int.floor_le y) hy

/-- Coming from below. -/
theorem Rand.next_up_far {py y : ℝ} (hy : (⌊y⌋ : ℝ) ≠ y) (h : py ≤ ⌊y⌋) (x : ℤ) (hx : x ≤ ⌈py⌉) (r : ℝ) :
    next x py y r = if r ≤ Int.fract y then ⌈y⌉ else ⌊y⌋ := by
  have hc := ceil_of_not hy
  have hle : py ≤ y := h.trans (Int.floor_le y)
  have hxf : x ≤ ⌊y⌋ := hx.trans (Int.ceil_le.2 h)
  have hp : project py (⌊y⌋ : ℝ) (⌈y⌉ : ℝ) = ⌊y⌋ := by
    rw [project_real, hc, min_eq_right (by push_cast; linarith), max_eq_left h]
  unfold next
  rw [if_pos hle, if_neg (by omega)]
  dsimp only
  rw [hp]
  simp only [leDiv, Int.floor_intCast, sub_self, sub_zero, one_ne_zero, if_false, div_one, decide_eq_true_eq]
  rfl

/-- Increasing within a unit interval. -/
theorem Rand.next_up_near {py y : ℝ} (hy : (⌊y⌋ : ℝ) ≠ y) (h : ⌊y⌋ < py) (hle : py ≤ y) (r : ℝ) :
    next ⌊y⌋ py y r = (if r ≤ (y - py) / (1 - (py - ⌊y⌋)) then ⌈y⌉ else ⌊y⌋) ∧ next ⌈y⌉ py y r = ⌈y⌉ := by
  have hc := ceil_of_not hy
  have hlt : y < ⌊y⌋ + 1 := Int.lt_floor_add_one y
  have hfl : ⌊py⌋ = ⌊y⌋ := by rw [Int.floor_eq_iff]; constructor <;> linarith
  have hp : project py (⌊y⌋ : ℝ) (⌈y⌉ : ℝ) = py := by
    rw [project_real, hc, min_eq_right (by push_cast; linarith), max_eq_right h.le]
  unfold next
  rw [if_pos hle, if_pos hle, if_neg (by omega), if_pos rfl]
  dsimp only
  rw [hp, hfl]
  refine ⟨?_, rfl⟩
  simp only [leDiv, if_neg (by linarith : ¬ (1 - (py - (⌊y⌋ : ℝ)) = 0)), decide_eq_true_eq]

/-- Decreasing within a unit interval. -/
theorem Rand.next_down_near {py y : ℝ} (hy : (⌊y⌋ : ℝ) ≠ y) (h : y < py) (hlt : py < ⌈y⌉) (r : ℝ) :
    next ⌈y⌉ py y r = (if r ≤ (py - y) / (py - ⌊y⌋) then ⌊y⌋ else ⌈y⌉) ∧ next ⌊y⌋ py y r = ⌊y⌋ := by
  have hc := ceil_of_not hy
  have hle : ⌊y⌋ ≤ y := Int.floor_le y
  rw [hc] at hlt
  push_cast at hlt
  have hfl : ⌊py⌋ = ⌊y⌋ := by rw [Int.floor_eq_iff]; constructor <;> linarith
  have hp : project py (⌊y⌋ : ℝ) (⌈y⌉ : ℝ) = py := by
    rw [project_real, hc, min_eq_right (by push_cast; linarith), max_eq_right (by linarith)]
  unfold next
  rw [if_neg (not_le.2 h), if_neg (not_le.2 h), if_neg (by omega), if_pos rfl]
  dsimp only
  rw [hp, hfl]
  refine ⟨?_, rfl⟩
  simp only [leDiv, if_neg (by linarith : ¬ (py - (⌊y⌋ : ℝ) = 0)), decide_eq_true_eq]

/-- Coming down from the ceiling or above, the floor is taken whatever the draw. -/
theorem Rand.next_down_far {py y : ℝ} (hy : (⌊y⌋ : ℝ) ≠ y) (h : ⌈y⌉ ≤ py) (x : ℤ) (r : ℝ) :
    next x py y r = ⌊y⌋ := by
  have hc := ceil_of_not hy
  have hlt : y < ⌊y⌋ + 1 := Int.lt_floor_add_one y
  have hp : project py (⌊y⌋ : ℝ) (⌈y⌉ : ℝ) = ⌈y⌉ := by
    rw [project_real, min_eq_left h, max_eq_right (by exact_mod_cast Int.floor_le_ceil y)]
  have h' : (⌊y⌋ : ℝ) + 1 ≤ py := by rw [hc] at h; exact_mod_cast h
  unfold next
  rw [if_neg (by rw [not_le]; linarith)]
  by_cases hx : x = ⌊y⌋
  · rw [if_pos hx, hx]
  · rw [if_neg hx]
    dsimp only
    rw [hp]
    have : (0 : ℝ) < ⌈y⌉ - y := by rw [hc]; push_cast; linarith
    simp [leDiv, this]

theorem Rand.dirac_combine {a b : ℝ} (ha : 0 ≤ a) (hb : 0 ≤ b) (hab : a + b = 1) (μ : Measure ℤ) :
    ENNReal.ofReal a • μ + ENNReal.ofReal b • μ = μ := by
  rw [← add_smul, ← ENNReal.ofReal_add ha hb, hab, ENNReal.ofReal_one, one_smul]

theorem Rand.ofReal_zero_smul (μ : Measure ℤ) : ENNReal.ofReal 0 • μ = 0 := by
  rw [ENNReal.ofReal_zero, zero_smul]

/-- **C31, one step.** If the previous value is distributed like the unbiased rounding of `py` and the step is gentle,
the next value is distributed like the unbiased rounding of `y`. -/
theorem C31_step_unbiased_partial (py y : ℝ) (h : Spec.GentleStep py y) :
    (Spec.rounded py).bind (fun x => Spec.unif.map (next x py y)) = Spec.rounded y := by
  have f0 := Int.fract_nonneg py
  have f1 := Int.fract_lt_one py
  have g0 := Int.fract_nonneg y
  have g1 := Int.fract_lt_one y
  rw [Spec.rounded, bind_two]
  by_cases hy : (⌊y⌋ : ℝ) = y
  · have e : ∀ x, Spec.unif.map (next x py y) = Measure.dirac ⌊y⌋ := by
      intro x
      rw [← map_const]
      congr 1
      funext r; exact next_integral hy x py r
    have hf : Int.fract y = 0 := by rw [Int.fract, hy, sub_self]
    rw [e, e, dirac_combine (by linarith) f0 (by ring), Spec.rounded, hf, sub_zero, ENNReal.ofReal_one, one_smul,
      ofReal_zero_smul, add_zero]
  have hc := ceil_of_not hy
  have hlt : y < ⌊y⌋ + 1 := Int.lt_floor_add_one y
  have hfy : Int.fract y = y - ⌊y⌋ := rfl
  have hfp : Int.fract py = py - ⌊py⌋ := rfl
  rcases le_or_gt py y with hle | hgt
  · rcases le_or_gt py ⌊y⌋ with hpf | hpf
    · -- far below
      have e : ∀ x, x ≤ ⌈py⌉ → Spec.unif.map (next x py y) = Spec.rounded y := by
        intro x hx
        rw [show next x py y = fun r => if r ≤ Int.fract y then ⌈y⌉ else ⌊y⌋ from
          funext fun r => next_up_far hy hpf x hx r, unif_map g0 g1.le, Spec.rounded, add_comm]
      rw [e _ (Int.floor_le_ceil py), e _ le_rfl, dirac_combine (by linarith) f0 (by ring)]
    · -- increase within the unit interval
      have hfl : ⌊py⌋ = ⌊y⌋ := by rw [Int.floor_eq_iff]; constructor <;> linarith
      have hpc : ⌈py⌉ = ⌈y⌉ := by
        rw [hc, Int.ceil_eq_iff]
        constructor
        · push_cast; linarith
        · push_cast; linarith
      rw [hfl] at hfp
      have hden : 0 < 1 - (py - ⌊y⌋) := by linarith
      rw [hfl, hpc, show next ⌊y⌋ py y = fun r => if r ≤ (y - py) / (1 - (py - ⌊y⌋)) then ⌈y⌉ else ⌊y⌋ from
          funext fun r => (next_up_near hy hpf hle r).1,
        show next ⌈y⌉ py y = fun _ => ⌈y⌉ from funext fun r => (next_up_near hy hpf hle r).2, map_const,
        unif_map (div_nonneg (by linarith) hden.le) (by rw [div_le_one hden]; linarith), Spec.rounded, smul_add,
        smul_smul, smul_smul, ← ENNReal.ofReal_mul (by linarith), ← ENNReal.ofReal_mul (by linarith), add_comm,
        ← add_assoc, ← add_smul, ← ENNReal.ofReal_add f0 (mul_nonneg (by linarith) (div_nonneg (by linarith) hden.le)),
        add_comm]
      congr 3
      · rw [hfp, hfy]; field_simp; ring
      · rw [hfp, hfy]; field_simp; ring
  · rcases h with h | h | h
    · linarith
    · -- decrease within the unit interval
      have h' : py < ⌊y⌋ + 1 := by rw [hc] at h; exact_mod_cast h
      have hle := Int.floor_le y
      have hfl : ⌊py⌋ = ⌊y⌋ := by rw [Int.floor_eq_iff]; constructor <;> linarith
      have hpc : ⌈py⌉ = ⌈y⌉ := by
        rw [hc, Int.ceil_eq_iff]
        constructor
        · push_cast; linarith
        · push_cast; linarith
      rw [hfl] at hfp
      have hden : 0 < py - ⌊y⌋ := by linarith
      rw [hfl, hpc, show next ⌈y⌉ py y = fun r => if r ≤ (py - y) / (py - ⌊y⌋) then ⌊y⌋ else ⌈y⌉ from
          funext fun r => (next_down_near hy hgt h r).1,
        show next ⌊y⌋ py y = fun _ => ⌊y⌋ from funext fun r => (next_down_near hy hgt h r).2, map_const,
        unif_map (div_nonneg (by linarith) hden.le) (by rw [div_le_one hden]; linarith), Spec.rounded, smul_add,
        smul_smul, smul_smul, ← ENNReal.ofReal_mul (by linarith), ← ENNReal.ofReal_mul (by linarith),
        ← add_assoc, ← add_smul, ← ENNReal.ofReal_add (by linarith) (mul_nonneg f0 (div_nonneg (by linarith) hden.le))]
      congr 3
      · rw [hfp, hfy]; field_simp; ring
      · rw [hfp, hfy]; field_simp; ring
    · exact absurd h hy

/-- The mean of the unbiased rounding is the fractional value. -/
theorem Rand.mean_rounded (y : ℝ) : ∫ x, (x : ℝ) ∂(Spec.rounded y) = y := by
  have hi : ∀ k : ℤ, Integrable (fun x : ℤ => (x : ℝ)) (Measure.dirac k) := fun k =>
    integrable_dirac (by simp)
  rw [Spec.rounded, integral_add_measure ((hi _).smul_measure ENNReal.ofReal_ne_top)
    ((hi _).smul_measure ENNReal.ofReal_ne_top), integral_smul_measure, integral_smul_measure, integral_dirac,
    integral_dirac, ENNReal.toReal_ofReal (by linarith [Int.fract_lt_one y]), ENNReal.toReal_ofReal (Int.fract_nonneg y)]
  by_cases hy : (⌊y⌋ : ℝ) = y
  · have hf : Int.fract y = 0 := by rw [Int.fract, hy, sub_self]
    rw [hf]; simp [hy]
  · rw [ceil_of_not hy]
    have hfy : Int.fract y = y - ⌊y⌋ := rfl
    rw [hfy]; push_cast; simp only [smul_eq_mul]; ring

/-- Consecutive values of `y :: ys` are gentle steps. -/
def Spec.Gentle (y : ℝ) (ys : List ℝ) : Prop := List.IsChain Spec.GentleStep (y :: ys)

/-- **C31, whole runs.** Along any fractional schedule all of whose steps are gentle, starting from 0, the integral
value in the last slot (hence in every slot, taking prefixes) is the unbiased rounding of the fractional value, and its
expectation is that value. -/
theorem C31_run_unbiased_partial (ys : List ℝ) (h : Spec.Gentle 0 ys) :
    Spec.law next (Measure.dirac 0) 0 ys = Spec.rounded (ys.getLastD 0) ∧
    ∫ x, (x : ℝ) ∂(Spec.law next (Measure.dirac 0) 0 ys) = ys.getLastD 0 := by
  have key : ∀ (ys : List ℝ) (y : ℝ), Spec.Gentle y ys →
      Spec.law next (Spec.rounded y) y ys = Spec.rounded (ys.getLastD y) := by
    intro ys
    induction ys with
    | nil => intro y _; rfl
    | cons z ys ih =>
      intro y h
      unfold Spec.Gentle at h
      rw [List.isChain_cons_cons] at h
      rw [Spec.law, C31_step_unbiased_partial y z h.1, ih z h.2, List.getLastD_cons]
  have e : Measure.dirac (0 : ℤ) = Spec.rounded 0 := by
    simp [Spec.rounded]
  rw [e, key ys 0 h]
  exact ⟨rfl, mean_rounded _⟩

/-- **C31 fails for the remaining steps.** Coming down from `⌈y⌉` or above to a fractional value `y`, the value is
always rounded down, so that the expectation is too small. -/
theorem C31_decrease_counterexample (py y : ℝ) (h : ¬ Spec.GentleStep py y) (μ : Measure ℤ) [IsProbabilityMeasure μ] :
    μ.bind (fun x => Spec.unif.map (next x py y)) = Measure.dirac ⌊y⌋ ∧
    ∫ x, (x : ℝ) ∂(μ.bind fun x => Spec.unif.map (next x py y)) < y := by
  unfold Spec.GentleStep at h
  push Not at h
  obtain ⟨h1, h2, h3⟩ := h
  have e : (fun x => Spec.unif.map (next x py y)) = fun _ => Measure.dirac ⌊y⌋ := by
    funext x
    rw [← map_const]
    congr 1
    funext r; exact next_down_far h3 h2 x r
  have e2 : μ.bind (fun _ => Measure.dirac ⌊y⌋) = Measure.dirac ⌊y⌋ := by
    rw [Measure.bind_const, measure_univ, one_smul]
  rw [e, e2]
  refine ⟨rfl, ?_⟩
  rw [integral_dirac]
  exact lt_of_le_of_ne (Int.floor_le y) h3

/-- The step from 2 to one half is not gentle: the expectation after it is 0. -/
example : ¬ Spec.GentleStep 2 (1 / 2) := by
  unfold Spec.GentleStep
  have h1 : ⌈(1 / 2 : ℝ)⌉ = 1 := by rw [Int.ceil_eq_iff]; norm_num
  have h2 : ⌊(1 / 2 : ℝ)⌋ = 0 := by rw [Int.floor_eq_iff]; norm_num
  rw [h1, h2]; norm_num

/-- A schedule of gentle steps, increasing and decreasing. -/
example : Spec.Gentle 0 [1 / 2, 8 / 5, 6 / 5, 1, 3 / 2] := by
  have h1 : ⌈(6 / 5 : ℝ)⌉ = 2 := by rw [Int.ceil_eq_iff]; norm_num
  have h2 : ⌊(1 : ℝ)⌋ = 1 := Int.floor_one
  simp only [Spec.Gentle, Spec.GentleStep, List.isChain_cons_cons, h1, h2]
  norm_num

/-- The rounding function over the rationals (the model of the algorithm) is the one over the reals (of which C31
speaks). -/
theorem Rand.next_cast (x : ℤ) (py y r : ℚ) : next x (py : ℝ) (y : ℝ) (r : ℝ) = next x py y r := by
  have hp : ∀ a b c : ℚ, project (a : ℝ) (b : ℝ) (c : ℝ) = ((project a b c : ℚ) : ℝ) := by
    intro a b c
    simp only [project, umax, umin, gt_iff_lt, Rat.cast_lt]
    split_ifs <;> simp_all
  have hl : ∀ a b c : ℚ, leDiv (a : ℝ) (b : ℝ) (c : ℝ) = leDiv a b c := by
    intro a b c
    simp only [leDiv, Rat.cast_eq_zero, Rat.cast_pos]
    split_ifs
    · rfl
    · congr 1
      rw [← Rat.cast_div, Rat.cast_le]
  unfold next
  dsimp only
  simp only [Rat.cast_le, Rat.ceil_cast, Rat.floor_cast, ← Rat.cast_intCast (α := ℝ), hp]
  simp only [Rat.floor_cast, ← Rat.cast_sub, ← Rat.cast_one (α := ℝ), ← Rat.cast_intCast (α := ℝ), hl]

section
variable {C D M : Type} [OutSuccess C] [OutFailure D]

/-- **C31, link to the algorithm.** Every slot of a run applies the rounding function to the last integral value (0 at
the start), the memorised fractional value (0 at the start), the fractional value of the slot and a fresh draw. -/
theorem C31_algorithm_step (R : OnlineAlgorithm (SSCO ℚ C D) ℚ M) (draw : Int → ℚ) (o : Online (SSCO ℤ C D))
    (xs : Schedule ℤ) (pm : Option (Memory M)) (x : Config ℤ) (m' : Option (Memory M)) (px : ℤ) (py : ℚ)
    (hx : xs.getLast?.getD [0] = [px]) (hy : (pm.elim [0] Memory.y) = [py])
    (h : (randomized R draw).next o xs pm = .ok (x, m')) :
    ∃ (m : Memory M) (y : ℚ), m' = some m ∧ m.y[0]? = some y ∧
      x = [next px (py : ℝ) (y : ℝ) (draw (xs.length + 1) : ℝ)] := by
  have e1 : Schedule.nowWithDefault xs [0] = [px] := by
    rw [← hx, Schedule.nowWithDefault, List.getLastD_eq_getLast?]
  have e2 : (pm.getD ⟨[0], none⟩).y = [py] := by rw [← hy]; cases pm <;> rfl
  simp only [OnlineAlgorithm.next, randomized, bind, Except.bind, e1, e2, idx, List.getElem?_cons_zero] at h
  split at h
  · simp at h
  split at h
  · simp at h
  split at h
  · simp at h
  rename_i step hstep
  cases h0 : step.1[0]? with
  | none => rw [h0] at h; simp at h
  | some y =>
    rw [h0] at h
    simp only [Except.ok.injEq, Prod.mk.injEq] at h
    obtain ⟨rfl, rfl⟩ := h
    exact ⟨_, y, rfl, h0, by rw [next_cast]; rfl⟩

end

/-- A relaxation for the examples: half of the slot number. -/
def Ex.halves : OnlineAlgorithm (SSCO ℚ Unit Unit) ℚ Unit where
  default _ := ()
  call _ t _ _ := .ok ([(t : ℚ) / 2], some ())

/-- Hypotheses of C30 and of the link hold: slot 3, coming from 1, at 3/2, with draw 1/3. -/
example : (randomized Ex.halves fun _ => 1 / 3).next ⟨{ Ex.ssco1 with tEnd := 3 }, 0⟩ [[0], [1]] (some ⟨[1], none⟩)
    = .ok ([2], some ⟨[3 / 2], some ()⟩) := by decide +kernel

end Soco
