import Verif.Model.Distance
import Verif.Spec.Entropy
import Mathlib.Analysis.Calculus.Deriv.MeanValue
import Mathlib.Analysis.SpecialFunctions.Log.Deriv
import Mathlib.Tactic.Linarith
import Mathlib.Tactic.Positivity
import Mathlib.Tactic.FieldSimp

/-! # C99: negative entropy -/

namespace Soco.Distance
open Soco.Spec
namespace Entropy

/-- The divergence of numbers, in natural units. -/
noncomputable def kl (a b : ℝ) : ℝ := a * Real.log a - b * Real.log b - (Real.log b + 1) * (a - b)

noncomputable def g (t : ℝ) : ℝ := Real.log t - (t - 1) * (5 * t + 1) / (2 * t * (t + 2))

theorem g_deriv {t : ℝ} (ht : 0 < t) : HasDerivAt g ((t - 1) ^ 3 / (t ^ 2 * (t + 2) ^ 2)) t := by
  have h1 := Real.hasDerivAt_log ht.ne'
  have h2 : HasDerivAt (fun t : ℝ => (t - 1) * (5 * t + 1)) (1 * (5 * t + 1) + (t - 1) * (5 * 1)) t :=
    ((hasDerivAt_id t).sub_const 1).mul (((hasDerivAt_id t).const_mul 5).add_const 1)
  have h3 : HasDerivAt (fun t : ℝ => 2 * t * (t + 2)) (2 * 1 * (t + 2) + 2 * t * 1) t :=
    ((hasDerivAt_id t).const_mul 2).mul ((hasDerivAt_id t).add_const 2)
  have h4 := h1.sub (h2.div h3 (by positivity))
  refine h4.congr_deriv ?_
  field_simp
  ring

theorem g_nonneg {t : ℝ} (ht : 0 < t) : 0 ≤ g t := by
  have h1 : g 1 = 0 := by simp [g]
  rw [← h1]
  have hcont : ContinuousOn g (Set.Ioi 0) := fun s hs => (g_deriv hs).continuousAt.continuousWithinAt
  rcases le_total t 1 with h | h
  · have : AntitoneOn g (Set.Icc t 1) := by
      refine antitoneOn_of_deriv_nonpos (convex_Icc t 1) (hcont.mono fun s hs => lt_of_lt_of_le ht hs.1) ?_ ?_
      · intro s hs
        rw [interior_Icc] at hs
        exact (g_deriv (ht.trans hs.1)).differentiableAt.differentiableWithinAt
      · intro s hs
        rw [interior_Icc] at hs
        rw [(g_deriv (ht.trans hs.1)).deriv]
        have : (s - 1) ^ 3 ≤ 0 := Odd.pow_nonpos (by decide) (by linarith [hs.2])
        exact div_nonpos_of_nonpos_of_nonneg this (by positivity)
    exact this ⟨le_rfl, h⟩ ⟨h, le_rfl⟩ h
  · have : MonotoneOn g (Set.Icc 1 t) := by
      refine monotoneOn_of_deriv_nonneg (convex_Icc 1 t) (hcont.mono fun s hs => lt_of_lt_of_le one_pos hs.1) ?_ ?_
      · intro s hs
        rw [interior_Icc] at hs
        exact (g_deriv (one_pos.trans hs.1)).differentiableAt.differentiableWithinAt
      · intro s hs
        rw [interior_Icc] at hs
        rw [(g_deriv (one_pos.trans hs.1)).deriv]
        have : 0 ≤ (s - 1) ^ 3 := pow_nonneg (by linarith [hs.1]) 3
        positivity
    exact this ⟨le_rfl, h⟩ ⟨h, le_rfl⟩ h

theorem kl_lower {a b : ℝ} (ha : 0 < a) (hb : 0 < b) : (a - b) ^ 2 ≤ (2 * a + 4 * b) / 3 * kl a b := by
  have h := g_nonneg (div_pos ha hb)
  unfold g at h
  rw [Real.log_div ha.ne' hb.ne'] at h
  have e : kl a b = a * (Real.log a - Real.log b) - a + b := by unfold kl; ring
  have h2 : (a / b - 1) * (5 * (a / b) + 1) / (2 * (a / b) * (a / b + 2)) = (a - b) * (5 * a + b) / (2 * a * (a + 2 * b)) := by
    field_simp
  rw [h2, sub_nonneg, div_le_iff₀ (by positivity)] at h
  rw [e]
  have h3 : (2 * a + 4 * b) / 3 * (a * (Real.log a - Real.log b) - a + b) =
      ((Real.log a - Real.log b) * (2 * a * (a + 2 * b)) - (2 * a + 4 * b) * (a - b)) / 3 := by ring
  rw [h3, le_div_iff₀ (by norm_num)]
  nlinarith

theorem kl_nonneg {a b : ℝ} (ha : 0 < a) (hb : 0 < b) : 0 ≤ kl a b := by
  have h := kl_lower ha hb
  by_contra hn
  have : (2 * a + 4 * b) / 3 * kl a b < 0 := mul_neg_of_pos_of_neg (by positivity) (not_le.1 hn)
  nlinarith [sq_nonneg (a - b)]

/-- The divergence is at most the squared distance over twice the smaller number. -/
theorem kl_upper {δ a b : ℝ} (hδ : 0 < δ) (ha : δ ≤ a) (hb : δ ≤ b) : kl a b ≤ (a - b) ^ 2 / (2 * δ) := by
  have hb0 := hδ.trans_le hb
  set f : ℝ → ℝ := fun z => (z - b) ^ 2 / (2 * δ) - (z * Real.log z - b * Real.log b - (Real.log b + 1) * (z - b)) with hf
  have hd : ∀ z, 0 < z → HasDerivAt f ((z - b) / δ - (Real.log z - Real.log b)) z := by
    intro z hz
    have h1 : HasDerivAt (fun z : ℝ => (z - b) ^ 2 / (2 * δ)) ((2 : ℕ) * (z - b) ^ (2 - 1) * 1 / (2 * δ)) z :=
      (((hasDerivAt_id z).sub_const b).pow 2).div_const _
    have h2 : HasDerivAt (fun z : ℝ => z * Real.log z) (1 * Real.log z + z * z⁻¹) z :=
      (hasDerivAt_id z).mul (Real.hasDerivAt_log hz.ne')
    have h3 : HasDerivAt (fun z : ℝ => (Real.log b + 1) * (z - b)) ((Real.log b + 1) * 1) z :=
      ((hasDerivAt_id z).sub_const b).const_mul _
    refine (h1.sub ((h2.sub_const (b * Real.log b)).sub h3)).congr_deriv ?_
    field_simp
    norm_num
    ring
  have hlog : ∀ u v : ℝ, δ ≤ u → u ≤ v → Real.log v - Real.log u ≤ (v - u) / δ := by
    intro u v hu huv
    have hu0 := hδ.trans_le hu
    have hv0 := hu0.trans_le huv
    rw [← Real.log_div hv0.ne' hu0.ne']
    have := Real.log_le_sub_one_of_pos (div_pos hv0 hu0)
    refine this.trans ?_
    rw [div_sub_one hu0.ne']
    exact div_le_div_of_nonneg_left (by linarith) hδ hu
  have h0 : f b = 0 := by simp [hf]
  have key : 0 ≤ f a := by
    rw [← h0]
    rcases le_total a b with h | h
    · have : AntitoneOn f (Set.Icc a b) := by
        refine antitoneOn_of_deriv_nonpos (convex_Icc a b) (fun s hs => (hd s (hδ.trans_le (ha.trans hs.1))).continuousAt.continuousWithinAt) ?_ ?_
        · intro s hs
          rw [interior_Icc] at hs
          exact (hd s (hδ.trans_le (ha.trans hs.1.le))).differentiableAt.differentiableWithinAt
        · intro s hs
          rw [interior_Icc] at hs
          rw [(hd s (hδ.trans_le (ha.trans hs.1.le))).deriv]
          have := hlog s b (ha.trans hs.1.le) hs.2.le
          have e : (s - b) / δ = - ((b - s) / δ) := by ring
          linarith
      exact this ⟨le_rfl, h⟩ ⟨h, le_rfl⟩ h
    · have : MonotoneOn f (Set.Icc b a) := by
        refine monotoneOn_of_deriv_nonneg (convex_Icc b a) (fun s hs => (hd s (hδ.trans_le (hb.trans hs.1))).continuousAt.continuousWithinAt) ?_ ?_
        · intro s hs
          rw [interior_Icc] at hs
          exact (hd s (hδ.trans_le (hb.trans hs.1.le))).differentiableAt.differentiableWithinAt
        · intro s hs
          rw [interior_Icc] at hs
          rw [(hd s (hδ.trans_le (hb.trans hs.1.le))).deriv]
          have := hlog b s hb hs.1.le
          linarith
      exact this ⟨le_rfl, h⟩ ⟨h, le_rfl⟩ h
  simp only [hf] at key
  unfold kl
  linarith

/-- The entropy in natural units. -/
noncomputable def ent (x : List ℝ) : ℝ := (x.map fun j => j * Real.log j).sum

theorem value {x : List ℝ} (hx : ∀ j ∈ x, 0 < j) : negativeEntropy x = some (ent x / Real.log 2) := by
  unfold negativeEntropy
  rw [if_pos hx]
  congr 1
  unfold ent
  clear hx
  induction x with
  | nil => simp
  | cons a x ih =>
    simp only [List.map_cons, List.sum_cons, ih, add_div]
    simp only [Real.logb]
    ring

/-- The sum of the divergences of the entries. -/
noncomputable def div (x z : List ℝ) : ℝ := (List.zipWith kl x z).sum

theorem length_between (c : ℝ) (x y : List ℝ) (h : x.length = y.length) : (between' c x y).length = x.length := by
  simp [between', h]

theorem pos_between {c : ℝ} (h0 : 0 ≤ c) (h1 : c ≤ 1) {δ : ℝ} : ∀ {x y : List ℝ}, (∀ j ∈ x, δ ≤ j) → (∀ j ∈ y, δ ≤ j) →
    ∀ j ∈ between' c x y, δ ≤ j
  | [], _, _, _ => by simp [between']
  | _ :: _, [], _, _ => by simp [between']
  | a :: x, b :: y, hx, hy => by
    intro j hj
    simp only [between', List.zipWith_cons_cons, List.mem_cons] at hj
    rcases hj with rfl | hj
    · have h1 := hx a (by simp)
      have h2 := hy b (by simp)
      nlinarith
    · exact pos_between h0 h1 (fun j hj => hx j (by simp [hj])) (fun j hj => hy j (by simp [hj])) j hj

theorem positive_between {c : ℝ} (h0 : 0 ≤ c) (h1 : c ≤ 1) : ∀ {x y : List ℝ}, (∀ j ∈ x, 0 < j) → (∀ j ∈ y, 0 < j) →
    ∀ j ∈ between' c x y, 0 < j
  | [], _, _, _ => by simp [between']
  | _ :: _, [], _, _ => by simp [between']
  | a :: x, b :: y, hx, hy => by
    intro j hj
    simp only [between', List.zipWith_cons_cons, List.mem_cons] at hj
    rcases hj with rfl | hj
    · have h1 := hx a (by simp)
      have h2 := hy b (by simp)
      rcases eq_or_lt_of_le h0 with rfl | h
      · linarith
      · nlinarith [mul_pos h h2]
    · exact positive_between h0 h1 (fun j hj => hx j (by simp [hj])) (fun j hj => hy j (by simp [hj])) j hj

theorem sum_between (c : ℝ) : ∀ (x y : List ℝ), x.length = y.length → (between' c x y).sum = (1 - c) * x.sum + c * y.sum
  | [], [], _ => by simp [between']
  | a :: x, b :: y, h => by
    have := sum_between c x y (by simpa using h)
    simp only [between', List.zipWith_cons_cons, List.sum_cons] at this ⊢
    rw [this]; ring

/-- The distance of a chord to the function is a mean of divergences. -/
theorem chord (c : ℝ) : ∀ (x y : List ℝ), x.length = y.length →
    (1 - c) * ent x + c * ent y - ent (between' c x y) = (1 - c) * div x (between' c x y) + c * div y (between' c x y)
  | [], [], _ => by simp [between', ent, div]
  | a :: x, b :: y, h => by
    have := chord c x y (by simpa using h)
    simp only [between', ent, div, kl, List.zipWith_cons_cons, List.map_cons, List.sum_cons] at this ⊢
    linear_combination this

theorem apart_left {c : ℝ} (h0 : 0 ≤ c) : ∀ (x y : List ℝ), x.length = y.length →
    apart x (between' c x y) = c * apart x y
  | [], [], _ => by simp [between', apart]
  | a :: x, b :: y, h => by
    have := apart_left h0 x y (by simpa using h)
    simp only [between', apart, List.zipWith_cons_cons, List.sum_cons] at this ⊢
    rw [this, show a - ((1 - c) * a + c * b) = c * (a - b) by ring, abs_mul, abs_of_nonneg h0]
    ring

theorem apart_right {c : ℝ} (h1 : c ≤ 1) : ∀ (x y : List ℝ), x.length = y.length →
    apart y (between' c x y) = (1 - c) * apart x y
  | [], [], _ => by simp [between', apart]
  | a :: x, b :: y, h => by
    have := apart_right h1 x y (by simpa using h)
    simp only [between', apart, List.zipWith_cons_cons, List.sum_cons] at this ⊢
    rw [this, show b - ((1 - c) * a + c * b) = (1 - c) * (b - a) by ring, abs_mul, abs_of_nonneg (by linarith : 0 ≤ 1 - c),
      abs_sub_comm b a]
    ring

theorem apart_nonneg : ∀ x y : List ℝ, 0 ≤ apart x y
  | [], _ => by simp [apart]
  | _ :: _, [] => by simp [apart]
  | a :: x, b :: y => by
    have := apart_nonneg x y
    simp only [apart, List.zipWith_cons_cons, List.sum_cons] at this ⊢
    positivity

theorem div_nonneg' : ∀ (x z : List ℝ), (∀ j ∈ x, 0 < j) → (∀ j ∈ z, 0 < j) → 0 ≤ div x z
  | [], _, _, _ => by simp [div]
  | _ :: _, [], _, _ => by simp [div]
  | a :: x, b :: z, hx, hz => by
    have h1 := div_nonneg' x z (fun j hj => hx j (by simp [hj])) (fun j hj => hz j (by simp [hj]))
    have h2 := kl_nonneg (hx a (by simp)) (hz b (by simp))
    simp only [div, List.zipWith_cons_cons, List.sum_cons] at h1 ⊢
    linarith

theorem cauchy_step {p q W w K k : ℝ} (hW : 0 ≤ W) (hw : 0 ≤ w) (hK : 0 ≤ K) (hk : 0 ≤ k) (h1 : p ^ 2 ≤ W * K)
    (h2 : q ^ 2 ≤ w * k) : (q + p) ^ 2 ≤ (w + W) * (k + K) := by
  have h3 : (2 * (p * q)) ^ 2 ≤ (W * k + w * K) ^ 2 := by
    have h4 := mul_le_mul h1 h2 (sq_nonneg q) (mul_nonneg hW hK)
    nlinarith [sq_nonneg (W * k - w * K)]
  have h5 := abs_le_of_sq_le_sq h3 (by positivity)
  nlinarith [(abs_le.1 h5).2]

/-- The inequality of Pinsker before summing the weights. -/
theorem pinsker : ∀ (x z : List ℝ), x.length = z.length → (∀ j ∈ x, 0 < j) → (∀ j ∈ z, 0 < j) →
    apart x z ^ 2 ≤ (2 * x.sum + 4 * z.sum) / 3 * div x z
  | [], [], _, _, _ => by simp [apart, div]
  | a :: x, b :: z, h, hx, hz => by
    have h1 := pinsker x z (by simpa using h) (fun j hj => hx j (by simp [hj])) (fun j hj => hz j (by simp [hj]))
    have h2 := kl_lower (hx a (by simp)) (hz b (by simp))
    have h3 := div_nonneg' x z (fun j hj => hx j (by simp [hj])) (fun j hj => hz j (by simp [hj]))
    have h4 := kl_nonneg (hx a (by simp)) (hz b (by simp))
    have h5 : 0 ≤ x.sum := List.sum_nonneg fun j hj => (hx j (by simp [hj])).le
    have h6 : 0 ≤ z.sum := List.sum_nonneg fun j hj => (hz j (by simp [hj])).le
    have ha := hx a (by simp)
    have hb := hz b (by simp)
    have h7 : |a - b| ^ 2 ≤ (2 * a + 4 * b) / 3 * kl a b := by rwa [sq_abs]
    have := cauchy_step (W := (2 * x.sum + 4 * z.sum) / 3) (w := (2 * a + 4 * b) / 3) (by positivity) (by positivity) h3 h4 h1 h7
    simp only [apart, div, List.zipWith_cons_cons, List.sum_cons] at this ⊢
    refine this.trans (le_of_eq ?_)
    ring

theorem upper {δ : ℝ} (hδ : 0 < δ) : ∀ (x z : List ℝ), (∀ j ∈ x, δ ≤ j) → (∀ j ∈ z, δ ≤ j) →
    div x z ≤ apart x z ^ 2 / (2 * δ)
  | [], _, _, _ => by simp [apart, div]
  | _ :: _, [], _, _ => by simp [apart, div]
  | a :: x, b :: z, hx, hz => by
    have h1 := upper hδ x z (fun j hj => hx j (by simp [hj])) (fun j hj => hz j (by simp [hj]))
    have h2 := kl_upper hδ (hx a (by simp)) (hz b (by simp))
    have h3 := apart_nonneg x z
    simp only [apart, div, List.zipWith_cons_cons, List.sum_cons] at h1 h3 ⊢
    have h4 : (a - b) ^ 2 / (2 * δ) + (List.zipWith (fun a b => |a - b|) x z).sum ^ 2 / (2 * δ) ≤
        (|a - b| + (List.zipWith (fun a b => |a - b|) x z).sum) ^ 2 / (2 * δ) := by
      rw [← add_div]
      apply div_le_div_of_nonneg_right _ (by positivity)
      nlinarith [sq_abs (a - b), mul_nonneg (abs_nonneg (a - b)) h3]
    linarith

end Entropy

open Entropy

/-- **C99** Negative entropy panics exactly if some entry is not positive. -/
theorem C99_defined (x : List ℝ) : negativeEntropy x = none ↔ ∃ j ∈ x, j ≤ 0 := by
  unfold negativeEntropy
  split
  · rename_i h
    simpa using h
  · rename_i h
    push Not at h
    simpa using h

/-- **C99** In the interior of the simplex, negative entropy is `1 / ln 2`-strongly convex for the Manhattan norm, which is
twice the documented parameter. -/
theorem C99_strongly_convex : StronglyConvexOn Simplex (1 / Real.log 2) negativeEntropy := by
  rintro x y ⟨hx, hx1⟩ ⟨hy, hy1⟩ hl c h0 h1
  have hz := positive_between h0 h1 hx hy
  refine ⟨_, _, _, value hx, value hy, value hz, ?_⟩
  have hlog : 0 < Real.log 2 := Real.log_pos (by norm_num)
  have hsum : (between' c x y).sum = 1 := by rw [sum_between c x y hl, hx1, hy1]; ring
  have p1 := pinsker x (between' c x y) (length_between c x y hl).symm hx hz
  have p2 := pinsker y (between' c x y) (hl.symm.trans (length_between c x y hl).symm) hy hz
  rw [apart_left h0 x y hl, hx1, hsum] at p1
  rw [apart_right h1 x y hl, hy1, hsum] at p2
  have hch := chord c x y hl
  have h1' : 0 ≤ 1 - c := by linarith
  have key : ent (between' c x y) + c * (1 - c) * apart x y ^ 2 / 2 ≤ (1 - c) * ent x + c * ent y := by
    have q1 := mul_le_mul_of_nonneg_left p1 h1'
    have q2 := mul_le_mul_of_nonneg_left p2 h0
    nlinarith
  have : ent (between' c x y) / Real.log 2 + 1 / Real.log 2 / 2 * (c * (1 - c)) * apart x y ^ 2 =
      (ent (between' c x y) + c * (1 - c) * apart x y ^ 2 / 2) / Real.log 2 := by
    field_simp
  rw [this, show (1 - c) * (ent x / Real.log 2) + c * (ent y / Real.log 2) = ((1 - c) * ent x + c * ent y) / Real.log 2 by ring]
  exact div_le_div_of_nonneg_right key hlog.le

theorem smooth_from {δ : ℝ} (hδ : 0 < δ) : SmoothOn (fun x => ∀ j ∈ x, δ ≤ j) (1 / (δ * Real.log 2)) negativeEntropy := by
  intro x y hx hy hl c h0 h1
  have hz := pos_between h0 h1 hx hy
  have pos : ∀ x : List ℝ, (∀ j ∈ x, δ ≤ j) → ∀ j ∈ x, 0 < j := fun x hx j hj => hδ.trans_le (hx j hj)
  refine ⟨_, _, _, value (pos x hx), value (pos y hy), value (pos _ hz), ?_⟩
  have hlog : 0 < Real.log 2 := Real.log_pos (by norm_num)
  have p1 := upper hδ x (between' c x y) hx hz
  have p2 := upper hδ y (between' c x y) hy hz
  rw [apart_left h0 x y hl] at p1
  rw [apart_right h1 x y hl] at p2
  have hch := chord c x y hl
  have h1' : 0 ≤ 1 - c := by linarith
  have key : (1 - c) * ent x + c * ent y ≤ ent (between' c x y) + c * (1 - c) * apart x y ^ 2 / (2 * δ) := by
    have q1 := mul_le_mul_of_nonneg_left p1 h1'
    have q2 := mul_le_mul_of_nonneg_left p2 h0
    have e : (1 - c) * ((c * apart x y) ^ 2 / (2 * δ)) + c * (((1 - c) * apart x y) ^ 2 / (2 * δ)) =
      c * (1 - c) * apart x y ^ 2 / (2 * δ) := by ring
    linarith
  have : ent (between' c x y) / Real.log 2 + 1 / (δ * Real.log 2) / 2 * (c * (1 - c)) * apart x y ^ 2 =
      (ent (between' c x y) + c * (1 - c) * apart x y ^ 2 / (2 * δ)) / Real.log 2 := by
    field_simp
  rw [this, show (1 - c) * (ent x / Real.log 2) + c * (ent y / Real.log 2) = ((1 - c) * ent x + c * ent y) / Real.log 2 by ring]
  exact div_le_div_of_nonneg_right key hlog.le

/-- **C99** In the `δ`-interior of the simplex, negative entropy is `1 / (δ ln 2)`-smooth for the Manhattan norm, as
documented. -/
theorem C99_smooth {δ : ℝ} (hδ : 0 < δ) : SmoothOn (SimplexFrom δ) (1 / (δ * Real.log 2)) negativeEntropy :=
  fun x y hx hy => smooth_from hδ x y hx.1 hy.1

/-- How far a chord is from the function, for one entry. -/
theorem one_entry {s : ℝ} (hs : 0 < s) : ∃ a b v, negativeEntropy [s] = some a ∧ negativeEntropy [2 * s] = some b ∧
    negativeEntropy (between' (1 / 2) [s] [2 * s]) = some v ∧
    (1 - 1 / 2) * a + 1 / 2 * b - v = s * ((5 / 2 * Real.log 2 - 3 / 2 * Real.log 3) / Real.log 2) := by
  have e : between' (1 / 2) [s] [2 * s] = [3 / 2 * s] := by
    simp only [between', List.zipWith_cons_cons, List.zipWith_nil_left]
    congr 1; ring
  refine ⟨_, _, _, value (by simpa using hs), value (by simpa using hs), by rw [e]; exact value (by simpa using hs), ?_⟩
  simp only [ent, List.map_cons, List.map_nil, List.sum_cons, List.sum_nil]
  rw [Real.log_mul (by norm_num) hs.ne', Real.log_mul (by norm_num) hs.ne', Real.log_div (by norm_num) (by norm_num)]
  field_simp
  ring

theorem one_entry_pos : 0 < (5 / 2 * Real.log 2 - 3 / 2 * Real.log 3) / Real.log 2 := by
  have hlog : 0 < Real.log 2 := Real.log_pos (by norm_num)
  apply div_pos _ hlog
  have h : Real.log (3 ^ 3) < Real.log (2 ^ 5) := Real.log_lt_log (by norm_num) (by norm_num)
  rw [Real.log_pow, Real.log_pow] at h
  push_cast at h
  linarith

/-- On all vectors with positive entries, negative entropy is neither strongly convex nor smooth, whatever the parameter. -/
theorem C99_positive_counterexample :
    (∀ m, 0 < m → ¬ StronglyConvexOn (fun x => ∀ j ∈ x, 0 < j) m negativeEntropy) ∧
    ∀ M, ¬ SmoothOn (fun x => ∀ j ∈ x, 0 < j) M negativeEntropy := by
  set k := (5 / 2 * Real.log 2 - 3 / 2 * Real.log 3) / Real.log 2 with hk
  have hk0 : 0 < k := one_entry_pos
  have hap : ∀ s : ℝ, 0 < s → apart [s] [2 * s] = s := by
    intro s hs
    simp only [apart, List.zipWith_cons_cons, List.zipWith_nil_left, List.sum_cons, List.sum_nil, add_zero]
    rw [show s - 2 * s = -s by ring, abs_neg, abs_of_pos hs]
  constructor
  · intro m hm h
    have hs : 0 < 16 * k / m := by positivity
    obtain ⟨a, b, v, h1, h2, h3, h4⟩ := one_entry hs
    obtain ⟨a', b', v', g1, g2, g3, g4⟩ := h [16 * k / m] [2 * (16 * k / m)] (by simpa using hs) (by simpa using hs) rfl (1 / 2)
      (by norm_num) (by norm_num)
    rw [h1] at g1; rw [h2] at g2; rw [h3] at g3
    cases g1; cases g2; cases g3
    rw [hap _ hs] at g4
    rw [← hk] at h4
    have : m / 2 * (1 / 2 * (1 - 1 / 2)) * (16 * k / m) ^ 2 = 2 * (16 * k / m * k) := by field_simp; ring
    have : 0 < 16 * k / m * k := by positivity
    linarith
  · intro M h
    have hM : 0 < |M| + 1 := by positivity
    have hs : 0 < k / (|M| + 1) := by positivity
    obtain ⟨a, b, v, h1, h2, h3, h4⟩ := one_entry hs
    obtain ⟨a', b', v', g1, g2, g3, g4⟩ := h [k / (|M| + 1)] [2 * (k / (|M| + 1))] (by simpa using hs) (by simpa using hs) rfl
      (1 / 2) (by norm_num) (by norm_num)
    rw [h1] at g1; rw [h2] at g2; rw [h3] at g3
    cases g1; cases g2; cases g3
    rw [hap _ hs, ← hk] at *
    set s := k / (|M| + 1) with hsd
    have e : k = s * (|M| + 1) := by rw [hsd]; field_simp
    have h5 : M / 2 * (1 / 2 * (1 - 1 / 2)) * s ^ 2 ≤ |M| * s ^ 2 := by
      have := le_abs_self M
      have := abs_nonneg M
      nlinarith [sq_nonneg s]
    nlinarith [mul_pos hs hs]

/-- Non-vacuity: two points of the simplex. -/
example : Simplex [1 / 4, 3 / 4] ∧ Simplex [1 / 2, 1 / 2] ∧ SimplexFrom (1 / 4) [1 / 4, 3 / 4] ∧
    SimplexFrom (1 / 4) [1 / 2, 1 / 2] := by
  refine ⟨⟨?_, ?_⟩, ⟨?_, ?_⟩, ⟨?_, ?_⟩, ⟨?_, ?_⟩⟩ <;> simp <;> norm_num

end Soco.Distance
