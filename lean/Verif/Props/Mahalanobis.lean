import Verif.Model.Mahalanobis
import Verif.Spec.Mahalanobis
import Verif.Spec.Norm
import Mathlib.Tactic.FieldSimp
import Mathlib.Tactic.NormNum
import Mathlib.LinearAlgebra.Matrix.Notation
import Mathlib.LinearAlgebra.Matrix.ToLinearEquiv
import Mathlib.Data.List.GetD

/-! # C85: the Mahalanobis distance -/

namespace Soco
namespace Distance
open Spec Matrix

/-- The value of the squared distance. -/
noncomputable def quad {n : Nat} (q : Matrix (Fin n) (Fin n) ℚ) (d : Fin n → ℚ) : ℚ := d ⬝ᵥ q⁻¹.mulVec d

theorem toVec_sub {n : Nat} {x y : List ℚ} (hx : x.length = n) (hy : y.length = n) :
    toVec n (Config.sub x y) = vec n x - vec n y := by
  funext i
  have h1 : (i : Nat) < x.length := by have := i.2; omega
  have h2 : (i : Nat) < y.length := by have := i.2; omega
  simp only [toVec, Config.sub, vec, Pi.sub_apply]
  rw [List.getD_eq_getElem _ _ (by simp only [List.length_zipWith]; omega), List.getD_eq_getElem _ _ h1, List.getD_eq_getElem _ _ h2,
    List.getElem_zipWith]

theorem mahalanobis_ok {n : Nat} {q : Matrix (Fin n) (Fin n) ℚ} {mean : Config ℚ} {f : Config ℚ → Res ℚ}
    (h : mahalanobis q mean = .ok f) (hm : mean.length = n) :
    q.det ≠ 0 ∧ ∀ x, x.length = n → f x = .ok (quad q (vec n x - vec n mean)) := by
  unfold mahalanobis at h
  split at h
  · cases h
  · rename_i hd
    cases h
    refine ⟨hd, fun x hx => ?_⟩
    show (if (Config.sub x mean).length = n then _ else _) = _
    rw [if_pos (by simp [Config.sub, hx, hm]), toVec_sub hx hm]
    rfl

/-- **C85** (success). The distance is available for invertible matrices only, and fails with `MatrixMustBeInvertible` for all
others, positive semi-definite or not. -/
theorem C85_invertible {n : Nat} (q : Matrix (Fin n) (Fin n) ℚ) (mean : Config ℚ) :
    (q.det ≠ 0 → ∃ f, mahalanobis q mean = .ok f) ∧
    (q.det = 0 → mahalanobis q mean = .error (.fail .matrixMustBeInvertible)) := by
  constructor
  · intro h
    exact ⟨_, if_neg h⟩
  · intro h
    exact if_pos h

theorem quad_solve {n : Nat} {q : Matrix (Fin n) (Fin n) ℚ} (hq : q.det ≠ 0) (d : Fin n → ℚ) : q.mulVec (q⁻¹.mulVec d) = d := by
  rw [Matrix.mulVec_mulVec, Matrix.mul_nonsing_inv _ (isUnit_iff_ne_zero.2 hq), Matrix.one_mulVec]

/-- **C85** (value). The distance of `x` is the squared distance of `x` and the mean with respect to the matrix. -/
theorem C85_value {n : Nat} (q : Matrix (Fin n) (Fin n) ℚ) (mean : Config ℚ) (f : Config ℚ → Res ℚ) (h : mahalanobis q mean = .ok f)
    (hm : mean.length = n) (x : Config ℚ) (hx : x.length = n) :
    ∃ s, f x = .ok s ∧ SquaredDistance q x mean s ∧ ∀ s', SquaredDistance q x mean s' → s' = s := by
  obtain ⟨hq, hf⟩ := mahalanobis_ok h hm
  refine ⟨_, hf x hx, ⟨q⁻¹.mulVec (vec n x - vec n mean), ?_, rfl⟩, ?_⟩
  · intro i
    exact congrFun (quad_solve hq (vec n x - vec n mean)) i
  · rintro s ⟨w, h1, rfl⟩
    have h2 : q.mulVec w = vec n x - vec n mean := funext h1
    have h3 : w = q⁻¹.mulVec (vec n x - vec n mean) := by
      rw [← h2, Matrix.mulVec_mulVec, Matrix.nonsing_inv_mul _ (isUnit_iff_ne_zero.2 hq), Matrix.one_mulVec]
    rw [h3]
    rfl

/-- A configuration or mean of another dimension: the distance panics if one of them is too short. -/
theorem C85_dimension {n : Nat} (q : Matrix (Fin n) (Fin n) ℚ) (mean : Config ℚ) (f : Config ℚ → Res ℚ) (h : mahalanobis q mean = .ok f)
    (x : Config ℚ) : f x = .error .panic ↔ min x.length mean.length ≠ n := by
  unfold mahalanobis at h
  split at h
  · cases h
  · cases h
    simp only [Config.sub, List.length_zipWith]
    constructor
    · intro h1 h2
      rw [if_pos h2] at h1
      cases h1
    · intro h1
      rw [if_neg h1]

/-! ## Positive definite matrices -/

theorem covariance_form {n : Nat} {q : Matrix (Fin n) (Fin n) ℚ} (v : Fin n → ℚ) : v ⬝ᵥ q.mulVec v = ∑ i, ∑ j, v i * q i j * v j := by
  simp only [dotProduct, Matrix.mulVec, Finset.mul_sum, mul_assoc]

theorem covariance_det {n : Nat} {q : Matrix (Fin n) (Fin n) ℚ} (hq : Covariance q) : q.det ≠ 0 := by
  intro h
  obtain ⟨v, hv, h0⟩ := Matrix.exists_mulVec_eq_zero_iff.2 h
  have := hq.pos v hv
  rw [← covariance_form, h0, dotProduct_zero] at this
  exact lt_irrefl _ this

theorem covariance_symm {n : Nat} {q : Matrix (Fin n) (Fin n) ℚ} (hq : Covariance q) : qᵀ = q := by
  ext i j
  exact hq.symm j i

/-- The inner product that belongs to the matrix. -/
noncomputable def form {n : Nat} (q : Matrix (Fin n) (Fin n) ℚ) (d e : Fin n → ℚ) : ℚ := d ⬝ᵥ q⁻¹.mulVec e

theorem form_symm {n : Nat} {q : Matrix (Fin n) (Fin n) ℚ} (hq : Covariance q) (d e : Fin n → ℚ) : form q d e = form q e d := by
  have h : q⁻¹ᵀ = q⁻¹ := by rw [Matrix.transpose_nonsing_inv, covariance_symm hq]
  unfold form
  rw [Matrix.dotProduct_mulVec, ← Matrix.mulVec_transpose, h, dotProduct_comm]

theorem form_add_left {n : Nat} (q : Matrix (Fin n) (Fin n) ℚ) (d d' e : Fin n → ℚ) : form q (d + d') e = form q d e + form q d' e :=
  add_dotProduct _ _ _

theorem form_add_right {n : Nat} (q : Matrix (Fin n) (Fin n) ℚ) (d e e' : Fin n → ℚ) : form q d (e + e') = form q d e + form q d e' := by
  simp only [form, Matrix.mulVec_add, dotProduct_add]

theorem form_smul_left {n : Nat} (q : Matrix (Fin n) (Fin n) ℚ) (c : ℚ) (d e : Fin n → ℚ) : form q (c • d) e = c * form q d e := by
  simp only [form, smul_dotProduct, smul_eq_mul]

theorem form_smul_right {n : Nat} (q : Matrix (Fin n) (Fin n) ℚ) (c : ℚ) (d e : Fin n → ℚ) : form q d (c • e) = c * form q d e := by
  simp only [form, Matrix.mulVec_smul, dotProduct_smul, smul_eq_mul]

theorem quad_pos {n : Nat} {q : Matrix (Fin n) (Fin n) ℚ} (hq : Covariance q) {d : Fin n → ℚ} (hd : d ≠ 0) : 0 < quad q d := by
  have h := quad_solve (covariance_det hq) d
  have hw : q⁻¹.mulVec d ≠ 0 := by
    intro h0
    rw [h0, Matrix.mulVec_zero] at h
    exact hd h.symm
  have := hq.pos _ hw
  rw [← covariance_form, h, dotProduct_comm] at this
  exact this

theorem quad_zero {n : Nat} (q : Matrix (Fin n) (Fin n) ℚ) : quad q 0 = 0 := by simp [quad]

theorem quad_nonneg {n : Nat} {q : Matrix (Fin n) (Fin n) ℚ} (hq : Covariance q) (d : Fin n → ℚ) : 0 ≤ quad q d := by
  by_cases h : d = 0
  · rw [h, quad_zero]
  · exact (quad_pos hq h).le

theorem vec_inj {n : Nat} {x y : List ℚ} (hx : x.length = n) (hy : y.length = n) (h : vec n x = vec n y) : x = y := by
  refine List.ext_getElem (hx.trans hy.symm) fun i h1 h2 => ?_
  have := congrFun h ⟨i, by omega⟩
  simp only [vec] at this
  rwa [List.getD_eq_getElem _ _ h1, List.getD_eq_getElem _ _ h2] at this

/-- **C85** (definiteness and symmetry). For a symmetric positive definite matrix the distance succeeds, is not negative, vanishes at the mean and
nowhere else, and is the same at points opposite to each other. -/
theorem C85_definite {n : Nat} (q : Matrix (Fin n) (Fin n) ℚ) (hq : Covariance q) (mean : Config ℚ) (hm : mean.length = n) :
    ∃ (f : Config ℚ → Res ℚ) (g : Config ℚ → ℚ), mahalanobis q mean = .ok f ∧ (∀ x, x.length = n → f x = .ok (g x)) ∧
      (∀ x, x.length = n → 0 ≤ g x) ∧ (∀ x, x.length = n → (g x = 0 ↔ x = mean)) ∧
      ∀ x y, x.length = n → y.length = n → (∀ i, vec n x i + vec n y i = 2 * vec n mean i) → g x = g y := by
  obtain ⟨f, hf⟩ := (C85_invertible q mean).1 (covariance_det hq)
  obtain ⟨-, hv⟩ := mahalanobis_ok hf hm
  refine ⟨f, fun x => quad q (vec n x - vec n mean), hf, hv, fun x _ => quad_nonneg hq _, ?_, ?_⟩
  · intro x hx
    constructor
    · intro h
      by_contra hne
      have : vec n x - vec n mean ≠ 0 := fun h0 => hne (vec_inj hx hm (sub_eq_zero.1 h0))
      exact absurd h (quad_pos hq this).ne'
    · rintro rfl
      simp only [sub_self]
      exact quad_zero q
  · intro x y hx hy h
    have e : vec n y - vec n mean = -(vec n x - vec n mean) := by
      funext i
      have := h i
      simp only [Pi.sub_apply, Pi.neg_apply]
      linarith
    simp only [e]
    simp only [quad, Matrix.mulVec_neg, neg_dotProduct_neg]

/-- The middle of two configurations, with weights `1 - c` and `c`. -/
def between (c : ℚ) (x y : Config ℚ) : Config ℚ := List.zipWith (fun a b => (1 - c) * a + c * b) x y

theorem vec_between {n : Nat} (c : ℚ) {x y : List ℚ} (hx : x.length = n) (hy : y.length = n) :
    vec n (between c x y) = (1 - c) • vec n x + c • vec n y := by
  funext i
  have h1 : (i : Nat) < x.length := by have := i.2; omega
  have h2 : (i : Nat) < y.length := by have := i.2; omega
  simp only [vec, between, Pi.add_apply, Pi.smul_apply, smul_eq_mul]
  rw [List.getD_eq_getElem _ _ (by simp only [List.length_zipWith]; omega), List.getD_eq_getElem _ _ h1, List.getD_eq_getElem _ _ h2,
    List.getElem_zipWith]

/-- **C85** (convexity). For a symmetric positive definite matrix the distance `g` is strongly convex and smooth with constant 2 with respect to the distance of
two points: between two points it is below the chord by exactly `c (1 - c)` times their squared distance. With constant 1 it is therefore strongly convex, as documented, and not
smooth (`C85_smooth_counterexample`). -/
theorem C85_convex {n : Nat} (q : Matrix (Fin n) (Fin n) ℚ) (hq : Covariance q) (mean : Config ℚ) (hm : mean.length = n) (x y : Config ℚ)
    (hx : x.length = n) (hy : y.length = n) (c : ℚ) :
    ∃ (f : Config ℚ → Res ℚ) (a b m s : ℚ), mahalanobis q mean = .ok f ∧ f x = .ok a ∧ f y = .ok b ∧ f (between c x y) = .ok m ∧
      SquaredDistance q x y s ∧ 0 ≤ s ∧ m = (1 - c) * a + c * b - c * (1 - c) * s := by
  obtain ⟨f, hf⟩ := (C85_invertible q mean).1 (covariance_det hq)
  obtain ⟨hd, hv⟩ := mahalanobis_ok hf hm
  refine ⟨f, _, _, _, quad q (vec n x - vec n y), hf, hv x hx, hv y hy, hv _ (by simp [between, hx, hy]),
    ⟨q⁻¹.mulVec (vec n x - vec n y), fun i => congrFun (quad_solve hd (vec n x - vec n y)) i, rfl⟩, quad_nonneg hq _, ?_⟩
  rw [vec_between c hx hy]
  have e1 : (1 - c) • vec n x + c • vec n y - vec n mean = (1 - c) • (vec n x - vec n mean) + c • (vec n y - vec n mean) := by
    funext i
    simp only [Pi.sub_apply, Pi.add_apply, Pi.smul_apply, smul_eq_mul]
    ring
  have e2 : vec n x - vec n y = (vec n x - vec n mean) + (-1 : ℚ) • (vec n y - vec n mean) := by
    funext i
    simp only [Pi.sub_apply, Pi.add_apply, Pi.smul_apply, smul_eq_mul]
    ring
  rw [e1, e2]
  have sy := form_symm hq (vec n x - vec n mean) (vec n y - vec n mean)
  simp only [show ∀ d, quad q d = form q d d from fun _ => rfl, form_add_left, form_add_right, form_smul_left, form_smul_right]
  rw [← sy]
  ring

/-- **C85** (triangle inequality). The square roots of the distances satisfy the triangle inequality: if `a`, `b` and `s` are the squared distances
of `x` and `z`, `z` and `y`, and `x` and `y`, then the root of `s` is at most the sum of the roots of `a` and `b`. -/
theorem C85_triangle {n : Nat} (q : Matrix (Fin n) (Fin n) ℚ) (hq : Covariance q) (x y z : List ℚ) (a b s : ℚ)
    (ha : SquaredDistance q x z a) (hb : SquaredDistance q z y b) (hs : SquaredDistance q x y s) (r t : ℚ) (hr : 0 ≤ r) (ht : 0 ≤ t)
    (har : a ≤ r ^ 2) (hbt : b ≤ t ^ 2) : s ≤ (r + t) ^ 2 := by
  have hd := covariance_det hq
  have val : ∀ (u v : List ℚ) (c : ℚ), SquaredDistance q u v c → c = form q (vec n u - vec n v) (vec n u - vec n v) := by
    rintro u v c ⟨w, h1, rfl⟩
    have h2 : q.mulVec w = vec n u - vec n v := funext h1
    have h3 : w = q⁻¹.mulVec (vec n u - vec n v) := by
      rw [← h2, Matrix.mulVec_mulVec, Matrix.nonsing_inv_mul _ (isUnit_iff_ne_zero.2 hd), Matrix.one_mulVec]
    rw [h3]
    rfl
  rw [val _ _ _ ha] at har
  rw [val _ _ _ hb] at hbt
  rw [val _ _ _ hs]
  obtain ⟨d, hdd⟩ : ∃ d, d = vec n x - vec n z := ⟨_, rfl⟩
  obtain ⟨e, hee⟩ : ∃ e, e = vec n z - vec n y := ⟨_, rfl⟩
  have hsum : vec n x - vec n y = d + e := by rw [hdd, hee]; abel
  rw [hsum]
  rw [← hdd] at har
  rw [← hee] at hbt
  have cs : form q d e ≤ r * t := by
    rcases hr.lt_or_eq with hr0 | hr0
    · rcases ht.lt_or_eq with ht0 | ht0
      · have h := quad_nonneg hq (t • d + (-r) • e)
        simp only [show ∀ d, quad q d = form q d d from fun _ => rfl, form_add_left, form_add_right, form_smul_left, form_smul_right] at h
        rw [form_symm hq e d] at h
        have h1 : t * (t * form q d d) ≤ t * (t * r ^ 2) := mul_le_mul_of_nonneg_left (mul_le_mul_of_nonneg_left har ht) ht
        have h2 : r * (r * form q e e) ≤ r * (r * t ^ 2) := mul_le_mul_of_nonneg_left (mul_le_mul_of_nonneg_left hbt hr) hr
        have h3 : (r * t) * form q d e ≤ (r * t) * (r * t) := by nlinarith
        exact le_of_mul_le_mul_left h3 (mul_pos hr0 ht0)
      · have he : e = 0 := by
          by_contra hne
          have := quad_pos hq hne
          rw [← ht0] at hbt
          have : form q e e ≤ 0 := by simpa using hbt
          exact absurd (quad_pos hq hne) (not_lt.2 this)
        rw [he, ← ht0]
        simp [form]
    · have he : d = 0 := by
        by_contra hne
        rw [← hr0] at har
        have : form q d d ≤ 0 := by simpa using har
        exact absurd (quad_pos hq hne) (not_lt.2 this)
      rw [he, ← hr0]
      simp [form]
  simp only [form_add_left, form_add_right]
  rw [form_symm hq e d]
  nlinarith

/-! ## What fails -/

/-- The identity in one dimension. -/
def oneMat : Matrix (Fin 1) (Fin 1) ℚ := 1

theorem oneMat_covariance : Covariance oneMat where
  symm i j := by rw [Subsingleton.elim i j]
  pos v hv := by
    have h0 : v 0 ≠ 0 := by
      intro h
      exact hv (funext fun i => by rw [Subsingleton.elim i 0, h]; rfl)
    simp only [Fin.sum_univ_one, oneMat, Matrix.one_apply_eq, mul_one]
    exact mul_self_pos.2 h0

theorem oneMat_value : ∃ f, mahalanobis oneMat [0] = .ok f ∧ ∀ x : ℚ, f [x] = .ok (x ^ 2) := by
  obtain ⟨f, hf⟩ := (C85_invertible oneMat [0]).1 (covariance_det oneMat_covariance)
  refine ⟨f, hf, fun x => ?_⟩
  rw [(mahalanobis_ok hf rfl).2 [x] rfl]
  simp only [quad, oneMat, inv_one, Matrix.one_mulVec, dotProduct, Fin.sum_univ_one, vec, Pi.sub_apply]
  simp [pow_two]

/-- **C85 is false of the code** in three respects. The Mahalanobis distance is documented as a norm which is 1-smooth, and half of its square as 1-strongly convex. With the unit matrix
in one dimension and mean 0 it is the square: doubling a configuration multiplies it by 4; from 0, where it is least, to 1 it grows by 1 rather than by at most `1/2`; and the middle of `-1/4` and `1/4`
is not below the chord by an eighth of the squared distance when it is squared and halved. -/
theorem C85_smooth_counterexample : ∃ f : Config ℚ → Res ℚ, mahalanobis oneMat [0] = .ok f ∧
    f [1] = .ok 1 ∧ f [2] = .ok 4 ∧
    (∀ x : ℚ, ∃ v, f [x] = .ok v ∧ 0 ≤ v) ∧ f [0] = .ok 0 ∧ ¬ ((1 : ℚ) ≤ 0 + 1 / 2 * 1 ^ 2) ∧
    ∃ a b : ℚ, f [1 / 4] = .ok a ∧ f [-1 / 4] = .ok b ∧
      ¬ ((0 : ℚ) ^ 2 / 2 ≤ (a ^ 2 / 2 + b ^ 2 / 2) / 2 - 1 / 8 * (1 / 4 - -1 / 4) ^ 2) := by
  obtain ⟨f, hf, hv⟩ := oneMat_value
  refine ⟨f, hf, by rw [hv]; norm_num, by rw [hv]; norm_num, fun x => ⟨_, hv x, sq_nonneg x⟩, by rw [hv]; norm_num, by norm_num,
    _, _, hv _, hv _, by norm_num⟩

/-- Non-vacuity of `C85_definite`, `C85_convex` and `C85_triangle`: a symmetric positive definite matrix that is not diagonal. -/
example : Covariance (!![2, 1; 1, 2] : Matrix (Fin 2) (Fin 2) ℚ) where
  symm i j := by fin_cases i <;> fin_cases j <;> rfl
  pos v hv := by
    simp only [Fin.sum_univ_two, Matrix.of_apply, Matrix.cons_val', Matrix.cons_val_zero, Matrix.cons_val_one, Matrix.cons_val_fin_one]
    have : v 0 ≠ 0 ∨ v 1 ≠ 0 := by
      by_contra hc
      push Not at hc
      exact hv (funext fun i => by fin_cases i <;> simp [hc])
    rcases this with h | h
    · have : 0 < v 0 ^ 2 := by positivity
      nlinarith [sq_nonneg (v 0 + v 1), sq_nonneg (v 1)]
    · have : 0 < v 1 ^ 2 := by positivity
      nlinarith [sq_nonneg (v 0 + v 1), sq_nonneg (v 0)]

/-- A singular positive semi-definite matrix, for which the distance fails. -/
example : mahalanobis (!![1, 0; 0, 0] : Matrix (Fin 2) (Fin 2) ℚ) [0, 0] = .error (.fail .matrixMustBeInvertible) :=
  (C85_invertible _ _).2 (by simp [Matrix.det_fin_two])

end Distance
end Soco
