import Verif.Spec.Norm
import Verif.Model.Distance
import Verif.Props.IntoSCO
import Mathlib.Tactic.Linarith
import Mathlib.Tactic.Positivity

/-! # C49: distances are norms -/

namespace Soco
open Spec

section
variable {T : Type} [Value T]

theorem toQ_mul (x y : T) : toQ (x * y) = toQ x * toQ y := by simp [toQ]
theorem toQ_neg (x : T) : toQ (-x) = -toQ x := by simp [toQ]
theorem toQ_add (x y : T) : toQ (x + y) = toQ x + toQ y := by simp [toQ]
theorem toQ_eq_zero {x : T} : toQ x = 0 ↔ x = 0 := by
  constructor
  · intro h
    exact Value.toQ_mono.injective (by simpa [toQ] using h)
  · rintro rfl; exact toQ_zero

/-- **C49** (Manhattan). The Manhattan norm is a norm in every dimension. -/
theorem C49_manhattan (n : Nat) : IsNorm (A := T) (fun c => |toQ c|) n manhattan where
  nonneg x _ := List.sum_nonneg (by simp only [List.mem_map]; rintro _ ⟨a, _, rfl⟩; exact abs_nonneg _)
  zero := by simp [manhattan, toQ_zero]
  symm x _ := by simp [manhattan, toQ_neg, Function.comp_def]
  homogeneous c x _ := by
    simp only [manhattan, List.map_map, Function.comp_def, toQ_mul, abs_mul]
    rw [List.sum_map_mul_left]
  triangle x y hx hy := by
    clear hx hy
    unfold manhattan
    induction x generalizing y with
    | nil =>
      simp only [List.zipWith_nil_left, List.map_nil, List.sum_nil, zero_add]
      exact List.sum_nonneg (by simp only [List.mem_map]; rintro _ ⟨a, _, rfl⟩; exact abs_nonneg _)
    | cons a x ih =>
      cases y with
      | nil =>
        simp only [List.zipWith_nil_right, List.map_nil, List.sum_nil, add_zero]
        exact List.sum_nonneg (by simp only [List.mem_map]; rintro _ ⟨a, _, rfl⟩; exact abs_nonneg _)
      | cons b y =>
        simp only [List.zipWith_cons_cons, List.map_cons, List.sum_cons, toQ_add]
        have := abs_add_le (toQ a) (toQ b)
        linarith [ih y]
  definite x hx h := by
    rw [List.eq_replicate_iff]
    refine ⟨hx, fun a ha => ?_⟩
    have := List.all_zero_of_le_zero_le_of_sum_eq_zero (l := x.map fun j : T => |toQ j|)
      (by simp only [List.mem_map]; rintro _ ⟨a, _, rfl⟩; exact abs_nonneg _) h (List.mem_map_of_mem ha)
    exact toQ_eq_zero.1 (abs_eq_zero.1 this)


theorem halfAbs_zero (β : List ℚ) (n : Nat) : halfAbs β (List.replicate n (0 : T)) = 0 := by
  induction n generalizing β with
  | zero => cases β <;> simp [halfAbs]
  | succ n ih =>
    cases β with
    | nil => simp [halfAbs]
    | cons b β =>
      have := ih β
      simp only [halfAbs] at this
      simp [halfAbs, List.replicate_succ, toQ_zero, this]

/-- Non-negative weights give a seminorm. -/
theorem halfAbs_seminorm (β : List ℚ) (hβ : ∀ b ∈ β, 0 ≤ b) (n : Nat) :
    IsSeminorm (A := T) (fun c => |toQ c|) n (halfAbs β) where
  nonneg x hx := by
    clear hx
    unfold halfAbs
    induction x generalizing β with
    | nil => simp
    | cons a x ih =>
      cases β with
      | nil => simp
      | cons b β =>
        have := ih β (fun c hc => hβ c (by simp [hc]))
        have hb := hβ b (by simp)
        simp only [List.zipWith_cons_cons, List.sum_cons]
        have : 0 ≤ b / 2 * |toQ a| := by positivity
        linarith
  zero := halfAbs_zero β n
  symm x _ := by simp [halfAbs, List.zipWith_map_right, toQ_neg]
  homogeneous c x hx := by
    clear hx
    unfold halfAbs
    induction x generalizing β with
    | nil => simp
    | cons a x ih =>
      cases β with
      | nil => simp
      | cons b β =>
        have := ih β (fun c hc => hβ c (by simp [hc]))
        simp only [List.map_cons, List.zipWith_cons_cons, List.sum_cons, this, toQ_mul, abs_mul]
        ring
  triangle x y hx hy := by
    have hxy := hx.trans hy.symm
    clear hx hy
    unfold halfAbs
    induction x generalizing β y with
    | nil => cases y <;> simp at hxy ⊢
    | cons a x ih =>
      cases y with
      | nil => simp at hxy
      | cons a' y =>
        cases β with
        | nil => simp
        | cons b β =>
          have h1 := ih β (fun c hc => hβ c (by simp [hc])) y (by simpa using hxy)
          have hb := hβ b (by simp)
          have h2 := abs_add_le (toQ a) (toQ a')
          simp only [List.zipWith_cons_cons, List.sum_cons, toQ_add]
          have h3 : b / 2 * |toQ a + toQ a'| ≤ b / 2 * (|toQ a| + |toQ a'|) := mul_le_mul_of_nonneg_left h2 (by linarith)
          linarith

/-- **C49** (scaled Manhattan). With one non-negative switching cost per dimension `manhattan_scaled` is a seminorm, with
positive ones a norm, and the distance of two configurations is half of the cost of switching from one to the other and
back. -/
theorem C49_manhattan_scaled (β : List ℚ) (hβ : ∀ b ∈ β, 0 ≤ b) :
    ∃ N : Config T → ℚ, (∀ x, x.length = β.length → manhattanScaled β x = .ok (N x)) ∧
      IsSeminorm (A := T) (fun c => |toQ c|) β.length N ∧
      ((∀ b ∈ β, 0 < b) → IsNorm (A := T) (fun c => |toQ c|) β.length N) ∧
      ∀ x y, x.length = β.length → y.length = β.length →
        N (Config.sub x y) = (upCost β y x + upCost β x y) / 2 := by
  refine ⟨halfAbs β, fun x hx => manhattanScaled_ok β x hx.le, halfAbs_seminorm β hβ _, ?_,
    fun x y hx hy => halfAbs_sub β x y (hx.trans hy.symm)⟩
  intro hpos
  refine { halfAbs_seminorm β hβ _ with definite := ?_ }
  intro x hx h
  induction x generalizing β with
  | nil => simp at hx; simp [← hx]
  | cons a x ih =>
    cases β with
    | nil => simp at hx
    | cons b β =>
      have hb := hpos b (by simp)
      have hrest := (halfAbs_seminorm (T := T) β (fun c hc => hβ c (by simp [hc])) x.length).nonneg x rfl
      have hh : b / 2 * |toQ a| + halfAbs β x = 0 := h
      have h1 : 0 ≤ b / 2 * |toQ a| := by positivity
      have h2 : b / 2 * |toQ a| = 0 := by linarith
      have h3 : a = 0 := by
        rcases mul_eq_zero.1 h2 with h4 | h4
        · linarith
        · exact toQ_eq_zero.1 (abs_eq_zero.1 h4)
      have h5 := ih β (fun c hc => hβ c (by simp [hc])) (fun c hc => hpos c (by simp [hc])) (by simpa using hx)
        (by linarith)
      rw [h3, h5]
      simp [List.replicate_succ]

/-- The distance panics exactly if a switching cost is missing. -/
theorem C49_manhattan_scaled_panics (β : List ℚ) (x : Config T) :
    manhattanScaled β x = .error .panic ↔ β.length < x.length := by
  constructor
  · intro h
    by_contra hc
    rw [manhattanScaled_ok β x (by omega)] at h
    cases h
  · intro h
    induction x generalizing β with
    | nil => simp at h
    | cons a x ih =>
      cases β with
      | nil => rfl
      | cons b β => simp [manhattanScaled, ih β (by simpa using h), bind, Except.bind]

end

example : manhattanScaled [2, 3] ([4, -1] : Config ℤ) = .ok (11 / 2) := by
  rw [manhattanScaled_ok _ _ (by simp)]; norm_num [halfAbs, toQ, Value.toQHom]
example : IsNorm (A := ℚ) (fun c => |toQ c|) 3 manhattan := C49_manhattan 3

/-! ## The Euclidean norm -/

namespace Distance

/-- The inner product. -/
noncomputable def dot (x y : List ℝ) : ℝ := (List.zipWith (· * ·) x y).sum

theorem sq_sum_nonneg (x : List ℝ) : 0 ≤ (x.map fun j => j ^ 2).sum :=
  List.sum_nonneg (by simp only [List.mem_map]; rintro _ ⟨a, _, rfl⟩; positivity)

theorem cauchy (x y : List ℝ) : dot x y ^ 2 ≤ (x.map fun j => j ^ 2).sum * (y.map fun j => j ^ 2).sum := by
  induction x generalizing y with
  | nil => simp [dot]
  | cons a x ih =>
    cases y with
    | nil => simp [dot]
    | cons b y =>
      have h := ih y
      have hA := sq_sum_nonneg x
      have hB := sq_sum_nonneg y
      simp only [dot, List.zipWith_cons_cons, List.sum_cons, List.map_cons] at h ⊢
      generalize (List.zipWith (· * ·) x y).sum = S at *
      generalize (x.map fun j => j ^ 2).sum = A at *
      generalize (y.map fun j => j ^ 2).sum = B at *
      have h1 : (2 * (a * b) * S) ^ 2 ≤ (A * b ^ 2 + B * a ^ 2) ^ 2 := by
        have : (2 * (a * b) * S) ^ 2 ≤ 4 * (a * b) ^ 2 * (A * B) := by
          have := mul_le_mul_of_nonneg_left h (by positivity : 0 ≤ 4 * (a * b) ^ 2)
          nlinarith
        nlinarith [sq_nonneg (A * b ^ 2 - B * a ^ 2)]
      have h2 := abs_le_of_sq_le_sq h1 (by positivity)
      have h3 := (abs_le.1 h2).2
      nlinarith

theorem sq_sum_add (x y : List ℝ) (h : x.length = y.length) :
    ((List.zipWith (· + ·) x y).map fun j => j ^ 2).sum =
      (x.map fun j => j ^ 2).sum + 2 * dot x y + (y.map fun j => j ^ 2).sum := by
  induction x generalizing y with
  | nil => cases y <;> simp [dot] at h ⊢
  | cons a x ih =>
    cases y with
    | nil => simp at h
    | cons b y =>
      have := ih y (by simpa using h)
      simp only [dot] at this
      simp only [dot, List.zipWith_cons_cons, List.map_cons, List.sum_cons, this]
      ring

/-- **C49** (Euclidean). -/
theorem C49_euclidean (n : Nat) : IsNorm (A := ℝ) (fun c => |c|) n euclidean where
  nonneg x _ := Real.sqrt_nonneg _
  zero := by simp [euclidean]
  symm x _ := by simp [euclidean, Function.comp_def]
  homogeneous c x _ := by
    simp only [euclidean, List.map_map, Function.comp_def, mul_pow]
    rw [List.sum_map_mul_left, Real.sqrt_mul (sq_nonneg c), Real.sqrt_sq_eq_abs]
  triangle x y hx hy := by
    unfold euclidean
    rw [sq_sum_add x y (hx.trans hy.symm)]
    have hA := sq_sum_nonneg x
    have hB := sq_sum_nonneg y
    have h := cauchy x y
    rw [Real.sqrt_le_left (by positivity), add_sq, Real.sq_sqrt hA, Real.sq_sqrt hB]
    have h2 : dot x y ≤ √((x.map fun j => j ^ 2).sum) * √((y.map fun j => j ^ 2).sum) := by
      rw [← Real.sqrt_mul hA]
      exact Real.le_sqrt_of_sq_le h
    linarith
  definite x hx h := by
    rw [List.eq_replicate_iff]
    refine ⟨hx, fun a ha => ?_⟩
    have h0 := (Real.sqrt_eq_zero (sq_sum_nonneg x)).1 h
    have := List.all_zero_of_le_zero_le_of_sum_eq_zero (l := x.map fun j : ℝ => j ^ 2)
      (by simp only [List.mem_map]; rintro _ ⟨a, _, rfl⟩; positivity) h0 (List.mem_map_of_mem ha)
    simpa using this

/-- **C49** (half of the squared Euclidean norm). Its Bregman divergence is half of the squared distance, so it is
1-strongly convex and 1-Lipschitz smooth, as documented. -/
theorem C49_norm_squared (x y : List ℝ) (h : x.length = y.length) :
    normSquared euclidean x - normSquared euclidean y - dot y (List.zipWith (· - ·) x y) =
      normSquared euclidean (List.zipWith (· - ·) x y) := by
  simp only [normSquared, euclidean, Real.sq_sqrt (sq_sum_nonneg _)]
  induction x generalizing y with
  | nil => cases y <;> simp [dot] at h ⊢
  | cons a x ih =>
    cases y with
    | nil => simp at h
    | cons b y =>
      have := ih y (by simpa using h)
      simp only [dot] at this
      simp only [dot, List.zipWith_cons_cons, List.map_cons, List.sum_cons]
      linarith

end Distance
end Soco
