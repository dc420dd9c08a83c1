import Mathlib.Algebra.Order.Field.Rat
import Mathlib.Algebra.BigOperators.Intervals
import Mathlib.Algebra.Order.BigOperators.Group.Finset
import Mathlib.Algebra.Order.BigOperators.Ring.Finset
import Mathlib.Data.Rat.Cast.Order
import Mathlib.Tactic.Linarith
import Mathlib.Tactic.Ring
import Mathlib.Tactic.FieldSimp
import Mathlib.Tactic.Positivity
import Mathlib.Tactic.Push

/-!
# Work functions on a grid and the greedy rule with a bias

Points are numbered `0, …, m`; moving by one costs `b`. Used for C77.
-/

namespace Soco
namespace Biased
open Finset

/-- `W t i` is the work function of the hitting costs `f` after slot `t`. -/
structure WorkFn (m : ℕ) (b : ℚ) (f W : ℕ → ℕ → ℚ) : Prop where
  zero : ∀ i, i ≤ m → W 0 i = b * i
  least : ∀ t i y, i ≤ m → y ≤ m → W (t + 1) i ≤ W t y + f (t + 1) y + b * |(i : ℚ) - y|
  attained : ∀ t i, i ≤ m → ∃ y, y ≤ m ∧ W (t + 1) i = W t y + f (t + 1) y + b * |(i : ℚ) - y|

/-- Convexity on `0, …, m`. -/
def Conv (m : ℕ) (g : ℕ → ℚ) : Prop := ∀ i, i + 2 ≤ m → 2 * g (i + 1) ≤ g i + g (i + 2)

theorem Conv.slope {m : ℕ} {g : ℕ → ℚ} (h : Conv m g) (i n : ℕ) (hn : i + n + 1 ≤ m) :
    g (i + 1) - g i ≤ g (i + n + 1) - g (i + n) := by
  induction n with
  | zero => simp
  | succ n ih =>
    have h1 := ih (by omega)
    have h2 := h (i + n) (by omega)
    have e1 : i + (n + 1) + 1 = i + n + 2 := by ring
    have e2 : i + (n + 1) = i + n + 1 := by ring
    rw [e1, e2]
    linarith

theorem Conv.slope' {m : ℕ} {g : ℕ → ℚ} (h : Conv m g) (i j : ℕ) (hij : i ≤ j) (hj : j + 1 ≤ m) :
    g (i + 1) - g i ≤ g (j + 1) - g j := by
  obtain ⟨n, rfl⟩ := Nat.exists_eq_add_of_le hij
  exact h.slope i n hj

/-- Moving two points towards each other does not increase the sum. -/
theorem Conv.inward {m : ℕ} {g : ℕ → ℚ} (h : Conv m g) (y z : ℕ) (hyz : y + 2 ≤ z) (hz : z ≤ m) :
    g (y + 1) + g (z - 1) ≤ g y + g z := by
  obtain ⟨n, rfl⟩ := Nat.exists_eq_add_of_le hyz
  have := h.slope' y (y + n + 1) (by omega) (by omega)
  have e1 : y + 2 + n = y + n + 1 + 1 := by ring
  rw [e1, Nat.add_sub_cancel]
  linarith

theorem Conv.add {m : ℕ} {g h : ℕ → ℚ} (hg : Conv m g) (hh : Conv m h) : Conv m fun i => g i + h i := by
  intro i hi
  have h1 := hg i hi
  have h2 := hh i hi
  simp only
  linarith

variable {m : ℕ} {b : ℚ} {f W : ℕ → ℕ → ℚ}

theorem abs_shift (i y : ℕ) : |((i + 1 : ℕ) : ℚ) - ((y + 1 : ℕ) : ℚ)| = |(i : ℚ) - y| := by
  push_cast
  congr 1
  ring

theorem WorkFn.conv (h : WorkFn m b f W) (hb : 0 ≤ b) (hf : ∀ t, 1 ≤ t → Conv m (f t)) : ∀ t, Conv m (W t) := by
  intro t
  induction t with
  | zero =>
    intro i hi
    rw [h.zero _ (by omega), h.zero _ (by omega), h.zero _ (by omega)]
    push_cast
    linarith
  | succ t ih =>
    intro i hi
    obtain ⟨y, hy, ey⟩ := h.attained t i (by omega)
    obtain ⟨z, hz, ez⟩ := h.attained t (i + 2) (by omega)
    have hF := ih.add (hf (t + 1) (by omega))
    rw [ey, ez]
    by_cases hyz : y + 2 ≤ z
    · have h1 := h.least t (i + 1) (y + 1) (by omega) (by omega)
      have h2 := h.least t (i + 1) (z - 1) (by omega) (by omega)
      have h3 := hF.inward y z hyz hz
      rw [abs_shift] at h1
      have e : |((i + 1 : ℕ) : ℚ) - ((z - 1 : ℕ) : ℚ)| = |((i + 2 : ℕ) : ℚ) - (z : ℚ)| := by
        obtain ⟨z', rfl⟩ : ∃ z', z = z' + 1 := ⟨z - 1, by omega⟩
        rw [Nat.add_sub_cancel, show i + 2 = (i + 1) + 1 from rfl, abs_shift (i + 1) z']
      rw [e] at h2
      linarith
    · have h1 := h.least t (i + 1) y (by omega) hy
      have h2 := h.least t (i + 1) z (by omega) hz
      have e : |((i + 1 : ℕ) : ℚ) - y| + |((i + 1 : ℕ) : ℚ) - z| ≤ |(i : ℚ) - y| + |((i + 2 : ℕ) : ℚ) - z| := by
        have hq : (z : ℚ) ≤ y + 1 := by exact_mod_cast (by omega : z ≤ y + 1)
        push_cast
        by_cases hp : i + 1 ≤ y
        · have hp' : (i : ℚ) + 1 ≤ y := by exact_mod_cast hp
          rw [abs_of_nonpos (show (i : ℚ) + 1 - y ≤ 0 by linarith), abs_of_nonpos (show (i : ℚ) - y ≤ 0 by linarith)]
          have : |(i : ℚ) + 1 - z| ≤ |(i : ℚ) + 2 - z| + 1 := by
            have := abs_sub_abs_le_abs_sub ((i : ℚ) + 1 - z) ((i : ℚ) + 2 - z)
            have e : ((i : ℚ) + 1 - z) - ((i : ℚ) + 2 - z) = -1 := by ring
            rw [e, abs_neg, abs_one] at this
            linarith
          linarith
        · have hp' : (y : ℚ) ≤ i := by exact_mod_cast (by omega : y ≤ i)
          rw [abs_of_nonneg (show (0 : ℚ) ≤ i + 1 - y by linarith), abs_of_nonneg (show (0 : ℚ) ≤ i - y by linarith),
            abs_of_nonneg (show (0 : ℚ) ≤ i + 1 - z by linarith), abs_of_nonneg (show (0 : ℚ) ≤ i + 2 - z by linarith)]
          linarith
      have := mul_le_mul_of_nonneg_left e hb
      rw [mul_add, mul_add] at this
      linarith

theorem WorkFn.lip (h : WorkFn m b f W) (hb : 0 ≤ b) (t i j : ℕ) (hi : i ≤ m) (hj : j ≤ m) :
    W t i ≤ W t j + b * |(i : ℚ) - j| := by
  cases t with
  | zero =>
    rw [h.zero i hi, h.zero j hj]
    have := mul_le_mul_of_nonneg_left (le_abs_self ((i : ℚ) - j)) hb
    linarith
  | succ t =>
    obtain ⟨y, hy, e⟩ := h.attained t j hj
    have h1 := h.least t i y hi hy
    have h2 := mul_le_mul_of_nonneg_left (abs_sub_le (i : ℚ) j y) hb
    linarith

theorem WorkFn.lip_succ (h : WorkFn m b f W) (hb : 0 ≤ b) (t i : ℕ) (hi : i + 1 ≤ m) :
    W t (i + 1) - W t i ≤ b ∧ W t i - W t (i + 1) ≤ b := by
  have h1 := h.lip hb t (i + 1) i hi (by omega)
  have h2 := h.lip hb t i (i + 1) (by omega) hi
  have e1 : |((i + 1 : ℕ) : ℚ) - i| = 1 := by push_cast; rw [add_sub_cancel_left, abs_one]
  have e2 : |(i : ℚ) - ((i + 1 : ℕ) : ℚ)| = 1 := by rw [abs_sub_comm, e1]
  rw [e1] at h1
  rw [e2] at h2
  constructor <;> linarith

theorem WorkFn.mono (h : WorkFn m b f W) (hb : 0 ≤ b) (hf0 : ∀ t i, i ≤ m → 0 ≤ f t i) (t i : ℕ) (hi : i ≤ m) :
    W t i ≤ W (t + 1) i := by
  obtain ⟨y, hy, e⟩ := h.attained t i hi
  have h1 := h.lip hb t i y hi hy
  have := hf0 (t + 1) y hy
  linarith

theorem slope_nonneg {g : ℕ → ℚ} (hg : Conv m g) (v : ℕ) (hv : ∀ i, i ≤ m → g v ≤ g i) (i : ℕ) (hi : v ≤ i) (him : i + 1 ≤ m) :
    0 ≤ g (i + 1) - g i := by
  have h1 := hg.slope' v i hi him
  have h2 := hv (v + 1) (by omega)
  linarith

theorem slope_nonpos {g : ℕ → ℚ} (hg : Conv m g) (v : ℕ) (hvm : v ≤ m) (hv : ∀ i, i ≤ m → g v ≤ g i) (i : ℕ) (hi : i + 1 ≤ v) :
    g (i + 1) - g i ≤ 0 := by
  obtain ⟨v', rfl⟩ : ∃ v', v = v' + 1 := ⟨v - 1, by omega⟩
  have h1 := hg.slope' i v' (by omega) hvm
  have h2 := hv v' (by omega)
  linarith

/-- To the right of the minimiser of the hitting cost, slopes of the work function increase. -/
theorem WorkFn.slope_up (h : WorkFn m b f W) (hb : 0 ≤ b) (hf : ∀ t, 1 ≤ t → Conv m (f t)) (t v : ℕ)
    (hv : ∀ i, i ≤ m → f (t + 1) v ≤ f (t + 1) i) (i : ℕ) (hi : v ≤ i) (him : i + 1 ≤ m) :
    W t (i + 1) - W t i ≤ W (t + 1) (i + 1) - W (t + 1) i := by
  obtain ⟨y, hy, e⟩ := h.attained t (i + 1) him
  by_cases hyi : y ≤ i
  · have h1 := h.least t i y (by omega) hy
    have hq : (y : ℚ) ≤ i := by exact_mod_cast hyi
    rw [abs_of_nonneg (by linarith)] at h1
    rw [abs_of_nonneg (by push_cast; linarith)] at e
    have h2 := (h.lip_succ hb t i him).1
    push_cast at e
    linarith
  · obtain ⟨z, rfl⟩ : ∃ z, y = z + 1 := ⟨y - 1, by omega⟩
    have h1 := h.least t i z (by omega) (by omega)
    rw [abs_shift] at e
    have h2 := (h.conv hb hf t).slope' i z (by omega) hy
    have h3 := slope_nonneg (hf (t + 1) (by omega)) v hv z (by omega) hy
    linarith

/-- To the left of it they decrease. -/
theorem WorkFn.slope_down (h : WorkFn m b f W) (hb : 0 ≤ b) (hf : ∀ t, 1 ≤ t → Conv m (f t)) (t v : ℕ) (hvm : v ≤ m)
    (hv : ∀ i, i ≤ m → f (t + 1) v ≤ f (t + 1) i) (i : ℕ) (hi : i + 1 ≤ v) :
    W (t + 1) (i + 1) - W (t + 1) i ≤ W t (i + 1) - W t i := by
  obtain ⟨y, hy, e⟩ := h.attained t i (by omega)
  by_cases hyi : i + 1 ≤ y
  · have h1 := h.least t (i + 1) y (by omega) hy
    have hq : (i : ℚ) + 1 ≤ y := by exact_mod_cast hyi
    rw [abs_of_nonpos (by push_cast; linarith)] at h1
    rw [abs_of_nonpos (by linarith)] at e
    have h2 := (h.lip_succ hb t i (by omega)).2
    push_cast at h1
    linarith
  · have h1 := h.least t (i + 1) (y + 1) (by omega) (by omega)
    rw [abs_shift] at h1
    have h2 := (h.conv hb hf t).slope' y i (by omega) (by omega)
    have h3 := slope_nonpos (hf (t + 1) (by omega)) v hvm hv y (by omega)
    linarith

/-- Sum of the changes of the slopes. -/
theorem WorkFn.slopes (h : WorkFn m b f W) (hb : 0 ≤ b) (hf : ∀ t, 1 ≤ t → Conv m (f t)) (hf0 : ∀ t i, i ≤ m → 0 ≤ f t i) (t : ℕ) :
    ∑ i ∈ range m, |(W (t + 1) (i + 1) - W (t + 1) i) - (W t (i + 1) - W t i)| ≤
      (W (t + 1) 0 - W t 0) + (W (t + 1) m - W t m) := by
  obtain ⟨v, hvm, hv⟩ : ∃ v, v ≤ m ∧ ∀ i, i ≤ m → f (t + 1) v ≤ f (t + 1) i := by
    obtain ⟨v, h1, h2⟩ := exists_min_image (range (m + 1)) (f (t + 1)) ⟨0, by simp⟩
    exact ⟨v, by simpa [Nat.lt_succ_iff] using h1, fun i hi => h2 i (by simpa [Nat.lt_succ_iff] using hi)⟩
  set D : ℕ → ℚ := fun i => W (t + 1) i - W t i with hD
  obtain ⟨n, rfl⟩ := Nat.exists_eq_add_of_le hvm
  rw [sum_range_add]
  have e1 : ∑ i ∈ range v, |(W (t + 1) (i + 1) - W (t + 1) i) - (W t (i + 1) - W t i)| = D 0 - D v := by
    rw [← sum_range_sub' D v]
    apply sum_congr rfl
    intro i hi
    have := h.slope_down hb hf t v hvm hv i (by simpa using hi)
    rw [abs_of_nonpos (by linarith)]
    simp only [hD]
    ring
  have e2 : ∑ i ∈ range n, |(W (t + 1) (v + i + 1) - W (t + 1) (v + i)) - (W t (v + i + 1) - W t (v + i))| = D (v + n) - D v := by
    rw [show D (v + n) - D v = (fun i => D (v + i)) n - (fun i => D (v + i)) 0 from rfl, ← sum_range_sub (fun i => D (v + i)) n]
    apply sum_congr rfl
    intro i hi
    have hi' : i < n := by simpa using hi
    have := h.slope_up hb hf t v hv (v + i) (by omega) (by omega)
    rw [abs_of_nonneg (by linarith)]
    simp only [hD, ← add_assoc]
    ring
  rw [e1, e2]
  have := h.mono hb hf0 t v hvm
  simp only [hD]
  linarith

/-- `x` follows the greedy rule with bias `r` after slot `t`. -/
def IsGreedy (m : ℕ) (b : ℚ) (W : ℕ → ℕ → ℚ) (r : ℚ) (t x : ℕ) : Prop :=
  x ≤ m ∧ ∀ i, i ≤ m → W t x + r * b * x ≤ W t i + r * b * i

theorem WorkFn.greedy_hit (h : WorkFn m b f W) (hb : 0 < b) (r : ℚ) (hr : |r| < 1) (t x : ℕ)
    (hx : IsGreedy m b W r (t + 1) x) : W (t + 1) x = W t x + f (t + 1) x := by
  obtain ⟨y, hy, e⟩ := h.attained t x hx.1
  by_cases hxy : y = x
  · subst hxy
    simpa using e
  · exfalso
    have h1 := h.least t y y hy hy
    rw [sub_self, abs_zero, mul_zero, add_zero] at h1
    have h2 := hx.2 y hy
    have h3 : 0 < |(x : ℚ) - y| := abs_pos.2 (sub_ne_zero.2 (by exact_mod_cast (Ne.symm hxy)))
    have h4 : r * (y - x) ≤ |r| * |(x : ℚ) - y| := by
      rw [abs_sub_comm, ← abs_mul]
      exact le_abs_self _
    have h5 : b * |(x : ℚ) - y| ≤ b * (r * (y - x)) := by linarith
    have h6 := le_of_mul_le_mul_left h5 hb
    nlinarith

/-- The hitting costs of the greedy rule. -/
theorem WorkFn.hits (h : WorkFn m b f W) (hb : 0 < b) (r : ℚ) (hr : |r| < 1) (x : ℕ → ℕ) :
    ∀ T, (∀ t, t < T → IsGreedy m b W r (t + 1) (x (t + 1))) → ∀ z, z ≤ m →
      ∑ t ∈ range T, f (t + 1) (x (t + 1)) ≤ W T z + r * b * z := by
  intro T
  induction T with
  | zero =>
    intro _ z hz
    rw [h.zero z hz, range_zero, sum_empty]
    have h1 := (abs_lt.1 hr).1
    have : 0 ≤ b * (1 + r) * z := mul_nonneg (mul_nonneg hb.le (by linarith)) (Nat.cast_nonneg z)
    linarith
  | succ T ih =>
    intro hx z hz
    have h1 := hx T (by omega)
    have h2 := h.greedy_hit hb r hr T _ h1
    have h3 := ih (fun t ht => hx t (by omega)) (x (T + 1)) h1.1
    have h4 := h1.2 z hz
    rw [sum_range_succ]
    linarith

/-- A point right of cell `i` is optimal only if the slope there is at most the negative bias. -/
theorem greedy_right {r : ℚ} {t x : ℕ} (hW : Conv m (W t)) (hx : IsGreedy m b W r t x) (i : ℕ) (hi : i + 1 ≤ x) :
    W t (i + 1) - W t i ≤ -(r * b) := by
  obtain ⟨x', rfl⟩ : ∃ x', x = x' + 1 := ⟨x - 1, by omega⟩
  have h1 := hW.slope' i x' (by omega) hx.1
  have h2 := hx.2 x' (by have := hx.1; omega)
  push_cast at h2
  linarith

theorem greedy_left {r : ℚ} {t x : ℕ} (hW : Conv m (W t)) (hx : IsGreedy m b W r t x) (i : ℕ) (hi : x ≤ i) (him : i + 1 ≤ m) :
    -(r * b) ≤ W t (i + 1) - W t i := by
  have h1 := hW.slope' x i hi him
  have h2 := hx.2 (x + 1) (by omega)
  push_cast at h2
  linarith

/-- Equally spaced biases. -/
def bias (N k : ℕ) : ℚ := (2 * k + 1) / N - 1

theorem bias_lt {N k : ℕ} (h : k < N) : |bias N k| < 1 := by
  have hN : (0 : ℚ) < N := by exact_mod_cast (by omega : 0 < N)
  have hk : (k : ℚ) + 1 ≤ N := by exact_mod_cast h
  unfold bias
  rw [abs_lt]
  constructor
  · have : (0 : ℚ) < (2 * k + 1) / N := by positivity
    linarith
  · have : (2 * (k : ℚ) + 1) / N < 2 := by
      rw [div_lt_iff₀ hN]
      linarith
    linarith

theorem bias_sum (N : ℕ) (hN : 0 < N) : ∑ k ∈ range N, bias N k = 0 := by
  have hN' : (N : ℚ) ≠ 0 := by exact_mod_cast hN.ne'
  have h : ∀ n : ℕ, ∑ k ∈ range n, ((2 * (k : ℚ) + 1)) = n ^ 2 := by
    intro n
    induction n with
    | zero => simp
    | succ n ih => rw [sum_range_succ, ih]; push_cast; ring
  unfold bias
  have e : ∑ k ∈ range N, (2 * (k : ℚ) + 1) / N = (∑ k ∈ range N, (2 * (k : ℚ) + 1)) / N := by
    simp only [div_eq_mul_inv, sum_mul]
  rw [sum_sub_distrib, e, h N, sum_const, card_range, nsmul_eq_mul, mul_one, pow_two, mul_div_assoc, div_self hN', mul_one, sub_self]

/-- How many of the biases lead to a negative slope within an interval. -/
theorem bias_count (N : ℕ) (hN : 0 < N) (b : ℚ) (hb : 0 < b) (lo hi : ℚ) (hlh : lo ≤ hi) :
    (((range N).filter fun k : ℕ => lo ≤ -(bias N k * b) ∧ -(bias N k * b) ≤ hi).card : ℚ) ≤ N * (hi - lo) / (2 * b) + 1 := by
  have hN' : (0 : ℚ) < N := by exact_mod_cast hN
  set s := (range N).filter fun k : ℕ => lo ≤ -(bias N k * b) ∧ -(bias N k * b) ≤ hi with hs
  rcases s.eq_empty_or_nonempty with h | h
  · rw [h]
    simp only [card_empty, Nat.cast_zero]
    have : 0 ≤ N * (hi - lo) / (2 * b) := by
      apply div_nonneg (mul_nonneg hN'.le (by linarith)) (by linarith)
    linarith
  · have h1 := s.min'_mem h
    have h2 := s.max'_mem h
    set p := s.min' h
    set q := s.max' h
    have hpq : p ≤ q := s.min'_le _ h2
    have hsub : s ⊆ Icc p q := fun x hx => mem_Icc.2 ⟨s.min'_le x hx, s.le_max' x hx⟩
    have hc := card_le_card hsub
    rw [Nat.card_Icc] at hc
    have hc' : (s.card : ℚ) ≤ q - p + 1 := by
      have : s.card ≤ (q - p) + 1 := by omega
      calc (s.card : ℚ) ≤ (((q - p) + 1 : ℕ) : ℚ) := by exact_mod_cast this
        _ = q - p + 1 := by rw [Nat.cast_add, Nat.cast_sub hpq, Nat.cast_one]
    have b1 := (mem_filter.1 h1).2.2
    have b2 := (mem_filter.1 h2).2.1
    unfold bias at b1 b2
    have : ((q : ℚ) - p) * (2 * b) ≤ N * (hi - lo) := by
      have e : (((2 * (q : ℚ) + 1) / N - 1) - ((2 * (p : ℚ) + 1) / N - 1)) * b ≤ hi - lo := by linarith
      have e2 : (((2 * (q : ℚ) + 1) / N - 1) - ((2 * (p : ℚ) + 1) / N - 1)) * b = ((q : ℚ) - p) * (2 * b) / N := by
        field_simp
        ring
      rw [e2, div_le_iff₀ hN'] at e
      linarith
    have h3 : (q : ℚ) - p ≤ N * (hi - lo) / (2 * b) := by
      rw [le_div_iff₀ (by linarith)]
      exact this
    linarith

/-- The cells between two points. -/
theorem cells (m x y : ℕ) (hx : x ≤ m) (hy : y ≤ m) :
    |(x : ℚ) - y| = ∑ i ∈ range m, if (i + 1 ≤ x ∧ y ≤ i) ∨ (i + 1 ≤ y ∧ x ≤ i) then (1 : ℚ) else 0 := by
  have key : ∀ x y : ℕ, x ≤ y → y ≤ m →
      (y : ℚ) - x = ∑ i ∈ range m, if (i + 1 ≤ x ∧ y ≤ i) ∨ (i + 1 ≤ y ∧ x ≤ i) then (1 : ℚ) else 0 := by
    intro x y hxy hy
    rw [← sum_filter, sum_const, nsmul_eq_mul, mul_one]
    have : (range m).filter (fun i => (i + 1 ≤ x ∧ y ≤ i) ∨ (i + 1 ≤ y ∧ x ≤ i)) = Ico x y := by
      ext i
      simp only [mem_filter, mem_range, mem_Ico]
      omega
    rw [this, Nat.card_Ico, Nat.cast_sub hxy]
  rcases le_total x y with h | h
  · rw [abs_sub_comm, abs_of_nonneg (by rw [sub_nonneg]; exact_mod_cast h)]
    exact key x y h hy
  · rw [abs_of_nonneg (by rw [sub_nonneg]; exact_mod_cast h), key y x h hx]
    apply sum_congr rfl
    intro i _
    congr 1
    rw [eq_iff_iff]
    tauto

/-- Movement in one slot, summed over all biases. -/
theorem WorkFn.moves (h : WorkFn m b f W) (hb : 0 < b) (hf : ∀ t, 1 ≤ t → Conv m (f t)) (hf0 : ∀ t i, i ≤ m → 0 ≤ f t i)
    (N : ℕ) (hN : 0 < N) (t : ℕ) (x y : ℕ → ℕ) (hx : ∀ k, k < N → IsGreedy m b W (bias N k) t (x k))
    (hy : ∀ k, k < N → IsGreedy m b W (bias N k) (t + 1) (y k)) :
    ∑ k ∈ range N, b * |(y k : ℚ) - x k| ≤
      N / 2 * ((W (t + 1) 0 - W t 0) + (W (t + 1) m - W t m)) + m * b := by
  have c0 := h.conv hb.le hf t
  have c1 := h.conv hb.le hf (t + 1)
  have e1 : ∑ k ∈ range N, b * |(y k : ℚ) - x k| = ∑ i ∈ range m, b * ∑ k ∈ range N,
      if (i + 1 ≤ y k ∧ x k ≤ i) ∨ (i + 1 ≤ x k ∧ y k ≤ i) then (1 : ℚ) else 0 := by
    rw [← mul_sum, ← mul_sum, sum_comm]
    congr 1
    apply sum_congr rfl
    intro k hk
    have hk' : k < N := by simpa using hk
    exact cells m (y k) (x k) (hy k hk').1 (hx k hk').1
  rw [e1]
  have e2 : ∀ i ∈ range m, (b * ∑ k ∈ range N, if (i + 1 ≤ y k ∧ x k ≤ i) ∨ (i + 1 ≤ x k ∧ y k ≤ i) then (1 : ℚ) else 0) ≤
      N / 2 * |(W (t + 1) (i + 1) - W (t + 1) i) - (W t (i + 1) - W t i)| + b := by
    intro i hi
    have him : i + 1 ≤ m := by simpa using hi
    set s0 := W t (i + 1) - W t i
    set s1 := W (t + 1) (i + 1) - W (t + 1) i
    have h1 : (∑ k ∈ range N, if (i + 1 ≤ y k ∧ x k ≤ i) ∨ (i + 1 ≤ x k ∧ y k ≤ i) then (1 : ℚ) else 0) ≤
        (((range N).filter fun k : ℕ => min s0 s1 ≤ -(bias N k * b) ∧ -(bias N k * b) ≤ max s0 s1).card : ℚ) := by
      rw [← sum_filter, sum_const, nsmul_eq_mul, mul_one]
      have : ((range N).filter fun k => (i + 1 ≤ y k ∧ x k ≤ i) ∨ (i + 1 ≤ x k ∧ y k ≤ i)) ⊆
          ((range N).filter fun k : ℕ => min s0 s1 ≤ -(bias N k * b) ∧ -(bias N k * b) ≤ max s0 s1) := by
        intro k hk
        obtain ⟨hk1, hk2⟩ := mem_filter.1 hk
        have hk' : k < N := by simpa using hk1
        refine mem_filter.2 ⟨hk1, ?_⟩
        rcases hk2 with ⟨a1, a2⟩ | ⟨a1, a2⟩
        · exact ⟨(min_le_right _ _).trans (greedy_right c1 (hy k hk') i a1),
            (greedy_left c0 (hx k hk') i a2 him).trans (le_max_left _ _)⟩
        · exact ⟨(min_le_left _ _).trans (greedy_right c0 (hx k hk') i a1),
            (greedy_left c1 (hy k hk') i a2 him).trans (le_max_right _ _)⟩
      exact_mod_cast card_le_card this
    have h2 := bias_count N hN b hb (min s0 s1) (max s0 s1) min_le_max
    rw [max_sub_min_eq_abs'] at h2
    rw [abs_sub_comm s1 s0]
    have h3 := mul_le_mul_of_nonneg_left (h1.trans h2) hb.le
    have h4 : b * (N * |s0 - s1| / (2 * b) + 1) = N / 2 * |s0 - s1| + b := by
      field_simp
    linarith
  refine (sum_le_sum e2).trans ?_
  rw [sum_add_distrib, ← mul_sum, sum_const, card_range, nsmul_eq_mul]
  have h5 := mul_le_mul_of_nonneg_left (h.slopes hb.le hf hf0 t) (show (0 : ℚ) ≤ N / 2 by positivity)
  linarith

/-- Zero is the greedy choice before the first slot. -/
theorem WorkFn.greedy_zero (h : WorkFn m b f W) (hb : 0 < b) (r : ℚ) (hr : |r| < 1) : IsGreedy m b W r 0 0 := by
  refine ⟨Nat.zero_le m, ?_⟩
  intro i hi
  rw [h.zero 0 (Nat.zero_le m), h.zero i hi]
  have h1 := (abs_lt.1 hr).1
  have : 0 ≤ b * (1 + r) * i := mul_nonneg (mul_nonneg hb.le (by linarith)) (Nat.cast_nonneg i)
  simp only [Nat.cast_zero, mul_zero, add_zero]
  linarith

/-- Averaged over equally spaced biases, the greedy rule costs at most twice the work function, up to the spacing. -/
theorem WorkFn.two (h : WorkFn m b f W) (hb : 0 < b) (hf : ∀ t, 1 ≤ t → Conv m (f t)) (hf0 : ∀ t i, i ≤ m → 0 ≤ f t i)
    (N : ℕ) (hN : 0 < N) (T : ℕ) (x : ℕ → ℕ → ℕ) (hx0 : ∀ k, k < N → x k 0 = 0)
    (hx : ∀ k, k < N → ∀ t, t < T → IsGreedy m b W (bias N k) (t + 1) (x k (t + 1))) (z : ℕ) (hz : z ≤ m) :
    ∑ k ∈ range N, ∑ t ∈ range T, (f (t + 1) (x k (t + 1)) + b * |(x k (t + 1) : ℚ) - x k t|) ≤
      N * (2 * W T z) + T * (m * b) := by
  have hall : ∀ k, k < N → ∀ t, t ≤ T → IsGreedy m b W (bias N k) t (x k t) := by
    intro k hk t ht
    cases t with
    | zero =>
      rw [hx0 k hk]
      exact h.greedy_zero hb _ (bias_lt hk)
    | succ t => exact hx k hk t (by omega)
  have h1 : ∑ k ∈ range N, ∑ t ∈ range T, f (t + 1) (x k (t + 1)) ≤ N * W T z := by
    have : ∀ k ∈ range N, ∑ t ∈ range T, f (t + 1) (x k (t + 1)) ≤ W T z + bias N k * b * z := by
      intro k hk
      have hk' : k < N := by simpa using hk
      exact h.hits hb _ (bias_lt hk') (x k) T (hx k hk') z hz
    refine (sum_le_sum this).trans ?_
    rw [sum_add_distrib, sum_const, card_range, nsmul_eq_mul, ← sum_mul, ← sum_mul, bias_sum N hN]
    simp
  have h2 : ∑ k ∈ range N, ∑ t ∈ range T, b * |(x k (t + 1) : ℚ) - x k t| ≤ N * W T z + T * (m * b) := by
    rw [sum_comm]
    have : ∀ t ∈ range T, ∑ k ∈ range N, b * |(x k (t + 1) : ℚ) - x k t| ≤
        N / 2 * ((W (t + 1) 0 + W (t + 1) m) - (W t 0 + W t m)) + m * b := by
      intro t ht
      have ht' : t < T := by simpa using ht
      have := h.moves hb hf hf0 N hN t (fun k => x k t) (fun k => x k (t + 1)) (fun k hk => hall k hk t ht'.le)
        fun k hk => hall k hk (t + 1) ht'
      refine this.trans (le_of_eq ?_)
      ring
    refine (sum_le_sum this).trans ?_
    rw [sum_add_distrib, ← mul_sum, sum_range_sub (fun t => W t 0 + W t m), sum_const, card_range, nsmul_eq_mul]
    have l1 := h.lip hb.le T 0 z (Nat.zero_le m) hz
    have l2 := h.lip hb.le T m z le_rfl hz
    have hzq : (z : ℚ) ≤ m := by exact_mod_cast hz
    have hz0 : (0 : ℚ) ≤ z := Nat.cast_nonneg z
    rw [Nat.cast_zero, zero_sub, abs_neg, abs_of_nonneg hz0] at l1
    rw [abs_of_nonneg (by linarith)] at l2
    have z0 := h.zero 0 (Nat.zero_le m)
    have zm := h.zero m le_rfl
    have : (W T 0 + W T m) - (W 0 0 + W 0 m) ≤ 2 * W T z := by
      rw [z0, zm]
      push_cast
      linarith
    have := mul_le_mul_of_nonneg_left this (show (0 : ℚ) ≤ N / 2 by positivity)
    linarith
  have e : ∑ k ∈ range N, ∑ t ∈ range T, (f (t + 1) (x k (t + 1)) + b * |(x k (t + 1) : ℚ) - x k t|) =
      ∑ k ∈ range N, ∑ t ∈ range T, f (t + 1) (x k (t + 1)) + ∑ k ∈ range N, ∑ t ∈ range T, b * |(x k (t + 1) : ℚ) - x k t| := by
    rw [← sum_add_distrib]
    apply sum_congr rfl
    intro k _
    rw [sum_add_distrib]
  rw [e]
  linarith

end Biased
end Soco
