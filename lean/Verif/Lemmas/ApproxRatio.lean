import Verif.Spec.Schedule
import Verif.Spec.CostFn
import Verif.Spec.Scaled
import Mathlib.Tactic.Linarith
import Mathlib.Tactic.Ring
import Mathlib.Tactic.Push
import Mathlib.Tactic.Positivity
import Mathlib.Algebra.Order.Ring.Unbundled.Rat
import Mathlib.Data.Int.LeastGreatest

/-!
Following a schedule lazily on a grid whose consecutive values differ by a factor of at most `γ` (or by one):
the grid schedule pays at most `2γ - 1` times the upward movement.
-/

namespace Soco.Ratio
open Soco

/-- A grid on `0..m`. -/
structure Grid (γ : ℚ) (m : ℤ) (G : ℤ → Prop) : Prop where
  one : 1 < γ
  mpos : 0 < m
  zero : G 0
  top : G m
  gap : ∀ a : ℤ, 1 ≤ a → a < m → ∃ w, G w ∧ a < w ∧ w ≤ m ∧ ((w : ℚ) ≤ γ * a ∨ w = a + 1)
  first : ∃ w : ℤ, G w ∧ 0 < w ∧ w ≤ m ∧ (w : ℚ) ≤ γ

variable {γ : ℚ} {m : ℤ} {G : ℤ → Prop}

/-- The smallest grid value not below `y`. -/
theorem exists_up (h : Grid γ m G) (y : ℤ) (hy : y ≤ m) :
    ∃ g, G g ∧ y ≤ g ∧ g ≤ m ∧ ∀ w, G w → y ≤ w → g ≤ w := by
  obtain ⟨g, ⟨h1, h2⟩, h3⟩ := Int.exists_least_of_bdd (P := fun g => G g ∧ y ≤ g) ⟨y, fun z hz => hz.2⟩
    ⟨m, h.top, hy⟩
  exact ⟨g, h1, h2, h3 m ⟨h.top, hy⟩, fun w hw hw' => h3 w ⟨hw, hw'⟩⟩

/-- The largest grid value that satisfies a bound. -/
theorem exists_down (h : Grid γ m G) (q : ℚ) (hq : 0 ≤ q) :
    ∃ g, G g ∧ (g : ℚ) ≤ q ∧ g ≤ m ∧ 0 ≤ g ∧ ∀ w, G w → (w : ℚ) ≤ q → w ≤ m → w ≤ g := by
  obtain ⟨g, ⟨h1, h2, h3⟩, h4⟩ := Int.exists_greatest_of_bdd
    (P := fun g => G g ∧ (g : ℚ) ≤ q ∧ g ≤ m) ⟨m, fun z hz => hz.2.2⟩
    ⟨0, h.zero, by simpa using hq, h.mpos.le⟩
  exact ⟨g, h1, h2, h3, h4 0 ⟨h.zero, by simpa using hq, h.mpos.le⟩, fun w hw h5 h6 => h4 w ⟨hw, h5, h6⟩⟩

/-- The value to go up to is never too large. -/
theorem up_le (h : Grid γ m G) (y g : ℤ) (hy0 : 0 ≤ y) (hym : y ≤ m)
    (hg : ∀ w, G w → y ≤ w → g ≤ w) : (g : ℚ) ≤ (2 * γ - 1) * y := by
  have hγ := h.one
  rcases eq_or_lt_of_le hy0 with h0 | hpos
  · subst h0
    have := hg 0 h.zero le_rfl
    have : (g : ℚ) ≤ 0 := by exact_mod_cast this
    simpa using this
  by_cases hG : G y
  · have h1 : (g : ℚ) ≤ y := by exact_mod_cast hg y hG le_rfl
    have h2 : (0 : ℚ) < y := by exact_mod_cast hpos
    nlinarith
  · -- the largest grid value below `y`
    obtain ⟨a, ha1, ha2, ha3, ha4, ha5⟩ := exists_down h (y : ℚ) (by exact_mod_cast hy0)
    have hay : a < y := lt_of_le_of_ne (by exact_mod_cast ha2) (by rintro rfl; exact hG ha1)
    have hyq : (1 : ℚ) ≤ y := by exact_mod_cast hpos
    rcases eq_or_lt_of_le ha4 with h0 | h0
    · obtain ⟨w, w1, w2, w3, w4⟩ := h.first
      have hyw : y ≤ w := by
        by_contra hc
        have := ha5 w w1 (by push Not at hc; exact_mod_cast hc.le) w3
        omega
      have : (g : ℚ) ≤ w := by exact_mod_cast hg w w1 hyw
      nlinarith
    · obtain ⟨w, w1, w2, w3, w4⟩ := h.gap a h0 (by omega)
      have hyw : y < w := by
        by_contra hc
        have := ha5 w w1 (by push Not at hc; exact_mod_cast hc) w3
        omega
      have h5 : (g : ℚ) ≤ w := by exact_mod_cast hg w w1 hyw.le
      have haq : (1 : ℚ) ≤ a := by exact_mod_cast h0
      have hayq : (a : ℚ) + 1 ≤ y := by exact_mod_cast hay
      rcases w4 with w4 | w4
      · nlinarith
      · omega

/-- The main inequality: going from `b`, the value taken when the schedule was at `s`, up to `g` for `y`. -/
theorem climb (h : Grid γ m G) (s b y g : ℤ) (hb : G b) (hs0 : 0 ≤ s) (hsb : s ≤ b)
    (hbs : (b : ℚ) ≤ (2 * γ - 1) * s) (hmax : ∀ w, G w → b < w → w ≤ m → (2 * γ - 1) * s < w)
    (hby : b < y) (hym : y ≤ m) (hg : ∀ w, G w → y ≤ w → g ≤ w) :
    (g : ℚ) - b ≤ (2 * γ - 1) * (y - s) := by
  have hγ := h.one
  have hup := up_le h y g (by omega) hym hg
  have hsq : (0 : ℚ) ≤ s := by exact_mod_cast hs0
  have hsbq : (s : ℚ) ≤ b := by exact_mod_cast hsb
  have hbyq : (b : ℚ) + 1 ≤ y := by exact_mod_cast hby
  rcases eq_or_lt_of_le (show 0 ≤ b by omega) with h0 | hb0
  · have : s = 0 := by omega
    subst this; subst h0
    push_cast
    linarith
  have hbq : (1 : ℚ) ≤ b := by exact_mod_cast hb0
  by_cases hG : G y
  · have h1 : (g : ℚ) ≤ y := by exact_mod_cast hg y hG le_rfl
    nlinarith
  · obtain ⟨a, ha1, ha2, ha3, ha4, ha5⟩ := exists_down h (y : ℚ) (by linarith)
    have hay : a < y := lt_of_le_of_ne (by exact_mod_cast ha2) (by rintro rfl; exact hG ha1)
    have hba : b ≤ a := ha5 b hb (by linarith) (by omega)
    have hbaq : (b : ℚ) ≤ a := by exact_mod_cast hba
    have hayq : (a : ℚ) + 1 ≤ y := by exact_mod_cast hay
    obtain ⟨w, w1, w2, w3, w4⟩ := h.gap a (by omega) (by omega)
    have hyw : y < w := by
      by_contra hc
      have := ha5 w w1 (by push Not at hc; exact_mod_cast hc) w3
      omega
    have h5 : (g : ℚ) ≤ w := by exact_mod_cast hg w w1 hyw.le
    have w5 : (w : ℚ) ≤ γ * a := by
      rcases w4 with w4 | w4
      · exact w4
      · omega
    rcases eq_or_lt_of_le hba with e | hlt
    · subst e
      have := hmax w w1 w2 w3
      nlinarith
    · obtain ⟨n, n1, n2, n3, n4⟩ := h.gap b (by omega) (by omega)
      have := hmax n n1 n2 n3
      rcases n4 with n4 | n4
      · nlinarith
      · have : (n : ℚ) = b + 1 := by exact_mod_cast n4
        nlinarith

/-- What is kept about one dimension: the schedule is at `x`, the grid schedule at `x'`, and `E` is what `2γ - 1`
times the movement of the schedule exceeds that of the grid schedule. -/
def Inv (γ : ℚ) (m : ℤ) (G : ℤ → Prop) (x x' : ℤ) (E : ℚ) : Prop :=
  0 ≤ E ∧ ∃ s b : ℤ, G b ∧ 0 ≤ s ∧ s ≤ b ∧ (b : ℚ) ≤ (2 * γ - 1) * s ∧
    (∀ w, G w → b < w → w ≤ m → (2 * γ - 1) * s < w) ∧ b ≤ x' ∧ (2 * γ - 1) * (x - s) - (x' - b) ≤ E

theorem inv_zero (h : Grid γ m G) : Inv γ m G 0 0 0 := by
  refine ⟨le_rfl, 0, 0, h.zero, le_rfl, le_rfl, by simp, fun w _ hw _ => ?_, le_rfl, by simp⟩
  have : (0 : ℚ) < w := by exact_mod_cast hw
  simpa using this

/-- One step of one dimension. -/
theorem step (h : Grid γ m G) (x x' : ℤ) (E : ℚ) (hI : Inv γ m G x x' E) (hG : G x') (hx'm : x' ≤ m)
    (y : ℤ) (hy0 : 0 ≤ y) (hym : y ≤ m) :
    ∃ y', G y' ∧ y' ≤ m ∧ y ≤ y' ∧ (y' : ℚ) ≤ (2 * γ - 1) * y ∧
      Inv γ m G y y' (E + (2 * γ - 1) * max 0 ((y : ℚ) - x) - max 0 ((y' : ℚ) - x')) := by
  obtain ⟨hE, s, b, hb, hs0, hsb, hbs, hmax, hbx, hle⟩ := hI
  have hγ := h.one
  have hc : 0 < 2 * γ - 1 := by linarith
  have hpos : 0 ≤ (2 * γ - 1) * max 0 ((y : ℚ) - x) := mul_nonneg hc.le (le_max_left _ _)
  have hge : (2 * γ - 1) * ((y : ℚ) - x) ≤ (2 * γ - 1) * max 0 ((y : ℚ) - x) :=
    mul_le_mul_of_nonneg_left (le_max_right _ _) hc.le
  rcases lt_or_ge x' y with hup | hkeep
  · -- up
    obtain ⟨g, g1, g2, g3, g4⟩ := exists_up h y hym
    refine ⟨g, g1, g3, g2, up_le h y g hy0 hym g4, ?_⟩
    have hcl := climb h s b y g hb hs0 hsb hbs hmax (by omega) hym g4
    have hgx : max 0 ((g : ℚ) - x') = (g : ℚ) - x' := by
      apply max_eq_right
      have : (x' : ℚ) ≤ g := by exact_mod_cast (show x' ≤ g by omega)
      linarith
    rw [hgx]
    refine ⟨?_, s, b, hb, hs0, hsb, hbs, hmax, by omega, ?_⟩
    · linarith
    · linarith
  · rcases le_or_gt (x' : ℚ) ((2 * γ - 1) * y) with hk | hdn
    · -- keep
      refine ⟨x', hG, hx'm, hkeep, hk, ?_⟩
      rw [sub_self, max_self, sub_zero]
      exact ⟨by linarith, s, b, hb, hs0, hsb, hbs, hmax, hbx, by linarith⟩
    · -- down
      obtain ⟨g, g1, g2, g3, g4, g5⟩ := exists_down h ((2 * γ - 1) * y)
        (mul_nonneg hc.le (by exact_mod_cast hy0))
      have hyg : y ≤ g := by
        obtain ⟨u, u1, u2, u3, u4⟩ := exists_up h y hym
        exact u2.trans (g5 u u1 (up_le h y u hy0 hym u4) u3)
      have hgx : max 0 ((g : ℚ) - x') = 0 := max_eq_left (by linarith)
      refine ⟨g, g1, g3, hyg, g2, ?_⟩
      rw [hgx, sub_zero]
      refine ⟨by linarith, y, g, g1, hy0, hyg, g2, fun w w1 w2 w3 => ?_, le_rfl, ?_⟩
      · by_contra hcc
        push Not at hcc
        have := g5 w w1 hcc w3
        omega
      · linarith

/-- All dimensions. -/
inductive InvL (γ : ℚ) (G : ℤ → Prop) : List ℤ → Config ℤ → Config ℤ → List ℚ → Prop
  | nil : InvL γ G [] [] [] []
  | cons {m x x' E ms xs xs' Es} : Grid γ m G → Inv γ m G x x' E → G x' → x' ≤ m → InvL γ G ms xs xs' Es →
      InvL γ G (m :: ms) (x :: xs) (x' :: xs') (E :: Es)

/-- `∑ k, β k * E k` -/
def wsum (β Es : List ℚ) : ℚ := (List.zipWith (fun b e => b * e) β Es).sum

theorem wsum_nonneg (β : List ℚ) (hβ : ∀ b ∈ β, 0 ≤ b) {ms : List ℤ} {xs xs' : Config ℤ} {Es : List ℚ}
    (h : InvL γ G ms xs xs' Es) : 0 ≤ wsum β Es := by
  induction h generalizing β with
  | nil => simp [wsum]
  | @cons m x x' E ms xs xs' Es hg hi hx hm _ ih =>
    cases β with
    | nil => simp [wsum]
    | cons b β =>
      have := ih β fun b' hb' => hβ b' (by simp [hb'])
      have h2 := mul_nonneg (hβ b (by simp)) hi.1
      simp only [wsum, List.zipWith_cons_cons, List.sum_cons] at this ⊢
      linarith

theorem invL_zero (ms : List ℤ) (h : ∀ m ∈ ms, Grid γ m G) :
    InvL γ G ms (List.replicate ms.length 0) (List.replicate ms.length 0) (List.replicate ms.length 0) := by
  induction ms with
  | nil => exact .nil
  | cons m ms ih =>
    have hm := h m (by simp)
    simp only [List.length_cons, List.replicate_succ]
    exact .cons hm (inv_zero hm) hm.zero hm.mpos.le (ih fun m' hm' => h m' (by simp [hm']))

/-- One step of all dimensions. -/
theorem stepL {ms : List ℤ} {xs xs' : Config ℤ} {Es : List ℚ} (h : InvL γ G ms xs xs' Es) (ys : Config ℤ)
    (hy : Spec.InBox ms ys) :
    ∃ ys' Es', InvL γ G ms ys ys' Es' ∧ Spec.Between (2 * γ - 1) ys ys' ∧ Spec.InBox ms ys' ∧
      (∀ j ∈ ys', G j) ∧ ∀ β : List ℚ, wsum β Es'
        = wsum β Es + (2 * γ - 1) * Spec.upCost β xs ys - Spec.upCost β xs' ys' := by
  induction h generalizing ys with
  | nil =>
    cases hy
    exact ⟨[], [], .nil, .nil, .nil, by simp, fun β => by cases β <;> simp [wsum, Spec.upCost, List.zipWith3]⟩
  | @cons m x x' E ms xs xs' Es hg hi hx hm _ ih =>
    cases hy with
    | @cons _ y _ ys h0 hys =>
    obtain ⟨ys', Es', i1, i2, i3, i4, i5⟩ := ih ys hys
    obtain ⟨y', s1, s2, s3, s4, s5⟩ := step hg x x' E hi hx hm y h0.1 h0.2
    refine ⟨y' :: ys', _ :: Es', .cons hg s5 s1 s2 i1, .cons ⟨s3, s4⟩ i2, .cons ⟨h0.1.trans s3, s2⟩ i3, ?_, ?_⟩
    · intro j hj
      rcases List.mem_cons.1 hj with rfl | hj
      · exact s1
      · exact i4 j hj
    · intro β
      cases β with
      | nil => simp [wsum, Spec.upCost, List.zipWith3]
      | cons b β =>
        have := i5 β
        have hq : ∀ z : ℤ, toQ z = (z : ℚ) := fun _ => rfl
        simp only [wsum, Spec.upCost, List.zipWith3, List.zipWith_cons_cons, List.sum_cons, hq] at this ⊢
        rw [this]
        ring

/-- The whole schedule. -/
theorem follow (β : List ℚ) (hβ : ∀ b ∈ β, 0 ≤ b) (α : ℚ) (hα : 0 ≤ α) (hit : Int → Config ℤ → ECost)
    (n : Int) {ms : List ℤ}
    (hgrow : ∀ t : Int, 1 ≤ t → t ≤ n → Spec.GrowsAtMostBy (2 * γ - 1) (Spec.InBox ms) (hit t))
    (xs : List (Config ℤ)) :
    ∀ (t : Int) (prev prev' : Config ℤ) (Es : List ℚ), InvL γ G ms prev prev' Es → 1 ≤ t →
      t + xs.length ≤ n + 1 → (∀ x ∈ xs, Spec.InBox ms x) → ∀ q : ℚ,
      Spec.totalCost hit (Spec.upCost β) α t prev xs = (q : ECost) →
      ∃ ys : List (Config ℤ), ys.length = xs.length ∧ (∀ y ∈ ys, Spec.InBox ms y ∧ ∀ j ∈ y, G j) ∧
        Spec.totalCost hit (Spec.upCost β) α t prev' ys
          ≤ (((2 * γ - 1) * q + α * wsum β Es : ℚ) : ECost) := by
  induction xs with
  | nil =>
    intro t prev prev' Es hI _ _ _ q hq
    refine ⟨[], rfl, by simp, ?_⟩
    have hq0 : q = 0 := by
      simp only [Spec.totalCost] at hq
      exact_mod_cast hq.symm
    subst hq0
    have := mul_nonneg hα (wsum_nonneg β hβ hI)
    simp only [Spec.totalCost, mul_zero, zero_add]
    exact_mod_cast this
  | cons x xs ih =>
    intro t prev prev' Es hI ht hn hbox q hq
    simp only [List.length_cons] at hn
    push_cast at hn
    simp only [Spec.totalCost] at hq
    cases hc : hit t x using WithTop.recTopCoe with
    | top => rw [hc] at hq; simp at hq
    | coe h1 =>
    cases hr : Spec.totalCost hit (Spec.upCost β) α (t + 1) x xs using WithTop.recTopCoe with
    | top => rw [hr] at hq; simp at hq
    | coe q1 =>
    rw [hc, hr] at hq
    have hq' : q = h1 + α * Spec.upCost β prev x + q1 := by exact_mod_cast hq.symm
    obtain ⟨y, Es', i1, i2, i3, i4, i5⟩ := stepL hI x (hbox x (by simp))
    obtain ⟨ys, e1, e2, e3⟩ := ih (t + 1) x y Es' i1 (by omega) (by omega)
      (fun z hz => hbox z (by simp [hz])) q1 hr
    refine ⟨y :: ys, by simp [e1], ?_, ?_⟩
    · intro z hz
      rcases List.mem_cons.1 hz with rfl | hz
      · exact ⟨i3, i4⟩
      · exact e2 z hz
    · simp only [Spec.totalCost]
      have hh := hgrow t ht (by omega) x y (hbox x (by simp)) i3 i2 h1 hc
      refine (add_le_add (add_le_add_left hh _) e3).trans ?_
      rw [← WithTop.coe_add, ← WithTop.coe_add]
      apply WithTop.coe_le_coe.2
      rw [i5 β, hq']
      apply le_of_eq
      ring

end Soco.Ratio
