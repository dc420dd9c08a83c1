import Verif.Lemmas.Optimiser
import Verif.Spec.Gentle

/-! # Amortised analysis of one step of the memoryless algorithm -/

namespace Soco.Mless
open Soco Spec

/-- Non-negative convex costs on an interval which change by at most `L` per unit. -/
structure Fn (lo hi L : ℚ) (f : ℚ → ℚ) : Prop where
  nonneg : ∀ x, lo ≤ x → x ≤ hi → 0 ≤ f x
  conv : ∀ x y z, lo ≤ x → x < y → y < z → z ≤ hi → (z - x) * f y ≤ (z - y) * f x + (y - x) * f z
  lip : ∀ x y, lo ≤ x → x ≤ y → y ≤ hi → f x ≤ f y + L * (y - x) ∧ f y ≤ f x + L * (y - x)

theorem Fn.neg {lo hi L : ℚ} {f : ℚ → ℚ} (h : Fn lo hi L f) : Fn (-hi) (-lo) L (fun x => f (-x)) where
  nonneg x a b := h.nonneg (-x) (by linarith) (by linarith)
  conv x y z a b c d := by
    have := h.conv (-z) (-y) (-x) (by linarith) (by linarith) (by linarith) (by linarith)
    nlinarith
  lip x y a b c := by
    have := h.lip (-y) (-x) (by linarith) (by linarith) (by linarith)
    constructor <;> linarith [this.1, this.2]

theorem Fn.of_gentle {lo u L : ℚ} {f : ℚ → ℚ} (h : Moderate lo u L f) : Fn lo u L f where
  nonneg := h.nonneg
  conv x y z a b c d := by
    have hz : 0 < z - x := by linarith
    have := h.convex x z a (by linarith) (by linarith) d ((y - x) / (z - x)) (div_nonneg (by linarith) hz.le)
      ((div_le_one hz).2 (by linarith))
    have e : (1 - (y - x) / (z - x)) * x + (y - x) / (z - x) * z = y := by field_simp; ring
    rw [e] at this
    have h2 := mul_le_mul_of_nonneg_left this hz.le
    have e2 : (z - x) * ((1 - (y - x) / (z - x)) * f x + (y - x) / (z - x) * f z) = (z - y) * f x + (y - x) * f z := by
      field_simp; ring
    rw [e2] at h2
    exact h2
  lip x y a b c := by
    have := h.slope x y a (by linarith) (by linarith) c
    rw [abs_le, abs_of_nonpos (by linarith : x - y ≤ 0)] at this
    constructor <;> linarith [this.1, this.2]

theorem cross {P : ℤ → Prop} {a b : ℤ} (hab : a ≤ b) (ha : P a) (hb : ¬ P b) : ∃ i, a ≤ i ∧ i < b ∧ P i ∧ ¬ P (i + 1) := by
  by_contra hc
  push Not at hc
  refine hb ?_
  have : ∀ n : Nat, a + n ≤ b → P (a + n) := by
    intro n
    induction n with
    | zero => intro _; simpa using ha
    | succ n ih =>
      intro h
      have := hc (a + n) (by omega) (by push_cast at h; omega) (ih (by push_cast at h; omega))
      push_cast
      rwa [← add_assoc]
  have := this (b - a).toNat (by omega)
  rwa [Int.toNat_of_nonneg (by omega), add_sub_cancel] at this

/-- One step when the other schedule is further to the right. -/
theorem step_right {lo hi L β : ℚ} {f : ℚ → ℚ} (F : Fn lo hi L f) (hβ : 0 ≤ β) (hL : 0 ≤ L) {p x o : ℚ}
    (gp : OnGrid p) (gx : OnGrid x) (p1 : lo ≤ p) (p2 : p ≤ hi) (x1 : lo ≤ x) (x2 : x ≤ hi) (o2 : o ≤ hi)
    (hpo : p < o) (hx : 2 * (β * |x - p|) ≤ f x)
    (hmin : ∀ y, lo ≤ y → y ≤ hi → OnGrid y → 2 * (β * |y - p|) ≤ f y → f x ≤ f y) :
    f x + β / 2 * |x - p| + 5 * (β / 2) * (|x - o| - |p - o|) ≤ 5 * f o + (5 * β + 5 / 2 * L) / 100 := by
  have hfo := F.nonneg o (by linarith) o2
  by_cases hfx : f x ≤ f o
  · have tri : |x - o| - |p - o| ≤ |x - p| := by
      have := abs_sub_abs_le_abs_sub (x - o) (p - o)
      rwa [show x - o - (p - o) = x - p by ring] at this
    have := mul_le_mul_of_nonneg_left tri hβ
    nlinarith
  push Not at hfx
  have hxp : f x ≤ f p := hmin p p1 p2 gp (by simpa using F.nonneg p p1 p2)
  have hpx : p ≤ x := by
    by_contra hc
    push Not at hc
    have := F.conv x p o x1 hc hpo o2
    nlinarith
  have e1 : |x - p| = x - p := abs_of_nonneg (by linarith)
  have e2 : |p - o| = o - p := by rw [abs_of_neg (by linarith)]; ring
  rw [e1] at hx ⊢
  rw [e2]
  rcases le_or_gt x o with hxo | hox
  · have e3 : |x - o| = o - x := by rw [abs_of_nonpos (by linarith)]; ring
    rw [e3]
    by_cases hs : o - x ≤ 1 / 100
    · have := (F.lip x o x1 hxo o2).1
      nlinarith
    · push Not at hs
      have gy : OnGrid (x + 1 / 100) := by
        obtain ⟨z, rfl⟩ := gx
        exact ⟨z + 1, by push_cast; ring⟩
      have hc := F.conv x (x + 1 / 100) o x1 (by linarith) (by linarith) o2
      have hy : f (x + 1 / 100) < f x := by nlinarith
      have hn : ¬ 2 * (β * |x + 1 / 100 - p|) ≤ f (x + 1 / 100) := fun h =>
        absurd (hmin _ (by linarith) (by linarith) gy h) (not_le.2 hy)
      rw [abs_of_nonneg (by linarith)] at hn
      push Not at hn
      have := (F.lip x (x + 1 / 100) x1 (by linarith) (by linarith)).1
      nlinarith
  · have e3 : |x - o| = x - o := abs_of_nonneg (by linarith)
    rw [e3]
    by_cases hs : x - o ≤ 1 / 100
    · have := (F.lip o x (by linarith) hox.le x2).2
      nlinarith
    · push Not at hs
      obtain ⟨a, ha⟩ := id gp
      obtain ⟨b, hb⟩ := id gx
      have hab : a ≤ b - 1 := by
        have : (a : ℚ) < b - 1 := by linarith
        have : a < b - 1 := by exact_mod_cast this
        exact this.le
      have hy : f (x - 1 / 100) < f x := by
        have := F.conv o (x - 1 / 100) x (by linarith) (by linarith) (by linarith) x2
        nlinarith
      obtain ⟨i, i1, i2, i3, i4⟩ := cross (P := fun z : ℤ => 2 * (β * |z * (1 / 100) - p|) ≤ f (z * (1 / 100))) hab
        (by rw [← ha]; simpa using F.nonneg p p1 p2)
        (fun h => absurd (hmin (x - 1 / 100) (by linarith) (by linarith) ⟨b - 1, by rw [hb]; push_cast; ring⟩ (by
          have e : ((b - 1 : ℤ) : ℚ) * (1 / 100) = x - 1 / 100 := by rw [hb]; push_cast; ring
          rwa [e] at h)) (not_le.2 hy))
      have q1 : p ≤ i * (1 / 100) := by
        rw [ha]; have : (a : ℚ) ≤ i := by exact_mod_cast i1
        linarith
      have q2 : (i : ℚ) * (1 / 100) + 1 / 100 ≤ x - 1 / 100 := by
        rw [hb]; have : (i : ℚ) + 1 ≤ b - 1 := by exact_mod_cast i2
        linarith
      push_cast at i4
      obtain ⟨g, hg⟩ : ∃ g : ℚ, g = i * (1 / 100) := ⟨_, rfl⟩
      have e4 : ((i : ℚ) + 1) * (1 / 100) = g + 1 / 100 := by rw [hg]; ring
      rw [e4] at i4
      rw [← hg] at q1 q2 i3
      have gg : OnGrid g := ⟨i, hg⟩
      have hxg := hmin g (by linarith) (by linarith) gg i3
      have hgo : g ≤ o := by
        by_contra hc
        push Not at hc
        have := F.conv o g x (by linarith) hc (by linarith) x2
        nlinarith
      rw [abs_of_nonneg (by linarith)] at i4
      push Not at i4
      have l1 := (F.lip g (g + 1 / 100) (by linarith) (by linarith) (by linarith)).1
      nlinarith

/-- One step: the cost of the step and the increase of the potential `5/2 β |x - o|` are paid for by five times the
hitting cost of the other schedule, up to the grid. -/
theorem step {lo hi L β : ℚ} {f : ℚ → ℚ} (F : Fn lo hi L f) (hβ : 0 ≤ β) (hL : 0 ≤ L) {p x o : ℚ}
    (gp : OnGrid p) (gx : OnGrid x) (p1 : lo ≤ p) (p2 : p ≤ hi) (x1 : lo ≤ x) (x2 : x ≤ hi) (o1 : lo ≤ o) (o2 : o ≤ hi)
    (hx : 2 * (β * |x - p|) ≤ f x)
    (hmin : ∀ y, lo ≤ y → y ≤ hi → OnGrid y → 2 * (β * |y - p|) ≤ f y → f x ≤ f y) :
    f x + β / 2 * |x - p| + 5 * (β / 2) * (|x - o| - |p - o|) ≤ 5 * f o + (5 * β + 5 / 2 * L) / 100 := by
  rcases lt_trichotomy p o with h | h | h
  · exact step_right F hβ hL gp gx p1 p2 x1 x2 o2 h hx hmin
  · subst h
    have := hmin p p1 p2 gp (by simpa using F.nonneg p p1 p2)
    have h0 := F.nonneg p p1 p2
    rw [sub_self, abs_zero]
    nlinarith
  · have ng : ∀ {y}, OnGrid y → OnGrid (-y) := fun ⟨z, hz⟩ => ⟨-z, by rw [hz]; push_cast; ring⟩
    have sw : ∀ a b : ℚ, |(-a) - (-b)| = |a - b| := fun a b => by rw [show -a - -b = -(a - b) by ring, abs_neg]
    have := step_right F.neg hβ hL (p := -p) (x := -x) (o := -o) (ng gp) (ng gx) (by linarith) (by linarith) (by linarith)
      (by linarith) (by linarith) (by linarith) (by rw [sw, neg_neg]; exact hx) (by
        intro y a b g h
        rw [neg_neg]
        refine hmin (-y) (by linarith) (by linarith) (ng g) ?_
        rw [← sw (-y) p, neg_neg]; exact h)
    simpa only [sw, neg_neg] using this

end Soco.Mless
