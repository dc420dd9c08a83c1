import Verif.Lemmas.Memoryless

/-! # One step of online gradient descent -/

namespace Soco.Regret
open Soco Spec Mless

/-- The error of one step with learning rate `η`. -/
def err (L ε W η : ℚ) : ℚ := 5 / 2 * (η * L ^ 2) + 2 * (L * ε) + (W / 100 + 1 / 40000) / (2 * η)

/-- Difference quotients are at most `L`. -/
theorem quot_le {lo hi L ε p : ℚ} {f : ℚ → ℚ} (F : Fn lo hi L f) (hε : 0 < ε) (p1 : lo ≤ p - ε) (p2 : p + ε ≤ hi) :
    |(f (p + ε) - f (p - ε)) / (2 * ε)| ≤ L := by
  have := F.lip (p - ε) (p + ε) p1 (by linarith) p2
  rw [abs_div, abs_of_pos (by linarith : 0 < 2 * ε), div_le_iff₀ (by linarith), abs_le]
  constructor <;> linarith [this.1, this.2]

/-- Difference quotients are nearly subgradients. -/
theorem quot_sub {lo hi L ε p z : ℚ} {f : ℚ → ℚ} (F : Fn lo hi L f) (hε : 0 < ε) (p1 : lo ≤ p - ε)
    (p2 : p + ε ≤ hi) (z1 : lo ≤ z) (z2 : z ≤ hi) :
    f p - f z ≤ (f (p + ε) - f (p - ε)) / (2 * ε) * (p - z) + 2 * (L * ε) := by
  obtain ⟨g, hg⟩ : ∃ g, g = (f (p + ε) - f (p - ε)) / (2 * ε) := ⟨_, rfl⟩
  have hgl := quot_le F hε p1 p2
  have hge : g * (2 * ε) = f (p + ε) - f (p - ε) := by rw [hg]; field_simp
  rw [← hg] at hgl ⊢
  rw [abs_le] at hgl
  have hL : 0 ≤ L := by linarith [hgl.1, hgl.2]
  have hLe : 0 ≤ L * ε := mul_nonneg hL hε.le
  have c0 := F.conv (p - ε) p (p + ε) p1 (by linarith) (by linarith) p2
  rcases le_or_gt |p - z| ε with h | h
  · -- close by
    have h1 : f p - f z ≤ L * ε := by
      rcases le_total p z with h' | h'
      · have := (F.lip p z (by linarith) h' z2).1
        rw [abs_of_nonpos (by linarith)] at h
        nlinarith
      · have := (F.lip z p z1 h' (by linarith)).2
        rw [abs_of_nonneg (by linarith)] at h
        nlinarith
    have h2 : -(L * ε) ≤ g * (p - z) := by
      rw [abs_le] at h
      rcases le_total 0 (p - z) with h' | h' <;> nlinarith
    linarith
  · rcases le_total p z with h' | h'
    · rw [abs_of_nonpos (by linarith)] at h
      -- `p + ε < z`
      have c := F.conv p (p + ε) z (by linarith) (by linarith) (by linarith) z2
      have : f p - f z ≤ g * (p - z) := by
        have hc : (z - p) * (f (p + ε) - f p) ≤ ε * (f z - f p) := by nlinarith
        have h3 : g * ε ≤ f (p + ε) - f p := by nlinarith
        have h4 : (z - p) * (g * ε) ≤ (z - p) * (f (p + ε) - f p) := mul_le_mul_of_nonneg_left h3 (by linarith)
        have h5 : ε * (g * (z - p)) ≤ ε * (f z - f p) := by linarith
        have := le_of_mul_le_mul_left h5 hε
        linarith
      linarith
    · rw [abs_of_nonneg (by linarith)] at h
      have c := F.conv z (p - ε) p z1 (by linarith) (by linarith) (by linarith)
      have : f p - f z ≤ g * (p - z) := by
        have hc : ε * (f p - f z) ≤ (p - z) * (f p - f (p - ε)) := by nlinarith
        have h3 : f p - f (p - ε) ≤ g * ε := by nlinarith
        have h4 : (p - z) * (f p - f (p - ε)) ≤ (p - z) * (g * ε) := mul_le_mul_of_nonneg_left h3 (by linarith)
        have h5 : ε * (f p - f z) ≤ ε * (g * (p - z)) := by linarith
        exact le_of_mul_le_mul_left h5 hε
      linarith

/-- Projecting to the grid brings hardly further away from any point of the interval. -/
theorem project_le {lo hi x y z : ℚ} (gl : OnGrid lo) (gh : OnGrid hi) (x1 : lo ≤ x) (x2 : x ≤ hi) (z1 : lo ≤ z)
    (z2 : z ≤ hi) (hx : ∀ w, lo ≤ w → w ≤ hi → OnGrid w → (x - y) ^ 2 ≤ (w - y) ^ 2) :
    (x - z) ^ 2 ≤ (y - z) ^ 2 + ((hi - lo) / 100 + 1 / 40000) := by
  have hw : 0 ≤ hi - lo := by linarith
  rcases lt_or_ge y lo with h | h
  · have := hx lo le_rfl (by linarith) gl
    have hxl : x = lo := by nlinarith
    subst hxl
    nlinarith
  · rcases lt_or_ge hi y with h' | h'
    · have := hx hi (by linarith) le_rfl gh
      have hxl : x = hi := by nlinarith
      subst hxl
      nlinarith
    · obtain ⟨a, ha⟩ := gl
      obtain ⟨b, hb⟩ := gh
      have k1 := Int.floor_le (100 * y + 1 / 2)
      have k2 := Int.lt_floor_add_one (100 * y + 1 / 2)
      have k3 : a ≤ ⌊100 * y + 1 / 2⌋ := Int.le_floor.2 (by linarith)
      have k4 : ⌊100 * y + 1 / 2⌋ ≤ b := by
        have : ((⌊100 * y + 1 / 2⌋ : ℤ) : ℚ) < b + 1 := by linarith
        have : ⌊100 * y + 1 / 2⌋ < b + 1 := by exact_mod_cast this
        omega
      generalize ⌊100 * y + 1 / 2⌋ = k at *
      have k5 : (a : ℚ) ≤ k := by exact_mod_cast k3
      have k6 : (k : ℚ) ≤ b := by exact_mod_cast k4
      have := hx (k * (1 / 100)) (by linarith) (by linarith) ⟨k, rfl⟩
      have hd : (k * (1 / 100) - y) ^ 2 ≤ (1 / 200) ^ 2 := by
        apply sq_le_sq'
        · linarith
        · linarith
      have hxy : |x - y| ≤ 1 / 200 := by
        apply abs_le_of_sq_le_sq (this.trans hd) (by norm_num)
      rw [abs_le] at hxy
      have h3 : 2 * ((x - y) * (y - z)) ≤ (hi - lo) / 100 := by
        rcases le_total 0 (y - z) with q | q <;> nlinarith
      have h4 : (x - y) ^ 2 ≤ 1 / 40000 := this.trans (hd.trans (by norm_num))
      nlinarith

/-- One step. -/
theorem step {lo hi L ε η p x z : ℚ} {f : ℚ → ℚ} (F : Fn lo hi L f) (hε : 0 < ε) (hη : 0 < η) (gl : OnGrid lo) (gh : OnGrid hi)
    (gp : OnGrid p) (p1 : lo ≤ p - ε) (p2 : p + ε ≤ hi) (x1 : lo ≤ x) (x2 : x ≤ hi) (z1 : lo ≤ z) (z2 : z ≤ hi)
    (hx : ∀ w, lo ≤ w → w ≤ hi → OnGrid w →
      (x - (p - η * ((f (p + ε) - f (p - ε)) / (2 * ε)))) ^ 2 ≤ (w - (p - η * ((f (p + ε) - f (p - ε)) / (2 * ε)))) ^ 2) :
    f x - f z ≤ ((p - z) ^ 2 - (x - z) ^ 2) * (1 / (2 * η)) + err L ε (hi - lo) η := by
  have a := quot_le F hε p1 p2
  have b := quot_sub F hε p1 p2 z1 z2
  generalize (f (p + ε) - f (p - ε)) / (2 * ε) = g at *
  have c := project_le gl gh x1 x2 z1 z2 hx
  have d := hx p (by linarith) (by linarith) gp
  rw [abs_le] at a
  have hL : 0 ≤ L := by linarith [a.1, a.2]
  have hgg : g ^ 2 ≤ L ^ 2 := by nlinarith
  have hηL : 0 ≤ η * L := mul_nonneg hη.le hL
  have e1 : |x - p| ≤ 2 * (η * L) := by
    have h1 : |x - (p - η * g)| ≤ η * L := by
      apply abs_le_of_sq_le_sq _ hηL
      refine d.trans ?_
      rw [show p - (p - η * g) = η * g by ring, mul_pow, mul_pow]
      exact mul_le_mul_of_nonneg_left hgg (sq_nonneg _)
    rw [abs_le] at h1 ⊢
    have h2 : -(η * L) ≤ η * g ∧ η * g ≤ η * L := ⟨by nlinarith [a.1], by nlinarith [a.2]⟩
    constructor <;> linarith [h1.1, h1.2, h2.1, h2.2]
  have e2 : f x ≤ f p + 2 * (η * L ^ 2) := by
    rcases le_total x p with h | h
    · have := (F.lip x p x1 h (by linarith)).1
      rw [abs_of_nonpos (by linarith)] at e1
      nlinarith [mul_le_mul_of_nonneg_left e1 hL]
    · have := (F.lip p x (by linarith) h x2).2
      rw [abs_of_nonneg (by linarith)] at e1
      nlinarith [mul_le_mul_of_nonneg_left e1 hL]
  have e3 : g * (p - z) ≤ ((p - z) ^ 2 - (x - z) ^ 2) * (1 / (2 * η)) + η * L ^ 2 / 2
      + ((hi - lo) / 100 + 1 / 40000) / (2 * η) := by
    have h2 : 2 * η * (g * (p - z)) ≤ (p - z) ^ 2 - (x - z) ^ 2 + η ^ 2 * L ^ 2 + ((hi - lo) / 100 + 1 / 40000) := by
      have : η ^ 2 * g ^ 2 ≤ η ^ 2 * L ^ 2 := mul_le_mul_of_nonneg_left hgg (sq_nonneg _)
      nlinarith
    have h3 : g * (p - z) ≤ ((p - z) ^ 2 - (x - z) ^ 2 + η ^ 2 * L ^ 2 + ((hi - lo) / 100 + 1 / 40000)) / (2 * η) := by
      rw [le_div_iff₀ (by linarith)]; linarith
    refine h3.trans (le_of_eq ?_)
    field_simp
  rw [err]
  linarith

end Soco.Regret
