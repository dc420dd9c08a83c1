import Verif.Lemmas.UniDP
import Verif.Lemmas.Proximity
import Verif.Spec.Convex
import Mathlib.Tactic.Linarith
import Mathlib.Tactic.Positivity

/-! # Uni-dimensional graph search: from one grid to the next finer one -/

namespace Soco
namespace Uni
open Prox

/-- The extension of the hitting costs beyond `m`. -/
def extCost (g : Int → ℤ → ECost) (m : ℤ) (t : Int) (j : ℤ) : ECost :=
  if j ≤ m then g t j else ECost.mulQ (j : ℚ) (g t m + ((epsilon : ℚ) : ECost))

/-- The least multiple of `h` that is at least `m`. -/
def cap (m h : ℤ) : ℤ := ((m + h - 1) / h) * h

section cap
variable {m h : ℤ}

theorem dvd_cap : h ∣ cap m h := Dvd.intro_left _ rfl

theorem le_cap (hh : 0 < h) : m ≤ cap m h := by
  have h1 := Int.emod_add_mul_ediv (m + h - 1) h
  have h2 := Int.emod_lt_of_pos (m + h - 1) hh
  unfold cap; rw [mul_comm]; omega

theorem cap_lt (hh : 0 < h) : cap m h < m + h := by
  have h1 := Int.emod_add_mul_ediv (m + h - 1) h
  have h2 := Int.emod_nonneg (m + h - 1) hh.ne'
  unfold cap; rw [mul_comm]; omega

theorem cap_le (hh : 0 < h) {y : ℤ} (hy : h ∣ y) (hm : m ≤ y) : cap m h ≤ y := by
  obtain ⟨c, rfl⟩ := hy
  have h1 := cap_lt (m := m) hh
  unfold cap at h1 ⊢
  rw [mul_comm] at h1 ⊢
  have : h * ((m + h - 1) / h) < h * (c + 1) := by rw [mul_add, mul_one]; omega
  exact mul_le_mul_of_nonneg_left (by have := lt_of_mul_lt_mul_left this hh.le; omega) hh.le

theorem cap_two (hh : 0 < h) : cap m (2 * h) ≤ cap m h + h := by
  obtain ⟨c, hc⟩ := dvd_cap (m := m) (h := h)
  have h1 := le_cap (m := m) hh
  rcases Int.even_or_odd' c with ⟨e, he | he⟩
  · have : cap m (2 * h) ≤ cap m h := cap_le (by omega) ⟨e, by rw [hc, he]; ring⟩ h1
    omega
  · exact cap_le (by omega) ⟨e + 1, by rw [hc, he]; ring⟩ (by omega)

end cap

/-- The hypotheses on the hitting costs. -/
structure Good (T : Nat) (m : ℤ) (g : Int → ℤ → ECost) : Prop where
  hm : 1 ≤ m
  fin : ∀ t : Int, 1 ≤ t → t ≤ T → g t m ≠ ⊤
  nonneg : ∀ t : Int, 1 ≤ t → t ≤ T → ∀ j, 0 ≤ j → j ≤ m → 0 ≤ g t j
  conv : ∀ t : Int, 1 ≤ t → t ≤ T → Spec.ConvexOnE m (g t)

theorem epsilon_pos : 0 < epsilon := by unfold epsilon; norm_num

theorem ext_top {g : Int → ℤ → ECost} {m : ℤ} {t : Int} {G : ℚ} (hG : g t m = G) {j : ℤ} (hj : m < j) :
    extCost g m t j = ((j * (G + epsilon) : ℚ) : ECost) := by
  unfold extCost
  rw [if_neg (by omega), hG, ← WithTop.coe_add]
  rfl

theorem ext_le {g : Int → ℤ → ECost} {m : ℤ} {t : Int} {j : ℤ} (hj : j ≤ m) :
    extCost g m t j = g t j := by unfold extCost; rw [if_pos hj]

/-- The rational value of the extended costs. -/
def gq (g : Int → ℤ → ECost) (m : ℤ) (t : Int) (j : ℤ) : ℚ := (extCost g m t j).untopD 0

theorem gq_eq {g : Int → ℤ → ECost} {m : ℤ} {t : Int} {j : ℤ} (h : extCost g m t j ≠ ⊤) :
    extCost g m t j = ((gq g m t j : ℚ) : ECost) := by
  unfold gq
  cases he : extCost g m t j using WithTop.recTopCoe with
  | top => exact absurd he h
  | coe a => rfl

section good
variable {T : Nat} {m : ℤ} {g : Int → ℤ → ECost} (G : Good T m g) {t : Int} (h1 : 1 ≤ t) (h2 : t ≤ T)
include G h1 h2

theorem Good.fin_up {j k : ℤ} (hj : 0 ≤ j) (hjk : j ≤ k) (hf : extCost g m t j ≠ ⊤) : extCost g m t k ≠ ⊤ := by
  obtain ⟨c, hc⟩ := WithTop.ne_top_iff_exists.1 (G.fin t h1 h2)
  rcases lt_or_ge m k with hk | hk
  · rw [ext_top hc.symm hk]; exact WithTop.coe_ne_top
  · rcases eq_or_lt_of_le hjk with rfl | hlt
    · exact hf
    · rcases eq_or_lt_of_le hk with rfl | hkm
      · rw [ext_le le_rfl]; exact G.fin t h1 h2
      · rw [ext_le (by omega)] at hf
        obtain ⟨a, ha⟩ := WithTop.ne_top_iff_exists.1 hf
        obtain ⟨b, hb, _⟩ := G.conv t h1 h2 j k m hj hlt hkm le_rfl a c ha.symm hc.symm
        rw [ext_le hk, hb]; exact WithTop.coe_ne_top

theorem Good.gq_nonneg {j : ℤ} (hj : 0 ≤ j) (hjm : j ≤ m) : 0 ≤ gq g m t j := by
  have := G.nonneg t h1 h2 j hj hjm
  unfold gq; rw [ext_le hjm]
  cases he : g t j using WithTop.recTopCoe with
  | top => simp
  | coe a => rw [he] at this; simpa using (by exact_mod_cast this : (0 : ℚ) ≤ a)

theorem Good.three {x y z : ℤ} (hx : 0 ≤ x) (hxy : x < y) (hyz : y < z) (hz : z ≤ m)
    (hf : extCost g m t x ≠ ⊤) :
    ((z : ℚ) - x) * gq g m t y ≤ ((z : ℚ) - y) * gq g m t x + ((y : ℚ) - x) * gq g m t z := by
  have ha := gq_eq hf
  have hc := gq_eq (G.fin_up h1 h2 hx (by omega : x ≤ z) hf)
  rw [ext_le (by omega)] at ha hc
  obtain ⟨b, hb, hle⟩ := G.conv t h1 h2 x y z hx hxy hyz hz _ _ ha hc
  have : gq g m t y = b := by
    unfold gq; rw [ext_le (by omega), hb]; rfl
  rwa [this]

/-- Chords to the right are steeper. -/
theorem Good.chord {p0 p1 p2 p3 : ℤ} (h0 : 0 ≤ p0) (h01 : p0 < p1) (h12 : p1 ≤ p2) (h23 : p2 < p3)
    (h3 : p3 ≤ m) (hf : extCost g m t p0 ≠ ⊤) :
    (gq g m t p1 - gq g m t p0) * ((p3 : ℚ) - p2) ≤ (gq g m t p3 - gq g m t p2) * ((p1 : ℚ) - p0) := by
  have a1 := G.three h1 h2 h0 h01 (by omega : p1 < p3) h3 hf
  have a2 := G.three h1 h2 h0 (by omega : p0 < p2) h23 h3 hf
  have e0 : (0 : ℚ) < (p3 : ℚ) - p0 := by
    have : (p0 : ℚ) < p3 := by exact_mod_cast (by omega : p0 < p3)
    linarith
  have e1 : (0 : ℚ) < (p1 : ℚ) - p0 := by
    have : (p0 : ℚ) < p1 := by exact_mod_cast h01
    linarith
  have e2 : (0 : ℚ) < (p3 : ℚ) - p2 := by
    have : (p2 : ℚ) < p3 := by exact_mod_cast h23
    linarith
  have b1 : (gq g m t p1 - gq g m t p0) * ((p3 : ℚ) - p0)
      ≤ (gq g m t p3 - gq g m t p0) * ((p1 : ℚ) - p0) := by nlinarith
  have b2 : (gq g m t p3 - gq g m t p0) * ((p3 : ℚ) - p2)
      ≤ (gq g m t p3 - gq g m t p2) * ((p3 : ℚ) - p0) := by nlinarith
  have c1 := mul_le_mul_of_nonneg_right b1 e2.le
  have c2 := mul_le_mul_of_nonneg_right b2 e1.le
  have : (gq g m t p1 - gq g m t p0) * ((p3 : ℚ) - p2) * ((p3 : ℚ) - p0)
      ≤ (gq g m t p3 - gq g m t p2) * ((p1 : ℚ) - p0) * ((p3 : ℚ) - p0) := by
    calc _ = (gq g m t p1 - gq g m t p0) * ((p3 : ℚ) - p0) * ((p3 : ℚ) - p2) := by ring
      _ ≤ _ := c1
      _ = (gq g m t p3 - gq g m t p0) * ((p3 : ℚ) - p2) * ((p1 : ℚ) - p0) := by ring
      _ ≤ _ := c2
      _ = _ := by ring
  exact le_of_mul_le_mul_right this e0

/-- The same with the last point beyond `m`. -/
theorem Good.chord_ext {p0 p1 p2 p3 : ℤ} (h0 : 0 ≤ p0) (h01 : p0 < p1) (h12 : p1 ≤ p2) (h23 : p2 < p3)
    (h3 : p3 ≤ m ∨ (p2 < m ∧ 3 ≤ p3 ∧ p3 - p2 ≤ 2 * (p1 - p0))) (hf : extCost g m t p0 ≠ ⊤) :
    (gq g m t p1 - gq g m t p0) * ((p3 : ℚ) - p2) ≤ (gq g m t p3 - gq g m t p2) * ((p1 : ℚ) - p0) := by
  rcases le_or_gt p3 m with hp3 | hp3
  · exact G.chord h1 h2 h0 h01 h12 h23 hp3 hf
  obtain ⟨h2m, h33, hL⟩ : p2 < m ∧ 3 ≤ p3 ∧ p3 - p2 ≤ 2 * (p1 - p0) := by
    rcases h3 with h | h
    · omega
    · exact h
  have a1 := G.chord h1 h2 h0 h01 h12 h2m le_rfl hf
  have a2 := G.three h1 h2 h0 h01 (by omega : p1 < m) le_rfl hf
  have hA := G.gq_nonneg h1 h2 h0 (by omega : p0 ≤ m)
  have hG := G.gq_nonneg h1 h2 (by have := G.hm; omega : (0 : ℤ) ≤ m) le_rfl
  obtain ⟨c, hc⟩ := WithTop.ne_top_iff_exists.1 (G.fin t h1 h2)
  have hGc : gq g m t m = c := by unfold gq; rw [ext_le le_rfl, ← hc]; rfl
  have hD : gq g m t p3 = p3 * (c + epsilon) := by
    unfold gq; rw [ext_top hc.symm hp3]; rfl
  rw [hGc] at a1 a2 hG
  rw [hD]
  have heps := epsilon_pos
  have q1 : (0 : ℚ) < (p1 : ℚ) - p0 := by
    have : (p0 : ℚ) < p1 := by exact_mod_cast h01
    linarith
  have q2 : (0 : ℚ) < (m : ℚ) - p2 := by
    have : (p2 : ℚ) < m := by exact_mod_cast h2m
    linarith
  have q3 : (m : ℚ) - p2 ≤ (p3 : ℚ) - p2 := by
    have : (m : ℚ) ≤ p3 := by exact_mod_cast hp3.le
    linarith
  have q4 : (p3 : ℚ) - p2 ≤ 2 * ((p1 : ℚ) - p0) := by exact_mod_cast hL
  have q5 : (3 : ℚ) ≤ p3 := by exact_mod_cast h33
  have q6 : (p1 : ℚ) - p0 ≤ (m : ℚ) - p0 := by
    have : (p1 : ℚ) ≤ m := by exact_mod_cast (by omega : p1 ≤ m)
    linarith
  have hDG : 3 * (c + epsilon) ≤ p3 * (c + epsilon) :=
    mul_le_mul_of_nonneg_right q5 (by linarith)
  generalize gq g m t p0 = A at *
  generalize gq g m t p1 = B at *
  generalize gq g m t p2 = E at *
  generalize (p3 : ℚ) * (c + epsilon) = Dd at *
  rcases le_or_gt B A with hBA | hBA
  · calc (B - A) * ((p3 : ℚ) - p2) ≤ (B - A) * ((m : ℚ) - p2) :=
          mul_le_mul_of_nonpos_left q3 (by linarith)
      _ ≤ (c - E) * ((p1 : ℚ) - p0) := a1
      _ ≤ _ := mul_le_mul_of_nonneg_right (by linarith) q1.le
  · have hE : E ≤ c := by
      by_contra hc'
      have : (c - E) * ((p1 : ℚ) - p0) < 0 := mul_neg_of_neg_of_pos (by linarith) q1
      have : 0 < (B - A) * ((m : ℚ) - p2) := mul_pos (by linarith) q2
      linarith
    have hB : B ≤ c := by
      have : (B - A) * ((p1 : ℚ) - p0) ≤ (B - A) * ((m : ℚ) - p0) :=
        mul_le_mul_of_nonneg_left q6 (by linarith)
      have : (B - A) * ((m : ℚ) - p0) ≤ (c - A) * ((p1 : ℚ) - p0) := by nlinarith
      have : B - A ≤ c - A := le_of_mul_le_mul_right (by linarith) q1
      linarith
    calc (B - A) * ((p3 : ℚ) - p2) ≤ (B - A) * (2 * ((p1 : ℚ) - p0)) :=
          mul_le_mul_of_nonneg_left q4 (by linarith)
      _ = (2 * (B - A)) * ((p1 : ℚ) - p0) := by ring
      _ ≤ _ := mul_le_mul_of_nonneg_right (by linarith) q1.le

end good

end Uni
end Soco
