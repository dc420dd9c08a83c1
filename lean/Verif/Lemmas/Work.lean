import Verif.Lemmas.MultiDP
import Verif.Spec.Schedule
import Mathlib.Data.List.Induction
import Mathlib.Tactic.Abel
import Mathlib.Tactic.Linarith
import Mathlib.Tactic.Ring
import Mathlib.Tactic.Positivity

/-!
# Work functions of capacity provisioning

`J` is the cheapest cost of ending in a state, `H` the cheapest cost of ending anywhere and moving on to a
state. The domain `D` may be the integers or the rationals of an interval.
-/

namespace Soco.Work

/-- Three-point convexity of an extended-valued function on a set of rationals. -/
def ConvD (D : ℚ → Prop) (J : ℚ → ECost) : Prop :=
  ∀ x y z, D x → D y → D z → x < y → y < z → ∀ a c : ℚ, J x = a → J z = c →
    ∃ b : ℚ, J y = b ∧ (z - x) * b ≤ (z - y) * a + (y - x) * c

/-- Finite part. -/
def fp (e : ECost) : ℚ := e.untopD 0

theorem coe_fp {e : ECost} (h : e ≠ ⊤) : e = ((fp e : ℚ) : ECost) := by
  unfold fp
  cases e using WithTop.recTopCoe with
  | top => exact absurd rfl h
  | coe a => rfl

@[simp] theorem fp_coe (a : ℚ) : fp ((a : ℚ) : ECost) = a := rfl

theorem ConvD.fin {D : ℚ → Prop} {J : ℚ → ECost} (h : ConvD D J) {x y z : ℚ} (hx : D x) (hy : D y) (hz : D z)
    (hxy : x ≤ y) (hyz : y ≤ z) (fx : J x ≠ ⊤) (fz : J z ≠ ⊤) : J y ≠ ⊤ := by
  rcases eq_or_lt_of_le hxy with rfl | hxy
  · exact fx
  rcases eq_or_lt_of_le hyz with rfl | hyz
  · exact fz
  obtain ⟨b, hb, _⟩ := h x y z hx hy hz hxy hyz _ _ (coe_fp fx) (coe_fp fz)
  rw [hb]; exact WithTop.coe_ne_top

theorem ConvD.chord {D : ℚ → Prop} {J : ℚ → ECost} (h : ConvD D J) {x y z : ℚ} (hx : D x) (hy : D y) (hz : D z)
    (hxy : x ≤ y) (hyz : y ≤ z) (fx : J x ≠ ⊤) (fz : J z ≠ ⊤) :
    (z - x) * fp (J y) ≤ (z - y) * fp (J x) + (y - x) * fp (J z) := by
  rcases eq_or_lt_of_le hxy with rfl | hxy
  · simp
  rcases eq_or_lt_of_le hyz with rfl | hyz
  · simp
  obtain ⟨b, hb, hle⟩ := h x y z hx hy hz hxy hyz _ _ (coe_fp fx) (coe_fp fz)
  rw [hb, fp_coe]; exact hle

/-- Nearest point of `[L, U]`. -/
def clampQ (L U y : ℚ) : ℚ := max L (min U y)

/-- Bounds of one slot: `L` minimises the cost, `U` minimises it if `β` is paid for powering down. -/
structure Bds (D : ℚ → Prop) (β : ℚ) (J : ℚ → ECost) (L U : ℚ) : Prop where
  hβ : 0 < β
  dL : D L
  dU : D U
  conv : ConvD D J
  finL : J L ≠ ⊤
  finU : J U ≠ ⊤
  minL : ∀ y, D y → J y ≠ ⊤ → fp (J L) ≤ fp (J y)
  minU : ∀ y, D y → J y ≠ ⊤ → fp (J U) - β * U ≤ fp (J y) - β * y

/-- Cheapest cost of moving on to `y`. -/
def hull (β : ℚ) (J : ℚ → ECost) (L U y : ℚ) : ℚ :=
  fp (J (clampQ L U y)) + β * max 0 (y - clampQ L U y)

section
variable {D : ℚ → Prop} {β : ℚ} {J : ℚ → ECost} {L U : ℚ} (B : Bds D β J L U)
include B

theorem Bds.le : L ≤ U := by
  have h1 := B.minL U B.dU B.finU
  have h2 := B.minU L B.dL B.finL
  by_contra hc
  have := mul_pos B.hβ (sub_pos.2 (not_le.1 hc))
  nlinarith

theorem Bds.clamp_cases (y : ℚ) : (y ≤ L ∧ clampQ L U y = L) ∨ (L ≤ y ∧ y ≤ U ∧ clampQ L U y = y) ∨
    (U ≤ y ∧ clampQ L U y = U) := by
  have := B.le
  unfold clampQ
  rcases le_total y L with h | h
  · left; refine ⟨h, ?_⟩; rw [min_eq_right (h.trans this), max_eq_left h]
  · rcases le_total y U with h' | h'
    · right; left; refine ⟨h, h', ?_⟩; rw [min_eq_right h', max_eq_right h]
    · right; right; refine ⟨h', ?_⟩; rw [min_eq_left h', max_eq_right this]

theorem Bds.clamp_mem {y : ℚ} (hy : D y) : D (clampQ L U y) ∧ L ≤ clampQ L U y ∧ clampQ L U y ≤ U := by
  have := B.le
  rcases B.clamp_cases y with ⟨_, e⟩ | ⟨h1, h2, e⟩ | ⟨_, e⟩ <;> rw [e]
  · exact ⟨B.dL, le_rfl, this⟩
  · exact ⟨hy, h1, h2⟩
  · exact ⟨B.dU, this, le_rfl⟩

theorem Bds.fin {y : ℚ} (hy : D y) (h1 : L ≤ y) (h2 : y ≤ U) : J y ≠ ⊤ :=
  B.conv.fin B.dL hy B.dU h1 h2 B.finL B.finU

theorem Bds.hull_left {y : ℚ} (h : y ≤ L) : hull β J L U y = fp (J L) := by
  have : clampQ L U y = L := by
    rcases B.clamp_cases y with ⟨_, e⟩ | ⟨h1, _, e⟩ | ⟨h1, e⟩
    · exact e
    · rw [e]; exact le_antisymm h h1
    · rw [e]; exact le_antisymm (h1.trans h) B.le
  rw [hull, this, max_eq_left (by linarith)]; ring

theorem Bds.hull_mid {y : ℚ} (h1 : L ≤ y) (h2 : y ≤ U) : hull β J L U y = fp (J y) := by
  have : clampQ L U y = y := by unfold clampQ; rw [min_eq_right h2, max_eq_right h1]
  rw [hull, this]; simp

theorem Bds.hull_right {y : ℚ} (h : U ≤ y) : hull β J L U y = fp (J U) + β * (y - U) := by
  have : clampQ L U y = U := by unfold clampQ; rw [min_eq_left h, max_eq_right B.le]
  rw [hull, this, max_eq_right (by linarith)]

/-- The hull is a lower bound of every move. -/
theorem Bds.hull_le {y z : ℚ} (hy : D y) (hz : D z) (fz : J z ≠ ⊤) :
    hull β J L U y ≤ fp (J z) + β * max 0 (y - z) := by
  have hβ := B.hβ
  have hm : (0 : ℚ) ≤ max 0 (y - z) := le_max_left _ _
  have hm' : y - z ≤ max 0 (y - z) := le_max_right _ _
  have p1 : 0 ≤ β * max 0 (y - z) := mul_nonneg hβ.le hm
  have p2 : β * (y - z) ≤ β * max 0 (y - z) := mul_le_mul_of_nonneg_left hm' hβ.le
  rcases le_total y L with h | h
  · rw [B.hull_left h]
    have := B.minL z hz fz
    linarith
  rcases le_total y U with h' | h'
  · rw [B.hull_mid h h']
    rcases le_total z y with hzy | hzy
    · -- chord from z to U
      rcases eq_or_lt_of_le (hzy.trans h') with e | hlt
      · have : y = z := le_antisymm (h'.trans e.ge) hzy
        rw [this]; rw [this] at p1; linarith
      have c := B.conv.chord hz hy B.dU hzy h' fz B.finU
      have u := B.minU z hz fz
      have u' : (y - z) * fp (J U) ≤ (y - z) * (fp (J z) + β * (U - z)) :=
        mul_le_mul_of_nonneg_left (by linarith) (by linarith)
      have : (U - z) * fp (J y) ≤ (U - z) * (fp (J z) + β * (y - z)) := by nlinarith
      have := le_of_mul_le_mul_left this (by linarith)
      linarith
    · rcases eq_or_lt_of_le (h.trans hzy) with e | hlt
      · have : y = z := le_antisymm hzy (e ▸ h)
        rw [this]; rw [this] at p1; linarith
      have c := B.conv.chord B.dL hy hz h hzy B.finL fz
      have l := B.minL z hz fz
      have l' : (z - y) * fp (J L) ≤ (z - y) * fp (J z) := mul_le_mul_of_nonneg_left l (by linarith)
      have : (z - L) * fp (J y) ≤ (z - L) * fp (J z) := by nlinarith
      have := le_of_mul_le_mul_left this (by linarith)
      linarith
  · rw [B.hull_right h']
    have u := B.minU z hz fz
    nlinarith

theorem Bds.fin_clamp {y : ℚ} (hy : D y) : J (clampQ L U y) ≠ ⊤ := by
  obtain ⟨h1, h2, h3⟩ := B.clamp_mem hy
  exact B.fin h1 h2 h3

theorem Bds.hull_mono {y z : ℚ} (hy : D y) (hz : D z) (h : y ≤ z) :
    hull β J L U y ≤ hull β J L U z := by
  refine (B.hull_le hy (B.clamp_mem hz).1 (B.fin_clamp hz)).trans ?_
  unfold hull
  have : max 0 (y - clampQ L U z) ≤ max 0 (z - clampQ L U z) := max_le_max le_rfl (by linarith)
  have := mul_le_mul_of_nonneg_left this B.hβ.le
  linarith

theorem Bds.hull_lip {y z : ℚ} (hy : D y) (hz : D z) (h : y ≤ z) :
    hull β J L U z ≤ hull β J L U y + β * (z - y) := by
  refine (B.hull_le hz (B.clamp_mem hy).1 (B.fin_clamp hy)).trans ?_
  unfold hull
  have : max 0 (z - clampQ L U y) ≤ max 0 (y - clampQ L U y) + (z - y) := by
    refine max_le ?_ ?_
    · have := le_max_left 0 (y - clampQ L U y); linarith
    · have := le_max_right 0 (y - clampQ L U y); linarith
  have := mul_le_mul_of_nonneg_left this B.hβ.le
  rw [mul_add] at this
  linarith

theorem Bds.hull_conv {x y z : ℚ} (hx : D x) (hy : D y) (hz : D z) (hxy : x < y) (hyz : y < z) :
    (z - x) * hull β J L U y ≤ (z - y) * hull β J L U x + (y - x) * hull β J L U z := by
  have hβ := B.hβ
  rcases le_total y L with h | h
  · -- flat at x and y
    rw [B.hull_left h, B.hull_left (hxy.le.trans h)]
    have := B.hull_mono hy hz hyz.le
    rw [B.hull_left h] at this
    have := mul_le_mul_of_nonneg_left this (sub_nonneg.2 hxy.le)
    nlinarith
  rcases le_total U y with h' | h'
  · rw [B.hull_right h', B.hull_right (h'.trans hyz.le)]
    have := B.hull_lip hx hy hxy.le
    rw [B.hull_right h'] at this
    have := mul_le_mul_of_nonneg_left this (sub_nonneg.2 hyz.le)
    nlinarith
  rw [B.hull_mid h h']
  -- slope on the left
  have left : ∃ x', D x' ∧ L ≤ x' ∧ x' ≤ y ∧ x ≤ x' ∧ hull β J L U x = fp (J x') := by
    rcases le_total x L with hc | hc
    · exact ⟨L, B.dL, le_rfl, h, hc, B.hull_left hc⟩
    · exact ⟨x, hx, hc, hxy.le, le_rfl, B.hull_mid hc (hxy.le.trans h')⟩
  obtain ⟨x', dx', lx', xy', xx', ex⟩ := left
  have fx' := B.fin dx' lx' (xy'.trans h')
  rw [ex]
  have hmono : fp (J x') ≤ fp (J y) := by
    have := B.hull_mono dx' hy xy'
    rwa [B.hull_mid lx' (xy'.trans h'), B.hull_mid h h'] at this
  have right : ∃ z', D z' ∧ z' ≤ U ∧ y ≤ z' ∧ z' ≤ z ∧ hull β J L U z = fp (J z') + β * (z - z') := by
    rcases le_total U z with hc | hc
    · exact ⟨U, B.dU, le_rfl, h', hc, B.hull_right hc⟩
    · exact ⟨z, hz, hc, hyz.le, le_rfl, by rw [B.hull_mid (h.trans hyz.le) hc]; ring⟩
  obtain ⟨z', dz', zU', yz', zz', ez⟩ := right
  have fz' := B.fin dz' (h.trans yz') zU'
  rw [ez]
  have hlip : fp (J z') ≤ fp (J y) + β * (z' - y) := by
    have := B.hull_lip hy dz' yz'
    rwa [B.hull_mid (h.trans yz') zU', B.hull_mid h h'] at this
  have hmono' : fp (J y) ≤ fp (J z') := by
    have := B.hull_mono hy dz' yz'
    rwa [B.hull_mid (h.trans yz') zU', B.hull_mid h h'] at this
  have hlip' : fp (J y) ≤ fp (J x') + β * (y - x') := by
    have := B.hull_lip dx' hy xy'
    rwa [B.hull_mid lx' (xy'.trans h'), B.hull_mid h h'] at this
  have c := B.conv.chord dx' hy dz' xy' yz' fx' fz'
  generalize fp (J y) = jy at *
  generalize fp (J x') = jx at *
  generalize fp (J z') = jz at *
  have c' : (jy - jx) * (z' - y) ≤ (jz - jy) * (y - x') := by nlinarith
  have a1 : (jz - jy) * (y - x') ≤ (jz - jy) * (y - x) :=
    mul_le_mul_of_nonneg_left (by linarith) (by linarith)
  have a2 : (jy - jx) * (z - z') ≤ β * (y - x') * (z - z') :=
    mul_le_mul_of_nonneg_right (by linarith) (by linarith)
  have a3 : β * (z - z') * (y - x') ≤ β * (z - z') * (y - x) :=
    mul_le_mul_of_nonneg_left (by linarith) (mul_nonneg hβ.le (by linarith))
  nlinarith

end

/-! ## The recursion over the slots -/

section
variable (D : ℚ → Prop) (β x0 : ℚ) (f : Int → ℚ → ECost) (L U : Nat → ℚ)

/-- Movement costs on the rationals. -/
def up (y x : ℚ) : ℚ := β * max 0 (x - y)

/-- Cheapest cost of the first `t` slots, moving on to `y`. -/
def H : Nat → ℚ → ℚ
  | 0, y => β * max 0 (y - x0)
  | t + 1, y => hull β (fun z => f ((t : Int) + 1) z + ((H t z : ℚ) : ECost)) (L (t + 1)) (U (t + 1)) y

/-- Cheapest cost of the first `t + 1` slots, ending in `y`. -/
def J (t : Nat) (y : ℚ) : ECost := f ((t : Int) + 1) y + ((H β x0 f L U t y : ℚ) : ECost)

theorem H_succ (t : Nat) : H β x0 f L U (t + 1) = hull β (J β x0 f L U t) (L (t + 1)) (U (t + 1)) := rfl

/-- The bounds of the first `n` slots are right. -/
def AllB (n : Nat) : Prop := ∀ t < n, Bds D β (J β x0 f L U t) (L (t + 1)) (U (t + 1))

variable {D β x0 f L U}

theorem H_mono (hβ : 0 < β) {n t : Nat} (B : AllB D β x0 f L U n) (ht : t ≤ n) {y z : ℚ} (hy : D y) (hz : D z)
    (h : y ≤ z) : H β x0 f L U t y ≤ H β x0 f L U t z := by
  cases t with
  | zero =>
    exact mul_le_mul_of_nonneg_left (max_le_max le_rfl (by linarith)) hβ.le
  | succ t => exact (B t (by omega)).hull_mono hy hz h

theorem H_lip (hβ : 0 < β) {n t : Nat} (B : AllB D β x0 f L U n) (ht : t ≤ n) {y z : ℚ} (hy : D y) (hz : D z)
    (h : y ≤ z) : H β x0 f L U t z ≤ H β x0 f L U t y + β * (z - y) := by
  cases t with
  | zero =>
    show β * max 0 (z - x0) ≤ β * max 0 (y - x0) + β * (z - y)
    have : max 0 (z - x0) ≤ max 0 (y - x0) + (z - y) := by
      refine max_le ?_ ?_
      · have := le_max_left 0 (y - x0); linarith
      · have := le_max_right 0 (y - x0); linarith
    have := mul_le_mul_of_nonneg_left this hβ.le
    linarith
  | succ t => exact (B t (by omega)).hull_lip hy hz h

theorem H_conv (hβ : 0 < β) {n t : Nat} (B : AllB D β x0 f L U n) (ht : t ≤ n) {x y z : ℚ} (hx : D x) (hy : D y)
    (hz : D z) (hxy : x < y) (hyz : y < z) :
    (z - x) * H β x0 f L U t y ≤ (z - y) * H β x0 f L U t x + (y - x) * H β x0 f L U t z := by
  cases t with
  | zero =>
    show (z - x) * (β * max 0 (y - x0)) ≤ (z - y) * (β * max 0 (x - x0)) + (y - x) * (β * max 0 (z - x0))
    have a1 := le_max_left 0 (x - x0)
    have a2 := le_max_right 0 (x - x0)
    have a3 := le_max_left 0 (z - x0)
    have a4 := le_max_right 0 (z - x0)
    have b1 := mul_nonneg (sub_nonneg.2 hyz.le) a1
    have b2 := mul_nonneg (sub_nonneg.2 hxy.le) a3
    have b3 := mul_le_mul_of_nonneg_left a2 (sub_nonneg.2 hyz.le)
    have b4 := mul_le_mul_of_nonneg_left a4 (sub_nonneg.2 hxy.le)
    have : (z - x) * max 0 (y - x0) ≤ (z - y) * max 0 (x - x0) + (y - x) * max 0 (z - x0) := by
      rcases max_cases 0 (y - x0) with ⟨e, _⟩ | ⟨e, _⟩ <;> rw [e] <;> nlinarith
    have := mul_le_mul_of_nonneg_left this hβ.le
    nlinarith
  | succ t => exact (B t (by omega)).hull_conv hx hy hz hxy hyz

theorem J_conv (hβ : 0 < β) {n t : Nat} (B : AllB D β x0 f L U n) (ht : t ≤ n)
    (hf : ConvD D (f ((t : Int) + 1))) : ConvD D (J β x0 f L U t) := by
  intro x y z hx hy hz hxy hyz a c ha hc
  have key : ∀ {w d : ℚ}, J β x0 f L U t w = ((d : ℚ) : ECost) →
      f ((t : Int) + 1) w = ((d - H β x0 f L U t w : ℚ) : ECost) := by
    intro w d hd
    unfold J at hd
    cases hw : f ((t : Int) + 1) w using WithTop.recTopCoe with
    | top => rw [hw] at hd; simp at hd
    | coe e =>
      rw [hw, ← WithTop.coe_add, WithTop.coe_inj] at hd
      rw [← hd]; simp
  obtain ⟨b, hb, hle⟩ := hf x y z hx hy hz hxy hyz _ _ (key ha) (key hc)
  refine ⟨b + H β x0 f L U t y, by rw [J, hb, WithTop.coe_add], ?_⟩
  have := H_conv hβ B ht hx hy hz hxy hyz
  nlinarith

theorem J_fin {t : Nat} {y : ℚ} : J β x0 f L U t y ≠ ⊤ ↔ f ((t : Int) + 1) y ≠ ⊤ := by
  unfold J; simp [WithTop.add_ne_top]

/-- From slot `s` on the costs are those of a fresh start in `x`. -/
def Base (β x0 : ℚ) (f : Int → ℚ → ECost) (L U : Nat → ℚ) (s : Nat) (c0 x : ℚ) : Prop :=
  ∀ y, H β x0 f L U s y = c0 + β * max 0 (y - x)

theorem base_zero : Base β x0 f L U 0 0 x0 := by intro y; simp [H]

theorem base_restart {s : Nat} {x : ℚ} (hl : L (s + 1) = x) (hu : U (s + 1) = x) :
    Base β x0 f L U (s + 1) (fp (J β x0 f L U s x)) x := by
  intro y
  rw [H_succ, hull, hl, hu]
  have : clampQ x x y = x := by unfold clampQ; exact max_eq_left (min_le_left _ _)
  rw [this]

/-- No sequence is cheaper than the work function. -/
theorem lower {s : Nat} {c0 x : ℚ} (hb : Base β x0 f L U s c0 x) : ∀ (k : Nat), AllB D β x0 f L U (s + k) →
    ∀ ys : List ℚ, (∀ y ∈ ys, D y) → ys.length = k + 1 →
    J β x0 f L U (s + k) (ys.getLastD x) ≤ ((c0 : ℚ) : ECost) + Spec.totalCost f (up β) 1 ((s : Int) + 1) x ys := by
  intro k
  induction k with
  | zero =>
    intro _ ys _ hl
    obtain ⟨y, rfl⟩ := List.length_eq_one_iff.1 hl
    simp only [Spec.totalCost, List.getLastD_cons, List.getLastD_nil, J, add_zero, one_mul, hb y, up,
      WithTop.coe_add]
    exact (add_left_comm _ _ _).le
  | succ k ih =>
    intro hB ys hys hl
    obtain rfl | ⟨zs, y, rfl⟩ := List.eq_nil_or_concat' ys
    · simp at hl
    have hl' : zs.length = k + 1 := by simpa using hl
    have hz : ∀ z ∈ zs, D z := fun z hz => hys z (List.mem_append_left _ hz)
    have hy : D y := hys y (by simp)
    have h1 := ih (fun t ht => hB t (by omega)) zs hz hl'
    rw [totalCost_snoc, List.getLastD_concat, hl']
    have hdz : D (zs.getLastD x) := by
      obtain rfl | ⟨ws, w, rfl⟩ := List.eq_nil_or_concat' zs
      · simp at hl'
      · rw [List.getLastD_concat]; exact hz w (by simp)
    generalize zs.getLastD x = z at *
    have Bk := hB (s + k) (by omega)
    have e1 : (s : Int) + 1 + ((k + 1 : Nat) : Int) = ((s + (k + 1) : Nat) : Int) + 1 := by push_cast; ring
    rw [e1]
    by_cases fz : J β x0 f L U (s + k) z = ⊤
    · rw [fz, top_le_iff] at h1
      rw [← add_assoc (c0 : ECost), h1, top_add]; exact le_top
    · have h2 := Bk.hull_le hy hdz fz
      have h3 : ((H β x0 f L U (s + (k + 1)) y : ℚ) : ECost)
          ≤ J β x0 f L U (s + k) z + ((β * max 0 (y - z) : ℚ) : ECost) := by
        rw [coe_fp fz, ← WithTop.coe_add, WithTop.coe_le_coe]
        exact h2
      unfold J
      calc _ ≤ f (((s + (k + 1) : Nat) : Int) + 1) y + ((((c0 : ℚ) : ECost)
            + Spec.totalCost f (up β) 1 ((s : Int) + 1) x zs) + ((β * max 0 (y - z) : ℚ) : ECost)) :=
            add_le_add le_rfl (h3.trans (add_le_add h1 le_rfl))
        _ = _ := by rw [one_mul, up]; abel

/-- The backward projected schedule: `k + 1` slots after `s`, ending in `y`. -/
def back (L U : Nat → ℚ) (s : Nat) : Nat → ℚ → List ℚ
  | 0, y => [y]
  | k + 1, y => back L U s k (clampQ (L (s + k + 1)) (U (s + k + 1)) y) ++ [y]

theorem back_length (s : Nat) : ∀ k y, (back L U s k y).length = k + 1
  | 0, _ => rfl
  | k + 1, y => by simp [back, back_length s k]

theorem back_last (s k : Nat) (y x : ℚ) : (back L U s k y).getLastD x = y := by
  cases k <;> simp [back]

theorem back_mem {s : Nat} : ∀ {k : Nat}, AllB D β x0 f L U (s + k) → ∀ {y}, D y → ∀ z ∈ back L U s k y, D z
  | 0, _, y, hy, z, hz => by simp [back] at hz; rwa [hz]
  | k + 1, hB, y, hy, z, hz => by
    simp only [back, List.mem_append, List.mem_singleton] at hz
    rcases hz with hz | rfl
    · exact back_mem (k := k) (fun t ht => hB t (by omega)) ((hB (s + k) (by omega)).clamp_mem hy).1 z hz
    · exact hy

theorem back_cost {s : Nat} {c0 x : ℚ} (hb : Base β x0 f L U s c0 x) : ∀ (k : Nat), AllB D β x0 f L U (s + k) →
    ∀ y, D y → ((c0 : ℚ) : ECost) + Spec.totalCost f (up β) 1 ((s : Int) + 1) x (back L U s k y)
      = J β x0 f L U (s + k) y := by
  intro k
  induction k with
  | zero =>
    intro _ y _
    simp only [back, Spec.totalCost, J, add_zero, one_mul, hb y, up, WithTop.coe_add]
    exact add_left_comm _ _ _
  | succ k ih =>
    intro hB y hy
    have Bk := hB (s + k) (by omega)
    have hc := Bk.clamp_mem hy
    have h1 := ih (fun t ht => hB t (by omega)) _ hc.1
    have e1 : (s : Int) + 1 + ((k + 1 : Nat) : Int) = ((s + (k + 1) : Nat) : Int) + 1 := by push_cast; ring
    rw [back, totalCost_snoc, back_last, back_length, e1, ← add_assoc, h1, coe_fp (Bk.fin_clamp hy)]
    rw [J.eq_1 _ _ _ _ _ (s + (k + 1)), show H β x0 f L U (s + (k + 1)) y = hull β (J β x0 f L U (s + k)) (L (s + k + 1)) (U (s + k + 1)) y from rfl,
      hull, WithTop.coe_add, one_mul, up]
    abel

/-- Powering down is powering up, up to the end points. -/
theorem down_eq (t : Int) (x : ℚ) (ys : List ℚ) :
    Spec.totalCost f (fun y x => up β x y) 1 t x ys + ((β * ys.getLastD x : ℚ) : ECost)
      = Spec.totalCost f (up β) 1 t x ys + ((β * x : ℚ) : ECost) := by
  induction ys using List.reverseRecOn with
  | nil => simp [Spec.totalCost]
  | append_singleton ys y ih =>
    rw [totalCost_snoc, totalCost_snoc, List.getLastD_concat]
    generalize ys.getLastD x = z at *
    have e : up β y z + β * y = up β z y + β * z := by
      unfold up
      rcases le_total y z with h | h
      · rw [max_eq_right (sub_nonneg.2 h), max_eq_left (by linarith)]; ring
      · rw [max_eq_left (by linarith), max_eq_right (sub_nonneg.2 h)]; ring
    have e' : ((up β y z : ℚ) : ECost) + ((β * y : ℚ) : ECost) = ((up β z y : ℚ) : ECost) + ((β * z : ℚ) : ECost) := by
      rw [← WithTop.coe_add, e, WithTop.coe_add]
    simp only [one_mul]
    calc _ = Spec.totalCost f (fun y x => up β x y) 1 t x ys + f (t + ys.length) y
          + (((up β y z : ℚ) : ECost) + ((β * y : ℚ) : ECost)) := by abel
      _ = (Spec.totalCost f (fun y x => up β x y) 1 t x ys + ((β * z : ℚ) : ECost)) + f (t + ys.length) y
          + ((up β z y : ℚ) : ECost) := by rw [e']; abel
      _ = _ := by rw [ih]; abel

/-- What the algorithm provides for slot `t + 1`: `L` and `U` are the last entries of optimal sequences of a
search started at slot `s` in `x`. -/
structure Found (D : ℚ → Prop) (β x0 : ℚ) (f : Int → ℚ → ECost) (L U : Nat → ℚ) (t s : Nat) (x : ℚ) : Prop where
  le : s ≤ t
  start : (s = 0 ∧ x = x0) ∨ (1 ≤ s ∧ L s = x ∧ U s = x)
  low : ∃ ls : List ℚ, ls.length = t + 1 - s ∧ (∀ y ∈ ls, D y) ∧ ls.getLastD x = L (t + 1) ∧
    ∀ ks : List ℚ, ks.length = t + 1 - s → (∀ y ∈ ks, D y) →
      Spec.totalCost f (up β) 1 ((s : Int) + 1) x ls ≤ Spec.totalCost f (up β) 1 ((s : Int) + 1) x ks
  high : ∃ us : List ℚ, us.length = t + 1 - s ∧ (∀ y ∈ us, D y) ∧ us.getLastD x = U (t + 1) ∧
    ∀ ks : List ℚ, ks.length = t + 1 - s → (∀ y ∈ ks, D y) →
      Spec.totalCost f (fun y x => up β x y) 1 ((s : Int) + 1) x us
        ≤ Spec.totalCost f (fun y x => up β x y) 1 ((s : Int) + 1) x ks

theorem last_mem {ys : List ℚ} {x : ℚ} (h : ys ≠ []) (hD : ∀ y ∈ ys, D y) : D (ys.getLastD x) := by
  obtain rfl | ⟨zs, y, rfl⟩ := List.eq_nil_or_concat' ys
  · exact absurd rfl h
  · rw [List.getLastD_concat]; exact hD y (by simp)

theorem Found.bds (hβ : 0 < β) {t s : Nat} {x : ℚ} (F : Found D β x0 f L U t s x) (B : AllB D β x0 f L U t)
    (hf : ConvD D (f ((t : Int) + 1))) {m : ℚ} (hm : D m) (hfin : f ((t : Int) + 1) m ≠ ⊤) :
    Bds D β (J β x0 f L U t) (L (t + 1)) (U (t + 1)) := by
  obtain ⟨c0, hb⟩ : ∃ c0, Base β x0 f L U s c0 x := by
    rcases F.start with ⟨rfl, rfl⟩ | ⟨h, hl, hu⟩
    · exact ⟨_, base_zero⟩
    · obtain ⟨s, rfl⟩ : ∃ r, s = r + 1 := ⟨s - 1, by omega⟩
      exact ⟨_, base_restart hl hu⟩
  obtain ⟨k, hk⟩ : ∃ k, t = s + k := ⟨t - s, by have := F.le; omega⟩
  obtain ⟨ls, l1, l2, l3, l4⟩ := F.low
  obtain ⟨us, u1, u2, u3, u4⟩ := F.high
  have hlen : t + 1 - s = k + 1 := by omega
  rw [hlen] at l1 l4 u1 u4
  have nl : ls ≠ [] := by rintro rfl; simp at l1
  have nu : us ≠ [] := by rintro rfl; simp at u1
  have dL : D (L (t + 1)) := l3 ▸ last_mem nl l2
  have dU : D (U (t + 1)) := u3 ▸ last_mem nu u2
  have hB : AllB D β x0 f L U (s + k) := hk ▸ B
  have kL : ∀ y, D y → J β x0 f L U t (L (t + 1)) ≤ J β x0 f L U t y := by
    intro y hy
    have h1 := lower hb k hB ls l2 l1
    have h2 := l4 (back L U s k y) (back_length _ _ _) (back_mem hB hy)
    have h3 := back_cost hb k hB y hy
    rw [l3, ← hk] at h1
    rw [← hk] at h3
    rw [← h3]
    exact h1.trans (add_le_add le_rfl h2)
  have kU : ∀ y, D y → J β x0 f L U t (U (t + 1)) + ((β * y : ℚ) : ECost)
      ≤ J β x0 f L U t y + ((β * U (t + 1) : ℚ) : ECost) := by
    intro y hy
    have h1 := lower hb k hB us u2 u1
    have h2 := u4 (back L U s k y) (back_length _ _ _) (back_mem hB hy)
    have h3 := back_cost hb k hB y hy
    have d1 := down_eq (β := β) (f := f) ((s : Int) + 1) x us
    have d2 := down_eq (β := β) (f := f) ((s : Int) + 1) x (back L U s k y)
    rw [u3, ← hk] at h1
    rw [← hk] at h3
    rw [u3] at d1
    rw [back_last] at d2
    rw [← h3]
    generalize Spec.totalCost f (up β) 1 ((s : Int) + 1) x us = a at *
    generalize Spec.totalCost f (up β) 1 ((s : Int) + 1) x (back L U s k y) = b at *
    generalize Spec.totalCost f (fun y x => up β x y) 1 ((s : Int) + 1) x us = a' at *
    generalize Spec.totalCost f (fun y x => up β x y) 1 ((s : Int) + 1) x (back L U s k y) = b' at *
    have key : (a + ((β * y : ℚ) : ECost)) + ((β * x : ℚ) : ECost)
        ≤ (b + ((β * U (t + 1) : ℚ) : ECost)) + ((β * x : ℚ) : ECost) := by
      calc _ = (a + ((β * x : ℚ) : ECost)) + ((β * y : ℚ) : ECost) := by abel
        _ = (a' + ((β * U (t + 1) : ℚ) : ECost)) + ((β * y : ℚ) : ECost) := by rw [d1]
        _ ≤ (b' + ((β * U (t + 1) : ℚ) : ECost)) + ((β * y : ℚ) : ECost) :=
            add_le_add (add_le_add h2 le_rfl) le_rfl
        _ = (b' + ((β * y : ℚ) : ECost)) + ((β * U (t + 1) : ℚ) : ECost) := by abel
        _ = _ := by rw [d2]; abel
    have key' := WithTop.le_of_add_le_add_right WithTop.coe_ne_top key
    calc _ ≤ (((c0 : ℚ) : ECost) + a) + ((β * y : ℚ) : ECost) := add_le_add h1 le_rfl
      _ = ((c0 : ℚ) : ECost) + (a + ((β * y : ℚ) : ECost)) := add_assoc _ _ _
      _ ≤ ((c0 : ℚ) : ECost) + (b + ((β * U (t + 1) : ℚ) : ECost)) := add_le_add le_rfl key'
      _ = _ := (add_assoc _ _ _).symm
  have fm : J β x0 f L U t m ≠ ⊤ := J_fin.2 hfin
  have fL : J β x0 f L U t (L (t + 1)) ≠ ⊤ := fun h => fm (top_le_iff.1 (h ▸ kL m hm))
  have fU : J β x0 f L U t (U (t + 1)) ≠ ⊤ := by
    intro h
    have := kU m hm
    rw [h, coe_fp fm, ← WithTop.coe_add] at this
    simp at this
  refine ⟨hβ, dL, dU, J_conv hβ B le_rfl hf, fL, fU, ?_, ?_⟩
  · intro y hy fy
    have := kL y hy
    rwa [coe_fp fL, coe_fp fy, WithTop.coe_le_coe] at this
  · intro y hy fy
    have := kU y hy
    rw [coe_fp fU, coe_fp fy, ← WithTop.coe_add, ← WithTop.coe_add, WithTop.coe_le_coe] at this
    linarith

/-! ## Lazy capacity provisioning -/

variable (x0 L U) in
/-- The lazy schedule. -/
def lazy : Nat → ℚ
  | 0 => x0
  | t + 1 => clampQ (L (t + 1)) (U (t + 1)) (lazy t)

variable (x0 L U) in
/-- Total powering up of the lazy schedule. -/
def Up : Nat → ℚ
  | 0 => 0
  | t + 1 => Up t + max 0 (lazy x0 L U (t + 1) - lazy x0 L U t)

variable (x0 f L U) in
/-- Total hitting cost of the lazy schedule. -/
def Hit : Nat → ℚ
  | 0 => 0
  | t + 1 => Hit t + fp (f ((t : Int) + 1) (lazy x0 L U (t + 1)))

theorem lazy_mem {n : Nat} (B : AllB D β x0 f L U n) (h0 : D x0) : ∀ t ≤ n, D (lazy x0 L U t)
  | 0, _ => h0
  | t + 1, ht => ((B t (by omega)).clamp_mem (lazy_mem B h0 t (by omega))).1

theorem lazy_fin {n : Nat} (B : AllB D β x0 f L U n) (h0 : D x0) {t : Nat} (ht : t < n) :
    f ((t : Int) + 1) (lazy x0 L U (t + 1)) ≠ ⊤ :=
  J_fin.1 ((B t ht).fin_clamp (lazy_mem B h0 t ht.le))

theorem lazy_cost {n : Nat} (B : AllB D β x0 f L U n) (h0 : D x0) : ∀ t ≤ n,
    Spec.totalCost f (up β) 1 1 x0 ((List.range t).map fun i => lazy x0 L U (i + 1))
      = ((Hit x0 f L U t + β * Up x0 L U t : ℚ) : ECost)
  | 0, _ => by simp [Spec.totalCost, Hit, Up]
  | t + 1, ht => by
    rw [List.range_succ, List.map_append, List.map_singleton, totalCost_snoc, lazy_cost B h0 t (by omega)]
    have : (((List.range t).map fun i => lazy x0 L U (i + 1)).getLastD x0) = lazy x0 L U t := by
      cases t with
      | zero => rfl
      | succ t => rw [List.range_succ, List.map_append, List.map_singleton, List.getLastD_concat]
    rw [this, List.length_map, List.length_range, add_comm (1 : Int), coe_fp (lazy_fin B h0 (by omega)),
      ← WithTop.coe_add, ← WithTop.coe_add, Hit, Up, up]
    congr 1; ring

theorem hit_le (hβ : 0 < β) {n : Nat} (B : AllB D β x0 f L U n) (h0 : D x0) : ∀ t ≤ n,
    Hit x0 f L U t ≤ H β x0 f L U t (lazy x0 L U t) + β * (Up x0 L U t - (lazy x0 L U t - x0))
  | 0, _ => by simp [Hit, H, lazy, Up]
  | t + 1, ht => by
    have ih := hit_le hβ B h0 t (by omega)
    have Bt := B t (by omega)
    have hD := lazy_mem B h0 t (by omega)
    have hc := Bt.clamp_mem hD
    have e1 : H β x0 f L U (t + 1) (lazy x0 L U (t + 1)) = fp (J β x0 f L U t (lazy x0 L U (t + 1))) :=
      Bt.hull_mid hc.2.1 hc.2.2
    have e2 : fp (J β x0 f L U t (lazy x0 L U (t + 1)))
        = fp (f ((t : Int) + 1) (lazy x0 L U (t + 1))) + H β x0 f L U t (lazy x0 L U (t + 1)) := by
      rw [J, coe_fp (lazy_fin B h0 (by omega)), ← WithTop.coe_add, fp_coe, fp_coe]
    have hD' := lazy_mem B h0 (t + 1) ht
    rw [e1, e2, Hit, Up]
    generalize lazy x0 L U (t + 1) = x' at *
    generalize lazy x0 L U t = x at *
    rcases le_total x x' with h | h
    · have := H_mono hβ B (by omega : t ≤ n) hD hD' h
      rw [max_eq_right (sub_nonneg.2 h)]
      linarith
    · have := H_lip hβ B (by omega : t ≤ n) hD' hD h
      rw [max_eq_left (by linarith)]
      linarith

theorem up_le (hβ : 0 < β) {n : Nat} (B : AllB D β x0 f L U n) (h0 : D x0)
    (hnn : ∀ t < n, ∀ y, D y → 0 ≤ f ((t : Int) + 1) y) : ∀ t ≤ n, ∀ y, D y →
    β * Up x0 L U t + β * max 0 (y - lazy x0 L U t) ≤ H β x0 f L U t y
  | 0, _, y, _ => by simp [Up, H, lazy]
  | t + 1, ht, y, hy => by
    have Bt := B t (by omega)
    have hD := lazy_mem B h0 t (by omega)
    obtain ⟨c1, c2, c3⟩ := Bt.clamp_mem hy
    have hl : lazy x0 L U (t + 1) = clampQ (L (t + 1)) (U (t + 1)) (lazy x0 L U t) := rfl
    have hH : H β x0 f L U (t + 1) y = fp (J β x0 f L U t (clampQ (L (t + 1)) (U (t + 1)) y))
        + β * max 0 (y - clampQ (L (t + 1)) (U (t + 1)) y) := rfl
    have fc := Bt.fin_clamp hy
    generalize clampQ (L (t + 1)) (U (t + 1)) y = c at *
    have ih := up_le hβ B h0 hnn t (by omega) c c1
    have fc' := J_fin.1 fc
    have e2 : fp (J β x0 f L U t c) = fp (f ((t : Int) + 1) c) + H β x0 f L U t c := by
      rw [J, coe_fp fc', ← WithTop.coe_add, fp_coe, fp_coe]
    have hn : 0 ≤ fp (f ((t : Int) + 1) c) := by
      have := hnn t (by omega) c c1
      rw [coe_fp fc'] at this
      exact_mod_cast this
    rw [hH, e2, Up]
    have tri : max 0 (lazy x0 L U (t + 1) - lazy x0 L U t) + max 0 (y - lazy x0 L U (t + 1))
        ≤ max 0 (c - lazy x0 L U t) + max 0 (y - c) := by
      rw [hl]
      have := le_max_left 0 (c - lazy x0 L U t)
      have := le_max_right 0 (c - lazy x0 L U t)
      have := le_max_left 0 (y - c)
      have := le_max_right 0 (y - c)
      rcases Bt.clamp_cases (lazy x0 L U t) with ⟨h, e⟩ | ⟨h1, h2, e⟩ | ⟨h, e⟩ <;> rw [e]
      · rw [max_eq_right (sub_nonneg.2 h)]
        rcases max_cases 0 (y - L (t + 1)) with ⟨e, _⟩ | ⟨e, _⟩ <;> rw [e] <;> linarith
      · rw [sub_self, max_self]
        rcases max_cases 0 (y - lazy x0 L U t) with ⟨e, _⟩ | ⟨e, _⟩ <;> rw [e] <;> linarith
      · rw [max_eq_left (by linarith)]
        rcases max_cases 0 (y - U (t + 1)) with ⟨e, _⟩ | ⟨e, _⟩ <;> rw [e] <;> linarith
    have := mul_le_mul_of_nonneg_left tri hβ.le
    nlinarith

/-- The lazy schedule costs at most three times any schedule. -/
theorem lazy_three (hβ : 0 < β) {n : Nat} (B : AllB D β x0 f L U n) (h0 : D x0)
    (hmin : ∀ y, D y → x0 ≤ y) (hnn : ∀ t < n, ∀ y, D y → 0 ≤ f ((t : Int) + 1) y)
    (ys : List ℚ) (hl : ys.length = n) (hy : ∀ y ∈ ys, D y) :
    Spec.totalCost f (up β) 1 1 x0 ((List.range n).map fun i => lazy x0 L U (i + 1))
      ≤ Spec.totalCost f (up β) 1 1 x0 ys + Spec.totalCost f (up β) 1 1 x0 ys
        + Spec.totalCost f (up β) 1 1 x0 ys := by
  rw [lazy_cost B h0 n le_rfl]
  cases n with
  | zero =>
    obtain rfl := List.length_eq_zero_iff.1 hl
    simp [Spec.totalCost, Hit, Up]
  | succ n =>
    have hx := lazy_mem B h0 (n + 1) le_rfl
    have a1 := hit_le hβ B h0 (n + 1) le_rfl
    have a2 := H_lip hβ B le_rfl h0 hx (hmin _ hx)
    have a3 := up_le hβ B h0 hnn (n + 1) le_rfl x0 h0
    have hpos := mul_nonneg hβ.le (le_max_left 0 (x0 - lazy x0 L U (n + 1)))
    have Bn := B n (by omega)
    have a4 : H β x0 f L U (n + 1) x0 = fp (J β x0 f L U n (L (n + 1))) :=
      Bn.hull_left (hmin _ Bn.dL)
    have low := lower (D := D) (base_zero (β := β) (x0 := x0) (f := f) (L := L) (U := U)) n
      (fun t ht => B t (by omega)) ys hy (by omega)
    simp only [Nat.cast_zero, zero_add, WithTop.coe_zero] at low
    have hne : ys ≠ [] := by rintro rfl; simp at hl
    have hlast := last_mem (x := x0) hne hy
    cases hc : Spec.totalCost f (up β) 1 1 x0 ys using WithTop.recTopCoe with
    | top => simp
    | coe a =>
      rw [hc] at low
      have fl : J β x0 f L U n (ys.getLastD x0) ≠ ⊤ := fun h => by rw [h] at low; simp at low
      have := Bn.minL _ hlast fl
      rw [coe_fp fl, WithTop.coe_le_coe] at low
      rw [← WithTop.coe_add, ← WithTop.coe_add, WithTop.coe_le_coe]
      linarith

/-- Some cheapest schedule stays between the bounds. -/
theorem back_between {n : Nat} (B : AllB D β x0 f L U (n + 1)) : ∀ k ≤ n, ∀ y, D y → L (k + 1) ≤ y → y ≤ U (k + 1) →
    ∀ i < k + 1, L (i + 1) ≤ (back L U 0 k y).getD i 0 ∧ (back L U 0 k y).getD i 0 ≤ U (i + 1) := by
  intro k
  induction k with
  | zero =>
    intro _ y _ h1 h2 i hi
    obtain rfl : i = 0 := by omega
    simpa [back] using ⟨h1, h2⟩
  | succ k ih =>
    intro hk y hy h1 h2 i hi
    have Bk := B k (by omega)
    obtain ⟨c1, c2, c3⟩ := Bk.clamp_mem hy
    rcases Nat.lt_succ_iff_lt_or_eq.1 hi with h | rfl
    · have := ih (by omega) (clampQ (L (k + 1)) (U (k + 1)) y) c1 c2 c3 i h
      rw [back, List.getD_eq_getElem?_getD, List.getElem?_append_left (by rw [back_length]; omega)]
      simpa using this
    · rw [back, List.getD_eq_getElem?_getD, List.getElem?_append_right (by rw [back_length])]
      simpa [back_length] using ⟨h1, h2⟩

theorem sandwich (n : Nat) (B : AllB D β x0 f L U n) :
    ∃ ys : List ℚ, ys.length = n ∧ (∀ y ∈ ys, D y) ∧
      (∀ i < n, L (i + 1) ≤ ys.getD i 0 ∧ ys.getD i 0 ≤ U (i + 1)) ∧
      ∀ zs : List ℚ, zs.length = n → (∀ z ∈ zs, D z) →
        Spec.totalCost f (up β) 1 1 x0 ys ≤ Spec.totalCost f (up β) 1 1 x0 zs := by
  cases n with
  | zero =>
    refine ⟨[], rfl, by simp, by simp, fun zs hz _ => ?_⟩
    obtain rfl := List.length_eq_zero_iff.1 hz
    exact le_rfl
  | succ n =>
    have Bn := B n (by omega)
    have hB : AllB D β x0 f L U n := fun t ht => B t (by omega)
    have hB' : AllB D β x0 f L U (0 + n) := by rwa [zero_add]
    have c := back_cost (D := D) (base_zero (β := β) (x0 := x0) (f := f) (L := L) (U := U)) n hB' _ Bn.dL
    simp only [Nat.cast_zero, zero_add, WithTop.coe_zero] at c
    refine ⟨back L U 0 n (L (n + 1)), back_length _ _ _, back_mem hB' Bn.dL,
      back_between B n le_rfl _ Bn.dL le_rfl Bn.le, fun zs hl hz => ?_⟩
    have low := lower (D := D) (base_zero (β := β) (x0 := x0) (f := f) (L := L) (U := U)) n hB' zs hz hl
    simp only [Nat.cast_zero, zero_add, WithTop.coe_zero] at low
    have hne : zs ≠ [] := by rintro rfl; simp at hl
    have hlast := last_mem (x := x0) hne hz
    rw [c]
    refine le_trans ?_ low
    by_cases fz : J β x0 f L U n (zs.getLastD x0) = ⊤
    · rw [fz]; exact le_top
    · have := Bn.minL _ hlast fz
      rw [coe_fp Bn.finL, coe_fp fz, WithTop.coe_le_coe]
      exact this

end

end Soco.Work
