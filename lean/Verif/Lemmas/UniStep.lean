import Verif.Lemmas.UniLevel
import Mathlib.Data.List.Induction

/-! # Uni-dimensional graph search: one refinement step -/

namespace Soco
namespace Uni
open Prox

/-- All hitting costs along a sequence are finite. -/
def AllFin (gg : Int → ℤ → ECost) (js : List ℤ) : Prop :=
  ∀ i, (h : i < js.length) → gg ((i : Int) + 1) js[i] ≠ ⊤

theorem allFin_snoc {gg : Int → ℤ → ECost} {js : List ℤ} {j : ℤ} :
    AllFin gg (js ++ [j]) ↔ AllFin gg js ∧ gg ((js.length : Int) + 1) j ≠ ⊤ := by
  constructor
  · intro h
    refine ⟨fun i hi => ?_, ?_⟩
    · have := h i (by simp; omega)
      rwa [List.getElem_append_left hi] at this
    · have := h js.length (by simp)
      simpa using this
  · rintro ⟨h1, h2⟩ i hi
    rcases Nat.lt_or_ge i js.length with h | h
    · rw [List.getElem_append_left h]; exact h1 i h
    · have : i = js.length := by simp at hi; omega
      subst this
      simpa using h2

theorem totalCost_ne_top (gg : Int → ℤ → ECost) (mv : ℤ → ℤ → ℚ) (alpha : ℚ) (xStart : ℤ) (js : List ℤ) :
    Spec.totalCost gg mv alpha 1 xStart js ≠ ⊤ ↔ AllFin gg js := by
  induction js using List.reverseRecOn with
  | nil => simp [Spec.totalCost, AllFin]
  | append_singleton js j ih =>
    rw [totalCost_snoc, allFin_snoc, ← ih, add_comm (1 : Int)]
    simp [WithTop.add_ne_top]

/-- Hitting costs including the movement from the start. -/
def fT (g : Int → ℤ → ECost) (m : ℤ) (a b : ℚ) (xStart : ℤ) (t : Nat) (z : ℤ) : ℚ :=
  gq g m ((t : Int) + 1) z + if t = 0 then mvAB a b (z - xStart) else 0

theorem tot_succ (T : Nat) (f : Nat → ℤ → ℚ) (a b : ℚ) (v : Nat → ℤ) :
    tot (T + 1) f a b v = tot T f a b v + f T (v T)
      + if T = 0 then 0 else mvAB a b (v T - v (T - 1)) := by
  unfold tot
  rcases T with _ | T
  · simp
  · simp only [Finset.sum_range_succ, Nat.add_sub_cancel, Nat.add_eq_zero_iff, one_ne_zero, and_false,
      if_false]
    ring

theorem totalCost_eq_tot {g : Int → ℤ → ECost} {m : ℤ} {mv : ℤ → ℤ → ℚ} {alpha a b : ℚ} {xStart : ℤ}
    (hmv : ∀ i j, alpha * mv i j = mvAB a b (j - i)) (js : List ℤ) (hf : AllFin (extCost g m) js) :
    Spec.totalCost (extCost g m) mv alpha 1 xStart js
      = ((tot js.length (fT g m a b xStart) a b (fun t => js.getD t 0) : ℚ) : ECost) := by
  induction js using List.reverseRecOn with
  | nil => simp [Spec.totalCost, tot]
  | append_singleton js j ih =>
    obtain ⟨h1, h2⟩ := allFin_snoc.1 hf
    have ec : tot js.length (fT g m a b xStart) a b (fun t => (js ++ [j]).getD t 0)
        = tot js.length (fT g m a b xStart) a b (fun t => js.getD t 0) :=
      tot_congr js.length _ a b (fun t ht => by simp [List.getD, List.getElem?_append_left ht])
    rw [totalCost_snoc, ih h1, List.length_append, List.length_singleton, tot_succ, ec,
      add_comm (1 : Int), gq_eq h2, hmv, ← WithTop.coe_add, ← WithTop.coe_add]
    congr 1
    have e : (js ++ [j]).getD js.length 0 = j := by simp [List.getD]
    simp only [fT, e]
    rcases hjs : js with _ | ⟨x, xs⟩
    · simp
    · have hl : (js ++ [j]).getD (js.length - 1) 0 = js.getLastD xStart := by
        have hlt : js.length - 1 < js.length := by rw [hjs]; simp
        rw [List.getD, List.getElem?_append_left hlt, List.getLastD_eq_getLast?, List.getLast?_eq_getElem?,
          List.getElem?_eq_getElem hlt]
        rfl
      rw [hjs] at hl
      rw [hl]
      simp only [List.length_cons, Nat.add_eq_zero_iff, one_ne_zero, and_false, if_false]
      ring

theorem tot_scale (T : Nat) (f : Nat → ℤ → ℚ) (a b : ℚ) (h : ℤ) (hh : 0 ≤ h) (w : Nat → ℤ) :
    tot T f a b (fun t => h * w t) = tot T (fun t z => f t (h * z)) (a * h) (b * h) w := by
  unfold tot
  congr 1
  refine Finset.sum_congr rfl fun t _ => ?_
  unfold mvAB
  have e1 : max 0 (h * w (t + 1) - h * w t) = h * max 0 (w (t + 1) - w t) := by
    rw [← mul_sub, mul_max_of_nonneg _ _ hh, mul_zero]
  have e2 : max 0 (-(h * w (t + 1) - h * w t)) = h * max 0 (-(w (t + 1) - w t)) := by
    rw [← mul_sub, ← mul_neg, mul_max_of_nonneg _ _ hh, mul_zero]
  rw [e1, e2]
  push_cast
  ring

/-- A sequence of `T` multiples of `h` between 0 and `M`. -/
structure OnMult (T : Nat) (M h : ℤ) (js : List ℤ) : Prop where
  len : js.length = T
  dvd : ∀ j ∈ js, h ∣ j
  lo : ∀ j ∈ js, 0 ≤ j
  hi : ∀ j ∈ js, j ≤ M

/-- A sequence of finite cost on the multiples of `h`, not above the first multiple beyond `m`. -/
structure Feas (T : Nat) (m M : ℤ) (g : Int → ℤ → ECost) (h : ℤ) (js : List ℤ) : Prop where
  on : OnMult T M h js
  cap : ∀ j ∈ js, j ≤ cap m h
  fin : AllFin (extCost g m) js

/-- Optimality on the multiples of `h`. -/
def OptAt (T : Nat) (m M : ℤ) (g : Int → ℤ → ECost) (mv : ℤ → ℤ → ℚ) (alpha : ℚ) (xStart : ℤ)
    (h : ℤ) (js : List ℤ) : Prop :=
  ∀ ks, OnMult T M h ks → Spec.totalCost (extCost g m) mv alpha 1 xStart js
    ≤ Spec.totalCost (extCost g m) mv alpha 1 xStart ks

section clampCap
variable {T : Nat} {m : ℤ} {g : Int → ℤ → ECost} {mv : ℤ → ℤ → ℚ} {alpha a b : ℚ} {xStart : ℤ}

theorem mvAB_clamp (ha : 0 ≤ a) (hb : 0 ≤ b) (i j c : ℤ) : mvAB a b (min j c - min i c) ≤ mvAB a b (j - i) := by
  unfold mvAB
  have h1 : max 0 (min j c - min i c) ≤ max 0 (j - i) := by omega
  have h2 : max 0 (-(min j c - min i c)) ≤ max 0 (-(j - i)) := by omega
  exact add_le_add (mul_le_mul_of_nonneg_left (by exact_mod_cast h1) ha)
    (mul_le_mul_of_nonneg_left (by exact_mod_cast h2) hb)

/-- Costs above `c ≥ m` exceed the cost of `c`. -/
theorem ext_clamp (hm : 1 ≤ m) (fin : ∀ t : Int, 1 ≤ t → t ≤ T → g t m ≠ ⊤)
    (nonneg : ∀ t : Int, 1 ≤ t → t ≤ T → 0 ≤ g t m) {c : ℤ} (hc : m ≤ c) {t : Int} (h1 : 1 ≤ t)
    (h2 : t ≤ T) (j : ℤ) :
    extCost g m t (min j c) ≤ extCost g m t j ∧ (c < j → extCost g m t (min j c) < extCost g m t j) := by
  rcases le_or_gt j c with hj | hj
  · rw [min_eq_left hj]; exact ⟨le_rfl, fun h => by omega⟩
  · rw [min_eq_right hj.le]
    suffices h : extCost g m t c < extCost g m t j from ⟨h.le, fun _ => h⟩
    obtain ⟨G, hG⟩ := WithTop.ne_top_iff_exists.1 (fin t h1 h2)
    have hG0 : 0 ≤ G := by have := nonneg t h1 h2; rw [← hG] at this; exact_mod_cast this
    have heps := epsilon_pos
    rw [ext_top hG.symm (by omega : m < j)]
    rcases eq_or_lt_of_le hc with rfl | hc
    · rw [ext_le le_rfl, ← hG, WithTop.coe_lt_coe]
      have : (1 : ℚ) ≤ j := by exact_mod_cast (by omega : (1 : ℤ) ≤ j)
      nlinarith
    · rw [ext_top hG.symm hc, WithTop.coe_lt_coe]
      have : (c : ℚ) < j := by exact_mod_cast hj
      exact mul_lt_mul_of_pos_right this (by linarith)

theorem totalCost_clamp (hmv : ∀ i j, alpha * mv i j = mvAB a b (j - i)) (ha : 0 ≤ a) (hb : 0 ≤ b)
    (hm : 1 ≤ m) (fin : ∀ t : Int, 1 ≤ t → t ≤ T → g t m ≠ ⊤)
    (nonneg : ∀ t : Int, 1 ≤ t → t ≤ T → 0 ≤ g t m) {c : ℤ} (hc : m ≤ c) (hx : xStart ≤ c) :
    ∀ js : List ℤ, js.length ≤ T →
    Spec.totalCost (extCost g m) mv alpha 1 xStart (js.map (min · c))
      ≤ Spec.totalCost (extCost g m) mv alpha 1 xStart js ∧
    (AllFin (extCost g m) js → (∃ j ∈ js, c < j) →
      Spec.totalCost (extCost g m) mv alpha 1 xStart (js.map (min · c))
        < Spec.totalCost (extCost g m) mv alpha 1 xStart js) := by
  intro js
  induction js using List.reverseRecOn with
  | nil => intro _; exact ⟨le_rfl, fun _ ⟨j, hj, _⟩ => by simp at hj⟩
  | append_singleton js j ih =>
    intro hl
    simp only [List.length_append, List.length_singleton] at hl
    obtain ⟨ih1, ih2⟩ := ih (by omega)
    have hlast : (js.map (min · c)).getLastD xStart = min (js.getLastD xStart) c := by
      rcases List.eq_nil_or_concat' js with h | ⟨ks, k, h⟩
      · subst h; simp [hx]
      · subst h; simp
    have hmov : alpha * mv ((js.map (min · c)).getLastD xStart) (min j c)
        ≤ alpha * mv (js.getLastD xStart) j := by
      rw [hlast, hmv, hmv]; exact mvAB_clamp ha hb _ _ _
    obtain ⟨e1, e2⟩ := ext_clamp (T := T) hm fin nonneg hc (t := 1 + (js.length : Int)) (by omega)
      (by omega) j
    rw [List.map_append, List.map_singleton, totalCost_snoc, totalCost_snoc, List.length_map]
    refine ⟨add_le_add ih1 (add_le_add e1 (WithTop.coe_le_coe.2 hmov)), ?_⟩
    intro hfin ⟨k, hk, hck⟩
    obtain ⟨f1, f2⟩ := allFin_snoc.1 hfin
    have hF := (totalCost_ne_top (extCost g m) mv alpha xStart js).2 f1
    rw [add_comm] at f2
    by_cases hex : ∃ j ∈ js, c < j
    · have := ih2 f1 hex
      refine WithTop.add_lt_add_of_lt_of_le ?_ this (add_le_add e1 (WithTop.coe_le_coe.2 hmov))
      intro h
      rw [WithTop.add_eq_top] at h
      rcases h with h | h
      · rw [h] at e1
        exact f2 (top_le_iff.1 e1)
      · exact WithTop.coe_ne_top h
    · have hkj : k = j := by
        rcases List.mem_append.1 hk with h | h
        · exact absurd ⟨k, h, hck⟩ hex
        · simpa using h
      subst hkj
      have hlt := e2 hck
      have hstep : extCost g m (1 + (js.length : Int)) (min k c)
          + ((alpha * mv ((js.map (min · c)).getLastD xStart) (min k c) : ℚ) : ECost)
          < extCost g m (1 + (js.length : Int)) k + ((alpha * mv (js.getLastD xStart) k : ℚ) : ECost) :=
        WithTop.add_lt_add_of_lt_of_le WithTop.coe_ne_top hlt (WithTop.coe_le_coe.2 hmov)
      refine WithTop.add_lt_add_of_le_of_lt ?_ ih1 hstep
      intro h
      rw [h] at ih1
      exact hF (top_le_iff.1 ih1)

end clampCap

/-! ## Sequences as functions -/

/-- The sequence of the multiples `h * w t`. -/
def mulSeq (T : Nat) (h : ℤ) (w : Nat → ℤ) : List ℤ := (List.range T).map fun t => h * w t

section mulSeq
variable {T : Nat} {m M : ℤ} {g : Int → ℤ → ECost} {mv : ℤ → ℤ → ℚ} {alpha a b : ℚ} {xStart : ℤ} {h : ℤ}

@[simp] theorem mulSeq_length (w : Nat → ℤ) : (mulSeq T h w).length = T := by simp [mulSeq]

@[simp] theorem mulSeq_get (w : Nat → ℤ) (t : Nat) (ht : t < (mulSeq T h w).length) :
    (mulSeq T h w)[t] = h * w t := by simp [mulSeq]

theorem mem_mulSeq {w : Nat → ℤ} {j : ℤ} : j ∈ mulSeq T h w ↔ ∃ t < T, h * w t = j := by
  simp [mulSeq]

theorem mulSeq_onMult {w : Nat → ℤ} (lo : ∀ t < T, 0 ≤ h * w t) (hi : ∀ t < T, h * w t ≤ M) :
    OnMult T M h (mulSeq T h w) where
  len := mulSeq_length w
  dvd := by intro j hj; obtain ⟨t, _, rfl⟩ := mem_mulSeq.1 hj; exact dvd_mul_right _ _
  lo := by intro j hj; obtain ⟨t, ht, rfl⟩ := mem_mulSeq.1 hj; exact lo t ht
  hi := by intro j hj; obtain ⟨t, ht, rfl⟩ := mem_mulSeq.1 hj; exact hi t ht

/-- Every sequence of multiples is of this form. -/
theorem exists_mulSeq {js : List ℤ} (hl : js.length = T) (hd : ∀ j ∈ js, h ∣ j) :
    ∃ w : Nat → ℤ, js = mulSeq T h w := by
  refine ⟨fun t => js.getD t 0 / h, ?_⟩
  refine List.ext_getElem (by simp [hl]) fun t h1 h2 => ?_
  rw [mulSeq_get]
  have e : js.getD t 0 = js[t] := by simp [List.getD, h1]
  rw [e, Int.mul_ediv_cancel' (hd _ (List.getElem_mem _))]

theorem allFin_mulSeq {gg : Int → ℤ → ECost} {w : Nat → ℤ} :
    AllFin gg (mulSeq T h w) ↔ ∀ t < T, gg ((t : Int) + 1) (h * w t) ≠ ⊤ := by
  unfold AllFin
  constructor
  · intro H t ht; have := H t (by simpa using ht); simpa using this
  · intro H t ht; rw [mulSeq_get]; exact H t (by simpa using ht)

theorem totalCost_mulSeq (hmv : ∀ i j, alpha * mv i j = mvAB a b (j - i)) (hh : 0 ≤ h) {w : Nat → ℤ}
    (hf : ∀ t < T, extCost g m ((t : Int) + 1) (h * w t) ≠ ⊤) :
    Spec.totalCost (extCost g m) mv alpha 1 xStart (mulSeq T h w)
      = ((tot T (fun t z => fT g m a b xStart t (h * z)) (a * h) (b * h) w : ℚ) : ECost) := by
  rw [totalCost_eq_tot hmv _ (allFin_mulSeq.2 hf), ← tot_scale _ _ _ _ _ hh, mulSeq_length]
  congr 1
  exact tot_congr _ _ _ _ fun t ht => by simp [List.getD, mulSeq, ht]

end mulSeq

/-! ## The slope conditions -/

section slopes
variable {T : Nat} {m : ℤ} {g : Int → ℤ → ECost} {a b : ℚ} {xStart : ℤ} {h : ℤ}

theorem mvAB_slope_up (ha : 0 ≤ a) (hb : 0 ≤ b) (hh : 0 < h) (y J : ℤ) (hJ : 3 ≤ J) :
    mvAB a b (y + 2 * h) - mvAB a b y ≤ 2 * (mvAB a b (y + J * h) - mvAB a b (y + J * h - h)) := by
  unfold mvAB
  have hJh : 3 * h ≤ J * h := mul_le_mul_of_nonneg_right hJ hh.le
  generalize J * h = W at *
  have e1 : max 0 (y + 2 * h) - max 0 y ≤ 2 * (max 0 (y + W) - max 0 (y + W - h)) := by omega
  have e2 : max 0 (-(y + 2 * h)) - max 0 (-y) ≤ 2 * (max 0 (-(y + W)) - max 0 (-(y + W - h))) := by omega
  have e1' := mul_le_mul_of_nonneg_left (Int.cast_le (R := ℚ).2 e1) ha
  have e2' := mul_le_mul_of_nonneg_left (Int.cast_le (R := ℚ).2 e2) hb
  push_cast at e1' e2' ⊢
  nlinarith

theorem mvAB_slope_down (ha : 0 ≤ a) (hb : 0 ≤ b) (hh : 0 < h) (y J : ℤ) (hJ : 3 ≤ J) :
    mvAB a b (y - 2 * h) - mvAB a b y ≤ 2 * (mvAB a b (y - J * h) - mvAB a b (y - J * h + h)) := by
  unfold mvAB
  have hJh : 3 * h ≤ J * h := mul_le_mul_of_nonneg_right hJ hh.le
  generalize J * h = W at *
  have e1 : max 0 (y - 2 * h) - max 0 y ≤ 2 * (max 0 (y - W) - max 0 (y - W + h)) := by omega
  have e2 : max 0 (-(y - 2 * h)) - max 0 (-y) ≤ 2 * (max 0 (-(y - W)) - max 0 (-(y - W + h))) := by omega
  have e1' := mul_le_mul_of_nonneg_left (Int.cast_le (R := ℚ).2 e1) ha
  have e2' := mul_le_mul_of_nonneg_left (Int.cast_le (R := ℚ).2 e2) hb
  push_cast at e1' e2' ⊢
  nlinarith

theorem fT_slope_up (G : Good T m g) (ha : 0 ≤ a) (hb : 0 ≤ b) (hh : 0 < h) {t : Nat} (ht : t < T) {x J : ℤ}
    (hJ : 3 ≤ J) (hx : 0 ≤ x) (hcap : h * (x + J) ≤ cap m h)
    (hf : extCost g m ((t : Int) + 1) (h * x) ≠ ⊤) :
    fT g m a b xStart t (h * (x + 2)) - fT g m a b xStart t (h * x)
      ≤ 2 * (fT g m a b xStart t (h * (x + J)) - fT g m a b xStart t (h * (x + J - 1))) := by
  have hc := cap_lt (m := m) hh
  have hx' : 0 ≤ h * x := mul_nonneg hh.le hx
  have hJh : 3 * h ≤ h * J := by rw [mul_comm]; exact mul_le_mul_of_nonneg_left hJ hh.le
  have c := G.chord_ext (t := (t : Int) + 1) (by omega) (by omega) (p0 := h * x) (p1 := h * (x + 2))
    (p2 := h * (x + J - 1)) (p3 := h * (x + J)) hx' (by nlinarith) (by nlinarith) (by nlinarith)
    (by
      rcases le_or_gt (h * (x + J)) m with h' | h'
      · exact .inl h'
      · refine .inr ⟨by nlinarith, by nlinarith, by nlinarith⟩) hf
  push_cast at c
  have hq : (0 : ℚ) < h := by exact_mod_cast hh
  have c' : (gq g m ((t : Int) + 1) (h * (x + 2)) - gq g m ((t : Int) + 1) (h * x))
      ≤ 2 * (gq g m ((t : Int) + 1) (h * (x + J)) - gq g m ((t : Int) + 1) (h * (x + J - 1))) := by
    refine le_of_mul_le_mul_right ?_ hq
    nlinarith
  unfold fT
  split_ifs
  · have s := mvAB_slope_up ha hb hh (h * x - xStart) J hJ
    have e1 : h * x - xStart + 2 * h = h * (x + 2) - xStart := by ring
    have e2 : h * x - xStart + J * h = h * (x + J) - xStart := by ring
    have e3 : h * (x + J) - xStart - h = h * (x + J - 1) - xStart := by ring
    rw [e1, e2, e3] at s
    linarith
  · linarith

theorem fT_slope_down (G : Good T m g) (ha : 0 ≤ a) (hb : 0 ≤ b) (hh : 0 < h) {t : Nat} (ht : t < T) {x J : ℤ}
    (hJ : 3 ≤ J) (hx : 0 ≤ x - J) (hcap : h * x ≤ cap m (2 * h))
    (hf : extCost g m ((t : Int) + 1) (h * (x - J)) ≠ ⊤) :
    fT g m a b xStart t (h * (x - 2)) - fT g m a b xStart t (h * x)
      ≤ 2 * (fT g m a b xStart t (h * (x - J)) - fT g m a b xStart t (h * (x - J + 1))) := by
  have hc := cap_lt (m := m) (h := 2 * h) (by omega)
  have hx' : 0 ≤ h * (x - J) := mul_nonneg hh.le hx
  have hJh : 3 * h ≤ h * J := by rw [mul_comm]; exact mul_le_mul_of_nonneg_left hJ hh.le
  have c := G.chord_ext (t := (t : Int) + 1) (by omega) (by omega) (p0 := h * (x - J))
    (p1 := h * (x - J + 1))
    (p2 := h * (x - 2)) (p3 := h * x) hx' (by nlinarith) (by nlinarith) (by nlinarith)
    (by
      rcases le_or_gt (h * x) m with h' | h'
      · exact .inl h'
      · refine .inr ⟨by nlinarith, by nlinarith, by nlinarith⟩) hf
  push_cast at c
  have hq : (0 : ℚ) < h := by exact_mod_cast hh
  have c' : (gq g m ((t : Int) + 1) (h * (x - 2)) - gq g m ((t : Int) + 1) (h * x))
      ≤ 2 * (gq g m ((t : Int) + 1) (h * (x - J)) - gq g m ((t : Int) + 1) (h * (x - J + 1))) := by
    refine le_of_mul_le_mul_right ?_ hq
    nlinarith
  unfold fT
  split_ifs
  · have s := mvAB_slope_down ha hb hh (h * x - xStart) J hJ
    have e1 : h * x - xStart - 2 * h = h * (x - 2) - xStart := by ring
    have e2 : h * x - xStart - J * h = h * (x - J) - xStart := by ring
    have e3 : h * (x - J) - xStart + h = h * (x - J + 1) - xStart := by ring
    rw [e1, e2, e3] at s
    linarith
  · linarith

end slopes

/-! ## Every fine sequence can be moved into the window around the coarse optimum -/

section window
variable {T : Nat} {m M : ℤ} {g : Int → ℤ → ECost} {mv : ℤ → ℤ → ℚ} {alpha a b : ℚ} {xStart : ℤ} {h : ℤ}

theorem to_window (G : Good T m g) (hmv : ∀ i j, alpha * mv i j = mvAB a b (j - i)) (ha : 0 ≤ a)
    (hb : 0 ≤ b) (hh : 0 < h) {xs vs : List ℤ} (hx : Feas T m M g (2 * h) xs)
    (hopt : OptAt T m M g mv alpha xStart (2 * h) xs) (hv : OnMult T M h vs)
    (hcap : ∀ j ∈ vs, j ≤ cap m h) (hvf : AllFin (extCost g m) vs) :
    ∃ ws : List ℤ, OnMult T M h ws ∧
      (∀ i, (h1 : i < ws.length) → (h2 : i < xs.length) → ∃ e : ℤ, -2 ≤ e ∧ e ≤ 2 ∧
        ws[i] = xs[i] + e * h) ∧
      Spec.totalCost (extCost g m) mv alpha 1 xStart ws
        ≤ Spec.totalCost (extCost g m) mv alpha 1 xStart vs ∧
      ∀ i, (h1 : i < ws.length) → (h2 : i < xs.length) → (h3 : i < vs.length) → xs[i] - 2 * h ≤ vs[i] →
        ws[i] ≤ vs[i] := by
  obtain ⟨X, rfl⟩ := exists_mulSeq (h := h) hx.on.len
    fun j hj => dvd_trans (Dvd.intro_left _ rfl) (hx.on.dvd j hj)
  obtain ⟨V, rfl⟩ := exists_mulSeq hv.len hv.dvd
  have hXd : ∀ t < T, 2 ∣ X t := fun t ht => by
    obtain ⟨c, hc⟩ := hx.on.dvd _ (mem_mulSeq.2 ⟨t, ht, rfl⟩)
    exact ⟨c, mul_left_cancel₀ hh.ne' (by rw [hc]; ring)⟩
  have hX0 : ∀ t < T, 0 ≤ h * X t := fun t ht => hx.on.lo _ (mem_mulSeq.2 ⟨t, ht, rfl⟩)
  have hXM : ∀ t < T, h * X t ≤ M := fun t ht => hx.on.hi _ (mem_mulSeq.2 ⟨t, ht, rfl⟩)
  have hXc : ∀ t < T, h * X t ≤ cap m (2 * h) := fun t ht => hx.cap _ (mem_mulSeq.2 ⟨t, ht, rfl⟩)
  have hV0 : ∀ t < T, 0 ≤ h * V t := fun t ht => hv.lo _ (mem_mulSeq.2 ⟨t, ht, rfl⟩)
  have hVM : ∀ t < T, h * V t ≤ M := fun t ht => hv.hi _ (mem_mulSeq.2 ⟨t, ht, rfl⟩)
  have hVc : ∀ t < T, h * V t ≤ cap m h := fun t ht => hcap _ (mem_mulSeq.2 ⟨t, ht, rfl⟩)
  have hXf := allFin_mulSeq.1 hx.fin
  have hVf := allFin_mulSeq.1 hvf
  have hX0' : ∀ t < T, 0 ≤ X t := fun t ht => by
    by_contra hc
    have := mul_neg_of_pos_of_neg hh (not_le.1 hc)
    have := hX0 t ht
    omega
  have hV0' : ∀ t < T, 0 ≤ V t := fun t ht => by
    by_contra hc
    have := mul_neg_of_pos_of_neg hh (not_le.1 hc)
    have := hV0 t ht
    omega
  have mono : ∀ {p q : ℤ}, p ≤ q → h * p ≤ h * q := fun hpq => mul_le_mul_of_nonneg_left hpq hh.le
  -- coarse optimality against another even sequence
  have key : ∀ Y : Nat → ℤ, (∀ t < T, 2 ∣ Y t) → (∀ t < T, 0 ≤ Y t) → (∀ t < T, h * Y t ≤ M) →
      (∀ t < T, extCost g m ((t : Int) + 1) (h * Y t) ≠ ⊤) →
      tot T (fun t z => fT g m a b xStart t (h * z)) (a * h) (b * h) X
        ≤ tot T (fun t z => fT g m a b xStart t (h * z)) (a * h) (b * h) Y := by
    intro Y hd h0 hM hf
    have := hopt (mulSeq T h Y)
      { len := mulSeq_length Y
        dvd := by
          intro j hj; obtain ⟨t, ht, rfl⟩ := mem_mulSeq.1 hj
          obtain ⟨c, hc⟩ := hd t ht
          exact ⟨c, by rw [hc]; ring⟩
        lo := by intro j hj; obtain ⟨t, ht, rfl⟩ := mem_mulSeq.1 hj; exact mul_nonneg hh.le (h0 t ht)
        hi := by intro j hj; obtain ⟨t, ht, rfl⟩ := mem_mulSeq.1 hj; exact hM t ht }
    rw [totalCost_mulSeq hmv hh.le hXf, totalCost_mulSeq hmv hh.le hf] at this
    exact_mod_cast this
  have main := clamp T (fun t z => fT g m a b xStart t (h * z)) (a * h) (b * h)
    (mul_nonneg ha (by exact_mod_cast hh.le)) (mul_nonneg hb (by exact_mod_cast hh.le)) X V hXd
    (by
      intro t ht J hJ hle
      exact fT_slope_up G ha hb hh ht hJ (hX0' t ht) ((mono hle).trans (hVc t ht)) (hXf t ht))
    (by
      intro t ht J hJ hle
      refine fT_slope_down G ha hb hh ht hJ ((hV0' t ht).trans hle) (hXc t ht) ?_
      exact G.fin_up (by omega) (by omega) (hV0 t ht) (mono hle) (hVf t ht))
    (by
      intro S _ hS
      refine key _ ?_ ?_ ?_ ?_
      all_goals
        intro t ht
        have := hS t ht
        have hd := hXd t ht
        have h0 := hX0' t ht
        simp only [bump]
        split_ifs with hs
      · omega
      · exact hd
      · omega
      · exact h0
      · exact (mono (this hs).le).trans (hVM t ht)
      · exact hXM t ht
      · exact G.fin_up (by omega) (by omega) (hX0 t ht) (mono (by omega)) (hXf t ht)
      · exact hXf t ht)
    (by
      intro S _ hS
      refine key _ ?_ ?_ ?_ ?_
      all_goals
        intro t ht
        have := hS t ht
        have hd := hXd t ht
        have h0 := hX0' t ht
        have h0' := hV0' t ht
        simp only [drop]
        split_ifs with hs
      · omega
      · exact hd
      · have := this hs; omega
      · exact h0
      · exact (mono (by omega : X t - 2 ≤ X t)).trans (hXM t ht)
      · exact hXM t ht
      · exact G.fin_up (by omega) (by omega) (hV0 t ht) (mono (this hs).le) (hVf t ht)
      · exact hXf t ht)
  refine ⟨mulSeq T h (fun t => max (min (V t) (X t + 2)) (X t - 2)), mulSeq_onMult ?_ ?_, ?_, ?_, ?_⟩
  · intro t ht
    have := hX0' t ht; have := hV0' t ht
    exact mul_nonneg hh.le (by omega)
  · intro t ht
    rcases le_total (X t) (V t) with hc | hc
    · exact (mono (by omega)).trans (hVM t ht)
    · exact (mono (by omega)).trans (hXM t ht)
  · intro i h1 h2
    refine ⟨max (min (V i) (X i + 2)) (X i - 2) - X i, by omega, by omega, ?_⟩
    rw [mulSeq_get, mulSeq_get]; ring
  · rw [totalCost_mulSeq hmv hh.le hVf, totalCost_mulSeq hmv hh.le]
    · exact_mod_cast main
    · intro t ht
      rcases le_total (X t) (V t) with hc | hc
      · exact G.fin_up (by omega) (by omega) (hX0 t ht) (mono (by omega)) (hXf t ht)
      · exact G.fin_up (by omega) (by omega) (hV0 t ht) (mono (by omega)) (hVf t ht)
  · intro i h1 h2 h3 hle
    rw [mulSeq_get, mulSeq_get] at *
    have : X i - 2 ≤ V i := le_of_mul_le_mul_left (by linarith) hh
    exact mono (by omega)

/-- Pointwise lowest among the cheapest on the multiples of `h`. -/
def LowAt (T : Nat) (m M : ℤ) (g : Int → ℤ → ECost) (mv : ℤ → ℤ → ℚ) (alpha : ℚ) (xStart : ℤ)
    (h : ℤ) (js : List ℤ) : Prop :=
  ∀ ks, OnMult T M h ks → Spec.totalCost (extCost g m) mv alpha 1 xStart ks
    ≤ Spec.totalCost (extCost g m) mv alpha 1 xStart js → Low.Below js ks

/-- No fine optimum is more than two fine steps below the lowest coarse optimum. -/
theorem near_window (G : Good T m g) (hmv : ∀ i j, alpha * mv i j = mvAB a b (j - i)) (ha : 0 ≤ a)
    (hb : 0 ≤ b) (hh : 0 < h) {xs vs : List ℤ} (hx : Feas T m M g (2 * h) xs)
    (hlow : LowAt T m M g mv alpha xStart (2 * h) xs) (hv : OnMult T M h vs)
    (hvf : AllFin (extCost g m) vs) (hvo : OptAt T m M g mv alpha xStart h vs) :
    ∀ i, (h1 : i < xs.length) → (h2 : i < vs.length) → xs[i] - 2 * h ≤ vs[i] := by
  obtain ⟨X, rfl⟩ := exists_mulSeq (h := h) hx.on.len
    fun j hj => dvd_trans (Dvd.intro_left _ rfl) (hx.on.dvd j hj)
  obtain ⟨V, rfl⟩ := exists_mulSeq hv.len hv.dvd
  have hXd : ∀ t < T, 2 ∣ X t := fun t ht => by
    obtain ⟨c, hc⟩ := hx.on.dvd _ (mem_mulSeq.2 ⟨t, ht, rfl⟩)
    exact ⟨c, mul_left_cancel₀ hh.ne' (by rw [hc]; ring)⟩
  have hX0 : ∀ t < T, 0 ≤ h * X t := fun t ht => hx.on.lo _ (mem_mulSeq.2 ⟨t, ht, rfl⟩)
  have hXM : ∀ t < T, h * X t ≤ M := fun t ht => hx.on.hi _ (mem_mulSeq.2 ⟨t, ht, rfl⟩)
  have hXc : ∀ t < T, h * X t ≤ cap m (2 * h) := fun t ht => hx.cap _ (mem_mulSeq.2 ⟨t, ht, rfl⟩)
  have hV0 : ∀ t < T, 0 ≤ h * V t := fun t ht => hv.lo _ (mem_mulSeq.2 ⟨t, ht, rfl⟩)
  have hVM : ∀ t < T, h * V t ≤ M := fun t ht => hv.hi _ (mem_mulSeq.2 ⟨t, ht, rfl⟩)
  have hXf := allFin_mulSeq.1 hx.fin
  have hVf := allFin_mulSeq.1 hvf
  have hX0' : ∀ t < T, 0 ≤ X t := fun t ht => by
    by_contra hc
    have := mul_neg_of_pos_of_neg hh (not_le.1 hc)
    have := hX0 t ht
    omega
  have hV0' : ∀ t < T, 0 ≤ V t := fun t ht => by
    by_contra hc
    have := mul_neg_of_pos_of_neg hh (not_le.1 hc)
    have := hV0 t ht
    omega
  have mono : ∀ {p q : ℤ}, p ≤ q → h * p ≤ h * q := fun hpq => mul_le_mul_of_nonneg_left hpq hh.le
  have main := near_down T (fun t z => fT g m a b xStart t (h * z)) (a * h) (b * h)
    (mul_nonneg ha (by exact_mod_cast hh.le)) (mul_nonneg hb (by exact_mod_cast hh.le)) X V hXd
    (by
      intro t ht J hJ hle
      refine fT_slope_down G ha hb hh ht hJ ((hV0' t ht).trans hle) (hXc t ht) ?_
      exact G.fin_up (by omega) (by omega) (hV0 t ht) (mono hle) (hVf t ht))
    (by
      intro S _ hS hex
      have hdf : ∀ t < T, extCost g m ((t : Int) + 1) (h * drop X S t) ≠ ⊤ := by
        intro t ht
        have := hS t ht
        simp only [drop]
        split_ifs with hs
        · exact G.fin_up (by omega) (by omega) (hV0 t ht) (mono (this hs).le) (hVf t ht)
        · exact hXf t ht
      have hon : OnMult T M (2 * h) (mulSeq T h (drop X S)) :=
        { len := mulSeq_length _
          dvd := by
            intro j hj; obtain ⟨t, ht, rfl⟩ := mem_mulSeq.1 hj
            obtain ⟨c, hc⟩ : 2 ∣ drop X S t := by
              have hd := hXd t ht
              simp only [drop]; split_ifs <;> omega
            exact ⟨c, by rw [hc]; ring⟩
          lo := by
            intro j hj; obtain ⟨t, ht, rfl⟩ := mem_mulSeq.1 hj
            refine mul_nonneg hh.le ?_
            have := hS t ht
            have h0 := hX0' t ht
            have h0' := hV0' t ht
            simp only [drop]; split_ifs with hs
            · have := this hs; omega
            · exact h0
          hi := by
            intro j hj; obtain ⟨t, ht, rfl⟩ := mem_mulSeq.1 hj
            simp only [drop]; split_ifs
            · exact (mono (by omega : X t - 2 ≤ X t)).trans (hXM t ht)
            · exact hXM t ht }
      by_contra hc
      have hc := not_lt.1 hc
      have hb := hlow _ hon (by
        rw [totalCost_mulSeq hmv hh.le hXf, totalCost_mulSeq hmv hh.le hdf]
        exact_mod_cast hc)
      obtain ⟨t, ht, hs⟩ := hex
      have := (Low.below_iff.1 hb).2 t (by simpa using ht) (by simpa using ht)
      rw [mulSeq_get, mulSeq_get] at this
      have := le_of_mul_le_mul_left this hh
      simp only [drop, if_pos hs] at this
      omega)
    (by
      intro S _ hS
      have hdf : ∀ t < T, extCost g m ((t : Int) + 1) (h * (if S t then V t + 1 else V t)) ≠ ⊤ := by
        intro t ht
        split_ifs
        · exact G.fin_up (by omega) (by omega) (hV0 t ht) (mono (by omega)) (hVf t ht)
        · exact hVf t ht
      have := hvo (mulSeq T h fun t => if S t then V t + 1 else V t) (mulSeq_onMult
        (fun t ht => by
          refine mul_nonneg hh.le ?_
          have := hV0' t ht
          split_ifs <;> omega)
        (fun t ht => by
          split_ifs with hs
          · exact (mono (by have := hS t ht hs; omega)).trans (hXM t ht)
          · exact hVM t ht))
      rw [totalCost_mulSeq hmv hh.le hVf, totalCost_mulSeq hmv hh.le hdf] at this
      exact_mod_cast this)
  intro i h1 h2
  rw [mulSeq_get, mulSeq_get]
  have := mono (main i (by simpa using h1))
  linarith

end window

end Uni
end Soco
