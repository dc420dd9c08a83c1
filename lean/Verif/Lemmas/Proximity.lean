import Mathlib.Algebra.Order.BigOperators.Group.Finset
import Mathlib.Algebra.BigOperators.Group.Finset.Basic
import Mathlib.Algebra.Order.Ring.Rat
import Mathlib.Tactic.Linarith
import Mathlib.Tactic.Ring
import Mathlib.Tactic.Push
import Mathlib.Algebra.BigOperators.Ring.Finset

/-!
# Proximity of coarse and fine optima

If `x` is optimal on the even integers, then clamping any integral schedule to distance two from `x` does
not increase its cost. The excess over `x` is peeled off layer by layer; a layer is paid for by the coarse
optimality of `x` against moving the slots of the layer by two.
-/

namespace Soco.Prox
open Finset

/-- Convex movement cost with different rates up and down. -/
def mvAB (a b : ℚ) (δ : ℤ) : ℚ := a * ((max 0 δ : ℤ) : ℚ) + b * ((max 0 (-δ) : ℤ) : ℚ)

/-- Total cost of the slots `0, …, T-1`. -/
def tot (T : Nat) (f : Nat → ℤ → ℚ) (a b : ℚ) (v : Nat → ℤ) : ℚ :=
  ∑ t ∈ range T, f t (v t) + ∑ t ∈ range (T - 1), mvAB a b (v (t + 1) - v t)

theorem tot_congr (T : Nat) (f : Nat → ℤ → ℚ) (a b : ℚ) {v w : Nat → ℤ} (h : ∀ t < T, v t = w t) :
    tot T f a b v = tot T f a b w := by
  unfold tot
  congr 1
  · exact sum_congr rfl fun t ht => by rw [h t (mem_range.1 ht)]
  · refine sum_congr rfl fun t ht => ?_
    have := mem_range.1 ht
    rw [h t (by omega), h (t + 1) (by omega)]

/-- The schedule moved by two in the slots of `S`. -/
def bump (x : Nat → ℤ) (S : Nat → Prop) [DecidablePred S] : Nat → ℤ := fun t => if S t then x t + 2 else x t

theorem pos_layer {δ p q : ℤ} {J : ℤ} (hδ : 2 ∣ δ) (hp : p ≤ J) (hq : q ≤ J) :
    max 0 (δ + (if q = J then 2 else 0) - (if p = J then 2 else 0)) - max 0 δ
      ≤ 2 * (max 0 (δ + q - p) -
        max 0 (δ + (if q = J then J - 1 else q) - (if p = J then J - 1 else p))) := by
  obtain ⟨e, rfl⟩ := hδ
  split_ifs <;> omega

theorem neg_layer {δ p q : ℤ} {J : ℤ} (hδ : 2 ∣ δ) (hp : p ≤ J) (hq : q ≤ J) :
    max 0 (-(δ + (if q = J then 2 else 0) - (if p = J then 2 else 0))) - max 0 (-δ)
      ≤ 2 * (max 0 (-(δ + q - p)) -
        max 0 (-(δ + (if q = J then J - 1 else q) - (if p = J then J - 1 else p)))) := by
  obtain ⟨e, rfl⟩ := hδ
  split_ifs <;> omega

theorem peel_gap (T : Nat) (f : Nat → ℤ → ℚ) (a b : ℚ) (ha : 0 ≤ a) (hb : 0 ≤ b) (x v : Nat → ℤ) (J : ℤ)
    (hx : ∀ t < T, 2 ∣ x t) (hv : ∀ t < T, v t ≤ x t + J)
    (hU : ∀ t < T, v t = x t + J → f t (x t + 2) - f t (x t) ≤ 2 * (f t (x t + J) - f t (x t + J - 1))) :
    tot T f a b (bump x fun t => v t = x t + J) - tot T f a b x
      ≤ 2 * (tot T f a b v - tot T f a b (fun t => if v t = x t + J then v t - 1 else v t)) := by
  unfold tot
  have h1 : ∑ t ∈ range T, f t (bump x (fun t => v t = x t + J) t) - ∑ t ∈ range T, f t (x t)
      ≤ 2 * (∑ t ∈ range T, f t (v t) - ∑ t ∈ range T, f t (if v t = x t + J then v t - 1 else v t)) := by
    rw [← sum_sub_distrib, ← sum_sub_distrib, mul_sum]
    refine sum_le_sum fun t ht => ?_
    have ht := mem_range.1 ht
    simp only [bump]
    split_ifs with h
    · have := hU t ht h
      rw [h]; exact this
    · simp
  have h2 : ∑ t ∈ range (T - 1), mvAB a b (bump x (fun t => v t = x t + J) (t + 1)
        - bump x (fun t => v t = x t + J) t) - ∑ t ∈ range (T - 1), mvAB a b (x (t + 1) - x t)
      ≤ 2 * (∑ t ∈ range (T - 1), mvAB a b (v (t + 1) - v t)
        - ∑ t ∈ range (T - 1), mvAB a b ((if v (t + 1) = x (t + 1) + J then v (t + 1) - 1 else v (t + 1))
          - (if v t = x t + J then v t - 1 else v t))) := by
    rw [← sum_sub_distrib, ← sum_sub_distrib, mul_sum]
    refine sum_le_sum fun t ht => ?_
    have ht := mem_range.1 ht
    obtain ⟨p, hp⟩ : ∃ p, v t = x t + p := ⟨v t - x t, by ring⟩
    obtain ⟨q, hq⟩ : ∃ q, v (t + 1) = x (t + 1) + q := ⟨v (t + 1) - x (t + 1), by ring⟩
    have hp' := hv t (by omega)
    have hq' := hv (t + 1) (by omega)
    have hd : 2 ∣ x (t + 1) - x t := dvd_sub (hx _ (by omega)) (hx _ (by omega))
    have hpos := pos_layer hd (J := J) (p := p) (q := q) (by omega) (by omega)
    have hneg := neg_layer hd (J := J) (p := p) (q := q) (by omega) (by omega)
    have ep : (v t = x t + J) ↔ p = J := by omega
    have eq' : (v (t + 1) = x (t + 1) + J) ↔ q = J := by omega
    have e1 : bump x (fun t => v t = x t + J) (t + 1) - bump x (fun t => v t = x t + J) t
        = x (t + 1) - x t + (if q = J then 2 else 0) - (if p = J then 2 else 0) := by
      simp only [bump, ep, eq']; split_ifs <;> ring
    have e2 : v (t + 1) - v t = x (t + 1) - x t + q - p := by rw [hp, hq]; ring
    have e3 : (if v (t + 1) = x (t + 1) + J then v (t + 1) - 1 else v (t + 1))
          - (if v t = x t + J then v t - 1 else v t)
        = x (t + 1) - x t + (if q = J then J - 1 else q) - (if p = J then J - 1 else p) := by
      simp only [ep, eq']; split_ifs <;> omega
    rw [e1, e2, e3]
    have hpos' := mul_le_mul_of_nonneg_left (Int.cast_le (R := ℚ).2 hpos) ha
    have hneg' := mul_le_mul_of_nonneg_left (Int.cast_le (R := ℚ).2 hneg) hb
    rw [Int.cast_sub, Int.cast_mul, Int.cast_sub] at hpos' hneg'
    simp only [mvAB]
    push_cast at hpos' hneg' ⊢
    linarith
  linarith

theorem peel (T : Nat) (f : Nat → ℤ → ℚ) (a b : ℚ) (ha : 0 ≤ a) (hb : 0 ≤ b) (x v : Nat → ℤ) (J : ℤ)
    (hx : ∀ t < T, 2 ∣ x t) (hv : ∀ t < T, v t ≤ x t + J)
    (hU : ∀ t < T, v t = x t + J → f t (x t + 2) - f t (x t) ≤ 2 * (f t (x t + J) - f t (x t + J - 1)))
    (hopt : tot T f a b x ≤ tot T f a b (bump x fun t => v t = x t + J)) :
    tot T f a b (fun t => if v t = x t + J then v t - 1 else v t) ≤ tot T f a b v := by
  have := peel_gap T f a b ha hb x v J hx hv hU
  linarith

theorem clamp_up (T : Nat) (f : Nat → ℤ → ℚ) (a b : ℚ) (ha : 0 ≤ a) (hb : 0 ≤ b) (x v : Nat → ℤ)
    (hx : ∀ t < T, 2 ∣ x t)
    (hU : ∀ t < T, ∀ J, 3 ≤ J → x t + J ≤ v t →
      f t (x t + 2) - f t (x t) ≤ 2 * (f t (x t + J) - f t (x t + J - 1)))
    (hopt : ∀ (S : Nat → Prop) [DecidablePred S], (∀ t < T, S t → x t + 2 < v t) →
      tot T f a b x ≤ tot T f a b (bump x S)) :
    tot T f a b (fun t => min (v t) (x t + 2)) ≤ tot T f a b v := by
  have step : ∀ n : Nat, tot T f a b (fun t => min (v t) (x t + 2))
      ≤ tot T f a b (fun t => min (v t) (x t + 2 + n)) := by
    intro n
    induction n with
    | zero => simp
    | succ n ih =>
      refine ih.trans ?_
      have key := peel T f a b ha hb x (fun t => min (v t) (x t + 2 + (n + 1 : ℤ))) (n + 3) hx
        (fun t _ => by omega)
        (fun t ht h => hU t ht _ (by omega) (by omega))
        (hopt _ (fun t ht h => by omega))
      have e : tot T f a b (fun t => if min (v t) (x t + 2 + (n + 1 : ℤ)) = x t + (n + 3) then
            min (v t) (x t + 2 + (n + 1 : ℤ)) - 1 else min (v t) (x t + 2 + (n + 1 : ℤ)))
          = tot T f a b (fun t => min (v t) (x t + 2 + n)) := by
        refine tot_congr _ _ _ _ fun t ht => ?_
        split_ifs <;> omega
      rw [e] at key
      simpa using key
  obtain ⟨N, hN⟩ : ∃ N : Nat, ∀ t < T, v t ≤ x t + 2 + N := by
    clear step hopt hU hx
    induction T with
    | zero => exact ⟨0, by simp⟩
    | succ T ih =>
      obtain ⟨N, hN⟩ := ih
      refine ⟨N + (v T - x T).toNat, fun t ht => ?_⟩
      rcases Nat.lt_succ_iff_lt_or_eq.1 ht with h | rfl
      · have := hN t h; push_cast; omega
      · push_cast; omega
  refine (step N).trans (le_of_eq (tot_congr _ _ _ _ fun t ht => ?_))
  have := hN t ht; omega

theorem tot_neg (T : Nat) (f : Nat → ℤ → ℚ) (a b : ℚ) (v : Nat → ℤ) :
    tot T (fun t z => f t (-z)) b a (fun t => -v t) = tot T f a b v := by
  unfold tot
  congr 1
  · simp
  · refine sum_congr rfl fun t _ => ?_
    unfold mvAB
    rw [show -(-v (t + 1) - -v t) = v (t + 1) - v t by ring,
      show (-v (t + 1) - -v t) = -(v (t + 1) - v t) by ring]
    ring

/-- The schedule moved down by two in the slots of `S`. -/
def drop (x : Nat → ℤ) (S : Nat → Prop) [DecidablePred S] : Nat → ℤ := fun t => if S t then x t - 2 else x t

theorem clamp_down (T : Nat) (f : Nat → ℤ → ℚ) (a b : ℚ) (ha : 0 ≤ a) (hb : 0 ≤ b) (x v : Nat → ℤ)
    (hx : ∀ t < T, 2 ∣ x t)
    (hD : ∀ t < T, ∀ J, 3 ≤ J → v t ≤ x t - J →
      f t (x t - 2) - f t (x t) ≤ 2 * (f t (x t - J) - f t (x t - J + 1)))
    (hopt : ∀ (S : Nat → Prop) [DecidablePred S], (∀ t < T, S t → v t < x t - 2) →
      tot T f a b x ≤ tot T f a b (drop x S)) :
    tot T f a b (fun t => max (v t) (x t - 2)) ≤ tot T f a b v := by
  have key := clamp_up T (fun t z => f t (-z)) b a hb ha (fun t => -x t) (fun t => -v t)
    (fun t ht => by have := hx t ht; omega)
    (fun t ht J hJ h => by
      have := hD t ht J hJ (by omega)

      rw [show -(-x t + 2) = x t - 2 by ring, show -(-x t + J) = x t - J by ring, neg_neg,
        show -(-x t + J - 1) = x t - J + 1 by ring]
      exact this)
    (fun S _ h => by
      have := hopt S (fun t ht hs => by have := h t ht hs; omega)
      rw [tot_neg]
      refine this.trans (le_of_eq ?_)
      rw [← tot_neg]
      refine tot_congr _ _ _ _ fun t _ => ?_
      simp only [drop, bump]; split_ifs <;> ring)
  rw [tot_neg] at key
  refine le_trans (le_of_eq ?_) key
  rw [← tot_neg]
  refine tot_congr _ _ _ _ fun t _ => ?_
  omega

/-- Clamping to distance two from a coarse optimum does not increase the cost. -/
theorem clamp (T : Nat) (f : Nat → ℤ → ℚ) (a b : ℚ) (ha : 0 ≤ a) (hb : 0 ≤ b) (x v : Nat → ℤ)
    (hx : ∀ t < T, 2 ∣ x t)
    (hU : ∀ t < T, ∀ J, 3 ≤ J → x t + J ≤ v t →
      f t (x t + 2) - f t (x t) ≤ 2 * (f t (x t + J) - f t (x t + J - 1)))
    (hD : ∀ t < T, ∀ J, 3 ≤ J → v t ≤ x t - J →
      f t (x t - 2) - f t (x t) ≤ 2 * (f t (x t - J) - f t (x t - J + 1)))
    (hoptU : ∀ (S : Nat → Prop) [DecidablePred S], (∀ t < T, S t → x t + 2 < v t) →
      tot T f a b x ≤ tot T f a b (bump x S))
    (hoptD : ∀ (S : Nat → Prop) [DecidablePred S], (∀ t < T, S t → v t < x t - 2) →
      tot T f a b x ≤ tot T f a b (drop x S)) :
    tot T f a b (fun t => max (min (v t) (x t + 2)) (x t - 2)) ≤ tot T f a b v := by
  refine le_trans ?_ (clamp_up T f a b ha hb x v hx hU hoptU)
  refine clamp_down T f a b ha hb x (fun t => min (v t) (x t + 2)) hx ?_ ?_
  · intro t ht J hJ h; exact hD t ht J hJ (by omega)
  · intro S _ h; exact hoptD S fun t ht hs => by have := h t ht hs; omega

/-- If every coarse move up of `x` costs something, no fine optimum exceeds `x` by more than two. -/
theorem near_up (T : Nat) (f : Nat → ℤ → ℚ) (a b : ℚ) (ha : 0 ≤ a) (hb : 0 ≤ b) (x v : Nat → ℤ)
    (hx : ∀ t < T, 2 ∣ x t)
    (hU : ∀ t < T, ∀ J, 3 ≤ J → x t + J ≤ v t →
      f t (x t + 2) - f t (x t) ≤ 2 * (f t (x t + J) - f t (x t + J - 1)))
    (hlow : ∀ (S : Nat → Prop) [DecidablePred S], (∀ t < T, S t → x t + 2 < v t) → (∃ t < T, S t) →
      tot T f a b x < tot T f a b (bump x S))
    (hopt : ∀ (S : Nat → Prop) [DecidablePred S], (∀ t < T, S t → x t + 2 < v t) →
      tot T f a b v ≤ tot T f a b (fun t => if S t then v t - 1 else v t)) :
    ∀ t < T, v t ≤ x t + 2 := by
  by_contra hc
  push Not at hc
  obtain ⟨t0, h0, h0'⟩ := hc
  obtain ⟨s, hs, hmax⟩ := exists_max_image (range T) (fun t => v t - x t) ⟨t0, mem_range.2 h0⟩
  have hs' := mem_range.1 hs
  have h3 : 3 ≤ v s - x s := by have := hmax t0 (mem_range.2 h0); omega
  have key := peel_gap T f a b ha hb x v (v s - x s) hx
    (fun t ht => by have := hmax t (mem_range.2 ht); omega)
    (fun t ht h => hU t ht _ h3 h.ge)
  have h1 := hlow (fun t => v t = x t + (v s - x s)) (fun t _ h => by omega) ⟨s, hs', by omega⟩
  have h2 := hopt (fun t => v t = x t + (v s - x s)) (fun t _ h => by omega)
  linarith

/-- If every coarse move down of `x` costs something, no fine optimum is more than two below `x`. -/
theorem near_down (T : Nat) (f : Nat → ℤ → ℚ) (a b : ℚ) (ha : 0 ≤ a) (hb : 0 ≤ b) (x v : Nat → ℤ)
    (hx : ∀ t < T, 2 ∣ x t)
    (hD : ∀ t < T, ∀ J, 3 ≤ J → v t ≤ x t - J →
      f t (x t - 2) - f t (x t) ≤ 2 * (f t (x t - J) - f t (x t - J + 1)))
    (hlow : ∀ (S : Nat → Prop) [DecidablePred S], (∀ t < T, S t → v t < x t - 2) → (∃ t < T, S t) →
      tot T f a b x < tot T f a b (drop x S))
    (hopt : ∀ (S : Nat → Prop) [DecidablePred S], (∀ t < T, S t → v t < x t - 2) →
      tot T f a b v ≤ tot T f a b (fun t => if S t then v t + 1 else v t)) :
    ∀ t < T, x t - 2 ≤ v t := by
  have key := near_up T (fun t z => f t (-z)) b a hb ha (fun t => -x t) (fun t => -v t)
    (fun t ht => by have := hx t ht; omega)
    (fun t ht J hJ h => by
      have := hD t ht J hJ (by omega)
      rw [show -(-x t + 2) = x t - 2 by ring, show -(-x t + J) = x t - J by ring, neg_neg,
        show -(-x t + J - 1) = x t - J + 1 by ring]
      exact this)
    (fun S _ h hex => by
      have := hlow S (fun t ht hs => by have := h t ht hs; omega) hex
      rw [tot_neg]
      refine this.trans_le (le_of_eq ?_)
      rw [← tot_neg]
      refine tot_congr _ _ _ _ fun t _ => ?_
      simp only [drop, bump]; split_ifs <;> ring)
    (fun S _ h => by
      have := hopt S (fun t ht hs => by have := h t ht hs; omega)
      rw [tot_neg]
      refine this.trans (le_of_eq ?_)
      rw [← tot_neg]
      refine tot_congr _ _ _ _ fun t _ => ?_
      split_ifs <;> ring)
  intro t ht
  have := key t ht
  omega

end Soco.Prox
