import Verif.Lemmas.Proximity

/-! # From a nearly optimal coarse sequence to the next finer grid -/

namespace Soco
namespace Prox
open Finset

/-- The even sequence which follows `v` from `x` upwards, at a distance of more than `s`, for at most `i` steps. -/
def follow (x v : Nat → ℤ) (s : ℤ) (i : Nat) : Nat → ℤ := fun t => x t + 2 * min (i : ℤ) (max 0 ((v t - x t - 1 - s) / 2))

theorem follow_step (T : Nat) (f : Nat → ℤ → ℚ) (a b : ℚ) (ha : 0 ≤ a) (hb : 0 ≤ b) (x v : Nat → ℤ) (s : ℤ) (h0 : 0 ≤ s) (h1 : s ≤ 1)
    (hx : ∀ t < T, 2 ∣ x t)
    (hU : ∀ t < T, ∀ y J, x t ≤ y → 2 ∣ y → 3 ≤ J → y + J ≤ v t → f t (y + 2) - f t y ≤ 2 * (f t (y + J) - f t (y + J - 1)))
    (i : Nat) :
    tot T f a b (follow x v s (i + 1)) - tot T f a b (follow x v s i)
      ≤ 2 * (tot T f a b (fun t => min (v t) (x t + (2 * i + 3 + s))) - tot T f a b (fun t => min (v t) (x t + (2 * i + 2 + s)))) := by
  have h := peel_gap T f a b ha hb (follow x v s i) (fun t => min (v t) (x t + (2 * i + 3 + s))) (3 + s)
    (by
      intro t ht
      have := hx t ht
      unfold follow
      omega)
    (by
      intro t ht
      unfold follow
      omega)
    (by
      intro t ht e
      have hxt := hx t ht
      refine hU t ht _ _ ?_ ?_ (by omega) ?_
      · unfold follow; omega
      · unfold follow; omega
      · rw [← e]; exact min_le_left _ _)
  have e1 : tot T f a b (bump (follow x v s i) fun t => min (v t) (x t + (2 * i + 3 + s)) = follow x v s i t + (3 + s))
      = tot T f a b (follow x v s (i + 1)) := by
    refine tot_congr T f a b fun t ht => ?_
    simp only [bump, follow]
    push_cast
    split_ifs <;> omega
  have e2 : tot T f a b (fun t => if min (v t) (x t + (2 * i + 3 + s)) = follow x v s i t + (3 + s) then
      min (v t) (x t + (2 * i + 3 + s)) - 1 else min (v t) (x t + (2 * i + 3 + s)))
      = tot T f a b (fun t => min (v t) (x t + (2 * i + 2 + s))) := by
    refine tot_congr T f a b fun t ht => ?_
    simp only [follow]
    split_ifs <;> omega
  rw [e1, e2] at h
  exact h

theorem follow_sum (T : Nat) (f : Nat → ℤ → ℚ) (a b : ℚ) (ha : 0 ≤ a) (hb : 0 ≤ b) (x v : Nat → ℤ)
    (hx : ∀ t < T, 2 ∣ x t)
    (hU : ∀ t < T, ∀ y J, x t ≤ y → 2 ∣ y → 3 ≤ J → y + J ≤ v t → f t (y + 2) - f t y ≤ 2 * (f t (y + J) - f t (y + J - 1))) :
    ∀ n : Nat, (tot T f a b (follow x v 0 n) - tot T f a b x) + (tot T f a b (follow x v 1 n) - tot T f a b x)
      ≤ 2 * (tot T f a b (fun t => min (v t) (x t + (2 * n + 2))) - tot T f a b (fun t => min (v t) (x t + 2))) := by
  intro n
  induction n with
  | zero =>
    have e : ∀ s, tot T f a b (follow x v s 0) = tot T f a b x := fun s =>
      tot_congr T f a b fun t _ => by simp only [follow]; push_cast; omega
    rw [e, e]
    simp
  | succ n ih =>
    have h0 := follow_step T f a b ha hb x v 0 le_rfl (by omega) hx hU n
    have h1 := follow_step T f a b ha hb x v 1 (by omega) le_rfl hx hU n
    have e1 : tot T f a b (fun t => min (v t) (x t + (2 * n + 3 + 0))) = tot T f a b (fun t => min (v t) (x t + (2 * n + 2 + 1))) :=
      tot_congr T f a b fun t _ => by omega
    have e2 : tot T f a b (fun t => min (v t) (x t + (2 * n + 3 + 1))) = tot T f a b (fun t => min (v t) (x t + (2 * (n + 1 : Nat) + 2))) :=
      tot_congr T f a b fun t _ => by push_cast; omega
    have e3 : tot T f a b (fun t => min (v t) (x t + (2 * n + 2 + 0))) = tot T f a b (fun t => min (v t) (x t + (2 * n + 2))) :=
      tot_congr T f a b fun t _ => by omega
    rw [e1, e3] at h0
    rw [e2] at h1
    linarith

theorem near_clamp_up (T : Nat) (f : Nat → ℤ → ℚ) (a b : ℚ) (ha : 0 ≤ a) (hb : 0 ≤ b) (x v : Nat → ℤ) (E : ℚ)
    (hx : ∀ t < T, 2 ∣ x t)
    (hU : ∀ t < T, ∀ y J, x t ≤ y → 2 ∣ y → 3 ≤ J → y + J ≤ v t → f t (y + 2) - f t y ≤ 2 * (f t (y + J) - f t (y + J - 1)))
    (hopt : ∀ y : Nat → ℤ, (∀ t < T, 2 ∣ y t) → (∀ t < T, y t = x t ∨ x t < y t ∧ y t < v t) → tot T f a b x ≤ tot T f a b y + E) :
    tot T f a b (fun t => min (v t) (x t + 2)) ≤ tot T f a b v + E := by
  obtain ⟨n, hn⟩ : ∃ n : Nat, ∀ t < T, v t ≤ x t + (2 * n + 2) := by
    refine ⟨∑ t ∈ range T, (v t - x t).toNat, fun t ht => ?_⟩
    have := single_le_sum (f := fun t => (v t - x t).toNat) (fun _ _ => Nat.zero_le _) (mem_range.2 ht)
    omega
  have h := follow_sum T f a b ha hb x v hx hU n
  have e : tot T f a b (fun t => min (v t) (x t + (2 * n + 2))) = tot T f a b v :=
    tot_congr T f a b fun t ht => min_eq_left (hn t ht)
  have key : ∀ s, 0 ≤ s → tot T f a b x ≤ tot T f a b (follow x v s n) + E := by
    intro s hs
    refine hopt _ ?_ ?_
    all_goals
      intro t ht
      have := hx t ht
      unfold follow
      omega
  have k0 := key 0 le_rfl
  have k1 := key 1 (by norm_num)
  rw [e] at h
  linarith

theorem near_clamp_down (T : Nat) (f : Nat → ℤ → ℚ) (a b : ℚ) (ha : 0 ≤ a) (hb : 0 ≤ b) (x v : Nat → ℤ) (E : ℚ)
    (hx : ∀ t < T, 2 ∣ x t)
    (hD : ∀ t < T, ∀ y J, y ≤ x t → 2 ∣ y → 3 ≤ J → v t ≤ y - J → f t (y - 2) - f t y ≤ 2 * (f t (y - J) - f t (y - J + 1)))
    (hopt : ∀ y : Nat → ℤ, (∀ t < T, 2 ∣ y t) → (∀ t < T, y t = x t ∨ v t < y t ∧ y t < x t) → tot T f a b x ≤ tot T f a b y + E) :
    tot T f a b (fun t => max (v t) (x t - 2)) ≤ tot T f a b v + E := by
  have key := near_clamp_up T (fun t z => f t (-z)) b a hb ha (fun t => -x t) (fun t => -v t) E
    (fun t ht => (Int.dvd_neg).2 (hx t ht))
    (by
      intro t ht y J h1 h2 h3 h4
      have := hD t ht (-y) J (by omega) (by omega) h3 (by omega)
      rw [show -(y + 2) = -y - 2 by ring, show -(y + J) = -y - J by ring, show -(y + J - 1) = -y - J + 1 by ring]
      exact this)
    (by
      intro y h1 h2
      have := hopt (fun t => -y t) (fun t ht => (Int.dvd_neg).2 (h1 t ht)) (fun t ht => by
        have := h2 t ht
        omega)
      rw [tot_neg]
      have e := tot_neg T f a b (fun t => -y t)
      simp only [neg_neg] at e
      rw [e]
      exact this)
  rw [tot_neg] at key
  have e : tot T (fun t z => f t (-z)) b a (fun t => min (-v t) (-x t + 2)) = tot T f a b (fun t => max (v t) (x t - 2)) := by
    rw [← tot_neg T f a b (fun t => max (v t) (x t - 2))]
    exact tot_congr T _ b a fun t _ => by omega
  rw [e] at key
  exact key

theorem near_clamp (T : Nat) (f : Nat → ℤ → ℚ) (a b : ℚ) (ha : 0 ≤ a) (hb : 0 ≤ b) (x v : Nat → ℤ) (E : ℚ)
    (hx : ∀ t < T, 2 ∣ x t)
    (hU : ∀ t < T, ∀ y J, x t ≤ y → 2 ∣ y → 3 ≤ J → y + J ≤ v t → f t (y + 2) - f t y ≤ 2 * (f t (y + J) - f t (y + J - 1)))
    (hD : ∀ t < T, ∀ y J, y ≤ x t → 2 ∣ y → 3 ≤ J → v t ≤ y - J → f t (y - 2) - f t y ≤ 2 * (f t (y - J) - f t (y - J + 1)))
    (hU' : ∀ y : Nat → ℤ, (∀ t < T, 2 ∣ y t) → (∀ t < T, y t = x t ∨ x t < y t ∧ y t < v t) → tot T f a b x ≤ tot T f a b y + E)
    (hD' : ∀ y : Nat → ℤ, (∀ t < T, 2 ∣ y t) → (∀ t < T, y t = x t ∨ v t < y t ∧ y t < x t) → tot T f a b x ≤ tot T f a b y + E) :
    tot T f a b (fun t => max (min (v t) (x t + 2)) (x t - 2)) ≤ tot T f a b v + 2 * E := by
  have h1 := near_clamp_up T f a b ha hb x v E hx hU hU'
  have h2 := near_clamp_down T f a b ha hb x (fun t => min (v t) (x t + 2)) E hx
    (fun t ht y J h1 h2 h3 h4 => hD t ht y J h1 h2 h3 (by omega))
    (fun y h1 h2 => hD' y h1 fun t ht => by have := h2 t ht; omega)
  linarith

end Prox
end Soco
