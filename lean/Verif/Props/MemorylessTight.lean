import Verif.Props.Memoryless
import Mathlib.Algebra.Order.Archimedean.Basic

/-! # C65: the ratio 5 of the memoryless algorithm cannot be improved -/

namespace Soco
namespace Descent
open Spec Num Lcp Work Mless

namespace MlessEx

/-- Slot `t` of a one-dimensional instance with hitting costs `φ`, bound `u` and switching cost 1. -/
def instU (u : ℚ) (φ : Int → ℚ → ℚ) (t : Nat) : Online (SSCO ℚ Unit Unit) where
  p :=
    { d := 1, tEnd := t, bounds := [u], switchingCost := [1]
      hittingCost := CostFn.new 1 (SingleCostFn.certain fun t x => .ok (Cost.raw ((φ t (x.headD 0) : ℚ) : ECost))) }
  w := 0

/-- The history of `n` slots. -/
def histU (u : ℚ) (φ : Int → ℚ → ℚ) (n : Nat) : List (Online (SSCO ℚ Unit Unit)) :=
  (List.range n).map fun i : Nat => instU u φ (i + 1)

theorem shownU (u : ℕ) (φ : Int → ℚ → ℚ) (n : Nat) :
    Shown [(u : ℚ)] 0 (fun t x => ((φ t (x.headD 0) : ℚ) : ECost)) (histU u φ n) where
  slot := by
    intro i o h
    simp only [histU, List.getElem?_map, Option.map_eq_some_iff] at h
    obtain ⟨j, h1, rfl⟩ := h
    have : j = i := by
      obtain ⟨_, h3⟩ := List.getElem?_eq_some_iff.1 h1
      simpa using h3.symm
    subst this
    simp [instU]
  usable := by
    intro o ho
    simp only [histU, List.mem_map] at ho
    obtain ⟨i, _, rfl⟩ := ho
    refine ⟨⟨rfl, rfl, ?_, ?_, ?_⟩, rfl, rfl⟩
    · intro v hv
      simp only [instU, List.mem_singleton] at hv
      subst hv
      exact ⟨by positivity, 100 * u, by push_cast; ring⟩
    · intro s hs _ x r h
      rw [instU, CostFn.callPredictive_certain _ _ hs] at h
      simp only [Except.map, Except.ok.injEq] at h
      rw [← h]; rfl
    · intro s hs _ x _
      exact ⟨.success (), by rw [instU, CostFn.callMean_certain _ _ hs]; rfl⟩

theorem movesU (u : ℚ) (φ : Int → ℚ → ℚ) (n : Nat) : ∀ o ∈ histU u φ n, o.p.switchingCost = [1] := by
  intro o ho
  simp only [histU, List.mem_map] at ho
  obtain ⟨i, _, rfl⟩ := ho
  rfl

theorem usableU (u : ℕ) (φ : Int → ℚ → ℚ) (n : Nat) :
    Usable (instU u φ (n + 1)).p (fun t x => ((φ t (x.headD 0) : ℚ) : ECost)) :=
  ((shownU u φ (n + 1)).usable _ (by
    rw [histU, List.range_succ, List.map_append]
    simp)).1

/-- In odd slots costs fall to zero at the bound `u`, in even slots they are zero at zero. -/
def pendulum (n : ℕ) (u : ℚ) (t : Int) (y : ℚ) : ℚ :=
  if t = 1 then 2 * (n - 1) * (u - y) else if t % 2 = 1 then 2 * (n - 2) * (u - y) else 2 * (n - 2) * y

theorem pendulum_moderate (n : ℕ) (hn : 3 ≤ n) (u : ℚ) (t : Int) : Moderate 0 u (2 * (n - 1)) (pendulum n u t) := by
  have h3 : (3 : ℚ) ≤ n := by exact_mod_cast hn
  have lin : ∀ s : ℚ, 0 ≤ s → s ≤ 2 * (n - 1) → ∀ d : ℚ, |s * d| ≤ 2 * (n - 1) * |d| := by
    intro s h0 h1 d
    rw [abs_mul, abs_of_nonneg h0]
    exact mul_le_mul_of_nonneg_right h1 (abs_nonneg d)
  constructor
  · intro x h0 h1
    unfold pendulum
    split_ifs
    · exact mul_nonneg (by linarith) (by linarith)
    · exact mul_nonneg (by linarith) (by linarith)
    · exact mul_nonneg (by linarith) h0
  · intro x y _ _ _ _ a _ _
    unfold pendulum
    split_ifs <;> exact le_of_eq (by ring)
  · intro x y _ _ _ _
    unfold pendulum
    split_ifs
    · rw [show 2 * ((n : ℚ) - 1) * (u - x) - 2 * (n - 1) * (u - y) = 2 * (n - 1) * -(x - y) by ring]
      exact (lin (2 * (n - 1)) (by linarith) le_rfl (-(x - y))).trans_eq (by rw [abs_neg])
    · rw [show 2 * ((n : ℚ) - 2) * (u - x) - 2 * (n - 2) * (u - y) = 2 * (n - 2) * -(x - y) by ring]
      exact (lin (2 * (n - 2)) (by linarith) (by linarith) (-(x - y))).trans_eq (by rw [abs_neg])
    · rw [← mul_sub]
      exact lin (2 * (n - 2)) (by linarith) (by linarith) (x - y)

/-- A schedule that repeats two configurations. -/
def swinging (a b : ℚ) : Nat → List ℚ
  | 0 => []
  | k + 1 => a :: b :: swinging a b k

theorem swinging_length (a b : ℚ) (k : Nat) : (swinging a b k).length = 2 * k := by
  induction k with
  | zero => rfl
  | succ k ih => simp [swinging, ih]; ring

theorem swinging_mem {a b : ℚ} {k : Nat} {j : ℚ} (h : j ∈ swinging a b k) : j = a ∨ j = b := by
  induction k with
  | zero => simp [swinging] at h
  | succ k ih =>
    simp only [swinging, List.mem_cons] at h
    tauto

end MlessEx

open MlessEx

theorem chosen_up {u s p x q : ℚ} {f : ℚ → ℚ} (hf : ∀ y, f y = s * (u - y)) (hs : 0 < s) (hx : Chosen u 1 f p x) (h1 : p ≤ q)
    (h0 : 0 ≤ q) (h2 : q ≤ u) (h3 : OnGrid q) (h4 : 2 * (q - p) = s * (u - q)) : x = q := by
  have b := hx.best q h0 h2 h3 (by rw [abs_of_nonneg (by linarith), hf, one_mul, h4])
  rw [hf, hf] at b
  have hle : q ≤ x := by
    by_contra hc
    push Not at hc
    nlinarith
  have r := hx.reach
  rw [abs_of_nonneg (by linarith), hf] at r
  nlinarith

theorem chosen_down {u s p x q : ℚ} {f : ℚ → ℚ} (hf : ∀ y, f y = s * y) (hs : 0 < s) (hx : Chosen u 1 f p x) (h1 : q ≤ p)
    (h0 : 0 ≤ q) (h2 : q ≤ u) (h3 : OnGrid q) (h4 : 2 * (p - q) = s * q) : x = q := by
  have b := hx.best q h0 h2 h3 (by rw [abs_of_nonpos (by linarith), hf]; linarith)
  rw [hf, hf] at b
  have hle : x ≤ q := by
    by_contra hc
    push Not at hc
    nlinarith
  have r := hx.reach
  rw [abs_of_nonpos (by linarith), hf] at r
  nlinarith

theorem onGrid_nat (g : ℕ) : OnGrid (g : ℚ) := ⟨100 * g, by push_cast; ring⟩

/-- The algorithm swings between `g` and `u - g`. -/
theorem pendulum_chain (n g : ℕ) (hn : 3 ≤ n) (hg : 1 ≤ g) (u : ℚ) (hu : u = (n : ℚ) * g) : ∀ (k : Nat) (i : Nat) (p : ℚ) (js : List ℚ),
    js.length = 2 * k → p = (if i = 0 then 0 else (g : ℚ)) → Chain u 1 (pendulum n u) (2 * i + 1 : Int) p js →
    js = swinging (u - g) g k ∧ 5 * ((n : ℚ) - 2) * g * k ≤ costQ (pendulum n u) 1 (2 * i + 1 : Int) p js := by
  have h3 : (3 : ℚ) ≤ n := by exact_mod_cast hn
  have hg' : (1 : ℚ) ≤ g := by exact_mod_cast hg
  have hug : OnGrid (u - g) := by
    rw [hu]
    exact ⟨100 * n * g - 100 * g, by push_cast; ring⟩
  have hng : 3 * (g : ℚ) ≤ u := by rw [hu]; nlinarith
  intro k
  induction k with
  | zero =>
    intro i p js hl _ _
    obtain rfl := List.length_eq_zero_iff.1 hl
    exact ⟨rfl, by simp [costQ]⟩
  | succ k ih =>
    intro i p js hl hp hc
    match js, hl, hc with
    | x :: y :: js, hl, ⟨hx, hy, hc⟩ =>
      have e1 : x = u - g := by
        by_cases hi : i = 0
        · subst hi
          rw [if_pos rfl] at hp
          subst hp
          refine chosen_up (s := 2 * ((n : ℚ) - 1)) (fun y => by simp [pendulum]) (by linarith) hx (by linarith) (by linarith)
            (by linarith) hug ?_
          rw [hu]; ring
        · rw [if_neg hi] at hp
          subst hp
          refine chosen_up (s := 2 * ((n : ℚ) - 2)) (fun y => ?_) (by linarith) hx (by linarith) (by linarith) (by linarith) hug ?_
          · rw [pendulum, if_neg (by omega), if_pos (by omega)]
          · rw [hu]; ring
      subst e1
      have e2 : y = g := by
        refine chosen_down (s := 2 * ((n : ℚ) - 2)) (fun y => ?_) (by linarith) hy (by linarith) (by linarith) (by linarith)
          (onGrid_nat g) ?_
        · rw [pendulum, if_neg (by omega), if_neg (by omega)]
        · rw [hu]; ring
      subst e2
      have et : (2 * (i : Int) + 1 + 1 + 1) = 2 * ((i + 1 : Nat) : Int) + 1 := by push_cast; ring
      rw [et] at hc
      obtain ⟨a1, a2⟩ := ih (i + 1) g js (by simpa [Nat.mul_succ] using hl) (by simp) hc
      refine ⟨by rw [swinging, ← a1], ?_⟩
      rw [costQ, costQ, et]
      have m1 : max 0 (u - g - p) = u - g - p := by
        rw [max_eq_right]
        rw [hp]; split_ifs <;> linarith
      have m2 : max 0 ((g : ℚ) - (u - g)) = 0 := max_eq_left (by linarith)
      rw [m1, m2]
      have f2 : pendulum n u (2 * (i : Int) + 1 + 1) g = 2 * (n - 2) * g := by
        rw [pendulum, if_neg (by omega), if_neg (by omega)]
      rw [f2]
      rw [Nat.cast_succ (R := ℚ) k]
      generalize costQ (pendulum n u) 1 (2 * ((i + 1 : Nat) : Int) + 1) g js = w at a2 ⊢
      by_cases hi : i = 0
      · subst hi
        rw [if_pos rfl] at hp
        have f1 : pendulum n u (2 * ((0 : Nat) : Int) + 1) (u - g) = 2 * (n - 1) * g := by
          simp [pendulum]
        rw [f1, hp, hu]
        nlinarith
      · rw [if_neg hi] at hp
        have f1 : pendulum n u (2 * (i : Int) + 1) (u - g) = 2 * (n - 2) * g := by
          rw [pendulum, if_neg (by omega), if_pos (by omega)]; ring
        rw [f1, hp, hu]
        nlinarith

theorem pendulum_follow (n : ℕ) (u : ℚ) (hu : 0 ≤ u) : ∀ (k i : Nat),
    costQ (pendulum n u) 1 (2 * i + 1 : Int) 0 (swinging u 0 k) = u * k := by
  intro k
  induction k with
  | zero => intro i; simp [swinging, costQ]
  | succ k ih =>
    intro i
    have et : (2 * (i : Int) + 1 + 1 + 1) = 2 * ((i + 1 : Nat) : Int) + 1 := by push_cast; ring
    rw [swinging, costQ, costQ, et, ih]
    have f1 : pendulum n u (2 * (i : Int) + 1) u = 0 := by
      unfold pendulum; split_ifs <;> first | omega | simp
    have f2 : pendulum n u (2 * (i : Int) + 1 + 1) 0 = 0 := by
      rw [pendulum, if_neg (by omega), if_neg (by omega)]; simp
    rw [f1, f2, max_eq_right (by linarith), max_eq_left (by linarith)]
    push_cast
    ring

/-- **C65** (the ratio of `C65_competitive_partial` is best possible). For every ratio `ρ` below five there is a bound `L` on the slopes
such that, whatever error `A` is allowed per slot and in addition, some instance with convex hitting costs of slopes up to `L`
makes the memoryless algorithm pay more than `ρ` times the cost of another schedule plus these errors, after every even number
of slots. -/
theorem C65_five_counterexample (S : Solver) (hS : Inner S) (hE : Exact S) (ρ : ℚ) (hρ : ρ < 5) :
    ∃ L : ℚ, ∀ A : ℚ, ∃ (u : ℕ) (φ : Int → ℚ → ℚ), (∀ t, Moderate 0 u L (φ t)) ∧ ∀ k : Nat, 1 ≤ k →
      ∃ (ys zs : Schedule ℚ) (a b : ℚ) (out out' : _),
        Run (fun p : SSCO ℚ Unit Unit => p.tEnd) (memoryless S) [] none (histU u φ (2 * k)) ys none ∧
        (instU u φ (2 * k)).p.toProb.objective ys = .ok ⟨(a : ECost), out⟩ ∧
        zs.length = 2 * k ∧ (∀ z ∈ zs, InBox [(u : ℚ)] z) ∧
        (instU u φ (2 * k)).p.toProb.objective zs = .ok ⟨(b : ECost), out'⟩ ∧
        ρ * b + A * (2 * k) + A < a := by
  obtain ⟨n, hn1, hn2⟩ : ∃ n : ℕ, 3 ≤ n ∧ 11 ≤ (5 - ρ) * n := by
    obtain ⟨m, hm⟩ := exists_nat_ge (11 / (5 - ρ))
    refine ⟨m + 3, by omega, ?_⟩
    rw [div_le_iff₀ (by linarith)] at hm
    push_cast
    nlinarith
  refine ⟨2 * (n - 1), fun A => ?_⟩
  obtain ⟨g0, hg0⟩ := exists_nat_gt (3 * |A|)
  obtain ⟨g, hg, hgA⟩ : ∃ g : ℕ, 1 ≤ g ∧ 3 * |A| < g := ⟨g0 + 1, by omega, by push_cast; linarith⟩
  obtain ⟨N, hN⟩ : ∃ N : ℕ, N = n * g := ⟨_, rfl⟩
  refine ⟨N, pendulum n (N : ℚ), pendulum_moderate n hn1 _, fun k hk => ?_⟩
  have hu : (N : ℚ) = (n : ℚ) * g := by rw [hN]; push_cast; ring
  have hu0 : (0 : ℚ) ≤ (N : ℚ) := by positivity
  obtain ⟨m, hm⟩ : ∃ m, 2 * k = m + 1 := ⟨2 * k - 1, by omega⟩
  obtain ⟨js, j1, j2, j3⟩ := chain_run S hS hE (N : ℚ) 1 hu0 _ (pendulum n (N : ℚ)) (fun _ _ _ _ => rfl)
    (fun t y a b => (pendulum_moderate n hn1 _ t).nonneg y a b) (histU (N : ℚ) (pendulum n (N : ℚ)) (2 * k)) [] 0 rfl le_rfl hu0 ⟨0, by simp⟩
    (by simpa using (shownU N _ (2 * k)).slot)
    (fun o ho => ⟨by simpa using (shownU N _ (2 * k)).usable o ho, movesU _ _ (2 * k) o ho⟩)
  have hlen : js.length = 2 * k := by rw [j2]; simp [histU]
  simp only [List.nil_append, List.length_nil, Nat.cast_zero, zero_add] at j1 j3
  obtain ⟨c1, c2⟩ := pendulum_chain n g hn1 hg _ hu k 0 0 js hlen (by simp) (by simpa using j3)
  have hg' : (1 : ℚ) ≤ g := by exact_mod_cast hg
  have h3 : (3 : ℚ) ≤ n := by exact_mod_cast hn1
  have hbox : ∀ j ∈ js, 0 ≤ j ∧ j ≤ (N : ℚ) := by
    intro j hj
    rw [c1] at hj
    rcases swinging_mem hj with rfl | rfl
    · rw [hu]; constructor <;> nlinarith
    · rw [hu]; constructor <;> nlinarith
  have hbox' : ∀ j ∈ swinging (N : ℚ) 0 k, 0 ≤ j ∧ j ≤ (N : ℚ) := by
    intro j hj
    rcases swinging_mem hj with rfl | rfl
    · exact ⟨hu0, le_rfl⟩
    · exact ⟨le_rfl, hu0⟩
  have hus : Usable (instU (N : ℚ) (pendulum n (N : ℚ)) (2 * k)).p
      (fun t x => ((pendulum n (N : ℚ) t (x.headD 0) : ℚ) : ECost)) := by
    rw [hm]; exact usableU N _ m
  obtain ⟨o, ho⟩ := objective_costQ _ (pendulum n (N : ℚ)) (N : ℚ) 1 (fun _ _ _ _ => rfl) _ hus rfl rfl js
    (by rw [hlen]; rfl) hbox
  obtain ⟨o', ho'⟩ := objective_costQ _ (pendulum n (N : ℚ)) (N : ℚ) 1 (fun _ _ _ _ => rfl) _ hus rfl rfl
    (swinging (N : ℚ) 0 k) (by rw [swinging_length]; rfl) hbox'
  refine ⟨_, _, _, _, o, o', j1, ho, by simp [swinging_length], ?_, ho', ?_⟩
  · intro z hz
    obtain ⟨j, hj, rfl⟩ := List.mem_map.1 hz
    exact .cons (hbox' j hj) .nil
  · have e := pendulum_follow n (N : ℚ) hu0 k 0
    simp only [Nat.cast_zero, mul_zero, zero_add] at e c2
    rw [e]
    refine lt_of_lt_of_le ?_ c2
    rw [hu]
    have hk' : (1 : ℚ) ≤ k := by exact_mod_cast hk
    have hA := le_abs_self A
    have hA0 := abs_nonneg A
    have s1 : A * (2 * k) + A ≤ 3 * |A| * k := by nlinarith
    have s2 : 3 * |A| * k < g * k := mul_lt_mul_of_pos_right hgA (by linarith)
    have s3 : (g : ℚ) * k ≤ ((5 - ρ) * n - 10) * (g * k) := by
      have : (0 : ℚ) ≤ g * k := by positivity
      nlinarith
    nlinarith

/-- Non-vacuity: exact optimisers exist. -/
example : ∃ S : Solver, Inner S ∧ Exact S := by
  obtain ⟨S, h1, h2⟩ := exists_exact
  exact ⟨S, h2, h1⟩

end Descent
end Soco
