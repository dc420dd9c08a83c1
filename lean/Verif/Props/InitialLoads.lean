import Verif.Model.Loads
import Mathlib.Algebra.BigOperators.Group.List.Lemmas
import Mathlib.Algebra.Order.BigOperators.Group.List
import Mathlib.Tactic.Linarith
import Mathlib.Tactic.FieldSimp
import Mathlib.Tactic.NormNum
import Mathlib.Tactic.Positivity
import Mathlib.Data.List.GetD

/-! # C40, C13: where the search for an assignment of loads starts, and means -/

namespace Soco

/-- **C13** (mean). The mean of numbers exists unless there are none; it times the number of numbers is their sum, and it lies between any two bounds of the numbers. -/
theorem C13_mean (xs : List ℚ) :
    (xs = [] → meanQ xs = .error .panic) ∧
    (xs ≠ [] → ∃ m, meanQ xs = .ok m ∧ m * (xs.length : ℚ) = xs.sum ∧
      ∀ a b : ℚ, (∀ x ∈ xs, a ≤ x ∧ x ≤ b) → a ≤ m ∧ m ≤ b) := by
  constructor
  · rintro rfl
    rfl
  · intro h
    have hpos : (0 : ℚ) < xs.length := by exact_mod_cast List.length_pos_iff.2 h
    have he : xs.isEmpty = false := by simpa using h
    refine ⟨xs.sum / xs.length, by simp [meanQ, he], by field_simp, fun a b hab => ?_⟩
    have h1 := List.card_nsmul_le_sum xs a fun x hx => (hab x hx).1
    have h2 := List.sum_le_card_nsmul xs b fun x hx => (hab x hx).2
    rw [nsmul_eq_mul] at h1 h2
    constructor
    · rw [le_div_iff₀ hpos]; linarith
    · rw [div_le_iff₀ hpos]; linarith

section
variable {T : Type} [Value T]

/-- The `k`-th block of the fractions. -/
theorem flatMap_replicate_getD {α : Type} (g : α → ℚ) (e i : Nat) (hi : i < e) : ∀ (xs : List α) (k : Nat) (a : α), xs[k]? = some a →
    (xs.flatMap fun j => List.replicate e (g j)).getD (k * e + i) 0 = g a
  | [], _, _, h => by simp at h
  | x :: xs, 0, a, h => by
    simp only [List.getElem?_cons_zero, Option.some.injEq] at h
    subst h
    rw [List.flatMap_cons, List.getD_append _ _ _ _ (by simp; omega)]
    simp [List.getD_eq_getElem?_getD, List.getElem?_replicate, hi]
  | x :: xs, k + 1, a, h => by
    rw [List.getElem?_cons_succ] at h
    rw [List.flatMap_cons, List.getD_append_right _ _ _ _ (by simp; nlinarith)]
    simp only [List.length_replicate]
    rw [show (k + 1) * e + i - e = k * e + i from by
      have : (k + 1) * e = k * e + e := by ring
      omega]
    exact flatMap_replicate_getD g e i hi xs k a h

theorem sum_ite_count (c : ℚ) (p : T → Bool) : ∀ xs : List T, (xs.map fun j => if p j then c else 0).sum = ((xs.filter p).length : ℚ) * c
  | [] => by simp
  | x :: xs => by
    rw [List.map_cons, List.sum_cons, sum_ite_count c p xs]
    by_cases h : p x
    · simp [h]; ring
    · simp [h]

theorem range_map_getElem {α : Type} (f : α → ℚ) (xs : List α) (g : Nat → ℚ) (h : ∀ k a, xs[k]? = some a → g k = f a) :
    (List.range xs.length).map g = xs.map f := by
  apply List.ext_getElem
  · simp
  · intro n h1 h2
    simp only [List.getElem_map, List.getElem_range]
    exact h n _ (List.getElem?_eq_getElem (by simpa using h2))

/-- **C40** (start of the search). If some server is active, then the search for an assignment of `e ≥ 1` types of jobs starts with fractions between 0 and 1 which give nothing to
types without active servers, the same fraction `1 / (n e)` to all others, where `n` is the number of types with active servers, and which sum, for each type of jobs, to
`1 / e` if the last type is not active, and to `(n - 1) / (n e)` otherwise. In particular no type of jobs is distributed more than once. -/
theorem C40_initial (e : Nat) (he : 1 ≤ e) (x : Config T) (last : T) (butlast : List T) (hx : x = butlast ++ [last]) (hpos : ∀ j ∈ x, 0 ≤ j)
    (hact : ∃ j ∈ x, 0 < j) :
    let n := (x.filter fun j => decide (0 < j)).length
    let z := initialFractions (butlast.length * e) e x
    z.length = butlast.length * e ∧
    (∀ k i j, i < e → butlast[k]? = some j → z.getD (k * e + i) 0 = if 0 < j then 1 / ((n : ℚ) * e) else 0) ∧
    (∀ v ∈ z, 0 ≤ v ∧ v ≤ 1) ∧
    ∀ i, i < e → ((List.range butlast.length).map fun k => z.getD (k * e + i) 0).sum =
      if 0 < last then ((n : ℚ) - 1) / (n * e) else 1 / e := by
  have hn : 0 < (x.filter fun j => decide (0 < j)).length := by
    obtain ⟨j, h1, h2⟩ := hact
    exact List.length_pos_of_mem (List.mem_filter.2 ⟨h1, by simpa using h2⟩)
  have hz : initialFractions (butlast.length * e) e x = butlast.flatMap fun j => List.replicate e
      (if 0 < j then 1 / (((x.filter fun j => decide (0 < j)).length : ℚ) * e) else 0) := by
    unfold initialFractions
    have h0 : (x.filter fun j => decide (j > 0)).length ≠ 0 := hn.ne'
    rw [if_neg h0, hx, List.dropLast_concat]
    apply List.flatMap_congr
    intro j hj
    have := hpos j (by rw [hx]; exact List.mem_append_left _ hj)
    congr 1
    by_cases hj0 : j = 0
    · rw [if_pos hj0, if_neg (by rw [hj0]; exact lt_irrefl _)]
    · rw [if_neg hj0, if_pos (lt_of_le_of_ne this (Ne.symm hj0))]
  intro n z
  have hnn : (0 : ℚ) < n := by exact_mod_cast hn
  have hn1 : (1 : ℚ) ≤ n := by exact_mod_cast hn
  have hee : (1 : ℚ) ≤ e := by exact_mod_cast he
  have hget : ∀ k i j, i < e → butlast[k]? = some j → z.getD (k * e + i) 0 = if 0 < j then 1 / ((n : ℚ) * e) else 0 := by
    intro k i j hi hj
    show (initialFractions (butlast.length * e) e x).getD _ _ = _
    rw [hz]
    exact flatMap_replicate_getD (fun j => if 0 < j then 1 / ((n : ℚ) * e) else 0) e i hi butlast k j hj
  refine ⟨?_, hget, ?_, ?_⟩
  · show (initialFractions (butlast.length * e) e x).length = _
    rw [hz]
    simp [List.length_flatMap]
  · intro v hv
    have hv' : v ∈ initialFractions (butlast.length * e) e x := hv
    rw [hz, List.mem_flatMap] at hv'
    obtain ⟨j, -, hj⟩ := hv'
    rw [(List.mem_replicate.1 hj).2]
    split
    · refine ⟨by positivity, ?_⟩
      rw [div_le_one (by positivity)]
      have : (1 : ℚ) * 1 ≤ n * e := mul_le_mul hn1 hee (by norm_num) (by positivity)
      linarith
    · exact ⟨le_rfl, zero_le_one⟩
  · intro i hi
    rw [range_map_getElem (fun j => if decide (0 < j) then 1 / ((n : ℚ) * e) else 0) butlast _ fun k a ha => by
      rw [hget k i a hi ha]; simp only [decide_eq_true_eq]]
    rw [sum_ite_count]
    have hcount : (n : ℚ) = ((butlast.filter fun j => decide (0 < j)).length : ℚ) + (if 0 < last then 1 else 0) := by
      show (((x.filter fun j => decide (0 < j)).length : Nat) : ℚ) = _
      rw [hx, List.filter_append]
      by_cases h : 0 < last <;> simp [h]
    by_cases h : 0 < last
    · rw [if_pos h] at hcount ⊢
      rw [hcount]
      ring
    · rw [if_neg h, add_zero] at hcount
      rw [if_neg h, ← hcount]
      field_simp

/-- If no server is active, all fractions are the same, and the fractions of all types of servers together are less than 1. -/
theorem C40_initial_idle (d e : Nat) (he : 1 ≤ e) (x : Config T) (hidle : ∀ j ∈ x, ¬ 0 < j) :
    initialFractions (d * e) e x = List.replicate (d * e) (1 / ((d : ℚ) * e + e)) ∧ (initialFractions (d * e) e x).sum < 1 := by
  have h0 : (x.filter fun j => decide (j > 0)).length = 0 := by
    rw [List.length_eq_zero_iff, List.filter_eq_nil_iff]
    intro j hj
    simpa using hidle j hj
  have hee : (0 : ℚ) < e := by exact_mod_cast he
  have h1 : initialFractions (d * e) e x = List.replicate (d * e) (1 / ((d : ℚ) * e + e)) := by
    unfold initialFractions
    rw [if_pos h0]
    push_cast
    rfl
  refine ⟨h1, ?_⟩
  rw [h1, List.sum_replicate, nsmul_eq_mul]
  push_cast
  rw [mul_one_div, div_lt_one (by positivity)]
  linarith

end

/-- Non-vacuity of `C40_initial`: three types of servers, one of them idle, and two types of jobs. -/
example : (0 : ℚ) ≤ 3 ∧ initialFractions (2 * 2) 2 ([3, 0, 1] : Config ℤ) = [1 / 4, 1 / 4, 0, 0] := by
  refine ⟨by norm_num, ?_⟩
  simp [initialFractions]
  norm_num

/-- **C40 is false of the starting point**: it need not be feasible. The search is restricted to assignments that leave a non-negative share of each type of jobs
to the last type of servers. With loads 1 and 9 and two types of servers with one active server each, the search starts with giving 1/4 of all jobs, as jobs of the
first kind, to the first type of servers, although only 1/10 of the jobs are of this kind. -/
theorem C40_initial_counterexample :
    ∃ v : ℚ, (LoadFractions.mk (initialFractions (1 * 2) 2 ([1, 1] : Config ℤ)) 2 2).get 1 0 [1, 9] = .ok v ∧ v < 0 := by
  refine ⟨1 / 10 - 1 / 4, ?_, by norm_num⟩
  have h : initialFractions (1 * 2) 2 ([1, 1] : Config ℤ) = [1 / 4, 1 / 4] := by
    simp [initialFractions]
    norm_num
  rw [h]
  simp [LoadFractions.get, idx, sumM, bind, Except.bind]
  norm_num

end Soco
