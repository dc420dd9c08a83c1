import Verif.Spec.DataCenter
import Verif.Props.Results
import Verif.Props.Numerics
import Verif.Props.CostFn
import Verif.Props.Utils
import Mathlib.Tactic.Linarith
import Mathlib.Tactic.NormNum
import Mathlib.Tactic.FieldSimp
import Mathlib.Tactic.Ring
import Mathlib.Algebra.BigOperators.Group.List.Basic
import Mathlib.Algebra.Order.BigOperators.Group.List

/-!
# C40: load balancing
-/

namespace Soco

/-- The fraction of type `i` assigned to dimension `k`. -/
def LoadFractions.fr (z : LoadFractions) (lambda : LoadProfile) (k i : Nat) : ℚ :=
  if k < z.d - 1 then z.zs.getD (k * z.e + i) 0
  else if lambda.sum > 0 then
    lambda.getD i 0 / lambda.sum - ((List.range k).map fun j => z.zs.getD (j * z.e + i) 0).sum
  else 0

theorem idx_getD {α : Type} (xs : List α) (i : Nat) (h : i < xs.length) (a : α) : idx xs i = .ok (xs.getD i a) := by
  rw [idx_ok_iff, List.getElem?_eq_getElem h]
  simp [List.getD, List.getElem?_eq_getElem h]

theorem flat_lt (n e k i : Nat) (hk : k < n) (hi : i < e) : k * e + i < n * e := by
  calc k * e + i < k * e + e := by omega
    _ = (k + 1) * e := by rw [Nat.add_mul, Nat.one_mul]
    _ ≤ n * e := Nat.mul_le_mul_right e hk

theorem LoadFractions.get_eq (z : LoadFractions) (lambda : LoadProfile) (hz : z.zs.length = (z.d - 1) * z.e)
    (hl : lambda.length = z.e) (k i : Nat) (hk : k < z.d) (hi : i < z.e) :
    z.get k i lambda = .ok (z.fr lambda k i) := by
  unfold LoadFractions.get LoadFractions.fr
  rw [if_neg (by omega)]
  by_cases h1 : k < z.d - 1
  · rw [if_pos h1, if_pos h1]
    exact idx_getD _ _ (by rw [hz]; exact flat_lt _ _ _ _ h1 hi) 0
  · rw [if_neg h1, if_neg h1, if_pos (by omega)]
    split
    · rw [sumM_ok_of (fun j => z.zs.getD (j * z.e + i) 0), idx_getD _ _ (by omega) 0]
      · rfl
      · intro j hj
        rw [List.mem_range] at hj
        exact idx_getD _ _ (by rw [hz]; exact flat_lt _ _ _ _ (by omega) hi) 0
    · rfl

theorem LoadFractions.selectLoads_eq (z : LoadFractions) (lambda : LoadProfile)
    (hz : z.zs.length = (z.d - 1) * z.e) (hl : lambda.length = z.e) (k : Nat) (hk : k < z.d) :
    z.selectLoads lambda k = .ok ((List.range z.e).map fun i => lambda.getD i 0 * z.fr lambda k i) := by
  unfold LoadFractions.selectLoads
  apply mapM_ok_of
  intro i hi
  rw [List.mem_range] at hi
  rw [z.get_eq lambda hz hl k i hk hi, idx_getD _ _ (by omega) 0]
  rfl

theorem LoadFractions.fr_sum (z : LoadFractions) (lambda : LoadProfile) (hd : 1 ≤ z.d) (hpos : 0 < lambda.sum)
    (i : Nat) : ((List.range z.d).map fun k => z.fr lambda k i).sum = lambda.getD i 0 / lambda.sum := by
  obtain ⟨n, hn⟩ : ∃ n, z.d = n + 1 := ⟨z.d - 1, by omega⟩
  rw [hn, List.range_succ, List.map_append, List.sum_append]
  have h1 : (List.range n).map (fun k => z.fr lambda k i) =
      (List.range n).map fun j => z.zs.getD (j * z.e + i) 0 := by
    apply List.map_congr_left
    intro k hk
    rw [List.mem_range] at hk
    unfold LoadFractions.fr
    rw [if_pos (by omega)]
  rw [h1]
  simp only [List.map_cons, List.map_nil, List.sum_cons, List.sum_nil, LoadFractions.fr]
  rw [if_neg (by omega), if_pos hpos]
  ring

theorem map_mul_left_sum {ι : Type} (xs : List ι) (c : ℚ) (f : ι → ℚ) :
    (xs.map fun x => c * f x).sum = c * (xs.map f).sum := by
  induction xs with
  | nil => simp
  | cons x xs ih => simp [ih, mul_add]

/-- **C40** (partial) The loads of type `i` assigned to all dimensions sum up to the share `λᵢ / Λ` of the load `λᵢ`
of this type, where `Λ` is the total load. -/
theorem C40_assigned_partial (z : LoadFractions) (lambda : LoadProfile) (hd : 1 ≤ z.d)
    (hz : z.zs.length = (z.d - 1) * z.e) (hl : lambda.length = z.e) (hpos : 0 < lambda.sum) :
    ∃ loads : List LoadProfile, (List.range z.d).mapM (z.selectLoads lambda) = .ok loads ∧
      ∀ i, i < z.e → (loads.map fun l => l.getD i 0).sum = lambda.getD i 0 * (lambda.getD i 0 / lambda.sum) := by
  refine ⟨(List.range z.d).map fun k => (List.range z.e).map fun i => lambda.getD i 0 * z.fr lambda k i, ?_, ?_⟩
  · apply mapM_ok_of
    intro k hk
    rw [List.mem_range] at hk
    exact z.selectLoads_eq lambda hz hl k hk
  · intro i hi
    rw [List.map_map]
    have h1 : (List.range z.d).map ((fun l : LoadProfile => l.getD i 0) ∘
          fun k => (List.range z.e).map fun i => lambda.getD i 0 * z.fr lambda k i) =
        (List.range z.d).map fun k => lambda.getD i 0 * z.fr lambda k i := by
      apply List.map_congr_left
      intro k _
      simp [List.getD, List.getElem?_map, List.getElem?_range hi]
    rw [h1, map_mul_left_sum (List.range z.d) (lambda.getD i 0) (fun k => z.fr lambda k i),
      z.fr_sum lambda hd hpos i]

/-- **C40** With a single type of jobs the assigned loads sum up to the load. -/
theorem C40_conservation_single (z : LoadFractions) (l : ℚ) (hd : 1 ≤ z.d) (he : z.e = 1)
    (hz : z.zs.length = z.d - 1) (hpos : 0 < l) :
    ∃ loads : List LoadProfile, (List.range z.d).mapM (z.selectLoads [l]) = .ok loads ∧
      (loads.map fun l => l.getD 0 0).sum = l := by
  obtain ⟨loads, h1, h2⟩ := C40_assigned_partial z [l] hd (by rw [he, hz]; simp) (by simp [he]) (by simpa using hpos)
  refine ⟨loads, h1, ?_⟩
  rw [h2 0 (by omega)]
  simp only [List.getD_cons_zero, List.sum_cons, List.sum_nil, add_zero]
  rw [div_self hpos.ne', mul_one]

example : ((List.range 3).mapM (LoadFractions.selectLoads ⟨[1 / 2, 1 / 4], 3, 1⟩ [8])).toOption = some [[4], [2], [2]] := by
  decide +kernel

/-- Load of a type is lost exactly if other types have load too. -/
theorem C40_conserved_iff (z : LoadFractions) (lambda : LoadProfile) (hd : 1 ≤ z.d)
    (hz : z.zs.length = (z.d - 1) * z.e) (hl : lambda.length = z.e) (hpos : 0 < lambda.sum) (i : Nat) (hi : i < z.e)
    (loads : List LoadProfile) (h : (List.range z.d).mapM (z.selectLoads lambda) = .ok loads) :
    (loads.map fun l => l.getD i 0).sum = lambda.getD i 0 ↔
      lambda.getD i 0 = 0 ∨ lambda.getD i 0 = lambda.sum := by
  obtain ⟨loads', h1, h2⟩ := C40_assigned_partial z lambda hd hz hl hpos
  rw [h] at h1; cases h1
  rw [h2 i hi]
  constructor
  · intro h3
    by_cases h4 : lambda.getD i 0 = 0
    · exact .inl h4
    · right
      have h5 : lambda.getD i 0 * (lambda.getD i 0 / lambda.sum) = lambda.getD i 0 * 1 := by rw [h3, mul_one]
      have h6 := mul_left_cancel₀ h4 h5
      rwa [div_eq_one_iff_eq hpos.ne'] at h6
  · rintro (h3 | h3)
    · rw [h3]; simp
    · rw [h3, div_self hpos.ne', mul_one]

/-- Two types with one unit of load each on a single server type: half of the load is assigned. -/
theorem C40_two_types_counterexample :
    ((List.range 1).mapM (LoadFractions.selectLoads ⟨[], 1, 2⟩ [1, 1])).toOption = some [[1 / 2, 1 / 2]] := by
  decide +kernel

/-! ## Non-negativity -/

/-- Rounded fractions are multiples of the precision. -/
theorem range_sum_precision (z : List ℚ) (hz : ∀ q ∈ z, ∃ n : ℤ, q = n * Num.precision) (m : Nat) :
    ∃ n : ℤ, ((List.range m).map fun j => z.getD j 0).sum = n * Num.precision := by
  induction m with
  | zero => exact ⟨0, by simp⟩
  | succ m ih =>
    obtain ⟨n, hn⟩ := ih
    have : ∃ n : ℤ, z.getD m 0 = n * Num.precision := by
      by_cases h : m < z.length
      · have h2 : z.getD m 0 = z[m] := by simp [List.getD, h]
        rw [h2]; exact hz _ (List.getElem_mem h)
      · refine ⟨0, ?_⟩
        simp only [List.getD, List.getElem?_eq_none (Nat.le_of_not_lt h), Option.getD_none]
        push_cast; ring
    obtain ⟨n', hn'⟩ := this
    refine ⟨n + n', ?_⟩
    rw [List.range_succ, List.map_append, List.sum_append, hn]
    simp only [List.map_cons, List.map_nil, List.sum_cons, List.sum_nil, hn']
    push_cast; ring

/-- **C40** For a single type, an assignment by the solver within its bounds and, up to the tolerance, its constraint
assigns a non-negative load to every dimension. -/
theorem C40_nonneg_single (zs : List ℚ) (d : Nat) (l : ℚ) (hd : 1 ≤ d) (hz : zs.length = d - 1) (hpos : 0 < l)
    (hbox : ∀ q ∈ zs, 0 ≤ q) (c : ℚ)
    (hc : (LoadFractions.new zs d 1).get (d - 1) 0 [l] = .ok c) (htol : -c ≤ Num.tolerance)
    (k : Nat) (hk : k < d) (loads : LoadProfile) (h : (LoadFractions.new zs d 1).selectLoads [l] k = .ok loads) :
    ∀ q ∈ loads, 0 ≤ q := by
  have hlen : (LoadFractions.new zs d 1).zs.length = (d - 1) * 1 := by
    simp [LoadFractions.new, Num.applyPrecisionVec, hz]
  have hmul : ∀ q ∈ (LoadFractions.new zs d 1).zs, ∃ n : ℤ, q = n * Num.precision := by
    intro q hq
    simp only [LoadFractions.new, Num.applyPrecisionVec, List.mem_map] at hq
    obtain ⟨a, _, rfl⟩ := hq
    exact ⟨_, rfl⟩
  have hnn : ∀ q ∈ (LoadFractions.new zs d 1).zs, 0 ≤ q := by
    intro q hq
    simp only [LoadFractions.new, Num.applyPrecisionVec, List.mem_map] at hq
    obtain ⟨a, ha, rfl⟩ := hq
    have := (Num.C48_apply_precision 0 a).2.1 (hbox a ha)
    rwa [show Num.applyPrecision 0 = 0 by decide +kernel] at this
  rw [(LoadFractions.new zs d 1).get_eq [l] hlen rfl (d - 1) 0 (show d - 1 < d by omega) Nat.zero_lt_one] at hc
  rw [(LoadFractions.new zs d 1).selectLoads_eq [l] hlen rfl k hk] at h
  cases h
  cases hc
  have key : 0 ≤ (LoadFractions.new zs d 1).fr [l] k 0 := by
    by_cases h1 : k < d - 1
    · have : (LoadFractions.new zs d 1).fr [l] k 0 = (LoadFractions.new zs d 1).zs.getD (k * 1 + 0) 0 := by
        unfold LoadFractions.fr
        exact if_pos h1
      rw [this]
      have h2 : k < (LoadFractions.new zs d 1).zs.length := by rw [hlen]; omega
      simp only [List.getD, Nat.mul_one, Nat.add_zero, List.getElem?_eq_getElem h2, Option.getD_some]
      exact hnn _ (List.getElem_mem h2)
    · have hkd : k = d - 1 := by omega
      subst hkd
      obtain ⟨n, hn⟩ := range_sum_precision _ hmul (d - 1)
      have e : (LoadFractions.new zs d 1).fr [l] (d - 1) 0 = ((100 - n : ℤ) : ℚ) * Num.precision := by
        unfold LoadFractions.fr
        refine (if_neg (show ¬ d - 1 < d - 1 from by omega)).trans ?_
        refine (if_pos (by simpa using hpos)).trans ?_
        have : (List.range (d - 1)).map (fun j => (LoadFractions.new zs d 1).zs.getD
            (j * (LoadFractions.new zs d 1).e + 0) 0) = (List.range (d - 1)).map fun j =>
              (LoadFractions.new zs d 1).zs.getD j 0 := by
          apply List.map_congr_left
          intro j _
          show (LoadFractions.new zs d 1).zs.getD (j * 1 + 0) 0 = _
          rw [Nat.mul_one, Nat.add_zero]
        rw [this, hn]
        simp only [List.getD_cons_zero, List.sum_cons, List.sum_nil, add_zero]
        rw [div_self hpos.ne']
        unfold Num.precision; push_cast; ring
      rw [e] at htol ⊢
      exact Num.nonneg_of_tolerance _ htol
  intro q hq
  simp only [List.mem_map, List.mem_range] at hq
  obtain ⟨i, hi, rfl⟩ := hq
  have hi0 : i = 0 := by have : i < 1 := hi; omega
  subst hi0
  exact mul_nonneg (by simpa using hpos.le) key

end Soco
