import Verif.Model.LazyBudgeting
import Verif.Props.Results
import Mathlib.Data.List.Induction
import Mathlib.Data.List.Count
import Mathlib.Data.List.GetD
import Mathlib.Algebra.Order.BigOperators.Group.List
import Mathlib.Algebra.Order.Ring.Int
import Mathlib.Tactic.Linarith

/-!
# C33: lanes and configurations
-/

namespace Soco
namespace Lb

/-- Number of servers of the types `j, j + 1, …` (types start at 1). -/
def tailSum (x : Config ℤ) (j : Nat) : ℤ := (x.drop (j - 1)).sum

theorem activeLanes_eq (x : Config ℤ) (j n : Nat) (hj : 1 ≤ j) (hn : j - 1 + n = x.length) :
    activeLanes x j n = .ok (tailSum x j) := by
  unfold activeLanes tailSum
  have h := sumM_ok_of (ε := Fault) (f := fun k => idx x (k - 1)) (xs := List.range' j n) (fun k => x.getD (k - 1) 0) (by
    intro k hk
    rw [List.mem_range'_1] at hk
    rw [idx_ok_iff, List.getD_eq_getElem?_getD, List.getElem?_eq_getElem (by omega)]
    rfl)
  rw [h]
  congr 2
  apply List.ext_getElem
  · simp; omega
  · intro i h1 h2
    simp only [List.getElem_map, List.getElem_range', List.getElem_drop]
    rw [List.getD_eq_getElem _ _ (by simp at h1 h2; omega)]
    congr 1
    omega

theorem tailSum_antitone (x : Config ℤ) (hx : ∀ i ∈ x, 0 ≤ i) {j j' : Nat} (h : j ≤ j') :
    tailSum x j' ≤ tailSum x j := by
  unfold tailSum
  have : x.drop (j' - 1) = (x.drop (j - 1)).drop (j' - 1 - (j - 1)) := by
    rw [List.drop_drop]; congr 1; omega
  rw [this]
  generalize j' - 1 - (j - 1) = n
  have hy : ∀ i ∈ x.drop (j - 1), 0 ≤ i := fun i hi => hx i (List.mem_of_mem_drop hi)
  generalize x.drop (j - 1) = y at hy ⊢
  have h2 : y.sum = (y.take n).sum + (y.drop n).sum := by
    rw [← List.sum_append, List.take_append_drop]
  have h3 : 0 ≤ (y.take n).sum := List.sum_nonneg fun i hi => hy i (List.mem_of_mem_take hi)
  omega

theorem tailSum_nonneg (x : Config ℤ) (hx : ∀ i ∈ x, 0 ≤ i) (j : Nat) : 0 ≤ tailSum x j :=
  List.sum_nonneg fun i hi => hx i (List.mem_of_mem_drop hi)

theorem tailSum_step (x : Config ℤ) (i : Nat) (hi : i < x.length) :
    tailSum x (i + 1) = x[i] + tailSum x (i + 2) := by
  unfold tailSum
  simp only [Nat.add_sub_cancel]
  rw [List.drop_eq_getElem_cons hi, List.sum_cons]
  rfl

theorem tailSum_one (x : Config ℤ) : tailSum x 1 = x.sum := by simp [tailSum]

theorem tailSum_zero_of_lt (x : Config ℤ) (j : Nat) (h : x.length < j) : tailSum x j = 0 := by
  unfold tailSum
  rw [List.drop_eq_nil_of_le (by omega)]
  rfl

/-- The lane with index `k` is handled by the last type with more than `k` servers of this and later types. -/
theorem buildLane_ok (x : Config ℤ) (hx : ∀ i ∈ x, 0 ≤ i) (k : Nat) :
    ∃ lane, buildLane x x.length k = .ok lane ∧ lane ≤ x.length ∧
      ∀ j, 1 ≤ j → (j ≤ lane ↔ (k : ℤ) + 1 ≤ tailSum x j) := by
  have key : ∀ n, n ≤ x.length → ∃ lane,
      (List.range' 1 n).foldlM (fun lane j => do
        let a ← activeLanes x j (x.length + 1 - j)
        .ok (if a ≥ (k : ℤ) + 1 then j else lane)) 0 = (.ok lane : Res Nat) ∧ lane ≤ n ∧
      ∀ j, 1 ≤ j → j ≤ n → (j ≤ lane ↔ (k : ℤ) + 1 ≤ tailSum x j) := by
    intro n
    induction n with
    | zero => intro _; exact ⟨0, rfl, le_refl _, by omega⟩
    | succ n ih =>
      intro hn
      obtain ⟨lane, h1, h2, h3⟩ := ih (by omega)
      have hr : List.range' 1 (n + 1) = List.range' 1 n ++ [n + 1] := by
        rw [List.range'_concat]; simp [Nat.add_comm]
      have ha := activeLanes_eq x (n + 1) (x.length + 1 - (n + 1)) (by omega) (by omega)
      by_cases hs : (k : ℤ) + 1 ≤ tailSum x (n + 1)
      · refine ⟨n + 1, ?_, le_refl _, ?_⟩
        · rw [hr, List.foldlM_append, h1]
          simp only [bind, Except.bind, List.foldlM_cons, List.foldlM_nil, ha, ge_iff_le, hs, if_true]
          rfl
        · intro j hj hj'
          exact ⟨fun _ => le_trans hs (tailSum_antitone x hx hj'), fun _ => hj'⟩
      · refine ⟨lane, ?_, by omega, ?_⟩
        · rw [hr, List.foldlM_append, h1]
          simp only [bind, Except.bind, List.foldlM_cons, List.foldlM_nil, ha, ge_iff_le, hs, if_false]
          rfl
        · intro j hj hj'
          by_cases h : j = n + 1
          · subst h
            exact ⟨fun h => by omega, fun h => absurd h hs⟩
          · exact h3 j hj (by omega)
  obtain ⟨lane, h1, h2, h3⟩ := key x.length (le_refl _)
  refine ⟨lane, h1, h2, fun j hj => ?_⟩
  by_cases h : j ≤ x.length
  · exact h3 j hj h
  · rw [tailSum_zero_of_lt x j (by omega)]
    omega

/-- A downward closed predicate holds exactly below the number of indices it holds for. -/
theorem countP_range_closed (P : Nat → Bool) (m : Nat) (h : ∀ i j, i ≤ j → j < m → P j → P i) :
    (List.range m).countP P ≤ m ∧ ∀ j, j < m → (P j ↔ j < (List.range m).countP P) := by
  induction m with
  | zero => simp
  | succ m ih =>
    obtain ⟨h1, h2⟩ := ih fun i j hij hj => h i j hij (by omega)
    rw [List.range_succ, List.countP_append, List.countP_singleton]
    by_cases hm : P m = true
    · have hall : (List.range m).countP P = m := by
        have : (List.range m).countP P = (List.range m).length :=
          List.countP_eq_length.2 fun i hi => by
            rw [List.mem_range] at hi
            exact h i m (by omega) (by omega) hm
        simpa using this
      rw [hall, if_pos hm]
      refine ⟨le_refl _, fun j hj => ?_⟩
      exact ⟨fun _ => hj, fun _ => h j m (by omega) (by omega) hm⟩
    · rw [if_neg hm]
      refine ⟨by omega, fun j hj => ?_⟩
      by_cases hjm : j = m
      · subst hjm
        exact ⟨fun h => absurd h hm, fun h => by omega⟩
      · exact h2 j (by omega)

theorem countP_range_lt (m n : Nat) (P : Nat → Bool) (h : ∀ j, j < m → (P j ↔ j < n)) (hn : n ≤ m) :
    (List.range m).countP P = n := by
  obtain ⟨h1, h2⟩ := countP_range_closed P m fun i j hij hj hP =>
    (h i (by omega)).2 (by have := (h j hj).1 hP; omega)
  by_contra hne
  rcases Nat.lt_or_gt_of_ne hne with hlt | hlt
  · have := (h _ (by omega)).2 hlt
    exact absurd ((h2 _ (by omega)).1 this) (by omega)
  · have h3 := (h2 n (by omega)).2 hlt
    exact absurd ((h n (by omega)).1 h3) (by omega)

/-- Lanes given by a non-increasing function. -/
theorem countP_ge_eq (m : Nat) (L : Nat → Nat) (k : Nat) :
    ((List.range m).map L).count k + (List.range m).countP (fun j => decide (k + 1 ≤ L j)) =
      (List.range m).countP fun j => decide (k ≤ L j) := by
  rw [List.count, List.countP_map]
  induction m with
  | zero => rfl
  | succ m ih =>
    simp only [List.range_succ, List.countP_append, List.countP_singleton, Function.comp]
    generalize (List.range m).countP ((fun x => x == k) ∘ L) = A at ih ⊢
    by_cases h1 : k ≤ L m
    · by_cases h2 : k + 1 ≤ L m
      · have h3 : ¬ L m = k := by omega
        simp [h1, h2, h3]; omega
      · have h3 : L m = k := by omega
        simp [h3]; omega
    · have h2 : ¬ k + 1 ≤ L m := by omega
      have h3 : ¬ L m = k := by omega
      simp [h1, h2, h3]; omega

/-- Building the lanes of a configuration within the capacity. -/
theorem buildLanes_ok (x : Config ℤ) (hx : ∀ i ∈ x, 0 ≤ i) (m : Nat) (hm : x.sum ≤ m) :
    ∃ L : Nat → Nat, buildLanes x x.length m = .ok ((List.range m).map L) ∧ (∀ k, L k ≤ x.length) ∧
      (∀ k j, 1 ≤ j → (j ≤ L k ↔ (k : ℤ) + 1 ≤ tailSum x j)) := by
  choose L hL using buildLane_ok x hx
  refine ⟨L, ?_, fun k => (hL k).2.1, fun k => (hL k).2.2⟩
  unfold buildLanes
  apply mapM_ok_of
  intro k _
  have ha := activeLanes_eq x 1 x.length (le_refl _) (by omega)
  simp only [ha, bind, Except.bind]
  by_cases h : (k : ℤ) + 1 ≤ tailSum x 1
  · rw [if_pos h, (hL k).1]
  · rw [if_neg h]
    have : ¬ 1 ≤ L k := fun h' => h (((hL k).2.2 1 (le_refl _)).1 h')
    congr 1
    omega

theorem L_antitone {x : Config ℤ} {L : Nat → Nat} (h : ∀ k j, 1 ≤ j → (j ≤ L k ↔ (k : ℤ) + 1 ≤ tailSum x j))
    {i j : Nat} (hij : i ≤ j) : L j ≤ L i := by
  by_cases h0 : L j = 0
  · omega
  · refine (h i (L j) (by omega)).2 ?_
    have := (h j (L j) (by omega)).1 (le_refl _)
    omega

theorem L_tail {x : Config ℤ} (hx : ∀ i ∈ x, 0 ≤ i) {L : Nat → Nat}
    (h : ∀ k j, 1 ≤ j → (j ≤ L k ↔ (k : ℤ) + 1 ≤ tailSum x j)) (m : Nat) (hm : x.sum ≤ m) (j : Nat) (hj : 1 ≤ j) :
    (((List.range m).countP fun k => decide (j ≤ L k) : Nat) : ℤ) = tailSum x j := by
  have h0 := tailSum_nonneg x hx j
  have h1 := tailSum_antitone x hx hj
  rw [tailSum_one] at h1
  rw [countP_range_lt m (tailSum x j).toNat]
  · omega
  · intro k _
    rw [decide_eq_true_eq, h k j hj]
    omega
  · omega

/-- What is collected: the number of lanes of each type. -/
theorem collectConfig_ok (d : Nat) (lanes : List Nat) (h : ∀ k ∈ lanes, k ≤ d) :
    collectConfig d lanes = .ok ((List.range d).map fun i => ((lanes.count (i + 1) : Nat) : ℤ)) := by
  unfold collectConfig
  induction lanes using List.reverseRecOn with
  | nil =>
    simp only [List.foldlM_nil, List.count_nil]
    show Except.ok _ = _
    congr 1
    apply List.ext_getElem <;> simp
  | append_singleton lanes k ih =>
    rw [List.foldlM_append, ih fun k hk => h k (by simp [hk])]
    simp only [bind, Except.bind, List.foldlM_cons, List.foldlM_nil, collectLane]
    have hk := h k (by simp)
    by_cases h0 : k > 0
    · rw [if_pos h0]
      have e : idx ((List.range d).map fun i => ((lanes.count (i + 1) : Nat) : ℤ)) (k - 1) =
          .ok ((lanes.count k : Nat) : ℤ) := by
        rw [idx_ok_iff, List.getElem?_map, List.getElem?_range (by omega)]
        simp only [Option.map_some]
        congr 4
        omega
      simp only [e]
      show Except.ok _ = _
      congr 1
      apply List.ext_getElem
      · simp
      · intro i h1 h2
        simp only [List.getElem_set, List.getElem_map, List.getElem_range, List.count_append, List.count_singleton]
        by_cases hi : k - 1 = i
        · have : i + 1 = k := by omega
          rw [if_pos hi, this]
          simp
        · have : ¬ k = i + 1 := by omega
          rw [if_neg hi]
          simp [this]
    · rw [if_neg h0]
      show Except.ok _ = _
      congr 1
      apply List.map_congr_left
      intro i _
      have : k = 0 := by omega
      subst this
      simp [List.count_append]

/-- **C33** Distributing a configuration to lanes and collecting it again is the identity. The lanes are ordered from
later (more efficient) to earlier types, followed by inactive lanes, and there is one active lane per server. -/
theorem C33_lanes_round_trip (x : Config ℤ) (hx : ∀ i ∈ x, 0 ≤ i) (bound : Nat) (hb : x.sum ≤ bound) :
    ∃ lanes, buildLanes x x.length bound = .ok lanes ∧ lanes.length = bound ∧ lanes.Pairwise (· ≥ ·) ∧
      (∀ k ∈ lanes, k ≤ x.length) ∧ ((lanes.countP fun k => decide (0 < k) : Nat) : ℤ) = x.sum ∧
      (∀ i j, x[i]? = some j → ((lanes.count (i + 1) : Nat) : ℤ) = j) ∧
      collectConfig x.length lanes = .ok x := by
  obtain ⟨L, h1, h2, h3⟩ := buildLanes_ok x hx bound hb
  have hc : ∀ i j, x[i]? = some j → ((((List.range bound).map L).count (i + 1) : Nat) : ℤ) = j := by
    intro i j hij
    obtain ⟨hi, rfl⟩ := List.getElem?_eq_some_iff.1 hij
    have e := countP_ge_eq bound L (i + 1)
    have e1 := L_tail hx h3 bound hb (i + 1) (by omega)
    have e2 := L_tail hx h3 bound hb (i + 2) (by omega)
    have e3 := tailSum_step x i hi
    have e' : ((((List.range bound).map L).count (i + 1) : Nat) : ℤ) +
        ((List.range bound).countP (fun j => decide (i + 2 ≤ L j)) : Nat) =
        ((List.range bound).countP (fun j => decide (i + 1 ≤ L j)) : Nat) := by exact_mod_cast e
    omega
  refine ⟨_, h1, by simp, ?_, ?_, ?_, hc, ?_⟩
  · rw [List.pairwise_map]
    exact List.pairwise_lt_range.imp fun {i j} hij => L_antitone h3 hij.le
  · intro k hk
    obtain ⟨i, _, rfl⟩ := List.mem_map.1 hk
    exact h2 i
  · rw [List.countP_map, ← tailSum_one, ← L_tail hx h3 bound hb 1 (le_refl _)]
    rfl
  · rw [collectConfig_ok]
    · congr 1
      apply List.ext_getElem
      · simp
      · intro i hi hi'
        simp only [List.getElem_map, List.getElem_range]
        exact hc i _ (List.getElem?_eq_getElem hi')
    · intro k hk
      obtain ⟨i, _, rfl⟩ := List.mem_map.1 hk
      exact h2 i

example : (buildLanes [1, 2] 2 5).toOption = some [2, 2, 1, 0, 0] ∧
    (collectConfig 2 [2, 2, 1, 0, 0]).toOption = some [1, 2] := by decide +kernel

end Lb
end Soco
