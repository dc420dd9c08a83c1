import Verif.Props.RisingOrder

/-!
# C151: slots without jobs before and after a day cost nothing
-/

namespace Soco
open Offline SingleType

/-- Slots without jobs before and after the loads. -/
def Spec.padded (a b : Nat) (loads : List ℚ) : List ℚ := List.replicate a 0 ++ loads ++ List.replicate b 0

namespace IdleEnds
open RisingOrder

theorem ups_le (x y : ℤ) : ∀ js : List ℤ, ups x js ≤ max 0 (y - x) + ups y js
  | [] => by simp [ups]
  | j :: js => by
    simp only [ups]
    omega

theorem ups_skip : ∀ (is js : List ℤ) (x : ℤ), ups x js ≤ ups x (is ++ js) := by
  intro is
  induction is with
  | nil => intro js x; exact le_rfl
  | cons i is ih =>
    intro js x
    have h1 := ups_le x i js
    have h2 := ih js i
    simp only [List.cons_append, ups]
    omega

theorem ups_take : ∀ (js ks : List ℤ) (x : ℤ), ups x js ≤ ups x (js ++ ks) := by
  intro js
  induction js with
  | nil => intro ks x; exact ups_nonneg ks x
  | cons j js ih =>
    intro ks x
    have := ih ks j
    simp only [List.cons_append, ups]
    omega

theorem ups_zeros (b : Nat) : ∀ (js : List ℤ) (x : ℤ), 0 ≤ x → (∀ j ∈ js, 0 ≤ j) → ups x (js ++ List.replicate b 0) = ups x js := by
  intro js
  induction js with
  | nil =>
    induction b with
    | zero => intro x _ _; rfl
    | succ b ih =>
      intro x hx _
      have := ih 0 le_rfl (by simp)
      simp only [List.nil_append] at this ⊢
      rw [List.replicate_succ]
      simp only [ups] at this ⊢
      omega
  | cons j js ih =>
    intro x _ hj
    simp only [List.cons_append, ups]
    rw [ih j (hj j (by simp)) fun z hz => hj z (List.mem_cons_of_mem _ hz)]

theorem zeros_ups (a : Nat) (js : List ℤ) : ups 0 (List.replicate a 0 ++ js) = ups 0 js := by
  induction a with
  | zero => rfl
  | succ a ih =>
    rw [List.replicate_succ, List.cons_append, ups, ih]
    simp

theorem hits_append {s : ℚ → ℤ → ECost} (ls ls' : List ℚ) (js js' : List ℤ) (h : ls.length = js.length) :
    hits s (ls ++ ls') (js ++ js') = hits s ls js + hits s ls' js' := by
  simp only [hits]
  rw [List.zipWith_append h, List.sum_append]

theorem hits_zero {s : ℚ → ℤ → ECost} (h : s 0 0 = 0) (a : Nat) : hits s (List.replicate a 0) (List.replicate a 0) = 0 := by
  induction a with
  | zero => rfl
  | succ a ih =>
    simp only [hits] at ih ⊢
    rw [List.replicate_succ, List.replicate_succ, List.zipWith_cons_cons, List.sum_cons, ih, h, add_zero]

theorem hits_nonneg {s : ℚ → ℤ → ECost} : ∀ (ls : List ℚ) (js : List ℤ), (∀ l ∈ ls, ∀ j ∈ js, 0 ≤ s l j) → 0 ≤ hits s ls js := by
  intro ls
  induction ls with
  | nil => intro js _; simp [hits]
  | cons l ls ih =>
    intro js h
    cases js with
    | nil => simp [hits]
    | cons j js =>
      have := ih js fun l hl j hj => h l (List.mem_cons_of_mem _ hl) j (List.mem_cons_of_mem _ hj)
      simp only [hits, List.zipWith_cons_cons, List.sum_cons] at this ⊢
      exact add_nonneg (h l (by simp) j (by simp)) this

end IdleEnds

open RisingOrder IdleEnds

/-- **C151**. Let prices and delays be constant. Slots without jobs before and after the loads do not change the cost which is computed. -/
theorem C151_idle_ends (S : Num.Solver) (hS : Spec.SolvesEmpty S) (m : DataCenterModel) (F : Spec.Farm) (h : Spec.IsFarm m F) (hF : F.Valid)
    (hc : F.Constant) (loads : List ℚ) (hne : loads ≠ []) (hl : ∀ l ∈ loads, F.Carries l) (a b : Nat) :
    ∃ xs ys c d, solveUni (m.toSSCO S (loads.map fun l => [l])) 0 ⟨false, 1, none⟩ = .ok (xs, c) ∧
      solveUni (m.toSSCO S ((Spec.padded a b loads).map fun l => [l])) 0 ⟨false, 1, none⟩ = .ok (ys, d) ∧ d.cost = c.cost ∧ c.cost ≠ ⊤ := by
  have h0 : F.Carries 0 := by
    obtain ⟨l, hm⟩ := List.exists_mem_of_ne_nil _ hne
    exact Busy.carries_le hF le_rfl (hl l hm).1 (hl l hm)
  have hlp : ∀ l ∈ Spec.padded a b loads, F.Carries l := by
    intro l hm
    simp only [Spec.padded, List.mem_append] at hm
    rcases hm with (hm | hm) | hm
    · rw [List.eq_of_mem_replicate hm]; exact h0
    · exact hl l hm
    · rw [List.eq_of_mem_replicate hm]; exact h0
  have hnp : Spec.padded a b loads ≠ [] := by
    simp [Spec.padded, hne]
  obtain ⟨js, o1, a1, ⟨a2, a2'⟩, a3, a4⟩ := C90_optimal_one_dimension S hS m F h hF loads hl hne ⟨false, 1, none⟩ rfl rfl rfl
  obtain ⟨ks, o2, b1, ⟨b2, b2'⟩, -, b4⟩ := C90_optimal_one_dimension S hS m F h hF _ hlp hnp ⟨false, 1, none⟩ rfl rfl rfl
  have hit : ∀ (ls : List ℚ) (js : List ℤ), js.length = ls.length →
      F.planCost ls js = hits (fun l j => F.slotCost 1 l j) ls js + ((F.switching * (ups 0 js : ℤ) : ℚ) : ECost) := by
    intro ls js hlen
    refine split js ls 1 0 hlen (fun i hi => ?_)
    rw [show ((1 : Int) + i - 1).toNat = i by omega]
    exact Evened.slot_one hc _ (by omega) _ _
  refine ⟨_, _, _, _, a1, b1, le_antisymm ?_ ?_, a3⟩
  · have hlen : (List.replicate a (0 : ℤ) ++ js ++ List.replicate b 0).length = (Spec.padded a b loads).length := by
      simp [Spec.padded, a2]
    refine (b4 (List.replicate a 0 ++ js ++ List.replicate b 0) ⟨hlen, fun j hj => ?_⟩).trans (le_of_eq ?_)
    · simp only [List.mem_append] at hj
      rcases hj with (hj | hj) | hj
      · rw [List.eq_of_mem_replicate hj]; exact ⟨le_rfl, hF.servers.le⟩
      · exact a2' j hj
      · rw [List.eq_of_mem_replicate hj]; exact ⟨le_rfl, hF.servers.le⟩
    · have hz : F.slotCost 1 0 ((0 : ℤ) : ℚ) = 0 := by simp [Spec.Farm.slotCost]
      rw [hit _ _ hlen, hit _ _ a2, Spec.padded, hits_append _ _ _ _ (by simp [a2]), hits_append _ _ _ _ (by simp),
        hits_zero (s := fun l (j : ℤ) => F.slotCost 1 l j) hz, hits_zero (s := fun l (j : ℤ) => F.slotCost 1 l j) hz, zero_add, add_zero,
        List.append_assoc, zeros_ups, ups_zeros b js 0 le_rfl fun j hj => (a2' j hj).1]
  · have hk : ks.length = a + loads.length + b := by rw [b2]; simp [Spec.padded]; omega
    obtain ⟨k1, k2, k3, rfl, n1, n2, n3⟩ : ∃ k1 k2 k3 : List ℤ, ks = k1 ++ k2 ++ k3 ∧ k1.length = a ∧ k2.length = loads.length ∧ k3.length = b :=
      ⟨ks.take a, (ks.drop a).take loads.length, (ks.drop a).drop loads.length, by
        rw [List.append_assoc, List.take_append_drop, List.take_append_drop], by simp; omega, by simp; omega, by simp; omega⟩
    have hp2 : F.IsPlan loads k2 := ⟨n2, fun j hj => b2' j (by simp [hj])⟩
    refine (a4 k2 hp2).trans ?_
    rw [hit _ _ b2, hit _ _ n2, Spec.padded, hits_append _ _ _ _ (by simp [n1, n2]), hits_append _ _ _ _ (by simp [n1])]
    have nn : ∀ (n : Nat) (k : List ℤ), 0 ≤ hits (fun l (j : ℤ) => F.slotCost 1 l j) (List.replicate n 0) k := fun n k =>
      hits_nonneg _ _ fun l hl j _ => slotCost_nonneg hF 1 le_rfl l (List.eq_of_mem_replicate hl).ge j
    refine add_le_add ?_ ?_
    · exact (le_add_of_nonneg_left (nn a k1)).trans (le_add_of_nonneg_right (nn b k3))
    · refine WithTop.coe_le_coe.2 (mul_le_mul_of_nonneg_left ?_ hF.switching.le)
      exact_mod_cast (ups_skip k1 k2 0).trans (ups_take (k1 ++ k2) k3 0)

/-! ## Examples -/

/-- Non-vacuity of `C151_idle_ends`: a night before and after the day. -/
example (S : Num.Solver) (hS : Spec.SolvesEmpty S) := C151_idle_ends S hS Ex.evenModel Ex.evenFarm Ex.even_is Ex.even_valid
  (fun _ _ => ⟨rfl, rfl⟩) [3, 0, 7, 2] (by simp) Ex.farm_carries 8 4

end Soco
