import Verif.Props.Monotone
import Verif.Props.Even
import Mathlib.Data.List.Sort

/-!
# C150: the same demand is cheapest in rising order
-/

namespace Soco
open Offline SingleType

namespace RisingOrder

abbrev ins {α : Type} [LinearOrder α] (a : α) (l : List α) : List α := l.orderedInsert (· ≤ ·) a
abbrev sort {α : Type} [LinearOrder α] (l : List α) : List α := l.insertionSort (· ≤ ·)

/-- The costs of pairs of loads and numbers of servers. -/
def hits (s : ℚ → ℤ → ECost) (ls : List ℚ) (js : List ℤ) : ECost := (List.zipWith s ls js).sum

/-- What is switched on. -/
def ups (x : ℤ) : List ℤ → ℤ
  | [] => 0
  | j :: js => max 0 (j - x) + ups j js

theorem split {h : Int → ℤ → ECost} {s : ℚ → ℤ → ECost} {β : ℚ} : ∀ (js : List ℤ) (ls : List ℚ) (t : Int) (x : ℤ), js.length = ls.length →
    (∀ i < js.length, h (t + i) (js.getD i 0) = s (ls.getD i 0) (js.getD i 0)) →
    Spec.totalCost h (fun y x : ℤ => β * max 0 ((x : ℚ) - y)) 1 t x js = hits s ls js + ((β * (ups x js : ℤ) : ℚ) : ECost) := by
  intro js
  induction js with
  | nil =>
    intro ls t x _ _
    simp [Spec.totalCost, hits, ups]
  | cons j js ih =>
    intro ls t x hlen hh
    cases ls with
    | nil => simp at hlen
    | cons l ls =>
      have g0 := hh 0 (by simp)
      simp only [Nat.cast_zero, add_zero, List.getD_cons_zero] at g0
      have e := ih ls (t + 1) j (by simpa using hlen) (fun i hi => by
        have := hh (i + 1) (by simpa using hi)
        simp only [List.getD_cons_succ, Nat.cast_add, Nat.cast_one] at this
        rwa [show t + 1 + (i : Int) = t + (i + 1) by ring])
      simp only [Spec.totalCost, e, g0]
      simp only [hits, List.zipWith_cons_cons, List.sum_cons, ups]
      have : ((β * ((max 0 (j - x) + ups j js : ℤ) : ℚ) : ℚ) : ECost) =
          ((1 * (β * max 0 ((j : ℚ) - x)) : ℚ) : ECost) + ((β * (ups j js : ℤ) : ℚ) : ECost) := by
        rw [← WithTop.coe_add]
        congr 1
        push_cast
        ring
      rw [this]
      abel

theorem ins_head {α : Type} [LinearOrder α] {a : α} {l : List α} (h : (a :: l).Pairwise (· ≤ ·)) : ins a l = a :: l := by
  cases l with
  | nil => rfl
  | cons b l =>
    have hab := (List.pairwise_cons.1 h).1 b (by simp)
    exact List.orderedInsert_cons_of_le _ _ hab

theorem hits_ins {s : ℚ → ℤ → ECost} (hs : ∀ l l' i j, 0 ≤ l → l ≤ l' → i ≤ j → s l' j + s l i ≤ s l' i + s l j) :
    ∀ (A : List ℚ) (B : List ℤ) (l : ℚ) (_ : 0 ≤ l) (j : ℤ), A.length = B.length → A.Pairwise (· ≤ ·) → B.Pairwise (· ≤ ·) → (∀ a ∈ A, 0 ≤ a) →
      hits s (ins l A) (ins j B) ≤ s l j + hits s A B := by
  intro A
  induction A with
  | nil =>
    intro B l _ j hlen _ _ _
    have : B = [] := List.length_eq_zero_iff.1 hlen.symm
    subst this
    simp [hits, ins]
  | cons a A ih =>
    intro B l hl j hlen hA hB hn
    cases B with
    | nil => simp at hlen
    | cons b B =>
      have hlen' : A.length = B.length := by simpa using hlen
      have hA' := (List.pairwise_cons.1 hA).2
      have hB' := (List.pairwise_cons.1 hB).2
      have hn' : ∀ a ∈ A, 0 ≤ a := fun a hm => hn a (List.mem_cons_of_mem _ hm)
      have ha : 0 ≤ a := hn a (by simp)
      have cons : ∀ (x : ℚ) (y : ℤ) X Y, hits s (x :: X) (y :: Y) = s x y + hits s X Y := fun _ _ _ _ => by
        simp [hits]
      by_cases h1 : l ≤ a <;> by_cases h2 : j ≤ b
      · rw [ins, ins, List.orderedInsert_cons_of_le _ _ h1, List.orderedInsert_cons_of_le _ _ h2, cons]
      · have e1 : ins l (a :: A) = l :: ins a A := by
          rw [ins_head hA, ins, List.orderedInsert_cons_of_le _ _ h1]
        have e2 : ins j (b :: B) = b :: ins j B := by
          simp [ins, h2]
        rw [e1, e2, cons, cons, ← add_assoc]
        refine (add_le_add_right (ih B a ha j hlen' hA' hB' hn') _).trans ?_
        rw [← add_assoc]
        refine add_le_add_left ?_ _
        have := hs l a b j hl h1 (by omega)
        rw [add_comm (s l b), add_comm (s l j)]
        exact this
      · have e1 : ins l (a :: A) = a :: ins l A := by
          simp [ins, h1]
        have e2 : ins j (b :: B) = j :: ins b B := by
          rw [ins_head hB, ins, List.orderedInsert_cons_of_le _ _ h2]
        rw [e1, e2, cons, cons, ← add_assoc]
        refine (add_le_add_right (ih B l hl b hlen' hA' hB' hn') _).trans ?_
        rw [← add_assoc]
        refine add_le_add_left ?_ _
        have := hs a l j b ha (not_le.1 h1).le h2
        rw [add_comm (s a j)]
        exact this
      · have e1 : ins l (a :: A) = a :: ins l A := by
          simp [ins, h1]
        have e2 : ins j (b :: B) = b :: ins j B := by
          simp [ins, h2]
        rw [e1, e2, cons, cons]
        refine (add_le_add_right (ih B l hl j hlen' hA' hB' hn') _).trans (le_of_eq ?_)
        abel

theorem hits_sort {s : ℚ → ℤ → ECost} (hs : ∀ l l' i j, 0 ≤ l → l ≤ l' → i ≤ j → s l' j + s l i ≤ s l' i + s l j) :
    ∀ (ls : List ℚ) (js : List ℤ), ls.length = js.length → (∀ l ∈ ls, 0 ≤ l) → hits s (sort ls) (sort js) ≤ hits s ls js := by
  intro ls
  induction ls with
  | nil =>
    intro js hlen _
    have : js = [] := List.length_eq_zero_iff.1 hlen.symm
    subst this
    exact le_rfl
  | cons l ls ih =>
    intro js hlen hl
    cases js with
    | nil => simp at hlen
    | cons j js =>
      have e : hits s (l :: ls) (j :: js) = s l j + hits s ls js := by simp [hits]
      rw [e]
      refine le_trans ?_ (add_le_add_right (ih js (by simpa using hlen) fun l hm => hl l (List.mem_cons_of_mem _ hm)) _)
      exact hits_ins hs (sort ls) (sort js) l (hl l (by simp)) j
        (by rw [(List.perm_insertionSort _ ls).length_eq, (List.perm_insertionSort _ js).length_eq]; simpa using hlen) (List.pairwise_insertionSort _ _) (List.pairwise_insertionSort _ _)
        (fun a hm => hl a (List.mem_cons_of_mem _ ((List.perm_insertionSort _ _).mem_iff.1 hm)))

theorem ups_nonneg : ∀ (js : List ℤ) (x : ℤ), 0 ≤ ups x js := by
  intro js
  induction js with
  | nil => intro x; exact le_rfl
  | cons j js ih => intro x; exact add_nonneg (le_max_left _ _) (ih j)

theorem ups_mem : ∀ (js : List ℤ) (x z : ℤ), z ∈ js → z - x ≤ ups x js := by
  intro js
  induction js with
  | nil => intro x z hz; simp at hz
  | cons j js ih =>
    intro x z hz
    have h0 := le_max_right 0 (j - x)
    simp only [ups]
    rcases List.mem_cons.1 hz with rfl | hz
    · have := ups_nonneg js z
      omega
    · have := ih j z hz
      omega

theorem ups_rising : ∀ (js : List ℤ) (x : ℤ), (x :: js).Pairwise (· ≤ ·) → ∃ z, (z = x ∨ z ∈ js) ∧ ups x js = z - x := by
  intro js
  induction js with
  | nil => intro x _; exact ⟨x, .inl rfl, by simp [ups]⟩
  | cons j js ih =>
    intro x hx
    have h1 := (List.pairwise_cons.1 hx).1 j (by simp)
    obtain ⟨z, hz, e⟩ := ih j (List.pairwise_cons.1 hx).2
    refine ⟨z, .inr ?_, ?_⟩
    · rcases hz with rfl | hz
      · simp
      · exact List.mem_cons_of_mem _ hz
    · simp only [ups, e]
      have : max 0 (j - x) = j - x := max_eq_right (by omega)
      omega

theorem ups_sort (js : List ℤ) (hj : ∀ j ∈ js, 0 ≤ j) : ups 0 (sort js) ≤ ups 0 js := by
  have hp := List.perm_insertionSort (· ≤ ·) js
  obtain ⟨z, hz, e⟩ := ups_rising (sort js) 0 (List.pairwise_cons.2 ⟨fun z hz => hj z (hp.mem_iff.1 hz), List.pairwise_insertionSort _ _⟩)
  rw [e]
  rcases hz with rfl | hz
  · have := ups_nonneg js 0
    omega
  · exact ups_mem js 0 z (hp.mem_iff.1 hz)

end RisingOrder

open RisingOrder

/-- **C150** (plans). Let prices and delays be constant. The servers of a plan, sorted in rising order, are a plan for the loads sorted in
rising order and cost no more. -/
theorem C150_plans (F : Spec.Farm) (hF : F.Valid) (hc : F.Constant) (loads : List ℚ) (hl : ∀ l ∈ loads, 0 ≤ l) (rising : List ℚ)
    (hp : rising.Perm loads) (hr : rising.Pairwise (· ≤ ·)) (plan : List ℤ) (h : F.IsPlan loads plan) :
    ∃ plan', plan'.Perm plan ∧ plan'.Pairwise (· ≤ ·) ∧ F.IsPlan rising plan' ∧ F.planCost rising plan' ≤ F.planCost loads plan := by
  obtain ⟨h1, h2⟩ := h
  have hpp := List.perm_insertionSort (· ≤ ·) plan
  have es : rising = sort loads := List.Perm.eq_of_pairwise' hr (List.pairwise_insertionSort _ _)
    (hp.trans (List.perm_insertionSort (· ≤ ·) loads).symm)
  refine ⟨sort plan, hpp, List.pairwise_insertionSort _ _, ⟨by rw [hpp.length_eq, h1, hp.length_eq], fun j hj => h2 j (hpp.mem_iff.1 hj)⟩, ?_⟩
  have hit : ∀ (ls : List ℚ) (js : List ℤ), js.length = ls.length →
      F.planCost ls js = hits (fun l j => F.slotCost 1 l j) ls js + ((F.switching * (ups 0 js : ℤ) : ℚ) : ECost) := by
    intro ls js hlen
    refine split js ls 1 0 hlen (fun i hi => ?_)
    rw [show ((1 : Int) + i - 1).toNat = i by omega]
    exact Evened.slot_one hc _ (by omega) _ _
  rw [hit rising _ (by rw [hpp.length_eq, h1, hp.length_eq]), hit loads plan h1, es]
  refine add_le_add (hits_sort (s := fun l j => F.slotCost 1 l j) (fun l l' i j h0 hll hij => Busy.slotCost_busier hF 1 le_rfl h0 hll (by exact_mod_cast hij)) _ _ h1.symm hl) ?_
  refine WithTop.coe_le_coe.2 (mul_le_mul_of_nonneg_left ?_ hF.switching.le)
  exact_mod_cast ups_sort plan fun j hj => (h2 j hj).1

/-- **C150**. Let prices and delays be constant. The cost computed for some loads in rising order is at most the cost computed for the same
loads in any order. -/
theorem C150_order (S : Num.Solver) (hS : Spec.SolvesEmpty S) (m : DataCenterModel) (F : Spec.Farm) (h : Spec.IsFarm m F) (hF : F.Valid)
    (hc : F.Constant) (loads : List ℚ) (hne : loads ≠ []) (hl : ∀ l ∈ loads, F.Carries l) (rising : List ℚ) (hp : rising.Perm loads)
    (hr : rising.Pairwise (· ≤ ·)) :
    ∃ xs ys c d, solveUni (m.toSSCO S (loads.map fun l => [l])) 0 ⟨false, 1, none⟩ = .ok (xs, c) ∧
      solveUni (m.toSSCO S (rising.map fun l => [l])) 0 ⟨false, 1, none⟩ = .ok (ys, d) ∧ d.cost ≤ c.cost ∧ c.cost ≠ ⊤ := by
  obtain ⟨js, o1, a1, a2, a3, -⟩ := C90_optimal_one_dimension S hS m F h hF loads hl hne ⟨false, 1, none⟩ rfl rfl rfl
  obtain ⟨ks, o2, b1, -, -, b4⟩ := C90_optimal_one_dimension S hS m F h hF rising (fun l hm => hl l (hp.mem_iff.1 hm))
    (fun e => hne (by subst e; exact hp.nil_eq.symm)) ⟨false, 1, none⟩ rfl rfl rfl
  obtain ⟨plan, -, -, q1, q2⟩ := C150_plans F hF hc loads (fun l hm => (hl l hm).1) rising hp hr js a2
  exact ⟨_, _, _, _, a1, b1, (b4 plan q1).trans q2, a3⟩

/-! ## Examples -/

/-- Non-vacuity of `C150_order` and so of `C150_plans`. -/
example (S : Num.Solver) (hS : Spec.SolvesEmpty S) := C150_order S hS Ex.evenModel Ex.evenFarm Ex.even_is Ex.even_valid
  (fun _ _ => ⟨rfl, rfl⟩) [3, 0, 7, 2] (by simp) Ex.farm_carries [0, 2, 3, 7] (by decide) (by norm_num)

/-- The order matters: with a pause between them, the same jobs cost more. -/
theorem C150_order_matters : Ex.evenFarm.IsPlan [0, 3, 3] [0, 2, 2] ∧ Ex.evenFarm.planCost [0, 3, 3] [0, 2, 2] = ((13 : ℚ) : ECost) ∧
    ∀ plan, Ex.evenFarm.IsPlan [3, 0, 3] plan → ((15 : ℚ) : ECost) ≤ Ex.evenFarm.planCost [3, 0, 3] plan := by
  have hsw : Ex.evenFarm.switching = 3 := by norm_num [Ex.evenFarm, Ex.patientFarm, Ex.farm]
  have e3 := fun (t : Int) (i : ℚ) => Ex.even_slot t 3 i (by norm_num)
  refine ⟨⟨rfl, by simp [Ex.evenFarm, Ex.patientFarm, Ex.farm]⟩, ?_, ?_⟩
  · simp only [Spec.Farm.planCost, Spec.totalCost, hsw]
    have g1 : (([0, 3, 3] : List ℚ).getD ((1 : Int) - 1).toNat 0) = 0 := rfl
    have g2 : (([0, 3, 3] : List ℚ).getD ((1 : Int) + 1 - 1).toNat 0) = 3 := rfl
    have g3 : (([0, 3, 3] : List ℚ).getD ((1 : Int) + 1 + 1 - 1).toNat 0) = 3 := rfl
    have g0 : Ex.evenFarm.slotCost 1 0 ((0 : ℤ) : ℚ) = ((0 : ℚ) : ECost) := by simp [Spec.Farm.slotCost]
    rw [g1, g2, g3, e3, e3, g0, if_neg (by norm_num), add_zero]
    simp only [← WithTop.coe_add]
    refine congrArg _ ?_
    norm_num
  · rintro plan ⟨p1, p2⟩
    match plan, p1 with
    | [i, j, k], _ =>
      have hj := (p2 j (by simp)).1
      have g1 : (([3, 0, 3] : List ℚ).getD ((1 : Int) - 1).toNat 0) = 3 := rfl
      have g2 : (([3, 0, 3] : List ℚ).getD ((1 : Int) + 1 - 1).toNat 0) = 0 := rfl
      have g3 : (([3, 0, 3] : List ℚ).getD ((1 : Int) + 1 + 1 - 1).toNat 0) = 3 := rfl
      have g0 : Ex.evenFarm.slotCost (1 + 1) 0 (j : ℚ) = ((j : ℚ) : ECost) := by
        unfold Spec.Farm.slotCost
        have hj' : (0 : ℚ) ≤ j := by exact_mod_cast hj
        have hu : Ex.evenFarm.use 0 j = 0 := by simp [Spec.Farm.use]
        rw [hu]
        by_cases h1 : (j : ℚ) ≤ 0
        · rw [if_pos h1, if_pos rfl, le_antisymm h1 hj']; rfl
        · rw [if_neg h1, if_pos (by norm_num [Ex.evenFarm, Ex.patientFarm, Ex.farm])]
          norm_num [Ex.evenFarm, Ex.patientFarm, Ex.farm]
      simp only [Spec.Farm.planCost, Spec.totalCost, hsw]
      rw [g1, g2, g3, e3, e3, g0]
      split_ifs with h1 h2 h2
      · simp
      · simp
      · simp
      · have big : ∀ n : ℤ, ¬ (n : ℚ) < 5 / 9 * 3 → (2 : ℚ) ≤ n := by
          intro n hn
          have : 2 ≤ n := by
            by_contra hlt
            have : (n : ℚ) ≤ 1 := by exact_mod_cast (by omega : n ≤ 1)
            exact hn (by linarith)
          exact_mod_cast this
        have hi := big i h1
        have hk := big k h2
        rw [add_zero]
        simp only [← WithTop.coe_add]
        refine WithTop.coe_le_coe.2 ?_
        have m1 := le_max_right (0 : ℚ) (i - (0 : ℤ))
        have m2 := le_max_left (0 : ℚ) ((j : ℚ) - i)
        have m3 := le_max_left (0 : ℚ) ((k : ℚ) - j)
        have m4 := le_max_right (0 : ℚ) ((k : ℚ) - j)
        push_cast at *
        linarith

end Soco
