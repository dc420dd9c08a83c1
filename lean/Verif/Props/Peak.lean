import Verif.Props.RisingOrder

/-!
# C150: demand with a single peak is as cheap as rising demand
-/

namespace Soco
open Offline SingleType

/-- Loads which first rise and then fall. -/
def Spec.SinglePeak (loads : List ℚ) : Prop :=
  ∃ up down : List ℚ, loads = up ++ down ∧ up.Pairwise (· ≤ ·) ∧ down.Pairwise (· ≥ ·)

namespace Peak
open RisingOrder

/-- The least load is at one of the ends, and so on. -/
inductive Ends : List ℚ → Prop
  | nil : Ends []
  | first (l : ℚ) (ls : List ℚ) : (∀ x ∈ ls, l ≤ x) → Ends ls → Ends (l :: ls)
  | last (l : ℚ) (ls : List ℚ) : (∀ x ∈ ls, l ≤ x) → Ends ls → Ends (ls ++ [l])

theorem ends_of_peak : ∀ (n : Nat) (up down : List ℚ), up.length + down.length = n → up.Pairwise (· ≤ ·) → down.Pairwise (· ≥ ·) →
    Ends (up ++ down) := by
  intro n
  induction n with
  | zero =>
    intro up down h _ _
    have h1 : up = [] := List.length_eq_zero_iff.1 (by omega)
    have h2 : down = [] := List.length_eq_zero_iff.1 (by omega)
    subst h1 h2
    exact .nil
  | succ n ih =>
    intro up down h hu hd
    have fst : ∀ a as, up = a :: as → (∀ x ∈ down, a ≤ x) → Ends (up ++ down) := by
      rintro a as rfl hx
      rw [List.pairwise_cons] at hu
      refine .first a (as ++ down) (fun x hm => ?_) (ih as down (by simp at h; omega) hu.2 hd)
      rcases List.mem_append.1 hm with hm | hm
      · exact hu.1 x hm
      · exact hx x hm
    have lst : ∀ b bs, down = bs ++ [b] → (∀ x ∈ up, b ≤ x) → Ends (up ++ down) := by
      rintro b bs rfl hx
      rw [List.pairwise_append] at hd
      rw [← List.append_assoc]
      refine .last b (up ++ bs) (fun x hm => ?_) (ih up bs (by simp at h; omega) hu hd.1)
      rcases List.mem_append.1 hm with hm | hm
      · exact hx x hm
      · exact hd.2.2 x hm b (by simp)
    rcases List.eq_nil_or_concat down with rfl | ⟨bs, b, rfl⟩
    · cases up with
      | nil => simp at h
      | cons a as => exact fst a as rfl (by simp)
    cases up with
    | nil => exact lst b bs (by simp) (by simp)
    | cons a as =>
      rw [List.concat_eq_append] at *
      have hd' := List.pairwise_append.1 hd
      have hu' := List.pairwise_cons.1 hu
      rcases le_total a b with hab | hab
      · refine fst a as rfl (fun x hm => ?_)
        rcases List.mem_append.1 hm with hm | hm
        · exact hab.trans (hd'.2.2 x hm b (by simp))
        · rw [List.mem_singleton.1 hm]; exact hab
      · refine lst b bs rfl (fun x hm => ?_)
        rcases List.mem_cons.1 hm with rfl | hm
        · exact hab
        · exact hab.trans (hu'.1 x hm)

theorem ups_append : ∀ (ks : List ℤ) (x j : ℤ), ks ≠ [] → (∀ k ∈ ks, j ≤ k) → ups x (ks ++ [j]) = ups x ks := by
  intro ks
  induction ks with
  | nil => intro x j h _; exact absurd rfl h
  | cons k ks ih =>
    intro x j _ hk
    cases ks with
    | nil =>
      have := hk k (by simp)
      simp only [List.cons_append, List.nil_append, ups]
      rw [max_eq_left (by omega : j - k ≤ 0), add_zero]
    | cons k' ks =>
      have e := ih k j (by simp) fun z hz => hk z (List.mem_cons_of_mem _ hz)
      rw [List.cons_append, ups, e]
      rfl

theorem place {s : ℚ → ℤ → ECost} : ∀ (ls : List ℚ) (js : List ℤ) (us : List ℚ), ls.length = js.length → ls.Pairwise (· ≤ ·) →
    js.Pairwise (· ≤ ·) → us.Perm ls → Ends us →
    ∃ ks : List ℤ, ks.Perm js ∧ hits s us ks = hits s ls js ∧ ∀ x, (∀ j ∈ js, x ≤ j) → ups x ks = ups x js := by
  intro ls
  induction ls with
  | nil =>
    intro js us hlen _ _ hp _
    have h1 : js = [] := List.length_eq_zero_iff.1 hlen.symm
    have h2 : us = [] := hp.eq_nil
    subst h1 h2
    exact ⟨[], .refl _, rfl, fun _ _ => rfl⟩
  | cons l ls ih =>
    intro js us hlen hl hj hp he
    cases js with
    | nil => simp at hlen
    | cons j js =>
      have hlen' : ls.length = js.length := by simpa using hlen
      rw [List.pairwise_cons] at hl hj
      have least : ∀ u us', (∀ x ∈ us', u ≤ x) → (u :: us').Perm (l :: ls) → u = l := by
        intro u us' hu hp
        refine le_antisymm ?_ ?_
        · rcases List.mem_cons.1 (hp.mem_iff.2 (by simp : l ∈ l :: ls)) with e | hm
          · exact e.symm.le
          · exact hu l hm
        · rcases List.mem_cons.1 (hp.mem_iff.1 (by simp : u ∈ u :: us')) with e | hm
          · exact e.symm.le
          · exact hl.1 u hm
      have cons : ∀ (x : ℚ) (y : ℤ) X Y, hits s (x :: X) (y :: Y) = s x y + hits s X Y := fun _ _ _ _ => by simp [hits]
      cases he with
      | nil => exact absurd hp.length_eq (by simp)
      | first u us' hu he' =>
        obtain rfl := least u us' hu hp
        obtain ⟨ks, k1, k2, k3⟩ := ih js us' hlen' hl.2 hj.2 hp.cons_inv he'
        refine ⟨j :: ks, k1.cons j, by rw [cons, cons, k2], fun x hx => ?_⟩
        simp only [ups]
        rw [k3 j hj.1]
      | last u us' hu he' =>
        have hp2 : (u :: us').Perm (l :: ls) := (List.perm_append_singleton u us').symm.trans hp
        obtain rfl := least u us' hu hp2
        obtain ⟨ks, k1, k2, k3⟩ := ih js us' hlen' hl.2 hj.2 hp2.cons_inv he'
        have hlk : us'.length = ks.length := by
          rw [k1.length_eq, ← hlen', hp2.cons_inv.length_eq]
        refine ⟨ks ++ [j], (List.perm_append_singleton j ks).trans (k1.cons j), ?_, fun x hx => ?_⟩
        · rw [cons, ← k2]
          simp only [hits]
          rw [List.zipWith_append hlk, List.sum_append]
          simp [add_comm]
        · have hxj := hx j (by simp)
          cases js with
          | nil =>
            have : ks = [] := k1.eq_nil
            subst this
            rfl
          | cons j' js =>
            have hne : ks ≠ [] := fun e => by
              have := k1.length_eq
              rw [e] at this
              simp at this
            rw [ups_append ks x j hne (fun k hk => hj.1 k (k1.mem_iff.1 hk)), k3 x fun z hz => hx z (List.mem_cons_of_mem _ hz)]
            have := hj.1 j' (by simp)
            simp only [ups]
            omega

end Peak

open RisingOrder Peak

/-- **C150** (peaks). Let prices and delays be constant. The cost computed for loads with a single peak is at most the cost computed for the
same loads in any order. In particular loads with a single peak cost the same in all such orders, also in rising and in falling order. -/
theorem C150_peak (S : Num.Solver) (hS : Spec.SolvesEmpty S) (m : DataCenterModel) (F : Spec.Farm) (h : Spec.IsFarm m F) (hF : F.Valid)
    (hc : F.Constant) (loads : List ℚ) (hne : loads ≠ []) (hl : ∀ l ∈ loads, F.Carries l) (peaked : List ℚ) (hp : peaked.Perm loads)
    (hs : Spec.SinglePeak peaked) :
    ∃ xs ys c d, solveUni (m.toSSCO S (loads.map fun l => [l])) 0 ⟨false, 1, none⟩ = .ok (xs, c) ∧
      solveUni (m.toSSCO S (peaked.map fun l => [l])) 0 ⟨false, 1, none⟩ = .ok (ys, d) ∧ d.cost ≤ c.cost ∧ c.cost ≠ ⊤ := by
  obtain ⟨js, o1, a1, a2, a3, -⟩ := C90_optimal_one_dimension S hS m F h hF loads hl hne ⟨false, 1, none⟩ rfl rfl rfl
  obtain ⟨ks, o2, b1, -, -, b4⟩ := C90_optimal_one_dimension S hS m F h hF peaked (fun l hm => hl l (hp.mem_iff.1 hm))
    (fun e => hne (by subst e; exact hp.nil_eq.symm)) ⟨false, 1, none⟩ rfl rfl rfl
  have hpl := List.perm_insertionSort (· ≤ ·) loads
  obtain ⟨plan, q0, q1, ⟨q2, q2'⟩, q3⟩ := C150_plans F hF hc loads (fun l hm => (hl l hm).1) (sort loads) hpl
    (List.pairwise_insertionSort _ _) js a2
  obtain ⟨up, down, rfl, hu, hd⟩ := hs
  obtain ⟨ls, r1, r2, r3⟩ := place (s := fun l j => F.slotCost 1 l j) (sort loads) plan _ q2.symm (List.pairwise_insertionSort _ _) q1
    (hp.trans hpl.symm) (ends_of_peak _ up down rfl hu hd)
  have hit : ∀ (ls : List ℚ) (js : List ℤ), js.length = ls.length →
      F.planCost ls js = hits (fun l j => F.slotCost 1 l j) ls js + ((F.switching * (ups 0 js : ℤ) : ℚ) : ECost) := by
    intro ls js hlen
    refine split js ls 1 0 hlen (fun i hi => ?_)
    rw [show ((1 : Int) + i - 1).toNat = i by omega]
    exact Evened.slot_one hc _ (by omega) _ _
  have hlen : ls.length = (up ++ down).length := by rw [r1.length_eq, q2, hpl.length_eq, hp.length_eq]
  refine ⟨_, _, _, _, a1, b1, (b4 ls ⟨hlen, fun j hj => q2' j (r1.mem_iff.1 hj)⟩).trans ?_, a3⟩
  refine le_trans (le_of_eq ?_) q3
  rw [hit _ _ hlen, hit _ _ q2, r2, r3 0 fun j hj => (q2' j hj).1]

/-! ## Examples -/

/-- Non-vacuity of `C150_peak`. -/
example (S : Num.Solver) (hS : Spec.SolvesEmpty S) := C150_peak S hS Ex.evenModel Ex.evenFarm Ex.even_is Ex.even_valid
  (fun _ _ => ⟨rfl, rfl⟩) [3, 0, 7, 2] (by simp) Ex.farm_carries [2, 7, 3, 0] (by decide) ⟨[2, 7], [3, 0], rfl, by norm_num, by norm_num⟩

end Soco
