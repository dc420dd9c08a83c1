import Verif.Props.UniGraph

/-!
# C100: ties of the one-dimensional graph search
-/

namespace Soco
open Uni

variable {C D : Type} [OutSuccess C] [OutFailure D]

/-- **C100**. If several schedules are optimal, the integral one-dimensional graph search returns the lowest of
them: it uses, in every slot, no more servers than any other optimal schedule. Holds for both directions of the
switching costs, every weight `α` and every start. -/
theorem C100_lowest_optimum (p : SSCO ℤ C D) (hv : p.verify = .ok ()) (hd : p.d = 1) (m : ℤ)
    (hb : p.bounds = [m]) (xStart : ℤ) (hx : xStart ≤ m) (o : OfflineOptions) (hl : o.l = none) (hα : 0 ≤ o.alpha)
    (g : Int → ℤ → ECost)
    (hhit : ∀ t : Int, 1 ≤ t → t ≤ p.tEnd → ∀ j, 0 ≤ j → j ≤ m →
      ∃ out, p.toProb.hitCost t [j] = .ok ⟨g t j, out⟩)
    (hfin : ∀ t : Int, 1 ≤ t → t ≤ p.tEnd → g t m ≠ ⊤)
    (hnn : ∀ t : Int, 1 ≤ t → t ≤ p.tEnd → ∀ j, 0 ≤ j → j ≤ m → 0 ≤ g t j)
    (hconv : ∀ t : Int, 1 ≤ t → t ≤ p.tEnd → Spec.ConvexOnE m (g t)) :
    ∃ P, Uni.optimalGraphSearch p xStart o = .ok P ∧
      ∀ ys : Schedule ℤ, (ys.length : Int) = p.tEnd → (∀ y ∈ ys, Spec.InBox p.bounds y) →
        ∀ c, p.toProb.objectiveWithDefault' ys [xStart] o.alpha o.inverted p.tEnd = .ok c → c.cost ≤ P.cost →
          List.Forall₂ (List.Forall₂ (· ≤ ·)) P.xs ys := by
  obtain ⟨m', β, hb', hs, hm, hβ, hT⟩ := valid_one hv hd
  have : m' = m := by rw [hb] at hb'; simpa using hb'.symm
  subst this
  obtain ⟨P, js, h1, h2, _, _, _, _, h7⟩ := graphSearch_main hd hb hs hm hβ hT xStart hx o hl hα hhit
    hfin (fun t h1 h2 => hnn t h1 h2 m' hm.le le_rfl)
  refine ⟨P, h1, fun ys y1 y2 c hc hle => ?_⟩
  obtain ⟨ks, rfl, hk⟩ := exists_seq (m := m') ys (by rw [hb] at y2; exact y2)
  obtain ⟨out, ho⟩ := objective_one hs (Q := fun j => 0 ≤ j ∧ j ≤ m')
    (fun t h1 h2 j hj => hhit t h1 h2 j hj.1 hj.2) o.alpha o.inverted xStart ks (by simpa using y1) hk
  rw [ho] at hc
  obtain rfl := Except.ok.inj hc
  have := (h7 hnn hconv ks (by simpa using y1) hk).2 hle
  rw [h2, List.forall₂_map_left_iff, List.forall₂_map_right_iff]
  exact this.imp fun i j hij => .cons hij .nil

/-- A problem with many optimal schedules: no hitting costs in the first two slots, and a third slot in which
at least three servers are needed. Powering up in any of the slots costs the same. -/
def Ex.late : SSCO ℤ Unit Unit where
  d := 1
  tEnd := 3
  bounds := [4]
  switchingCost := [1]
  hittingCost := CostFn.new 1 (SingleCostFn.certain fun t x =>
    .ok (Cost.raw (((if t = 3 then 7 * max 0 (3 - x.getD 0 0) else 0 : ℤ) : ℚ) : ECost)))

theorem Ex.late_hit (t : Int) (ht : 1 ≤ t) (j : ℤ) (h0 : 0 ≤ j) (hj : j ≤ 4) :
    ∃ out, Ex.late.toProb.hitCost t [j]
      = .ok ⟨(((if t = 3 then 7 * max 0 (3 - j) else 0 : ℤ) : ℚ) : ECost), out⟩ := by
  rw [hit_within (p := Ex.late) rfl h0 hj, Ex.late, CostFn.callMean_certain _ _ ht]
  exact ⟨_, rfl⟩

/-- C100 applies to `Ex.late`, in which the optimal schedules are not unique. -/
example (inverted : Bool) := C100_lowest_optimum Ex.late (by decide +kernel) rfl 4 rfl 0 (by omega)
  ⟨inverted, 1, none⟩ rfl (by norm_num)
  (fun t j => (((if t = 3 then 7 * max 0 (3 - j) else 0 : ℤ) : ℚ) : ECost))
  (fun t h1 _ j h0 hj => Ex.late_hit t h1 j h0 hj) (fun _ _ _ => WithTop.coe_ne_top)
  (fun t _ _ j _ _ => by
    have : (0 : ℤ) ≤ (if t = 3 then 7 * max 0 (3 - j) else 0) := by
      split_ifs
      · have := le_max_left 0 (3 - j); omega
      · exact le_rfl
    exact_mod_cast this)
  (by
    intro t _ _ x y z _ h1 h2 _ a c ha hc
    refine ⟨_, rfl, ?_⟩
    have ha' := (WithTop.coe_injective ha).symm
    have hc' := (WithTop.coe_injective hc).symm
    rw [ha', hc']
    have key : (z - x) * (if t = 3 then 7 * max 0 (3 - y) else 0)
        ≤ (z - y) * (if t = 3 then 7 * max 0 (3 - x) else 0)
          + (y - x) * (if t = 3 then 7 * max 0 (3 - z) else 0) := by
      split_ifs
      · have a1 := le_max_left 0 (3 - x)
        have a2 := le_max_right 0 (3 - x)
        have a3 := le_max_left 0 (3 - z)
        have a4 := le_max_right 0 (3 - z)
        have b1 := mul_nonneg (by omega : 0 ≤ z - y) a1
        have b2 := mul_nonneg (by omega : 0 ≤ y - x) a3
        have b3 := mul_le_mul_of_nonneg_left a2 (by omega : 0 ≤ z - y)
        have b4 := mul_le_mul_of_nonneg_left a4 (by omega : 0 ≤ y - x)
        rcases max_cases 0 (3 - y) with ⟨e, _⟩ | ⟨e, _⟩ <;> rw [e] <;> nlinarith
      · simp
    exact_mod_cast key)

/-- Two optimal schedules of `Ex.late`. -/
example : ((Ex.late.toProb.objective [[3], [3], [3]]).toOption.map (·.cost)) = some ((3 : ℚ) : ECost) ∧
    ((Ex.late.toProb.objective [[0], [0], [3]]).toOption.map (·.cost)) = some ((3 : ℚ) : ECost) := by decide +kernel

end Soco
