import Verif.Props.ServiceRuns
import Verif.Props.Units

/-!
# C106 for running services
-/

namespace Soco
open Lcp Work Uni Window Low SingleType

/-- The data center `F` with all prices in a currency in which amounts are `c` times as large. -/
def Spec.Farm.inCurrency (c : ℚ) (F : Spec.Farm) : Spec.Farm :=
  { F with price := fun t => c * F.price t, gamma := c * F.gamma, switching := c * F.switching }

namespace Service

theorem currency_valid {c : ℚ} (hc : 0 < c) {F : Spec.Farm} (hF : F.Valid) : (F.inCurrency c).Valid :=
  { hF with
    price := fun t ht => mul_pos hc (hF.price t ht)
    gamma := mul_nonneg hc.le hF.gamma
    switching := mul_pos hc hF.switching }

theorem currency_slot (c : ℚ) (F : Spec.Farm) (t : Int) (l j : ℚ) :
    (F.inCurrency c).slotCost t l j = ECost.mulQ c (F.slotCost t l j) := by
  have hu : (F.inCurrency c).use l j = F.use l j := rfl
  unfold Spec.Farm.slotCost
  rw [hu]
  split
  · split
    · simp [ECost.mulQ]
    · rfl
  · show (if F.use l j < 1 ∧ F.use l j ≤ F.maxUse then _ else _) = _
    split
    · rw [Robust.mulQ_coe']
      refine congrArg _ ?_
      simp only [Spec.Farm.inCurrency]
      ring
    · rfl

end Service

open Service in
/-- **C106** (service). Services for the same data center decide the same in every slot in whichever currency energy, lost revenue and switching
are priced. -/
theorem C106_service (S : Num.Solver) (hS : Spec.SolvesEmpty S) (choose : Nat → List ℚ → Nat → List ℚ)
    (hch : ChoosesFrom choose) (m m' : DataCenterModel) (F : Spec.Farm) (c : ℚ) (hc : 0 < c)
    (h : Spec.IsFarm m F) (h' : Spec.IsFarm m' (F.inCurrency c)) (hF : F.Valid)
    (loads : List ℚ) (hl : ∀ l ∈ loads, F.Carries l) (a b w r : Nat)
    (hab : a = 0 ∧ b = 0 ∨ w < a ∧ b = max 1 (a - 2 * w)) (ha : a ≤ loads.length) (hr : b + r + w ≤ loads.length) :
    ∃ xs, Spec.LazyService S choose m loads a b w r xs ∧ Spec.LazyService S choose m' loads a b w r xs ∧ xs.length = b + r := by
  obtain ⟨xs, ps, mem, s1, s2, s3, K, s4⟩ := Service.farm_plays S hS choose hch m F h hF loads hl a b w r hab ha hr
  obtain ⟨xs', ps', mem', s1', s2', s3', K', s4'⟩ := Service.farm_plays S hS choose hch m' _ h' (currency_valid hc hF) loads hl
    a b w r hab ha hr
  obtain ⟨ys, _, h1, h2, h3⟩ := C106_lazy w ps ps' (by omega) c hc (fun _ => 0) (fun t _ _ j _ _ => by
    rw [currency_slot]
    simp) (by rw [s2]; exact K) s3 (by rw [s2]; exact K'.nonneg) s3'
  rw [s4] at h1
  rw [s4'] at h2
  have e1 := (Prod.ext_iff.1 (Except.ok.inj h1)).1
  have e2 := (Prod.ext_iff.1 (Except.ok.inj h2)).1
  simp only at e1 e2
  subst e1 e2
  exact ⟨_, s1, s1', h3.trans s2⟩

/-! ## Examples -/

/-- The data center of `Ex.farmModel`, priced in half dollars. -/
def Ex.halfModel : DataCenterModel := { Ex.farmModel with
  energyModel := .linear fun _ => some fun t => 2 * if t = 2 then 3 else 1
  lossModel := fun _ => some ⟨4, 1⟩
  switchingModel := fun _ => some ⟨2, 1, 2, 1, 1, 0, 0⟩ }

theorem Ex.half_is : Spec.IsFarm Ex.halfModel (Ex.farm.inCurrency 2) :=
  ⟨_, _, _, _, rfl, rfl, rfl, rfl, rfl, rfl, rfl, fun _ _ => rfl, fun u => by
    simp only [Ex.halfModel, Ex.farmModel, ConsumptionModel.consumption, lookup, bind, Except.bind, Spec.Farm.inCurrency, Ex.farm]
    congr 1
    ring, fun t p _ => rfl, by norm_num [Ex.halfModel, Spec.Farm.inCurrency, Ex.farm],
    ⟨_, rfl, by norm_num [SwitchingCost.switchingCost, Spec.Farm.inCurrency, Ex.farm]⟩, rfl⟩

/-- Non-vacuity of `C106_service`. -/
example (S : Num.Solver) (hS : Spec.SolvesEmpty S) (choose : Nat → List ℚ → Nat → List ℚ) (hch : ChoosesFrom choose) :=
  C106_service S hS choose hch Ex.farmModel Ex.halfModel Ex.farm 2 (by norm_num) Ex.farm_is Ex.half_is Ex.farm_valid [3, 0, 7, 2]
    Ex.farm_carries 1 1 0 3 (by decide) (by decide) (by decide)

end Soco
