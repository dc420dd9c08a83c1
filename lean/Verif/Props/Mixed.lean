import Verif.Props.Expected
import Verif.Props.Periods
import Mathlib.Tactic.LinearCombination
import Mathlib.Tactic.Abel

/-!
# C139: optimal costs are concave in the prices
-/

namespace Soco
variable {C D : Type} [OutSuccess C] [OutFailure D]

/-- The costs of `r` are the mean of `a` times the costs of `p` and `b` times the costs of `q`. -/
structure Spec.Mixed (a b : Nat) (p q r : SSCO ℤ C D) (hitp hitq hitr : Int → Config ℤ → ECost) : Prop where
  pos : 0 < a + b
  d : p.d = r.d ∧ q.d = r.d
  tEnd : p.tEnd = r.tEnd ∧ q.tEnd = r.tEnd
  bounds : p.bounds = r.bounds ∧ q.bounds = r.bounds
  switching : ∀ k : Nat, k < r.d.toNat → (a + b) * r.switchingCost.getD k 0 = a * p.switchingCost.getD k 0 + b * q.switchingCost.getD k 0
  hitting : ∀ t : Int, 1 ≤ t → t ≤ r.tEnd → ∀ x, Spec.InBox r.bounds x → (a + b) • hitr t x = a • hitp t x + b • hitq t x

namespace Mixed

theorem up (a b : ℚ) : ∀ (n : Nat) (β β' γ : List ℚ) (y x : List ℤ), β.length = n → β'.length = n → γ.length = n → y.length = n → x.length = n →
    (∀ k : Nat, k < n → (a + b) * γ.getD k 0 = a * β.getD k 0 + b * β'.getD k 0) →
    (a + b) * Spec.upCost γ y x = a * Spec.upCost β y x + b * Spec.upCost β' y x := by
  intro n
  induction n with
  | zero =>
    intro β β' γ y x h1 h2 h3 h4 h5 _
    rw [List.length_eq_zero_iff.1 h1, List.length_eq_zero_iff.1 h2, List.length_eq_zero_iff.1 h3]
    simp [Spec.upCost, List.zipWith3]
  | succ n ih =>
    intro β β' γ y x h1 h2 h3 h4 h5 h
    match β, β', γ, y, x, h1, h2, h3, h4, h5 with
    | b0 :: β, b1 :: β', c :: γ, y0 :: y, x0 :: x, h1, h2, h3, h4, h5 =>
      have e := ih β β' γ y x (by simpa using h1) (by simpa using h2) (by simpa using h3) (by simpa using h4) (by simpa using h5)
        (fun k hk => by simpa using h (k + 1) (by omega))
      have e0 : (a + b) * c = a * b0 + b * b1 := by simpa using h 0 (by omega)
      simp only [Spec.upCost, List.zipWith3, List.sum_cons] at e ⊢
      linear_combination e + max 0 (toQ x0 - toQ y0) * e0

omit [OutSuccess C] [OutFailure D] in
theorem total {a b : Nat} {p q r : SSCO ℤ C D} {hitp hitq hitr : Int → Config ℤ → ECost} (h : Spec.Mixed a b p q r hitp hitq hitr)
    (lp : p.switchingCost.length = r.d.toNat) (lq : q.switchingCost.length = r.d.toNat) (lr : r.switchingCost.length = r.d.toNat)
    (lb : r.bounds.length = r.d.toNat) (α : ℚ) : ∀ (xs : Schedule ℤ) (t : Int) (y : Config ℤ), 1 ≤ t → t + xs.length ≤ r.tEnd + 1 →
      y.length = r.d.toNat → (∀ x ∈ xs, Spec.InBox r.bounds x) →
      (a + b) • Spec.totalCost hitr (Spec.upCost r.switchingCost) α t y xs =
        a • Spec.totalCost hitp (Spec.upCost p.switchingCost) α t y xs + b • Spec.totalCost hitq (Spec.upCost q.switchingCost) α t y xs := by
  intro xs
  induction xs with
  | nil => intros; simp [Spec.totalCost]
  | cons x xs ih =>
    intro t y t1 t2 hy hx
    simp only [List.length_cons] at t2
    push_cast at t2
    have hb := hx x (by simp)
    have hxl : x.length = r.d.toNat := hb.length_eq.symm.trans lb
    have e1 := h.hitting t t1 (by omega) x hb
    have e2 := ih (t + 1) x (by omega) (by omega) hxl fun z hz => hx z (List.mem_cons_of_mem _ hz)
    have e3 : (a + b) • ((α * Spec.upCost r.switchingCost y x : ℚ) : ECost) = a • ((α * Spec.upCost p.switchingCost y x : ℚ) : ECost) +
        b • ((α * Spec.upCost q.switchingCost y x : ℚ) : ECost) := by
      rw [← WithTop.coe_nsmul, ← WithTop.coe_nsmul, ← WithTop.coe_nsmul, ← WithTop.coe_add]
      congr 1
      have := up a b r.d.toNat p.switchingCost q.switchingCost r.switchingCost y x lp lq lr hy hxl h.switching
      simp only [nsmul_eq_mul]
      push_cast
      linear_combination α * this
    simp only [Spec.totalCost, nsmul_add]
    rw [e1, e2, e3]
    abel

end Mixed

open Periods Mixed in
/-- **C139** (plans). Under mixed prices every plan costs the mean of its costs. -/
theorem C139_plans (a b : Nat) (p q r : SSCO ℤ C D) (hitp hitq hitr : Int → Config ℤ → ECost) (h : Spec.Mixed a b p q r hitp hitq hitr)
    (hp : p.verify = .ok ()) (hq : q.verify = .ok ()) (hr : r.verify = .ok ())
    (Hp : Spec.Hits p hitp) (Hq : Spec.Hits q hitq) (Hr : Spec.Hits r hitr) (α : ℚ) (xs : Schedule ℤ)
    (hl : (xs.length : Int) = r.tEnd) (hx : ∀ x ∈ xs, Spec.InBox r.bounds x) :
    ∃ cp cq cr, p.toProb.alphaUnfairObjective xs α = .ok cp ∧ q.toProb.alphaUnfairObjective xs α = .ok cq ∧
      r.toProb.alphaUnfairObjective xs α = .ok cr ∧ (a + b) • cr.cost = a • cp.cost + b • cq.cost := by
  have vp := valid_of hp
  have vq := valid_of hq
  have vr := valid_of hr
  obtain ⟨o1, e1⟩ := objective_total hp Hp α xs (by rw [h.tEnd.1]; exact hl) (by rw [h.bounds.1]; exact hx)
  obtain ⟨o2, e2⟩ := objective_total hq Hq α xs (by rw [h.tEnd.2]; exact hl) (by rw [h.bounds.2]; exact hx)
  obtain ⟨o3, e3⟩ := objective_total hr Hr α xs hl hx
  have d1 := h.d.1
  have d2 := h.d.2
  refine ⟨_, _, _, e1, e2, e3, ?_⟩
  rw [d1, d2]
  exact total h (by have := vp.2.2.2.1; omega) (by have := vq.2.2.2.1; omega) (by have := vr.2.2.2.1; omega)
    (by have := vr.2.2.1; omega) α xs 1 _ le_rfl (by omega) (by simp) hx

open Periods Mixed in
/-- **C139** (optimum). Optimal plans under mixed prices cost at least the mean of the costs of optimal plans: knowing the prices never
costs more than planning with their mean. -/
theorem C139_optimum (a b : Nat) (p q r : SSCO ℤ C D) (hitp hitq hitr : Int → Config ℤ → ECost) (h : Spec.Mixed a b p q r hitp hitq hitr)
    (hp : p.verify = .ok ()) (hq : q.verify = .ok ()) (hr : r.verify = .ok ()) (hT : 1 ≤ r.tEnd)
    (Hp : Spec.Hits p hitp) (Hq : Spec.Hits q hitq) (Hr : Spec.Hits r hitr) (o : OfflineOptions) (hl : o.l = none) (hα : 0 ≤ o.alpha) :
    ∃ sp sq sr, Multi.optimalGraphSearch p none o = .ok sp ∧ Multi.optimalGraphSearch q none o = .ok sq ∧
      Multi.optimalGraphSearch r none o = .ok sr ∧ a • sp.path.cost + b • sq.path.cost ≤ (a + b) • sr.path.cost := by
  have vp := valid_of hp
  have vq := valid_of hq
  have vr := valid_of hr
  obtain ⟨sp, p1, -, -, -, -, p6⟩ := best hp (by rw [h.tEnd.1]; exact hT) Hp o hl hα
  obtain ⟨sq, q1, -, -, -, -, q6⟩ := best hq (by rw [h.tEnd.2]; exact hT) Hq o hl hα
  obtain ⟨sr, r1, r2, r3, -, r5, -⟩ := best hr hT Hr o hl hα
  refine ⟨sp, sq, sr, p1, q1, r1, ?_⟩
  have d1 := h.d.1
  have d2 := h.d.2
  have e := total h (by have := vp.2.2.2.1; omega) (by have := vq.2.2.2.1; omega) (by have := vr.2.2.2.1; omega)
    (by have := vr.2.2.1; omega) o.alpha sr.path.xs 1 (List.replicate r.d.toNat 0) le_rfl (by omega) (by simp) r3
  rw [r5, e]
  have i1 := p6 sr.path.xs (by rw [h.tEnd.1]; exact r2) (by rw [h.bounds.1]; exact r3)
  have i2 := q6 sr.path.xs (by rw [h.tEnd.2]; exact r2) (by rw [h.bounds.2]; exact r3)
  rw [d1] at i1
  rw [d2] at i2
  exact add_le_add (nsmul_le_of i1) (nsmul_le_of i2)

/-! ## Examples -/

/-- One type of servers at switching cost `β`; three units of work in the second of two slots, every server at price `c`, every unit that
no server does costs 5. -/
def Ex.priced (β c : ℚ) : SSCO ℤ Unit Unit where
  d := 1
  tEnd := 2
  bounds := [3]
  switchingCost := [β]
  hittingCost := CostFn.new 1 (SingleCostFn.certain fun t x => .ok (Cost.raw
    ((c * x.getD 0 0 + 5 * max 0 ((if t = 2 then 3 else 0) - x.getD 0 0) : ℚ) : ECost)))

theorem Ex.priced_hits (β c : ℚ) : Spec.Hits (Ex.priced β c)
    fun t x => ((c * x.getD 0 0 + 5 * max 0 ((if t = 2 then 3 else 0) - x.getD 0 0) : ℚ) : ECost) where
  slot t t1 _ x hx := ⟨_, ((C06_guarded_evaluation _ t (Ex.priced β c).bounds x hx.length_eq.symm).1 hx).1.trans
    (CostFn.callMean_certain _ t t1 _)⟩
  fin _ _ _ := WithTop.coe_ne_top

theorem Ex.priced_mixed : Spec.Mixed 1 1 (Ex.priced 1 1) (Ex.priced 3 3) (Ex.priced 2 2)
    (fun t x => ((1 * x.getD 0 0 + 5 * max 0 ((if t = 2 then 3 else 0) - x.getD 0 0) : ℚ) : ECost))
    (fun t x => ((3 * x.getD 0 0 + 5 * max 0 ((if t = 2 then 3 else 0) - x.getD 0 0) : ℚ) : ECost))
    (fun t x => ((2 * x.getD 0 0 + 5 * max 0 ((if t = 2 then 3 else 0) - x.getD 0 0) : ℚ) : ECost)) where
  pos := by norm_num
  d := ⟨rfl, rfl⟩
  tEnd := ⟨rfl, rfl⟩
  bounds := ⟨rfl, rfl⟩
  switching k hk := by
    have hk : k < 1 := hk
    obtain rfl : k = 0 := by omega
    simp [Ex.priced]
    norm_num
  hitting t _ _ x _ := by
    rw [← WithTop.coe_nsmul, ← WithTop.coe_nsmul, ← WithTop.coe_nsmul, ← WithTop.coe_add]
    congr 1
    simp only [nsmul_eq_mul]
    push_cast
    ring

/-- Non-vacuity of `C139_optimum`. -/
example := C139_optimum 1 1 _ _ _ _ _ _ Ex.priced_mixed (by decide +kernel) (by decide +kernel) (by decide +kernel) (by decide)
  (Ex.priced_hits 1 1) (Ex.priced_hits 3 3) (Ex.priced_hits 2 2) ⟨false, 1, none⟩ rfl (by norm_num)

/-- Non-vacuity of `C139_plans`. -/
example := C139_plans 1 1 _ _ _ _ _ _ Ex.priced_mixed (by decide +kernel) (by decide +kernel) (by decide +kernel)
  (Ex.priced_hits 1 1) (Ex.priced_hits 3 3) (Ex.priced_hits 2 2) 1 [[0], [2]] rfl
  (by simp [Spec.InBox, Ex.priced])

/-- Here knowing the prices saves money: `6 + 15 < 2 * 12`. -/
example : [Ex.priced 1 1, Ex.priced 3 3, Ex.priced 2 2].map (fun p =>
    (Multi.optimalGraphSearch p none ⟨false, 1, none⟩).toOption.map (·.path.cost)) =
    [some ((6 : ℚ) : ECost), some ((15 : ℚ) : ECost), some ((12 : ℚ) : ECost)] := by decide +kernel

end Soco
