import Verif.Props.Finer
import Verif.Props.Timeless

/-!
# C138: steady demand is met by a steady number of servers
-/

namespace Soco
variable {C D : Type} [OutSuccess C] [OutFailure D]

namespace Steady
open Spec Periods Finer

/-- All slots of `p` in one. -/
def oneSlot (p : SSCO ℤ C D) (hit : Config ℤ → ECost) : SSCO ℤ C D where
  d := p.d
  tEnd := 1
  bounds := p.bounds
  switchingCost := p.switchingCost
  hittingCost := CostFn.new 1 (SingleCostFn.certain fun _ x => .ok ⟨p.tEnd.toNat • hit x, .failure OutFailure.outside⟩)

theorem one_hits (p : SSCO ℤ C D) (hit : Config ℤ → ECost) (hfin : hit p.bounds ≠ ⊤) :
    Hits (oneSlot p hit) fun _ x => p.tEnd.toNat • hit x where
  slot t t1 _ x hx := ⟨_, ((C06_guarded_evaluation _ t (oneSlot p hit).bounds x hx.length_eq.symm).1 hx).1.trans
    (CostFn.callMean_certain _ t t1 _)⟩
  fin t _ _ := by
    show p.tEnd.toNat • hit p.bounds ≠ ⊤
    obtain ⟨q, hq⟩ := WithTop.ne_top_iff_exists.1 hfin
    rw [← hq, ← WithTop.coe_nsmul]
    exact WithTop.coe_ne_top

omit [OutSuccess C] in
theorem finer (p : SSCO ℤ C D) (hT : 1 ≤ p.tEnd) (hit : Int → Config ℤ → ECost)
    (hs : ∀ t : Int, 1 ≤ t → t ≤ p.tEnd → ∀ x, InBox p.bounds x → hit t x = hit 1 x) :
    Finer p.tEnd.toNat (oneSlot p (hit 1)) p (fun _ x => p.tEnd.toNat • hit 1 x) hit where
  pos := by omega
  d := rfl
  bounds := rfl
  switching := rfl
  tEnd := by
    show p.tEnd = p.tEnd.toNat * 1
    omega
  part t i t1 t2 hi x hx := by
    have t2 : t ≤ 1 := t2
    obtain rfl : t = 1 := by omega
    rw [hs _ (by omega) (by omega) x hx]

end Steady

open Periods Steady in
/-- **C138** If all slots have the same costs, a cheapest plan is to keep one configuration for all slots. -/
theorem C138_steady (p : SSCO ℤ C D) (hv : p.verify = .ok ()) (hT : 1 ≤ p.tEnd) (hit : Int → Config ℤ → ECost) (H : Spec.Hits p hit)
    (hs : ∀ t : Int, 1 ≤ t → t ≤ p.tEnd → ∀ x, Spec.InBox p.bounds x → hit t x = hit 1 x)
    (o : OfflineOptions) (hl : o.l = none) (hα : 0 ≤ o.alpha) :
    ∃ r x out, Multi.optimalGraphSearch p none o = .ok r ∧ Spec.InBox p.bounds x ∧
      p.toProb.alphaUnfairObjective (List.replicate p.tEnd.toNat x) o.alpha = .ok ⟨r.path.cost, out⟩ ∧
      r.path.cost = p.tEnd.toNat • hit 1 x + ((o.alpha * Spec.upCost p.switchingCost (List.replicate p.d.toNat 0) x : ℚ) : ECost) := by
  have hv' := valid_of hv
  have hv1 : (oneSlot p (hit 1)).verify = .ok () := (C10_ssco_verify_exact _).1
    ⟨hv'.1, by show (0 : ℤ) ≤ 1; norm_num, hv'.2.2.1, hv'.2.2.2.1, hv'.2.2.2.2.1, hv'.2.2.2.2.2⟩
  have H1 := one_hits p (hit 1) (H.fin 1 le_rfl hT)
  obtain ⟨r0, r, out, a1, a2, a3, a4⟩ := C134_finer p.tEnd.toNat (oneSlot p (hit 1)) p _ hit (finer p hT hit hs) hv1
    (by show (1 : ℤ) ≤ 1; norm_num) H1 H o hl hα
  obtain ⟨r1, b1, b2, b3, -, b5, -⟩ := best hv1 (by show (1 : ℤ) ≤ 1; norm_num) H1 o hl hα
  rw [a1] at b1
  cases Except.ok.inj b1
  have hlen : r0.path.xs.length = 1 := by
    have : (r0.path.xs.length : Int) = 1 := b2
    omega
  match e : r0.path.xs, hlen with
  | [x], _ =>
    refine ⟨r, x, out, a2, b3 x (by rw [e]; simp), ?_, ?_⟩
    · rw [e] at a4
      rw [a3]
      simpa [Spec.stretched] using a4
    · rw [a3, b5, e]
      simp only [Spec.totalCost, add_zero]
      rfl

open Periods in
/-- **C138** In a data center built from constants to which the same loads arrive in all slots, keeping one configuration is a cheapest
plan. -/
theorem C138_data_center (S : Num.Solver) (m : DataCenterModel) (h : Spec.Timeless m) (load : LoadProfile) (n : Nat) (hn : 1 ≤ n)
    (p : SSCO ℤ DCSuccess DCFailure) (hp : m.toSSCO S (List.replicate n load) = .ok p) (hv : p.verify = .ok ())
    (hd : ∀ x, Spec.InBox p.bounds x → ∃ c, p.toProb.hitCost 1 x = .ok c)
    (hfin : ∀ c, p.toProb.hitCost 1 p.bounds = .ok c → c.cost ≠ ⊤)
    (o : OfflineOptions) (hl : o.l = none) (hα : 0 ≤ o.alpha) :
    ∃ r x out, Multi.optimalGraphSearch p none o = .ok r ∧ Spec.InBox p.bounds x ∧
      p.toProb.alphaUnfairObjective (List.replicate n x) o.alpha = .ok ⟨r.path.cost, out⟩ := by
  have hT : p.tEnd = n := by
    obtain ⟨bs, sc, hs⟩ := Timeless.shape hp
    rw [hs] at hp
    rw [← Except.ok.inj hp]
    simp
  have hsame : ∀ t : Int, 1 ≤ t → t ≤ p.tEnd → ∀ x, p.toProb.hitCost t x = p.toProb.hitCost 1 x := by
    intro t t1 t2 x
    refine C122_hitting S m h _ _ p p hp hp t 1 t1 le_rfl ?_ x
    rw [hT] at t2
    unfold access
    rw [if_pos ⟨t1, by simpa using t2⟩, if_pos ⟨le_rfl, by simpa using hn⟩, List.getElem?_replicate, List.getElem?_replicate,
      if_pos (by omega), if_pos (by omega)]
  have hb : Spec.InBox p.bounds p.bounds := by
    have hv' := valid_of hv
    have : ∀ bs : List ℤ, (∀ b ∈ bs, 0 < b) → List.Forall₂ (fun u j : ℤ => 0 ≤ j ∧ j ≤ u) bs bs := by
      intro bs
      induction bs with
      | nil => intro _; exact .nil
      | cons b bs ih => intro h; exact .cons ⟨(h b (by simp)).le, le_rfl⟩ (ih fun b hb => h b (by simp [hb]))
    exact this p.bounds hv'.2.2.2.2.1
  let hit : Int → Config ℤ → ECost := fun _ x => match p.toProb.hitCost 1 x with
    | .ok c => c.cost
    | .error _ => ⊤
  have hhit : ∀ x, Spec.InBox p.bounds x → ∃ out, p.toProb.hitCost 1 x = .ok ⟨hit 1 x, out⟩ := by
    intro x hx
    obtain ⟨c, hc⟩ := hd x hx
    exact ⟨c.output, by simp only [hit, hc]⟩
  have H : Spec.Hits p hit := {
    slot := fun t t1 t2 x hx => by
      rw [hsame t t1 t2]
      exact hhit x hx
    fin := fun t t1 t2 => by
      obtain ⟨out, ho⟩ := hhit p.bounds hb
      exact hfin _ ho }
  obtain ⟨r, x, out, h1, h2, h3, -⟩ := C138_steady p hv (by omega) hit H (fun _ _ _ _ _ => rfl) o hl hα
  rw [hT] at h3
  exact ⟨r, x, out, h1, h2, by simpa using h3⟩

/-! ## Examples -/

/-- Two types of servers, four slots with the same costs: three units of work, of which a server of the second type does two. -/
def Ex.steady : SSCO ℤ Unit Unit where
  d := 2
  tEnd := 4
  bounds := [3, 2]
  switchingCost := [1, 3]
  hittingCost := CostFn.new 1 (SingleCostFn.certain fun _ x => .ok (Cost.raw
    (((2 * x.getD 0 0 + 3 * x.getD 1 0 + 5 * max 0 (3 - x.getD 0 0 - 2 * x.getD 1 0) : ℤ) : ℚ) : ECost)))

theorem Ex.steady_hits : Spec.Hits Ex.steady
    fun _ x => ((((2 * x.getD 0 0 + 3 * x.getD 1 0 + 5 * max 0 (3 - x.getD 0 0 - 2 * x.getD 1 0) : ℤ)) : ℚ) : ECost) where
  slot t t1 _ x hx := ⟨_, ((C06_guarded_evaluation _ t Ex.steady.bounds x hx.length_eq.symm).1 hx).1.trans (CostFn.callMean_certain _ t t1 _)⟩
  fin _ _ _ := WithTop.coe_ne_top

/-- Non-vacuity of `C138_steady`. -/
example := C138_steady Ex.steady (by decide +kernel) (by decide) _ Ex.steady_hits (fun _ _ _ _ _ => rfl) ⟨false, 1, none⟩ rfl (by norm_num)

/-- One server of each type in all slots. -/
example : (Multi.optimalGraphSearch Ex.steady none ⟨false, 1, none⟩).toOption.map (fun r => (r.path.xs, r.path.cost)) =
    some ([[1, 1], [1, 1], [1, 1], [1, 1]], ((24 : ℚ) : ECost)) := by decide +kernel

/-- Non-vacuity of `C138_data_center`: a load of three in all of five slots. -/
example (S : Num.Solver) (hS : Spec.SolvesEmpty S) : ∃ p, ∃ _ : Ex.flatModel.toSSCO S (List.replicate 5 [3]) = .ok p,
    ∃ r x out, Multi.optimalGraphSearch p none ⟨false, 1, none⟩ = .ok r ∧ Spec.InBox p.bounds x ∧
      p.toProb.alphaUnfairObjective (List.replicate 5 x) 1 = .ok ⟨r.path.cost, out⟩ := by
  have hc : ∀ l ∈ [3, 3, 3, 3, 3], Ex.flatFarm.Carries l := by
    intro l hl
    have : l = 3 := by simpa using hl
    subst this
    exact Ex.farm_carries 3 (by simp)
  obtain ⟨p, hp, I⟩ := C87_problem S hS Ex.flatModel Ex.flatFarm Ex.flat_is Ex.flat_valid [3, 3, 3, 3, 3] fun l hm => (hc l hm).1
  have K := C87_convex Ex.flatFarm Ex.flat_valid [3, 3, 3, 3, 3] hc
  have hv : p.verify = .ok () := (C10_ssco_verify_exact p).1 ⟨by rw [I.d]; decide, by rw [I.tEnd]; decide, by rw [I.bounds, I.d]; rfl,
    by rw [I.switching, I.d]; rfl, by rw [I.bounds]; simpa using K.hm, by rw [I.switching]; simpa using K.hβ⟩
  refine ⟨p, hp, C138_data_center S Ex.flatModel Ex.flat_timeless [3] 5 (by norm_num) p hp hv
    (by
      intro x hx
      rw [I.bounds] at hx
      obtain ⟨j, rfl, j0, jm⟩ : ∃ j, x = [j] ∧ 0 ≤ j ∧ j ≤ (4 : ℤ) := by
        cases hx with
        | cons h hn =>
          cases hn
          exact ⟨_, rfl, h.1, h.2⟩
      obtain ⟨out, h⟩ := I.hit 1 le_rfl (by norm_num) j j0 jm
      exact ⟨_, h⟩)
    (by
      intro c hc
      obtain ⟨out, h⟩ := I.hit 1 le_rfl (by norm_num) 4 (by norm_num) (by decide)
      rw [I.bounds] at hc
      rw [show Ex.flatFarm.servers = 4 from rfl, h] at hc
      cases Except.ok.inj hc
      exact K.fin 1 le_rfl (by norm_num)) ⟨false, 1, none⟩ rfl (by norm_num)⟩

end Soco
