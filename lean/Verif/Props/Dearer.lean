import Verif.Props.Robust

/-!
# C109: dearer switching never leads to more switching
-/

namespace Soco

variable {T C D : Type} [Value T] [OutSuccess C]

namespace Spec

/-- `xs` is, among the schedules in `A`, one of least cost, and this cost is finite. -/
def Cheapest (p : Prob T C D) (A : Schedule T → Prop) (α : ℚ) (inv : Bool) (xs : Schedule T) : Prop :=
  A xs ∧ ∃ c, p.objectiveWithDefault' xs p.defaultConfig α inv p.tEnd = .ok c ∧ c.cost ≠ ⊤ ∧
    ∀ ys, A ys → ∀ c', p.objectiveWithDefault' ys p.defaultConfig α inv p.tEnd = .ok c' → c.cost ≤ c'.cost

/-- The total movement of `xs` is `M`, its hitting cost `H`. -/
def Splits (p : Prob T C D) (inv : Bool) (xs : Schedule T) (H M : ℚ) : Prop :=
  p.totalMovement xs inv = .ok (M : ECost) ∧
  (p.objectiveWithDefault' xs p.defaultConfig 0 inv p.tEnd).map (·.cost) = .ok (H : ECost)

end Spec

namespace Dearer
open Currency (mulQ_add)

omit [Value T] [OutSuccess C] in
theorem parts_list (p : Prob T C D) (prev cur : Int → Config T) (α : ℚ) (inv : Bool) (F G : Int → Res (Cost C D))
    (M : Int → Res (Cost Unit Unit)) (hF : F = fun t => p.slotCost α inv t (prev t) (cur t))
    (hG : G = fun t => p.slotCost 0 inv t (prev t) (cur t))
    (hM : M = fun t => do
          let m ← p.movement (prev t) (cur t) inv
          .ok (Cost.raw ((m : ℚ) : ECost))) (L : List Int) :
    ((L.mapM F).map fun cs => (cs.map (·.cost)).sum)
      = (do
        let h ← L.mapM G
        let m ← L.mapM M
        .ok ((h.map (·.cost)).sum + ECost.mulQ α (m.map (·.cost)).sum)) := by
  induction L with
  | nil => rw [mapM_nil', mapM_nil', mapM_nil']; simp [bind, Except.bind, Except.map, ECost.mulQ]
  | cons t L ih =>
    rw [mapM_cons', mapM_cons', mapM_cons']
    cases e1 : p.hitOrNone t (cur t) with
    | error e => simp [hF, hG, Prob.slotCost, e1, bind, Except.bind, Except.map]
    | ok h =>
      cases e2 : p.movement (prev t) (cur t) inv with
      | error e => simp [hF, hG, Prob.slotCost, e1, e2, bind, Except.bind, Except.map]
      | ok m =>
        have fF : F t = .ok ⟨h.cost + ((α * m : ℚ) : ECost), h.output⟩ := by
          simp [hF, Prob.slotCost, e1, e2, bind, Except.bind]
        have fG : G t = .ok ⟨h.cost + ((0 * m : ℚ) : ECost), h.output⟩ := by
          simp [hG, Prob.slotCost, e1, e2, bind, Except.bind]
        have fM : M t = .ok (Cost.raw (m : ECost)) := by
          simp [hM, e2, bind, Except.bind]
        rw [fF, fG, fM]
        simp only [bind, Except.bind, Except.map] at ih ⊢
        cases a : L.mapM F <;> cases b : L.mapM G <;> cases c : L.mapM M <;> rw [a, b] at ih <;> try rw [c] at ih
        all_goals simp_all
        rw [mulQ_add]
        have : ECost.mulQ α (Cost.raw (m : ECost) : Cost Unit Unit).cost = ((α * m : ℚ) : ECost) := rfl
        rw [this]
        abel

end Dearer

/-- **C109** (parts). The objective with weight `α` of the switching costs is the hitting cost (the objective with weight
zero) plus `α` times the total movement. Holds for every problem and schedule, including failures. -/
theorem C109_parts (p : Prob T C D) (xs : Schedule T) (α : ℚ) (inv : Bool) :
    (p.objectiveWithDefault' xs p.defaultConfig α inv p.tEnd).map (·.cost)
      = (do
        let h ← p.objectiveWithDefault' xs p.defaultConfig 0 inv p.tEnd
        let m ← p.totalMovement xs inv
        .ok (h.cost + ECost.mulQ α m)) := by
  have := Dearer.parts_list p (fun t => (xs.get (t - 1)).getD p.defaultConfig) (fun t => (xs.get t).getD p.defaultConfig) α inv
    _ _ _ rfl rfl rfl (timeRange 1 p.tEnd)
  unfold Prob.objectiveWithDefault' Prob.totalMovement sumOverSchedule
  simp only [bind, Except.bind, Except.map] at this ⊢
  revert this
  generalize (timeRange 1 p.tEnd).mapM (fun t => p.slotCost α inv t _ _) = A
  generalize (timeRange 1 p.tEnd).mapM (fun t => p.slotCost 0 inv t _ _) = B
  generalize (List.mapM (m := Except Fault) (β := Cost Unit Unit) _ (timeRange 1 p.tEnd)) = M
  intro h
  cases A <;> cases B <;> cases M <;> simp_all [Cost.sum_cost]

namespace Dearer

theorem split_of_finite (p : Prob T C D) (xs : Schedule T) (α : ℚ) (inv : Bool) (c : Cost C D)
    (h : p.objectiveWithDefault' xs p.defaultConfig α inv p.tEnd = .ok c) (hf : c.cost ≠ ⊤) :
    ∃ H M : ℚ, Spec.Splits p inv xs H M ∧ c.cost = ((H + α * M : ℚ) : ECost) := by
  have e := C109_parts p xs α inv
  rw [h] at e
  simp only [Except.map, bind, Except.bind] at e
  cases a : p.objectiveWithDefault' xs p.defaultConfig 0 inv p.tEnd with
  | error e' => rw [a] at e; simp at e
  | ok k =>
    cases b : p.totalMovement xs inv with
    | error e' => rw [a, b] at e; simp at e
    | ok m =>
      rw [a, b] at e
      have e := Except.ok.inj e
      obtain ⟨kc, ko⟩ := k
      dsimp only at e
      induction kc using WithTop.recTopCoe with
      | top => rw [e] at hf; simp at hf
      | coe H =>
        induction m using WithTop.recTopCoe with
        | top => rw [e] at hf; simp [ECost.mulQ] at hf
        | coe M =>
          refine ⟨H, M, ⟨b, by rw [a]; rfl⟩, ?_⟩
          rw [e]; rfl

theorem cost_of_split (p : Prob T C D) (xs : Schedule T) (α : ℚ) (inv : Bool) (H M : ℚ) (h : Spec.Splits p inv xs H M) :
    ∃ out, p.objectiveWithDefault' xs p.defaultConfig α inv p.tEnd = .ok ⟨((H + α * M : ℚ) : ECost), out⟩ := by
  obtain ⟨h1, h2⟩ := h
  have e := C109_parts p xs α inv
  cases k : p.objectiveWithDefault' xs p.defaultConfig 0 inv p.tEnd with
  | error e' => rw [k] at h2; simp [Except.map] at h2
  | ok k' =>
  rw [k] at h2
  have h2 : k'.cost = _ := Except.ok.inj h2
  rw [h1, k] at e
  simp only [Except.map, bind, Except.bind] at e
  cases a : p.objectiveWithDefault' xs p.defaultConfig α inv p.tEnd with
  | error e' => rw [a] at e; simp at e
  | ok k =>
    rw [a] at e
    have e := Except.ok.inj e
    obtain ⟨kc, ko⟩ := k
    dsimp only at e
    exact ⟨ko, by rw [e, h2]; rfl⟩

end Dearer

open Dearer

/-- **C109** (plans). Let `xs` be a cheapest schedule when switching costs have weight `α`, and `ys` one when they have the larger
weight `β`. Then `ys` moves no more than `xs`, costs no less to operate if `α` is not negative, and its cost is not lower if
switching costs something (`xs` does not move by a negative amount). -/
theorem C109_plans (p : Prob T C D) (A : Schedule T → Prop) (α β : ℚ) (hαβ : α < β) (inv : Bool) (xs ys : Schedule T)
    (hx : Spec.Cheapest p A α inv xs) (hy : Spec.Cheapest p A β inv ys) :
    ∃ H M H' M' : ℚ, Spec.Splits p inv xs H M ∧ Spec.Splits p inv ys H' M' ∧ M' ≤ M ∧ (0 ≤ α → H ≤ H') ∧
      (0 ≤ M' → H + α * M ≤ H' + β * M') := by
  obtain ⟨ax, c, c1, c2, c3⟩ := hx
  obtain ⟨ay, k, k1, k2, k3⟩ := hy
  obtain ⟨H, M, s1, e1⟩ := split_of_finite p xs α inv c c1 c2
  obtain ⟨H', M', s2, e2⟩ := split_of_finite p ys β inv k k1 k2
  obtain ⟨o1, f1⟩ := cost_of_split p xs β inv H M s1
  obtain ⟨o2, f2⟩ := cost_of_split p ys α inv H' M' s2
  have i1 := c3 ys ay _ f2
  have i2 := k3 xs ax _ f1
  rw [e1] at i1
  rw [e2] at i2
  have i1 := WithTop.coe_le_coe.1 i1
  have i2 := WithTop.coe_le_coe.1 i2
  have m1 : M' ≤ M := by nlinarith
  refine ⟨H, M, H', M', s1, s2, m1, fun h => ?_, fun h => ?_⟩ <;> nlinarith

/-- **C109** (least cost as a function of the weight). The least cost is a concave function of the weight of the switching costs:
between two weights it is at least what interpolation suggests. -/
theorem C109_concave (p : Prob T C D) (A : Schedule T → Prop) (α β l : ℚ) (h0 : 0 ≤ l) (h1 : l ≤ 1) (inv : Bool)
    (xs ys zs : Schedule T) (hx : Spec.Cheapest p A α inv xs) (hy : Spec.Cheapest p A β inv ys)
    (hz : Spec.Cheapest p A ((1 - l) * α + l * β) inv zs) :
    ∃ a b c : ℚ, (p.objectiveWithDefault' xs p.defaultConfig α inv p.tEnd).map (·.cost) = .ok (a : ECost) ∧
      (p.objectiveWithDefault' ys p.defaultConfig β inv p.tEnd).map (·.cost) = .ok (b : ECost) ∧
      (p.objectiveWithDefault' zs p.defaultConfig ((1 - l) * α + l * β) inv p.tEnd).map (·.cost) = .ok (c : ECost) ∧
      (1 - l) * a + l * b ≤ c := by
  obtain ⟨ax, c, c1, c2, c3⟩ := hx
  obtain ⟨ay, k, k1, k2, k3⟩ := hy
  obtain ⟨az, r, r1, r2, r3⟩ := hz
  obtain ⟨H, M, s1, e1⟩ := split_of_finite p xs _ inv c c1 c2
  obtain ⟨H', M', s2, e2⟩ := split_of_finite p ys _ inv k k1 k2
  obtain ⟨H'', M'', s3, e3⟩ := split_of_finite p zs _ inv r r1 r2
  obtain ⟨o1, f1⟩ := cost_of_split p zs α inv _ _ s3
  obtain ⟨o2, f2⟩ := cost_of_split p zs β inv _ _ s3
  have i1 := c3 zs az _ f1
  have i2 := k3 zs az _ f2
  rw [e1] at i1
  rw [e2] at i2
  have i1 := WithTop.coe_le_coe.1 i1
  have i2 := WithTop.coe_le_coe.1 i2
  refine ⟨_, _, _, by rw [c1, Except.map, e1], by rw [k1, Except.map, e2], by rw [r1, Except.map, e3], ?_⟩
  have j1 := mul_le_mul_of_nonneg_left i1 (sub_nonneg.2 h1)
  have j2 := mul_le_mul_of_nonneg_left i2 h0
  linarith


section
variable [OutFailure D]

namespace Dearer

theorem move_nonneg (p : SSCO T C D) (hv : Spec.ValidSSCO p) (xs : Schedule T) (hl : (xs.length : Int) = p.tEnd)
    (hx : ∀ x ∈ xs, Spec.InBox p.bounds x) (inv : Bool) (H M : ℚ) (h : Spec.Splits p.toProb inv xs H M) : 0 ≤ M := by
  obtain ⟨v1, v2, v3, v4, v5, v6⟩ := hv
  have e := totalMovement_eq p.toProb p.switchingCost (SSCO.simplified p) xs hl.symm
    (fun x hx' => by rw [← (hx x hx').length_eq]; exact v3) v1.le v4 inv
  rw [h.1] at e
  have e := Except.ok.inj e
  rw [WithTop.coe_inj.1 e]
  exact totalMove_nonneg _ (moveCost_nonneg inv _ fun b hb => (v6 b hb).le) _ _

end Dearer

open Dearer

/-- **C109** (one dimension). Among the schedules that the graph search finds for convex costs, the one for dearer switching
moves no more, costs no less to operate, and is reported to cost no less. For switching costs paid when powering up or when
powering down. -/
theorem C109_one_dimension (p : SSCO ℤ C D) (hv : p.verify = .ok ()) (hd : p.d = 1) (m : ℤ)
    (hb : p.bounds = [m]) (o o' : OfflineOptions) (hl : o.l = none) (hl' : o'.l = none) (hi : o'.inverted = o.inverted)
    (hα : 0 ≤ o.alpha) (hαβ : o.alpha < o'.alpha) (g : Int → ℤ → ECost)
    (hhit : ∀ t : Int, 1 ≤ t → t ≤ p.tEnd → ∀ j, 0 ≤ j → j ≤ m →
      ∃ out, p.toProb.hitCost t [j] = .ok ⟨g t j, out⟩)
    (hfin : ∀ t : Int, 1 ≤ t → t ≤ p.tEnd → g t m ≠ ⊤)
    (hnn : ∀ t : Int, 1 ≤ t → t ≤ p.tEnd → ∀ j, 0 ≤ j → j ≤ m → 0 ≤ g t j)
    (hconv : ∀ t : Int, 1 ≤ t → t ≤ p.tEnd → Spec.ConvexOnE m (g t)) :
    ∃ P P' : Path, ∃ H M H' M' : ℚ, Uni.optimalGraphSearch p 0 o = .ok P ∧ Uni.optimalGraphSearch p 0 o' = .ok P' ∧
      Spec.Splits p.toProb o.inverted P.xs H M ∧ Spec.Splits p.toProb o.inverted P'.xs H' M' ∧
      P.cost = ((H + o.alpha * M : ℚ) : ECost) ∧ P'.cost = ((H' + o'.alpha * M' : ℚ) : ECost) ∧
      M' ≤ M ∧ H ≤ H' ∧ P.cost ≤ P'.cost := by
  have hv' : Spec.ValidSSCO p := by
    by_contra hc
    have := (C10_ssco_verify_exact p).2 hc
    rw [hv] at this; simp at this
  have hm : 0 ≤ m := (hv'.2.2.2.2.1 m (by rw [hb]; simp)).le
  have e0 : p.toProb.defaultConfig = [0] := by simp [Prob.defaultConfig, Config.repeat, SSCO.toProb, hd]
  have main : ∀ o : OfflineOptions, o.l = none → 0 ≤ o.alpha → ∃ P : Path, Uni.optimalGraphSearch p 0 o = .ok P ∧
      (P.xs.length : Int) = p.tEnd ∧ (∀ x ∈ P.xs, Spec.InBox p.bounds x) ∧
      (∃ out, p.toProb.objectiveWithDefault' P.xs p.toProb.defaultConfig o.alpha o.inverted p.tEnd = .ok ⟨P.cost, out⟩) ∧
      Spec.Cheapest p.toProb (fun ys => (ys.length : Int) = p.tEnd ∧ ∀ y ∈ ys, Spec.InBox p.bounds y) o.alpha o.inverted P.xs := by
    intro o hl hα
    obtain ⟨P, h1, h2, h3, ⟨out, h4⟩, h5⟩ := C17_optimal p hv hd m hb 0 hm o hl hα g hhit hfin hnn hconv
    obtain ⟨P2, k1, _, _, k4, _⟩ := C16_feasible_true_cost p hv hd m hb 0 hm o hl hα g hhit hfin
      (fun t t1 t2 => hnn t t1 t2 m hm le_rfl)
    rw [h1] at k1
    obtain rfl := Except.ok.inj k1
    rw [e0]
    refine ⟨P, h1, h2, h3, ⟨out, h4⟩, ⟨h2, h3⟩, _, by rw [e0]; exact h4, k4, fun ys hy c' hc' => ?_⟩
    obtain ⟨c, c1, c2⟩ := h5 ys hy.1 hy.2
    rw [e0] at hc'
    have : p.toProb.tEnd = p.tEnd := rfl
    rw [this, c1] at hc'
    obtain rfl := Except.ok.inj hc'
    exact c2
  obtain ⟨P, a1, a2, a3, ⟨out, a4⟩, a5⟩ := main o hl hα
  obtain ⟨P', b1, b2, b3, ⟨out', b4⟩, b5⟩ := main o' hl' (hα.trans hαβ.le)
  rw [hi] at b4 b5
  obtain ⟨H, M, H', M', s1, s2, m1, m2, m3⟩ := C109_plans p.toProb _ _ _ hαβ o.inverted P.xs P'.xs a5 b5
  obtain ⟨_, f1⟩ := cost_of_split p.toProb P.xs o.alpha o.inverted H M s1
  obtain ⟨_, f2⟩ := cost_of_split p.toProb P'.xs o'.alpha o.inverted H' M' s2
  have g1 : P.cost = ((H + o.alpha * M : ℚ) : ECost) := by
    have := a4.symm.trans f1
    exact congrArg Cost.cost (Except.ok.inj this)
  have g2 : P'.cost = ((H' + o'.alpha * M' : ℚ) : ECost) := by
    have := b4.symm.trans f2
    exact congrArg Cost.cost (Except.ok.inj this)
  refine ⟨P, P', H, M, H', M', a1, b1, s1, s2, g1, g2, m1, m2 hα, ?_⟩
  rw [g1, g2]
  exact WithTop.coe_le_coe.2 (m3 (move_nonneg p hv' P'.xs b2 b3 _ _ _ s2))

/-- **C109** (several dimensions). The same for the optimal search in several dimensions, with arbitrary hitting costs. -/
theorem C109_several_dimensions (p : SSCO ℤ C D) (hv : p.verify = .ok ()) (hT : 1 ≤ p.tEnd)
    (o o' : OfflineOptions) (hl : o.l = none) (hl' : o'.l = none) (hα : 0 ≤ o.alpha) (hαβ : o.alpha < o'.alpha)
    (hit : Int → Config ℤ → ECost)
    (hhit : ∀ t : Int, 1 ≤ t → t ≤ p.tEnd → ∀ x, Spec.InBox p.bounds x →
      ∃ out, p.toProb.hitCost t x = .ok ⟨hit t x, out⟩)
    (hfin : ∀ t : Int, 1 ≤ t → t ≤ p.tEnd → hit t p.bounds ≠ ⊤) :
    ∃ r r' : CachedPath Multi.Vertex, ∃ H M H' M' : ℚ,
      Multi.optimalGraphSearch p none o = .ok r ∧ Multi.optimalGraphSearch p none o' = .ok r' ∧
      Spec.Splits p.toProb false r.path.xs H M ∧ Spec.Splits p.toProb false r'.path.xs H' M' ∧
      r.path.cost = ((H + o.alpha * M : ℚ) : ECost) ∧ r'.path.cost = ((H' + o'.alpha * M' : ℚ) : ECost) ∧
      M' ≤ M ∧ H ≤ H' ∧ r.path.cost ≤ r'.path.cost := by
  have hv' : Spec.ValidSSCO p := by
    by_contra hc
    have := (C10_ssco_verify_exact p).2 hc
    rw [hv] at this; simp at this
  have main : ∀ o : OfflineOptions, o.l = none → 0 ≤ o.alpha → ∃ r : CachedPath Multi.Vertex,
      Multi.optimalGraphSearch p none o = .ok r ∧
      (r.path.xs.length : Int) = p.tEnd ∧ (∀ x ∈ r.path.xs, Spec.InBox p.bounds x) ∧
      (∃ out, p.toProb.objectiveWithDefault' r.path.xs p.toProb.defaultConfig o.alpha false p.tEnd = .ok ⟨r.path.cost, out⟩) ∧
      Spec.Cheapest p.toProb (fun ys => (ys.length : Int) = p.tEnd ∧ ∀ y ∈ ys, Spec.InBox p.bounds y) o.alpha false r.path.xs := by
    intro o hl hα
    obtain ⟨r, h1, h2, h3, h6, ⟨out, h4⟩, h5⟩ := C19_graph_search_optimal p hv hT o hl hα hit hhit hfin
    refine ⟨r, h1, h2, h3, ⟨out, h4⟩, ⟨h2, h3⟩, _, h4, h6, fun ys hy c' hc' => ?_⟩
    obtain ⟨c, c1, c2⟩ := h5 ys hy.1 hy.2
    have c1' : p.toProb.objectiveWithDefault' ys p.toProb.defaultConfig o.alpha false p.toProb.tEnd = _ := c1
    rw [c1'] at hc'
    obtain rfl := Except.ok.inj hc'
    exact c2
  obtain ⟨P, a1, a2, a3, ⟨out, a4⟩, a5⟩ := main o hl hα
  obtain ⟨P', b1, b2, b3, ⟨out', b4⟩, b5⟩ := main o' hl' (hα.trans hαβ.le)
  obtain ⟨H, M, H', M', s1, s2, m1, m2, m3⟩ := C109_plans p.toProb _ _ _ hαβ false P.path.xs P'.path.xs a5 b5
  obtain ⟨_, f1⟩ := cost_of_split p.toProb P.path.xs o.alpha false H M s1
  obtain ⟨_, f2⟩ := cost_of_split p.toProb P'.path.xs o'.alpha false H' M' s2
  have g1 : P.path.cost = ((H + o.alpha * M : ℚ) : ECost) := by
    have := a4.symm.trans f1
    exact congrArg Cost.cost (Except.ok.inj this)
  have g2 : P'.path.cost = ((H' + o'.alpha * M' : ℚ) : ECost) := by
    have := b4.symm.trans f2
    exact congrArg Cost.cost (Except.ok.inj this)
  refine ⟨P, P', H, M, H', M', a1, b1, s1, s2, g1, g2, m1, m2 hα, ?_⟩
  rw [g1, g2]
  exact WithTop.coe_le_coe.2 (m3 (move_nonneg p hv' P'.path.xs b2 b3 _ _ _ s2))

end

/-! ## The claims are not empty -/

example (inverted : Bool) := C109_one_dimension (Ex.sscoAt 4) (by decide +kernel) rfl 5 rfl ⟨inverted, 1, none⟩ ⟨inverted, 3, none⟩
  rfl rfl rfl (by norm_num) (by norm_num) (fun t j => (((|j - t| : ℤ) : ℚ) : ECost))
  (fun t h1 _ j h0 hj => Ex.ssco1_hit t h1 j h0 hj) (fun _ _ _ => WithTop.coe_ne_top)
  (fun t h1 h2 => (Ex.abs_costs 4).nonneg t h1 h2) (fun t h1 h2 => (Ex.abs_costs 4).conv t h1 h2)

example (α β : ℚ) (hα : 0 ≤ α) (h : α < β) := C109_several_dimensions Ex.ssco2 (by decide +kernel) (by decide) ⟨false, α, none⟩
  ⟨false, β, none⟩ rfl rfl hα h _ (fun t t1 _ x hx => Ex.ssco2_hitBox t t1 x hx) (fun t t1 t2 => Ex.ssco2_top t t1 t2)

/-- Following the load in every slot against keeping one server: the first moves more and is cheaper to operate. -/
example : Spec.Splits (Ex.sscoAt 3).toProb false [[1], [2], [3]] 0 6 ∧ Spec.Splits (Ex.sscoAt 3).toProb false [[1], [1], [1]] 3 2 := by
  refine ⟨⟨?_, ?_⟩, ?_, ?_⟩ <;> decide +kernel

end Soco
