import Verif.Spec.SingleType
import Verif.Spec.Capacity
import Verif.Spec.CapacityFrac
import Verif.Props.Site
import Verif.Props.Solve

/-!
# C87: a data center with a single type of servers and jobs
-/

namespace Soco
open Spec

namespace SingleType
variable {m : DataCenterModel} {F : Farm} {S : Num.Solver}

/-- The description of the data center as a site. -/
def site (F : Farm) (t : Int) : Site where
  locations := 1
  types := 1
  sources := 1
  jobTypes := 1
  slot := F.slot
  maxUse := fun _ => F.maxUse
  time := fun _ _ => F.time
  route := fun _ _ => F.route t
  power := fun _ u => F.power u
  price := fun _ p => ECost.mulQ (F.price t) p
  loss := fun _ q => F.gamma * pos (q - F.delay)

theorem describes (h : IsFarm m F) (t : Int) (ht : 1 ≤ t) : Describes m t (site F t) := by
  obtain ⟨loc, st, src, jt, e1, e2, e3, e4, h1, h2, h3, h4, h5, h6, h7, h8, h9⟩ := h
  exact {
    locations := by rw [e1]; rfl
    types := by rw [e2]; rfl
    sources := by rw [e3]; rfl
    jobTypes := by rw [e4]; rfl
    slot := h9
    maxUse := by
      intro k st' hk
      rw [e2] at hk
      match k, hk with
      | 0, hk => cases hk; exact h2
    time := by
      intro i jt' k st' hi hk
      rw [e4] at hi
      rw [e2] at hk
      match i, hi, k, hk with
      | 0, hi, 0, hk => cases hi; cases hk; exact h3
    route := by
      intro s src' j loc' hs hj
      rw [e3] at hs
      rw [e1] at hj
      match s, hs, j, hj with
      | 0, hi, 0, hk => cases hi; cases hk; exact h4 t ht
    power := by
      intro k st' u hk
      rw [e2] at hk
      match k, hk with
      | 0, hk => cases hk; exact h5 u
    price := by
      intro j loc' p hj
      rw [e1] at hj
      match j, hj with
      | 0, hk => cases hk; exact h6 t p ht
    loss := by
      intro i jt' q hi
      rw [e4] at hi
      match i, hi with
      | 0, hk =>
        cases hk
        simp [revenueLossOf, lookup, h7, bind, Except.bind, site] }

theorem select (l : ℚ) (hl : 0 ≤ l) : (LoadFractions.mk [] 1 1).selectLoads [l] 0 = .ok [l] := by
  simp only [LoadFractions.selectLoads, LoadFractions.get, List.range_one, List.mapM_cons, List.mapM_nil, idx]
  by_cases h : 0 < l
  · simp [h, h.ne', sumM, bind, Except.bind, pure, Except.pure]
  · have : l = 0 := le_antisymm (not_lt.1 h) hl
    simp [this, bind, Except.bind, pure, Except.pure]

/-- What the model charges for `j` servers. -/
theorem objective_eq {T : Type} [Value T] (h : IsFarm m F) (hF : F.Valid) (t : Int) (ht : 1 ≤ t) (l : ℚ) (hl : 0 ≤ l)
    (n : T) (hn : 0 ≤ toQ n) :
    (∃ o, m.objective t [n] [l] ⟨[], 1, 1⟩ = .ok o ∧ o.energyCost + o.revenueLoss = F.slotCost t l (toQ n)) ∨
    ((∃ e, m.objective t [n] [l] ⟨[], 1, 1⟩ = .error (.failure e)) ∧ F.slotCost t l (toQ n) = ⊤) := by
  obtain ⟨j, ej⟩ : ∃ j, j = toQ n := ⟨_, rfl⟩
  rw [← ej] at hn ⊢
  have hA : DataCenterModel.Assigned (T := T) (site F t) [n] [l] ⟨[], 1, 1⟩ (fun _ _ => j) (fun _ _ s i => [l].getD (encode 1 s i) 0) := {
    servers := by
      intro a b ha hb
      change a < 1 at ha
      change b < 1 at hb
      obtain rfl : a = 0 := by omega
      obtain rfl : b = 0 := by omega
      exact ⟨n, rfl, ej⟩
    jobs := by
      intro a b ha hb
      change a < 1 at ha
      change b < 1 at hb
      obtain rfl : a = 0 := by omega
      obtain rfl : b = 0 := by omega
      exact ⟨[l], select l hl, rfl, fun s i => rfl⟩
    nonneg := by
      intro a b s i ha hb hs hi
      change s < 1 at hs
      change i < 1 at hi
      obtain rfl : s = 0 := by omega
      obtain rfl : i = 0 := by omega
      exact hl }
  have C := DataCenterModel.C70_objective (describes h t ht) (D := site F t) hF.slot (fun _ _ _ _ => hF.time) [n] [l]
    ⟨[], 1, 1⟩ _ _ hA
  have hfeas : (site F t).Feasible (fun _ _ => j) (fun _ _ s i => [l].getD (encode 1 s i) 0) ↔
      (j ≤ 0 → l = 0) ∧ (0 < j → F.time * l / (j * F.slot) < 1) := by
    constructor
    · intro hf
      have := hf 0 0 Nat.zero_lt_one Nat.zero_lt_one
      simpa [site, Site.jobs, Site.utilisation, Site.work, sumTo, encode] using this
    · intro hf a b ha hb
      change a < 1 at ha
      change b < 1 at hb
      simpa [site, Site.jobs, Site.utilisation, Site.work, sumTo, encode] using hf
  by_cases hf : (j ≤ 0 → l = 0) ∧ (0 < j → F.time * l / (j * F.slot) < 1)
  · left
    refine ⟨_, C.1 (hfeas.2 hf), ?_⟩
    by_cases hj0 : j ≤ 0
    · have : j = 0 := le_antisymm hj0 hn
      subst this
      have : l = 0 := hf.1 hj0
      subst this
      simp [site, sumTo, Site.energyCost, Site.energyOf, Site.lossAt, Farm.slotCost, ECost.mulQ]
    · have hj1 : 0 < j := not_le.1 hj0
      have hu := hf.2 hj1
      have hjq : ¬ (j ≤ 0) := hj0
      have eu : F.use l j = F.time * l / (j * F.slot) := rfl
      have hsoj : F.gamma * pos (F.time * l / l / (1 - F.use l j) + F.route t + F.time - F.delay) * l =
          F.gamma * max 0 (F.time / (1 - F.use l j) + F.route t + F.time - F.delay) * l := by
        by_cases h0 : l = 0
        · rw [h0]; simp
        · rw [mul_div_assoc, div_self h0, mul_one, pos_eq]
      unfold Farm.slotCost
      rw [if_neg hj0]
      by_cases hm : F.use l j ≤ F.maxUse
      · rw [if_pos ⟨hu, hm⟩, ← hsoj, WithTop.coe_add]
        simp [site, sumTo, Site.energyCost, Site.energyOf, Site.lossAt, Site.lossOf, Site.sojourn, Site.utilisation, Site.work,
          Site.jobs, encode, hjq, ← eu, hm, ECost.mulQ]
      · rw [if_neg (fun h => hm h.2)]
        simp [site, sumTo, Site.energyCost, Site.energyOf, Site.utilisation, Site.work, encode, hjq, ← eu, hm, ECost.mulQ]
  · right
    refine ⟨C.2 (fun h => hf (hfeas.1 h)), ?_⟩
    unfold Farm.slotCost
    by_cases hj0 : j ≤ 0
    · rw [if_pos hj0, if_neg]
      intro h0
      exact hf ⟨fun _ => h0, fun h => absurd h (not_lt.2 hj0)⟩
    · rw [if_neg hj0, if_neg]
      rintro ⟨h1, _⟩
      exact hf ⟨fun h => absurd h hj0, fun _ => h1⟩

/-- What the hitting cost of the generated problem is. -/
theorem applyLoads_eq {T : Type} [Value T] (hS : SolvesEmpty S) (h : IsFarm m F) (hF : F.Valid) (t : Int) (ht : 1 ≤ t) (l : ℚ)
    (hl : 0 ≤ l) (j : T) (hj : 0 ≤ toQ j) :
    ∃ out, applyLoads S m.d m.e m.objective [l] t [j] = .ok ⟨F.slotCost t l (toQ j), out⟩ := by
  have hd : m.d = 1 := by
    obtain ⟨_, _, _, _, e1, e2, _⟩ := h
    simp [DataCenterModel.d, e1, e2]
  have he : m.e = 1 := by
    obtain ⟨_, _, _, _, _, _, e3, e4, _⟩ := h
    simp [DataCenterModel.e, e3, e4]
  have hnew : LoadFractions.new [] 1 1 = ⟨[], 1, 1⟩ := rfl
  have hobj := objective_eq h hF t ht l hl j hj
  have hso : solverObjective 1 1 m.objective [l] t [j] [] = .ok (F.slotCost t l (toQ j)) := by
    unfold solverObjective
    rw [hnew]
    rcases hobj with ⟨o, h1, h2⟩ | ⟨⟨e, h1⟩, h2⟩
    · rw [h1, ← h2]
    · rw [h1, h2]
  have hcs : ∀ c ∈ (List.range 1).map (fun i zs => (do
      let z ← (LoadFractions.new zs 1 1).get (1 - 1) i [l]
      .ok (((-z : ℚ) : WithTop ℚ) : Num.Slack) : Res Num.Slack)), ∃ s, c [] = .ok s := by
    intro c hc
    simp only [List.range_one, List.map_cons, List.map_nil, List.mem_singleton] at hc
    subst hc
    by_cases h0 : 0 < l
    · exact ⟨_, by simp [hnew, LoadFractions.get, h0, idx, sumM, bind, Except.bind]; rfl⟩
    · exact ⟨_, by simp [hnew, LoadFractions.get, h0, bind, Except.bind]; rfl⟩
  have hinit : initialFractions (1 * 1 - 1) 1 [j] = [] := by
    simp [initialFractions]
  have hmin := Offline.minimize_empty hS _ _ hso _ hcs
  unfold applyLoads
  rw [hd, he]
  simp only [List.length_singleton, hinit, beq_self_eq_true, assertP, if_true, mul_one, le_refl, decide_true, Nat.sub_self,
    List.replicate_zero, bind, Except.bind] at hmin ⊢
  rw [hmin]
  simp only [hnew]
  rcases hobj with ⟨o, h1, h2⟩ | ⟨⟨e, h1⟩, h2⟩
  · rw [h1]
    simp [h2]
  · rw [h1]
    exact ⟨_, rfl⟩

/-- Costs are not negative. -/
theorem slotCost_nonneg (hF : F.Valid) (t : Int) (ht : 1 ≤ t) (l : ℚ) (hl : 0 ≤ l) (j : ℚ) : 0 ≤ F.slotCost t l j := by
  unfold Farm.slotCost
  split_ifs with h1 h2 h3
  · exact le_rfl
  · exact le_top
  · have hj : 0 < j := not_le.1 h1
    have hu : 0 ≤ F.use l j := div_nonneg (mul_nonneg hF.time hl) (mul_pos hj hF.slot).le
    have : (0 : ℚ) ≤ F.price t * (j * F.power (F.use l j)) +
        F.gamma * max 0 (F.time / (1 - F.use l j) + F.route t + F.time - F.delay) * l :=
      add_nonneg (mul_nonneg (hF.price t ht).le (mul_nonneg hj.le (hF.power _ hu)))
        (mul_nonneg (mul_nonneg hF.gamma (le_max_left _ _)) hl)
    exact_mod_cast this
  · exact le_top

/-- The sojourn time is convex in the number of servers. -/
theorem sojourn_convex {w a x y z : ℚ} (hw : 0 ≤ w) (ha : 0 ≤ a) (hx : a < x) (hxy : x < y) (hyz : y < z) :
    (z - x) * (w / (1 - a / y)) ≤ (z - y) * (w / (1 - a / x)) + (y - x) * (w / (1 - a / z)) := by
  have hx0 : 0 < x := lt_of_le_of_lt ha hx
  have hy0 : 0 < y := hx0.trans hxy
  have hz0 : 0 < z := hy0.trans hyz
  have key : ∀ v : ℚ, a < v → w / (1 - a / v) = w + w * a / (v - a) := by
    intro v hv
    have hv0 : 0 < v := lt_of_le_of_lt ha hv
    have h1 : v - a ≠ 0 := by linarith
    have h2 : 1 - a / v ≠ 0 := by
      rw [← div_self hv0.ne', ← sub_div]
      exact div_ne_zero h1 hv0.ne'
    field_simp
    ring
  rw [key x hx, key y (by linarith), key z (by linarith)]
  have hX : 0 < x - a := by linarith
  have hY : 0 < y - a := by linarith
  have hZ : 0 < z - a := by linarith
  have hinv : (z - x) * (1 / (y - a)) ≤ (z - y) * (1 / (x - a)) + (y - x) * (1 / (z - a)) := by
    have : (z - y) * (1 / (x - a)) + (y - x) * (1 / (z - a)) - (z - x) * (1 / (y - a)) =
        (z - y) * (y - x) * (z - x) / ((x - a) * (y - a) * (z - a)) := by
      field_simp
      ring
    have h0 : 0 ≤ (z - y) * (y - x) * (z - x) / ((x - a) * (y - a) * (z - a)) := by
      apply div_nonneg
      · exact mul_nonneg (mul_nonneg (by linarith) (by linarith)) (by linarith)
      · positivity
    linarith
  have h1 := mul_le_mul_of_nonneg_left hinv (mul_nonneg hw ha)
  have e : ∀ v : ℚ, w * a / v = w * a * (1 / v) := fun v => by ring
  rw [e, e, e]
  nlinarith [h1]

/-- Costs are convex in the number of servers. -/
theorem slotCost_three (hF : F.Valid) (t : Int) (ht : 1 ≤ t) (l : ℚ) (hl : 0 ≤ l) (x y z : ℚ) (hx : 0 ≤ x) (hxy : x < y)
    (hyz : y < z) (fx fz : ℚ) (hfx : F.slotCost t l x = fx) (hfz : F.slotCost t l z = fz) :
    ∃ b : ℚ, F.slotCost t l y = b ∧ (z - x) * b ≤ (z - y) * fx + (y - x) * fz := by
  have hy0 : 0 < y := hx.trans_lt hxy
  have hz0 : 0 < z := hy0.trans hyz
  have hyq := hy0
  have hzq := hz0
  have hxyq := hxy
  have hyzq := hyz
  obtain ⟨a, ha⟩ : ∃ a, a = F.time * l / F.slot := ⟨_, rfl⟩
  have ha0 : 0 ≤ a := ha ▸ div_nonneg (mul_nonneg hF.time hl) hF.slot.le
  have hsl := hF.slot.ne'
  have huse : ∀ j : ℚ, F.use l j = a / j := by
    intro j
    unfold Farm.use
    rw [ha, div_div, mul_comm j]
  have hp := (hF.price t ht).le
  unfold Farm.slotCost at hfz hfx ⊢
  rw [if_neg (not_le.2 hz0)] at hfz
  rw [if_neg (not_le.2 hy0)]
  simp only [huse] at hfz hfx ⊢
  split_ifs at hfz with h1
  · have hfz' := WithTop.coe_injective hfz
    subst hfz'
    by_cases hx0 : x ≤ 0
    · rw [if_pos hx0] at hfx
      have ex : x = 0 := le_antisymm hx0 hx
      subst ex
      split_ifs at hfx with hl0
      · have : fx = 0 := by
          have h : ((0 : ℚ) : ECost) = fx := hfx
          exact (WithTop.coe_injective h).symm
        subst this hl0
        have ea : a = 0 := by rw [ha]; simp
        subst ea
        rw [zero_div] at h1 ⊢
        rw [if_pos h1]
        refine ⟨_, rfl, ?_⟩
        simp only [zero_div, mul_zero, add_zero, Int.cast_zero, sub_zero, zero_add]
        apply le_of_eq
        ring
      · exact absurd hfx.symm WithTop.coe_ne_top
    · have hx1 : 0 < x := not_le.1 hx0
      have hxq := hx1
      rw [if_neg hx0] at hfx
      split_ifs at hfx with h2
      · have hfx' := WithTop.coe_injective hfx
        subst hfx'
        have hle : a / y ≤ a / x := div_le_div_of_nonneg_left ha0 hxq hxyq.le
        rw [if_pos ⟨lt_of_le_of_lt hle h2.1, hle.trans h2.2⟩]
        refine ⟨_, rfl, ?_⟩
        have hax : a < x := (div_lt_one hxq).1 h2.1
        -- energy
        have hE : ((z : ℚ) - x) * (y * F.power (a / y)) ≤
            (z - y) * (x * F.power (a / x)) + (y - x) * (z * F.power (a / z)) := by
          have hd : (0 : ℚ) < (z - x) * y := mul_pos (by linarith) hyq
          have hc := hF.convex (a / x) (a / z) (div_nonneg ha0 hxq.le) (div_nonneg ha0 hzq.le)
            ((y - x) * z / ((z - x) * y)) (div_nonneg (mul_nonneg (by linarith) hzq.le) hd.le) (by
              rw [div_le_one hd]; nlinarith)
          have hzx : (z : ℚ) - x ≠ 0 := by linarith
          have e1 : 1 - ((y : ℚ) - x) * z / ((z - x) * y) = (z - y) * x / ((z - x) * y) := by
            field_simp
            ring
          have e2 : ((z : ℚ) - y) * x / ((z - x) * y) * (a / x) + (y - x) * z / ((z - x) * y) * (a / z) = a / y := by
            field_simp
            ring
          rw [e1, e2] at hc
          have := mul_le_mul_of_nonneg_left hc hd.le
          have e3 : ((z : ℚ) - x) * y * ((z - y) * x / ((z - x) * y) * F.power (a / x) +
              (y - x) * z / ((z - x) * y) * F.power (a / z)) =
              (z - y) * (x * F.power (a / x)) + (y - x) * (z * F.power (a / z)) := by
            field_simp
          rw [e3] at this
          linarith
        -- delay
        have hs := sojourn_convex hF.time ha0 hax hxyq hyzq
        have hD : ((z : ℚ) - x) * max 0 (F.time / (1 - a / y) + F.route t + F.time - F.delay) ≤
            (z - y) * max 0 (F.time / (1 - a / x) + F.route t + F.time - F.delay) +
            (y - x) * max 0 (F.time / (1 - a / z) + F.route t + F.time - F.delay) := by
          have p1 := mul_le_mul_of_nonneg_left (le_max_right (0 : ℚ) (F.time / (1 - a / x) + F.route t + F.time - F.delay))
            (show (0 : ℚ) ≤ z - y by linarith)
          have p2 := mul_le_mul_of_nonneg_left (le_max_right (0 : ℚ) (F.time / (1 - a / z) + F.route t + F.time - F.delay))
            (show (0 : ℚ) ≤ y - x by linarith)
          have q1 := mul_nonneg (show (0 : ℚ) ≤ z - y by linarith)
            (le_max_left (0 : ℚ) (F.time / (1 - a / x) + F.route t + F.time - F.delay))
          have q2 := mul_nonneg (show (0 : ℚ) ≤ y - x by linarith)
            (le_max_left (0 : ℚ) (F.time / (1 - a / z) + F.route t + F.time - F.delay))
          rw [mul_max_of_nonneg _ _ (show (0 : ℚ) ≤ z - x by linarith)]
          apply max_le
          · linarith
          · linarith
        have h3 := mul_le_mul_of_nonneg_left hE hp
        have h4 := mul_le_mul_of_nonneg_left hD (mul_nonneg hF.gamma hl)
        linarith
      · exact absurd hfx.symm WithTop.coe_ne_top
  · exact absurd hfz.symm WithTop.coe_ne_top

theorem slotCost_convex (hF : F.Valid) (t : Int) (ht : 1 ≤ t) (l : ℚ) (hl : 0 ≤ l) :
    ConvexOnE F.servers fun j => F.slotCost t l j := by
  intro x y z hx hxy hyz _ fx fz hfx hfz
  exact slotCost_three hF t ht l hl x y z (by exact_mod_cast hx) (by exact_mod_cast hxy) (by exact_mod_cast hyz) fx fz hfx hfz

/-- What the generated problem is. -/
theorem toSSCO_eq' {T : Type} [Value T] (h : IsFarm m F) (S : Num.Solver) (ls : List LoadProfile) : m.toSSCO (T := T) S ls =
    .ok ⟨1, ls.length, [(F.servers : T)], [F.switching], applyLoadsOverTime S m.d m.e m.objective ls 1⟩ := by
  have hd : m.d = 1 := by
    obtain ⟨_, _, _, _, e1, e2, _⟩ := h
    simp [DataCenterModel.d, e1, e2]
  obtain ⟨loc, st, src, jt, e1, e2, e3, e4, h1, h2, h3, h4, h5, h6, h7, ⟨c, h8, h8'⟩, h9⟩ := h
  have hb : m.bounds (T := T) = .ok [(F.servers : T)] := by
    unfold DataCenterModel.bounds
    rw [hd, e1, e2]
    simp [parse, idx, lookup, h1, bind, Except.bind, pure, Except.pure]
  have hs : switchingCosts m.switchingModel m.serverTypes = .ok [F.switching] := by
    unfold switchingCosts
    rw [e2]
    simp [lookup, h8, h8', bind, Except.bind, pure, Except.pure]
  unfold DataCenterModel.toSSCO
  rw [hb, hs]
  simp [bind, Except.bind, hd]

theorem toSSCO_eq (h : IsFarm m F) (S : Num.Solver) (ls : List LoadProfile) : m.toSSCO (T := ℤ) S ls =
    .ok ⟨1, ls.length, [F.servers], [F.switching], applyLoadsOverTime S m.d m.e m.objective ls 1⟩ := by
  rw [toSSCO_eq' h, Int.cast_id]

/-- In the box costs need not be checked against the bounds. -/
theorem hit_within {T C D : Type} [Value T] [OutSuccess C] [OutFailure D] {p : SSCO T C D} {bound : T} (hb : p.bounds = [bound])
    {j : T} (h0 : 0 ≤ j) (hj : j ≤ bound) (t : Int) : p.toProb.hitCost t [j] = p.hittingCost.callMean t [j] := by
  simp [SSCO.toProb, CostFn.callMeanWithinBounds, withinVec, hb, bind, Except.bind, h0, hj]

theorem mean_over_time {T : Type} [Value T] {ls : List LoadProfile} {t : Int} (h1 : 1 ≤ t) (x : Config T) {l : LoadProfile}
    (hl : ls[(t - 1).toNat]? = some l) :
    (applyLoadsOverTime S m.d m.e m.objective ls 1).callMean t x = applyLoads S m.d m.e m.objective l t x := by
  unfold applyLoadsOverTime
  rw [CostFn.callMean_certain _ _ h1]
  have ha : access ls (unshiftTime t 1) = some l := by
    have hlt : (t - 1).toNat < ls.length := (List.getElem?_eq_some_iff.1 hl).1
    have e : unshiftTime t 1 = t := by unfold unshiftTime; omega
    unfold access
    rw [e, if_pos ⟨by omega, by omega⟩, hl]
  simp only [ha]

theorem certain_over_time {T : Type} [Value T] (ls : List LoadProfile) {t : Int} (h1 : 1 ≤ t) :
    (applyLoadsOverTime S m.d m.e m.objective ls 1 : CostFn (Config T) DCSuccess DCFailure).CertainAt t := by
  intro x r hr
  unfold applyLoadsOverTime at hr
  rw [CostFn.callPredictive_certain _ _ h1] at hr
  split at hr
  · rename_i l _
    cases hc : applyLoads S m.d m.e m.objective l t x with
    | error e => simp [hc, Except.map] at hr
    | ok c => simp only [hc, Except.map, Except.ok.injEq] at hr; subst hr; rfl
  · simp [Except.map] at hr

end SingleType

open SingleType

/-- **C87** The problem generated from a data center with one location, server type, source and job type. It has one
dimension, whose bound is the number of servers and whose switching cost is that of the model, one slot per load, and the
cost of `j` servers in a slot is exactly the energy cost plus revenue loss of `j` servers which share the load of the
slot. -/
theorem C87_problem (S : Num.Solver) (hS : SolvesEmpty S) (m : DataCenterModel) (F : Farm) (h : IsFarm m F) (hF : F.Valid)
    (loads : List ℚ) (hl : ∀ l ∈ loads, 0 ≤ l) :
    ∃ p, m.toSSCO (T := ℤ) S (loads.map fun l => [l]) = .ok p ∧
      Inst p F.servers F.switching (fun t j => F.slotCost t (loads.getD (t - 1).toNat 0) j) loads.length := by
  refine ⟨_, toSSCO_eq h S _, {
    d := rfl
    bounds := rfl
    switching := rfl
    tEnd := by simp
    certain := fun t h1 _ => certain_over_time _ h1
    hit := ?_ }⟩
  intro t h1 h2 j h0 hj
  have hlt : (t - 1).toNat < loads.length := by omega
  rw [hit_within rfl h0 hj]
  simp only
  rw [mean_over_time h1 _ (l := [loads[(t - 1).toNat]]) (by simp)]
  rw [List.getD_eq_getElem _ _ hlt]
  exact applyLoads_eq hS h hF t h1 _ (hl _ (List.getElem_mem _)) j (toQ_nonneg.2 h0)

/-- **C87** The costs of such a data center are non-negative and convex in the number of servers, and finite if all
servers are used, provided that all servers together can process the loads. -/
theorem C87_convex (F : Farm) (hF : F.Valid) (loads : List ℚ) (hl : ∀ l ∈ loads, F.Carries l) :
    Costs F.servers F.switching (fun t j => F.slotCost t (loads.getD (t - 1).toNat 0) j) loads.length := by
  have hmem : ∀ t : Int, 1 ≤ t → t ≤ loads.length → F.Carries (loads.getD (t - 1).toNat 0) := by
    intro t h1 h2
    have hlt : (t - 1).toNat < loads.length := by omega
    rw [List.getD_eq_getElem _ _ hlt]
    exact hl _ (List.getElem_mem _)
  exact {
    hm := hF.servers
    hβ := hF.switching
    fin := by
      intro t h1 h2
      have hc := (hmem t h1 h2).2
      have hs : ¬ ((F.servers : ℚ) ≤ 0) := not_le.2 (by exact_mod_cast hF.servers)
      simp only [Farm.slotCost, if_neg hs, if_pos hc]
      exact WithTop.coe_ne_top
    nonneg := fun t h1 h2 j _ _ => slotCost_nonneg hF t h1 _ (hmem t h1 h2).1 j
    conv := fun t h1 h2 => slotCost_convex hF t h1 _ (hmem t h1 h2).1 }

/-- **C87** The same for the fractional problem, in which parts of servers can be used. -/
theorem C87_problem_fractional (S : Num.Solver) (hS : SolvesEmpty S) (m : DataCenterModel) (F : Farm) (h : IsFarm m F)
    (hF : F.Valid) (loads : List ℚ) (hl : ∀ l ∈ loads, 0 ≤ l) :
    ∃ p, m.toSSCO (T := ℚ) S (loads.map fun l => [l]) = .ok p ∧
      InstQ p F.servers F.switching (fun t j => F.slotCost t (loads.getD (t - 1).toNat 0) j) loads.length := by
  refine ⟨_, toSSCO_eq' h S _, {
    d := rfl
    bounds := rfl
    switching := rfl
    tEnd := by simp
    certain := fun t h1 _ => certain_over_time _ h1
    hit := ?_ }⟩
  intro t h1 h2 j h0 hj
  have hlt : (t - 1).toNat < loads.length := by omega
  rw [hit_within rfl h0 hj]
  simp only
  rw [mean_over_time h1 _ (l := [loads[(t - 1).toNat]]) (by simp)]
  rw [List.getD_eq_getElem _ _ hlt]
  exact applyLoads_eq hS h hF t h1 _ (hl _ (List.getElem_mem _)) j (toQ_nonneg.2 h0)

/-- **C87** Costs are also convex between whole numbers of servers. -/
theorem C87_convex_fractional (F : Farm) (hF : F.Valid) (loads : List ℚ) (hl : ∀ l ∈ loads, F.Carries l) :
    CostsQ F.servers F.switching (fun t j => F.slotCost t (loads.getD (t - 1).toNat 0) j) loads.length := by
  have K := C87_convex F hF loads hl
  have hmem : ∀ t : Int, 1 ≤ t → t ≤ loads.length → 0 ≤ loads.getD (t - 1).toNat 0 := by
    intro t h1 h2
    have hlt : (t - 1).toNat < loads.length := by omega
    rw [List.getD_eq_getElem _ _ hlt]
    exact (hl _ (List.getElem_mem _)).1
  exact {
    hu := by exact_mod_cast hF.servers
    hβ := hF.switching
    fin := K.fin
    nonneg := fun t h1 h2 j _ _ => slotCost_nonneg hF t h1 _ (hmem t h1 h2) j
    conv := fun t h1 h2 x y z hx hxy hyz _ a c ha hc => slotCost_three hF t h1 _ (hmem t h1 h2) x y z hx hxy hyz a c ha hc }

/-- **C87** The three energy consumption models meet the requirements: the linear models always, if the power of a
server does not decrease with its utilisation, and the non-linear model whenever its power function is convex. -/
theorem C87_power (delta : ℚ) (hd : 0 ≤ delta) (st : ServerType) (c : ConsumptionModel)
    (hc : (∃ f q, c = .linear f ∧ f st.key = some q ∧ 0 ≤ q.phiMin ∧ q.phiMin ≤ q.phiMax) ∨
      (∃ f q, c = .simplifiedLinear f ∧ f st.key = some q ∧ 0 ≤ q) ∨
      ∃ powf f q, c = .nonLinear powf f ∧ f st.key = some q ∧ 0 ≤ q.phiMin ∧ 0 < q.beta ∧
        (∀ u, 0 ≤ u → 0 ≤ powf u q.alpha) ∧
        ∀ u v, 0 ≤ u → 0 ≤ v → ∀ a, 0 ≤ a → a ≤ 1 →
          powf ((1 - a) * u + a * v) q.alpha ≤ (1 - a) * powf u q.alpha + a * powf v q.alpha) :
    ∃ power : ℚ → ℚ, (∀ u, c.consumption delta st u = .ok (power u)) ∧ (∀ u, 0 ≤ u → 0 ≤ power u) ∧
      ∀ u v, 0 ≤ u → 0 ≤ v → ∀ a, 0 ≤ a → a ≤ 1 → power ((1 - a) * u + a * v) ≤ (1 - a) * power u + a * power v := by
  rcases hc with ⟨f, q, rfl, h1, h2, h3⟩ | ⟨f, q, rfl, h1, h2⟩ | ⟨powf, f, q, rfl, h1, h2, h3, h4, h5⟩
  · refine ⟨fun u => delta * ((q.phiMax - q.phiMin) * u + q.phiMin), fun u => ?_, fun u hu => ?_, fun u v _ _ a _ _ => ?_⟩
    · simp [ConsumptionModel.consumption, lookup, h1, bind, Except.bind]
    · exact mul_nonneg hd (add_nonneg (mul_nonneg (by linarith) hu) h2)
    · apply le_of_eq
      ring
  · refine ⟨fun u => delta * (q * (1 + u) / 2), fun u => ?_, fun u hu => ?_, fun u v _ _ a _ _ => ?_⟩
    · simp [ConsumptionModel.consumption, lookup, h1, bind, Except.bind]
    · exact mul_nonneg hd (div_nonneg (mul_nonneg h2 (by linarith)) (by norm_num))
    · apply le_of_eq
      ring
  · refine ⟨fun u => delta * (powf u q.alpha / q.beta + q.phiMin), fun u => ?_, fun u hu => ?_,
      fun u v hu hv a h0 h1' => ?_⟩
    · simp [ConsumptionModel.consumption, lookup, h1, bind, Except.bind]
    · exact mul_nonneg hd (add_nonneg (div_nonneg (h4 u hu) h3.le) h2)
    · have h6 := div_le_div_of_nonneg_right (h5 u v hu hv a h0 h1') h3.le
      have h7 := mul_le_mul_of_nonneg_left h6 hd
      have e : delta * (((1 - a) * powf u q.alpha + a * powf v q.alpha) / q.beta) =
        (1 - a) * (delta * (powf u q.alpha / q.beta)) + a * (delta * (powf v q.alpha / q.beta)) := by ring
      rw [e] at h7
      simp only
      linarith

/-! ## Example -/

/-- Four servers which need between one and two units of power; a job takes half a slot. -/
def Ex.farm : Farm where
  servers := 4
  slot := 1
  maxUse := 9 / 10
  time := 1 / 2
  route := fun _ => 1 / 4
  power := fun u => u + 1
  price := fun t => if t = 2 then 3 else 1
  gamma := 2
  delay := 1
  switching := 3

/-- The model of this data center. -/
def Ex.farmModel : DataCenterModel where
  delta := 1
  locations := [⟨"a", fun _ => some 4⟩]
  serverTypes := [⟨"s", 9 / 10⟩]
  sources := [⟨"", fun _ _ => .ok (1 / 4)⟩]
  jobTypes := [⟨"i", fun _ => .ok (1 / 2)⟩]
  consumptionModel := .linear fun _ => some ⟨1, 2⟩
  energyModel := .linear fun _ => some fun t => if t = 2 then 3 else 1
  lossModel := fun _ => some ⟨2, 1⟩
  switchingModel := fun _ => some ⟨1, 1, 2, 1, 1, 0, 0⟩

theorem Ex.farm_is : IsFarm Ex.farmModel Ex.farm :=
  ⟨_, _, _, _, rfl, rfl, rfl, rfl, rfl, rfl, rfl, fun _ _ => rfl, fun u => by
    simp only [Ex.farmModel, ConsumptionModel.consumption, lookup, bind, Except.bind, Ex.farm]
    congr 1
    ring, fun t p _ => rfl, rfl, ⟨_, rfl, by norm_num [SwitchingCost.switchingCost, Ex.farm]⟩, rfl⟩

theorem Ex.farm_valid : Ex.farm.Valid where
  servers := by decide
  slot := by norm_num [Ex.farm]
  time := by norm_num [Ex.farm]
  price t _ := by simp only [Ex.farm]; split <;> norm_num
  gamma := by norm_num [Ex.farm]
  switching := by norm_num [Ex.farm]
  power u hu := by simp only [Ex.farm]; linarith
  convex u v _ _ a _ _ := by simp only [Ex.farm]; linarith

theorem Ex.farm_carries : ∀ l ∈ ([3, 0, 7, 2] : List ℚ), Ex.farm.Carries l := by
  intro l hl
  simp only [List.mem_cons, List.not_mem_nil, or_false] at hl
  rcases hl with rfl | rfl | rfl | rfl <;> norm_num [Farm.Carries, Farm.use, Ex.farm]

/-- One server cannot process three jobs, two servers can, with a utilisation of 3/4. -/
example : Ex.farm.slotCost 1 3 2 = ((14 : ℚ) : ECost) ∧ Ex.farm.slotCost 1 3 1 = ⊤ := by
  constructor <;> norm_num [Farm.slotCost, Farm.use, Ex.farm]

example (S : Num.Solver) (hS : SolvesEmpty S) := C87_problem S hS Ex.farmModel Ex.farm Ex.farm_is Ex.farm_valid [3, 0, 7, 2]
  fun l hl => (Ex.farm_carries l hl).1

example (S : Num.Solver) (hS : SolvesEmpty S) := C87_problem_fractional S hS Ex.farmModel Ex.farm Ex.farm_is Ex.farm_valid
  [3, 0, 7, 2] fun l hl => (Ex.farm_carries l hl).1

example := C87_convex_fractional Ex.farm Ex.farm_valid [3, 0, 7, 2] Ex.farm_carries

/-- Two and a half servers. -/
example : Ex.farm.slotCost 1 3 (5 / 2) ≠ ⊤ := by
  norm_num [Farm.slotCost, Farm.use, Ex.farm]

example := C87_convex Ex.farm Ex.farm_valid [3, 0, 7, 2] Ex.farm_carries

example := C87_power 1 (by norm_num) ⟨"s", 1⟩ (.linear fun _ => some ⟨1, 2⟩)
  (Or.inl ⟨_, _, rfl, rfl, by norm_num, by norm_num⟩)

end Soco
