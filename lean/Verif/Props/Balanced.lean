import Verif.Props.Loads
import Verif.Model.Verifiers

/-!
# C40, C55, C56: costs of balanced loads
-/

namespace Soco

section
variable {T : Type} [Value T]

theorem assertP_ok_iff (b : Bool) (u : Unit) : assertP b = .ok u ↔ b = true := by
  cases b <;> simp [assertP]

theorem minimize_ok {S : Num.Solver} {f : List ℚ → Res ECost} {bounds : List (ℚ × ℚ)} {init : Option (List ℚ)}
    {cs : List (List ℚ → Res Num.Slack)} {r : List ℚ × ECost} (h : Num.minimize S f bounds init cs = .ok r) :
    ∃ a : Num.Answer, a = S bounds f (init.getD (bounds.map Prod.snd)) cs ∧ r.1 = Num.applyPrecisionVec a.x ∧
      a.status ≠ .failed ∧ ∃ v, f r.1 = .ok v ∧ r.2 = if a.status = .timedOut then ⊤ else v := by
  unfold Num.minimize at h
  simp only [bind, Except.bind] at h
  split at h
  · cases h
  · split at h
    · cases h
    · split at h
      · cases h
      · rename_i h3
        split at h
        · cases h
        · rename_i v hv
          cases h
          refine ⟨_, rfl, rfl, ?_, v, hv, rfl⟩
          have := (assertP_ok_iff _ _).1 h3
          simpa using this

theorem applyPrecisionVec_idem (zs : List ℚ) :
    Num.applyPrecisionVec (Num.applyPrecisionVec zs) = Num.applyPrecisionVec zs := by
  unfold Num.applyPrecisionVec
  rw [List.map_map]
  apply List.map_congr_left
  intro z _
  exact (Num.C48_apply_precision z z).1

/-- What a returned cost means: either the cost is infinite, or it is the value of the objective for an assignment, its
two parts and this assignment are reported. A reported failure goes with an infinite cost. -/
theorem applyLoads_ok {S : Num.Solver} (hS : Spec.Shaped S) {d e : Nat} {objective : LoadObjective T}
    {lambda : LoadProfile} {t : Int} {x : Config T} {c : Cost DCSuccess DCFailure}
    (h : applyLoads S d e objective lambda t x = .ok c) :
    e = lambda.length ∧ e ≤ d * e ∧ ∃ zs : List ℚ, zs.length = d * e - e ∧ Num.applyPrecisionVec zs = zs ∧
      ((∃ o, objective t x lambda ⟨zs, d, e⟩ = .ok o ∧ c.cost = o.energyCost + o.revenueLoss ∧
          c.output = .success ⟨o.energyCost, o.revenueLoss, [[zs]]⟩) ∨
       (∃ f, objective t x lambda ⟨zs, d, e⟩ = .error (.failure f) ∧ c.cost = ⊤ ∧ c.output = .failure f)) := by
  unfold applyLoads at h
  simp only [bind, Except.bind] at h
  split at h
  · cases h
  rename_i h1
  split at h
  · cases h
  rename_i h2
  split at h
  · cases h
  rename_i r hr
  have h1' := (assertP_ok_iff _ _).1 h1
  have h2' := (assertP_ok_iff _ _).1 h2
  simp only [beq_iff_eq] at h1'
  simp only [decide_eq_true_eq] at h2'
  obtain ⟨a, ha, hr1, _, v, hv, hr2⟩ := minimize_ok hr
  refine ⟨h1', h2', r.1, ?_, ?_, ?_⟩
  · rw [hr1, ha]
    simp only [Num.applyPrecisionVec, List.length_map]
    rw [hS _ _ _ _ (by
      intro b hb
      rw [List.eq_of_mem_replicate hb]
      norm_num)]
    simp
  · rw [hr1, applyPrecisionVec_idem]
  · have hnew : LoadFractions.new r.1 d e = ⟨r.1, d, e⟩ := by
      unfold LoadFractions.new
      rw [hr1, applyPrecisionVec_idem]
    unfold solverObjective at hv
    rw [hnew] at h hv
    split at h
    · rename_i o ho
      split at h
      · cases h
      rename_i h3
      have h3' := (assertP_ok_iff _ _).1 h3
      simp only [decide_eq_true_eq] at h3'
      cases h
      exact .inl ⟨o, ho, h3', rfl⟩
    · rename_i f hf
      cases h
      rw [hf] at hv
      right
      refine ⟨f, hf, ?_, rfl⟩
      cases hv
      rw [hr2]; split <;> rfl
    · cases h

/-- **C56** Costs of load assignments are reported consistently: a successful output goes with its two parts adding up
to the cost, and a failure goes with an infinite cost. There is always an output. -/
theorem C56_output_consistent {S : Num.Solver} (hS : Spec.Shaped S) {d e : Nat} {objective : LoadObjective T}
    {lambda : LoadProfile} {t : Int} {x : Config T} {c : Cost DCSuccess DCFailure}
    (h : applyLoads S d e objective lambda t x = .ok c) :
    (∃ s, c.output = .success s ∧ c.cost = s.energyCost + s.revenueLoss ∧
      ∃ zs, s.assignments = [[zs]] ∧ zs.length = (d - 1) * e) ∨ (∃ f, c.output = .failure f ∧ c.cost = ⊤) := by
  obtain ⟨_, _, zs, h3, _, h4 | h4⟩ := applyLoads_ok hS h
  · obtain ⟨o, _, h5, h6⟩ := h4
    left
    refine ⟨_, h6, h5, zs, rfl, ?_⟩
    rw [h3, Nat.sub_mul, Nat.one_mul]
  · obtain ⟨f, _, h5, h6⟩ := h4
    exact .inr ⟨f, h6, h5⟩

/-! ## Balanced-load optimisation -/

theorem SBLO.dimCost_ok {p : SBLO T} {t : Int} {x : Config T} {l : ℚ} {z : LoadFractions} {k : Nat} {o : DCObjective}
    (he : z.e = 1) (hz : z.zs.length = z.d - 1) (hk : k < z.d)
    (h : p.dimCost t x [l] z k = .ok o) :
    o.revenueLoss = 0 ∧ ∃ xk, x[k]? = some xk ∧
      (0 < toQ xk → ∃ f c, p.hittingCost[k]? = some f ∧ f.callMean t (l * z.fr [l] k 0 / toQ xk) = .ok c ∧
        o.energyCost = ECost.mulQ (toQ xk) c.cost) ∧
      (toQ xk ≤ 0 → l * z.fr [l] k 0 = 0 ∧ o.energyCost = 0) := by
  unfold SBLO.dimCost at h
  rw [z.selectLoads_eq [l] (by rw [he, hz, Nat.mul_one]) (by simp [he]) k hk, he] at h
  have e0 : IRes.ofRes (idx ((List.range 1).map fun i => ([l] : List ℚ).getD i 0 * z.fr [l] k i) 0) =
      .ok (l * z.fr [l] k 0) := rfl
  simp only [IRes.ofRes, bind, Except.bind] at h
  simp only [IRes.ofRes] at e0
  rw [e0] at h
  cases hx : x[k]? with
  | none => simp [idx, hx] at h
  | some xk =>
    simp only [idx, hx] at h
    split at h
    · cases h
    rename_i c hc
    cases h
    refine ⟨rfl, xk, rfl, ?_, ?_⟩
    · intro hpos
      rw [safeBalancing, if_pos hpos] at hc
      cases hf : p.hittingCost[k]? with
      | none => simp [hf] at hc
      | some f =>
        simp only [hf] at hc
        cases hcm : f.callMean t (l * z.fr [l] k 0 / toQ xk) with
        | error e => simp [hcm] at hc
        | ok c' =>
          simp only [hcm] at hc
          cases hc
          exact ⟨f, c', rfl, hcm, rfl⟩
    · intro hn
      rw [safeBalancing, if_neg (not_lt.2 hn)] at hc
      split at hc
      · cases hc
      · split at hc
        · rename_i h0
          cases hc
          exact ⟨h0, rfl⟩
        · cases hc

theorem forall₂_get {α β : Type} {R : α → β → Prop} {xs : List α} {ys : List β} (h : List.Forall₂ R xs ys) {i : Nat}
    {a : α} {b : β} (ha : xs[i]? = some a) (hb : ys[i]? = some b) : R a b := by
  induction h generalizing i with
  | nil => simp at ha
  | cons h1 _ ih =>
    cases i with
    | zero => simp at ha hb; subst ha; subst hb; exact h1
    | succ i => simp at ha hb; exact ih ha hb

theorem objective_sum_energy (os : List DCObjective) : os.sum.energyCost = (os.map (·.energyCost)).sum := by
  induction os with
  | nil => rfl
  | cons o os ih => rw [List.sum_cons, List.map_cons, List.sum_cons, ← ih]; rfl

theorem objective_sum_revenue (os : List DCObjective) : os.sum.revenueLoss = (os.map (·.revenueLoss)).sum := by
  induction os with
  | nil => rfl
  | cons o os ih => rw [List.sum_cons, List.map_cons, List.sum_cons, ← ih]; rfl

/-- A successful evaluation of the objective of balanced-load optimisation is the cost of a distribution of the load. -/
theorem SBLO.objective_ok {p : SBLO T} {t : Int} {x : Config T} {l : ℚ} {z : LoadFractions} {o : DCObjective}
    (hd : z.d = p.d.toNat) (hd1 : 1 ≤ z.d) (he : z.e = 1) (hz : z.zs.length = z.d - 1) (hl : 0 ≤ l)
    (f : Nat → ℚ → ECost)
    (hf : ∀ k g y c, p.hittingCost[k]? = some g → g.callMean t y = .ok c → c.cost = f k y)
    (h : p.objective t x [l] z = .ok o) :
    o.revenueLoss = 0 ∧ ∃ loads costs, Spec.Balanced f (x.map toQ) l loads costs ∧ o.energyCost = costs.sum ∧
      loads = (List.range z.d).map fun k => l * z.fr [l] k 0 := by
  unfold SBLO.objective at h
  simp only [bind, Except.bind] at h
  split at h
  · cases h
  rename_i hx
  rw [IRes.ofRes_ok_iff, assertP_ok_iff, decide_eq_true_eq] at hx
  have hxd : x.length = z.d := by omega
  obtain ⟨os, h1, rfl⟩ := sumM_map_ok h
  rw [← hd] at h1
  have hlen : os.length = z.d := by rw [← h1.length_eq]; simp
  have hone : ∀ k o, k < z.d → os[k]? = some o → p.dimCost t x [l] z k = .ok o := by
    intro k o hk ho
    exact forall₂_get h1 (List.getElem?_range hk) ho
  refine ⟨?_, (List.range z.d).map (fun k => l * z.fr [l] k 0), os.map (·.energyCost), ⟨?_, ?_, ?_, ?_⟩,
    objective_sum_energy os, rfl⟩
  · rw [objective_sum_revenue]
    apply List.sum_eq_zero
    intro q hq
    rw [List.mem_map] at hq
    obtain ⟨o, ho, rfl⟩ := hq
    obtain ⟨k, hk, rfl⟩ := List.getElem_of_mem ho
    exact (SBLO.dimCost_ok he hz (by omega) (hone k _ (by omega) (List.getElem?_eq_getElem hk))).1
  · simp [hxd]
  · simp [hlen, hxd]
  · rw [map_mul_left_sum (List.range z.d) l (fun k => z.fr [l] k 0)]
    rcases eq_or_lt_of_le hl with h0 | h0
    · rw [← h0, zero_mul]
    · rw [z.fr_sum [l] hd1 (by simpa using h0) 0]
      simp only [List.getD_cons_zero, List.sum_cons, List.sum_nil, add_zero]
      rw [div_self h0.ne', mul_one]
  · intro k xk lk ck hxk hlk hck
    rw [List.getElem?_map] at hxk hlk hck
    rw [Option.map_eq_some_iff] at hxk hlk hck
    obtain ⟨xk', hxk', rfl⟩ := hxk
    obtain ⟨k', hk', rfl⟩ := hlk
    obtain ⟨o, ho, rfl⟩ := hck
    have hk : k < z.d := by rw [← hlen]; exact (List.getElem?_eq_some_iff.1 ho).1
    rw [List.getElem?_range hk] at hk'
    cases hk'
    obtain ⟨_, xk'', h2, h3, h4⟩ := SBLO.dimCost_ok he hz hk (hone k o hk ho)
    rw [hxk'] at h2
    cases h2
    refine ⟨?_, ?_⟩
    · intro hp
      obtain ⟨g, c, hg, hc, hcost⟩ := h3 hp
      rw [hcost, hf k g _ c hg hc]
    · intro hp
      exact h4 hp

theorem SBLO.hitCost_eq (S : Num.Solver) (p : SBLO T) (t : Int) (x : Config T) (ht : 1 ≤ t)
    (hbox : Spec.InBox p.bounds x) (l : T) (hl : access p.load t = some l) :
    p.hitCost S t x = applyLoads S p.d.toNat 1 p.objective [toQ l] t x := by
  have hlen : x.length = p.bounds.length := (List.Forall₂.length_eq hbox).symm
  unfold SBLO.hitCost
  rw [((C06_guarded_evaluation _ t p.bounds x hlen).1 hbox).2.1]
  unfold applyLoadsOverTime CostFn.new
  have hacc : access (p.load.map fun l => ([toQ l] : LoadProfile)) (unshiftTime t 1) = some [toQ l] := by
    unfold unshiftTime
    unfold access at hl ⊢
    split at hl
    · rename_i h
      rw [if_pos (by simpa using h), List.getElem?_map]
      have : (t - 1 + 1 - 1).toNat = (t - 1).toNat := by congr 1; omega
      rw [this, hl]; rfl
    · cases hl
  simp only [CostFn.callCertain, CostFn.get, assertP, ht, ge_iff_le, decide_true, if_true, bind, Except.bind,
    List.filter_cons, le_refl, Bool.and_self, List.filter_nil, List.getLast?_singleton, SingleCostFn.callCertain,
    SingleCostFn.callPredictive, SingleCostFn.certain, hacc]
  cases applyLoads S p.d.toNat 1 p.objective [toQ l] t x with
  | error e => rfl
  | ok c => by_cases h : t = 1 <;> simp [h, Except.map]

/-- **C40** The cost of a configuration of a balanced-load problem is infinite, or it is the cost of a distribution of
the whole load to dimensions with active servers. -/
theorem C40_balanced (S : Num.Solver) (hS : Spec.Shaped S) (p : SBLO T) (hd : 1 ≤ p.d) (t : Int) (x : Config T)
    (ht : 1 ≤ t) (hbox : Spec.InBox p.bounds x) (l : T) (hl : access p.load t = some l) (hl0 : 0 ≤ l)
    (f : Nat → ℚ → ECost) (hf : ∀ k g y c, p.hittingCost[k]? = some g → g.callMean t y = .ok c → c.cost = f k y)
    (c : Cost DCSuccess DCFailure) (h : p.hitCost S t x = .ok c) :
    c.cost = ⊤ ∨ ∃ loads costs, Spec.Balanced f (x.map toQ) (toQ l) loads costs ∧ c.cost = costs.sum := by
  rw [SBLO.hitCost_eq S p t x ht hbox l hl] at h
  obtain ⟨_, _, zs, h3, _, h4 | h4⟩ := applyLoads_ok hS h
  · obtain ⟨o, h5, h6, _⟩ := h4
    right
    have hl' : 0 ≤ toQ l := by
      have := (Value.toQ_mono (T := T)).monotone hl0
      rwa [map_zero] at this
    obtain ⟨h7, loads, costs, h8, h9, _⟩ := SBLO.objective_ok (z := ⟨zs, p.d.toNat, 1⟩) rfl
      (show 1 ≤ p.d.toNat by omega) rfl (by simpa using h3) hl' f hf h5
    refine ⟨loads, costs, h8, ?_⟩
    rw [h6, h7, add_zero, h9]
  · exact .inl h4.choose_spec.2.1

/-- **C40** A configuration without active servers never handles a positive load at a finite cost. -/
theorem C40_no_active_servers (S : Num.Solver) (hS : Spec.Shaped S) (p : SBLO T) (hd : 1 ≤ p.d) (t : Int)
    (x : Config T) (ht : 1 ≤ t) (hbox : Spec.InBox p.bounds x) (l : T) (hl : access p.load t = some l) (hl0 : 0 < l)
    (f : Nat → ℚ → ECost) (hf : ∀ k g y c, p.hittingCost[k]? = some g → g.callMean t y = .ok c → c.cost = f k y)
    (hx : ∀ j ∈ x, j = 0) (c : Cost DCSuccess DCFailure) (h : p.hitCost S t x = .ok c) : c.cost = ⊤ := by
  rcases C40_balanced S hS p hd t x ht hbox l hl hl0.le f hf c h with h1 | ⟨loads, costs, ⟨h2, h3, h4, h5⟩, _⟩
  · exact h1
  · exfalso
    have hz : ∀ q ∈ loads, q = 0 := by
      intro q hq
      obtain ⟨k, hk, rfl⟩ := List.getElem_of_mem hq
      have hk' : k < x.length := by rw [h2] at hk; simpa using hk
      have h6 := (h5 k (toQ x[k]) loads[k] costs[k] (by simp [hk']) (List.getElem?_eq_getElem hk)
        (List.getElem?_eq_getElem (by rw [h3]; simpa using hk'))).2
      refine (h6 ?_).1
      rw [hx _ (List.getElem_mem hk')]
      simp [toQ]
    have h7 : loads.sum = 0 := List.sum_eq_zero hz
    have h8 : 0 < toQ l := by
      have := Value.toQ_mono (T := T) hl0
      rwa [map_zero] at this
    rw [h7] at h4
    linarith

end
end Soco
