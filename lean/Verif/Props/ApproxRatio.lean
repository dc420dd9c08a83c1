import Verif.Lemmas.ApproxRatio
import Verif.Lemmas.Optimiser
import Verif.Spec.Feasible
import Verif.Props.BalancedBudgeting
import Verif.Props.ApproxGraph
import Verif.Props.Balanced
import Verif.Props.SloSblo

/-!
# C64: approximation ratio of the approximate graph search
-/

namespace Soco
open Multi

/-! ## Any hitting costs that grow at most proportionally -/

section
variable {C D : Type} [OutSuccess C] [OutFailure D]

/-- The part of the grid below each bound. -/
theorem powerGrid (γ : ℚ) (hγ : 1 < γ) (bounds : List ℤ) (hpos : ∀ b ∈ bounds, 0 < b) (m : ℤ) (hm : m ∈ bounds) :
    Ratio.Grid γ m (Spec.OnPowerGrid γ bounds) := by
  have hne : bounds ≠ [] := List.ne_nil_of_mem hm
  obtain ⟨h1, w, h2, h3, h4⟩ := C24_gaps γ hγ bounds hne hpos
  refine ⟨hγ, hpos m hm, .inl rfl, .inr (.inl hm), fun a ha ham => ?_, ?_⟩
  · obtain ⟨w, w1, w2, w3⟩ := h1 a ha ⟨m, hm, ham⟩
    rcases le_or_gt w m with h | h
    · exact ⟨w, w1, w2, h, w3⟩
    · refine ⟨m, .inr (.inl hm), ham, le_rfl, ?_⟩
      rcases w3 with w3 | w3
      · left
        have : (m : ℚ) ≤ w := by exact_mod_cast h.le
        linarith
      · omega
  · rcases le_or_gt w m with h | h
    · exact ⟨w, h2, h3, h, h4⟩
    · have : (m : ℚ) ≤ w := by exact_mod_cast h.le
      exact ⟨m, .inr (.inl hm), hpos m hm, le_rfl, by linarith⟩

/-- **C64**. For every `γ > 1` and hitting costs that grow at most proportionally with the servers, the approximate
search returns a schedule that costs at most `2γ - 1` times as much as any feasible schedule. -/
theorem C64_approximation_ratio (p : SSCO ℤ C D) (hv : p.verify = .ok ()) (hT : 1 ≤ p.tEnd)
    (γ : ℚ) (hγ : 1 < γ)
    (o : OfflineOptions) (hl : o.l = none) (hα : 0 ≤ o.alpha) (hit : Int → Config ℤ → ECost)
    (hhit : ∀ t : Int, 1 ≤ t → t ≤ p.tEnd → ∀ x, Spec.InBox p.bounds x →
      ∃ out, p.toProb.hitCost t x = .ok ⟨hit t x, out⟩)
    (hfin : ∀ t : Int, 1 ≤ t → t ≤ p.tEnd → hit t p.bounds ≠ ⊤)
    (hgrow : ∀ t : Int, 1 ≤ t → t ≤ p.tEnd → Spec.GrowsAtMostBy (2 * γ - 1) (Spec.InBox p.bounds) (hit t)) :
    ∃ r N, (∀ fuel, N ≤ fuel → approxGraphSearch fuel p none γ o = some (.ok r)) ∧
      (r.path.xs.length : Int) = p.tEnd ∧ (∀ x ∈ r.path.xs, Spec.InBox p.bounds x) ∧
      (∃ out, p.toProb.alphaUnfairObjective r.path.xs o.alpha = .ok ⟨r.path.cost, out⟩) ∧
      ∀ ys : Schedule ℤ, (ys.length : Int) = p.tEnd → (∀ y ∈ ys, Spec.InBox p.bounds y) →
        ∃ c, p.toProb.alphaUnfairObjective ys o.alpha = .ok c ∧
          ∀ q : ℚ, c.cost = (q : ECost) → r.path.cost ≤ (((2 * γ - 1) * q : ℚ) : ECost) := by
  obtain ⟨r, N, h1, h2, h3, _, h5, h6, _⟩ := C25_approx_optimal_on_grid p hv hT γ hγ o hl hα hit hhit hfin
  have hv' : Spec.ValidSSCO p := by
    by_contra hc
    have := (C10_ssco_verify_exact p).2 hc
    rw [hv] at this; simp at this
  refine ⟨r, N, h1, h2, fun x hx => (h3 x hx).1, h5, fun ys hy hbox => ?_⟩
  have hobj : ∀ zs : Schedule ℤ, (zs.length : Int) = p.tEnd → (∀ z ∈ zs, Spec.InBox p.bounds z) →
      ∃ out, p.toProb.alphaUnfairObjective zs o.alpha
        = .ok ⟨Spec.totalCost hit (Spec.upCost p.switchingCost) o.alpha 1
          (List.replicate p.d.toNat 0) zs, out⟩ := fun zs hz hzb =>
    objective_total p hv' o.alpha hit (fun _ => True) (fun t ht ht' x hx _ => hhit t ht ht' x hx) zs hz
      fun z hz' => ⟨hzb z hz', trivial⟩
  obtain ⟨out, ho⟩ := hobj ys hy hbox
  refine ⟨_, ho, fun q hq => ?_⟩
  have hd : p.d.toNat = p.bounds.length := by have := hv'.2.2.1; omega
  have hI := Ratio.invL_zero (γ := γ) (G := Spec.OnPowerGrid γ p.bounds) p.bounds
    fun m hm => powerGrid γ hγ p.bounds hv'.2.2.2.2.1 m hm
  simp only at hq
  rw [hd] at hq
  obtain ⟨zs, z1, z2, z3⟩ := Ratio.follow p.switchingCost (fun b hb => (hv'.2.2.2.2.2 b hb).le) o.alpha hα hit p.tEnd
    hgrow ys 1 _ _ _ hI le_rfl (by omega) hbox q hq
  obtain ⟨c, hc, hle⟩ := h6 zs (by omega) z2
  obtain ⟨out', ho'⟩ := hobj zs (by omega) fun z hz => (z2 z hz).1
  rw [ho', hd] at hc
  cases hc
  refine hle.trans (z3.trans (le_of_eq ?_))
  congr 1
  have : Ratio.wsum p.switchingCost (List.replicate p.bounds.length 0) = 0 := by
    unfold Ratio.wsum
    apply List.sum_eq_zero
    intro e he
    obtain ⟨i, hi, rfl⟩ := List.getElem_of_mem he
    simp
  rw [this]; ring

/-! ### Without this assumption -/

namespace RatioEx

/-- One slot, one server type, at most four servers; the cost is `K` times the distance to three servers. -/
def peak (K : ℚ) : SSCO ℤ Unit Unit where
  d := 1
  tEnd := 1
  bounds := [4]
  switchingCost := [1]
  hittingCost := CostFn.new 1 (SingleCostFn.certain fun _ x => .ok (Cost.raw ((K * |(x.getD 0 0 : ℚ) - 3| : ℚ) : ECost)))

theorem peak_hit (K : ℚ) (x : Config ℤ) (hx : Spec.InBox [4] x) :
    (peak K).toProb.hitCost 1 x = .ok (Cost.raw ((K * |(x.getD 0 0 : ℚ) - 3| : ℚ) : ECost)) := by
  have hlen : x.length = (peak K).bounds.length := (List.Forall₂.length_eq hx).symm
  show (peak K).hittingCost.callMeanWithinBounds 1 x _ = _
  rw [((C06_guarded_evaluation (peak K).hittingCost 1 (peak K).bounds x hlen).1 hx).1]
  exact CostFn.callMean_certain _ 1 le_rfl x

theorem up_one (j : ℤ) : Spec.upCost [1] [0] [j] = max 0 (j : ℚ) := by
  have hq : toQ j = (j : ℚ) := rfl
  simp [Spec.upCost, List.zipWith3, toQ_zero, hq]

end RatioEx

open RatioEx in
/-- **C64**. For convex hitting costs in general no ratio can be guaranteed: with `γ = 2` the value 3 is not on the
grid, so for every `K` there is a convex instance whose optimum costs 3, while the approximation costs more than `K`. -/
theorem C64_convex_counterexample (K : ℚ) (hK : 0 < K) :
    (peak K).verify = .ok () ∧
    (∃ r N, (∀ fuel, N ≤ fuel → approxGraphSearch fuel (peak K) none 2 ⟨false, 1, none⟩ = some (.ok r)) ∧
      (K : ECost) ≤ r.path.cost) ∧
    ∃ out, (peak K).toProb.alphaUnfairObjective [[3]] 1 = .ok ⟨((3 : ℚ) : ECost), out⟩ := by
  have hv : (peak K).verify = .ok () := by
    refine (C10_ssco_verify_exact (peak K)).1 ?_
    simp [Spec.ValidSSCO, peak]
  have hv' : Spec.ValidSSCO (peak K) := by simp [Spec.ValidSSCO, peak]
  have hhit : ∀ t : Int, 1 ≤ t → t ≤ (peak K).tEnd → ∀ x, Spec.InBox (peak K).bounds x →
      ∃ out, (peak K).toProb.hitCost t x = .ok ⟨((K * |(x.getD 0 0 : ℚ) - 3| : ℚ) : ECost), out⟩ := by
    intro t ht ht' x hx
    have : t = 1 := by have : t ≤ 1 := ht'; omega
    subst this
    exact ⟨_, peak_hit K x hx⟩
  obtain ⟨r, N, h1, h2, h3, _, h5, _⟩ := C25_approx_optimal_on_grid (peak K) hv (le_refl 1) 2 (by norm_num)
    ⟨false, 1, none⟩ rfl (by norm_num) (fun _ x => ((K * |(x.getD 0 0 : ℚ) - 3| : ℚ) : ECost)) hhit
    (fun _ _ _ => WithTop.coe_ne_top)
  refine ⟨hv, ⟨r, N, h1, ?_⟩, ?_⟩
  · obtain ⟨x, hx⟩ : ∃ x, r.path.xs = [x] := List.length_eq_one_iff.1 (by
      have : (r.path.xs.length : Int) = 1 := h2
      omega)
    obtain ⟨hb, hg⟩ := h3 x (by simp [hx])
    obtain ⟨j, rfl, hj0, hj4⟩ : ∃ j : ℤ, x = [j] ∧ 0 ≤ j ∧ j ≤ 4 := by
      cases hb with
      | @cons _ j _ tl h0 htl => cases htl; exact ⟨j, rfl, h0⟩
    have hj3 : j ≠ 3 := by
      rintro rfl
      rcases hg 3 (by simp) with h | h | ⟨n, hn, h, _⟩
      · omega
      · simp [peak] at h
      · have he : ((2 : ℚ) ^ n) = ((2 ^ n : ℤ) : ℚ) := by push_cast; rfl
        rw [he, Int.floor_intCast, Int.ceil_intCast, or_self] at h
        obtain ⟨n, rfl⟩ : ∃ k, n = k + 1 := ⟨n - 1, by omega⟩
        rw [pow_succ] at h
        omega
    obtain ⟨out, ho⟩ := objective_total (peak K) hv' 1 _ (fun _ => True)
      (fun t ht ht' x hx _ => hhit t ht ht' x hx) r.path.xs h2 fun z hz => ⟨(h3 z hz).1, trivial⟩
    obtain ⟨out', ho'⟩ := h5
    rw [ho] at ho'
    have hc : Spec.totalCost _ _ _ _ _ _ = r.path.cost := congrArg Cost.cost (Except.ok.inj ho')
    rw [← hc, hx]
    have e : (List.replicate (peak K).d.toNat (0 : ℤ)) = [0] := rfl
    have e' : (peak K).switchingCost = [1] := rfl
    simp only [Spec.totalCost, e, e', up_one, List.getD_cons_zero, add_zero, one_mul]
    rw [← WithTop.coe_add]
    apply WithTop.coe_le_coe.2
    have h1j : (1 : ℚ) ≤ |(j : ℚ) - 3| := by
      rcases lt_or_gt_of_ne hj3 with h | h
      · have : (j : ℚ) + 1 ≤ 3 := by exact_mod_cast h
        exact le_trans (by linarith) (neg_le_abs _)
      · have : (3 : ℚ) + 1 ≤ j := by exact_mod_cast h
        exact le_trans (by linarith) (le_abs_self _)
    have : 0 ≤ max 0 (j : ℚ) := le_max_left _ _
    nlinarith
  · obtain ⟨out, ho⟩ := objective_total (peak K) hv' 1 _ (fun _ => True)
      (fun t ht ht' x hx _ => hhit t ht ht' x hx) [[3]] rfl fun z hz => by
        simp only [List.mem_singleton] at hz
        subst hz
        exact ⟨.cons ⟨by norm_num, by norm_num⟩ .nil, trivial⟩
    refine ⟨out, ho.trans ?_⟩
    congr 2
    have e : (List.replicate (peak K).d.toNat (0 : ℤ)) = [0] := rfl
    have e' : (peak K).switchingCost = [1] := rfl
    simp only [Spec.totalCost, e, e', up_one, List.getD_cons_zero, add_zero, one_mul]
    rw [← WithTop.coe_add]
    congr 1
    norm_num

end

/-! ## Balanced loads -/

section

theorem mulQ_coe (q a : ℚ) : ECost.mulQ q (a : ECost) = ((q * a : ℚ) : ECost) := rfl

theorem mulQ_top (q : ℚ) : ECost.mulQ q ⊤ = ⊤ := rfl

/-- Cost of one dimension with up to `c` times the servers. -/
theorem dimCost_grow (p : SBLO ℤ) (t : Int) (x y : Config ℤ) (l c : ℚ) (z : LoadFractions) (k : Nat)
    (he : z.e = 1) (hz : z.zs.length = z.d - 1) (hk : k < z.d) (hxy : Spec.Between c x y)
    (hpos : 0 ≤ l * z.fr [l] k 0) (f : Nat → ℚ → ECost)
    (hf : ∀ (k : Nat) (g : CostFn ℚ Unit DCFailure), p.hittingCost[k]? = some g → ∀ y : ℚ, 0 ≤ y →
      ∃ o, g.callMean t y = .ok ⟨f k y, o⟩)
    (hc : 0 ≤ c) (h0 : ∀ (k : Nat) (a : ℚ), 0 ≤ a → 0 ≤ f k a)
    (hmono : ∀ (k : Nat) (a b : ℚ), 0 ≤ a → a ≤ b → f k a ≤ f k b)
    (o : DCObjective) (ho : p.dimCost t x [l] z k = .ok o) (q : ℚ) (hq : o.energyCost = (q : ECost)) :
    ∃ o', p.dimCost t y [l] z k = .ok o' ∧ o'.revenueLoss = 0 ∧ o'.energyCost ≤ ((c * q : ℚ) : ECost) := by
  obtain ⟨_, xk, hx, h1, h2⟩ := SBLO.dimCost_ok he hz hk ho
  obtain ⟨yk, hy⟩ : ∃ yk, y[k]? = some yk := by
    have : k < y.length := by rw [← hxy.length_eq]; exact (List.getElem?_eq_some_iff.1 hx).1
    exact ⟨_, List.getElem?_eq_getElem this⟩
  have hr := forall₂_get hxy hx hy
  have hqx : toQ xk = (xk : ℚ) := rfl
  have hqy : toQ yk = (yk : ℚ) := rfl
  rw [hqx] at h1 h2
  have hxyq : (xk : ℚ) ≤ yk := by exact_mod_cast hr.1
  unfold SBLO.dimCost
  rw [z.selectLoads_eq [l] (by rw [he, hz, Nat.mul_one]) (by simp [he]) k hk, he]
  have e0 : IRes.ofRes (idx ((List.range 1).map fun i => ([l] : List ℚ).getD i 0 * z.fr [l] k i) 0) =
      .ok (l * z.fr [l] k 0) := rfl
  simp only [IRes.ofRes, bind, Except.bind]
  simp only [IRes.ofRes] at e0
  rw [e0]
  simp only [idx, hy, hqy]
  rcases lt_or_ge (0 : ℚ) (xk : ℚ) with hp | hn
  · obtain ⟨g, c', hg, hc', hcost⟩ := h1 hp
    have hpy : (0 : ℚ) < yk := by linarith
    have ha : 0 ≤ l * z.fr [l] k 0 / (yk : ℚ) := div_nonneg hpos hpy.le
    have hab : l * z.fr [l] k 0 / (yk : ℚ) ≤ l * z.fr [l] k 0 / (xk : ℚ) := by
      apply div_le_div_of_nonneg_left hpos hp hxyq
    obtain ⟨out, hout⟩ := hf k g hg _ ha
    obtain ⟨out', hout'⟩ := hf k g hg _ (ha.trans hab)
    rw [hout'] at hc'
    cases hc'
    rw [safeBalancing, if_pos hpy]
    simp only [hg, hout]
    refine ⟨_, rfl, rfl, ?_⟩
    simp only
    have hm := hmono k _ _ ha hab
    have hnn := h0 k _ (ha.trans hab)
    simp only at hcost
    rw [hcost] at hq
    revert hq hm hnn
    generalize f k (l * z.fr [l] k 0 / (xk : ℚ)) = b
    generalize f k (l * z.fr [l] k 0 / (yk : ℚ)) = a
    intro hq hm hnn
    cases b using WithTop.recTopCoe with
    | top => rw [mulQ_top] at hq; simp at hq
    | coe b =>
      cases a using WithTop.recTopCoe with
      | top => simp at hm
      | coe a =>
        rw [mulQ_coe] at hq ⊢
        have hq' : (xk : ℚ) * b = q := WithTop.coe_injective hq
        have hm' : a ≤ b := WithTop.coe_le_coe.1 hm
        have hb' : 0 ≤ b := by exact_mod_cast hnn
        apply WithTop.coe_le_coe.2
        rw [← hq']
        calc (yk : ℚ) * a ≤ yk * b := mul_le_mul_of_nonneg_left hm' hpy.le
          _ ≤ (c * xk) * b := mul_le_mul_of_nonneg_right hr.2 hb'
          _ = c * (xk * b) := by ring
  · obtain ⟨h3, h4⟩ := h2 hn
    have hyn : ¬ (yk : ℚ) > 0 := by
      have : c * (xk : ℚ) ≤ 0 := mul_nonpos_of_nonneg_of_nonpos hc hn
      have := hr.2
      linarith
    rw [safeBalancing, if_neg hyn, h3]
    simp only [gt_iff_lt, lt_self_iff_false, if_false, if_true]
    refine ⟨_, rfl, rfl, ?_⟩
    rw [h4] at hq
    have : q = 0 := by exact_mod_cast hq.symm
    subst this
    simp

/-- Cost of all dimensions. -/
theorem objective_grow (p : SBLO ℤ) (t : Int) (x y : Config ℤ) (l c : ℚ) (z : LoadFractions) (hd : z.d = p.d.toNat)
    (he : z.e = 1) (hz : z.zs.length = z.d - 1) (hxy : Spec.Between c x y)
    (hpos : ∀ k < z.d, 0 ≤ l * z.fr [l] k 0) (f : Nat → ℚ → ECost)
    (hf : ∀ (k : Nat) (g : CostFn ℚ Unit DCFailure), p.hittingCost[k]? = some g → ∀ y : ℚ, 0 ≤ y →
      ∃ o, g.callMean t y = .ok ⟨f k y, o⟩)
    (hc : 0 ≤ c) (h0 : ∀ (k : Nat) (a : ℚ), 0 ≤ a → 0 ≤ f k a)
    (hmono : ∀ (k : Nat) (a b : ℚ), 0 ≤ a → a ≤ b → f k a ≤ f k b)
    (o : DCObjective) (ho : p.objective t x [l] z = .ok o) (q : ℚ) (hq : o.energyCost + o.revenueLoss = (q : ECost)) :
    ∃ o', p.objective t y [l] z = .ok o' ∧ o'.energyCost + o'.revenueLoss ≤ ((c * q : ℚ) : ECost) := by
  unfold SBLO.objective at ho ⊢
  simp only [bind, Except.bind] at ho ⊢
  split at ho
  · cases ho
  rename_i hx
  rw [IRes.ofRes_ok_iff, assertP_ok_iff, decide_eq_true_eq] at hx
  have hlen : p.d = y.length := by rw [hx, hxy.length_eq]
  have : assertP (decide (p.d = (y.length : Int))) = .ok () := by rw [assertP_ok_iff]; simpa using hlen
  rw [this]
  simp only [IRes.ofRes]
  rw [← hd] at ho ⊢
  clear hx this
  have gen : ∀ (ks : List Nat), (∀ k ∈ ks, k < z.d) → ∀ (o : DCObjective) (q : ℚ),
      sumM (ks.map (p.dimCost t x [l] z)) = .ok o → o.energyCost + o.revenueLoss = (q : ECost) →
      ∃ o', sumM (ks.map (p.dimCost t y [l] z)) = .ok o' ∧
        o'.energyCost + o'.revenueLoss ≤ ((c * q : ℚ) : ECost) := by
    intro ks
    induction ks with
    | nil =>
      intro _ o q h hq
      cases h
      have hz0 : (0 : DCObjective).energyCost + (0 : DCObjective).revenueLoss = ((0 : ℚ) : ECost) := by
        show (0 : ECost) + 0 = _
        simp
      refine ⟨0, rfl, ?_⟩
      rw [hz0] at hq ⊢
      have : 0 = q := WithTop.coe_injective hq
      rw [← this, mul_zero]
    | cons k ks ih =>
      intro hks o q h hq
      simp only [List.map_cons, sumM, bind, Except.bind] at h ⊢
      cases h1 : p.dimCost t x [l] z k with
      | error e => rw [h1] at h; cases h
      | ok a =>
        rw [h1] at h
        simp only at h
        cases h2 : sumM (ks.map (p.dimCost t x [l] z)) with
        | error e => rw [h2] at h; cases h
        | ok b =>
          rw [h2] at h
          cases h
          have hrev := (SBLO.dimCost_ok he hz (hks k (by simp)) h1).1
          have hq' : a.energyCost + b.energyCost + (a.revenueLoss + b.revenueLoss) = (q : ECost) := hq
          rw [hrev, zero_add, add_assoc] at hq'
          cases ha : a.energyCost using WithTop.recTopCoe with
          | top => rw [ha] at hq'; simp at hq'
          | coe qa =>
            cases hb : (b.energyCost + b.revenueLoss) using WithTop.recTopCoe with
            | top => rw [hb] at hq'; simp at hq'
            | coe qb =>
              rw [ha, hb] at hq'
              have hqq : qa + qb = q := by exact_mod_cast hq'
              obtain ⟨a', e1, e2, e3⟩ := dimCost_grow p t x y l c z k he hz (hks k (by simp)) hxy
                (hpos k (hks k (by simp))) f hf hc h0 hmono a h1 qa ha
              obtain ⟨b', e4, e5⟩ := ih (fun k hk => hks k (by simp [hk])) b qb h2 hb
              rw [e1, e4]
              refine ⟨a' + b', rfl, ?_⟩
              show a'.energyCost + b'.energyCost + (a'.revenueLoss + b'.revenueLoss) ≤ _
              rw [e2, zero_add, add_assoc, ← hqq, mul_add, WithTop.coe_add]
              exact add_le_add e3 e5
  exact gen _ (fun k hk => List.mem_range.1 hk) o q ho hq

/-- The constraint on fractions for one type: the last dimension receives the rest. -/
def restNonneg (d : Nat) (l : ℚ) : List (List ℚ → Res Num.Slack) := (List.range 1).map fun i zs => do
  let z ← (LoadFractions.new zs d 1).get (d - 1) i [l]
  .ok (((-z : ℚ) : WithTop ℚ) : Num.Slack)

theorem unitBox (n : Nat) : Spec.GridBox (List.replicate n ((0 : ℚ), (1 : ℚ))) := by
  intro b hb
  rw [List.eq_of_mem_replicate hb]
  exact ⟨by norm_num, ⟨0, by norm_num⟩, ⟨100, by norm_num⟩⟩

theorem unitBox_nonneg {n : Nat} {zs : List ℚ} (h : Spec.InBoxQ (List.replicate n ((0 : ℚ), (1 : ℚ))) zs) :
    ∀ q ∈ zs, 0 ≤ q := by
  intro q hq
  obtain ⟨i, hi, rfl⟩ := List.getElem_of_mem hq
  have hl := h.length_eq
  exact (forall₂_get h (List.getElem?_eq_getElem (by omega)) (List.getElem?_eq_getElem hi)).1.trans' (by simp)

/-- Fractions that meet the constraint assign non-negative loads. -/
theorem fr_nonneg {d : Nat} (hd : 1 ≤ d) {l : ℚ} {zs : List ℚ} (hl : 0 ≤ l)
    (h1 : Spec.InBoxQ (List.replicate (d * 1 - 1) ((0 : ℚ), (1 : ℚ))) zs) (h2 : ∀ j ∈ zs, Spec.OnGrid j)
    (h3 : Spec.Meets (restNonneg d l) zs) (k : Nat) (hk : k < d) :
    0 ≤ l * (⟨zs, d, 1⟩ : LoadFractions).fr [l] k 0 := by
  have hlen : zs.length = d - 1 := by rw [Soco.inBoxQ_length h1]; simp
  have hnew : LoadFractions.new zs d 1 = ⟨zs, d, 1⟩ := by
    unfold LoadFractions.new
    rw [Soco.applyPrecisionVec_grid h2]
  apply mul_nonneg hl
  by_cases hkd : k < d - 1
  · have : (⟨zs, d, 1⟩ : LoadFractions).fr [l] k 0 = zs.getD (k * 1 + 0) 0 := if_pos hkd
    rw [this]
    have hk' : k < zs.length := by omega
    simp only [List.getD, Nat.mul_one, Nat.add_zero, List.getElem?_eq_getElem hk', Option.getD_some]
    exact unitBox_nonneg h1 _ (List.getElem_mem hk')
  · have : k = d - 1 := by omega
    subst this
    obtain ⟨v, hv, hle⟩ := h3 _ (List.mem_map.2 ⟨0, by simp, rfl⟩)
    rw [hnew, LoadFractions.get_eq ⟨zs, d, 1⟩ [l] (by simpa using hlen) rfl (d - 1) 0 (show d - 1 < d by omega)
      Nat.zero_lt_one] at hv
    simp only [bind, Except.bind] at hv
    cases hv
    have : (((-(⟨zs, d, 1⟩ : LoadFractions).fr [l] (d - 1) 0 : ℚ) : WithTop ℚ) : Num.Slack) ≤ ((0 : ℚ) : WithTop ℚ) := hle
    have := WithTop.coe_le_coe.1 (WithBot.coe_le_coe.1 this)
    linarith

/-- All load to the last dimension is feasible. -/
theorem rest_feasible (d : Nat) (hd : 1 ≤ d) (l : ℚ) : ∃ y, Spec.InBoxQ (List.replicate (d * 1 - 1) ((0 : ℚ), (1 : ℚ))) y ∧ (∀ j ∈ y, Spec.OnGrid j) ∧
      Spec.Meets (restNonneg d l) y := by
  have hg : ∀ j ∈ List.replicate (d * 1 - 1) (0 : ℚ), Spec.OnGrid j := by
    intro j hj
    rw [List.eq_of_mem_replicate hj]
    exact ⟨0, by norm_num⟩
  refine ⟨List.replicate (d * 1 - 1) 0, ?_, hg, ?_⟩
  · have := Soco.corner_inBox (List.replicate (d * 1 - 1) ((0 : ℚ), (1 : ℚ))) fun b hb => (unitBox _ b hb).1
    simpa using this
  · intro cst hcst
    simp only [restNonneg, List.mem_map, List.mem_range] at hcst
    obtain ⟨i, hi, rfl⟩ := hcst
    have : i = 0 := by omega
    subst this
    have hnew : LoadFractions.new (List.replicate (d * 1 - 1) 0) d 1 = ⟨List.replicate (d * 1 - 1) 0, d, 1⟩ := by
      unfold LoadFractions.new
      rw [Soco.applyPrecisionVec_grid hg]
    simp only [hnew]
    rw [LoadFractions.get_eq ⟨List.replicate (d * 1 - 1) 0, d, 1⟩ [l] (by simp) rfl (d - 1) 0
      (show d - 1 < d by omega) Nat.zero_lt_one]
    refine ⟨_, rfl, ?_⟩
    have hfr : 0 ≤ (⟨List.replicate (d * 1 - 1) 0, d, 1⟩ : LoadFractions).fr [l] (d - 1) 0 := by
      unfold LoadFractions.fr
      refine le_of_le_of_eq ?_ (if_neg (show ¬ d - 1 < d - 1 from by omega)).symm
      split
      · rename_i hp
        simp only [List.sum_cons, List.sum_nil, add_zero] at hp
        have hs : ((List.range (d - 1)).map fun j => (List.replicate (d * 1 - 1) (0 : ℚ)).getD (j * 1 + 0) 0).sum = 0 := by
          apply List.sum_eq_zero
          intro q hq
          obtain ⟨j, hj, rfl⟩ := List.mem_map.1 hq
          simp [List.getD, List.getElem?_replicate]
          split <;> rfl
        refine le_of_le_of_eq ?_ (congrArg _ hs).symm
        simp [div_self hp.ne']
      · exact le_rfl
    have : (((-(⟨List.replicate (d * 1 - 1) 0, d, 1⟩ : LoadFractions).fr [l] (d - 1) 0 : ℚ) : WithTop ℚ) : Num.Slack)
        ≤ ((0 : ℚ) : WithTop ℚ) := by
      apply WithBot.coe_le_coe.2
      apply WithTop.coe_le_coe.2
      linarith
    exact this

/-- What an exact solver does for the cost of a slot. -/
theorem applyLoads_solver {S : Num.Solver} (hS : Spec.Exact S) {d : Nat} (hd : 1 ≤ d) {objective : LoadObjective ℤ}
    {l : ℚ} (hl : 0 ≤ l) {t : Int} {x : Config ℤ} {c : Cost DCSuccess DCFailure}
    (h : applyLoads S d 1 objective [l] t x = .ok c) :
    ∃ zs : List ℚ, Spec.InBoxQ (List.replicate (d * 1 - 1) ((0 : ℚ), (1 : ℚ))) zs ∧ (∀ j ∈ zs, Spec.OnGrid j) ∧
      Spec.Meets (restNonneg d l) zs ∧ solverObjective d 1 objective [l] t x zs = .ok c.cost ∧
      ∀ zs' : List ℚ, Spec.InBoxQ (List.replicate (d * 1 - 1) ((0 : ℚ), (1 : ℚ))) zs' → (∀ j ∈ zs', Spec.OnGrid j) →
        Spec.Meets (restNonneg d l) zs' → ∀ v, solverObjective d 1 objective [l] t x zs' = .ok v → c.cost ≤ v := by
  unfold applyLoads at h
  simp only [bind, Except.bind] at h
  split at h
  · cases h
  split at h
  · cases h
  split at h
  · cases h
  rename_i r hr
  obtain ⟨a, ha, hr1, _, v, hv, hr2⟩ := minimize_ok hr
  have hst : a.status = .done := by rw [ha]; exact hS.done _ _ _ _
  rw [hst] at hr2
  simp only [reduceCtorEq, if_false] at hr2
  have hc : c.cost = v := by
    rw [← hr2]
    split at h
    · split at h
      · cases h
      · cases h; rfl
    · cases h; rfl
    · cases h
  have hr1' : r.1 = Num.applyPrecisionVec (S (List.replicate (d * 1 - 1) (0, 1)) (solverObjective d 1 objective [l] t x)
      ((some (initialFractions (d * 1 - 1) 1 x)).getD ((List.replicate (d * 1 - 1) ((0 : ℚ), (1 : ℚ))).map Prod.snd))
      (restNonneg d l)).x := by rw [hr1, ha]; rfl
  have hfeas := rest_feasible d hd l
  refine ⟨r.1, ?_, ?_, ?_, ?_, ?_⟩
  · rw [hr1']
    exact Soco.inBoxQ_round (unitBox _) (hS.inside _ _ _ _ fun b hb => (unitBox _ b hb).1)
  · rw [hr1']; exact Soco.onGrid_vec _
  · rw [hr1']; exact hS.feasible _ _ _ _ (unitBox _) hfeas
  · rw [hc]; exact hv
  · intro zs' z1 z2 z3 v' hv'
    rw [hc]
    rw [hr1'] at hv
    exact hS.best _ _ _ _ (unitBox _) zs' v v' z1 z2 z3 hv hv'

/-- **C64**. The costs of balanced-load problems with increasing costs grow at most proportionally: with up to `c`
times the servers, the cost of a slot grows at most by the factor `c`. The solver is exact. -/
theorem C64_balanced_growth (S : Num.Solver) (hS : Spec.Exact S) (p : SBLO ℤ) (hd : 1 ≤ p.d) (t : Int) (ht : 1 ≤ t)
    (l : ℤ) (hl : access p.load t = some l) (hl0 : 0 ≤ l) (f : Nat → ℚ → ECost)
    (hf : ∀ (k : Nat) (g : CostFn ℚ Unit DCFailure), p.hittingCost[k]? = some g → ∀ y : ℚ, 0 ≤ y →
      ∃ o, g.callMean t y = .ok ⟨f k y, o⟩)
    (h0 : ∀ (k : Nat) (a : ℚ), 0 ≤ a → 0 ≤ f k a)
    (hmono : ∀ (k : Nat) (a b : ℚ), 0 ≤ a → a ≤ b → f k a ≤ f k b) (c : ℚ) (hc : 0 ≤ c)
    (x y : Config ℤ) (hx : Spec.InBox p.bounds x) (hy : Spec.InBox p.bounds y) (hxy : Spec.Between c x y)
    (cx cy : Cost DCSuccess DCFailure) (hcx : p.hitCost S t x = .ok cx) (hcy : p.hitCost S t y = .ok cy)
    (q : ℚ) (hq : cx.cost = (q : ECost)) : cy.cost ≤ ((c * q : ℚ) : ECost) := by
  rw [SBLO.hitCost_eq S p t _ ht ‹_› l hl] at hcx hcy
  have hlq : 0 ≤ toQ l := toQ_nonneg.2 hl0
  have hd' : 1 ≤ p.d.toNat := by omega
  obtain ⟨zs, z1, z2, z3, z4, _⟩ := applyLoads_solver hS hd' hlq hcx
  obtain ⟨_, _, _, _, _, hbest⟩ := applyLoads_solver hS hd' hlq hcy
  have hnew : LoadFractions.new zs p.d.toNat 1 = ⟨zs, p.d.toNat, 1⟩ := by
    unfold LoadFractions.new
    rw [Soco.applyPrecisionVec_grid z2]
  unfold solverObjective at z4
  rw [hnew] at z4
  split at z4
  · rename_i o ho
    have hq : o.energyCost + o.revenueLoss = (q : ECost) := by rw [← hq]; exact Except.ok.inj z4
    obtain ⟨o', ho', hle⟩ := objective_grow p t x y (toQ l) c ⟨zs, p.d.toNat, 1⟩ rfl rfl
      (by rw [Soco.inBoxQ_length z1]; simp) hxy (fun k hk => fr_nonneg hd' hlq z1 z2 z3 k hk) f hf hc h0 hmono o ho q hq
    refine (hbest zs z1 z2 z3 (o'.energyCost + o'.revenueLoss) ?_).trans hle
    unfold solverObjective
    rw [hnew, ho']
  · rename_i hh
    have : cx.cost = ⊤ := (Except.ok.inj z4).symm
    rw [this] at hq
    simp at hq
  · cases z4

/-- The objective is defined for feasible fractions. -/
theorem objective_defined (p : SBLO ℤ) (t : Int) (x : Config ℤ) (l : ℚ) (z : LoadFractions) (hd : z.d = p.d.toNat)
    (hx : p.d = x.length) (he : z.e = 1) (hz : z.zs.length = z.d - 1) (hlen : p.d.toNat ≤ p.hittingCost.length)
    (hx0 : ∀ j ∈ x, 0 ≤ j) (hpos : ∀ k < z.d, 0 ≤ l * z.fr [l] k 0) (f : Nat → ℚ → ECost)
    (hf : ∀ (k : Nat) (g : CostFn ℚ Unit DCFailure), p.hittingCost[k]? = some g → ∀ y : ℚ, 0 ≤ y →
      ∃ o, g.callMean t y = .ok ⟨f k y, o⟩) : p.objective t x [l] z ≠ .error .panic := by
  unfold SBLO.objective
  simp only [bind, Except.bind]
  have : assertP (decide (p.d = (x.length : Int))) = .ok () := by rw [assertP_ok_iff]; simpa using hx
  rw [this]
  simp only [IRes.ofRes]
  rw [← hd]
  have hone : ∀ k < z.d, p.dimCost t x [l] z k ≠ .error .panic := by
    intro k hk
    obtain ⟨xk, hxk⟩ : ∃ xk, x[k]? = some xk := ⟨_, List.getElem?_eq_getElem (by omega)⟩
    obtain ⟨g, hg⟩ : ∃ g, p.hittingCost[k]? = some g := ⟨_, List.getElem?_eq_getElem (by omega)⟩
    have hxk0 : 0 ≤ xk := hx0 xk (List.mem_of_getElem? hxk)
    unfold SBLO.dimCost
    rw [z.selectLoads_eq [l] (by rw [he, hz, Nat.mul_one]) (by simp [he]) k hk, he]
    have e0 : IRes.ofRes (idx ((List.range 1).map fun i => ([l] : List ℚ).getD i 0 * z.fr [l] k i) 0) =
        .ok (l * z.fr [l] k 0) := rfl
    simp only [IRes.ofRes, bind, Except.bind]
    simp only [IRes.ofRes] at e0
    rw [e0]
    simp only [idx, hxk]
    rw [safeBalancing]
    by_cases hp : toQ xk > 0
    · rw [if_pos hp]
      obtain ⟨o, ho⟩ := hf k g hg (l * z.fr [l] k 0 / toQ xk) (div_nonneg (hpos k hk) (le_of_lt hp))
      simp only [hg, ho]
      simp
    · rw [if_neg hp]
      rcases eq_or_lt_of_le (hpos k hk) with h | h
      · rw [if_neg (by rw [← h]; exact lt_irrefl _), if_pos h.symm]
        simp
      · rw [if_pos h]
        simp
  have gen : ∀ ks : List Nat, (∀ k ∈ ks, k < z.d) → sumM (ks.map (p.dimCost t x [l] z)) ≠ .error .panic := by
    intro ks
    induction ks with
    | nil => intro _; simp [sumM]
    | cons k ks ih =>
      intro h
      have h1 := hone k (h k (by simp))
      have h2 := ih fun k hk => h k (by simp [hk])
      simp only [List.map_cons, sumM, bind, Except.bind]
      cases h3 : p.dimCost t x [l] z k with
      | error e => rw [h3] at h1; exact h1
      | ok a =>
        cases h4 : sumM (ks.map (p.dimCost t x [l] z)) with
        | error e => rw [h4] at h2; exact h2
        | ok b => simp
  exact gen _ fun k hk => List.mem_range.1 hk

/-- The cost of a slot is defined if the solver evaluates feasible points only. -/
theorem hitCost_defined (S : Num.Solver) (hS : Spec.Exact S) (hS' : Spec.StaysFeasible S) (p : SBLO ℤ) (hd : 1 ≤ p.d)
    (hb : (p.bounds.length : Int) = p.d) (hlen : p.d ≤ p.hittingCost.length) (t : Int) (ht : 1 ≤ t)
    (l : ℤ) (hl : access p.load t = some l) (hl0 : 0 ≤ l) (f : Nat → ℚ → ECost)
    (hf : ∀ (k : Nat) (g : CostFn ℚ Unit DCFailure), p.hittingCost[k]? = some g → ∀ y : ℚ, 0 ≤ y →
      ∃ o, g.callMean t y = .ok ⟨f k y, o⟩) (x : Config ℤ) (hx : Spec.InBox p.bounds x) :
    ∃ c, p.hitCost S t x = .ok c := by
  rw [SBLO.hitCost_eq S p t x ht hx l hl]
  have hlq : 0 ≤ toQ l := toQ_nonneg.2 hl0
  have hd' : 1 ≤ p.d.toNat := by omega
  have hfeas := rest_feasible p.d.toNat hd' (toQ l)
  have hxl : p.d = x.length := by have := hx.length_eq; omega
  have hobj : ∀ zs : List ℚ, Spec.InBoxQ (List.replicate (p.d.toNat * 1 - 1) ((0 : ℚ), (1 : ℚ))) zs →
      (∀ j ∈ zs, Spec.OnGrid j) → Spec.Meets (restNonneg p.d.toNat (toQ l)) zs →
      LoadFractions.new zs p.d.toNat 1 = ⟨zs, p.d.toNat, 1⟩ ∧
      p.objective t x [toQ l] ⟨zs, p.d.toNat, 1⟩ ≠ .error .panic := by
    intro zs h1 h2 h3
    refine ⟨?_, objective_defined p t x (toQ l) ⟨zs, p.d.toNat, 1⟩ rfl hxl rfl
      (by rw [inBoxQ_length h1]; simp) (by omega) (InBox.nonneg hx)
      (fun k hk => fr_nonneg hd' hlq h1 h2 h3 k hk) f hf⟩
    unfold LoadFractions.new
    rw [applyPrecisionVec_grid h2]
  have hsol : ∀ zs : List ℚ, Spec.InBoxQ (List.replicate (p.d.toNat * 1 - 1) ((0 : ℚ), (1 : ℚ))) zs →
      (∀ j ∈ zs, Spec.OnGrid j) → Spec.Meets (restNonneg p.d.toNat (toQ l)) zs →
      ∃ v, solverObjective p.d.toNat 1 p.objective [toQ l] t x zs = .ok v ∧
        ∀ o, p.objective t x [toQ l] ⟨zs, p.d.toNat, 1⟩ = .ok o → v = o.energyCost + o.revenueLoss := by
    intro zs h1 h2 h3
    obtain ⟨h4, h5⟩ := hobj zs h1 h2 h3
    unfold solverObjective
    rw [h4]
    cases h6 : p.objective t x [toQ l] ⟨zs, p.d.toNat, 1⟩ with
    | ok o => exact ⟨_, rfl, fun o' ho' => by cases ho'; rfl⟩
    | error e =>
      cases e with
      | panic => exact absurd h6 h5
      | failure g => exact ⟨_, rfl, fun o' ho' => by cases ho'⟩
  have hinit : (initialFractions (p.d.toNat * 1 - 1) 1 x).length = p.d.toNat * 1 - 1 := by
    unfold initialFractions
    simp only
    split
    · simp
    · simp; omega
  generalize hA : S (List.replicate (p.d.toNat * 1 - 1) (0, 1)) (solverObjective p.d.toNat 1 p.objective [toQ l] t x)
      (initialFractions (p.d.toNat * 1 - 1) 1 x) (restNonneg p.d.toNat (toQ l)) = A
  have hin : Spec.InBoxQ (List.replicate (p.d.toNat * 1 - 1) ((0 : ℚ), (1 : ℚ))) (Num.applyPrecisionVec A.x) := by
    rw [← hA]
    exact inBoxQ_round (unitBox _) (hS.inside _ _ _ _ fun b hb => (unitBox _ b hb).1)
  have hme : Spec.Meets (restNonneg p.d.toNat (toQ l)) (Num.applyPrecisionVec A.x) := by
    rw [← hA]
    exact hS.feasible _ _ _ _ (unitBox _) hfeas
  obtain ⟨v, hv, hvo⟩ := hsol _ hin (onGrid_vec _) hme
  have hst : A.status = .done := by rw [← hA]; exact hS.done _ _ _ _
  have hvisit : Num.visit (solverObjective p.d.toNat 1 p.objective [toQ l] t x) (restNonneg p.d.toNat (toQ l)) A.probes
      = .ok () := by
    refine visit_ok _ _ (fun zs => Spec.InBoxQ (List.replicate (p.d.toNat * 1 - 1) ((0 : ℚ), (1 : ℚ))) zs ∧
      (∀ j ∈ zs, Spec.OnGrid j) ∧ Spec.Meets (restNonneg p.d.toNat (toQ l)) zs) ?_ ?_ _ ?_
    · intro zs h
      obtain ⟨v, hv, _⟩ := hsol zs h.1 h.2.1 h.2.2
      exact ⟨v, hv⟩
    · intro c hc zs h
      obtain ⟨v, hv, _⟩ := h.2.2 c hc
      exact ⟨v, hv⟩
    · intro q hq
      rw [← hA] at hq
      have := hS' _ _ _ _ (unitBox _) hfeas q hq
      exact ⟨this.1, onGrid_vec _, this.2⟩
  have hmin : Num.minimize S (solverObjective p.d.toNat 1 p.objective [toQ l] t x)
      (List.replicate (p.d.toNat * 1 - 1) (0, 1)) (some (initialFractions (p.d.toNat * 1 - 1) 1 x))
      (restNonneg p.d.toNat (toQ l)) = .ok (Num.applyPrecisionVec A.x, v) := by
    unfold Num.minimize
    simp only [Option.getD_some, hA, hinit, List.length_replicate, beq_self_eq_true, assertP, if_true, bind, Except.bind,
      hvisit, hv, hst]
    simp
  unfold applyLoads
  have e1 : assertP (1 == ([toQ l] : List ℚ).length) = .ok () := rfl
  have e2 : assertP (decide (1 ≤ p.d.toNat * 1)) = .ok () := by rw [assertP_ok_iff]; simpa using hd'
  have e3 : Num.minimize S (solverObjective p.d.toNat 1 p.objective [toQ l] t x)
      (List.replicate (p.d.toNat * 1 - 1) (0, 1)) (some (initialFractions (p.d.toNat * 1 - 1) 1 x))
      ((List.range 1).map fun i zs => do
        let z ← (LoadFractions.new zs p.d.toNat 1).get (p.d.toNat - 1) i [toQ l]
        .ok (((-z : ℚ) : WithTop ℚ) : Num.Slack)) = .ok (Num.applyPrecisionVec A.x, v) := hmin
  simp only [e1, e2, bind, Except.bind]
  simp only [bind, Except.bind] at e3
  rw [e3]
  obtain ⟨h4, h5⟩ := hobj _ hin (onGrid_vec _) hme
  simp only [h4]
  cases h6 : p.objective t x [toQ l] ⟨Num.applyPrecisionVec A.x, p.d.toNat, 1⟩ with
  | ok o =>
    simp only
    rw [(assertP_ok_iff _ ()).2 (by simpa using hvo o h6)]
    exact ⟨_, rfl⟩
  | error e =>
    cases e with
    | panic => exact absurd h6 h5
    | failure g => exact ⟨_, rfl⟩

/-- **C64**. For balanced-load problems with increasing, non-negative costs of servers, the approximate search is a
`2γ - 1`-approximation, for every `γ > 1`. -/
theorem C64_balanced_ratio (S : Num.Solver) (hS : Spec.Exact S) (hS' : Spec.StaysFeasible S) (p : SBLO ℤ)
    (hv : p.verify = .ok ()) (hT : 1 ≤ p.tEnd) (hlen : p.d ≤ p.hittingCost.length) (f : Int → Nat → ℚ → ECost)
    (hf : ∀ t : Int, 1 ≤ t → t ≤ p.tEnd → ∀ (k : Nat) (g : CostFn ℚ Unit DCFailure), p.hittingCost[k]? = some g →
      ∀ y : ℚ, 0 ≤ y → ∃ o, g.callMean t y = .ok ⟨f t k y, o⟩)
    (h0 : ∀ (t : Int) (k : Nat) (a : ℚ), 0 ≤ a → 0 ≤ f t k a)
    (hmono : ∀ (t : Int) (k : Nat) (a b : ℚ), 0 ≤ a → a ≤ b → f t k a ≤ f t k b)
    (hfin : ∀ t : Int, 1 ≤ t → t ≤ p.tEnd → ∀ c, p.hitCost S t p.bounds = .ok c → c.cost ≠ ⊤)
    (γ : ℚ) (hγ : 1 < γ) (o : OfflineOptions) (hl : o.l = none) (hα : 0 ≤ o.alpha) :
    ∃ r N, (∀ fuel, N ≤ fuel → approxGraphSearch fuel (p.intoSSCO S) none γ o = some (.ok r)) ∧
      (r.path.xs.length : Int) = p.tEnd ∧ (∀ x ∈ r.path.xs, Spec.InBox p.bounds x) ∧
      (∃ out, (p.intoSSCO S).toProb.alphaUnfairObjective r.path.xs o.alpha = .ok ⟨r.path.cost, out⟩) ∧
      ∀ ys : Schedule ℤ, (ys.length : Int) = p.tEnd → (∀ y ∈ ys, Spec.InBox p.bounds y) →
        ∃ c, (p.intoSSCO S).toProb.alphaUnfairObjective ys o.alpha = .ok c ∧
          ∀ q : ℚ, c.cost = (q : ECost) → r.path.cost ≤ (((2 * γ - 1) * q : ℚ) : ECost) := by
  have hv' : Spec.ValidSBLO p := by
    by_contra hc
    have := (C10_sblo_verify_exact p).2 hc
    rw [hv] at this; simp at this
  obtain ⟨v1, v2, v3, v4, v5, v6, v7, v8⟩ := hv'
  have hver : (p.intoSSCO S).verify = .ok () := (C10_ssco_verify_exact _).1 ⟨v1, v2, v3, v4, v6, v7⟩
  have hload : ∀ t : Int, 1 ≤ t → t ≤ p.tEnd → ∃ l, access p.load t = some l ∧ 0 ≤ l := by
    intro t h1 h2
    have hlt : (t - 1).toNat < p.load.length := by omega
    refine ⟨p.load[(t - 1).toNat], ?_, v8 (t - 1).toNat (by omega) _ (List.getElem?_eq_getElem hlt)⟩
    unfold access
    rw [if_pos (by omega), List.getElem?_eq_getElem hlt]
  have hdef : ∀ t : Int, 1 ≤ t → t ≤ p.tEnd → ∀ x, Spec.InBox p.bounds x → ∃ c, p.hitCost S t x = .ok c := by
    intro t h1 h2 x hx
    obtain ⟨l, hl, hl0⟩ := hload t h1 h2
    exact hitCost_defined S hS hS' p (by omega) v3 hlen t h1 l hl hl0 (f t) (hf t h1 h2) x hx
  have hbb : Spec.InBox p.bounds p.bounds := by
    have : ∀ bs : List ℤ, (∀ u ∈ bs, 0 < u) → Spec.InBox bs bs := by
      intro bs
      induction bs with
      | nil => intro _; exact .nil
      | cons b bs ih => intro h; exact .cons ⟨(h b (by simp)).le, le_rfl⟩ (ih fun u hu => h u (by simp [hu]))
    exact this _ v6
  refine C64_approximation_ratio (p.intoSSCO S) hver hT γ hγ o hl hα
    (fun t x => match p.hitCost S t x with | .ok c => c.cost | .error _ => 0) ?_ ?_ ?_
  · intro t h1 h2 x hx
    obtain ⟨c, hc⟩ := hdef t h1 h2 x hx
    rw [Bb.target_hitB S p t h1 x hx, hc]
    exact ⟨c.output, rfl⟩
  · intro t h1 h2
    obtain ⟨c, hc⟩ := hdef t h1 h2 p.bounds hbb
    show (match p.hitCost S t p.bounds with | .ok c => c.cost | .error _ => 0) ≠ ⊤
    rw [hc]
    exact hfin t h1 h2 c hc
  · intro t h1 h2 x y hx hy hxy q hq
    obtain ⟨l, hl, hl0⟩ := hload t h1 h2
    obtain ⟨cx, hcx⟩ := hdef t h1 h2 x hx
    obtain ⟨cy, hcy⟩ := hdef t h1 h2 y hy
    simp only [hcx] at hq
    simp only [hcy]
    exact C64_balanced_growth S hS p (by omega) t h1 l hl hl0 (f t) (hf t h1 h2) (h0 t) (hmono t) (2 * γ - 1)
      (by linarith) x y hx hy hxy cx cy hcx hcy q hq

/-! ### The hypotheses are met -/

/-- Exact solvers which evaluate feasible points only exist. -/
theorem exists_exact_feasible : ∃ S : Num.Solver, Spec.Exact S ∧ Spec.StaysFeasible S := by
  choose X hX using exists_best
  refine ⟨fun box f _ cs => ⟨[], X box f cs, .done⟩, ?_, by intro _ _ _ _ _ _ q hq; simp at hq⟩
  have hr : ∀ box f cs, Spec.GridBox box → Num.applyPrecisionVec (X box f cs) = X box f cs := fun box f cs hg =>
    applyPrecisionVec_grid ((hX box f cs fun b hb => (hg b hb).1).2 hg).1
  refine ⟨⟨fun box f _ cs h => (hX box f cs h).1, by simp, by simp⟩, by simp, ?_, ?_⟩
  · intro box f _ cs hg h
    rw [hr box f cs hg]
    exact ((hX box f cs fun b hb => (hg b hb).1).2 hg).2.1 h
  · intro box f _ cs hg y c c' h1 h2 h3
    simp only [hr box f cs hg]
    exact ((hX box f cs fun b hb => (hg b hb).1).2 hg).2.2 y c c' h1 h2 h3

namespace RatioEx

/-- Two server types with at most 5 and 9 servers, three slots, affine costs. -/
def farm : SBLO ℤ where
  d := 2
  tEnd := 3
  bounds := [5, 9]
  switchingCost := [2, 1]
  hittingCost := [Bb.affine 1, Bb.affine (3 / 2)]
  load := [3, 7, 1]

theorem farm_call (t : Int) (ht : 1 ≤ t) (k : Nat) (g : CostFn ℚ Unit DCFailure) (hg : farm.hittingCost[k]? = some g)
    (y : ℚ) : g.callMean t y = .ok ⟨((([1, 3 / 2] : List ℚ).getD k 0 + y : ℚ) : ECost), .none⟩ := by
  match k, hg with
  | 0, hg => cases hg; exact CostFn.callMean_certain _ t ht y
  | 1, hg => cases hg; exact CostFn.callMean_certain _ t ht y

theorem farm_objective (t : Int) (ht : 1 ≤ t) (l : ℤ) (hl : 0 < l) :
    ∃ v : ℚ, solverObjective 2 1 farm.objective [toQ l] t farm.bounds [0] = .ok (v : ECost) := by
  have hlq : 0 < toQ l := by rw [← toQ_zero (T := ℤ)]; exact toQ_lt.2 hl
  have hz : LoadFractions.new [0] 2 1 = ⟨[0], 2, 1⟩ := by
    have : Num.applyPrecision 0 = 0 := by decide +kernel
    simp [LoadFractions.new, Num.applyPrecisionVec, this]
  have h5 : toQ (5 : ℤ) = 5 := rfl
  have h9 : toQ (9 : ℤ) = 9 := rfl
  have hd : ∀ k < 2, ∃ q : ℚ, farm.dimCost t farm.bounds [toQ l] ⟨[0], 2, 1⟩ k = .ok ⟨(q : ECost), 0⟩ := by
    intro k hk
    obtain ⟨xk, hxk, hpos⟩ : ∃ xk, farm.bounds[k]? = some xk ∧ toQ xk > 0 := by
      match k, hk with
      | 0, _ => exact ⟨5, rfl, by rw [h5]; norm_num⟩
      | 1, _ => exact ⟨9, rfl, by rw [h9]; norm_num⟩
    obtain ⟨g, hg⟩ : ∃ g, farm.hittingCost[k]? = some g := by
      match k, hk with
      | 0, _ => exact ⟨_, rfl⟩
      | 1, _ => exact ⟨_, rfl⟩
    unfold SBLO.dimCost
    rw [LoadFractions.selectLoads_eq ⟨[0], 2, 1⟩ [toQ l] rfl rfl k hk]
    have e0 : idx ((List.range 1).map fun i =>
        ([toQ l] : List ℚ).getD i 0 * (⟨[0], 2, 1⟩ : LoadFractions).fr [toQ l] k i) 0 =
        .ok (toQ l * (⟨[0], 2, 1⟩ : LoadFractions).fr [toQ l] k 0) := rfl
    simp only [IRes.ofRes, bind, Except.bind]
    rw [e0]
    simp only [idx, hxk, hg, safeBalancing, if_pos hpos, farm_call t ht k g hg]
    exact ⟨_, rfl⟩
  obtain ⟨a, ha⟩ := hd 0 (by norm_num)
  obtain ⟨b, hb⟩ := hd 1 (by norm_num)
  refine ⟨a + b, ?_⟩
  unfold solverObjective
  rw [hz]
  have : farm.objective t farm.bounds [toQ l] ⟨[0], 2, 1⟩ = .ok ⟨((a + b : ℚ) : ECost), 0⟩ := by
    unfold SBLO.objective
    have e : (List.range farm.d.toNat) = [0, 1] := rfl
    have e' : assertP (decide (farm.d = (farm.bounds.length : Int))) = .ok () := rfl
    simp only [e', IRes.ofRes, bind, Except.bind, e, List.map_cons, List.map_nil, sumM, ha, hb]
    show Except.ok (⟨(a : ECost) + ((b : ECost) + 0), 0 + (0 + 0)⟩ : DCObjective) = _
    simp
  rw [this]
  simp

theorem farm_load (t : Int) (h1 : 1 ≤ t) (h2 : t ≤ 3) : ∃ l, access farm.load t = some l ∧ 0 < l := by
  have : t = 1 ∨ t = 2 ∨ t = 3 := by omega
  rcases this with rfl | rfl | rfl
  · exact ⟨3, rfl, by norm_num⟩
  · exact ⟨7, rfl, by norm_num⟩
  · exact ⟨1, rfl, by norm_num⟩

/-- Non-vacuity of `C64_balanced_ratio`, with the default `γ`. -/
example (S : Num.Solver) (hS : Spec.Exact S) (hS' : Spec.StaysFeasible S) :=
  C64_balanced_ratio S hS hS' farm (by decide +kernel) (by decide) (by decide)
    (fun _ k y => ((([1, 3 / 2] : List ℚ).getD k 0 + y : ℚ) : ECost))
    (fun t h1 _ k g hg y _ => ⟨.none, farm_call t h1 k g hg y⟩)
    (fun _ k a ha => by
      have : (0 : ℚ) ≤ ([1, 3 / 2] : List ℚ).getD k 0 := by
        match k with
        | 0 => simp
        | 1 => simp; norm_num
        | k + 2 => simp
      exact_mod_cast add_nonneg this ha)
    (fun _ k a b _ hab => by
      apply WithTop.coe_le_coe.2
      linarith)
    (fun t h1 h2 c hc => by
      obtain ⟨l, hl, hl0⟩ := farm_load t h1 h2
      have hbox : Spec.InBox farm.bounds farm.bounds :=
        .cons ⟨by norm_num, le_rfl⟩ (.cons ⟨by norm_num, le_rfl⟩ .nil)
      rw [SBLO.hitCost_eq S farm t _ h1 hbox l hl] at hc
      obtain ⟨_, _, _, _, _, hbest⟩ := applyLoads_solver hS (by decide) (toQ_nonneg.2 hl0.le) hc
      obtain ⟨v, hv⟩ := farm_objective t h1 l hl0
      have hlq : 0 < toQ l := by rw [← toQ_zero (T := ℤ)]; exact toQ_lt.2 hl0
      have h0 : Spec.OnGrid 0 := ⟨0, by norm_num⟩
      have hp : Num.applyPrecision 0 = 0 := by decide +kernel
      have hm : Spec.Meets (restNonneg 2 (toQ l)) [0] := by
        intro cst hcst
        simp only [restNonneg, List.mem_map, List.mem_range] at hcst
        obtain ⟨i, hi, rfl⟩ := hcst
        have : i = 0 := by omega
        subst this
        simp only [LoadFractions.new, Num.applyPrecisionVec, List.map_cons, List.map_nil, hp]
        rw [LoadFractions.get_eq ⟨[0], 2, 1⟩ [toQ l] rfl rfl 1 0 (by decide) Nat.zero_lt_one]
        refine ⟨_, rfl, ?_⟩
        have e : (⟨[0], 2, 1⟩ : LoadFractions).fr [toQ l] 1 0 = 1 := by
          have e1 : ([toQ l] : List ℚ).sum > 0 := by simpa using hlq
          simp [LoadFractions.fr, div_self hlq.ne', hlq]
        rw [e]
        have : (((-1 : ℚ) : WithTop ℚ) : Num.Slack) ≤ ((0 : ℚ) : WithTop ℚ) := by
          apply WithBot.coe_le_coe.2
          apply WithTop.coe_le_coe.2
          norm_num
        exact this
      have := hbest [0] (.cons ⟨le_rfl, by norm_num⟩ .nil) (by simpa using h0) hm _ hv
      intro htop
      rw [htop] at this
      simp at this)
    (11 / 10) (by norm_num) ⟨false, 1, none⟩ rfl (by norm_num)

example := exists_exact_feasible

end RatioEx

end

end Soco
