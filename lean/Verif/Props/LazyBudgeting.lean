import Verif.Lemmas.LaneStep
import Verif.Props.SloSblo
import Verif.Props.MultiGraph2
import Verif.Spec.Online
import Mathlib.Tactic.IntervalCases

/-!
# C32: lazy budgeting for load optimisation
-/

namespace Soco
namespace Spec

/-- `q` is the instance `p` seen at a later time: it has the same parameters and the same loads up to the horizon of
`p`. -/
structure SeenLater (p q : SLO ℤ) : Prop where
  d : p.d = q.d
  bounds : p.bounds = q.bounds
  switchingCost : p.switchingCost = q.switchingCost
  hittingCost : p.hittingCost = q.hittingCost
  tEnd : p.tEnd ≤ q.tEnd
  load : ∀ t, 1 ≤ t → t ≤ p.tEnd → access p.load t = access q.load t

end Spec

namespace Lb

theorem SeenLater.trans {p q r : SLO ℤ} (h1 : Spec.SeenLater p q) (h2 : Spec.SeenLater q r) : Spec.SeenLater p r :=
  ⟨h1.d.trans h2.d, h1.bounds.trans h2.bounds, h1.switchingCost.trans h2.switchingCost,
    h1.hittingCost.trans h2.hittingCost, h1.tEnd.trans h2.tEnd,
    fun t a b => (h1.load t a b).trans (h2.load t a (b.trans h1.tEnd))⟩

/-- The problem whose optimum is followed. -/
def target (S : Num.Solver) (p : SLO ℤ) : SSCO ℤ DCSuccess DCFailure := p.intoSBLO.intoSSCO S

theorem hitCost_seen (S : Num.Solver) {p q : SLO ℤ} (h : Spec.SeenLater p q) (t : Int) (ht : 1 ≤ t) (ht' : t ≤ p.tEnd)
    (x : Config ℤ) : p.intoSBLO.hitCost S t x = q.intoSBLO.hitCost S t x := by
  have hb := h.bounds
  have hl : access (p.load.map fun l => ([toQ l] : LoadProfile)) (unshiftTime t 1) =
      access (q.load.map fun l => ([toQ l] : LoadProfile)) (unshiftTime t 1) := by
    have e := h.load t ht ht'
    have hm : ∀ xs : List ℤ, access (xs.map fun l => ([toQ l] : LoadProfile)) (unshiftTime t 1) =
        (access xs t).map fun l => ([toQ l] : LoadProfile) := by
      intro xs
      unfold unshiftTime access
      rw [show t - 1 + 1 = t by omega, List.length_map]
      split
      · rw [List.getElem?_map]
      · rfl
    rw [hm, hm, e]
  have ho : p.intoSBLO.objective = q.intoSBLO.objective := by
    unfold SBLO.objective SBLO.dimCost SLO.intoSBLO
    simp only [h.d, h.hittingCost]
  unfold SBLO.hitCost CostFn.callCertainWithinBounds applyLoadsOverTime
  simp only [CostFn.callCertain_certain _ t ht]
  rw [ho, show p.intoSBLO.d = q.intoSBLO.d from h.d, show p.intoSBLO.bounds = q.intoSBLO.bounds from hb,
    show p.intoSBLO.load = p.load from rfl, show q.intoSBLO.load = q.load from rfl, hl]

theorem target_hit_seen (S : Num.Solver) {p q : SLO ℤ} (h : Spec.SeenLater p q) (t : Int) (ht : 1 ≤ t)
    (ht' : t ≤ p.tEnd) (x : Config ℤ) : (target S p).toProb.hitCost t x = (target S q).toProb.hitCost t x := by
  unfold target SBLO.intoSSCO SSCO.toProb CostFn.callMeanWithinBounds
  simp only [CostFn.callMean_certain _ t ht]
  rw [hitCost_seen S h t ht ht', show p.intoSBLO.bounds = q.intoSBLO.bounds from h.bounds]

theorem target_hit (S : Num.Solver) (p : SLO ℤ) (t : Int) (ht : 1 ≤ t) (x : Config ℤ) (hx : Spec.InBox p.bounds x) :
    (target S p).toProb.hitCost t x = p.intoSBLO.hitCost S t x := by
  have hlen : x.length = p.bounds.length := (List.Forall₂.length_eq hx).symm
  exact ((C06_guarded_evaluation _ t p.bounds x hlen).1 hx).1.trans (CostFn.callMean_certain _ t ht x)

theorem target_valid (S : Num.Solver) (p : SLO ℤ) (h : Spec.ValidSLO p) : (target S p).verify = .ok () := by
  have hv : Spec.ValidSSCO (target S p) := by
    obtain ⟨h1, h2, h3, h4, _, h5, h6, _⟩ := h
    exact ⟨h1, h2, h3, h4, h5, h6⟩
  exact (C10_ssco_verify_exact _).1 hv

/-- The number of slots a lane of type `k` is kept. -/
def keep (hittingCost switchingCost : List ℚ) (g : ℚ) (k : Nat) : ℤ :=
  if k = 0 then 0 else ⌊g * switchingCost.getD (k - 1) 0 / hittingCost.getD (k - 1) 0⌋

theorem nextTimeHorizon_eq (hc sc : List ℚ) (d k : Nat) (gamma : ℚ) (r : Bool) (h1 : hc.length = d) (h2 : sc.length = d)
    (hpos : ∀ c ∈ hc, 0 < c) (hk : k ≤ d) :
    nextTimeHorizon hc sc k gamma r = .ok (keep hc sc (if r then gamma else 1) k) := by
  unfold nextTimeHorizon keep
  split
  · rfl
  · have hk' : k - 1 < d := by omega
    rw [idx_getD sc (k - 1) (by omega) 0, idx_getD hc (k - 1) (by omega) 0]
    simp only [bind, Except.bind]
    have : hc.getD (k - 1) 0 ≠ 0 := by
      rw [List.getD_eq_getElem _ _ (by omega)]
      exact (hpos _ (List.getElem_mem _)).ne'
    rw [if_neg this]

theorem keep_mono (p : SLO ℤ) (hv : Spec.ValidSLO p) (hc : (p.hittingCost.length : Int) = p.d)
    (hpos : ∀ c ∈ p.hittingCost, 0 < c) (g : ℚ) (hg : 0 ≤ g) (k k' : Nat) (hk : k ≤ k') (hk' : k' ≤ p.d.toNat) :
    keep p.hittingCost p.switchingCost g k ≤ keep p.hittingCost p.switchingCost g k' := by
  obtain ⟨v1, _, _, v4, _, _, v7, _, v9, v10, _⟩ := hv
  have hcg : ∀ i, i < p.d.toNat → ∃ h : i < p.hittingCost.length, p.hittingCost.getD i 0 = p.hittingCost[i] :=
    fun i hi => ⟨by omega, List.getD_eq_getElem _ _ _⟩
  have hsg : ∀ i, i < p.d.toNat → ∃ h : i < p.switchingCost.length, p.switchingCost.getD i 0 = p.switchingCost[i] :=
    fun i hi => ⟨by omega, List.getD_eq_getElem _ _ _⟩
  unfold keep
  by_cases h0' : k' = 0
  · rw [if_pos h0', if_pos (by omega)]
  · rw [if_neg h0']
    obtain ⟨a1, a2⟩ := hcg (k' - 1) (by omega)
    obtain ⟨b1, b2⟩ := hsg (k' - 1) (by omega)
    have pa := hpos _ (List.getElem_mem a1)
    have pb := v7 _ (List.getElem_mem b1)
    by_cases h0 : k = 0
    · rw [if_pos h0, a2, b2]
      apply Int.floor_nonneg.2
      exact div_nonneg (mul_nonneg hg pb.le) pa.le
    · rw [if_neg h0]
      obtain ⟨c1, c2⟩ := hcg (k - 1) (by omega)
      obtain ⟨e1, e2⟩ := hsg (k - 1) (by omega)
      have pc := hpos _ (List.getElem_mem c1)
      have pe := v7 _ (List.getElem_mem e1)
      rcases eq_or_lt_of_le hk with rfl | hlt
      · exact le_refl _
      · apply Int.floor_le_floor
        rw [a2, b2, c2, e2]
        have s1 : p.switchingCost[k - 1] ≤ p.switchingCost[k' - 1] :=
          (List.pairwise_iff_getElem.1 v10 _ _ e1 b1 (by omega)).le
        have s2 : p.hittingCost[k' - 1] ≤ p.hittingCost[k - 1] :=
          (v9 (k - 1) (k' - 1) (by omega) (by omega) _ _ (List.getElem?_eq_getElem c1)
            (List.getElem?_eq_getElem a1)).le
        exact div_le_div₀ (mul_nonneg hg pb.le) (mul_le_mul_of_nonneg_left s1 hg) pa s2

theorem totalCost_hit_ne_top {X : Type} (hit : Int → X → ECost) (mv : X → X → ℚ) (α : ℚ) (t : Int) (prev : X)
    (xs : List X) (h : Spec.totalCost hit mv α t prev xs ≠ ⊤) (i : Nat) (x : X) (hx : xs[i]? = some x) :
    hit (t + i) x ≠ ⊤ := by
  induction xs generalizing t prev i with
  | nil => simp at hx
  | cons y ys ih =>
    rw [Spec.totalCost] at h
    cases i with
    | zero =>
      simp at hx
      subst hx
      intro e
      apply h
      simp only [Nat.cast_zero, Int.add_zero] at e
      rw [e]; simp
    | succ i =>
      have := ih (t + 1) y (fun e => h (by rw [e]; simp)) i (by simpa using hx)
      rwa [show t + ((i + 1 : Nat) : Int) = t + 1 + (i : Int) by push_cast; omega]

/-- What is assumed of the instance seen in some slot: it is accepted by `verify`, every type has a positive hitting
cost, and its balanced-load costs are defined in the decision space and finite with all servers active. -/
structure Usable (S : Num.Solver) (p : SLO ℤ) : Prop where
  verified : p.verify = .ok ()
  costs : (p.hittingCost.length : Int) = p.d
  pos : ∀ c ∈ p.hittingCost, 0 < c
  defined : ∀ t, 1 ≤ t → t ≤ p.tEnd → ∀ x, Spec.InBox p.bounds x → ∃ c, p.intoSBLO.hitCost S t x = .ok c
  finite : ∀ t, 1 ≤ t → t ≤ p.tEnd → ∀ c, p.intoSBLO.hitCost S t p.bounds = .ok c → c.cost ≠ ⊤

theorem Usable.valid {S : Num.Solver} {p : SLO ℤ} (h : Usable S p) : Spec.ValidSLO p := by
  by_contra hc
  have := (C10_slo_verify_exact p h.costs.ge).2 hc
  rw [h.verified] at this; simp at this

/-- The optimum of the instance seen, and its last configuration. -/
theorem optimum (S : Num.Solver) (hS : Spec.Shaped S) (p : SLO ℤ) (hp : Usable S p) (hT : 1 ≤ p.tEnd) :
    ∃ r y, Multi.optimalGraphSearch (target S p) none .dflt = .ok r ∧ Schedule.now r.path.xs = .ok y ∧
      r.path.xs.getLast? = some y ∧
      (r.path.xs.length : Int) = p.tEnd ∧ (∀ x ∈ r.path.xs, Spec.InBox p.bounds x) ∧
      (∀ l, access p.load p.tEnd = some l → l ≤ y.sum) ∧
      ∃ c, (target S p).toProb.alphaUnfairObjective r.path.xs 1 = .ok c ∧
        (∀ zs : Schedule ℤ, (zs.length : Int) = p.tEnd → (∀ z ∈ zs, Spec.InBox p.bounds z) →
          ∃ c', (target S p).toProb.alphaUnfairObjective zs 1 = .ok c' ∧ c.cost ≤ c'.cost) ∧ c.cost ≠ ⊤ := by
  have hv := hp.valid
  let hit : Int → Config ℤ → ECost := fun t x =>
    match p.intoSBLO.hitCost S t x with
    | .ok c => c.cost
    | .error _ => ⊤
  have hhit : ∀ t : Int, 1 ≤ t → t ≤ (target S p).tEnd → ∀ x, Spec.InBox (target S p).bounds x →
      ∃ out, (target S p).toProb.hitCost t x = .ok ⟨hit t x, out⟩ := by
    intro t h1 h2 x hx
    obtain ⟨c, hc⟩ := hp.defined t h1 h2 x hx
    rw [target_hit S p t h1 x hx]
    exact ⟨c.output, by simp only [hit, hc]⟩
  have hub : Spec.InBox p.bounds p.bounds := by
    obtain ⟨_, _, _, _, _, v6, _⟩ := hv
    unfold Spec.InBox
    rw [List.forall₂_same]
    intro u hu
    exact ⟨(v6 u hu).le, le_refl _⟩
  obtain ⟨r, h1, h2, h3, h4, h5, h6⟩ := C19_graph_search_optimal (target S p) (target_valid S p hv) hT .dflt rfl
    (by decide) hit hhit (by
      intro t ht ht' e
      obtain ⟨c, hc⟩ := hp.defined t ht ht' p.bounds hub
      apply hp.finite t ht ht' c hc
      have : hit t p.bounds = c.cost := by simp only [hit, hc]
      rw [← this]; exact e)
  have h2' : (r.path.xs.length : Int) = p.tEnd := h2
  have hlast : r.path.xs.length - 1 < r.path.xs.length := by omega
  refine ⟨r, r.path.xs[r.path.xs.length - 1], h1, ?_, ?_, h2, h3, ?_, ?_⟩
  · rw [Schedule.now, idx_ok_iff]
    exact List.getElem?_eq_getElem hlast
  · rw [List.getLast?_eq_getElem?]
    exact List.getElem?_eq_getElem hlast
  · intro l hl
    obtain ⟨out, ho⟩ := Multi.objective_total (target S p)
      (by
        by_contra hc
        have := (C10_ssco_verify_exact (target S p)).2 hc
        rw [target_valid S p hv] at this; simp at this) 1 hit (fun _ => True)
      (fun t a b x hx _ => hhit t a b x hx) r.path.xs h2 (fun y hy => ⟨h3 y hy, trivial⟩)
    obtain ⟨out', ho'⟩ := h5
    have e : r.path.cost = Spec.totalCost hit (Spec.upCost (target S p).switchingCost) 1 1
        (List.replicate (target S p).d.toNat 0) r.path.xs := by
      have := ho'.symm.trans ho
      injection this with this
      injection this
    have hbox := h3 _ (List.getElem_mem hlast)
    have hne := totalCost_hit_ne_top hit _ 1 1 _ r.path.xs (e ▸ h4) (r.path.xs.length - 1) _
      (List.getElem?_eq_getElem hlast)
    rw [show (1 : Int) + ((r.path.xs.length - 1 : Nat) : Int) = p.tEnd by omega] at hne
    obtain ⟨c, hc⟩ := hp.defined p.tEnd hT (le_refl _) _ hbox
    have hce : hit p.tEnd r.path.xs[r.path.xs.length - 1] = c.cost := by simp only [hit, hc]
    have hl0 : 0 ≤ l := by
      obtain ⟨_, _, _, _, v5, _, _, _, _, _, v11⟩ := hv
      unfold access at hl
      rw [if_pos (by omega)] at hl
      exact v11 _ (by omega) l hl
    exact (C55_finite_cost_partial S hS p (by have := hv.1; omega) hp.costs hv.2.2.1 p.tEnd _ hT hbox l hl hl0 c hc
      (by rw [← hce]; exact hne)).1
  · obtain ⟨out', ho'⟩ := h5
    exact ⟨_, ho', h6, h4⟩

theorem descending_ok (hs : List Int) (h : hs.Pairwise (· ≥ ·)) : descending hs = true := by
  induction hs with
  | nil => rfl
  | cons a hs ih =>
    cases hs with
    | nil => rfl
    | cons b hs =>
      rw [List.pairwise_cons] at h
      unfold descending at ih ⊢
      simp only [List.tail_cons, List.zip_cons_cons, List.all_cons, Bool.and_eq_true, decide_eq_true_eq]
      exact ⟨h.1 b (by simp), ih h.2⟩

theorem inBox_sum_le {bounds x : List ℤ} (h : Spec.InBox bounds x) : x.sum ≤ bounds.sum := by
  induction h with
  | nil => exact le_refl _
  | cons h1 _ ih => simp only [List.sum_cons]; have := h1.2; omega

/-- The memory before slot `k + 1`, in which the instance `p` is shown. -/
structure MemInv (S : Num.Solver) (g : ℚ) (p : SLO ℤ) (k : Nat) (m : Memory) (L : Nat → Nat) (H : Nat → ℤ) : Prop where
  lanes : m.lanes = (List.range p.bounds.sum.toNat).map L
  horizons : m.horizons = (List.range p.bounds.sum.toNat).map H
  inv : LaneInv p.bounds.sum.toNat p.d.toNat p.bounds (keep p.hittingCost p.switchingCost g) k L H
  cacheT : ∀ c, m.cache = some c → 0 ≤ c.t ∧ c.t ≤ p.tEnd
  cache : ∀ q, Spec.SeenLater p q →
    Multi.optimalGraphSearch (target S q) m.cache .dflt = Multi.optimalGraphSearch (target S q) none .dflt

/-- One step of lazy budgeting. -/
theorem step (S : Num.Solver) (hS : Spec.Shaped S) (r : Bool) (gamma : ℚ) (hg : 0 ≤ gamma) (p : SLO ℤ)
    (hp : Usable S p) (k : Nat) (hT : p.tEnd = (k : Int) + 1) (m : Memory) (hm : m.gamma = gamma) (L : Nat → Nat)
    (H : Nat → ℤ) (I : MemInv S (if r then gamma else 1) p k m L H) (xs : Schedule ℤ) :
    ∃ x m' L' H', lb S r ⟨p, 0⟩ ((k : Int) + 1) xs m = .ok (x, some m') ∧ m'.gamma = gamma ∧
      (∀ q, Spec.SeenLater p q → MemInv S (if r then gamma else 1) q (k + 1) m' L' H') ∧
      Spec.InBox p.bounds x ∧ (∀ l, access p.load p.tEnd = some l → l ≤ x.sum) ∧
      ((m'.lanes.countP fun j => decide (0 < j) : Nat) : ℤ) = x.sum ∧
      ∃ ys y, (ys.length : Int) = p.tEnd ∧ (∀ x ∈ ys, Spec.InBox p.bounds x) ∧ ys.getLast? = some y ∧
        (∃ c, (target S p).toProb.alphaUnfairObjective ys 1 = .ok c ∧
          ∀ zs : Schedule ℤ, (zs.length : Int) = p.tEnd → (∀ z ∈ zs, Spec.InBox p.bounds z) →
            ∃ c', (target S p).toProb.alphaUnfairObjective zs 1 = .ok c' ∧ c.cost ≤ c'.cost) ∧
        (∀ i, (y.drop i).sum ≤ (x.drop i).sum) ∧
        (∀ l, access p.load p.tEnd = some l → l ≤ y.sum) ∧
        (∀ c, (target S p).toProb.alphaUnfairObjective ys 1 = .ok c → c.cost ≠ ⊤) ∧
        ∃ O : Nat → Nat, (∀ j k, 1 ≤ k → (k ≤ O j ↔ (j : ℤ) + 1 ≤ tailSum y k)) ∧ L' = stepL ((k : Int) + 1) L O H ∧
          H' = stepH (keep p.hittingCost p.switchingCost (if r then gamma else 1)) ((k : Int) + 1) L O H := by
  have hv := hp.valid
  obtain ⟨v1, v2, v3, v4, v5, v6, v7, v8, v9, v10, v11⟩ := id hv
  obtain ⟨res, y, h1, h2, h3, h4, h5, h6, e, h7, h8, h9⟩ := optimum S hS p hp (by omega)
  have hybox : Spec.InBox p.bounds y := h5 y (List.mem_of_getLast? h3)
  have hyn : ∀ i ∈ y, 0 ≤ i := InBox.nonneg hybox
  have hyl : y.length = p.d.toNat := by
    have := List.Forall₂.length_eq hybox
    omega
  have hys := inBox_sum_le hybox
  set M := p.bounds.sum.toNat with hM
  have hysM : y.sum ≤ M := by omega
  obtain ⟨O, o1, o2, o3⟩ := buildLanes_ok y hyn M hysM
  set g : ℚ := if r then gamma else 1 with hgdef
  have hg' : 0 ≤ g := by rw [hgdef]; split <;> linarith
  set N := keep p.hittingCost p.switchingCost g with hN
  have oc : ∀ i b, p.bounds[i]? = some b → ((((List.range M).map O).count (i + 1) : Nat) : ℤ) ≤ b := by
    intro i b hb
    obtain ⟨hi, rfl⟩ := List.getElem?_eq_some_iff.1 hb
    have hi' : i < y.length := by have := List.Forall₂.length_eq hybox; omega
    rw [count_eq_tails, L_tail hyn o3 M hysM (i + 1) (by omega), L_tail hyn o3 M hysM (i + 2) (by omega),
      tailSum_step y i hi']
    have := (List.forall₂_iff_get.1 hybox).2 i hi hi'
    simp only [List.get_eq_getElem] at this
    omega
  obtain ⟨I', hdom⟩ := I.inv.step (O := O) (keep_mono p hv hp.costs hp.pos g hg') (by simp [keep])
    (fun i j hij _ => L_antitone o3 hij) (fun j _ => hyl ▸ o2 j) oc
  have hopt : findOptimalLanes S m.cache p M = .ok ((List.range M).map O, res.cache) := by
    unfold findOptimalLanes
    rw [show p.intoSBLO.intoSSCO S = target S p from rfl,
      I.cache p ⟨rfl, rfl, rfl, rfl, le_refl _, fun _ _ _ => rfl⟩, h1]
    simp only [bind, Except.bind, h2, ← hyl, o1]
  have hget : ∀ {α : Type} (F : Nat → α) (j : Nat), j < M → idx ((List.range M).map F) j = .ok (F j) := by
    intro α F j hj
    rw [idx_ok_iff, List.getElem?_map, List.getElem?_range hj]
    rfl
  have hls : (List.range M).mapM (updateLane p ((k : Int) + 1) m.gamma r m.lanes m.horizons ((List.range M).map O)) =
      .ok ((List.range M).map fun j => (stepL ((k : Int) + 1) L O H j, stepH N ((k : Int) + 1) L O H j)) := by
    apply mapM_ok_of
    intro j hj
    rw [List.mem_range] at hj
    unfold updateLane
    rw [I.lanes, I.horizons, hget L j hj, hget O j hj, hget H j hj,
      hm]
    simp only [bind, Except.bind]
    rw [nextTimeHorizon_eq p.hittingCost p.switchingCost p.d.toNat (O j) gamma r (by have := hp.costs; omega) (by omega)
      hp.pos (hyl ▸ o2 j)]
    rw [← hgdef, ← hN]
    unfold stepL stepH
    simp only
    split_ifs <;> rfl
  have hL' : ∀ j ∈ (List.range M).map (stepL ((k : Int) + 1) L O H), j ≤ p.d.toNat := by
    intro j hj
    obtain ⟨i, hi, rfl⟩ := List.mem_map.1 hj
    exact I'.le i (List.mem_range.1 hi)
  set L' := stepL ((k : Int) + 1) L O H with hL'def
  set H' := stepH N ((k : Int) + 1) L O H with hH'def
  set x : Config ℤ := (List.range p.d.toNat).map fun i => ((((List.range M).map L').count (i + 1) : Nat) : ℤ) with hx
  have hxl : x.length = p.d.toNat := by simp [hx]
  have hxi : ∀ i (h : i < x.length), x[i] = ((((List.range M).map L').count (i + 1) : Nat) : ℤ) := by
    intro i h
    simp [hx]
  have htail : ∀ n i, i + n = p.d.toNat →
      tailSum x (i + 1) = ((List.range M).countP fun j => decide (i + 1 ≤ L' j) : Nat) := by
    intro n
    induction n with
    | zero =>
      intro i hi
      rw [tailSum_zero_of_lt x (i + 1) (by omega), eq_comm]
      have : (List.range M).countP (fun j => decide (i + 1 ≤ L' j)) = 0 := by
        rw [List.countP_eq_zero]
        intro j hj
        have := I'.le j (List.mem_range.1 hj)
        simp only [decide_eq_true_eq]
        omega
      rw [this]; rfl
    | succ n ih =>
      intro i hi
      rw [tailSum_step x i (by omega), ih (i + 1) (by omega), hxi, count_eq_tails]
      omega
  have htail' : ∀ i, tailSum y (i + 1) ≤ tailSum x (i + 1) := by
    intro i
    by_cases hi : i ≤ p.d.toNat
    · rw [htail (p.d.toNat - i) i (by omega), ← L_tail hyn o3 M hysM (i + 1) (by omega)]
      exact_mod_cast hdom (i + 1)
    · rw [tailSum_zero_of_lt x _ (by omega), tailSum_zero_of_lt y _ (by omega)]
  have hxbox : Spec.InBox p.bounds x := by
    unfold Spec.InBox
    rw [List.forall₂_iff_get]
    refine ⟨by omega, fun i hi hi' => ?_⟩
    simp only [List.get_eq_getElem]
    rw [hxi i hi']
    exact ⟨by positivity, I'.cap i _ (List.getElem?_eq_getElem hi)⟩
  refine ⟨x, ⟨(List.range M).map L', (List.range M).map H', m.gamma, some res.cache⟩, L', H', ?_, hm, ?_, hxbox, ?_, ?_,
    res.path.xs, y, h4, h5, h3, ⟨e, h7, h8⟩, ?_, h6, ?_, O, o3, rfl, rfl⟩
  · unfold lb
    simp only [assertR, decide_true, if_true, bind, Except.bind, ← hM, hopt, hls, List.map_map, assertP]
    have e1 : List.map (Prod.snd ∘ fun j => (L' j, H' j)) (List.range M) = (List.range M).map H' := rfl
    have e2 : List.map (Prod.fst ∘ fun j => (L' j, H' j)) (List.range M) = (List.range M).map L' := rfl
    rw [e1, e2, descending_ok, collectConfig_ok _ _ hL']
    · rfl
    · rw [List.pairwise_map]
      rw [List.pairwise_iff_getElem]
      intro i j hi hj hij
      simp only [List.getElem_range]
      exact I'.antiH i j hij.le (by rw [List.length_range] at hj; exact hj)
  · intro q hq
    have hqM : q.bounds.sum.toNat = M := by rw [← hq.bounds]
    have hres : Multi.optimalGraphSearch (target S p) m.cache .dflt = .ok res := by
      rw [I.cache p ⟨rfl, rfl, rfl, rfl, le_refl _, fun _ _ _ => rfl⟩, h1]
    have hC := fun q' (hq' : Spec.SeenLater p q') => C21_resume (target S p) (target S q') hq'.d hq'.bounds
      hq'.switchingCost hq'.tEnd v2 (fun t a b x => target_hit_seen S hq' t a b x) m.cache I.cacheT .dflt res hres
    refine ⟨by rw [hqM], by rw [hqM], ?_, ?_, ?_⟩
    · rw [hqM, ← hq.d, ← hq.bounds, ← hq.hittingCost, ← hq.switchingCost]
      exact_mod_cast I'
    · intro c hc
      injection hc with hc
      subst hc
      have := (hC q hq).1
      have h' : res.cache.t = p.tEnd := this
      rw [h']
      exact ⟨v2, hq.tEnd⟩
    · intro q' hq'
      have h12 := SeenLater.trans hq hq'
      rw [(hC q' h12).2, I.cache q' h12]
  · intro l hl
    have a1 := htail' 0
    rw [tailSum_one, tailSum_one] at a1
    exact (h6 l hl).trans a1
  · show (((List.range M).map L').countP _ : ℤ) = _
    rw [← tailSum_one x, htail p.d.toNat 0 (by omega), List.countP_map]
    rfl
  · intro i
    exact htail' i
  · intro c hc
    rw [h7] at hc
    injection hc with hc
    rwa [← hc]

/-- The instances shown slot by slot. -/
structure Shown (S : Num.Solver) (ps : List (SLO ℤ)) : Prop where
  usable : ∀ p ∈ ps, Usable S p
  later : ps.Pairwise Spec.SeenLater
  slot : ∀ (k : Nat) (p : SLO ℤ), ps[k]? = some p → p.tEnd = (k : Int) + 1

theorem play_ok (S : Num.Solver) (hS : Spec.Shaped S) (r : Bool) (gamma : ℚ) (hg : 0 ≤ gamma) (ps : List (SLO ℤ))
    (hu : ∀ p ∈ ps, Usable S p) (hl : ps.Pairwise Spec.SeenLater) (xs : Schedule ℤ)
    (hs : ∀ (k : Nat) (p : SLO ℤ), ps[k]? = some p → p.tEnd = (xs.length : Int) + (k : Int) + 1) (mo : Option Memory)
    (hm : ∀ p ps', ps = p :: ps' → ∃ L H, MemInv S (if r then gamma else 1) p xs.length
      (mo.getD (Memory.dflt gamma ⟨p, 0⟩)) L H ∧ (mo.getD (Memory.dflt gamma ⟨p, 0⟩)).gamma = gamma) :
    ∃ ys mem, Spec.play SLO.tEnd (alg S gamma r) xs mo (ps.map fun p => ⟨p, 0⟩) = .ok (xs ++ ys, mem) ∧
      ys.length = ps.length ∧
      (∀ (k : Nat) (p : SLO ℤ), ps[k]? = some p → ∃ x, ys[k]? = some x ∧ Spec.InBox p.bounds x ∧
        (∀ l, access p.load p.tEnd = some l → l ≤ x.sum) ∧
        ∃ zs z, (zs.length : Int) = p.tEnd ∧ (∀ x ∈ zs, Spec.InBox p.bounds x) ∧ zs.getLast? = some z ∧
          (∃ c, (target S p).toProb.alphaUnfairObjective zs 1 = .ok c ∧
            ∀ zs' : Schedule ℤ, (zs'.length : Int) = p.tEnd → (∀ z ∈ zs', Spec.InBox p.bounds z) →
              ∃ c', (target S p).toProb.alphaUnfairObjective zs' 1 = .ok c' ∧ c.cost ≤ c'.cost) ∧
          ∀ i, (z.drop i).sum ≤ (x.drop i).sum) ∧
      (ps ≠ [] → ∃ m x, mem = some m ∧ ys.getLast? = some x ∧
        ((m.lanes.countP fun j => decide (0 < j) : Nat) : ℤ) = x.sum) := by
  induction ps generalizing xs mo with
  | nil => exact ⟨[], mo, by simp [Spec.play], rfl, by simp, by simp⟩
  | cons p ps ih =>
    obtain ⟨L, H, I, hγ⟩ := hm p ps rfl
    have hT := hs 0 p rfl
    simp only [Nat.cast_zero, Int.add_zero] at hT
    obtain ⟨x, m', L', H', e1, e2, e3, e4, e5, e6, e7⟩ := step S hS r gamma hg p (hu p (by simp)) xs.length hT _ hγ L H I xs
    rw [List.pairwise_cons] at hl
    obtain ⟨ys, mem, f1, f2, f3, f4⟩ := ih (fun q hq => hu q (by simp [hq])) hl.2 (xs ++ [x]) (by
      intro k q hq
      have := hs (k + 1) q (by simpa using hq)
      rw [this, List.length_append]
      push_cast
      simp
      omega) (some m') (by
      intro q qs hq
      subst hq
      refine ⟨L', H', ?_, e2⟩
      have := e3 q (hl.1 q (by simp))
      simpa using this)
    refine ⟨x :: ys, mem, ?_, by simp [f2], ?_, ?_⟩
    · rw [List.map_cons, Spec.play]
      unfold onlineNext OnlineAlgorithm.next
      simp only [Schedule.tEnd, hT, decide_true, assertR, if_true, bind, Except.bind, alg]
      rw [e1]
      simp only [Schedule.extend]
      rw [show (OnlineAlgorithm.mk (Memory.dflt gamma) (lb S r) : OnlineAlgorithm (SLO ℤ) ℤ Memory) = alg S gamma r from rfl,
        f1]
      simp
    · intro k q hq
      cases k with
      | zero =>
        simp at hq
        subst hq
        obtain ⟨zs, z, g1, g2, g3, g4, g5, _⟩ := e7
        exact ⟨x, rfl, e4, e5, zs, z, g1, g2, g3, g4, g5⟩
      | succ k =>
        obtain ⟨x', g1, g2⟩ := f3 k q (by simpa using hq)
        exact ⟨x', by simpa using g1, g2⟩
    · intro _
      cases ps with
      | nil =>
        have : ys = [] := List.length_eq_zero_iff.1 (by simpa using f2)
        subst this
        simp only [List.map_nil, Spec.play, List.append_nil] at f1
        injection f1 with f1
        exact ⟨m', x, (congrArg Prod.snd f1).symm, rfl, e6⟩
      | cons q qs =>
        obtain ⟨m, y, g1, g2, g3⟩ := f4 (by simp)
        refine ⟨m, y, g1, ?_, g3⟩
        rw [List.getLast?_cons, g2]
        rfl

/-- **C32** Playing lazy budgeting on instances shown slot by slot never fails; in particular the assertion on the
order of the horizons holds. In every slot, the chosen configuration respects the bounds and has a server for each unit
of load, and of the types from any type on it has at least as many servers as the last configuration of an optimal
schedule of the instance seen so far. It consists of one server per active lane. This is partial because there are
verified instances for which balanced-load costs are infinite (`C32_rounding_counterexample`) or hitting costs are zero
(`C32_zero_cost_counterexample`); the algorithm aborts on both. -/
theorem C32_covers_demand_partial (S : Num.Solver) (hS : Spec.Shaped S) (randomized : Bool) (gamma : ℚ)
    (hg : 0 ≤ gamma) (ps : List (SLO ℤ)) (h : Shown S ps) :
    ∃ xs mem, Spec.play SLO.tEnd (alg S gamma randomized) [] none (ps.map fun p => ⟨p, 0⟩) = .ok (xs, mem) ∧
      xs.length = ps.length ∧
      (∀ (k : Nat) (p : SLO ℤ), ps[k]? = some p → ∃ x, xs[k]? = some x ∧ Spec.InBox p.bounds x ∧
        (∀ l, access p.load p.tEnd = some l → l ≤ x.sum) ∧
        ∃ zs z, (zs.length : Int) = p.tEnd ∧ (∀ x ∈ zs, Spec.InBox p.bounds x) ∧ zs.getLast? = some z ∧
          (∃ c, (p.intoSBLO.intoSSCO S).toProb.alphaUnfairObjective zs 1 = .ok c ∧
            ∀ zs' : Schedule ℤ, (zs'.length : Int) = p.tEnd → (∀ z ∈ zs', Spec.InBox p.bounds z) →
              ∃ c', (p.intoSBLO.intoSSCO S).toProb.alphaUnfairObjective zs' 1 = .ok c' ∧ c.cost ≤ c'.cost) ∧
          ∀ i, (z.drop i).sum ≤ (x.drop i).sum) ∧
      (ps ≠ [] → ∃ m x, mem = some m ∧ xs.getLast? = some x ∧
        ((m.lanes.countP fun j => decide (0 < j) : Nat) : ℤ) = x.sum) := by
  obtain ⟨ys, mem, h1, h2⟩ := play_ok S hS randomized gamma hg ps h.usable h.later []
    (fun k p hp => by simpa using h.slot k p hp) none (by
      intro p ps' hps
      refine ⟨fun _ => 0, fun _ => 0, ⟨?_, ?_, ⟨?_, ?_, ?_, ?_, ?_⟩, ?_, ?_⟩, rfl⟩
      · simp [Memory.dflt]
      · simp [Memory.dflt]
      · intros; rfl
      · intros; rfl
      · intros; omega
      · intros; simp [keep]
      · intro i b hb
        have : ((List.range p.bounds.sum.toNat).map fun _ => 0).count (i + 1) = 0 := by
          rw [List.count_eq_zero]
          simp
        rw [this]
        have := (h.usable p (by rw [hps]; simp)).valid.2.2.2.2.2.1 b (List.mem_of_getElem? hb)
        push_cast
        omega
      · intro c hc; simp [Memory.dflt] at hc
      · intros; rfl)
  exact ⟨ys, mem, by simpa using h1, h2⟩

/-- A solver which evaluates points on the diagonal and returns a best one. -/
def gridSolver : Num.Solver := fun bounds f _ _ =>
  let val : List ℚ → ECost := fun c => (f c).toOption.getD ⊤
  let points := [0, 1 / 2].map fun q : ℚ => List.replicate bounds.length q
  ⟨points, points.foldl (fun b c => if val c < val b then c else b) (List.replicate bounds.length 1), .done⟩

theorem gridSolver_shaped : Spec.Shaped gridSolver := by
  intro bounds f init cs _
  simp only [gridSolver, List.map_cons, List.map_nil, List.foldl_cons, List.foldl_nil]
  split_ifs <;> simp

/-- A load problem with two types in slot `t` of four. -/
def shown (t : Nat) : SLO ℤ where
  d := 2
  tEnd := t
  bounds := [1, 1]
  switchingCost := [1, 3]
  hittingCost := [2, 1]
  load := [1, 2, 1, 0].take t

theorem inBox_one_one {x : Config ℤ} (h : Spec.InBox [1, 1] x) : x = [0, 0] ∨ x = [0, 1] ∨ x = [1, 0] ∨ x = [1, 1] := by
  cases h with
  | cons h1 h =>
    cases h with
    | cons h2 h =>
      cases h
      rename_i a b
      have ha : a = 0 ∨ a = 1 := by omega
      have hb : b = 0 ∨ b = 1 := by omega
      rcases ha with rfl | rfl <;> rcases hb with rfl | rfl <;> simp

/-- Non-vacuity: four slots with the loads 1, 2, 1 and 0. -/
theorem shown_ok : Shown gridSolver [shown 1, shown 2, shown 3, shown 4] := by
  have hu : ∀ n, n ∈ [1, 2, 3, 4] → Usable gridSolver (shown n) := by
    intro n hn
    refine ⟨?_, rfl, by simp [shown], ?_, ?_⟩
    · simp only [List.mem_cons, List.not_mem_nil, or_false] at hn
      have : (shown n).verify.toOption = some () := by
        rcases hn with rfl | rfl | rfl | rfl <;> decide +kernel
      cases h : (shown n).verify with
      | ok u => rfl
      | error e => rw [h] at this; simp [Except.toOption] at this
    · intro t h1 h2 x hx
      have h2' : t ≤ n := h2
      have : ((shown n).intoSBLO.hitCost gridSolver t x).toOption.isSome := by
        simp only [List.mem_cons, List.not_mem_nil, or_false] at hn
        have hx' := inBox_one_one hx
        rcases hn with rfl | rfl | rfl | rfl <;> interval_cases t <;> rcases hx' with rfl | rfl | rfl | rfl <;>
          decide +kernel
      cases h : (shown n).intoSBLO.hitCost gridSolver t x with
      | ok c => exact ⟨c, rfl⟩
      | error e => rw [h] at this; simp [Except.toOption] at this
    · intro t h1 h2 c hc
      have h2' : t ≤ n := h2
      have : ((shown n).intoSBLO.hitCost gridSolver t [1, 1]).toOption.map (·.cost) = some ((3 : ℚ) : ECost) := by
        simp only [List.mem_cons, List.not_mem_nil, or_false] at hn
        rcases hn with rfl | rfl | rfl | rfl <;> interval_cases t <;> decide +kernel
      rw [show (shown n).bounds = [1, 1] from rfl] at hc
      rw [hc] at this
      simp only [Except.toOption, Option.map_some, Option.some.injEq] at this
      rw [this]
      simp
  have hl : ∀ a b, a ≤ b → b ≤ 4 → Spec.SeenLater (shown a) (shown b) := by
    intro a b hab hb
    refine ⟨rfl, rfl, rfl, rfl, by simpa [shown] using hab, ?_⟩
    intro t h1 h2
    have h2' : t ≤ a := h2
    unfold access
    have e : ∀ n, n ≤ 4 → (shown n).load.length = n := by
      intro n hn
      simp [shown]; omega
    rw [e a (by omega), e b hb, if_pos ⟨h1, h2'⟩, if_pos ⟨h1, by omega⟩]
    simp only [shown]
    rw [List.getElem?_take_of_lt (by omega), List.getElem?_take_of_lt (by omega)]
  refine ⟨?_, ?_, ?_⟩
  · intro p hp
    simp only [List.mem_cons, List.not_mem_nil, or_false] at hp
    rcases hp with rfl | rfl | rfl | rfl <;> exact hu _ (by simp)
  · simp only [List.pairwise_cons, List.mem_cons, List.not_mem_nil, or_false, false_imp_iff, implies_true, List.Pairwise.nil,
      and_true, forall_eq_or_imp, forall_eq]
    refine ⟨⟨?_, ?_, ?_⟩, ⟨?_, ?_⟩, ?_⟩ <;> exact hl _ _ (by decide) (by decide)
  · intro k p hp
    match k, hp with
    | 0, hp => simp at hp; subst hp; rfl
    | 1, hp => simp at hp; subst hp; rfl
    | 2, hp => simp at hp; subst hp; rfl
    | 3, hp => simp at hp; subst hp; rfl
    | k + 4, hp => simp at hp

example : ((Spec.play SLO.tEnd (alg gridSolver 1 false) [] none
    ([shown 1, shown 2, shown 3, shown 4].map fun p => ⟨p, 0⟩)).toOption.map fun q => (q.1, q.2.map (·.lanes))) =
    some ([[1, 0], [1, 1], [0, 1], [0, 1]], some [2, 0]) := by decide +kernel

/-- A verified instance with a type that is free of charge while active. -/
def free : SLO ℤ where
  d := 1
  tEnd := 1
  bounds := [1]
  switchingCost := [1]
  hittingCost := [0]
  load := [1]

/-- Lazy budgeting aborts if an active server costs nothing: the time it is kept is infinite. -/
theorem C32_zero_cost_counterexample :
    free.verify.toOption.isSome ∧ (free.intoSBLO.hitCost (constSolver []) 1 [1]).toOption.isSome ∧
    (lb (constSolver []) false ⟨free, 0⟩ 1 [] (Memory.dflt 1 ⟨free, 0⟩)).panics := by decide +kernel

/-- Lazy budgeting aborts on the verified instance `thirds` although the load can be served. -/
theorem C32_rounding_counterexample (S : Num.Solver) (hS : Spec.Shaped S)
    (hdef : ∀ x, Spec.InBox thirds.bounds x → ∃ c, thirds.intoSBLO.hitCost S 1 x = .ok c) (gamma : ℚ)
    (randomized : Bool) :
    thirds.verify = .ok () ∧ (thirds.hitCost 1 [1, 2]).toOption.map (·.cost) = some ((4 : ℚ) : ECost) ∧
    lb S randomized ⟨thirds, 0⟩ 1 [] (Memory.dflt gamma ⟨thirds, 0⟩) = .error .panic := by
  have hver : thirds.verify = .ok () := by
    have : thirds.verify.toOption = some () := by decide +kernel
    cases h : thirds.verify with
    | ok u => rfl
    | error e => rw [h] at this; simp [Except.toOption] at this
  have hv : Spec.ValidSLO thirds := by
    by_contra hc
    have := (C10_slo_verify_exact thirds (by decide)).2 hc
    rw [hver] at this; simp at this
  refine ⟨hver, C55_rounding_counterexample.1, ?_⟩
  let hit : Int → Config ℤ → ECost := fun t x => ((thirds.intoSBLO.hitCost S t x).toOption.map (·.cost)).getD ⊤
  have h := (C20_panics_iff (target S thirds) (target_valid S thirds hv) .dflt rfl (by decide) hit (by
    intro t h1 h2 x hx
    have ht : t = 1 := le_antisymm h2 h1
    subst ht
    obtain ⟨c, hc⟩ := hdef x hx
    rw [target_hit S thirds 1 h1 x hx]
    exact ⟨c.output, by simp only [hit, hc]; rfl⟩)).1.2 (Or.inr ⟨1, le_refl _, le_refl _, by
      obtain ⟨c, hc⟩ := hdef [1, 2] (.cons (by decide) (.cons (by decide) .nil))
      have := C55_rounding_counterexample.2 S hS c hc
      show ((thirds.intoSBLO.hitCost S 1 [1, 2]).toOption.map (·.cost)).getD ⊤ = ⊤
      rw [hc]
      simpa [Except.toOption] using this⟩)
  unfold lb findOptimalLanes
  simp only [assertR, decide_true, if_true, bind, Except.bind, Memory.dflt]
  rw [show thirds.intoSBLO.intoSSCO S = target S thirds from rfl, h]

end Lb
end Soco
