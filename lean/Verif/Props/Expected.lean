import Verif.Props.Robust

/-!
# C133: planning with predicted samples minimises the expected cost

Cost functions may return several samples for a future slot, of which the algorithms use the mean.
-/

namespace Soco
namespace Spec

/-- The samples of the costs of `p` describe the equally likely scenarios `qs`: the scenarios differ from `p` in their hitting
costs only, and in every slot and for every configuration the hitting cost of `p` is known, that is, it is the hitting cost in
every scenario, or it is given by one sample for every scenario. -/
structure Scenarios {C D : Type} [OutSuccess C] [OutFailure D] (p : SSCO ℤ C D) (qs : List (SSCO ℤ C D)) : Prop where
  some : qs ≠ []
  same : ∀ q ∈ qs, q.d = p.d ∧ q.tEnd = p.tEnd ∧ q.bounds = p.bounds ∧ q.switchingCost = p.switchingCost
  defined : ∀ t : Int, 1 ≤ t → t ≤ p.tEnd → ∀ x, InBox p.bounds x → ∃ c, p.hittingCost.callMean t x = .ok c
  samples : ∀ t : Int, 1 ≤ t → t ≤ p.tEnd → ∀ x, InBox p.bounds x → ∃ cost : SSCO ℤ C D → Cost C D,
    (∀ q ∈ qs, q.toProb.hitCost t x = .ok (cost q)) ∧
      (p.hittingCost.callPredictive t x = .ok (qs.map cost) ∨
        ∃ c, p.hittingCost.callPredictive t x = .ok [c] ∧ ∀ q ∈ qs, (cost q).cost = c.cost)

/-- The costs of a schedule in the scenarios `qs`. -/
def ScenarioCosts {C D : Type} [OutSuccess C] [OutFailure D] (qs : List (SSCO ℤ C D)) (α : ℚ) (xs : Schedule ℤ) (cs : List ECost) : Prop :=
  List.Forall₂ (fun q c => ∃ out, q.toProb.alphaUnfairObjective xs α = .ok ⟨c, out⟩) qs cs

end Spec

open Robust

variable {C D : Type} [OutSuccess C] [OutFailure D]

namespace Expect

theorem nsmul_top' (n : Nat) (h : n ≠ 0) : n • (⊤ : ECost) = ⊤ := by
  obtain ⟨k, rfl⟩ := Nat.exists_eq_succ_of_ne_zero h
  rw [succ_nsmul, WithTop.add_top]

theorem sum_top (l : List ECost) (h : ⊤ ∈ l) : l.sum = ⊤ := by
  induction l with
  | nil => simp at h
  | cons a l ih =>
    rw [List.sum_cons]
    rcases List.mem_cons.1 h with h | h
    · rw [← h, WithTop.top_add]
    · rw [ih h, WithTop.add_top]

theorem coe_list (l : List ECost) (h : ⊤ ∉ l) : ∃ v : List ℚ, l = v.map (fun q : ℚ => (q : ECost)) := by
  induction l with
  | nil => exact ⟨[], rfl⟩
  | cons a l ih =>
    obtain ⟨v, hv⟩ := ih fun h' => h (List.mem_cons_of_mem _ h')
    induction a using WithTop.recTopCoe with
    | top => simp at h
    | coe a => exact ⟨a :: v, by rw [hv]; rfl⟩

theorem sum_coe (v : List ℚ) : (v.map (fun q : ℚ => (q : ECost))).sum = ((v.sum : ℚ) : ECost) := by
  induction v with
  | nil => rfl
  | cons a v ih => rw [List.map_cons, List.sum_cons, ih, List.sum_cons, WithTop.coe_add]

omit [OutFailure D] in
theorem mean_sum (cs : List (Cost C D)) (c : Cost C D) (h : Cost.mean cs = .ok c) :
    cs.length • c.cost = (cs.map (·.cost)).sum := by
  obtain ⟨hne, hv, ht⟩ := C15_cost_is_mean_partial cs c h
  have hl : cs.length ≠ 0 := fun h => hne (List.length_eq_zero_iff.1 h)
  by_cases hx : ⊤ ∈ cs.map (·.cost)
  · rw [sum_top _ hx, ht.2 (by simpa using hx), nsmul_top' _ hl]
  · obtain ⟨v, e⟩ := coe_list _ hx
    rw [hv v e, e, sum_coe, ← WithTop.coe_nsmul]
    have : v.length = cs.length := by simpa using (congrArg List.length e).symm
    rw [this, nsmul_eq_mul]
    congr 1
    field_simp

theorem hit_sum {p : SSCO ℤ C D} {qs : List (SSCO ℤ C D)} (h : Spec.Scenarios p qs) (t : Int) (h1 : 1 ≤ t) (h2 : t ≤ p.tEnd)
    (x : Config ℤ) (hx : Spec.InBox p.bounds x) :
    (∃ c, p.toProb.hitCost t x = .ok c) ∧ (∀ q ∈ qs, ∃ c, q.toProb.hitCost t x = .ok c) ∧
      qs.length • hitOr p t x = (qs.map fun q => hitOr q t x).sum := by
  obtain ⟨c, hc⟩ := h.defined t h1 h2 x hx
  have hp : p.toProb.hitCost t x = .ok c :=
    ((C06_guarded_evaluation _ t p.bounds x (List.Forall₂.length_eq hx).symm).1 hx).1.trans hc
  obtain ⟨cost, hq, hs⟩ := h.samples t h1 h2 x hx
  have e : (qs.map fun q => hitOr q t x) = (qs.map cost).map (·.cost) := by
    rw [List.map_map]
    exact List.map_congr_left fun q hq' => by simp only [hitOr, hq q hq', Function.comp]
  refine ⟨⟨c, hp⟩, fun q hq' => ⟨_, hq q hq'⟩, ?_⟩
  rw [e]
  rw [CostFn.callMean_eq] at hc
  rw [show hitOr p t x = c.cost by rw [hitOr, hp]]
  rcases hs with hs | ⟨k, hs, hk⟩
  · rw [hs] at hc
    have := mean_sum _ _ hc
    rwa [List.length_map] at this
  · rw [hs] at hc
    have := mean_sum _ _ hc
    rw [List.map_map, show (qs.map (Cost.cost ∘ cost)) = qs.map fun _ => k.cost from
      List.map_congr_left fun q hq' => hk q hq']
    simp only [List.length_singleton, one_nsmul, List.map_cons, List.map_nil, List.sum_cons, List.sum_nil, add_zero] at this
    rw [this]
    simp

theorem total_sum {p : SSCO ℤ C D} {qs : List (SSCO ℤ C D)} (h : Spec.Scenarios p qs) (mv : Config ℤ → Config ℤ → ℚ) (α : ℚ) :
    ∀ (xs : Schedule ℤ) (t : Int) (x : Config ℤ), 1 ≤ t → t + xs.length ≤ p.tEnd + 1 → (∀ y ∈ xs, Spec.InBox p.bounds y) →
      qs.length • Spec.totalCost (hitOr p) mv α t x xs = (qs.map fun q => Spec.totalCost (hitOr q) mv α t x xs).sum := by
  intro xs
  induction xs with
  | nil => intro t x _ _ _; simp [Spec.totalCost]
  | cons y xs ih =>
    intro t x h1 h2 hx
    simp only [List.length_cons] at h2
    push_cast at h2
    have e1 := (hit_sum h t h1 (by omega) y (hx y (by simp))).2.2
    have e2 := ih (t + 1) y (by omega) (by omega) fun z hz => hx z (List.mem_cons_of_mem _ hz)
    simp only [Spec.totalCost]
    rw [nsmul_add, nsmul_add, e1, e2, List.sum_map_add, List.sum_map_add]
    simp

end Expect

open Expect

theorem scenario_default {p q : SSCO ℤ C D} (h : q.d = p.d) : q.toProb.defaultConfig = p.toProb.defaultConfig := by
  show Config.repeat _ q.d.toNat = Config.repeat _ p.d.toNat
  rw [h]

/-- **C133** (costs). The cost computed for a schedule with predicted samples is the mean of its costs in the scenarios. -/
theorem C133_costs (p : SSCO ℤ C D) (qs : List (SSCO ℤ C D)) (h : Spec.Scenarios p qs) (hv : p.verify = .ok ())
    (α : ℚ) (xs : Schedule ℤ) (hl : (xs.length : Int) = p.tEnd) (hx : ∀ x ∈ xs, Spec.InBox p.bounds x) :
    ∃ c cs, p.toProb.alphaUnfairObjective xs α = .ok c ∧ Spec.ScenarioCosts qs α xs cs ∧ qs.length • c.cost = cs.sum := by
  have hv' : Spec.ValidSSCO p := by
    by_contra hc
    have := (C10_ssco_verify_exact p).2 hc
    rw [hv] at this; simp at this
  obtain ⟨v1, v2, v3, v4, v5, v6⟩ := hv'
  have hd : p.toProb.defaultConfig.length = p.bounds.length := by
    simp [Prob.defaultConfig, Config.repeat, SSCO.toProb]; omega
  obtain ⟨out, e⟩ := objective_hitOr p _ rfl (by omega) (fun t t1 t2 x hx => (hit_sum h t t1 t2 x hx).1) xs hl hx
    p.toProb.defaultConfig hd α false
  refine ⟨_, qs.map fun q => Spec.totalCost (hitOr q) (Spec.moveCost false p.switchingCost) α 1 p.toProb.defaultConfig xs, e, ?_,
    total_sum h _ α xs 1 _ le_rfl (by omega) hx⟩
  rw [Spec.ScenarioCosts, List.forall₂_map_right_iff, List.forall₂_same]
  intro q hq
  obtain ⟨s1, s2, s3, s4⟩ := h.same q hq
  obtain ⟨out', e'⟩ := objective_hitOr q _ rfl (by rw [s3, s4]; omega) (fun t t1 t2 x hx => by
      rw [s2] at t2; rw [s3] at hx
      exact (hit_sum h t t1 t2 x hx).2.1 q hq) xs (by rw [s2]; exact hl) (by rw [s3]; exact hx)
    q.toProb.defaultConfig (by rw [scenario_default s1, s3]; exact hd) α false
  refine ⟨out', ?_⟩
  rw [scenario_default s1, s4] at e'
  unfold Prob.alphaUnfairObjective
  rw [scenario_default s1]
  exact e'

theorem nsmul_le_of {n : Nat} {a b : ECost} (h : a ≤ b) : n • a ≤ n • b := by
  induction n with
  | zero => simp
  | succ n ih => rw [succ_nsmul, succ_nsmul]; exact add_le_add ih h

/-- **C133** (plans). The optimal search with predicted samples returns a schedule of least expected cost: the sum of its costs
over all scenarios is least. Planning for every scenario on its own costs at most as much. -/
theorem C133_expected (p : SSCO ℤ C D) (qs : List (SSCO ℤ C D)) (h : Spec.Scenarios p qs) (hv : p.verify = .ok ()) (hT : 1 ≤ p.tEnd)
    (o : OfflineOptions) (hl : o.l = none) (hα : 0 ≤ o.alpha)
    (hfin : ∀ t : Int, 1 ≤ t → t ≤ p.tEnd → ∀ q ∈ qs, ∀ c, q.toProb.hitCost t p.bounds = .ok c → c.cost ≠ ⊤) :
    ∃ r cs bests, Multi.optimalGraphSearch p none o = .ok r ∧ Spec.ScenarioCosts qs o.alpha r.path.xs cs ∧
      qs.length • r.path.cost = cs.sum ∧
      (∀ ys : Schedule ℤ, (ys.length : Int) = p.tEnd → (∀ y ∈ ys, Spec.InBox p.bounds y) →
        ∃ ks, Spec.ScenarioCosts qs o.alpha ys ks ∧ cs.sum ≤ ks.sum) ∧
      List.Forall₂ (fun q b => ∃ r, Multi.optimalGraphSearch q none o = .ok r ∧ r.path.cost = b) qs bests ∧
      List.Forall₂ (· ≤ ·) bests cs := by
  have hv' : Spec.ValidSSCO p := by
    by_contra hc
    have := (C10_ssco_verify_exact p).2 hc
    rw [hv] at this; simp at this
  have hvalid := hv'
  obtain ⟨v1, v2, v3, v4, v5, v6⟩ := hv'
  have hbox : Spec.InBox p.bounds p.bounds := List.forall₂_same.2 fun b hb => ⟨(v5 b hb).le, le_rfl⟩
  have hpfin : ∀ t : Int, 1 ≤ t → t ≤ p.tEnd → hitOr p t p.bounds ≠ ⊤ := by
    intro t t1 t2 htop
    obtain ⟨_, hq, hs⟩ := hit_sum h t t1 t2 _ hbox
    have hn : ⊤ ∉ qs.map fun q => hitOr q t p.bounds := by
      intro hm
      obtain ⟨q, hq', e⟩ := List.mem_map.1 hm
      obtain ⟨c, hc⟩ := hq q hq'
      simp only [hitOr, hc] at e
      exact hfin t t1 t2 q hq' c hc e
    obtain ⟨v, ev⟩ := coe_list _ hn
    rw [htop, nsmul_top' _ (fun h0 => h.some (List.length_eq_zero_iff.1 h0)), ev, sum_coe] at hs
    exact WithTop.coe_ne_top hs.symm
  obtain ⟨r, h1, h2, h3, h6, ⟨out, h4⟩, h5⟩ := C19_graph_search_optimal p hv hT o hl hα (hitOr p)
    (fun t t1 t2 x hx => by
      obtain ⟨c, a⟩ := (hit_sum h t t1 t2 x hx).1
      exact ⟨c.output, by rw [hitOr, a]⟩) hpfin
  obtain ⟨c, cs, e1, e2, e3⟩ := C133_costs p qs h hv o.alpha r.path.xs h2 h3
  rw [h4] at e1
  obtain rfl := Except.ok.inj e1
  have hbest : ∀ q ∈ qs, ∃ r', Multi.optimalGraphSearch q none o = .ok r' ∧
      ∀ k out, q.toProb.alphaUnfairObjective r.path.xs o.alpha = .ok ⟨k, out⟩ → r'.path.cost ≤ k := by
    intro q hq
    obtain ⟨s1, s2, s3, s4⟩ := h.same q hq
    have hvq : q.verify = .ok () := (C10_ssco_verify_exact q).1 (by
      unfold Spec.ValidSSCO at hvalid ⊢
      rw [s1, s2, s3, s4]; exact hvalid)
    obtain ⟨r', g1, _, _, _, _, g5⟩ := C19_graph_search_optimal q hvq (by rw [s2]; exact hT) o hl hα (hitOr q)
      (fun t t1 t2 x hx => by
        rw [s2] at t2; rw [s3] at hx
        obtain ⟨c, a⟩ := (hit_sum h t t1 t2 x hx).2.1 q hq
        exact ⟨c.output, by rw [hitOr, a]⟩)
      (fun t t1 t2 => by
        rw [s2] at t2; rw [s3]
        obtain ⟨c, a⟩ := (hit_sum h t t1 t2 _ hbox).2.1 q hq
        rw [hitOr, a]
        exact hfin t t1 t2 q hq c a)
    refine ⟨r', g1, fun k out hk => ?_⟩
    obtain ⟨c', k1, k2⟩ := g5 r.path.xs (by rw [s2]; exact h2) (by rw [s3]; exact h3)
    rw [hk] at k1
    obtain rfl := Except.ok.inj k1
    exact k2
  have hbests : ∀ (qs' : List (SSCO ℤ C D)) (cs' : List ECost), (∀ q ∈ qs', q ∈ qs) → Spec.ScenarioCosts qs' o.alpha r.path.xs cs' →
      ∃ bests, List.Forall₂ (fun q b => ∃ r, Multi.optimalGraphSearch q none o = .ok r ∧ r.path.cost = b) qs' bests ∧
        List.Forall₂ (· ≤ ·) bests cs' := by
    intro qs' cs' hm hc
    unfold Spec.ScenarioCosts at hc
    induction hc with
    | nil => exact ⟨[], .nil, .nil⟩
    | @cons q c qs' cs' a _ ih =>
      obtain ⟨bests, b1, b2⟩ := ih fun q hq => hm q (List.mem_cons_of_mem _ hq)
      obtain ⟨r', g1, g2⟩ := hbest q (hm q (by simp))
      obtain ⟨out, a⟩ := a
      exact ⟨r'.path.cost :: bests, .cons ⟨r', g1, rfl⟩ b1, .cons (g2 _ _ a) b2⟩
  obtain ⟨bests, b1, b2⟩ := hbests qs cs (fun q hq => hq) e2
  refine ⟨r, cs, bests, h1, e2, e3, fun ys y1 y2 => ?_, b1, b2⟩
  obtain ⟨k, ks, f1, f2, f3⟩ := C133_costs p qs h hv o.alpha ys y1 y2
  obtain ⟨k', k1, k2⟩ := h5 ys y1 y2
  rw [f1] at k1
  obtain rfl := Except.ok.inj k1
  refine ⟨ks, f2, ?_⟩
  rw [← e3, ← f3]
  exact nsmul_le_of k2

/-! ## Samples -/

/-- Costs of which those of the first slot are known and those of later slots are predicted by samples. -/
def Spec.predicted {D : Type} (base : SSCO ℤ Unit D) (now : Config ℤ → ECost) (ss : List (Int → Config ℤ → ECost)) : SSCO ℤ Unit D :=
  { base with hittingCost := CostFn.new 1 (fun t x =>
      Except.ok (if t = 1 then [Cost.raw (now x)] else ss.map fun s => Cost.raw (s t x))) }

/-- One of the scenarios of predicted costs. -/
def Spec.scenario {D : Type} (base : SSCO ℤ Unit D) (now : Config ℤ → ECost) (s : Int → Config ℤ → ECost) : SSCO ℤ Unit D :=
  { base with hittingCost := CostFn.new 1 (SingleCostFn.certain fun t x => .ok (Cost.raw (if t = 1 then now x else s t x))) }

theorem raw_reduce {D : Type} (cs : List ECost) (hne : cs ≠ []) :
    ∃ c, Cost.mean (cs.map fun c => (Cost.raw c : Cost Unit D)) = .ok c := by
  have hv : ∀ os : List ECost, (os.map fun _ => (.success () : ModelOutput Unit D)).foldlM ModelOutput.vstep
      (.success () : ModelOutput Unit D) = .ok (.success ()) := by
    intro os
    induction os with
    | nil => rfl
    | cons a os ih => rw [List.map_cons, List.foldlM_cons]; exact ih
  cases cs with
  | nil => exact absurd rfl hne
  | cons a cs =>
    have := hv cs
    simp only [Cost.mean, meanE, List.map_map, List.map_cons, Cost.raw, ModelOutput.verticalReduce, Function.comp_def, this]
    exact ⟨_, rfl⟩

/-- **C133** (samples). A cost function that returns one sample for every scenario describes these scenarios. -/
theorem C133_samples {D : Type} [OutFailure D] (base : SSCO ℤ Unit D) (now : Config ℤ → ECost) (ss : List (Int → Config ℤ → ECost))
    (hne : ss ≠ []) : Spec.Scenarios (Spec.predicted base now ss) (ss.map (Spec.scenario base now)) := by
  have hget : ∀ t : Int, 1 ≤ t → ∀ x, (Spec.predicted base now ss).hittingCost.callPredictive t x =
      .ok (if t = 1 then [Cost.raw (now x)] else ss.map fun s => Cost.raw (s t x)) := by
    intro t ht x
    by_cases h1 : t = 1
    · subst h1; rfl
    · have hne' : (ss.map fun s => (Cost.raw (s t x) : Cost Unit D)).isEmpty = false := by
        cases ss with
        | nil => exact absurd rfl hne
        | cons s ss => rfl
      simp [Spec.predicted, CostFn.callPredictive, CostFn.get, CostFn.new, SingleCostFn.callPredictive, assertP, ht, h1, bind,
        Except.bind, hne']
  have hq : ∀ s, ∀ t : Int, 1 ≤ t → ∀ x, Spec.InBox base.bounds x → (Spec.scenario base now s).toProb.hitCost t x =
      .ok (Cost.raw (if t = 1 then now x else s t x)) := by
    intro s t ht x hx
    exact ((C06_guarded_evaluation _ t base.bounds x (List.Forall₂.length_eq hx).symm).1 hx).1.trans
      (CostFn.callMean_certain _ t ht x)
  refine ⟨by simpa using hne, ?_, ?_, ?_⟩
  · intro q hq
    obtain ⟨s, _, rfl⟩ := List.mem_map.1 hq
    exact ⟨rfl, rfl, rfl, rfl⟩
  · intro t h1 _ x _
    rw [CostFn.callMean_eq, hget t h1]
    show ∃ c, Cost.mean _ = .ok c
    split_ifs with h
    · exact raw_reduce [now x] (by simp)
    · have := raw_reduce (D := D) (ss.map fun s => s t x) (by simpa using hne)
      rwa [List.map_map] at this
  · intro t h1 _ x hx
    refine ⟨fun q => match q.toProb.hitCost t x with
      | .ok c => c
      | .error _ => Cost.raw 0, ?_, ?_⟩
    · intro q hq'
      obtain ⟨s, _, rfl⟩ := List.mem_map.1 hq'
      simp only [hq s t h1 x hx]
    · rw [hget t h1]
      by_cases h : t = 1
      · refine .inr ⟨Cost.raw (now x), by rw [if_pos h], fun q hq' => ?_⟩
        obtain ⟨s, _, rfl⟩ := List.mem_map.1 hq'
        simp only [hq s t h1 x hx, if_pos h]
      · refine .inl ?_
        rw [if_neg h, List.map_map]
        congr 1
        refine List.map_congr_left fun s _ => ?_
        simp only [Function.comp, hq s t h1 x hx, if_neg h]

/-! ## A concrete case -/

/-- A fleet of three servers over two slots. -/
def exFleet : SSCO ℤ Unit Unit := ⟨1, 2, [3], [2], CostFn.empty⟩

/-- No server is needed now; in the next slot either all servers are needed or none is. -/
def exNow (x : Config ℤ) : ECost := ((x.headD 0 : ℤ) : ℚ)
def exCalm (_ : Int) (x : Config ℤ) : ECost := ((x.headD 0 : ℤ) : ℚ)
def exBusy (_ : Int) (x : Config ℤ) : ECost := ((4 * (3 - x.headD 0) : ℤ) : ℚ)

theorem exFleet_box {x : Config ℤ} (hx : Spec.InBox [3] x) : ∃ j, x = [j] := by
  obtain ⟨j, rfl⟩ := List.length_eq_one_iff.1 (List.Forall₂.length_eq hx).symm
  exact ⟨j, rfl⟩

/-- `C133_expected` applies. The expected cost is 6, and planning for each scenario would cost 3 on average: knowing the
future is worth 3. -/
example : ∃ r cs bests, Multi.optimalGraphSearch (Spec.predicted exFleet exNow [exCalm, exBusy]) none ⟨false, 1, none⟩ = .ok r ∧
    2 • r.path.cost = List.sum cs ∧ List.sum bests ≤ List.sum cs ∧ r.path.cost = ((6 : ℚ) : ECost) := by
  obtain ⟨r, cs, bests, h1, _, h3, _, _, h6⟩ := C133_expected (Spec.predicted exFleet exNow [exCalm, exBusy]) _
    (C133_samples exFleet exNow [exCalm, exBusy] (by simp)) (by decide +kernel) (by decide) ⟨false, 1, none⟩ rfl (by norm_num) (by
      intro t h1 h2 q hq c hc
      have hq' := List.mem_map.1 hq
      obtain ⟨s, hs, rfl⟩ := hq'
      have : (Spec.scenario exFleet exNow s).toProb.hitCost t [3] = .ok (Cost.raw (if t = 1 then exNow [3] else s t [3])) :=
        ((C06_guarded_evaluation _ t exFleet.bounds [3] rfl).1 (by unfold Spec.InBox; decide)).1.trans
          (CostFn.callMean_certain _ t h1 _)
      have hc' : (Spec.scenario exFleet exNow s).toProb.hitCost t [3] = .ok c := hc
      rw [this] at hc'
      rw [← Except.ok.inj hc']
      simp only [Cost.raw]
      split_ifs
      · exact WithTop.coe_ne_top
      · simp only [List.mem_cons, List.not_mem_nil, or_false] at hs
        rcases hs with rfl | rfl <;> exact WithTop.coe_ne_top)
  refine ⟨r, cs, bests, h1, h3, ?_, ?_⟩
  · exact List.Forall₂.sum_le_sum h6
  · have : (Multi.optimalGraphSearch (Spec.predicted exFleet exNow [exCalm, exBusy]) none ⟨false, 1, none⟩).toOption.map
        (·.path.cost) = some ((6 : ℚ) : ECost) := by decide +kernel
    rw [h1] at this
    simpa [Except.toOption] using this

/-- The best plans for the two scenarios cost 0 and 6. -/
example : ([exCalm, exBusy].map fun s => (Multi.optimalGraphSearch (Spec.scenario exFleet exNow s) none ⟨false, 1, none⟩).toOption.map
    (·.path.cost)) = [some ((0 : ℚ) : ECost), some ((6 : ℚ) : ECost)] := by decide +kernel

end Soco
