import Verif.Props.ServiceWindow
import Verif.Props.SteadyLazy
import Verif.Props.Monotone
import Verif.Props.Fewer
import Verif.Props.Timeless

/-!
# Services of lazy capacity provisioning: what they play, and consequences (C108, C112, C140)
-/

namespace Soco
open Lcp Uni SingleType

/-- A service of lazy capacity provisioning plays the algorithm on instances which foresee the costs of the data center. -/
theorem Service.plays_window (S : Num.Solver) (choose : Nat → List ℚ → Nat → List ℚ) (hch : ChoosesFrom choose)
    (m : DataCenterModel) (loads : List LoadProfile) (hf : ∀ l ∈ loads, l.length = 1) (a b w r : Nat)
    (hab : a = 0 ∧ b = 0 ∨ w < a ∧ b = max 1 (a - 2 * w)) (ha : a ≤ loads.length) (hr : b + r + w ≤ loads.length)
    (p0 p : SSCO ℤ DCSuccess DCFailure) (h0 : m.toSSCO S (loads.take a) = .ok p0) (hp : m.toSSCO S loads = .ok p)
    (bound : ℤ) (β : ℚ) (g : Int → ℤ → ECost) (I : Spec.Inst p bound β g loads.length)
    (K : Spec.Costs bound β g loads.length) :
    ∃ (fuel : Nat) (resp : OfflineResponse ℤ (List (BoundsMem ℤ)) (Cost DCSuccess DCFailure))
        (rs : List (OnlineResponse ℤ (List (BoundsMem ℤ)) (Cost DCSuccess DCFailure))) (ps : List (SSCO ℤ DCSuccess DCFailure))
        (mem : Option (List (BoundsMem ℤ))),
      prepare integralService (lcpAlg boundedInt) w fuel p0 = some (.ok (⟨{ p0 with tEnd := b }, w⟩, resp)) ∧
      resp.xs.length = b ∧
      serve integralService (lcpAlg boundedInt) (m.updateSSCO S choose) ⟨⟨{ p0 with tEnd := b }, w⟩, resp.xs, resp.m⟩
        ((List.range r).map fun i => some (Spec.foreseen loads (b + i) w)) = rs.map .ok ∧
      rs.length = r ∧ ps.length = b + r ∧ (∀ k (h : k < ps.length), Spec.Foresight ps[k] bound β g (k + 1) w) ∧
      Spec.play SSCO.tEnd (lcpAlg boundedInt) [] none (ps.map fun p => ⟨p, w⟩) = .ok (resp.xs ++ rs.map (·.x), mem) := by
  obtain ⟨bs, sc, hsh⟩ := Service.toSSCO_shape h0
  rw [hsh] at h0 hp
  cases h0
  cases hp
  set p0 : SSCO ℤ DCSuccess DCFailure := ⟨m.d, (loads.take a).length, bs, sc,
    applyLoadsOverTime S m.d m.e m.objective (loads.take a) 1⟩ with hp0
  have la : (loads.take a).length = a := by simp; omega
  -- the instances
  have Ip : ∀ k : Nat, k ≤ a → Spec.Inst { p0 with tEnd := (k : Int) } bound β g k := fun k hk =>
    Service.inst_prefix I (loads.take a) (loads.drop a) (by simp) k (by omega)
  have hbw : b + w ≤ a ∨ b = 0 := by omega
  have If : ∀ k : Nat, k + w ≤ a → Spec.Foresight { p0 with tEnd := (k : Int) } bound β g k w := fun k hk => by
    have := Ip (k + w) hk
    exact ⟨this.d, this.bounds, this.switching, rfl, fun t h1 h2 => this.hit t h1 (by push_cast; exact h2),
      fun t h1 h2 => this.certain t h1 (by push_cast; omega)⟩
  have hba : b ≤ a := by omega
  have hl : ∀ (t : Int) (l : LoadProfile), 1 ≤ t → loads[(t - 1).toNat]? = some l → ∀ j, 0 ≤ j → j ≤ bound →
      ∃ out, applyLoads S m.d m.e m.objective l t [j] = .ok ⟨g t j, out⟩ := by
    intro t l h1 hl' j h0 hj
    have := (List.getElem?_eq_some_iff.1 hl').1
    obtain ⟨out, ho⟩ := I.hit t h1 (by omega) j h0 hj
    refine ⟨out, ?_⟩
    rw [SingleType.hit_within I.bounds h0 hj] at ho
    simp only at ho
    rw [mean_over_time h1 _ hl'] at ho
    exact ho
  obtain ⟨fs, f1, f2, f3⟩ := Service.foresight_chain (S := S) (m := m) (bound := bound) (β := β) (g := g) hch loads hf w hl
    r b ⟨{ p0 with tEnd := (b : Int) }, w⟩ (applyLoadsOverTime S m.d m.e m.objective (loads.take a) 1) (by omega) rfl rfl
    (by
      intro e he
      simp only [applyLoadsOverTime, CostFn.new, List.mem_singleton] at he
      rw [he]
      simp) (Ip b hba)
  set ps : List (SSCO ℤ DCSuccess DCFailure) := ((List.range b).map fun i => { p0 with tEnd := ((1 + i : Nat) : Int) }) ++ fs
    with hps
  have hlen : ps.length = b + r := by simp [hps, f1]
  have hI : ∀ k (h : k < ps.length), Spec.Foresight ps[k] bound β g (k + 1) w := by
    intro k h
    by_cases hk : k < b
    · have e : ps[k] = { p0 with tEnd := ((k + 1 : Nat) : Int) } := by
        simp only [hps]
        rw [List.getElem_append_left (by simpa using hk)]
        simp [Nat.add_comm]
      rw [e]
      exact If (k + 1) (by omega)
    · have hk' : k - b < fs.length := by rw [f1]; omega
      have e : ps[k] = fs[k - b] := by
        simp only [hps]
        rw [List.getElem_append_right (by simpa using hk)]
        simp
      rw [e]
      have := f3 (k - b) hk'
      rwa [Nat.add_sub_cancel' (by omega)] at this
  have Iall : ∀ k : Nat, k ≤ loads.length → Spec.Inst (⟨m.d, k, bs, sc, applyLoadsOverTime S m.d m.e m.objective loads 1⟩ :
      SSCO ℤ DCSuccess DCFailure) bound β g k := fun k hk =>
    Service.inst_prefix I loads [] (by simp) k hk
  have K' : Spec.Costs bound β g (ps.length + w) := by
    rw [hlen]
    exact ⟨K.hm, K.hβ, fun t a b => K.fin t a (by omega), fun t a b => K.nonneg t a (by omega),
      fun t a b => K.conv t a (by omega)⟩
  obtain ⟨xs, mem, x1, x2, x3, _⟩ := C101_window_three_competitive w ps K' hI _ (Iall (ps.length + w) (by omega))
  have x0 := x1
  rw [play_iff_run] at x1
  have hratio := Service.window_ratio w ps K' hI xs mem x1 _ (Iall (ps.length + w) (by omega))
  have hv : ∀ k : Nat, k ≤ a → integralService.verify ⟨integralService.setTEnd p0 k, w⟩ = .ok () := fun k hk =>
    Service.verify_window (Ip k hk) K.hm K.hβ w
  obtain ⟨fuel, resp, rs, s1, s2, s3, s4, s5, s6⟩ := Service.follows_window integralService (lcpAlg boundedInt)
    (m.updateSSCO S choose) p0 a b w hab (fun _ => rfl) (fun _ _ => rfl)
    (by simp only [integralService, hp0, la]) hv ((List.range r).map fun i => Spec.foreseen loads (b + i) w) fs f2 xs mem
    (by
      rw [hps, List.map_append, List.map_map] at x1
      exact x1)
    (by
      have hb : ∀ y ∈ xs.take b, Spec.InBox [bound] y := fun y hy => x3 y (List.mem_of_mem_take hy)
      obtain ⟨c, _, h, _, _⟩ := Service.objective_same (Ip b hba) (Ip b hba) (ys := xs.take b) (by simp; omega) hb
      exact ⟨c, c, h, h⟩)
    (by
      intro i p' hp'
      obtain ⟨hi, rfl⟩ := List.getElem?_eq_some_iff.1 hp'
      obtain ⟨b1, b2, b3⟩ := hratio (b + i) (by rw [hlen]; omega)
      obtain ⟨c, hc, _⟩ := b3 fs[i] _ (Window.toInst (f3 i hi)) (Iall (b + i + 1 + w) (by omega))
      have hne : xs.take (b + i + 1) ≠ [] := by
        intro e
        rw [e] at b2
        simp at b2
      exact ⟨c, c, _, hc, hc, List.getLast?_eq_some_getLast hne⟩)
  refine ⟨fuel, resp, rs, ps, mem, s1, s5, ?_, by simpa using s3, hlen, hI, ?_⟩
  · rw [List.map_map] at s2
    exact s2
  · rw [x0, s4]

/-- `xs` are the decisions of a service of lazy capacity provisioning with a prediction window of `w` slots for a data center with one
load type: it is started with the first `a` of the loads, which decides `b` slots, and answers `r` requests, each of which brings the load of
the next slot and exact predictions of the `w` loads that follow. -/
def Spec.LazyService (S : Num.Solver) (choose : Nat → List ℚ → Nat → List ℚ) (m : DataCenterModel) (loads : List ℚ) (a b w r : Nat)
    (xs : Schedule ℤ) : Prop :=
  ∃ (p0 : SSCO ℤ DCSuccess DCFailure) (fuel : Nat) (resp : OfflineResponse ℤ (List (BoundsMem ℤ)) (Cost DCSuccess DCFailure))
      (rs : List (OnlineResponse ℤ (List (BoundsMem ℤ)) (Cost DCSuccess DCFailure))),
    m.toSSCO S ((loads.take a).map fun l => [l]) = .ok p0 ∧
    prepare integralService (lcpAlg boundedInt) w fuel p0 = some (.ok (⟨{ p0 with tEnd := b }, w⟩, resp)) ∧
    serve integralService (lcpAlg boundedInt) (m.updateSSCO S choose) ⟨⟨{ p0 with tEnd := b }, w⟩, resp.xs, resp.m⟩
      ((List.range r).map fun i => some (((loads.drop (b + i)).take (w + 1)).map fun l => [[l]])) = rs.map .ok ∧
    resp.xs.length = b ∧ rs.length = r ∧ xs = resp.xs ++ rs.map (·.x)

theorem Service.farm_plays (S : Num.Solver) (hS : Spec.SolvesEmpty S) (choose : Nat → List ℚ → Nat → List ℚ)
    (hch : ChoosesFrom choose) (m : DataCenterModel) (F : Spec.Farm) (h : Spec.IsFarm m F) (hF : F.Valid)
    (loads : List ℚ) (hl : ∀ l ∈ loads, F.Carries l) (a b w r : Nat)
    (hab : a = 0 ∧ b = 0 ∨ w < a ∧ b = max 1 (a - 2 * w)) (ha : a ≤ loads.length) (hr : b + r + w ≤ loads.length) :
    ∃ (xs : Schedule ℤ) (ps : List (SSCO ℤ DCSuccess DCFailure)) (mem : Option (List (BoundsMem ℤ))),
      Spec.LazyService S choose m loads a b w r xs ∧ ps.length = b + r ∧
      (∀ k (h : k < ps.length), Spec.Foresight ps[k] F.servers F.switching
        (fun t j => F.slotCost t (loads.getD (t - 1).toNat 0) j) (k + 1) w) ∧
      Spec.Costs F.servers F.switching (fun t j => F.slotCost t (loads.getD (t - 1).toNat 0) j) (b + r + w) ∧
      Spec.play SSCO.tEnd (lcpAlg boundedInt) [] none (ps.map fun p => ⟨p, w⟩) = .ok (xs, mem) := by
  obtain ⟨p, hp, I⟩ := C87_problem S hS m F h hF loads fun l hm => (hl l hm).1
  have K := C87_convex F hF loads hl
  have K0 : Spec.Costs F.servers F.switching (fun t j => F.slotCost t (loads.getD (t - 1).toNat 0) j) (b + r + w) :=
    ⟨K.hm, K.hβ, fun t a b => K.fin t a (by omega), fun t a b => K.nonneg t a (by omega), fun t a b => K.conv t a (by omega)⟩
  have hlen : loads.length = (loads.map fun l => [l] : List LoadProfile).length := by simp
  rw [hlen] at I K
  have h0 := toSSCO_eq h S ((loads.take a).map fun l => [l])
  have h0' := h0
  rw [List.map_take] at h0'
  obtain ⟨fuel, resp, rs, ps, mem, s1, s2, s3, s4, s5, s6, s7⟩ := Service.plays_window S choose hch m (loads.map fun l => [l]) (by simp)
    a b w r hab (by simpa using ha) (by simpa using hr) _ _ h0' hp _ _ _ I K
  have hon : ∀ i, Spec.foreseen (loads.map fun l => [l]) (b + i) w =
      ((loads.drop (b + i)).take (w + 1)).map fun l => [[l]] := by
    intro i
    simp [Spec.foreseen, LoadProfile.intoPredicted, ← List.map_drop, ← List.map_take]
  simp only [hon] at s3
  simp only [← List.map_take] at s1 s3
  exact ⟨_, ps, mem, ⟨_, fuel, resp, rs, h0, s1, s3, s2, s4, rfl⟩, s5, s6, K0, s7⟩

/-- **C140** (service). A service for a data center with constant prices to which the load `l` arrives in every slot runs in every slot the
least number of servers which it would be cheapest to have kept from the beginning up to the end of the prediction window, and never powers
down a server. -/
theorem C140_service (S : Num.Solver) (hS : Spec.SolvesEmpty S) (choose : Nat → List ℚ → Nat → List ℚ)
    (hch : ChoosesFrom choose) (m : DataCenterModel) (F : Spec.Farm) (h : Spec.IsFarm m F) (hF : F.Valid)
    (hc : ∀ t : Int, 1 ≤ t → F.price t = F.price 1 ∧ F.route t = F.route 1) (l : ℚ) (hl : F.Carries l) (n a b w r : Nat)
    (hab : a = 0 ∧ b = 0 ∨ w < a ∧ b = max 1 (a - 2 * w)) (ha : a ≤ n) (hr : b + r + w ≤ n) :
    ∃ js : List ℤ, Spec.LazyService S choose m (List.replicate n l) a b w r (js.map fun j => [j]) ∧ js.length = b + r ∧
      (∀ i (h : i < js.length), Spec.LeastBest F.servers (Spec.keeping (fun j => F.slotCost 1 l j) F.switching (i + 1 + w)) js[i]) ∧
      ∀ i (h : i + 1 < js.length), js[i] ≤ js[i + 1] := by
  have hls : ∀ x ∈ List.replicate n l, F.Carries x := fun x hx => by rw [List.eq_of_mem_replicate hx]; exact hl
  obtain ⟨xs, ps, mem, s1, s2, s3, K, s4⟩ := Service.farm_plays S hS choose hch m F h hF (List.replicate n l) hls a b w r hab
    (by simpa using ha) (by simpa using hr)
  have get : ∀ t : Int, 1 ≤ t → t ≤ n → (List.replicate n l).getD (t - 1).toNat 0 = l := by
    intro t a b
    rw [List.getD_eq_getElem?_getD, List.getElem?_replicate, if_pos (by omega)]
    rfl
  have hsame : ∀ t : Int, 1 ≤ t → t ≤ n → ∀ j : ℚ, F.slotCost t ((List.replicate n l).getD (t - 1).toNat 0) j =
      F.slotCost 1 l j := by
    intro t a b j
    rw [get t a b]
    unfold Spec.Farm.slotCost
    rw [(hc t a).1, (hc t a).2]
  rcases Nat.eq_zero_or_pos (b + r) with hz | hz
  · have : ps = [] := List.length_eq_zero_iff.1 (s2.trans hz)
    subst this
    have e : xs = [] := by
      have := Except.ok.inj s4
      exact (Prod.ext_iff.1 this).1.symm
    exact ⟨[], by simpa [e] using s1, by simpa using hz.symm, by simp, by simp⟩
  · have n1 : (1 : Int) ≤ n := by omega
    obtain ⟨js, mem', h1, h2, h3, h4⟩ := C140_decisions w ps (by rw [s2]; exact K) s3 (fun t a b j j0 j1 => by
      rw [hsame t a (by rw [s2] at b; omega), hsame 1 le_rfl n1])
    rw [s4] at h1
    have e := (Prod.ext_iff.1 (Except.ok.inj h1)).1
    refine ⟨js, by rwa [← show xs = js.map fun j => [j] from e], h2.trans s2, fun i hi => ?_, h4⟩
    have := h3 i hi
    simpa only [hsame 1 le_rfl n1] using this

/-- **C108** (service). If at least as many jobs arrive in every slot, a service of lazy capacity provisioning for a data center with one type
of servers runs at least as many servers in every slot. -/
theorem C108_service (S : Num.Solver) (hS : Spec.SolvesEmpty S) (choose : Nat → List ℚ → Nat → List ℚ)
    (hch : ChoosesFrom choose) (m : DataCenterModel) (F : Spec.Farm) (h : Spec.IsFarm m F) (hF : F.Valid)
    (loads loads' : List ℚ) (hl : ∀ l ∈ loads, 0 ≤ l) (hl' : ∀ l ∈ loads', F.Carries l)
    (hll : List.Forall₂ (· ≤ ·) loads loads') (a b w r : Nat)
    (hab : a = 0 ∧ b = 0 ∨ w < a ∧ b = max 1 (a - 2 * w)) (ha : a ≤ loads.length) (hr : b + r + w ≤ loads.length) :
    ∃ xs xs', Spec.LazyService S choose m loads a b w r xs ∧ Spec.LazyService S choose m loads' a b w r xs' ∧
      xs.length = b + r ∧ List.Forall₂ (List.Forall₂ (· ≤ ·)) xs xs' := by
  have hc := Busy.all_carries hF hl hl' hll
  have hlen := hll.length_eq
  obtain ⟨xs, ps, mem, s1, s2, s3, K, s4⟩ := Service.farm_plays S hS choose hch m F h hF loads hc a b w r hab ha hr
  obtain ⟨xs', ps', mem', s1', s2', s3', K', s4'⟩ := Service.farm_plays S hS choose hch m F h hF loads' hl' a b w r hab
    (by omega) (by omega)
  obtain ⟨ys, _, ys', _, h1, h2, h3, h4⟩ := C108_lazy w ps ps' (by omega) (by rw [s2]; exact K) (by rw [s2]; exact K') s3 s3'
    (Busy.busier_le (by rw [s2]; exact_mod_cast hr) (Busy.farm_busier hF hl hll))
  rw [s4] at h1
  rw [s4'] at h2
  have e1 := (Prod.ext_iff.1 (Except.ok.inj h1)).1
  have e2 := (Prod.ext_iff.1 (Except.ok.inj h2)).1
  simp only at e1 e2
  subst e1 e2
  exact ⟨xs, xs', s1, s1', h3.trans s2, h4⟩

/-- **C112** (service). A service of lazy capacity provisioning for a data center with fewer servers runs in every slot as many servers as the
service for the larger one, or all of them if these are too few. -/
theorem C112_service (S : Num.Solver) (hS : Spec.SolvesEmpty S) (choose : Nat → List ℚ → Nat → List ℚ)
    (hch : ChoosesFrom choose) (m m' : DataCenterModel) (F : Spec.Farm) (s : ℤ)
    (h : Spec.IsFarm m F) (h' : Spec.IsFarm m' { F with servers := s }) (hF : F.Valid) (hs : F.servers ≤ s)
    (loads : List ℚ) (hl : ∀ l ∈ loads, F.Carries l) (a b w r : Nat)
    (hab : a = 0 ∧ b = 0 ∨ w < a ∧ b = max 1 (a - 2 * w)) (ha : a ≤ loads.length) (hr : b + r + w ≤ loads.length) :
    ∃ xs xs', Spec.LazyService S choose m loads a b w r xs ∧ Spec.LazyService S choose m' loads a b w r xs' ∧
      xs.length = b + r ∧ xs = Spec.cutAt F.servers xs' := by
  have hF' : Spec.Farm.Valid { F with servers := s } := ⟨hF.servers.trans_le hs, hF.slot, hF.time, hF.price, hF.gamma, hF.switching,
    hF.power, hF.convex⟩
  have hl' : ∀ l ∈ loads, Spec.Farm.Carries { F with servers := s } l := by
    intro l hm
    obtain ⟨h0, h1, h2⟩ := hl l hm
    have hu : Spec.Farm.use { F with servers := s } l s ≤ F.use l F.servers := by
      unfold Spec.Farm.use
      apply div_le_div_of_nonneg_left (mul_nonneg hF.time h0)
      · exact mul_pos (by exact_mod_cast hF.servers) hF.slot
      · exact mul_le_mul_of_nonneg_right (by exact_mod_cast hs) hF.slot.le
    exact ⟨h0, hu.trans_lt h1, hu.trans h2⟩
  obtain ⟨xs, ps, mem, s1, s2, s3, K, s4⟩ := Service.farm_plays S hS choose hch m F h hF loads hl a b w r hab ha hr
  obtain ⟨xs', ps', mem', s1', s2', s3', K', s4'⟩ := Service.farm_plays S hS choose hch m' _ h' hF' loads hl' a b w r hab ha hr
  obtain ⟨ys, _, ys', _, h1, h2, h3, h4⟩ := C112_lazy w ps ps' (by omega) (by rw [s2]; exact K') hF.servers hs
    (by rw [s2]; exact K.fin) s3 s3'
  rw [s4] at h1
  rw [s4'] at h2
  have e1 := (Prod.ext_iff.1 (Except.ok.inj h1)).1
  have e2 := (Prod.ext_iff.1 (Except.ok.inj h2)).1
  simp only at e1 e2
  subst e1 e2
  exact ⟨xs, xs', s1, s1', h3.trans s2, h4⟩

/-! ## Examples -/

/-- Non-vacuity of `C140_service`: started with five loads of three, then sent four more, with a window of one slot. -/
example (S : Num.Solver) (hS : Spec.SolvesEmpty S) (choose : Nat → List ℚ → Nat → List ℚ) (hch : ChoosesFrom choose) :=
  C140_service S hS choose hch Ex.flatModel Ex.flatFarm Ex.flat_is Ex.flat_valid (fun _ _ => ⟨rfl, rfl⟩) 3 (Ex.farm_carries 3 (by simp))
    8 5 3 1 4 (by decide) (by decide) (by decide)

/-- Non-vacuity of `C108_service`. -/
example (S : Num.Solver) (hS : Spec.SolvesEmpty S) (choose : Nat → List ℚ → Nat → List ℚ) (hch : ChoosesFrom choose) :=
  C108_service S hS choose hch Ex.farmModel Ex.farm Ex.farm_is Ex.farm_valid [2, 0, 5, 1] [3, 0, 7, 2] (by decide) Ex.farm_carries
    (by norm_num) 1 1 0 3 (by decide) (by decide) (by decide)

/-- Non-vacuity of `C112_service`. -/
example (S : Num.Solver) (hS : Spec.SolvesEmpty S) (choose : Nat → List ℚ → Nat → List ℚ) (hch : ChoosesFrom choose) :=
  C112_service S hS choose hch Ex.farmModel Ex.largeModel Ex.farm 10 Ex.farm_is Ex.large_is Ex.farm_valid (by decide) [3, 0, 7, 2]
    Ex.farm_carries 1 1 0 3 (by decide) (by decide) (by decide)

end Soco
