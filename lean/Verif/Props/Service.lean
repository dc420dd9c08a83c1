import Verif.Model.Verifiers
import Verif.Props.Lcp
import Verif.Props.Replay
import Verif.Props.Streaming
import Verif.Props.SingleType

/-!
# C86: a running service for a data center with lazy capacity provisioning
-/

namespace Soco
open Lcp SingleType

/-- What the service of `streaming/online.rs:52-248` is instantiated with by
`bindings/data_center/online/uni_dimensional/lazy_capacity_provisioning/integral.rs:22-52`: integral simplified
smoothed convex optimisation, the verification of `verifiers.rs:242-249` and `verifiers.rs:47-80`, the objective
(`problem.rs:90-97`). Rounding up an integral schedule (`convert.rs:392-399`) changes nothing. -/
def integralService : Server (SSCO ℤ DCSuccess DCFailure) ℤ (Cost DCSuccess DCFailure) where
  tEnd p := p.tEnd
  setTEnd p t := { p with tEnd := t }
  verify := Online.verify SSCO.verify
  objective p xs := p.toProb.objective xs
  toI xs := xs

namespace Service

theorem toSSCO_shape {S : Num.Solver} {m : DataCenterModel} {loads : List LoadProfile} {p : SSCO ℤ DCSuccess DCFailure}
    (hp : m.toSSCO S loads = .ok p) : ∃ bs sc, ∀ ls, m.toSSCO S (T := ℤ) ls =
      .ok ⟨m.d, ls.length, bs, sc, applyLoadsOverTime S m.d m.e m.objective ls 1⟩ := by
  unfold DataCenterModel.toSSCO at hp
  simp only [bind, Except.bind] at hp
  split at hp
  · cases hp
  rename_i bs hbs
  split at hp
  · cases hp
  rename_i sc hsc
  refine ⟨bs, sc, fun ls => ?_⟩
  unfold DataCenterModel.toSSCO
  simp only [bind, Except.bind, hbs, hsc]

variable {S : Num.Solver} {m : DataCenterModel} {bound : ℤ} {β : ℚ} {g : Int → ℤ → ECost}

/-- Offline instances of the beginning of the loads. -/
theorem inst_prefix {bs : List ℤ} {sc : List ℚ} {all : List LoadProfile} {d : Int}
    (I : Spec.Inst (⟨d, all.length, bs, sc, applyLoadsOverTime S m.d m.e m.objective all 1⟩ :
      SSCO ℤ DCSuccess DCFailure) bound β g all.length)
    (ls rest : List LoadProfile) (hall : all = ls ++ rest) (k : Nat) (hk : k ≤ ls.length) :
    Spec.Inst (⟨d, k, bs, sc, applyLoadsOverTime S m.d m.e m.objective ls 1⟩ :
      SSCO ℤ DCSuccess DCFailure) bound β g k where
  d := I.d
  bounds := I.bounds
  switching := I.switching
  tEnd := rfl
  certain t h1 _ := certain_over_time ls h1
  hit t h1 h2 j h0 hj := by
    have hlen : (t - 1).toNat < ls.length := by omega
    obtain ⟨out, ho⟩ := I.hit t h1 (by rw [hall]; simp; omega) j h0 hj
    refine ⟨out, ?_⟩
    have e := hit_within (p := (⟨d, k, bs, sc, applyLoadsOverTime S m.d m.e m.objective ls 1⟩ :
      SSCO ℤ DCSuccess DCFailure)) I.bounds h0 hj t
    rw [hit_within I.bounds h0 hj] at ho
    rw [e]
    simp only at ho ⊢
    rw [mean_over_time h1 _ (l := ls[(t - 1).toNat]) (by
      rw [hall, List.getElem?_append_left hlen, List.getElem?_eq_getElem hlen])] at ho
    rw [mean_over_time h1 _ (l := ls[(t - 1).toNat]) (List.getElem?_eq_getElem hlen), ho]

/-- Online instances while the future loads are revealed. -/
theorem inst_chain {choose : Nat → List ℚ → Nat → List ℚ} (hch : ChoosesFrom choose) :
    ∀ (future : List LoadProfile) (n : Nat) (o : Online (SSCO ℤ DCSuccess DCFailure))
      (history : List (Int × SingleCostFn (Config ℤ) DCSuccess DCFailure)),
      (∀ l ∈ future, l.length = 1) → o.w = 0 → o.p.hittingCost = CostFn.build history →
      Spec.Inst o.p bound β g n →
      (∀ i (h : i < future.length) j, 0 ≤ j → j ≤ bound →
        ∃ out, applyLoads S m.d m.e m.objective future[i] (n + i + 1 : Int) [j] = .ok ⟨g (n + i + 1 : Int) j, out⟩) →
      ∃ ps : List (SSCO ℤ DCSuccess DCFailure), ps.length = future.length ∧
        Spec.Updates (m.updateSSCO S choose) o (DataCenterModel.intoOnline future) (ps.map fun p => ⟨p, 0⟩) ∧
        ∀ i (h : i < ps.length), Spec.Inst ps[i] bound β g (n + i + 1) := by
  intro future
  induction future with
  | nil =>
    intro n o history _ _ _ _ _
    exact ⟨[], rfl, .nil _, by simp⟩
  | cons l future ih =>
    intro n o history hf hw hh I hl
    have hspan : o.w < ([l.intoPredicted].length : Int) := by rw [hw]; simp
    obtain ⟨o', b1, b2, b3, b4, b5, b6, b7, b8⟩ :=
      (C43_update_ssco S choose m o [l.intoPredicted] history hh).2 hspan
    have hpred : ∀ x, o'.p.hittingCost.callPredictive (o.p.tEnd + 1) x =
        (applyLoads S m.d m.e m.objective l (o.p.tEnd + 1) x).map fun c => [c] := by
      intro x
      rw [b8, CostFn.build_append]
      have hg := get_add_self history (o.p.tEnd + 1) (by have := I.tEnd; omega)
        (applyPredictedLoads S choose m.d m.e m.objective [l.intoPredicted] (o.p.tEnd + 1))
      exact callPredictive_singleton _ _ x _ _ hg (le_refl _) _
        (applyPredictedLoads_certain S choose hch m.d m.e m.objective l (hf l (by simp)) _ x)
    have I' : Spec.Inst o'.p bound β g (n + 1) := {
      d := b3.trans I.d
      bounds := b4.trans I.bounds
      switching := b5.trans I.switching
      tEnd := by rw [b6, I.tEnd]; push_cast; ring
      certain := by
        intro t h1 h2
        by_cases ht : t ≤ n
        · intro x r hr
          rw [(b7 t x (by rw [I.tEnd]; exact ht)).2.2.1] at hr
          exact I.certain t h1 ht x r hr
        · have : t = o.p.tEnd + 1 := by rw [I.tEnd]; push_cast at h2; omega
          intro x r hr
          rw [this, hpred] at hr
          cases hc : applyLoads S m.d m.e m.objective l (o.p.tEnd + 1) x with
          | error e => simp [hc, Except.map] at hr
          | ok c => simp only [hc, Except.map, Except.ok.injEq] at hr; subst hr; rfl
      hit := by
        intro t h1 h2 j h0 hj
        by_cases ht : t ≤ n
        · rw [(b7 t [j] (by rw [I.tEnd]; exact ht)).2.2.2]
          exact I.hit t h1 ht j h0 hj
        · have e : t = o.p.tEnd + 1 := by rw [I.tEnd]; push_cast at h2; omega
          obtain ⟨out, ho⟩ := hl 0 (by simp) j h0 hj
          refine ⟨out, ?_⟩
          have e' : ((n : Int) + (0 : Nat) + 1) = t := by rw [e, I.tEnd]; simp
          rw [e'] at ho
          rw [hit_within (b4.trans I.bounds) h0 hj, CostFn.callMean_eq, e, hpred, ← e]
          simp only [List.getElem_cons_zero] at ho
          rw [ho]
          exact Cost.mean_singleton _ }
    obtain ⟨ps, c1, c2, c3⟩ := ih (n + 1) o' _ (fun l hl => hf l (by simp [hl])) (b2.trans hw) b8 I' (by
      intro i h j h0 hj
      have := hl (i + 1) (by simpa using h) j h0 hj
      have e : ((n : Int) + ((i + 1 : Nat) : Int) + 1) = (((n + 1 : Nat) : Int) + i + 1) := by push_cast; ring
      rw [e] at this
      simpa using this)
    have eo : (⟨o'.p, 0⟩ : Online (SSCO ℤ DCSuccess DCFailure)) = o' := by
      have := b2.trans hw
      cases o'; simp only at this; subst this; rfl
    refine ⟨o'.p :: ps, by simp [c1], ?_, ?_⟩
    · show Spec.Updates _ o ([l.intoPredicted] :: DataCenterModel.intoOnline future) (⟨o'.p, 0⟩ :: ps.map fun p => ⟨p, 0⟩)
      rw [eo]
      exact .step _ _ _ _ _ b1 c2
    · intro i h
      cases i with
      | zero => exact I'
      | succ i =>
        have := c3 i (by simpa using h)
        have e : n + 1 + i + 1 = n + (i + 1) + 1 := by ring
        rw [e] at this
        exact this

/-- A valid instance passes the verification. -/
theorem verify_ok {p : SSCO ℤ DCSuccess DCFailure} {n : Nat} (I : Spec.Inst p bound β g n) (hm : 0 < bound) (hβ : 0 < β) :
    integralService.verify ⟨p, 0⟩ = .ok () := by
  simp [integralService, Online.verify, SSCO.verify, I.d, I.bounds, I.switching, I.tEnd, assertValidity, assertR, forRange, idx, hm,
    hβ, bind, Except.bind, pure, Except.pure]

/-- Schedules in the decision space as numbers. -/
theorem box_list {ys : Schedule ℤ} (h : ∀ y ∈ ys, Spec.InBox [bound] y) :
    ∃ ks : List ℤ, ys = ks.map (fun j => [j]) ∧ ∀ k ∈ ks, 0 ≤ k ∧ k ≤ bound := by
  induction ys with
  | nil => exact ⟨[], rfl, by simp⟩
  | cons y ys ih =>
    obtain ⟨ks, rfl, hk⟩ := ih (fun y hy => h y (by simp [hy]))
    have hy := h y (by simp)
    cases hy with
    | cons h1 h2 =>
      cases h2
      rename_i j
      exact ⟨j :: ks, rfl, by
        intro k hk'
        rcases List.mem_cons.1 hk' with rfl | hk'
        · exact h1
        · exact hk k hk'⟩

/-- Instances about which the same is known value schedules alike. -/
theorem objective_same {p q : SSCO ℤ DCSuccess DCFailure} {n : Nat} (I : Spec.Inst p bound β g n)
    (J : Spec.Inst q bound β g n) {ys : Schedule ℤ} (hl : ys.length = n) (hy : ∀ y ∈ ys, Spec.InBox [bound] y) :
    ∃ c c', p.toProb.objective ys = .ok c ∧ q.toProb.objective ys = .ok c' ∧ c.cost = c'.cost := by
  obtain ⟨ks, rfl, hk⟩ := box_list hy
  rw [List.length_map] at hl
  obtain ⟨o1, h1⟩ := Lcp.objective_last I ks hl hk
  obtain ⟨o2, h2⟩ := Lcp.objective_last J ks hl hk
  exact ⟨_, _, h1, h2, rfl⟩

/-- After every number of slots the schedule so far costs at most three times what any other schedule costs. -/
theorem prefix_ratio (ps : List (SSCO ℤ DCSuccess DCFailure)) (K : Spec.Costs bound β g ps.length)
    (I : ∀ k (h : k < ps.length), Spec.Inst ps[k] bound β g (k + 1)) (xs : Schedule ℤ) (mem)
    (hrun : Spec.Run SSCO.tEnd (lcpAlg boundedInt) [] none (ps.map fun p => ⟨p, 0⟩) xs mem) :
    ∀ i, i < ps.length → (∀ x ∈ xs.take (i + 1), Spec.InBox [bound] x) ∧ (xs.take (i + 1)).length = i + 1 ∧
      ∀ q : SSCO ℤ DCSuccess DCFailure, Spec.Inst q bound β g (i + 1) →
        ∃ c, q.toProb.objective (xs.take (i + 1)) = .ok c ∧ c.cost ≠ ⊤ ∧
          ∀ ys : Schedule ℤ, ys.length = i + 1 → (∀ y ∈ ys, Spec.InBox [bound] y) →
            ∃ c', q.toProb.objective ys = .ok c' ∧ c.cost ≤ c'.cost + c'.cost + c'.cost := by
  intro i hi
  obtain ⟨_, _, h3⟩ := C35_one_decision_per_slot _ _ _ _ _ _ _ hrun
  obtain ⟨k', hk', _⟩ := h3 (i + 1) (by simp; omega)
  have hlen : (ps.take (i + 1)).length = i + 1 := by simp; omega
  have K' : Spec.Costs bound β g (ps.take (i + 1)).length := by
    rw [hlen]
    exact ⟨K.hm, K.hβ, fun t a b => K.fin t a (by omega), fun t a b => K.nonneg t a (by omega),
      fun t a b => K.conv t a (by omega)⟩
  obtain ⟨us, mem', u1, u2, u3, u4⟩ := C29_three_competitive (ps.take (i + 1)) K' (by
    intro k h
    rw [List.getElem_take]
    exact I k (by omega))
  rw [play_iff_run, List.map_take] at u1
  simp only [List.length_nil, Nat.zero_add] at hk'
  obtain ⟨e, _⟩ := u1.det hk'
  subst e
  refine ⟨u3, by rw [u2, hlen], fun q J => ?_⟩
  obtain ⟨c, c1, c2, c3⟩ := u4 ps[i] (by rw [List.getLast?_take]; simp [hi])
  rw [hlen] at u2 c3
  obtain ⟨d1, d2, e1, e2, e3⟩ := objective_same (I i hi) J u2 u3
  rw [c1] at e1
  cases e1
  refine ⟨d2, e2, by rw [← e3]; exact c2, ?_⟩
  intro ys y1 y2
  obtain ⟨c', f1, f2⟩ := c3 ys y1 y2
  obtain ⟨d3, d4, g1, g2, g3⟩ := objective_same (I i hi) J y1 y2
  rw [f1] at g1
  cases g1
  exact ⟨d4, g2, by rw [← e3, ← g3]; exact f2⟩

/-- The loads of the past are streamed. -/
theorem streamed_past {M : Type} (A : OnlineAlgorithm (SSCO ℤ DCSuccess DCFailure) ℤ M)
    (p0 : SSCO ℤ DCSuccess DCFailure) (a : Nat)
    (hv : ∀ k : Nat, k ≤ a → integralService.verify ⟨{ p0 with tEnd := k }, 0⟩ = .ok ()) :
    ∀ (j k : Nat) (xs : Schedule ℤ) (mem : Option M) (ys : Schedule ℤ) (mem' : Option M), k + j = a →
      Spec.Run integralService.tEnd A xs mem
        ((List.range (j + 1)).map fun i => ⟨{ p0 with tEnd := ((k + i : Nat) : Int) }, 0⟩) ys mem' →
      Spec.Streamed integralService.tEnd integralService.verify A
        (offlineUpdate integralService.tEnd integralService.setTEnd a) ⟨{ p0 with tEnd := k }, 0⟩ xs mem
        ((List.range (j + 1)).map fun i => ⟨{ p0 with tEnd := ((k + i : Nat) : Int) }, 0⟩)
        ⟨{ p0 with tEnd := a }, 0⟩ ys mem' := by
  intro j
  induction j with
  | zero =>
    intro k xs mem ys mem' hk hr
    have e : k = a := by omega
    subst e
    refine .stop _ _ _ _ _ _ hr ?_
    simp [offlineUpdate, integralService]
  | succ j ih =>
    intro k xs mem ys mem' hk hr
    rw [List.range_succ_eq_map, List.map_cons, List.map_map] at hr ⊢
    have e : ((List.range (j + 1)).map ((fun i => (⟨{ p0 with tEnd := ((k + i : Nat) : Int) }, 0⟩ :
        Online (SSCO ℤ DCSuccess DCFailure))) ∘ Nat.succ)) =
        (List.range (j + 1)).map fun i => ⟨{ p0 with tEnd := (((k + 1) + i : Nat) : Int) }, 0⟩ := by
      apply List.map_congr_left
      intro i _
      simp only [Function.comp, Nat.succ_eq_add_one]
      have : k + (i + 1) = k + 1 + i := by omega
      rw [this]
    rw [e] at hr ⊢
    obtain ⟨us, m1, r1, r2⟩ := Spec.Run.split (os := [_]).1 hr
    have hlt : (k : Int) < (a : Int) - 0 := by omega
    refine .next _ _ _ _ _ ⟨{ p0 with tEnd := ((k + 1 : Nat) : Int) }, 0⟩ _ _ _ _ r1 ?_ (hv (k + 1) (by omega))
      (ih (k + 1) _ _ _ _ (by omega) r2)
    exact (if_pos hlt).trans rfl

end Service

/-- C86, together with the run of lazy capacity provisioning which the service carries out. -/
theorem Service.service_run (S : Num.Solver) (choose : Nat → List ℚ → Nat → List ℚ) (hch : ChoosesFrom choose)
    (m : DataCenterModel) (past future : List LoadProfile) (hf : ∀ l ∈ future, l.length = 1)
    (p0 p : SSCO ℤ DCSuccess DCFailure) (h0 : m.toSSCO S past = .ok p0) (hp : m.toSSCO S (past ++ future) = .ok p)
    (bound : ℤ) (β : ℚ) (g : Int → ℤ → ECost) (I : Spec.Inst p bound β g (past ++ future).length)
    (K : Spec.Costs bound β g (past ++ future).length) :
    ∃ (fuel : Nat) (resp : OfflineResponse ℤ (List (BoundsMem ℤ)) (Cost DCSuccess DCFailure))
        (rs : List (OnlineResponse ℤ (List (BoundsMem ℤ)) (Cost DCSuccess DCFailure))),
      prepare integralService (lcpAlg boundedInt) 0 fuel p0 = some (.ok (⟨p0, 0⟩, resp)) ∧
      resp.xs.length = past.length ∧
      serve integralService (lcpAlg boundedInt) (m.updateSSCO S choose) ⟨⟨p0, 0⟩, resp.xs, resp.m⟩
        ((DataCenterModel.intoOnline future).map some) = rs.map .ok ∧
      rs.length = future.length ∧
      (∃ (ps : List (SSCO ℤ DCSuccess DCFailure)) (mem : Option (List (BoundsMem ℤ))), ps.length = (past ++ future).length ∧
        (∀ k (h : k < ps.length), Spec.Inst ps[k] bound β g (k + 1)) ∧
        Spec.play SSCO.tEnd (lcpAlg boundedInt) [] none (ps.map fun p => ⟨p, 0⟩) = .ok (resp.xs ++ rs.map (·.x), mem)) ∧
      ∀ i r, rs[i]? = some r → r.intX = r.x ∧ r.intCost = r.cost ∧
        (∀ x ∈ resp.xs ++ (rs.take (i + 1)).map (·.x), Spec.InBox [bound] x) ∧
        ∀ q, m.toSSCO S (past ++ future.take (i + 1)) = .ok q →
          ∃ c, q.toProb.objective (resp.xs ++ (rs.take (i + 1)).map (·.x)) = .ok c ∧ r.cost.cost = c.cost ∧
            c.cost ≠ ⊤ ∧
            ∀ ys : Schedule ℤ, ys.length = past.length + i + 1 → (∀ y ∈ ys, Spec.InBox [bound] y) →
              ∃ c', q.toProb.objective ys = .ok c' ∧ r.cost.cost ≤ c'.cost + c'.cost + c'.cost := by
  obtain ⟨bs, sc, hsh⟩ := Service.toSSCO_shape h0
  rw [hsh] at h0 hp
  cases h0
  cases hp
  set a := past.length with ha
  set p0 : SSCO ℤ DCSuccess DCFailure := ⟨m.d, past.length, bs, sc, applyLoadsOverTime S m.d m.e m.objective past 1⟩
    with hp0
  -- the instances
  have Ip : ∀ k : Nat, k ≤ a → Spec.Inst { p0 with tEnd := (k : Int) } bound β g k := fun k hk =>
    Service.inst_prefix I past future rfl k hk
  obtain ⟨fs, f1, f2, f3⟩ := Service.inst_chain (S := S) (m := m) (bound := bound) (β := β) (g := g) hch future a ⟨p0, 0⟩
    (applyLoadsOverTime S m.d m.e m.objective past 1) hf rfl rfl (Ip a le_rfl) (by
      intro i h j h0 hj
      have hi : (a : Int) + i + 1 ≤ ((past ++ future).length : Nat) := by simp; omega
      obtain ⟨out, ho⟩ := I.hit (a + i + 1) (by omega) hi j h0 hj
      refine ⟨out, ?_⟩
      rw [hit_within I.bounds h0 hj] at ho
      simp only at ho
      rw [mean_over_time (by omega) _ (l := future[i]) (by
        have : ((a : Int) + i + 1 - 1).toNat = past.length + i := by omega
        rw [this, List.getElem?_append_right (by omega)]
        simp [h])] at ho
      exact ho)
  set ps : List (SSCO ℤ DCSuccess DCFailure) := ((List.range a).map fun i => { p0 with tEnd := ((1 + i : Nat) : Int) }) ++ fs
    with hps
  have hlen : ps.length = (past ++ future).length := by simp [hps, f1, ha]
  have hI : ∀ k (h : k < ps.length), Spec.Inst ps[k] bound β g (k + 1) := by
    intro k h
    by_cases hk : k < a
    · have e : ps[k] = { p0 with tEnd := ((k + 1 : Nat) : Int) } := by
        simp only [hps]
        rw [List.getElem_append_left (by simpa using hk)]
        simp [Nat.add_comm]
      rw [e]
      exact Ip (k + 1) hk
    · have hk' : k - a < fs.length := by rw [f1]; rw [hlen] at h; simp at h; omega
      have e : ps[k] = fs[k - a] := by
        simp only [hps]
        rw [List.getElem_append_right (by simpa using hk)]
        simp
      rw [e]
      have := f3 (k - a) hk'
      rwa [Nat.add_sub_cancel' (by omega)] at this
  obtain ⟨xs, mem, x1, x2, x3, _⟩ := C29_three_competitive ps (by rw [hlen]; exact K) hI
  rw [play_iff_run] at x1
  have hratio := Service.prefix_ratio ps (by rw [hlen]; exact K) hI xs mem x1
  have hsplit := x1
  rw [hps, List.map_append] at hsplit
  obtain ⟨us, m1, r1, r2⟩ := Spec.Run.split.1 hsplit
  obtain ⟨z1, e1, l1⟩ := r1.prefix
  obtain ⟨z2, e2, l2⟩ := r2.prefix
  rw [List.nil_append] at e1
  subst e1
  have lus : us.length = a := by simpa using l1
  -- preparation
  have hv : ∀ k : Nat, k ≤ a → integralService.verify ⟨{ p0 with tEnd := k }, 0⟩ = .ok () := fun k hk =>
    Service.verify_ok (Ip k hk) K.hm K.hβ
  have hobj : ∀ k ≤ a, ∃ c, ({ p0 with tEnd := (k : Int) } : SSCO ℤ DCSuccess DCFailure).toProb.objective (us.take k) = .ok c := by
    intro k hk
    have hb : ∀ y ∈ us.take k, Spec.InBox [bound] y := fun y hy => x3 y (by
      rw [e2]; exact List.mem_append_left _ (List.mem_of_mem_take hy))
    obtain ⟨c, _, h, _, _⟩ := Service.objective_same (Ip k hk) (Ip k hk) (ys := us.take k) (by simp; omega) hb
    exact ⟨c, h⟩
  have hprep : ∃ fuel resp, prepare integralService (lcpAlg boundedInt) 0 fuel p0 = some (.ok (⟨p0, 0⟩, resp)) ∧
      resp.xs = us ∧ resp.m = m1 := by
    obtain ⟨c, hc⟩ := hobj a le_rfl
    rw [← lus, List.take_length, lus] at hc
    by_cases h0 : a = 0
    · have eus : us = [] := List.length_eq_zero_iff.1 (by omega)
      have em : m1 = none := by
        rw [h0] at r1
        cases r1; rfl
      subst eus em
      refine ⟨0, ⟨[], c, [], c, none⟩, ?_, rfl, rfl⟩
      have hv0 : integralService.verify ⟨p0, 0⟩ = .ok () := hv a le_rfl
      have t1 : ¬ (integralService.tEnd p0 > 1) := by show ¬ ((a : Int) > 1); omega
      have t2 : ¬ (integralService.tEnd p0 - 0 ≥ 1) := by show ¬ ((a : Int) - 0 ≥ 1); omega
      have hc' : integralService.objective p0 [] = .ok c := hc
      have hc'' : integralService.objective p0 (integralService.toI []) = .ok c := hc
      simp only [prepare, if_neg t1, if_neg t2, hv0, hc', hc'', bind, Except.bind]
      rfl
    · obtain ⟨b, hb⟩ : ∃ b, a = b + 1 := ⟨a - 1, by omega⟩
      have hstream := Service.streamed_past (lcpAlg boundedInt) p0 a hv b 1 [] none us m1 (by omega) (by
        rw [← hb]
        have := r1
        rw [List.map_map] at this
        exact this)
      obtain ⟨fuel, hfuel⟩ := (C36_stream_exact _ _ _ _ _ _ _ _ _ _).2 ⟨_, hstream⟩
      have t1 : (if integralService.tEnd p0 > 1 then integralService.setTEnd p0 1 else p0) =
          { p0 with tEnd := ((1 : Nat) : Int) } := by
        split_ifs with h
        · rfl
        · have : ¬ ((a : Int) > 1) := h
          have : a = 1 := by omega
          rw [hp0, ← ha, this]
      have t2 : (a : Int) ≥ 1 := by omega
      have t3 : integralService.tEnd p0 - 0 = (a : Int) := by show (a : Int) - 0 = a; omega
      have t4 : offlineStream integralService.tEnd integralService.setTEnd integralService.verify (lcpAlg boundedInt) a fuel
          ⟨{ p0 with tEnd := ((1 : Nat) : Int) }, 0⟩ = some (.ok (⟨p0, 0⟩, us, m1)) := hfuel
      have hc' : integralService.objective p0 us = .ok c := hc
      have hc'' : integralService.objective p0 (integralService.toI us) = .ok c := hc
      refine ⟨fuel, ⟨us, c, us, c, m1⟩, ?_, rfl, rfl⟩
      simp only [prepare, t1, t3, if_pos t2, hv 1 (by omega), t4, hc', hc'', bind, Except.bind]
      rfl
  obtain ⟨fuel, resp, q1, q2, q3⟩ := hprep
  have hres := C38_server_follows_run integralService (lcpAlg boundedInt) (m.updateSSCO S choose)
    (DataCenterModel.intoOnline future) ⟨p0, 0⟩ us m1 (fs.map fun p => ⟨p, 0⟩) xs mem [] f2 r2 (by
      intro i o' ho
      rw [List.getElem?_map, Option.map_eq_some_iff] at ho
      obtain ⟨p', hp', rfl⟩ := ho
      obtain ⟨hi, rfl⟩ := List.getElem?_eq_some_iff.1 hp'
      obtain ⟨c, hc, _⟩ := (hratio (a + i) (by simp [hps]; omega)).2.2 fs[i] (f3 i hi)
      have hne : xs.take (us.length + i + 1) ≠ [] := by
        intro e
        have h1 := (hratio (a + i) (by simp [hps]; omega)).2.1
        rw [lus] at e
        rw [e] at h1
        simp at h1
      rw [← lus] at hc
      exact ⟨c, c, _, hc, hc, List.getLast?_eq_some_getLast hne⟩)
  obtain ⟨rs, s1, s2, s3⟩ := hres
  have lz : z2.length = fs.length := by simpa using l2
  have lr : rs.length = fs.length := by rw [s1, f1]; simp [DataCenterModel.intoOnline]
  have ez : rs.map (·.x) = z2 := by
    apply List.ext_getElem
    · simp [lz, lr]
    · intro n h1 h2
      have hn : n < rs.length := by simpa using h1
      have := (s2 n rs[n] (List.getElem?_eq_getElem hn)).x
      rw [e2, List.getElem?_append_right (by omega), Nat.add_sub_cancel_left, List.getElem?_eq_getElem (by omega)] at this
      simp only [List.getElem_map]
      exact (Option.some.inj this).symm
  refine ⟨fuel, resp, rs, q1, by rw [q2, lus], ?_, ?_, ⟨ps, mem, hlen, hI, ?_⟩, ?_⟩
  · rw [q2, q3]
    simpa [serve] using s3
  · rw [s1]; simp [DataCenterModel.intoOnline]
  · rw [q2, ez, ← e2, play_iff_run]
    exact x1
  · intro i r hr
    have hi : i < fs.length := by
      have := (List.getElem?_eq_some_iff.1 hr).1
      rw [s1] at this
      rw [f1]
      simpa [DataCenterModel.intoOnline] using this
    have A := s2 i r hr
    obtain ⟨o', ho', c1, c2⟩ := A.cost
    rw [List.getElem?_map, List.getElem?_eq_getElem hi] at ho'
    cases ho'
    have ebase : us ++ (rs.take (i + 1)).map (·.x) = xs.take (a + i + 1) := by
      have hz : xs.take (a + i + 1) = us ++ z2.take (i + 1) := by
        rw [e2, ← lus, Nat.add_assoc, List.take_length_add_append]
      rw [hz]
      rw [List.map_take, ez]
    have hlt : a + i < ps.length := by simp [hps]; omega
    obtain ⟨b1, b2, b3⟩ := hratio (a + i) hlt
    refine ⟨?_, ?_, ?_, ?_⟩
    · have h1 := A.intX
      have h2 := A.x
      rw [lus] at h1 h2
      change (xs.take (a + i + 1)).getLast? = some r.intX at h1
      rw [List.getLast?_eq_getElem?, b2, Nat.add_sub_cancel, List.getElem?_take_of_lt (by omega), h2] at h1
      exact (Option.some.inj h1).symm
    · rw [lus] at c1 c2
      have := c1.symm.trans c2
      injection this with this
      exact this.symm
    · rw [q2, ebase]
      exact b1
    · intro q hq
      rw [hsh] at hq
      have hall : past ++ future = (past ++ future.take (i + 1)) ++ future.drop (i + 1) := by simp
      have hlq : (past ++ future.take (i + 1)).length = a + i + 1 := by simp; omega
      have J : Spec.Inst q bound β g (a + i + 1) := by
        have := Service.inst_prefix I _ _ hall (a + i + 1) (by omega)
        rw [hlq] at hq
        cases hq
        exact this
      obtain ⟨c, d1, d2, d3⟩ := b3 q J
      obtain ⟨c', d1', d2', _⟩ := b3 fs[i] (f3 i hi)
      obtain ⟨e1, e2, g1, g2, g3⟩ := Service.objective_same J (f3 i hi) b2 b1
      rw [d1] at g1
      cases g1
      rw [lus] at c1
      have hrc : r.cost = e2 := by
        have := c1.symm.trans g2
        injection this
      rw [q2, ebase]
      refine ⟨c, d1, by rw [hrc, g3], d2, ?_⟩
      intro ys y1 y2
      rw [hrc, ← g3]
      exact d3 ys y1 y2

/-- **C86** A service for a data center which decides by integral lazy capacity provisioning, started with past loads and
then sent one load after another. If the hitting costs of the offline problem of all loads are convex, then starting
succeeds, every request is answered, and the cost reported with each answer is the actual cost of the decisions so far,
with respect to the offline problem of the loads so far, and at most three times what any other schedule for these loads
costs. One load type, no prediction window. -/
theorem C86_service (S : Num.Solver) (choose : Nat → List ℚ → Nat → List ℚ) (hch : ChoosesFrom choose)
    (m : DataCenterModel) (past future : List LoadProfile) (hf : ∀ l ∈ future, l.length = 1)
    (p0 p : SSCO ℤ DCSuccess DCFailure) (h0 : m.toSSCO S past = .ok p0) (hp : m.toSSCO S (past ++ future) = .ok p)
    (bound : ℤ) (β : ℚ) (g : Int → ℤ → ECost) (I : Spec.Inst p bound β g (past ++ future).length)
    (K : Spec.Costs bound β g (past ++ future).length) :
    ∃ (fuel : Nat) (resp : OfflineResponse ℤ (List (BoundsMem ℤ)) (Cost DCSuccess DCFailure))
        (rs : List (OnlineResponse ℤ (List (BoundsMem ℤ)) (Cost DCSuccess DCFailure))),
      prepare integralService (lcpAlg boundedInt) 0 fuel p0 = some (.ok (⟨p0, 0⟩, resp)) ∧
      resp.xs.length = past.length ∧
      serve integralService (lcpAlg boundedInt) (m.updateSSCO S choose) ⟨⟨p0, 0⟩, resp.xs, resp.m⟩
        ((DataCenterModel.intoOnline future).map some) = rs.map .ok ∧
      rs.length = future.length ∧
      ∀ i r, rs[i]? = some r → r.intX = r.x ∧ r.intCost = r.cost ∧
        (∀ x ∈ resp.xs ++ (rs.take (i + 1)).map (·.x), Spec.InBox [bound] x) ∧
        ∀ q, m.toSSCO S (past ++ future.take (i + 1)) = .ok q →
          ∃ c, q.toProb.objective (resp.xs ++ (rs.take (i + 1)).map (·.x)) = .ok c ∧ r.cost.cost = c.cost ∧
            c.cost ≠ ⊤ ∧
            ∀ ys : Schedule ℤ, ys.length = past.length + i + 1 → (∀ y ∈ ys, Spec.InBox [bound] y) →
              ∃ c', q.toProb.objective ys = .ok c' ∧ r.cost.cost ≤ c'.cost + c'.cost + c'.cost := by
  obtain ⟨fuel, resp, rs, h1, h2, h3, h4, _, h5⟩ := Service.service_run S choose hch m past future hf p0 p h0 hp bound β g I K
  exact ⟨fuel, resp, rs, h1, h2, h3, h4, h5⟩

/-- **C86** The same for a data center with one server type and one job type, in terms of its parameters: it suffices that
energy consumption is convex in the utilisation, and that all servers together can process every load. -/
theorem C86_single_type (S : Num.Solver) (hS : Spec.SolvesEmpty S) (choose : Nat → List ℚ → Nat → List ℚ)
    (hch : ChoosesFrom choose) (m : DataCenterModel) (F : Spec.Farm) (h : Spec.IsFarm m F) (hF : F.Valid)
    (past future : List ℚ) (hl : ∀ l ∈ past ++ future, F.Carries l) :
    ∃ (p0 : SSCO ℤ DCSuccess DCFailure) (fuel : Nat)
        (resp : OfflineResponse ℤ (List (BoundsMem ℤ)) (Cost DCSuccess DCFailure))
        (rs : List (OnlineResponse ℤ (List (BoundsMem ℤ)) (Cost DCSuccess DCFailure))),
      m.toSSCO S (past.map fun l => [l]) = .ok p0 ∧
      prepare integralService (lcpAlg boundedInt) 0 fuel p0 = some (.ok (⟨p0, 0⟩, resp)) ∧
      resp.xs.length = past.length ∧
      serve integralService (lcpAlg boundedInt) (m.updateSSCO S choose) ⟨⟨p0, 0⟩, resp.xs, resp.m⟩
        (future.map fun l => some [[[l]]]) = rs.map .ok ∧
      rs.length = future.length ∧
      ∀ i r, rs[i]? = some r →
        ∃ js : List ℤ, resp.xs ++ (rs.take (i + 1)).map (·.x) = js.map (fun j => [j]) ∧
          (∀ j ∈ js, 0 ≤ j ∧ j ≤ F.servers) ∧
          r.cost.cost = Spec.totalCost (fun t (j : ℤ) => F.slotCost t ((past ++ future).getD (t - 1).toNat 0) j)
            (fun y x => F.switching * max 0 ((x : ℚ) - y)) 1 1 0 js ∧ r.cost.cost ≠ ⊤ ∧
          ∀ ks : List ℤ, ks.length = past.length + i + 1 → (∀ k ∈ ks, 0 ≤ k ∧ k ≤ F.servers) →
            ∃ c, c = Spec.totalCost (fun t (j : ℤ) => F.slotCost t ((past ++ future).getD (t - 1).toNat 0) j)
              (fun y x => F.switching * max 0 ((x : ℚ) - y)) 1 1 0 ks ∧ r.cost.cost ≤ c + c + c := by
  obtain ⟨p, hp, I⟩ := C87_problem S hS m F h hF (past ++ future) fun l hm => (hl l hm).1
  have K := C87_convex F hF (past ++ future) hl
  have h0 := toSSCO_eq h S (past.map fun l => [l])
  have hlen : (past ++ future).length = ((past.map fun l => [l]) ++ future.map fun l => [l] : List LoadProfile).length := by
    simp
  rw [hlen] at I K
  rw [List.map_append] at hp
  have hon : (DataCenterModel.intoOnline (future.map fun l => [l])).map some = future.map fun l => some [[[l]]] := by
    simp [DataCenterModel.intoOnline, LoadProfile.intoPredicted]
  obtain ⟨fuel, resp, rs, s1, s2, s3, s4, s5⟩ := C86_service S choose hch m (past.map fun l => [l])
    (future.map fun l => [l]) (by simp) _ _ h0 hp _ _ _ I K
  rw [hon] at s3
  refine ⟨_, fuel, resp, rs, h0, s1, by simpa using s2, s3, by simpa using s4, ?_⟩
  intro i r hr
  obtain ⟨_, _, hbox, hq⟩ := s5 i r hr
  have hi : i < future.length := by
    have := (List.getElem?_eq_some_iff.1 hr).1
    rw [s4] at this
    simpa using this
  obtain ⟨js, ejs, hjs⟩ := Service.box_list hbox
  have hall : ((past.map fun l => [l]) ++ future.map fun l => [l] : List LoadProfile) =
      ((past.map fun l => [l]) ++ (future.map fun l => [l]).take (i + 1)) ++ (future.map fun l => [l]).drop (i + 1) := by
    simp
  have hlq : ((past.map fun l => [l]) ++ (future.map fun l => [l]).take (i + 1) : List LoadProfile).length =
      past.length + i + 1 := by simp; omega
  rw [toSSCO_eq h] at hp
  cases hp
  have J := Service.inst_prefix I _ _ hall (past.length + i + 1) (by omega)
  have hq' := toSSCO_eq h S ((past.map fun l => [l]) ++ (future.map fun l => [l]).take (i + 1))
  rw [hlq] at hq'
  obtain ⟨c, c1, c2, c3, c4⟩ := hq _ hq'
  have ljs : js.length = past.length + i + 1 := by
    have := congrArg List.length ejs
    have hrl : rs.length = future.length := by simpa using s4
    have hpl : resp.xs.length = past.length := by simpa using s2
    simp [hpl, hrl] at this
    omega
  have emv : ∀ y x : ℤ, Uni.mv1 F.switching false y x = F.switching * max 0 ((x : ℚ) - y) := by
    intro y x
    simp [Uni.mv1]
  have emv' : Uni.mv1 F.switching false = fun y x : ℤ => F.switching * max 0 ((x : ℚ) - y) := by
    funext y x
    exact emv y x
  obtain ⟨out, ho⟩ := Lcp.objective_last J js ljs hjs
  rw [emv'] at ho
  refine ⟨js, ejs, hjs, ?_, by rw [c2]; exact c3, ?_⟩
  · rw [ejs, ho] at c1
    injection c1 with c1
    rw [c2, ← c1]
  · intro ks k1 k2
    obtain ⟨out', ho'⟩ := Lcp.objective_last J ks k1 k2
    rw [emv'] at ho'
    obtain ⟨c', d1, d2⟩ := c4 (ks.map fun j => [j]) (by simpa using k1) (by
      intro y hy
      obtain ⟨k, hk, rfl⟩ := List.mem_map.1 hy
      exact .cons (k2 k hk) .nil)
    rw [ho'] at d1
    injection d1 with d1
    subst d1
    exact ⟨_, rfl, d2⟩

/-! ## Example -/

example (S : Num.Solver) (hS : Spec.SolvesEmpty S) (choose : Nat → List ℚ → Nat → List ℚ) (hch : ChoosesFrom choose) :=
  C86_single_type S hS choose hch Ex.farmModel Ex.farm Ex.farm_is Ex.farm_valid [3, 0] [7, 2] Ex.farm_carries

end Soco
