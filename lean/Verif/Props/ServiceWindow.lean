import Verif.Props.Service
import Verif.Props.LcpWindow

/-!
# C102: a running capacity provisioning service with a prediction window
-/

namespace Soco
namespace Service

section
variable {P T K M B : Type} [Value T]

/-- The past is streamed, up to the prediction window. -/
theorem streamed_window (sv : Server P T K) (A : OnlineAlgorithm P T M) (p0 : P) (w N : Nat)
    (ht : ∀ k, sv.tEnd (sv.setTEnd p0 k) = k) (hset : ∀ k l, sv.setTEnd (sv.setTEnd p0 k) l = sv.setTEnd p0 l)
    (hv : ∀ k : Nat, k + w ≤ N → sv.verify ⟨sv.setTEnd p0 k, w⟩ = .ok ()) :
    ∀ (j k : Nat) (xs : Schedule T) (mem : Option M) (ys : Schedule T) (mem' : Option M),
      (k + j + w = N ∨ j = 0 ∧ N ≤ k + w) → Spec.Run sv.tEnd A xs mem
        ((List.range (j + 1)).map fun i => ⟨sv.setTEnd p0 ((k + i : Nat) : Int), w⟩) ys mem' →
      Spec.Streamed sv.tEnd sv.verify A (offlineUpdate sv.tEnd sv.setTEnd N) ⟨sv.setTEnd p0 k, w⟩ xs mem
        ((List.range (j + 1)).map fun i => ⟨sv.setTEnd p0 ((k + i : Nat) : Int), w⟩)
        ⟨sv.setTEnd p0 ((k + j : Nat) : Int), w⟩ ys mem' := by
  intro j
  induction j with
  | zero =>
    intro k xs mem ys mem' hk hr
    refine .stop _ _ _ _ _ _ hr ?_
    have hn : ¬ ((k : Int) < (N : Int) - (w : Int)) := by omega
    simp [offlineUpdate, ht, hn]
  | succ j ih =>
    intro k xs mem ys mem' hk hr
    rw [List.range_succ_eq_map, List.map_cons, List.map_map] at hr ⊢
    have e : ((List.range (j + 1)).map ((fun i => (⟨sv.setTEnd p0 ((k + i : Nat) : Int), w⟩ : Online P)) ∘ Nat.succ)) =
        (List.range (j + 1)).map fun i => ⟨sv.setTEnd p0 (((k + 1) + i : Nat) : Int), w⟩ := by
      apply List.map_congr_left
      intro i _
      simp only [Function.comp, Nat.succ_eq_add_one]
      have : k + (i + 1) = k + 1 + i := by omega
      rw [this]
    rw [e] at hr ⊢
    obtain ⟨us, m1, r1, r2⟩ := Spec.Run.split (os := [_]).1 hr
    have hlt : sv.tEnd (sv.setTEnd p0 k) < (N : Int) - (w : Int) := by rw [ht]; omega
    have e2 : k + (j + 1) = k + 1 + j := by omega
    rw [e2]
    refine .next _ _ _ _ _ ⟨sv.setTEnd p0 ((k + 1 : Nat) : Int), w⟩ _ _ _ _ r1 ?_ (hv (k + 1) (by omega))
      (ih (k + 1) _ _ _ _ (by omega) r2)
    refine (if_pos hlt).trans ?_
    simp only [ht, hset]
    push_cast
    rfl

/-- A service with a prediction window of `w` slots which is started with an instance of `a` slots, and then receives
inputs. It decides the first `b = a - 2 w` slots when it is started (at least one, but none if `a = 0`), and answers every input with the
next decision and the cost so far. -/
theorem follows_window (sv : Server P T K) (A : OnlineAlgorithm P T M) (update : Online P → B → Res (Online P)) (p0 : P)
    (a b w : Nat) (hab : a = 0 ∧ b = 0 ∨ w < a ∧ b = max 1 (a - 2 * w))
    (ht : ∀ k, sv.tEnd (sv.setTEnd p0 k) = k) (hset : ∀ k l, sv.setTEnd (sv.setTEnd p0 k) l = sv.setTEnd p0 l)
    (h0 : sv.setTEnd p0 a = p0) (hv : ∀ k : Nat, k ≤ a → sv.verify ⟨sv.setTEnd p0 k, w⟩ = .ok ())
    (inputs : List B) (fs : List P) (hu : Spec.Updates update ⟨sv.setTEnd p0 b, w⟩ inputs (fs.map fun p => ⟨p, w⟩))
    (xs : Schedule T) (mem : Option M)
    (hrun : Spec.Run sv.tEnd A [] none (((List.range b).map fun i => ⟨sv.setTEnd p0 ((1 + i : Nat) : Int), w⟩) ++
      fs.map fun p => ⟨p, w⟩) xs mem)
    (hpast : ∃ c c', sv.objective (sv.setTEnd p0 b) (xs.take b) = .ok c ∧
      sv.objective (sv.setTEnd p0 b) (sv.toI (xs.take b)) = .ok c')
    (hcost : ∀ i p, fs[i]? = some p → ∃ c c' x, sv.objective p (xs.take (b + i + 1)) = .ok c ∧
      sv.objective p (sv.toI (xs.take (b + i + 1))) = .ok c' ∧ (sv.toI (xs.take (b + i + 1))).getLast? = some x) :
    ∃ (fuel : Nat) (resp : OfflineResponse T M K) (rs : List (OnlineResponse T M K)),
      prepare sv A w fuel p0 = some (.ok (⟨sv.setTEnd p0 b, w⟩, resp)) ∧
      serve sv A update ⟨⟨sv.setTEnd p0 b, w⟩, resp.xs, resp.m⟩ (inputs.map some) = rs.map .ok ∧
      rs.length = inputs.length ∧ xs = resp.xs ++ rs.map (·.x) ∧ resp.xs.length = b ∧
      ∀ i r, rs[i]? = some r → ∃ p, fs[i]? = some p ∧ sv.objective p (xs.take (b + i + 1)) = .ok r.cost ∧
        sv.objective p (sv.toI (xs.take (b + i + 1))) = .ok r.intCost ∧
        (sv.toI (xs.take (b + i + 1))).getLast? = some r.intX := by
  have htE : sv.tEnd p0 = a := by
    have := ht a
    rwa [h0] at this
  obtain ⟨us, m1, r1, r2⟩ := Spec.Run.split.1 hrun
  obtain ⟨z1, e1, l1⟩ := r1.prefix
  obtain ⟨z2, e2, l2⟩ := r2.prefix
  rw [List.nil_append] at e1
  subst e1
  have lus : us.length = b := by simpa using l1
  have etake : xs.take b = us := by rw [e2, ← lus, List.take_left']; rfl
  obtain ⟨c, c', hc, hc'⟩ := hpast
  rw [etake] at hc hc'
  have hprep : ∃ fuel, prepare sv A w fuel p0 = some (.ok (⟨sv.setTEnd p0 b, w⟩, ⟨us, c, sv.toI us, c', m1⟩)) := by
    rcases hab with ⟨ha, hb⟩ | ⟨ha, hb'⟩
    · subst ha hb
      have eus : us = [] := List.length_eq_zero_iff.1 (by omega)
      have em : m1 = none := by cases r1; rfl
      subst eus em
      have hv0 : sv.verify ⟨p0, w⟩ = .ok () := by
        have := hv 0 le_rfl
        rwa [h0] at this
      rw [h0] at hc hc'
      refine ⟨0, ?_⟩
      have t1 : ¬ (sv.tEnd p0 > 1) := by rw [htE]; omega
      have t2 : ¬ (sv.tEnd p0 - w ≥ 1) := by rw [htE]; omega
      simp only [prepare, if_neg t1, if_neg t2, hv0, hc, hc', bind, Except.bind, h0]
    · obtain ⟨j, hj⟩ : ∃ j, b = 1 + j := ⟨b - 1, by omega⟩
      have hstream := streamed_window sv A p0 w (a - w) ht hset (fun k hk => hv k (by omega)) j 1 [] none us m1 (by omega) (by
        have : j + 1 = b := by omega
        rw [this]
        exact r1)
      rw [← hj] at hstream
      obtain ⟨fuel, hfuel⟩ := (C36_stream_exact _ _ _ _ _ _ _ _ _ _).2 ⟨_, hstream⟩
      have t1 : (if sv.tEnd p0 > 1 then sv.setTEnd p0 1 else p0) = sv.setTEnd p0 ((1 : Nat) : Int) := by
        split_ifs with h
        · rfl
        · rw [htE] at h
          have : a = 1 := by omega
          rw [← this, h0]
      have t3 : sv.tEnd p0 - w = ((a - w : Nat) : Int) := by rw [htE]; omega
      have t2 : ((a - w : Nat) : Int) ≥ 1 := by omega
      have t4 : offlineStream sv.tEnd sv.setTEnd sv.verify A ((a - w : Nat) : Int) fuel ⟨sv.setTEnd p0 ((1 : Nat) : Int), w⟩ =
        some (.ok (⟨sv.setTEnd p0 b, w⟩, us, m1)) := hfuel
      refine ⟨fuel, ?_⟩
      simp only [prepare, t1, t3, if_pos t2, hv 1 (by omega), t4, hc, hc', bind, Except.bind]
  obtain ⟨fuel, q1⟩ := hprep
  obtain ⟨rs, s1, s2, s3⟩ := C38_server_follows_run sv A update inputs ⟨sv.setTEnd p0 b, w⟩ us m1 (fs.map fun p => ⟨p, w⟩)
      xs mem [] hu r2 (by
    intro i o' ho
    rw [List.getElem?_map, Option.map_eq_some_iff] at ho
    obtain ⟨p', hp', rfl⟩ := ho
    rw [lus]
    exact hcost i p' hp')
  have lf : inputs.length = fs.length := by
    have : ∀ {o : Online P} {bs : List B} {os : List (Online P)}, Spec.Updates update o bs os → bs.length = os.length := by
      intro o bs os h
      induction h with
      | nil => rfl
      | step _ _ _ _ _ _ _ ih => simp [ih]
    simpa using this hu
  refine ⟨fuel, _, rs, q1, ?_, s1, ?_, lus, ?_⟩
  · simpa [serve] using s3
  · rw [e2]
    congr 1
    apply List.ext_getElem
    · rw [List.length_map, s1, lf]
      simpa using l2
    · intro n h1 h2
      have hn : n < rs.length := by simpa using h2
      have := (s2 n rs[n] (List.getElem?_eq_getElem hn)).x
      rw [e2, List.getElem?_append_right (by omega), Nat.add_sub_cancel_left, List.getElem?_eq_getElem h1] at this
      rw [List.getElem_map]
      exact Option.some.inj this
  · intro i r hr
    have A := s2 i r hr
    obtain ⟨o', ho', c1, c2⟩ := A.cost
    have h3 := A.intX
    rw [lus] at c1 c2 h3
    rw [List.getElem?_map, Option.map_eq_some_iff] at ho'
    obtain ⟨p', hp', rfl⟩ := ho'
    exact ⟨p', hp', c1, c2, h3⟩

end

section
variable {S : Num.Solver} {m : DataCenterModel} {bound : ℤ} {β : ℚ} {g : Int → ℤ → ECost}
open Lcp Uni SingleType

/-- A valid instance passes the verification, with any window. -/
theorem verify_window {p : SSCO ℤ DCSuccess DCFailure} {n : Nat} (I : Spec.Inst p bound β g n) (hm : 0 < bound) (hβ : 0 < β)
    (w : Nat) : integralService.verify ⟨p, w⟩ = .ok () := by
  simp [integralService, Online.verify, SSCO.verify, I.d, I.bounds, I.switching, I.tEnd, assertValidity, assertR, forRange, idx, hm,
    hβ, bind, Except.bind, pure, Except.pure]

/-- The newest function decides all later slots, if it has been added for the latest slot. -/
theorem get_add_later {X C D : Type} [OutSuccess C] [OutFailure D] (history : List (Int × SingleCostFn X C D)) (u t : Int)
    (hu : 1 ≤ u) (ht : u ≤ t) (hh : ∀ e ∈ history, e.1 ≤ u) (f : SingleCostFn X C D) :
    ((CostFn.build history).add u f).get t = .ok (u, f) := by
  rw [← CostFn.build_append history (u, f)]
  refine (C05_version_used _ t (u, f)).2 ⟨hu, ht, ⟨history, [], by simp, by simp⟩, ?_⟩
  intro e he _ _
  rcases List.mem_append.1 he with he | he
  · exact hh e he
  · rw [List.mem_singleton] at he; rw [he]

/-- Foreseen loads of one type are evaluated as the loads which occur. -/
theorem applyPredicted_foreseen (choose : Nat → List ℚ → Nat → List ℚ) (hch : ChoosesFrom choose) (d e : Nat)
    (objective : LoadObjective ℤ) (loads : List LoadProfile) (hf : ∀ l ∈ loads, l.length = 1) (n w : Nat) (t : Int)
    (h1 : (n : Int) + 1 ≤ t) (h2 : t ≤ (n : Int) + 1 + w) (l : LoadProfile) (hl : loads[(t - 1).toNat]? = some l)
    (x : Config ℤ) :
    applyPredictedLoads S choose d e objective (Spec.foreseen loads n w) (n + 1) t x =
      (applyLoads S d e objective l t x).map fun c => [c] := by
  have hlen := (List.getElem?_eq_some_iff.1 hl).1
  have e1 : access (Spec.foreseen loads n w) (unshiftTime t (n + 1)) = some l.intoPredicted := by
    unfold access unshiftTime Spec.foreseen
    rw [if_pos ⟨by omega, by simp; omega⟩, List.getElem?_map, List.getElem?_take_of_lt (by omega), List.getElem?_drop]
    have : n + (t - ((n : Int) + 1) + 1 - 1).toNat = (t - 1).toNat := by omega
    rw [this, hl]
    rfl
  have h3 := hf l (List.mem_of_getElem? hl)
  match l, h3 with
  | [z], _ =>
    unfold applyPredictedLoads
    have e2 : sampleLoadProfiles choose (LoadProfile.intoPredicted [z]) = .ok [[z]] := (C41_certain_partial choose hch z).1
    simp only [e1, e2, bind, Except.bind, mapM_singleton_res]

/-- Online instances while future loads are revealed together with exact predictions. -/
theorem foresight_chain {choose : Nat → List ℚ → Nat → List ℚ} (hch : ChoosesFrom choose) (loads : List LoadProfile)
    (hf : ∀ l ∈ loads, l.length = 1) (w : Nat)
    (hl : ∀ (t : Int) (l : LoadProfile), 1 ≤ t → loads[(t - 1).toNat]? = some l → ∀ j, 0 ≤ j → j ≤ bound →
      ∃ out, applyLoads S m.d m.e m.objective l t [j] = .ok ⟨g t j, out⟩) :
    ∀ (r n : Nat) (o : Online (SSCO ℤ DCSuccess DCFailure))
      (history : List (Int × SingleCostFn (Config ℤ) DCSuccess DCFailure)),
      n + r + w ≤ loads.length → o.w = w → o.p.hittingCost = CostFn.build history →
      (∀ e ∈ history, e.1 ≤ (n : Int) + 1) → Spec.Inst o.p bound β g n →
      ∃ ps : List (SSCO ℤ DCSuccess DCFailure), ps.length = r ∧
        Spec.Updates (m.updateSSCO S choose) o ((List.range r).map fun i => Spec.foreseen loads (n + i) w)
          (ps.map fun p => ⟨p, w⟩) ∧
        ∀ i (h : i < ps.length), Spec.Foresight ps[i] bound β g (n + i + 1) w := by
  intro r
  induction r with
  | zero =>
    intro n o history _ _ _ _ _
    exact ⟨[], rfl, .nil _, by simp⟩
  | succ r ih =>
    intro n o history hr hw hh hk I
    have hspan : o.w < ((Spec.foreseen loads n w).length : Int) := by
      rw [hw]; simp [Spec.foreseen]; omega
    obtain ⟨o', b1, b2, b3, b4, b5, b6, b7, b8⟩ :=
      (C43_update_ssco S choose m o (Spec.foreseen loads n w) history hh).2 hspan
    rw [I.tEnd] at b6 b7 b8
    have hpred : ∀ t l x, (n : Int) + 1 ≤ t → t ≤ (n : Int) + 1 + w → loads[(t - 1).toNat]? = some l →
        o'.p.hittingCost.callPredictive t x = (applyLoads S m.d m.e m.objective l t x).map fun c => [c] := by
      intro t l x h1 h2 h3
      rw [b8, CostFn.build_append]
      have hg := get_add_later history (n + 1) t (by omega) h1 hk
        (applyPredictedLoads S choose m.d m.e m.objective (Spec.foreseen loads n w) (n + 1))
      exact callPredictive_singleton _ _ x _ _ hg h1 _ (applyPredicted_foreseen choose hch m.d m.e m.objective loads hf n w t
        h1 h2 l h3 x)
    have hget : ∀ t : Int, 1 ≤ t → t ≤ (n : Int) + 1 + w → ∃ l, loads[(t - 1).toNat]? = some l := fun t h1 h2 =>
      ⟨_, List.getElem?_eq_getElem (show (t - 1).toNat < loads.length by omega)⟩
    have I' : Spec.Foresight o'.p bound β g (n + 1) w := {
      d := b3.trans I.d
      bounds := b4.trans I.bounds
      switching := b5.trans I.switching
      tEnd := by rw [b6]; push_cast; ring
      certain := by
        intro t h1 h2
        by_cases ht : t ≤ n
        · intro x r hr
          rw [(b7 t x ht).2.2.1] at hr
          exact I.certain t h1 ht x r hr
        · push_cast at h2
          obtain ⟨l, hl'⟩ := hget t h1 (by omega)
          intro x r hr
          rw [hpred t l x (by omega) (by omega) hl'] at hr
          cases hc : applyLoads S m.d m.e m.objective l t x with
          | error e => simp [hc, Except.map] at hr
          | ok c => simp only [hc, Except.map, Except.ok.injEq] at hr; subst hr; rfl
      hit := by
        intro t h1 h2 j h0 hj
        by_cases ht : t ≤ n
        · rw [(b7 t [j] ht).2.2.2]
          exact I.hit t h1 ht j h0 hj
        · push_cast at h2
          obtain ⟨l, hl'⟩ := hget t h1 (by omega)
          obtain ⟨out, ho⟩ := hl t l h1 hl' j h0 hj
          refine ⟨out, ?_⟩
          rw [SingleType.hit_within (b4.trans I.bounds) h0 hj, CostFn.callMean_eq, hpred t l _ (by omega) (by omega) hl', ho]
          exact Cost.mean_singleton _ }
    obtain ⟨ps, c1, c2, c3⟩ := ih (n + 1) o' _ (by omega) (b2.trans hw) b8 (by
      intro e he
      push_cast
      rcases List.mem_append.1 he with he | he
      · have := hk e he; omega
      · rw [List.mem_singleton] at he; subst he; simp) (Window.toInst I')
    have eo : (⟨o'.p, w⟩ : Online (SSCO ℤ DCSuccess DCFailure)) = o' := by
      have := b2.trans hw
      cases o'; simp only at this; subst this; rfl
    have er : ((List.range (r + 1)).map fun i => Spec.foreseen loads (n + i) w) =
        Spec.foreseen loads n w :: (List.range r).map fun i => Spec.foreseen loads (n + 1 + i) w := by
      rw [List.range_succ_eq_map, List.map_cons, List.map_map]
      congr 1
      apply List.map_congr_left
      intro i _
      simp only [Function.comp, Nat.succ_eq_add_one]
      rw [show n + (i + 1) = n + 1 + i by omega]
    refine ⟨o'.p :: ps, by simp [c1], ?_, ?_⟩
    · rw [er, List.map_cons, eo]
      exact .step _ _ _ _ _ b1 c2
    · intro i h
      cases i with
      | zero => exact I'
      | succ i =>
        have := c3 i (by simpa using h)
        have e : n + 1 + i + 1 = n + (i + 1) + 1 := by ring
        rw [e] at this
        exact this

/-- After every number of slots the schedule so far costs at most three times what any schedule for these slots and the
next window costs. -/
theorem window_ratio (w : Nat) (ps : List (SSCO ℤ DCSuccess DCFailure)) (K : Spec.Costs bound β g (ps.length + w))
    (I : ∀ k (h : k < ps.length), Spec.Foresight ps[k] bound β g (k + 1) w) (xs : Schedule ℤ) (mem)
    (hrun : Spec.Run SSCO.tEnd (lcpAlg boundedInt) [] none (ps.map fun p => ⟨p, w⟩) xs mem)
    (q0 : SSCO ℤ DCSuccess DCFailure) (Q0 : Spec.Inst q0 bound β g (ps.length + w)) :
    ∀ i, i < ps.length → (∀ x ∈ xs.take (i + 1), Spec.InBox [bound] x) ∧ (xs.take (i + 1)).length = i + 1 ∧
      ∀ p q : SSCO ℤ DCSuccess DCFailure, Spec.Inst p bound β g (i + 1) → Spec.Inst q bound β g (i + 1 + w) →
        ∃ c, p.toProb.objective (xs.take (i + 1)) = .ok c ∧ c.cost ≠ ⊤ ∧
          ∀ ys : Schedule ℤ, ys.length = i + 1 + w → (∀ y ∈ ys, Spec.InBox [bound] y) →
            ∃ c', q.toProb.objective ys = .ok c' ∧ c.cost ≤ c'.cost + c'.cost + c'.cost := by
  intro i hi
  obtain ⟨_, _, h3⟩ := C35_one_decision_per_slot _ _ _ _ _ _ _ hrun
  obtain ⟨k', hk', _⟩ := h3 (i + 1) (by simp; omega)
  have hlen : (ps.take (i + 1)).length = i + 1 := by simp; omega
  have K' : Spec.Costs bound β g ((ps.take (i + 1)).length + w) := by
    rw [hlen]
    exact ⟨K.hm, K.hβ, fun t a b => K.fin t a (by omega), fun t a b => K.nonneg t a (by omega),
      fun t a b => K.conv t a (by omega)⟩
  have I' : ∀ k (h : k < (ps.take (i + 1)).length), Spec.Foresight (ps.take (i + 1))[k] bound β g (k + 1) w := by
    intro k h
    rw [List.getElem_take]
    exact I k (by omega)
  simp only [List.length_nil, Nat.zero_add] at hk'
  have key : ∀ q : SSCO ℤ DCSuccess DCFailure, Spec.Inst q bound β g (i + 1 + w) →
      (∀ x ∈ xs.take (i + 1), Spec.InBox [bound] x) ∧ (xs.take (i + 1)).length = i + 1 ∧
      ∃ c, ps[i].toProb.objective (xs.take (i + 1)) = .ok c ∧ c.cost ≠ ⊤ ∧
          ∀ ys : Schedule ℤ, ys.length = i + 1 + w → (∀ y ∈ ys, Spec.InBox [bound] y) →
            ∃ c', q.toProb.objective ys = .ok c' ∧ c.cost ≤ c'.cost + c'.cost + c'.cost := by
    intro q Q
    obtain ⟨us, mem', u1, u2, u3, u4⟩ := C101_window_three_competitive w (ps.take (i + 1)) K' I' q (by rwa [hlen])
    rw [play_iff_run, List.map_take] at u1
    obtain ⟨e, _⟩ := u1.det hk'
    subst e
    obtain ⟨c, c1, c2, c3⟩ := u4 ps[i] (by rw [List.getLast?_take]; simp [hi])
    rw [hlen] at u2 c3
    exact ⟨u3, u2, c, c1, c2, c3⟩
  have hbox : (∀ x ∈ xs.take (i + 1), Spec.InBox [bound] x) ∧ (xs.take (i + 1)).length = i + 1 := by
    obtain ⟨h1, h2, _⟩ := key { q0 with tEnd := ((i + 1 + w : Nat) : Int) } ⟨Q0.d, Q0.bounds, Q0.switching, rfl,
      fun t a b => Q0.hit t a (by push_cast at b ⊢; omega), fun t a b => Q0.certain t a (by push_cast at b ⊢; omega)⟩
    exact ⟨h1, h2⟩
  refine ⟨hbox.1, hbox.2, fun p q J Q => ?_⟩
  obtain ⟨_, _, c, c1, c2, c3⟩ := key q Q
  obtain ⟨d1, d2, e1, e2, e3⟩ := objective_same (Window.toInst (I i hi)) J hbox.2 hbox.1
  rw [c1] at e1
  cases e1
  refine ⟨d2, e2, by rw [← e3]; exact c2, ?_⟩
  intro ys y1 y2
  obtain ⟨c', f1, f2⟩ := c3 ys y1 y2
  exact ⟨c', f1, by rw [← e3]; exact f2⟩

end

end Service

open Lcp Uni SingleType

/-- **C102** A service for a data center which decides by integral lazy capacity provisioning with a prediction window of `w`
slots. It is started with the first `a` loads, more than `w` or none, and then sent, for every further slot, the load of this slot and exact
predictions of the next `w` loads. If the hitting costs of the offline problem of all loads are convex, then starting
succeeds and decides the first `b = a - 2 w` slots (at least one, but none if `a = 0`), every request is answered with the decision of the next slot, and the
cost reported with each answer is the actual cost of the decisions so far, and at most three times what any schedule for
these slots and the next `w` slots costs. One load type. -/
theorem C102_window_service (S : Num.Solver) (choose : Nat → List ℚ → Nat → List ℚ) (hch : ChoosesFrom choose)
    (m : DataCenterModel) (loads : List LoadProfile) (hf : ∀ l ∈ loads, l.length = 1) (a b w r : Nat)
    (hab : a = 0 ∧ b = 0 ∨ w < a ∧ b = max 1 (a - 2 * w)) (ha : a ≤ loads.length) (hr : b + r + w ≤ loads.length)
    (p0 p : SSCO ℤ DCSuccess DCFailure) (h0 : m.toSSCO S (loads.take a) = .ok p0) (hp : m.toSSCO S loads = .ok p)
    (bound : ℤ) (β : ℚ) (g : Int → ℤ → ECost) (I : Spec.Inst p bound β g loads.length)
    (K : Spec.Costs bound β g loads.length) :
    ∃ (fuel : Nat) (resp : OfflineResponse ℤ (List (BoundsMem ℤ)) (Cost DCSuccess DCFailure))
        (rs : List (OnlineResponse ℤ (List (BoundsMem ℤ)) (Cost DCSuccess DCFailure))),
      prepare integralService (lcpAlg boundedInt) w fuel p0 = some (.ok (⟨{ p0 with tEnd := b }, w⟩, resp)) ∧
      resp.xs.length = b ∧
      serve integralService (lcpAlg boundedInt) (m.updateSSCO S choose) ⟨⟨{ p0 with tEnd := b }, w⟩, resp.xs, resp.m⟩
        ((List.range r).map fun i => some (Spec.foreseen loads (b + i) w)) = rs.map .ok ∧
      rs.length = r ∧
      ∀ i rsp, rs[i]? = some rsp → rsp.intX = rsp.x ∧ rsp.intCost = rsp.cost ∧
        (∀ x ∈ resp.xs ++ (rs.take (i + 1)).map (·.x), Spec.InBox [bound] x) ∧
        ∀ q q', m.toSSCO S (loads.take (b + i + 1)) = .ok q → m.toSSCO S (loads.take (b + i + 1 + w)) = .ok q' →
          ∃ c, q.toProb.objective (resp.xs ++ (rs.take (i + 1)).map (·.x)) = .ok c ∧ rsp.cost.cost = c.cost ∧
            c.cost ≠ ⊤ ∧
            ∀ ys : Schedule ℤ, ys.length = b + i + 1 + w → (∀ y ∈ ys, Spec.InBox [bound] y) →
              ∃ c', q'.toProb.objective ys = .ok c' ∧ rsp.cost.cost ≤ c'.cost + c'.cost + c'.cost := by
  obtain ⟨bs, sc, hsh⟩ := Service.toSSCO_shape h0
  rw [hsh] at h0 hp
  cases h0
  cases hp
  set p0 : SSCO ℤ DCSuccess DCFailure := ⟨m.d, (loads.take a).length, bs, sc,
    applyLoadsOverTime S m.d m.e m.objective (loads.take a) 1⟩ with hp0
  have la : (loads.take a).length = a := by simp; omega
  -- the instances
  have Ip : ∀ k : Nat, k ≤ a → Spec.Inst { p0 with tEnd := (k : Int) } bound β g k := fun k hk =>
    Service.inst_prefix I (loads.take a) (loads.drop a) (by simp) k (by omega)
  have hbw : b + w ≤ a ∨ b = 0 := by omega
  have If : ∀ k : Nat, k + w ≤ a → Spec.Foresight { p0 with tEnd := (k : Int) } bound β g k w := fun k hk => by
    have := Ip (k + w) hk
    exact ⟨this.d, this.bounds, this.switching, rfl, fun t h1 h2 => this.hit t h1 (by push_cast; exact h2),
      fun t h1 h2 => this.certain t h1 (by push_cast; omega)⟩
  have hba : b ≤ a := by omega
  have hl : ∀ (t : Int) (l : LoadProfile), 1 ≤ t → loads[(t - 1).toNat]? = some l → ∀ j, 0 ≤ j → j ≤ bound →
      ∃ out, applyLoads S m.d m.e m.objective l t [j] = .ok ⟨g t j, out⟩ := by
    intro t l h1 hl' j h0 hj
    have := (List.getElem?_eq_some_iff.1 hl').1
    obtain ⟨out, ho⟩ := I.hit t h1 (by omega) j h0 hj
    refine ⟨out, ?_⟩
    rw [SingleType.hit_within I.bounds h0 hj] at ho
    simp only at ho
    rw [mean_over_time h1 _ hl'] at ho
    exact ho
  obtain ⟨fs, f1, f2, f3⟩ := Service.foresight_chain (S := S) (m := m) (bound := bound) (β := β) (g := g) hch loads hf w hl
    r b ⟨{ p0 with tEnd := (b : Int) }, w⟩ (applyLoadsOverTime S m.d m.e m.objective (loads.take a) 1) (by omega) rfl rfl
    (by
      intro e he
      simp only [applyLoadsOverTime, CostFn.new, List.mem_singleton] at he
      rw [he]
      simp) (Ip b hba)
  set ps : List (SSCO ℤ DCSuccess DCFailure) := ((List.range b).map fun i => { p0 with tEnd := ((1 + i : Nat) : Int) }) ++ fs
    with hps
  have hlen : ps.length = b + r := by simp [hps, f1]
  have hI : ∀ k (h : k < ps.length), Spec.Foresight ps[k] bound β g (k + 1) w := by
    intro k h
    by_cases hk : k < b
    · have e : ps[k] = { p0 with tEnd := ((k + 1 : Nat) : Int) } := by
        simp only [hps]
        rw [List.getElem_append_left (by simpa using hk)]
        simp [Nat.add_comm]
      rw [e]
      exact If (k + 1) (by omega)
    · have hk' : k - b < fs.length := by rw [f1]; omega
      have e : ps[k] = fs[k - b] := by
        simp only [hps]
        rw [List.getElem_append_right (by simpa using hk)]
        simp
      rw [e]
      have := f3 (k - b) hk'
      rwa [Nat.add_sub_cancel' (by omega)] at this
  have Iall : ∀ k : Nat, k ≤ loads.length → Spec.Inst (⟨m.d, k, bs, sc, applyLoadsOverTime S m.d m.e m.objective loads 1⟩ :
      SSCO ℤ DCSuccess DCFailure) bound β g k := fun k hk =>
    Service.inst_prefix I loads [] (by simp) k hk
  have K' : Spec.Costs bound β g (ps.length + w) := by
    rw [hlen]
    exact ⟨K.hm, K.hβ, fun t a b => K.fin t a (by omega), fun t a b => K.nonneg t a (by omega),
      fun t a b => K.conv t a (by omega)⟩
  obtain ⟨xs, mem, x1, x2, x3, _⟩ := C101_window_three_competitive w ps K' hI _ (Iall (ps.length + w) (by omega))
  rw [play_iff_run] at x1
  have hratio := Service.window_ratio w ps K' hI xs mem x1 _ (Iall (ps.length + w) (by omega))
  have hv : ∀ k : Nat, k ≤ a → integralService.verify ⟨integralService.setTEnd p0 k, w⟩ = .ok () := fun k hk =>
    Service.verify_window (Ip k hk) K.hm K.hβ w
  obtain ⟨fuel, resp, rs, s1, s2, s3, s4, s5, s6⟩ := Service.follows_window integralService (lcpAlg boundedInt)
    (m.updateSSCO S choose) p0 a b w hab (fun _ => rfl) (fun _ _ => rfl)
    (by simp only [integralService, hp0, la]) hv ((List.range r).map fun i => Spec.foreseen loads (b + i) w) fs f2 xs mem
    (by
      rw [hps, List.map_append, List.map_map] at x1
      exact x1)
    (by
      have hb : ∀ y ∈ xs.take b, Spec.InBox [bound] y := fun y hy => x3 y (List.mem_of_mem_take hy)
      obtain ⟨c, _, h, _, _⟩ := Service.objective_same (Ip b hba) (Ip b hba) (ys := xs.take b) (by simp; omega) hb
      exact ⟨c, c, h, h⟩)
    (by
      intro i p' hp'
      obtain ⟨hi, rfl⟩ := List.getElem?_eq_some_iff.1 hp'
      obtain ⟨b1, b2, b3⟩ := hratio (b + i) (by rw [hlen]; omega)
      obtain ⟨c, hc, _⟩ := b3 fs[i] _ (Window.toInst (f3 i hi)) (Iall (b + i + 1 + w) (by omega))
      have hne : xs.take (b + i + 1) ≠ [] := by
        intro e
        rw [e] at b2
        simp at b2
      exact ⟨c, c, _, hc, hc, List.getLast?_eq_some_getLast hne⟩)
  refine ⟨fuel, resp, rs, s1, s5, ?_, by simpa using s3, ?_⟩
  · rw [List.map_map] at s2
    exact s2
  intro i rsp hrsp
  have hi : i < rs.length := (List.getElem?_eq_some_iff.1 hrsp).1
  have hir : i < r := by rw [s3] at hi; simpa using hi
  obtain ⟨p', hp', c1, c2, c3⟩ := s6 i rsp hrsp
  obtain ⟨hif, rfl⟩ := List.getElem?_eq_some_iff.1 hp'
  obtain ⟨b1, b2, b3⟩ := hratio (b + i) (by omega)
  have ebase : resp.xs ++ (rs.take (i + 1)).map (·.x) = xs.take (b + i + 1) := by
    rw [s4, ← s5, Nat.add_assoc, List.take_length_add_append, List.map_take]
  refine ⟨?_, ?_, by rw [ebase]; exact b1, ?_⟩
  · change (xs.take (b + i + 1)).getLast? = some rsp.intX at c3
    rw [← ebase, List.getLast?_append, List.map_take, List.getLast?_take] at c3
    simp [hrsp] at c3
    exact c3.symm
  · have := c1.symm.trans c2
    injection this with this
    exact this.symm
  · intro q q' hq hq'
    rw [hsh] at hq hq'
    cases hq
    cases hq'
    have J : Spec.Inst (⟨m.d, (loads.take (b + i + 1)).length, bs, sc,
        applyLoadsOverTime S m.d m.e m.objective (loads.take (b + i + 1)) 1⟩ : SSCO ℤ DCSuccess DCFailure)
        bound β g (b + i + 1) := by
      have := Service.inst_prefix I (loads.take (b + i + 1)) (loads.drop (b + i + 1)) (by simp) (b + i + 1) (by simp; omega)
      have e : (loads.take (b + i + 1)).length = b + i + 1 := by simp; omega
      rw [e]
      exact this
    have J' : Spec.Inst (⟨m.d, (loads.take (b + i + 1 + w)).length, bs, sc,
        applyLoadsOverTime S m.d m.e m.objective (loads.take (b + i + 1 + w)) 1⟩ : SSCO ℤ DCSuccess DCFailure)
        bound β g (b + i + 1 + w) := by
      have := Service.inst_prefix I (loads.take (b + i + 1 + w)) (loads.drop (b + i + 1 + w)) (by simp) (b + i + 1 + w)
        (by simp; omega)
      have e : (loads.take (b + i + 1 + w)).length = b + i + 1 + w := by simp; omega
      rw [e]
      exact this
    obtain ⟨c, d1, d2, d3⟩ := b3 _ _ J J'
    obtain ⟨k1, k2, g1, g2, g3⟩ := Service.objective_same J (Window.toInst (f3 i hif)) b2 b1
    rw [d1] at g1
    cases g1
    have hrc : rsp.cost = k2 := by
      have : integralService.objective fs[i] (xs.take (b + i + 1)) = .ok k2 := g2
      rw [this] at c1
      injection c1 with c1
      exact c1.symm
    rw [ebase]
    refine ⟨c, d1, by rw [hrc, g3], d2, ?_⟩
    intro ys y1 y2
    rw [hrc, ← g3]
    exact d3 ys y1 y2

/-- **C102** The same for a data center with one server type and one job type, in terms of its parameters. -/
theorem C102_single_type (S : Num.Solver) (hS : Spec.SolvesEmpty S) (choose : Nat → List ℚ → Nat → List ℚ)
    (hch : ChoosesFrom choose) (m : DataCenterModel) (F : Spec.Farm) (h : Spec.IsFarm m F) (hF : F.Valid)
    (loads : List ℚ) (hl : ∀ l ∈ loads, F.Carries l) (a b w r : Nat)
    (hab : a = 0 ∧ b = 0 ∨ w < a ∧ b = max 1 (a - 2 * w)) (ha : a ≤ loads.length) (hr : b + r + w ≤ loads.length) :
    ∃ (p0 : SSCO ℤ DCSuccess DCFailure) (fuel : Nat)
        (resp : OfflineResponse ℤ (List (BoundsMem ℤ)) (Cost DCSuccess DCFailure))
        (rs : List (OnlineResponse ℤ (List (BoundsMem ℤ)) (Cost DCSuccess DCFailure))),
      m.toSSCO S ((loads.take a).map fun l => [l]) = .ok p0 ∧
      prepare integralService (lcpAlg boundedInt) w fuel p0 = some (.ok (⟨{ p0 with tEnd := b }, w⟩, resp)) ∧
      resp.xs.length = b ∧
      serve integralService (lcpAlg boundedInt) (m.updateSSCO S choose) ⟨⟨{ p0 with tEnd := b }, w⟩, resp.xs, resp.m⟩
        ((List.range r).map fun i => some (((loads.drop (b + i)).take (w + 1)).map fun l => [[l]])) = rs.map .ok ∧
      rs.length = r ∧
      ∀ i rsp, rs[i]? = some rsp →
        ∃ js : List ℤ, resp.xs ++ (rs.take (i + 1)).map (·.x) = js.map (fun j => [j]) ∧
          (∀ j ∈ js, 0 ≤ j ∧ j ≤ F.servers) ∧
          rsp.cost.cost = Spec.totalCost (fun t (j : ℤ) => F.slotCost t (loads.getD (t - 1).toNat 0) j)
            (fun y x => F.switching * max 0 ((x : ℚ) - y)) 1 1 0 js ∧ rsp.cost.cost ≠ ⊤ ∧
          ∀ ks : List ℤ, ks.length = b + i + 1 + w → (∀ k ∈ ks, 0 ≤ k ∧ k ≤ F.servers) →
            ∃ c, c = Spec.totalCost (fun t (j : ℤ) => F.slotCost t (loads.getD (t - 1).toNat 0) j)
              (fun y x => F.switching * max 0 ((x : ℚ) - y)) 1 1 0 ks ∧ rsp.cost.cost ≤ c + c + c := by
  obtain ⟨p, hp, I⟩ := C87_problem S hS m F h hF loads fun l hm => (hl l hm).1
  have K := C87_convex F hF loads hl
  have hlen : loads.length = (loads.map fun l => [l] : List LoadProfile).length := by simp
  rw [hlen] at I K
  have h0 := toSSCO_eq h S ((loads.take a).map fun l => [l])
  have h0' := h0
  rw [List.map_take] at h0'
  obtain ⟨fuel, resp, rs, s1, s2, s3, s4, s5⟩ := C102_window_service S choose hch m (loads.map fun l => [l]) (by simp)
    a b w r hab (by simpa using ha) (by simpa using hr) _ _ h0' hp _ _ _ I K
  have hon : ∀ i, Spec.foreseen (loads.map fun l => [l]) (b + i) w =
      ((loads.drop (b + i)).take (w + 1)).map fun l => [[l]] := by
    intro i
    simp [Spec.foreseen, LoadProfile.intoPredicted, ← List.map_drop, ← List.map_take]
  simp only [hon] at s3
  simp only [← List.map_take] at s1 s3
  refine ⟨_, fuel, resp, rs, h0, s1, s2, s3, s4, ?_⟩
  intro i rsp hrsp
  obtain ⟨_, _, hbox, hq⟩ := s5 i rsp hrsp
  have hi : i < r := by
    have := (List.getElem?_eq_some_iff.1 hrsp).1
    rwa [s4] at this
  obtain ⟨js, ejs, hjs⟩ := Service.box_list hbox
  rw [toSSCO_eq h] at hp
  cases hp
  have len1 : ((loads.map fun l => [l]).take (b + i + 1) : List LoadProfile).length = b + i + 1 := by simp; omega
  have len2 : ((loads.map fun l => [l]).take (b + i + 1 + w) : List LoadProfile).length = b + i + 1 + w := by
    simp; omega
  have J := Service.inst_prefix I ((loads.map fun l => [l]).take (b + i + 1)) ((loads.map fun l => [l]).drop (b + i + 1))
    (by simp) (b + i + 1) (by omega)
  have J' := Service.inst_prefix I ((loads.map fun l => [l]).take (b + i + 1 + w))
    ((loads.map fun l => [l]).drop (b + i + 1 + w)) (by simp) (b + i + 1 + w) (by omega)
  have q1 := toSSCO_eq h S ((loads.map fun l => [l]).take (b + i + 1))
  have q2 := toSSCO_eq h S ((loads.map fun l => [l]).take (b + i + 1 + w))
  rw [len1] at q1
  rw [len2] at q2
  obtain ⟨c, c1, c2, c3, c4⟩ := hq _ _ q1 q2
  have ljs : js.length = b + i + 1 := by
    have := congrArg List.length ejs
    simp [s2, s4] at this
    omega
  have emv : Uni.mv1 F.switching false = fun y x : ℤ => F.switching * max 0 ((x : ℚ) - y) := by
    funext y x
    simp [Uni.mv1]
  obtain ⟨out, ho⟩ := Lcp.objective_last J js ljs hjs
  rw [emv] at ho
  refine ⟨js, ejs, hjs, ?_, by rw [c2]; exact c3, ?_⟩
  · rw [ejs, ho] at c1
    injection c1 with c1
    rw [c2, ← c1]
  · intro ks k1 k2
    obtain ⟨out', ho'⟩ := Lcp.objective_last J' ks k1 k2
    rw [emv] at ho'
    obtain ⟨c', d1, d2⟩ := c4 (ks.map fun j => [j]) (by simpa using k1) (by
      intro y hy
      obtain ⟨k, hk, rfl⟩ := List.mem_map.1 hy
      exact .cons (k2 k hk) .nil)
    rw [ho'] at d1
    injection d1 with d1
    subst d1
    exact ⟨_, rfl, d2⟩

/-- **C102** (short pasts). If the service is started with at least one load but not more than the window, it starts with
an empty schedule, and the first request ends it with a failure. -/
theorem C102_short_past_counterexample (S : Num.Solver) (choose : Nat → List ℚ → Nat → List ℚ) (m : DataCenterModel)
    (past : List LoadProfile) (p0 : SSCO ℤ DCSuccess DCFailure) (h0 : m.toSSCO S past = .ok p0) (w : Nat)
    (h1 : 1 ≤ past.length) (h2 : past.length ≤ w) (bound : ℤ) (β : ℚ) (g : Int → ℤ → ECost)
    (I : Spec.Inst p0 bound β g past.length) (K : Spec.Costs bound β g past.length) :
    ∃ resp : OfflineResponse ℤ (List (BoundsMem ℤ)) (Cost DCSuccess DCFailure),
      (∀ fuel, prepare integralService (lcpAlg boundedInt) w fuel p0 = some (.ok (⟨{ p0 with tEnd := 1 }, w⟩, resp))) ∧
      resp.xs = [] ∧
      ∀ (request : List PredictedLoadProfile) (rest : List (Option (List PredictedLoadProfile))), w < request.length →
        serve integralService (lcpAlg boundedInt) (m.updateSSCO S choose) ⟨⟨{ p0 with tEnd := 1 }, w⟩, resp.xs, resp.m⟩
          (some request :: rest) = [.error (.fail (.onlineInconsistentCurrentTimeSlot 0 2))] := by
  have t1 : (if integralService.tEnd p0 > 1 then integralService.setTEnd p0 1 else p0) = integralService.setTEnd p0 1 := by
    split_ifs with h
    · rfl
    · have h : ¬ (p0.tEnd > 1) := h
      have : p0.tEnd = 1 := by have := I.tEnd; omega
      show p0 = { p0 with tEnd := 1 }
      rw [← this]
  have I1 : Spec.Inst (integralService.setTEnd p0 1) bound β g 1 := ⟨I.d, I.bounds, I.switching, rfl,
    fun t a b => I.hit t a (by push_cast at b; omega), fun t a b => I.certain t a (by push_cast at b; omega)⟩
  have hv := Service.verify_window I1 K.hm K.hβ w
  have t2 : ¬ (integralService.tEnd p0 - w ≥ 1) := by show ¬ (p0.tEnd - w ≥ 1); rw [I.tEnd]; omega
  have ho : ∃ c, integralService.objective (integralService.setTEnd p0 1) [] = .ok c := by
    obtain ⟨c, _, h, _⟩ := Service.objective_same I1 I1 (ys := [[0]]) rfl (by
      intro y hy
      rw [List.mem_singleton] at hy
      subst hy
      exact .cons ⟨le_rfl, K.hm.le⟩ .nil)
    refine ⟨c, ?_⟩
    rw [← h]
    have hd : (integralService.setTEnd p0 1).toProb.defaultConfig = [0] := by
      show Config.repeat 0 p0.d.toNat = [0]
      rw [I.d]; rfl
    show (integralService.setTEnd p0 1).toProb.objective [] = _
    unfold Prob.objective Prob.objectiveWithDefault' sumOverSchedule
    rw [hd]
    rfl
  obtain ⟨c, hc⟩ := ho
  refine ⟨⟨[], c, [], c, none⟩, fun fuel => ?_, rfl, fun request rest hreq => ?_⟩
  · have hc' : integralService.objective (integralService.setTEnd p0 1) (integralService.toI []) = .ok c := hc
    simp only [prepare, t1, if_neg t2, hv, hc, hc', bind, Except.bind]
    rfl
  · obtain ⟨bs, sc, hsh⟩ := Service.toSSCO_shape h0
    rw [hsh] at h0
    cases h0
    obtain ⟨o', b1, _, _, _, _, b6, _⟩ := (C43_update_ssco S choose m
      ⟨{ d := m.d, tEnd := 1, bounds := bs, switchingCost := sc,
         hittingCost := applyLoadsOverTime S m.d m.e m.objective past 1 }, (w : Int)⟩ request
      (applyLoadsOverTime S m.d m.e m.objective past 1) rfl).2 (by show (w : Int) < _; exact_mod_cast hreq)
    have hn : onlineNext integralService.tEnd (lcpAlg boundedInt) o' [] none =
        .error (.fail (.onlineInconsistentCurrentTimeSlot 0 2)) := by
      have e : integralService.tEnd o'.p = 2 := b6
      have := (C35_next_exact integralService.tEnd (lcpAlg boundedInt) o' [] none).2 (by rw [e]; decide)
      rw [this, e]
      rfl
    simp only [serve, handle, b1, hn, bind, Except.bind]

/-! ## Examples -/

example (S : Num.Solver) (hS : Spec.SolvesEmpty S) (choose : Nat → List ℚ → Nat → List ℚ) (hch : ChoosesFrom choose) :=
  C102_single_type S hS choose hch Ex.farmModel Ex.farm Ex.farm_is Ex.farm_valid [3, 0, 7, 2] Ex.farm_carries 2 1 1 2
    (by decide) (by decide) (by decide)

/-- A past of one load and a window of one slot. -/
example (S : Num.Solver) (hS : Spec.SolvesEmpty S) (choose : Nat → List ℚ → Nat → List ℚ) : True := by
  obtain ⟨p, hp, I⟩ := C87_problem S hS Ex.farmModel Ex.farm Ex.farm_is Ex.farm_valid [3]
    fun l hm => (Ex.farm_carries l (by simp at hm; simp [hm])).1
  have K := C87_convex Ex.farm Ex.farm_valid [3] fun l hm => Ex.farm_carries l (by simp at hm; simp [hm])
  have := C102_short_past_counterexample S choose Ex.farmModel [[3]] p hp 1 le_rfl le_rfl _ _ _ I K
  trivial

end Soco
