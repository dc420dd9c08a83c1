import Verif.Props.Service
import Verif.Props.LazyService
import Verif.Props.Fewer

/-!
# C119: a service that crashed is restored by starting it with all loads so far
-/

namespace Soco
open Lcp SingleType

namespace Restart

variable {C D : Type} [OutSuccess C] [OutFailure D]

theorem foresight {p : SSCO ℤ C D} {m : ℤ} {β : ℚ} {g : Int → ℤ → ECost} {n : Nat} (I : Spec.Inst p m β g n) :
    Spec.Foresight p m β g n 0 :=
  ⟨I.d, I.bounds, I.switching, I.tEnd, fun t h1 h2 => I.hit t h1 (by push_cast at h2; omega), I.certain⟩

theorem cut_box {m : ℤ} {xs : Schedule ℤ} (h : ∀ x ∈ xs, Spec.InBox [m] x) : Spec.cutAt m xs = xs := by
  obtain ⟨js, rfl, hj⟩ := Service.box_list h
  unfold Spec.cutAt
  rw [List.map_map]
  refine List.map_congr_left fun j hjm => ?_
  simp only [Function.comp, List.map_cons, List.map_nil]
  rw [min_eq_left (hj j hjm).2]

/-- Lazy capacity provisioning decides alike in problems with the same costs. -/
theorem same_decisions {m : ℤ} {β : ℚ} {g : Int → ℤ → ECost} (ps ps' : List (SSCO ℤ C D)) (hl : ps'.length = ps.length)
    (K : Spec.Costs m β g ps.length) (I : ∀ k (h : k < ps.length), Spec.Inst ps[k] m β g (k + 1))
    (I' : ∀ k (h : k < ps'.length), Spec.Inst ps'[k] m β g (k + 1)) (xs xs' : Schedule ℤ) (mem mem' : Option (List (BoundsMem ℤ)))
    (h : Spec.play SSCO.tEnd (lcpAlg boundedInt) [] none (ps.map fun p => ⟨p, 0⟩) = .ok (xs, mem))
    (h' : Spec.play SSCO.tEnd (lcpAlg boundedInt) [] none (ps'.map fun p => ⟨p, 0⟩) = .ok (xs', mem')) : xs = xs' := by
  obtain ⟨ys, k, ys', k', h1, h2, _, h4⟩ := C112_lazy (m := m) (m' := m) 0 ps ps' hl K K.hm le_rfl
    (fun t a b => K.fin t a b) (fun k h => foresight (I k h)) (fun k h => foresight (I' k h))
  obtain ⟨zs, k2, h5, _, h6, _⟩ := C29_three_competitive ps' (by rw [hl]; exact K) I'
  simp only [Nat.cast_zero] at h1 h2
  rw [h1] at h
  rw [h2] at h' h5
  cases h; cases h'; cases h5
  rw [h4, cut_box h6]

end Restart
open Restart

/-- **C119** A service which decides by integral lazy capacity provisioning was started with the loads `past`, and is then sent the
loads `seen ++ rest`. A second service is started with all loads `past ++ seen`, for example because the first one crashed, and
is then sent the loads `rest`. The initial schedule of the second service consists of the decisions of the first one so far, and
to each further request it gives the decision that the first one gives (or would have given), and reports the same cost. -/
theorem C119_capacity_provisioning (S : Num.Solver) (choose : Nat → List ℚ → Nat → List ℚ) (hch : ChoosesFrom choose)
    (m : DataCenterModel) (past seen rest : List LoadProfile) (hf : ∀ l ∈ seen ++ rest, l.length = 1)
    (p0 p1 p : SSCO ℤ DCSuccess DCFailure) (h0 : m.toSSCO S past = .ok p0) (h1 : m.toSSCO S (past ++ seen) = .ok p1)
    (hp : m.toSSCO S (past ++ (seen ++ rest)) = .ok p)
    (bound : ℤ) (β : ℚ) (g : Int → ℤ → ECost) (I : Spec.Inst p bound β g (past ++ (seen ++ rest)).length)
    (K : Spec.Costs bound β g (past ++ (seen ++ rest)).length) :
    ∃ (fuel fuel' : Nat) (first second : OfflineResponse ℤ (List (BoundsMem ℤ)) (Cost DCSuccess DCFailure))
        (rs rs' : List (OnlineResponse ℤ (List (BoundsMem ℤ)) (Cost DCSuccess DCFailure))),
      -- the first service
      prepare integralService (lcpAlg boundedInt) 0 fuel p0 = some (.ok (⟨p0, 0⟩, first)) ∧
      serve integralService (lcpAlg boundedInt) (m.updateSSCO S choose) ⟨⟨p0, 0⟩, first.xs, first.m⟩
        ((DataCenterModel.intoOnline (seen ++ rest)).map some) = rs.map .ok ∧
      rs.length = seen.length + rest.length ∧
      -- the second service
      prepare integralService (lcpAlg boundedInt) 0 fuel' p1 = some (.ok (⟨p1, 0⟩, second)) ∧
      serve integralService (lcpAlg boundedInt) (m.updateSSCO S choose) ⟨⟨p1, 0⟩, second.xs, second.m⟩
        ((DataCenterModel.intoOnline rest).map some) = rs'.map .ok ∧
      rs'.length = rest.length ∧
      second.xs = first.xs ++ (rs.take seen.length).map (·.x) ∧
      rs'.map (fun r => (r.x, r.intX, r.cost.cost)) = (rs.drop seen.length).map fun r => (r.x, r.intX, r.cost.cost) := by
  have hall : past ++ (seen ++ rest) = past ++ seen ++ rest := by simp
  obtain ⟨fuel, first, rs, a1, a2, a3, a4, ⟨ps, mem, a5, a6, a7⟩, a8⟩ := Service.service_run S choose hch m past (seen ++ rest) hf p0 p
    h0 hp bound β g I K
  obtain ⟨fuel', second, rs', b1, b2, b3, b4, ⟨ps', mem', b5, b6, b7⟩, b8⟩ := Service.service_run S choose hch m (past ++ seen) rest
    (fun l hl => hf l (List.mem_append_right _ hl)) p1 p h1 (hall ▸ hp) bound β g (hall ▸ I) (hall ▸ K)
  have e := same_decisions ps ps' (by rw [a5, b5, hall]) (by rw [a5]; exact K) a6 b6 _ _ _ _ a7 b7
  have a4' : rs.length = seen.length + rest.length := by rw [a4, List.length_append]
  rw [List.length_append] at b2
  rw [← List.take_append_drop seen.length rs, List.map_append, ← List.append_assoc] at e
  have elen : (first.xs ++ (rs.take seen.length).map (·.x)).length = second.xs.length := by
    rw [List.length_append, List.length_map, List.length_take, a2, b2]
    omega
  obtain ⟨e1, e2⟩ := List.append_inj e elen
  refine ⟨fuel, fuel', first, second, rs, rs', a1, a3, a4', b1, b3, b4, e1.symm, ?_⟩
  apply List.ext_getElem
  · simp only [List.length_map, List.length_drop]
    omega
  intro i hi hi'
  have i1 : i < rs'.length := by simpa using hi
  have i2 : seen.length + i < rs.length := by omega
  simp only [List.getElem_map, List.getElem_drop]
  have ex : ∀ k (k1 : k < rs'.length) (k2 : seen.length + k < rs.length), rs'[k].x = rs[seen.length + k].x := by
    intro k k1 k2
    have := congrArg (·[k]?) e2
    simp only [List.getElem?_map, List.getElem?_drop, List.getElem?_eq_getElem k1, List.getElem?_eq_getElem k2, Option.map_some,
      Option.some.injEq] at this
    exact this.symm
  obtain ⟨c1, c2, c3, c4⟩ := a8 (seen.length + i) _ (List.getElem?_eq_getElem i2)
  obtain ⟨d1, d2, d3, d4⟩ := b8 i _ (List.getElem?_eq_getElem i1)
  have hload : past ++ (seen ++ rest).take (seen.length + i + 1) = past ++ seen ++ rest.take (i + 1) := by
    rw [Nat.add_assoc, List.take_length_add_append, List.append_assoc]
  have hx : first.xs ++ (rs.take (seen.length + i + 1)).map (·.x) = second.xs ++ (rs'.take (i + 1)).map (·.x) := by
    rw [← e1, List.append_assoc]
    congr 1
    rw [List.map_take (l := rs'), ← e2, ← List.map_take, ← List.map_append, Nat.add_assoc, List.take_add]
  obtain ⟨q, hq⟩ : ∃ q, m.toSSCO (T := ℤ) S (past ++ seen ++ rest.take (i + 1)) = .ok q := by
    obtain ⟨bs, sc, hsh⟩ := Service.toSSCO_shape h0
    exact ⟨_, hsh _⟩
  obtain ⟨c, f1, f2, _⟩ := c4 q (hload ▸ hq)
  obtain ⟨d, g1, g2, _⟩ := d4 q hq
  rw [hx, g1] at f1
  cases f1
  rw [d1, c1, f2, g2, ex i i1 i2]


/-- **C119** The same for a data center with one server type and one job type, in terms of its parameters. -/
theorem C119_single_type (S : Num.Solver) (hS : Spec.SolvesEmpty S) (choose : Nat → List ℚ → Nat → List ℚ)
    (hch : ChoosesFrom choose) (m : DataCenterModel) (F : Spec.Farm) (h : Spec.IsFarm m F) (hF : F.Valid)
    (past seen rest : List ℚ) (hl : ∀ l ∈ past ++ (seen ++ rest), F.Carries l) :
    ∃ (p0 p1 : SSCO ℤ DCSuccess DCFailure) (fuel fuel' : Nat)
        (first second : OfflineResponse ℤ (List (BoundsMem ℤ)) (Cost DCSuccess DCFailure))
        (rs rs' : List (OnlineResponse ℤ (List (BoundsMem ℤ)) (Cost DCSuccess DCFailure))),
      -- the first service
      m.toSSCO S (past.map fun l => [l]) = .ok p0 ∧
      prepare integralService (lcpAlg boundedInt) 0 fuel p0 = some (.ok (⟨p0, 0⟩, first)) ∧
      serve integralService (lcpAlg boundedInt) (m.updateSSCO S choose) ⟨⟨p0, 0⟩, first.xs, first.m⟩
        ((seen ++ rest).map fun l => some [[[l]]]) = rs.map .ok ∧
      rs.length = seen.length + rest.length ∧
      -- the second service
      m.toSSCO S ((past ++ seen).map fun l => [l]) = .ok p1 ∧
      prepare integralService (lcpAlg boundedInt) 0 fuel' p1 = some (.ok (⟨p1, 0⟩, second)) ∧
      serve integralService (lcpAlg boundedInt) (m.updateSSCO S choose) ⟨⟨p1, 0⟩, second.xs, second.m⟩
        (rest.map fun l => some [[[l]]]) = rs'.map .ok ∧
      rs'.length = rest.length ∧
      -- agree
      second.xs = first.xs ++ (rs.take seen.length).map (·.x) ∧
      rs'.map (fun r => (r.x, r.intX, r.cost.cost)) = (rs.drop seen.length).map (fun r => (r.x, r.intX, r.cost.cost)) := by
  obtain ⟨p, hp, I⟩ := C87_problem S hS m F h hF (past ++ (seen ++ rest)) fun l hm => (hl l hm).1
  have K := C87_convex F hF (past ++ (seen ++ rest)) hl
  have h0 := toSSCO_eq h S (past.map fun l => [l])
  have h1 := toSSCO_eq h S ((past ++ seen).map fun l => [l])
  have hlen : (past ++ (seen ++ rest)).length =
      ((past.map fun l => [l]) ++ ((seen.map fun l => [l]) ++ rest.map fun l => [l]) : List LoadProfile).length := by
    simp
  rw [hlen] at I K
  rw [List.map_append, List.map_append] at hp
  rw [List.map_append] at h1
  have hon : ∀ ls : List ℚ, (DataCenterModel.intoOnline (ls.map fun l => [l])).map some = ls.map fun l => some [[[l]]] := by
    intro ls
    simp [DataCenterModel.intoOnline, LoadProfile.intoPredicted]
  obtain ⟨fuel, fuel', first, second, rs, rs', s1, s2, s3, s4, s5, s6, s7, s8⟩ := C119_capacity_provisioning S choose hch m
    (past.map fun l => [l]) (seen.map fun l => [l]) (rest.map fun l => [l])
    (by rintro l hl; simp only [List.mem_append, List.mem_map] at hl; obtain ⟨a, _, rfl⟩ | ⟨a, _, rfl⟩ := hl <;> rfl)
    _ _ _ h0 h1 hp _ _ _ I K
  rw [← List.map_append, hon] at s2
  rw [hon] at s5
  simp only [List.length_map] at s3 s6 s7 s8
  exact ⟨_, _, fuel, fuel', first, second, rs, rs', h0, s1, s2, s3, by rw [List.map_append]; exact h1, s4, s5, s6, s7, s8⟩

/-- **C119** The same for a service which decides by lazy budgeting, for a data center with one kind of server, as long as the
average cost of a server which is computed when a service starts is the same for both services. -/
theorem C119_lazy_budgeting_partial (S : Num.Solver) (hS : Spec.Shaped S) (hE : Spec.SolvesEmpty S) (randomized : Bool) (gamma : ℚ)
    (hg : 0 ≤ gamma) (m : DataCenterModel) (past seen rest : List ℤ) (p0 p1 : SLO ℤ)
    (h0 : m.toSLO (past.map fun l : ℤ => [(l : ℚ)]) = .ok p0) (h1 : m.toSLO ((past ++ seen).map fun l : ℤ => [(l : ℚ)]) = .ok p1)
    (n : ℤ) (c β : ℚ) (hb : p0.bounds = [n]) (hh : p0.hittingCost = [c]) (hs : p0.switchingCost = [β])
    (hb1 : p1.bounds = [n]) (hh1 : p1.hittingCost = [c]) (hs1 : p1.switchingCost = [β]) (hn : 0 < n) (hc : 0 < c) (hβ : 0 < β)
    (hl : ∀ l ∈ past ++ (seen ++ rest), 0 ≤ l ∧ l ≤ n) :
    ∃ (fuel fuel' : Nat) (first second : OfflineResponse ℤ Lb.Memory (Cost Unit DCFailure))
        (rs rs' : List (OnlineResponse ℤ Lb.Memory (Cost Unit DCFailure))),
      -- the first service
      prepare lazyService (Lb.alg S gamma randomized) 0 fuel p0 = some (.ok (⟨p0, 0⟩, first)) ∧
      serve lazyService (Lb.alg S gamma randomized) DataCenterModel.updateSLO ⟨⟨p0, 0⟩, first.xs, first.m⟩
        ((seen ++ rest).map fun l : ℤ => some [[[(l : ℚ)]]]) = rs.map .ok ∧
      rs.length = seen.length + rest.length ∧
      -- the second service
      prepare lazyService (Lb.alg S gamma randomized) 0 fuel' p1 = some (.ok (⟨p1, 0⟩, second)) ∧
      serve lazyService (Lb.alg S gamma randomized) DataCenterModel.updateSLO ⟨⟨p1, 0⟩, second.xs, second.m⟩
        (rest.map fun l : ℤ => some [[[(l : ℚ)]]]) = rs'.map .ok ∧
      rs'.length = rest.length ∧
      -- agree
      second.xs = first.xs ++ (rs.take seen.length).map (·.x) ∧
      rs'.map (fun r => (r.x, r.intX, r.cost.cost)) = (rs.drop seen.length).map (fun r => (r.x, r.intX, r.cost.cost)) := by
  have hall : past ++ (seen ++ rest) = past ++ seen ++ rest := by simp
  obtain ⟨fuel, first, rs, js, a1, a2, a3, a4, a5, a6, a7⟩ := C96_lazy_service S hS hE randomized gamma hg m past (seen ++ rest) p0 h0
    n c β hb hh hs hn hc hβ hl
  obtain ⟨fuel', second, rs', js', b1, b2, b3, b4, b5, b6, b7⟩ := C96_lazy_service S hS hE randomized gamma hg m (past ++ seen) rest p1 h1
    n c β hb1 hh1 hs1 hn hc hβ (hall ▸ hl)
  have la := congrArg List.length a5
  have lb := congrArg List.length b5
  simp only [List.length_append, List.length_map] at la lb a4 b2 a6 b6 b7
  have hj : js = js' := by
    apply List.ext_getElem?
    intro k
    by_cases hk : k < past.length + (seen.length + rest.length)
    · rw [a6 k hk, b6 k (by omega), hall]
    · rw [List.getElem?_eq_none (by omega), List.getElem?_eq_none (by omega)]
  subst hj
  have e := a5.trans b5.symm
  rw [← List.take_append_drop seen.length rs, List.map_append, ← List.append_assoc] at e
  have elen : (first.xs ++ (rs.take seen.length).map (·.x)).length = second.xs.length := by
    rw [List.length_append, List.length_map, List.length_take, a2, b2]
    omega
  obtain ⟨e1, e2⟩ := List.append_inj e elen
  refine ⟨fuel, fuel', first, second, rs, rs', a1, a3, a4, b1, b3, b4, e1.symm, ?_⟩
  apply List.ext_getElem
  · simp only [List.length_map, List.length_drop]
    omega
  intro i hi hi'
  have i1 : i < rs'.length := by simpa using hi
  have i2 : seen.length + i < rs.length := by omega
  simp only [List.getElem_map, List.getElem_drop]
  have ex : rs'[i].x = rs[seen.length + i].x := by
    have := congrArg (·[i]?) e2
    simp only [List.getElem?_map, List.getElem?_drop, List.getElem?_eq_getElem i1, List.getElem?_eq_getElem i2, Option.map_some,
      Option.some.injEq] at this
    exact this.symm
  obtain ⟨c1, c2, c3, c4⟩ := a7 (seen.length + i) _ (List.getElem?_eq_getElem i2)
  obtain ⟨d1, d2, d3, d4⟩ := b7 i _ (List.getElem?_eq_getElem i1)
  rw [d1, c1, ex, c3, d3, ← Nat.add_assoc]

/-- **C119** In general not: when energy prices rise, the restarted service computes a higher average cost of a server, and
keeps idle servers for a shorter time. The first service answers the first load of zero with two servers, the schedule of the
restarted one has none in this slot. -/
theorem C119_prices_counterexample : ∃ (p0 p1 : SLO ℤ) (fuel fuel' : Nat)
      (first second : OfflineResponse ℤ Lb.Memory (Cost Unit DCFailure))
      (rs : List (OnlineResponse ℤ Lb.Memory (Cost Unit DCFailure))),
    Ex.risingRent.toSLO (([2] : List ℤ).map fun l : ℤ => [(l : ℚ)]) = .ok p0 ∧
    Ex.risingRent.toSLO (([2, 0, 0] : List ℤ).map fun l : ℤ => [(l : ℚ)]) = .ok p1 ∧
    prepare lazyService (Lb.alg Offline.lazySolver 1 false) 0 fuel p0 = some (.ok (⟨p0, 0⟩, first)) ∧
    serve lazyService (Lb.alg Offline.lazySolver 1 false) DataCenterModel.updateSLO ⟨⟨p0, 0⟩, first.xs, first.m⟩
      (([0, 0] : List ℤ).map fun l : ℤ => some [[[(l : ℚ)]]]) = rs.map .ok ∧
    prepare lazyService (Lb.alg Offline.lazySolver 1 false) 0 fuel' p1 = some (.ok (⟨p1, 0⟩, second)) ∧
    first.xs ++ rs.map (·.x) = [[2], [2], [0]] ∧ second.xs = [[2], [0], [0]] := by
  obtain ⟨p0, h0, k1, k2, k3⟩ : ∃ p, Ex.risingRent.toSLO (T := ℤ) (([2] : List ℤ).map fun l : ℤ => [(l : ℚ)]) = .ok p ∧
      p.bounds = [4] ∧ p.hittingCost = [3] ∧ p.switchingCost = [6] := ⟨_, rfl, by decide +kernel⟩
  obtain ⟨p1, h1, l1, l2, l3⟩ : ∃ p, Ex.risingRent.toSLO (T := ℤ) (([2, 0, 0] : List ℤ).map fun l : ℤ => [(l : ℚ)]) = .ok p ∧
      p.bounds = [4] ∧ p.hittingCost = [6] ∧ p.switchingCost = [6] := ⟨_, rfl, by decide +kernel⟩
  obtain ⟨fuel, first, rs, js, a1, a2, a3, a4, a5, a6, -⟩ := C96_lazy_service Offline.lazySolver Lb.lazySolver_ok.1
    Lb.lazySolver_ok.2 false 1 (by decide) Ex.risingRent [2] [0, 0] p0 h0 4 3 6 k1 k2 k3 (by decide) (by decide) (by decide)
    (by decide)
  obtain ⟨fuel', second, rs', js', b1, b2, b3, b4, b5, b6, -⟩ := C96_lazy_service Offline.lazySolver Lb.lazySolver_ok.1
    Lb.lazySolver_ok.2 false 1 (by decide) Ex.risingRent [2, 0, 0] [] p1 h1 4 6 6 l1 l2 l3 (by decide) (by decide) (by decide)
    (by decide)
  refine ⟨p0, p1, fuel, fuel', first, second, rs, h0, h1, a1, a3, b1, ?_, ?_⟩
  · have la := congrArg List.length a5
    simp only [List.length_append, List.length_map] at la
    have : js = [2, 2, 0] := by
      apply List.ext_getElem?
      intro k
      by_cases hk : k < 3
      · rw [a6 k hk]
        interval_cases k <;> decide +kernel
      · rw [List.getElem?_eq_none (by simp at a2 a4; omega), List.getElem?_eq_none (by simp; omega)]
    rw [a5, this]
    rfl
  · have lb := congrArg List.length b5
    simp only [List.length_append, List.length_map] at lb
    have h2 : rs' = [] := List.length_eq_zero_iff.1 b4
    have : js' = [2, 0, 0] := by
      apply List.ext_getElem?
      intro k
      by_cases hk : k < 3
      · rw [b6 k hk]
        interval_cases k <;> decide +kernel
      · rw [List.getElem?_eq_none (by simp at b2 b4; simp [b4] at lb; omega), List.getElem?_eq_none (by simp; omega)]
    rw [h2, List.map_nil, List.append_nil, this] at b5
    rw [b5]
    rfl

/-! ## Examples -/

example (S : Num.Solver) (hS : Spec.SolvesEmpty S) (choose : Nat → List ℚ → Nat → List ℚ) (hch : ChoosesFrom choose) :=
  C119_single_type S hS choose hch Ex.farmModel Ex.farm Ex.farm_is Ex.farm_valid [3] [0, 7] [2] Ex.farm_carries

example := C119_lazy_budgeting_partial Offline.lazySolver Lb.lazySolver_ok.1 Lb.lazySolver_ok.2 false 1 (by decide) Ex.rentModel [2, 0]
  [1, 0] [0, 3] Ex.rentInstance _ Ex.rent_is rfl 4 3 6 rfl rfl rfl (by decide +kernel) (by decide +kernel) (by decide +kernel)
  (by decide) (by decide) (by decide) (by decide)

end Soco
