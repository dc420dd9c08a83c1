import Verif.Props.Clients
import Verif.Props.Service

/-!
# C94 for a data center: several clients of a running capacity provisioning service

Lazy capacity provisioning for a data center with one server type and one job type (C86), with any number of clients, each of
which reports the load of one slot.
-/

namespace Soco
open Spec

namespace Wire

theorem local_rat : Local ℚ := by
  rintro a ts us rest h
  match ts, h with
  | .float (some q) :: r, h => cases h; rfl

theorem getN_local {α : Type} [Wire α] (ha : Local α) : ∀ (n : Nat) (as : List α) (ts us rest : List Tok),
    getN n ts = some (as, us) → getN n (ts ++ rest) = some (as, us ++ rest)
  | 0, as, ts, us, rest, h => by cases h; rfl
  | n + 1, as, ts, us, rest, h => by
    rw [getN] at h ⊢
    cases h1 : Wire.get (α := α) ts with
    | none => rw [h1] at h; cases h
    | some p =>
      obtain ⟨a, vs⟩ := p
      rw [h1] at h
      rw [ha _ _ _ rest h1]
      simp only [Option.bind_eq_bind, Option.bind_some] at h ⊢
      cases h2 : getN (α := α) n vs with
      | none => rw [h2] at h; cases h
      | some p =>
        obtain ⟨bs, ws⟩ := p
        rw [h2] at h
        rw [getN_local ha n bs vs ws rest h2]
        cases h
        rfl

theorem local_list {α : Type} [Wire α] (ha : Local α) : Local (List α) := by
  rintro as ts us rest h
  match ts, h with
  | .len n :: r, h => exact getN_local ha n as r us rest h

theorem sendable_ecost : Sendable ECost := fun a => ⟨[.float a], rfl⟩

theorem sendable_success : Sendable DCSuccess := fun s =>
  sendable_prod sendable_ecost (sendable_prod sendable_ecost (sendable_list (sendable_list (sendable_list sendable_rat))))
    (s.energyCost, s.revenueLoss, s.assignments)

theorem sendable_output : Sendable (ModelOutput DCSuccess DCFailure) := by
  rintro (a | b | _)
  · obtain ⟨us, h⟩ := sendable_success a
    exact ⟨_, us, h, rfl⟩
  · exact ⟨_, _, rfl, rfl⟩
  · exact ⟨_, rfl⟩

theorem sendable_cost : Sendable (Cost DCSuccess DCFailure) := fun c =>
  sendable_prod sendable_ecost sendable_output (c.cost, c.output)

theorem sendable_response : Sendable (OnlineResponse ℤ (List (Lcp.BoundsMem ℤ)) (Cost DCSuccess DCFailure)) := fun r =>
  sendable_prod (sendable_prod (sendable_list sendable_int) sendable_cost) (sendable_prod
    (sendable_prod (sendable_list sendable_int) sendable_cost) (sendable_option (sendable_list
      fun m : Lcp.BoundsMem ℤ => sendable_prod sendable_int sendable_int (m.lower, m.upper)))) ((r.x, r.cost), (r.intX, r.intCost), r.m)

end Wire

/-- What is prepared does not depend on how long one is willing to wait. -/
theorem prepare_unique {P T M K : Type} [Value T] (S : Server P T K) (A : OnlineAlgorithm P T M) (w : Int) (p : P) {f1 f2 : Nat}
    {r1 r2 : Res (Online P × OfflineResponse T M K)} (h1 : prepare S A w f1 p = some r1) (h2 : prepare S A w f2 p = some r2) :
    r1 = r2 := by
  have key : ∀ {f f' : Nat} {r : Res (Online P × OfflineResponse T M K)}, prepare S A w f p = some r → f ≤ f' →
      prepare S A w f' p = some r := by
    intro f f' r h hf
    unfold prepare at h ⊢
    dsimp only at h ⊢
    generalize (if S.tEnd p > 1 then S.setTEnd p 1 else p) = q at h ⊢
    cases hv : S.verify ⟨q, w⟩ with
    | error e => rw [hv] at h; exact h
    | ok u =>
      rw [hv] at h
      dsimp only at h ⊢
      by_cases ht : S.tEnd p - w ≥ 1
      · rw [if_pos ht] at h ⊢
        cases hs : offlineStream S.tEnd S.setTEnd S.verify A (S.tEnd p - w) f ⟨q, w⟩ with
        | none => rw [hs] at h; cases h
        | some x =>
          have : offlineStream S.tEnd S.setTEnd S.verify A (S.tEnd p - w) f' ⟨q, w⟩ = some x := by
            unfold offlineStream stream at hs ⊢
            exact streamFrom_mono hs hf
          rw [this]
          rw [hs] at h
          exact h
      · rw [if_neg ht] at h ⊢
        exact h
  rcases Nat.le_total f1 f2 with h | h
  · have := key h1 h
    rw [h2] at this
    cases this
    rfl
  · have := key h2 h
    rw [h1] at this
    cases this
    rfl

open Lcp Clients

/-- **C94** (data center; partial as above). A capacity provisioning service for a data center with one server type is prepared
with some loads, and then any number of clients connect in any order, each of which reports one load. If nobody gives up, the
server runs on, something can happen until everyone is answered, and no run is infinite. Whenever everyone is answered, there is
an order of the clients such that the answer each of them reads is the one of a service that got the loads in this order; and
up to this client, the costs are at most three times those of the best plan for the loads in this order. -/
theorem C94_data_center_partial (S : Num.Solver) (hS : SolvesEmpty S) (choose : Nat → List ℚ → Nat → List ℚ)
    (hch : ChoosesFrom choose) (m : DataCenterModel) (F : Farm) (h : IsFarm m F) (hF : F.Valid)
    (past : List ℚ) (hpast : ∀ l ∈ past, F.Carries l) (n : Nat) (load : Fin n → ℚ) (hload : ∀ i, F.Carries (load i))
    (message : Fault → String) (messages : Fin n → List Tok) (hm : ∀ i, Wire.Enc ([[[load i]]] : List (List (List ℚ))) (messages i)) :
    ∃ (p0 : SSCO ℤ DCSuccess DCFailure) (fuel : Nat)
        (resp : OfflineResponse ℤ (List (BoundsMem ℤ)) (Cost DCSuccess DCFailure)),
      m.toSSCO S (past.map fun l => [l]) = .ok p0 ∧
      prepare integralService (lcpAlg boundedInt) 0 fuel p0 = some (.ok (⟨p0, 0⟩, resp)) ∧
      (∀ w, Net.PatientSteps integralService (lcpAlg boundedInt) (m.updateSSCO S choose) message
          (Net.start messages ⟨⟨p0, 0⟩, resp.xs, resp.m⟩) w → w.mode ≠ .stopped ∧
        ((∃ w', Net.Step integralService (lcpAlg boundedInt) (m.updateSSCO S choose) message false w w') ∨
          ∀ i, (w.conns i).answer ≠ none)) ∧
      (¬∃ ws : ℕ → Net n _ ℤ _, ∀ k,
        Net.Step integralService (lcpAlg boundedInt) (m.updateSSCO S choose) message false (ws k) (ws (k + 1))) ∧
      ∀ w, Net.PatientSteps integralService (lcpAlg boundedInt) (m.updateSSCO S choose) message
          (Net.start messages ⟨⟨p0, 0⟩, resp.xs, resp.m⟩) w → (∀ i, (w.conns i).answer ≠ none) →
        ∃ (log : List (Fin n)) (rs : List (OnlineResponse ℤ (List (BoundsMem ℤ)) (Cost DCSuccess DCFailure))),
          log.Nodup ∧ (∀ i, i ∈ log) ∧
          serve integralService (lcpAlg boundedInt) (m.updateSSCO S choose) ⟨⟨p0, 0⟩, resp.xs, resp.m⟩
            (log.map fun i => some [[[load i]]]) = rs.map .ok ∧
          ∀ (k : Nat) (i : Fin n), log[k]? = some i → ∃ r ts, rs[k]? = some r ∧ (w.conns i).answer = some ts ∧
            receive ts = some (.ok r : Except String _) ∧ r.cost.cost ≠ ⊤ ∧
            ∀ ks : List ℤ, ks.length = past.length + k + 1 → (∀ j ∈ ks, 0 ≤ j ∧ j ≤ F.servers) →
              ∃ c, c = totalCost (fun t (j : ℤ) => F.slotCost t ((past ++ log.map load).getD (t - 1).toNat 0) j)
                (fun y x => F.switching * max 0 ((x : ℚ) - y)) 1 1 0 ks ∧ r.cost.cost ≤ c + c + c := by
  obtain ⟨p0, fuel, resp, _, e1, e2, -⟩ := C86_single_type S hS choose hch m F h hF past [] (by simpa using hpast)
  have key : ∀ log : List (Fin n), ∃ rs : List (OnlineResponse ℤ (List (BoundsMem ℤ)) (Cost DCSuccess DCFailure)),
      serve integralService (lcpAlg boundedInt) (m.updateSSCO S choose) ⟨⟨p0, 0⟩, resp.xs, resp.m⟩
        (log.map fun i => some [[[load i]]]) = rs.map .ok ∧ rs.length = log.length ∧
      ∀ (k : Nat) r, rs[k]? = some r → r.cost.cost ≠ ⊤ ∧
        ∀ ks : List ℤ, ks.length = past.length + k + 1 → (∀ j ∈ ks, 0 ≤ j ∧ j ≤ F.servers) →
          ∃ c, c = totalCost (fun t (j : ℤ) => F.slotCost t ((past ++ log.map load).getD (t - 1).toNat 0) j)
            (fun y x => F.switching * max 0 ((x : ℚ) - y)) 1 1 0 ks ∧ r.cost.cost ≤ c + c + c := by
    intro log
    obtain ⟨p1, fuel1, resp1, rs, d1, d2, -, d4, d5, d6⟩ := C86_single_type S hS choose hch m F h hF past (log.map load) (by
      intro l hl
      rcases List.mem_append.1 hl with hl | hl
      · exact hpast l hl
      · obtain ⟨i, -, rfl⟩ := List.mem_map.1 hl
        exact hload i)
    rw [e1] at d1
    cases d1
    have := prepare_unique _ _ _ _ e2 d2
    cases this
    rw [List.map_map] at d4
    refine ⟨rs, d4, by simpa using d5, fun k r hr => ?_⟩
    obtain ⟨js, -, -, -, c1, c2⟩ := d6 k r hr
    exact ⟨c1, c2⟩
  have hB : Faithful (List (List (List ℚ))) := C88_memories.1
  have hL : Local (List (List (List ℚ))) := Wire.local_list (Wire.local_list (Wire.local_list Wire.local_rat))
  have hR : Faithful (Except String (OnlineResponse ℤ (List (BoundsMem ℤ)) (Cost DCSuccess DCFailure))) :=
    Wire.faithful_except (Wire.faithful_response Wire.faithful_int C88_memories.2.1
      (Wire.faithful_cost Wire.faithful_success Wire.faithful_failure)) Wire.faithful_string
  have hh : ∀ log : List (Fin n), log.Nodup → ∀ r ∈ serve integralService (lcpAlg boundedInt) (m.updateSSCO S choose)
      ⟨⟨p0, 0⟩, resp.xs, resp.m⟩ (log.map fun i => some [[[load i]]]), ∃ v ts, r = .ok v ∧ Wire.Enc (outcome message r) ts := by
    intro log _ r hr
    obtain ⟨rs, k1, -⟩ := key log
    rw [k1] at hr
    obtain ⟨v, -, rfl⟩ := List.mem_map.1 hr
    obtain ⟨us, hus⟩ := Wire.sendable_response v
    exact ⟨v, _, rfl, us, hus, rfl⟩
  obtain ⟨g1, g2⟩ := C94_everyone_partial (message := message) (inputs := fun i => [[[load i]]]) hB hL hm hh
  refine ⟨p0, fuel, resp, e1, e2, g1, g2, ?_⟩
  intro w hw ha
  have hw' : Net.Steps integralService (lcpAlg boundedInt) (m.updateSSCO S choose) message
      (Net.start messages ⟨⟨p0, 0⟩, resp.xs, resp.m⟩) w := by
    clear ha
    induction hw with
    | refl => exact .refl
    | tail _ hs ih => exact ih.tail ⟨_, hs⟩
  obtain ⟨log, more, I, -⟩ := C94_in_order (inputs := fun i => [[[load i]]]) hB hL hm w w hw' .refl
  obtain ⟨rs, k1, k2, k3⟩ := key log
  refine ⟨log, rs, I.once, fun i => (I.answered i).2 (ha i), k1, ?_⟩
  intro k i hi
  have hk : k < rs.length := by rw [k2]; exact (List.getElem?_eq_some_iff.1 hi).1
  have hr : rs[k]? = some rs[k] := List.getElem?_eq_getElem hk
  obtain ⟨ts, t1, t2⟩ := I.own k i (.ok rs[k]) hi (by rw [k1, List.getElem?_map, hr]; rfl)
  refine ⟨rs[k], ts, hr, t1, ?_, k3 k _ hr⟩
  exact receive_of hR t2

/-- The theorem applies: a data center with two recorded loads, and two clients. -/
example (S : Num.Solver) (hS : SolvesEmpty S) (choose : Nat → List ℚ → Nat → List ℚ) (hch : ChoosesFrom choose) (message : Fault → String) :=
  C94_data_center_partial S hS choose hch Ex.farmModel Ex.farm Ex.farm_is Ex.farm_valid [3, 0]
    (fun l hl => Ex.farm_carries l (by simp at hl ⊢; tauto)) 2 ![7, 2]
    (fun i => Ex.farm_carries _ (by fin_cases i <;> simp)) message
    ![[.len 1, .len 1, .len 1, .float ((7 : ℚ) : ECost)], [.len 1, .len 1, .len 1, .float ((2 : ℚ) : ECost)]]
    (fun i => by
      fin_cases i
      · exact ⟨_, ⟨_, [], ⟨_, ⟨_, [], ⟨_, ⟨_, [], rfl, rfl, rfl⟩, rfl⟩, rfl, rfl⟩, rfl⟩, rfl, rfl⟩, rfl⟩
      · exact ⟨_, ⟨_, [], ⟨_, ⟨_, [], ⟨_, ⟨_, [], rfl, rfl, rfl⟩, rfl⟩, rfl, rfl⟩, rfl⟩, rfl, rfl⟩, rfl⟩)

/-- Nothing is read from an empty message of loads, as the counterexamples of C94 require. -/
example : receive (α := List (List (List ℚ))) [] = none := rfl

end Soco
