import Verif.Props.ServiceRun
import Verif.Props.LazyOne
import Verif.Props.Generated
import Verif.Props.Updates
import Verif.Props.Solve

/-!
# C96: a running service for a data center with lazy budgeting
-/

namespace Soco
open Lb

/-- What the service of `streaming/online.rs:52-248` is instantiated with by
`bindings/data_center/online/multi_dimensional/lazy_budgeting/smoothed_load_optimization.rs:16-43`: integral load
optimisation, the verification of `verifiers.rs:242-249` and `verifiers.rs:87-176`, the objective (`problem.rs:90-97`).
Rounding up an integral schedule (`convert.rs:392-399`) changes nothing. -/
def lazyService : Server (SLO ℤ) ℤ (Cost Unit DCFailure) where
  tEnd p := p.tEnd
  setTEnd p t := { p with tEnd := t }
  verify := Online.verify SLO.verify
  objective p xs := p.toProb.objective xs
  toI xs := xs

namespace LazyService

/-- The instance with the horizon `k` and the given loads. -/
def at' (p : SLO ℤ) (k : Nat) (ls : List ℤ) : SLO ℤ := { p with tEnd := k, load := ls }

theorem one_at {n : ℤ} {c β : ℚ} {p : SLO ℤ} (hd : p.d = 1) (hb : p.bounds = [n]) (hh : p.hittingCost = [c])
    (hs : p.switchingCost = [β]) (hn : 0 < n) (hc : 0 < c) (hβ : 0 < β) (k : Nat) (ls : List ℤ) (hk : k ≤ ls.length)
    (hl : ∀ l ∈ ls, 0 ≤ l ∧ l ≤ n) : OneType n c β (at' p k ls) := by
  refine ⟨?_, hd, hb, hh, hs, fun l h => (hl l h).2⟩
  refine (C10_slo_verify_exact _ (by simp [at', hh, hd])).1 ?_
  refine ⟨by simp [at', hd], by simp [at'], by simp [at', hb, hd], by simp [at', hs, hd], by simpa [at'] using hk,
    by simp [at', hb, hn], by simp [at', hs, hβ], ?_, ?_, by simp [at', hs], ?_⟩
  · intro j hj d hd'
    simp only [at', hd, hh] at hj hd'
    have : j = 0 := by omega
    subst this
    simp at hd'
    rw [← hd']; exact hc.le
  · intro j l hjl hl'
    simp only [at', hd] at hl'
    omega
  · intro t _ l h
    exact (hl l (List.mem_of_getElem? h)).1

theorem later_at (p : SLO ℤ) (a b : Nat) (hab : a ≤ b) (ls ls' : List ℤ) (ha : a ≤ ls.length) (hb : a ≤ ls'.length)
    (h : ls.take a = ls'.take a) : Spec.SeenLater (at' p a ls) (at' p b ls') := by
  refine ⟨rfl, rfl, rfl, rfl, by simpa [at'] using hab, ?_⟩
  intro t h1 h2
  simp only [at'] at h2 ⊢
  unfold access
  rw [if_pos (by omega), if_pos (by omega)]
  have := congrArg (fun l => l[(t - 1).toNat]?) h
  simp only [List.getElem?_take, if_pos (show (t - 1).toNat < a by omega)] at this
  exact this

/-- The loads which are known when slot `k + 1` is decided: all past loads from the start, later ones as they come. -/
def known (past future : List ℤ) (k : Nat) : List ℤ := past ++ future.take (k - past.length)

theorem known_length {past future : List ℤ} {k : Nat} (h : k ≤ past.length + future.length) :
    k ≤ (known past future k).length := by
  simp [known]; omega

theorem known_take {past future : List ℤ} {a k : Nat} (h : a ≤ k) :
    (known past future k).take a = (past ++ future).take a := by
  simp only [known, List.take_append, List.take_take]
  congr 2
  omega

/-- The instances the algorithm gets to see. -/
def shown (p : SLO ℤ) (past future : List ℤ) : List (SLO ℤ) :=
  (List.range (past.length + future.length)).map fun k => at' p (k + 1) (known past future (k + 1))

theorem shown_get {p : SLO ℤ} {past future : List ℤ} {k : Nat} {q : SLO ℤ} (h : (shown p past future)[k]? = some q) :
    k < past.length + future.length ∧ q = at' p (k + 1) (known past future (k + 1)) := by
  simp only [shown, List.getElem?_map, Option.map_eq_some_iff] at h
  obtain ⟨j, h1, h2⟩ := h
  obtain ⟨h3, h4⟩ := List.getElem?_eq_some_iff.1 h1
  simp at h3 h4
  subst h4
  exact ⟨h3, h2.symm⟩

theorem shown_one {n : ℤ} {c β : ℚ} {p : SLO ℤ} (hd : p.d = 1) (hb : p.bounds = [n]) (hh : p.hittingCost = [c])
    (hs : p.switchingCost = [β]) (hn : 0 < n) (hc : 0 < c) (hβ : 0 < β) (past future : List ℤ)
    (hl : ∀ l ∈ past ++ future, 0 ≤ l ∧ l ≤ n) (j : Nat) : ShownOne n c β ((shown p past future).take j) := by
  have hsub : ((shown p past future).take j).Sublist (shown p past future) := List.take_sublist _ _
  refine ⟨?_, ?_, ?_⟩
  · intro q hq
    obtain ⟨k, hk⟩ := List.getElem?_of_mem (hsub.subset hq)
    obtain ⟨h1, rfl⟩ := shown_get hk
    refine one_at hd hb hh hs hn hc hβ _ _ (known_length (by omega)) ?_
    intro l h
    apply hl l
    simp only [known, List.mem_append] at h ⊢
    exact h.imp_right fun h => List.mem_of_mem_take h
  · refine List.Pairwise.sublist hsub ?_
    rw [List.pairwise_iff_getElem]
    intro a b ha hb hab
    obtain ⟨h1, e1⟩ := shown_get (List.getElem?_eq_getElem ha)
    obtain ⟨h2, e2⟩ := shown_get (List.getElem?_eq_getElem hb)
    rw [e1, e2]
    refine later_at p _ _ (by omega) _ _ (known_length (by omega)) ((known_length (k := b + 1) (by omega)).trans' (by omega)) ?_
    rw [known_take (le_refl _), known_take (by omega)]
  · intro k q hq
    rw [List.getElem?_take] at hq
    split at hq
    · obtain ⟨_, rfl⟩ := shown_get hq
      simp [at']
    · simp at hq

theorem objective_total {n : ℤ} {c β : ℚ} {p : SLO ℤ} (h : OneType n c β p) (xs : Schedule ℤ)
    (hx : Spec.InSpace p.tEnd p.bounds xs) : ∃ out, p.toProb.objective xs = .ok ⟨Spec.loadTotal p xs, out⟩ := by
  have hd := h.d
  exact Offline.objective_simplified p.toProb p.switchingCost (fun _ _ _ => rfl) (by simp [SLO.toProb, h.switching, hd]) 1
    (Spec.loadCost p) (Spec.InBox p.bounds)
    (fun x hx => by have := List.Forall₂.length_eq hx; rw [h.bounds] at this; simp [SLO.toProb, hd]; simpa using this.symm)
    (fun t a b x hx => Offline.slo_hit h.valid (by rw [h.hitting, hd]; rfl) t a b x hx) xs hx.1 hx.2

theorem fromFloat_int (l : ℤ) : (FromFloat.fromFloat ((l : ℚ)) : ℤ) = l := by
  simp only [FromFloat.fromFloat]
  split <;> simp

theorem updates (p : SLO ℤ) (past future : List ℤ) :
    Spec.Updates DataCenterModel.updateSLO ⟨at' p past.length past, 0⟩ (future.map fun l : ℤ => [[[(l : ℚ)]]])
      ((List.range future.length).map fun i => ⟨at' p (past.length + i + 1) (past ++ future.take (i + 1)), 0⟩) := by
  induction future generalizing past with
  | nil => exact .nil _
  | cons l future ih =>
    rw [List.map_cons, List.length_cons, List.range_succ_eq_map, List.map_cons, List.map_map]
    refine .step _ _ _ _ _ ((C43_update_slo _ _ _).2 ⟨rfl, Int.zero_lt_one, _, rfl, ?_⟩) ?_
    · rw [fromFloat_int]
      simp [at']
    · have := ih (past ++ [l])
      have e : at' p (past.length + 0 + 1) (past ++ (l :: future).take (0 + 1)) = at' p (past ++ [l]).length (past ++ [l]) := by
        simp [at']
      rw [e]
      convert this using 2
      funext i
      simp only [Function.comp]
      congr 2
      · simp; omega
      · simp

theorem shown_split (p : SLO ℤ) (past future : List ℤ) : (shown p past future).map (fun q => (⟨q, 0⟩ : Online (SLO ℤ))) =
    ((List.range past.length).map fun i => ⟨lazyService.setTEnd (at' p past.length past) ((1 + i : Nat) : Int), 0⟩) ++
      ((List.range future.length).map fun i => at' p (past.length + i + 1) (past ++ future.take (i + 1))).map
        fun q => ⟨q, 0⟩ := by
  rw [shown, List.range_add, List.map_append, List.map_append]
  congr 1
  · rw [List.map_map]
    apply List.map_congr_left
    intro i hi
    have : i + 1 - past.length = 0 := by rw [List.mem_range] at hi; omega
    simp [at', lazyService, known, this]
    omega
  · rw [List.map_map, List.map_map, List.map_map]
    apply List.map_congr_left
    intro i hi
    simp only [Function.comp, known]
    congr 4
    omega

theorem total_ints (c β : ℚ) (js : List ℤ) (t : Int) (prev : ℤ) :
    Spec.totalCost (fun _ (j : ℤ) => ((c * j : ℚ) : ECost)) (fun y x : ℤ => β * max 0 ((x : ℚ) - y)) 1 t prev js =
      ((lineCost c β prev js : ℚ) : ECost) := by
  induction js generalizing t prev with
  | nil => rfl
  | cons j js ih =>
    rw [Spec.totalCost, ih, lineCost, one_mul, ← WithTop.coe_add, ← WithTop.coe_add]

theorem le_foldr_max (ls : List ℤ) (l : ℤ) (h : l ∈ ls) : l ≤ ls.foldr max 0 := by
  induction ls with
  | nil => simp at h
  | cons a ls ih =>
    simp only [List.foldr_cons]
    rcases List.mem_cons.1 h with rfl | h
    · exact le_max_left _ _
    · exact (ih h).trans (le_max_right _ _)

/-- The number of servers which lazy budgeting activates is sufficient and available. -/
theorem window_covers (W : Nat) (hW : 1 ≤ W) (n : ℤ) (hn : 0 ≤ n) (ls : List ℤ) (hl : ∀ l ∈ ls, l ≤ n) (k : Nat) :
    0 ≤ Spec.windowMax W (ls.take (k + 1)) ∧ Spec.windowMax W (ls.take (k + 1)) ≤ n ∧
      ∀ l, ls[k]? = some l → l ≤ Spec.windowMax W (ls.take (k + 1)) := by
  refine ⟨foldr_max_nonneg _, foldr_max_le _ _ hn fun l h => hl l (List.mem_of_mem_take (List.mem_of_mem_drop h)), ?_⟩
  intro l h
  apply le_foldr_max
  obtain ⟨h1, h2⟩ := List.getElem?_eq_some_iff.1 h
  have hlen : (ls.take (k + 1)).length = k + 1 := by rw [List.length_take]; omega
  rw [hlen, List.mem_iff_getElem?]
  refine ⟨k - (k + 1 - W), ?_⟩
  rw [List.getElem?_drop, List.getElem?_take_of_lt (by omega), show k + 1 - W + (k - (k + 1 - W)) = k by omega]
  exact h

end LazyService
open LazyService

/-- **C96** A service for a data center with one kind of server which decides by lazy budgeting, started with past loads
and then sent one load after another. Starting succeeds, every request is answered, in every slot exactly as many servers
are active as the largest of the last loads requires, and the cost reported with each answer is the actual cost of the
decisions so far. Here a server costs in each slot the average full-load cost which was computed from the past. -/
theorem C96_lazy_service (S : Num.Solver) (hS : Spec.Shaped S) (hE : Spec.SolvesEmpty S) (randomized : Bool) (gamma : ℚ)
    (hg : 0 ≤ gamma) (m : DataCenterModel) (past future : List ℤ) (p0 : SLO ℤ)
    (h0 : m.toSLO (past.map fun l : ℤ => [(l : ℚ)]) = .ok p0) (n : ℤ) (c β : ℚ) (hb : p0.bounds = [n])
    (hh : p0.hittingCost = [c]) (hs : p0.switchingCost = [β]) (hn : 0 < n) (hc : 0 < c) (hβ : 0 < β)
    (hl : ∀ l ∈ past ++ future, 0 ≤ l ∧ l ≤ n) :
    ∃ (fuel : Nat) (resp : OfflineResponse ℤ Memory (Cost Unit DCFailure))
        (rs : List (OnlineResponse ℤ Memory (Cost Unit DCFailure))) (js : List ℤ),
      prepare lazyService (alg S gamma randomized) 0 fuel p0 = some (.ok (⟨p0, 0⟩, resp)) ∧
      resp.xs.length = past.length ∧
      serve lazyService (alg S gamma randomized) DataCenterModel.updateSLO ⟨⟨p0, 0⟩, resp.xs, resp.m⟩
        (future.map fun l : ℤ => some [[[(l : ℚ)]]]) = rs.map .ok ∧
      rs.length = future.length ∧
      resp.xs ++ rs.map (·.x) = js.map (fun j => [j]) ∧
      (∀ k, k < past.length + future.length → js[k]? =
        some (Spec.windowMax (Spec.keepSlots (if randomized then gamma else 1) β c) ((past ++ future).take (k + 1)))) ∧
      ∀ i r, rs[i]? = some r → r.intX = r.x ∧ r.intCost = r.cost ∧
        r.cost.cost = Spec.totalCost (fun _ (j : ℤ) => ((c * j : ℚ) : ECost)) (fun y x : ℤ => β * max 0 ((x : ℚ) - y)) 1 1 0
          (js.take (past.length + i + 1)) ∧
        (randomized = false → ∀ ks : List ℤ, ks.length = past.length + i + 1 →
          (∀ (t : Nat) k, ks[t]? = some k → k ≤ n ∧ ∀ l, (past ++ future)[t]? = some l → l ≤ k) →
          ∃ c', c' = Spec.totalCost (fun _ (j : ℤ) => ((c * j : ℚ) : ECost)) (fun y x : ℤ => β * max 0 ((x : ℚ) - y)) 1 1 0 ks ∧
            r.cost.cost ≤ c' + c') := by
  set ls := past ++ future with hls
  set a := past.length with ha
  set W := Spec.keepSlots (if randomized then gamma else 1) β c with hW
  have hW1 : 1 ≤ W := by rw [hW]; unfold Spec.keepSlots; omega
  -- the instance at the start
  obtain ⟨⟨loc, hloc, _, _, _, _⟩, hca, hlen, hload⟩ := C75_load_partial m _ p0 h0
  have hd : p0.d = 1 := by
    have h1 := hca.onlyServers
    have h2 := hca.dims
    rw [hb] at h1
    rw [h2, ← h1]
    rfl
  have hT : p0.tEnd = a := by
    have := hca.slots
    simpa using this
  have hpast : p0.load = past := by
    apply List.ext_getElem?
    intro i
    by_cases hi : i < past.length
    · obtain ⟨q, q1, q2⟩ := hload i [((past[i] : ℤ) : ℚ)] (by simp [hi])
      simp at q1
      rw [q2, ← q1, fromFloat_int, List.getElem?_eq_getElem hi]
    · rw [List.getElem?_eq_none (by rw [hlen]; simpa using hi), List.getElem?_eq_none (by omega)]
  have hat : at' p0 a past = p0 := by
    cases p0
    simp only at hT hpast
    simp [at', hT, hpast]
  have hbound : ∀ l ∈ ls, l ≤ n := fun l h => (hl l h).2
  -- the run
  have hshown := fun j => shown_one hd hb hh hs hn hc hβ past future hl j
  have hsl : (shown p0 past future).length = a + future.length := by simp [LazyService.shown, ha]
  have hval : ∀ j, ∃ xs mem, Spec.play SLO.tEnd (alg S gamma randomized) [] none
      (((shown p0 past future).take j).map fun p => ⟨p, 0⟩) = .ok (xs, mem) ∧
      xs = (((List.range (a + future.length)).map fun k => Spec.windowMax W (ls.take (k + 1))).take j).map
        fun v => [v] := by
    intro j
    obtain ⟨xs, mem, h1, h2, h3⟩ := C69_window S hS hE randomized gamma hg n c β hc _ (hshown j)
    refine ⟨xs, mem, h1, ?_⟩
    apply List.ext_getElem?
    intro k
    by_cases hk : k < xs.length
    · have hk' : k < ((shown p0 past future).take j).length := by omega
      have hk2 : k < j ∧ k < a + future.length := by
        rw [List.length_take, hsl] at hk'
        omega
      have hq := List.getElem?_eq_getElem hk'
      have e := h3 k _ hq
      rw [List.getElem?_take, if_pos hk2.1] at hq
      obtain ⟨_, e2⟩ := shown_get hq
      rw [e, e2]
      simp only [at']
      rw [known_take (le_refl _), List.getElem?_map, List.getElem?_take, if_pos hk2.1, List.getElem?_map,
        List.getElem?_range hk2.2]
      rfl
    · rw [List.getElem?_eq_none (by omega), List.getElem?_eq_none]
      rw [List.length_take, hsl] at h2
      simp only [List.length_map, List.length_take, List.length_range]
      omega
  set js := (List.range (a + future.length)).map fun k => Spec.windowMax W (ls.take (k + 1)) with hjs
  have hjl : js.length = a + future.length := by simp [hjs]
  have hjk : ∀ k, k < a + future.length → js[k]? = some (Spec.windowMax W (ls.take (k + 1))) := by
    intro k hk
    rw [hjs, List.getElem?_map, List.getElem?_range hk]
    rfl
  obtain ⟨xs, mem, x1, x2⟩ := hval (a + future.length)
  rw [List.take_of_length_le (by omega), play_iff_run, shown_split] at x1
  rw [List.take_of_length_le (by omega)] at x2
  have xtake : ∀ k, xs.take k = (js.take k).map fun v => [v] := by intro k; rw [x2, List.map_take]
  -- costs
  have hobj : ∀ (k : Nat) (kn : List ℤ), k ≤ a + future.length → k ≤ kn.length → (∀ l ∈ kn, 0 ≤ l ∧ l ≤ n) →
      kn.take k = ls.take k →
      Spec.InSpace (k : Int) [n] (xs.take k) ∧
      Spec.loadTotal (at' p0 k kn) (xs.take k) = ((lineCost c β 0 (js.take k) : ℚ) : ECost) ∧
      ∃ out, (at' p0 k kn).toProb.objective (xs.take k) = .ok ⟨((lineCost c β 0 (js.take k) : ℚ) : ECost), out⟩ := by
    intro k kn hk hkn hkl hkt
    have hone := one_at hd hb hh hs hn hc hβ k kn hkn hkl
    have hin : Spec.InSpace (k : Int) [n] (xs.take k) := by
      refine ⟨by rw [x2]; simp [hjl]; omega, ?_⟩
      intro x hx
      rw [xtake, List.mem_map] at hx
      obtain ⟨v, hv, rfl⟩ := hx
      obtain ⟨t, ht⟩ := List.getElem?_of_mem (List.mem_of_mem_take hv)
      have htl : t < a + future.length := by rw [← hjl]; exact (List.getElem?_eq_some_iff.1 ht).1
      rw [hjk t htl] at ht
      cases ht
      obtain ⟨w1, w2, _⟩ := window_covers W hW1 n hn.le ls hbound t
      exact .cons ⟨w1, w2⟩ .nil
    have hline : Spec.loadTotal (at' p0 k kn) (xs.take k) = ((lineCost c β 0 (js.take k) : ℚ) : ECost) := by
      rw [xtake]
      apply loadTotal_line hone
      intro t v hv
      have htk : t < k := by
        have := (List.getElem?_eq_some_iff.1 hv).1
        rw [List.length_take] at this
        omega
      rw [List.getElem?_take, if_pos htk, hjk t (by omega)] at hv
      cases hv
      apply (window_covers W hW1 n hn.le ls hbound t).2.2
      have h1 : (kn.take k)[t]? = (ls.take k)[t]? := by rw [hkt]
      rw [List.getElem?_take, List.getElem?_take, if_pos htk, if_pos htk] at h1
      rw [← h1]
      show kn[t]? = some (kn.getD t 0)
      rw [List.getD_eq_getElem _ _ (by omega), List.getElem?_eq_getElem (by omega)]
    refine ⟨hin, hline, ?_⟩
    obtain ⟨out, ho⟩ := objective_total hone (xs.take k) (by simpa [at', hb] using hin)
    exact ⟨out, by rw [ho, hline]⟩
  have hfs : ∀ i p, ((List.range future.length).map fun i => at' p0 (a + i + 1) (past ++ future.take (i + 1)))[i]? = some p →
      i < future.length ∧ p = at' p0 (a + i + 1) (past ++ future.take (i + 1)) := by
    intro i p hp
    rw [List.getElem?_map, Option.map_eq_some_iff] at hp
    obtain ⟨k, h1, h2⟩ := hp
    obtain ⟨h3, h4⟩ := List.getElem?_eq_some_iff.1 h1
    simp at h3 h4
    subst h4
    exact ⟨h3, h2.symm⟩
  have hcosts : ∀ i, i < future.length → Spec.InSpace ((a + i + 1 : Nat) : Int) [n] (xs.take (a + i + 1)) ∧
      Spec.loadTotal (at' p0 (a + i + 1) (past ++ future.take (i + 1))) (xs.take (a + i + 1)) =
        ((lineCost c β 0 (js.take (a + i + 1)) : ℚ) : ECost) ∧
      ∃ out, (at' p0 (a + i + 1) (past ++ future.take (i + 1))).toProb.objective (xs.take (a + i + 1)) =
        .ok ⟨((lineCost c β 0 (js.take (a + i + 1)) : ℚ) : ECost), out⟩ := by
    intro i hi
    refine hobj (a + i + 1) _ (by omega) (by simp; omega) ?_ ?_
    · intro l h
      apply hl l
      rw [hls]
      simp only [List.mem_append] at h ⊢
      exact h.imp_right fun h => List.mem_of_mem_take h
    · simp only [hls, List.take_append, List.take_take]
      congr 2
      omega
  have hlast : ∀ i, i < future.length → (xs.take (a + i + 1)).getLast? = some [Spec.windowMax W (ls.take (a + i + 1))] := by
    intro i hi
    rw [xtake, List.getLast?_map, List.getLast?_take, if_neg (by omega), Nat.add_sub_cancel, hjk (a + i) (by omega)]
    rfl
  have hv : ∀ k : Nat, k ≤ a → lazyService.verify ⟨lazyService.setTEnd p0 k, 0⟩ = .ok () := by
    intro k hk
    have h1 := (one_at hd hb hh hs hn hc hβ k past hk (fun l h => hl l (by simp [hls, h]))).verified
    have h2 : lazyService.setTEnd p0 k = at' p0 k past := by simp [lazyService, at', hpast]
    rw [h2]
    simp [lazyService, Online.verify, assertValidity, assertR, bind, Except.bind, h1]
  obtain ⟨fuel, resp, rs, r1, r2, r3, r4, r5, r6⟩ := Service.follows lazyService (alg S gamma randomized)
    DataCenterModel.updateSLO p0 a (fun _ => rfl) (fun _ _ => rfl) (by
      show { p0 with tEnd := (a : Int) } = p0
      rw [← hT]) hv (future.map fun l : ℤ => [[[(l : ℚ)]]])
    ((List.range future.length).map fun i => at' p0 (a + i + 1) (past ++ future.take (i + 1)))
    (by
      have := updates p0 past future
      rw [← ha, hat] at this
      rw [List.map_map]
      exact this) xs mem (by
      rw [← ha, hat] at x1
      exact x1) (by
      obtain ⟨_, _, out, ho⟩ := hobj a past (by omega) (le_of_eq ha) (fun l h => hl l (by simp [hls, h])) (by simp [hls, ha])
      rw [hat] at ho
      exact ⟨_, _, ho, ho⟩) (by
      intro i p hp
      obtain ⟨hi, rfl⟩ := hfs i p hp
      obtain ⟨_, _, out, ho⟩ := hcosts i hi
      exact ⟨_, _, _, ho, ho, hlast i hi⟩)
  refine ⟨fuel, resp, rs, js, r1, r5, ?_, by simpa using r3, by rw [← r4, x2], hjk, ?_⟩
  · rw [List.map_map] at r2
    exact r2
  intro i r hr
  obtain ⟨p, hp, c1, c2, c3⟩ := r6 i r hr
  obtain ⟨hi, rfl⟩ := hfs i p hp
  obtain ⟨k1, k2, out, ho⟩ := hcosts i hi
  have e1 : lazyService.objective (at' p0 (a + i + 1) (past ++ future.take (i + 1))) (xs.take (a + i + 1)) =
    .ok ⟨((lineCost c β 0 (js.take (a + i + 1)) : ℚ) : ECost), out⟩ := ho
  rw [e1] at c1
  have e2 : lazyService.toI (xs.take (a + i + 1)) = xs.take (a + i + 1) := rfl
  rw [e2] at c2 c3
  rw [e1] at c2
  have c1' := Except.ok.inj c1
  have c2' := Except.ok.inj c2
  have hcost : r.cost.cost = ((lineCost c β 0 (js.take (a + i + 1)) : ℚ) : ECost) := by rw [← c1']
  refine ⟨?_, c2'.symm.trans c1', by rw [hcost, total_ints], ?_⟩
  · have h1 : xs[a + i]? = some r.x := by
      rw [r4, List.getElem?_append_right (by omega), r5, Nat.add_sub_cancel_left, List.getElem?_map, hr]
      rfl
    have h2 := hlast i hi
    rw [c3] at h2
    rw [x2, List.getElem?_map, hjk (a + i) (by omega)] at h1
    rw [Option.some.inj h2]
    exact Option.some.inj h1
  · rintro rfl ks hkl hk
    refine ⟨_, rfl, ?_⟩
    obtain ⟨ys, mem', y1, y2, y3, y4⟩ := C69_two_competitive_partial S hS hE gamma hg n c β hc _ (hshown (a + i + 1))
      (at' p0 (a + i + 1) (past ++ future.take (i + 1))) (by
        rw [List.getLast?_take, if_neg (by omega), Nat.add_sub_cancel]
        have : a + i < (LazyService.shown p0 past future).length := by omega
        rw [List.getElem?_eq_getElem this]
        obtain ⟨_, e⟩ := shown_get (List.getElem?_eq_getElem this)
        rw [e, known, ← ha, show a + i + 1 - a = i + 1 by omega]
        rfl)
    obtain ⟨zs, mem2, z1, z2⟩ := hval (a + i + 1)
    rw [y1] at z1
    cases z1
    rw [← xtake] at z2
    rw [z2] at y4
    have hcov : ∀ (t : Nat) v, ks[t]? = some v → (at' p0 (a + i + 1) (past ++ future.take (i + 1))).load.getD t 0 ≤ v := by
      intro t v hv
      have ht : t < a + i + 1 := by rw [← hkl]; exact (List.getElem?_eq_some_iff.1 hv).1
      apply (hk t v hv).2
      show ls[t]? = some ((past ++ future.take (i + 1)).getD t 0)
      have h1 : t < (past ++ future.take (i + 1)).length := by simp; omega
      rw [List.getD_eq_getElem _ _ h1, ← List.getElem?_eq_getElem h1, hls]
      by_cases hta : t < past.length
      · rw [List.getElem?_append_left hta, List.getElem?_append_left hta]
      · rw [List.getElem?_append_right (by omega), List.getElem?_append_right (by omega), List.getElem?_take,
          if_pos (by omega)]
    have hone : OneType n c β (at' p0 (a + i + 1) (past ++ future.take (i + 1))) :=
      one_at hd hb hh hs hn hc hβ _ _ (by simp; omega) (by
        intro l h
        apply hl l
        rw [hls]
        simp only [List.mem_append] at h ⊢
        exact h.imp_right fun h => List.mem_of_mem_take h)
    have key := y4 (ks.map fun k => [k]) (by
      refine ⟨by simp [at', hkl], ?_⟩
      intro x hx
      obtain ⟨k, hkm, rfl⟩ := List.mem_map.1 hx
      obtain ⟨t, ht⟩ := List.getElem?_of_mem hkm
      have htl : t < ls.length := by
        have := (List.getElem?_eq_some_iff.1 ht).1
        rw [hls, List.length_append]
        omega
      have h1 := (hk t k ht).2 _ (List.getElem?_eq_getElem htl)
      have h2 := (hl _ (List.getElem_mem htl)).1
      simp only [at', hb]
      exact .cons ⟨h2.trans h1, (hk t k ht).1⟩ .nil)
    rw [k2, loadTotal_line hone ks hcov] at key
    rw [hcost, total_ints]
    exact key

/-! ## Example -/

/-- Four servers, a server under full load costs three per slot and switching one on costs six: servers are kept for two slots. -/
def Ex.rentModel : DataCenterModel where
  delta := 1
  locations := [⟨"a", fun _ => some 4⟩]
  serverTypes := [⟨"s", 1⟩]
  sources := [⟨"", fun _ _ => .ok 0⟩]
  jobTypes := [⟨"i", fun _ => .ok 1⟩]
  consumptionModel := .linear fun _ => some ⟨1, 3⟩
  energyModel := .linear fun _ => some fun _ => 1
  lossModel := fun _ => some ⟨0, 0⟩
  switchingModel := fun _ => some ⟨1, 1, 2, 4, 1, 0, 0⟩

/-- The instance of the past loads. -/
def Ex.rentInstance : SLO ℤ := ⟨1, 2, [4], [6], [3], [2, 0]⟩

theorem Ex.rent_is : Ex.rentModel.toSLO (T := ℤ) (([2, 0] : List ℤ).map fun l : ℤ => [(l : ℚ)]) = .ok Ex.rentInstance := by
  obtain ⟨p, hp, h⟩ : ∃ p, Ex.rentModel.toSLO (T := ℤ) (([2, 0] : List ℤ).map fun l : ℤ => [(l : ℚ)]) = .ok p ∧
      (p.d = 1 ∧ p.tEnd = 2 ∧ p.bounds = [4] ∧ p.switchingCost = [6] ∧ p.hittingCost = [3] ∧ p.load = [2, 0]) :=
    ⟨_, rfl, by decide +kernel⟩
  rw [hp, Ex.rentInstance]
  obtain ⟨h1, h2, h3, h4, h5, h6⟩ := h
  cases p
  simp only at h1 h2 h3 h4 h5 h6
  subst h1 h2 h3 h4 h5 h6
  rfl

example := C96_lazy_service Offline.lazySolver lazySolver_ok.1 lazySolver_ok.2 false 1 (by decide) Ex.rentModel [2, 0] [1, 0, 0, 3]
  Ex.rentInstance Ex.rent_is 4 3 6 rfl rfl rfl (by decide) (by decide) (by decide) (by decide)

/-- Decisions. -/
example : (List.range 6).map (fun k => Spec.windowMax (Spec.keepSlots 1 6 3) (([2, 0, 1, 0, 0, 3] : List ℤ).take (k + 1))) =
    [2, 2, 1, 1, 0, 3] := by decide +kernel

/-- Energy prices rise by one per slot. -/
def Ex.risingRent : DataCenterModel := { Ex.rentModel with energyModel := .linear fun _ => some fun t => (t : ℚ) + 1 }

/-- **C96** The cost of a server stays the one which was computed from the past, when prices were lower: after one more
load the instance of the service is not the offline problem of all loads. -/
theorem C96_later_prices_counterexample : ∃ (p0 p : SLO ℤ) (o : Online (SLO ℤ)),
    Ex.risingRent.toSLO [[2]] = .ok p0 ∧ DataCenterModel.updateSLO ⟨p0, 0⟩ [[[1]]] = .ok o ∧
    Ex.risingRent.toSLO [[2], [1]] = .ok p ∧ o.p.load = p.load ∧ o.p.tEnd = p.tEnd ∧
    o.p.hittingCost = [3] ∧ p.hittingCost = [9 / 2] := by
  refine ⟨_, _, _, rfl, rfl, rfl, ?_, ?_, ?_, ?_⟩ <;> decide +kernel

end Soco
