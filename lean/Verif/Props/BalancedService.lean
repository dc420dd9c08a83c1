import Verif.Props.LazyService
import Verif.Props.BudgetExact

/-!
# C103: a running service for a data center with several kinds of servers
-/

namespace Soco
open Bb Spec

/-- What the service of `streaming/online.rs:52-248` is instantiated with by
`bindings/data_center/online/multi_dimensional/lazy_budgeting/smoothed_balanced_load_optimization.rs:16-46`: integral
balanced-load optimisation, the verification of `verifiers.rs:242-249` and `verifiers.rs:56-85`, the objective
(`problem.rs:90-97`). Rounding up an integral schedule (`convert.rs:392-399`) changes nothing. -/
def balancedService (S : Num.Solver) : Server (SBLO ℤ) ℤ (Cost DCSuccess DCFailure) where
  tEnd p := p.tEnd
  setTEnd p t := { p with tEnd := t }
  verify := Online.verify SBLO.verify
  objective p xs := (p.toProb S).objective xs
  toI xs := xs

namespace BalancedService

/-- The instance with the horizon `k` and the given loads. -/
def at' (p : SBLO ℤ) (k : Nat) (ls : List ℤ) : SBLO ℤ := { p with tEnd := k, load := ls }

/-- The instances the algorithm gets to see. -/
def shown (p : SBLO ℤ) (past future : List ℤ) : List (SBLO ℤ) :=
  (List.range (past.length + future.length)).map fun k => at' p (k + 1) (LazyService.known past future (k + 1))

theorem shown_get {p : SBLO ℤ} {past future : List ℤ} {k : Nat} {q : SBLO ℤ} (h : (shown p past future)[k]? = some q) :
    k < past.length + future.length ∧ q = at' p (k + 1) (LazyService.known past future (k + 1)) := by
  simp only [shown, List.getElem?_map, Option.map_eq_some_iff] at h
  obtain ⟨j, h1, h2⟩ := h
  obtain ⟨h3, h4⟩ := List.getElem?_eq_some_iff.1 h1
  simp at h3 h4
  subst h4
  exact ⟨h3, h2.symm⟩

theorem updates (p : SBLO ℤ) (past future : List ℤ) :
    Spec.Updates DataCenterModel.updateSBLO ⟨at' p past.length past, 0⟩ (future.map fun l : ℤ => [[[(l : ℚ)]]])
      ((List.range future.length).map fun i => ⟨at' p (past.length + i + 1) (past ++ future.take (i + 1)), 0⟩) := by
  induction future generalizing past with
  | nil => exact .nil _
  | cons l future ih =>
    rw [List.map_cons, List.length_cons, List.range_succ_eq_map, List.map_cons, List.map_map]
    refine .step _ _ _ _ _ ((C43_update_sblo _ _ _).2 ⟨rfl, Int.zero_lt_one, _, rfl, ?_⟩) ?_
    · rw [LazyService.fromFloat_int]
      simp [at']
    · have := ih (past ++ [l])
      have e : at' p (past.length + 0 + 1) (past ++ (l :: future).take (0 + 1)) = at' p (past ++ [l]).length (past ++ [l]) := by
        simp [at']
      rw [e]
      convert this using 2
      funext i
      simp only [Function.comp]
      congr 2
      · simp; omega
      · simp

theorem shown_split (S : Num.Solver) (p : SBLO ℤ) (past future : List ℤ) :
    (shown p past future).map (fun q => (⟨q, 0⟩ : Online (SBLO ℤ))) =
    ((List.range past.length).map fun i =>
      ⟨(balancedService S).setTEnd (at' p past.length past) ((1 + i : Nat) : Int), 0⟩) ++
      ((List.range future.length).map fun i => at' p (past.length + i + 1) (past ++ future.take (i + 1))).map
        fun q => ⟨q, 0⟩ := by
  rw [shown, List.range_add, List.map_append, List.map_append]
  congr 1
  · rw [List.map_map]
    apply List.map_congr_left
    intro i hi
    have : i + 1 - past.length = 0 := by rw [List.mem_range] at hi; omega
    simp [at', balancedService, LazyService.known, this]
    omega
  · rw [List.map_map, List.map_map, List.map_map]
    apply List.map_congr_left
    intro i hi
    simp only [Function.comp, LazyService.known]
    congr 4
    omega

theorem singleLoads_int (ls : List ℤ) :
    (DataCenterModel.singleLoads (ls.map fun l : ℤ => [(l : ℚ)]) : Res (List ℤ)) = .ok ls := by
  unfold DataCenterModel.singleLoads
  induction ls with
  | nil => rfl
  | cons l ls ih =>
    rw [List.map_cons, List.mapM_cons, ih]
    have := LazyService.fromFloat_int l
    simp only [idx, List.getElem?_cons_zero, bind, Except.bind, this]
    rfl

/-- Instances generated for other loads differ only in the loads. -/
theorem toSBLO_at {m : DataCenterModel} {ls : List ℤ} {p : SBLO ℤ}
    (h : m.toSBLO (ls.map fun l : ℤ => [(l : ℚ)]) = .ok p) (ls' : List ℤ) :
    p = at' p ls.length ls ∧ m.toSBLO (ls'.map fun l : ℤ => [(l : ℚ)]) = .ok (at' p ls'.length ls') := by
  unfold DataCenterModel.toSBLO at h ⊢
  rw [singleLoads_int] at h ⊢
  simp only [bind, Except.bind] at h ⊢
  split at h
  · cases h
  rename_i h1
  split at h
  · cases h
  rename_i loc h2
  split at h
  · cases h
  rename_i h3
  split at h
  · cases h
  rename_i h4
  split at h
  · cases h
  rename_i bs h5
  split at h
  · cases h
  rename_i sc h6
  cases h
  simp [at']

/-- The cost of a slot only depends on the load of the slot. -/
theorem hitCost_at (S : Num.Solver) (p : SBLO ℤ) (k k' : Nat) (ls ls' : List ℤ) (t : Int) (ht : 1 ≤ t) (x : Config ℤ)
    (hx : InBox p.bounds x) (l : ℤ) (h : access ls t = some l) (h' : access ls' t = some l) :
    (at' p k ls).hitCost S t x = (at' p k' ls').hitCost S t x := by
  rw [SBLO.hitCost_eq S (at' p k ls) t x ht hx l h, SBLO.hitCost_eq S (at' p k' ls') t x ht hx l h']
  rfl

theorem access_get (ls : List ℤ) (t : Int) (h : 1 ≤ t) : access ls t = ls[(t - 1).toNat]? := by
  unfold access
  split
  · rfl
  · rw [List.getElem?_eq_none (by omega)]

theorem access_known {past future : List ℤ} {k : Nat} {t : Int} (h1 : 1 ≤ t) (h2 : t ≤ k) :
    access (LazyService.known past future k) t = access (past ++ future) t := by
  rw [access_get _ _ h1, access_get _ _ h1]
  have := congrArg (fun l => l[(t - 1).toNat]?) (LazyService.known_take (past := past) (future := future) (le_refl k))
  simp only [List.getElem?_take, if_pos (show (t - 1).toNat < k by omega)] at this
  exact this

theorem totalCost_ne_top {X : Type} (hit : Int → X → ECost) (mv : X → X → ℚ) : ∀ (xs : List X) (t : Int) (prev : X),
    (∀ (i : Nat) x, xs[i]? = some x → hit (t + i) x ≠ ⊤) → totalCost hit mv 1 t prev xs ≠ ⊤ := by
  intro xs
  induction xs with
  | nil => intro t prev _; exact WithTop.zero_ne_top
  | cons x xs ih =>
    intro t prev h
    rw [totalCost, WithTop.add_ne_top, WithTop.add_ne_top]
    refine ⟨⟨by simpa using h 0 x rfl, WithTop.coe_ne_top⟩, ih (t + 1) x fun i y hy => ?_⟩
    have := h (i + 1) y hy
    rw [show t + 1 + (i : Int) = t + ((i + 1 : Nat) : Int) by push_cast; omega]
    exact this

end BalancedService
open BalancedService

/-- A service which decides by lazy budgeting with precision `ε`, started with the past loads (their instance is `p0`) and then sent
one load per slot. Every request is answered with the true cost of all decisions so far (in the offline problem of these slots),
this cost is finite, and it is at most `ratio` times the cost of any other schedule for these slots. -/
def Spec.ServesWithin (ratio : ℚ) (S : Num.Solver) (ε : ℚ) (m : DataCenterModel) (bounds : List ℤ) (past future : List ℤ)
    (p0 : SBLO ℤ) : Prop :=
    ∃ (fuel : Nat) (resp : OfflineResponse ℤ Memory (Cost DCSuccess DCFailure))
        (rs : List (OnlineResponse ℤ Memory (Cost DCSuccess DCFailure))),
      prepare (balancedService S) (alg S ε) 0 fuel p0 = some (.ok (⟨p0, 0⟩, resp)) ∧
      resp.xs.length = past.length ∧
      serve (balancedService S) (alg S ε) DataCenterModel.updateSBLO ⟨⟨p0, 0⟩, resp.xs, resp.m⟩
        (future.map fun l : ℤ => some [[[(l : ℚ)]]]) = rs.map .ok ∧
      rs.length = future.length ∧
      ∀ i r, rs[i]? = some r → r.intX = r.x ∧ r.intCost = r.cost ∧
        (∀ x ∈ resp.xs ++ (rs.take (i + 1)).map (·.x), InBox bounds x) ∧
        ∀ q, m.toSBLO (((past ++ future).take (past.length + i + 1)).map fun l : ℤ => [(l : ℚ)]) = .ok q →
          (q.toProb S).objective (resp.xs ++ (rs.take (i + 1)).map (·.x)) = .ok r.cost ∧ r.cost.cost ≠ ⊤ ∧
          ∀ ys : Schedule ℤ, ys.length = past.length + i + 1 → (∀ y ∈ ys, InBox bounds y) →
            ∃ c, (q.toProb S).objective ys = .ok c ∧ r.cost.cost ≤ ECost.mulQ (ratio) c.cost

/-- **C103** A service for a data center with `d` kinds of servers which decides by lazy budgeting for balanced load, started
with past loads and then sent one load per slot. Servers have convex costs, which are least if they are idle; idle servers of
some kind cost something; all servers together can carry every load; the loads are assigned optimally. Then every request
is answered, with the true cost of all decisions so far, and this cost is at most `2 d + 1 + ε` times the cost of any other
schedule for these slots. -/
theorem C103_balanced_service (S : Num.Solver) (hS : Exact S) (hS' : StaysFeasible S) (ε : ℚ) (hε : 0 < ε)
    (m : DataCenterModel) (past future : List ℤ) (p0 p : SBLO ℤ)
    (h0 : m.toSBLO (past.map fun l : ℤ => [(l : ℚ)]) = .ok p0)
    (hp : m.toSBLO ((past ++ future).map fun l : ℤ => [(l : ℚ)]) = .ok p)
    (hv : p.verify = .ok ()) (hl : ∀ l ∈ past ++ future, 0 ≤ l)
    (g : Int → Nat → ℚ → ECost) (idle : Int → Nat → ℚ)
    (hcost : ∀ (κ : Nat) f, p.hittingCost[κ]? = some f → ∀ t : Int, 1 ≤ t → t ≤ p.tEnd → ∀ z : ℚ, 0 ≤ z →
      ∃ o, f.callCertain t z = .ok ⟨g t κ z, o⟩)
    (hg : ∀ t κ, ServerCost (g t κ) (idle t κ)) (hidle : ∀ t, ∃ κ : Nat, (κ : Int) < p.d ∧ 0 < idle t κ)
    (hfin : ∀ t : Int, 1 ≤ t → t ≤ p.tEnd → ∀ c, p.hitCost S t p.bounds = .ok c → c.cost ≠ ⊤) :
    Spec.ServesWithin (2 * p.d + 1 + ε) S ε m p.bounds past future p0 := by
  set ls := past ++ future with hls
  set a := past.length with ha
  obtain ⟨ep, _⟩ := toSBLO_at hp ls
  have e0 : p0 = at' p a past := by
    have := (toSBLO_at hp past).2
    rw [h0] at this
    exact Except.ok.inj this
  have hN : ls.length = a + future.length := by simp [hls, ha]
  have hT : p.tEnd = (ls.length : Int) := congrArg SBLO.tEnd ep
  have hload : p.load = ls := congrArg SBLO.load ep
  have hvalid : ValidSBLO p := by
    by_contra hc
    have := (C10_sblo_verify_exact p).2 hc
    rw [hv] at this; simp at this
  obtain ⟨v1, v2, v3, v4, v5, v6, v7, v8⟩ := hvalid
  have hcosts : p.hittingCost.length = p.d.toNat := by
    obtain ⟨⟨loc, l1, _, _, l4, _⟩, hC, _⟩ := C75_balanced_partial m _ p hp
    have := hC.dims
    rw [l1] at this
    simp at this
    omega
  -- validity of all instances
  have hverify : ∀ (k : Nat) (kn : List ℤ), k ≤ kn.length → (∀ l ∈ kn, 0 ≤ l) → (at' p k kn).verify = .ok () := by
    intro k kn hk hkn
    refine (C10_sblo_verify_exact _).1 ⟨v1, by simp [at'], v3, v4, by simpa [at'] using hk, v6, v7, ?_⟩
    intro t _ l h
    exact hkn l (List.mem_of_getElem? h)
  have hknown : ∀ k, ∀ l ∈ LazyService.known past future k, 0 ≤ l := by
    intro k l h
    apply hl l
    rw [hls]
    simp only [LazyService.known, List.mem_append] at h ⊢
    exact h.imp_right fun h => List.mem_of_mem_take h
  -- costs
  have hacc : ∀ t : Int, 1 ≤ t → t ≤ ls.length → ∃ q, access ls t = some q ∧ 0 ≤ q := by
    intro t h1 h2
    have hlt : (t - 1).toNat < ls.length := by omega
    refine ⟨ls[(t - 1).toNat], ?_, hl _ (List.getElem_mem _)⟩
    unfold access
    rw [if_pos (by omega), List.getElem?_eq_getElem hlt]
  have hdef : ∀ t : Int, 1 ≤ t → t ≤ ls.length → ∀ x, InBox p.bounds x → ∃ c, p.hitCost S t x = .ok c := by
    intro t h1 h2 x hx
    obtain ⟨q, q1, q2⟩ := hacc t h1 h2
    exact hitCost_defined S hS hS' p (by omega) v3 (by omega) t h1 q (by rw [hload]; exact q1) q2 (g t)
      (fun κ f hf y hy => by
        obtain ⟨o, ho⟩ := hcost κ f hf t h1 (by omega) y hy
        exact ⟨o, callMean_of_certain f _ _ _ ho⟩) x hx
  set hit : Int → Config ℤ → ECost := fun t x => match p.hitCost S t x with
    | .ok c => c.cost
    | .error _ => ⊤ with hhit
  have hhit1 : ∀ t : Int, 1 ≤ t → t ≤ ls.length → ∀ x, InBox p.bounds x → ∃ o, p.hitCost S t x = .ok ⟨hit t x, o⟩ := by
    intro t h1 h2 x hx
    obtain ⟨c, hc⟩ := hdef t h1 h2 x hx
    refine ⟨c.output, ?_⟩
    rw [hhit]
    simp only [hc]
  have hhit2 : ∀ (t : Int) (k : Nat) (kn : List ℤ), 1 ≤ t → t ≤ ls.length → access kn t = access ls t → ∀ x,
      InBox p.bounds x → ∃ o, (at' p k kn).hitCost S t x = .ok ⟨hit t x, o⟩ := by
    intro t k kn h1 h2 h3 x hx
    obtain ⟨q, q1, q2⟩ := hacc t h1 h2
    obtain ⟨o, ho⟩ := hhit1 t h1 h2 x hx
    refine ⟨o, ?_⟩
    rw [← ho, hitCost_at S p k ls.length kn ls t h1 x hx q (h3.trans q1) q1, ← ep]
  -- the algorithm on the first `j` instances
  have hsl : (shown p past future).length = a + future.length := by simp [BalancedService.shown, ha]
  have hβ : p.switchingCost.length = p.d.toNat := by omega
  have hrun : ∀ j ≤ a + future.length, ∃ xs mem, play SBLO.tEnd (alg S ε) [] none
      (((shown p past future).take j).map fun p => ⟨p, 0⟩) = .ok (xs, mem) ∧
      xs.length = j ∧ (∀ x ∈ xs, InBox p.bounds x) ∧
      ∀ zs : Schedule ℤ, zs.length = j → (∀ z ∈ zs, InBox p.bounds z) →
        totalCost hit (upCost p.switchingCost) 1 1 (List.replicate p.d.toNat 0) xs ≤ ECost.mulQ (2 * p.d + 1 + ε)
          (totalCost hit (upCost p.switchingCost) 1 1 (List.replicate p.d.toNat 0) zs) := by
    intro j hj
    have hget : ∀ (k : Nat) q, ((shown p past future).take j)[k]? = some q → k < a + future.length ∧
        q = at' p (k + 1) (LazyService.known past future (k + 1)) := by
      intro k q hq
      rw [List.getElem?_take] at hq
      split at hq
      · exact shown_get hq
      · cases hq
    have hF : Farm p.d.toNat p.bounds p.switchingCost (fun k => g (k + 1)) ((shown p past future).take j) := by
      refine ⟨?_, ?_, ?_, ?_⟩
      · intro k q hq
        obtain ⟨_, rfl⟩ := hget k q hq
        simp [at']
      · intro q hq
        obtain ⟨k, hk⟩ := List.getElem?_of_mem hq
        obtain ⟨h1, rfl⟩ := hget k q hk
        exact hverify _ _ (LazyService.known_length (by omega)) (hknown _)
      · intro q hq
        obtain ⟨k, hk⟩ := List.getElem?_of_mem hq
        obtain ⟨h1, rfl⟩ := hget k q hk
        exact ⟨by simp [at']; omega, rfl, rfl, hcosts⟩
      · intro k q hq κ f hf z hz
        obtain ⟨h1, rfl⟩ := hget k q hq
        have : (at' p (k + 1) (LazyService.known past future (k + 1))).tEnd = (k : Int) + 1 := by simp [at']
        rw [this]
        exact hcost κ f hf _ (by omega) (by omega) z hz
    obtain ⟨xs, mem, x1, x2, x3, x4⟩ := C82_exact S hS hS' p.d.toNat p.bounds p.switchingCost ε hε _ _ hF
      (fun k => idle (k + 1)) (fun k κ => hg _ κ) (fun k => by
        obtain ⟨κ, h1, h2⟩ := hidle (k + 1)
        exact ⟨κ, by omega, h2⟩) (fun k x => hit (k + 1) x) (by
        intro k q hq x hx
        obtain ⟨h1, rfl⟩ := hget k q hq
        have : (at' p (k + 1) (LazyService.known past future (k + 1))).tEnd = (k : Int) + 1 := by simp [at']
        rw [this]
        refine hhit2 _ _ _ (by omega) (by omega) (access_known (by omega) (by omega)) x hx) (by
        intro k hk
        have hk' : (k : Int) + 1 ≤ ls.length := by
          rw [List.length_take, hsl] at hk
          omega
        have hbox : InBox p.bounds p.bounds := by
          unfold InBox
          rw [List.forall₂_iff_get]
          exact ⟨rfl, fun κ h1 h2 => ⟨(v6 _ (List.getElem_mem _)).le, le_refl _⟩⟩
        obtain ⟨o, ho⟩ := hhit1 (k + 1) (by omega) hk' _ hbox
        exact hfin (k + 1) (by omega) (by omega) _ ho)
    have hlen : ((shown p past future).take j).length = j := by rw [List.length_take, hsl]; omega
    rw [hlen] at x2
    refine ⟨xs, mem, x1, x2, x3, fun zs z1 z2 => ?_⟩
    have key := x4 zs (by rw [hlen]; exact z1) z2
    have ehit : ∀ (zs : Schedule ℤ) (t : Int) (prev : Config ℤ), 1 ≤ t →
        totalCost (fun t x => hit (((t - 1).toNat : Nat) + 1) x) (upCost p.switchingCost) 1 t prev zs =
        totalCost hit (upCost p.switchingCost) 1 t prev zs := by
      intro zs
      induction zs with
      | nil => intro t prev _; rfl
      | cons z zs ih =>
        intro t prev ht
        rw [totalCost, totalCost, ih _ _ (by omega), show (((t - 1).toNat : Nat) : Int) + 1 = t by omega]
    unfold farmCost at key
    rw [ehit _ _ _ (le_refl _), ehit _ _ _ (le_refl _), hβ] at key
    have hd : ((p.d.toNat : Nat) : ℚ) = (p.d : ℚ) := by
      have : ((p.d.toNat : Nat) : Int) = p.d := by omega
      exact_mod_cast congrArg (Int.cast : ℤ → ℚ) this
    rw [hd] at key
    exact key
  -- objectives
  have hobj : ∀ (k : Nat) (kn : List ℤ), k ≤ ls.length → (∀ t : Int, 1 ≤ t → t ≤ k → access kn t = access ls t) →
      ∀ ys : Schedule ℤ, ys.length = k → (∀ y ∈ ys, InBox p.bounds y) →
      ∃ out, ((at' p k kn).toProb S).objective ys =
        .ok ⟨totalCost hit (upCost p.switchingCost) 1 1 (List.replicate p.d.toNat 0) ys, out⟩ := by
    intro k kn hk hkn ys y1 y2
    exact Offline.objective_simplified ((at' p k kn).toProb S) p.switchingCost (fun _ _ _ => rfl)
      (by simp only [SBLO.toProb, at']; omega) 1 hit (InBox p.bounds)
      (fun x hx => by have := List.Forall₂.length_eq hx; simp only [SBLO.toProb, at']; omega)
      (fun t h1 h2 x hx => hhit2 t k kn h1 (by simp only [SBLO.toProb, at'] at h2; omega)
        (hkn t h1 (by simpa only [SBLO.toProb, at'] using h2)) x hx) ys
      (by simp only [SBLO.toProb, at']; omega) y2
  obtain ⟨xs, mem, x1, x2, x3, _⟩ := hrun (a + future.length) le_rfl
  rw [List.take_of_length_le (by omega), play_iff_run] at x1
  have xtake : ∀ j ≤ a + future.length, ∀ zs : Schedule ℤ, zs.length = j → (∀ z ∈ zs, InBox p.bounds z) →
        totalCost hit (upCost p.switchingCost) 1 1 (List.replicate p.d.toNat 0) (xs.take j) ≤
          ECost.mulQ (2 * p.d + 1 + ε) (totalCost hit (upCost p.switchingCost) 1 1 (List.replicate p.d.toNat 0) zs) := by
    intro j hj
    obtain ⟨ys, mem', y1, y2, y3, y4⟩ := hrun j hj
    rw [play_iff_run] at y1
    have r := x1
    rw [← List.take_append_drop j (shown p past future), List.map_append] at r
    obtain ⟨us, m1, r1, r2⟩ := Spec.Run.split.1 r
    obtain ⟨rfl, -⟩ := r1.det y1
    obtain ⟨z, e, _⟩ := r2.prefix
    have : xs.take j = us := by rw [e, ← y2, List.take_left']; rfl
    rw [this]
    exact y4
  have xin : ∀ k, ∀ x ∈ xs.take k, InBox p.bounds x := fun k x hx => x3 x (List.mem_of_mem_take hx)
  have hfs : ∀ i q, ((List.range future.length).map fun i => at' p (a + i + 1) (past ++ future.take (i + 1)))[i]? = some q →
      i < future.length ∧ q = at' p (a + i + 1) (past ++ future.take (i + 1)) := by
    intro i q hq
    rw [List.getElem?_map, Option.map_eq_some_iff] at hq
    obtain ⟨k, h1, h2⟩ := hq
    obtain ⟨h3, h4⟩ := List.getElem?_eq_some_iff.1 h1
    simp at h3 h4
    subst h4
    exact ⟨h3, h2.symm⟩
  have htk : ∀ i, i < future.length → past ++ future.take (i + 1) = ls.take (a + i + 1) := by
    intro i hi
    rw [hls, List.take_append, List.take_of_length_le (show past.length ≤ a + i + 1 by omega), show a + i + 1 - past.length = i + 1 by omega]
  have hacck : ∀ k : Nat, ∀ t : Int, 1 ≤ t → t ≤ k → access (ls.take k) t = access ls t := by
    intro k t h1 h2
    rw [access_get _ _ h1, access_get _ _ h1, List.getElem?_take, if_pos (by omega)]
  have hobjx : ∀ i, i < future.length → ∃ out, ((at' p (a + i + 1) (past ++ future.take (i + 1))).toProb S).objective
      (xs.take (a + i + 1)) = .ok ⟨totalCost hit (upCost p.switchingCost) 1 1 (List.replicate p.d.toNat 0)
        (xs.take (a + i + 1)), out⟩ := by
    intro i hi
    rw [htk i hi]
    exact hobj (a + i + 1) _ (by omega) (hacck _) _ (by rw [List.length_take]; omega) (xin _)
  have hlast : ∀ i, i < future.length → ∃ x, (xs.take (a + i + 1)).getLast? = some x ∧ xs[a + i]? = some x := by
    intro i hi
    rw [List.getLast?_take, if_neg (by omega), Nat.add_sub_cancel, List.getElem?_eq_getElem (by omega)]
    exact ⟨_, rfl, rfl⟩
  have hver : ∀ k : Nat, k ≤ a → (balancedService S).verify ⟨(balancedService S).setTEnd p0 k, 0⟩ = .ok () := by
    intro k hk
    have h1 := hverify k past hk (fun l h => hl l (by simp [hls, h]))
    have h2 : (balancedService S).setTEnd p0 k = at' p k past := by rw [e0]; rfl
    rw [h2]
    simp [balancedService, Online.verify, assertValidity, assertR, bind, Except.bind, h1]
  obtain ⟨fuel, resp, rs, r1, r2, r3, r4, r5, r6⟩ := Service.follows (balancedService S) (alg S ε)
    DataCenterModel.updateSBLO p0 a (fun _ => rfl) (fun _ _ => rfl) (by rw [e0]; rfl) hver
    (future.map fun l : ℤ => [[[(l : ℚ)]]])
    ((List.range future.length).map fun i => at' p (a + i + 1) (past ++ future.take (i + 1)))
    (by
      have := updates p past future
      rw [← ha, ← e0] at this
      rw [List.map_map]
      exact this) xs mem (by
      have h := x1
      rw [shown_split S, ← ha, ← e0] at h
      exact h) (by
      obtain ⟨out, ho⟩ := hobj a past (by omega) (fun t h1 h2 => by
        unfold access
        rw [if_pos (by omega), if_pos (by omega), hls, List.getElem?_append_left (by omega)]) (xs.take a)
        (by rw [List.length_take]; omega) (xin _)
      rw [← e0] at ho
      exact ⟨_, _, ho, ho⟩) (by
      intro i q hq
      obtain ⟨hi, rfl⟩ := hfs i q hq
      obtain ⟨out, ho⟩ := hobjx i hi
      obtain ⟨x, hx, _⟩ := hlast i hi
      exact ⟨_, _, _, ho, ho, hx⟩)
  refine ⟨fuel, resp, rs, r1, r5, ?_, by simpa using r3, ?_⟩
  · rw [List.map_map] at r2
    exact r2
  intro i r hr
  obtain ⟨q, hq, c1, c2, c3⟩ := r6 i r hr
  obtain ⟨hi, rfl⟩ := hfs i q hq
  obtain ⟨out, ho⟩ := hobjx i hi
  obtain ⟨x, hx1, hx2⟩ := hlast i hi
  have ebase : resp.xs ++ (rs.take (i + 1)).map (·.x) = xs.take (a + i + 1) := by
    rw [r4, List.take_append, List.take_of_length_le (show resp.xs.length ≤ a + i + 1 by omega), r5, show a + i + 1 - a = i + 1 by omega, List.map_take]
  have e1 : (balancedService S).objective (at' p (a + i + 1) (past ++ future.take (i + 1))) (xs.take (a + i + 1)) =
    .ok ⟨_, out⟩ := ho
  rw [e1] at c1
  have e2 : (balancedService S).toI (xs.take (a + i + 1)) = xs.take (a + i + 1) := rfl
  rw [e2] at c2 c3
  rw [e1] at c2
  have c1' := Except.ok.inj c1
  have c2' := Except.ok.inj c2
  refine ⟨?_, c2'.symm.trans c1', by rw [ebase]; exact xin _, ?_⟩
  · have h1 : xs[a + i]? = some r.x := by
      rw [r4, List.getElem?_append_right (by omega), r5, Nat.add_sub_cancel_left, List.getElem?_map, hr]
      rfl
    rw [hx1] at c3
    rw [hx2] at h1
    rw [← Option.some.inj c3, ← Option.some.inj h1]
  intro q hq
  have eq' : q = at' p (a + i + 1) (ls.take (a + i + 1)) := by
    have := (toSBLO_at hp (ls.take (a + i + 1))).2
    rw [hq] at this
    have := Except.ok.inj this
    rw [this, List.length_take, show min (a + i + 1) ls.length = a + i + 1 by omega]
  have hrc : r.cost.cost = totalCost hit (upCost p.switchingCost) 1 1 (List.replicate p.d.toNat 0)
      (xs.take (a + i + 1)) := by rw [← c1']
  rw [eq', ebase]
  refine ⟨?_, ?_, ?_⟩
  · rw [← htk i hi, ho, ← c1']
  · have hb : InBox p.bounds p.bounds := by
      unfold InBox
      rw [List.forall₂_iff_get]
      exact ⟨rfl, fun κ h1 h2 => ⟨(v6 _ (List.getElem_mem _)).le, le_refl _⟩⟩
    have := xtake (a + i + 1) (by omega) (List.replicate (a + i + 1) p.bounds) (by simp)
      (fun z hz => by rw [(List.mem_replicate.1 hz).2]; exact hb)
    have hne : totalCost hit (upCost p.switchingCost) 1 1 (List.replicate p.d.toNat 0)
        (List.replicate (a + i + 1) p.bounds) ≠ ⊤ := by
      apply BalancedService.totalCost_ne_top
      intro k x hk
      obtain ⟨h1, h2⟩ := List.getElem?_eq_some_iff.1 hk
      simp at h1 h2
      subst h2
      obtain ⟨o, ho⟩ := hhit1 (1 + k) (by omega) (by omega) _ hb
      exact hfin (1 + k) (by omega) (by omega) _ ho
    rw [hrc]
    intro htop
    rw [htop, top_le_iff] at this
    cases hc : totalCost hit (upCost p.switchingCost) 1 1 (List.replicate p.d.toNat 0)
        (List.replicate (a + i + 1) p.bounds) using WithTop.recTopCoe with
    | top => exact hne hc
    | coe b => rw [hc] at this; exact absurd this WithTop.coe_ne_top
  · intro ys y1 y2
    obtain ⟨out', ho'⟩ := hobj (a + i + 1) (ls.take (a + i + 1)) (by omega) (hacck _) ys y1 y2
    refine ⟨_, ho', ?_⟩
    rw [hrc]
    exact xtake (a + i + 1) (by omega) ys y1 y2

namespace BalancedService

/-- Splitting the load in whole percents is possible. -/
theorem percents {d : Nat} (hd : 1 ≤ d) (w : Nat → ℕ) (hw : ((List.range d).map w).sum = 100) {l : ℚ} (hl : 0 ≤ l) :
    ∃ zs : List ℚ, InBoxQ (List.replicate (d * 1 - 1) ((0 : ℚ), (1 : ℚ))) zs ∧ (∀ j ∈ zs, OnGrid j) ∧
      Meets (restNonneg d l) zs ∧
      ∀ k < d, l * (⟨zs, d, 1⟩ : LoadFractions).fr [l] k 0 = l * w k / 100 := by
  obtain ⟨n, rfl⟩ : ∃ n, d = n + 1 := ⟨d - 1, by omega⟩
  set zs : List ℚ := (List.range n).map fun k => (w k : ℚ) / 100 with hzs
  have hlen : zs.length = n := by simp [hzs]
  have hget : ∀ k < n, zs.getD k 0 = (w k : ℚ) / 100 := by
    intro k hk
    simp [hzs, List.getD, List.getElem?_range hk]
  have hsum : ∀ j ≤ n, ((List.range j).map fun k => zs.getD (k * 1) 0).sum = (((List.range j).map w).sum : ℕ) / 100 := by
    intro j
    induction j with
    | zero => intro _; simp
    | succ j ih =>
      intro hj
      rw [List.range_succ, List.map_append, List.map_append, List.sum_append, List.sum_append, ih (by omega)]
      simp only [List.map_cons, List.map_nil, List.sum_cons, List.sum_nil, add_zero, Nat.mul_one]
      rw [hget j (by omega)]
      push_cast
      ring
  have hw' : ((List.range n).map w).sum + w n = 100 := by
    rw [List.range_succ, List.map_append, List.sum_append] at hw
    simpa using hw
  have hgrid : ∀ j ∈ zs, OnGrid j := by
    intro j hj
    obtain ⟨k, _, rfl⟩ := List.mem_map.1 hj
    exact ⟨w k, by push_cast; ring⟩
  have hle : ∀ k < n, w k ≤ 100 := by
    intro k hk
    have : w k ≤ ((List.range n).map w).sum :=
      List.single_le_sum (by intro x _; exact Nat.zero_le x) _ (List.mem_map.2 ⟨k, List.mem_range.2 hk, rfl⟩)
    omega
  have hfr : ∀ k < n + 1, l * (⟨zs, n + 1, 1⟩ : LoadFractions).fr [l] k 0 = l * w k / 100 := by
    intro k hk
    unfold LoadFractions.fr
    by_cases h : k < n
    · have h' : k < (⟨zs, n + 1, 1⟩ : LoadFractions).d - 1 := by simpa using h
      rw [if_pos h']
      simp only [Nat.mul_one, Nat.add_zero]
      rw [hget k h]
      ring
    · have h' : ¬ k < (⟨zs, n + 1, 1⟩ : LoadFractions).d - 1 := by simpa using h
      have hkn : k = n := by omega
      subst hkn
      rw [if_neg h']
      simp only [List.sum_cons, List.sum_nil, add_zero]
      rw [hsum k le_rfl]
      rcases hl.lt_or_eq with h0 | h0
      · rw [if_pos h0]
        have : ((((List.range k).map w).sum : ℕ) : ℚ) + w k = 100 := by exact_mod_cast hw'
        simp only [List.getD_cons_zero]
        rw [div_self h0.ne']
        have e : ((((List.range k).map w).sum : ℕ) : ℚ) = 100 - w k := by linarith
        rw [e]
        ring
      · rw [← h0]; simp
  refine ⟨zs, ?_, hgrid, ?_, hfr⟩
  · unfold InBoxQ
    rw [List.forall₂_iff_get]
    refine ⟨by simp [hlen], ?_⟩
    intro i h1 h2
    have hi : i < n := by rw [← hlen]; exact h2
    simp only [List.get_eq_getElem, List.getElem_replicate, hzs, List.getElem_map, List.getElem_range]
    have : (w i : ℚ) ≤ 100 := by exact_mod_cast hle i hi
    constructor
    · positivity
    · linarith
  · intro cst hcst
    simp only [restNonneg, List.mem_map, List.mem_range] at hcst
    obtain ⟨i, hi, rfl⟩ := hcst
    have : i = 0 := by omega
    subst this
    have hnew : LoadFractions.new zs (n + 1) 1 = ⟨zs, n + 1, 1⟩ := by
      unfold LoadFractions.new
      rw [Soco.applyPrecisionVec_grid hgrid]
    simp only [hnew]
    rw [LoadFractions.get_eq ⟨zs, n + 1, 1⟩ [l] (by simp [hlen]) rfl (n + 1 - 1) 0 (by simp) Nat.zero_lt_one]
    refine ⟨_, rfl, ?_⟩
    have h0 : 0 ≤ (⟨zs, n + 1, 1⟩ : LoadFractions).fr [l] n 0 := by
      rcases hl.lt_or_eq with h0 | h0
      · have := hfr n (by omega)
        rw [mul_div_assoc] at this
        rw [mul_left_cancel₀ h0.ne' this]
        positivity
      · unfold LoadFractions.fr
        rw [if_neg (by simp), ← h0]
        simp
    have : (((-(⟨zs, n + 1, 1⟩ : LoadFractions).fr [l] n 0 : ℚ) : WithTop ℚ) : Num.Slack) ≤ ((0 : ℚ) : WithTop ℚ) := by
      rw [WithBot.coe_le_coe, WithTop.coe_le_coe]
      linarith
    exact this

theorem park_server {price : ℚ} (hp : 0 < price) {limit : ℚ} (hlim : 0 ≤ limit) {power : ℚ → ℚ} (h0 : 0 ≤ power 0)
    (hleast : ∀ z, 0 ≤ z → power 0 ≤ power z)
    (hconv : ∀ a b θ, 0 ≤ a → 0 ≤ b → 0 ≤ θ → θ ≤ 1 → power (θ * a + (1 - θ) * b) ≤ θ * power a + (1 - θ) * power b) :
    ServerCost (fun z => if z ≤ limit then ((price * power z : ℚ) : ECost) else ⊤) (price * power 0) := by
  refine ⟨if_pos hlim, mul_nonneg hp.le h0, ?_, ?_⟩
  · intro z hz
    show _ ≤ if z ≤ limit then ((price * power z : ℚ) : ECost) else ⊤
    split
    · rw [WithTop.coe_le_coe]
      exact mul_le_mul_of_nonneg_left (hleast z hz) hp.le
    · exact le_top
  · intro a b θ u v ha hb h1 h2 hu hv
    split at hu
    · split at hv
      · rename_i ha' hb'
        have hu := WithTop.coe_injective hu
        have hv := WithTop.coe_injective hv
        have : θ * a + (1 - θ) * b ≤ limit := by nlinarith
        rw [if_pos this, WithTop.coe_le_coe, ← hu, ← hv]
        have := mul_le_mul_of_nonneg_left (hconv a b θ ha hb h1 h2) hp.le
        linarith
      · exact absurd hv WithTop.top_ne_coe
    · exact absurd hu WithTop.top_ne_coe
end BalancedService

/-- **C103** The same in terms of the data center. There is one location where energy has a positive price. The energy a server
consumes is convex in its utilisation, and least if the server is idle; idle servers of some kind consume energy. Every load can be
split in whole percents among the kinds of servers such that none is utilised beyond its limit. -/
theorem C103_park (S : Num.Solver) (hS : Exact S) (hS' : StaysFeasible S) (ε : ℚ) (hε : 0 < ε)
    (m : DataCenterModel) (past future : List ℤ) (p0 p : SBLO ℤ)
    (h0 : m.toSBLO (past.map fun l : ℤ => [(l : ℚ)]) = .ok p0)
    (hp : m.toSBLO ((past ++ future).map fun l : ℤ => [(l : ℚ)]) = .ok p)
    (hv : p.verify = .ok ()) (hl : ∀ l ∈ past ++ future, 0 ≤ l)
    (loc : Location) (hloc : m.locations = [loc]) (prices : String → Option (Int → ℚ)) (price : Int → ℚ)
    (he : m.energyModel = .linear prices) (hprice : prices loc.key = some price) (hpos : ∀ t, 0 < price t)
    (power : Nat → ℚ → ℚ) (hpower : ∀ (κ : Nat) st, m.serverTypes[κ]? = some st → 0 ≤ st.maxUtilization ∧
      ∀ z, 0 ≤ z → z ≤ st.maxUtilization → m.consumptionModel.consumption m.delta st z = .ok (power κ z))
    (hidle : ∀ κ, 0 ≤ power κ 0) (hleast : ∀ κ z, 0 ≤ z → power κ 0 ≤ power κ z)
    (hconv : ∀ κ a b θ, 0 ≤ a → 0 ≤ b → 0 ≤ θ → θ ≤ 1 →
      power κ (θ * a + (1 - θ) * b) ≤ θ * power κ a + (1 - θ) * power κ b)
    (hsome : ∃ κ < m.serverTypes.length, 0 < power κ 0)
    (hfits : ∀ l ∈ past ++ future, ∃ w : Nat → ℕ, ((List.range m.serverTypes.length).map w).sum = 100 ∧
      ∀ (κ : Nat) st b, m.serverTypes[κ]? = some st → p.bounds[κ]? = some b → (l : ℚ) * w κ / 100 ≤ b * st.maxUtilization) :
    Spec.ServesWithin (2 * m.serverTypes.length + 1 + ε) S ε m p.bounds past future p0 := by
  obtain ⟨⟨loc', l1, _, _, l4, l5⟩, hC, _⟩ := C75_balanced_partial m _ p hp
  have hd : p.d = (m.serverTypes.length : Int) := by
    have := hC.dims
    rw [hloc] at this
    simpa using this
  have hvalid : ValidSBLO p := by
    by_contra hc
    have := (C10_sblo_verify_exact p).2 hc
    rw [hv] at this; simp at this
  obtain ⟨v1, v2, v3, v4, v5, v6, v7, v8⟩ := hvalid
  obtain ⟨ep, _⟩ := toSBLO_at hp []
  have hT : p.tEnd = ((past ++ future).length : Int) := congrArg SBLO.tEnd ep
  have hload : p.load = past ++ future := congrArg SBLO.load ep
  have hll : loc' = loc := by
    rw [hloc] at l1
    exact (List.cons.inj l1).1.symm
  subst hll
  set limit : Nat → ℚ := fun κ => match m.serverTypes[κ]? with
    | some st => st.maxUtilization
    | none => 0 with hlimit
  have hlim : ∀ (κ : Nat) st, m.serverTypes[κ]? = some st → limit κ = st.maxUtilization := by
    intro κ st hst
    rw [hlimit]
    simp only [hst]
  have hlim0 : ∀ κ, 0 ≤ limit κ := by
    intro κ
    cases h : m.serverTypes[κ]? with
    | none => rw [hlimit]; simp only [h]; exact le_refl 0
    | some st => rw [hlim κ st h]; exact (hpower κ st h).1
  set g : Int → Nat → ℚ → ECost := fun t κ z => if z ≤ limit κ then ((price t * power κ z : ℚ) : ECost) else ⊤ with hg
  have hcost : ∀ (κ : Nat) f, p.hittingCost[κ]? = some f → ∀ t : Int, 1 ≤ t → t ≤ p.tEnd → ∀ z : ℚ, 0 ≤ z →
      ∃ o, f.callCertain t z = .ok ⟨g t κ z, o⟩ := by
    intro κ f hf t h1 _ z hz
    have hκ : κ < m.serverTypes.length := by
      rw [← l4]
      exact (List.getElem?_eq_some_iff.1 hf).1
    obtain ⟨st, hst⟩ : ∃ st, m.serverTypes[κ]? = some st := ⟨_, List.getElem?_eq_getElem hκ⟩
    have e := l5 κ st hst
    rw [hf] at e
    cases e
    refine ⟨(Cost.raw (0 : ECost) : Cost Unit DCFailure).output, ?_⟩
    unfold DataCenterModel.serverCost
    rw [CostFn.callCertain_certain _ t h1, hg]
    unfold ServerType.limitUtilization
    simp only [hlim κ st hst]
    split
    · rename_i hle
      simp only [(hpower κ st hst).2 z hz hle, he, EnergyModel.cost, lookup, hprice, bind, Except.bind]
      rfl
    · simp only [he, EnergyModel.cost, lookup, hprice, bind, Except.bind]
      rfl
  have hgs : ∀ t κ, ServerCost (g t κ) (price t * power κ 0) := fun t κ =>
    park_server (hpos t) (hlim0 κ) (hidle κ) (hleast κ) (hconv κ)
  have main := C103_balanced_service S hS hS' ε hε m past future p0 p h0 hp hv hl g (fun t κ => price t * power κ 0) hcost hgs
    (fun t => by
      obtain ⟨κ, h1, h2⟩ := hsome
      exact ⟨κ, by omega, mul_pos (hpos t) h2⟩) ?_
  · rw [hd] at main
    exact_mod_cast main
  · intro t h1 h2 c hc
    have hlt : (t - 1).toNat < (past ++ future).length := by omega
    obtain ⟨w, w1, w2⟩ := hfits _ (List.getElem_mem hlt)
    have hacc : access p.load t = some (past ++ future)[(t - 1).toNat] := by
      rw [hload, access_get _ _ h1, List.getElem?_eq_getElem hlt]
    have hpos' := hl _ (List.getElem_mem hlt)
    generalize (past ++ future)[(t - 1).toNat] = l at w2 hacc hpos'
    have hlq : (0 : ℚ) ≤ l := by exact_mod_cast hpos'
    have hb : InBox p.bounds p.bounds := by
      unfold InBox
      rw [List.forall₂_iff_get]
      exact ⟨rfl, fun κ h1 h2 => ⟨(v6 _ (List.getElem_mem _)).le, le_refl _⟩⟩
    have hdn : p.d.toNat = m.serverTypes.length := by omega
    obtain ⟨zs, z1, z2, z3, z4⟩ := percents (d := p.d.toNat) (by omega) w (by rw [hdn]; exact w1) hlq
    have key := (hitCost_shared hS p (by omega) t h1 v3 (by omega) l hacc hpos' (g t) (fun κ f hf y hy => by
      obtain ⟨o, ho⟩ := hcost κ f hf t h1 h2 y hy
      exact ⟨o, callMean_of_certain f _ _ _ ho⟩) p.bounds hb c hc).2 zs z1 z2 z3
    refine ne_top_of_le_ne_top ?_ key
    unfold shared
    have gen : ∀ ks : List Nat, (∀ k ∈ ks, k < p.d.toNat) → (ks.map fun k =>
        serversCost (g t k) (l * (⟨zs, p.d.toNat, 1⟩ : LoadFractions).fr [(l : ℚ)] k 0) (p.bounds.getD k 0)).sum ≠ ⊤ := by
      intro ks
      induction ks with
      | nil => intro _; exact WithTop.zero_ne_top
      | cons k ks ih =>
        intro hks
        rw [List.map_cons, List.sum_cons, WithTop.add_ne_top]
        refine ⟨?_, ih fun k hk => hks k (by simp [hk])⟩
        have hk := hks k (by simp)
        rw [z4 k hk]
        have hkb : k < p.bounds.length := by omega
        rw [List.getD_eq_getElem _ _ hkb]
        have hb0 := v6 _ (List.getElem_mem hkb)
        obtain ⟨st, hst⟩ : ∃ st, m.serverTypes[k]? = some st := ⟨_, List.getElem?_eq_getElem (by omega)⟩
        have hle := w2 k st _ hst (List.getElem?_eq_getElem hkb)
        generalize p.bounds[k] = b at hb0 hle
        have hbq : (0 : ℚ) < b := by exact_mod_cast hb0
        unfold serversCost
        rw [if_neg hb0.ne', hg]
        simp only
        rw [if_pos (by rw [hlim k st hst, div_le_iff₀ hbq]; linarith)]
        exact WithTop.coe_ne_top
    exact gen _ fun k hk => List.mem_range.1 hk

/-! ## Example -/

/-- Three small and two large servers; energy gets more expensive in the course of time. -/
def Ex.park : DataCenterModel where
  delta := 1
  locations := [⟨"here", fun k => some (if k = "small" then 3 else 2)⟩]
  serverTypes := [⟨"small", 1⟩, ⟨"large", 2⟩]
  sources := [⟨"", fun _ _ => .ok 0⟩]
  jobTypes := [⟨"i", fun _ => .ok 1⟩]
  consumptionModel := .linear fun k => some (if k = "small" then ⟨1, 3⟩ else ⟨2, 3⟩)
  energyModel := .linear fun _ => some fun t => |(t : ℚ)| + 1
  lossModel := fun _ => some ⟨0, 0⟩
  switchingModel := fun k => some ⟨1, 1, 2, if k = "small" then 4 else 6, 1, 0, 0⟩

/-- Energy a server consumes. -/
def Ex.parkPower (κ : Nat) (z : ℚ) : ℚ := if κ = 0 then 1 * ((3 - 1) * z + 1) else 1 * ((3 - 2) * z + 2)

/-- A service started with the loads 2 and 0, then sent the loads 3, 1 and 5: the cost stays within six times the optimum. -/
example : ∃ (S : Num.Solver) (p0 : SBLO ℤ), Ex.park.toSBLO ([2, 0].map fun l : ℤ => [(l : ℚ)]) = .ok p0 ∧
    Spec.ServesWithin 6 S 1 Ex.park [3, 2] [2, 0] [3, 1, 5] p0 := by
  obtain ⟨S, hS, hS'⟩ := exists_exact_feasible
  obtain ⟨p, hp, hb, hv⟩ : ∃ p : SBLO ℤ, Ex.park.toSBLO (([2, 0] ++ [3, 1, 5]).map fun l : ℤ => [(l : ℚ)]) = .ok p ∧
      p.bounds = [3, 2] ∧ p.verify = .ok () := ⟨_, rfl, by decide +kernel, by decide +kernel⟩
  have h0 := (toSBLO_at hp [2, 0]).2
  refine ⟨S, _, h0, ?_⟩
  have := C103_park S hS hS' 1 (by norm_num) Ex.park [2, 0] [3, 1, 5] _ p h0 hp hv (by decide) _ rfl _ _ rfl rfl
    (fun t => by positivity) Ex.parkPower (by
      intro κ st hst
      match κ, hst with
      | 0, hst => cases hst; exact ⟨by decide +kernel, fun z _ _ => rfl⟩
      | 1, hst => cases hst; exact ⟨by decide +kernel, fun z _ _ => rfl⟩
      | κ + 2, hst => simp [Ex.park] at hst)
    (by intro κ; unfold Ex.parkPower; split <;> norm_num)
    (by intro κ z hz; unfold Ex.parkPower; split <;> linarith)
    (by intro κ a b θ _ _ _ _; unfold Ex.parkPower; split <;> linarith)
    ⟨0, by decide +kernel, by decide +kernel⟩ (by
      intro l hl
      refine ⟨fun κ => if κ = 0 then 40 else 60, by decide +kernel, ?_⟩
      have hl5 : (l : ℚ) ≤ 5 := by
        have : ∀ l ∈ ([2, 0] ++ [3, 1, 5] : List ℤ), l ≤ 5 := by decide
        exact_mod_cast this l hl
      intro κ st b hst hbk
      rw [hb] at hbk
      match κ, hst, hbk with
      | 0, hst, hbk => cases hst; cases hbk; norm_num; linarith
      | 1, hst, hbk => cases hst; cases hbk; norm_num; linarith
      | κ + 2, hst, hbk => simp [Ex.park] at hst)
  rw [hb] at this
  have e : (2 * ((Ex.park.serverTypes.length : Nat) : ℚ) + 1 + 1) = 6 := by
    simp [Ex.park]; norm_num
  rw [e] at this
  exact this

end Soco
