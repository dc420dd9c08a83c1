import Verif.Props.UniGraph

/-!
# C16, C17: uni-dimensional graph search without assumptions on the costs at the bound
-/

namespace Soco
open Uni Prox

variable {C D : Type} [OutSuccess C] [OutFailure D]

namespace Uni
variable {q : SSCO ℤ C D} {inverted : Bool} {M : ℤ} {g : Int → ℤ → ECost} {mv : ℤ → ℤ → ℚ} {alpha : ℚ}
  {xStart : ℤ}

/-- A result: either nothing was found, or a sequence with its cost. -/
def Found (T : Int) (M : ℤ) (g : Int → ℤ → ECost) (mv : ℤ → ℤ → ℚ) (alpha : ℚ) (xStart : ℤ) (P : Path) :
    Prop :=
  (P.cost = ⊤ ∧ P.xs = []) ∨ ∃ js : List ℤ, (js.length : Int) = T ∧ (∀ j ∈ js, 0 ≤ j ∧ j ≤ M) ∧
    P.xs = js.map (fun j => [j]) ∧ P.cost = Spec.totalCost g mv alpha 1 xStart js

theorem found_of_rows {rows : Int → Res (List ℤ)} {R : Int → List ℤ}
    (hhit : ∀ t : Int, 1 ≤ t → t ≤ q.tEnd → ∀ j, 0 ≤ j → j ≤ M →
      ∃ out, q.toProb.hitCost t [j] = .ok ⟨g t j, out⟩)
    (hmov : ∀ i j, q.toProb.movement [i] [j] inverted = .ok (mv i j)) (hT : 0 ≤ q.tEnd)
    (hrows : ∀ t : Int, 1 ≤ t → t ≤ q.tEnd → rows t = .ok (R t))
    (hne : ∀ t : Int, 1 ≤ t → t ≤ q.tEnd → R t ≠ [])
    (hR : ∀ t : Int, 1 ≤ t → t ≤ q.tEnd → ∀ j ∈ R t, 0 ≤ j ∧ j ≤ M) {P : Path}
    (hP : findSchedule q rows alpha inverted xStart = .ok P) : Found q.tEnd M g mv alpha xStart P := by
  obtain ⟨P', h1, h2, _⟩ := findSchedule_ok (rows := rows) (alpha := alpha) (xStart := xStart)
    (R := R) (g := g) (mv := mv) ⟨fun t h1 h2 j hj => hhit t h1 h2 j (hR t h1 h2 j hj).1 (hR t h1 h2 j hj).2,
      hmov⟩ hT hrows hne
  rw [hP] at h1; cases h1
  rcases h2 with h | ⟨js, j1, j2, j3, j4, _⟩
  · exact .inl h
  · refine .inr ⟨js, j1, fun j hj => ?_, j3, j4⟩
    obtain ⟨i, hi, rfl⟩ := List.getElem_of_mem hj
    exact hR _ (by omega) (by omega) _ (j2 i hi)

theorem findSchedule_panic {rows : Int → Res (List ℤ)} (hT : 1 ≤ q.tEnd) (hr : rows 1 = .error .panic) :
    findSchedule q rows alpha inverted xStart = .error .panic := by
  obtain ⟨n, hn⟩ : ∃ n : Nat, q.tEnd = ((n + 1 : Nat) : Int) := ⟨(q.tEnd - 1).toNat, by omega⟩
  simp only [findSchedule, hn]
  rw [timeRange_one, List.range_succ_eq_map, List.map_cons, Multi.foldlM_cons']
  simp [slot, hr, bind, Except.bind]

theorem found_step
    (hhit : ∀ t : Int, 1 ≤ t → t ≤ q.tEnd → ∀ j, 0 ≤ j → j ≤ M →
      ∃ out, q.toProb.hitCost t [j] = .ok ⟨g t j, out⟩)
    (hmov : ∀ i j, q.toProb.movement [i] [j] inverted = .ok (mv i j)) (hT : 0 ≤ q.tEnd) {P P' : Path}
    (hF : Found q.tEnd M g mv alpha xStart P) {k : Nat}
    (hP : findSchedule q (nextRows M P.xs k) alpha inverted xStart = .ok P') :
    Found q.tEnd M g mv alpha xStart P' := by
  rcases hF with ⟨_, hx⟩ | ⟨js, j1, j2, j3, _⟩
  · rcases le_or_gt 1 q.tEnd with h | h
    · rw [findSchedule_panic h (by rw [hx]; rfl)] at hP
      cases hP
    · exact found_of_rows (R := fun _ => []) hhit hmov hT (fun t h1 h2 => by omega)
        (fun t h1 h2 => by omega) (fun t h1 h2 => by omega) hP
  · rw [j3] at hP
    refine found_of_rows (R := windowRows M js (2 ^ k)) hhit hmov hT
      (fun t h1 h2 => nextRows_eq h1 (by omega)) ?_
      (fun t h1 h2 j hj => (mem_windowRows.1 hj).2) hP
    intro t h1 h2
    have hlt : t.toNat - 1 < js.length := by omega
    have hm := List.getElem_mem hlt
    refine List.ne_nil_of_mem (a := js[t.toNat - 1]) (mem_windowRows.2
      ⟨⟨0, by omega, by omega, ?_⟩, j2 _ hm⟩)
    rw [List.getD, List.getElem?_eq_getElem hlt]; simp

theorem found_loop
    (hhit : ∀ t : Int, 1 ≤ t → t ≤ q.tEnd → ∀ j, 0 ≤ j → j ≤ M →
      ∃ out, q.toProb.hitCost t [j] = .ok ⟨g t j, out⟩)
    (hmov : ∀ i j, q.toProb.movement [i] [j] inverted = .ok (mv i j)) (hT : 0 ≤ q.tEnd) :
    ∀ (ks : List Nat) (P P' : Path), Found q.tEnd M g mv alpha xStart P →
      ks.foldlM (fun path k => findSchedule q (nextRows M path.xs k) alpha inverted xStart) P = .ok P' →
      Found q.tEnd M g mv alpha xStart P' := by
  intro ks
  induction ks with
  | nil => intro P P' h1 h2; cases h2; exact h1
  | cons k ks ih =>
    intro P P' h1 h2
    rw [Multi.foldlM_cons'] at h2
    cases h : findSchedule q (nextRows M P.xs k) alpha inverted xStart with
    | error e => rw [h] at h2; cases h2
    | ok Q =>
      rw [h] at h2
      exact ih Q P' (found_step hhit hmov hT h1 h) h2

end Uni

/-- **C16** (no assumption on the costs). Whatever the hitting costs are (infinite, negative, not convex),
if the search returns a schedule of finite cost, then it has one configuration per slot between 0 and the
rounded bound, and the reported cost is the objective of the schedule for the problem the search works on
(the instance itself, or its rounded version, see C18). -/
theorem C16_any_costs (p : SSCO ℤ C D) (hv : p.verify = .ok ()) (hd : p.d = 1) (m : ℤ)
    (hb : p.bounds = [m]) (xStart : ℤ) (o : OfflineOptions) (g : Int → ℤ → ECost)
    (hhit : ∀ t : Int, 1 ≤ t → t ≤ p.tEnd → ∀ j, 0 ≤ j → j ≤ m →
      ∃ out, p.toProb.hitCost t [j] = .ok ⟨g t j, out⟩) (P : Path)
    (hP : Uni.optimalGraphSearch p xStart o = .ok P) (hfin : P.cost ≠ ⊤) :
    ∃ q, roundBound p = .ok q ∧ (P.xs.length : Int) = p.tEnd ∧ (∀ x ∈ P.xs, Spec.InBox q.bounds x) ∧
      ∃ out, q.toProb.objectiveWithDefault' P.xs [xStart] o.alpha o.inverted p.tEnd
        = .ok ⟨P.cost, out⟩ := by
  obtain ⟨m', β, hb', hs, hm, hβ, hT⟩ := valid_one hv hd
  have : m' = m := by rw [hb] at hb'; simpa using hb'.symm
  subst this
  obtain ⟨q, n, q1, q2, q3, q4, q5, q6, q7⟩ := round_ok hb hm hhit
  have hl : o.l.isNone = true := by
    by_contra hc
    simp [optimalGraphSearch, assertR, hc, bind, Except.bind] at hP
  simp only [optimalGraphSearch, assertR, hl, hd, q1, q3, idx, bind, Except.bind, decide_true, if_true,
    List.getElem?_cons_zero, search] at hP
  rw [← q5] at q7 hT
  have hmov := movement_one (p := q) (by rw [q6, hs]) o.inverted
  cases h : findSchedule q (fun _ => .ok (initialRows (2 ^ n))) o.alpha o.inverted xStart with
  | error e => rw [h] at hP; cases hP
  | ok P0 =>
    rw [h] at hP
    have hF := found_of_rows (R := fun _ => initialRows (2 ^ n)) q7 hmov hT (fun _ _ _ => rfl)
      (fun _ _ _ => by simp [initialRows]) (fun _ _ _ j hj => ((mem_initialRows n j).1 hj).2) h
    rcases found_loop q7 hmov hT _ _ _ hF hP with ⟨hc, _⟩ | ⟨js, j1, j2, j3, j4⟩
    · exact absurd hc hfin
    · refine ⟨q, q1, by rw [j3, List.length_map, j1, q5], ?_, ?_⟩
      · intro x hx
        rw [j3] at hx
        obtain ⟨j, hj, rfl⟩ := List.mem_map.1 hx
        rw [q3]
        exact List.Forall₂.cons (j2 j hj) List.Forall₂.nil
      · obtain ⟨out, ho⟩ := objective_one (p := q) (by rw [q6, hs]) (Q := fun j => 0 ≤ j ∧ j ≤ 2 ^ n)
          (fun t h1 h2 j hj => q7 t h1 h2 j hj.1 hj.2) o.alpha o.inverted xStart js j1 j2
        exact ⟨out, by rw [j3, j4, ← q5]; exact ho⟩

/-! ## The assumptions of C16 and C17 are needed -/

/-- One slot, bound 8; only state 3 is feasible (a convex cost that is infinite at the bound). -/
def Ex.only3 : SSCO ℤ Unit Unit where
  d := 1
  tEnd := 1
  bounds := [8]
  switchingCost := [1]
  hittingCost := CostFn.new 1 (SingleCostFn.certain fun _ x =>
    .ok (Cost.raw (if x = [3] then 0 else ⊤)))

/-- **C17** (limits). If the cost at the bound is infinite the search may panic, although the schedule
`[[3]]` is feasible. -/
theorem C17_infinite_bound_counterexample :
    Uni.optimalGraphSearch Ex.only3 0 ⟨false, 1, none⟩ = .error .panic ∧
    (Ex.only3.toProb.objective [[3]]).map (·.cost) = .ok 3 := by
  refine ⟨?_, by decide +kernel⟩
  have e : ∀ q : SSCO ℤ Unit Unit, search q 8 1 false 0 = (do
      let path ← findSchedule q (fun _ => .ok (initialRows 8)) 1 false 0
      (List.range 1).reverse.foldlM
        (fun path k => findSchedule q (nextRows 8 path.xs k) 1 false 0) path) := by
    intro q
    simp only [search, Ex.kInit_eight]
  have e2 : roundBound Ex.only3 = .ok Ex.only3 :=
    (C18_rounding_used Ex.only3 8 rfl (by omega)).1 ⟨3, by norm_num⟩
  simp only [Uni.optimalGraphSearch, e2, bind, Except.bind, idx, e,
    show Ex.only3.bounds = [8] from rfl, List.getElem?_cons_zero]
  have h1 : findSchedule Ex.only3 (fun _ => .ok (initialRows 8)) 1 false 0 = .ok ⟨[], ⊤⟩ := by
    obtain ⟨P, hP⟩ : ∃ P, findSchedule Ex.only3 (fun _ => .ok (initialRows 8)) 1 false 0 = .ok P := by
      have : (findSchedule Ex.only3 (fun _ => .ok (initialRows 8)) 1 false 0).isOk = true := by
        decide +kernel
      cases h : findSchedule Ex.only3 (fun _ => .ok (initialRows 8)) 1 false 0 with
      | ok P => exact ⟨P, rfl⟩
      | error e => rw [h] at this; cases this
    have h2 : (findSchedule Ex.only3 (fun _ => .ok (initialRows 8)) 1 false 0).map
        (fun P => (P.xs, P.cost)) = .ok ([], ⊤) := by decide +kernel
    rw [hP] at h2 ⊢
    obtain ⟨xs, c⟩ := P
    simp only [Except.map, Except.ok.injEq, Prod.mk.injEq] at h2
    rw [h2.1, h2.2]
  have h3 : (assertR (Option.isNone (none : Option (List ℤ))) Failure.unsupportedLConstrainedMovement)
      = .ok () := rfl
  simp only [h1]
  rfl

/-- One slot, bound 3; being at `x` is free. -/
def Ex.free3 : SSCO ℤ Unit Unit where
  d := 1
  tEnd := 1
  bounds := [3]
  switchingCost := [1]
  hittingCost := CostFn.new 1 (SingleCostFn.certain fun _ _ => .ok (Cost.raw 0))

theorem Ex.powBound_three : powBound 3 = 4 := by
  have : Nat.clog 2 3 = 2 := by
    have h1 : Nat.clog 2 3 ≤ 2 := Nat.clog_le_of_le_pow (by norm_num)
    have h2 : 1 < Nat.clog 2 3 := (Nat.lt_clog_iff_pow_lt (by omega)).2 (by norm_num)
    omega
  simp [powBound, this]

theorem Ex.kInit_four : kInit 4 = 0 := by
  have : Nat.log 2 4 = 2 := Nat.log_pow (b := 2) (by omega) 2
  simp [kInit, this]

/-- **C16** (limits). Started above the bound and charged for powering down, the search stays above the
bound: the returned schedule is infeasible (its objective is infinite) although the reported cost is
finite. -/
theorem C16_start_above_bound_counterexample :
    (Uni.optimalGraphSearch Ex.free3 9 ⟨true, 1, none⟩).map (·.xs) = .ok [[4]] ∧
    (Ex.free3.toProb.objectiveWithDefault' [[4]] [9] 1 true 1).map (·.cost) = .ok ⊤ ∧
    (Ex.free3.toProb.objectiveWithDefault' [[3]] [9] 1 true 1).map (·.cost) = .ok 6 := by
  refine ⟨?_, by decide +kernel, by decide +kernel⟩
  have e : ∀ q : SSCO ℤ Unit Unit, search q 4 1 true 9 = (do
      let path ← findSchedule q (fun _ => .ok (initialRows 4)) 1 true 9
      (List.range 0).reverse.foldlM
        (fun path k => findSchedule q (nextRows 4 path.xs k) 1 true 9) path) := by
    intro q
    simp only [search, Ex.kInit_four]
  have e2 : roundBound Ex.free3 = .ok
    { d := 1
      tEnd := 1
      bounds := [4]
      switchingCost := [1]
      hittingCost := CostFn.new 1 (SingleCostFn.certain (extendedHit Ex.free3 3)) } := by
    rw [(C18_rounding_used Ex.free3 3 rfl (by omega)).2]
    · simp only [makePowOf2, Ex.free3, idx, bind, Except.bind, List.getElem?_cons_zero, Ex.powBound_three]
    · rintro ⟨k, hk⟩
      have : isPowOf2 3 = true := (C13_is_pow_of_2 3).2 ⟨k, by exact_mod_cast hk⟩
      revert this; decide
  simp only [Uni.optimalGraphSearch, e2, bind, Except.bind, idx, List.getElem?_cons_zero, e]
  decide +kernel

end Soco
