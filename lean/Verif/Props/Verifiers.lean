import Verif.Model.Verifiers
import Verif.Spec.Valid
import Verif.Spec.CostFn
import Verif.Props.CostFn
import Verif.Props.Objective

/-!
# C10 and C11: verification is exact
-/

namespace Soco

theorem assertValidity_ok (b : Bool) : assertValidity b = .ok () ↔ b = true := by
  cases b <;> simp [assertValidity, assertR]

theorem assertValidity_false : assertValidity false = .error (.fail .invalid) := by
  simp [assertValidity, assertR]

/-- A computation either accepts or reports an invalid input; it does not panic. -/
def Checks (r : Res Unit) (P : Prop) : Prop :=
  (P → r = .ok ()) ∧ (¬ P → r = .error (.fail .invalid))

theorem Checks.assert {p : Prop} [Decidable p] : Checks (assertValidity (decide p)) p := by
  constructor
  · intro h; simp [assertValidity, assertR, h]
  · intro h; simp [assertValidity, assertR, h]

theorem Checks.bind {r : Res Unit} {s : Unit → Res Unit} {P Q : Prop} (h1 : Checks r P)
    (h2 : P → Checks (s ()) Q) : Checks (r >>= s) (P ∧ Q) := by
  by_cases hP : P
  · have := h2 hP
    rw [h1.1 hP]
    constructor
    · rintro ⟨_, hq⟩; exact this.1 hq
    · intro h; exact this.2 fun hq => h ⟨hP, hq⟩
  · rw [h1.2 hP]
    exact ⟨fun h => absurd h.1 hP, fun _ => rfl⟩

theorem Checks.iff {r : Res Unit} {P Q : Prop} (h : Checks r P) (e : P ↔ Q) : Checks r Q := by
  have : P = Q := propext e
  rw [← this]; exact h

theorem Checks.range {n : Nat} {body : Nat → Res Unit} {P : Nat → Prop}
    (h : ∀ k < n, Checks (body k) (P k)) : Checks (forRange n body) (∀ k < n, P k) := by
  induction n with
  | zero => exact ⟨fun _ => rfl, fun h => absurd (by intro k hk; omega) h⟩
  | succ n ih =>
    have e : Soco.forRange (n + 1) body = (do forRange n body; body n) := by
      unfold forRange
      rw [List.range_succ]
      simp
    rw [e]
    have := Checks.bind (s := fun _ => body n) (ih fun k hk => h k (by omega)) fun _ => h n (by omega)
    refine this.iff ?_
    constructor
    · rintro ⟨h1, h2⟩ k hk
      rcases Nat.lt_succ_iff_lt_or_eq.1 hk with h3 | rfl
      · exact h1 k h3
      · exact h2
    · intro h; exact ⟨fun k hk => h k (by omega), h n (by omega)⟩

theorem idx_ok {α : Type} (xs : List α) (k : Nat) (hk : k < xs.length) : idx xs k = .ok xs[k] := by
  simp [idx, hk]

variable {T C D : Type} [Value T]

/-- **C10** (SCO). -/
theorem C10_sco_verify_exact (p : SCO T C D) : Checks p.verify (Spec.ValidSCO p) := by
  unfold SCO.verify Spec.ValidSCO
  exact Checks.bind Checks.assert fun _ => Checks.bind Checks.assert fun _ => Checks.assert

/-- **C10** (SSCO). `verify` accepts exactly the valid problems, and otherwise returns an error; it
never panics. -/
theorem C10_ssco_verify_exact (p : SSCO T C D) : Checks p.verify (Spec.ValidSSCO p) := by
  unfold SSCO.verify Spec.ValidSSCO
  refine Checks.bind Checks.assert fun hd => Checks.bind Checks.assert fun _ =>
    Checks.bind Checks.assert fun hb => Checks.bind Checks.assert fun hs => ?_
  have key : Checks (forRange p.d.toNat fun k => do
      assertValidity (decide ((← idx p.bounds k) > 0))
      assertValidity (decide ((← idx p.switchingCost k) > 0)))
      (∀ k < p.d.toNat, (∀ u, p.bounds[k]? = some u → 0 < u) ∧
        (∀ b, p.switchingCost[k]? = some b → 0 < b)) := by
    refine Checks.range fun k hk => ?_
    have h1 : k < p.bounds.length := by omega
    have h2 : k < p.switchingCost.length := by omega
    rw [idx_ok _ _ h1, idx_ok _ _ h2]
    refine Checks.iff (Checks.bind Checks.assert fun _ => Checks.assert) ?_
    simp [h1, h2]
  refine key.iff ?_
  constructor
  · intro h
    constructor
    · intro u hu
      obtain ⟨k, hk, rfl⟩ := List.getElem_of_mem hu
      exact (h k (by omega)).1 _ (by simp [hk])
    · intro u hu
      obtain ⟨k, hk, rfl⟩ := List.getElem_of_mem hu
      exact (h k (by omega)).2 _ (by simp [hk])
  · rintro ⟨h1, h2⟩ k _
    exact ⟨fun u hu => h1 u (List.mem_of_getElem? hu), fun b hb => h2 b (List.mem_of_getElem? hb)⟩

theorem chain_lt {α : Type} [LinearOrder α] (f : Nat → α) (n : Nat)
    (h : ∀ k, k + 1 < n → f k < f (k + 1)) : ∀ k l, k < l → l < n → f k < f l := by
  intro k l hkl hl
  obtain ⟨j, rfl⟩ := Nat.exists_eq_add_of_lt hkl
  induction j with
  | zero => exact h k hl
  | succ j ih =>
    exact lt_trans (ih (by omega) (by omega)) (h (k + j + 1) (by omega))

/-- **C10** (SLO). Given a hitting cost per dimension, `verify` accepts exactly the valid problems and
otherwise returns an error. -/
theorem C10_slo_verify_exact (p : SLO T) (hc : p.d ≤ p.hittingCost.length) :
    Checks p.verify (Spec.ValidSLO p) := by
  unfold SLO.verify Spec.ValidSLO
  refine Checks.bind Checks.assert fun hd => Checks.bind Checks.assert fun _ =>
    Checks.bind Checks.assert fun hb => Checks.bind Checks.assert fun hs =>
    Checks.bind Checks.assert fun hl => ?_
  have getB : ∀ k, k < p.d.toNat → ∃ h : k < p.bounds.length, idx p.bounds k = .ok p.bounds[k] :=
    fun k hk => ⟨by omega, idx_ok _ _ _⟩
  have getS : ∀ k, k < p.d.toNat → ∃ h : k < p.switchingCost.length,
      idx p.switchingCost k = .ok p.switchingCost[k] := fun k hk => ⟨by omega, idx_ok _ _ _⟩
  have getH : ∀ k, k < p.d.toNat → ∃ h : k < p.hittingCost.length,
      idx p.hittingCost k = .ok p.hittingCost[k] := fun k hk => ⟨by omega, idx_ok _ _ _⟩
  set B : Nat → T := fun k => p.bounds.getD k 0 with hBdef
  set S : Nat → ℚ := fun k => p.switchingCost.getD k 0 with hSdef
  set H : Nat → ℚ := fun k => p.hittingCost.getD k 0 with hHdef
  have eB : ∀ k, k < p.d.toNat → idx p.bounds k = .ok (B k) := by
    intro k hk; obtain ⟨h1, h2⟩ := getB k hk; rw [h2]; simp [hBdef, List.getD, h1]
  have eS : ∀ k, k < p.d.toNat → idx p.switchingCost k = .ok (S k) := by
    intro k hk; obtain ⟨h1, h2⟩ := getS k hk; rw [h2]; simp [hSdef, List.getD, h1]
  have eH : ∀ k, k < p.d.toNat → idx p.hittingCost k = .ok (H k) := by
    intro k hk; obtain ⟨h1, h2⟩ := getH k hk; rw [h2]; simp [hHdef, List.getD, h1]
  have k1 : ∀ k < p.d.toNat, Checks (do
      assertValidity (decide ((← idx p.bounds k) > 0))
      assertValidity (decide ((← idx p.switchingCost k) > 0))
      assertValidity (decide ((← idx p.hittingCost k) ≥ 0))
      forRange p.d.toNat fun l => do
        if k ≠ l then
          let hk ← idx p.hittingCost k
          let hl ← idx p.hittingCost l
          if hk ≥ hl then
            assertValidity (!decide ((← idx p.switchingCost k) ≥ (← idx p.switchingCost l))))
      (0 < B k ∧ 0 < S k ∧ 0 ≤ H k ∧ ∀ l < p.d.toNat, k ≠ l → ¬ (H k ≥ H l ∧ S k ≥ S l)) := by
    intro k hk
    rw [eB k hk, eS k hk, eH k hk]
    refine Checks.bind Checks.assert fun _ => Checks.bind Checks.assert fun _ =>
      Checks.bind Checks.assert fun _ => ?_
    refine Checks.range fun l hl' => ?_
    rw [eH l hl', eS l hl']
    by_cases hkl : k = l
    · simp only [hkl, ne_eq, not_true_eq_false, if_false]
      exact ⟨fun _ => rfl, fun h => absurd (fun h => h.elim) h⟩
    · simp only [ne_eq, hkl, not_false_eq_true, if_true]
      by_cases hge : H k ≥ H l
      · constructor
        · intro h
          have := h trivial
          have : ¬ S k ≥ S l := fun h' => this ⟨hge, h'⟩
          simp [bind, Except.bind, hge, this, assertValidity, assertR]
        · intro h
          have : S k ≥ S l := by
            by_contra h'; exact h fun _ h2 => h' h2.2
          simp [bind, Except.bind, hge, this, assertValidity, assertR]
      · constructor
        · intro h
          simp only [bind, Except.bind, hge, if_false]; rfl
        · intro h
          exact absurd (fun _ h2 => hge h2.1) h
  have k2 : Checks (forRange (p.d.toNat - 1) fun i => do
      let k := i + 1
      assertValidity (decide ((← idx p.hittingCost k) < (← idx p.hittingCost (k - 1))))
      assertValidity (decide ((← idx p.switchingCost k) > (← idx p.switchingCost (k - 1)))))
      (∀ i < p.d.toNat - 1, H (i + 1) < H i ∧ S i < S (i + 1)) := by
    refine Checks.range fun i hi => ?_
    simp only [Nat.add_sub_cancel]
    rw [eH (i + 1) (by omega), eH i (by omega), eS (i + 1) (by omega), eS i (by omega)]
    exact Checks.bind Checks.assert fun _ => Checks.assert
  have k3 : Checks (forRange p.tEnd.toNat fun t => do
      assertValidity (decide ((← idx p.load t) ≥ 0)))
      (∀ t < p.tEnd.toNat, 0 ≤ p.load.getD t 0) := by
    refine Checks.range fun t ht => ?_
    have h1 : t < p.load.length := by omega
    rw [idx_ok _ _ h1]
    have e : p.load.getD t 0 = p.load[t] := by simp [List.getD, h1]
    rw [e]
    exact Checks.assert
  refine (Checks.bind (Checks.range k1) fun _ => Checks.bind k2 fun _ => k3).iff ?_
  constructor
  · rintro ⟨h1, h2, h3⟩
    have hH := chain_lt (fun k => - H k) p.d.toNat
      (fun k hk => neg_lt_neg (h2 k (by omega)).1)
    have hS := chain_lt S p.d.toNat (fun k hk => (h2 k (by omega)).2)
    refine ⟨?_, ?_, ?_, ?_, ?_, ?_⟩
    · intro u hu
      obtain ⟨k, hk, rfl⟩ := List.getElem_of_mem hu
      have := (h1 k (by omega)).1
      simpa [hBdef, List.getD, hk] using this
    · intro u hu
      obtain ⟨k, hk, rfl⟩ := List.getElem_of_mem hu
      have := (h1 k (by omega)).2.1
      simpa [hSdef, List.getD, hk] using this
    · intro k hk c hc'
      have := (h1 k (by omega)).2.2.1
      simpa [hHdef, List.getD, hc'] using this
    · intro k l hkl hl' ck cl hck hcl
      have := hH k l hkl (by omega)
      simpa [hHdef, List.getD, hck, hcl] using neg_lt_neg_iff.1 this
    · rw [List.pairwise_iff_getElem]
      intro i j hi hj hij
      have := hS i j hij (by omega)
      simpa [hSdef, List.getD, hi, hj] using this
    · intro t ht l hl'
      have := h3 t (by omega)
      simpa [List.getD, hl'] using this
  · rintro ⟨h1, h2, h3, h4, h5, h6⟩
    have hS : ∀ i j, i < j → j < p.d.toNat → S i < S j := by
      intro i j hij hj
      obtain ⟨a1, _⟩ := getS i (by omega)
      obtain ⟨a2, _⟩ := getS j hj
      have := (List.pairwise_iff_getElem.1 h5) i j a1 a2 hij
      simpa [hSdef, List.getD, a1, a2] using this
    have hH : ∀ i j, i < j → j < p.d.toNat → H j < H i := by
      intro i j hij hj
      obtain ⟨a1, _⟩ := getH i (by omega)
      obtain ⟨a2, _⟩ := getH j hj
      have := h4 i j hij (by omega) p.hittingCost[i] p.hittingCost[j] (by simp [a1]) (by simp [a2])
      simpa [hHdef, List.getD, a1, a2] using this
    refine ⟨?_, ?_, ?_⟩
    · intro k hk
      obtain ⟨a1, _⟩ := getB k hk
      obtain ⟨a2, _⟩ := getS k hk
      obtain ⟨a3, _⟩ := getH k hk
      refine ⟨?_, ?_, ?_, ?_⟩
      · have := h1 p.bounds[k] (by simp)
        simpa [hBdef, List.getD, a1] using this
      · have := h2 p.switchingCost[k] (by simp)
        simpa [hSdef, List.getD, a2] using this
      · have := h3 k (by omega) p.hittingCost[k] (by simp [a3])
        simpa [hHdef, List.getD, a3] using this
      · rintro l hl' hkl ⟨h7, h8⟩
        rcases Nat.lt_or_gt_of_ne hkl with h9 | h9
        · exact absurd h8 (not_le.2 (hS k l h9 hl'))
        · exact absurd h7 (not_le.2 (hH l k h9 hk))
    · intro i hi
      exact ⟨hH i (i + 1) (by omega) (by omega), hS i (i + 1) (by omega) (by omega)⟩
    · intro t ht
      have h7 : t < p.load.length := by omega
      have := h6 t (by omega) p.load[t] (by simp [h7])
      simpa [List.getD, h7] using this

/-- The condition on the number of hitting costs is not checked by `verify`: it panics. -/
theorem C10_slo_missing_hitting_cost_counterexample :
    (SLO.verify { d := 1, tEnd := 0, bounds := [1], switchingCost := [1], hittingCost := [],
                  load := [] : SLO ℤ }) = .error .panic := by
  decide +kernel

/-- **C10** (online). `Online::verify` additionally requires a non-negative prediction window. -/
theorem C10_online_verify_exact {P : Type} (verifyP : P → Res Unit) (V : P → Prop)
    (h : ∀ p, Checks (verifyP p) (V p)) (o : Online P) :
    Checks (o.verify verifyP) (0 ≤ o.w ∧ V o.p) := by
  unfold Online.verify
  exact Checks.bind Checks.assert fun _ => h o.p

/-- Valid and invalid instances exist: the examples are accepted, a wrong dimension is not. -/
example : SSCO.verify Ex.ssco2 = .ok () := by decide +kernel
example : SLO.verify Ex.slo2 = .ok () := by decide +kernel
example : SSCO.verify { Ex.ssco2 with d := 3 } = .error (.fail .invalid) := by decide +kernel
example : SLO.verify { Ex.slo2 with load := [1, -3, 2] } = .error (.fail .invalid) := by
  decide +kernel

/-! ## C11 -/

/-- The entries of `x` lie between zero and the bound of their dimension (`x` may have fewer entries
than there are bounds). -/
def Spec.EntriesOk (bounds : List T) (x : Config T) : Prop :=
  ∀ (k : Nat) (j u : T), x[k]? = some j → bounds[k]? = some u → 0 ≤ j ∧ j ≤ u

theorem config_verify_exact (x : Config T) (bounds : List T) (h : x.length ≤ bounds.length) :
    Checks (Config.verify x bounds) (Spec.EntriesOk bounds x) := by
  induction x generalizing bounds with
  | nil =>
    rw [Config.verify]
    exact ⟨fun _ => rfl, fun h => absurd (by intro k j u hk; simp at hk) h⟩
  | cons j x ih =>
    cases bounds with
    | nil => simp at h
    | cons u bounds =>
      rw [Config.verify]
      refine Checks.iff (Checks.bind Checks.assert fun _ => Checks.bind Checks.assert fun _ =>
        ih bounds (by simpa using h)) ?_
      constructor
      · rintro ⟨h1, h2, h3⟩ k j' u' hj hu
        cases k with
        | zero => simp at hj hu; subst hj; subst hu; exact ⟨h1, h2⟩
        | succ k => simp at hj hu; exact h3 k j' u' hj hu
      · intro h
        exact ⟨(h 0 j u rfl rfl).1, (h 0 j u rfl rfl).2, fun k j' u' hj hu =>
          h (k + 1) j' u' (by simpa using hj) (by simpa using hu)⟩

/-- **C11**. If no configuration has more entries than there are bounds, `Schedule::verify` accepts
exactly the schedules of horizon length with all entries between zero and their bound, and returns
an error for all others. -/
theorem C11_schedule_verify_exact (xs : Schedule T) (tEnd : Int) (bounds : List T)
    (h : ∀ x ∈ xs, x.length ≤ bounds.length) :
    Checks (Schedule.verify xs tEnd bounds)
      ((xs.length : Int) = tEnd ∧ ∀ x ∈ xs, Spec.EntriesOk bounds x) := by
  unfold Schedule.verify
  refine Checks.bind Checks.assert fun hlen => ?_
  clear hlen
  clear tEnd
  induction xs with
  | nil => exact ⟨fun _ => rfl, fun h => absurd (by simp) h⟩
  | cons x xs ih =>
    change Checks (do Config.verify x bounds; xs.forM fun x => Config.verify x bounds) _
    refine Checks.iff (Checks.bind (config_verify_exact x bounds (h x (by simp)))
      fun _ => ih fun y hy => h y (by simp [hy])) ?_
    simp

theorem config_verify_panic (x : Config T) (bounds : List T)
    (h : Config.verify x bounds = .error .panic) : bounds.length < x.length := by
  by_contra hlt
  have := config_verify_exact x bounds (by omega)
  by_cases hP : Spec.EntriesOk bounds x
  · rw [this.1 hP] at h; simp at h
  · rw [this.2 hP] at h; simp at h

/-- **C11** (panics). It panics only if a configuration has more entries than there are bounds. -/
theorem C11_schedule_verify_panics_only (xs : Schedule T) (tEnd : Int) (bounds : List T)
    (h : Schedule.verify xs tEnd bounds = .error .panic) :
    ∃ x ∈ xs, bounds.length < x.length := by
  by_contra hne
  push Not at hne
  have := C11_schedule_verify_exact xs tEnd bounds hne
  by_cases hP : (xs.length : Int) = tEnd ∧ ∀ x ∈ xs, Spec.EntriesOk bounds x
  · rw [this.1 hP] at h; simp at h
  · rw [this.2 hP] at h; simp at h

/-- An accepted schedule whose configurations have all dimensions is a schedule of the box. -/
theorem C11_accepted_in_box (xs : Schedule T) (tEnd : Int) (bounds : List T)
    (h : Schedule.verify xs tEnd bounds = .ok ()) (hd : ∀ x ∈ xs, x.length = bounds.length) :
    (xs.length : Int) = tEnd ∧ ∀ x ∈ xs, Spec.InBox bounds x := by
  have := C11_schedule_verify_exact xs tEnd bounds fun x hx => (hd x hx).le
  by_cases hP : (xs.length : Int) = tEnd ∧ ∀ x ∈ xs, Spec.EntriesOk bounds x
  · refine ⟨hP.1, fun x hx => ?_⟩
    have h1 := hP.2 x hx
    rw [Spec.InBox, List.forall₂_iff_get]
    refine ⟨(hd x hx).symm, ?_⟩
    intro i h2 h3
    exact h1 i _ _ (by simp [h3]) (by simp [h2])
  · rw [this.2 hP] at h; simp at h

/-- Accepted, rejected and panicking schedules. -/
example : Schedule.verify Ex.xs2 3 [2, 3] = .ok () ∧
    Schedule.verify Ex.xs2 3 [2, 1] = .error (.fail .invalid) ∧
    Schedule.verify Ex.xs2 2 [2, 3] = .error (.fail .invalid) ∧
    Schedule.verify Ex.xs2 3 [2] = .error .panic ∧
    Schedule.verify [[(1 : ℤ)], [2]] 2 [2, 3] = .ok () := by decide +kernel

/-! ## C10: verified input does not panic -/

/-- **C10** (no panics). The objective of an accepted SSCO problem is defined on every accepted
schedule with `d` entries per configuration, if the user's cost function is total (returns one
cost for every slot and configuration). -/
theorem C10_verified_objective_total [OutSuccess C] [OutFailure D] (p : SSCO T C D) (xs : Schedule T)
    (hp : p.verify = .ok ()) (hx : Schedule.verify xs p.tEnd p.bounds = .ok ())
    (hd : ∀ x ∈ xs, (x.length : Int) = p.d)
    (htot : ∀ t, 1 ≤ t → ∀ x, ∃ c, p.hittingCost.callMean t x = .ok c) (α : ℚ) (inv : Bool) :
    ∃ c, p.toProb.objectiveWithDefault' xs p.toProb.defaultConfig α inv p.tEnd = .ok c := by
  have hv : Spec.ValidSSCO p := by
    by_contra h
    rw [(C10_ssco_verify_exact p).2 h] at hp; simp at hp
  obtain ⟨h1, h2, h3, h4, h5, h6⟩ := hv
  obtain ⟨h7, h8⟩ := C11_accepted_in_box xs p.tEnd p.bounds hx
    (fun x hxm => by have := hd x hxm; omega)
  have hdd : p.toProb.d = p.d := rfl
  rw [← h7]
  haveI : Nonempty (Cost C D) := ⟨Cost.dflt⟩
  choose! F hF using htot
  obtain ⟨o, ho⟩ := C02_objective_eq_totalCost p.toProb xs p.toProb.defaultConfig α inv xs.length
    (fun t x => (F t x).cost) (Spec.moveCost inv p.switchingCost)
    (by
      rw [padTo_self]
      intro t ht _ _ x hxm
      have := (withinVec_eq p.bounds x).1.2 (h8 x hxm)
      refine ⟨(F t x).output, ?_⟩
      simp [SSCO.toProb, CostFn.callMeanWithinBounds, this, bind, Except.bind, hF t ht x])
    (by
      rw [padTo_self]
      intro y hy x hxm
      have a1 := hd x hxm
      refine scaledMovement_eq _ _ _ _ ?_ (by omega)
      rcases List.mem_cons.1 hy with rfl | hy
      · simp [Prob.defaultConfig, Config.repeat, hdd]; omega
      · have := hd y hy; omega)
  exact ⟨_, ho⟩

/-- Without the condition on the dimension this fails: `Schedule::verify` accepts short
configurations, on which the objective panics. -/
theorem C10_short_config_counterexample :
    Ex.ssco2.verify = .ok () ∧ Schedule.verify [[1], [2], [1]] Ex.ssco2.tEnd Ex.ssco2.bounds = .ok () ∧
    Ex.ssco2.toProb.objective [[1], [2], [1]] = .error .panic := by
  refine ⟨by decide +kernel, by decide +kernel, ?_⟩
  rfl

/-- The hypotheses are met by `ssco2` and `xs2`. -/
example := C10_verified_objective_total Ex.ssco2 Ex.xs2 (by decide +kernel) (by decide +kernel)
  (by decide) (fun t ht x => ⟨_, by rw [Ex.ssco2, CostFn.callMean_certain _ t ht]⟩) 1 false

end Soco
