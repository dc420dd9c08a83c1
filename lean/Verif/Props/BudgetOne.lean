import Verif.Props.BudgetExact

/-!
# Ratio of lazy budgeting for balanced load with one server type

C82: there is nothing to optimise when a load is assigned to a single type, so nothing is assumed of the optimiser except
that it returns the only point there is.
-/

namespace Soco.Bb
open Spec

/-- What a single type costs. -/
theorem single_hit {S : Num.Solver} (hS : SolvesEmpty S) (p : SBLO ℤ) (hd : p.d = 1) (f : CostFn ℚ Unit DCFailure)
    (hf : p.hittingCost = [f]) (m : ℤ) (hb : p.bounds = [m]) (t : Int) (ht : 1 ≤ t) (g : ℚ → ECost)
    (hg : ∀ z, 0 ≤ z → ∃ o, f.callMean t z = .ok ⟨g z, o⟩) (x : ℤ) (h0 : 0 ≤ x) (hx : x ≤ m) (l : ℤ)
    (hl : access p.load t = some l) (hl0 : 0 ≤ l) :
    ∃ out, p.hitCost S t [x] = .ok ⟨serversCost g l x, out⟩ := by
  have hbox : InBox p.bounds [x] := by rw [hb]; exact .cons ⟨h0, hx⟩ .nil
  rw [SBLO.hitCost_eq S p t [x] ht hbox l hl]
  have hd' : p.d.toNat = 1 := by rw [hd]; rfl
  have hlq : (0 : ℚ) ≤ toQ l := toQ_nonneg.2 hl0
  have hfr : (LoadFractions.mk [] 1 1).selectLoads [toQ l] 0 = .ok [toQ l] := by
    simp only [LoadFractions.selectLoads, LoadFractions.get, List.range_one, List.mapM_cons, List.mapM_nil, idx]
    by_cases h : 0 < toQ l
    · simp [h, h.ne', sumM, bind, Except.bind, pure, Except.pure]
    · have : toQ l = 0 := le_antisymm (not_lt.1 h) hlq
      simp [this, bind, Except.bind, pure, Except.pure]
  have hobj : p.objective t [x] [toQ l] ⟨[], 1, 1⟩ =
      if 0 < x then .ok ⟨serversCost g l x, 0⟩
      else if 0 < l then .error (.failure .loadToInactiveServer) else .ok 0 := by
    have hdim : ∀ r, p.dimCost t [x] [toQ l] ⟨[], 1, 1⟩ 0 = r → p.objective t [x] [toQ l] ⟨[], 1, 1⟩ =
        (do let a ← r; .ok (a + 0)) := by
      rintro r rfl
      unfold SBLO.objective
      rw [hd', hd]
      simp [assertP, IRes.ofRes, bind, Except.bind, sumM]
    have hx0 : (0 : ℚ) < toQ x ↔ 0 < x := by rw [← toQ_zero (T := ℤ)]; exact toQ_lt
    have hl1 : (0 : ℚ) < toQ l ↔ 0 < l := by rw [← toQ_zero (T := ℤ)]; exact toQ_lt
    by_cases h1 : 0 < x
    · rw [if_pos h1]
      have hx' : (0 : ℚ) < toQ x := hx0.2 h1
      rw [hdim (.ok ⟨serversCost g l x, 0⟩)]
      · simp only [bind, Except.bind]
        congr 1
        show DCObjective.mk (_ + 0) (0 + 0) = _
        simp
      · unfold SBLO.dimCost
        rw [hfr]
        simp only [IRes.ofRes, bind, Except.bind, idx, List.getElem?_cons_zero, safeBalancing]
        rw [if_pos hx']
        obtain ⟨o, ho⟩ := hg (toQ l / toQ x) (div_nonneg hlq hx'.le)
        simp only [hf, List.getElem?_cons_zero, ho]
        unfold serversCost
        rw [if_neg h1.ne']
        rfl
    by_cases h2 : 0 < l
    · rw [if_neg h1, if_pos h2, hdim (.error (.failure .loadToInactiveServer))]
      · rfl
      · unfold SBLO.dimCost
        rw [hfr]
        simp only [IRes.ofRes, bind, Except.bind, idx, List.getElem?_cons_zero, safeBalancing]
        rw [if_neg (by rwa [gt_iff_lt, hx0]), if_pos (by rwa [gt_iff_lt, hl1])]
    · rw [if_neg h1, if_neg h2]
      have : toQ l = 0 := le_antisymm (not_lt.1 (by rwa [hl1])) hlq
      rw [hdim (.ok ⟨0, 0⟩)]
      · simp only [bind, Except.bind]
        congr 1
        show DCObjective.mk (0 + 0) (0 + 0) = DCObjective.mk 0 0
        simp
      · unfold SBLO.dimCost
        rw [hfr]
        simp only [IRes.ofRes, bind, Except.bind, idx, List.getElem?_cons_zero, safeBalancing]
        rw [if_neg (by rwa [gt_iff_lt, hx0]), if_neg (by rwa [gt_iff_lt, hl1]), if_pos this]
  have hget : ∃ s, (LoadFractions.mk [] 1 1).get 0 0 [toQ l] = .ok s := by
    simp only [LoadFractions.get, idx]
    by_cases h : 0 < toQ l
    · simp [h, sumM, bind, Except.bind]
    · simp [h]
  have hinit : initialFractions 0 1 [x] = [] := by
    unfold initialFractions
    simp
  have hzero : ¬ 0 < x → serversCost g l x = if 0 < l then ⊤ else 0 := by
    intro h
    unfold serversCost
    rw [if_pos (by omega)]
    by_cases h2 : 0 < l
    · rw [if_neg (by exact_mod_cast h2.ne'), if_pos h2]
    · rw [if_pos (by exact_mod_cast (le_antisymm (not_lt.1 h2) hl0)), if_neg h2]
  rw [hd']
  unfold applyLoads
  simp only [List.length_singleton, beq_self_eq_true, assertP, if_true, bind, Except.bind, mul_one, le_refl, decide_true,
    Nat.sub_self, List.replicate_zero]
  have hso : solverObjective 1 1 p.objective [toQ l] t [x] [] = .ok (serversCost g l x) := by
    unfold solverObjective
    rw [show LoadFractions.new [] 1 1 = ⟨[], 1, 1⟩ from rfl, hobj]
    by_cases h1 : 0 < x
    · rw [if_pos h1]; simp
    · rw [if_neg h1, hzero h1]
      by_cases h2 : 0 < l
      · rw [if_pos h2, if_pos h2]
      · rw [if_neg h2, if_neg h2]
        show Except.ok ((0 : ECost) + 0) = _
        simp
  rw [hinit, Offline.minimize_empty hS _ _ hso]
  · simp only [show LoadFractions.new [] 1 1 = ⟨[], 1, 1⟩ from rfl, hobj]
    by_cases h1 : 0 < x
    · rw [if_pos h1]; simp
    · rw [if_neg h1, hzero h1]
      by_cases h2 : 0 < l
      · rw [if_pos h2, if_pos h2]; exact ⟨_, rfl⟩
      · rw [if_neg h2, if_neg h2]
        have e1 : (0 : DCObjective).energyCost = 0 := rfl
        have e2 : (0 : DCObjective).revenueLoss = 0 := rfl
        simp [e1, e2]
  · intro g hg
    simp only [List.range_one, List.map_cons, List.map_nil, List.mem_singleton] at hg
    subst hg
    obtain ⟨s, hs⟩ := hget
    exact ⟨(((-s : ℚ) : WithTop ℚ) : Num.Slack), by simp only [show LoadFractions.new [] 1 1 = ⟨[], 1, 1⟩ from rfl, hs]⟩

/-- An instance with one type, in its last slot: `m` servers, switching cost `β`, load `q`, and a server with load `z`
costs `g z`. -/
structure Single (m : ℤ) (β : ℚ) (g : ℚ → ECost) (q : ℤ) (p : SBLO ℤ) : Prop where
  verified : p.verify = .ok ()
  d : p.d = 1
  bounds : p.bounds = [m]
  switching : p.switchingCost = [β]
  load : p.load[(p.tEnd - 1).toNat]? = some q
  cost : ∃ f, p.hittingCost = [f] ∧ ∀ z, 0 ≤ z → ∃ o, f.callCertain p.tEnd z = .ok ⟨g z, o⟩

theorem Single.valid {m : ℤ} {β : ℚ} {g : ℚ → ECost} {q : ℤ} {p : SBLO ℤ} (h : Single m β g q p) : ValidSBLO p := by
  by_contra hc
  have := (C10_sblo_verify_exact p).2 hc
  rw [h.verified] at this
  cases this

theorem Single.access {m : ℤ} {β : ℚ} {g : ℚ → ECost} {q : ℤ} {p : SBLO ℤ} (h : Single m β g q p) (ht : 1 ≤ p.tEnd) :
    access p.load p.tEnd = some q ∧ 0 ≤ q := by
  obtain ⟨v1, v2, v3, v4, v5, v6, v7, v8⟩ := h.valid
  refine ⟨?_, v8 _ (by omega) q h.load⟩
  unfold Soco.access
  rw [if_pos (by omega)]
  exact h.load

/-- The hitting cost of an instance with one type. -/
theorem Single.hit {S : Num.Solver} (hS : SolvesEmpty S) {m : ℤ} {β : ℚ} {g : ℚ → ECost} {q : ℤ} {p : SBLO ℤ}
    (h : Single m β g q p) (ht : 1 ≤ p.tEnd) (x : ℤ) (h0 : 0 ≤ x) (hx : x ≤ m) :
    ∃ out, p.hitCost S p.tEnd [x] = .ok ⟨serversCost g q x, out⟩ := by
  obtain ⟨f, f1, f2⟩ := h.cost
  obtain ⟨a1, a2⟩ := h.access ht
  refine single_hit hS p h.d f f1 m h.bounds p.tEnd ht g ?_ x h0 hx q a1 a2
  intro z hz
  obtain ⟨o, ho⟩ := f2 z hz
  exact ⟨o, callMean_of_certain f _ _ _ ho⟩

/-- The hitting cost of a part of a slot. -/
theorem Single.part {S : Num.Solver} (hS : SolvesEmpty S) {m : ℤ} {β : ℚ} {g : ℚ → ECost} {q : ℤ} {p : SBLO ℤ}
    (h : Single m β g q p) (ht : 1 ≤ p.tEnd) (n : Nat) (x : ℤ) (h0 : 0 ≤ x) (hx : x ≤ m) :
    ∃ out, (divided p n).hitCost S p.tEnd [x] = .ok ⟨ECost.divQ (serversCost g q x) n, out⟩ := by
  obtain ⟨f, f1, f2⟩ := h.cost
  obtain ⟨a1, a2⟩ := h.access ht
  rw [← serversCost_div]
  refine single_hit hS (divided p n) h.d (CostFn.new 1 (SingleCostFn.certain (partCost f n))) (by simp [divided, f1]) m
    h.bounds p.tEnd ht _ ?_ x h0 hx q a1 a2
  intro z hz
  obtain ⟨o, ho⟩ := f2 z hz
  rw [CostFn.callMean_certain _ _ ht]
  unfold partCost
  rw [ho]
  exact ⟨o, rfl⟩

/-- **C82** With one server type, lazy budgeting for balanced load is `3 + ε`-competitive. -/
theorem C82_one_type (S : Num.Solver) (hS : SolvesEmpty S) (m : ℤ) (β ε : ℚ) (hε : 0 < ε) (ps : List (SBLO ℤ))
    (g : Nat → ℚ → ECost) (l : Nat → ℚ) (q : Nat → ℤ) (hslot : ∀ (k : Nat) p, ps[k]? = some p → p.tEnd = (k : Int) + 1)
    (hp : ∀ (k : Nat) p, ps[k]? = some p → Single m β (g k) (q k) p) (hg : ∀ k, ServerCost (g k) (l k)) (hl : ∀ k, 0 < l k)
    (hfin : ∀ k < ps.length, serversCost (g k) (q k) m ≠ ⊤) :
    ∃ xs mem, play SBLO.tEnd (alg S ε) [] none (ps.map fun p => ⟨p, 0⟩) = .ok (xs, mem) ∧
      xs.length = ps.length ∧ (∀ x ∈ xs, InBox [m] x) ∧
      ∀ zs : Schedule ℤ, zs.length = ps.length → (∀ z ∈ zs, InBox [m] z) →
        farmCost (fun k x => serversCost (g k) (q k) (x.headD 0)) [β] xs ≤
          ECost.mulQ (3 + ε) (farmCost (fun k x => serversCost (g k) (q k) (x.headD 0)) [β] zs) := by
  have h3 : (2 * ((1 : Nat) : ℚ) + 1 + ε) = 3 + ε := by norm_num
  rw [← h3]
  have ht : ∀ (k : Nat) p, ps[k]? = some p → 1 ≤ p.tEnd := fun k p h => by rw [hslot k p h]; omega
  refine C82_ratio S 1 [m] [β] ε hε ps ⟨?_, hslot⟩ _ (fun k _ => l k) ?_
  · intro p hmem
    obtain ⟨k, hk⟩ := List.getElem?_of_mem hmem
    have h := hp k p hk
    obtain ⟨f, f1, f2⟩ := h.cost
    obtain ⟨o, ho⟩ := f2 0 (le_refl _)
    rw [(hg k).idle] at ho
    have hm0 : 0 < m := h.valid.2.2.2.2.2.1 m (by rw [h.bounds]; simp)
    refine ⟨h.verified, h.d, h.bounds, h.switching, by simp [f1], ⟨?_, ?_⟩, ?_, ?_⟩
    · intro f' hf'
      rw [f1, List.mem_singleton] at hf'
      subst hf'
      exact ⟨_, l k, ho, rfl, (hl k).le⟩
    · exact ⟨f, by simp [f1], _, ho, WithTop.coe_lt_coe.2 (hl k)⟩
    · intro n _ x hx
      obtain ⟨j, rfl, h1, h2⟩ := Offline.inBox_one hx
      obtain ⟨out, e⟩ := h.part hS (ht k p hk) n j h1 h2
      exact ⟨_, e⟩
    · intro n _
      unfold SubSlot.hit
      obtain ⟨out, e⟩ := h.part hS (ht k p hk) n m hm0.le (le_refl _)
      simp only [e]
      have := hfin k (List.getElem?_eq_some_iff.1 hk).1
      cases hc : serversCost (g k) (q k) m using WithTop.recTopCoe with
      | top => exact absurd hc this
      | coe a => exact WithTop.coe_ne_top
  · intro k p hk
    have h := hp k p hk
    have hq : (0 : ℚ) ≤ q k := by exact_mod_cast (h.access (ht k p hk)).2
    refine ⟨?_, ?_, fun _ _ => (hl k).le, ?_, ?_⟩
    · intro n _ _ x hx
      obtain ⟨j, rfl, h1, h2⟩ := Offline.inBox_one hx
      obtain ⟨out, e⟩ := h.part hS (ht k p hk) n j h1 h2
      unfold SubSlot.hit
      simp only [e]
      rfl
    · intro κ hκ
      obtain rfl : κ = 0 := by omega
      obtain ⟨f, f1, f2⟩ := h.cost
      obtain ⟨o, ho⟩ := f2 0 (le_refl _)
      rw [(hg k).idle] at ho
      exact ⟨f, o, by simp [f1], ho⟩
    · intro x hx κ hκ
      obtain rfl : κ = 0 := by omega
      obtain ⟨j, rfl, h1, h2⟩ := Offline.inBox_one hx
      exact serversCost_idle (hg k) (q k) j hq h1
    · intro x y hx hy hxy
      obtain ⟨i, rfl, h1, h2⟩ := Offline.inBox_one hx
      obtain ⟨j, rfl, h3, h4⟩ := Offline.inBox_one hy
      have hij : i ≤ j := by cases hxy; assumption
      rw [Finset.sum_range_one]
      exact serversCost_more (hg k) (q k) i j hq h1 hij

/-- One type with five servers, in slot `t` of three. -/
def single (t : Nat) : SBLO ℤ where
  d := 1
  tEnd := t
  bounds := [5]
  switchingCost := [2]
  hittingCost := [affine 1]
  load := [3, 0, 7].take t

/-- Non-vacuity: loads 3, 0 and 7, and a server with load `z` costs `1 + z`. -/
example (S : Num.Solver) (hS : SolvesEmpty S) :=
  C82_one_type S hS 5 2 (1 / 10) (by norm_num) [single 1, single 2, single 3] (fun _ z => ((1 + z : ℚ) : ECost)) (fun _ => 1)
    (fun k => [3, 0, 7].getD k 0)
    (by
      intro k p hp
      match k, hp with
      | 0, hp => simp at hp; subst hp; rfl
      | 1, hp => simp at hp; subst hp; rfl
      | 2, hp => simp at hp; subst hp; rfl
      | k + 3, hp => simp at hp)
    (by
      intro k p hp
      match k, hp with
      | 0, hp =>
        simp at hp; subst hp
        exact ⟨by decide +kernel, rfl, rfl, rfl, rfl, affine 1, rfl, fun z _ => ⟨_, affine_callCertain _ _ (by decide) z⟩⟩
      | 1, hp =>
        simp at hp; subst hp
        exact ⟨by decide +kernel, rfl, rfl, rfl, rfl, affine 1, rfl, fun z _ => ⟨_, affine_callCertain _ _ (by decide) z⟩⟩
      | 2, hp =>
        simp at hp; subst hp
        exact ⟨by decide +kernel, rfl, rfl, rfl, rfl, affine 1, rfl, fun z _ => ⟨_, affine_callCertain _ _ (by decide) z⟩⟩
      | k + 3, hp => simp at hp)
    (fun _ => affine_server 0) (fun _ => one_pos)
    (fun k _ => by
      unfold serversCost
      rw [if_neg (by norm_num)]
      exact WithTop.coe_ne_top)

end Soco.Bb
