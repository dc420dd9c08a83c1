import Verif.Lemmas.LcpFrac
import Verif.Props.Lcp

/-!
# C53: backward-recurrent capacity provisioning is optimal (given an exact optimiser)
-/

namespace Soco
open Lcp Work Uni

section
variable {C D : Type} [OutSuccess C] [OutFailure D]

/-- The loop of `brcp` is the backward projection. -/
theorem Lcp.brcp_loop (b : Bounded ℚ) (α : ℚ) (L U : Nat → ℚ) : ∀ (k : Nat),
    (∀ t : Nat, 1 ≤ t → t ≤ k → b.find α false 0 t 0 0 = .ok (L t) ∧ b.find α true 0 t 0 0 = .ok (U t)) →
    ∀ s bs x, ∃ y, (timeRange 1 (k : Int)).reverse.foldlM (brcpStep b α) (s, bs, x)
      = .ok ((if k = 0 then [] else (back L U 0 (k - 1) (clampQ (L k) (U k) x)).map fun j => [j]) ++ s,
          ((List.range k).map fun i => (⟨L (i + 1), U (i + 1)⟩ : BoundsMem ℚ)) ++ bs, y) := by
  intro k
  induction k with
  | zero => intro _ s bs x; exact ⟨x, rfl⟩
  | succ k ih =>
    intro h s bs x
    obtain ⟨h1, h2⟩ := h (k + 1) (by omega) le_rfl
    rw [show ((k + 1 : Nat) : Int) = (k : Int) + 1 by push_cast; rfl] at h1 h2 ⊢
    rw [timeRange_succ', List.reverse_append, List.reverse_singleton, List.singleton_append, List.foldlM_cons]
    have e : brcpStep b α (s, bs, x) ((k : Int) + 1)
        = .ok ([clampQ (L (k + 1)) (U (k + 1)) x] :: s, ⟨L (k + 1), U (k + 1)⟩ :: bs,
            clampQ (L (k + 1)) (U (k + 1)) x) := by
      have hp : project x (L (k + 1)) (U (k + 1)) = clampQ (L (k + 1)) (U (k + 1)) x := by
        unfold project clampQ; rw [umax_eq, umin_eq]
      simp only [brcpStep, brcpNext, h1, h2, bind, Except.bind, Schedule.shift, hp]
    rw [e]
    obtain ⟨y, hy⟩ := ih (fun t a c => h t a (by omega)) ([clampQ (L (k + 1)) (U (k + 1)) x] :: s)
      (⟨L (k + 1), U (k + 1)⟩ :: bs) (clampQ (L (k + 1)) (U (k + 1)) x)
    refine ⟨y, ?_⟩
    show (timeRange 1 (k : Int)).reverse.foldlM (brcpStep b α) _ = _
    rw [hy]
    congr 2
    · cases k with
      | zero => simp [back]
      | succ k => simp [back]
    · simp [List.range_succ]

/-- **C53.** Backward-recurrent capacity provisioning returns, for every one-dimensional fractional problem with
convex costs and every `α > 0`, a schedule inside the decision space of minimal `α`-weighted cost, provided the
optimiser solves the sub-problems of all prefixes exactly. It also returns the bounds of all slots. -/
theorem C53_brcp_optimal (opt : Minimizer) (p : SSCO ℚ C D) (u β α : ℚ) (n : Nat) (g : Int → ℚ → ECost)
    (hd : p.d = 1) (hb : p.bounds = [u]) (hs : p.switchingCost = [β]) (hn : p.tEnd = n)
    (hu : 0 ≤ u) (hβ : 0 < β) (hα : 0 < α)
    (hhit : ∀ t : Int, 1 ≤ t → t ≤ n → ∀ j, 0 ≤ j → j ≤ u → ∃ out, p.toProb.hitCost t [j] = .ok ⟨g t j, out⟩)
    (hfin : ∀ t : Int, 1 ≤ t → t ≤ n → g t u ≠ ⊤)
    (hconv : ∀ t : Int, 1 ≤ t → t ≤ n → Spec.ConvexOnEQ u (g t))
    (hopt : ∀ t : Nat, 1 ≤ t → t ≤ n → ∀ inverted,
      Spec.Solves opt (boundObjective { p.reset 0 with tEnd := (p.reset 0).tEnd + 0 } α inverted 0 (t + 0))
        (List.replicate t (0, u))) :
    ∃ xs bs c, brcp (boundedFrac opt p) ⟨false, α, none⟩ = .ok (xs, bs) ∧ xs.length = n ∧ bs.length = n ∧
      (∀ x ∈ xs, Spec.InBox p.bounds x) ∧
      p.toProb.objectiveWithDefault' xs [0] α false p.tEnd = .ok c ∧
      ∀ ys : Schedule ℚ, ys.length = n → (∀ y ∈ ys, Spec.InBox p.bounds y) →
        ∃ c', p.toProb.objectiveWithDefault' ys [0] α false p.tEnd = .ok c' ∧ c.cost ≤ c'.cost := by
  have hαβ : 0 < α * β := mul_pos hα hβ
  -- the bounds of all slots
  have key : ∀ t : Nat, ∀ inverted, ∃ js : List ℚ, 1 ≤ t → t ≤ n → (js.length = t ∧ (∀ j ∈ js, DomQ u j) ∧
      (boundedFrac opt p).find α inverted 0 t 0 0 = .ok (js.getLastD 0) ∧
      ∀ ks : List ℚ, ks.length = t → (∀ k ∈ ks, DomQ u k) →
        Spec.totalCost g (mvQ β inverted) α 1 0 js ≤ Spec.totalCost g (mvQ β inverted) α 1 0 ks) := by
    intro t inverted
    by_cases h : 1 ≤ t ∧ t ≤ n
    · obtain ⟨js, hjs⟩ := findBoundFrac_ok (g := g) hd hb hs h.1 (by rw [hn]; exact_mod_cast h.2)
        (fun t' a b => hhit t' a (by omega)) α inverted (hopt t h.1 h.2 inverted)
      exact ⟨js, fun _ _ => hjs⟩
    · exact ⟨[], fun a b => absurd ⟨a, b⟩ h⟩
  choose js hjs using key
  let L : Nat → ℚ := fun t => (js t false).getLastD 0
  let U : Nat → ℚ := fun t => (js t true).getLastD 0
  have found : ∀ t < n, Found (DomQ u) (α * β) 0 g L U t 0 0 := by
    intro t ht
    obtain ⟨a1, a2, _, a4⟩ := hjs (t + 1) false (by omega) (by omega)
    obtain ⟨b1, b2, _, b4⟩ := hjs (t + 1) true (by omega) (by omega)
    refine ⟨by omega, Or.inl ⟨rfl, rfl⟩, ⟨_, a1, a2, rfl, ?_⟩, ⟨_, b1, b2, rfl, ?_⟩⟩
    · intro ks k1 k2
      have := a4 ks k1 k2
      rwa [totalCost_scale g _ _ α (fun x y => (mvQ_scale α β x y).1),
        totalCost_scale g _ _ α (fun x y => (mvQ_scale α β x y).1)] at this
    · intro ks k1 k2
      have := b4 ks k1 k2
      rwa [totalCost_scale g _ _ α (fun x y => (mvQ_scale α β x y).2),
        totalCost_scale g _ _ α (fun x y => (mvQ_scale α β x y).2)] at this
  have allB : ∀ m ≤ n, AllB (DomQ u) (α * β) 0 g L U m := by
    intro m
    induction m with
    | zero => intro _ t ht; omega
    | succ m ih =>
      intro hm t ht
      rcases Nat.lt_succ_iff_lt_or_eq.1 ht with h | rfl
      · exact ih (by omega) t h
      · exact (found t (by omega)).bds hαβ (ih (by omega)) (conv_domQ (hconv _ (by omega) (by omega)))
          (m := u) ⟨hu, le_rfl⟩ (hfin _ (by omega) (by omega))
  have B := allB n le_rfl
  obtain ⟨y, hy⟩ := brcp_loop (boundedFrac opt p) α L U n
    (fun t a b => ⟨(hjs t false a b).2.2.1, (hjs t true a b).2.2.1⟩) [] [] 0
  -- the objective
  have obj : ∀ ks : List ℚ, ks.length = n → (∀ k ∈ ks, DomQ u k) →
      ∃ out, p.toProb.objectiveWithDefault' (ks.map fun j => [j]) [0] α false p.tEnd
        = .ok ⟨Spec.totalCost g (up (α * β)) 1 1 0 ks, out⟩ := by
    intro ks k1 k2
    obtain ⟨out, ho⟩ := objective_oneQ hs (Q := DomQ u) (g := g) α false 0 ks (by rw [k1, hn])
      (fun t a b j hj => hhit t a (by omega) j hj.1 hj.2) k2
    rw [totalCost_scale g _ _ α (fun x y => (mvQ_scale α β x y).1), k1, ← hn] at ho
    exact ⟨out, ho⟩
  let zs : List ℚ := if n = 0 then [] else back L U 0 (n - 1) (clampQ (L n) (U n) 0)
  have zl : zs.length = n := by
    by_cases h : n = 0
    · simp [zs, h]
    · simp only [zs, if_neg h, back_length]; omega
  have zc : n ≠ 0 → clampQ (L n) (U n) 0 = L n := by
    intro h
    have Bn := B (n - 1) (by omega)
    rw [show n - 1 + 1 = n by omega] at Bn
    have h0 : 0 ≤ L n := Bn.dL.1
    rcases Bn.clamp_cases 0 with ⟨_, e⟩ | ⟨h1, _, e⟩ | ⟨h1, e⟩
    · exact e
    · rw [e]; exact le_antisymm h0 h1
    · rw [e]; exact le_antisymm (h1.trans h0) Bn.le
  have zm : ∀ z ∈ zs, DomQ u z := by
    intro z hz
    by_cases h : n = 0
    · simp [zs, h] at hz
    · simp only [zs, if_neg h, zc h] at hz
      have Bn := B (n - 1) (by omega)
      rw [show n - 1 + 1 = n by omega] at Bn
      exact back_mem (s := 0) (k := n - 1) (fun t ht => B t (by omega)) Bn.dL z hz
  have zopt : ∀ ks : List ℚ, ks.length = n → (∀ k ∈ ks, DomQ u k) →
      Spec.totalCost g (up (α * β)) 1 1 0 zs ≤ Spec.totalCost g (up (α * β)) 1 1 0 ks := by
    intro ks k1 k2
    by_cases h : n = 0
    · have : ks = [] := List.length_eq_zero_iff.1 (by omega)
      simp [zs, h, this]
    · simp only [zs, if_neg h, zc h]
      have Bn := B (n - 1) (by omega)
      rw [show n - 1 + 1 = n by omega] at Bn
      have Bp : AllB (DomQ u) (α * β) 0 g L U (0 + (n - 1)) := fun t ht => B t (by omega)
      have c1 := back_cost (s := 0) base_zero (n - 1) Bp (L n) Bn.dL
      have c2 := lower (s := 0) base_zero (n - 1) Bp ks k2 (by omega)
      simp only [WithTop.coe_zero, zero_add, Nat.cast_zero] at c1 c2
      rw [c1]
      refine le_trans ?_ c2
      have hne : ks ≠ [] := by intro e; rw [e] at k1; simp at k1; omega
      have hk : DomQ u (ks.getLastD 0) := last_mem hne k2
      by_cases ht : J (α * β) 0 g L U (n - 1) (ks.getLastD 0) = ⊤
      · rw [ht]; exact le_top
      · rw [coe_fp ht, coe_fp Bn.finL]
        exact_mod_cast Bn.minL _ hk ht
  obtain ⟨out, ho⟩ := obj zs zl zm
  refine ⟨zs.map fun j => [j], (List.range n).map fun i => ⟨L (i + 1), U (i + 1)⟩, _, ?_,
    by simpa using zl, by simp, ?_, ho, ?_⟩
  · have e1 : (boundedFrac opt p).d = 1 := hd
    have e2 : (boundedFrac opt p).tEnd = n := hn
    simp only [brcp, assertR, Option.isNone_none, Bool.not_false, if_true, e1, e2, decide_true, bind, Except.bind]
    rw [hy]
    simp only [List.append_nil]
    congr 2
    by_cases h : n = 0
    · simp [zs, h]
    · simp [zs, h]
  · intro x hx
    obtain ⟨j, hj, rfl⟩ := List.mem_map.1 hx
    rw [hb]
    exact List.Forall₂.cons (zm j hj) List.Forall₂.nil
  · intro ys y1 y2
    rw [hb] at y2
    obtain ⟨ks, rfl, hk⟩ : ∃ ks : List ℚ, ys = ks.map (fun j => [j]) ∧ ∀ k ∈ ks, DomQ u k := by
      clear y1
      induction ys with
      | nil => exact ⟨[], rfl, by simp⟩
      | cons y ys ih =>
        obtain ⟨ks, rfl, hk⟩ := ih (fun z hz => y2 z (List.mem_cons_of_mem _ hz))
        have := y2 y List.mem_cons_self
        cases this with
        | cons h hnil =>
          cases hnil
          exact ⟨_ :: ks, rfl, by simpa using ⟨h, hk⟩⟩
    obtain ⟨out', ho'⟩ := obj ks (by simpa using y1) hk
    exact ⟨_, ho', zopt ks (by simpa using y1) hk⟩

/-- **C53.** The documented failures: inverted costs, constrained movement and several dimensions. -/
theorem C53_brcp_guards (b : Bounded ℚ) (o : OfflineOptions) :
    (o.inverted = true → brcp b o = .error (.fail .unsupportedInvertedCost)) ∧
    (o.inverted = false → o.l ≠ none → brcp b o = .error (.fail .unsupportedLConstrainedMovement)) ∧
    (o.inverted = false → o.l = none → b.d ≠ 1 → brcp b o = .error (.fail (.unsupportedProblemDimension b.d))) := by
  refine ⟨?_, ?_, ?_⟩
  · intro h; simp [brcp, assertR, h, bind, Except.bind]
  · intro h hl
    obtain ⟨l, hl⟩ := Option.ne_none_iff_exists'.1 hl
    simp [brcp, assertR, h, hl, bind, Except.bind]
  · intro h hl hd; simp [brcp, assertR, h, hl, hd, bind, Except.bind]

theorem hit_withinQ {p : SSCO ℚ C D} {m : ℚ} (hb : p.bounds = [m]) {t : Int} {j : ℚ} (h0 : 0 ≤ j) (hj : j ≤ m) :
    p.toProb.hitCost t [j] = p.hittingCost.callMean t [j] := by
  simp [SSCO.toProb, CostFn.callMeanWithinBounds, withinVec, hb, h0, hj, bind, Except.bind]

/-! ### A concrete case: bound 2, switching cost 1/2, costs `2 - x`: all servers are kept on. -/

/-- One fractional dimension, `n` slots, hitting cost `2 - x`. -/
def Ex.fracP (n : Nat) : SSCO ℚ Unit Unit where
  d := 1
  tEnd := n
  bounds := [2]
  switchingCost := [1 / 2]
  hittingCost := CostFn.new 1 (SingleCostFn.certain fun _ x =>
    .ok (Cost.raw ((2 - x.getD 0 0 : ℚ) : ECost)))

/-- Answers with the upper ends of the box. -/
def Ex.topOpt : Minimizer := fun _ box => .ok (box.map (·.2))

theorem Ex.fracP_hit (n : Nat) (t : Int) (ht : 1 ≤ t) (j : ℚ) (h0 : 0 ≤ j) (hj : j ≤ 2) :
    ∃ out, (Ex.fracP n).toProb.hitCost t [j] = .ok ⟨((2 - j : ℚ) : ECost), out⟩ := by
  rw [hit_withinQ (p := Ex.fracP n) rfl h0 hj, Ex.fracP, CostFn.callMean_certain _ _ ht]
  exact ⟨_, rfl⟩

theorem Ex.fracP_low (inverted : Bool) : ∀ (ks : List ℚ) (t : Int) (x : ℚ), x ≤ 2 → (∀ k ∈ ks, DomQ 2 k) →
    (if inverted ∨ ks = [] then (0 : ECost) else (((2 - x) / 2 : ℚ) : ECost)) ≤
      Spec.totalCost (fun _ j => ((2 - j : ℚ) : ECost)) (mvQ (1 / 2) inverted) 1 t x ks := by
  intro ks
  induction ks with
  | nil => intro t x _ _; simp [Spec.totalCost]
  | cons k ks ih =>
    intro t x hx hk
    have hk' := hk k List.mem_cons_self
    have := ih (t + 1) k hk'.2 (fun j hj => hk j (List.mem_cons_of_mem _ hj))
    have h0 : (0 : ECost) ≤ Spec.totalCost (fun _ j => ((2 - j : ℚ) : ECost)) (mvQ (1 / 2) inverted) 1 (t + 1) k ks := by
      refine le_trans ?_ this
      split
      · exact le_rfl
      · have : (0 : ℚ) ≤ (2 - k) / 2 := by have := hk'.2; linarith
        exact_mod_cast this
    simp only [Spec.totalCost]
    refine le_trans ?_ (add_le_add le_rfl h0)
    rw [add_zero]
    have h1 := hk'.2
    cases inverted
    · have h2 := le_max_right 0 (k - x)
      have : ((2 - x) / 2 : ℚ) ≤ 2 - k + 1 * mvQ (1 / 2) false x k := by
        simp only [mvQ, up, Bool.false_eq_true, if_false]; linarith
      simpa using (by exact_mod_cast this : (((2 - x) / 2 : ℚ) : ECost) ≤ ((2 - k : ℚ) : ECost) + ((1 * mvQ (1 / 2) false x k : ℚ) : ECost))
    · have h2 := le_max_left 0 (x - k)
      have : (0 : ℚ) ≤ 2 - k + 1 * mvQ (1 / 2) true x k := by
        simp only [mvQ, up, if_true]; linarith
      simpa using (by exact_mod_cast this : ((0 : ℚ) : ECost) ≤ ((2 - k : ℚ) : ECost) + ((1 * mvQ (1 / 2) true x k : ℚ) : ECost))

theorem Ex.fracP_top (inverted : Bool) : ∀ (n : Nat) (t : Int),
    Spec.totalCost (fun _ j => ((2 - j : ℚ) : ECost)) (mvQ (1 / 2) inverted) 1 t 2 (List.replicate n 2) = 0 := by
  intro n
  induction n with
  | zero => intro t; rfl
  | succ n ih =>
    intro t
    simp only [List.replicate_succ, Spec.totalCost, ih]
    cases inverted <;> simp [mvQ, up]

theorem Ex.fracP_solves (n t : Nat) (h1 : 1 ≤ t) (h2 : t ≤ n) (inverted : Bool) :
    Spec.Solves Ex.topOpt (boundObjective
      { (Ex.fracP n).reset 0 with tEnd := ((Ex.fracP n).reset 0).tEnd + 0 } 1 inverted 0 (t + 0))
      (List.replicate t (0, 2)) := by
  have obj := fun ks => boundObjective_eq (p := Ex.fracP n) (u := 2) (β := 1 / 2)
    (g := fun _ j => ((2 - j : ℚ) : ECost)) (n := t) rfl (by show (t : Int) ≤ (n : Int); exact_mod_cast h2)
    (fun t' a _ j b c => Ex.fracP_hit n t' a j b c) 1 inverted ks
  have hm : ∀ k ∈ List.replicate t (2 : ℚ), DomQ 2 k := by
    intro k hk; rw [List.eq_of_mem_replicate hk]; exact ⟨by norm_num, le_rfl⟩
  refine ⟨List.replicate t 2, _, by simp [Ex.topOpt], inBoxQ_replicate.2 ⟨by simp, hm⟩,
    obj _ (by simp) hm, ?_⟩
  intro ys c' hy hc
  obtain ⟨y1, y2⟩ := inBoxQ_replicate.1 hy
  rw [obj ys y1 y2] at hc
  cases hc
  have hne : ys ≠ [] := by intro e; rw [e] at y1; simp at y1; omega
  refine le_trans ?_ (Ex.fracP_low inverted ys 1 0 (by norm_num) y2)
  obtain ⟨k, rfl⟩ : ∃ k, t = k + 1 := ⟨t - 1, by omega⟩
  simp only [List.replicate_succ, Spec.totalCost, Ex.fracP_top]
  cases inverted
  · have : (2 - 2 + 1 * mvQ (1 / 2) false 0 2 : ℚ) = (2 - 0) / 2 := by norm_num [mvQ, up]
    simp only [hne, or_false, Bool.false_eq_true, if_false, ← this, add_zero]
    exact_mod_cast le_rfl
  · have : (2 - 2 + 1 * mvQ (1 / 2) true 0 2 : ℚ) = 0 := by norm_num [mvQ, up]
    have e : ((2 - 2 : ℚ) : ECost) + ((1 * mvQ (1 / 2) true 0 2 : ℚ) : ECost) = 0 := by exact_mod_cast this
    rw [e]; simp

/-- C53 applies, for every horizon. -/
example (n : Nat) := C53_brcp_optimal Ex.topOpt (Ex.fracP n) 2 (1 / 2) 1 n (fun _ j => ((2 - j : ℚ) : ECost))
  rfl rfl rfl rfl (by norm_num) (by norm_num) (by norm_num)
  (fun t a _ j b c => Ex.fracP_hit n t a j b c) (fun _ _ _ => WithTop.coe_ne_top)
  (by
    intro t _ _ x y z _ _ _ _ a c ha hc
    refine ⟨_, rfl, ?_⟩
    have ha' := WithTop.coe_injective ha
    have hc' := WithTop.coe_injective hc
    rw [← ha', ← hc']; apply le_of_eq; ring)
  (fun t a b i => Ex.fracP_solves n t a b i)

/-! ### The fractional bound after a restart

With `t_start > 0` the objective handed to the optimiser runs over `t_end + w` slots although only
`t_end - t_start` configurations are chosen. The missing configurations are read as `x_start`, so moving back up to
`x_start` after the last slot is charged. -/

/-- Bound 2, switching cost 1, three slots of cost `x / 4`. -/
def Ex.quarter : SSCO ℚ Unit Unit where
  d := 1
  tEnd := 3
  bounds := [2]
  switchingCost := [1]
  hittingCost := CostFn.new 1 (SingleCostFn.certain fun _ x => .ok (Cost.raw ((x.getD 0 0 / 4 : ℚ) : ECost)))

theorem Ex.quarter_hit (t : Int) (ht : 1 ≤ t) (j : ℚ) (h0 : 0 ≤ j) (hj : j ≤ 2) :
    ∃ out, (Ex.quarter.reset 1).toProb.hitCost t [j] = .ok ⟨((j / 4 : ℚ) : ECost), out⟩ := by
  have hc : Ex.quarter.hittingCost.CertainAt (1 + 1) := by
    intro x r hr
    rw [Ex.quarter, CostFn.callPredictive_certain _ _ (by omega)] at hr
    simp only [Except.map, Except.ok.injEq] at hr
    rw [← hr]; rfl
  have h := (C08_reset_slot Ex.quarter.hittingCost 1 t (by omega) ht hc [j]).2.1
  rw [hit_withinQ (p := Ex.quarter.reset 1) (m := 2) rfl h0 hj]
  show ∃ out, (Ex.quarter.hittingCost.reset 1).callMean t [j] = _
  rw [h, Ex.quarter, CostFn.callMean_certain _ _ (by omega)]
  exact ⟨_, rfl⟩

theorem Ex.quarter_obj (a b : ℚ) (ha : DomQ 2 a) (hb : DomQ 2 b) :
    boundObjective { Ex.quarter.reset 1 with tEnd := (Ex.quarter.reset 1).tEnd + 0 } 1 false 2 (3 + 0) [a, b]
      = .ok ((a / 4 + b / 4 + max 0 (b - a) + (2 - b) : ℚ) : ECost) ∧
    ∃ out, (Ex.quarter.reset 1).toProb.objectiveWithDefault' [[a], [b]] [2] 1 false 2
      = .ok ⟨((a / 4 + b / 4 + max 0 (b - a) : ℚ) : ECost), out⟩ := by
  have hq : ∀ n : Nat, n ≤ 3 → ∃ out, (Ex.quarter.reset 1).toProb.objectiveWithDefault' [[a], [b]] [2] 1 false n
      = .ok ⟨Spec.totalCost (fun t x => if t > (Ex.quarter.reset 1).toProb.tEnd then 0 else ((x.headD 0 / 4 : ℚ) : ECost))
        (fun y x => mvQ 1 false (y.headD 0) (x.headD 0)) 1 1 [2] (Spec.padTo n [2] [[a], [b]]), out⟩ := by
    intro n hn
    refine C02_objective_eq_totalCost (Ex.quarter.reset 1).toProb [[a], [b]] [2] 1 false n
      (fun _ x => ((x.headD 0 / 4 : ℚ) : ECost)) (fun y x => mvQ 1 false (y.headD 0) (x.headD 0)) ?_ ?_
    · intro t h1 _ _ x hx
      have : x = [a] ∨ x = [b] ∨ x = [2] := by
        simp only [Spec.padTo, List.mem_append, List.mem_replicate] at hx
        rcases hx with hx | hx
        · have := List.mem_of_mem_take hx
          simp at this; tauto
        · exact Or.inr (Or.inr hx.2)
      rcases this with rfl | rfl | rfl
      · exact Ex.quarter_hit t h1 a ha.1 ha.2
      · exact Ex.quarter_hit t h1 b hb.1 hb.2
      · exact Ex.quarter_hit t h1 2 (by norm_num) le_rfl
    · have all : ∀ x ∈ [2] :: Spec.padTo n [2] [[a], [b]], ∃ z : ℚ, x = [z] := by
        intro x hx
        simp only [Spec.padTo, List.mem_cons, List.mem_append, List.mem_replicate] at hx
        rcases hx with rfl | hx | hx
        · exact ⟨2, rfl⟩
        · have := List.mem_of_mem_take hx
          simp at this
          rcases this with rfl | rfl
          · exact ⟨a, rfl⟩
          · exact ⟨b, rfl⟩
        · exact ⟨2, hx.2⟩
      intro y hy x hx
      obtain ⟨z, rfl⟩ := all y hy
      obtain ⟨z', rfl⟩ := all x (List.mem_cons_of_mem _ hx)
      exact movement_oneQ (p := Ex.quarter.reset 1) rfl false z z'
  have hte : (Ex.quarter.reset 1).toProb.tEnd = 2 := rfl
  have m1 : max 0 (a - 2) = 0 := max_eq_left (by linarith [ha.2])
  have m2 : max 0 (2 - b) = 2 - b := max_eq_right (by linarith [hb.2])
  constructor
  · obtain ⟨out, ho⟩ := hq 3 le_rfl
    have e : ({ Ex.quarter.reset 1 with tEnd := (Ex.quarter.reset 1).tEnd + 0 } : SSCO ℚ Unit Unit)
      = Ex.quarter.reset 1 := rfl
    rw [e]
    simp only [boundObjective, List.map_cons, List.map_nil]
    rw [show ((3 : Int) + 0) = ((3 : Nat) : Int) by norm_num, ho]
    simp only [bind, Except.bind, Spec.padTo, List.take, List.length_cons, List.length_nil, List.replicate,
      List.cons_append, List.nil_append, Spec.totalCost, hte, mvQ, up, List.headD_cons, Bool.false_eq_true, if_false]
    norm_num [m1, m2]
    simp only [add_assoc]
  · obtain ⟨out, ho⟩ := hq 2 (by norm_num)
    refine ⟨out, ?_⟩
    rw [show (2 : Int) = ((2 : Nat) : Int) by norm_num, ho]
    simp only [bind, Except.bind, Spec.padTo, List.take, List.length_cons, List.length_nil, List.replicate,
      List.cons_append, List.nil_append, Spec.totalCost, hte, mvQ, up, List.headD_cons, Bool.false_eq_true, if_false]
    norm_num [m1, m2]
    simp [Spec.totalCost, add_assoc]

/-- **C28 fails for fractional problems after a restart.** Any exact optimiser makes the fractional lower bound
from slot 1 and state 2 equal to 2, although every cheapest way through the remaining two slots ends in 0. -/
theorem C28_fractional_restart_counterexample (opt : Minimizer)
    (hopt : Spec.Solves opt (boundObjective
      { Ex.quarter.reset 1 with tEnd := (Ex.quarter.reset 1).tEnd + 0 } 1 false 2 (3 + 0)) [(0, 2), (0, 2)]) :
    (boundedFrac opt Ex.quarter).find 1 false 0 3 1 2 = .ok 2 ∧
    ∀ a b : ℚ, 0 ≤ a → a ≤ 2 → 0 ≤ b → b ≤ 2 → ∃ c c',
      (Ex.quarter.reset 1).toProb.objectiveWithDefault' [[a], [b]] [2] 1 false 2 = .ok c ∧
      (Ex.quarter.reset 1).toProb.objectiveWithDefault' [[0], [0]] [2] 1 false 2 = .ok c' ∧
      c'.cost ≤ c.cost ∧ (b ≠ 0 → c'.cost < c.cost) := by
  constructor
  · obtain ⟨xs, c, h1, h2, h3, h4⟩ := hopt
    obtain ⟨l1, l2⟩ := (inBoxQ_replicate (n := 2)).1 h2
    obtain ⟨a, b, rfl⟩ := List.length_eq_two.1 l1
    have ha := l2 a (by simp)
    have hb := l2 b (by simp)
    rw [(Ex.quarter_obj a b ha hb).1] at h3
    cases h3
    have := h4 [2, 2] _ ((inBoxQ_replicate (n := 2)).2 ⟨rfl, by simp [DomQ]⟩)
      (Ex.quarter_obj 2 2 ⟨by norm_num, le_rfl⟩ ⟨by norm_num, le_rfl⟩).1
    rw [WithTop.coe_le_coe] at this
    norm_num at this
    have hb2 : b = 2 := by
      have := le_max_left 0 (b - a)
      have := le_max_right 0 (b - a)
      have := ha.1; have := ha.2; have := hb.1; have := hb.2
      linarith
    subst hb2
    show Except.bind (opt (boundObjective
      { Ex.quarter.reset 1 with tEnd := (Ex.quarter.reset 1).tEnd + 0 } 1 false 2 (3 + 0)) [(0, 2), (0, 2)]) _ = _
    rw [h1]
    rfl
  · intro a b a0 a2 b0 b2
    obtain ⟨o1, h1⟩ := (Ex.quarter_obj a b ⟨a0, a2⟩ ⟨b0, b2⟩).2
    obtain ⟨o2, h2⟩ := (Ex.quarter_obj 0 0 ⟨le_rfl, by norm_num⟩ ⟨le_rfl, by norm_num⟩).2
    have h := le_max_left 0 (b - a)
    refine ⟨_, _, h1, h2, ?_, ?_⟩
    · rw [WithTop.coe_le_coe]; norm_num; linarith
    · intro hb
      have : 0 < b := lt_of_le_of_ne b0 (Ne.symm hb)
      rw [WithTop.coe_lt_coe]; norm_num; linarith

/-- Such optimisers exist. -/
example : Spec.Solves Ex.topOpt (boundObjective
    { Ex.quarter.reset 1 with tEnd := (Ex.quarter.reset 1).tEnd + 0 } 1 false 2 (3 + 0)) [(0, 2), (0, 2)] := by
  refine ⟨[2, 2], _, rfl, (inBoxQ_replicate (n := 2)).2 ⟨rfl, by simp [DomQ]⟩,
    (Ex.quarter_obj 2 2 ⟨by norm_num, le_rfl⟩ ⟨by norm_num, le_rfl⟩).1, ?_⟩
  intro ys c' hy hc
  obtain ⟨l1, l2⟩ := (inBoxQ_replicate (n := 2)).1 hy
  obtain ⟨a, b, rfl⟩ := List.length_eq_two.1 l1
  have ha := l2 a (by simp)
  have hb := l2 b (by simp)
  rw [(Ex.quarter_obj a b ha hb).1] at hc
  cases hc
  rw [WithTop.coe_le_coe]
  have := le_max_left 0 (b - a)
  have := le_max_right 0 (b - a)
  have := ha.1; have := ha.2; have := hb.1; have := hb.2
  norm_num
  linarith

end

end Soco
