import Verif.Props.Guards
import Verif.Model.ApproxGraph

/-! # C52: unsupported options and problems are rejected, and nothing else (continued) -/

namespace Soco
open Spec Num

section
variable {C D : Type} [OutSuccess C] [OutFailure D]

/-! ## One-dimensional online algorithms -/

theorem quiet_strategy {σ : Type} {f : List ℚ → σ → Res (ECost × σ)} (hf : ∀ x c, Quiet (f x c)) (s : Rbg.Strategy) (c : σ) :
    Quiet (s.run f c) := by
  induction s generalizing c with
  | stop x st => exact .ok _
  | ask y k ih =>
    unfold Rbg.Strategy.run
    exact (hf _ _).bind fun r => ih _ _

theorem quiet_minimizeC {σ : Type} (P : Rbg.Player) {f : List ℚ → σ → Res (ECost × σ)} (hf : ∀ x c, Quiet (f x c))
    (bounds : List (ℚ × ℚ)) (c : σ) : Quiet (Rbg.minimizeC P f bounds c) := by
  have h := quiet_strategy hf (P bounds (bounds.map Prod.snd)) c
  unfold Rbg.minimizeC
  quiet

theorem quiet_work (P : Rbg.Player) (evict : Rbg.Cache → Rbg.Cache) (bounds : List (ℚ × ℚ)) {hit : Int → List ℚ → Res ECost}
    (hh : ∀ t x, Quiet (hit t x)) {sc : List ℚ → Res ℚ} (hs : ∀ x, Quiet (sc x)) (θ : ℚ) (t : Nat) :
    ∀ x c, Quiet (Rbg.work P evict bounds hit sc θ t x c) := by
  induction t with
  | zero =>
    intro x c
    unfold Rbg.work Rbg.memo
    quiet
  | succ t ih =>
    intro x c
    have h : ∀ f b (c : Rbg.Cache), (∀ x c, Quiet (f x c)) → Quiet (Rbg.minimizeC P f b c) := fun f b c hf => quiet_minimizeC P hf b c
    unfold Rbg.work Rbg.memo
    quiet

theorem Rbg.C52_rbg (hm : UserMerge C) (o : Online (SCO ℚ C D)) (hc : UserCosts o.p.hittingCost)
    (hs : ∀ x, Quiet (o.p.switchingCost x)) (P : Rbg.Player) (evict : Rbg.Cache → Rbg.Cache) (θ : ℚ) (draw : Online (SCO ℚ C D) → ℚ)
    (world : Rbg.Cache) (xs : Schedule ℚ) (m : Option ℚ) : Checked ((rbg P evict θ draw world).next o xs m)
      [(o.w = 0, .unsupportedPredictionWindow o.w), (o.p.d = 1, .unsupportedProblemDimension o.p.d)] := by
  simp only [OnlineAlgorithm.next, rbg]
  refine checked_dec fun _ => checked_dec fun _ => checked_nil ?_
  have h1 : ∀ t x, Quiet (hitOf o.p t x) := by
    intro t x
    have := quiet_hit_sco hm hc t x
    unfold hitOf
    quiet
  have h2 := fun t => quiet_work P evict o.p.bounds h1 hs θ t
  have h : ∀ f b (c : Rbg.Cache), (∀ x c, Quiet (f x c)) → Quiet (Rbg.minimizeC P f b c) := fun f b c hf => quiet_minimizeC P hf b c
  quiet

/-- External derivatives and integrals return no failures of their own. -/
structure Probabilistic.Tools.Silent (T : Probabilistic.Tools) : Prop where
  derivative : ∀ f x, (∀ y, Quiet (f y)) → Quiet (T.derivative f x)
  second : ∀ f x, (∀ y, Quiet (f y)) → Quiet (T.second f x)
  integrate : ∀ bp a b f, (∀ y, Quiet (f y)) → Quiet (T.integrate bp a b f)

theorem Probabilistic.C52_probabilistic (S : Solver) (B : Brent) (T : Tools) (hT : T.Silent) (options : Breakpoints)
    (o : Online (SSCO ℚ C D)) (hc : UserCosts o.p.hittingCost) (xs : Schedule ℚ) (m : Option Memory)
    (hp : ∀ m' ∈ m, ∀ x, Quiet (m'.p x)) : Checked ((probabilistic S B T options).next o xs m)
      [(o.w = 0, .unsupportedPredictionWindow o.w), (o.p.d = 1, .unsupportedProblemDimension o.p.d)] := by
  simp only [OnlineAlgorithm.next, probabilistic]
  refine checked_dec fun _ => checked_dec fun _ => checked_nil ?_
  obtain ⟨m', hm'⟩ : ∃ m', m.getD Memory.default = m' := ⟨_, rfl⟩
  have hq : ∀ x, Quiet (m'.p x) := by
    cases m with
    | none =>
      cases hm'
      intro x
      exact .ok _
    | some m'' =>
      cases hm'
      exact hp m'' rfl
  rw [hm']
  clear hp hm'
  have h1 := quiet_hittingMinimizer S (Schedule.tEnd xs + 1) hc
  have h2 : ∀ x, Quiet (cost o.p (Schedule.tEnd xs + 1) x) := by
    intro x
    have := quiet_certain hc (Schedule.tEnd xs + 1) [x]
    unfold cost
    quiet
  have h3 := fun x => hT.derivative _ x h2
  have h4 := fun x => hT.second _ x h2
  have h5 := hT.integrate
  have h6 : ∀ x, Quiet (derivative T (cost o.p (Schedule.tEnd xs + 1)) x) := by intro x; unfold derivative; quiet
  have h7 : ∀ x, Quiet (secondDerivative T (cost o.p (Schedule.tEnd xs + 1)) x) := by intro x; unfold secondDerivative; quiet
  have h8 : ∀ bp x, Quiet (rightGap T o.p (Schedule.tEnd xs + 1) bp m'.p x) := by intro bp x; unfold rightGap; quiet
  have h9 : ∀ bp x, Quiet (leftGap T o.p (Schedule.tEnd xs + 1) bp m'.p x) := by intro bp x; unfold leftGap; quiet
  have h10 : ∀ xl xr x, Quiet (density T o.p (Schedule.tEnd xs + 1) m'.p xl xr x) := by intro xl xr x; unfold density; quiet
  have h11 : ∀ a b f, (∀ x, Quiet (f x)) → Quiet (findRoot B a b f) := fun a b f hf => quiet_findRoot B a b hf
  clear hc h2 h3 h4 h6 h7
  quiet

theorem Rand.C52_randomized {M : Type} (R : OnlineAlgorithm (SSCO ℚ C D) ℚ M) (draw : Int → ℚ) (o : Online (SSCO ℤ C D))
    (hR : o.w = 0 → o.p.d = 1 → ∀ xs m, Quiet (R.next ⟨o.p.intoF, o.w⟩ xs m)) (xs : Schedule ℤ) (m : Option (Memory M)) :
    Checked ((randomized R draw).next o xs m)
      [(o.w = 0, .unsupportedPredictionWindow o.w), (o.p.d = 1, .unsupportedProblemDimension o.p.d)] := by
  unfold OnlineAlgorithm.next
  simp only [randomized]
  refine checked_cons (by simp) fun h1 => checked_cons (by simp) fun h2 => checked_nil ?_
  have := hR h1 h2
  quiet

/-! ## Offline algorithms -/

theorem OfflineFrac.C52_co (hm : UserMerge C) (S : Solver) (p : SCO ℚ C D) (hc : UserCosts p.hittingCost)
    (hs : ∀ x, Quiet (p.switchingCost x)) (o : OfflineOptions) :
    Checked (co S p o) [(o.inverted = false, .unsupportedInvertedCost)] := by
  unfold co
  refine checked_cons (by simp) fun _ => checked_nil ?_
  have hq := quietProb_sco hm hc hs
  have h0 : ∀ d w (raw : List ℚ), Quiet (Schedule.fromRaw d w raw) := by intro d w raw; unfold Schedule.fromRaw; quiet
  have h1 := quiet_objective hq
  have h2 := quiet_totalMovement hq
  refine FailsOnly.bind (quiet_minimize S ?_ _ _ ?_) fun _ => h0 _ _ _
  · intro x; unfold coObjective Prob.alphaUnfairObjective; quiet
  · intro c hc' x
    unfold coConstraints at hc'
    split at hc'
    · simp only [List.mem_singleton] at hc'
      subst hc'
      unfold coConstraint
      quiet
    · simp at hc'

theorem OfflineFrac.C52_static_fractional (hm : UserMerge C) (S : Solver) (p : SCO ℚ C D) (hc : UserCosts p.hittingCost)
    (hs : ∀ x, Quiet (p.switchingCost x)) (o : OfflineOptions) : Checked (staticFractional S p o)
      [(o.inverted = false, .unsupportedInvertedCost), (o.l = none ∨ o.l = some 0, .unsupportedLConstrainedMovement)] := by
  unfold staticFractional
  refine checked_cons (by simp) fun _ => checked_cons (by simp [Option.isNone_iff_eq_none]) fun _ => checked_nil ?_
  have h1 := quiet_objective (quietProb_sco hm hc hs)
  refine FailsOnly.bind (quiet_minimize S ?_ _ _ (by simp)) fun _ => .ok _
  intro x; unfold staticObjective Prob.alphaUnfairObjective; quiet

theorem quiet_scan {eval : ℤ → Res (Config ℤ × ECost)} (h : ∀ j, Quiet (eval j)) (js : List ℤ) (x : Config ℤ) (c : ECost) :
    Quiet (Static.scan eval js x c) := by
  induction js generalizing x c with
  | nil => exact .ok _
  | cons j js ih =>
    unfold Static.scan
    quiet

theorem Static.C52_static_integral (hm : UserMerge C) (p : SCO ℤ C D) (hc : UserCosts p.hittingCost)
    (hs : ∀ x, Quiet (p.switchingCost x)) (o : OfflineOptions) : Checked (staticIntegral p o)
      [(o.inverted = false, .unsupportedInvertedCost), (o.l = none ∨ o.l = some 0, .unsupportedLConstrainedMovement)] := by
  unfold staticIntegral
  refine checked_cons (by simp) fun _ => checked_cons (by simp [Option.isNone_iff_eq_none]) fun _ => checked_nil ?_
  have h1 := quiet_objective (quietProb_sco hm hc hs)
  have h2 : ∀ rem base, Quiet (checkConfigs p o.alpha rem base) := by
    intro rem
    induction rem with
    | zero => intro base; unfold checkConfigs Prob.objective; quiet
    | succ rem ih =>
      intro base
      unfold checkConfigs
      exact FailsOnly.bind (FailsOnly.idx _ _) fun b => quiet_scan (fun j => ih _) _ _ _
  quiet

theorem quiet_paths {V : Type} (ps : Paths V) (v : V) : Quiet (ps.at v) := by unfold Paths.at; quiet

theorem Uni.quiet_search (hm : UserMerge C) {p : SSCO ℤ C D} (hc : UserCosts p.hittingCost) (m : ℤ) (alpha : ℚ) (inverted : Bool)
    (xStart : ℤ) : Quiet (Uni.search p m alpha inverted xStart) := by
  have h1 := quiet_hit_ssco hm hc
  have h2 := quiet_move_ssco p
  have h3 : ∀ (ps : Paths Vertex) v, Quiet (ps.at v) := quiet_paths
  have h4 : ∀ t i j, Quiet (buildCost p t i j alpha inverted) := by intro t i j; unfold buildCost; quiet
  have h5 : ∀ t src ps dst, Quiet (findShortestSubpath p t src alpha inverted ps dst) := by
    intro t src ps dst
    unfold findShortestSubpath updatePaths pickSource
    quiet
  have h6 : ∀ rows, (∀ t, Quiet (rows t)) → Quiet (findSchedule p rows alpha inverted xStart) := by
    intro rows hr
    unfold findSchedule slot pickEnd
    quiet
  have h7 : ∀ xs k t, Quiet (nextRows m xs k t) := by intro xs k t; unfold nextRows; quiet
  unfold search
  clear h1 h2 h3 h4 h5
  quiet

theorem Uni.C52_optimal_graph_search (hm : UserMerge C) (p : SSCO ℤ C D) (hc : UserCosts p.hittingCost) (xStart : ℤ)
    (o : OfflineOptions) : Checked (Uni.optimalGraphSearch p xStart o)
      [(o.l = none, .unsupportedLConstrainedMovement), (p.d = 1, .unsupportedProblemDimension p.d)] := by
  unfold optimalGraphSearch
  refine checked_cons Option.isNone_iff_eq_none fun _ => checked_dec fun _ => checked_nil ?_
  have h1 := quiet_hit_ssco hm hc
  have h2 : ∀ u, UserCosts (CostFn.new 1 (SingleCostFn.certain (extendedHit p u))) := by
    intro u
    refine userCosts_certain 1 fun t x => ?_
    unfold extendedHit
    quiet
  unfold roundBound makePowOf2
  refine ⟨fun f hf => ?_⟩
  cases hb : idx p.bounds 0 with
  | error e =>
    rw [hb] at hf
    cases hf
    exact (FailsOnly.idx (P := fun _ => False) p.bounds 0).only f hb
  | ok u =>
    rw [hb] at hf
    simp only [bind, Except.bind] at hf
    split at hf
    · cases hf
      rename_i he
      split at he <;> cases he
    · rename_i q he
      have hq : UserCosts q.hittingCost := by
        split at he
        · cases he; exact hc
        · cases he; exact h2 u
      have : Quiet (idx q.bounds 0 >>= fun m => search q m o.alpha o.inverted xStart) :=
        FailsOnly.bind (FailsOnly.idx _ _) fun m => quiet_search hm hq m _ _ _
      exact this.only f hf

end
end Soco
