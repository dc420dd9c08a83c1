import Verif.Lemmas.Guards

/-! # C52: unsupported options and problems are rejected, and nothing else -/

namespace Soco
open Spec

section
variable {α : Type}

theorem checked_nil {r : Res α} (h : Quiet r) : Checked r [] := fun f => ⟨fun e => h.only f e, False.elim⟩

theorem checked_cons {p : Prop} {b : Bool} (hb : b = true ↔ p) {g : Failure} {k : Unit → Res α} {cs : List (Prop × Failure)}
    (h : p → Checked (k ()) cs) : Checked (assertR b g >>= k) ((p, g) :: cs) := by
  intro f
  rw [assertR_bind]
  simp only [FirstViolated]
  cases b with
  | false =>
    have hp : ¬ p := fun hp => by simpa using hb.2 hp
    simp [hp]
  | true =>
    have hp : p := hb.1 rfl
    simp [hp, (h hp) f]

theorem checked_dec {p : Prop} [Decidable p] {g : Failure} {k : Unit → Res α} {cs : List (Prop × Failure)}
    (h : p → Checked (k ()) cs) : Checked (assertR (decide p) g >>= k) ((p, g) :: cs) := checked_cons decide_eq_true_iff h

theorem checked_quiet {r : Res α} {cs : List (Prop × Failure)} (h : Checked r cs) (hc : ∀ c ∈ cs, c.1) : Quiet r := by
  refine ⟨fun f hf => ?_⟩
  have := (h f).1 hf
  clear h hf
  induction cs with
  | nil => exact this
  | cons c cs ih =>
    obtain ⟨p, g⟩ := c
    rcases this with h | h
    · exact h.1 (hc (p, g) (by simp))
    · exact ih (fun d hd => hc d (by simp [hd])) h.2

end

/-! ## Algorithms for fractional problems in several dimensions -/

namespace Descent
open Num
variable {C D : Type} [OutSuccess C] [OutFailure D]

section
variable (hm : UserMerge C) (o : Online (SCO ℚ C D)) (hc : UserCosts o.p.hittingCost) (hs : ∀ x, Quiet (o.p.switchingCost x))
  (h : Config ℚ → Res ℚ) (hh : ∀ x, Quiet (h x))
include hm hc

theorem quiet_projection (S : Solver) (ε : ℚ) (l : ℚ) (t : Int) (x : Config ℚ) (hh : ∀ x, Quiet (h x)) :
    Quiet (bregmanProjection S ε h l o.p.bounds o.p.hittingCost t x) := by
  have h1 := quiet_hittingMinimizer S t hc o.p.bounds
  have h2 : ∀ x, Quiet (o.p.hittingCost.callCertain t x) := quiet_certain hc t
  have h3 : ∀ y, Quiet (gradientQ ε h y) := fun y => quiet_centralDiff _ _ hh y
  have h4 : ∀ x y, Quiet (bregmanDivergence ε h x y) := by
    intro x y; unfold bregmanDivergence; quiet
  unfold bregmanProjection
  refine FailsOnly.bind h1 fun v => FailsOnly.bind ?_ fun y => ?_
  · refine quiet_minimize S ?_ _ _ ?_
    · intro y; quiet
    · intro c hc' x
      simp only [List.mem_singleton] at hc'
      subst hc'
      quiet
  · quiet

theorem C52_obd (S : Solver) (ε : ℚ) (l : ECost) (xs : Schedule ℚ) (m : Option Unit) (hh : ∀ x, Quiet (h x)) :
    Checked ((obd S ε h l).next o xs m) [(o.w = 0, .unsupportedPredictionWindow o.w)] := by
  simp only [OnlineAlgorithm.next, obd]
  refine checked_dec fun _ => checked_nil ?_
  have := fun l => quiet_projection hm o hc h S ε l (Schedule.tEnd xs + 1) (prevX o.p.d xs) hh
  quiet

include hs in
theorem C52_pobd (S : Solver) (B : Brent) (ε β : ℚ) (xs : Schedule ℚ) (m : Option Unit) (hh : ∀ x, Quiet (h x)) :
    Checked ((pobd S B ε h β).next o xs m) [(o.w = 0, .unsupportedPredictionWindow o.w)] := by
  simp only [OnlineAlgorithm.next, pobd]
  refine checked_dec fun hw => checked_nil ?_
  have h1 := quiet_hittingMinimizer S (Schedule.tEnd xs + 1) hc o.p.bounds
  have h2 := fun l => checked_quiet (C52_obd hm o hc h S ε l xs none hh) (by simpa using hw)
  simp only [OnlineAlgorithm.next] at h2
  have h3 := quiet_hit_sco hm hc (Schedule.tEnd xs + 1)
  have h4 : ∀ a b f, (∀ x, Quiet (f x)) → Quiet (findRoot B a b f) := fun a b f hf => quiet_findRoot B a b hf
  quiet

include hs in
theorem C52_gobd (S : Solver) (B : Brent) (ε c γ : ℚ) (xs : Schedule ℚ) (m : Option Unit) (hh : ∀ x, Quiet (h x)) :
    Checked ((gobd S B ε h c γ).next o xs m) [(o.w = 0, .unsupportedPredictionWindow o.w)] := by
  simp only [OnlineAlgorithm.next, gobd]
  refine checked_dec fun hw => checked_nil ?_
  have h1 := quiet_hittingMinimizer S (Schedule.tEnd xs + 1) hc o.p.bounds
  have h2 := checked_quiet (C52_pobd hm o hc hs h S B ε γ xs none hh) (by simpa using hw)
  simp only [OnlineAlgorithm.next] at h2
  quiet

theorem C52_dobd (S : Solver) (B : Brent) (ε η : ℚ) (dual : Config ℚ → Res ℚ) (xs : Schedule ℚ) (m : Option Unit)
    (hh : ∀ x, Quiet (h x)) (hd : ∀ x, Quiet (dual x)) :
    Checked ((dobd S B ε h dual η).next o xs m) [(o.w = 0, .unsupportedPredictionWindow o.w)] := by
  simp only [OnlineAlgorithm.next, dobd]
  refine checked_dec fun hw => checked_nil ?_
  have h1 := quiet_hittingMinimizer S (Schedule.tEnd xs + 1) hc o.p.bounds
  have h2 := fun l => checked_quiet (C52_obd hm o hc h S ε l xs none hh) (by simpa using hw)
  simp only [OnlineAlgorithm.next] at h2
  have h3 := quiet_hit_sco hm hc (Schedule.tEnd xs + 1)
  have h5 : ∀ y, Quiet (gradientQ ε h y) := fun y => quiet_centralDiff _ _ hh y
  have h6 : ∀ (f : List ℚ → Res ECost) y, (∀ x, Quiet (f x)) → Quiet (gradient ε f y) := fun f y hf => quiet_centralDiff _ _ hf y
  have h4 : ∀ a b, Quiet (findRoot B a b (gap S ε h dual η o (Schedule.tEnd xs + 1) xs (prevX o.p.d xs))) := by
    intro a b
    refine quiet_findRoot B a b fun l => ?_
    simp only [gap, OnlineAlgorithm.next]
    quiet
  quiet

include hs in
theorem C52_robd (S : Solver) (lambda1 lambda2 : ℚ) (xs : Schedule ℚ) (m : Option Unit) :
    Checked ((robd S lambda1 lambda2).next o xs m) [(o.w = 0, .unsupportedPredictionWindow o.w)] := by
  simp only [OnlineAlgorithm.next, robd]
  refine checked_dec fun _ => checked_nil ?_
  have h1 := quiet_hittingMinimizer S (Schedule.tEnd xs + 1) hc o.p.bounds
  have h3 := quiet_hit_sco hm hc (Schedule.tEnd xs + 1)
  have h4 : ∀ f b, (∀ x, Quiet (f x)) → Quiet (findMinimizer S f b) := fun f b hf => quiet_findMinimizer S hf b
  quiet

theorem C52_ogd (S : Solver) (root : ℚ → ℚ) (ε : ℚ) (eta : Int → ℚ) (xs : Schedule ℚ) (m : Option Unit) :
    Checked ((ogd S root ε eta).next o xs m) [(o.w = 0, .unsupportedPredictionWindow o.w)] := by
  simp only [OnlineAlgorithm.next, ogd]
  refine checked_dec fun _ => checked_nil ?_
  have h3 : ∀ t x, Quiet (o.p.toProb.hitCost t x) := quiet_hit_sco hm hc
  have h4 : ∀ f b, (∀ x, Quiet (f x)) → Quiet (findMinimizer S f b) := fun f b hf => quiet_findMinimizer S hf b
  have h5 : ∀ (f : List ℚ → Res ECost) y, (∀ x, Quiet (f x)) → Quiet (gradient ε f y) := fun f y hf => quiet_centralDiff _ _ hf y
  have h6 : ∀ η g, Quiet (scale η g) := by intro η g; unfold scale; quiet
  quiet

end

theorem C52_memoryless (hm : UserMerge C) (S : Solver) (o : Online (SSCO ℚ C D)) (hc : UserCosts o.p.hittingCost)
    (xs : Schedule ℚ) (m : Option Unit) : Checked ((memoryless S).next o xs m)
      [(o.w = 0, .unsupportedPredictionWindow o.w), (o.p.d = 1, .unsupportedProblemDimension o.p.d)] := by
  simp only [OnlineAlgorithm.next, memoryless]
  refine checked_dec fun _ => checked_dec fun _ => checked_nil ?_
  have h3 := quiet_hit_ssco hm hc (Schedule.tEnd xs + 1)
  refine FailsOnly.bind (FailsOnly.idx _ _) fun prev => FailsOnly.bind (FailsOnly.idx _ _) fun u => FailsOnly.bind ?_ fun r => ?_
  · refine quiet_minimize S ?_ _ _ ?_
    · intro x; quiet
    · intro c hc' x
      simp only [List.mem_singleton] at hc'
      subst hc'
      quiet
  · quiet

end Descent
end Soco
