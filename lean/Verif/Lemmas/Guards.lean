import Verif.Spec.Guards
import Verif.Model.BalancedBudgeting
import Verif.Model.Lcp
import Verif.Model.Rbg
import Verif.Model.Rand
import Verif.Model.Static
import Verif.Model.OfflineFrac
import Verif.Model.Probabilistic
import Verif.Model.Horizon

/-! # Which failures the functions of the model return -/

namespace Soco
open Spec

section basics
variable {α β : Type} {P : Failure → Prop}

namespace Spec
theorem FailsOnly.ok (a : α) : FailsOnly P (.ok a : Res α) := ⟨fun _ h => by cases h⟩
theorem FailsOnly.panic : FailsOnly P (.error .panic : Res α) := ⟨fun _ h => by cases h⟩

theorem FailsOnly.bind {x : Res α} {k : α → Res β} (hx : FailsOnly P x) (hk : ∀ a, FailsOnly P (k a)) :
    FailsOnly P (x >>= k) := by
  refine ⟨fun f hf => ?_⟩
  cases x with
  | error e =>
    cases hf
    exact hx.only f rfl
  | ok a => exact (hk a).only f hf

theorem FailsOnly.map {x : Res α} (g : α → β) (hx : FailsOnly P x) : FailsOnly P (x.map g) := by
  refine ⟨fun f hf => ?_⟩
  cases x with
  | error e =>
    cases hf
    exact hx.only f rfl
  | ok a => cases hf

theorem FailsOnly.assertP (b : Bool) : FailsOnly P (Soco.assertP b) := by
  unfold Soco.assertP
  split
  · exact .ok _
  · exact .panic

theorem FailsOnly.assertR {b : Bool} {f : Failure} (h : b = false → P f) : FailsOnly P (Soco.assertR b f) := by
  unfold Soco.assertR
  split
  · exact .ok _
  · rename_i hb
    refine ⟨fun g hg => ?_⟩
    cases hg
    exact h (by simpa using hb)

theorem FailsOnly.idx (xs : List α) (i : Nat) : FailsOnly P (Soco.idx xs i) := by
  unfold Soco.idx
  split
  · exact .ok _
  · exact .panic

theorem FailsOnly.ite {c : Prop} [Decidable c] {x y : Res α} (hx : FailsOnly P x) (hy : FailsOnly P y) :
    FailsOnly P (if c then x else y) := by
  split
  · exact hx
  · exact hy

theorem FailsOnly.mapM {f : α → Res β} (hf : ∀ a, FailsOnly P (f a)) (xs : List α) : FailsOnly P (xs.mapM f) := by
  induction xs with
  | nil => rw [List.mapM_nil]; exact .ok _
  | cons x xs ih =>
    rw [List.mapM_cons]
    exact (hf x).bind fun _ => ih.bind fun _ => .ok _

theorem FailsOnly.foldlM {f : β → α → Res β} (hf : ∀ b a, FailsOnly P (f b a)) (xs : List α) (b : β) :
    FailsOnly P (xs.foldlM f b) := by
  induction xs generalizing b with
  | nil => rw [List.foldlM_nil]; exact .ok _
  | cons x xs ih =>
    rw [List.foldlM_cons]
    exact (hf b x).bind fun _ => ih _

theorem FailsOnly.sumM [Zero α] [Add α] (xs : List (Res α)) (h : ∀ x ∈ xs, FailsOnly P x) : FailsOnly P (Soco.sumM xs) := by
  induction xs with
  | nil => exact .ok _
  | cons x xs ih =>
    unfold Soco.sumM
    exact (h x (by simp)).bind fun _ => (ih fun y hy => h y (by simp [hy])).bind fun _ => .ok _

theorem FailsOnly.mono {Q : Failure → Prop} {x : Res α} (h : FailsOnly P x) (hq : ∀ f, P f → Q f) : FailsOnly Q x :=
  ⟨fun f hf => hq f (h.only f hf)⟩

theorem Quiet.any {x : Res α} (h : Quiet x) : FailsOnly P x := h.mono fun _ => False.elim

/-- Two guards before a quiet rest decide which failure is returned. -/
theorem assertR_bind {b : Bool} {f g : Failure} {k : Unit → Res α} :
    (Soco.assertR b f >>= k) = .error (.fail g) ↔ (b = false ∧ g = f) ∨ (b = true ∧ k () = .error (.fail g)) := by
  unfold Soco.assertR
  cases b with
  | false =>
    simp only [Bool.false_eq_true, if_false, bind, Except.bind, true_and, false_and, or_false]
    constructor
    · intro h; cases h; rfl
    · rintro rfl; rfl
  | true => simp [bind, Except.bind]

theorem Quiet.iff {x : Res α} (h : Quiet x) (f : Failure) : x = .error (.fail f) ↔ False :=
  ⟨fun e => h.only f e, False.elim⟩
end Spec
end basics

/-- Closes goals about functions that return no failure of their own. -/
macro "quiet" : tactic => `(tactic| repeat' (first
  | exact FailsOnly.ok _ | exact FailsOnly.panic | exact FailsOnly.assertP _ | exact FailsOnly.idx _ _
  | apply_assumption | (refine FailsOnly.bind ?_ (fun _ => ?_)) | apply FailsOnly.ite | apply FailsOnly.mapM | apply FailsOnly.foldlM
  | apply FailsOnly.map
  | split | intro _))

section costs
variable {X C D : Type} [OutSuccess C] [OutFailure D]

theorem quiet_get (fs : CostFn X C D) (t : Int) : Quiet (fs.get t) := by
  unfold CostFn.get Quiet; quiet

theorem get_mem {fs : CostFn X C D} {t : Int} {e} (h : fs.get t = .ok e) : e ∈ fs := by
  unfold CostFn.get assertP at h
  split at h
  · simp only [bind, Except.bind] at h
    split at h
    · rename_i he
      cases h
      exact (List.mem_filter.1 (List.mem_of_getLast? he)).1
    · cases h
  · cases h

theorem quiet_predictive1 {f : SingleCostFn X C D} (h : ∀ t x, Quiet (f t x)) (s t : Int) (x : X) :
    Quiet (f.callPredictive s t x) := by
  have := h t x
  unfold SingleCostFn.callPredictive Quiet at *; quiet

theorem quiet_certain1 {f : SingleCostFn X C D} (h : ∀ t x, Quiet (f t x)) (s t : Int) (x : X) : Quiet (f.callCertain s t x) := by
  have := quiet_predictive1 h s t x
  unfold SingleCostFn.callCertain Quiet at *; quiet

theorem quiet_vertical (hm : UserMerge C) (os : List (ModelOutput C D)) : Quiet (ModelOutput.verticalReduce os) := by
  unfold ModelOutput.verticalReduce Quiet
  split
  · exact .panic
  · apply FailsOnly.foldlM
    intro a b
    unfold ModelOutput.vstep
    have := hm
    unfold UserMerge Quiet at this
    quiet

theorem quiet_mean1 (hm : UserMerge C) {f : SingleCostFn X C D} (h : ∀ t x, Quiet (f t x)) (s t : Int) (x : X) :
    Quiet (f.callMean s t x) := by
  have h1 := quiet_predictive1 h s t x
  have h2 : ∀ os : List (ModelOutput C D), Quiet (ModelOutput.verticalReduce os) := quiet_vertical hm
  unfold SingleCostFn.callMean Cost.mean meanE Quiet at *; quiet

theorem quiet_of_get {α : Type} {fs : CostFn X C D} (t : Int) {k : Int × SingleCostFn X C D → Res α} (h : ∀ e ∈ fs, Quiet (k e)) :
    Quiet (fs.get t >>= k) := by
  refine ⟨fun f hf => ?_⟩
  cases hg : fs.get t with
  | error e =>
    rw [hg] at hf
    cases hf
    exact (quiet_get fs t).only f hg
  | ok e =>
    rw [hg] at hf
    exact (h e (get_mem hg)).only f hf

theorem quiet_certain {fs : CostFn X C D} (h : UserCosts fs) (t : Int) (x : X) : Quiet (fs.callCertain t x) :=
  quiet_of_get t fun e he => quiet_certain1 (h e he) _ _ _

theorem quiet_predictive {fs : CostFn X C D} (h : UserCosts fs) (t : Int) (x : X) : Quiet (fs.callPredictive t x) :=
  quiet_of_get t fun e he => quiet_predictive1 (h e he) _ _ _

theorem quiet_mean (hm : UserMerge C) {fs : CostFn X C D} (h : UserCosts fs) (t : Int) (x : X) : Quiet (fs.callMean t x) :=
  quiet_of_get t fun e he => quiet_mean1 hm (h e he) _ _ _

theorem userCosts_new {f : SingleCostFn X C D} (t : Int) (h : ∀ t x, Quiet (f t x)) : UserCosts (CostFn.new t f) := by
  intro e he
  simp only [CostFn.new, List.mem_singleton] at he
  subst he
  exact h

theorem userCosts_certain {f : Int → X → Res (Cost C D)} (t : Int) (h : ∀ t x, Quiet (f t x)) :
    UserCosts (CostFn.new t (SingleCostFn.certain f)) := by
  apply userCosts_new
  intro t x
  exact FailsOnly.map _ (h t x)

theorem userCosts_reset {fs : CostFn X C D} (h : UserCosts fs) (s : Int) : UserCosts (fs.reset s) := by
  apply userCosts_new
  intro t x
  have := quiet_predictive h (shiftTime t (s + 1)) x
  unfold Quiet at *
  quiet

theorem userMerge_unit : UserMerge Unit := fun _ _ => .ok _
theorem userMerge_dc : UserMerge DCSuccess := by
  intro a b
  show Quiet (DCSuccess.vmerge a b)
  unfold DCSuccess.vmerge Quiet
  quiet

end costs

section problems
variable {T C D : Type} [Value T] [OutSuccess C] [OutFailure D]

theorem quiet_withinPairs (bs : List (T × T)) (x : Config T) : Quiet (withinPairs bs x) := by
  unfold withinPairs Quiet; quiet

theorem quiet_withinVec (bs : List T) (x : Config T) : Quiet (withinVec bs x) := by
  unfold withinVec Quiet; quiet

theorem quiet_hit_sco (hm : UserMerge C) {p : SCO T C D} (h : UserCosts p.hittingCost) (t : Int) (x : Config T) :
    Quiet (p.toProb.hitCost t x) := by
  have h1 := quiet_mean hm h t x
  have h2 := quiet_withinPairs p.bounds x
  simp only [SCO.toProb, CostFn.callMeanWithinBounds]
  unfold Quiet at *; quiet

theorem quiet_hit_ssco (hm : UserMerge C) {p : SSCO T C D} (h : UserCosts p.hittingCost) (t : Int) (x : Config T) :
    Quiet (p.toProb.hitCost t x) := by
  have h1 := quiet_mean hm h t x
  have h2 := quiet_withinVec p.bounds x
  simp only [SSCO.toProb, CostFn.callMeanWithinBounds]
  unfold Quiet at *; quiet

theorem quiet_movementVec (x y : Config T) (inverted : Bool) : Quiet (movementVec x y inverted) := by
  unfold Quiet
  induction x generalizing y with
  | nil => exact .ok _
  | cons j x ih =>
    cases y with
    | nil => exact .panic
    | cons k y =>
      unfold movementVec
      exact (ih y).bind fun _ => .ok _

theorem quiet_weightedSum (bs : List ℚ) (x : Config T) : Quiet (weightedSum bs x) := by
  unfold Quiet
  induction x generalizing bs with
  | nil => cases bs <;> exact .ok _
  | cons j x ih =>
    cases bs with
    | nil => exact .panic
    | cons k bs =>
      unfold weightedSum
      exact (ih bs).bind fun _ => .ok _

theorem quiet_move_ssco (p : SSCO T C D) (x y : Config T) (inverted : Bool) : Quiet (p.toProb.movement x y inverted) := by
  simp only [SSCO.toProb, scaledMovement]
  exact FailsOnly.bind (quiet_movementVec _ _ _) fun _ => quiet_weightedSum _ _

theorem quiet_move_sco {p : SCO T C D} (h : ∀ x, Quiet (p.switchingCost x)) (x y : Config T) (inverted : Bool) :
    Quiet (p.toProb.movement x y inverted) := by
  simp only [SCO.toProb]
  exact FailsOnly.bind (FailsOnly.assertP _) fun _ => h _

/-- The problem's own functions return no failures. -/
structure QuietProb (p : Prob T C D) : Prop where
  hit : ∀ t x, Quiet (p.hitCost t x)
  move : ∀ x y i, Quiet (p.movement x y i)

theorem quiet_objective {p : Prob T C D} (h : QuietProb p) (xs : Schedule T) (dflt : Config T) (alpha : ℚ) (inverted : Bool) (tEnd : Int) :
    Quiet (p.objectiveWithDefault' xs dflt alpha inverted tEnd) := by
  have h1 := h.hit
  have h2 := h.move
  unfold Prob.objectiveWithDefault' sumOverSchedule Prob.slotCost Prob.hitOrNone Quiet at *
  quiet

theorem quiet_totalMovement {p : Prob T C D} (h : QuietProb p) (xs : Schedule T) (inverted : Bool) :
    Quiet (p.totalMovement xs inverted) := by
  have h2 := h.move
  unfold Prob.totalMovement sumOverSchedule Quiet at *
  quiet

theorem quietProb_sco (hm : UserMerge C) {p : SCO T C D} (h : UserCosts p.hittingCost) (hs : ∀ x, Quiet (p.switchingCost x)) :
    QuietProb p.toProb := ⟨quiet_hit_sco hm h, quiet_move_sco hs⟩

theorem quietProb_ssco (hm : UserMerge C) {p : SSCO T C D} (h : UserCosts p.hittingCost) :
    QuietProb p.toProb := ⟨quiet_hit_ssco hm h, quiet_move_ssco p⟩

end problems

section numerics
open Num

theorem quiet_visit {f : List ℚ → Res ECost} (hf : ∀ x, Quiet (f x)) {cs : List (List ℚ → Res Slack)}
    (hc : ∀ c ∈ cs, ∀ x, Quiet (c x)) (ps : List (List ℚ)) : Quiet (visit f cs ps) := by
  have h : ∀ x : List ℚ, Quiet (cs.mapM fun c => c x) := by
    intro x
    clear hf
    unfold Quiet
    induction cs with
    | nil => rw [List.mapM_nil]; exact .ok _
    | cons c cs ih =>
      rw [List.mapM_cons]
      exact (hc c (by simp) x).bind fun _ => (ih fun d hd => hc d (by simp [hd])).bind fun _ => .ok _
  unfold Quiet at *
  induction ps with
  | nil => exact .ok _
  | cons p ps ih =>
    unfold visit
    quiet

theorem quiet_minimize (S : Solver) {f : List ℚ → Res ECost} (hf : ∀ x, Quiet (f x)) (bounds : List (ℚ × ℚ)) (init : Option (List ℚ))
    {cs : List (List ℚ → Res Slack)} (hc : ∀ c ∈ cs, ∀ x, Quiet (c x)) : Quiet (minimize S f bounds init cs) := by
  have h := quiet_visit hf hc
  unfold minimize Quiet at *
  quiet

theorem quiet_findMinimizer (S : Solver) {f : List ℚ → Res ECost} (hf : ∀ x, Quiet (f x)) (bounds : List (ℚ × ℚ)) :
    Quiet (findMinimizer S f bounds) := quiet_minimize S hf _ _ (by simp)

theorem quiet_hittingMinimizer {C D : Type} [OutSuccess C] [OutFailure D] (S : Solver) (t : Int) {f : CostFn (Config ℚ) C D}
    (h : UserCosts f) (bounds : List (ℚ × ℚ)) : Quiet (hittingMinimizer S t f bounds) := by
  apply quiet_findMinimizer
  intro x
  have := quiet_certain h t x
  unfold Quiet at *
  quiet

theorem quiet_visit1 {f : ℚ → Res Slack} (hf : ∀ x, Quiet (f x)) (ps : List ℚ) : Quiet (visit1 f ps) := by
  unfold Quiet at *
  induction ps with
  | nil => exact .ok _
  | cons p ps ih =>
    unfold visit1
    quiet

theorem quiet_findRoot (B : Brent) (a b : ℚ) {f : ℚ → Res Slack} (hf : ∀ x, Quiet (f x)) : Quiet (findRoot B a b f) := by
  have := quiet_visit1 hf
  unfold findRoot Quiet at *
  quiet

theorem quiet_centralDiff {E G : Type} (q : E → E → G) (ε : ℚ) {f : List ℚ → Res E} (hf : ∀ x, Quiet (f x)) (x : List ℚ) :
    Quiet (centralDiff q ε f x) := by
  unfold centralDiff Quiet at *
  quiet

end numerics
end Soco
