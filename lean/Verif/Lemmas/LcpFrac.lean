import Verif.Lemmas.Lcp
import Verif.Spec.Minimizer

/-! # Fractional capacity provisioning: from the model to the work functions -/

namespace Soco.Lcp
open Soco Work Uni

variable {C D : Type} [OutSuccess C] [OutFailure D]

/-- Movement in one fractional dimension. -/
def mvQ (β : ℚ) (inverted : Bool) (i j : ℚ) : ℚ := if inverted then up β j i else up β i j

theorem movement_oneQ {p : SSCO ℚ C D} {β : ℚ} (hs : p.switchingCost = [β]) (inverted : Bool) (i j : ℚ) :
    p.toProb.movement [i] [j] inverted = .ok (mvQ β inverted i j) := by
  simp only [SSCO.toProb, scaledMovement, movementVec, hs, weightedSum, bind, Except.bind, mvQ, up,
    scalarMovement, pos_eq, toQ, add_zero]
  cases inverted <;> rfl

/-- The objective of a one-dimensional fractional schedule over its first slots. -/
theorem objective_oneQ {p : SSCO ℚ C D} {β : ℚ} (hs : p.switchingCost = [β]) {Q : ℚ → Prop}
    {g : Int → ℚ → ECost} (α : ℚ) (inverted : Bool) (xStart : ℚ) (js : List ℚ)
    (hl : (js.length : Int) ≤ p.tEnd)
    (hhit : ∀ t : Int, 1 ≤ t → t ≤ js.length → ∀ j, Q j → ∃ out, p.toProb.hitCost t [j] = .ok ⟨g t j, out⟩)
    (hj : ∀ j ∈ js, Q j) :
    ∃ out, p.toProb.objectiveWithDefault' (js.map fun j => [j]) [xStart] α inverted js.length
      = .ok ⟨Spec.totalCost g (mvQ β inverted) α 1 xStart js, out⟩ := by
  have hp : Spec.padTo js.length [xStart] (js.map fun j => [j]) = js.map fun j => [j] := by
    have := padTo_self [xStart] (js.map fun j => [j])
    rwa [List.length_map] at this
  obtain ⟨out, ho⟩ := C02_objective_eq_totalCost p.toProb (js.map fun j => [j]) [xStart] α inverted
    js.length (fun t x => g t (x.headD 0)) (fun y x => mvQ β inverted (y.headD 0) (x.headD 0)) (by
      intro t h1 h2 _ x hx
      rw [hp] at hx
      obtain ⟨j, hj', rfl⟩ := List.mem_map.1 hx
      exact hhit t h1 h2 j (hj j hj')) (by
      rw [hp]
      intro y hy x hx
      obtain ⟨j, _, rfl⟩ := List.mem_map.1 hx
      rcases List.mem_cons.1 hy with rfl | hy
      · exact movement_oneQ hs _ _ _
      · obtain ⟨i, _, rfl⟩ := List.mem_map.1 hy
        exact movement_oneQ hs _ _ _)
  refine ⟨out, ?_⟩
  rw [ho, hp, totalCost_map (fun j : ℚ => [j])]
  congr 2
  refine totalCost_congr _ _ _ fun s h1 h2 x _ => ?_
  have : p.toProb.tEnd = p.tEnd := rfl
  rw [if_neg (by omega)]; rfl

/-- Rationals of the decision space. -/
def DomQ (u : ℚ) (y : ℚ) : Prop := 0 ≤ y ∧ y ≤ u

theorem inBoxQ_replicate {u : ℚ} {n : Nat} {xs : List ℚ} :
    Spec.InBoxQ (List.replicate n (0, u)) xs ↔ xs.length = n ∧ ∀ x ∈ xs, DomQ u x := by
  unfold Spec.InBoxQ
  induction n generalizing xs with
  | zero => cases xs <;> simp
  | succ n ih =>
    cases xs with
    | nil => simp
    | cons x xs =>
      rw [List.replicate_succ, List.forall₂_cons, ih]
      simp only [List.length_cons, List.mem_cons, forall_eq_or_imp, DomQ]
      constructor
      · rintro ⟨h1, h2, h3⟩; exact ⟨by omega, h1, h3⟩
      · rintro ⟨h1, h2, h3⟩; exact ⟨h2, by omega, h3⟩

theorem conv_domQ {u : ℚ} {f : ℚ → ECost} (h : Spec.ConvexOnEQ u f) : ConvD (DomQ u) f := by
  rintro x y z hx hy hz hxy hyz a c ha hc
  exact h x y z hx.1 hxy hyz hz.2 a c ha hc

theorem totalCost_scale {X : Type} (hit : Int → X → ECost) (mv mv' : X → X → ℚ) (α : ℚ)
    (h : ∀ x y, α * mv x y = mv' x y) : ∀ (xs : List X) (t : Int) (x : X),
    Spec.totalCost hit mv α t x xs = Spec.totalCost hit mv' 1 t x xs := by
  intro xs
  induction xs with
  | nil => intros; rfl
  | cons y ys ih => intro t x; simp only [Spec.totalCost, ih, h, one_mul]

theorem mvQ_scale (α β : ℚ) (x y : ℚ) : α * mvQ β false x y = up (α * β) x y ∧
    α * mvQ β true x y = up (α * β) y x := by
  simp [mvQ, up, mul_assoc]

theorem reset_zero_hit {p : SSCO ℚ C D} {t : Int} (x : Config ℚ) :
    (p.reset 0).toProb.hitCost t x = p.toProb.hitCost t x := by
  have := C08_reset_zero p.hittingCost t x
  show (p.hittingCost.reset 0).callMeanWithinBounds t x (withinVec p.bounds)
    = p.hittingCost.callMeanWithinBounds t x (withinVec p.bounds)
  unfold CostFn.callMeanWithinBounds
  rw [CostFn.callMean_eq, CostFn.callMean_eq, this]

/-- What the optimiser minimises if the bound is computed from slot 0 on. -/
theorem boundObjective_eq {p : SSCO ℚ C D} {u β : ℚ} {g : Int → ℚ → ECost} {n : Nat}
    (hs : p.switchingCost = [β]) (hT : (n : Int) ≤ p.tEnd)
    (hhit : ∀ t : Int, 1 ≤ t → t ≤ n → ∀ j, 0 ≤ j → j ≤ u → ∃ out, p.toProb.hitCost t [j] = .ok ⟨g t j, out⟩)
    (α : ℚ) (inverted : Bool) (ks : List ℚ) (k1 : ks.length = n) (k2 : ∀ k ∈ ks, DomQ u k) :
    boundObjective { p.reset 0 with tEnd := (p.reset 0).tEnd + 0 } α inverted 0 (n + 0) ks
      = .ok (Spec.totalCost g (mvQ β inverted) α 1 0 ks) := by
  obtain ⟨out, ho⟩ := objective_oneQ (p := { p.reset 0 with tEnd := (p.reset 0).tEnd + 0 }) (β := β) hs
    (Q := DomQ u) (g := g) α inverted 0 ks
    (by rw [k1]; show (n : Int) ≤ p.tEnd - 0 + 0; omega)
    (fun t a b j hj => by
      have e : ({ p.reset 0 with tEnd := (p.reset 0).tEnd + 0 } : SSCO ℚ C D).toProb.hitCost t [j]
        = (p.reset 0).toProb.hitCost t [j] := rfl
      rw [e, reset_zero_hit]
      exact hhit t a (by omega) j hj.1 hj.2) k2
  rw [k1] at ho
  simp only [boundObjective, add_zero, bind, Except.bind] at ho ⊢
  rw [ho]

/-- The bound found from slot 0 on. -/
theorem findBoundFrac_ok {opt : Minimizer} {p : SSCO ℚ C D} {u β : ℚ} {g : Int → ℚ → ECost} {n : Nat}
    (hd : p.d = 1) (hb : p.bounds = [u]) (hs : p.switchingCost = [β]) (hn : 1 ≤ n) (hT : (n : Int) ≤ p.tEnd)
    (hhit : ∀ t : Int, 1 ≤ t → t ≤ n → ∀ j, 0 ≤ j → j ≤ u → ∃ out, p.toProb.hitCost t [j] = .ok ⟨g t j, out⟩)
    (α : ℚ) (inverted : Bool)
    (hopt : Spec.Solves opt (boundObjective { p.reset 0 with tEnd := (p.reset 0).tEnd + 0 } α inverted 0 (n + 0))
      (List.replicate n (0, u))) :
    ∃ js : List ℚ, js.length = n ∧ (∀ j ∈ js, DomQ u j) ∧
      findBoundFrac opt p α inverted 0 n 0 0 = .ok (js.getLastD 0) ∧
      ∀ ks : List ℚ, ks.length = n → (∀ k ∈ ks, DomQ u k) →
        Spec.totalCost g (mvQ β inverted) α 1 0 js ≤ Spec.totalCost g (mvQ β inverted) α 1 0 ks := by
  obtain ⟨js, c, h1, h2, h3, h4⟩ := hopt
  obtain ⟨l1, l2⟩ := inBoxQ_replicate.1 h2
  have obj := boundObjective_eq hs hT hhit α inverted
  refine ⟨js, l1, l2, ?_, ?_⟩
  · have hnpos : ¬ ((n : Int) ≤ 0) := by omega
    have hle : (1 : Int) ≤ (n : Int) - 0 := by omega
    have hidx : js[((n : Int) - 0).toNat - 1]? = some (js.getLastD 0) := by
      obtain rfl | ⟨js', j, rfl⟩ := List.eq_nil_or_concat' js
      · simp at l1; omega
      · have : ((n : Int) - 0).toNat - 1 = js'.length := by simp at l1; omega
        rw [this, List.getLastD_concat]; simp
    have hbb : (p.reset 0).bounds = [u] := hb
    have e2 : (((n : Int) - 0).toNat) = n := by omega
    have hlen : decide ((js.length : Int) = n - 0) = true := by rw [decide_eq_true_eq]; omega
    simp only [findBoundFrac, assertP, assertR, hT, hd, decide_true, if_true, bind, Except.bind,
      if_neg hnpos, hbb, idx, List.getElem?_cons_zero, e2]
    simp only [hbb] at h1
    rw [h1]
    simp only [hlen, hle, decide_true, if_true]
    rw [e2] at hidx
    rw [hidx]
  · intro ks k1 k2
    rw [obj js l1 l2] at h3
    cases h3
    exact h4 ks _ (inBoxQ_replicate.2 ⟨k1, k2⟩) (obj ks k1 k2)

end Soco.Lcp
