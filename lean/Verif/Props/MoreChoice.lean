import Verif.Props.Joint
import Verif.Props.Lcp

/-!
# C128: more choice never makes plans dearer
-/

namespace Soco

variable {C D : Type} [OutSuccess C] [OutFailure D]

namespace Spec

/-- `q` leaves at least the choice of `p`, at prices at most as high: there are at least as many servers of every type of `p` and
possibly further types, powering up a server of a type of `p` costs at most as much, and in every slot a configuration of `p`
costs at most as much if the further types are not used. -/
structure MoreChoice (p q : SSCO ℤ C D) : Prop where
  tEnd : q.tEnd = p.tEnd
  bounds : ∃ b more, q.bounds = b ++ more ∧ List.Forall₂ (· ≤ ·) p.bounds b
  switching : ∃ s more, q.switchingCost = s ++ more ∧ List.Forall₂ (· ≤ ·) s p.switchingCost
  hit : ∀ t : Int, 1 ≤ t → t ≤ p.tEnd → ∀ x, InBox p.bounds x → ∀ c c',
    p.toProb.hitCost t x = .ok c → q.toProb.hitCost t (x ++ List.replicate (q.bounds.length - p.bounds.length) 0) = .ok c' →
      c'.cost ≤ c.cost

end Spec

namespace MoreChoice
open Robust Periods Joint

theorem up_le {s β : List ℚ} (h : List.Forall₂ (· ≤ ·) s β) : ∀ y x : List ℤ, Spec.upCost s y x ≤ Spec.upCost β y x := by
  induction h with
  | nil => intro y x; simp [Spec.upCost, List.zipWith3]
  | @cons a b s β hab _ ih =>
    intro y x
    cases y with
    | nil => simp [Spec.upCost, List.zipWith3]
    | cons j y =>
      cases x with
      | nil => simp [Spec.upCost, List.zipWith3]
      | cons i x =>
        rw [upCost_cons, upCost_cons]
        exact add_le_add (mul_le_mul_of_nonneg_right hab (le_max_left _ _)) (ih y x)

theorem up_zero (β : List ℚ) (k : Nat) : Spec.upCost β (List.replicate k (0 : ℤ)) (List.replicate k 0) = 0 :=
  upCost_of_le β _ _ (fun _ => le_rfl) rfl

theorem box_le {a b x : List ℤ} (h : List.Forall₂ (· ≤ ·) a b) (hx : Spec.InBox a x) : Spec.InBox b x := by
  unfold Spec.InBox at *
  induction h generalizing x with
  | nil => exact hx
  | cons h _ ih =>
    cases hx with
    | cons h1 h2 => exact .cons ⟨h1.1, h1.2.trans h⟩ (ih h2)

theorem cost_le {h h' : Int → Config ℤ → ECost} {s more β : List ℚ} (hs : List.Forall₂ (· ≤ ·) s β) {α : ℚ} (hα : 0 ≤ α) (k : Nat) :
    ∀ (xs : Schedule ℤ) (t : Int) (y : List ℤ), y.length = β.length → (∀ x ∈ xs, x.length = β.length) →
    (∀ u : Int, t ≤ u → u < t + xs.length → ∀ x ∈ xs, h' u (x ++ List.replicate k 0) ≤ h u x) →
    Spec.totalCost h' (Spec.upCost (s ++ more)) α t (y ++ List.replicate k 0) (xs.map (· ++ List.replicate k 0))
      ≤ Spec.totalCost h (Spec.upCost β) α t y xs := by
  intro xs
  induction xs with
  | nil => intro t y _ _ _; exact le_rfl
  | cons x xs ih =>
    intro t y hy hx hh
    have lx := hx x (by simp)
    rw [List.map_cons, Spec.totalCost, Spec.totalCost]
    refine add_le_add (add_le_add (hh t le_rfl (by simp) x (by simp)) (WithTop.coe_le_coe.2 (mul_le_mul_of_nonneg_left ?_ hα)))
      (ih (t + 1) x lx (fun z hz => hx z (by simp [hz])) fun u u1 u2 z hz => hh u (by omega) (by simp; omega) z (by simp [hz]))
    rw [up_append s more y x _ _ (by rw [hy, hs.length_eq]) (by rw [lx, hs.length_eq]), up_zero, add_zero]
    exact up_le hs y x

end MoreChoice

open MoreChoice Periods Robust

/-- **C128** (optimal plans). More servers, further types of servers, cheaper switching and cheaper operation never make the plan
of the optimal graph search dearer. -/
theorem C128_more_choice (p q : SSCO ℤ C D) (h : Spec.MoreChoice p q) (hp : p.verify = .ok ()) (hq : q.verify = .ok ())
    (hT : 1 ≤ p.tEnd) (hit hit' : Int → Config ℤ → ECost) (H : Spec.Hits p hit) (H' : Spec.Hits q hit')
    (o : OfflineOptions) (hl : o.l = none) (hα : 0 ≤ o.alpha) :
    ∃ r r', Multi.optimalGraphSearch p none o = .ok r ∧ Multi.optimalGraphSearch q none o = .ok r' ∧
      r'.path.cost ≤ r.path.cost ∧
      ∃ c, q.toProb.alphaUnfairObjective (r.path.xs.map (· ++ List.replicate (q.bounds.length - p.bounds.length) 0)) o.alpha = .ok c ∧
        r'.path.cost ≤ c.cost ∧ c.cost ≤ r.path.cost := by
  have vp := valid_of hp
  have vq := valid_of hq
  obtain ⟨b, more, e1, e2⟩ := h.bounds
  obtain ⟨s, more', f1, f2⟩ := h.switching
  obtain ⟨r, a1, a2, a3, -, a5, -⟩ := best hp hT H o hl hα
  obtain ⟨r', b1, -, -, -, -, b6⟩ := best hq (by rw [h.tEnd]; exact hT) H' o hl hα
  have lb : b.length = p.bounds.length := e2.length_eq.symm
  have hk : q.bounds.length - p.bounds.length = more.length := by rw [e1, List.length_append, lb]; omega
  have hbox : ∀ x, Spec.InBox p.bounds x → Spec.InBox q.bounds (x ++ List.replicate (q.bounds.length - p.bounds.length) 0) := by
    intro x hx
    rw [hk, e1]
    exact Joint.box_append (box_le e2 hx) (zero_box fun c hc => (vq.2.2.2.2.1 c (by rw [e1]; simp [hc])).le)
  have np : p.bounds.length = p.d.toNat := by have := vp.2.2.1; omega
  have sp : p.switchingCost.length = p.d.toNat := by have := vp.2.2.2.1; omega
  have nq : q.bounds.length = q.d.toNat := by have := vq.2.2.1; omega
  have hz : List.replicate q.d.toNat (0 : ℤ) = List.replicate p.d.toNat 0 ++ List.replicate (q.bounds.length - p.bounds.length) 0 := by
    rw [← List.replicate_add]
    congr 1
    rw [← nq, ← np, e1, List.length_append]; omega
  have hlen : ((r.path.xs.map (· ++ List.replicate (q.bounds.length - p.bounds.length) 0)).length : Int) = q.tEnd := by
    rw [List.length_map, h.tEnd]; exact a2
  have hin : ∀ z ∈ r.path.xs.map (· ++ List.replicate (q.bounds.length - p.bounds.length) 0), Spec.InBox q.bounds z := by
    intro z hz'
    obtain ⟨x, hx, rfl⟩ := List.mem_map.1 hz'
    exact hbox x (a3 x hx)
  obtain ⟨out, c1⟩ := objective_total hq H' o.alpha _ hlen hin
  have k1 := b6 _ hlen hin
  have k2 : Spec.totalCost hit' (Spec.upCost q.switchingCost) o.alpha 1 (List.replicate q.d.toNat 0)
      (r.path.xs.map (· ++ List.replicate (q.bounds.length - p.bounds.length) 0)) ≤ r.path.cost := by
    rw [a5, f1, hz]
    refine cost_le f2 hα _ r.path.xs 1 _ (by simp [sp]) (fun x hx => by rw [← (a3 x hx).length_eq, np, sp]) ?_
    intro t t1 t2 x hx
    obtain ⟨o1, g1⟩ := H.slot t t1 (by omega) x (a3 x hx)
    obtain ⟨o2, g2⟩ := H'.slot t t1 (by rw [h.tEnd]; omega) _ (hbox x (a3 x hx))
    exact h.hit t t1 (by omega) x (a3 x hx) _ _ g1 g2
  exact ⟨r, r', a1, b1, k1.trans k2, _, c1, k1, k2⟩

/-! ## The claim is not empty -/

namespace Ex

/-- What a configuration of three types costs: a server of the third type costs nothing to operate. -/
def hit3 (t : Int) (x : Config ℤ) : ECost :=
  if x.sum < t then ⊤ else (((x.getD 0 0 + 2 * x.getD 1 0 : ℤ) : ℚ) : ECost)

/-- `Ex.ssco2` with one more server of the first type and one server of a third type. -/
def ssco3 : SSCO ℤ Unit Unit where
  d := 3
  tEnd := 3
  bounds := [3, 3, 1]
  switchingCost := [3, 1/2, 1]
  hittingCost := CostFn.new 1 (SingleCostFn.certain fun t x => .ok (Cost.raw (hit3 t x)))

theorem ssco3_hit (t : Int) (ht : 1 ≤ t) (x : Config ℤ) (hx : Spec.InBox ssco3.bounds x) :
    ∃ o, ssco3.toProb.hitCost t x = .ok ⟨hit3 t x, o⟩ := by
  have hx' : List.Forall₂ (fun (b j : ℤ) => 0 ≤ j ∧ j ≤ b) [3, 3, 1] x := hx
  match x, hx' with
  | [a, b, c], .cons h1 (.cons h2 (.cons h3 .nil)) =>
    refine ⟨.success (), ?_⟩
    have : withinVec ssco3.bounds [a, b, c] = .ok true := by
      simp [withinVec, ssco3]; omega
    simp only [SSCO.toProb, CostFn.callMeanWithinBounds, this, bind, Except.bind, if_true]
    simp only [ssco3, CostFn.callMean_certain _ t ht]
    simp [Cost.raw]

theorem ssco3_hits : Spec.Hits ssco3 hit3 where
  slot t t1 _ x hx := ssco3_hit t t1 x hx
  fin t _ t2 := by
    have t2' : t ≤ 3 := t2
    have : ¬ (3 + 3 + 1 : ℤ) < t := by omega
    have e : hit3 t ssco3.bounds = if (3 + 3 + 1 : ℤ) < t then ⊤ else (((3 + 2 * 3 : ℤ) : ℚ) : ECost) := by
      simp [hit3, ssco3]
    rw [e, if_neg this]; exact WithTop.coe_ne_top

theorem ssco3_more : Spec.MoreChoice ssco2 ssco3 where
  tEnd := rfl
  bounds := ⟨[3, 3], [1], rfl, .cons (by decide) (.cons (by decide) .nil)⟩
  switching := ⟨[3, 1/2], [1], rfl, .cons le_rfl (.cons le_rfl .nil)⟩
  hit := by
    intro t t1 t2 x hx c c' hc hc'
    have hx' : List.Forall₂ (fun (b j : ℤ) => 0 ≤ j ∧ j ≤ b) [2, 3] x := hx
    match x, hx' with
    | [a, b], .cons h1 (.cons h2 .nil) =>
      obtain ⟨o, ho⟩ := ssco2_hitBox t t1 [a, b] hx
      obtain ⟨o', ho'⟩ := ssco3_hit t t1 [a, b, 0] (.cons ⟨h1.1, h1.2.trans (by decide)⟩ (.cons h2 (.cons (by decide) .nil)))
      have hc'' : ssco3.toProb.hitCost t [a, b, 0] = .ok c' := hc'
      rw [ho] at hc
      rw [ho'] at hc''
      rw [← Except.ok.inj hc, ← Except.ok.inj hc'']
      have hn : ¬ (a < 0 ∨ 2 < a ∨ b < 0 ∨ 3 < b) := by omega
      simp [hitBox2, hit3, hit2, hn]

end Ex

/-- Non-vacuity: `Ex.ssco3` leaves more choice than `Ex.ssco2`, and its plan is cheaper. -/
example (α : ℚ) (hα : 0 ≤ α) := C128_more_choice Ex.ssco2 Ex.ssco3 Ex.ssco3_more (by decide +kernel) (by decide +kernel) (by decide) _ _
  Ex.ssco2_hits Ex.ssco3_hits ⟨false, α, none⟩ rfl hα

/-! ## Online, more choice may hurt -/

namespace Ex

/-- One server that is needed in the slots 1 and 6 and costs 1 whenever it is active; powering it up costs `β`. The first `t`
slots. -/
def twice (β : ℚ) (t : Int) : SSCO ℤ Unit Unit where
  d := 1
  tEnd := t
  bounds := [1]
  switchingCost := [β]
  hittingCost := CostFn.new 1 (SingleCostFn.certain fun t x =>
    .ok (Cost.raw (if x.getD 0 0 < 1 then (if t = 1 ∨ t = 6 then ⊤ else 0) else 1)))

end Ex

/-- **C128** (limit). Lazy capacity provisioning, which decides without knowing the future, may pay more if powering up gets
cheaper: at the price 5 it keeps the server running and pays 11, at the price 4 it stops the server one slot too early and
pays 13. -/
theorem C128_online_counterexample :
    (Spec.play SSCO.tEnd (Lcp.lcpAlg Lcp.boundedInt) [] none ([1, 2, 3, 4, 5, 6].map fun t => ⟨Ex.twice 5 t, 0⟩)).toOption.map (·.1)
      = some [[1], [1], [1], [1], [1], [1]] ∧
    ((Ex.twice 5 6).toProb.objective [[1], [1], [1], [1], [1], [1]]).toOption.map (·.cost) = some ((11 : ℚ) : ECost) ∧
    (Spec.play SSCO.tEnd (Lcp.lcpAlg Lcp.boundedInt) [] none ([1, 2, 3, 4, 5, 6].map fun t => ⟨Ex.twice 4 t, 0⟩)).toOption.map (·.1)
      = some [[1], [1], [1], [1], [0], [1]] ∧
    ((Ex.twice 4 6).toProb.objective [[1], [1], [1], [1], [0], [1]]).toOption.map (·.cost) = some ((13 : ℚ) : ECost) := by
  decide +kernel

end Soco
