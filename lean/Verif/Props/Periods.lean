import Verif.Props.Robust
import Verif.Props.Reverse

/-!
# C113: planning period by period
-/

namespace Soco

variable {C D : Type} [OutSuccess C] [OutFailure D]

namespace Spec

/-- The instance `p` is planned in periods with the optimal search in several dimensions: the first period consists of the first
`s` slots and is planned as if the world ended after it, the instance is then reset to time `s`, and the rest is planned in the same way,
as if no server was active. `xs` is the schedule put together from the plans, `c` the sum of the costs which the searches report. -/
inductive Periods (o : OfflineOptions) : SSCO ℤ C D → List Nat → Schedule ℤ → ECost → Prop
  | last (p : SSCO ℤ C D) (r : CachedPath Multi.Vertex) : Multi.optimalGraphSearch p none o = .ok r →
      Periods o p [] r.path.xs r.path.cost
  | cut (p : SSCO ℤ C D) (s : Nat) (ss : List Nat) (r : CachedPath Multi.Vertex) (xs : Schedule ℤ) (c : ECost) :
      Multi.optimalGraphSearch { p with tEnd := s } none o = .ok r → Periods o (p.reset s) ss xs c →
      Periods o p (s :: ss) (r.path.xs ++ xs) (r.path.cost + c)

/-- What it costs to power up all servers. -/
def fullPower (p : SSCO ℤ C D) : ℚ := weighted p.switchingCost p.bounds

/-- The slots of `p` cost `hit`, and can be served by all servers together. -/
structure Hits (p : SSCO ℤ C D) (hit : Int → Config ℤ → ECost) : Prop where
  slot : ∀ t : Int, 1 ≤ t → t ≤ p.tEnd → ∀ x, InBox p.bounds x → ∃ out, p.toProb.hitCost t x = .ok ⟨hit t x, out⟩
  fin : ∀ t : Int, 1 ≤ t → t ≤ p.tEnd → hit t p.bounds ≠ ⊤

/-- The hitting costs of all slots of `p` are certain. -/
def CertainSlots (p : SSCO ℤ C D) : Prop := ∀ t : Int, 1 ≤ t → t ≤ p.tEnd → p.hittingCost.CertainAt t

end Spec

namespace Periods
open Robust

omit [OutSuccess C] [OutFailure D] in
theorem valid_of {p : SSCO ℤ C D} (hv : p.verify = .ok ()) : Spec.ValidSSCO p := by
  by_contra hc
  have := (C10_ssco_verify_exact p).2 hc
  rw [hv] at this; simp at this

theorem objective_total {p : SSCO ℤ C D} (hv : p.verify = .ok ()) {hit : Int → Config ℤ → ECost} (H : Spec.Hits p hit) (α : ℚ)
    (ys : Schedule ℤ) (hl : (ys.length : Int) = p.tEnd) (hb : ∀ y ∈ ys, Spec.InBox p.bounds y) :
    ∃ out, p.toProb.alphaUnfairObjective ys α
      = .ok ⟨Spec.totalCost hit (Spec.upCost p.switchingCost) α 1 (List.replicate p.d.toNat 0) ys, out⟩ := by
  have hv' := valid_of hv
  have n1 : p.bounds.length = p.d.toNat := by have := hv'.2.2.1; omega
  have n2 : p.switchingCost.length = p.d.toNat := by have := hv'.2.2.2.1; omega
  have hd : p.toProb.defaultConfig = List.replicate p.d.toNat 0 := rfl
  obtain ⟨o, ho⟩ := objective_hitOr p p.d.toNat n1 n2.ge (fun t t1 t2 x hx => by
    obtain ⟨c, h1⟩ := H.slot t t1 t2 x hx
    exact ⟨_, h1⟩) ys hl hb (List.replicate p.d.toNat 0) (by simp) α false
  refine ⟨o, ?_⟩
  have e : Spec.totalCost hit (Spec.upCost p.switchingCost) α 1 (List.replicate p.d.toNat 0) ys
      = Spec.totalCost (hitOr p) (Spec.moveCost false p.switchingCost) α 1 (List.replicate p.d.toNat 0) ys := by
    apply Uni.totalCost_congr
    intro s s1 s2 x hx
    obtain ⟨c, h1⟩ := H.slot s s1 (by omega) x (hb x hx)
    rw [hitOr, h1]
  rw [e, ← ho, ← hd]; rfl

theorem best {p : SSCO ℤ C D} (hv : p.verify = .ok ()) (hT : 1 ≤ p.tEnd) {hit : Int → Config ℤ → ECost} (H : Spec.Hits p hit)
    (o : OfflineOptions) (hl : o.l = none) (hα : 0 ≤ o.alpha) :
    ∃ r, Multi.optimalGraphSearch p none o = .ok r ∧ (r.path.xs.length : Int) = p.tEnd ∧
      (∀ x ∈ r.path.xs, Spec.InBox p.bounds x) ∧ r.path.cost ≠ ⊤ ∧
      r.path.cost = Spec.totalCost hit (Spec.upCost p.switchingCost) o.alpha 1 (List.replicate p.d.toNat 0) r.path.xs ∧
      ∀ ys : Schedule ℤ, (ys.length : Int) = p.tEnd → (∀ y ∈ ys, Spec.InBox p.bounds y) →
        r.path.cost ≤ Spec.totalCost hit (Spec.upCost p.switchingCost) o.alpha 1 (List.replicate p.d.toNat 0) ys := by
  obtain ⟨r, a1, a2, a3, a4, ⟨out, a5⟩, a6⟩ := C19_graph_search_optimal p hv hT o hl hα hit H.slot H.fin
  refine ⟨r, a1, a2, a3, a4, ?_, fun ys y1 y2 => ?_⟩
  · obtain ⟨w, h⟩ := objective_total hv H o.alpha r.path.xs a2 a3
    rw [a5] at h
    have := Except.ok.inj h
    injection this
  · obtain ⟨w, h⟩ := objective_total hv H o.alpha ys y1 y2
    obtain ⟨u, u1, u2⟩ := a6 ys y1 y2
    rw [h] at u1
    rw [← Except.ok.inj u1] at u2
    exact u2

/-- Powering up is cheaper if some servers are active, by at most the cost of powering up all servers. -/
theorem up_from (β : List ℚ) (hβ : ∀ b ∈ β, 0 ≤ b) : ∀ (b x y : List ℤ), Spec.InBox b x → Spec.InBox b y →
    Spec.upCost β x y ≤ Spec.upCost β (List.replicate b.length 0) y ∧
    Spec.upCost β (List.replicate b.length 0) y ≤ Spec.upCost β x y + Spec.weighted β b := by
  induction β with
  | nil => intro b x y _ _; simp [Spec.upCost, Spec.weighted, List.zipWith3]
  | cons c β ih =>
    intro b x y hx hy
    cases hx with
    | nil => cases hy; simp [Spec.upCost, Spec.weighted, List.zipWith3]
    | @cons u i b x hi hx =>
      cases hy with
      | @cons _ j _ y hj hy =>
        obtain ⟨h1, h2⟩ := ih (fun d hd => hβ d (by simp [hd])) b x y hx hy
        have hc := hβ c (by simp)
        rw [List.length_cons, List.replicate_succ, upCost_cons, upCost_cons, weighted_cons]
        have q1 : (toQ (0 : ℤ) : ℚ) = 0 := toQ_zero
        have q2 : (0 : ℚ) ≤ toQ i := toQ_nonneg.2 hi.1
        have q3 : (0 : ℚ) ≤ toQ j := toQ_nonneg.2 hj.1
        have q4 : (toQ j : ℚ) ≤ toQ u := by
          show ((j : ℤ) : ℚ) ≤ ((u : ℤ) : ℚ)
          exact_mod_cast hj.2
        have m1 : max 0 ((toQ j : ℚ) - toQ i) ≤ max 0 ((toQ j : ℚ) - toQ (0 : ℤ)) := by
          rw [q1]; exact max_le_max le_rfl (by linarith)
        have m2 : max 0 ((toQ j : ℚ) - toQ (0 : ℤ)) ≤ max 0 ((toQ j : ℚ) - toQ i) + toQ u := by
          rw [q1, max_eq_right (by linarith)]
          have := le_max_left (0 : ℚ) ((toQ j : ℚ) - toQ i)
          linarith
        have := mul_le_mul_of_nonneg_left m1 hc
        have := mul_le_mul_of_nonneg_left m2 hc
        constructor <;> linarith

theorem weighted_nonneg (β : List ℚ) (hβ : ∀ b ∈ β, 0 ≤ b) : ∀ x : List ℤ, (∀ j ∈ x, 0 ≤ j) → 0 ≤ Spec.weighted β x := by
  induction β with
  | nil => intro x _; simp [Spec.weighted]
  | cons c β ih =>
    intro x hx
    cases x with
    | nil => simp [Spec.weighted]
    | cons j x =>
      rw [weighted_cons]
      have h1 := ih (fun d hd => hβ d (by simp [hd])) x (fun i hi => hx i (by simp [hi]))
      have h2 : (0 : ℚ) ≤ toQ j := toQ_nonneg.2 (hx j (by simp))
      have h3 := mul_nonneg (hβ c (by simp)) h2
      linarith

/-- The costs of a schedule coming from a configuration compared with its costs coming from zero. -/
theorem cost_from {hit : Int → Config ℤ → ECost} {β : List ℚ} (hβ : ∀ b ∈ β, 0 ≤ b) {α : ℚ} (hα : 0 ≤ α) (b x : List ℤ)
    (hx : Spec.InBox b x) (h0 : ∀ c ∈ b, 0 ≤ c) (t : Int) (ys : Schedule ℤ) (hy : ∀ y ∈ ys, Spec.InBox b y) :
    Spec.totalCost hit (Spec.upCost β) α t x ys ≤ Spec.totalCost hit (Spec.upCost β) α t (List.replicate b.length 0) ys ∧
    Spec.totalCost hit (Spec.upCost β) α t (List.replicate b.length 0) ys
      ≤ Spec.totalCost hit (Spec.upCost β) α t x ys + ((α * Spec.weighted β b : ℚ) : ECost) := by
  cases ys with
  | nil =>
    simp only [Spec.totalCost, zero_add, le_refl, true_and]
    exact_mod_cast mul_nonneg hα (weighted_nonneg β hβ b h0)
  | cons y ys =>
    obtain ⟨h1, h2⟩ := up_from β hβ b x y hx (hy y (by simp))
    have h1 := mul_le_mul_of_nonneg_left h1 hα
    have h2 := mul_le_mul_of_nonneg_left h2 hα
    simp only [Spec.totalCost]
    constructor
    · gcongr
      exact_mod_cast h1
    · have e : ((α * Spec.upCost β (List.replicate b.length 0) y : ℚ) : ECost)
          ≤ ((α * Spec.upCost β x y : ℚ) : ECost) + ((α * Spec.weighted β b : ℚ) : ECost) := by
        rw [← WithTop.coe_add, ← mul_add]
        exact_mod_cast h2
      calc _ ≤ hit t y + (((α * Spec.upCost β x y : ℚ) : ECost) + ((α * Spec.weighted β b : ℚ) : ECost))
            + Spec.totalCost hit (Spec.upCost β) α (t + 1) y ys := by gcongr
        _ = _ := by ac_rfl

theorem valid_reset {p : SSCO ℤ C D} (hv : p.verify = .ok ()) {s : Nat} (hs : (s : Int) < p.tEnd) :
    (p.reset s).verify = .ok () := by
  have h := valid_of hv
  by_contra hc
  have : ¬ Spec.ValidSSCO (p.reset s) := by
    intro hv2
    exact hc ((C10_ssco_verify_exact _).1 hv2)
  exact this ⟨h.1, by show 0 ≤ p.tEnd - s; omega, h.2.2⟩

omit [OutSuccess C] [OutFailure D] in
theorem valid_first {p : SSCO ℤ C D} (hv : p.verify = .ok ()) (s : Nat) :
    ({ p with tEnd := s } : SSCO ℤ C D).verify = .ok () := by
  have h := valid_of hv
  exact (C10_ssco_verify_exact _).1 ⟨h.1, by show 0 ≤ (s : Int); omega, h.2.2⟩

theorem hits_first {p : SSCO ℤ C D} {hit : Int → Config ℤ → ECost} (H : Spec.Hits p hit) {s : Nat} (hs : (s : Int) ≤ p.tEnd) :
    Spec.Hits { p with tEnd := s } hit where
  slot t t1 t2 x hx := H.slot t t1 (le_trans t2 hs) x hx
  fin t t1 t2 := H.fin t t1 (le_trans t2 hs)

theorem hits_reset {p : SSCO ℤ C D} {hit : Int → Config ℤ → ECost} (H : Spec.Hits p hit) (hc : Spec.CertainSlots p) {s : Nat} (hs : (s : Int) < p.tEnd) :
    Spec.Hits (p.reset s) (fun t => hit (t + s)) where
  slot t t1 t2 x hx := by
    have t2 : t ≤ p.tEnd - s := t2
    rw [Lcp.reset_hit (by omega) t1 (hc _ (by omega) (by omega))]
    exact H.slot _ (by omega) (by omega) x hx
  fin t t1 t2 := by
    have t2 : t ≤ p.tEnd - s := t2
    exact H.fin _ (by omega) (by omega)

theorem certain_reset {p : SSCO ℤ C D} (hc : Spec.CertainSlots p) {s : Nat} : Spec.CertainSlots (p.reset s) := by
  intro t t1 t2
  have t2 : t ≤ p.tEnd - s := t2
  exact Replan.reset_certain (by omega) t1 (hc _ (by omega) (by omega)) (hc _ (by omega) (by omega))

theorem zero_box {b : List ℤ} (h0 : ∀ c ∈ b, 0 ≤ c) : Spec.InBox b (List.replicate b.length 0) := by
  induction b with
  | nil => exact .nil
  | cons c b ih => exact .cons ⟨le_rfl, h0 c (by simp)⟩ (ih fun d hd => h0 d (by simp [hd]))

theorem last_box {b z : List ℤ} (hz : Spec.InBox b z) (xs : Schedule ℤ) (hx : ∀ x ∈ xs, Spec.InBox b x) :
    Spec.InBox b (xs.getLastD z) := by
  rcases List.eq_nil_or_concat xs with rfl | ⟨ys, y, rfl⟩
  · exact hz
  · simp at hx ⊢; exact hx y (Or.inr rfl)

theorem upCost_nonneg (β : List ℚ) (hβ : ∀ b ∈ β, 0 ≤ b) : ∀ x y : List ℤ, 0 ≤ Spec.upCost β x y := by
  induction β with
  | nil => intro x y; simp [Spec.upCost, List.zipWith3]
  | cons c β ih =>
    intro x y
    cases x with
    | nil => simp [Spec.upCost, List.zipWith3]
    | cons i x =>
      cases y with
      | nil => simp [Spec.upCost, List.zipWith3]
      | cons j y =>
        rw [upCost_cons]
        exact add_nonneg (mul_nonneg (hβ c (by simp)) (le_max_left _ _)) (ih (fun d hd => hβ d (by simp [hd])) x y)

theorem cost_nonneg {hit : Int → Config ℤ → ECost} {β : List ℚ} (hβ : ∀ b ∈ β, 0 ≤ b) {α : ℚ} (hα : 0 ≤ α) :
    ∀ (ys : Schedule ℤ) (t : Int) (x : List ℤ), (∀ s : Int, t ≤ s → s < t + ys.length → ∀ y ∈ ys, 0 ≤ hit s y) →
    0 ≤ Spec.totalCost hit (Spec.upCost β) α t x ys := by
  intro ys
  induction ys with
  | nil => intro t x _; exact le_rfl
  | cons y ys ih =>
    intro t x h
    rw [Spec.totalCost]
    refine add_nonneg (add_nonneg (h t le_rfl (by simp) y (by simp)) ?_) (ih _ _ fun s s1 s2 z hz => ?_)
    · exact_mod_cast mul_nonneg hα (upCost_nonneg β hβ x y)
    · exact h s (by omega) (by simp; omega) z (by simp [hz])

end Periods

open Periods

/-- **C113** (planning in periods). Let an instance be planned in periods (`Spec.Periods`), in any number of periods of any lengths. The
schedule put together from the plans is feasible, it costs at least what the plan for all slots costs and at most the sum of the
costs of the plans, and this sum exceeds the cost of the plan for all slots by at most the price of powering up all servers once for every
end of a period. -/
theorem C113_periods (p : SSCO ℤ C D) (hv : p.verify = .ok ()) (hit : Int → Config ℤ → ECost) (H : Spec.Hits p hit)
    (hc : Spec.CertainSlots p) (o : OfflineOptions) (hl : o.l = none) (hα : 0 ≤ o.alpha) (ss : List Nat) (h1 : ∀ s ∈ ss, 1 ≤ s)
    (hs : (ss.sum : Int) < p.tEnd) :
    ∃ xs c r u, Spec.Periods o p ss xs c ∧ Multi.optimalGraphSearch p none o = .ok r ∧ r.path.cost ≠ ⊤ ∧
      (xs.length : Int) = p.tEnd ∧ (∀ x ∈ xs, Spec.InBox p.bounds x) ∧ p.toProb.alphaUnfairObjective xs o.alpha = .ok u ∧
      r.path.cost ≤ u.cost ∧ u.cost ≤ c ∧
      c ≤ r.path.cost + ((ss.length * (o.alpha * Spec.fullPower p) : ℚ) : ECost) := by
  induction ss generalizing p hit with
  | nil =>
    obtain ⟨r, a1, a2, a3, a4, a5, a6⟩ := best hv (by simp at hs; omega) H o hl hα
    obtain ⟨w, h⟩ := objective_total hv H o.alpha r.path.xs a2 a3
    exact ⟨_, _, r, _, .last p r a1, a1, a4, a2, a3, h, by rw [← a5], by rw [← a5], by simp⟩
  | cons s ss ih =>
    have hs1 := h1 s (by simp)
    rw [List.sum_cons] at hs
    have hs2 : (s : Int) < p.tEnd := by rw [Nat.cast_add] at hs; omega
    have hv' := valid_of hv
    have h0 : ∀ c ∈ p.bounds, 0 ≤ c := fun c hc => (hv'.2.2.2.2.1 c hc).le
    have hβ : ∀ b ∈ p.switchingCost, 0 ≤ b := fun b hb => (hv'.2.2.2.2.2 b hb).le
    have n1 : p.bounds.length = p.d.toNat := by have := hv'.2.2.1; omega
    have hz := zero_box h0
    obtain ⟨r1, b1, b2, b3, b4, b5, b6⟩ := best (valid_first hv s) (by show 1 ≤ (s : Int); omega) (hits_first H hs2.le) o hl hα
    obtain ⟨xs, c, r2, u, c1, c2, c3, c4, c5, c6, c7, c8, c9⟩ := ih (p.reset s) (valid_reset hv hs2) _ (hits_reset H hc hs2)
      (certain_reset hc) (fun q hq => h1 q (by simp [hq])) (by show _ < p.tEnd - s; rw [Nat.cast_add] at hs; omega)
    obtain ⟨r, a1, a2, a3, a4, a5, a6⟩ := best hv (by omega) H o hl hα
    have b2 : (r1.path.xs.length : Int) = s := b2
    have b3 : ∀ x ∈ r1.path.xs, Spec.InBox p.bounds x := b3
    have c4 : (xs.length : Int) = p.tEnd - s := c4
    have c5 : ∀ x ∈ xs, Spec.InBox p.bounds x := c5
    have x1 : ((r1.path.xs ++ xs).length : Int) = p.tEnd := by rw [List.length_append]; push_cast; omega
    have x2 : ∀ x ∈ r1.path.xs ++ xs, Spec.InBox p.bounds x := by
      intro x hx
      rcases List.mem_append.1 hx with hx | hx
      · exact b3 x hx
      · exact c5 x hx
    obtain ⟨w, hw⟩ := objective_total hv H o.alpha _ x1 x2
    obtain ⟨w', hw'⟩ := objective_total (valid_reset hv hs2) (hits_reset H hc hs2) o.alpha xs c4 c5
    rw [c6] at hw'
    have e2 := Except.ok.inj hw'
    obtain rfl := e2
    dsimp only at c7 c8
    have hr2 := (best (valid_reset hv hs2) (by show 1 ≤ p.tEnd - s; omega) (hits_reset H hc hs2) o hl hα)
    obtain ⟨r2', d1, d2, d3, d4, d5, d6⟩ := hr2
    rw [c2] at d1
    obtain rfl := Except.ok.inj d1
    rw [Lcp.totalCost_shift] at c7 c8
    refine ⟨_, _, r, _, .cut p s ss r1 xs c b1 c1, a1, a4, x1, x2, hw, a6 _ x1 x2, ?_, ?_⟩
    · dsimp only
      rw [Window.cost_append, b5]
      refine add_le_add le_rfl (le_trans ?_ c8)
      have := (cost_from (hit := hit) hβ hα p.bounds _ (last_box hz r1.path.xs b3) h0 (s + 1) xs c5).1
      rw [n1] at this
      rw [b2, add_comm 1 (s : Int)]
      exact this
    · have k1 := b6 (r.path.xs.take s) (by rw [List.length_take]; show _ = (s : Int); omega) (fun y hy => a3 y (List.mem_of_mem_take hy))
      have k2 := d6 (r.path.xs.drop s) (by rw [List.length_drop]; show _ = p.tEnd - s; omega) (fun y hy => a3 y (List.mem_of_mem_drop hy))
      rw [Lcp.totalCost_shift] at k2
      have k3 := (cost_from (hit := hit) hβ hα p.bounds _ (last_box hz (r.path.xs.take s)
        (fun y hy => a3 y (List.mem_of_mem_take hy))) h0 (s + 1) (r.path.xs.drop s) (fun y hy => a3 y (List.mem_of_mem_drop hy))).2
      rw [n1] at k3
      have k4 := Window.cost_append hit (Spec.upCost p.switchingCost) o.alpha (r.path.xs.take s) (r.path.xs.drop s) 1
        (List.replicate p.d.toNat 0)
      rw [List.take_append_drop, ← a5, List.length_take, min_eq_left (by omega), add_comm 1 (s : Int)] at k4
      rw [k4]
      have k5 : ((ss.length : ℚ) + 1) * (o.alpha * Spec.fullPower p)
          = o.alpha * Spec.weighted p.switchingCost p.bounds + ss.length * (o.alpha * Spec.fullPower p) := by
        unfold Spec.fullPower; ring
      rw [List.length_cons, Nat.cast_add, Nat.cast_one, k5, WithTop.coe_add]
      calc r1.path.cost + c ≤ _ + (_ + _) := add_le_add k1 (c9.trans (add_le_add (k2.trans k3) le_rfl))
        _ = _ := by
          simp only [add_assoc]
          rfl

/-- **C113** (longer horizons). A plan for more slots costs at least as much: with non-negative hitting costs, the plan for the first
`s` slots is at most as expensive as the plan for all slots. -/
theorem C113_longer (p : SSCO ℤ C D) (hv : p.verify = .ok ()) (hit : Int → Config ℤ → ECost) (H : Spec.Hits p hit)
    (hn : ∀ t : Int, 1 ≤ t → t ≤ p.tEnd → ∀ x, Spec.InBox p.bounds x → 0 ≤ hit t x)
    (o : OfflineOptions) (hl : o.l = none) (hα : 0 ≤ o.alpha) (s : Nat) (h1 : 1 ≤ s) (hs : (s : Int) ≤ p.tEnd) :
    ∃ r r', Multi.optimalGraphSearch { p with tEnd := s } none o = .ok r ∧ Multi.optimalGraphSearch p none o = .ok r' ∧
      r.path.cost ≤ r'.path.cost := by
  have hv' := valid_of hv
  have hβ : ∀ b ∈ p.switchingCost, 0 ≤ b := fun b hb => (hv'.2.2.2.2.2 b hb).le
  obtain ⟨r1, b1, b2, b3, b4, b5, b6⟩ := best (valid_first hv s) (by show 1 ≤ (s : Int); omega) (hits_first H hs) o hl hα
  obtain ⟨r, a1, a2, a3, a4, a5, a6⟩ := best hv (by omega) H o hl hα
  refine ⟨r1, r, b1, a1, ?_⟩
  have k1 := b6 (r.path.xs.take s) (by rw [List.length_take]; show _ = (s : Int); omega) (fun y hy => a3 y (List.mem_of_mem_take hy))
  refine k1.trans ?_
  rw [a5]
  conv_rhs => rw [← List.take_append_drop s r.path.xs, Window.cost_append]
  refine le_add_of_nonneg_right ?_
  refine cost_nonneg hβ hα _ _ _ fun t t1 t2 x hx => ?_
  rw [List.length_drop] at t2
  rw [List.length_take] at t1 t2
  exact hn t (by omega) (by omega) x (a3 x (List.mem_of_mem_drop hx))

/-! ## The claims are not empty -/

theorem Ex.ssco2_hits : Spec.Hits Ex.ssco2 Ex.hitBox2 where
  slot t t1 _ x hx := Ex.ssco2_hitBox t t1 x hx
  fin t t1 t2 := Ex.ssco2_top t t1 t2

theorem Ex.ssco2_certain : Spec.CertainSlots Ex.ssco2 := by
  intro t t1 _ x r h
  rw [Ex.ssco2, CostFn.callPredictive_certain _ _ t1] at h
  simp only [Except.map, Except.ok.injEq] at h
  rw [← h]; rfl

theorem Ex.hitBox2_nonneg (t : Int) (x : Config ℤ) (hx : Spec.InBox Ex.ssco2.bounds x) : 0 ≤ Ex.hitBox2 t x := by
  have hx' : List.Forall₂ (fun (b j : ℤ) => 0 ≤ j ∧ j ≤ b) [2, 3] x := hx
  cases hx' with
  | @cons _ j _ _ h h2 =>
    cases h2 with
    | @cons _ k _ _ h' h3 =>
      cases h3
      unfold Ex.hitBox2
      split_ifs
      · exact le_top
      · unfold Ex.hit2
        split_ifs
        · exact le_top
        · simp only [List.getD_cons_zero, List.getD_cons_succ]
          have : (0 : ℚ) ≤ ((j + 2 * k : ℤ) : ℚ) := by exact_mod_cast (by omega : (0 : ℤ) ≤ j + 2 * k)
          exact_mod_cast this

example (α : ℚ) (hα : 0 ≤ α) := C113_periods Ex.ssco2 (by decide +kernel) _ Ex.ssco2_hits Ex.ssco2_certain ⟨false, α, none⟩ rfl hα [1, 1]
  (by simp) (by decide)

example (α : ℚ) (hα : 0 ≤ α) := C113_longer Ex.ssco2 (by decide +kernel) _ Ex.ssco2_hits
  (fun t _ _ x hx => Ex.hitBox2_nonneg t x hx) ⟨false, α, none⟩ rfl hα 2 (by decide) (by decide)

/-- One server which must always be active. -/
def Ex.always : SSCO ℤ Unit Unit where
  d := 1
  tEnd := 3
  bounds := [1]
  switchingCost := [2]
  hittingCost := CostFn.new 1 (SingleCostFn.certain fun _ x =>
    .ok (Cost.raw (if x.getD 0 0 < 1 then ⊤ else 1)))

/-- The bound is attained: planned slot by slot, `Ex.always` pays for powering up its server three times instead of once. -/
theorem C113_attained : (Multi.optimalGraphSearch Ex.always none ⟨false, 1, none⟩).map (·.path.cost) = .ok 5 ∧
    (∃ xs, Spec.Periods ⟨false, 1, none⟩ Ex.always [1, 1] xs 9) ∧ (9 : ECost) = 5 + ((([1, 1] : List Nat).length * (1 * Spec.fullPower Ex.always) : ℚ) : ECost) := by
  refine ⟨by decide +kernel, ?_, by decide +kernel⟩
  have find : ∀ (p : SSCO ℤ Unit Unit) (c : ECost), (Multi.optimalGraphSearch p none ⟨false, 1, none⟩).map (·.path.cost) = .ok c →
      ∃ r, Multi.optimalGraphSearch p none ⟨false, 1, none⟩ = .ok r ∧ r.path.cost = c := by
    intro p c h
    cases e : Multi.optimalGraphSearch p none ⟨false, 1, none⟩ with
    | error f => rw [e] at h; simp [Except.map] at h
    | ok r => rw [e] at h; exact ⟨r, rfl, Except.ok.inj h⟩
  obtain ⟨r1, a1, a2⟩ := find { Ex.always with tEnd := (1 : Nat) } 3 (by decide +kernel)
  obtain ⟨r2, b1, b2⟩ := find { Ex.always.reset (1 : Nat) with tEnd := (1 : Nat) } 3 (by decide +kernel)
  obtain ⟨r3, c1, c2⟩ := find ((Ex.always.reset (1 : Nat)).reset (1 : Nat)) 3 (by decide +kernel)
  have h := Spec.Periods.cut Ex.always 1 [1] r1 _ _ a1 (.cut _ 1 [] r2 _ _ b1 (.last _ r3 c1))
  rw [a2, b2, c2, show (3 : ECost) + (3 + 3) = 9 by decide +kernel] at h
  exact ⟨_, h⟩

end Soco
