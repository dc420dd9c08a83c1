import Verif.Props.Ties
import Verif.Lemmas.Window
import Verif.Props.Lcp

/-!
# C110: planning again does not change the plan
-/

namespace Soco
open Uni

variable {C D : Type} [OutSuccess C] [OutFailure D]

namespace Spec

/-- `xs` is what becomes of the instance `p`, coming from `x`, if one plans with the graph search, follows the plan for some
slots, resets the instance to this time and plans again from there, any number of times. -/
inductive Replanned (o : OfflineOptions) : SSCO ℤ C D → ℤ → Schedule ℤ → Prop
  | follow (p : SSCO ℤ C D) (x : ℤ) (P : Path) : Uni.optimalGraphSearch p x o = .ok P → Replanned o p x P.xs
  | again (p : SSCO ℤ C D) (x : ℤ) (P : Path) (s : Nat) (y : ℤ) (xs : Schedule ℤ) :
      Uni.optimalGraphSearch p x o = .ok P → 1 ≤ s → (s : Int) < p.tEnd → P.xs[s - 1]? = some [y] →
      Replanned o (p.reset s) y xs → Replanned o p x (P.xs.take s ++ xs)

end Spec

namespace Replan
open Lcp Window

theorem weight {g : Int → ℤ → ECost} {β α : ℚ} {inv : Bool} : ∀ (js : List ℤ) (t : Int) (x : ℤ),
    Spec.totalCost g (mv1 β inv) α t x js = Spec.totalCost g (mv1 (α * β) inv) 1 t x js := by
  intro js
  induction js with
  | nil => intros; rfl
  | cons j js ih =>
    intro t x
    rw [Spec.totalCost, Spec.totalCost, ih]
    congr 3
    unfold mv1
    ring

theorem reset_certain {p : SSCO ℤ C D} {s t : Int} (hs : 0 ≤ s) (ht : 1 ≤ t) (hc : p.hittingCost.CertainAt (1 + s))
    (hc' : p.hittingCost.CertainAt (t + s)) : (p.reset s).hittingCost.CertainAt t := by
  intro x r h
  have := (C08_reset_slot p.hittingCost s t hs ht hc x).1
  rw [show (p.reset s).hittingCost = p.hittingCost.reset s from rfl, this] at h
  exact hc' x r h

theorem inst_reset {p : SSCO ℤ C D} {m : ℤ} {β : ℚ} {g : Int → ℤ → ECost} {n s : Nat} (I : Spec.Inst p m β g n) (hs : s < n) :
    Spec.Inst (p.reset s) m β (fun t => g (t + s)) (n - s) where
  d := I.d
  bounds := I.bounds
  switching := I.switching
  tEnd := by
    show p.tEnd - s = _
    rw [I.tEnd]; omega
  hit t t1 t2 j h0 hj := by
    rw [reset_hit (by omega) t1 (I.certain _ (by omega) (by omega))]
    exact I.hit _ (by omega) (by omega) j h0 hj
  certain t t1 t2 := reset_certain (by omega) t1 (I.certain _ (by omega) (by omega)) (I.certain _ (by omega) (by omega))

theorem costs_reset {m : ℤ} {β : ℚ} {g : Int → ℤ → ECost} {n : Nat} (K : Spec.Costs m β g n) (s : Nat) (hs : s < n) :
    Spec.Costs m β (fun t => g (t + s)) (n - s) where
  hm := K.hm
  hβ := K.hβ
  fin t t1 t2 := K.fin _ (by omega) (by omega)
  nonneg t t1 t2 := K.nonneg _ (by omega) (by omega)
  conv t t1 t2 := K.conv _ (by omega) (by omega)

theorem search_low {p : SSCO ℤ C D} {m : ℤ} {β : ℚ} {g : Int → ℤ → ECost} {n : Nat} (I : Spec.Inst p m β g n)
    (K : Spec.Costs m β g n) {x : ℤ} (hx : x ≤ m) (o : OfflineOptions) (hl : o.l = none) (hα : 0 ≤ o.alpha) :
    ∃ P js, Uni.optimalGraphSearch p x o = .ok P ∧ P.xs = js.map (fun j => [j]) ∧
      P.cost = Spec.totalCost g (mv1 β o.inverted) o.alpha 1 x js ∧ IsLow g (o.alpha * β) o.inverted m n 1 x js := by
  have hT := I.tEnd
  obtain ⟨P, js, h1, h2, h3, h4, h5, h6, h7⟩ := graphSearch_main I.d I.bounds I.switching K.hm K.hβ (by omega) x hx o hl hα
    (fun t t1 t2 => I.hit t t1 (by omega)) (fun t t1 t2 => K.fin t t1 (by omega))
    (fun t t1 t2 => K.nonneg t t1 (by omega) m K.hm.le le_rfl)
  have h8 := h7 (fun t a b => K.nonneg _ (by omega) (by omega)) (fun t a b => K.conv _ (by omega) (by omega))
  refine ⟨P, js, h1, h2, h5, by omega, h4, by rw [← weight, ← h5]; exact h6, fun ks k1 k2 => ?_, fun ks k1 k2 k3 => ?_⟩
  · rw [← weight, ← weight, ← h5]
    exact (h8 ks (by omega) k2).1
  · rw [← weight, ← weight, ← h5] at k3
    exact (h8 ks (by omega) k2).2 k3

theorem low_shift {g : Int → ℤ → ECost} {β : ℚ} {inv : Bool} {m : ℤ} {N : Nat} {t s : Int} {x : ℤ} {js : List ℤ}
    (h : IsLow g β inv m N (t + s) x js) : IsLow (fun u => g (u + s)) β inv m N t x js := by
  have e : ∀ ks, Spec.totalCost (fun u => g (u + s)) (mv1 β inv) 1 t x ks = Spec.totalCost g (mv1 β inv) 1 (t + s) x ks := by
    intro ks; rw [totalCost_shift, add_comm]
  refine ⟨h.len, h.box, by rw [e]; exact h.fin, fun ks a b => by rw [e, e]; exact h.opt ks a b,
    fun ks a b c => h.low ks a b (by rw [e, e] at c; exact c)⟩

end Replan

open Replan

/-- **C110** (once). Let `P` be the plan of the graph search for convex costs, and `y` its number of servers in slot `s`. Resetting
the instance to time `s` and planning again from `y` succeeds and yields exactly the rest of the plan, at the cost that `P` charges for it:
the objective of the first `s` slots and the cost of the new plan add up to the cost of `P`. -/
theorem C110_replan {p : SSCO ℤ C D} {m : ℤ} {β : ℚ} {g : Int → ℤ → ECost} {n : Nat} (I : Spec.Inst p m β g n)
    (K : Spec.Costs m β g n) (x : ℤ) (hx : x ≤ m) (o : OfflineOptions) (hl : o.l = none) (hα : 0 ≤ o.alpha)
    (s : Nat) (h1 : 1 ≤ s) (hs : s < n) :
    ∃ P Q y c, Uni.optimalGraphSearch p x o = .ok P ∧ P.xs[s - 1]? = some [y] ∧
      Uni.optimalGraphSearch (p.reset s) y o = .ok Q ∧ Q.xs = P.xs.drop s ∧
      p.toProb.objectiveWithDefault' (P.xs.take s) [x] o.alpha o.inverted s = .ok c ∧ c.cost + Q.cost = P.cost := by
  obtain ⟨P, js, a1, a2, a3, a4⟩ := search_low I K hx o hl hα
  obtain ⟨y, hy⟩ : ∃ y, js[s - 1]? = some y := ⟨js[s - 1]'(by rw [a4.len]; omega), List.getElem?_eq_getElem _⟩
  have hlast : (js.take s).getLastD x = y := by
    rw [List.getLastD_eq_getLast?, List.getLast?_take, if_neg (by omega), hy]; rfl
  have hym : y ≤ m := (a4.box y (List.mem_of_getElem? hy)).2
  obtain ⟨Q, ks, b1, b2, b3, b4⟩ := search_low (inst_reset I hs) (costs_reset K s hs) hym o hl hα
  have t1 := a4.tail hs.le
  rw [hlast] at t1
  have e : ks = js.drop s := b4.unique (low_shift t1)
  have hT := I.tEnd
  obtain ⟨out, h3⟩ := objective_one I.switching (Q := fun j => 0 ≤ j ∧ j ≤ m)
    (fun t h1 h2 j hj => I.hit t h1 (by omega) j hj.1 hj.2) o.alpha o.inverted x js (by rw [a4.len, hT]) a4.box
  have I' := inst_reset I hs
  obtain ⟨out', h4⟩ := objective_one I'.switching (Q := fun j => 0 ≤ j ∧ j ≤ m)
    (fun t h1 h2 j hj => I'.hit t h1 (by rw [← I'.tEnd]; exact h2) j hj.1 hj.2) o.alpha o.inverted y ks
    (by rw [b4.len, I'.tEnd]) b4.box
  have h5 := C08_reset_objective p P.xs [x] o.alpha o.inverted s (by rw [a2, List.length_map, a4.len]; omega)
    (I.certain _ (by omega) (by omega))
  have l1 : ((P.xs.length : Nat) : Int) = p.tEnd := by rw [a2, List.length_map, a4.len, hT]
  have l2 : ((P.xs.length - s : Nat) : Int) = (p.reset s).tEnd := by
    rw [I'.tEnd, a2, List.length_map, a4.len]
  have l3 : Schedule.reset P.xs s = ks.map fun j => [j] := by
    show P.xs.drop s = _
    rw [a2, e, List.map_drop]
  have l4 : (P.xs.take s).getLastD [x] = [y] := by
    rw [a2, ← List.map_take, List.getLastD_eq_getLast?, List.getLast?_map, List.getLast?_take, if_neg (by omega), hy]; rfl
  rw [l1, l2, l3, l4, h4, a2, h3] at h5
  simp only [Except.map, bind, Except.bind] at h5
  rw [← a2] at h5
  cases k : p.toProb.objectiveWithDefault' (P.xs.take s) [x] o.alpha o.inverted s with
  | error f => rw [k] at h5; simp at h5
  | ok c =>
    rw [k] at h5
    have h5 := Except.ok.inj h5
    refine ⟨P, Q, y, c, a1, by rw [a2, List.getElem?_map, hy]; rfl, b1, by rw [b2, e, a2, List.map_drop], k, ?_⟩
    rw [a3, h5, b3]

/-- **C110** (any number of times). However often one plans again, the result is the first plan. -/
theorem C110_replanned {p : SSCO ℤ C D} {m : ℤ} {β : ℚ} {g : Int → ℤ → ECost} {n : Nat} (I : Spec.Inst p m β g n)
    (K : Spec.Costs m β g n) (x : ℤ) (hx : x ≤ m) (o : OfflineOptions) (hl : o.l = none) (hα : 0 ≤ o.alpha)
    (xs : Schedule ℤ) (h : Spec.Replanned o p x xs) :
    ∃ P, Uni.optimalGraphSearch p x o = .ok P ∧ xs = P.xs := by
  induction h generalizing n g with
  | follow p x P hP => exact ⟨P, hP, rfl⟩
  | again p x P s y xs hP h1 hs hy _ ih =>
    have hs' : s < n := by have := I.tEnd; omega
    obtain ⟨P', Q, y', c, a1, a2, a3, a4, _⟩ := C110_replan I K x hx o hl hα s h1 hs'
    rw [hP] at a1
    obtain rfl := Except.ok.inj a1
    rw [hy] at a2
    have hyy : y = y' := by simpa using a2
    subst hyy
    have hym : y ≤ m := by
      obtain ⟨P2, js, b1, b2, _, b4⟩ := search_low I K hx o hl hα
      rw [hP] at b1
      obtain rfl := Except.ok.inj b1
      rw [b2, List.getElem?_map] at hy
      cases hj : js[s - 1]? with
      | none => rw [hj] at hy; simp at hy
      | some j =>
        rw [hj] at hy
        have : j = y := by simpa using hy
        subst this
        exact (b4.box j (List.mem_of_getElem? hj)).2
    obtain ⟨Q', c1, c2⟩ := ih (inst_reset I hs') (costs_reset K s hs') hym
    rw [a3] at c1
    obtain rfl := Except.ok.inj c1
    exact ⟨P, hP, by rw [c2, a4, List.take_append_drop]⟩

/-! ## The claims are not empty -/

example (inverted : Bool) (s : Nat) (h1 : 1 ≤ s) (hs : s < 4) := C110_replan (Ex.sscoAt_inst 4) (Ex.abs_costs 4) 2 (by omega)
  ⟨inverted, 3, none⟩ rfl (by norm_num) s h1 hs

/-- Following the first plan for one slot, the second for two slots, and then the third. -/
example (o : OfflineOptions) (hl : o.l = none) (hα : 0 ≤ o.alpha) : ∃ xs, Spec.Replanned o (Ex.sscoAt 5) 0 xs ∧ xs.length = 5 := by
  obtain ⟨P, Q, y, c, a1, a2, a3, a4, _⟩ := C110_replan (Ex.sscoAt_inst 5) (Ex.abs_costs 5) 0 (by omega) o hl hα 1 le_rfl (by omega)
  obtain ⟨P0, js, b1, b2, _, b4⟩ := search_low (Ex.sscoAt_inst 5) (Ex.abs_costs 5) (x := 0) (by omega) o hl hα
  rw [a1] at b1
  obtain rfl := Except.ok.inj b1
  have hy : y ≤ 5 := by
    rw [b2, List.getElem?_map] at a2
    cases hj : js[0]? with
    | none => rw [hj] at a2; simp at a2
    | some j =>
      rw [hj] at a2
      have : j = y := by simpa using a2
      subst this
      exact (b4.box j (List.mem_of_getElem? hj)).2
  obtain ⟨P', Q', y', c', d1, d2, d3, d4, _⟩ := C110_replan (inst_reset (Ex.sscoAt_inst 5) (s := 1) (by omega))
    (costs_reset (Ex.abs_costs 5) 1 (by omega)) y hy o hl hα 2 (by omega) (by omega)
  rw [show (((1 : Nat) : Int)) = 1 from rfl] at *
  rw [a3] at d1
  obtain rfl := Except.ok.inj d1
  refine ⟨_, .again _ _ P 1 y _ a1 le_rfl (by decide) a2 (.again _ _ Q 2 y' _ a3 (by omega) (by decide) d2 (.follow _ _ Q' d3)), ?_⟩
  have : P.xs.length = 5 := by rw [b2, List.length_map, b4.len]
  rw [d4, List.take_append_drop, a4, List.take_append_drop, this]

end Soco
