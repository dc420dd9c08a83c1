import Verif.Props.OfflineFrac

/-! # C127: limits of the total movement and the price of movement -/

namespace Soco
namespace OfflineFrac
open Spec Num Descent

theorem scheduleCost_parts (d : Nat) (hit : Int → Config ℚ → ECost) (mv : Config ℚ → ℚ) (α : ℚ) (xs : Schedule ℚ) :
    scheduleCost d hit mv α xs = totalHit hit 1 xs + ((α * scheduleMove d mv xs : ℚ) : ECost) :=
  Soco.totalCost_eq ..

theorem le_of_add_coe_le {a b : ECost} (q : ℚ) (h : a + (q : ECost) ≤ b + (q : ECost)) : a ≤ b := by
  induction a using WithTop.recTopCoe <;> induction b using WithTop.recTopCoe
  · exact le_rfl
  · exact absurd h (by simp [← WithTop.coe_add])
  · exact le_top
  · rw [← WithTop.coe_add, ← WithTop.coe_add, WithTop.coe_le_coe] at h
    exact WithTop.coe_le_coe.2 (by linarith)

section
variable {C D : Type} [OutSuccess C] [OutFailure D]

/-- **C127** (more freedom). Raising the limit of the total movement, or dropping it, never makes the plan of the convex
optimisation dearer, provided that some schedule meets the lower limit. -/
theorem C127_higher_limit (S : Solver) (hE : Exact S) (p : SCO ℚ C D) (hit : Int → Config ℚ → ECost) (mv : Config ℚ → ℚ)
    (T : Nat) (hT : p.tEnd = T) (h1 : 1 ≤ T) (hp : ∀ t : Nat, 1 ≤ t → t ≤ T → Slot p t (hit t) mv) (α l : ℚ)
    (hl : ∃ ys, GridSchedule p.bounds T ys ∧ scheduleMove p.bounds.length mv ys ≤ l) (l' : Option ℚ)
    (hll : ∀ r, l' = some r → l ≤ r) :
    ∃ xs ys, co S p ⟨false, α, some l⟩ = .ok xs ∧ co S p ⟨false, α, l'⟩ = .ok ys ∧
      scheduleCost p.bounds.length hit mv α ys ≤ scheduleCost p.bounds.length hit mv α xs := by
  obtain ⟨xs, a1, a2, a3⟩ := C60_convex_optimization S hE.toSound p hit mv T hT h1 hp ⟨false, α, some l⟩ rfl
  obtain ⟨ys, b1, -, b3⟩ := C60_convex_optimization S hE.toSound p hit mv T hT h1 hp ⟨false, α, l'⟩ rfl
  exact ⟨xs, ys, a1, b1, (b3 hE).2 xs a2 fun r hr => ((a3 hE).1 l rfl hl).trans (hll r hr)⟩

/-- **C127** (limits that do not bind). If the plan without a limit happens to meet the limit, the plan with the limit
costs the same. -/
theorem C127_slack (S : Solver) (hE : Exact S) (p : SCO ℚ C D) (hit : Int → Config ℚ → ECost) (mv : Config ℚ → ℚ)
    (T : Nat) (hT : p.tEnd = T) (h1 : 1 ≤ T) (hp : ∀ t : Nat, 1 ≤ t → t ≤ T → Slot p t (hit t) mv) (α l : ℚ) (xs : Schedule ℚ)
    (hx : co S p ⟨false, α, none⟩ = .ok xs) (hl : scheduleMove p.bounds.length mv xs ≤ l) :
    ∃ ys, co S p ⟨false, α, some l⟩ = .ok ys ∧
      scheduleCost p.bounds.length hit mv α ys = scheduleCost p.bounds.length hit mv α xs := by
  obtain ⟨xs', a1, a2, a3⟩ := C60_convex_optimization S hE.toSound p hit mv T hT h1 hp ⟨false, α, none⟩ rfl
  obtain rfl : xs' = xs := Except.ok.inj (a1.symm.trans hx)
  obtain ⟨ys, b1, b2, b3⟩ := C60_convex_optimization S hE.toSound p hit mv T hT h1 hp ⟨false, α, some l⟩ rfl
  refine ⟨ys, b1, le_antisymm ((b3 hE).2 xs' a2 ?_) ((a3 hE).2 ys b2 (by simp))⟩
  rintro _ ⟨⟩
  exact hl

/-- **C127** (prices and limits). Let `xs` be the plan without a limit when movement is charged at weight `β`. At every weight
`α` of at most `β`, the cost of `xs` is the cost of the plan that is limited to the movement of `xs`: charging more for
movement and limiting movement lead to the same plans. -/
theorem C127_price_as_limit (S : Solver) (hE : Exact S) (p : SCO ℚ C D) (hit : Int → Config ℚ → ECost) (mv : Config ℚ → ℚ)
    (T : Nat) (hT : p.tEnd = T) (h1 : 1 ≤ T) (hp : ∀ t : Nat, 1 ≤ t → t ≤ T → Slot p t (hit t) mv) (α β : ℚ) (hαβ : α ≤ β)
    (xs : Schedule ℚ) (hx : co S p ⟨false, β, none⟩ = .ok xs) :
    ∃ ys, co S p ⟨false, α, some (scheduleMove p.bounds.length mv xs)⟩ = .ok ys ∧
      scheduleMove p.bounds.length mv ys ≤ scheduleMove p.bounds.length mv xs ∧
      scheduleCost p.bounds.length hit mv α ys = scheduleCost p.bounds.length hit mv α xs := by
  obtain ⟨xs', a1, a2, a3⟩ := C60_convex_optimization S hE.toSound p hit mv T hT h1 hp ⟨false, β, none⟩ rfl
  obtain rfl : xs' = xs := Except.ok.inj (a1.symm.trans hx)
  obtain ⟨ys, b1, b2, b3⟩ := C60_convex_optimization S hE.toSound p hit mv T hT h1 hp
    ⟨false, α, some (scheduleMove p.bounds.length mv xs')⟩ rfl
  have hm := (b3 hE).1 _ rfl ⟨xs', a2, le_rfl⟩
  refine ⟨ys, b1, hm, le_antisymm ((b3 hE).2 xs' a2 ?_) ?_⟩
  · rintro _ ⟨⟩
    exact le_rfl
  · have h := (a3 hE).2 ys b2 (by simp)
    simp only [scheduleCost_parts] at h ⊢
    set m := scheduleMove p.bounds.length mv xs'
    set k := scheduleMove p.bounds.length mv ys
    have e : ∀ q : ℚ, (β * q : ℚ) = α * q + (β - α) * q := fun q => by ring
    have h2 : ((β - α) * k : ℚ) ≤ (β - α) * m := mul_le_mul_of_nonneg_left hm (by linarith)
    rw [e m, e k, WithTop.coe_add, WithTop.coe_add, ← add_assoc, ← add_assoc] at h
    exact le_of_add_coe_le _ (h.trans (add_le_add le_rfl (WithTop.coe_le_coe.2 h2)))

/-- **C127** (bounds from prices). For every surcharge `r` on movement the plan limited to `l` costs at least as much as the
plan without a limit at the higher price, less `r * l`. -/
theorem C127_duality (S : Solver) (hE : Exact S) (p : SCO ℚ C D) (hit : Int → Config ℚ → ECost) (mv : Config ℚ → ℚ)
    (T : Nat) (hT : p.tEnd = T) (h1 : 1 ≤ T) (hp : ∀ t : Nat, 1 ≤ t → t ≤ T → Slot p t (hit t) mv) (α r l : ℚ) (hr : 0 ≤ r)
    (hl : ∃ ys, GridSchedule p.bounds T ys ∧ scheduleMove p.bounds.length mv ys ≤ l) :
    ∃ xs ys, co S p ⟨false, α, some l⟩ = .ok xs ∧ co S p ⟨false, α + r, none⟩ = .ok ys ∧
      scheduleCost p.bounds.length hit mv (α + r) ys ≤ scheduleCost p.bounds.length hit mv α xs + ((r * l : ℚ) : ECost) := by
  obtain ⟨xs, a1, a2, a3⟩ := C60_convex_optimization S hE.toSound p hit mv T hT h1 hp ⟨false, α, some l⟩ rfl
  obtain ⟨ys, b1, -, b3⟩ := C60_convex_optimization S hE.toSound p hit mv T hT h1 hp ⟨false, α + r, none⟩ rfl
  refine ⟨xs, ys, a1, b1, ((b3 hE).2 xs a2 (by simp)).trans ?_⟩
  have hm := (a3 hE).1 l rfl hl
  simp only [scheduleCost_parts]
  rw [add_assoc, ← WithTop.coe_add]
  refine add_le_add le_rfl (WithTop.coe_le_coe.2 ?_)
  have := mul_le_mul_of_nonneg_left hm hr
  linarith

/-- **C127** (constant plans). A limit that admits the best constant schedule leaves a plan at most as dear as it. -/
theorem C127_static (S : Solver) (hE : Exact S) (p : SCO ℚ C D) (hit : Int → Config ℚ → ECost) (mv : Config ℚ → ℚ)
    (T : Nat) (hT : p.tEnd = T) (h1 : 1 ≤ T) (hp : ∀ t : Nat, 1 ≤ t → t ≤ T → Slot p t (hit t) mv) (α : ℚ) :
    ∃ x, staticFractional S p ⟨false, α, none⟩ = .ok (List.replicate T x) ∧
      ∀ l, scheduleMove p.bounds.length mv (List.replicate T x) ≤ l → ∃ xs, co S p ⟨false, α, some l⟩ = .ok xs ∧
        scheduleMove p.bounds.length mv xs ≤ l ∧
        scheduleCost p.bounds.length hit mv α xs ≤ scheduleCost p.bounds.length hit mv α (List.replicate T x) := by
  obtain ⟨x, a1, a2, -⟩ := C61_static_fractional S hE.toSound p hit mv T hT h1 hp ⟨false, α, none⟩ rfl (Or.inl rfl)
  have hg : GridSchedule p.bounds T (List.replicate T x) :=
    ⟨by simp, fun y hy => by rw [(List.mem_replicate.1 hy).2]; exact a2⟩
  refine ⟨x, a1, fun l hl => ?_⟩
  obtain ⟨xs, b1, -, b3⟩ := C60_convex_optimization S hE.toSound p hit mv T hT h1 hp ⟨false, α, some l⟩ rfl
  refine ⟨xs, b1, (b3 hE).1 l rfl ⟨_, hg, hl⟩, (b3 hE).2 _ hg ?_⟩
  rintro _ ⟨⟩
  exact hl

/-- **C127** (no movement). If all servers may be off and every other move costs something, the limit zero keeps all
servers off. -/
theorem C127_standstill (S : Solver) (hE : Exact S) (p : SCO ℚ C D) (hit : Int → Config ℚ → ECost) (mv : Config ℚ → ℚ)
    (T : Nat) (hT : p.tEnd = T) (h1 : 1 ≤ T) (hp : ∀ t : Nat, 1 ≤ t → t ≤ T → Slot p t (hit t) mv) (α : ℚ)
    (h0 : ∀ b ∈ p.bounds, b.1 ≤ 0 ∧ 0 ≤ b.2) (hm0 : mv (List.replicate p.bounds.length 0) = 0)
    (hm : ∀ z : Config ℚ, z.length = p.bounds.length → z ≠ List.replicate p.bounds.length 0 → 0 < mv z) :
    co S p ⟨false, α, some 0⟩ = .ok (List.replicate T (List.replicate p.bounds.length 0)) := by
  obtain ⟨xs, a1, ⟨a2, a3⟩, a4⟩ := C60_convex_optimization S hE.toSound p hit mv T hT h1 hp ⟨false, α, some 0⟩ rfl
  set d := p.bounds.length with hd
  have hsub : List.zipWith (· - ·) (List.replicate d (0 : ℚ)) (List.replicate d 0) = List.replicate d 0 := by simp
  have hz : GridPoint p.bounds (List.replicate d 0) := by
    refine ⟨?_, fun j hj => ⟨0, by simp [(List.mem_replicate.1 hj).2]⟩⟩
    rw [hd]
    clear_value d
    revert h0
    generalize p.bounds = b
    intro h0
    induction b with
    | nil => exact .nil
    | cons c b ih =>
      rw [List.length_cons, List.replicate_succ]
      exact .cons (h0 c (by simp)) (ih fun x hx => h0 x (by simp [hx]))
  have hmz : ∀ n, totalMove (fun y x => mv (List.zipWith (· - ·) x y)) (List.replicate d 0) (List.replicate n (List.replicate d 0)) = 0 := by
    intro n
    induction n with
    | zero => rfl
    | succ n ih => rw [List.replicate_succ, totalMove, ih, hsub, hm0, add_zero]
  have hle := (a4 hE).1 0 rfl ⟨List.replicate T (List.replicate d 0), ⟨by simp, fun y hy => by rw [(List.mem_replicate.1 hy).2]; exact hz⟩,
    (hmz T).le⟩
  have hnn : ∀ z : Config ℚ, z.length = d → 0 ≤ mv z := by
    intro z hz'
    by_cases h : z = List.replicate d 0
    · rw [h, hm0]
    · exact (hm z hz' h).le
  have key : ∀ (xs : Schedule ℚ) (y : Config ℚ), y.length = d → (∀ x ∈ xs, x.length = d) →
      0 ≤ totalMove (fun y x => mv (List.zipWith (· - ·) x y)) y xs := by
    intro xs
    induction xs with
    | nil => intro y _ _; exact le_rfl
    | cons x xs ih =>
      intro y hy hx
      exact add_nonneg (hnn _ (by simp [hx x (by simp), hy])) (ih x (hx x (by simp)) fun z hz' => hx z (by simp [hz']))
  have main : ∀ xs : Schedule ℚ, (∀ x ∈ xs, x.length = d) →
      totalMove (fun y x => mv (List.zipWith (· - ·) x y)) (List.replicate d 0) xs ≤ 0 →
      xs = List.replicate xs.length (List.replicate d 0) := by
    intro xs
    induction xs with
    | nil => intro _ _; rfl
    | cons x xs ih =>
      intro hx hmv
      rw [totalMove] at hmv
      have k1 := key xs x (hx x (by simp)) fun z hz' => hx z (by simp [hz'])
      have hxl := hx x (by simp)
      have e : List.zipWith (· - ·) x (List.replicate d 0) = x := by
        refine List.ext_getElem (by simp [hxl]) fun i _ _ => ?_
        simp
      have ex : x = List.replicate d 0 := by
        by_contra hne
        have := hm x hxl hne
        rw [e] at hmv
        linarith
      subst ex
      rw [hsub, hm0, zero_add] at hmv
      rw [List.length_cons, List.replicate_succ, ← ih (fun z hz' => hx z (by simp [hz'])) hmv]
  rw [a1, main xs (fun x hx => inBoxQ_length (a3 x hx).1) hle, a2]

end

open Rbg

/-- Non-vacuity: the example instance with any number of slots meets the hypotheses of all theorems above; the limit one half
is met by the schedule that stays off. -/
example (T : Nat) (h1 : 1 ≤ T) (α β : ℚ) (hαβ : α ≤ β) : ∃ S : Solver, ∃ xs ys, co S (exQ T) ⟨false, β, none⟩ = .ok xs ∧
    co S (exQ T) ⟨false, α, some (scheduleMove 1 exMv xs)⟩ = .ok ys ∧
      scheduleCost 1 exHit exMv α ys = scheduleCost 1 exHit exMv α xs := by
  obtain ⟨S, hE, _⟩ := exists_exact
  have hp : ∀ t : Nat, 1 ≤ t → t ≤ T → Slot (exQ T) t (exHit t) exMv := fun t ht _ => exQ_slot _ _ (by exact_mod_cast ht)
  obtain ⟨xs, a1, -⟩ := C60_convex_optimization S hE.toSound (exQ T) exHit exMv T rfl h1 hp ⟨false, β, none⟩ rfl
  obtain ⟨ys, b1, -, b3⟩ := C127_price_as_limit S hE (exQ T) exHit exMv T rfl h1 hp α β hαβ xs a1
  exact ⟨S, xs, ys, a1, b1, b3⟩

example (T : Nat) (h1 : 1 ≤ T) (α : ℚ) : ∃ S : Solver, co S (exQ T) ⟨false, α, some 0⟩ = .ok (List.replicate T [0]) := by
  obtain ⟨S, hE, _⟩ := exists_exact
  refine ⟨S, C127_standstill S hE (exQ T) exHit exMv T rfl h1 (fun t ht _ => exQ_slot _ _ (by exact_mod_cast ht)) α
    (by simp [exQ]) (by simp [exMv, exQ]) ?_⟩
  intro z hz hne
  obtain ⟨a, rfl⟩ := List.length_eq_one_iff.1 (hz.trans (by rfl : (exQ T).bounds.length = 1))
  have : a ≠ 0 := fun h => hne (by rw [h]; rfl)
  simpa [exMv] using this

end OfflineFrac
end Soco
