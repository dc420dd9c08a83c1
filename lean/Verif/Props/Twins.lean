import Verif.Props.Periods

/-!
# C135: two types of identical servers are as good as one
-/

namespace Soco
namespace Spec

/-- `q` is `p` with the servers of the first type listed as two types: up to `m` servers of the one and up to `n` of the other.
They start at the same cost, and the costs of a slot depend on how many of them are active in total only. -/
structure Twins {C D : Type} (m n : ℤ) (p q : SSCO ℤ C D) (hit hit' : Int → Config ℤ → ECost) : Prop where
  d : q.d = p.d + 1
  tEnd : q.tEnd = p.tEnd
  bounds : ∃ bs, p.bounds = (m + n) :: bs ∧ q.bounds = m :: n :: bs
  switching : ∃ b β, p.switchingCost = b :: β ∧ q.switchingCost = b :: b :: β
  same : ∀ t : Int, 1 ≤ t → t ≤ p.tEnd → ∀ i j x, InBox q.bounds (i :: j :: x) → hit' t (i :: j :: x) = hit t ((i + j) :: x)

/-- The servers of both types together. -/
def joined : Config ℤ → Config ℤ
  | i :: j :: x => (i + j) :: x
  | x => x

/-- As many servers of the first of the two types as there are, the others of the second. -/
def dividedAt (m : ℤ) : Config ℤ → Config ℤ
  | z :: x => min z m :: (z - min z m) :: x
  | x => x

end Spec

variable {C D : Type} [OutSuccess C] [OutFailure D]

namespace Twins
open Spec Periods

theorem up_joined {b : ℚ} (hb : 0 ≤ b) (β : List ℚ) (i j i' j' : ℤ) (x x' : List ℤ) :
    upCost (b :: β) ((i + j) :: x) ((i' + j') :: x') ≤ upCost (b :: b :: β) (i :: j :: x) (i' :: j' :: x') := by
  simp only [upCost, List.zipWith3, List.sum_cons]
  have e : max 0 (toQ (i' + j') - toQ (i + j)) ≤ max 0 (toQ i' - toQ i) + max 0 (toQ j' - toQ j) := by
    show max 0 (((i' + j' : ℤ) : ℚ) - ((i + j : ℤ) : ℚ)) ≤ max 0 ((i' : ℚ) - i) + max 0 ((j' : ℚ) - j)
    push_cast
    refine max_le (add_nonneg (le_max_left _ _) (le_max_left _ _)) ?_
    have := le_max_right (0 : ℚ) ((i' : ℚ) - i)
    have := le_max_right (0 : ℚ) ((j' : ℚ) - j)
    linarith
  have := mul_le_mul_of_nonneg_left e hb
  linarith

theorem up_divided (b : ℚ) (β : List ℚ) (m z z' : ℤ) (x x' : List ℤ) :
    upCost (b :: b :: β) (min z m :: (z - min z m) :: x) (min z' m :: (z' - min z' m) :: x') = upCost (b :: β) (z :: x) (z' :: x') := by
  simp only [upCost, List.zipWith3, List.sum_cons]
  have e : max 0 (toQ (min z' m) - toQ (min z m)) + max 0 (toQ (z' - min z' m) - toQ (z - min z m)) = max 0 (toQ z' - toQ z) := by
    show max 0 (((min z' m : ℤ) : ℚ) - (min z m : ℤ)) + max 0 (((z' - min z' m : ℤ) : ℚ) - (z - min z m : ℤ)) = max 0 ((z' : ℚ) - z)
    have : max 0 (min z' m - min z m) + max 0 ((z' - min z' m) - (z - min z m)) = max 0 (z' - z) := by
      rcases le_total z' m with h1 | h1 <;> rcases le_total z m with h2 | h2 <;> simp only [min_eq_left, min_eq_right, h1, h2] <;> omega
    exact_mod_cast this
  rw [← add_assoc, ← mul_add, e]

/-- Plans of `q` are not cheaper than the plans with both types taken together. -/
theorem cost_joined {b : ℚ} (hb : 0 ≤ b) (β : List ℚ) {α : ℚ} (hα : 0 ≤ α) {m n : ℤ} {bs : List ℤ} {T : Int} {hit hit' : Int → Config ℤ → ECost}
    (hs : ∀ t : Int, 1 ≤ t → t ≤ T → ∀ i j x, InBox (m :: n :: bs) (i :: j :: x) → hit' t (i :: j :: x) = hit t ((i + j) :: x)) :
    ∀ (ys : Schedule ℤ) (t : Int) (i j : ℤ) (x : Config ℤ), 1 ≤ t → t + ys.length ≤ T + 1 → (∀ y ∈ ys, InBox (m :: n :: bs) y) →
      totalCost hit (upCost (b :: β)) α t ((i + j) :: x) (ys.map joined) ≤
        totalCost hit' (upCost (b :: b :: β)) α t (i :: j :: x) ys := by
  intro ys
  induction ys with
  | nil => intro t i j x _ _ _; exact le_rfl
  | cons y ys ih =>
    intro t i j x h1 h2 h3
    simp only [List.length_cons] at h2
    push_cast at h2
    match y, h3 y (by simp) with
    | i' :: j' :: y, hy =>
      have := ih (t + 1) i' j' y (by omega) (by omega) fun z hz => h3 z (List.mem_cons_of_mem _ hz)
      simp only [List.map_cons, joined, totalCost]
      rw [hs t h1 (by omega) i' j' y hy]
      exact add_le_add (add_le_add le_rfl (WithTop.coe_le_coe.2 (mul_le_mul_of_nonneg_left (up_joined hb β i j i' j' x y) hα))) this

/-- Dividing the servers of a plan of `p` does not change its cost. -/
theorem cost_divided (b : ℚ) (β : List ℚ) (α : ℚ) {m n : ℤ} (hm : 0 ≤ m) (hn : 0 ≤ n) {bs : List ℤ} {T : Int} {hit hit' : Int → Config ℤ → ECost}
    (hs : ∀ t : Int, 1 ≤ t → t ≤ T → ∀ i j x, InBox (m :: n :: bs) (i :: j :: x) → hit' t (i :: j :: x) = hit t ((i + j) :: x)) :
    ∀ (xs : Schedule ℤ) (t z : Int) (x : Config ℤ), 1 ≤ t → t + xs.length ≤ T + 1 → (∀ y ∈ xs, InBox ((m + n) :: bs) y) →
      totalCost hit' (upCost (b :: b :: β)) α t (min z m :: (z - min z m) :: x) (xs.map (dividedAt m)) =
        totalCost hit (upCost (b :: β)) α t (z :: x) xs := by
  intro xs
  induction xs with
  | nil => intro t z x _ _ _; rfl
  | cons y ys ih =>
    intro t z x h1 h2 h3
    simp only [List.length_cons] at h2
    push_cast at h2
    match y, h3 y (by simp) with
    | z' :: y, .cons ⟨z0, z1⟩ hy =>
      have := ih (t + 1) z' y (by omega) (by omega) fun z hz => h3 z (List.mem_cons_of_mem _ hz)
      have hin : InBox (m :: n :: bs) (min z' m :: (z' - min z' m) :: y) :=
        .cons ⟨by omega, by omega⟩ (.cons ⟨by omega, by omega⟩ hy)
      simp only [List.map_cons, dividedAt, totalCost]
      rw [hs t h1 (by omega) _ _ y hin, up_divided, this, add_sub_cancel]

theorem in_divided {m n : ℤ} (hm : 0 ≤ m) (hn : 0 ≤ n) {bs : List ℤ} {x : Config ℤ} (h : InBox ((m + n) :: bs) x) : InBox (m :: n :: bs) (dividedAt m x) := by
  match x, h with
  | z :: x, .cons ⟨h0, h1⟩ h => exact .cons ⟨by omega, by omega⟩ (.cons ⟨by omega, by omega⟩ h)

theorem in_joined {m n : ℤ} {bs : List ℤ} {x : Config ℤ} (h : InBox (m :: n :: bs) x) : InBox ((m + n) :: bs) (joined x) := by
  match x, h with
  | i :: j :: x, .cons ⟨h0, h1⟩ (.cons ⟨h2, h3⟩ h) => exact .cons ⟨by omega, by omega⟩ h

end Twins

open Twins Periods in
/-- **C135** Listing identical servers as two types changes the cost of no plan that uses the second type only when all servers
of the first are active, and no other way to divide the servers is cheaper. -/
theorem C135_plans (m n : ℤ) (p q : SSCO ℤ C D) (hit hit' : Int → Config ℤ → ECost) (W : Spec.Twins m n p q hit hit')
    (hv : p.verify = .ok ()) (hvq : q.verify = .ok ()) (H : Spec.Hits p hit) (H' : Spec.Hits q hit') (α : ℚ) (hα : 0 ≤ α) :
    (∀ xs : Schedule ℤ, (xs.length : Int) = p.tEnd → (∀ x ∈ xs, Spec.InBox p.bounds x) →
      (∀ x ∈ xs.map (Spec.dividedAt m), Spec.InBox q.bounds x) ∧
      ∃ c out out', p.toProb.alphaUnfairObjective xs α = .ok ⟨c, out⟩ ∧
        q.toProb.alphaUnfairObjective (xs.map (Spec.dividedAt m)) α = .ok ⟨c, out'⟩) ∧
    (∀ ys : Schedule ℤ, (ys.length : Int) = p.tEnd → (∀ y ∈ ys, Spec.InBox q.bounds y) →
      (∀ x ∈ ys.map Spec.joined, Spec.InBox p.bounds x) ∧
      ∃ c c', p.toProb.alphaUnfairObjective (ys.map Spec.joined) α = .ok c ∧
        q.toProb.alphaUnfairObjective ys α = .ok c' ∧ c.cost ≤ c'.cost) := by
  obtain ⟨bs, e1, e2⟩ := W.bounds
  obtain ⟨b, β, e3, e4⟩ := W.switching
  have hv' := valid_of hv
  have hvq' := valid_of hvq
  have hm : 0 ≤ m := (hvq'.2.2.2.2.1 m (by rw [e2]; simp)).le
  have hn : 0 ≤ n := (hvq'.2.2.2.2.1 n (by rw [e2]; simp)).le
  have hb : 0 ≤ b := (hv'.2.2.2.2.2 b (by rw [e3]; simp)).le
  have hd : ∃ k, p.d.toNat = k + 1 ∧ q.d.toNat = k + 2 := by
    have := hv'.1
    have := W.d
    exact ⟨(p.d - 1).toNat, by omega, by omega⟩
  obtain ⟨k, k1, k2⟩ := hd
  constructor
  · intro xs hl hx
    have hin : ∀ x ∈ xs.map (Spec.dividedAt m), Spec.InBox q.bounds x := by
      intro x h
      obtain ⟨y, hy, rfl⟩ := List.mem_map.1 h
      rw [e2]
      exact in_divided hm hn (e1 ▸ hx y hy)
    obtain ⟨o1, h1⟩ := objective_total hv H α xs hl hx
    obtain ⟨o2, h2⟩ := objective_total hvq H' α (xs.map (Spec.dividedAt m)) (by rw [List.length_map, W.tEnd, hl]) hin
    refine ⟨hin, _, o1, o2, h1, ?_⟩
    rw [h2]
    have := cost_divided b β α hm hn (T := p.tEnd) (hit := hit) (hit' := hit') (fun t t1 t2 i j x h => W.same t t1 t2 i j x (e2 ▸ h)) xs 1 0
      (List.replicate k 0) le_rfl (by omega) (e1 ▸ hx)
    rw [min_eq_left hm, sub_zero] at this
    rw [e3, e4, k1, k2, List.replicate_succ, List.replicate_succ, this]
  · intro ys hl hy
    have hin : ∀ x ∈ ys.map Spec.joined, Spec.InBox p.bounds x := by
      intro x h
      obtain ⟨y, hy', rfl⟩ := List.mem_map.1 h
      rw [e1]
      exact in_joined (e2 ▸ hy y hy')
    obtain ⟨o1, h1⟩ := objective_total hv H α (ys.map Spec.joined) (by rw [List.length_map, hl]) hin
    obtain ⟨o2, h2⟩ := objective_total hvq H' α ys (by rw [W.tEnd, hl]) hy
    refine ⟨hin, _, _, h1, h2, ?_⟩
    have := cost_joined hb β hα (T := p.tEnd) (hit := hit) (hit' := hit') (fun t t1 t2 i j x h => W.same t t1 t2 i j x (e2 ▸ h)) ys 1 0 0
      (List.replicate k 0) le_rfl (by omega) (e2 ▸ hy)
    rw [add_zero] at this
    show Spec.totalCost _ _ _ _ _ _ ≤ Spec.totalCost _ _ _ _ _ _
    rw [e3, e4, k1, k2, List.replicate_succ, List.replicate_succ]
    exact this

open Twins Periods in
/-- **C135** The optimal search finds plans of the same cost for both problems. -/
theorem C135_optimum (m n : ℤ) (p q : SSCO ℤ C D) (hit hit' : Int → Config ℤ → ECost) (W : Spec.Twins m n p q hit hit')
    (hv : p.verify = .ok ()) (hvq : q.verify = .ok ()) (hT : 1 ≤ p.tEnd) (H : Spec.Hits p hit) (H' : Spec.Hits q hit')
    (o : OfflineOptions) (hl : o.l = none) (hα : 0 ≤ o.alpha) :
    ∃ r r', Multi.optimalGraphSearch p none o = .ok r ∧ Multi.optimalGraphSearch q none o = .ok r' ∧ r'.path.cost = r.path.cost := by
  obtain ⟨c1, c2⟩ := C135_plans m n p q hit hit' W hv hvq H H' o.alpha hα
  obtain ⟨r, a1, a2, a3, -, ⟨oa, a5⟩, a6⟩ := C19_graph_search_optimal p hv hT o hl hα hit H.slot H.fin
  obtain ⟨r', b1, b2, b3, -, ⟨ob, b5⟩, b6⟩ := C19_graph_search_optimal q hvq (by rw [W.tEnd]; exact hT) o hl hα hit' H'.slot H'.fin
  refine ⟨r, r', a1, b1, le_antisymm ?_ ?_⟩
  · obtain ⟨h1, c, o1, o2, h2, h3⟩ := c1 _ a2 a3
    obtain ⟨c', h4, h5⟩ := b6 _ (by rw [List.length_map, W.tEnd, a2]) h1
    rw [h3] at h4
    rw [h2] at a5
    have e1 := Except.ok.inj h4
    have e2 := Except.ok.inj a5
    rw [← e1] at h5
    rw [← show c = r.path.cost by injection e2]
    exact h5
  · obtain ⟨h1, c, c', h2, h3, h4⟩ := c2 _ (by rw [b2, W.tEnd]) b3
    obtain ⟨k, h5, h6⟩ := a6 _ (by rw [List.length_map, b2, W.tEnd]) h1
    rw [h2] at h5
    rw [h3] at b5
    rw [← Except.ok.inj h5] at h6
    rw [Except.ok.inj b5] at h4
    exact h6.trans h4

/-! ## Examples -/

/-- Five servers, some of them needed in two slots, next to another type of servers. -/
def Ex.fleet5 : SSCO ℤ Unit Unit where
  d := 2
  tEnd := 2
  bounds := [5, 1]
  switchingCost := [2, 1 / 2]
  hittingCost := CostFn.new 1 (SingleCostFn.certain fun t x => .ok (Cost.raw ((((|x.getD 0 0 - 2 * t| + 3 * |x.getD 1 0 - 1| : ℤ)) : ℚ) : ECost)))

/-- The same five servers listed as two and three. -/
def Ex.fleet23 : SSCO ℤ Unit Unit where
  d := 3
  tEnd := 2
  bounds := [2, 3, 1]
  switchingCost := [2, 2, 1 / 2]
  hittingCost := CostFn.new 1 (SingleCostFn.certain fun t x =>
    .ok (Cost.raw ((((|x.getD 0 0 + x.getD 1 0 - 2 * t| + 3 * |x.getD 2 0 - 1| : ℤ)) : ℚ) : ECost)))

theorem Ex.fleet5_hits : Spec.Hits Ex.fleet5 fun t x => ((((|x.getD 0 0 - 2 * t| + 3 * |x.getD 1 0 - 1| : ℤ)) : ℚ) : ECost) where
  slot t t1 _ x hx := ⟨_, ((C06_guarded_evaluation _ t Ex.fleet5.bounds x hx.length_eq.symm).1 hx).1.trans (CostFn.callMean_certain _ t t1 _)⟩
  fin _ _ _ := WithTop.coe_ne_top

theorem Ex.fleet23_hits : Spec.Hits Ex.fleet23
    fun t x => ((((|x.getD 0 0 + x.getD 1 0 - 2 * t| + 3 * |x.getD 2 0 - 1| : ℤ)) : ℚ) : ECost) where
  slot t t1 _ x hx := ⟨_, ((C06_guarded_evaluation _ t Ex.fleet23.bounds x hx.length_eq.symm).1 hx).1.trans (CostFn.callMean_certain _ t t1 _)⟩
  fin _ _ _ := WithTop.coe_ne_top

/-- Non-vacuity of C135. -/
theorem Ex.fleet_twins : Spec.Twins 2 3 Ex.fleet5 Ex.fleet23
    (fun t x => ((((|x.getD 0 0 - 2 * t| + 3 * |x.getD 1 0 - 1| : ℤ)) : ℚ) : ECost))
    (fun t x => ((((|x.getD 0 0 + x.getD 1 0 - 2 * t| + 3 * |x.getD 2 0 - 1| : ℤ)) : ℚ) : ECost)) where
  d := rfl
  tEnd := rfl
  bounds := ⟨[1], rfl, rfl⟩
  switching := ⟨2, [1 / 2], rfl, rfl⟩
  same _ _ _ _ _ _ _ := rfl

example := C135_optimum 2 3 Ex.fleet5 Ex.fleet23 _ _ Ex.fleet_twins (by decide +kernel) (by decide +kernel) (by decide) Ex.fleet5_hits Ex.fleet23_hits
example := C135_plans 2 3 Ex.fleet5 Ex.fleet23 _ _ Ex.fleet_twins (by decide +kernel) (by decide +kernel) Ex.fleet5_hits Ex.fleet23_hits

/-- The plans of both problems. -/
example : (Multi.optimalGraphSearch Ex.fleet5 none ⟨false, 1 / 4, none⟩).toOption.map (·.path.cost) =
    (Multi.optimalGraphSearch Ex.fleet23 none ⟨false, 1 / 4, none⟩).toOption.map (·.path.cost) ∧
    ((Multi.optimalGraphSearch Ex.fleet5 none ⟨false, 1 / 4, none⟩).toOption.map (·.path.xs)) = some [[2, 1], [4, 1]] := by
  decide +kernel

end Soco
