import Verif.Props.RoundCost
import Verif.Props.LcpWindow
import Verif.Props.Periods
import Verif.Props.SteadyLazy

/-!
# C142: parts of servers do not help
-/

namespace Soco
open Rand Uni Lcp Work

namespace Whole

/-- The `k`-th of `N` roundings of `a / N`. -/
def rounded (N : Nat) (k : Nat) (a : ℤ) : ℤ := (a + k) / (N : ℤ)

theorem sum_round {N : Nat} (hN : 0 < N) (f : ℤ → ℚ) (a : ℤ) :
    ∑ k ∈ Finset.range N, f (rounded N k a) = N * interp f ((a : ℚ) / N) := by
  have N0 : (0 : ℤ) < N := by exact_mod_cast hN
  have Nq : (0 : ℚ) < N := by exact_mod_cast hN
  set q := a / (N : ℤ) with hq
  obtain ⟨s, hs⟩ : ∃ s : Nat, a % (N : ℤ) = s := ⟨(a % (N : ℤ)).toNat, by have := Int.emod_nonneg a N0.ne'; omega⟩
  have hsN : s < N := by
    have := Int.emod_lt_of_pos a N0
    omega
  have ha : a = N * q + s := by
    have := Int.mul_ediv_add_emod a N
    rw [hs] at this
    exact this.symm
  have r1 : ∀ k, k < N - s → rounded N k a = q := by
    intro k hk
    unfold rounded
    rw [ha, add_assoc, Int.mul_add_ediv_left _ _ N0.ne', Int.ediv_eq_zero_of_lt (by omega) (by omega), add_zero]
  have r2 : ∀ k, N - s ≤ k → k < N → rounded N k a = q + 1 := by
    intro k h1 h2
    unfold rounded
    rw [ha, add_assoc, Int.mul_add_ediv_left _ _ N0.ne']
    congr 1
    rw [show (s : ℤ) + k = N * 1 + (s + k - N) by ring, Int.mul_add_ediv_left _ _ N0.ne', Int.ediv_eq_zero_of_lt (by omega) (by omega),
      add_zero]
  have hfl : ⌊(a : ℚ) / N⌋ = q := by
    rw [Int.floor_eq_iff]
    constructor
    · rw [le_div_iff₀ Nq]
      have : q * N ≤ a := by rw [ha, mul_comm]; omega
      exact_mod_cast this
    · rw [div_lt_iff₀ Nq]
      have : a < (q + 1) * N := by
        rw [add_mul, one_mul, mul_comm]
        omega
      exact_mod_cast this
  have hsplit : Finset.range N = Finset.range (N - s) ∪ Finset.Ico (N - s) N := by
    rw [Finset.range_eq_Ico, Finset.range_eq_Ico, Finset.Ico_union_Ico_eq_Ico (Nat.zero_le _) (Nat.sub_le _ _)]
  have hdis : Disjoint (Finset.range (N - s)) (Finset.Ico (N - s) N) := by
    rw [Finset.range_eq_Ico]
    exact Finset.Ico_disjoint_Ico_consecutive _ _ _
  have s1 : ∑ k ∈ Finset.range (N - s), f (rounded N k a) = ∑ _k ∈ Finset.range (N - s), f q :=
    Finset.sum_congr rfl fun k hk => by rw [r1 k (Finset.mem_range.1 hk)]
  have s2 : ∑ k ∈ Finset.Ico (N - s) N, f (rounded N k a) = ∑ _k ∈ Finset.Ico (N - s) N, f (q + 1) :=
    Finset.sum_congr rfl fun k hk => by
      have := Finset.mem_Ico.1 hk
      rw [r2 k this.1 this.2]
  rw [hsplit, Finset.sum_union hdis, s1, s2, Finset.sum_const, Finset.sum_const, Finset.card_range, Nat.card_Ico, nsmul_eq_mul,
    nsmul_eq_mul]
  have e1 : ((N - s : Nat) : ℚ) = N - s := by rw [Nat.cast_sub hsN.le]
  have e2 : ((N - (N - s) : Nat) : ℚ) = s := by congr 1; omega
  have e3 : (a : ℚ) = N * q + s := by exact_mod_cast ha
  unfold interp
  rw [hfl, e1, e2, e3]
  field_simp
  ring

theorem sum_up {N : Nat} (hN : 0 < N) (a b : ℤ) :
    ∑ k ∈ Finset.range N, ((max 0 (rounded N k b - rounded N k a) : ℤ) : ℚ) = N * max 0 ((b : ℚ) / N - (a : ℚ) / N) := by
  have Nq : (0 : ℚ) < N := by exact_mod_cast hN
  have N0 : (0 : ℤ) < N := by exact_mod_cast hN
  have id : ∀ a : ℤ, ∑ k ∈ Finset.range N, ((rounded N k a : ℤ) : ℚ) = a := by
    intro a
    rw [sum_round hN (fun z => (z : ℚ)) a]
    unfold interp
    push_cast
    field_simp
    ring
  rcases le_total a b with h | h
  · have e : ∀ k ∈ Finset.range N, ((max 0 (rounded N k b - rounded N k a) : ℤ) : ℚ) = (rounded N k b : ℚ) - (rounded N k a : ℚ) := by
      intro k _
      have : rounded N k a ≤ rounded N k b := Int.ediv_le_ediv N0 (by omega)
      rw [max_eq_right (by omega)]
      push_cast
      ring
    rw [Finset.sum_congr rfl e, Finset.sum_sub_distrib, id, id, max_eq_right]
    · field_simp
    · rw [sub_nonneg]
      exact div_le_div_of_nonneg_right (by exact_mod_cast h) Nq.le
  · have e : ∀ k ∈ Finset.range N, ((max 0 (rounded N k b - rounded N k a) : ℤ) : ℚ) = 0 := by
      intro k _
      have : rounded N k b ≤ rounded N k a := Int.ediv_le_ediv N0 (by omega)
      rw [max_eq_left (by omega)]
      rfl
    rw [Finset.sum_eq_zero e, max_eq_left, mul_zero]
    rw [sub_nonpos]
    exact div_le_div_of_nonneg_right (by exact_mod_cast h) Nq.le

/-- The costs of all roundings together are `N` times the costs of the fractional plan. -/
theorem sum_cost {N : Nat} (hN : 0 < N) (c : Int → ℤ → ℚ) (β : ℚ) : ∀ (as : List ℤ) (t : Int) (a : ℤ), ∃ (Q : ℚ) (q : Nat → ℚ),
    Spec.totalCost (fun t j => ((interp (c t) j : ℚ) : ECost)) (mvQ β false) 1 t ((a : ℚ) / N) (as.map fun a : ℤ => (a : ℚ) / N) = (Q : ECost) ∧
    (∀ k, Spec.totalCost (fun t j => ((c t j : ℚ) : ECost)) (mv1 β false) 1 t (rounded N k a) (as.map (rounded N k)) = ((q k : ℚ) : ECost)) ∧
    ∑ k ∈ Finset.range N, q k = N * Q := by
  intro as
  induction as with
  | nil => intro t a; exact ⟨0, fun _ => 0, rfl, fun _ => rfl, by simp⟩
  | cons b as ih =>
    intro t a
    obtain ⟨Q, q, h1, h2, h3⟩ := ih (t + 1) b
    refine ⟨interp (c t) ((b : ℚ) / N) + 1 * mvQ β false ((a : ℚ) / N) ((b : ℚ) / N) + Q,
      fun k => c t (rounded N k b) + 1 * mv1 β false (rounded N k a) (rounded N k b) + q k, ?_, fun k => ?_, ?_⟩
    · rw [List.map_cons, Spec.totalCost, h1]
      rfl
    · rw [List.map_cons, Spec.totalCost, h2]
      rfl
    · rw [Finset.sum_add_distrib, Finset.sum_add_distrib, h3, sum_round hN]
      have : ∑ k ∈ Finset.range N, 1 * mv1 β false (rounded N k a) (rounded N k b) = N * (1 * mvQ β false ((a : ℚ) / N) ((b : ℚ) / N)) := by
        have e : ∀ k ∈ Finset.range N, 1 * mv1 β false (rounded N k a) (rounded N k b) = β * ((max 0 (rounded N k b - rounded N k a) : ℤ) : ℚ) := by
          intro k _
          simp [mv1]
        rw [Finset.sum_congr rfl e, ← Finset.mul_sum, sum_up hN]
        simp only [mvQ, up]
        simp
        ring
      rw [this]
      ring

theorem common (ys : List ℚ) : ∃ (N : Nat) (as : List ℤ), 0 < N ∧ ys = as.map fun a : ℤ => (a : ℚ) / N := by
  induction ys with
  | nil => exact ⟨1, [], one_pos, rfl⟩
  | cons y ys ih =>
    obtain ⟨N, as, hN, rfl⟩ := ih
    have hd : (0 : ℚ) < y.den := by exact_mod_cast y.den_pos
    have hN' : (0 : ℚ) < N := by exact_mod_cast hN
    refine ⟨y.den * N, (y.num * N) :: as.map (fun a => a * y.den), Nat.mul_pos y.den_pos hN, ?_⟩
    rw [List.map_cons, List.map_map]
    congr 1
    · push_cast
      rw [mul_div_mul_right _ _ hN'.ne', Rat.num_div_den]
    · apply List.map_congr_left
      intro a _
      simp only [Function.comp]
      push_cast
      rw [mul_comm (y.den : ℚ), mul_div_mul_right _ _ hd.ne']

theorem round_near {N : Nat} (hN : 0 < N) {k : Nat} (hk : k < N) (a : ℤ) :
    rounded N k a = ⌊(a : ℚ) / N⌋ ∨ rounded N k a = ⌈(a : ℚ) / N⌉ := by
  have N0 : (0 : ℤ) < N := by exact_mod_cast hN
  have Nq : (0 : ℚ) < N := by exact_mod_cast hN
  set r := rounded N k a with hr
  have e := Int.mul_ediv_add_emod (a + k) N
  have e1 := Int.emod_nonneg (a + k) N0.ne'
  have e2 := Int.emod_lt_of_pos (a + k) N0
  have b1 : (N : ℤ) * r ≤ a + k := by rw [hr, rounded]; omega
  have b2 : a + k < N * r + N := by rw [hr, rounded]; omega
  rcases le_or_gt ((N : ℤ) * r) a with h | h
  · left
    symm
    rw [Int.floor_eq_iff, le_div_iff₀ Nq, div_lt_iff₀ Nq]
    constructor
    · exact_mod_cast (by rw [mul_comm]; exact h : r * N ≤ a)
    · exact_mod_cast (by rw [add_mul, mul_comm r]; omega : a < (r + 1) * N)
  · right
    symm
    rw [Int.ceil_eq_iff, div_le_iff₀ Nq, lt_div_iff₀ Nq]
    constructor
    · have : (r - 1) * N < a := by rw [sub_mul, mul_comm r]; omega
      exact_mod_cast this
    · exact_mod_cast (by rw [mul_comm]; exact h.le : a ≤ r * N)

end Whole

variable {C D : Type} [OutSuccess C] [OutFailure D] {p : SSCO ℤ C D} {m : ℤ} {β : ℚ} {c : Int → ℤ → ℚ} {n : Nat}

open Whole in
/-- **C142** (rounding). Every fractional schedule of the relaxation of an integral problem can be rounded, each entry up or down, such that the
integral schedule costs no more. The costs need not be convex. -/
theorem C142_round (h : Spec.Relaxable p m β c n) (ys : List ℚ) (hl : ys.length = n) (hb : ∀ y ∈ ys, 0 ≤ y ∧ y ≤ m) :
    ∃ (xs : List ℤ) (a b : _), List.Forall₂ (fun (x : ℤ) y => x = ⌊y⌋ ∨ x = ⌈y⌉) xs ys ∧ (∀ x ∈ xs, 0 ≤ x ∧ x ≤ m) ∧
      p.toProb.objective (Spec.single xs) = .ok a ∧ p.intoF.toProb.objective (Spec.single ys) = .ok b ∧ a.cost ≤ b.cost := by
  obtain ⟨N, as, hN, rfl⟩ := common ys
  obtain ⟨Q, q, h1, h2, h3⟩ := sum_cost hN c β as 1 0
  obtain ⟨k, hk, hle⟩ : ∃ k ∈ Finset.range N, q k ≤ Q := by
    apply Finset.exists_le_of_sum_le (Finset.nonempty_range_iff.2 hN.ne')
    rw [h3, Finset.sum_const, Finset.card_range, nsmul_eq_mul]
  have hk := Finset.mem_range.1 hk
  have near : List.Forall₂ (fun (x : ℤ) (y : ℚ) => x = ⌊y⌋ ∨ x = ⌈y⌉) (as.map (rounded N k)) (as.map fun a : ℤ => (a : ℚ) / N) := by
    rw [List.forall₂_map_left_iff, List.forall₂_map_right_iff, List.forall₂_same]
    exact fun a _ => round_near hN hk a
  have box : ∀ x ∈ as.map (rounded N k), 0 ≤ x ∧ x ≤ m := by
    intro x hx
    obtain ⟨a, ha, rfl⟩ := List.mem_map.1 hx
    obtain ⟨y0, y1⟩ := hb _ (List.mem_map_of_mem ha)
    have f0 : (0 : ℤ) ≤ ⌊(a : ℚ) / N⌋ := Int.floor_nonneg.2 y0
    have f1 : ⌈(a : ℚ) / N⌉ ≤ m := Int.ceil_le.2 y1
    have f2 := Int.floor_le_ceil ((a : ℚ) / N)
    rcases round_near hN hk a with e | e <;> rw [e] <;> omega
  have z : rounded N k 0 = 0 := by
    unfold rounded
    rw [zero_add]
    exact Int.ediv_eq_zero_of_lt (by omega) (by omega)
  obtain ⟨o1, e1⟩ := cost_int h (xs := as.map (rounded N k)) (by simpa using hl) box
  obtain ⟨o2, e2⟩ := cost_frac h hl hb
  have h2 := h2 k
  rw [z] at h2
  rw [Int.cast_zero, zero_div] at h1
  rw [h2] at e1
  rw [h1] at e2
  exact ⟨_, _, _, near, box, e1, e2, WithTop.coe_le_coe.2 hle⟩

open Periods in
/-- **C142** (optimum). The plan of the optimal search for an integral problem with one type of servers is also cheapest among all fractional
schedules of its relaxation, in which it has the same cost. -/
theorem C142_optimum (h : Spec.Relaxable p m β c n) (hv : p.verify = .ok ()) (hn : 1 ≤ n) :
    ∃ (r : _) (xs : List ℤ) (b : _), Multi.optimalGraphSearch p none ⟨false, 1, none⟩ = .ok r ∧ r.path.xs = Spec.single xs ∧
      p.intoF.toProb.objective (Spec.single (xs.map fun x : ℤ => (x : ℚ))) = .ok b ∧ b.cost = r.path.cost ∧
      ∀ ys : List ℚ, ys.length = n → (∀ y ∈ ys, 0 ≤ y ∧ y ≤ m) →
        ∃ b', p.intoF.toProb.objective (Spec.single ys) = .ok b' ∧ r.path.cost ≤ b'.cost := by
  have one : ∀ x, Spec.InBox p.bounds x → ∃ j, x = [j] ∧ 0 ≤ j ∧ j ≤ m := by
    intro x hx
    rw [h.bounds] at hx
    match x, hx with
    | [j], .cons hj .nil => exact ⟨j, rfl, hj⟩
  have H : Spec.Hits p fun t x => ((c t (x.headD 0) : ℚ) : ECost) := {
    slot := fun t t1 t2 x hx => by
      obtain ⟨j, rfl, j0, j1⟩ := one x hx
      exact hit_int h t1 (by rwa [h.tEnd] at t2) j0 j1
    fin := fun _ _ _ => WithTop.coe_ne_top }
  obtain ⟨r, a1, a2, a3, -, a5, a6⟩ := best hv (by rw [h.tEnd]; exact_mod_cast hn) H ⟨false, 1, none⟩ rfl zero_le_one
  have list : ∀ zs : Schedule ℤ, (∀ z ∈ zs, Spec.InBox p.bounds z) → ∃ xs : List ℤ, zs = Spec.single xs ∧ ∀ x ∈ xs, 0 ≤ x ∧ x ≤ m := by
    intro zs
    induction zs with
    | nil => intro _; exact ⟨[], rfl, by simp⟩
    | cons z zs ih =>
      intro hz
      obtain ⟨j, rfl, hj⟩ := one z (hz z (by simp))
      obtain ⟨xs, rfl, hx⟩ := ih fun w hw => hz w (List.mem_cons_of_mem _ hw)
      exact ⟨j :: xs, rfl, fun x hx' => by
        rcases List.mem_cons.1 hx' with rfl | hx'
        · exact hj
        · exact hx x hx'⟩
  obtain ⟨xs, ex, hx⟩ := list _ a3
  have hlen : xs.length = n := by
    rw [ex, Spec.single, List.length_map, h.tEnd] at a2
    exact_mod_cast a2
  obtain ⟨o1, e1⟩ := objective_total hv H 1 r.path.xs a2 a3
  have ecost : ∀ zs : List ℤ, zs.length = n → (∀ z ∈ zs, 0 ≤ z ∧ z ≤ m) → ∀ a, p.toProb.objective (Spec.single zs) = .ok a →
      r.path.cost ≤ a.cost ∧ (zs = xs → a.cost = r.path.cost) := by
    intro zs z1 z2 a ha
    have z3 : ((Spec.single zs).length : Int) = p.tEnd := by rw [h.tEnd, Spec.single, List.length_map, z1]
    have z4 : ∀ y ∈ Spec.single zs, Spec.InBox p.bounds y := by
      intro y hy
      obtain ⟨z, hz, rfl⟩ := List.mem_map.1 hy
      rw [h.bounds]
      exact .cons (z2 z hz) .nil
    obtain ⟨o, e⟩ := objective_total hv H 1 (Spec.single zs) z3 z4
    have e' : p.toProb.objective (Spec.single zs) = _ := e
    rw [ha] at e'
    rw [Except.ok.inj e']
    refine ⟨a6 _ z3 z4, ?_⟩
    rintro rfl
    rw [a5, ex]
  have hxb : ∀ y ∈ xs.map (fun x : ℤ => (x : ℚ)), 0 ≤ y ∧ y ≤ (m : ℚ) := by
    intro y hy
    obtain ⟨x, hx', rfl⟩ := List.mem_map.1 hy
    exact ⟨by exact_mod_cast (hx x hx').1, by exact_mod_cast (hx x hx').2⟩
  obtain ⟨ob, eb⟩ := cost_frac h (ys := xs.map fun x : ℤ => (x : ℚ)) (by simpa using hlen) hxb
  refine ⟨r, xs, _, a1, ex, eb, ?_, fun ys y1 y2 => ?_⟩
  · have same : ∀ (zs : List ℤ) (t : Int) (x : ℤ),
        Spec.totalCost (fun t j => ((interp (c t) j : ℚ) : ECost)) (mvQ β false) 1 t (x : ℚ) (zs.map fun x : ℤ => (x : ℚ)) =
        Spec.totalCost (fun t j => ((c t j : ℚ) : ECost)) (mv1 β false) 1 t x zs := by
      intro zs
      induction zs with
      | nil => intro t x; rfl
      | cons z zs ih =>
        intro t x
        rw [List.map_cons, Spec.totalCost, Spec.totalCost, ih]
        have e1 : interp (c t) (z : ℚ) = c t z := by simp [interp]
        have e2 : mvQ β false (x : ℚ) (z : ℚ) = mv1 β false x z := by simp [mvQ, mv1, up]
        rw [e1, e2]
    obtain ⟨oi, ei⟩ := cost_int h hlen hx
    have := (ecost xs hlen hx _ ei).2 rfl
    show Spec.totalCost _ _ _ _ _ _ = _
    have e := same xs 1 0
    rw [Int.cast_zero] at e
    rw [e]
    exact this
  · obtain ⟨zs, a, b, z1, z2, z3, z4, z5⟩ := C142_round h ys y1 y2
    exact ⟨b, z4, ((ecost zs (z1.length_eq.trans y1) z2 a z3).1).trans z5⟩

/-- **C142** (capacity provisioning). Integral lazy capacity provisioning costs at most three times as much as any fractional schedule over the
slots played and the last window. -/
theorem C142_lazy {g : Int → ℤ → ECost} (w : Nat) (ps : List (SSCO ℤ C D)) (K : Spec.Costs m β g (ps.length + w))
    (I : ∀ k (h : k < ps.length), Spec.Foresight ps[k] m β g (k + 1) w)
    (q : SSCO ℤ C D) (Q : Spec.Inst q m β g (ps.length + w)) (h : Spec.Relaxable q m β c (ps.length + w)) :
    ∃ xs mem, Spec.play SSCO.tEnd (lcpAlg boundedInt) [] none (ps.map fun p => ⟨p, w⟩) = .ok (xs, mem) ∧
      ∀ p, ps.getLast? = some p → ∃ a, p.toProb.objective xs = .ok a ∧
        ∀ ys : List ℚ, ys.length = ps.length + w → (∀ y ∈ ys, 0 ≤ y ∧ y ≤ m) →
          ∃ b, q.intoF.toProb.objective (Spec.single ys) = .ok b ∧ a.cost ≤ b.cost + b.cost + b.cost := by
  obtain ⟨xs, mem, x1, x2, x3, x4⟩ := C101_window_three_competitive w ps K I q Q
  refine ⟨xs, mem, x1, fun p hp => ?_⟩
  obtain ⟨a, a1, -, a3⟩ := x4 p hp
  refine ⟨a, a1, fun ys y1 y2 => ?_⟩
  obtain ⟨zs, u, b, z1, z2, z3, z4, z5⟩ := C142_round h ys y1 y2
  refine ⟨b, z4, ?_⟩
  obtain ⟨u', e1, e2⟩ := a3 (Spec.single zs) (by rw [Spec.single, List.length_map, z1.length_eq, y1]) (by
    intro y hy
    obtain ⟨z, hz, rfl⟩ := List.mem_map.1 hy
    exact .cons (z2 z hz) .nil)
  rw [z3] at e1
  cases Except.ok.inj e1
  exact e2.trans (add_le_add (add_le_add z5 z5) z5)

/-! ## Examples -/

/-- Non-vacuity of `C142_round` and `C142_optimum`. -/
example := C142_round (Ex.wanted_ok 1) [1 / 2, 1 / 3] rfl (by
  intro y hy
  simp only [List.mem_cons, List.not_mem_nil, or_false] at hy
  rcases hy with rfl | rfl <;> norm_num)

example := C142_optimum (Ex.wanted_ok 1) (by decide +kernel) (by decide)

theorem Ex.skiAt_relaxable (n k : Nat) : Spec.Relaxable (Ex.skiAt n k) 1 n (fun _ j => ((1 - j : ℤ) : ℚ)) k where
  d := rfl
  bounds := rfl
  switching := rfl
  tEnd := rfl
  hit := by
    intro t h1 _
    refine ⟨fun _ => (Cost.raw 0 : Cost Unit Unit).output, fun z _ _ => ?_, fun z _ _ => ⟨_, rfl⟩⟩
    rw [Ex.skiAt, CostFn.callCertain_certain _ t h1]
    rfl

/-- Non-vacuity of `C142_lazy`, with any number of slots. -/
example (n k : Nat) (hn : 1 ≤ n) := C142_lazy 0 ((List.range k).map fun i => Ex.skiAt n (i + 1))
  (Ex.skiAt_costs n _ hn) (fun i hi => by
    simp only [List.getElem_map, List.getElem_range]
    exact Ex.skiAt_knows n (i + 1) 0) (Ex.skiAt n k) (by simpa using Window.toInst (Ex.skiAt_knows n k 0))
  (by simpa using Ex.skiAt_relaxable n k)

end Soco
