import Verif.Props.ApproxGraph

/-!
# C132: for factors close to one the approximate search is exact

If `γ ≤ 1 + 1 / m`, where `m` is the largest bound, the grid of the approximate search holds all integers, so that both
searches return the same.
-/

namespace Soco
open Multi

variable {C D : Type} [OutSuccess C] [OutFailure D]

/-- All integers up to the largest bound are on a grid whose factor is at most `1 + 1 / m`. -/
theorem onPowerGrid_dense (γ : ℚ) (hγ : 1 < γ) (bounds : List ℤ) (hpos : ∀ b ∈ bounds, 0 < b) (m : ℤ)
    (hm : bounds.max? = some m) (hd : γ ≤ 1 + 1 / m) (x : ℤ) : Spec.OnPowerGrid γ bounds x ↔ 0 ≤ x ∧ x ≤ m := by
  have hmax := List.max?_eq_some_iff.1 hm
  have hm0 := hpos m hmax.1
  have hmq : (0 : ℚ) < m := by exact_mod_cast hm0
  have hne : bounds ≠ [] := List.ne_nil_of_mem hmax.1
  have hup : ∀ x, Spec.OnPowerGrid γ bounds x → 0 ≤ x ∧ x ≤ m := by
    rintro x (rfl | hx | ⟨j, hj, hx, b, hb, hle⟩)
    · exact ⟨le_rfl, hm0.le⟩
    · exact ⟨(hpos x hx).le, hmax.2 x hx⟩
    · refine ⟨?_, hle.trans (hmax.2 b hb)⟩
      have h0 : (0 : ℤ) ≤ ⌊γ ^ j⌋ := Int.floor_nonneg.2 (by positivity)
      rcases hx with rfl | rfl
      · exact h0
      · exact h0.trans (Int.floor_le_ceil _)
  obtain ⟨hg, w, hw, hw0, hwγ⟩ := C24_gaps γ hγ bounds hne hpos
  have hone : Spec.OnPowerGrid γ bounds 1 := by
    have h2 : (w : ℚ) ≤ 2 := by
      have : (1 : ℚ) / m ≤ 1 := by
        rw [div_le_one hmq]; exact_mod_cast hm0
      linarith
    have h2' : w ≤ 2 := by exact_mod_cast h2
    have h3 := (hup w hw).2
    rcases (by omega : w = 1 ∨ w = 2) with rfl | rfl
    · exact hw
    · have h4 : (1 : ℚ) / m ≤ 1 / 2 := one_div_le_one_div_of_le (by norm_num) (by exact_mod_cast h3)
      push_cast at hwγ
      linarith
  refine ⟨hup x, ?_⟩
  rintro ⟨h0, h1⟩
  obtain ⟨n, rfl⟩ : ∃ n : Nat, x = n := ⟨x.toNat, by omega⟩
  induction n with
  | zero => exact .inl rfl
  | succ n ih =>
    rcases Nat.eq_zero_or_pos n with rfl | hn
    · exact hone
    · obtain ⟨w, hw, hlt, hle⟩ := hg (n : ℤ) (by omega) ⟨m, hmax.1, by push_cast at h1; omega⟩
      have hw1 : w = (n : ℤ) + 1 := by
        rcases hle with hle | hle
        · exfalso
          have hn1 : ((n : ℤ) : ℚ) < m := by exact_mod_cast (by push_cast at h1; omega : (n : ℤ) < m)
          have hn0 : (0 : ℚ) < ((n : ℤ) : ℚ) := by exact_mod_cast hn
          have h5 : γ * ((n : ℤ) : ℚ) ≤ (1 + 1 / m) * ((n : ℤ) : ℚ) := mul_le_mul_of_nonneg_right hd hn0.le
          have h6 : (1 : ℚ) / m * ((n : ℤ) : ℚ) < 1 := by
            rw [div_mul_eq_mul_div, one_mul, div_lt_one hmq]; exact hn1
          have h7 : (w : ℚ) < ((n : ℤ) : ℚ) + 1 := by nlinarith
          have h8 : w < (n : ℤ) + 1 := by exact_mod_cast h7
          omega
        · exact hle
      push_cast
      rw [← hw1]
      exact hw

theorem range_sorted (n : Nat) : ((List.range n).map fun i : Nat => (i : ℤ)).Pairwise (· < ·) := by
  rw [List.pairwise_map]
  exact List.pairwise_lt_range.imp fun h => by exact_mod_cast h

theorem sorted_unique : ∀ (xs ys : List ℤ), xs.Pairwise (· < ·) → ys.Pairwise (· < ·) → (∀ x, x ∈ xs ↔ x ∈ ys) → xs = ys := by
  intro xs ys hx hy h
  have hp : xs.Perm ys := (List.perm_ext_iff_of_nodup (hx.imp fun h => ne_of_lt h) (hy.imp fun h => ne_of_lt h)).2 h
  exact hp.eq_of_pairwise (le := (· < ·)) (fun a b _ _ h1 h2 => absurd h1 (not_lt.2 h2.le)) hx hy

theorem positionOf_range (n : Nat) (b : ℤ) (h0 : 0 ≤ b) (h1 : b < n) :
    positionOf ((List.range n).map fun i : Nat => (i : ℤ)) b = .ok b.toNat := by
  obtain ⟨i, hi, hl, he⟩ := positionOf_ok ((List.range n).map fun i : Nat => (i : ℤ)) b
    (List.mem_map.2 ⟨b.toNat, List.mem_range.2 (by omega), by omega⟩)
  rw [hi]
  simp only [List.getElem_map, List.getElem_range] at he
  rw [← he]; simp

/-- **C132** If the factor is at most `1 + 1 / m`, where `m` is the largest bound, the approximate search returns exactly what
the optimal search returns: the same schedule, cost, cache and failures, from scratch or from a cache, with all options. -/
theorem C132_dense (p : SSCO ℤ C D) (hv : p.verify = .ok ()) (m : ℤ) (hm : p.bounds.max? = some m) (γ : ℚ) (hγ : 1 < γ)
    (hd : γ ≤ 1 + 1 / m) :
    ∃ N, ∀ fuel, N ≤ fuel → ∀ (cache : Option (Cache Vertex)) (o : OfflineOptions),
      approxGraphSearch fuel p cache γ o = some (optimalGraphSearch p cache o) := by
  have hv' : Spec.ValidSSCO p := by
    by_contra hc
    have := (C10_ssco_verify_exact p).2 hc
    rw [hv] at this; simp at this
  have hpos : ∀ b ∈ p.bounds, 0 < b := hv'.2.2.2.2.1
  have hmax := List.max?_eq_some_iff.1 hm
  obtain ⟨vs, N, hN, hs, hmem⟩ := C24_grid_exact γ hγ p.bounds (List.ne_nil_of_mem hmax.1) hpos
  have hvs : vs = (List.range (m + 1).toNat).map fun i : Nat => (i : ℤ) := by
    refine sorted_unique _ _ hs (range_sorted _) fun x => ?_
    rw [hmem, onPowerGrid_dense γ hγ p.bounds hpos m hm hd, List.mem_map]
    constructor
    · rintro ⟨h0, h1⟩; exact ⟨x.toNat, List.mem_range.2 (by omega), by omega⟩
    · rintro ⟨i, hi, rfl⟩
      have := List.mem_range.1 hi
      have := hpos m hmax.1
      omega
  have hbi : p.bounds.mapM (positionOf vs) = .ok (p.bounds.map Int.toNat) := by
    have : ∀ bs : List ℤ, (∀ b ∈ bs, 0 < b ∧ b ≤ m) → bs.mapM (positionOf vs) = .ok (bs.map Int.toNat) := by
      intro bs
      induction bs with
      | nil => intro _; rfl
      | cons b bs ih =>
        intro h
        have hb := h b (by simp)
        rw [List.mapM_cons, hvs, positionOf_range _ b hb.1.le (by omega), ← hvs,
          ih fun b' hb' => h b' (by simp [hb'])]
        rfl
    exact this _ fun b hb => ⟨hpos b hb, hmax.2 b hb⟩
  refine ⟨N, fun fuel hf cache o => ?_⟩
  unfold approxGraphSearch cacheBoundIndices optimalGraphSearch allValues
  rw [hN fuel hf, hm]
  simp only [Option.map_some, bind, Except.bind, hbi]
  rw [hvs]

/-- **C132** With a larger factor the searches may differ: for factor 2 and the bound 5 the grid is 0, 2, 4, 5, and a
problem that asks for one server in one slot is solved with a dearer schedule. -/
theorem C132_coarse_counterexample : ∃ p : SSCO ℤ Unit Unit, p.verify = .ok () ∧ p.bounds = [5] ∧
    ((approxGraphSearch 10 p none 2 ⟨false, 1, none⟩).bind fun r => r.toOption.map fun r => (r.path.xs, r.path.cost))
      = some ([[2]], ((4 : ℚ) : ECost)) ∧
    ((optimalGraphSearch p none ⟨false, 1, none⟩).toOption.map fun r => (r.path.xs, r.path.cost)) = some ([[1]], ((2 : ℚ) : ECost)) := by
  refine ⟨⟨1, 1, [5], [1], CostFn.new 1 (SingleCostFn.certain fun _ x =>
    .ok (Cost.raw (if x.headD 0 = 0 then ⊤ else (((x.headD 0 : ℤ) : ℚ) : ECost))))⟩, by decide +kernel, rfl, ?_, ?_⟩ <;> decide +kernel

/-- `C132_dense` applies to `Ex.ssco2`. -/
example (m : ℤ) (hm : Ex.ssco2.bounds.max? = some m) := C132_dense Ex.ssco2 (by decide +kernel) m hm (1 + 1 / m)
  (by have : (0 : ℚ) < m := by
        have := (List.max?_eq_some_iff.1 hm).1
        exact_mod_cast (by decide : ∀ u ∈ Ex.ssco2.bounds, 0 < u) m this
      have : (0 : ℚ) < 1 / m := by positivity
      linarith) le_rfl

/-- The largest bound of `Ex.ssco2` is 3, so that the factor 4/3 suffices. -/
example : Ex.ssco2.bounds.max? = some 3 := by decide

end Soco
