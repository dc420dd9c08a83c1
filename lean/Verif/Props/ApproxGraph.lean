import Verif.Lemmas.ApproxGraph
import Verif.Spec.ApproxGrid
import Verif.Props.MultiGraph2

/-!
# C24, C25: approximate graph search
-/

namespace Soco
open Multi

variable {C D : Type} [OutSuccess C] [OutFailure D]

/-! ## C24 -/

/-- **C24**. For every `γ > 1` and every non-empty vector of positive bounds, building the grid
terminates, and the grid is the strictly increasing list of exactly the specified values. -/
theorem C24_grid_exact (γ : ℚ) (hγ : 1 < γ) (bounds : List ℤ) (hne : bounds ≠ [])
    (hpos : ∀ b ∈ bounds, 0 < b) :
    ∃ vs N, (∀ fuel, N ≤ fuel → buildValues fuel bounds γ = some (.ok vs)) ∧
      vs.Pairwise (· < ·) ∧ ∀ x, x ∈ vs ↔ Spec.OnPowerGrid γ bounds x := by
  obtain ⟨m, hm⟩ : ∃ m, bounds.max? = some m := by
    rcases hb : bounds with _ | ⟨a, l⟩
    · exact absurd hb hne
    · exact ⟨_, rfl⟩
  have hmax := List.max?_eq_some_iff.1 hm
  obtain ⟨N, hN⟩ := pow_unbounded_of_one_lt ((m : ℚ) + 1) hγ
  obtain ⟨out, hout⟩ := powerLoop_isSome γ hγ m N hN.le (N + 1) 1 [0] (by omega) (by omega)
  have hf := foldl_pushNew bounds out
  refine ⟨(bounds.foldl pushNew out).insertionSort (· ≤ ·), N + 1, fun fuel hfuel => ?_, ?_, ?_⟩
  · unfold buildValues
    rw [hm]
    simp only [powerLoop_mono _ _ _ _ _ _ hout fuel hfuel]
  · have hnd := hf.2 (powerLoop_nodup _ _ _ _ _ _ hout (by simp))
    have h1 := List.pairwise_insertionSort (fun a b : ℤ => a ≤ b) (bounds.foldl pushNew out)
    have h2 : ((bounds.foldl pushNew out).insertionSort (fun a b : ℤ => a ≤ b)).Nodup :=
      (List.perm_insertionSort _ _).nodup_iff.2 hnd
    exact (h1.and h2).imp fun {a b} h => lt_of_le_of_ne h.1 h.2
  · intro x
    rw [List.mem_insertionSort, hf.1]
    unfold Spec.OnPowerGrid
    constructor
    · rintro (hx | hx)
      · rcases powerLoop_sound _ _ _ _ _ _ hout x hx with h0 | ⟨j, hj, hx, hle⟩
        · exact .inl (by simpa using h0)
        · exact .inr (.inr ⟨j, hj, hx, m, hmax.1, hle⟩)
      · exact .inr (.inl hx)
    · rintro (rfl | hx | ⟨j, hj, hx, b, hb, hle⟩)
      · exact .inl (powerLoop_keep _ _ _ _ _ _ hout 0 (by simp))
      · exact .inr hx
      · have hxm : x ≤ m := hle.trans (hmax.2 b hb)
        have hmono : ∀ k, k < j → γ ^ k ≤ γ ^ j := fun k hk => pow_le_pow_right₀ hγ.le hk.le
        by_cases hex : ∃ k, 1 ≤ k ∧ k < j ∧ m < ⌈γ ^ k⌉
        · obtain ⟨k, hk1, hk2, hk3⟩ := hex
          have h1 : (m : ℚ) < γ ^ k := Int.lt_ceil.1 hk3
          have h2 : (m : ℚ) < γ ^ j := h1.trans_le (hmono k hk2)
          have h3 : m ≤ ⌊γ ^ j⌋ := Int.le_floor.2 h2.le
          have h4 : ⌊γ ^ j⌋ ≤ ⌈γ ^ j⌉ := Int.floor_le_ceil _
          have : x = m := by rcases hx with rfl | rfl <;> omega
          exact .inr (this ▸ hmax.1)
        · push Not at hex
          have := powerLoop_complete _ _ _ _ _ _ hout j hj hex
          rcases hx with rfl | rfl
          · exact .inl (this.1 hxm)
          · exact .inl (this.2 hxm)

/-- **C24**, gaps. Above every positive grid value below the largest bound there is a grid value that is
larger by at most the factor `γ` or by one. The smallest positive grid value is at most `γ`. -/
theorem C24_gaps (γ : ℚ) (hγ : 1 < γ) (bounds : List ℤ) (hne : bounds ≠ [])
    (hpos : ∀ b ∈ bounds, 0 < b) :
    (∀ a : ℤ, 1 ≤ a → (∃ b ∈ bounds, a < b) →
      ∃ w, Spec.OnPowerGrid γ bounds w ∧ a < w ∧ ((w : ℚ) ≤ γ * a ∨ w = a + 1)) ∧
    ∃ w : ℤ, Spec.OnPowerGrid γ bounds w ∧ 0 < w ∧ (w : ℚ) ≤ γ := by
  constructor
  · rintro a ha ⟨b, hb, hab⟩
    have hex : ∃ n : Nat, (a : ℚ) < γ ^ n := pow_unbounded_of_one_lt _ hγ
    classical
    obtain ⟨i, hi⟩ : ∃ i, Nat.find hex = i + 1 := by
      refine ⟨Nat.find hex - 1, ?_⟩
      have : Nat.find hex ≠ 0 := by
        intro h
        have := Nat.find_spec hex
        rw [h] at this
        have h1 : (1 : ℚ) ≤ a := by exact_mod_cast ha
        simp at this; linarith
      omega
    have h1 : (a : ℚ) < γ ^ (i + 1) := hi ▸ Nat.find_spec hex
    have h2 : γ ^ i ≤ a := le_of_not_gt (Nat.find_min hex (m := i) (by omega))
    have h3 : γ ^ (i + 1) ≤ γ * a := by
      rw [pow_succ, mul_comm]; exact mul_le_mul_of_nonneg_left h2 (by linarith)
    rcases lt_or_ge a ⌊γ ^ (i + 1)⌋ with h4 | h4
    · have h5 : ((⌊γ ^ (i + 1)⌋ : ℤ) : ℚ) ≤ γ * a := (Int.floor_le _).trans h3
      by_cases h6 : ⌊γ ^ (i + 1)⌋ ≤ b
      · exact ⟨_, .inr (.inr ⟨i + 1, by omega, .inl rfl, b, hb, h6⟩), h4, .inl h5⟩
      · refine ⟨b, .inr (.inl hb), hab, .inl (le_trans ?_ h5)⟩
        exact_mod_cast (by omega : b ≤ ⌊γ ^ (i + 1)⌋)
    · have h5 : ⌊γ ^ (i + 1)⌋ = a := le_antisymm h4 (Int.le_floor.2 h1.le)
      have h6 : a < ⌈γ ^ (i + 1)⌉ := Int.lt_ceil.2 h1
      have h7 : ⌈γ ^ (i + 1)⌉ ≤ ⌊γ ^ (i + 1)⌋ + 1 := Int.ceil_le_floor_add_one _
      have h8 : ⌈γ ^ (i + 1)⌉ = a + 1 := by omega
      exact ⟨_, .inr (.inr ⟨i + 1, by omega, .inr rfl, b, hb, by omega⟩), by omega, .inr h8⟩
  · obtain ⟨b, hb⟩ := List.exists_mem_of_ne_nil _ hne
    have h1 : (1 : ℤ) ≤ ⌊γ⌋ := Int.le_floor.2 (by push_cast; exact hγ.le)
    have h2 : ((⌊γ⌋ : ℤ) : ℚ) ≤ γ := Int.floor_le _
    have hbp := hpos b hb
    by_cases h : ⌊γ⌋ ≤ b
    · exact ⟨⌊γ⌋, .inr (.inr ⟨1, le_rfl, .inl (by simp), b, hb, h⟩), by omega, h2⟩
    · exact ⟨b, .inr (.inl hb), hbp, le_trans (by exact_mod_cast (by omega : b ≤ ⌊γ⌋)) h2⟩

/-- **C24**. For `γ < 2` the value 1 is on the grid. -/
theorem C24_one_on_grid (γ : ℚ) (h1 : 1 < γ) (h2 : γ < 2) (bounds : List ℤ) (hne : bounds ≠ [])
    (hpos : ∀ b ∈ bounds, 0 < b) : Spec.OnPowerGrid γ bounds 1 := by
  obtain ⟨b, hb⟩ := List.exists_mem_of_ne_nil _ hne
  refine .inr (.inr ⟨1, le_rfl, .inl ?_, b, hb, hpos b hb⟩)
  rw [pow_one, eq_comm, Int.floor_eq_iff]
  constructor <;> push_cast <;> linarith

/-- **C24**. For `γ ≤ 1` building the grid does not terminate, whatever the fuel: the option is not
validated. -/
theorem C24_gamma_le_one_diverges (γ : ℚ) (h0 : 0 ≤ γ) (h1 : γ ≤ 1) (bounds : List ℤ)
    (hne : bounds ≠ []) (hpos : ∀ b ∈ bounds, 0 < b) (fuel : Nat) : buildValues fuel bounds γ = none := by
  obtain ⟨m, hm⟩ : ∃ m, bounds.max? = some m := by
    rcases hb : bounds with _ | ⟨a, l⟩
    · exact absurd hb hne
    · exact ⟨_, rfl⟩
  have := hpos m (List.max?_eq_some_iff.1 hm).1
  unfold buildValues
  rw [hm]
  simp only [powerLoop_none γ h0 h1 m (by omega)]

namespace Multi

theorem positionOf_ok (vs : List ℤ) (m : ℤ) (h : m ∈ vs) :
    ∃ i, positionOf vs m = .ok i ∧ ∃ hi : i < vs.length, vs[i] = m := by
  unfold positionOf
  rcases hf : vs.findIdx? (fun j => j == m) with _ | i
  · rw [List.findIdx?_eq_none_iff] at hf
    have := hf m h; simp at this
  · rw [List.findIdx?_eq_some_iff_getElem] at hf
    obtain ⟨hi, h1, _⟩ := hf
    exact ⟨i, rfl, hi, by simpa using h1⟩

theorem mapM_positionOf (vs bs : List ℤ) (h : ∀ b ∈ bs, b ∈ vs) :
    ∃ is, bs.mapM (positionOf vs) = .ok is ∧ is.length = bs.length ∧ (∀ i ∈ is, i < vs.length) ∧
      bs = is.map fun i => vs.getD i 0 := by
  induction bs with
  | nil => exact ⟨[], rfl, rfl, by simp, rfl⟩
  | cons b bs ih =>
    obtain ⟨is, h1, h2, h3, h4⟩ := ih fun x hx => h x (by simp [hx])
    obtain ⟨i, h5, h6, h7⟩ := positionOf_ok vs b (h b (by simp))
    refine ⟨i :: is, ?_, by simp [h2], ?_, ?_⟩
    · rw [List.mapM_cons, h5, h1]; rfl
    · intro j hj
      rcases List.mem_cons.1 hj with rfl | hj
      · exact h6
      · exact h3 j hj
    · rw [List.map_cons, ← h4]
      simp [List.getD, h6, h7]

theorem approx_grid (p : SSCO ℤ C D) (hv : Spec.ValidSSCO p) (γ : ℚ) (hγ : 1 < γ) :
    ∃ v N, (∀ fuel, N ≤ fuel → cacheBoundIndices fuel p.bounds γ = some (.ok v)) ∧ Grid p v ∧
      ∀ x, x ∈ v.values ↔ Spec.OnPowerGrid γ p.bounds x := by
  obtain ⟨h1, h2, h3, h4, h5, h6⟩ := hv
  have hne : p.bounds ≠ [] := by intro h; rw [h] at h3; simp at h3; omega
  obtain ⟨vs, N, hN, hs, hmem⟩ := C24_grid_exact γ hγ p.bounds hne h5
  obtain ⟨is, hi1, hi2, hi3, hi4⟩ := mapM_positionOf vs p.bounds
    fun b hb => (hmem b).2 (.inr (.inl hb))
  have hzero : vs[0]? = some 0 := by
    have h0 : (0 : ℤ) ∈ vs := (hmem 0).2 (.inl rfl)
    rcases vs with _ | ⟨a, l⟩
    · simp at h0
    · rcases List.mem_cons.1 h0 with rfl | h
      · rfl
      · have ha := (List.pairwise_cons.1 hs).1 0 h
        rcases (hmem a).1 (by simp) with rfl | hb | ⟨j, _, hx, _⟩
        · rfl
        · have := h5 a hb; omega
        · have hp : (0 : ℚ) ≤ γ ^ j := by positivity
          have h7 : 0 ≤ ⌊γ ^ j⌋ := Int.floor_nonneg.2 hp
          have h8 : ⌊γ ^ j⌋ ≤ ⌈γ ^ j⌉ := Int.floor_le_ceil _
          rcases hx with rfl | rfl <;> omega
  refine ⟨⟨vs, is⟩, N, ?_, ?_, hmem⟩
  · intro fuel hf
    unfold cacheBoundIndices
    rw [hN fuel hf]
    simp only [Option.map_some, bind, Except.bind, hi1]
  · exact
    { dim := h3.symm
      sc := by omega
      bi := hi2
      bpos := by
        intro b hb
        rcases Nat.eq_zero_or_pos b with rfl | h
        · have : (0 : ℤ) ∈ p.bounds := by
            rw [hi4]; exact List.mem_map.2 ⟨0, hb, by simp [List.getD, hzero]⟩
          have := h5 0 this; omega
        · exact h
      blt := hi3
      zero := hzero
      mono := hs
      bounds := hi4 }

end Multi

/-! ## C25 -/

/-- **C25**. Under the hypotheses of C19 and for every `γ > 1`, the approximate search terminates and
returns a schedule of horizon length inside the bounds that uses only grid values. The reported cost is
its objective, and no schedule on the grid has a smaller one. The optimal search is never worse. -/
theorem C25_approx_optimal_on_grid (p : SSCO ℤ C D) (hv : p.verify = .ok ()) (hT : 1 ≤ p.tEnd)
    (γ : ℚ) (hγ : 1 < γ)
    (o : OfflineOptions) (hl : o.l = none) (hα : 0 ≤ o.alpha) (hit : Int → Config ℤ → ECost)
    (hhit : ∀ t : Int, 1 ≤ t → t ≤ p.tEnd → ∀ x, Spec.InBox p.bounds x →
      ∃ out, p.toProb.hitCost t x = .ok ⟨hit t x, out⟩)
    (hfin : ∀ t : Int, 1 ≤ t → t ≤ p.tEnd → hit t p.bounds ≠ ⊤) :
    ∃ r N, (∀ fuel, N ≤ fuel → approxGraphSearch fuel p none γ o = some (.ok r)) ∧
      (r.path.xs.length : Int) = p.tEnd ∧
      (∀ x ∈ r.path.xs, Spec.InBox p.bounds x ∧ ∀ j ∈ x, Spec.OnPowerGrid γ p.bounds j) ∧
      r.path.cost ≠ ⊤ ∧
      (∃ out, p.toProb.alphaUnfairObjective r.path.xs o.alpha = .ok ⟨r.path.cost, out⟩) ∧
      (∀ ys : Schedule ℤ, (ys.length : Int) = p.tEnd →
        (∀ y ∈ ys, Spec.InBox p.bounds y ∧ ∀ j ∈ y, Spec.OnPowerGrid γ p.bounds j) →
        ∃ c, p.toProb.alphaUnfairObjective ys o.alpha = .ok c ∧ r.path.cost ≤ c.cost) ∧
      ∃ best, optimalGraphSearch p none o = .ok best ∧ best.path.cost ≤ r.path.cost := by
  have hv' : Spec.ValidSSCO p := by
    by_contra hc
    have := (C10_ssco_verify_exact p).2 hc
    rw [hv] at this; simp at this
  obtain ⟨v, N, hN, g, hmem⟩ := approx_grid p hv' γ hγ
  have hon : ∀ x, OnGrid p v x ↔ (Spec.InBox p.bounds x ∧ ∀ j ∈ x, Spec.OnPowerGrid γ p.bounds j) := by
    intro x; unfold OnGrid
    exact and_congr_right fun _ => forall_congr' fun j => imp_congr_right fun _ => hmem j
  obtain ⟨r, h3, h4, h5, h6, h7, h8⟩ := graphSearch_grid p v hv' g hT o hl hα hit
    (fun t ht ht' x hx => hhit t ht ht' x hx.1) hfin
  obtain ⟨best, hb, _, _, _, _, hopt⟩ := C19_graph_search_optimal p hv hT o hl hα hit hhit hfin
  refine ⟨r, N, fun fuel hf => ?_, h4, fun x hx => (hon x).1 (h5 x hx), h6, h7,
    fun ys hy hys => h8 ys hy fun y hy' => (hon y).2 (hys y hy'), best, hb, ?_⟩
  · unfold approxGraphSearch
    rw [hN fuel hf]
    simp only [Option.map_some, bind, Except.bind, h3]
  · obtain ⟨c, hc, hle⟩ := hopt r.path.xs h4 fun x hx => (h5 x hx).1
    obtain ⟨out, ho⟩ := h7
    rw [ho] at hc
    cases hc
    exact hle

/-! ## The hypotheses are met -/

example : buildValues 20 [10, 7] (3 / 2) = some (.ok [0, 1, 2, 3, 4, 5, 6, 7, 8, 10]) := by
  decide +kernel

/-- With `γ ≥ 2` the value 1 is not on the grid. -/
example : buildValues 20 [10, 7] 3 = some (.ok [0, 3, 7, 9, 10]) := by decide +kernel

example (inverted : Bool) := C25_approx_optimal_on_grid Ex.ssco2 (by decide +kernel) (by decide)
  2 (by norm_num) ⟨inverted, 2, none⟩ rfl (by norm_num) Ex.hitBox2
  (fun t ht _ x hx => Ex.ssco2_hitBox t ht x hx) Ex.ssco2_top

end Soco
