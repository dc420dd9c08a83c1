import Verif.Lemmas.RoundedLevels
import Verif.Props.UniGraph2
import Verif.Props.Rounding

/-!
# C123: rounding errors of the uni-dimensional graph search
-/

namespace Soco
open Uni Prox

variable {C D : Type} [OutSuccess C] [OutFailure D]

namespace Uni.Rounded

theorem movement_rounded (fl : ℚ → ℚ) (β : ℚ) (inverted : Bool) (i j : ℤ) :
    Soco.Rounded.scaledMovement fl [β] [j] [i] inverted = .ok (fl (0 + fl (mv1 β inverted i j))) := by
  simp only [Soco.Rounded.scaledMovement, movementVec, bind, Except.bind, Soco.Rounded.weightedSum, mv1, scalarMovement, pos_eq]

theorem mv1_nonneg {β : ℚ} (hβ : 0 ≤ β) (inverted : Bool) (i j : ℤ) : 0 ≤ mv1 β inverted i j :=
  mul_nonneg hβ (by exact_mod_cast le_max_left _ _)

theorem movement_near {fl : ℚ → ℚ} {u : ℚ} (R : Spec.Rounds u fl) {x : ℚ} (h0 : 0 ≤ x) :
    (1 - u) ^ 2 * x ≤ fl (0 + fl x) ∧ fl (0 + fl x) ≤ (1 + u) ^ 2 * x := by
  have hu := R.nonneg
  have hu1 := R.lt_one
  have h1 := R.below _ h0
  have h2 := R.above _ h0
  have h3 : 0 ≤ fl x := le_trans (mul_nonneg (by linarith) h0) h1
  rw [zero_add]
  have h4 := R.below _ h3
  have h5 := R.above _ h3
  constructor
  · have := mul_le_mul_of_nonneg_left h1 (show 0 ≤ 1 - u by linarith)
    nlinarith
  · have := mul_le_mul_of_nonneg_left h2 (show 0 ≤ 1 + u by linarith)
    nlinarith

/-- The hitting costs of the extended problem, as computed. -/
def extFl (fl : ℚ → ℚ) (g : Int → ℤ → ECost) (m : ℤ) (t : Int) (j : ℤ) : ECost :=
  if j ≤ m then g t j else mulFl fl (j : ℚ) (addFl fl (g t m) ((epsilon : ℚ) : ECost))

theorem extFl_top {fl : ℚ → ℚ} {g : Int → ℤ → ECost} {m : ℤ} {t : Int} {G : ℚ} (hG : g t m = (G : ECost)) {j : ℤ} (hj : m < j) :
    extFl fl g m t j = ((fl (j * fl (G + epsilon)) : ℚ) : ECost) := by
  unfold extFl
  rw [if_neg (by omega), hG, addFl_coe]
  rfl

/-- The problem with the extended bound, exactly and as computed. -/
theorem round_both (fl : ℚ → ℚ) {p : SSCO ℤ C D} {m : ℤ} (hb : p.bounds = [m]) (hm : 0 < m) {g : Int → ℤ → ECost}
    (hhit : ∀ t : Int, 1 ≤ t → t ≤ p.tEnd → ∀ j, 0 ≤ j → j ≤ m →
      ∃ out, p.toProb.hitCost t [j] = .ok ⟨g t j, out⟩) :
    ∃ q q' n, Uni.roundBound p = .ok q ∧ roundBound fl p = .ok q' ∧ q'.d = p.d ∧ q.bounds = [2 ^ n] ∧ q'.bounds = [2 ^ n] ∧ m ≤ 2 ^ n ∧
      (2 : ℤ) ^ n < 2 * m ∧ q.tEnd = p.tEnd ∧ q'.tEnd = p.tEnd ∧ q.switchingCost = p.switchingCost ∧ q'.switchingCost = p.switchingCost ∧
      (∀ t : Int, 1 ≤ t → t ≤ p.tEnd → ∀ j, 0 ≤ j → j ≤ 2 ^ n → ∃ out, q.toProb.hitCost t [j] = .ok ⟨extCost g m t j, out⟩) ∧
      ∀ t : Int, 1 ≤ t → t ≤ p.tEnd → ∀ j, 0 ≤ j → j ≤ 2 ^ n → ∃ out, q'.toProb.hitCost t [j] = .ok ⟨extFl fl g m t j, out⟩ := by
  obtain ⟨q, n, q1, q2, q3, q4, q5, q6, q7⟩ := round_ok hb hm hhit
  by_cases hp : isPowOf2 m.toNat = true
  · have hq : q = p := by
      simp only [Uni.roundBound, hb, idx, bind, Except.bind, List.getElem?_cons_zero, hp, if_true] at q1
      exact (Except.ok.inj q1).symm
    subst hq
    have hmn : (2 : ℤ) ^ n = m := by rw [hb] at q3; simpa using q3.symm
    refine ⟨q, q, n, q1, ?_, rfl, q3, q3, q4, by omega, rfl, rfl, rfl, rfl, q7, ?_⟩
    · simp only [roundBound, hb, idx, bind, Except.bind, List.getElem?_cons_zero, hp, if_true]
    · intro t h1 h2 j h3 h4
      unfold extFl
      rw [if_pos (by omega)]
      exact hhit t h1 h2 j h3 (by omega)
  · obtain ⟨q', hq'⟩ : ∃ q', makePowOf2 fl p = .ok q' := by
      simp [makePowOf2, hb, idx, bind, Except.bind]
    have hqm : Uni.makePowOf2 p = .ok q := by
      simpa [Uni.roundBound, hb, idx, bind, Except.bind, hp] using q1
    have hbq : q.bounds = [powBound m] := by
      simp only [Uni.makePowOf2, hb, idx, bind, Except.bind, List.getElem?_cons_zero] at hqm
      cases hqm; rfl
    have hpn : powBound m = 2 ^ n := by rw [q3] at hbq; simpa using hbq.symm
    obtain ⟨_, _, hlt⟩ := powBound_spec hm
    have hq2 := hq'
    simp only [makePowOf2, hb, idx, bind, Except.bind, List.getElem?_cons_zero] at hq2
    have hb' : q'.bounds = [2 ^ n] := by rw [← hpn]; cases hq2; rfl
    refine ⟨q, q', n, q1, ?_, ?_, q3, hb', q4, by rw [← hpn]; exact hlt, q5, ?_, q6, ?_, q7, ?_⟩
    · simp [roundBound, hb, idx, hp, bind, Except.bind, hq']
    · cases hq2; rfl
    · cases hq2; rfl
    · cases hq2; rfl
    · intro t ht ht' j h0 hj
      rw [hit_within hb' h0 hj]
      have hh : q'.hittingCost = CostFn.new 1 (SingleCostFn.certain (extendedHit fl p m)) := by cases hq2; rfl
      rw [hh, CostFn.callMean_certain _ _ ht]
      simp only [extendedHit, idx, bind, Except.bind, List.getElem?_cons_zero, extFl]
      split_ifs with hjm
      · exact hhit t ht ht' j h0 hjm
      · obtain ⟨out, ho⟩ := hhit t ht ht' m hm.le le_rfl
        rw [ho]
        exact ⟨out, rfl⟩

end Uni.Rounded

/-- **C123** The one-dimensional graph search, with sums and products of costs rounded with relative error at most `u ≤ 1/4` by a
monotone function, as by floating point arithmetic. It returns a schedule of horizon length inside the bounds. Let `k` be the exact cost
of this schedule. The reported cost lies between `(1 - u)^(T + 4) * k` and `(1 + u)^(T + 4) * k`. The search works on the problem whose
bound is extended to a power of two `2 ^ n`; and `k` exceeds the exact cost of any other schedule `ys` by at most a small multiple,
proportional to `2 ^ n`, of the cost of any schedule `zs` of the extended problem which only uses multiples of a quarter of `2 ^ n`. -/
theorem C123_graph_search {fl : ℚ → ℚ} {u : ℚ} (R : Spec.Rounds u fl) (hu4 : u ≤ 1 / 4) (mono : ∀ x y, 0 ≤ x → x ≤ y → fl x ≤ fl y)
    (p : SSCO ℤ C D) (hv : p.verify = .ok ()) (hd : p.d = 1)
    (m : ℤ) (hb : p.bounds = [m]) (xStart : ℤ) (hx : xStart ≤ m) (o : OfflineOptions) (hl : o.l = none)
    (hα : 0 ≤ o.alpha) (g : Int → ℤ → ECost)
    (hhit : ∀ t : Int, 1 ≤ t → t ≤ p.tEnd → ∀ j, 0 ≤ j → j ≤ m →
      ∃ out, p.toProb.hitCost t [j] = .ok ⟨g t j, out⟩)
    (hfin : ∀ t : Int, 1 ≤ t → t ≤ p.tEnd → g t m ≠ ⊤)
    (hnn : ∀ t : Int, 1 ≤ t → t ≤ p.tEnd → ∀ j, 0 ≤ j → j ≤ m → 0 ≤ g t j)
    (hconv : ∀ t : Int, 1 ≤ t → t ≤ p.tEnd → Spec.ConvexOnE m (g t)) :
    ∃ (P : Path) (c k : ℚ), Uni.Rounded.optimalGraphSearch fl p xStart o = .ok P ∧ (P.xs.length : Int) = p.tEnd ∧
      (∀ x ∈ P.xs, Spec.InBox p.bounds x) ∧ P.cost = (c : ECost) ∧ 0 ≤ k ∧
      (∃ out, p.toProb.objectiveWithDefault' P.xs [xStart] o.alpha o.inverted p.tEnd = .ok ⟨(k : ECost), out⟩) ∧
      (1 - u) ^ (p.tEnd.toNat + 4) * k ≤ c ∧ c ≤ (1 + u) ^ (p.tEnd.toNat + 4) * k ∧
      ∃ (q : SSCO ℤ C D) (n : Nat), Uni.roundBound p = .ok q ∧ q.bounds = [2 ^ n] ∧ (2 : ℤ) ^ n < 2 * m ∧
      ∀ ys zs : Schedule ℤ, (ys.length : Int) = p.tEnd → (∀ y ∈ ys, Spec.InBox p.bounds y) →
        (zs.length : Int) = p.tEnd → (∀ z ∈ zs, Spec.InBox q.bounds z) → (∀ z ∈ zs, ∀ j ∈ z, (2 : ℤ) ^ n ∣ 4 * j) →
        ∃ cy cz, p.toProb.objectiveWithDefault' ys [xStart] o.alpha o.inverted p.tEnd = .ok cy ∧
          q.toProb.objectiveWithDefault' zs [xStart] o.alpha o.inverted p.tEnd = .ok cz ∧
          ∀ (qy qz : ℚ), cy.cost = (qy : ECost) → cz.cost = (qz : ECost) → 0 ≤ qz ∧
            ∀ ρ : ℚ, (1 + u) ^ (p.tEnd.toNat + 4) = ρ * (1 - u) ^ (p.tEnd.toNat + 4) →
              k ≤ qy + (ρ - 1) * ρ ^ n * 2 ^ n * qz := by
  obtain ⟨m', β, hb', hs, hm, hβ, hT⟩ := valid_one hv hd
  have hm' : m' = m := by rw [hb] at hb'; simpa using hb'.symm
  subst hm'
  obtain ⟨qe, qr, n, r1, r2, r3, r4, r5, r6, r7, r8, r9, r10, r11, r12, r13⟩ := Uni.Rounded.round_both fl hb hm hhit
  obtain ⟨T, hT'⟩ : ∃ T : Nat, p.tEnd = T := ⟨p.tEnd.toNat, by omega⟩
  have hTT : p.tEnd.toNat = T := by omega
  have hu := R.nonneg
  have hu1 := R.lt_one
  have hpos : 0 < (1 - u) ^ (T + 4) := pow_pos (by linarith) _
  have hge : (1 - u) ^ (T + 4) ≤ (1 + u) ^ (T + 4) := pow_le_pow_left₀ (by linarith) (by linarith) _
  have hnn' : 0 ≤ o.alpha * β := mul_nonneg hα hβ.le
  have obj := fun js hl hj => objective_one hs (Q := fun j => 0 ≤ j ∧ j ≤ m')
    (fun t h1 h2 j hj => hhit t h1 h2 j hj.1 hj.2) o.alpha o.inverted xStart js hl hj
  have obje := fun js hl hj => objective_one (p := qe) (by rw [r10, hs]) (Q := fun j => 0 ≤ j ∧ j ≤ 2 ^ n)
    (fun t h1 h2 j hj => r12 t h1 (by rw [← r8]; exact h2) j hj.1 hj.2) o.alpha o.inverted xStart js hl hj
  rw [r8] at obje
  rw [hTT]
  rw [hT'] at hhit hfin hnn hconv obj obje r8 r9 r12 r13 ⊢
  have S : Uni.Rounded.Setup fl u qr o.inverted T m' (2 ^ n) g (mv1 β o.inverted) (Uni.Rounded.extFl fl g m')
      (fun i j => fl (0 + fl (mv1 β o.inverted i j))) o.alpha
      (if o.inverted then 0 else o.alpha * β) (if o.inverted then o.alpha * β else 0) xStart :=
    { rounds := R
      mono := mono
      alpha0 := hα
      tEnd := r9
      hit := r13
      hitNear := fun t h1 h2 j h3 h4 => by
        rcases le_or_gt j m' with hj | hj
        · unfold Uni.Rounded.extFl
          rw [ext_le hj, if_pos hj]
          have h0 := hnn t h1 h2 j h3 hj
          rcases Uni.Rounded.ecases (g t j) with hg | ⟨x, hg⟩
          · exact .inl ⟨hg, hg⟩
          · rw [hg] at h0
            have h0 : (0 : ℚ) ≤ x := by exact_mod_cast h0
            refine .inr ⟨x, x, hg, hg, h0, ?_, ?_⟩
            · have := Uni.Rounded.low_mono R (Nat.zero_le 3) h0
              simpa using this
            · have := Uni.Rounded.up_mono R (Nat.zero_le 3) h0
              simpa using this
        · obtain ⟨G, hG⟩ := WithTop.ne_top_iff_exists.1 (hfin t h1 h2)
          have h0 := hnn t h1 h2 m' hm.le le_rfl
          rw [← hG] at h0
          have h0 : (0 : ℚ) ≤ G := by exact_mod_cast h0
          have heps := epsilon_pos
          have hj0 : (0 : ℚ) ≤ j := by exact_mod_cast h3
          rw [ext_top hG.symm hj, Uni.Rounded.extFl_top hG.symm hj]
          have s0 : 0 ≤ G + epsilon := by linarith
          have s1 := R.below _ s0
          have s2 := R.above _ s0
          have s3 := Uni.Rounded.fl_nonneg R s0
          have s4 := R.below _ (mul_nonneg hj0 s3)
          have s5 := R.above _ (mul_nonneg hj0 s3)
          have s6 := mul_nonneg hj0 s0
          refine .inr ⟨_, _, rfl, rfl, s6, ?_, ?_⟩
          · refine (Uni.Rounded.low_mono R (show 2 ≤ 3 by omega) s6).trans (le_trans ?_ s4)
            calc (1 - u) ^ 2 * (j * (G + epsilon)) = (1 - u) * (j * ((1 - u) * (G + epsilon))) := by ring
              _ ≤ _ := mul_le_mul_of_nonneg_left (mul_le_mul_of_nonneg_left s1 hj0) (by linarith)
          · refine le_trans (s5.trans ?_) (Uni.Rounded.up_mono R (show 2 ≤ 3 by omega) s6)
            calc (1 + u) * (j * fl (G + epsilon)) ≤ (1 + u) * (j * ((1 + u) * (G + epsilon))) :=
                  mul_le_mul_of_nonneg_left (mul_le_mul_of_nonneg_left s2 hj0) (by linarith)
              _ = _ := by ring
      hitUp := fun t h1 h2 i j h3 h4 h5 => by
        obtain ⟨G, hG⟩ := WithTop.ne_top_iff_exists.1 (hfin t h1 h2)
        have h0 := hnn t h1 h2 m' hm.le le_rfl
        rw [← hG] at h0
        have h0 : (0 : ℚ) ≤ G := by exact_mod_cast h0
        have heps := epsilon_pos
        have s0 : 0 ≤ G + epsilon := by linarith
        have s1 := R.below _ s0
        have s3 := Uni.Rounded.fl_nonneg R s0
        rw [Uni.Rounded.extFl_top hG.symm (by omega : m' < j)]
        rcases eq_or_lt_of_le h3 with rfl | h3
        · unfold Uni.Rounded.extFl
          rw [if_pos le_rfl, ← hG, WithTop.coe_le_coe]
          have hj2 : (2 : ℚ) ≤ j := by exact_mod_cast (by omega : (2 : ℤ) ≤ j)
          have s4 := R.below _ (mul_nonneg (by linarith : (0 : ℚ) ≤ j) s3)
          have s7 : (3 / 4 : ℚ) * G ≤ fl (G + epsilon) := by nlinarith
          have s8 : (2 : ℚ) * (3 / 4 * G) ≤ j * fl (G + epsilon) := mul_le_mul hj2 s7 (by linarith) (by linarith)
          nlinarith
        · rw [Uni.Rounded.extFl_top hG.symm h3, WithTop.coe_le_coe]
          have hi0 : (0 : ℚ) ≤ i := by exact_mod_cast (by omega : (0 : ℤ) ≤ i)
          exact mono _ _ (mul_nonneg hi0 s3) (mul_le_mul_of_nonneg_right (by exact_mod_cast h4.le) s3)
      mov0 := Uni.Rounded.mv1_nonneg hβ.le _
      mov := fun i j => by rw [r11, hs]; exact Uni.Rounded.movement_rounded _ _ _ _ _
      movNear := fun i j => Uni.Rounded.movement_near R (Uni.Rounded.mv1_nonneg hβ.le _ _ _)
      movMono := fun i j i' j' h => by
        have h0 := Uni.Rounded.mv1_nonneg hβ.le o.inverted i j
        rw [zero_add, zero_add]
        exact mono _ _ (Uni.Rounded.fl_nonneg R h0) (mono _ _ h0 h)
      mvUp := fun κ s j h => by
        refine mul_le_mul_of_nonneg_left (Int.cast_le.2 ?_) hβ.le
        split_ifs <;> omega
      mvDown := fun κ s j h1 h2 => by
        refine mul_le_mul_of_nonneg_left (Int.cast_le.2 ?_) hβ.le
        split_ifs <;> omega
      hmv := mv1_mvAB _ _ _
      ha := by split_ifs <;> simp [hnn']
      hb := by split_ifs <;> simp [hnn']
      good := ⟨hm, hfin, hnn, hconv⟩
      mM := r6
      start := hx }
  have conv : ∀ ks : List ℤ, (∀ k ∈ ks, 0 ≤ k ∧ k ≤ m') →
      Spec.totalCost (extCost g m') (mv1 β o.inverted) o.alpha 1 xStart ks
        = Spec.totalCost g (mv1 β o.inverted) o.alpha 1 xStart ks := fun ks hk =>
    totalCost_congr _ _ _ fun s _ _ x hx => ext_le (hk x hx).2
  -- a coarse schedule: all servers of the extended problem
  have htop : ∃ B : ℚ, Spec.totalCost (extCost g m') (mv1 β o.inverted) o.alpha 1 xStart (List.replicate T (2 ^ n)) = (B : ECost) := by
    refine WithTop.ne_top_iff_exists.1 ((totalCost_ne_top _ _ _ _ _).2 ?_) |>.imp fun _ h => h.symm
    intro i hi
    rw [List.getElem_replicate]
    rw [List.length_replicate] at hi
    have hf := hfin ((i : Int) + 1) (by omega) (by omega)
    rcases eq_or_lt_of_le r6 with h | h
    · rw [← h, ext_le le_rfl]; exact hf
    · obtain ⟨c, hc⟩ := WithTop.ne_top_iff_exists.1 hf
      rw [ext_top hc.symm h]; exact WithTop.coe_ne_top
  have hρ0 : ∀ ρ : ℚ, (1 + u) ^ (T + 4) = ρ * (1 - u) ^ (T + 4) → 1 ≤ ρ ∧
      ∀ x y : ℚ, (1 - u) ^ (T + 4) * x ≤ (1 + u) ^ (T + 4) * y → x ≤ ρ * y := by
    intro ρ h
    constructor
    · rw [h] at hge
      by_contra hc
      nlinarith
    · intro x y hxy
      rw [h] at hxy
      refine le_of_mul_le_mul_left (a := (1 - u) ^ (T + 4)) ?_ hpos
      calc (1 - u) ^ (T + 4) * x ≤ ρ * (1 - u) ^ (T + 4) * y := hxy
        _ = _ := by ring
  obtain ⟨hk1, hk2, hk3⟩ := Uni.Rounded.kInit_pow n
  have run : ∀ (ρ : ℚ), (1 + u) ^ (T + 4) = ρ * (1 - u) ^ (T + 4) → ∀ (zs : List ℤ) (B : ℚ),
      OnMult T (2 ^ n) (2 ^ kInit (2 ^ n)) zs →
      Spec.totalCost (extCost g m') (mv1 β o.inverted) o.alpha 1 xStart zs = (B : ECost) →
      _ := fun ρ h zs B hz hB => Uni.Rounded.search_level S (hρ0 ρ h).1 (hρ0 ρ h).2 hz hB
  obtain ⟨B0, hB0⟩ := htop
  obtain ⟨P, js, c, k, h1, L⟩ := run ((1 + u) ^ (T + 4) / (1 - u) ^ (T + 4)) (by rw [div_mul_cancel₀ _ hpos.ne']) _ B0
    ⟨by simp, fun j hj => by rw [List.eq_of_mem_replicate hj]; exact hk2,
      fun j hj => by rw [List.eq_of_mem_replicate hj]; positivity, fun j hj => by rw [List.eq_of_mem_replicate hj]⟩ hB0
  have hjs : ∀ j ∈ js, 0 ≤ j ∧ j ≤ m' := fun j hj => ⟨L.feas.on.lo j hj, by
    have := L.feas.cap j hj; rwa [cap_one] at this⟩
  refine ⟨P, c, k, ?_, ?_, ?_, L.cost, L.nonneg, ?_, L.low, L.up, qe, n, r1, r4, r7, ?_⟩
  · simp [Uni.Rounded.optimalGraphSearch, assertR, hl, hd, r2, r5, idx, bind, Except.bind, h1]
  · rw [L.xs, List.length_map, L.feas.on.len]
  · intro x hx
    rw [L.xs] at hx
    obtain ⟨j, hj, rfl⟩ := List.mem_map.1 hx
    rw [hb]
    exact List.Forall₂.cons (hjs j hj) List.Forall₂.nil
  · obtain ⟨out, ho⟩ := obj js (by rw [L.feas.on.len]) hjs
    exact ⟨out, by rw [L.xs, ho, ← conv js hjs, L.total]⟩
  · intro ys zs y1 y2 z1 z2 z3
    rw [hb] at y2
    rw [r4] at z2
    obtain ⟨ks, rfl, hk⟩ := exists_seq (m := m') ys y2
    obtain ⟨ls, rfl, hls⟩ := exists_seq (m := 2 ^ n) zs z2
    rw [List.length_map] at y1 z1
    obtain ⟨o1, ho1⟩ := obj ks y1 hk
    obtain ⟨o2, ho2⟩ := obje ls z1 hls
    refine ⟨_, _, ho1, ho2, ?_⟩
    intro qy qz hqy hqz
    simp only at hqy hqz
    rw [← conv ks hk] at hqy
    have hcoarse : OnMult T (2 ^ n) (2 ^ kInit (2 ^ n)) ls := ⟨by omega, fun j hj => by
        have h4 := z3 [j] (List.mem_map.2 ⟨j, hj, rfl⟩) j (by simp)
        rcases hk3 with h0 | h0
        · rw [h0]; simp
        · obtain ⟨w, hw⟩ := h4
          refine ⟨w, ?_⟩
          have : (2 : ℤ) ^ n = 4 * 2 ^ kInit (2 ^ n) := by
            conv_lhs => rw [← h0, pow_add]
            ring
          rw [this, mul_assoc] at hw
          exact mul_left_cancel₀ (by norm_num) hw,
      fun j hj => (hls j hj).1, fun j hj => (hls j hj).2⟩
    have hq0 : 0 ≤ qz := by
      obtain ⟨P', js', c', k', _, L'⟩ := run ((1 + u) ^ (T + 4) / (1 - u) ^ (T + 4)) (by rw [div_mul_cancel₀ _ hpos.ne']) ls qz
        hcoarse hqz
      have := L'.nonneg.trans L'.bound
      exact nonneg_of_mul_nonneg_right this (by positivity)
    refine ⟨hq0, fun ρ hρ => ?_⟩
    obtain ⟨P', js', c', k', h1', L'⟩ := run ρ hρ ls qz hcoarse hqz
    rw [h1] at h1'
    have hP : P' = P := (Except.ok.inj h1').symm
    rw [hP] at L'
    have hj' : js' = js := by
      have := L'.xs.symm.trans L.xs
      exact List.map_injective_iff.2 (fun a b h => by simpa using h) this
    have hkk : k' = k := by
      have := L'.total.symm
      rw [hj', L.total] at this
      exact_mod_cast this
    have h5 := L'.opt ks qy ⟨by omega, by simp, fun j hj => (hk j hj).1, fun j hj => (hk j hj).2.trans r6⟩ hqy
    rw [hkk] at h5
    refine h5.trans (add_le_add_right ?_ _)
    have hr := (hρ0 ρ hρ).1
    refine mul_le_mul_of_nonneg_right ?_ hq0
    refine mul_le_mul (mul_le_mul_of_nonneg_left (pow_le_pow_right₀ hr hk1) (by linarith)) ?_ ?_ ?_
    · rcases hk3 with h0 | h0
      · rw [h0]
        have : (1 : ℚ) ≤ 2 ^ n := one_le_pow₀ (by norm_num)
        norm_num
        linarith
      · have : (2 : ℚ) ^ (kInit (2 ^ n) + 1) ≤ 2 ^ n := pow_le_pow_right₀ (by norm_num) (by omega)
        linarith
    · have : (1 : ℚ) ≤ 2 ^ (kInit (2 ^ n) + 1) := one_le_pow₀ (by norm_num)
      linarith
    · exact mul_nonneg (by linarith) (by positivity)

/-- Rounding to 53 binary digits is monotone. -/
theorem C123_double_mono (x y : ℚ) (hx : 0 ≤ x) (hxy : x ≤ y) : Spec.double x ≤ Spec.double y := by
  rcases hx.eq_or_lt with rfl | hx
  · have h := C120_double_rounds.below y hxy
    have : (0 : ℚ) ≤ Spec.double y := le_trans (mul_nonneg (by norm_num) hxy) h
    simpa [Spec.double] using this
  have hy := lt_of_lt_of_le hx hxy
  have hlog : Int.log 2 x ≤ Int.log 2 y := Int.log_mono_right hx hxy
  unfold Spec.double
  rcases hlog.eq_or_lt with h | h
  · rw [h]
    refine mul_le_mul_of_nonneg_right (Int.cast_le.2 ?_) (zpow_nonneg (by norm_num) _)
    rw [round_eq, round_eq]
    exact Int.floor_le_floor (add_le_add_left (mul_le_mul_of_nonneg_right hxy (zpow_nonneg (by norm_num) _)) _)
  · have e1 : ∀ l : ℤ, (2 : ℚ) ^ (52 - l) * 2 ^ (l - 52) = 1 := fun l => by
      rw [← zpow_add₀ (by norm_num)]; simp
    have h1 : (round (x * 2 ^ (52 - Int.log 2 x)) : ℚ) ≤ 2 ^ 53 := by
      have hlt : x < ((2 : ℕ) : ℚ) ^ (Int.log 2 x + 1) := Int.lt_zpow_succ_log_self (by norm_num) x
      have h2 : x * 2 ^ (52 - Int.log 2 x) ≤ 2 ^ 53 := by
        calc x * 2 ^ (52 - Int.log 2 x) ≤ 2 ^ (Int.log 2 x + 1) * 2 ^ (52 - Int.log 2 x) :=
              mul_le_mul_of_nonneg_right (by simpa using hlt.le) (zpow_nonneg (by norm_num) _)
          _ = 2 ^ (53 : ℤ) := by rw [← zpow_add₀ (by norm_num)]; congr 1; ring
          _ = 2 ^ 53 := by norm_cast
      rw [round_eq]
      have h3 : ⌊x * 2 ^ (52 - Int.log 2 x) + 1 / 2⌋ ≤ (2 ^ 53 : ℤ) := by
        have := Int.floor_le_floor (add_le_add_left h2 (1 / 2))
        refine this.trans (Int.floor_le_iff.2 ?_)
        push_cast
        norm_num
      exact_mod_cast h3
    have h2 : (2 : ℚ) ^ 52 ≤ (round (y * 2 ^ (52 - Int.log 2 y)) : ℚ) := by
      have hle : ((2 : ℕ) : ℚ) ^ Int.log 2 y ≤ y := Int.zpow_log_le_self (by norm_num) hy
      have h3 : (2 : ℚ) ^ 52 ≤ y * 2 ^ (52 - Int.log 2 y) := by
        calc (2 : ℚ) ^ 52 = 2 ^ (52 : ℤ) := by norm_cast
          _ = 2 ^ Int.log 2 y * 2 ^ (52 - Int.log 2 y) := by rw [← zpow_add₀ (by norm_num)]; congr 1; ring
          _ ≤ _ := mul_le_mul_of_nonneg_right (by simpa using hle) (zpow_nonneg (by norm_num) _)
      rw [round_eq]
      have h4 : (2 ^ 52 : ℤ) ≤ ⌊y * 2 ^ (52 - Int.log 2 y) + 1 / 2⌋ := by
        refine Int.le_floor.2 ?_
        push_cast
        linarith
      exact_mod_cast h4
    calc (round (x * 2 ^ (52 - Int.log 2 x)) : ℚ) * 2 ^ (Int.log 2 x - 52) ≤ 2 ^ 53 * 2 ^ (Int.log 2 x - 52) :=
          mul_le_mul_of_nonneg_right h1 (zpow_nonneg (by norm_num) _)
      _ = 2 ^ 52 * (2 * 2 ^ (Int.log 2 x - 52)) := by ring
      _ = 2 ^ 52 * 2 ^ (Int.log 2 x + 1 - 52) := by
          rw [show Int.log 2 x + 1 - 52 = 1 + (Int.log 2 x - 52) by ring, zpow_add₀ (by norm_num), zpow_one]
      _ ≤ 2 ^ 52 * 2 ^ (Int.log 2 y - 52) :=
          mul_le_mul_of_nonneg_left (zpow_le_zpow_right₀ (by norm_num) (by omega)) (by norm_num)
      _ ≤ _ := mul_le_mul_of_nonneg_right h2 (zpow_nonneg (by norm_num) _)

/-- **C123** With 53 binary digits, as in `f64`, at most a hundred thousand slots and at most 4096 servers, the schedule returned is at
most a hundred thousandth of the cost of any schedule `zs` of the extended problem which only uses multiples of a quarter of the extended
bound (such as always using all servers) dearer than any other one, and the reported cost is its cost up to a millionth. -/
theorem C123_double (p : SSCO ℤ C D) (hv : p.verify = .ok ()) (hd : p.d = 1)
    (m : ℤ) (hb : p.bounds = [m]) (hm : m ≤ 4096) (hT : p.tEnd ≤ 10 ^ 5) (xStart : ℤ) (hx : xStart ≤ m) (o : OfflineOptions)
    (hl : o.l = none) (hα : 0 ≤ o.alpha) (g : Int → ℤ → ECost)
    (hhit : ∀ t : Int, 1 ≤ t → t ≤ p.tEnd → ∀ j, 0 ≤ j → j ≤ m →
      ∃ out, p.toProb.hitCost t [j] = .ok ⟨g t j, out⟩)
    (hfin : ∀ t : Int, 1 ≤ t → t ≤ p.tEnd → g t m ≠ ⊤)
    (hnn : ∀ t : Int, 1 ≤ t → t ≤ p.tEnd → ∀ j, 0 ≤ j → j ≤ m → 0 ≤ g t j)
    (hconv : ∀ t : Int, 1 ≤ t → t ≤ p.tEnd → Spec.ConvexOnE m (g t)) :
    ∃ (P : Path) (c k : ℚ), Uni.Rounded.optimalGraphSearch Spec.double p xStart o = .ok P ∧ (P.xs.length : Int) = p.tEnd ∧
      (∀ x ∈ P.xs, Spec.InBox p.bounds x) ∧ P.cost = (c : ECost) ∧
      (∃ out, p.toProb.objectiveWithDefault' P.xs [xStart] o.alpha o.inverted p.tEnd = .ok ⟨(k : ECost), out⟩) ∧
      |c - k| ≤ 1 / 10 ^ 6 * k ∧
      ∃ (q : SSCO ℤ C D) (M : ℤ), Uni.roundBound p = .ok q ∧ q.bounds = [M] ∧
      ∀ ys zs : Schedule ℤ, (ys.length : Int) = p.tEnd → (∀ y ∈ ys, Spec.InBox p.bounds y) →
        (zs.length : Int) = p.tEnd → (∀ z ∈ zs, Spec.InBox q.bounds z) → (∀ z ∈ zs, ∀ j ∈ z, M ∣ 4 * j) →
        ∃ cy cz, p.toProb.objectiveWithDefault' ys [xStart] o.alpha o.inverted p.tEnd = .ok cy ∧
          q.toProb.objectiveWithDefault' zs [xStart] o.alpha o.inverted p.tEnd = .ok cz ∧
          ∀ (qy qz : ℚ), cy.cost = (qy : ECost) → cz.cost = (qz : ECost) → k ≤ qy + 1 / 10 ^ 5 * qz := by
  obtain ⟨P, c, k, h1, h2, h3, h4, h5, h6, h7, h8, q, n, q1, q2, q3, h9⟩ := C123_graph_search C120_double_rounds (by norm_num)
    C123_double_mono p hv hd m hb xStart hx o hl hα g hhit hfin hnn hconv
  have hn : n ≤ 13 := by
    by_contra hc
    push Not at hc
    have : (2 : ℤ) ^ 14 ≤ 2 ^ n := pow_le_pow_right₀ (by norm_num) hc
    norm_num at this
    omega
  generalize hN : p.tEnd.toNat + 4 = N at h7 h8 h9
  have hN' : N ≤ 10 ^ 5 + 4 := by omega
  refine ⟨P, c, k, h1, h2, h3, h4, h6, Rounded.billion (by omega) h5 h7 h8, q, 2 ^ n, q1, q2, ?_⟩
  intro ys zs y1 y2 z1 z2 z3
  obtain ⟨cy, ca, e1, e2, e3⟩ := h9 ys zs y1 y2 z1 z2 z3
  refine ⟨cy, ca, e1, e2, fun qy qa hqy hqa => ?_⟩
  obtain ⟨hqa0, e3⟩ := e3 qy qa hqy hqa
  have hpos : (0 : ℚ) < (1 - 1 / 2 ^ 53) ^ N := pow_pos (by norm_num) _
  have h10 := e3 ((1 + 1 / 2 ^ 53) ^ N / (1 - 1 / 2 ^ 53) ^ N) (by rw [div_mul_cancel₀ _ hpos.ne'])
  have hρ : (1 + 1 / 2 ^ 53 : ℚ) ^ N / (1 - 1 / 2 ^ 53) ^ N ≤ 1 + 1 / 10 ^ 9 / 2 := by
    have hq : (N : ℚ) * (1 / 2 ^ 53) ≤ 1 / 10 ^ 9 / 8 := by
      have : (N : ℚ) ≤ 10 ^ 5 + 4 := by exact_mod_cast hN'
      calc (N : ℚ) * (1 / 2 ^ 53) ≤ (10 ^ 5 + 4) * (1 / 2 ^ 53) := mul_le_mul_of_nonneg_right this (by norm_num)
        _ ≤ 1 / 10 ^ 9 / 8 := by norm_num
    have := Rounded.few (N := N) (u := 1 / 2 ^ 53) (ε := 1 / 10 ^ 9 / 8) (a := (1 + 1 / 2 ^ 53) ^ N / (1 - 1 / 2 ^ 53) ^ N) (b := 1)
      (by norm_num) (by norm_num) (by norm_num) hq (by norm_num) (by rw [mul_div_cancel₀ _ hpos.ne', mul_one]) (by norm_num)
    linarith
  have hρ1 : 1 ≤ (1 + 1 / 2 ^ 53 : ℚ) ^ N / (1 - 1 / 2 ^ 53) ^ N := by
    rw [le_div_iff₀ hpos, one_mul]
    exact pow_le_pow_left₀ (by norm_num) (by norm_num) _
  generalize (1 + 1 / 2 ^ 53 : ℚ) ^ N / (1 - 1 / 2 ^ 53) ^ N = ρ at h10 hρ hρ1
  refine h10.trans (add_le_add_right (mul_le_mul_of_nonneg_right ?_ hqa0) _)
  have hp : ρ ^ n ≤ 2 := by
    calc ρ ^ n ≤ (1 + 1 / 10 ^ 9 / 2) ^ n := pow_le_pow_left₀ (by linarith) hρ n
      _ ≤ (1 + 1 / 10 ^ 9 / 2) ^ 13 := pow_le_pow_right₀ (by norm_num) hn
      _ ≤ 2 := by norm_num
  have h2n : (2 : ℚ) ^ n ≤ 2 ^ 13 := pow_le_pow_right₀ (by norm_num) hn
  calc (ρ - 1) * ρ ^ n * 2 ^ n ≤ (1 / 10 ^ 9 / 2) * 2 * 2 ^ 13 := by
        refine mul_le_mul (mul_le_mul (by linarith) hp (by positivity) (by norm_num)) h2n (by positivity) (by norm_num)
    _ ≤ 1 / 10 ^ 5 := by norm_num

namespace Uni.Rounded

theorem weightedSum_id (x : Config ℤ) : ∀ (acc : ℚ) (bs : List ℚ),
    Soco.Rounded.weightedSum (fun x => x) acc bs x = (Soco.weightedSum bs x).map (acc + ·) := by
  induction x with
  | nil =>
    intro acc bs
    cases bs <;> simp [Soco.Rounded.weightedSum, Soco.weightedSum, Except.map]
  | cons j x ih =>
    intro acc bs
    cases bs with
    | nil => rfl
    | cons b bs =>
      simp only [Soco.Rounded.weightedSum, Soco.weightedSum, ih, bind, Except.bind]
      cases Soco.weightedSum bs x with
      | error e => rfl
      | ok r =>
        simp only [Except.map]
        rw [add_assoc]
        rfl

theorem buildCost_id : @buildCost C D _ _ (fun x => x) = @Uni.buildCost C D _ _ := by
  funext p t i j alpha inverted
  unfold buildCost Uni.buildCost
  simp only [SSCO.toProb, Soco.Rounded.scaledMovement, Soco.scaledMovement, weightedSum_id, Multi.Rounded.addFl_id, bind, Except.bind]
  cases CostFn.callMeanWithinBounds p.hittingCost t [j] (withinVec p.bounds) with
  | error e => rfl
  | ok c =>
    cases movementVec [j] [i] inverted with
    | error e => rfl
    | ok v =>
      simp only
      cases Soco.weightedSum p.switchingCost v with
      | error e => rfl
      | ok r => simp [Except.map]

theorem findSchedule_id : @findSchedule C D _ _ (fun x => x) = @Uni.findSchedule C D _ _ := by
  have h1 : @pickSource C D _ _ (fun x => x) = @Uni.pickSource C D _ _ := by
    funext p paths t dst alpha inverted picked source
    simp only [pickSource, Uni.pickSource, buildCost_id, Multi.Rounded.addFl_id]
  have h2 : @findShortestSubpath C D _ _ (fun x => x) = @Uni.findShortestSubpath C D _ _ := by
    funext p t src alpha inverted paths dst
    simp only [findShortestSubpath, Uni.findShortestSubpath, h1]
  have h3 : @slot C D _ _ (fun x => x) = @Uni.slot C D _ _ := by
    funext p rows alpha inverted s t
    simp only [slot, Uni.slot, h2]
  funext p rows alpha inverted xStart
  simp only [findSchedule, Uni.findSchedule, h3]

theorem makePowOf2_id : @makePowOf2 C D _ _ (fun x => x) = @Uni.makePowOf2 C D _ _ := by
  have h1 : @extendedHit C D _ _ (fun x => x) = @Uni.extendedHit C D _ _ := by
    funext p prevM t x
    have h : ∀ (a : ℚ) (c : ECost), mulFl (fun x => x) a c = ECost.mulQ a c := by
      intro a c
      unfold mulFl
      cases ECost.mulQ a c <;> rfl
    simp only [extendedHit, Uni.extendedHit, Multi.Rounded.addFl_id, h]
  funext p
  simp only [makePowOf2, Uni.makePowOf2, h1]

end Uni.Rounded

/-- **C123** Without rounding this is the search of C16 and C17, whatever the bounds. -/
theorem C123_exact (p : SSCO ℤ C D) (xStart : ℤ) (o : OfflineOptions) :
    Uni.Rounded.optimalGraphSearch (fun x => x) p xStart o = Uni.optimalGraphSearch p xStart o := by
  simp only [Uni.Rounded.optimalGraphSearch, Uni.optimalGraphSearch, Uni.Rounded.search, Uni.search, Uni.Rounded.roundBound,
    Uni.roundBound, Uni.Rounded.findSchedule_id, Uni.Rounded.makePowOf2_id]

/-- A first slot in which every server too many or too few is very dear, and a second one in which every missing server is dear. -/
def Ex.steep : SSCO ℤ Unit Unit where
  d := 1
  tEnd := 2
  bounds := [8]
  switchingCost := [1]
  hittingCost := CostFn.new 1 (SingleCostFn.certain fun t x => .ok (Cost.raw
    ((if t = 1 then 2 ^ 80 * |((x.getD 0 0 - 3 : ℤ) : ℚ)| else 2 ^ 20 * ((8 - x.getD 0 0 : ℤ) : ℚ) : ℚ) : ECost)))

/-- Its costs. -/
def Ex.steepHit (t : Int) (j : ℤ) : ECost :=
  ((if t = 1 then 2 ^ 80 * |((j - 3 : ℤ) : ℚ)| else 2 ^ 20 * ((8 - j : ℤ) : ℚ) : ℚ) : ECost)

theorem Ex.steep_convex (t : Int) (m : ℤ) : Spec.ConvexOnE m (Ex.steepHit t) := by
  intro x y z h3 h4 h5 h6 a c ha hc
  refine ⟨_, rfl, ?_⟩
  have ha' := WithTop.coe_injective ha
  have hc' := WithTop.coe_injective hc
  have e1 : (x : ℚ) < y := by exact_mod_cast h4
  have e2 : (y : ℚ) < z := by exact_mod_cast h5
  rw [← ha', ← hc']
  push_cast
  split_ifs
  · have key : ((z : ℚ) - x) * |(y : ℚ) - 3| ≤ (z - y) * |(x : ℚ) - 3| + (y - x) * |(z : ℚ) - 3| := by
      have h7 : ((z : ℚ) - x) * ((y : ℚ) - 3) = (z - y) * (x - 3) + (y - x) * (z - 3) := by ring
      calc ((z : ℚ) - x) * |(y : ℚ) - 3| = |((z : ℚ) - x) * ((y : ℚ) - 3)| := by
            rw [abs_mul, abs_of_pos (by linarith : (0 : ℚ) < z - x)]
        _ = |((z : ℚ) - y) * (x - 3) + (y - x) * (z - 3)| := by rw [h7]
        _ ≤ |((z : ℚ) - y) * (x - 3)| + |((y : ℚ) - x) * (z - 3)| := abs_add_le _ _
        _ = _ := by
            rw [abs_mul, abs_mul, abs_of_pos (by linarith : (0 : ℚ) < z - y), abs_of_pos (by linarith : (0 : ℚ) < y - x)]
    nlinarith
  · nlinarith

theorem Ex.steep_nonneg (t : Int) (j : ℤ) (h : j ≤ 8) : 0 ≤ Ex.steepHit t j := by
  have : (0 : ℚ) ≤ ((8 - j : ℤ) : ℚ) := by exact_mod_cast (by omega : (0 : ℤ) ≤ 8 - j)
  unfold Ex.steepHit
  rw [← WithTop.coe_zero, WithTop.coe_le_coe]
  split_ifs <;> positivity

/-- C123 applies to this instance. -/
example (inverted : Bool) := C123_double Ex.steep (by decide +kernel) rfl 8 rfl (by norm_num)
  (by decide) 0 (by norm_num) ⟨inverted, 1, none⟩ rfl (by norm_num) Ex.steepHit
  (fun t h1 h2 j h3 h4 => by
    rw [hit_within rfl h3 h4]
    exact ⟨_, CostFn.callMean_certain _ _ h1 _⟩)
  (fun t h1 h2 => WithTop.coe_ne_top) (fun t h1 h2 j h3 h4 => Ex.steep_nonneg t j h4) (fun t h1 h2 => Ex.steep_convex t 8)

/-- C123 applies to five servers, which is not a power of two, with three running before the first slot. -/
example (inverted : Bool) := C123_double { Ex.steep with bounds := [5] } (by decide +kernel) rfl 5 rfl (by norm_num)
  (by decide) 3 (by norm_num) ⟨inverted, 2, none⟩ rfl (by norm_num) Ex.steepHit
  (fun t h1 h2 j h3 h4 => by
    rw [hit_within rfl h3 h4]
    exact ⟨_, CostFn.callMean_certain _ _ h1 _⟩)
  (fun t h1 h2 => WithTop.coe_ne_top) (fun t h1 h2 j h3 h4 => Ex.steep_nonneg t j (by omega)) (fun t h1 h2 => Ex.steep_convex t 5)

theorem Ex.steep_rounded : (Uni.Rounded.optimalGraphSearch Spec.double Ex.steep 0 ⟨false, 1, none⟩).map (·.xs) = .ok [[3], [2]] := by
  have e : ∀ q : SSCO ℤ Unit Unit, Uni.Rounded.search Spec.double q 8 1 false 0 = (do
      let path ← Uni.Rounded.findSchedule Spec.double q (fun _ => .ok (initialRows 8)) 1 false 0
      (List.range 1).reverse.foldlM
        (fun path k => Uni.Rounded.findSchedule Spec.double q (nextRows 8 path.xs k) 1 false 0) path) := by
    intro q
    simp only [Uni.Rounded.search, Ex.kInit_eight]
  have hp : isPowOf2 8 = true := (C13_is_pow_of_2 _).2 ⟨3, by norm_num⟩
  have e2 : Uni.Rounded.roundBound Spec.double Ex.steep = .ok Ex.steep := by
    have h8 : (8 : ℤ).toNat = 8 := rfl
    simp only [Uni.Rounded.roundBound, show Ex.steep.bounds = [8] from rfl, idx, bind, Except.bind, List.getElem?_cons_zero, h8, hp,
      if_true]
  simp only [Uni.Rounded.optimalGraphSearch, e2, bind, Except.bind, idx, e,
    show Ex.steep.bounds = [8] from rfl, List.getElem?_cons_zero]
  decide +kernel

/-- Rounding at the first, coarse level can cost much later on: there the dear first slot hides what is missing in the second one, and
the following levels only look near the schedule found before. The search with 53 binary digits returns a schedule that costs 6291459,
the best one costs 8. -/
theorem C123_optimal_counterexample :
    (Uni.Rounded.optimalGraphSearch Spec.double Ex.steep 0 ⟨false, 1, none⟩).map (·.xs) = .ok [[3], [2]] ∧
    (Ex.steep.toProb.objective [[3], [2]]).map (·.cost) = .ok ((6291459 : ℚ) : ECost) ∧
    (Ex.steep.toProb.objective [[3], [8]]).map (·.cost) = .ok ((8 : ℚ) : ECost) :=
  ⟨Ex.steep_rounded, by decide +kernel, by decide +kernel⟩

end Soco
