import Verif.Lemmas.UniMain
import Verif.Props.MultiGraph
import Verif.Props.Utils

/-!
# C16–C18, C23: uni-dimensional graph search
-/

namespace Soco
open Uni Prox

variable {C D : Type} [OutSuccess C] [OutFailure D]

namespace Uni

/-- Movement in one dimension. -/
def mv1 (β : ℚ) (inverted : Bool) (i j : ℤ) : ℚ :=
  β * ((max 0 (if inverted then i - j else j - i) : ℤ) : ℚ)

theorem movement_one {p : SSCO ℤ C D} {β : ℚ} (hs : p.switchingCost = [β]) (inverted : Bool) (i j : ℤ) :
    p.toProb.movement [i] [j] inverted = .ok (mv1 β inverted i j) := by
  simp only [SSCO.toProb, scaledMovement, movementVec, hs, weightedSum, bind, Except.bind, mv1,
    scalarMovement, pos_eq, toQ, add_zero]
  rfl

theorem mv1_mvAB (α β : ℚ) (inverted : Bool) (i j : ℤ) :
    α * mv1 β inverted i j
      = mvAB (if inverted then 0 else α * β) (if inverted then α * β else 0) (j - i) := by
  cases inverted
  · simp [mv1, mvAB, mul_assoc]
  · simp [mv1, mvAB, mul_assoc]

theorem totalCost_map {X Y : Type} (f : X → Y) (hit : Int → Y → ECost) (mv : Y → Y → ℚ) (α : ℚ) :
    ∀ (js : List X) (t : Int) (prev : X),
    Spec.totalCost hit mv α t (f prev) (js.map f)
      = Spec.totalCost (fun t x => hit t (f x)) (fun x y => mv (f x) (f y)) α t prev js := by
  intro js
  induction js with
  | nil => intros; rfl
  | cons j js ih => intro t prev; simp only [List.map_cons, Spec.totalCost, ih]

theorem totalCost_congr {X : Type} {hit hit' : Int → X → ECost} {mv : X → X → ℚ} {α : ℚ} :
    ∀ (js : List X) (t : Int) (prev : X),
    (∀ s : Int, t ≤ s → s < t + js.length → ∀ x ∈ js, hit s x = hit' s x) →
    Spec.totalCost hit mv α t prev js = Spec.totalCost hit' mv α t prev js := by
  intro js
  induction js with
  | nil => intros; rfl
  | cons j js ih =>
    intro t prev h
    simp only [List.length_cons] at h
    simp only [Spec.totalCost]
    rw [h t le_rfl (by push_cast; omega) j (by simp), ih (t + 1) j fun s h1 h2 x hx =>
      h s (by omega) (by push_cast at h2 ⊢; omega) x (by simp [hx])]

/-- The objective of a one-dimensional schedule. -/
theorem objective_one {p : SSCO ℤ C D} {β : ℚ} (hs : p.switchingCost = [β]) {Q : ℤ → Prop}
    {g : Int → ℤ → ECost}
    (hhit : ∀ t : Int, 1 ≤ t → t ≤ p.tEnd → ∀ j, Q j →
      ∃ out, p.toProb.hitCost t [j] = .ok ⟨g t j, out⟩)
    (α : ℚ) (inverted : Bool) (xStart : ℤ) (js : List ℤ) (hl : (js.length : Int) = p.tEnd)
    (hj : ∀ j ∈ js, Q j) :
    ∃ out, p.toProb.objectiveWithDefault' (js.map fun j => [j]) [xStart] α inverted p.tEnd
      = .ok ⟨Spec.totalCost g (mv1 β inverted) α 1 xStart js, out⟩ := by
  have hp : Spec.padTo js.length [xStart] (js.map fun j => [j]) = js.map fun j => [j] := by
    have := padTo_self [xStart] (js.map fun j => [j])
    rwa [List.length_map] at this
  obtain ⟨out, ho⟩ := C02_objective_eq_totalCost p.toProb (js.map fun j => [j]) [xStart] α inverted
    js.length (fun t x => g t (x.headD 0)) (fun y x => mv1 β inverted (y.headD 0) (x.headD 0)) (by
      intro t h1 _ h2 x hx
      rw [hp] at hx
      obtain ⟨j, hj', rfl⟩ := List.mem_map.1 hx
      exact hhit t h1 h2 j (hj j hj')) (by
      rw [hp]
      intro y hy x hx
      obtain ⟨j, _, rfl⟩ := List.mem_map.1 hx
      rcases List.mem_cons.1 hy with rfl | hy
      · exact movement_one hs _ _ _
      · obtain ⟨i, _, rfl⟩ := List.mem_map.1 hy
        exact movement_one hs _ _ _)
  refine ⟨out, ?_⟩
  rw [← hl, ho, hp, totalCost_map (fun j : ℤ => [j])]
  congr 2
  refine totalCost_congr _ _ _ fun s h1 h2 x _ => ?_
  have : p.toProb.tEnd = p.tEnd := rfl
  rw [if_neg (by omega)]; rfl

/-- Reading a one-dimensional schedule as a sequence of numbers. -/
theorem exists_seq {m : ℤ} (ys : Schedule ℤ) (hy : ∀ y ∈ ys, Spec.InBox [m] y) :
    ∃ ks : List ℤ, ys = ks.map (fun j => [j]) ∧ ∀ k ∈ ks, 0 ≤ k ∧ k ≤ m := by
  induction ys with
  | nil => exact ⟨[], rfl, by simp⟩
  | cons y ys ih =>
    obtain ⟨ks, h1, h2⟩ := ih fun z hz => hy z (by simp [hz])
    have := hy y (by simp)
    unfold Spec.InBox at this
    obtain ⟨j, l, hj, hl, rfl⟩ := List.forall₂_cons_left_iff.1 this
    rw [List.forall₂_nil_left_iff] at hl
    subst hl
    refine ⟨j :: ks, by simp [h1], ?_⟩
    intro k hk
    rcases List.mem_cons.1 hk with rfl | hk
    · exact hj
    · exact h2 k hk

theorem powBound_spec {m : ℤ} (hm : 0 < m) :
    (∃ k, powBound m = 2 ^ k) ∧ m ≤ powBound m ∧ powBound m < 2 * m := by
  have e : ((2 ^ Nat.clog 2 m.toNat : Nat) : ℤ) = powBound m := by unfold powBound; push_cast; rfl
  refine ⟨⟨_, rfl⟩, ?_, ?_⟩
  · have := Nat.le_pow_clog (b := 2) (by omega) m.toNat
    omega
  · rcases Nat.lt_or_ge 1 m.toNat with h | h
    · have hp := Nat.pow_pred_clog_lt_self (b := 2) (by omega) h
      have hpos := Nat.clog_pos (b := 2) (by omega) (by omega : 2 ≤ m.toNat)
      have e2 : 2 ^ Nat.clog 2 m.toNat = 2 * 2 ^ (Nat.clog 2 m.toNat).pred := by
        conv_lhs => rw [← Nat.succ_pred_eq_of_pos hpos, pow_succ]
        ring
      omega
    · have : m = 1 := by omega
      subst this
      simp [powBound]

theorem hit_within {p : SSCO ℤ C D} {m : ℤ} (hb : p.bounds = [m]) {t : Int} {j : ℤ} (h0 : 0 ≤ j) (hj : j ≤ m) :
    p.toProb.hitCost t [j] = p.hittingCost.callMean t [j] := by
  simp [SSCO.toProb, CostFn.callMeanWithinBounds, withinVec, hb, h0, hj, bind, Except.bind]

theorem makePow_hit {p q : SSCO ℤ C D} {m : ℤ} (hb : p.bounds = [m]) (hq : makePowOf2 p = .ok q) {t : Int}
    (ht : 1 ≤ t) {j : ℤ} (h0 : 0 ≤ j) (hj : j ≤ powBound m) :
    q.toProb.hitCost t [j] = if j ≤ m then p.toProb.hitCost t [j] else
      (p.toProb.hitCost t [m]).map fun c => ⟨ECost.mulQ (j : ℚ) (c.cost + ((epsilon : ℚ) : ECost)), c.output⟩ := by
  simp only [makePowOf2, hb, idx, bind, Except.bind, List.getElem?_cons_zero] at hq
  cases hq
  rw [hit_within rfl h0 hj, CostFn.callMean_certain _ _ ht]
  simp only [extendedHit, idx, bind, Except.bind, List.getElem?_cons_zero]
  split_ifs
  · rfl
  · cases p.toProb.hitCost t [m] <;> rfl

theorem valid_one {p : SSCO ℤ C D} (hv : p.verify = .ok ()) (hd : p.d = 1) :
    ∃ m β, p.bounds = [m] ∧ p.switchingCost = [β] ∧ 0 < m ∧ 0 < β ∧ 0 ≤ p.tEnd := by
  have hv' : Spec.ValidSSCO p := by
    by_contra hc
    have := (C10_ssco_verify_exact p).2 hc
    rw [hv] at this; simp at this
  obtain ⟨_, h2, h3, h4, h5, h6⟩ := hv'
  obtain ⟨m, hm⟩ := List.length_eq_one_iff.1 (by omega : p.bounds.length = 1)
  obtain ⟨β, hβ⟩ := List.length_eq_one_iff.1 (by omega : p.switchingCost.length = 1)
  exact ⟨m, β, hm, hβ, h5 m (by simp [hm]), h6 β (by simp [hβ]), h2⟩

/-- The rounded problem. -/
theorem round_ok {p : SSCO ℤ C D} {m : ℤ} (hb : p.bounds = [m]) (hm : 0 < m) {g : Int → ℤ → ECost}
    (hhit : ∀ t : Int, 1 ≤ t → t ≤ p.tEnd → ∀ j, 0 ≤ j → j ≤ m →
      ∃ out, p.toProb.hitCost t [j] = .ok ⟨g t j, out⟩) :
    ∃ q n, roundBound p = .ok q ∧ q.d = p.d ∧ q.bounds = [2 ^ n] ∧ m ≤ 2 ^ n ∧ q.tEnd = p.tEnd ∧
      q.switchingCost = p.switchingCost ∧
      ∀ t : Int, 1 ≤ t → t ≤ p.tEnd → ∀ j, 0 ≤ j → j ≤ 2 ^ n →
        ∃ out, q.toProb.hitCost t [j] = .ok ⟨extCost g m t j, out⟩ := by
  by_cases hp : isPowOf2 m.toNat = true
  · obtain ⟨k, hk⟩ := (C13_is_pow_of_2 _).1 hp
    have hm2 : m = 2 ^ k := by
      have : ((2 ^ k : Nat) : ℤ) = 2 ^ k := by push_cast; rfl
      omega
    refine ⟨p, k, ?_, rfl, by rw [hb, hm2], hm2.le, rfl, rfl, ?_⟩
    · simp [roundBound, hb, idx, hp, bind, Except.bind]
    · intro t h1 h2 j h3 h4
      rw [← hm2] at h4
      rw [ext_le h4]
      exact hhit t h1 h2 j h3 h4
  · obtain ⟨q, hq⟩ : ∃ q, makePowOf2 p = .ok q := by
      simp [makePowOf2, hb, idx, bind, Except.bind]
    have hq' := hq
    simp only [makePowOf2, hb, idx, bind, Except.bind, List.getElem?_cons_zero] at hq
    obtain ⟨⟨n, hn⟩, h1, _⟩ := powBound_spec hm
    refine ⟨q, n, ?_, ?_, ?_, by rw [← hn]; exact h1, ?_, ?_, ?_⟩
    · simp [roundBound, hb, idx, hp, bind, Except.bind, hq']
    · cases hq; rfl
    · cases hq; simp [hn]
    · cases hq; rfl
    · cases hq; rfl
    · intro t ht ht' j h0 hj
      rw [makePow_hit hb hq' ht h0 (by rw [hn]; exact hj)]
      unfold extCost
      split_ifs with hjm
      · exact hhit t ht ht' j h0 hjm
      · obtain ⟨out, ho⟩ := hhit t ht ht' m hm.le le_rfl
        rw [ho]
        exact ⟨out, rfl⟩

theorem cap_one (m : ℤ) : cap m 1 = m := by unfold cap; omega

/-- The whole search, with and without convexity. -/
theorem graphSearch_main {p : SSCO ℤ C D} {m : ℤ} {β : ℚ} (hd : p.d = 1) (hb : p.bounds = [m])
    (hs : p.switchingCost = [β]) (hm : 0 < m) (hβ : 0 < β) (hT : 0 ≤ p.tEnd) (xStart : ℤ) (hx : xStart ≤ m)
    (o : OfflineOptions) (hl : o.l = none) (hα : 0 ≤ o.alpha) {g : Int → ℤ → ECost}
    (hhit : ∀ t : Int, 1 ≤ t → t ≤ p.tEnd → ∀ j, 0 ≤ j → j ≤ m →
      ∃ out, p.toProb.hitCost t [j] = .ok ⟨g t j, out⟩)
    (hfin : ∀ t : Int, 1 ≤ t → t ≤ p.tEnd → g t m ≠ ⊤)
    (hnn : ∀ t : Int, 1 ≤ t → t ≤ p.tEnd → 0 ≤ g t m) :
    ∃ P js, optimalGraphSearch p xStart o = .ok P ∧ P.xs = js.map (fun j => [j]) ∧
      (js.length : Int) = p.tEnd ∧ (∀ j ∈ js, 0 ≤ j ∧ j ≤ m) ∧
      P.cost = Spec.totalCost g (mv1 β o.inverted) o.alpha 1 xStart js ∧ P.cost ≠ ⊤ ∧
      ((∀ t : Int, 1 ≤ t → t ≤ p.tEnd → ∀ j, 0 ≤ j → j ≤ m → 0 ≤ g t j) →
        (∀ t : Int, 1 ≤ t → t ≤ p.tEnd → Spec.ConvexOnE m (g t)) →
        ∀ ks : List ℤ, (ks.length : Int) = p.tEnd → (∀ k ∈ ks, 0 ≤ k ∧ k ≤ m) →
          P.cost ≤ Spec.totalCost g (mv1 β o.inverted) o.alpha 1 xStart ks ∧
          (Spec.totalCost g (mv1 β o.inverted) o.alpha 1 xStart ks ≤ P.cost → Low.Below js ks)) := by
  obtain ⟨q, n, q1, q2, q3, q4, q5, q6, q7⟩ := round_ok hb hm hhit
  obtain ⟨T, hT'⟩ : ∃ T : Nat, p.tEnd = T := ⟨p.tEnd.toNat, by omega⟩
  have hnn' : 0 ≤ o.alpha * β := mul_nonneg hα hβ.le
  rw [hT'] at hhit hfin hnn q7 ⊢
  have S : Setup q o.inverted T m (2 ^ n) g (mv1 β o.inverted) o.alpha
      (if o.inverted then 0 else o.alpha * β) (if o.inverted then o.alpha * β else 0) xStart :=
    { tEnd := q5.trans hT'
      hit := q7
      mov := movement_one (by rw [q6, hs]) _
      hmv := mv1_mvAB _ _ _
      ha := by split_ifs <;> simp [hnn']
      hb := by split_ifs <;> simp [hnn']
      hm := hm
      mM := q4
      fin := hfin
      nonneg := hnn
      start := hx }
  obtain ⟨P, js, h1, h2, h3, h4, h5⟩ := search_feas S
  have hjs : ∀ j ∈ js, 0 ≤ j ∧ j ≤ m := fun j hj => ⟨h4.on.lo j hj, by
    have := h4.cap j hj; rwa [cap_one] at this⟩
  have conv : ∀ ks : List ℤ, (∀ k ∈ ks, 0 ≤ k ∧ k ≤ m) →
      Spec.totalCost (extCost g m) (mv1 β o.inverted) o.alpha 1 xStart ks
        = Spec.totalCost g (mv1 β o.inverted) o.alpha 1 xStart ks := fun ks hk =>
    totalCost_congr _ _ _ fun s _ _ x hx => ext_le (hk x hx).2
  refine ⟨P, js, ?_, h2, by rw [h4.on.len], hjs, by rw [h3, conv js hjs], ?_, ?_⟩
  · simp [optimalGraphSearch, assertR, hl, hd, q1, q3, idx, bind, Except.bind, h1]
  · rw [h3]; exact (totalCost_ne_top _ _ _ _ _).2 h4.fin
  · intro hnonneg hconv ks hk hk'
    rw [h3, ← conv ks hk']
    have on : OnMult T (2 ^ n) 1 ks := ⟨by omega, by simp, fun k hk => (hk' k hk).1, fun k hk =>
      (hk' k hk).2.trans q4⟩
    obtain ⟨h6, h7⟩ := h5 ⟨hm, hfin, hnonneg, hconv⟩
    exact ⟨h6 ks on, h7 ks on⟩

end Uni

/-! ## C16 -/

/-- **C16**. On every one-dimensional instance accepted by `verify` whose costs at the upper bound are
finite and non-negative (convex or not), from every start not above the bound and in both directions, the
search returns one configuration per slot within the *original* bound, and reports the objective of that
schedule. -/
theorem C16_feasible_true_cost (p : SSCO ℤ C D) (hv : p.verify = .ok ()) (hd : p.d = 1) (m : ℤ)
    (hb : p.bounds = [m]) (xStart : ℤ) (hx : xStart ≤ m) (o : OfflineOptions) (hl : o.l = none)
    (hα : 0 ≤ o.alpha) (g : Int → ℤ → ECost)
    (hhit : ∀ t : Int, 1 ≤ t → t ≤ p.tEnd → ∀ j, 0 ≤ j → j ≤ m →
      ∃ out, p.toProb.hitCost t [j] = .ok ⟨g t j, out⟩)
    (hfin : ∀ t : Int, 1 ≤ t → t ≤ p.tEnd → g t m ≠ ⊤)
    (hnn : ∀ t : Int, 1 ≤ t → t ≤ p.tEnd → 0 ≤ g t m) :
    ∃ P, Uni.optimalGraphSearch p xStart o = .ok P ∧ (P.xs.length : Int) = p.tEnd ∧
      (∀ x ∈ P.xs, Spec.InBox p.bounds x) ∧ P.cost ≠ ⊤ ∧
      ∃ out, p.toProb.objectiveWithDefault' P.xs [xStart] o.alpha o.inverted p.tEnd
        = .ok ⟨P.cost, out⟩ := by
  obtain ⟨m', β, hb', hs, hm, hβ, hT⟩ := valid_one hv hd
  have : m' = m := by rw [hb] at hb'; simpa using hb'.symm
  subst this
  obtain ⟨P, js, h1, h2, h3, h4, h5, h6, _⟩ := graphSearch_main hd hb hs hm hβ hT xStart hx o hl hα hhit
    hfin hnn
  refine ⟨P, h1, by rw [h2]; simpa using h3, ?_, h6, ?_⟩
  · intro x hx
    rw [h2] at hx
    obtain ⟨j, hj, rfl⟩ := List.mem_map.1 hx
    rw [hb]
    exact List.Forall₂.cons (h4 j hj) List.Forall₂.nil
  · obtain ⟨out, ho⟩ := objective_one hs (Q := fun j => 0 ≤ j ∧ j ≤ m')
      (fun t h1 h2 j hj => hhit t h1 h2 j hj.1 hj.2) o.alpha o.inverted xStart js h3 h4
    exact ⟨out, by rw [h2, h5]; exact ho⟩

/-! ## C17 -/

/-- **C17**. If the hitting costs are moreover non-negative and convex on `0..m`, the returned schedule has
the smallest objective (from `xStart`, α-unfair, inverted if requested) of all integral schedules within the
bounds. -/
theorem C17_optimal (p : SSCO ℤ C D) (hv : p.verify = .ok ()) (hd : p.d = 1) (m : ℤ)
    (hb : p.bounds = [m]) (xStart : ℤ) (hx : xStart ≤ m) (o : OfflineOptions) (hl : o.l = none)
    (hα : 0 ≤ o.alpha) (g : Int → ℤ → ECost)
    (hhit : ∀ t : Int, 1 ≤ t → t ≤ p.tEnd → ∀ j, 0 ≤ j → j ≤ m →
      ∃ out, p.toProb.hitCost t [j] = .ok ⟨g t j, out⟩)
    (hfin : ∀ t : Int, 1 ≤ t → t ≤ p.tEnd → g t m ≠ ⊤)
    (hnn : ∀ t : Int, 1 ≤ t → t ≤ p.tEnd → ∀ j, 0 ≤ j → j ≤ m → 0 ≤ g t j)
    (hconv : ∀ t : Int, 1 ≤ t → t ≤ p.tEnd → Spec.ConvexOnE m (g t)) :
    ∃ P, Uni.optimalGraphSearch p xStart o = .ok P ∧ (P.xs.length : Int) = p.tEnd ∧
      (∀ x ∈ P.xs, Spec.InBox p.bounds x) ∧
      (∃ out, p.toProb.objectiveWithDefault' P.xs [xStart] o.alpha o.inverted p.tEnd
        = .ok ⟨P.cost, out⟩) ∧
      ∀ ys : Schedule ℤ, (ys.length : Int) = p.tEnd → (∀ y ∈ ys, Spec.InBox p.bounds y) →
        ∃ c, p.toProb.objectiveWithDefault' ys [xStart] o.alpha o.inverted p.tEnd = .ok c ∧
          P.cost ≤ c.cost := by
  obtain ⟨m', β, hb', hs, hm, hβ, hT⟩ := valid_one hv hd
  have : m' = m := by rw [hb] at hb'; simpa using hb'.symm
  subst this
  have hnm := fun t h1 h2 => hnn t h1 h2 m' hm.le le_rfl
  obtain ⟨P', a1, a2, a3, _, a5⟩ := C16_feasible_true_cost p hv hd m' hb xStart hx o hl hα g hhit hfin hnm
  obtain ⟨P, js, h1, _, _, _, _, _, h7⟩ := graphSearch_main hd hb hs hm hβ hT xStart hx o hl hα hhit
    hfin hnm
  rw [a1] at h1; cases h1
  refine ⟨P', a1, a2, a3, a5, fun ys y1 y2 => ?_⟩
  obtain ⟨ks, rfl, hk⟩ := exists_seq (m := m') ys (by rw [hb] at y2; exact y2)
  obtain ⟨out, ho⟩ := objective_one hs (Q := fun j => 0 ≤ j ∧ j ≤ m')
    (fun t h1 h2 j hj => hhit t h1 h2 j hj.1 hj.2) o.alpha o.inverted xStart ks (by simpa using y1) hk
  exact ⟨_, ho, (h7 hnn hconv ks (by simpa using y1) hk).1⟩

/-! ## C18 -/

/-- **C18**. `make_pow_of_2` keeps dimension, horizon, switching cost and all costs up to the old bound
`m`; the new bound is a power of two in `[m, 2m)`; every state above `m` is strictly more expensive than
`m` if the latter has a finite non-negative cost. -/
theorem C18_make_pow_of_2 (p : SSCO ℤ C D) (m : ℤ) (hb : p.bounds = [m]) (hm : 0 < m) :
    ∃ q M, makePowOf2 p = .ok q ∧ q.d = p.d ∧ q.tEnd = p.tEnd ∧ q.switchingCost = p.switchingCost ∧
      q.bounds = [M] ∧ (∃ k : Nat, M = 2 ^ k) ∧ m ≤ M ∧ M < 2 * m ∧
      (∀ t : Int, 1 ≤ t → ∀ j, 0 ≤ j → j ≤ m → q.toProb.hitCost t [j] = p.toProb.hitCost t [j]) ∧
      (∀ t : Int, 1 ≤ t → ∀ j, m < j → j ≤ M → ∀ c, p.toProb.hitCost t [m] = .ok c → c.cost ≠ ⊤ →
        0 ≤ c.cost → ∃ c', q.toProb.hitCost t [j] = .ok c' ∧ c.cost < c'.cost) := by
  obtain ⟨q, hq⟩ : ∃ q, makePowOf2 p = .ok q := by simp [makePowOf2, hb, idx, bind, Except.bind]
  obtain ⟨h1, h2, h3⟩ := powBound_spec hm
  have hq' := hq
  simp only [makePowOf2, hb, idx, bind, Except.bind, List.getElem?_cons_zero] at hq
  refine ⟨q, powBound m, hq', by cases hq; rfl, by cases hq; rfl, by cases hq; rfl, by cases hq; rfl, h1,
    h2, h3, ?_, ?_⟩
  · intro t ht j h0 hj
    rw [makePow_hit hb hq' ht h0 (hj.trans h2), if_pos hj]
  · intro t ht j hj hjM c hc hfin hnn
    rw [makePow_hit hb hq' ht (by omega) hjM, if_neg (by omega), hc]
    refine ⟨_, rfl, ?_⟩
    obtain ⟨a, ha⟩ := WithTop.ne_top_iff_exists.1 hfin
    rw [← ha] at hnn
    have ha0 : (0 : ℚ) ≤ a := by exact_mod_cast hnn
    have heps := epsilon_pos
    have hj1 : (1 : ℚ) ≤ j := by exact_mod_cast (by omega : (1 : ℤ) ≤ j)
    simp only [← ha]
    show ((a : ℚ) : ECost) < ((j * (a + epsilon) : ℚ) : ECost)
    rw [WithTop.coe_lt_coe]
    nlinarith

/-- **C18** (use). The search rounds the bound exactly if it is not a power of two. -/
theorem C18_rounding_used (p : SSCO ℤ C D) (m : ℤ) (hb : p.bounds = [m]) (hm : 0 < m) :
    ((∃ k : Nat, m = 2 ^ k) → roundBound p = .ok p) ∧
    ((¬ ∃ k : Nat, m = 2 ^ k) → roundBound p = makePowOf2 p) := by
  have key : (∃ k : Nat, m = 2 ^ k) ↔ isPowOf2 m.toNat = true := by
    rw [C13_is_pow_of_2]
    constructor
    · rintro ⟨k, rfl⟩
      refine ⟨k, ?_⟩
      rw [show ((2 : ℤ) ^ k) = ((2 ^ k : Nat) : ℤ) by push_cast; rfl]; exact Int.toNat_natCast _
    · rintro ⟨k, hk⟩
      refine ⟨k, ?_⟩
      have : ((2 ^ k : Nat) : ℤ) = 2 ^ k := by push_cast; rfl
      omega
  rw [key]
  constructor <;> intro h <;> simp [roundBound, hb, idx, bind, Except.bind, h]

/-! ## C23 -/

/-- **C23** (uni-dimensional). Started from zero with the `inverted` option and `α = 1`, the search
minimises the inverted objective. -/
theorem C23_uni_inverted_partial (p : SSCO ℤ C D) (hv : p.verify = .ok ()) (hd : p.d = 1) (m : ℤ)
    (hb : p.bounds = [m]) (g : Int → ℤ → ECost)
    (hhit : ∀ t : Int, 1 ≤ t → t ≤ p.tEnd → ∀ j, 0 ≤ j → j ≤ m →
      ∃ out, p.toProb.hitCost t [j] = .ok ⟨g t j, out⟩)
    (hfin : ∀ t : Int, 1 ≤ t → t ≤ p.tEnd → g t m ≠ ⊤)
    (hnn : ∀ t : Int, 1 ≤ t → t ≤ p.tEnd → ∀ j, 0 ≤ j → j ≤ m → 0 ≤ g t j)
    (hconv : ∀ t : Int, 1 ≤ t → t ≤ p.tEnd → Spec.ConvexOnE m (g t)) :
    ∃ P, Uni.optimalGraphSearch p 0 ⟨true, 1, none⟩ = .ok P ∧
      (∃ out, p.toProb.invertedObjective P.xs = .ok ⟨P.cost, out⟩) ∧
      ∀ ys : Schedule ℤ, (ys.length : Int) = p.tEnd → (∀ y ∈ ys, Spec.InBox p.bounds y) →
        ∃ c, p.toProb.invertedObjective ys = .ok c ∧ P.cost ≤ c.cost := by
  obtain ⟨m', _, hb', _, hm, _⟩ := valid_one hv hd
  have : m' = m := by rw [hb] at hb'; simpa using hb'.symm
  subst this
  obtain ⟨P, h1, _, _, h4, h5⟩ := C17_optimal p hv hd m' hb 0 hm.le ⟨true, 1, none⟩ rfl (by norm_num) g
    hhit hfin hnn hconv
  have e : p.toProb.defaultConfig = [0] := by
    simp [Prob.defaultConfig, SSCO.toProb, hd, Config.repeat]
  refine ⟨P, h1, ?_, ?_⟩
  · simp only [Prob.invertedObjective, e]; exact h4
  · simp only [Prob.invertedObjective, e]; exact h5

/-! ## Examples -/

theorem Ex.ssco1_hit (t : Int) (ht : 1 ≤ t) (j : ℤ) (h0 : 0 ≤ j) (hj : j ≤ 5) :
    ∃ out, Ex.ssco1.toProb.hitCost t [j] = .ok ⟨(((|j - t| : ℤ) : ℚ) : ECost), out⟩ := by
  rw [hit_within (p := Ex.ssco1) rfl h0 hj, Ex.ssco1, CostFn.callMean_certain _ _ ht]
  exact ⟨_, rfl⟩

/-- C16 and C17 apply to `Ex.ssco1`: bound 5, not a power of two, costs `|x - t|`. -/
example (inverted : Bool) := C17_optimal Ex.ssco1 (by decide +kernel) rfl 5 rfl 2 (by omega)
  ⟨inverted, 3, none⟩ rfl (by norm_num) (fun t j => (((|j - t| : ℤ) : ℚ) : ECost))
  (fun t h1 _ j h0 hj => Ex.ssco1_hit t h1 j h0 hj) (fun _ _ _ => WithTop.coe_ne_top)
  (fun t _ _ j _ _ => by
    have : (0 : ℚ) ≤ ((|j - t| : ℤ) : ℚ) := by exact_mod_cast abs_nonneg _
    exact_mod_cast this)
  (by
    intro t _ _ x y z _ h1 h2 _ a c ha hc
    refine ⟨_, rfl, ?_⟩
    have ha' : a = |(x : ℚ) - t| := by have := WithTop.coe_injective ha; push_cast at this; exact this.symm
    have hc' : c = |(z : ℚ) - t| := by have := WithTop.coe_injective hc; push_cast at this; exact this.symm
    subst ha' hc'
    have q1 : (x : ℚ) < y := by exact_mod_cast h1
    have q2 : (y : ℚ) < z := by exact_mod_cast h2
    push_cast
    rcases abs_cases ((y : ℚ) - t) with ⟨e, _⟩ | ⟨e, _⟩ <;> rw [e]
    · have := le_abs_self ((x : ℚ) - t); have := le_abs_self ((z : ℚ) - t); nlinarith
    · have := neg_abs_le ((x : ℚ) - t); have := neg_abs_le ((z : ℚ) - t); nlinarith)

theorem Ex.powBound_five : powBound 5 = 8 := by
  have : Nat.clog 2 5 = 3 := by
    have h1 : Nat.clog 2 5 ≤ 3 := Nat.clog_le_of_le_pow (by norm_num)
    have h2 : 2 < Nat.clog 2 5 := (Nat.lt_clog_iff_pow_lt (by omega)).2 (by norm_num)
    omega
  simp [powBound, this]

theorem Ex.kInit_eight : kInit 8 = 1 := by
  have : Nat.log 2 8 = 3 := Nat.log_pow (b := 2) (by omega) 3
  simp [kInit, this]

/-- The result on `Ex.ssco1`. -/
example : (Uni.optimalGraphSearch Ex.ssco1 0 ⟨false, 1, none⟩).map (fun r => (r.xs, r.cost))
    = .ok ([[1], [2], [2], [2]], 7) := by
  have e : ∀ q : SSCO ℤ Unit Unit, search q 8 1 false 0 = (do
      let path ← findSchedule q (fun _ => .ok (initialRows 8)) 1 false 0
      (List.range 1).reverse.foldlM
        (fun path k => findSchedule q (nextRows 8 path.xs k) 1 false 0) path) := by
    intro q
    simp only [search, Ex.kInit_eight]
  have e2 : roundBound Ex.ssco1 = .ok
    { d := 1
      tEnd := 4
      bounds := [8]
      switchingCost := [2]
      hittingCost := CostFn.new 1 (SingleCostFn.certain (extendedHit Ex.ssco1 5)) } := by
    rw [(C18_rounding_used Ex.ssco1 5 rfl (by omega)).2]
    · simp only [makePowOf2, Ex.ssco1, idx, bind, Except.bind, List.getElem?_cons_zero, Ex.powBound_five]
    · rintro ⟨k, hk⟩
      have : isPowOf2 5 = true := (C13_is_pow_of_2 5).2 ⟨k, by exact_mod_cast hk⟩
      revert this; decide
  simp only [Uni.optimalGraphSearch, e2, bind, Except.bind, idx, List.getElem?_cons_zero, e]
  decide +kernel

end Soco
