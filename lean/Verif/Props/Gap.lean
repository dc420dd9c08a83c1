import Verif.Lemmas.Gap
import Verif.Spec.Gap
import Verif.Props.Ties
import Verif.Props.LazyOne
import Verif.Props.Planning

/-!
# C118: idle servers are kept exactly as long as keeping them is cheaper than switching
-/

namespace Soco
open Uni Lb

namespace Gap

theorem kept_iff {K : Nat → Prop} (hK : ∀ n, K (n + 1) → K n) (ls : List ℤ) (j k : Nat) (hk : k < ls.length) :
    (bridge K false (lane j ls)).getD k false = true ↔ Spec.Kept K ls ((j : ℤ) + 1) k := by
  rw [bridge_iff K hK _ _ _ (by simpa [lane] using hk), lane_getD]
  unfold Spec.Kept
  refine or_congr (by omega) ?_
  constructor
  · rintro ⟨b, h1, h2, h3⟩
    rcases h3 with ⟨h3, _⟩ | ⟨a, h3, h4, h5⟩
    · cases h3
    · rw [lane_getD] at h2 h4
      refine ⟨a, b, h3, h1, ?_, by omega, by omega, h5⟩
      by_contra hb
      rw [List.getD_eq_default _ _ (by omega)] at h2
      omega
  · rintro ⟨a, b, h1, h2, h3, h4, h5, h6⟩
    exact ⟨b, h2, by rw [lane_getD]; omega, .inr ⟨a, h1, by rw [lane_getD]; omega, h6⟩⟩

theorem lt_down {c β : ℚ} (hc : 0 < c) (n : Nat) (h : ((n + 1 : Nat) : ℚ) * c < β) : (n : ℚ) * c < β := by
  push_cast at h; linarith

theorem le_down {c β : ℚ} (hc : 0 < c) (n : Nat) (h : ((n + 1 : Nat) : ℚ) * c ≤ β) : (n : ℚ) * c ≤ β := by
  push_cast at h; linarith

section
variable {c β : ℚ} (hc : 0 < c) (hβ : 0 ≤ β) {m : Nat} {ls : List ℤ}
include hc hβ

/-- What is true of every cheapest sequence. -/
theorem cheapest {ys : List ℤ} (h : List.Forall₂ (· ≤ ·) ls ys) (hy : ∀ y ∈ ys, 0 ≤ y ∧ y ≤ m)
    (hopt : lineCost c β 0 ys ≤ lineCost c β 0 (plan c β m ls)) (v : ℤ) (k : Nat) (hv : 1 ≤ v) (hvm : v ≤ m) (hk : k < ls.length) :
    (Spec.Kept (fun n => (n : ℚ) * c < β) ls v k → v ≤ ys.getD k 0) ∧
    (v ≤ ys.getD k 0 → Spec.Kept (fun n => (n : ℚ) * c ≤ β) ls v k) := by
  obtain ⟨j, rfl⟩ : ∃ j : Nat, v = j + 1 := ⟨(v - 1).toNat, by omega⟩
  have hl := lanes_least hc hβ h hy hopt j (by omega)
  constructor
  · intro hK
    have := stays hc hβ _ _ false false id (lanes_cover h j) hl k ((kept_iff (lt_down hc) ls j k hk).2 hK)
    rw [lane_getD] at this
    omega
  · intro hy
    exact (kept_iff (le_down hc) ls j k hk).1
      (leaves hc hβ _ _ false false id (lanes_cover h j) hl k (by rw [lane_getD]; omega))

/-- What is true of the lowest cheapest sequence. -/
theorem lowest {ys : List ℤ} (h : List.Forall₂ (· ≤ ·) ls ys) (hy : ∀ y ∈ ys, 0 ≤ y ∧ y ≤ m)
    (hopt : lineCost c β 0 ys ≤ lineCost c β 0 (plan c β m ls)) (hlow : List.Forall₂ (· ≤ ·) ys (plan c β m ls))
    (v : ℤ) (k : Nat) (hv : 1 ≤ v) (hvm : v ≤ m) (hk : k < ls.length) :
    v ≤ ys.getD k 0 ↔ Spec.Kept (fun n => (n : ℚ) * c < β) ls v k := by
  refine ⟨fun hle => ?_, (cheapest hc hβ h hy hopt v k hv hvm hk).1⟩
  obtain ⟨j, rfl⟩ : ∃ j : Nat, v = j + 1 := ⟨(v - 1).toNat, by omega⟩
  have hky : k < ys.length := by rw [← h.length_eq]; exact hk
  have hyk := hy ys[k] (List.getElem_mem hky)
  have hp := plan_getD c β m ls hk
  have hyp : ys.getD k 0 ≤ (plan c β m ls).getD k 0 := by
    have hkp : k < (plan c β m ls).length := by rw [plan_length]; exact hk
    rw [List.getD_eq_getElem _ _ hky, List.getD_eq_getElem _ _ hkp]
    exact (List.forall₂_iff_get.1 hlow).2 k hky hkp
  rw [← kept_iff (lt_down hc) ls j k hk]
  refine count_eq m (a := fun j => (bridge (fun n => (n : ℚ) * c < β) false (lane j ls)).getD k false)
    (b := fun j : Nat => decide ((j : ℤ) < ys.getD k 0)) (fun i hi hb => ?_) ?_ j (by omega) (by rw [decide_eq_true_eq]; omega)
  · have := (cheapest hc hβ h hy hopt ((i : ℤ) + 1) k (by omega) (by omega) hk).1 ((kept_iff (lt_down hc) ls i k hk).1 hb)
    simp only [decide_eq_true_eq]
    omega
  · show count m _ ≤ count m _
    rw [count_threshold m (by rw [List.getD_eq_getElem _ _ hky]; exact hyk.1) (by rw [List.getD_eq_getElem _ _ hky]; exact hyk.2),
      ← hp]
    exact hyp

end

theorem kept_bound {K : Nat → Prop} {ls : List ℤ} {m v : ℤ} {k : Nat} (hm : ∀ l ∈ ls, l ≤ m) (hk : k < ls.length)
    (h : Spec.Kept K ls v k) : v ≤ m := by
  rcases h with h | ⟨i, j, h1, h2, h3, _, h5, _⟩
  · rw [List.getD_eq_getElem _ _ hk] at h
    exact h.trans (hm _ (List.getElem_mem hk))
  · rw [List.getD_eq_getElem _ _ h3] at h5
    exact h5.trans (hm _ (List.getElem_mem h3))

/-- Hitting costs of slots in which `need` servers are needed, each of which costs `c`. -/
def needCost (c : ℚ) (need : List ℤ) (base : Int → ℚ) (t : Int) (j : ℤ) : ECost :=
  if j < need.getD (t - 1).toNat 0 then ⊤ else ((c * j + base t : ℚ) : ECost)

/-- Costs that do not depend on the schedule. -/
def baseSum (base : Int → ℚ) (t : Int) : Nat → ℚ
  | 0 => 0
  | n + 1 => base t + baseSum base (t + 1) n

theorem need_total (c β α : ℚ) (need : List ℤ) (base : Int → ℚ) : ∀ (vs : List ℤ) (t : Int) (prev : ℤ),
    (∀ (i : Nat) v, vs[i]? = some v → need.getD (t + i - 1).toNat 0 ≤ v) →
    Spec.totalCost (needCost c need base) (mv1 β false) α t prev vs =
      ((lineCost c (α * β) prev vs + baseSum base t vs.length : ℚ) : ECost)
  | [], _, _, _ => by simp [Spec.totalCost, lineCost, baseSum]
  | v :: vs, t, prev, h => by
    have h0 := h 0 v rfl
    have ih := need_total c β α need base vs (t + 1) v fun i u hu => by
      have := h (i + 1) u (by simpa using hu)
      rwa [show t + 1 + (i : Int) - 1 = t + ((i + 1 : Nat) : Int) - 1 by push_cast; omega]
    simp only [Nat.cast_zero, add_zero] at h0
    rw [Spec.totalCost, ih, needCost, if_neg (by omega), ← WithTop.coe_add, ← WithTop.coe_add, lineCost, List.length_cons, baseSum]
    congr 1
    simp only [mv1, Bool.false_eq_true, if_false]
    push_cast
    ring

theorem need_cover (c : ℚ) (mv : ℤ → ℤ → ℚ) (α : ℚ) (need : List ℤ) (base : Int → ℚ) (vs : List ℤ) (t : Int) (prev : ℤ)
    (h : Spec.totalCost (needCost c need base) mv α t prev vs ≠ ⊤) :
    ∀ (i : Nat) v, vs[i]? = some v → need.getD (t + i - 1).toNat 0 ≤ v := by
  intro i v hi
  have := totalCost_hit_ne_top _ _ _ _ _ _ h i v hi
  unfold needCost at this
  by_contra hc
  exact this (if_pos (by omega))

theorem need_convex {c : ℚ} (need : List ℤ) (base : Int → ℚ) (t : Int) (m : ℤ) : Spec.ConvexOnE m (needCost c need base t) := by
  intro x y z hx hxy hyz hz a b ha hb
  unfold needCost at ha hb ⊢
  by_cases h : x < need.getD (t - 1).toNat 0
  · rw [if_pos h] at ha; cases ha
  · rw [if_neg h] at ha
    rw [if_neg (by omega)] at hb ⊢
    refine ⟨_, rfl, ?_⟩
    obtain rfl := WithTop.coe_injective ha
    obtain rfl := WithTop.coe_injective hb
    apply le_of_eq
    ring

theorem cover_forall {need vs : List ℤ} (hl : vs.length = need.length) :
    (∀ (i : Nat) v, vs[i]? = some v → need.getD i 0 ≤ v) ↔ List.Forall₂ (· ≤ ·) need vs := by
  rw [List.forall₂_iff_get]
  constructor
  · intro h
    refine ⟨hl.symm, fun i h1 h2 => ?_⟩
    have := h i vs[i] (List.getElem?_eq_getElem h2)
    rwa [List.getD_eq_getElem _ _ h1] at this
  · rintro ⟨_, h⟩ i v hv
    obtain ⟨hi, rfl⟩ := List.getElem?_eq_some_iff.1 hv
    have hi' : i < need.length := by omega
    rw [List.getD_eq_getElem _ _ hi']
    exact h i hi' hi

end Gap

open Gap

variable {C D : Type} [OutSuccess C] [OutFailure D]

/-- **C118**. Let every active server cost `c` in each slot, and let `need` be the number of servers needed in each slot. The
one-dimensional graph search plans at least `v` servers in a slot exactly if they are needed there, or if the slot lies
between two slots in which they are needed and keeping a server active from one to the other costs less than switching it
(`α * β`). -/
theorem C118_plan (p : SSCO ℤ C D) (hv : p.verify = .ok ()) (hd : p.d = 1) (m : ℤ) (hb : p.bounds = [m]) (β : ℚ)
    (hs : p.switchingCost = [β]) (c : ℚ) (hc : 0 < c) (need : List ℤ) (hn : (need.length : Int) = p.tEnd)
    (hm : ∀ l ∈ need, l ≤ m) (base : Int → ℚ) (h0 : ∀ t : Int, 1 ≤ t → t ≤ p.tEnd → 0 ≤ base t)
    (hit : ∀ t : Int, 1 ≤ t → t ≤ p.tEnd → ∀ j, 0 ≤ j → j ≤ m → ∃ out, p.toProb.hitCost t [j] =
      .ok ⟨if j < need.getD (t - 1).toNat 0 then ⊤ else ((c * j + base t : ℚ) : ECost), out⟩)
    (o : OfflineOptions) (hl : o.l = none) (hα : 0 ≤ o.alpha) (hi : o.inverted = false) :
    ∃ (P : Path) (vs : List ℤ), Uni.optimalGraphSearch p 0 o = .ok P ∧ P.xs = vs.map (fun v => [v]) ∧ vs.length = need.length ∧
      ∀ (v : ℤ) (k : Nat), 1 ≤ v → k < need.length →
        (v ≤ vs.getD k 0 ↔ Spec.Kept (fun n => (n : ℚ) * c < o.alpha * β) need v k) := by
  obtain ⟨m', β', hb', hs', m0, β0, hT⟩ := valid_one hv hd
  have e1 : m' = m := by rw [hb] at hb'; simpa using hb'.symm
  have e2 : β' = β := by rw [hs] at hs'; simpa using hs'.symm
  subst e1 e2
  have hαβ : 0 ≤ o.alpha * β' := mul_nonneg hα β0.le
  have hfin : ∀ t : Int, 1 ≤ t → t ≤ p.tEnd → needCost c need base t m' ≠ ⊤ := fun t h1 h2 => by
    unfold needCost
    have hk : (t - 1).toNat < need.length := by omega
    rw [if_neg (by rw [List.getD_eq_getElem _ _ hk]; have := hm _ (List.getElem_mem hk); omega)]
    exact WithTop.coe_ne_top
  have hnn : ∀ t : Int, 1 ≤ t → t ≤ p.tEnd → ∀ j, 0 ≤ j → j ≤ m' → 0 ≤ needCost c need base t j := fun t h1 h2 j j0 _ => by
    unfold needCost
    split
    · exact le_top
    · have : (0 : ℚ) ≤ j := by exact_mod_cast j0
      have := h0 t h1 h2
      exact_mod_cast (by positivity : (0 : ℚ) ≤ c * j + base t)
  have hconv : ∀ t : Int, 1 ≤ t → t ≤ p.tEnd → Spec.ConvexOnE m' (needCost c need base t) := fun t _ _ => need_convex need base t m'
  obtain ⟨P, r1, r2, r3, ⟨out, r5⟩, r6⟩ := C17_optimal p hv hd m' hb 0 m0.le o hl hα (needCost c need base) hit hfin hnn hconv
  obtain ⟨P', q1, q2⟩ := C100_lowest_optimum p hv hd m' hb 0 m0.le o hl hα (needCost c need base) hit hfin hnn hconv
  rw [r1] at q1
  obtain rfl := Except.ok.inj q1
  obtain ⟨vs, hvs, hbox⟩ := exists_seq (m := m') P.xs (by rw [hb] at r3; exact r3)
  have hlen : vs.length = need.length := by rw [hvs] at r2; simp at r2; omega
  have obj : ∀ ys : List ℤ, ys.length = need.length → (∀ y ∈ ys, 0 ≤ y ∧ y ≤ m') → ∃ out,
      p.toProb.objectiveWithDefault' (ys.map fun j => [j]) [0] o.alpha o.inverted p.tEnd =
        .ok ⟨Spec.totalCost (needCost c need base) (mv1 β' false) o.alpha 1 0 ys, out⟩ := fun ys y1 y2 => by
    have := objective_one hs (Q := fun j => 0 ≤ j ∧ j ≤ m') (fun t h1 h2 j hj => hit t h1 h2 j hj.1 hj.2) o.alpha o.inverted 0 ys
      (by omega) y2
    rw [hi] at this ⊢
    exact this
  obtain ⟨m, rfl⟩ : ∃ n : Nat, m' = n := ⟨m'.toNat, by omega⟩
  have pl := plan_length c (o.alpha * β') m need
  have pb := plan_box c (o.alpha * β') m need
  have pc := plan_cover (c := c) (β := o.alpha * β') hm
  have idx1 : ∀ i : Nat, ((1 : Int) + i - 1).toNat = i := fun i => by omega
  have ptot := need_total c β' o.alpha need base (plan c (o.alpha * β') m need) 1 0 (by
    simp only [idx1]
    exact (cover_forall pl).2 pc)
  have pobj := obj _ pl pb
  obtain ⟨pout, pobj⟩ := pobj
  have vobj := obj vs hlen hbox
  obtain ⟨vout, vobj⟩ := vobj
  have pcost : P.cost = Spec.totalCost (needCost c need base) (mv1 β' false) o.alpha 1 0 vs := by
    rw [hvs, vobj] at r5
    exact (congrArg Cost.cost (Except.ok.inj r5)).symm
  have ple : P.cost ≤ Spec.totalCost (needCost c need base) (mv1 β' false) o.alpha 1 0 (plan c (o.alpha * β') m need) := by
    obtain ⟨z, z1, z2⟩ := r6 ((plan c (o.alpha * β') m need).map fun j => [j]) (by rw [List.length_map, pl]; exact hn) (by
      rw [hb]
      intro y hy
      obtain ⟨j, hj, rfl⟩ := List.mem_map.1 hy
      exact .cons (pb j hj) .nil)
    rw [pobj] at z1
    obtain rfl := Except.ok.inj z1
    exact z2
  have vcov : List.Forall₂ (· ≤ ·) need vs := by
    refine (cover_forall hlen).1 ?_
    have := need_cover c (mv1 β' false) o.alpha need base vs 1 0 (by
      rw [← pcost]
      intro htop
      rw [htop, ptot] at ple
      exact absurd ple (by simp))
    simpa only [idx1] using this
  have vtot := need_total c β' o.alpha need base vs 1 0 (by
    simp only [idx1]
    exact (cover_forall hlen).2 vcov)
  have hopt : lineCost c (o.alpha * β') 0 vs ≤ lineCost c (o.alpha * β') 0 (plan c (o.alpha * β') m need) := by
    rw [pcost, vtot, ptot, hlen, pl] at ple
    have := WithTop.coe_le_coe.1 ple
    linarith
  have hlow : List.Forall₂ (· ≤ ·) vs (plan c (o.alpha * β') m need) := by
    have := q2 ((plan c (o.alpha * β') m need).map fun j => [j]) (by rw [List.length_map, pl]; exact hn) (by
      rw [hb]
      intro y hy
      obtain ⟨j, hj, rfl⟩ := List.mem_map.1 hy
      exact .cons (pb j hj) .nil) _ pobj (by
        show Spec.totalCost _ _ _ _ _ _ ≤ _
        rw [pcost, vtot, ptot, hlen, pl]
        have := plan_cheapest hc hαβ vcov hbox
        exact WithTop.coe_le_coe.2 (by linarith))
    rw [hvs, List.forall₂_map_left_iff, List.forall₂_map_right_iff] at this
    exact this.imp fun a b hab => by cases hab; assumption
  refine ⟨P, vs, r1, hvs, hlen, fun v k h1 hk => ?_⟩
  by_cases hvm : v ≤ m
  · exact lowest hc hαβ vcov hbox hopt hlow v k h1 hvm hk
  · constructor
    · intro h
      have hk' : k < vs.length := by omega
      rw [List.getD_eq_getElem _ _ hk'] at h
      have := (hbox _ (List.getElem_mem hk')).2
      omega
    · intro h
      exact absurd (kept_bound hm hk h) hvm

/-- **C118**. Solving a load problem with one type of servers: at least `v` servers are planned if they are needed, or in a
gap in which keeping a server costs less than powering it up again; and only if they are needed, or in a gap in which
keeping a server does not cost more. -/
theorem C118_load (S : Num.Solver) (hS : Spec.Shaped S) (hE : Spec.SolvesEmpty S) (p : SLO ℤ) (hv : p.verify = .ok ())
    (hd : p.d = 1) (m : ℤ) (hb : p.bounds = [m]) (c : ℚ) (hc : p.hittingCost = [c]) (h0 : 0 < c) (β : ℚ)
    (hs : p.switchingCost = [β]) (hT : 1 ≤ p.tEnd) (hload : ∀ l ∈ p.load, l ≤ m) :
    ∃ (vs : List ℤ) (cost : _), Offline.solveOptimalSLO S (.ok p) none .dflt = .ok (vs.map fun v => [v], cost) ∧
      (vs.length : Int) = p.tEnd ∧ ∀ (v : ℤ) (k : Nat), 1 ≤ v → (k : Int) < p.tEnd →
        (Spec.Kept (fun n => (n : ℚ) * c < β) (p.load.take p.tEnd.toNat) v k → v ≤ vs.getD k 0) ∧
        (v ≤ vs.getD k 0 → Spec.Kept (fun n => (n : ℚ) * c ≤ β) (p.load.take p.tEnd.toNat) v k) := by
  obtain ⟨xs, cost, s1, s2, s3, s4, s5, s6⟩ := Offline.C68_one_type_optimal S hS hE p hv hd m hb c hc h0 hT hload
  have one : OneType m c β p := ⟨hv, hd, hb, hc, hs, hload⟩
  obtain ⟨_, _, v3, _, v5, v6, v7, _⟩ := id one.valid
  have m0 : 0 < m := v6 m (by rw [hb]; simp)
  have β0 : 0 < β := v7 β (by rw [hs]; simp)
  obtain ⟨m, rfl⟩ : ∃ n : Nat, m = n := ⟨m.toNat, by omega⟩
  obtain ⟨hl, hbox⟩ := s2
  rw [hb] at hbox
  obtain ⟨vs, rfl, hvb⟩ := space_line hbox
  rw [List.length_map] at hl
  set need := p.load.take p.tEnd.toNat with hneed
  have hnl : need.length = vs.length := by rw [hneed, List.length_take]; omega
  have hnm : ∀ l ∈ need, l ≤ m := fun l hl => hload l (List.mem_of_mem_take hl)
  have hget : ∀ i, i < need.length → need.getD i 0 = p.load.getD i 0 := fun i hi => by
    have hi' : i < p.load.length := by rw [hneed, List.length_take] at hi; omega
    rw [List.getD_eq_getElem _ _ hi, List.getD_eq_getElem _ _ hi']
    exact List.getElem_take
  have pl := plan_length c β m need
  have pb := plan_box c β m need
  have pc := plan_cover (c := c) (β := β) hnm
  have vcov : List.Forall₂ (· ≤ ·) need vs := (cover_forall hnl.symm).1 fun i v hi => by
    have hi' : i < need.length := by rw [hnl]; exact (List.getElem?_eq_some_iff.1 hi).1
    have := s5 i [v] (by rw [List.getElem?_map, hi]; rfl)
    rw [hget i hi']
    simpa using this
  have tot : ∀ ys : List ℤ, List.Forall₂ (· ≤ ·) need ys → Spec.loadTotal p (ys.map fun v => [v]) = ((lineCost c β 0 ys : ℚ) : ECost) :=
    fun ys hy => loadTotal_line one ys fun i v hi => by
      have hi' : i < need.length := by rw [hy.length_eq]; exact (List.getElem?_eq_some_iff.1 hi).1
      rw [← hget i hi']
      exact (cover_forall hy.length_eq.symm).2 hy i v hi
  have hopt : lineCost c β 0 vs ≤ lineCost c β 0 (plan c β m need) := by
    have := s6 ((plan c β m need).map fun v => [v]) ⟨by rw [List.length_map, pl, hnl]; exact hl, by
      rw [hb]
      intro y hy
      obtain ⟨j, hj, rfl⟩ := List.mem_map.1 hy
      exact .cons (pb j hj) .nil⟩
    rw [s3, tot vs vcov, tot _ pc] at this
    exact WithTop.coe_le_coe.1 this
  refine ⟨vs, cost, s1, hl, fun v k h1 hk => ?_⟩
  have hk' : k < need.length := by omega
  by_cases hvm : v ≤ m
  · exact cheapest h0 β0.le vcov hvb hopt v k h1 hvm hk'
  · constructor
    · intro h
      exact absurd (kept_bound hnm hk' h) hvm
    · intro h
      have hk'' : k < vs.length := by omega
      rw [List.getD_eq_getElem _ _ hk''] at h
      have := (hvb _ (List.getElem_mem hk'')).2
      omega

/-- **C118**. A data center with one type of servers and jobs, a constant price of energy, energy consumption that is linear in
the utilisation, and no loss of revenue. The plan of the graph search has at least `v` servers in a slot exactly if they are
needed to process the jobs, or if the slot lies in a gap of fewer slots than the normalised switching cost reported by the
model, between two slots in which they are needed. -/
theorem C118_data_center (S : Num.Solver) (hS : Spec.SolvesEmpty S) (m : DataCenterModel) (F : Spec.Farm) (h : Spec.IsFarm m F)
    (hF : F.Valid) (loads : List ℚ) (hl : ∀ l ∈ loads, F.Carries l)
    -- the parameters
    (st : ServerType) (hst : m.serverTypes = [st]) (sc : SwitchingCost) (hsc : m.switchingModel st.key = some sc)
    (phiMax : ℚ) (hphi : sc.phiMin ≤ phiMax) (hpos : 0 < sc.phiMin)
    (hpow : ∀ u, 0 ≤ u → F.power u = m.delta * ((phiMax - sc.phiMin) * u + sc.phiMin))
    (hpr : ∀ t, 1 ≤ t → F.price t = sc.energyCost) (hγ : F.gamma = 0)
    -- the numbers of servers which are needed to process the jobs
    (need : List ℤ) (hneed : List.Forall₂ (fun l n => 0 ≤ n ∧ n ≤ F.servers ∧
      ∀ t (j : ℤ), 0 ≤ j → (F.slotCost t l j ≠ ⊤ ↔ n ≤ j)) loads need)
    (o : OfflineOptions) (ho : o.l = none) (hα : o.alpha = 1) (hi : o.inverted = false) :
    ∃ (vs : List ℤ) (cost : _), Offline.solveUni (m.toSSCO S (loads.map fun l => [l])) 0 o =
        .ok (vs.map fun v => [v], cost) ∧ vs.length = loads.length ∧
      ∀ (v : ℤ) (k : Nat), 1 ≤ v → k < loads.length →
        (v ≤ vs.getD k 0 ↔ Spec.Kept (fun n => (n : ℚ) < sc.normalized m.delta) need v k) := by
  obtain ⟨p, hp, hv, I, K, hobj⟩ := Planning.generated hS h hF loads hl
  have hdel : m.delta = F.slot ∧ sc.switchingCost = F.switching := by
    obtain ⟨loc, st', src, jt, _, h2, _, _, _, _, _, _, _, _, _, ⟨c', h3, h4⟩, h5⟩ := h
    rw [hst] at h2
    obtain rfl : st = st' := by simpa using h2
    rw [hsc] at h3
    obtain rfl := Option.some.inj h3
    exact ⟨h5, h4⟩
  obtain ⟨hdel, hsw⟩ := hdel
  have hpr1 : 0 < sc.energyCost := by rw [← hpr 1 le_rfl]; exact hF.price 1 le_rfl
  have hslot := hF.slot
  have hc : 0 < sc.energyCost * m.delta * sc.phiMin := by rw [hdel]; positivity
  have hlen : loads.length = need.length := hneed.length_eq
  have hget : ∀ k (hk : k < loads.length), 0 ≤ need.getD k 0 ∧ need.getD k 0 ≤ F.servers ∧
      ∀ t (j : ℤ), 0 ≤ j → (F.slotCost t (loads.getD k 0) j ≠ ⊤ ↔ need.getD k 0 ≤ j) := fun k hk => by
    have hk' : k < need.length := by omega
    rw [List.getD_eq_getElem _ _ hk, List.getD_eq_getElem _ _ hk']
    exact (List.forall₂_iff_get.1 hneed).2 k hk hk'
  obtain ⟨P, vs, r1, r2, r3, r4⟩ := C118_plan p hv I.d F.servers I.bounds F.switching I.switching _ hc need
    (by rw [I.tEnd, hlen]) (by
      intro n hn
      obtain ⟨k, hk, rfl⟩ := List.mem_iff_getElem.1 hn
      have := (hget k (by omega)).2.1
      rwa [List.getD_eq_getElem _ _ hk] at this)
    (fun t => sc.energyCost * (phiMax - sc.phiMin) * F.time * loads.getD (t - 1).toNat 0) (by
      intro t h1 h2
      have hk : (t - 1).toNat < loads.length := by rw [I.tEnd] at h2; omega
      have h3 : 0 ≤ loads.getD (t - 1).toNat 0 := by
        rw [List.getD_eq_getElem _ _ hk]
        exact (hl _ (List.getElem_mem hk)).1
      have h4 := hF.time
      have h5 : 0 ≤ phiMax - sc.phiMin := by linarith
      positivity)
    (by
      intro t h1 h2 j j0 jm
      rw [I.tEnd] at h2
      obtain ⟨out, hout⟩ := I.hit t h1 h2 j j0 jm
      refine ⟨out, hout.trans ?_⟩
      have hk : (t - 1).toNat < loads.length := by omega
      obtain ⟨g1, g2, g3⟩ := hget _ hk
      have g3 := g3 t j j0
      have hl0 : 0 ≤ loads.getD (t - 1).toNat 0 := by
        rw [List.getD_eq_getElem _ _ hk]
        exact (hl _ (List.getElem_mem hk)).1
      congr 2
      generalize loads.getD (t - 1).toNat 0 = l at *
      generalize need.getD (t - 1).toNat 0 = n at *
      by_cases hn : j < n
      · rw [if_pos hn]
        by_contra hc
        have := g3.1 hc
        omega
      · rw [if_neg hn]
        have hfin := g3.2 (by omega)
        unfold Spec.Farm.slotCost at hfin ⊢
        by_cases hj : (j : ℚ) ≤ 0
        · rw [if_pos hj] at hfin ⊢
          have : j = 0 := by
            have : j ≤ 0 := by exact_mod_cast hj
            omega
          subst this
          by_cases hl : l = 0
          · rw [if_pos hl, hl]
            simp
          · rw [if_neg hl] at hfin
            exact absurd rfl hfin
        · rw [if_neg hj] at hfin ⊢
          by_cases hu : F.use l j < 1 ∧ F.use l j ≤ F.maxUse
          · rw [if_pos hu]
            congr 1
            have hjp : (0 : ℚ) < j := not_le.1 hj
            have u0 : 0 ≤ F.use l j := div_nonneg (mul_nonneg hF.time hl0) (by positivity)
            rw [hγ, hpow _ u0, hpr t h1, hdel]
            unfold Spec.Farm.use
            field_simp
            ring
          · rw [if_neg hu] at hfin
            exact absurd rfl hfin)
    o ho (by rw [hα]; norm_num) hi
  have hdef : p.toProb.defaultConfig = [0] := by
    have : p.toProb.d = 1 := I.d
    unfold Prob.defaultConfig
    rw [this]
    rfl
  obtain ⟨P', q1, _, q3, ⟨out, q5⟩, _⟩ := C17_optimal p hv I.d F.servers I.bounds 0 K.hm.le o ho
    (by rw [hα]; norm_num) (fun t j => F.slotCost t (loads.getD (t - 1).toNat 0) j)
    (by rw [I.tEnd]; exact I.hit) (by rw [I.tEnd]; exact K.fin) (by rw [I.tEnd]; exact K.nonneg)
    (by rw [I.tEnd]; exact K.conv)
  rw [r1] at q1
  obtain rfl := Except.ok.inj q1
  have q5' : p.toProb.objective P.xs = .ok ⟨P.cost, out⟩ := by
    rw [hα, hi, ← hdef] at q5
    exact q5
  refine ⟨vs, _, (Offline.C67_solve_ok_iff _ _ _ _ _ _ _ _).2 ⟨p, P, hp, hv, r1, r2, r2 ▸ q5'⟩, by omega, fun v k h1 hk => ?_⟩
  rw [r4 v k h1 (by omega)]
  have hshort : (fun n : Nat => (n : ℚ) * (sc.energyCost * m.delta * sc.phiMin) < o.alpha * F.switching) =
      fun n : Nat => (n : ℚ) < sc.normalized m.delta := by
    funext n
    unfold SwitchingCost.normalized
    rw [lt_div_iff₀ hc, hα, one_mul, hsw]
  rw [hshort]

/-! ## Examples -/

/-- Five slots, in which three, no, one, no and two servers are needed. -/
def Ex.gaps : SSCO ℤ Unit Unit where
  d := 1
  tEnd := 5
  bounds := [3]
  switchingCost := [2]
  hittingCost := CostFn.new 1 (SingleCostFn.certain fun t x => .ok (Cost.raw
    (if x.getD 0 0 < ([3, 0, 1, 0, 2] : List ℤ).getD (t - 1).toNat 0 then ⊤ else ((1 * (x.getD 0 0 : ℚ) + 0 : ℚ) : ECost))))

example (o : OfflineOptions) (hl : o.l = none) (hα : 0 ≤ o.alpha) (hi : o.inverted = false) :=
  C118_plan Ex.gaps (by decide +kernel) rfl 3 rfl 2 rfl 1 (by norm_num) [3, 0, 1, 0, 2] rfl (by decide) (fun _ => 0)
    (fun _ _ _ => le_rfl) (fun t h1 h2 j h3 h4 => by
      rw [hit_within (p := Ex.gaps) rfl h3 h4, Ex.gaps, CostFn.callMean_certain _ _ h1]
      exact ⟨_, rfl⟩) o hl hα hi

/-- With a switching cost of `2`, one server is kept through gaps of one slot. Two are needed again only after three slots. -/
example : Spec.Kept (fun n => (n : ℚ) * 1 < 1 * 2) [3, 0, 1, 0, 2] 1 1 ∧ ¬ Spec.Kept (fun n => (n : ℚ) * 1 < 1 * 2) [3, 0, 1, 0, 2] 2 1 := by
  constructor
  · exact Or.inr ⟨0, 2, by decide, by decide, by decide, by decide, by decide, by norm_num⟩
  · rintro (h | ⟨i, j, h1, h2, h3, h4, h5, h6⟩)
    · exact absurd h (by decide)
    · have h3 : j < 5 := h3
      have : i = 0 := by omega
      subst this
      interval_cases j
      · exact absurd h5 (by decide)
      · exact absurd h5 (by decide)
      · norm_num at h6

example := C118_load Offline.lazySolver lazySolver_ok.1 lazySolver_ok.2 (rented 4) (by decide +kernel) rfl 3 rfl 1 rfl
  (by norm_num) 2 rfl (by decide) (by decide)

/-- Four servers of a data center which does not lose revenue; a server which is idle needs as much power in three slots
as switching costs. -/
def Ex.idleFarm : Spec.Farm where
  servers := 4
  slot := 1
  maxUse := 9 / 10
  time := 1 / 2
  route := fun _ => 1 / 4
  power := fun u => u + 1
  price := fun _ => 1
  gamma := 0
  delay := 1
  switching := 3

/-- The model of this data center. -/
def Ex.idleModel : DataCenterModel where
  delta := 1
  locations := [⟨"a", fun _ => some 4⟩]
  serverTypes := [⟨"s", 9 / 10⟩]
  sources := [⟨"", fun _ _ => .ok (1 / 4)⟩]
  jobTypes := [⟨"i", fun _ => .ok (1 / 2)⟩]
  consumptionModel := .linear fun _ => some ⟨1, 2⟩
  energyModel := .linear fun _ => some fun _ => 1
  lossModel := fun _ => some ⟨0, 1⟩
  switchingModel := fun _ => some ⟨1, 1, 2, 1, 1, 0, 0⟩

theorem Ex.idle_is : Spec.IsFarm Ex.idleModel Ex.idleFarm :=
  ⟨_, _, _, _, rfl, rfl, rfl, rfl, rfl, rfl, rfl, fun _ _ => rfl, fun u => by
    simp only [Ex.idleModel, ConsumptionModel.consumption, lookup, bind, Except.bind, Ex.idleFarm]
    congr 1
    ring, fun t p _ => rfl, rfl, ⟨_, rfl, by norm_num [SwitchingCost.switchingCost, Ex.idleFarm]⟩, rfl⟩

theorem Ex.idle_valid : Ex.idleFarm.Valid where
  servers := by decide
  slot := by norm_num [Ex.idleFarm]
  time := by norm_num [Ex.idleFarm]
  price t _ := by norm_num [Ex.idleFarm]
  gamma := by norm_num [Ex.idleFarm]
  switching := by norm_num [Ex.idleFarm]
  power u hu := by simp only [Ex.idleFarm]; linarith
  convex u v _ _ a _ _ := by simp only [Ex.idleFarm]; linarith

theorem Ex.idle_need (l : ℚ) (n : ℤ) (h0 : 0 < l) (h1 : 0 < n) (h : (n - 1 : ℚ) * 9 < l * 5 ∧ l * 5 ≤ n * 9) (t : Int) (j : ℤ)
    (hj : 0 ≤ j) : Ex.idleFarm.slotCost t l j ≠ ⊤ ↔ n ≤ j := by
  have hu : ∀ j : ℚ, Ex.idleFarm.use l j = 1 / 2 * l / (j * 1) := fun _ => rfl
  have hm : Ex.idleFarm.maxUse = 9 / 10 := rfl
  unfold Spec.Farm.slotCost
  rcases hj.eq_or_lt with rfl | hj
  · rw [Int.cast_zero, if_pos le_rfl, if_neg h0.ne']
    exact ⟨fun h => absurd rfl h, fun h => by omega⟩
  · have hq : (0 : ℚ) < j := by exact_mod_cast hj
    rw [if_neg (not_le.2 hq)]
    constructor
    · intro hc
      by_contra hn
      have : (j : ℚ) ≤ n - 1 := by
        have : j ≤ n - 1 := by omega
        exact_mod_cast this
      refine hc (if_neg fun hx => ?_)
      have := hx.2
      rw [hu, hm, div_le_iff₀ (by linarith)] at this
      linarith [h.1]
    · intro hn
      have hn : (n : ℚ) ≤ j := by exact_mod_cast hn
      rw [if_pos]
      · exact WithTop.coe_ne_top
      · rw [hu, hm, div_lt_iff₀ (by linarith), div_le_iff₀ (by linarith)]
        constructor <;> linarith [h.2]

example (S : Num.Solver) (hS : Spec.SolvesEmpty S) (o : OfflineOptions) (ho : o.l = none) (hα : o.alpha = 1)
    (hi : o.inverted = false) :=
  C118_data_center S hS Ex.idleModel Ex.idleFarm Ex.idle_is Ex.idle_valid [3, 7, 2, 7, 6] (by
      intro l hl
      simp only [List.mem_cons, List.not_mem_nil, or_false] at hl
      rcases hl with rfl | rfl | rfl | rfl | rfl <;> norm_num [Spec.Farm.Carries, Spec.Farm.use, Ex.idleFarm])
    _ rfl _ rfl 2 (by norm_num) (by norm_num) (fun u _ => by simp only [Ex.idleFarm, Ex.idleModel]; ring) (fun _ _ => rfl) rfl
    [2, 4, 2, 4, 4] (by
      have key : ∀ (l : ℚ) (n : ℤ), 0 < l → 0 < n → n ≤ 4 → ((n - 1 : ℚ) * 9 < l * 5 ∧ l * 5 ≤ n * 9) →
          0 ≤ n ∧ n ≤ Ex.idleFarm.servers ∧ ∀ t (j : ℤ), 0 ≤ j → (Ex.idleFarm.slotCost t l j ≠ ⊤ ↔ n ≤ j) :=
        fun l n h0 h1 h2 h3 => ⟨h1.le, h2, fun t j hj => Ex.idle_need l n h0 h1 h3 t j hj⟩
      refine .cons (key _ _ ?_ ?_ ?_ ?_) (.cons (key _ _ ?_ ?_ ?_ ?_) (.cons (key _ _ ?_ ?_ ?_ ?_)
        (.cons (key _ _ ?_ ?_ ?_ ?_) (.cons (key _ _ ?_ ?_ ?_ ?_) .nil)))) <;> norm_num)
    o ho hα hi

/-- The normalised switching cost of this data center is three slots: the two servers of the example which are idle in the
third slot are kept. -/
example : (⟨1, 1, 2, 1, 1, 0, 0⟩ : SwitchingCost).normalized 1 = 3 ∧ Spec.Kept (fun n => (n : ℚ) < 3) [2, 4, 2, 4, 4] 4 2 :=
  ⟨by norm_num [SwitchingCost.normalized, SwitchingCost.switchingCost],
    Or.inr ⟨1, 3, by decide, by decide, by decide, by decide, by decide, by norm_num⟩⟩

end Soco
