import Verif.Lemmas.Lcp
import Verif.Lemmas.LcpFrac
import Verif.Spec.Minimizer

/-! # Fractional lazy capacity provisioning: runs whose reference time stays at slot 0 -/

namespace Soco.Spec
open Soco

/-- The bounds never tighten right after a slot in which they were (nearly, up to a tenth) equal. -/
def NeverTightAfterMeeting (bs : List (Lcp.BoundsMem ℚ)) : Prop :=
  ∀ (i : Nat) (prev cur : Lcp.BoundsMem ℚ), bs[i]? = some prev → bs[i + 1]? = some cur →
    (cur.upper < prev.upper ∨ prev.lower < cur.lower) → 1 / 10 ≤ |prev.lower - prev.upper|

end Soco.Spec

namespace Soco.Lcp
open Soco Work

theorem findInitialTime_zero {bs : List (BoundsMem ℚ)} (h : Spec.NeverTightAfterMeeting bs) :
    findInitialTime bs = (0, 0) := by
  unfold findInitialTime
  have : (timeRange 2 bs.length).reverse.findSome? (initialTimeAt bs) = none := by
    rw [List.findSome?_eq_none_iff]
    intro t ht
    have ht' : 2 ≤ t := by
      rw [List.mem_reverse, timeRange, List.mem_map] at ht
      obtain ⟨i, hi, rfl⟩ := ht
      omega
    unfold initialTimeAt
    split
    · rename_i prev cur h1 h2
      split_ifs with hv hp
      · exfalso
        have e : t.toNat - 1 = (t.toNat - 2) + 1 := by omega
        rw [e] at h2
        have := h _ prev cur h1 h2 (by
          simpa [isValidInitialTime] using hv)
        have hp' : |prev.lower - prev.upper| < precision * 10 := hp
        norm_num [precision] at hp' this
        linarith
      · rfl
      · rfl
    · rfl
  rw [this]; rfl

theorem never_left {bs cs : List (BoundsMem ℚ)} (h : Spec.NeverTightAfterMeeting (bs ++ cs)) :
    Spec.NeverTightAfterMeeting bs := by
  intro i prev cur h1 h2
  have l1 : i < bs.length := (List.getElem?_eq_some_iff.1 h1).1
  have l2 : i + 1 < bs.length := (List.getElem?_eq_some_iff.1 h2).1
  refine h i prev cur ?_ ?_
  · rwa [List.getElem?_append_left l1]
  · rwa [List.getElem?_append_left l2]

/-- Bounds always computed from slot 0 on. -/
def fromZero (b : Bounded ℚ) : Bounded ℚ where
  d := b.d
  tEnd := b.tEnd
  find α inverted w t _ _ := b.find α inverted w t 0 0

theorem lcp_mem {b : Bounded ℚ} {w t : Int} {xs : Schedule ℚ} {bs : List (BoundsMem ℚ)}
    {r : Config ℚ × Option (List (BoundsMem ℚ))} (h : lcp b w t xs bs = .ok r) : ∃ m, r.2 = some (bs ++ [m]) := by
  simp only [lcp, assertR, bind, Except.bind] at h
  split_ifs at h
  cases hi : idx (Schedule.nowWithDefault xs [0]) 0 with
  | error e => rw [hi] at h; cases h
  | ok i =>
    rw [hi] at h
    simp only at h
    cases hl : b.find 1 false w b.tEnd (findInitialTime bs).1 (findInitialTime bs).2 with
    | error e => rw [hl] at h; cases h
    | ok lo =>
      rw [hl] at h
      simp only at h
      cases hu : b.find 1 true w b.tEnd (findInitialTime bs).1 (findInitialTime bs).2 with
      | error e => rw [hu] at h; cases h
      | ok up => rw [hu] at h; cases h; exact ⟨_, rfl⟩

/-- As long as the reference time stays at slot 0, so does the run. -/
theorem play_fromZero {P : Type} (bounded : P → Bounded ℚ) :
    ∀ (os : List (Online P)) (xs : Schedule ℚ) (mem : Option (List (BoundsMem ℚ))),
      Spec.play (fun p => (bounded p).tEnd) (lcpAlg bounded) [] none os = .ok (xs, mem) →
      Spec.NeverTightAfterMeeting (mem.getD []) →
      Spec.play (fun p => (bounded p).tEnd) (lcpAlg fun p => fromZero (bounded p)) [] none os = .ok (xs, mem) := by
  intro os
  induction os using List.reverseRecOn with
  | nil => intro xs mem h _; exact h
  | append_singleton os o ih =>
    intro xs mem h hn
    rw [play_snoc] at h ⊢
    cases h1 : Spec.play (fun p => (bounded p).tEnd) (lcpAlg bounded) [] none os with
    | error e => rw [h1] at h; cases h
    | ok r =>
      obtain ⟨xs1, m1⟩ := r
      rw [h1] at h
      simp only at h
      have key : ∃ b, mem = some (m1.getD [] ++ [b]) := by
        simp only [onlineNext, assertR, bind, Except.bind, OnlineAlgorithm.next, lcpAlg] at h
        split_ifs at h
        cases hc : lcp (bounded o.p) o.w (xs1.tEnd + 1) xs1 (m1.getD []) with
        | error e => rw [hc] at h; cases h
        | ok r =>
          rw [hc] at h
          cases h
          exact lcp_mem hc
      obtain ⟨b, rfl⟩ := key
      have hn' : Spec.NeverTightAfterMeeting (m1.getD []) := never_left hn
      rw [ih xs1 m1 h1 hn']
      simp only
      rw [← h]
      have e : onlineNext (fun p => (bounded p).tEnd) (lcpAlg fun p => fromZero (bounded p)) o xs1 m1
          = onlineNext (fun p => (bounded p).tEnd) (lcpAlg bounded) o xs1 m1 := by
        simp only [onlineNext, OnlineAlgorithm.next, lcpAlg, lcp, fromZero, findInitialTime_zero hn']
        rfl
      rw [e]

end Soco.Lcp

/-! # The objective after a restart -/

namespace Soco.Lcp
open Soco Work
variable {C D : Type} [OutSuccess C] [OutFailure D]

theorem totalCost_padded {X : Type} (hit : Int → X → ECost) (mv : X → X → ℚ) (n : Int) (x : X) (hx : mv x x = 0) :
    ∀ (ks : List X) (t : Int) (y : X) (m : Nat), t + ks.length = n + 1 → 1 ≤ m →
      Spec.totalCost (fun t z => if t > n then 0 else hit t z) mv 1 t y (ks ++ List.replicate m x)
        = Spec.totalCost hit mv 1 t y ks + ((mv (ks.getLastD y) x : ℚ) : ECost) := by
  have tail : ∀ (m : Nat) (t : Int), n < t →
      Spec.totalCost (fun t z => if t > n then 0 else hit t z) mv 1 t x (List.replicate m x) = 0 := by
    intro m
    induction m with
    | zero => intros; rfl
    | succ m ih =>
      intro t ht
      have ht' : t > n := ht
      simp [List.replicate_succ, Spec.totalCost, ih (t + 1) (by omega), ht', hx]
  intro ks
  induction ks with
  | nil =>
    intro t y m ht hm
    obtain ⟨m, rfl⟩ : ∃ k, m = k + 1 := ⟨m - 1, by omega⟩
    have h1 : t > n := by simp at ht; omega
    simp [List.replicate_succ, Spec.totalCost, tail m (t + 1) (by omega), h1]
  | cons k ks ih =>
    intro t y m ht hm
    have h1 : ¬ t > n := by simp only [List.length_cons] at ht; omega
    have := ih (t + 1) k m (by simp only [List.length_cons] at ht; omega) hm
    simp only [List.cons_append, Spec.totalCost, this, if_neg h1]
    rw [List.getLastD_cons]
    simp only [add_assoc]

/-- What the optimiser minimises if the bound is computed from a slot `s ≥ 1` on: the way back to the reference
state is charged. -/
theorem boundObjective_restart {p : SSCO ℚ C D} {u β : ℚ} {g : Int → ℚ → ECost} {n s : Nat}
    (hs : p.switchingCost = [β]) (hT : p.tEnd = n) (h1s : 1 ≤ s)
    (hhit : ∀ t : Int, 1 ≤ t → t ≤ n → ∀ j, 0 ≤ j → j ≤ u → ∃ out, p.toProb.hitCost t [j] = .ok ⟨g t j, out⟩)
    (hc : p.hittingCost.CertainAt (1 + s)) (inverted : Bool) {x : ℚ} (hx : DomQ u x)
    (ks : List ℚ) (k1 : ks.length + s = n) (k2 : ∀ k ∈ ks, DomQ u k) :
    boundObjective { p.reset s with tEnd := (p.reset s).tEnd + 0 } 1 inverted x (n + 0) ks
      = .ok (Spec.totalCost g (mvQ β inverted) 1 ((s : Int) + 1) x ks
          + ((mvQ β inverted (ks.getLastD x) x : ℚ) : ECost)) := by
  have hp : Spec.padTo n [x] (ks.map fun k => [k]) = (ks ++ List.replicate s x).map fun k => [k] := by
    unfold Spec.padTo
    rw [List.take_of_length_le (by simp; omega), List.map_append, List.map_replicate, List.length_map]
    congr 2; omega
  have mem : ∀ k ∈ ks ++ List.replicate s x, DomQ u k := by
    intro k hk
    rcases List.mem_append.1 hk with h | h
    · exact k2 k h
    · rw [List.eq_of_mem_replicate h]; exact hx
  let q : SSCO ℚ C D := { p.reset s with tEnd := (p.reset s).tEnd + 0 }
  have hq : q.tEnd = n - s := by show p.tEnd - s + 0 = _; rw [hT]; omega
  obtain ⟨out, ho⟩ := C02_objective_eq_totalCost q.toProb (ks.map fun k => [k]) [x] 1 inverted n
    (fun t z => g (t + s) (z.headD 0)) (fun y z => mvQ β inverted (y.headD 0) (z.headD 0)) (by
      intro t h1 _ h3 z hz
      rw [hp] at hz
      obtain ⟨j, hj, rfl⟩ := List.mem_map.1 hz
      have h3' : t ≤ q.tEnd := h3
      rw [hq] at h3'
      have e := (C08_reset_slot p.hittingCost s t (by omega) h1 hc [j]).2.1
      have e' : q.toProb.hitCost t [j] = p.toProb.hitCost (t + s) [j] := by
        show (p.hittingCost.reset s).callMeanWithinBounds t [j] (withinVec p.bounds)
          = p.hittingCost.callMeanWithinBounds (t + s) [j] (withinVec p.bounds)
        unfold CostFn.callMeanWithinBounds
        rw [e]
      rw [e']
      exact hhit _ (by omega) (by omega) j (mem j hj).1 (mem j hj).2) (by
      rw [hp]
      intro y hy z hz
      obtain ⟨j, _, rfl⟩ := List.mem_map.1 hz
      rcases List.mem_cons.1 hy with rfl | hy
      · exact movement_oneQ (p := q) hs _ _ _
      · obtain ⟨i, _, rfl⟩ := List.mem_map.1 hy
        exact movement_oneQ (p := q) hs _ _ _)
  have hval := totalCost_padded (fun t => g (t + s)) (mvQ β inverted) q.tEnd x (by simp [mvQ, up]) ks 1 x s
    (by rw [hq]; omega) h1s
  rw [hp, Uni.totalCost_map (fun j : ℚ => [j])] at ho
  have ho' : q.toProb.objectiveWithDefault' (ks.map fun k => [k]) [x] 1 inverted n
      = .ok ⟨Spec.totalCost (fun t z => if t > q.tEnd then 0 else g (t + s) z) (mvQ β inverted) 1 1 x
          (ks ++ List.replicate s x), out⟩ := ho
  rw [hval, totalCost_shift g _ 1 s] at ho'
  show boundObjective q 1 inverted x (n + 0) ks = _
  rw [add_zero, boundObjective, ho']
  rfl

/-- If all minimisers end in the same state, that is the bound found. -/
theorem findBoundFrac_unique {opt : Minimizer} {p : SSCO ℚ C D} {u : ℚ} {n s : Nat} {inverted : Bool} {x v : ℚ}
    (hd : p.d = 1) (hb : p.bounds = [u]) (hs : s < n) (hT : p.tEnd = n) (V : List ℚ → ℚ) (w : List ℚ)
    (hobj : ∀ ks : List ℚ, ks.length = n - s → (∀ k ∈ ks, DomQ u k) →
      boundObjective { p.reset s with tEnd := (p.reset s).tEnd + 0 } 1 inverted x (n + 0) ks = .ok ((V ks : ℚ) : ECost))
    (w1 : w.length = n - s) (w2 : ∀ k ∈ w, DomQ u k)
    (hmin : ∀ ks : List ℚ, ks.length = n - s → (∀ k ∈ ks, DomQ u k) → V w ≤ V ks ∧ (V ks ≤ V w → ks.getLastD 0 = v))
    (hopt : (∃ xs c, Spec.InBoxQ (List.replicate (n - s) (0, u)) xs ∧
        boundObjective { p.reset s with tEnd := (p.reset s).tEnd + 0 } 1 inverted x (n + 0) xs = .ok c ∧
        ∀ ys c', Spec.InBoxQ (List.replicate (n - s) (0, u)) ys →
          boundObjective { p.reset s with tEnd := (p.reset s).tEnd + 0 } 1 inverted x (n + 0) ys = .ok c' → c ≤ c') →
      Spec.Solves opt (boundObjective { p.reset s with tEnd := (p.reset s).tEnd + 0 } 1 inverted x (n + 0))
        (List.replicate (n - s) (0, u))) :
    findBoundFrac opt p 1 inverted 0 n s x = .ok v := by
  obtain ⟨js, c, h1, h2, h3, h4⟩ := hopt ⟨w, _, inBoxQ_replicate.2 ⟨w1, w2⟩, hobj w w1 w2, by
    intro ys c' hy hc
    obtain ⟨y1, y2⟩ := inBoxQ_replicate.1 hy
    rw [hobj ys y1 y2] at hc
    cases hc
    exact_mod_cast (hmin ys y1 y2).1⟩
  obtain ⟨l1, l2⟩ := inBoxQ_replicate.1 h2
  rw [hobj js l1 l2] at h3
  cases h3
  have hle := h4 w _ (inBoxQ_replicate.2 ⟨w1, w2⟩) (hobj w w1 w2)
  rw [WithTop.coe_le_coe] at hle
  have hlast := (hmin js l1 l2).2 hle
  have hnpos : ¬ ((n : Int) ≤ 0) := by omega
  have hle1 : (1 : Int) ≤ (n : Int) - s := by omega
  have e2 : (((n : Int) - s).toNat) = n - s := by omega
  have hidx : js[n - s - 1]? = some v := by
    obtain rfl | ⟨js', j, rfl⟩ := List.eq_nil_or_concat' js
    · simp at l1; omega
    · have : n - s - 1 = js'.length := by simp at l1; omega
      rw [List.getLastD_concat] at hlast
      rw [this]; simp [hlast]
  have hbb : (p.reset s).bounds = [u] := hb
  have hlen : decide ((js.length : Int) = n - s) = true := by rw [decide_eq_true_eq]; omega
  have hTT : decide ((n : Int) ≤ p.tEnd) = true := by rw [decide_eq_true_eq, hT]
  simp only [findBoundFrac, assertP, assertR, hTT, hd, decide_true, if_true, bind, Except.bind,
    if_neg hnpos, hbb, idx, List.getElem?_cons_zero, e2]
  simp only [hbb] at h1
  rw [h1]
  simp only [hlen, hle1, decide_true, if_true]
  rw [hidx]

end Soco.Lcp
