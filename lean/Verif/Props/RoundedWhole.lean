import Verif.Lemmas.RoundedWhole
import Verif.Model.RoundedLcp
import Verif.Props.LcpWindow
import Verif.Props.RoundedBudget

/-!
# C126: whole costs are computed without rounding errors
-/

namespace Soco
open Lcp Uni Spec

variable {C D : Type} [OutSuccess C] [OutFailure D]

namespace Lcp.Rounded

variable {fl : ℚ → ℚ} {e : ℚ} {N : Nat}

theorem find_whole (E : ExactTo fl e N) {p : SSCO ℤ C D} {m : ℤ} {h b n w : Nat} {g : Int → ℤ → ECost}
    (I : Foresight p m (b * e) g n w) (hg : ∀ t : Int, 1 ≤ t → t ≤ (n : Int) + w → ∀ j, 0 ≤ j → j ≤ m → Multiple e h (g t j))
    (hm : 0 ≤ m) (h2 : isPowOf2 m.toNat = true) (hN : (n + w) * (h + b * m.toNat) ≤ N) (inverted : Bool) {s : Nat} (hs : s < n)
    {x : ℤ} (hx : 0 ≤ x ∧ x ≤ m) :
    findBoundInt fl p 1 inverted w n s x = Lcp.findBoundInt p 1 inverted w n s x ∧
      ∀ r, Lcp.findBoundInt p 1 inverted w n s x = .ok r → 0 ≤ r ∧ r ≤ m := by
  have hcert := I.certain (1 + s) (by omega) (by omega)
  let q : SSCO ℤ C D := { p.reset s with tEnd := (p.reset s).tEnd + w }
  have hT : q.tEnd = ((n + w - s : Nat) : Int) := by
    show p.tEnd - s + w = _
    rw [I.tEnd]; omega
  have U : Uni.Rounded.Units q m e h b := by
    refine ⟨I.switching, ?_⟩
    intro t h1 h2 j h3 h4 c hc
    have : q.toProb.hitCost t [j] = (p.reset s).toProb.hitCost t [j] := rfl
    rw [this, reset_hit (by omega) h1 hcert] at hc
    obtain ⟨out, ho⟩ := I.hit (t + s) (by omega) (by omega) j h3 h4
    rw [ho] at hc
    rw [← Except.ok.inj hc]
    exact hg _ (by omega) (by omega) j h3 h4
  have hN' : q.tEnd.toNat * (h + 1 * (b * m.toNat)) ≤ N := by
    rw [hT, one_mul, Int.toNat_natCast]
    exact le_trans (Nat.mul_le_mul_right _ (by omega)) hN
  obtain ⟨f1, f2⟩ := Uni.Rounded.optimalGraphSearch_whole E U I.bounds h2 hm { inverted := inverted, alpha := 1, l := none } le_rfl
    (by simp) hN' hx
  have f1' : Uni.Rounded.optimalGraphSearch fl { p.reset s with tEnd := (p.reset s).tEnd + w } x
      { inverted := inverted, alpha := 1, l := none } = Uni.optimalGraphSearch q x { inverted := inverted, alpha := 1, l := none } := f1
  unfold findBoundInt Lcp.findBoundInt
  simp only [f1']
  refine ⟨rfl, fun r hr => ?_⟩
  simp only [bind, Except.bind] at hr
  cases h1 : assertP (decide ((n : Int) ≤ p.tEnd)) with
  | error x => rw [h1] at hr; cases hr
  | ok _ =>
  rw [h1] at hr
  simp only at hr
  cases h3 : assertR (decide (p.d = 1)) (.unsupportedProblemDimension p.d) with
  | error x => rw [h3] at hr; cases hr
  | ok _ =>
  rw [h3, if_neg (by omega)] at hr
  simp only at hr
  cases h4 : Uni.optimalGraphSearch q x { inverted := inverted, alpha := 1, l := none } with
  | error y => rw [h4] at hr; cases hr
  | ok P =>
  rw [h4] at hr
  simp only at hr
  cases h5 : assertP (decide ((1 : Int) ≤ n - s)) with
  | error x => rw [h5] at hr; cases hr
  | ok _ =>
  rw [h5] at hr
  simp only [idx] at hr
  cases h6 : P.xs[((n : Int) - s).toNat - 1]? with
  | none => rw [h6] at hr; cases hr
  | some y =>
  rw [h6] at hr
  obtain ⟨k, rfl, k1⟩ := f2 P h4 y (List.mem_of_getElem? h6)
  simp only [List.getElem?_cons_zero, Except.ok.injEq] at hr
  rw [← hr]; exact k1

theorem lcp_whole (E : ExactTo fl e N) {p : SSCO ℤ C D} {m : ℤ} {h b n w : Nat} {g : Int → ℤ → ECost}
    (I : Foresight p m (b * e) g n w) (hg : ∀ t : Int, 1 ≤ t → t ≤ (n : Int) + w → ∀ j, 0 ≤ j → j ≤ m → Multiple e h (g t j))
    (hm : 0 ≤ m) (h2 : isPowOf2 m.toNat = true) (hN : (n + w) * (h + b * m.toNat) ≤ N) (hn : 1 ≤ n) (xs : Schedule ℤ)
    (bs : List (BoundsMem ℤ)) (hb : ∀ q ∈ bs, 0 ≤ q.upper ∧ q.upper ≤ m) :
    lcp (boundedInt fl p) w n xs bs = lcp (Lcp.boundedInt p) w n xs bs ∧
      ∀ x mem, lcp (Lcp.boundedInt p) w n xs bs = .ok (x, mem) → ∃ bs', mem = some bs' ∧ ∀ q ∈ bs', 0 ≤ q.upper ∧ q.upper ≤ m := by
  unfold lcp
  have ed : (boundedInt fl p).d = (Lcp.boundedInt p).d := rfl
  have et : (boundedInt fl p).tEnd = n := I.tEnd
  have et' : (Lcp.boundedInt p).tEnd = n := I.tEnd
  rw [ed, et, et']
  cases h1 : assertR (decide ((Lcp.boundedInt p).d = 1)) (.unsupportedProblemDimension (Lcp.boundedInt p).d) with
  | error x => exact ⟨rfl, fun _ _ hr => by cases hr⟩
  | ok _ =>
  simp only [bind, Except.bind]
  cases h3 : assertR (decide ((n : Int) - 1 = bs.length)) (.onlineOutOfDateMemory ((n : Int) - 1) bs.length) with
  | error x => exact ⟨rfl, fun _ _ hr => by cases hr⟩
  | ok _ =>
  have hlen : bs.length + 1 = n := by
    unfold assertR at h3
    split at h3
    · rename_i hd
      have := of_decide_eq_true hd
      omega
    · cases h3
  have hstart : ∃ s : Nat, ∃ x : ℤ, findInitialTime bs = ((s : Int), x) ∧ s < n ∧ 0 ≤ x ∧ x ≤ m := by
    rcases findInitialTime_spec bs with h0 | ⟨s, x, h0, h4, h5, h6⟩
    · exact ⟨0, 0, h0, by omega, le_rfl, hm⟩
    · exact ⟨s, x, h0, by omega, hb _ (List.mem_of_getElem? h6)⟩
  obtain ⟨s, x, e0, hs, hx⟩ := hstart
  obtain ⟨a1, _⟩ := find_whole E I hg hm h2 hN false hs hx
  obtain ⟨a2, a3⟩ := find_whole E I hg hm h2 hN true hs hx
  have b1 : (boundedInt fl p).find 1 false w n s x = (Lcp.boundedInt p).find 1 false w n s x := a1
  have b2 : (boundedInt fl p).find 1 true w n s x = (Lcp.boundedInt p).find 1 true w n s x := a2
  simp only [e0, b1, b2]
  cases idx (Schedule.nowWithDefault xs [0]) 0 with
  | error x => exact ⟨trivial, fun _ _ hr => by cases hr⟩
  | ok i =>
  simp only
  cases (Lcp.boundedInt p).find 1 false w n s x with
  | error x => exact ⟨trivial, fun _ _ hr => by cases hr⟩
  | ok lower =>
  simp only
  cases hu : (Lcp.boundedInt p).find 1 true w n s x with
  | error x => exact ⟨trivial, fun _ _ hr => by cases hr⟩
  | ok upper =>
  refine ⟨trivial, fun y mem hr => ?_⟩
  obtain ⟨_, rfl⟩ := Prod.mk.inj (Except.ok.inj hr)
  refine ⟨_, rfl, fun q hq => ?_⟩
  rcases List.mem_append.1 hq with hq | hq
  · exact hb q hq
  · rw [List.mem_singleton] at hq
    subst hq
    exact a3 upper hu

omit [OutSuccess C] [OutFailure D] in
theorem next_eq (b : SSCO ℤ C D → Bounded ℤ) (p : SSCO ℤ C D) (w : Int) (xs : Schedule ℤ) (mem : Option (List (BoundsMem ℤ))) :
    onlineNext SSCO.tEnd (lcpAlg b) ⟨p, w⟩ xs mem = (do
      assertR (decide (Schedule.tEnd xs + 1 = p.tEnd)) (.onlineInconsistentCurrentTimeSlot (Schedule.tEnd xs) p.tEnd)
      let step ← lcp (b p) w (Schedule.tEnd xs + 1) xs (mem.getD [])
      .ok (step.1, Schedule.extend xs step.1, step.2)) := rfl

omit [OutSuccess C] [OutFailure D] in
theorem next_whole {b b' : SSCO ℤ C D → Bounded ℤ} {p : SSCO ℤ C D} {w : Int} {xs : Schedule ℤ} {mem : Option (List (BoundsMem ℤ))} {t : Int}
    (ht : Schedule.tEnd xs + 1 = t) {Q : List (BoundsMem ℤ) → Prop} (h1 : lcp (b p) w t xs (mem.getD []) = lcp (b' p) w t xs (mem.getD []))
    (h2 : ∀ x m, lcp (b' p) w t xs (mem.getD []) = .ok (x, m) → ∃ bs, m = some bs ∧ Q bs) :
    onlineNext SSCO.tEnd (lcpAlg b) ⟨p, w⟩ xs mem = onlineNext SSCO.tEnd (lcpAlg b') ⟨p, w⟩ xs mem ∧
      ∀ x xs' m, onlineNext SSCO.tEnd (lcpAlg b') ⟨p, w⟩ xs mem = .ok (x, xs', m) → xs'.length = xs.length + 1 ∧ ∃ bs, m = some bs ∧ Q bs := by
  rw [next_eq, next_eq, ht, h1]
  refine ⟨rfl, fun x xs' m h => ?_⟩
  cases h3 : assertR (decide (t = p.tEnd)) (.onlineInconsistentCurrentTimeSlot (Schedule.tEnd xs) p.tEnd) with
  | error x => rw [h3] at h; cases h
  | ok _ =>
  rw [h3] at h
  cases h4 : lcp (b' p) w t xs (mem.getD []) with
  | error x => rw [h4] at h; cases h
  | ok s =>
  rw [h4] at h
  have h := Except.ok.inj h
  obtain ⟨_, h⟩ := Prod.mk.inj h
  obtain ⟨h5, h6⟩ := Prod.mk.inj h
  obtain ⟨x', m'⟩ := s
  refine ⟨by rw [← h5]; simp [Schedule.extend], h6 ▸ h2 x' m' h4⟩

theorem play_whole (E : ExactTo fl e N) {m : ℤ} {h b w : Nat} {g : Int → ℤ → ECost} (M : Nat)
    (hg : ∀ t : Int, 1 ≤ t → t ≤ (M : Int) → ∀ j, 0 ≤ j → j ≤ m → Multiple e h (g t j))
    (hm : 0 ≤ m) (h2 : isPowOf2 m.toNat = true) (hN : M * (h + b * m.toNat) ≤ N) : ∀ (ps : List (SSCO ℤ C D)) (a : Nat) (xs : Schedule ℤ)
    (mem : Option (List (BoundsMem ℤ))), xs.length = a → (∀ bs, mem = some bs → ∀ q ∈ bs, 0 ≤ q.upper ∧ q.upper ≤ m) →
    a + ps.length + w ≤ M → (∀ k (h : k < ps.length), Foresight ps[k] m (b * e) g (a + k + 1) w) →
    Spec.play SSCO.tEnd (lcpAlg (boundedInt fl)) xs mem (ps.map fun p => ⟨p, w⟩)
      = Spec.play SSCO.tEnd (lcpAlg Lcp.boundedInt) xs mem (ps.map fun p => ⟨p, w⟩) := by
  intro ps
  induction ps with
  | nil => intros; rw [List.map_nil, Spec.play, Spec.play]
  | cons p ps ih =>
    intro a xs mem ha hmem hM I
    have Ip : Foresight p m (b * e) g (a + 1) w := I 0 (by simp)
    simp only [List.length_cons] at hM
    have hb : ∀ q ∈ mem.getD [], 0 ≤ q.upper ∧ q.upper ≤ m := by
      cases mem with
      | none => simp
      | some bs => exact hmem bs rfl
    have hc := lcp_whole (fl := fl) E Ip (fun t h1 h3 => hg t h1 (by push_cast at h3; omega)) hm h2
      (le_trans (Nat.mul_le_mul_right _ (by omega)) hN) (by omega) xs (mem.getD []) hb
    have et : Schedule.tEnd xs + 1 = ((a + 1 : Nat) : Int) := by rw [← ha]; simp [Schedule.tEnd]
    obtain ⟨n1, n2⟩ := next_whole (b := boundedInt fl) (b' := Lcp.boundedInt) et hc.1 hc.2
    rw [List.map_cons, Spec.play, Spec.play, n1]
    cases hn : onlineNext SSCO.tEnd (lcpAlg Lcp.boundedInt) ⟨p, w⟩ xs mem with
    | error x => simp only
    | ok r =>
      obtain ⟨x, xs', mem'⟩ := r
      simp only
      obtain ⟨h5, bs, h6, h7⟩ := n2 x xs' mem' hn
      refine ih (a + 1) xs' mem' (by omega) ?_ (by omega) ?_
      · intro bs' hbs
        rw [h6] at hbs
        cases hbs
        exact h7
      · intro k hk
        have := I (k + 1) (by simpa using hk)
        rw [show a + 1 + k + 1 = a + (k + 1) + 1 by omega]
        exact this

end Lcp.Rounded

theorem double_scale (z : ℤ) (x : ℚ) (hx : 0 < x) : Spec.double (x * 2 ^ z) = Spec.double x * 2 ^ z := by
  have hz : (0 : ℚ) < 2 ^ z := zpow_pos (by norm_num) z
  have hlog : Int.log 2 (x * 2 ^ z) = Int.log 2 x + z := by
    have h1 := Int.zpow_log_le_self (R := ℚ) (b := 2) (by norm_num) hx
    have h2 := Int.lt_zpow_succ_log_self (R := ℚ) (b := 2) (by norm_num) x
    apply le_antisymm
    · have : Int.log 2 (x * 2 ^ z) < Int.log 2 x + z + 1 := by
        rw [← Int.lt_zpow_iff_log_lt (by norm_num) (mul_pos hx hz)]
        push_cast
        rw [show Int.log 2 x + z + 1 = Int.log 2 x + 1 + z by ring, zpow_add₀ (by norm_num)]
        push_cast at h2
        exact mul_lt_mul_of_pos_right h2 hz
      omega
    · rw [← Int.zpow_le_iff_le_log (by norm_num) (mul_pos hx hz)]
      push_cast at h1 ⊢
      rw [zpow_add₀ (by norm_num)]
      exact mul_le_mul_of_nonneg_right h1 hz.le
  unfold Spec.double
  rw [hlog]
  have e1 : x * 2 ^ z * 2 ^ (52 - (Int.log 2 x + z)) = x * 2 ^ (52 - Int.log 2 x) := by
    rw [mul_assoc, ← zpow_add₀ (by norm_num)]; congr 2; ring
  rw [e1, mul_assoc, ← zpow_add₀ (by norm_num)]
  congr 2
  ring

/-- **C126** Less than `2⁵³` times a power of two needs no rounding. -/
theorem C126_double (z : ℤ) : Spec.ExactTo Spec.double (2 ^ z) (2 ^ 53 - 1) where
  pos := zpow_pos (by norm_num) z
  exact n hn := by
    rcases Nat.eq_zero_or_pos n with rfl | h0
    · simp [Spec.double]
    · rw [double_scale z n (by exact_mod_cast h0), Lb.Rounded.C125_double_nat n (by omega)]

/-- **C126** One-dimensional problems whose bound is a power of two: if the costs are multiples of a unit, and if rounding keeps the
multiples up to what a schedule can cost, the search with rounded arithmetic is the exact search: the same schedule, the same cost, the
same failures. -/
theorem C126_one_dimension {fl : ℚ → ℚ} {e : ℚ} {N : Nat} (E : Spec.ExactTo fl e N) (p : SSCO ℤ C D) (m : ℤ) (h b a : Nat)
    (hm : 0 ≤ m) (h2 : isPowOf2 m.toNat = true) (hb : p.bounds = [m]) (hβ : p.switchingCost = [(b * e : ℚ)])
    (hit : ∀ t : Int, 1 ≤ t → t ≤ p.tEnd → ∀ j, 0 ≤ j → j ≤ m → ∀ c, p.toProb.hitCost t [j] = .ok c → Spec.Multiple e h c.cost)
    (o : OfflineOptions) (ha : 1 ≤ a) (hα : o.alpha = a) (hN : p.tEnd.toNat * (h + a * (b * m.toNat)) ≤ N) (x : ℤ) (hx : 0 ≤ x)
    (hxm : x ≤ m) : Uni.Rounded.optimalGraphSearch fl p x o = Uni.optimalGraphSearch p x o :=
  (Uni.Rounded.optimalGraphSearch_whole E ⟨hβ, hit⟩ hb h2 hm o ha hα hN ⟨hx, hxm⟩).1

/-- **C126** Lazy capacity provisioning, with or without a prediction window, is the exact algorithm under the same conditions. -/
theorem C126_lazy_provisioning {fl : ℚ → ℚ} {e : ℚ} {N : Nat} (E : Spec.ExactTo fl e N) (m : ℤ) (h b w : Nat) (g : Int → ℤ → ECost)
    (hm : 0 ≤ m) (h2 : isPowOf2 m.toNat = true) (ps : List (SSCO ℤ C D))
    (hg : ∀ t : Int, 1 ≤ t → t ≤ (ps.length : Int) + w → ∀ j, 0 ≤ j → j ≤ m → Spec.Multiple e h (g t j))
    (I : ∀ k (h : k < ps.length), Spec.Foresight ps[k] m (b * e) g (k + 1) w)
    (hN : (ps.length + w) * (h + b * m.toNat) ≤ N) :
    Spec.play SSCO.tEnd (lcpAlg (Lcp.Rounded.boundedInt fl)) [] none (ps.map fun p => ⟨p, w⟩)
      = Spec.play SSCO.tEnd (lcpAlg boundedInt) [] none (ps.map fun p => ⟨p, w⟩) :=
  Lcp.Rounded.play_whole E (ps.length + w) (by exact_mod_cast hg) hm h2 hN ps 0 [] none rfl (by simp) (by omega)
    (by simpa using I)

/-- **C126** With 53 binary digits and whole costs (of any unit that is a power of two), lazy capacity provisioning is 3-competitive. -/
theorem C126_three_competitive (z : ℤ) (m : ℤ) (h b w : Nat) (g : Int → ℤ → ECost)
    (h2 : isPowOf2 m.toNat = true) (ps : List (SSCO ℤ C D))
    (hg : ∀ t : Int, 1 ≤ t → t ≤ (ps.length : Int) + w → ∀ j, 0 ≤ j → j ≤ m → Spec.Multiple (2 ^ z) h (g t j))
    (K : Spec.Costs m (b * 2 ^ z) g (ps.length + w))
    (I : ∀ k (h : k < ps.length), Spec.Foresight ps[k] m (b * 2 ^ z) g (k + 1) w)
    (q : SSCO ℤ C D) (Q : Spec.Inst q m (b * 2 ^ z) g (ps.length + w))
    (hN : (ps.length + w) * (h + b * m.toNat) < 2 ^ 53) :
    ∃ xs mem, Spec.play SSCO.tEnd (lcpAlg (Lcp.Rounded.boundedInt Spec.double)) [] none (ps.map fun p => ⟨p, w⟩) = .ok (xs, mem) ∧
      xs.length = ps.length ∧ (∀ x ∈ xs, Spec.InBox [m] x) ∧
      ∀ p, ps.getLast? = some p → ∃ c, p.toProb.objective xs = .ok c ∧ c.cost ≠ ⊤ ∧
        ∀ ys : Schedule ℤ, ys.length = ps.length + w → (∀ y ∈ ys, Spec.InBox [m] y) →
          ∃ c', q.toProb.objective ys = .ok c' ∧ c.cost ≤ c'.cost + c'.cost + c'.cost := by
  rw [C126_lazy_provisioning (C126_double z) m h b w g K.hm.le h2 ps hg I (by omega)]
  exact C101_window_three_competitive w ps K I q Q

theorem Uni.Rounded.totalCost_multiple {e : ℚ} {g : Int → ℤ → ECost} {m : ℤ} {h b a : Nat} {inverted : Bool} :
    ∀ (js : List ℤ) (t : Int) (x : ℤ), (∀ s : Int, t ≤ s → s < t + js.length → ∀ j, 0 ≤ j → j ≤ m → Spec.Multiple e h (g s j)) →
      (∀ j ∈ js, 0 ≤ j ∧ j ≤ m) → ∃ n : Nat, Spec.Multiple e n (Spec.totalCost g (mv1 (b * e) inverted) a t x js)
  | [], _, _, _, _ => ⟨0, Spec.Multiple.zero 0⟩
  | j :: js, t, x, hg, hj => by
    obtain ⟨n, hn⟩ := totalCost_multiple js (t + 1) j (fun s h1 h2 => hg s (by omega) (by simp at h2 ⊢; omega))
      (fun i hi => hj i (by simp [hi]))
    have h1 := hg t le_rfl (by simp) j (hj j (by simp)).1 (hj j (by simp)).2
    obtain ⟨k, hk⟩ : ∃ k : Nat, max 0 (if inverted then x - j else j - x) = (k : ℤ) := Int.eq_ofNat_of_zero_le (le_max_left _ _)
    have h2 : Spec.Multiple e (a * (b * k)) (((a : ℚ) * mv1 (b * e) inverted x j : ℚ) : ECost) := by
      refine Or.inr ⟨_, le_rfl, ?_⟩
      rw [mv1, hk]
      push_cast
      congr 1
      ring
    exact ⟨_, (h1.add h2).add hn⟩

/-- **C126** One-dimensional problems with any bound: if the costs are multiples of a unit, and if the error that C123 allows is
smaller than this unit, the schedule returned by the search with rounded arithmetic is optimal. -/
theorem C126_any_bound {fl : ℚ → ℚ} {u : ℚ} (R : Spec.Rounds u fl) (hu4 : u ≤ 1 / 4) (mono : ∀ x y, 0 ≤ x → x ≤ y → fl x ≤ fl y)
    (p : SSCO ℤ C D) (hv : p.verify = .ok ()) (hd : p.d = 1) (e : ℚ) (he : 0 < e) (h b a : Nat)
    (m : ℤ) (hb : p.bounds = [m]) (hβ : p.switchingCost = [(b * e : ℚ)]) (xStart : ℤ) (hx : xStart ≤ m) (o : OfflineOptions)
    (hl : o.l = none) (hα : o.alpha = a) (g : Int → ℤ → ECost)
    (hhit : ∀ t : Int, 1 ≤ t → t ≤ p.tEnd → ∀ j, 0 ≤ j → j ≤ m → ∃ out, p.toProb.hitCost t [j] = .ok ⟨g t j, out⟩)
    (hfin : ∀ t : Int, 1 ≤ t → t ≤ p.tEnd → g t m ≠ ⊤)
    (hmul : ∀ t : Int, 1 ≤ t → t ≤ p.tEnd → ∀ j, 0 ≤ j → j ≤ m → Spec.Multiple e h (g t j))
    (hconv : ∀ t : Int, 1 ≤ t → t ≤ p.tEnd → Spec.ConvexOnE m (g t))
    (q : SSCO ℤ C D) (n : Nat) (hq : Uni.roundBound p = .ok q) (hqb : q.bounds = [2 ^ n])
    (zs : Schedule ℤ) (hzl : (zs.length : Int) = p.tEnd) (hzb : ∀ z ∈ zs, Spec.InBox q.bounds z)
    (hz4 : ∀ z ∈ zs, ∀ j ∈ z, (2 : ℤ) ^ n ∣ 4 * j) (cz : Cost C D) (qz ρ : ℚ)
    (hcz : q.toProb.objectiveWithDefault' zs [xStart] o.alpha o.inverted p.tEnd = .ok cz) (hqz : cz.cost = (qz : ECost))
    (hρ : (1 + u) ^ (p.tEnd.toNat + 4) = ρ * (1 - u) ^ (p.tEnd.toNat + 4)) (hsmall : (ρ - 1) * ρ ^ n * 2 ^ n * qz < e) :
    ∃ P c, Uni.Rounded.optimalGraphSearch fl p xStart o = .ok P ∧ (P.xs.length : Int) = p.tEnd ∧
      (∀ x ∈ P.xs, Spec.InBox p.bounds x) ∧
      p.toProb.objectiveWithDefault' P.xs [xStart] o.alpha o.inverted p.tEnd = .ok c ∧
      ∀ ys : Schedule ℤ, (ys.length : Int) = p.tEnd → (∀ y ∈ ys, Spec.InBox p.bounds y) →
        ∃ c', p.toProb.objectiveWithDefault' ys [xStart] o.alpha o.inverted p.tEnd = .ok c' ∧ c.cost ≤ c'.cost := by
  have hnn : ∀ t : Int, 1 ≤ t → t ≤ p.tEnd → ∀ j, 0 ≤ j → j ≤ m → 0 ≤ g t j := by
    intro t h1 h2 j h3 h4
    rcases hmul t h1 h2 j h3 h4 with hh | ⟨k, _, hh⟩ <;> rw [hh]
    · exact le_top
    · have : (0 : ℚ) ≤ k * e := by positivity
      exact_mod_cast this
  obtain ⟨P, c, k, h1, h2, h3, h4, h5, ⟨out, h6⟩, _, _, q', n', h9, h10, _, h12⟩ := C123_graph_search R hu4 mono p hv hd m hb xStart hx o
    hl (by rw [hα]; positivity) g hhit hfin hnn hconv
  rw [hq] at h9
  have eq' : q = q' := Except.ok.inj h9
  subst eq'
  have en : n' = n := by
    rw [hqb] at h10
    have : (2 : ℤ) ^ n = 2 ^ n' := by simpa using h10
    exact (Int.pow_right_injective (a := 2) (by norm_num) this).symm
  subst en
  have mult : ∀ ys : Schedule ℤ, (ys.length : Int) = p.tEnd → (∀ y ∈ ys, Spec.InBox p.bounds y) → ∀ cy,
      p.toProb.objectiveWithDefault' ys [xStart] o.alpha o.inverted p.tEnd = .ok cy → ∃ n : Nat, Spec.Multiple e n cy.cost := by
    intro ys hyl hyb cy hcy
    rw [hb] at hyb
    obtain ⟨js, rfl, hj⟩ := exists_seq ys hyb
    rw [List.length_map] at hyl
    obtain ⟨out, ho⟩ := objective_one hβ (Q := fun j => 0 ≤ j ∧ j ≤ m) (fun t h1 h2 j hj => hhit t h1 h2 j hj.1 hj.2) o.alpha
      o.inverted xStart js hyl hj
    rw [ho] at hcy
    rw [← Except.ok.inj hcy, hα]
    exact Uni.Rounded.totalCost_multiple (m := m) (h := h) js 1 xStart (fun s h1 h2 => hmul s h1 (by omega)) hj
  refine ⟨P, _, h1, h2, h3, h6, fun ys hyl hyb => ?_⟩
  obtain ⟨cy, cz', g1, g2, g3⟩ := h12 ys zs hyl hyb hzl hzb hz4
  rw [hcz] at g2
  have ez := Except.ok.inj g2
  subst ez
  refine ⟨cy, g1, ?_⟩
  obtain ⟨_, mk⟩ := mult P.xs h2 h3 _ h6
  obtain ⟨_, my⟩ := mult ys hyl hyb _ g1
  rcases my with my | ⟨ny, _, my⟩
  · rw [my]; exact le_top
  rcases mk with mk | ⟨nk, _, mk⟩
  · exact absurd mk WithTop.coe_ne_top
  obtain ⟨_, key⟩ := g3 _ qz my hqz
  have key := key ρ hρ
  have mk : k = nk * e := WithTop.coe_injective mk
  rw [my]
  show ((k : ℚ) : ECost) ≤ _
  rw [WithTop.coe_le_coe, mk]
  have h7 : (nk : ℚ) * e < (ny + 1) * e := by linarith
  have h8 : (nk : ℚ) < ny + 1 := lt_of_mul_lt_mul_right h7 he.le
  have h9 : nk ≤ ny := by
    have : nk < ny + 1 := by exact_mod_cast h8
    omega
  exact mul_le_mul_of_nonneg_right (by exact_mod_cast h9) he.le

/-! ## Examples -/

/-- Four servers, costs `|x - t|`, revealed slot by slot. -/
def Ex.fourAt (k : Nat) : SSCO ℤ Unit Unit := { Ex.ssco1 with tEnd := k, bounds := [4] }

theorem Ex.fourAt_hit (k : Nat) (t : Int) (ht : 1 ≤ t) (j : ℤ) (h0 : 0 ≤ j) (hj : j ≤ 4) :
    ∃ out, (Ex.fourAt k).toProb.hitCost t [j] = .ok ⟨(((|j - t| : ℤ) : ℚ) : ECost), out⟩ := by
  rw [hit_within (p := Ex.fourAt k) rfl h0 hj, Ex.fourAt, Ex.ssco1, CostFn.callMean_certain _ _ ht]
  exact ⟨_, rfl⟩

theorem Ex.fourAt_inst (k : Nat) : Spec.Inst (Ex.fourAt k) 4 2 (fun t j => (((|j - t| : ℤ) : ℚ) : ECost)) k where
  d := rfl
  bounds := rfl
  switching := rfl
  tEnd := rfl
  hit t h1 _ j h0 hj := Ex.fourAt_hit k t h1 j h0 hj
  certain := (Ex.sscoAt_inst k).certain

theorem Ex.abs_multiple (M : Nat) (t : Int) (h1 : 1 ≤ t) (h2 : t ≤ M) (j : ℤ) (h3 : 0 ≤ j) (h4 : j ≤ 4) :
    Spec.Multiple (2 ^ (0 : ℤ)) (M + 4) (((|j - t| : ℤ) : ℚ) : ECost) := by
  refine Or.inr ⟨|j - t|.toNat, ?_, ?_⟩
  · rcases abs_cases (j - t) with ⟨e, _⟩ | ⟨e, _⟩ <;> rw [e] <;> omega
  · have : ((|j - t|.toNat : ℕ) : ℤ) = |j - t| := Int.toNat_of_nonneg (abs_nonneg _)
    rw [zpow_zero, mul_one]
    have h : (((|j - t|.toNat : ℕ) : ℤ) : ℚ) = ((|j - t| : ℤ) : ℚ) := by rw [this]
    rw [← h, Int.cast_natCast]

/-- C126 applies to four servers over any number of slots up to 1000, with any window up to 1000 slots. -/
example (n w : Nat) (hn : n ≤ 1000) (hw : w ≤ 1000) := C126_three_competitive 0 4 (n + w + 4) 2 w
  (fun t j => (((|j - t| : ℤ) : ℚ) : ECost)) ((C13_is_pow_of_2 _).2 ⟨2, rfl⟩)
  ((List.range n).map fun k => Ex.fourAt (k + 1))
  (by
    intro t h1 h2 j h3 h4
    exact Ex.abs_multiple (n + w) t h1 (by simpa using h2) j h3 h4)
  (by
    have := Ex.abs_costs (n + w)
    refine ⟨by norm_num, by norm_num, fun _ _ _ => WithTop.coe_ne_top, ?_, ?_⟩
    · intro t h1 h2 j h3 h4
      exact this.nonneg t h1 (by simpa using h2) j h3 (by omega)
    · intro t h1 h2 x y z hx hxy hyz hz
      exact this.conv t h1 (by simpa using h2) x y z hx hxy hyz (by omega))
  (fun k hk => by
    simp only [List.getElem_map, List.getElem_range]
    have := Ex.fourAt_inst (k + 1)
    exact ⟨this.d, this.bounds, by rw [this.switching]; norm_num, this.tEnd, fun t h1 _ j h0 hj => Ex.fourAt_hit _ t h1 j h0 hj,
      this.certain⟩)
  (Ex.fourAt (n + w)) (by
    have := Ex.fourAt_inst (n + w)
    refine ⟨this.d, this.bounds, by rw [this.switching]; norm_num, by simpa using this.tEnd, fun t h1 _ j h0 hj => Ex.fourAt_hit _ t h1 j h0 hj, ?_⟩
    intro t h1 h2
    exact this.certain t h1 (by simpa using h2))
  (by
    simp only [List.length_map, List.length_range]
    have h1 : n + w ≤ 2000 := by omega
    have h2 : n + w + 4 + 2 * (4 : ℤ).toNat ≤ 2012 := by
      have : (4 : ℤ).toNat = 4 := rfl
      omega
    calc (n + w) * (n + w + 4 + 2 * (4 : ℤ).toNat) ≤ 2000 * 2012 := Nat.mul_le_mul h1 h2
      _ < 2 ^ 53 := by norm_num)

/-- `Ex.ssco1` with its bound extended to a power of two. -/
def Ex.eight : SSCO ℤ Unit Unit :=
  { Ex.ssco1 with bounds := [8], hittingCost := CostFn.new 1 (SingleCostFn.certain (Uni.extendedHit Ex.ssco1 5)) }

theorem Ex.eight_cost (inverted : Bool) : ∃ cz, Ex.eight.toProb.objectiveWithDefault' [[2], [2], [2], [2]] [2] 1 inverted 4 = .ok cz ∧
    cz.cost = ((4 : ℚ) : ECost) := by
  have key : ∀ i : Bool, (Ex.eight.toProb.objectiveWithDefault' [[2], [2], [2], [2]] [2] 1 i 4).map (·.cost) = .ok ((4 : ℚ) : ECost) := by
    decide +kernel
  have key := key inverted
  cases h : Ex.eight.toProb.objectiveWithDefault' [[2], [2], [2], [2]] [2] 1 inverted 4 with
  | error x => rw [h] at key; cases key
  | ok c => rw [h] at key; exact ⟨c, rfl, Except.ok.inj key⟩

/-- C126 applies to five servers, which is not a power of two; `Ex.eight_cost` provides the last two hypotheses. -/
example (inverted : Bool) (cz : Cost Unit Unit)
    (hcz : Ex.eight.toProb.objectiveWithDefault' [[2], [2], [2], [2]] [2] 1 inverted 4 = .ok cz) (hq : cz.cost = ((4 : ℚ) : ECost)) :=
  C126_any_bound C120_double_rounds (by norm_num) C123_double_mono Ex.ssco1 (by decide +kernel) rfl 1 one_pos
  8 2 1 5 rfl (by norm_num [Ex.ssco1]) 2 (by norm_num) ⟨inverted, 1, none⟩ rfl (by norm_num) (fun t j => (((|j - t| : ℤ) : ℚ) : ECost))
  (fun t h1 _ j h0 hj => Ex.ssco1_hit t h1 j h0 hj) (fun _ _ _ => WithTop.coe_ne_top)
  (by
    intro t h1 h2 j h3 h4
    have h2 : t ≤ 4 := h2
    refine Or.inr ⟨|j - t|.toNat, ?_, ?_⟩
    · rcases abs_cases (j - t) with ⟨e, _⟩ | ⟨e, _⟩ <;> rw [e] <;> omega
    · have h : (((|j - t|.toNat : ℕ) : ℤ) : ℚ) = ((|j - t| : ℤ) : ℚ) := by rw [Int.toNat_of_nonneg (abs_nonneg _)]
      rw [← h, Int.cast_natCast, mul_one])
  (fun t h1 h2 => (Ex.abs_costs 4).conv t h1 h2)
  Ex.eight 3
  (by
    have h5 : isPowOf2 5 = false := by decide +kernel
    simp only [Uni.roundBound, show Ex.ssco1.bounds = [5] from rfl, idx, bind, Except.bind, List.getElem?_cons_zero,
      show (5 : ℤ).toNat = 5 from rfl, h5, Uni.makePowOf2]
    rfl)
  rfl [[2], [2], [2], [2]] rfl
  (by
    intro z hz
    simp only [List.mem_cons, List.not_mem_nil, or_false, or_self] at hz
    subst hz
    exact .cons ⟨by norm_num, by norm_num⟩ .nil)
  (by decide +kernel) cz 4 _ hcz hq
  (div_mul_cancel₀ ((1 + 1 / 2 ^ 53 : ℚ) ^ 8) (by norm_num : ((1 - 1 / 2 ^ 53 : ℚ) ^ 8) ≠ 0)).symm
  (by norm_num)

/-- A dear first slot, then a slot that needs the server, revealed slot by slot. -/
def Ex.dearFirst (k : Nat) : SSCO ℤ Unit Unit where
  d := 1
  tEnd := k
  bounds := [1]
  switchingCost := [1]
  hittingCost := CostFn.new 1 (SingleCostFn.certain fun t x =>
    .ok (Cost.raw (((if t = 1 then 2 ^ 60 else if x.getD 0 0 = 0 then 3 else 0 : ℤ) : ℚ) : ECost)))

/-- **C126** (bound on the costs). With costs beyond `2⁵³` units, lazy capacity provisioning can play another schedule: after a dear
slot, the bounds no longer see the costs of the next ones. -/
theorem C126_size_counterexample :
    ((Spec.play SSCO.tEnd (lcpAlg (Lcp.Rounded.boundedInt Spec.double)) [] none [⟨Ex.dearFirst 1, 0⟩, ⟨Ex.dearFirst 2, 0⟩]).toOption.map
      (·.1)) = some [[0], [0]] ∧
    ((Spec.play SSCO.tEnd (lcpAlg boundedInt) [] none [⟨Ex.dearFirst 1, 0⟩, ⟨Ex.dearFirst 2, 0⟩]).toOption.map (·.1)) = some [[0], [1]] := by
  decide +kernel

end Soco
