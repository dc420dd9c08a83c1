import Verif.Model.RoundedBudget
import Verif.Props.LazyOne
import Verif.Props.RoundedUni

/-!
# C125: rounding the time for which idle servers are kept
-/

namespace Soco
namespace Lb.Rounded

/-- The memory with another factor. -/
def withGamma (g : ℚ) (m : Memory) : Memory := { m with gamma := g }

/-- The factor which has the same effect as rounding. -/
def factor (fl : ℚ → ℚ) (β c g : ℚ) : ℚ := fl (fl (g * β) / c) * c / β

theorem factor_floor (fl : ℚ → ℚ) (β c g : ℚ) (hβ : 0 < β) (hc : 0 < c) : factor fl β c g * β / c = fl (fl (g * β) / c) := by
  unfold factor
  field_simp

theorem updateLane_eq {fl : ℚ → ℚ} {p : SLO ℤ} {β c : ℚ} (hs : p.switchingCost = [β]) (hh : p.hittingCost = [c]) (hβ : 0 < β) (hc : 0 < c)
    (gamma : ℚ) (r : Bool) (t : Int) (pl : List Nat) (ph : List Int) (ol : List Nat) :
    updateLane fl p t gamma r pl ph ol = Lb.updateLane p t (factor fl β c (if r then gamma else 1)) true pl ph ol := by
  have h : ∀ k, nextTimeHorizon fl p.hittingCost p.switchingCost k gamma r
      = Lb.nextTimeHorizon p.hittingCost p.switchingCost k (factor fl β c (if r then gamma else 1)) true := by
    intro k
    unfold nextTimeHorizon Lb.nextTimeHorizon
    rw [hs, hh]
    match k with
    | 0 => rfl
    | 1 =>
      simp only [idx, Nat.sub_self, List.getElem?_cons_zero, bind, Except.bind, if_neg hc.ne', if_true, factor_floor _ _ _ _ hβ hc]
    | k + 2 => simp [idx, bind, Except.bind]
  funext j
  simp only [updateLane, Lb.updateLane, h]

/-- For one type, rounding amounts to another factor. -/
theorem lb_eq {fl : ℚ → ℚ} (S : Num.Solver) {o : Online (SLO ℤ)} {β c : ℚ} (hs : o.p.switchingCost = [β]) (hh : o.p.hittingCost = [c])
    (hβ : 0 < β) (hc : 0 < c) (r : Bool) (t : Int) (xs : Schedule ℤ) (m : Memory) :
    lb fl S r o t xs m = (Lb.lb S true o t xs (withGamma (factor fl β c (if r then m.gamma else 1)) m)).map
      fun s => (s.1, s.2.map (withGamma m.gamma)) := by
  simp only [lb, Lb.lb, withGamma, updateLane_eq hs hh hβ hc]
  cases assertR (decide (o.w = 0)) (.unsupportedPredictionWindow o.w) with
  | error e => rfl
  | ok _ =>
    simp only [bind, Except.bind]
    cases findOptimalLanes S m.cache o.p o.p.bounds.sum.toNat with
    | error e => rfl
    | ok opt =>
      simp only
      cases (List.range o.p.bounds.sum.toNat).mapM (Lb.updateLane o.p t (factor fl β c (if r then m.gamma else 1)) true
          m.lanes m.horizons opt.1) with
      | error e => rfl
      | ok ls =>
        simp only
        cases assertP (descending (ls.map Prod.snd)) with
        | error e => rfl
        | ok _ =>
          simp only
          cases collectConfig o.p.d.toNat (ls.map Prod.fst) <;> rfl

theorem lb_gamma {S : Num.Solver} {r : Bool} {o : Online (SLO ℤ)} {t : Int} {xs : Schedule ℤ} {m : Memory} {s : Config ℤ × Option Memory}
    (h : Lb.lb S r o t xs m = .ok s) : ∃ k, s.2 = some k ∧ k.gamma = m.gamma := by
  unfold Lb.lb at h
  cases ha : assertR (decide (o.w = 0)) (.unsupportedPredictionWindow o.w) with
  | error e => rw [ha] at h; cases h
  | ok _ =>
    rw [ha] at h
    simp only [bind, Except.bind] at h
    cases h1 : findOptimalLanes S m.cache o.p o.p.bounds.sum.toNat with
    | error e => rw [h1] at h; cases h
    | ok opt =>
      rw [h1] at h
      simp only at h
      cases h2 : (List.range o.p.bounds.sum.toNat).mapM (Lb.updateLane o.p t m.gamma r m.lanes m.horizons opt.1) with
      | error e => rw [h2] at h; cases h
      | ok ls =>
        rw [h2] at h
        simp only at h
        cases h3 : assertP (descending (ls.map Prod.snd)) with
        | error e => rw [h3] at h; cases h
        | ok _ =>
          rw [h3] at h
          simp only at h
          cases h4 : collectConfig o.p.d.toNat (ls.map Prod.fst) with
          | error e => rw [h4] at h; cases h
          | ok _ => rw [h4] at h; cases h; exact ⟨_, rfl, rfl⟩

/-- The same for whole runs. -/
theorem play_eq {fl : ℚ → ℚ} (S : Num.Solver) {β c : ℚ} (hβ : 0 < β) (hc : 0 < c) (r : Bool) (gamma : ℚ) :
    ∀ (os : List (Online (SLO ℤ))), (∀ o ∈ os, o.p.switchingCost = [β] ∧ o.p.hittingCost = [c]) →
    ∀ (xs : Schedule ℤ) (m m' : Option Memory), m' = m.map (withGamma (factor fl β c (if r then gamma else 1))) →
      (∀ k, m = some k → k.gamma = gamma) →
      (Spec.play SLO.tEnd (alg fl S gamma r) xs m os).map Prod.fst
        = (Spec.play SLO.tEnd (Lb.alg S (factor fl β c (if r then gamma else 1)) true) xs m' os).map Prod.fst := by
  intro os
  induction os with
  | nil => intros; rfl
  | cons o os ih =>
    intro h xs m m' hmm hm
    obtain ⟨hs, hh⟩ := h o (by simp)
    have ih := ih fun o ho => h o (by simp [ho])
    set g' := factor fl β c (if r then gamma else 1) with hg'
    obtain ⟨a, b, ha, hb, hab, hag⟩ : ∃ a b, m.getD ((alg fl S gamma r).default o) = a ∧
        m'.getD ((Lb.alg S g' true).default o) = b ∧ b = withGamma g' a ∧ a.gamma = gamma := by
      refine ⟨_, _, rfl, rfl, ?_, ?_⟩
      · rw [hmm]; cases m <;> rfl
      · cases m with
        | none => rfl
        | some k => exact hm k rfl
    have e1 : (alg fl S gamma r).next o xs m = lb fl S r o (Schedule.tEnd xs + 1) xs a := by
      unfold OnlineAlgorithm.next; rw [ha]; rfl
    have e2 : (Lb.alg S g' true).next o xs m' = Lb.lb S true o (Schedule.tEnd xs + 1) xs b := by
      unfold OnlineAlgorithm.next; rw [hb]; rfl
    have e3 := lb_eq (fl := fl) S hs hh hβ hc r (Schedule.tEnd xs + 1) xs a
    rw [hag, ← hg', ← hab] at e3
    simp only [Spec.play, onlineNext, e1, e2, e3]
    cases assertR (decide (Schedule.tEnd xs + 1 = SLO.tEnd o.p))
        (.onlineInconsistentCurrentTimeSlot (Schedule.tEnd xs) (SLO.tEnd o.p)) with
    | error e => rfl
    | ok _ =>
      simp only [bind, Except.bind]
      cases hl : Lb.lb S true o (Schedule.tEnd xs + 1) xs b with
      | error e => rfl
      | ok s =>
        obtain ⟨k, hk, hkg⟩ := lb_gamma hl
        simp only [Except.map, hk]
        apply ih
        · have : k.gamma = g' := by rw [hkg, hab]; rfl
          simp [withGamma, ← this]
        · intro k' hk'
          simp only [Option.map_some, Option.some.injEq] at hk'
          rw [← hk']; rfl

/-- **C125** With one server type and rounding of the product and the quotient which give the time for which servers are kept, lazy
budgeting activates in every slot as many servers as the largest load of as many of the last slots as the rounded quotient says. -/
theorem C125_window (S : Num.Solver) (hS : Spec.Shaped S) (hE : Spec.SolvesEmpty S) (u : ℚ) (fl : ℚ → ℚ) (hfl : Spec.Rounds u fl)
    (randomized : Bool) (gamma : ℚ) (hg : 0 ≤ gamma) (m : ℤ) (c β : ℚ) (hc : 0 < c) (ps : List (SLO ℤ)) (h : ShownOne m c β ps) :
    ∃ xs mem, Spec.play SLO.tEnd (alg fl S gamma randomized) [] none (ps.map fun p => ⟨p, 0⟩) = .ok (xs, mem) ∧
      xs.length = ps.length ∧ ∀ (k : Nat) (p : SLO ℤ), ps[k]? = some p →
        xs[k]? = some [Spec.windowMax (max 1 ⌊fl (fl ((if randomized then gamma else 1) * β) / c)⌋.toNat) (p.load.take (k + 1))] := by
  by_cases hne : ps = []
  · subst hne
    exact ⟨[], none, rfl, rfl, by simp⟩
  obtain ⟨q, hq⟩ := List.exists_mem_of_ne_nil ps hne
  have hβ : 0 < β := (h.one q hq).valid.2.2.2.2.2.2.1 β (by rw [(h.one q hq).switching]; simp)
  have hpos : ∀ x, 0 ≤ x → 0 ≤ fl x := fun x hx => le_trans (mul_nonneg (by linarith [hfl.lt_one]) hx) (hfl.below x hx)
  set g' := factor fl β c (if randomized then gamma else 1) with hg'
  have hg0 : 0 ≤ g' := by
    rw [hg']
    unfold factor
    refine div_nonneg (mul_nonneg (hpos _ (div_nonneg (hpos _ (mul_nonneg ?_ hβ.le)) hc.le)) hc.le) hβ.le
    split_ifs
    · exact hg
    · exact zero_le_one
  obtain ⟨xs, mem, h1, h2, h3⟩ := C69_window S hS hE true g' hg0 m c β hc ps h
  have he := play_eq (fl := fl) S hβ hc randomized gamma (ps.map fun p => ⟨p, 0⟩) (by
    intro o ho
    obtain ⟨p, hp, rfl⟩ := List.mem_map.1 ho
    exact ⟨(h.one p hp).switching, (h.one p hp).hitting⟩) [] none none rfl (by simp)
  rw [← hg', h1] at he
  cases hr : Spec.play SLO.tEnd (alg fl S gamma randomized) [] none (ps.map fun p => ⟨p, 0⟩) with
  | error e => rw [hr] at he; cases he
  | ok s =>
    rw [hr] at he
    have hx : s.1 = xs := Except.ok.inj he
    refine ⟨xs, s.2, by rw [← hx], h2, fun k p hp => ?_⟩
    rw [h3 k p hp]
    simp only [Spec.keepSlots, if_true, hg', factor_floor _ _ _ _ hβ hc]

/-- The problem with another switching cost. -/
def dearer (β : ℚ) (p : SLO ℤ) : SLO ℤ := { p with switchingCost := [β] }

theorem dearer_one {m : ℤ} {c β β' : ℚ} (hβ : 0 < β') {p : SLO ℤ} (h : OneType m c β p) : OneType m c β' (dearer β' p) := by
  refine ⟨?_, h.d, h.bounds, h.hitting, rfl, h.loads⟩
  obtain ⟨a1, a2, a3, a4, a5, a6, a7, a8, a9, a10, a11⟩ := h.valid
  exact (C10_slo_verify_exact (dearer β' p) (by show p.d ≤ p.hittingCost.length; rw [h.hitting, h.d]; rfl)).1
    ⟨a1, a2, a3, by show (([β'] : List ℚ).length : Int) = p.d; rw [h.d]; rfl, a5, a6,
      by intro b hb; simp [dearer] at hb; rw [hb]; exact hβ, a8, a9, by simp [dearer], a11⟩

theorem dearer_shown {m : ℤ} {c β β' : ℚ} (hβ : 0 < β') {ps : List (SLO ℤ)} (h : ShownOne m c β ps) :
    ShownOne m c β' (ps.map (dearer β')) := by
  refine ⟨?_, ?_, ?_⟩
  · intro p hp
    obtain ⟨q, hq, rfl⟩ := List.mem_map.1 hp
    exact dearer_one hβ (h.one q hq)
  · rw [List.pairwise_map]
    refine h.later.imp fun {a b} hab => ?_
    exact ⟨hab.d, hab.bounds, rfl, hab.hittingCost, hab.tEnd, hab.load⟩
  · intro k p hp
    rw [List.getElem?_map] at hp
    cases hq : ps[k]? with
    | none => rw [hq] at hp; cases hp
    | some q =>
      rw [hq] at hp
      cases hp
      exact h.slot k q hq

theorem lineCost_mono {c β β' : ℚ} (h : β ≤ β') (xs : List ℤ) (prev : ℤ) : lineCost c β prev xs ≤ lineCost c β' prev xs := by
  induction xs generalizing prev with
  | nil => exact le_refl _
  | cons x xs ih =>
    have := mul_le_mul_of_nonneg_right h (le_max_left (0 : ℚ) ((x : ℚ) - prev))
    simp only [lineCost]
    linarith [ih x]

theorem lineCost_scale {c β β' k : ℚ} (hc : 0 ≤ c) (hk : 1 ≤ k) (h : β' ≤ k * β) (xs : List ℤ) (hx : ∀ x ∈ xs, 0 ≤ x) (prev : ℤ) :
    lineCost c β' prev xs ≤ k * lineCost c β prev xs := by
  induction xs generalizing prev with
  | nil => simp [lineCost]
  | cons x xs ih =>
    have h1 := mul_le_mul_of_nonneg_right h (le_max_left (0 : ℚ) ((x : ℚ) - prev))
    have h2 : (0 : ℚ) ≤ c * x := mul_nonneg hc (by exact_mod_cast hx x (by simp))
    have h3 := ih (fun y hy => hx y (by simp [hy])) x
    simp only [lineCost]
    nlinarith

/-- **C125** The deterministic algorithm with one server type stays `2 (1 + u)`-competitive when the time for which servers are kept is
rounded: rounding is monotone with relative error at most `u`, and neither the switching cost nor the whole number of slots whose
operating costs do not exceed it need rounding. -/
theorem C125_two_competitive (S : Num.Solver) (hS : Spec.Shaped S) (hE : Spec.SolvesEmpty S) (u : ℚ) (fl : ℚ → ℚ)
    (hfl : Spec.Rounds u fl) (hmono : ∀ x y, 0 ≤ x → x ≤ y → fl x ≤ fl y) (gamma : ℚ) (hg : 0 ≤ gamma) (m : ℤ) (c β : ℚ) (hc : 0 < c)
    (hβ' : fl β = β) (hn : fl (⌊β / c⌋ : ℤ) = (⌊β / c⌋ : ℤ)) (ps : List (SLO ℤ)) (h : ShownOne m c β ps) (p : SLO ℤ)
    (hp : ps.getLast? = some p) :
    ∃ xs mem, Spec.play SLO.tEnd (alg fl S gamma false) [] none (ps.map fun p => ⟨p, 0⟩) = .ok (xs, mem) ∧
      Spec.InSpace p.tEnd p.bounds xs ∧ ∃ k : ℚ, Spec.loadTotal p xs = (k : ECost) ∧
        ∀ zs, Spec.InSpace p.tEnd p.bounds zs → ∀ q : ℚ, Spec.loadTotal p zs = (q : ECost) → k ≤ 2 * (1 + u) * q := by
  have hpm : p ∈ ps := List.mem_of_getLast? hp
  have hpo := h.one p hpm
  have hβ : 0 < β := hpo.valid.2.2.2.2.2.2.1 β (by rw [hpo.switching]; simp)
  obtain ⟨xs, mem, h1, h2, h3⟩ := C125_window S hS hE u fl hfl false gamma hg m c β hc ps h
  simp only [Bool.false_eq_true, if_false, one_mul, hβ'] at h3
  have hq0 : (0 : ℤ) ≤ ⌊β / c⌋ := Int.floor_nonneg.2 (div_nonneg hβ.le hc.le)
  have hW0 : ⌊β / c⌋ ≤ ⌊fl (β / c)⌋ := by
    rw [Int.le_floor, ← hn]
    exact hmono _ _ (by exact_mod_cast hq0) (Int.floor_le _)
  set W := ⌊fl (β / c)⌋ with hW
  have hWle : (W : ℚ) * c ≤ (1 + u) * β := by
    have a := Int.floor_le (fl (β / c))
    have b := hfl.above _ (div_nonneg hβ.le hc.le)
    have : (W : ℚ) ≤ (1 + u) * (β / c) := by rw [hW]; linarith
    calc (W : ℚ) * c ≤ (1 + u) * (β / c) * c := mul_le_mul_of_nonneg_right this hc.le
      _ = (1 + u) * β := by field_simp
  set B := max β ((W : ℚ) * c) with hB
  have hB0 : 0 < B := lt_of_lt_of_le hβ (le_max_left _ _)
  have hBle : B ≤ (1 + u) * β := max_le (by nlinarith [hfl.nonneg]) hWle
  have hkeep : ⌊B / c⌋ = W := by
    rw [hB, ← max_div_div_right hc.le, mul_div_assoc, div_self hc.ne', mul_one]
    apply le_antisymm
    · rw [← Int.lt_add_one_iff, Int.floor_lt, max_lt_iff]
      constructor
      · have := Int.lt_floor_add_one (β / c)
        have h4 : ((⌊β / c⌋ : ℤ) : ℚ) ≤ W := by exact_mod_cast hW0
        push_cast
        linarith
      · push_cast; linarith
    · rw [Int.le_floor]
      exact le_max_right _ _
  have hs := dearer_shown hB0 h
  obtain ⟨ys, mem', e1, e2, e3, e4⟩ := C69_two_competitive_partial S hS hE gamma hg m c B hc _ hs (dearer B p) (by
    rw [List.getLast?_map, hp]; rfl)
  obtain ⟨ys', mem'', f1, f2, f3⟩ := C69_window S hS hE false gamma hg m c B hc _ hs
  rw [e1] at f1
  cases f1
  have hxy : xs = ys := by
    apply List.ext_getElem?
    intro k
    by_cases hk : k < ps.length
    · have hpk : ps[k]? = some ps[k] := List.getElem?_eq_getElem hk
      rw [h3 k _ hpk, f3 k (dearer B ps[k]) (by rw [List.getElem?_map, hpk]; rfl)]
      simp only [Spec.keepSlots, Bool.false_eq_true, if_false, one_mul, hkeep]
      rfl
    · rw [List.getElem?_eq_none (by omega), List.getElem?_eq_none (by rw [f2, List.length_map]; omega)]
  subst hxy
  have hdo := dearer_one hB0 hpo
  obtain ⟨vs, rfl, hvs⟩ := space_line (show ∀ x ∈ xs, Spec.InBox [m] x from hpo.bounds ▸ e2.2)
  have hcov := loadTotal_cover hdo vs e3
  refine ⟨_, mem, h1, e2, lineCost c β 0 vs, loadTotal_line hpo vs hcov, ?_⟩
  intro zs hz q hq
  obtain ⟨us, rfl, hus⟩ := space_line (hpo.bounds ▸ hz.2)
  have hcu := loadTotal_cover hpo us (by rw [hq]; exact WithTop.coe_ne_top)
  rw [loadTotal_line hpo us hcu] at hq
  have hq := WithTop.coe_injective hq
  have key := e4 _ hz
  rw [loadTotal_line hdo vs hcov, loadTotal_line hdo us hcu, ← WithTop.coe_add, WithTop.coe_le_coe] at key
  have k1 := lineCost_mono (c := c) (le_max_left β ((W : ℚ) * c)) vs 0
  have k2 := lineCost_scale hc.le (by linarith [hfl.nonneg] : (1 : ℚ) ≤ 1 + u) hBle us (fun x hx => (hus x hx).1) 0
  rw [← hB] at k1
  rw [hq] at k2
  linarith

/-- **C125** Whole numbers below `2⁵³` need no rounding. -/
theorem C125_double_nat (n : Nat) (hn : n < 2 ^ 53) : Spec.double n = n := by
  rcases Nat.eq_zero_or_pos n with rfl | h0
  · simp [Spec.double]
  have hlog : Int.log 2 (n : ℚ) = (Nat.log 2 n : ℤ) := Int.log_natCast 2 n
  have hle : Nat.log 2 n ≤ 52 := by
    have := Nat.log_lt_of_lt_pow (b := 2) (by omega : n ≠ 0) hn
    omega
  obtain ⟨e, he⟩ : ∃ e : Nat, Nat.log 2 n + e = 52 := ⟨52 - Nat.log 2 n, by omega⟩
  unfold Spec.double
  rw [hlog, show (52 : ℤ) - (Nat.log 2 n : ℤ) = (e : ℤ) by omega, show ((Nat.log 2 n : ℤ) : ℤ) - 52 = -(e : ℤ) by omega, zpow_neg,
    zpow_natCast, show ((n : ℚ) * 2 ^ e) = (((n * 2 ^ e : ℤ)) : ℚ) by push_cast; ring, round_intCast]
  push_cast
  field_simp

/-- **C125** With 53 binary digits: the deterministic algorithm with one server type is `2 (1 + 2⁻⁵³)`-competitive if the switching cost
is a number with 53 digits and less than `2⁵³` times the operating cost. -/
theorem C125_double (S : Num.Solver) (hS : Spec.Shaped S) (hE : Spec.SolvesEmpty S) (gamma : ℚ) (hg : 0 ≤ gamma) (m : ℤ) (c β : ℚ)
    (hc : 0 < c) (hβ : Spec.double β = β) (hlt : β < 2 ^ 53 * c) (ps : List (SLO ℤ)) (h : ShownOne m c β ps) (p : SLO ℤ)
    (hp : ps.getLast? = some p) :
    ∃ xs mem, Spec.play SLO.tEnd (alg Spec.double S gamma false) [] none (ps.map fun p => ⟨p, 0⟩) = .ok (xs, mem) ∧
      Spec.InSpace p.tEnd p.bounds xs ∧ ∃ k : ℚ, Spec.loadTotal p xs = (k : ECost) ∧
        ∀ zs, Spec.InSpace p.tEnd p.bounds zs → ∀ q : ℚ, Spec.loadTotal p zs = (q : ECost) → k ≤ 2 * (1 + 1 / 2 ^ 53) * q := by
  have hpo := h.one p (List.mem_of_getLast? hp)
  have hβ0 : 0 < β := hpo.valid.2.2.2.2.2.2.1 β (by rw [hpo.switching]; simp)
  refine C125_two_competitive S hS hE _ _ C120_double_rounds C123_double_mono gamma hg m c β hc hβ ?_ ps h p hp
  have h0 : (0 : ℤ) ≤ ⌊β / c⌋ := Int.floor_nonneg.2 (div_nonneg hβ0.le hc.le)
  have h1 : ⌊β / c⌋ < 2 ^ 53 := by
    rw [Int.floor_lt, div_lt_iff₀ hc]
    exact_mod_cast hlt
  obtain ⟨n, hn⟩ := Int.eq_ofNat_of_zero_le h0
  rw [hn] at h1 ⊢
  exact C125_double_nat n (by exact_mod_cast h1)

/-- **C125** Without rounding this is lazy budgeting as in C69. -/
theorem C125_exact (S : Num.Solver) (gamma : ℚ) (randomized : Bool) : alg id S gamma randomized = Lb.alg S gamma randomized := rfl

/-- **C125** The time is not always the one without rounding: for this switching cost and this operating cost, both numbers with 53 digits,
two slots' operating costs do not exceed the switching cost, three slots' do, and yet the servers are kept for three slots. -/
theorem C125_slots_counterexample : ∃ β c : ℚ, Spec.double β = β ∧ Spec.double c = c ∧ 0 < c ∧ 2 * c ≤ β ∧ β < 3 * c ∧
    max 1 ⌊Spec.double (Spec.double (1 * β) / c)⌋.toNat = 3 :=
  ⟨3 + 1 / 2 ^ 51, 1 + 1 / 2 ^ 52, by decide +kernel, by decide +kernel, by decide +kernel, by decide +kernel, by decide +kernel,
    by decide +kernel⟩

/-! ## The hypotheses are met -/

example := C125_window Offline.lazySolver lazySolver_ok.1 lazySolver_ok.2 _ _ C120_double_rounds true (1 / 2) (by decide +kernel) 3 1 2
  (by decide) _ rented_ok

example := C125_double Offline.lazySolver lazySolver_ok.1 lazySolver_ok.2 1 (by decide) 3 1 2 (by decide)
  (by exact_mod_cast C125_double_nat 2 (by decide)) (by norm_num) _ rented_ok (rented 4) rfl

example : (Spec.play SLO.tEnd (alg Spec.double Offline.lazySolver 1 false) [] none
    ([rented 1, rented 2, rented 3, rented 4].map fun p => ⟨p, 0⟩)).toOption.map (·.1) =
    some [[3], [3], [1], [1]] := by decide +kernel

end Lb.Rounded
end Soco
