import Verif.Model.Static
import Verif.Spec.Static
import Verif.Props.Examples
import Verif.Props.Objective
import Verif.Props.CostFn
import Verif.Props.UniGraph

/-!
# C26: the static integral optimum
-/

namespace Soco
open Static

section
variable {C D : Type} [OutSuccess C] [OutFailure D]

theorem Static.mem_intRange {lo hi j : ℤ} : j ∈ intRange lo hi ↔ lo ≤ j ∧ j ≤ hi := by
  unfold intRange
  simp only [List.mem_map, List.mem_range]
  constructor
  · rintro ⟨i, hi, rfl⟩; omega
  · intro h; exact ⟨(j - lo).toNat, by omega, by omega⟩

theorem Static.intRange_cons {lo hi : ℤ} (h : lo ≤ hi) : intRange lo hi = lo :: intRange (lo + 1) hi := by
  unfold intRange
  rw [show (hi - lo + 1).toNat = (hi - (lo + 1) + 1).toNat + 1 by omega, List.range_succ_eq_map]
  simp only [List.map_cons, List.map_map, Nat.cast_zero, add_zero]
  congr 1
  apply List.map_congr_left
  intro i _
  simp only [Function.comp, Nat.succ_eq_add_one]; push_cast; ring

theorem Static.intRange_nil {lo hi : ℤ} (h : hi < lo) : intRange lo hi = [] := by
  unfold intRange
  rw [show (hi - lo + 1).toNat = 0 by omega]; rfl

/-- The scan of one dimension with quasi-convex values finds the least one. -/
theorem Static.scan_ok (eval : ℤ → Res (Config ℤ × ECost)) (x : ℤ → Config ℤ) (G : ℤ → ECost) (lo0 hi : ℤ)
    (he : ∀ j, lo0 ≤ j → j ≤ hi → ∃ y, eval j = .ok (y, G j) ∧ (G j ≠ ⊤ → y = x j))
    (hq : ∀ i j l, lo0 ≤ i → i < j → j < l → l ≤ hi → G j ≤ max (G i) (G l)) :
    ∀ (n : Nat) (lo : ℤ) (picked : Config ℤ) (c : ECost), lo0 ≤ lo → (hi - lo + 1).toNat = n →
      (∀ i, lo0 ≤ i → i < lo → c ≤ G i) → (c ≠ ⊤ → ∃ i, lo0 ≤ i ∧ i < lo ∧ G i = c ∧ picked = x i) →
      ∃ picked' c', scan eval (intRange lo hi) picked c = .ok (picked', c') ∧
        (∀ i, lo0 ≤ i → i ≤ hi → c' ≤ G i) ∧
        (c' ≠ ⊤ → ∃ i, lo0 ≤ i ∧ (i ≤ hi ∨ i < lo) ∧ G i = c' ∧ picked' = x i) ∧
        (c' = ⊤ → c = ⊤ ∧ picked' = picked) := by
  intro n
  induction n with
  | zero =>
    intro lo picked c h0 hn hc hp
    rw [intRange_nil (by omega)]
    refine ⟨picked, c, rfl, fun i h1 h2 => hc i h1 (by omega), ?_, fun h => ⟨h, rfl⟩⟩
    intro h
    obtain ⟨i, a, b, e, e'⟩ := hp h
    exact ⟨i, a, Or.inr b, e, e'⟩
  | succ n ih =>
    intro lo picked c h0 hn hc hp
    rw [intRange_cons (by omega)]
    obtain ⟨y, hy, hyx⟩ := he lo h0 (by omega)
    simp only [scan, hy, bind, Except.bind]
    split_ifs with h1 h2
    · have hfin : G lo ≠ ⊤ := (lt_of_lt_of_le h1 le_top).ne
      obtain ⟨p', c', e1, e2, e3, e4⟩ := ih (lo + 1) y (G lo) (by omega) (by omega)
        (by
          intro i a b
          rcases lt_or_eq_of_le (show i ≤ lo by omega) with hl | rfl
          · exact h1.le.trans (hc i a hl)
          · exact le_rfl)
        (fun _ => ⟨lo, h0, by omega, rfl, hyx hfin⟩)
      refine ⟨p', c', e1, e2, ?_, fun h => absurd (e4 h).1 hfin⟩
      intro h
      obtain ⟨i, a, b, e, e'⟩ := e3 h
      exact ⟨i, a, by omega, e, e'⟩
    · refine ⟨picked, c, rfl, ?_, ?_, fun h => ⟨h, rfl⟩⟩
      · have hfin : c ≠ ⊤ := (lt_of_lt_of_le h2 le_top).ne
        obtain ⟨i0, a, b, e, _⟩ := hp hfin
        intro i hi1 hi2
        rcases lt_trichotomy i lo with hl | rfl | hl
        · exact hc i hi1 hl
        · exact h2.le
        · have := hq i0 lo i a b hl hi2
          rw [e] at this
          rcases le_max_iff.1 this with h | h
          · exact absurd h (not_le.2 h2)
          · exact (h2.trans_le h).le
      · intro h
        obtain ⟨i, a, b, e, e'⟩ := hp h
        exact ⟨i, a, Or.inr b, e, e'⟩
    · have hceq : c = G lo := le_antisymm (not_lt.1 h1) (not_lt.1 h2)
      obtain ⟨p', c', e1, e2, e3, e4⟩ := ih (lo + 1) picked c (by omega) (by omega)
        (by
          intro i a b
          rcases lt_or_eq_of_le (show i ≤ lo by omega) with hl | rfl
          · exact hc i a hl
          · exact hceq.le)
        (fun h => by
          obtain ⟨i, a, b, e, e'⟩ := hp h
          exact ⟨i, a, by omega, e, e'⟩)
      refine ⟨p', c', e1, e2, ?_, e4⟩
      intro h
      obtain ⟨i, a, b, e, e'⟩ := e3 h
      exact ⟨i, a, by omega, e, e'⟩

theorem Static.check_ok (p : SCO ℤ C D) (alpha : ℚ) (F : Config ℤ → ECost)
    (hd : (p.bounds.length : Int) = p.d) (hb : ∀ b ∈ p.bounds, b.1 ≤ b.2)
    (hF : ∀ x, Spec.InBoxes p.bounds x → ∃ out, p.toProb.objective (List.replicate p.tEnd.toNat x) = .ok ⟨F x, out⟩)
    (hq : Spec.QuasiConvexMarginals F p.bounds) :
    ∀ (rem : Nat) (bu bv : List (ℤ × ℤ)) (u v0 : Config ℤ), p.bounds = bu ++ bv → bv.length = rem →
      v0.length = rem → Spec.InBoxes bu u →
      ∃ x c, checkConfigs p alpha rem (u ++ v0) = .ok (x, c) ∧ Spec.LeastWith F p.bounds u c ∧
        (c ≠ ⊤ → Spec.InBoxes p.bounds x ∧ F x = c) ∧ (c = ⊤ → x = u ++ v0) := by
  intro rem
  induction rem with
  | zero =>
    intro bu bv u v0 hs hl hl0 hu
    have e1 : bv = [] := List.length_eq_zero_iff.1 hl
    have e2 : v0 = [] := List.length_eq_zero_iff.1 hl0
    subst e1 e2
    rw [List.append_nil] at hs ⊢
    have hin : Spec.InBoxes p.bounds u := by rw [hs]; exact hu
    obtain ⟨out, ho⟩ := hF u hin
    refine ⟨u, F u, by simp only [checkConfigs, ho, bind, Except.bind], ⟨⟨[], by simpa using hin, by simp⟩, ?_⟩,
      fun _ => ⟨hin, rfl⟩, fun _ => rfl⟩
    intro v hv
    have h1 := List.Forall₂.length_eq hv
    have h2 := List.Forall₂.length_eq hin
    have : v = [] := by
      rw [List.length_append] at h1
      exact List.length_eq_zero_iff.1 (by omega)
    rw [this, List.append_nil]
  | succ rem ih =>
    intro bu bv u v0 hs hl hl0 hu
    obtain ⟨b, bv, rfl⟩ : ∃ b bv', bv = b :: bv' := by
      cases bv with
      | nil => simp at hl
      | cons b bv => exact ⟨b, bv, rfl⟩
    obtain ⟨z, v1, rfl⟩ : ∃ z v1, v0 = z :: v1 := by
      cases v0 with
      | nil => simp at hl0
      | cons z v1 => exact ⟨z, v1, rfl⟩
    have hul : u.length = bu.length := (List.Forall₂.length_eq hu).symm
    have hk : p.d.toNat - (rem + 1) = bu.length := by
      have : p.bounds.length = bu.length + (rem + 1) := by rw [hs, List.length_append, hl]
      omega
    have hidx : idx p.bounds bu.length = .ok b := by
      unfold idx; rw [hs]; simp
    have hbb : b.1 ≤ b.2 := hb b (by rw [hs]; simp)
    have hset : ∀ j, (u ++ z :: v1).set bu.length j = (u ++ [j]) ++ v1 := by
      intro j; rw [← hul]; simp
    have hj : ∀ j, b.1 ≤ j → j ≤ b.2 → Spec.InBoxes (bu ++ [b]) (u ++ [j]) := by
      intro j h1 h2
      exact List.rel_append hu (List.Forall₂.cons ⟨h1, h2⟩ List.Forall₂.nil)
    have step : ∀ j, ∃ x c, b.1 ≤ j → j ≤ b.2 → (checkConfigs p alpha rem ((u ++ z :: v1).set bu.length j) = .ok (x, c) ∧
        Spec.LeastWith F p.bounds (u ++ [j]) c ∧ (c ≠ ⊤ → Spec.InBoxes p.bounds x ∧ F x = c)) := by
      intro j
      by_cases h : b.1 ≤ j ∧ j ≤ b.2
      · obtain ⟨x, c, h1, h2, h3, _⟩ := ih (bu ++ [b]) bv (u ++ [j]) v1 (by rw [hs]; simp)
          (by simpa using hl) (by simpa using hl0) (hj j h.1 h.2)
        exact ⟨x, c, fun _ _ => ⟨by rw [hset]; exact h1, h2, h3⟩⟩
      · exact ⟨[], ⊤, fun a c => absurd ⟨a, c⟩ h⟩
    choose x G hxG using step
    obtain ⟨p', c', s1, s2, s3, s4⟩ := scan_ok
      (fun j => checkConfigs p alpha rem ((u ++ z :: v1).set bu.length j)) x G b.1 b.2
      (fun j h1 h2 => ⟨x j, (hxG j h1 h2).1, fun _ => rfl⟩)
      (fun i j l h1 h2 h3 h4 => hq u i j l _ _ _ h2 h3 (hxG i (by omega) (by omega)).2.1
        (hxG j (by omega) (by omega)).2.1 (hxG l (by omega) (by omega)).2.1)
      _ b.1 (u ++ z :: v1) ⊤ le_rfl rfl (fun i h1 h2 => by omega) (fun h => absurd rfl h)
    refine ⟨p', c', ?_, ⟨?_, ?_⟩, ?_, fun h => (s4 h).2⟩
    · simp only [checkConfigs, hk, hidx, bind, Except.bind]
      exact s1
    · by_cases hc : c' = ⊤
      · have := s2 b.1 le_rfl hbb
        obtain ⟨⟨v, hv, hv'⟩, _⟩ := (hxG b.1 le_rfl hbb).2.1
        rw [hc, top_le_iff] at this
        refine ⟨b.1 :: v, by simpa using hv, ?_⟩
        rw [hc, ← this, ← hv']; simp
      · obtain ⟨i, a1, a2, a3, a4⟩ := s3 hc
        obtain ⟨⟨v, hv, hv'⟩, _⟩ := (hxG i a1 (by omega)).2.1
        refine ⟨i :: v, by simpa using hv, ?_⟩
        rw [← a3, ← hv']; simp
    · intro v hv
      obtain ⟨j, v', rfl⟩ : ∃ j v', v = j :: v' := by
        cases v with
        | nil =>
          have := List.Forall₂.length_eq hv
          rw [hs] at this; simp at this; omega
        | cons j v' => exact ⟨j, v', rfl⟩
      have hjb : b.1 ≤ j ∧ j ≤ b.2 := by
        have := (List.forall₂_iff_get.1 hv).2 bu.length (by rw [hs]; simp) (by rw [← hul]; simp)
        simpa [hs, ← hul] using this
      refine (s2 j hjb.1 hjb.2).trans ?_
      have := (hxG j hjb.1 hjb.2).2.1.2 v' (by simpa using hv)
      simpa using this
    · intro hc
      obtain ⟨i, a1, a2, a3, a4⟩ := s3 hc
      have := (hxG i a1 (by omega)).2.2 (by rw [a3]; exact hc)
      rw [a4, ← a3]; exact this

/-- **C26, for quasi-convex marginals.** Let `F x` be the cost of staying at `x` in all slots. If the least values
of `F` over the remaining coordinates are quasi-convex in every coordinate, and some static configuration has a finite
cost, `static_integral` returns one configuration within the bounds, repeated in all slots, whose cost is minimal. The
option `alpha` has no influence. -/
theorem C26_static_partial (p : SCO ℤ C D) (o : OfflineOptions) (ho : o.inverted = false)
    (hl : o.l = none ∨ o.l = some 0) (F : Config ℤ → ECost) (hd : (p.bounds.length : Int) = p.d)
    (hb : ∀ b ∈ p.bounds, b.1 ≤ b.2)
    (hF : ∀ x, Spec.InBoxes p.bounds x → ∃ out, p.toProb.objective (List.replicate p.tEnd.toNat x) = .ok ⟨F x, out⟩)
    (hq : Spec.QuasiConvexMarginals F p.bounds) (hfin : ∃ x, Spec.InBoxes p.bounds x ∧ F x ≠ ⊤) :
    ∃ x, staticIntegral p o = .ok (List.replicate p.tEnd.toNat x) ∧ Spec.InBoxes p.bounds x ∧
      ∀ y, Spec.InBoxes p.bounds y → F x ≤ F y := by
  obtain ⟨x, c, h1, h2, h3, _⟩ := check_ok p o.alpha F hd hb hF hq p.d.toNat [] p.bounds []
    (Config.repeat 0 p.d.toNat) rfl (by omega) (by simp [Config.repeat]) List.Forall₂.nil
  have hc : c ≠ ⊤ := by
    obtain ⟨y, hy, hyf⟩ := hfin
    have := h2.2 y (by simpa using hy)
    intro h; rw [h, top_le_iff] at this; exact hyf (by simpa using this)
  obtain ⟨h4, h5⟩ := h3 hc
  refine ⟨x, ?_, h4, ?_⟩
  · rw [List.nil_append] at h1
    have hl' : (o.l.isNone || o.l == some 0) = true := by rcases hl with h | h <;> rw [h] <;> rfl
    simp only [staticIntegral, assertR, ho, Bool.not_false, if_true, hl', bind, Except.bind, h1]
  · intro y hy
    rw [h5]
    simpa using h2.2 y (by simpa using hy)

/-- With one dimension the marginals are the costs themselves. -/
theorem Static.marginals_one {F : Config ℤ → ECost} {lo hi : ℤ} (hc : Spec.ConvexBetween lo hi fun j => F [j]) :
    Spec.QuasiConvexMarginals F [(lo, hi)] := by
  intro u i j l a b c hij hjl ha hb hc'
  have key : ∀ {i : ℤ} {a : ECost}, Spec.LeastWith F [(lo, hi)] (u ++ [i]) a → u = [] ∧ lo ≤ i ∧ i ≤ hi ∧ F [i] = a := by
    rintro i a ⟨⟨v, hv, hv'⟩, _⟩
    have hl := List.Forall₂.length_eq hv
    simp only [List.length_cons, List.length_nil, List.length_append] at hl
    have e1 : u = [] := List.length_eq_zero_iff.1 (by omega)
    have e2 : v = [] := List.length_eq_zero_iff.1 (by omega)
    subst e1 e2
    simp only [List.nil_append, List.append_nil] at hv hv'
    cases hv with
    | cons h _ => exact ⟨rfl, h.1, h.2, hv'⟩
  obtain ⟨_, i1, i2, rfl⟩ := key ha
  obtain ⟨_, j1, j2, rfl⟩ := key hb
  obtain ⟨_, l1, l2, rfl⟩ := key hc'
  by_cases h1 : F [i] = ⊤
  · rw [h1]; simp
  by_cases h2 : F [l] = ⊤
  · rw [h2]; simp
  obtain ⟨a, ha⟩ := WithTop.ne_top_iff_exists.1 h1
  obtain ⟨c, hc2⟩ := WithTop.ne_top_iff_exists.1 h2
  obtain ⟨b, hb, hle⟩ := hc i j l i1 hij hjl l2 a c ha.symm hc2.symm
  simp only at hb
  rw [hb, ← ha, ← hc2]
  have hq1 : (i : ℚ) < j := by exact_mod_cast hij
  have hq2 : (j : ℚ) < l := by exact_mod_cast hjl
  have : b ≤ max a c := by
    by_contra h
    rw [not_le, max_lt_iff] at h
    nlinarith [mul_pos (sub_pos.2 hq2) (sub_pos.2 h.1), mul_pos (sub_pos.2 hq1) (sub_pos.2 h.2)]
  rcases le_max_iff.1 this with h | h
  · exact le_max_of_le_left (by exact_mod_cast h)
  · exact le_max_of_le_right (by exact_mod_cast h)

/-- **C26 in one dimension.** With convex costs `static_integral` returns the best static configuration (for the
plain objective, `alpha` being ignored). -/
theorem C26_one_dimension_partial (p : SCO ℤ C D) (o : OfflineOptions) (ho : o.inverted = false)
    (hl : o.l = none ∨ o.l = some 0) (lo hi : ℤ) (hd : p.d = 1) (hb : p.bounds = [(lo, hi)]) (hlo : lo ≤ hi)
    (F : Config ℤ → ECost)
    (hF : ∀ j, lo ≤ j → j ≤ hi → ∃ out, p.toProb.objective (List.replicate p.tEnd.toNat [j]) = .ok ⟨F [j], out⟩)
    (hc : Spec.ConvexBetween lo hi fun j => F [j]) (hfin : ∃ j, lo ≤ j ∧ j ≤ hi ∧ F [j] ≠ ⊤) :
    ∃ i, staticIntegral p o = .ok (List.replicate p.tEnd.toNat [i]) ∧ lo ≤ i ∧ i ≤ hi ∧
      ∀ j, lo ≤ j → j ≤ hi → F [i] ≤ F [j] := by
  have hone : ∀ x, Spec.InBoxes [(lo, hi)] x → ∃ j, x = [j] ∧ lo ≤ j ∧ j ≤ hi := by
    intro x hx
    cases hx with
    | cons h ht => cases ht; exact ⟨_, rfl, h⟩
  obtain ⟨x, h1, h2, h3⟩ := C26_static_partial p o ho hl F (by rw [hb, hd]; rfl)
    (by rw [hb]; simpa using hlo)
    (by
      rw [hb]; intro x hx
      obtain ⟨j, rfl, a, b⟩ := hone x hx
      exact hF j a b)
    (by rw [hb]; exact marginals_one hc)
    (by
      obtain ⟨j, a, b, c⟩ := hfin
      exact ⟨[j], by rw [hb]; exact List.Forall₂.cons ⟨a, b⟩ List.Forall₂.nil, c⟩)
  rw [hb] at h2 h3
  obtain ⟨i, rfl, a, b⟩ := hone x h2
  exact ⟨i, h1, a, b, fun j c d => h3 [j] (List.Forall₂.cons ⟨c, d⟩ List.Forall₂.nil)⟩

/-- The cost of staying at one configuration exists and is the total cost of the constant schedule. -/
theorem Static.static_cost (p : SCO ℤ C D) (g : Int → Config ℤ → ECost) (φ : Config ℤ → ℚ) (hT : 0 ≤ p.tEnd)
    (hd : (p.bounds.length : Int) = p.d)
    (hhit : ∀ t : Int, 1 ≤ t → t ≤ p.tEnd → ∀ x, Spec.InBoxes p.bounds x →
      ∃ out, p.toProb.hitCost t x = .ok ⟨g t x, out⟩)
    (hsw : ∀ z : Config ℤ, (z.length : Int) = p.d → p.switchingCost z = .ok (φ z))
    (x : Config ℤ) (hx : Spec.InBoxes p.bounds x) :
    ∃ out, p.toProb.objective (List.replicate p.tEnd.toNat x)
      = .ok ⟨Spec.totalCost g (fun a b => φ (Config.sub b a)) 1 1 (Config.repeat 0 p.d.toNat)
          (List.replicate p.tEnd.toNat x), out⟩ := by
  have hxl := List.Forall₂.length_eq hx
  have hp : Spec.padTo p.tEnd.toNat (Config.repeat 0 p.d.toNat) (List.replicate p.tEnd.toNat x)
      = List.replicate p.tEnd.toNat x := by
    simp [Spec.padTo]
  have hn : ((p.tEnd.toNat : Nat) : Int) = p.tEnd := Int.toNat_of_nonneg hT
  obtain ⟨out, h⟩ := C02_objective_eq_totalCost p.toProb (List.replicate p.tEnd.toNat x)
    (Config.repeat 0 p.d.toNat) 1 false p.tEnd.toNat g (fun a b => φ (Config.sub b a))
    (by
      intro t h1 h2 h3 y hy
      rw [hp] at hy
      rw [(List.mem_replicate.1 hy).2]
      exact hhit t h1 (by omega) x hx)
    (by
      intro y hy z hz
      rw [hp] at hy hz
      have hzl : z.length = p.d.toNat := by rw [(List.mem_replicate.1 hz).2]; omega
      have hyl : y.length = p.d.toNat := by
        rcases List.mem_cons.1 hy with rfl | hy
        · simp [Config.repeat]
        · rw [(List.mem_replicate.1 hy).2]; omega
      simp only [SCO.toProb, assertP, Bool.not_false, if_true, bind, Except.bind]
      exact hsw _ (by simp [Config.sub, hzl, hyl]; omega))
  refine ⟨out, ?_⟩
  have e : p.toProb.objective (List.replicate p.tEnd.toNat x)
      = p.toProb.objectiveWithDefault' (List.replicate p.tEnd.toNat x) (Config.repeat 0 p.d.toNat) 1 false
          ((p.tEnd.toNat : Nat) : Int) := by
    rw [hn]; rfl
  rw [e, h, hp]
  congr 2
  apply Uni.totalCost_congr
  intro s h1 h2 y hy
  rw [List.length_replicate] at h2
  rw [if_neg]
  show ¬ s > p.tEnd
  omega

theorem Static.convex_add {lo hi : ℤ} {f g : ℤ → ECost} (hf : Spec.ConvexBetween lo hi f)
    (hg : Spec.ConvexBetween lo hi g) : Spec.ConvexBetween lo hi fun j => f j + g j := by
  intro x y z h1 h2 h3 h4 a c ha hc
  simp only at ha hc
  obtain ⟨a1, a2, e1, e2, e3⟩ := WithTop.add_eq_coe.1 ha
  obtain ⟨c1, c2, e4, e5, e6⟩ := WithTop.add_eq_coe.1 hc
  obtain ⟨b1, e7, e8⟩ := hf x y z h1 h2 h3 h4 a1 c1 e1.symm e4.symm
  obtain ⟨b2, e9, e10⟩ := hg x y z h1 h2 h3 h4 a2 c2 e2.symm e5.symm
  refine ⟨b1 + b2, by simp only [e7, e9]; rfl, ?_⟩
  rw [← e3, ← e6]; linarith

theorem Static.convex_const {lo hi : ℤ} (q : ℚ) : Spec.ConvexBetween lo hi fun _ => (q : ECost) := by
  intro x y z h1 h2 h3 h4 a c ha hc
  have ha : q = a := WithTop.coe_injective ha
  have hc : q = c := WithTop.coe_injective hc
  subst ha hc
  exact ⟨q, rfl, by linarith⟩

theorem Static.convex_total {lo hi : ℤ} {g : Int → Config ℤ → ECost} (q : ℚ) : ∀ (n : Nat) (t : Int),
    (∀ s : Int, t ≤ s → s < t + n → Spec.ConvexBetween lo hi fun j => g s [j]) → ∀ (first : Config ℤ → ECost),
    (Spec.ConvexBetween lo hi fun j => first [j]) → ∀ (mv : Config ℤ → Config ℤ → ℚ) (x0 : Config ℤ),
    (∀ j, first [j] = mv x0 [j]) → (∀ j, mv [j] [j] = q) →
    Spec.ConvexBetween lo hi fun j => Spec.totalCost g mv 1 t x0 (List.replicate n [j]) := by
  have aux : ∀ (n : Nat) (t : Int), (∀ s : Int, t ≤ s → s < t + n → Spec.ConvexBetween lo hi fun j => g s [j]) →
      ∀ (mv : Config ℤ → Config ℤ → ℚ), (∀ j, mv [j] [j] = q) →
      Spec.ConvexBetween lo hi fun j => Spec.totalCost g mv 1 t [j] (List.replicate n [j]) := by
    intro n
    induction n with
    | zero => intro t _ mv _; exact convex_const 0
    | succ n ih =>
      intro t h mv hm
      simp only [List.replicate_succ, Spec.totalCost, hm]
      exact convex_add (convex_add (h t le_rfl (by push_cast; omega)) (convex_const _))
        (ih (t + 1) (fun s h1 h2 => h s (by omega) (by push_cast; omega)) mv hm)
  intro n t h first hf mv x0 h1 h2
  cases n with
  | zero => exact convex_const 0
  | succ n =>
    simp only [List.replicate_succ, Spec.totalCost, one_mul, ← h1]
    exact convex_add (convex_add (h t le_rfl (by push_cast; omega)) hf)
      (aux n (t + 1) (fun s h1 h2 => h s (by omega) (by push_cast; omega)) mv h2)

/-- **C26 in one dimension, in terms of the problem.** If all hitting costs `g t` and the switching cost `φ` are
convex, `static_integral` returns the static schedule whose total cost is minimal. -/
theorem C26_one_dimension_convex_partial (p : SCO ℤ C D) (o : OfflineOptions) (ho : o.inverted = false)
    (hl : o.l = none ∨ o.l = some 0) (lo hi : ℤ) (hd : p.d = 1) (hb : p.bounds = [(lo, hi)]) (hlo : lo ≤ hi)
    (hT : 0 ≤ p.tEnd) (g : Int → Config ℤ → ECost) (φ : Config ℤ → ℚ)
    (hhit : ∀ t : Int, 1 ≤ t → t ≤ p.tEnd → ∀ x, Spec.InBoxes p.bounds x →
      ∃ out, p.toProb.hitCost t x = .ok ⟨g t x, out⟩)
    (hsw : ∀ z : Config ℤ, (z.length : Int) = p.d → p.switchingCost z = .ok (φ z))
    (hg : ∀ t : Int, 1 ≤ t → t ≤ p.tEnd → Spec.ConvexBetween lo hi fun j => g t [j])
    (hφ : Spec.ConvexBetween lo hi fun j => ((φ [j] : ℚ) : ECost))
    (hfin : ∃ j, lo ≤ j ∧ j ≤ hi ∧ ∀ t : Int, 1 ≤ t → t ≤ p.tEnd → g t [j] ≠ ⊤) :
    ∃ i, staticIntegral p o = .ok (List.replicate p.tEnd.toNat [i]) ∧ lo ≤ i ∧ i ≤ hi ∧
      ∀ j, lo ≤ j → j ≤ hi →
        Spec.totalCost g (fun a b => φ (Config.sub b a)) 1 1 [0] (List.replicate p.tEnd.toNat [i])
          ≤ Spec.totalCost g (fun a b => φ (Config.sub b a)) 1 1 [0] (List.replicate p.tEnd.toNat [j]) := by
  have e : Config.repeat (0 : ℤ) p.d.toNat = [0] := by rw [hd]; rfl
  have hin : ∀ j, lo ≤ j → j ≤ hi → Spec.InBoxes p.bounds [j] := by
    intro j h1 h2; rw [hb]; exact List.Forall₂.cons ⟨h1, h2⟩ List.Forall₂.nil
  refine C26_one_dimension_partial p o ho hl lo hi hd hb hlo
    (fun x => Spec.totalCost g (fun a b => φ (Config.sub b a)) 1 1 [0] (List.replicate p.tEnd.toNat x)) ?_ ?_ ?_
  · intro j h1 h2
    have := static_cost p g φ hT (by rw [hb, hd]; rfl) hhit hsw [j] (hin j h1 h2)
    rw [e] at this
    exact this
  · refine convex_total (φ [0]) p.tEnd.toNat 1 (fun s h1 h2 => hg s h1 (by omega)) (fun x => ((φ x : ℚ) : ECost)) hφ
      _ [0] ?_ ?_
    · intro j; simp [Config.sub]
    · intro j; simp [Config.sub]
  · obtain ⟨j, h1, h2, h3⟩ := hfin
    refine ⟨j, h1, h2, ?_⟩
    have : ∀ (n : Nat) (t : Int) (y : Config ℤ), 1 ≤ t → t + n ≤ p.tEnd + 1 →
        Spec.totalCost g (fun a b => φ (Config.sub b a)) 1 t y (List.replicate n [j]) ≠ ⊤ := by
      intro n
      induction n with
      | zero => intro t y _ _; simp [Spec.totalCost]
      | succ n ih =>
        intro t y h4 h5
        simp only [List.replicate_succ, Spec.totalCost]
        rw [WithTop.add_ne_top, WithTop.add_ne_top]
        exact ⟨⟨h3 t h4 (by push_cast at h5; omega), WithTop.coe_ne_top⟩, ih _ _ (by omega) (by push_cast at h5; omega)⟩
    exact this _ _ _ le_rfl (by omega)

/-- The sum of one cost per coordinate. -/
def Spec.separable : List (ℤ → ECost) → Config ℤ → ECost
  | f :: fs, j :: x => f j + separable fs x
  | _, _ => 0

theorem Static.separable_le : ∀ (fs : List (ℤ → ECost)) (u v : Config ℤ) (i j : ℤ),
    (∀ f, fs[u.length]? = some f → f j ≤ f i) → Spec.separable fs (u ++ j :: v) ≤ Spec.separable fs (u ++ i :: v) := by
  intro fs
  induction fs with
  | nil => intro u v i j _; simp [Spec.separable]
  | cons f fs ih =>
    intro u v i j h
    cases u with
    | nil =>
      simp only [List.nil_append, Spec.separable]
      exact add_le_add_left (h f rfl) _
    | cons a u =>
      simp only [List.cons_append, Spec.separable]
      refine add_le_add_right (ih u v i j ?_) _
      intro f' hf'
      exact h f' (by simpa using hf')

/-- **C26 for separable costs**, in any number of dimensions: if the static cost is a sum of one convex cost per
coordinate, the marginals are quasi-convex, so `C26_static_partial` applies. -/
theorem C26_separable_marginals (bounds : List (ℤ × ℤ)) (fs : List (ℤ → ECost))
    (hc : List.Forall₂ (fun b f => Spec.ConvexBetween b.1 b.2 f) bounds fs) :
    Spec.QuasiConvexMarginals (Spec.separable fs) bounds := by
  intro u i j l a b c hij hjl ha hb hc'
  have hlen := List.Forall₂.length_eq hc
  have key : ∀ {i : ℤ} {a : ECost}, Spec.LeastWith (Spec.separable fs) bounds (u ++ [i]) a →
      ∃ (h : u.length < bounds.length), bounds[u.length].1 ≤ i ∧ i ≤ bounds[u.length].2 := by
    rintro i a ⟨⟨v, hv, _⟩, _⟩
    have hl := List.Forall₂.length_eq hv
    have h : u.length < bounds.length := by rw [hl]; simp
    refine ⟨h, ?_⟩
    have := (List.forall₂_iff_get.1 hv).2 u.length h (by simp)
    simpa using this
  obtain ⟨hu, i1, i2⟩ := key ha
  obtain ⟨_, j1, j2⟩ := key hb
  obtain ⟨_, l1, l2⟩ := key hc'
  have hcv : Spec.ConvexBetween bounds[u.length].1 bounds[u.length].2 (fs[u.length]'(by omega)) := by
    have := (List.forall₂_iff_get.1 hc).2 u.length hu (by omega)
    simpa using this
  have swap : ∀ {i : ℤ} {a : ECost}, Spec.LeastWith (Spec.separable fs) bounds (u ++ [i]) a →
      (fs[u.length]'(by omega)) j ≤ (fs[u.length]'(by omega)) i → b ≤ a := by
    rintro i a ⟨⟨v, hv, rfl⟩, _⟩ hle
    have hv2 : Spec.InBoxes bounds (u ++ [j] ++ v) := by
      unfold Spec.InBoxes at hv ⊢
      rw [List.forall₂_iff_get] at hv ⊢
      refine ⟨by rw [hv.1]; simp, fun k h1 h2 => ?_⟩
      have h3 := hv.2 k h1 (by simpa using h2)
      simp only [List.get_eq_getElem] at h3 ⊢
      rcases Nat.lt_trichotomy k u.length with h | h | h
      · simpa [List.getElem_append, h, List.getElem_append_left] using h3
      · subst h; simpa using ⟨j1, j2⟩
      · have e : ∀ y : ℤ, (u ++ [y] ++ v) = u ++ y :: v := by simp
        simp only [e] at h3 ⊢
        rw [List.getElem_append_right (by omega)] at h3 ⊢
        obtain ⟨m, hm⟩ : ∃ m, k - u.length = m + 1 := ⟨k - u.length - 1, by omega⟩
        simp only [hm, List.getElem_cons_succ] at h3 ⊢
        exact h3
    refine (hb.2 v hv2).trans ?_
    simp only [List.append_assoc, List.singleton_append]
    refine separable_le fs u v i j ?_
    intro f hf
    rw [List.getElem?_eq_getElem (by omega), Option.some_inj] at hf
    rw [← hf]; exact hle
  by_cases h1 : (fs[u.length]'(by omega)) j ≤ (fs[u.length]'(by omega)) i
  · exact le_max_of_le_left (swap ha h1)
  · refine le_max_of_le_right (swap hc' ?_)
    rw [not_le] at h1
    obtain ⟨x, hx⟩ := WithTop.ne_top_iff_exists.1 (ne_top_of_lt h1)
    by_cases h2 : (fs[u.length]'(by omega)) l = ⊤
    · rw [h2]; exact le_top
    obtain ⟨z, hz⟩ := WithTop.ne_top_iff_exists.1 h2
    obtain ⟨y, hy, hle⟩ := hcv i j l i1 hij hjl l2 x z hx.symm hz.symm
    rw [hy, ← hz]
    rw [hy, ← hx] at h1
    have h1 : x < y := by exact_mod_cast h1
    have hq1 : (i : ℚ) < j := by exact_mod_cast hij
    have hq2 : (j : ℚ) < l := by exact_mod_cast hjl
    have : y ≤ z := by
      by_contra h
      rw [not_le] at h
      nlinarith [mul_pos (sub_pos.2 hq2) (sub_pos.2 h1), mul_pos (sub_pos.2 hq1) (sub_pos.2 h)]
    exact_mod_cast this

/-- **C26.** The documented failures. -/
theorem C26_guards (p : SCO ℤ C D) (o : OfflineOptions) :
    (o.inverted = true → staticIntegral p o = .error (.fail .unsupportedInvertedCost)) ∧
    (∀ l, o.inverted = false → o.l = some l → l ≠ 0 →
      staticIntegral p o = .error (.fail .unsupportedLConstrainedMovement)) := by
  refine ⟨?_, ?_⟩
  · intro h; simp [staticIntegral, assertR, h, bind, Except.bind]
  · intro l h hl h0
    have : (o.l.isNone || o.l == some 0) = false := by rw [hl]; simp [h0]
    simp [staticIntegral, assertR, h, this, bind, Except.bind]

/-- Two dimensions, bounds `0..2` and `0..1`, one slot of convex cost `10 (2 x₂ - x₁)² + 2 - x₁`, no switching
cost. -/
def Ex.valley : SCO ℤ Unit Unit where
  d := 2
  tEnd := 1
  bounds := [(0, 2), (0, 1)]
  switchingCost _ := .ok 0
  hittingCost := CostFn.new 1 (SingleCostFn.certain fun _ x =>
    .ok (Cost.raw (((10 * (2 * x.getD 1 0 - x.getD 0 0) ^ 2 + 2 - x.getD 0 0 : ℤ) : ℚ) : ECost)))

/-- **C26 fails in two dimensions.** Integer minima over the second coordinate of a jointly convex cost need not be
unimodal in the first: the early exit returns `(0, 0)` of cost 2 although `(2, 1)` costs 0. -/
theorem C26_two_dimensions_counterexample :
    staticIntegral Ex.valley ⟨false, 1, none⟩ = .ok [[0, 0]] ∧
    (Ex.valley.toProb.objective [[0, 0]]).map (·.cost) = .ok 2 ∧
    (Ex.valley.toProb.objective [[2, 1]]).map (·.cost) = .ok 0 := by
  refine ⟨?_, ?_, ?_⟩ <;> decide +kernel

/-- One dimension with bound 1, one slot of cost `2 - 2 x`, switching cost 1. -/
def Ex.ramp : SCO ℤ Unit Unit where
  d := 1
  tEnd := 1
  bounds := [(0, 1)]
  switchingCost x := .ok |((x.getD 0 0 : ℤ) : ℚ)|
  hittingCost := CostFn.new 1 (SingleCostFn.certain fun _ x =>
    .ok (Cost.raw (((2 - 2 * x.getD 0 0 : ℤ) : ℚ) : ECost)))

/-- **C26 fails for `alpha ≠ 1`.** With `alpha = 5` staying at 0 costs 2 and at 1 costs 5, but 1 is returned. -/
theorem C26_alpha_counterexample :
    staticIntegral Ex.ramp ⟨false, 5, none⟩ = .ok [[1]] ∧
    (Ex.ramp.toProb.alphaUnfairObjective [[1]] 5).map (·.cost) = .ok 5 ∧
    (Ex.ramp.toProb.alphaUnfairObjective [[0]] 5).map (·.cost) = .ok 2 := by
  refine ⟨?_, ?_, ?_⟩ <;> decide +kernel

/-- A one-dimensional instance for C26: bounds `-1..4`, three slots of cost `|x - t|`, switching cost `|z|`. -/
def Ex.drift : SCO ℤ Unit Unit where
  d := 1
  tEnd := 3
  bounds := [(-1, 4)]
  switchingCost z := .ok |((z.getD 0 0 : ℤ) : ℚ)|
  hittingCost := CostFn.new 1 (SingleCostFn.certain fun t x =>
    .ok (Cost.raw (((|x.getD 0 0 - t| : ℤ) : ℚ) : ECost)))

theorem Static.convex_abs (lo hi s : ℤ) : Spec.ConvexBetween lo hi fun j => (((|j - s| : ℤ) : ℚ) : ECost) := by
  intro x y z _ hxy hyz _ a c ha hc
  refine ⟨_, rfl, ?_⟩
  have ha : ((|x - s| : ℤ) : ℚ) = a := WithTop.coe_injective ha
  have hc : ((|z - s| : ℤ) : ℚ) = c := WithTop.coe_injective hc
  rw [← ha, ← hc]
  push_cast
  have h1 : (x : ℚ) < y := by exact_mod_cast hxy
  have h2 : (y : ℚ) < z := by exact_mod_cast hyz
  have e : ((z : ℚ) - x) * ((y : ℚ) - s) = (z - y) * (x - s) + (y - x) * (z - s) := by ring
  calc ((z : ℚ) - x) * |(y : ℚ) - s| = |((z : ℚ) - x) * ((y : ℚ) - s)| := by
        rw [abs_mul, abs_of_pos (by linarith : (0 : ℚ) < z - x)]
    _ ≤ |((z : ℚ) - y) * (x - s)| + |((y : ℚ) - x) * (z - s)| := by rw [e]; exact abs_add_le _ _
    _ = _ := by rw [abs_mul, abs_mul, abs_of_pos (by linarith : (0 : ℚ) < z - y), abs_of_pos (by linarith : (0 : ℚ) < y - x)]

example :=
  C26_one_dimension_convex_partial Ex.drift ⟨false, 1, none⟩ rfl (Or.inl rfl) (-1) 4 rfl rfl (by decide) (by decide)
    (fun t x => (((|x.getD 0 0 - t| : ℤ) : ℚ) : ECost)) (fun z => |((z.getD 0 0 : ℤ) : ℚ)|)
    (by
      intro t h1 _ x hx
      refine ⟨.success (), ?_⟩
      cases hx with
      | cons h ht =>
        cases ht
        simp only [SCO.toProb, CostFn.callMeanWithinBounds, Ex.drift, CostFn.callMean_certain _ _ h1, bind, Except.bind,
          withinPairs]
        simp [h.1, h.2, Cost.raw])
    (fun _ _ => rfl)
    (fun t _ _ => convex_abs (-1) 4 t)
    (by simpa using convex_abs (-1) 4 0)
    ⟨0, by decide, by decide, fun _ _ _ => WithTop.coe_ne_top⟩

example : staticIntegral Ex.drift ⟨false, 1, none⟩ = .ok [[1], [1], [1]] := by decide +kernel

end

end Soco
