import Verif.Props.BudgetRatio
import Verif.Props.ApproxRatio

/-!
# Ratio of lazy budgeting for balanced load, continued

C82 for instances whose loads are assigned optimally.
-/

namespace Soco.Bb
open Spec

theorem callMean_of_certain (f : CostFn ℚ Unit DCFailure) (t : Int) (z : ℚ) (c : Cost Unit DCFailure)
    (h : f.callCertain t z = .ok c) : f.callMean t z = .ok c := by
  rw [CostFn.callCertain_eq] at h
  rw [CostFn.callMean_eq]
  cases hp : f.callPredictive t z with
  | error e => rw [hp] at h; cases h
  | ok r =>
    rw [hp] at h
    match r, h with
    | [], h => cases h
    | [a], h =>
      simp only [Except.bind, Except.ok.injEq] at h ⊢
      subst h
      exact Cost.mean_singleton _
    | a :: b :: r, h => cases h

/-! ### Servers which share a load -/

theorem serversCost_div (g : ℚ → ECost) (q : ℚ) (x : ℤ) (n : ℚ) :
    serversCost (fun z => ECost.divQ (g z) n) q x = ECost.divQ (serversCost g q x) n := by
  unfold serversCost
  split
  · split
    · show (0 : ECost) = (((0 : ℚ) / n : ℚ) : ECost)
      simp
    · rfl
  · dsimp only
    cases g (q / x) using WithTop.recTopCoe with
    | top => rfl
    | coe a =>
      show (((x : ℚ) * (a / n) : ℚ) : ECost) = (((x : ℚ) * a / n : ℚ) : ECost)
      rw [mul_div_assoc]

theorem serversCost_idle {g : ℚ → ECost} {l : ℚ} (hg : ServerCost g l) (q : ℚ) (x : ℤ) (hq : 0 ≤ q) (hx : 0 ≤ x) :
    ((l * x : ℚ) : ECost) ≤ serversCost g q x := by
  unfold serversCost
  split
  · rename_i h
    subst h
    split
    · simp
    · exact le_top
  · have hx' : (0 : ℚ) ≤ x := by exact_mod_cast hx
    have := hg.least (q / x) (div_nonneg hq hx')
    cases hc : g (q / x) using WithTop.recTopCoe with
    | top => exact le_top
    | coe a =>
      rw [hc] at this
      have := WithTop.coe_le_coe.1 this
      show _ ≤ (((x : ℚ) * a : ℚ) : ECost)
      rw [WithTop.coe_le_coe, mul_comm]
      exact mul_le_mul_of_nonneg_left this hx'

theorem serversCost_more {g : ℚ → ECost} {l : ℚ} (hg : ServerCost g l) (q : ℚ) (a b : ℤ) (hq : 0 ≤ q) (ha : 0 ≤ a)
    (hab : a ≤ b) : serversCost g q b ≤ serversCost g q a + ((l * (b - a) : ℚ) : ECost) := by
  rcases ha.lt_or_eq with ha | ha
  · have hb : 0 < b := by omega
    unfold serversCost
    rw [if_neg ha.ne', if_neg hb.ne']
    have ha' : (0 : ℚ) < a := by exact_mod_cast ha
    have hb' : (0 : ℚ) < b := by exact_mod_cast hb
    have hab' : (a : ℚ) ≤ b := by exact_mod_cast hab
    cases hc : g (q / a) using WithTop.recTopCoe with
    | top => exact le_top
    | coe u =>
      have := hg.convex (q / a) 0 (a / b) u l (div_nonneg hq ha'.le) (le_refl _) (div_nonneg ha'.le hb'.le)
        ((div_le_one hb').2 hab') hc hg.idle
      rw [mul_zero, add_zero, show (a : ℚ) / b * (q / a) = q / b by field_simp] at this
      cases hd : g (q / b) using WithTop.recTopCoe with
      | top => rw [hd] at this; exact absurd (top_le_iff.1 this) WithTop.coe_ne_top
      | coe v =>
        rw [hd] at this
        have := WithTop.coe_le_coe.1 this
        show (((b : ℚ) * v : ℚ) : ECost) ≤ (((a : ℚ) * u : ℚ) : ECost) + _
        rw [← WithTop.coe_add, WithTop.coe_le_coe]
        have h2 := mul_le_mul_of_nonneg_left this hb'.le
        have h3 : (b : ℚ) * (a / b * u + (1 - a / b) * l) = a * u + l * (b - a) := by field_simp
        linarith
  · subst ha
    unfold serversCost
    rw [if_pos rfl]
    by_cases h0 : q = 0
    · subst h0
      rw [if_pos rfl]
      split
      · rename_i h; subst h; simp
      · rw [zero_div, hg.idle]
        show (((b : ℚ) * l : ℚ) : ECost) ≤ _
        rw [zero_add, WithTop.coe_le_coe]
        push_cast
        linarith
    · rw [if_neg h0, top_add]
      exact le_top

/-! ### Assignments of the load -/

/-- What the configuration `x` costs if the types share the load `q` in the proportions `z`. -/
def shared (g : Nat → ℚ → ECost) (q : ℚ) (z : LoadFractions) (x : Config ℤ) (ks : List Nat) : ECost :=
  (ks.map fun k => serversCost (g k) (q * z.fr [q] k 0) (x.getD k 0)).sum

theorem dimCost_shared (p : SBLO ℤ) (t : Int) (x : Config ℤ) (q : ℚ) (z : LoadFractions) (he : z.e = 1)
    (hz : z.zs.length = z.d - 1) (k : Nat) (hk : k < z.d) (hx : k < x.length) (hx0 : ∀ j ∈ x, 0 ≤ j)
    (hpos : 0 ≤ q * z.fr [q] k 0) (g : ℚ → ECost) (f : CostFn ℚ Unit DCFailure) (hf : p.hittingCost[k]? = some f)
    (hg : ∀ y : ℚ, 0 ≤ y → ∃ o, f.callMean t y = .ok ⟨g y, o⟩) :
    p.dimCost t x [q] z k = .ok ⟨serversCost g (q * z.fr [q] k 0) (x.getD k 0), 0⟩ ∨
      (∃ e, p.dimCost t x [q] z k = .error (.failure e)) ∧ serversCost g (q * z.fr [q] k 0) (x.getD k 0) = ⊤ := by
  have hxk : x[k]? = some (x.getD k 0) := by
    rw [List.getD_eq_getElem _ _ hx, List.getElem?_eq_getElem hx]
  have h0 : 0 ≤ x.getD k 0 := hx0 _ (List.mem_of_getElem? hxk)
  generalize x.getD k 0 = xk at hxk h0 ⊢
  unfold SBLO.dimCost
  rw [z.selectLoads_eq [q] (by rw [he, hz, Nat.mul_one]) (by simp [he]) k hk, he]
  have e0 : IRes.ofRes (idx ((List.range 1).map fun i => ([q] : List ℚ).getD i 0 * z.fr [q] k i) 0) =
      .ok (q * z.fr [q] k 0) := rfl
  simp only [IRes.ofRes, bind, Except.bind]
  simp only [IRes.ofRes] at e0
  rw [e0]
  simp only [idx, hxk]
  rw [safeBalancing]
  have hq : toQ xk = (xk : ℚ) := rfl
  rw [hq]
  unfold serversCost
  rcases h0.lt_or_eq with h | h
  · have hp : (xk : ℚ) > 0 := by exact_mod_cast h
    rw [if_pos hp, if_neg h.ne']
    obtain ⟨o, ho⟩ := hg (q * z.fr [q] k 0 / xk) (div_nonneg hpos hp.le)
    simp only [hf, ho]
    left; trivial
  · subst h
    rw [if_pos rfl, if_neg (by simp)]
    rcases hpos.lt_or_eq with h | h
    · rw [if_pos h, if_neg h.ne']
      right; exact ⟨⟨_, rfl⟩, rfl⟩
    · rw [if_neg (by rw [← h]; exact lt_irrefl _), if_pos h.symm, if_pos h.symm]
      left; trivial

theorem solverObjective_shared (p : SBLO ℤ) (t : Int) (x : Config ℤ) (q : ℚ) (hq : 0 ≤ q) (hd : 1 ≤ p.d)
    (hx : p.d = x.length) (hx0 : ∀ j ∈ x, 0 ≤ j) (g : Nat → ℚ → ECost) (hlen : p.d.toNat ≤ p.hittingCost.length)
    (hg : ∀ (k : Nat) (f : CostFn ℚ Unit DCFailure), p.hittingCost[k]? = some f → ∀ y : ℚ, 0 ≤ y →
      ∃ o, f.callMean t y = .ok ⟨g k y, o⟩) (zs : List ℚ)
    (h1 : InBoxQ (List.replicate (p.d.toNat * 1 - 1) ((0 : ℚ), (1 : ℚ))) zs) (h2 : ∀ j ∈ zs, OnGrid j)
    (h3 : Meets (restNonneg p.d.toNat q) zs) :
    solverObjective p.d.toNat 1 p.objective [q] t x zs = .ok (shared g q ⟨zs, p.d.toNat, 1⟩ x (List.range p.d.toNat)) := by
  have hnew : LoadFractions.new zs p.d.toNat 1 = ⟨zs, p.d.toNat, 1⟩ := by
    unfold LoadFractions.new
    rw [applyPrecisionVec_grid h2]
  have hzl : zs.length = p.d.toNat - 1 := by rw [inBoxQ_length h1]; simp
  have gen : ∀ ks : List Nat, (∀ k ∈ ks, k < p.d.toNat) →
      (∃ o, sumM (ks.map (p.dimCost t x [q] ⟨zs, p.d.toNat, 1⟩)) = .ok o ∧ o.revenueLoss = 0 ∧
        o.energyCost = shared g q ⟨zs, p.d.toNat, 1⟩ x ks) ∨
      (∃ e, sumM (ks.map (p.dimCost t x [q] ⟨zs, p.d.toNat, 1⟩)) = .error (.failure e)) ∧
        shared g q ⟨zs, p.d.toNat, 1⟩ x ks = ⊤ := by
    intro ks
    induction ks with
    | nil => intro _; left; exact ⟨0, rfl, rfl, rfl⟩
    | cons k ks ih =>
      intro hks
      have hk := hks k (by simp)
      have hs : shared g q ⟨zs, p.d.toNat, 1⟩ x (k :: ks) =
        serversCost (g k) (q * (⟨zs, p.d.toNat, 1⟩ : LoadFractions).fr [q] k 0) (x.getD k 0) +
          shared g q ⟨zs, p.d.toNat, 1⟩ x ks := by simp [shared]
      rw [hs, List.map_cons]
      simp only [sumM, bind, Except.bind]
      rcases dimCost_shared p t x q ⟨zs, p.d.toNat, 1⟩ rfl hzl k hk (by omega) hx0
        (fr_nonneg (by omega) hq h1 h2 h3 k hk) (g k) _ (List.getElem?_eq_getElem (by omega))
        (hg k _ (List.getElem?_eq_getElem (by omega))) with e | ⟨⟨e, he⟩, ht⟩
      · rw [e]
        rcases ih (fun k hk => hks k (by simp [hk])) with ⟨o, o1, o2, o3⟩ | ⟨⟨e', he'⟩, ht'⟩
        · left
          rw [o1]
          refine ⟨_, rfl, ?_, ?_⟩
          · show (0 : ECost) + o.revenueLoss = 0
            rw [o2, add_zero]
          · show _ + o.energyCost = _
            rw [o3]
        · right
          rw [he']
          exact ⟨⟨_, rfl⟩, by rw [ht', add_top]⟩
      · right
        rw [he]
        exact ⟨⟨_, rfl⟩, by rw [ht, top_add]⟩
  unfold solverObjective
  rw [hnew]
  have ho : p.objective t x [q] ⟨zs, p.d.toNat, 1⟩ =
      sumM ((List.range p.d.toNat).map (p.dimCost t x [q] ⟨zs, p.d.toNat, 1⟩)) := by
    unfold SBLO.objective
    have : assertP (decide (p.d = (x.length : Int))) = .ok () := by rw [assertP_ok_iff]; simpa using hx
    rw [this]
    rfl
  rw [ho]
  rcases gen (List.range p.d.toNat) (fun k hk => List.mem_range.1 hk) with ⟨o, o1, o2, o3⟩ | ⟨⟨e, he⟩, ht⟩
  · rw [o1]
    simp only [o2, o3, add_zero]
  · rw [he, ht]

/-- The cost of a slot is what the best assignment of the load costs. -/
theorem hitCost_shared {S : Num.Solver} (hS : Exact S) (p : SBLO ℤ) (hd : 1 ≤ p.d) (t : Int) (ht : 1 ≤ t)
    (hb : (p.bounds.length : Int) = p.d) (hlen : p.d.toNat ≤ p.hittingCost.length)
    (l : ℤ) (hl : access p.load t = some l) (hl0 : 0 ≤ l) (g : Nat → ℚ → ECost)
    (hg : ∀ (k : Nat) (f : CostFn ℚ Unit DCFailure), p.hittingCost[k]? = some f → ∀ y : ℚ, 0 ≤ y →
      ∃ o, f.callMean t y = .ok ⟨g k y, o⟩) (x : Config ℤ) (hx : InBox p.bounds x) (c : Cost DCSuccess DCFailure)
    (hc : p.hitCost S t x = .ok c) :
    (∃ zs : List ℚ, InBoxQ (List.replicate (p.d.toNat * 1 - 1) ((0 : ℚ), (1 : ℚ))) zs ∧ (∀ j ∈ zs, OnGrid j) ∧
      Meets (restNonneg p.d.toNat l) zs ∧ c.cost = shared g l ⟨zs, p.d.toNat, 1⟩ x (List.range p.d.toNat)) ∧
    ∀ zs : List ℚ, InBoxQ (List.replicate (p.d.toNat * 1 - 1) ((0 : ℚ), (1 : ℚ))) zs → (∀ j ∈ zs, OnGrid j) →
      Meets (restNonneg p.d.toNat l) zs → c.cost ≤ shared g l ⟨zs, p.d.toNat, 1⟩ x (List.range p.d.toNat) := by
  rw [SBLO.hitCost_eq S p t x ht hx l hl] at hc
  have hlq : 0 ≤ toQ l := toQ_nonneg.2 hl0
  have hxl : p.d = x.length := by have := hx.length_eq; omega
  have hv := solverObjective_shared p t x (toQ l) hlq hd hxl (InBox.nonneg hx) g hlen hg
  obtain ⟨zs, z1, z2, z3, z4, z5⟩ := applyLoads_solver hS (by omega) hlq hc
  refine ⟨⟨zs, z1, z2, z3, ?_⟩, fun zs' y1 y2 y3 => z5 zs' y1 y2 y3 _ (hv zs' y1 y2 y3)⟩
  rw [hv zs z1 z2 z3] at z4
  exact (Except.ok.inj z4).symm

theorem shared_div (g : Nat → ℚ → ECost) (q : ℚ) (z : LoadFractions) (x : Config ℤ) (n : ℚ) (ks : List Nat) :
    shared (fun k y => ECost.divQ (g k y) n) q z x ks = ECost.divQ (shared g q z x ks) n := by
  unfold shared
  induction ks with
  | nil =>
    show (0 : ECost) = (((0 : ℚ) / n : ℚ) : ECost)
    simp
  | cons k ks ih =>
    rw [List.map_cons, List.map_cons, List.sum_cons, List.sum_cons, ih, serversCost_div]
    generalize serversCost (g k) (q * z.fr [q] k 0) (x.getD k 0) = a
    generalize (List.map (fun k => serversCost (g k) (q * z.fr [q] k 0) (x.getD k 0)) ks).sum = b
    cases a using WithTop.recTopCoe with
    | top => rfl
    | coe a =>
      cases b using WithTop.recTopCoe with
      | top => rfl
      | coe b =>
        show (((a / n : ℚ) : ECost)) + ((b / n : ℚ) : ECost) = (((a + b) / n : ℚ) : ECost)
        rw [add_div, WithTop.coe_add]

theorem divQ_mono {a b : ECost} (h : a ≤ b) (n : Nat) : ECost.divQ a n ≤ ECost.divQ b n := by
  cases b using WithTop.recTopCoe with
  | top => exact le_top
  | coe b =>
    cases a using WithTop.recTopCoe with
    | top => simp at h
    | coe a =>
      have := WithTop.coe_le_coe.1 h
      show ((a / n : ℚ) : ECost) ≤ ((b / n : ℚ) : ECost)
      rw [WithTop.coe_le_coe]
      exact div_le_div_of_nonneg_right this (Nat.cast_nonneg n)

theorem shared_idle (g : Nat → ℚ → ECost) (l : Nat → ℚ) (hg : ∀ k, ServerCost (g k) (l k)) (q : ℚ) (z : LoadFractions)
    (x : Config ℤ) (hx : ∀ j ∈ x, 0 ≤ j) (ks : List Nat) (hpos : ∀ k ∈ ks, 0 ≤ q * z.fr [q] k 0) (k : Nat) (hk : k ∈ ks) :
    ((l k * (x.getD k 0 : ℤ) : ℚ) : ECost) ≤ shared g q z x ks := by
  have h0 : ∀ k, 0 ≤ x.getD k 0 := by
    intro k
    by_cases h : k < x.length
    · rw [List.getD_eq_getElem _ _ h]; exact hx _ (List.getElem_mem _)
    · rw [List.getD_eq_default _ _ (by omega)]
  have h1 := fun k hk => serversCost_idle (hg k) (q * z.fr [q] k 0) (x.getD k 0) (hpos k hk) (h0 k)
  have h2 : ∀ k ∈ ks, (0 : ECost) ≤ serversCost (g k) (q * z.fr [q] k 0) (x.getD k 0) := by
    intro k hk
    refine le_trans ?_ (h1 k hk)
    exact WithTop.coe_nonneg.2 (mul_nonneg (hg k).nonneg (by exact_mod_cast h0 k))
  refine (h1 k hk).trans ?_
  unfold shared
  apply List.single_le_sum
  · intro c hc
    obtain ⟨k, hk, rfl⟩ := List.mem_map.1 hc
    exact h2 k hk
  · exact List.mem_map.2 ⟨k, hk, rfl⟩

theorem shared_more (g : Nat → ℚ → ECost) (l : Nat → ℚ) (hg : ∀ k, ServerCost (g k) (l k)) (q : ℚ) (z : LoadFractions)
    (x y : Config ℤ) (hx : ∀ k, 0 ≤ x.getD k 0) (hxy : ∀ k, x.getD k 0 ≤ y.getD k 0) (ks : List Nat)
    (hpos : ∀ k ∈ ks, 0 ≤ q * z.fr [q] k 0) :
    shared g q z y ks ≤ shared g q z x ks +
      (((ks.map fun k => l k * ((y.getD k 0 : ℤ) - (x.getD k 0 : ℤ))).sum : ℚ) : ECost) := by
  unfold shared
  induction ks with
  | nil => simp
  | cons k ks ih =>
    have h1 := ih fun k hk => hpos k (by simp [hk])
    have h2 := serversCost_more (hg k) (q * z.fr [q] k 0) (x.getD k 0) (y.getD k 0) (hpos k (by simp)) (hx k) (hxy k)
    simp only [List.map_cons, List.sum_cons]
    rw [WithTop.coe_add, add_add_add_comm]
    exact add_le_add h2 h1

/-! ### The ratio -/

/-- Instances with the same `d` server types, shown slot by slot; in the last slot of the `k`-th instance a server of type
`κ` with load `z` costs `g k κ z`. -/
structure Farm (d : Nat) (bounds : List ℤ) (β : List ℚ) (g : Nat → Nat → ℚ → ECost) (ps : List (SBLO ℤ)) : Prop where
  slot : ∀ (k : Nat) p, ps[k]? = some p → p.tEnd = (k : Int) + 1
  valid : ∀ p ∈ ps, p.verify = .ok ()
  types : ∀ p ∈ ps, p.d = d ∧ p.bounds = bounds ∧ p.switchingCost = β ∧ p.hittingCost.length = d
  cost : ∀ (k : Nat) p, ps[k]? = some p → ∀ (κ : Nat) f, p.hittingCost[κ]? = some f → ∀ z : ℚ, 0 ≤ z →
    ∃ o, f.callCertain p.tEnd z = .ok ⟨g k κ z, o⟩

/-- **C82** If the loads are assigned optimally, servers have convex costs which are least if they are idle, and idle
servers of some type cost something, then lazy budgeting for balanced load is `2 d + 1 + ε`-competitive. -/
theorem C82_exact (S : Num.Solver) (hS : Exact S) (hS' : StaysFeasible S) (d : Nat) (bounds : List ℤ) (β : List ℚ) (ε : ℚ)
    (hε : 0 < ε) (ps : List (SBLO ℤ)) (g : Nat → Nat → ℚ → ECost) (h : Farm d bounds β g ps) (l : Nat → Nat → ℚ)
    (hg : ∀ k κ, ServerCost (g k κ) (l k κ)) (hl : ∀ k, ∃ κ < d, 0 < l k κ) (hit : Nat → Config ℤ → ECost)
    (hhit : ∀ (k : Nat) p, ps[k]? = some p → ∀ x, InBox bounds x → ∃ o, p.hitCost S p.tEnd x = .ok ⟨hit k x, o⟩)
    (hfin : ∀ k < ps.length, hit k bounds ≠ ⊤) :
    ∃ xs mem, play SBLO.tEnd (alg S ε) [] none (ps.map fun p => ⟨p, 0⟩) = .ok (xs, mem) ∧
      xs.length = ps.length ∧ (∀ x ∈ xs, InBox bounds x) ∧
      ∀ zs : Schedule ℤ, zs.length = ps.length → (∀ z ∈ zs, InBox bounds z) →
        farmCost hit β xs ≤ ECost.mulQ (2 * d + 1 + ε) (farmCost hit β zs) := by
  have hval : ∀ p ∈ ps, ValidSBLO p := by
    intro p hp
    by_contra hc
    have := (C10_sblo_verify_exact p).2 hc
    rw [h.valid p hp] at this
    cases this
  have hload : ∀ (k : Nat) p, ps[k]? = some p → ∃ q, access p.load p.tEnd = some q ∧ 0 ≤ q := by
    intro k p hp
    have hs := h.slot k p hp
    obtain ⟨v1, v2, v3, v4, v5, v6, v7, v8⟩ := hval p (List.mem_of_getElem? hp)
    have hlt : (p.tEnd - 1).toNat < p.load.length := by omega
    refine ⟨p.load[(p.tEnd - 1).toNat], ?_, v8 (p.tEnd - 1).toNat (by omega) _ (List.getElem?_eq_getElem hlt)⟩
    unfold access
    rw [if_pos (by omega), List.getElem?_eq_getElem hlt]
  have hmean : ∀ (k : Nat) p, ps[k]? = some p → ∀ (κ : Nat) f, p.hittingCost[κ]? = some f → ∀ z : ℚ, 0 ≤ z →
      ∃ o, f.callMean p.tEnd z = .ok ⟨g k κ z, o⟩ := by
    intro k p hp κ f hf z hz
    obtain ⟨o, ho⟩ := h.cost k p hp κ f hf z hz
    exact ⟨o, callMean_of_certain f _ _ _ ho⟩
  have hdiv : ∀ (k : Nat) p, ps[k]? = some p → ∀ n : Nat, ∀ (κ : Nat) f, (divided p n).hittingCost[κ]? = some f →
      ∀ z : ℚ, 0 ≤ z → ∃ o, f.callMean p.tEnd z = .ok ⟨ECost.divQ (g k κ z) n, o⟩ := by
    intro k p hp n κ f hf z hz
    have hs := h.slot k p hp
    simp only [divided, List.getElem?_map, Option.map_eq_some_iff] at hf
    obtain ⟨f', hf', rfl⟩ := hf
    obtain ⟨o, ho⟩ := h.cost k p hp κ f' hf' z hz
    rw [CostFn.callMean_certain _ _ (by omega)]
    unfold partCost
    rw [ho]
    exact ⟨o, rfl⟩
  have hpart : ∀ (k : Nat) p, ps[k]? = some p → ∀ (n : Nat) x, InBox bounds x →
      ∃ o, (divided p n).hitCost S p.tEnd x = .ok ⟨ECost.divQ (hit k x) n, o⟩ := by
    intro k p hp n x hx
    have hs := h.slot k p hp
    have hm := List.mem_of_getElem? hp
    obtain ⟨v1, v2, v3, v4, v5, v6, v7, v8⟩ := hval p hm
    obtain ⟨t1, t2, t3, t4⟩ := h.types p hm
    obtain ⟨q, q1, q2⟩ := hload k p hp
    obtain ⟨o, ho⟩ := hhit k p hp x hx
    have hx' : InBox p.bounds x := by rw [t2]; exact hx
    obtain ⟨c, hc⟩ := hitCost_defined S hS hS' (divided p n) (show 1 ≤ p.d by omega) v3
      (show p.d ≤ ((divided p n).hittingCost.length : Int) by simp [divided]; omega) p.tEnd (by omega) q q1 q2
      (fun κ z => ECost.divQ (g k κ z) n) (hdiv k p hp n) x hx'
    obtain ⟨⟨z, z1, z2, z3, z4⟩, z5⟩ := hitCost_shared hS p (by omega) p.tEnd (by omega) v3 (by omega) q q1 q2 (g k)
      (hmean k p hp) x hx' _ ho
    obtain ⟨⟨y, y1, y2, y3, y4⟩, y5⟩ := hitCost_shared hS (divided p n) (show 1 ≤ p.d by omega) p.tEnd (by omega) v3
      (show p.d.toNat ≤ (divided p n).hittingCost.length by simp [divided]; omega) q q1 q2
      (fun κ z => ECost.divQ (g k κ z) n) (hdiv k p hp n) x hx' _ hc
    rw [shared_div] at y4
    have e1 : c.cost = ECost.divQ (hit k x) n := by
      apply le_antisymm
      · refine (y5 z z1 z2 z3).trans (le_of_eq ?_)
        rw [shared_div]
        exact congrArg (ECost.divQ · (n : ℚ)) z4.symm
      · rw [y4]
        exact divQ_mono (z5 y y1 y2 y3) n
    refine ⟨c.output, ?_⟩
    rw [hc, ← e1]
  have hbox : ∀ p ∈ ps, InBox bounds bounds := by
    intro p hp
    obtain ⟨v1, v2, v3, v4, v5, v6, v7, v8⟩ := hval p hp
    rw [(h.types p hp).2.1] at v6
    unfold InBox
    rw [List.forall₂_iff_get]
    exact ⟨rfl, fun κ h1 h2 => ⟨(v6 _ (List.getElem_mem _)).le, le_refl _⟩⟩
  refine C82_ratio S d bounds β ε hε ps ⟨?_, h.slot⟩ hit l ?_
  · intro p hp
    obtain ⟨k, hk⟩ := List.getElem?_of_mem hp
    obtain ⟨t1, t2, t3, t4⟩ := h.types p hp
    refine ⟨h.valid p hp, t1, t2, t3, t4, ⟨?_, ?_⟩, ?_, ?_⟩
    · intro f hf
      obtain ⟨κ, hκ⟩ := List.getElem?_of_mem hf
      obtain ⟨o, ho⟩ := h.cost k p hk κ f hκ 0 (le_refl _)
      rw [(hg k κ).idle] at ho
      exact ⟨_, l k κ, ho, rfl, (hg k κ).nonneg⟩
    · obtain ⟨κ, h1, h2⟩ := hl k
      have hκ := List.getElem?_eq_getElem (show κ < p.hittingCost.length by omega)
      obtain ⟨o, ho⟩ := h.cost k p hk κ _ hκ 0 (le_refl _)
      rw [(hg k κ).idle] at ho
      exact ⟨_, List.getElem_mem _, _, ho, WithTop.coe_lt_coe.2 h2⟩
    · intro n _ x hx
      obtain ⟨o, ho⟩ := hpart k p hk n x hx
      exact ⟨_, ho⟩
    · intro n _
      obtain ⟨o, ho⟩ := hpart k p hk n bounds (hbox p hp)
      have := hfin k (List.getElem?_eq_some_iff.1 hk).1
      unfold SubSlot.hit
      simp only [ho]
      cases hc : hit k bounds using WithTop.recTopCoe with
      | top => exact absurd hc this
      | coe a => exact WithTop.coe_ne_top
  · intro k p hp
    have hs := h.slot k p hp
    have hm := List.mem_of_getElem? hp
    obtain ⟨v1, v2, v3, v4, v5, v6, v7, v8⟩ := hval p hm
    obtain ⟨t1, t2, t3, t4⟩ := h.types p hm
    obtain ⟨q, q1, q2⟩ := hload k p hp
    have hd : p.d.toNat = d := by omega
    have hq : (0 : ℚ) ≤ q := by exact_mod_cast q2
    choose out hout using hhit k p hp
    have hch := fun x (hx : InBox bounds x) => hitCost_shared hS p (by omega) p.tEnd (by omega) v3 (by omega) q q1
      q2 (g k) (hmean k p hp) x (by rw [t2]; exact hx) ⟨hit k x, out x hx⟩ (hout x hx)
    refine ⟨?_, ?_, fun κ _ => (hg k κ).nonneg, ?_, ?_⟩
    · intro n _ _ x hx
      obtain ⟨o, ho⟩ := hpart k p hp n x hx
      unfold SubSlot.hit
      simp only [ho]
    · intro κ hκ
      have hκ := List.getElem?_eq_getElem (show κ < p.hittingCost.length by omega)
      obtain ⟨o, ho⟩ := h.cost k p hp κ _ hκ 0 (le_refl _)
      rw [(hg k κ).idle] at ho
      exact ⟨_, _, hκ, ho⟩
    · intro x hx κ hκ
      obtain ⟨⟨z, z1, z2, z3, z4⟩, _⟩ := hch x hx
      rw [show hit k x = _ from z4]
      exact shared_idle (g k) (l k) (hg k) q _ x (InBox.nonneg hx) _
        (fun κ hκ => fr_nonneg (by omega) hq z1 z2 z3 κ (List.mem_range.1 hκ)) κ (List.mem_range.2 (by omega))
    · intro x y hx hy hxy
      obtain ⟨⟨z, z1, z2, z3, z4⟩, _⟩ := hch x hx
      obtain ⟨_, y5⟩ := hch y hy
      have h0 : ∀ κ, 0 ≤ x.getD κ 0 := by
        intro κ
        by_cases hκ : κ < x.length
        · rw [List.getD_eq_getElem _ _ hκ]; exact InBox.nonneg hx _ (List.getElem_mem _)
        · rw [List.getD_eq_default _ _ (by omega)]
      have hle : ∀ κ, x.getD κ 0 ≤ y.getD κ 0 := by
        intro κ
        have hlxy := hxy.length_eq
        by_cases hκ : κ < x.length
        · rw [List.getD_eq_getElem _ _ hκ, List.getD_eq_getElem _ _ (by omega)]
          exact (List.forall₂_iff_get.1 hxy).2 κ hκ (by omega)
        · rw [List.getD_eq_default _ _ (by omega), List.getD_eq_default _ _ (by omega)]
      refine (y5 z z1 z2 z3).trans ?_
      rw [show hit k x = _ from z4]
      have := shared_more (g k) (l k) (hg k) q ⟨z, p.d.toNat, 1⟩ x y h0 hle (List.range p.d.toNat)
        (fun κ hκ => fr_nonneg (by omega) hq z1 z2 z3 κ (List.mem_range.1 hκ))
      refine this.trans (le_of_eq ?_)
      rw [hd]
      rfl

/-! ### Non-vacuity -/

/-- Idle costs of the types of `balanced`. -/
def idleOf (κ : Nat) : ℚ := if κ = 0 then 1 else 3 / 2

theorem affine_server (κ : Nat) : ServerCost (fun z => ((idleOf κ + z : ℚ) : ECost)) (idleOf κ) := by
  have h0 : 0 ≤ idleOf κ := by unfold idleOf; split <;> norm_num
  refine ⟨by simp, h0, ?_, ?_⟩
  · intro z hz
    rw [WithTop.coe_le_coe]
    linarith
  · intro a b θ u v _ _ _ _ hu hv
    have hu : idleOf κ + a = u := WithTop.coe_injective hu
    have hv : idleOf κ + b = v := WithTop.coe_injective hv
    subst hu hv
    rw [WithTop.coe_le_coe]
    linarith

theorem affine_callCertain (a : ℚ) (t : Int) (ht : 1 ≤ t) (z : ℚ) :
    (affine a).callCertain t z = .ok ⟨((a + z : ℚ) : ECost), .none⟩ := CostFn.callCertain_certain _ t ht z

theorem balanced_farm : Farm 2 [1, 1] [2, 1] (fun _ κ z => ((idleOf κ + z : ℚ) : ECost))
    [balanced 1, balanced 2, balanced 3] := by
  have hslot : ∀ (k : Nat) p, [balanced 1, balanced 2, balanced 3][k]? = some p → p = balanced (k + 1) := by
    intro k p hp
    match k, hp with
    | 0, hp => simp at hp; exact hp.symm
    | 1, hp => simp at hp; exact hp.symm
    | 2, hp => simp at hp; exact hp.symm
    | k + 3, hp => simp at hp
  refine ⟨?_, ?_, ?_, ?_⟩
  · intro k p hp
    rw [hslot k p hp]
    simp [balanced]
  · intro p hp
    exact (balanced_shown.usable p hp).valid
  · intro p hp
    simp only [List.mem_cons, List.not_mem_nil, or_false] at hp
    rcases hp with rfl | rfl | rfl <;> exact ⟨rfl, rfl, rfl, rfl⟩
  · intro k p hp κ f hf z _
    rw [hslot k p hp] at hf ⊢
    have ht : 1 ≤ (balanced (k + 1)).tEnd := by simp [balanced]
    match κ, hf with
    | 0, hf => cases hf; exact ⟨_, affine_callCertain _ _ ht z⟩
    | 1, hf => cases hf; exact ⟨_, affine_callCertain _ _ ht z⟩
    | κ + 2, hf => simp [balanced] at hf

/-- Non-vacuity of `C82_exact`: the ratio for two types and `ε = 2`, three slots with the loads 1, 2 and 0, is 7. -/
example : ∃ S : Num.Solver, ∃ (hit : Nat → Config ℤ → ECost) (xs : Schedule ℤ) (mem : Option Memory),
    play SBLO.tEnd (alg S 2) [] none ([balanced 1, balanced 2, balanced 3].map fun p => ⟨p, 0⟩) = .ok (xs, mem) ∧
      ∀ zs : Schedule ℤ, zs.length = 3 → (∀ z ∈ zs, InBox [1, 1] z) →
        farmCost hit [2, 1] xs ≤ ECost.mulQ 7 (farmCost hit [2, 1] zs) := by
  obtain ⟨S, hS, hS'⟩ := exists_exact_feasible
  refine ⟨S, fun k x => match (balanced (k + 1)).hitCost S (balanced (k + 1)).tEnd x with
    | .ok c => c.cost
    | .error _ => ⊤, ?_⟩
  have hslot : ∀ (k : Nat) p, [balanced 1, balanced 2, balanced 3][k]? = some p → p = balanced (k + 1) ∧ k < 3 := by
    intro k p hp
    match k, hp with
    | 0, hp => simp at hp; exact ⟨hp.symm, by omega⟩
    | 1, hp => simp at hp; exact ⟨hp.symm, by omega⟩
    | 2, hp => simp at hp; exact ⟨hp.symm, by omega⟩
    | k + 3, hp => simp at hp
  have hload : ∀ k < 3, ∃ q, access (balanced (k + 1)).load (balanced (k + 1)).tEnd = some q ∧ 0 ≤ q := by
    intro k hk
    match k, hk with
    | 0, _ => exact ⟨1, by decide +kernel, by norm_num⟩
    | 1, _ => exact ⟨2, by decide +kernel, by norm_num⟩
    | 2, _ => exact ⟨0, by decide +kernel, by norm_num⟩
  have ht : ∀ k : Nat, 1 ≤ (balanced (k + 1)).tEnd := fun k => by simp [balanced]
  have hmean : ∀ (k κ : Nat) f, (balanced (k + 1)).hittingCost[κ]? = some f → ∀ z : ℚ, 0 ≤ z →
      ∃ o, f.callMean (balanced (k + 1)).tEnd z = .ok ⟨((idleOf κ + z : ℚ) : ECost), o⟩ := by
    intro k κ f hf z _
    match κ, hf with
    | 0, hf => cases hf; exact ⟨_, callMean_of_certain _ _ _ _ (affine_callCertain _ _ (ht k) z)⟩
    | 1, hf => cases hf; exact ⟨_, callMean_of_certain _ _ _ _ (affine_callCertain _ _ (ht k) z)⟩
    | κ + 2, hf => simp [balanced] at hf
  have hdef : ∀ k < 3, ∀ x, InBox [1, 1] x → ∃ c, (balanced (k + 1)).hitCost S (balanced (k + 1)).tEnd x = .ok c := by
    intro k hk x hx
    obtain ⟨q, q1, q2⟩ := hload k hk
    exact hitCost_defined S hS hS' (balanced (k + 1)) (by simp [balanced]) rfl (by simp [balanced]) _ (ht k) q q1 q2 _
      (hmean k) x hx
  obtain ⟨xs, mem, e1, _, _, e2⟩ := C82_exact S hS hS' 2 [1, 1] [2, 1] 2 (by norm_num) _ _ balanced_farm
    (fun _ => idleOf) (fun _ κ => affine_server κ) (fun _ => ⟨0, by norm_num, by simp [idleOf]⟩)
    (fun k x => match (balanced (k + 1)).hitCost S (balanced (k + 1)).tEnd x with
      | .ok c => c.cost
      | .error _ => ⊤)
    (by
      intro k p hp x hx
      obtain ⟨rfl, hk⟩ := hslot k p hp
      obtain ⟨c, hc⟩ := hdef k hk x hx
      exact ⟨c.output, by rw [hc]⟩)
    (by
      intro k hk
      obtain ⟨q, q1, q2⟩ := hload k hk
      have hb : InBox [1, 1] ([1, 1] : List ℤ) := .cons ⟨by norm_num, by norm_num⟩ (.cons ⟨by norm_num, by norm_num⟩ .nil)
      obtain ⟨c, hc⟩ := hdef k hk [1, 1] hb
      simp only [hc]
      obtain ⟨_, z5⟩ := hitCost_shared hS (balanced (k + 1)) (by simp [balanced]) _ (ht k) rfl (by simp [balanced]) q q1 q2
        _ (hmean k) [1, 1] hb c hc
      obtain ⟨y, y1, y2, y3⟩ := rest_feasible (balanced (k + 1)).d.toNat (by simp [balanced]) q
      intro htop
      have := z5 y y1 y2 y3
      rw [htop, top_le_iff] at this
      unfold shared at this
      rw [show List.range (balanced (k + 1)).d.toNat = [0, 1] from rfl] at this
      simp only [List.map_cons, List.map_nil, List.sum_cons, List.sum_nil, serversCost, List.getD_cons_zero,
        List.getD_cons_succ, one_ne_zero, if_false, mulQ_coe, add_zero] at this
      rw [← WithTop.coe_add] at this
      exact WithTop.coe_ne_top this)
  refine ⟨xs, mem, e1, fun zs h1 h2 => ?_⟩
  have := e2 zs h1 h2
  norm_num at this
  exact this

end Soco.Bb
