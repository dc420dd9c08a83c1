import Verif.Props.ApproxRatio
import Verif.Props.Network
import Verif.Spec.Hundredths
import Mathlib.Tactic.Linarith

/-!
# C55, C68: which configurations can handle a load that is handed out in hundredths
-/

namespace Soco.Whole
open Soco Soco.Spec

/-- Non-negative integers with enough in total contain non-negative integers with a given total. -/
theorem split_exact (ns : List ℤ) (h0 : ∀ n ∈ ns, 0 ≤ n) (m : ℤ) (hm : 0 ≤ m) (hs : m ≤ ns.sum) :
    ∃ ms, List.Forall₂ (fun n k => 0 ≤ k ∧ k ≤ n) ns ms ∧ ms.sum = m := by
  induction ns generalizing m with
  | nil =>
    simp only [List.sum_nil] at hs
    exact ⟨[], .nil, by simp; omega⟩
  | cons n ns ih =>
    have hn := h0 n (by simp)
    rw [List.sum_cons] at hs
    have hs0 : 0 ≤ ns.sum := List.sum_nonneg fun n hn => h0 n (by simp [hn])
    obtain ⟨ms, h1, h2⟩ := ih (fun n hn => h0 n (by simp [hn])) (m - min n m) (by omega) (by omega)
    exact ⟨min n m :: ms, .cons ⟨by omega, by omega⟩ h1, by simp [h2]⟩

/-- Shares no larger than the number of servers cost finitely much. -/
theorem objective_finite (p : SLO ℤ) (t : Int) (ht : 1 ≤ t) (x : Config ℤ) (l : ℚ) (z : LoadFractions)
    (hd : z.d = p.d.toNat) (hx : p.d = x.length) (hc : p.d ≤ p.hittingCost.length) (he : z.e = 1)
    (hz : z.zs.length = z.d - 1)
    (hk : ∀ (k : Nat) (xk : ℤ), x[k]? = some xk → 0 ≤ l * z.fr [l] k 0 ∧ l * z.fr [l] k 0 ≤ xk) :
    ∃ o, p.intoSBLO.objective t x [l] z = .ok o ∧ o.energyCost + o.revenueLoss ≠ ⊤ := by
  unfold SBLO.objective
  simp only [bind, Except.bind]
  have : assertP (decide (p.intoSBLO.d = (x.length : Int))) = .ok () := by rw [assertP_ok_iff]; exact decide_eq_true hx
  rw [this]
  simp only [IRes.ofRes]
  have hone : ∀ k < z.d, ∃ o, p.intoSBLO.dimCost t x [l] z k = .ok o ∧ o.energyCost + o.revenueLoss ≠ ⊤ := by
    intro k hkd
    obtain ⟨xk, hxk⟩ : ∃ xk, x[k]? = some xk := ⟨_, List.getElem?_eq_getElem (by omega)⟩
    obtain ⟨c, hcc⟩ : ∃ c, p.hittingCost[k]? = some c := ⟨_, List.getElem?_eq_getElem (by omega)⟩
    obtain ⟨h0, h1⟩ := hk k xk hxk
    unfold SBLO.dimCost
    rw [z.selectLoads_eq [l] (by rw [he, hz, Nat.mul_one]) (by simp [he]) k hkd, he]
    have e0 : IRes.ofRes (idx ((List.range 1).map fun i => ([l] : List ℚ).getD i 0 * z.fr [l] k i) 0) =
        .ok (l * z.fr [l] k 0) := rfl
    simp only [IRes.ofRes, bind, Except.bind]
    simp only [IRes.ofRes] at e0
    rw [e0]
    simp only [idx, hxk]
    rw [safeBalancing]
    by_cases hp : toQ xk > 0
    · rw [if_pos hp]
      have hg : p.intoSBLO.hittingCost[k]? = some (CostFn.new 1 (SingleCostFn.certain fun _ y =>
          .ok (if y ≤ 1 then Cost.raw ((c : ℚ) : ECost) else ⟨⊤, .failure .sloMaxUtilizationExceeded⟩))) := by
        simp [SLO.intoSBLO, hcc]
      have hy : l * z.fr [l] k 0 / toQ xk ≤ 1 := by
        rw [div_le_one hp]
        exact h1
      simp only [hg]
      rw [CostFn.callMean_certain _ t ht]
      simp only [if_pos hy, Cost.raw]
      refine ⟨_, rfl, ?_⟩
      simp [ECost.mulQ]
    · rw [if_neg hp]
      have hx0 : (xk : ℚ) ≤ 0 := not_lt.1 hp
      have hz0 : l * z.fr [l] k 0 = 0 := le_antisymm (h1.trans hx0) h0
      rw [if_neg (by rw [hz0]; exact lt_irrefl _), if_pos hz0]
      exact ⟨_, rfl, by simp⟩
  have gen : ∀ ks : List Nat, (∀ k ∈ ks, k < z.d) → ∃ o, sumM (ks.map (p.intoSBLO.dimCost t x [l] z)) = .ok o ∧
      o.energyCost + o.revenueLoss ≠ ⊤ := by
    intro ks
    induction ks with
    | nil => intro _; exact ⟨0, rfl, by show (0 : ECost) + 0 ≠ ⊤; simp⟩
    | cons k ks ih =>
      intro h
      obtain ⟨a, ha, ha'⟩ := hone k (h k (by simp))
      obtain ⟨b, hb, hb'⟩ := ih fun k hk => h k (by simp [hk])
      refine ⟨a + b, ?_, ?_⟩
      · simp only [List.map_cons, sumM, bind, Except.bind, ha, hb]
      · show a.energyCost + b.energyCost + (a.revenueLoss + b.revenueLoss) ≠ ⊤
        rw [add_add_add_comm]
        exact WithTop.add_ne_top.2 ⟨ha', hb'⟩
  have := gen (List.range p.intoSBLO.d.toNat) fun k hk => by
    rw [List.mem_range] at hk
    rw [hd]; exact hk
  exact this

/-- The costs of the balanced-load problem are defined. -/
theorem defined (S : Num.Solver) (hS : Exact S) (hS' : StaysFeasible S) (p : SLO ℤ) (hd : 1 ≤ p.d)
    (hc : (p.hittingCost.length : Int) = p.d) (hb : (p.bounds.length : Int) = p.d) (t : Int) (ht : 1 ≤ t)
    (x : Config ℤ) (hx : InBox p.bounds x) (l : ℤ) (hl : access p.load t = some l) (hl0 : 0 ≤ l) :
    ∃ c, p.intoSBLO.hitCost S t x = .ok c := by
  refine hitCost_defined S hS hS' p.intoSBLO hd hb (by simp [SLO.intoSBLO, hc]) t ht l hl hl0 (utilCost p.hittingCost) ?_ x hx
  intro k g hg y _
  have hcall := intoSBLO_cost p t ht k g y
  simp only [SLO.intoSBLO, List.getElem?_map, Option.map_eq_some_iff] at hg
  obtain ⟨q, hq, rfl⟩ := hg
  have hcall := fun c => hcall c (by simp [SLO.intoSBLO, hq])
  rw [CostFn.callMean_certain _ t ht] at hcall ⊢
  by_cases hy : y ≤ 1
  · rw [if_pos hy] at hcall ⊢
    exact ⟨_, by rw [← hcall _ rfl]⟩
  · rw [if_neg hy] at hcall ⊢
    exact ⟨_, by rw [← hcall _ rfl]⟩


/-- The shares of one load, from percentages. -/
theorem shares {d : Nat} (hd : 1 ≤ d) {l : ℚ} (hl : 0 ≤ l) (ns : List ℤ) (hn : ns.length = d) (h0 : ∀ n ∈ ns, 0 ≤ n)
    (hs : ns.sum = 100) : ∃ zs, Network.Allowed d 1 [l] zs ∧
      ∀ (k : Nat) (n : ℤ), ns[k]? = some n → l * (⟨zs, d, 1⟩ : LoadFractions).fr [l] k 0 = l * n / 100 := by
  have hsum : (ns.map fun n : ℤ => (n : ℚ) / 100).sum = 1 := by
    have : ∀ ms : List ℤ, (ms.map fun n : ℤ => (n : ℚ) / 100).sum = ((ms.sum : ℤ) : ℚ) / 100 := by
      intro ms
      induction ms with
      | nil => simp
      | cons m ms ih => simp only [List.map_cons, List.sum_cons, ih]; push_cast; ring
    rw [this, hs]; norm_num
  have hr : (List.range d).map (fun k => ((ns.getD k 0 : ℤ) : ℚ) / 100) = ns.map fun n : ℤ => (n : ℚ) / 100 := by
    apply List.ext_getElem
    · simp [hn]
    · intro i h1 h2
      have hi : i < ns.length := by simpa using h2
      simp [List.getD, List.getElem?_eq_getElem hi]
  obtain ⟨zs, h1, h2⟩ := Network.allowed_of_split (d := d) (e := 1) (lambda := [l]) hd rfl (by simpa using hl)
    (z := fun k _ => ((ns.getD k 0 : ℤ) : ℚ) / 100) (by
      refine ⟨?_, ?_, ?_⟩
      · intro k i hk _
        have : 0 ≤ ns.getD k 0 := by
          rw [List.getD_eq_getElem _ _ (by omega)]
          exact h0 _ (List.getElem_mem _)
        have : (0 : ℚ) ≤ (ns.getD k 0 : ℤ) := by exact_mod_cast this
        positivity
      · intro k i _ _
        exact ⟨ns.getD k 0, by ring⟩
      · intro i hi hp
        simp only [List.length_cons, List.length_nil, zero_add, Nat.lt_one_iff] at hi
        subst hi
        simp only [List.sum_cons, List.sum_nil, add_zero] at hp
        simp only [sumTo, hr, hsum]
        simp [div_self hp.ne'])
  refine ⟨zs, h1, fun k n hk => ?_⟩
  have hkd : k < d := by rw [← hn]; exact (List.getElem?_eq_some_iff.1 hk).1
  have := h2 k 0 hkd Nat.zero_lt_one
  simp only [List.getD_cons_zero] at this
  rw [← this]
  simp only [List.getD, hk, Option.getD_some]
  ring

/-- Percentages, from the shares of one load. -/
theorem percentages {d : Nat} (hd : 1 ≤ d) {l : ℚ} (hl : 0 < l) {zs : List ℚ} (h : Network.Allowed d 1 [l] zs) :
    ∃ ns : List ℤ, ns.length = d ∧ ns.sum = 100 ∧ ∀ (k : Nat) (n : ℤ), ns[k]? = some n →
      0 ≤ n ∧ (⟨zs, d, 1⟩ : LoadFractions).fr [l] k 0 = n / 100 := by
  have hsp := Network.split_of_allowed (d := d) (e := 1) (lambda := [l]) hd rfl h
  set z : Nat → ℚ := fun k => (⟨zs, d, 1⟩ : LoadFractions).fr [l] k 0 with hz
  have htot : ((List.range d).map z).sum = 1 := by
    have := hsp.total 0 (by simp) (by simpa using hl)
    simp only [List.getD_cons_zero, List.sum_cons, List.sum_nil, add_zero, div_self hl.ne'] at this
    exact this
  obtain ⟨e, rfl⟩ : ∃ e, d = e + 1 := ⟨d - 1, by omega⟩
  have hg : ∀ k, k < e → ∃ n : ℤ, z k = n / 100 := by
    intro k hk
    obtain ⟨n, hn⟩ := hsp.grid k 0 (by omega) (by simp)
    exact ⟨n, by rw [hz]; simp only; rw [hn]; ring⟩
  have hpart : ∀ m, m ≤ e → ∃ n : ℤ, ((List.range m).map z).sum = n / 100 := by
    intro m
    induction m with
    | zero => intro _; exact ⟨0, by simp⟩
    | succ m ih =>
      intro hm
      obtain ⟨a, ha⟩ := ih (by omega)
      obtain ⟨b, hb⟩ := hg m (by omega)
      exact ⟨a + b, by rw [List.range_succ, List.map_append, List.sum_append, ha]; simp [hb]; ring⟩
  have hg' : ∀ k, k < e + 1 → ∃ n : ℤ, z k = n / 100 := by
    intro k hk
    by_cases hke : k < e
    · exact hg k hke
    · obtain rfl : k = e := by omega
      obtain ⟨a, ha⟩ := hpart k le_rfl
      rw [List.range_succ, List.map_append, List.sum_append, ha] at htot
      simp only [List.map_cons, List.map_nil, List.sum_cons, List.sum_nil, add_zero] at htot
      exact ⟨100 - a, by push_cast; linarith⟩
  choose n hn using hg'
  refine ⟨(List.range (e + 1)).map fun k => if h : k < e + 1 then n k h else 0, by simp, ?_, ?_⟩
  · have h1 : ((List.range (e + 1)).map z).sum =
        ((((List.range (e + 1)).map fun k => if h : k < e + 1 then n k h else 0).sum : ℤ) : ℚ) / 100 := by
      have : ∀ ks : List Nat, (∀ k ∈ ks, k < e + 1) → (ks.map z).sum =
          (((ks.map fun k => if h : k < e + 1 then n k h else 0).sum : ℤ) : ℚ) / 100 := by
        intro ks
        induction ks with
        | nil => intro _; simp
        | cons k ks ih =>
          intro hk
          have hk1 := hk k (by simp)
          simp only [List.map_cons, List.sum_cons, ih fun k h => hk k (by simp [h]), dif_pos hk1, hn k hk1]
          push_cast
          ring
      exact this _ fun k hk => List.mem_range.1 hk
    rw [htot] at h1
    have : ((((List.range (e + 1)).map fun k => if h : k < e + 1 then n k h else 0).sum : ℤ) : ℚ) = 100 := by linarith
    exact_mod_cast this
  · intro k m hk
    have hkd : k < e + 1 := by simpa using (List.getElem?_eq_some_iff.1 hk).1
    have hm : m = n k hkd := by
      rw [List.getElem?_map, List.getElem?_range hkd] at hk
      simp only [Option.map_some, Option.some.injEq, dif_pos hkd] at hk
      exact hk.symm
    have h1 := hsp.nonneg k 0 hkd (by simp)
    have h2 : (⟨zs, e + 1, 1⟩ : LoadFractions).fr [l] k 0 = (m : ℚ) / 100 := by rw [hm]; exact hn k hkd
    refine ⟨?_, h2⟩
    rw [h2] at h1
    have : (0 : ℚ) ≤ m := by linarith
    exact_mod_cast this

end Soco.Whole

namespace Soco
open Spec Whole

/-- **C55** What the balanced-load problem of a load problem charges, with an exact solver: the cost of the load problem,
if the load can be handed to the types in whole hundredths without overloading a type, and infinitely much otherwise. -/
theorem C55_hundredths (S : Num.Solver) (hS : Exact S) (hS' : StaysFeasible S) (p : SLO ℤ) (hd : 1 ≤ p.d)
    (hc : (p.hittingCost.length : Int) = p.d) (hb : (p.bounds.length : Int) = p.d) (t : Int) (ht : 1 ≤ t)
    (x : Config ℤ) (hx : InBox p.bounds x) (l : ℤ) (hl : access p.load t = some l) (hl0 : 0 ≤ l) :
    ∃ c, p.intoSBLO.hitCost S t x = .ok c ∧ (c.cost ≠ ⊤ ↔ InHundredths l x) ∧
      (InHundredths l x → p.hitCost t x = .ok (Cost.raw c.cost)) := by
  obtain ⟨c, hcc⟩ := Whole.defined S hS hS' p hd hc hb t ht x hx l hl hl0
  have hbox := hx
  have hlq : 0 ≤ toQ l := toQ_nonneg.2 hl0
  have hd' : 1 ≤ p.d.toNat := by omega
  have hxl : x.length = p.d.toNat := by
    have := List.Forall₂.length_eq hx
    omega
  have hc' := hcc
  rw [SBLO.hitCost_eq S p.intoSBLO t x ht hx l hl] at hc'
  obtain ⟨zs, z1, z2, z3, z4, hbest⟩ := applyLoads_solver hS (d := p.d.toNat) hd' hlq hc'
  have hxn : ∀ q ∈ x.map toQ, 0 ≤ q := by
    intro q hq
    rw [List.mem_map] at hq
    obtain ⟨j, hj, rfl⟩ := hq
    exact toQ_nonneg.2 (InBox.nonneg hbox j hj)
  have hfwd : c.cost ≠ ⊤ → InHundredths l x ∧ p.hitCost t x = .ok (Cost.raw c.cost) := by
    intro hfin
    unfold solverObjective at z4
    have hnew : LoadFractions.new zs p.d.toNat 1 = ⟨zs, p.d.toNat, 1⟩ := by
      unfold LoadFractions.new
      rw [Soco.applyPrecisionVec_grid z2]
    rw [hnew] at z4
    split at z4
    · rename_i o ho
      obtain ⟨h7, loads, costs, h8, h9, h10⟩ := SBLO.objective_ok (z := ⟨zs, p.d.toNat, 1⟩) rfl hd' rfl
        (by rw [inBoxQ_length z1]; simp) hlq (utilCost p.hittingCost)
        (fun k g y c => intoSBLO_cost p t ht k g y c) ho
      have hcost : c.cost = costs.sum := by
        rw [← h9, ← add_zero o.energyCost, ← h7]
        exact (Except.ok.inj z4).symm
      obtain ⟨g1, g2⟩ := balanced_capacity p.hittingCost (x.map toQ) loads (toQ l) costs hxn h8 (hcost ▸ hfin)
      have g1' : l ≤ x.sum := by rwa [← toQ_sum, toQ_le_iff] at g1
      constructor
      · rcases eq_or_lt_of_le hl0 with h0 | h0
        · obtain ⟨ns, n1, n2⟩ : ∃ ns : List ℤ, ns.length = x.length ∧ (∀ n ∈ ns, 0 ≤ n) ∧ ns.sum = 100 := by
            refine ⟨100 :: List.replicate (x.length - 1) 0, by simp; omega, ?_, by simp⟩
            intro n hn
            rcases List.mem_cons.1 hn with rfl | hn
            · decide
            · rw [List.eq_of_mem_replicate hn]
          refine ⟨ns, List.forall₂_iff_get.2 ⟨n1.symm, fun i hi hi' => ⟨n2.1 _ (List.getElem_mem _), ?_⟩⟩, n2.2⟩
          rw [← h0, zero_mul]
          have := InBox.nonneg hbox _ (List.getElem_mem hi)
          simp only [List.get_eq_getElem]
          omega
        · have hlp : 0 < toQ l := by
            have : (0 : ℚ) < (l : ℚ) := by exact_mod_cast h0
            exact this
          obtain ⟨ns, n1, n2, n3⟩ := percentages hd' hlp (zs := zs) ⟨z1, z2, z3⟩
          refine ⟨ns, List.forall₂_iff_get.2 ⟨by omega, fun i hi hi' => ?_⟩, n2⟩
          obtain ⟨m1, m2⟩ := n3 i ns[i] (List.getElem?_eq_getElem hi')
          refine ⟨m1, ?_⟩
          obtain ⟨b1, b2, _, b4⟩ := h8
          have hi2 : i < costs.length := by rw [b2]; simpa using hi
          have hi3 : i < loads.length := by rw [b1]; simpa using hi
          have hload : loads[i] = toQ l * (ns[i] : ℚ) / 100 := by
            simp only [h10, List.getElem_map, List.getElem_range]
            rw [m2]; ring
          have h5 := b4 i (toQ x[i]) loads[i] costs[i] (by simp [List.getElem?_eq_getElem hi])
            (List.getElem?_eq_getElem hi3) (List.getElem?_eq_getElem hi2)
          have hle : loads[i] ≤ toQ x[i] := by
            rcases eq_or_lt_of_le (toQ_nonneg.2 (InBox.nonneg hbox x[i] (List.getElem_mem hi))) with h0' | h0'
            · rw [(h5.2 h0'.symm.le).1, ← h0']
            · have h6 := h5.1 h0'
              by_contra hgt
              have : utilCost p.hittingCost i (loads[i] / toQ x[i]) = ⊤ :=
                if_neg fun h => hgt ((div_le_one h0').1 h)
              rw [this] at h6
              apply hfin
              rw [hcost]
              have hm : (⊤ : ECost) ∈ costs := by
                have : costs[i] = ⊤ := h6
                rw [← this]; exact List.getElem_mem _
              obtain ⟨a, b, hab⟩ := List.append_of_mem hm
              rw [hab]; simp
          rw [hload] at hle
          have e1 : toQ l = (l : ℚ) := rfl
          have e2 : toQ x[i] = (x[i] : ℚ) := rfl
          rw [e1, e2] at hle
          have : (l * ns[i] : ℚ) ≤ 100 * x[i] := by linarith
          simp only [List.get_eq_getElem]
          exact_mod_cast this
      · unfold SLO.hitCost
        rw [hl]
        rw [show Config.total x = x.sum from rfl] at *
        simp only
        rw [if_neg (not_lt.2 g1'), ← hxl, sloSum_ok _ _ (by omega)]
        simp only [bind, Except.bind]
        rw [hcost, g2, ← coe_sum, List.map_map]
        simp [Function.comp_def]
    · exact absurd (Except.ok.inj z4).symm hfin
    · cases z4
  have hiff : c.cost ≠ ⊤ ↔ InHundredths l x := by
    refine ⟨fun h => (hfwd h).1, ?_⟩
    rintro ⟨ns, n1, n2⟩
    have hnl : ns.length = p.d.toNat := by rw [← n1.length_eq, hxl]
    have hn0 : ∀ n ∈ ns, 0 ≤ n := by
      intro n hn
      obtain ⟨i, hi, rfl⟩ := List.getElem_of_mem hn
      exact (forall₂_get n1 (List.getElem?_eq_getElem (by omega)) (List.getElem?_eq_getElem hi)).1
    obtain ⟨ws, w1, w2⟩ := shares hd' hlq ns hnl hn0 n2
    obtain ⟨o, ho, hne⟩ := objective_finite p t ht x (toQ l) ⟨ws, p.d.toNat, 1⟩ rfl (by omega) (by omega) rfl
      (by rw [inBoxQ_length w1.box]; simp) (by
        intro k xk hk
        have hkx : k < x.length := (List.getElem?_eq_some_iff.1 hk).1
        have hkn : ns[k]? = some (ns[k]'(by omega)) := List.getElem?_eq_getElem (by omega)
        obtain ⟨a1, a2⟩ := forall₂_get n1 hk hkn
        rw [w2 k _ hkn]
        have b1 : (0 : ℚ) ≤ (ns[k]'(by omega) : ℤ) := by exact_mod_cast a1
        have b2 : ((l * ns[k]'(by omega) : ℤ) : ℚ) ≤ (100 * xk : ℤ) := by exact_mod_cast a2
        push_cast at b2
        have e1 : toQ l = (l : ℚ) := rfl
        rw [e1] at hlq ⊢
        refine ⟨by positivity, by linarith⟩)
    have hnew : LoadFractions.new ws p.d.toNat 1 = ⟨ws, p.d.toNat, 1⟩ := by
      unfold LoadFractions.new
      rw [Soco.applyPrecisionVec_grid w1.grid]
    have := hbest ws w1.box w1.grid w1.meets (o.energyCost + o.revenueLoss) (by
      unfold solverObjective
      rw [hnew, ho])
    exact fun h => hne (top_le_iff.1 (h ▸ this))
  exact ⟨c, hcc, hiff, fun h => (hfwd (hiff.2 h)).2⟩

theorem shaped_of_sound {S : Num.Solver} (hS : Sound S) : Shaped S := fun box f init cs h =>
  (inBoxQ_length (hS.inside box f init cs h))

namespace Whole

/-- Whoever can hand out a load in hundredths has enough servers. -/
theorem enough_of_hundredths {l : ℤ} {x : List ℤ} (h : InHundredths l x) : l ≤ x.sum := by
  obtain ⟨ns, h1, h2⟩ := h
  have : l * ns.sum ≤ 100 * x.sum := by
    clear h2
    induction h1 with
    | nil => simp
    | cons h _ ih =>
      simp only [List.sum_cons, mul_add]
      linarith [h.2]
  rw [h2] at this
  omega

theorem hundredths_of_shares {l : ℤ} (hl : 0 ≤ l) {x fs : List ℤ} (h : List.Forall₂ (fun xk f => 0 ≤ f ∧ l * f ≤ 100 * xk) x fs)
    (hs : 100 ≤ fs.sum) : InHundredths l x := by
  obtain ⟨ms, h1, h2⟩ := split_exact fs (by
    intro f hf
    obtain ⟨i, hi, rfl⟩ := List.getElem_of_mem hf
    exact (forall₂_get h (List.getElem?_eq_getElem (by rw [h.length_eq]; exact hi)) (List.getElem?_eq_getElem hi)).1)
    100 (by decide) hs
  refine ⟨ms, ?_, h2⟩
  clear h2 hs
  induction h generalizing ms with
  | nil => cases h1; exact .nil
  | cons ha _ ih =>
    cases h1 with
    | cons hb h1 =>
      refine .cons ⟨hb.1, ?_⟩ (ih _ h1)
      nlinarith [ha.2, hb.2]

end Whole

/-- **C55** Loads whose hundredths include all whole parts, that is, divisors of 100, can be handed out whenever there are
enough servers. -/
theorem C55_divisors {l : ℤ} (hl : 0 < l) (hdiv : l ∣ 100) {x : List ℤ} (hx : ∀ j ∈ x, 0 ≤ j) :
    InHundredths l x ↔ l ≤ x.sum := by
  refine ⟨enough_of_hundredths, fun h => ?_⟩
  obtain ⟨m, hm⟩ := hdiv
  have hm0 : 0 < m := by
    by_contra hc
    nlinarith
  refine hundredths_of_shares hl.le (fs := x.map (m * ·)) ?_ ?_
  · rw [List.forall₂_map_right_iff, List.forall₂_same]
    intro j hj
    exact ⟨mul_nonneg hm0.le (hx j hj), by rw [← mul_assoc, ← hm]⟩
  · have hsum : ∀ ys : List ℤ, (ys.map (m * ·)).sum = m * ys.sum := by
      intro ys
      induction ys with
      | nil => simp
      | cons y ys ih => simp [ih, mul_add]
    rw [hsum, hm]
    nlinarith

/-- **C55** One additional server per hundred and additional type is enough to hand out any load; with one type nothing
additional is needed. -/
theorem C55_slack {l : ℤ} (hl : 0 ≤ l) {x : List ℤ} (hx : ∀ j ∈ x, 0 ≤ j) (hne : x ≠ [])
    (h : (99 + x.length) * l ≤ 100 * x.sum) : InHundredths l x := by
  rcases eq_or_lt_of_le hl with h0 | h0
  · match x, hne with
    | y :: ys, _ =>
      refine ⟨100 :: List.replicate ys.length 0, .cons ⟨by decide, ?_⟩ ?_, by simp⟩
      · have := hx y (by simp)
        rw [← h0]; omega
      · refine List.forall₂_iff_get.2 ⟨by simp, fun i hi hi' => ?_⟩
        have := hx (ys[i]) (by simp)
        simp [this]
  · refine hundredths_of_shares hl (fs := x.map fun j => 100 * j / l) ?_ ?_
    · rw [List.forall₂_map_right_iff, List.forall₂_same]
      intro j hj
      have := hx j hj
      exact ⟨Int.ediv_nonneg (by omega) hl, Int.mul_ediv_self_le h0.ne'⟩
    · have key : ∀ ys : List ℤ, 100 * ys.sum - (ys.length : ℤ) * (l - 1) ≤ l * (ys.map fun j => 100 * j / l).sum := by
        intro ys
        induction ys with
        | nil => simp
        | cons y ys ih =>
          simp only [List.map_cons, List.sum_cons, List.length_cons]
          have := Int.lt_mul_ediv_self_add (x := 100 * y) h0
          push_cast
          nlinarith
      have hk := key x
      have hlen : (1 : ℤ) ≤ x.length := by
        have : 0 < x.length := List.length_pos_iff.2 hne
        omega
      by_contra hc
      have h99 : (x.map fun j => 100 * j / l).sum ≤ 99 := by omega
      nlinarith

/-- **C55** With an exact solver the balanced-load problem charges what the load problem charges, for every
configuration, if the loads are divisors of 100 or zero, or if there is one type of servers only. -/
theorem C55_same_cost (S : Num.Solver) (hS : Exact S) (hS' : StaysFeasible S) (p : SLO ℤ) (hd : 1 ≤ p.d)
    (hc : (p.hittingCost.length : Int) = p.d) (hb : (p.bounds.length : Int) = p.d) (t : Int) (ht : 1 ≤ t)
    (x : Config ℤ) (hx : InBox p.bounds x) (l : ℤ) (hl : access p.load t = some l) (hl0 : 0 ≤ l)
    (hdiv : l = 0 ∨ l ∣ 100 ∨ p.d = 1) :
    ∃ c c', p.intoSBLO.hitCost S t x = .ok c ∧ p.hitCost t x = .ok c' ∧ c.cost = c'.cost := by
  obtain ⟨c, h1, h2, h3⟩ := C55_hundredths S hS hS' p hd hc hb t ht x hx l hl hl0
  have hx0 : ∀ j ∈ x, 0 ≤ j := InBox.nonneg hx
  have hxl : (x.length : Int) = p.d := by
    have := List.Forall₂.length_eq hx
    omega
  have hne : x ≠ [] := by
    rintro rfl
    simp at hxl; omega
  by_cases hh : InHundredths l x
  · exact ⟨c, _, h1, h3 hh, rfl⟩
  · have hlt : x.sum < l := by
      by_contra hge
      apply hh
      rcases hdiv with h | h | h
      · subst h
        refine C55_slack hl0 hx0 hne ?_
        have : 0 ≤ x.sum := List.sum_nonneg hx0
        rw [mul_zero]; omega
      · refine (C55_divisors (lt_of_le_of_ne hl0 ?_) h hx0).2 (not_lt.1 hge)
        rintro rfl
        omega
      · refine C55_slack hl0 hx0 hne ?_
        rw [hxl, h]; omega
    refine ⟨c, ⟨⊤, .failure .demandExceedingSupply⟩, h1, ?_, not_not.1 fun hc => hh (h2.1 hc)⟩
    unfold SLO.hitCost
    rw [hl]
    simp only
    exact if_pos hlt

/-- Non-vacuity: a load of 50 and two types. -/
example : ∃ S : Num.Solver, ∃ c c', (SLO.intoSBLO (⟨2, 1, [17, 40], [1, 2], [2, 1], [50]⟩ : SLO ℤ)).hitCost S 1 [13, 37] = .ok c ∧
    SLO.hitCost (⟨2, 1, [17, 40], [1, 2], [2, 1], [50]⟩ : SLO ℤ) 1 [13, 37] = .ok c' ∧ c.cost = c'.cost := by
  obtain ⟨S, h1, h2⟩ := exists_exact_feasible
  exact ⟨S, C55_same_cost S h1 h2 _ (by decide) rfl rfl 1 le_rfl _ (.cons (by decide) (.cons (by decide) .nil)) 50 rfl
    (by decide) (.inr (.inl (by decide)))⟩

/-- Non-vacuity: three quarters of a load of 40 are not a whole number of hundredths, but there is one way to share it. -/
example : InHundredths 40 [31, 10] ∧ ¬ InHundredths 3 [1, 2] := by
  refine ⟨⟨[75, 25], .cons (by decide) (.cons (by decide) .nil), rfl⟩, ?_⟩
  rintro ⟨ns, h1, h2⟩
  match ns, h1 with
  | [a, b], .cons ha (.cons hb .nil) =>
    simp only [List.sum_cons, List.sum_nil] at h2
    omega

example : InHundredths 67 [30, 38] := C55_slack (by decide) (by decide) (by decide) (by decide)

theorem Whole.getD_mem_take (ls : List ℤ) (i n : Nat) (h1 : i < n) (h2 : i < ls.length) : ls.getD i 0 ∈ ls.take n := by
  rw [List.getD_eq_getElem _ _ h2, List.mem_take_iff_getElem]
  exact ⟨i, by omega, rfl⟩

/-- An instance whose loads can be handed out if all servers are active is usable. -/
theorem Whole.usable (S : Num.Solver) (hS : Exact S) (hS' : StaysFeasible S) (p : SLO ℤ) (hv : p.verify = .ok ())
    (hc : (p.hittingCost.length : Int) = p.d) (hpos : ∀ c ∈ p.hittingCost, 0 < c)
    (hcap : ∀ l ∈ p.load.take p.tEnd.toNat, InHundredths l p.bounds) : Lb.Usable S p := by
  have hval : ValidSLO p := by
    by_contra h
    have := (C10_slo_verify_exact p hc.ge).2 h
    rw [hv] at this; simp at this
  obtain ⟨v1, v2, v3, v4, v5, v6, _⟩ := id hval
  have hub : InBox p.bounds p.bounds := by
    unfold InBox
    rw [List.forall₂_same]
    intro u hu
    exact ⟨(v6 u hu).le, le_refl _⟩
  have hload : ∀ t : Int, 1 ≤ t → t ≤ p.tEnd → p.load.getD (t - 1).toNat 0 ∈ p.load.take p.tEnd.toNat := by
    intro t h1 h2
    exact getD_mem_take _ _ _ (by omega) (by omega)
  refine ⟨hv, hc, hpos, ?_, ?_⟩
  · intro t h1 h2 x hx
    obtain ⟨a1, a2⟩ := Offline.access_getD hval t h1 h2
    exact Whole.defined S hS hS' p (by omega) hc v3 t h1 x hx _ a1 a2
  · intro t h1 h2 c hcc
    obtain ⟨a1, a2⟩ := Offline.access_getD hval t h1 h2
    obtain ⟨c', g1, g2, _⟩ := C55_hundredths S hS hS' p (by omega) hc v3 t h1 p.bounds hub _ a1 a2
    rw [hcc] at g1
    cases g1
    exact g2.2 (hcap _ (hload t h1 h2))

namespace Offline

/-- **C68** With an exact solver, solving a load problem by the graph search returns a schedule of the decision space which
handles every load, and whose cost, that of the load problem, is at most that of any schedule which can hand out every load
in whole hundredths. -/
theorem C68_hundredths (S : Num.Solver) (hS : Exact S) (hS' : StaysFeasible S) (p : SLO ℤ) (hv : p.verify = .ok ())
    (hc : (p.hittingCost.length : Int) = p.d) (hpos : ∀ c ∈ p.hittingCost, 0 < c) (hT : 1 ≤ p.tEnd)
    (hcap : ∀ l ∈ p.load.take p.tEnd.toNat, InHundredths l p.bounds) :
    ∃ xs c, solveOptimalSLO S (.ok p) none .dflt = .ok (xs, c) ∧ InSpace p.tEnd p.bounds xs ∧
      c.cost = loadTotal p xs ∧ c.cost ≠ ⊤ ∧
      (∀ (i : Nat) x, xs[i]? = some x → InHundredths (p.load.getD i 0) x) ∧
      ∀ ys, InSpace p.tEnd p.bounds ys → (∀ (i : Nat) y, ys[i]? = some y → InHundredths (p.load.getD i 0) y) →
        c.cost ≤ loadTotal p ys := by
  have hu := Whole.usable S hS hS' p hv hc hpos hcap
  have hval := hu.valid
  obtain ⟨v1, v2, v3, _⟩ := id hval
  obtain ⟨xs, c, h1, h2, h3, h4, h5, h6⟩ := C68_slo_optimal_partial S (shaped_of_sound hS.toSound) p hu hT
  have hslot : ∀ zs, InSpace p.tEnd p.bounds zs → ∀ (i : Nat) z, zs[i]? = some z →
      (balancedCost S p.intoSBLO (i + 1) z ≠ ⊤ ↔ InHundredths (p.load.getD i 0) z) := by
    intro zs hz i z hi
    have hil : i < zs.length := (List.getElem?_eq_some_iff.1 hi).1
    have hit' : ((i : Int) + 1) ≤ p.tEnd := by have := hz.1; omega
    obtain ⟨a1, a2⟩ := access_getD hval ((i : Int) + 1) (by omega) hit'
    obtain ⟨c, g1, g2, _⟩ := C55_hundredths S hS hS' p (by omega) hc v3 ((i : Int) + 1) (by omega) z
      (hz.2 z (List.mem_of_getElem? hi)) _ a1 a2
    have : balancedCost S p.intoSBLO (i + 1) z = c.cost := by unfold balancedCost; rw [g1]
    rw [this, g2]
    simp
  refine ⟨xs, c, h1, h2, h3, h4, fun i x hi => (hslot xs h2 i x hi).1 (h5 i x hi).2, fun ys hy hh => ?_⟩
  exact h6 ys hy fun i y hi => (hslot ys hy i y hi).2 (hh i y hi)

theorem _root_.Soco.Whole.hundredths_of_divisible {p : SLO ℤ} (hval : ValidSLO p)
    (hdiv : p.d = 1 ∨ ∀ l ∈ p.load.take p.tEnd.toNat, l = 0 ∨ l ∣ 100) :
    ∀ l ∈ p.load.take p.tEnd.toNat, ∀ x : List ℤ, (x.length : Int) = p.d → (∀ j ∈ x, 0 ≤ j) → l ≤ x.sum →
      InHundredths l x := by
  obtain ⟨v1, v2, v3, v4, v5, v6, v7, v8, v9, v10, v11⟩ := id hval
  intro l hl x hx hx0 hle
  have hl0 : 0 ≤ l := by
    obtain ⟨i, hi, rfl⟩ := List.getElem_of_mem hl
    rw [List.length_take] at hi
    exact v11 i (by omega) _ (by rw [List.getElem_take]; exact List.getElem?_eq_getElem (by omega))
  have hne : x ≠ [] := by
    rintro rfl
    simp at hx; omega
  rcases hdiv with h | h
  · refine C55_slack hl0 hx0 hne ?_
    rw [hx, h]; omega
  · rcases h l hl with h | h
    · subst h
      refine C55_slack le_rfl hx0 hne ?_
      have : 0 ≤ x.sum := List.sum_nonneg hx0
      rw [mul_zero]; omega
    · refine (C55_divisors (lt_of_le_of_ne hl0 ?_) h hx0).2 hle
      rintro rfl
      omega

theorem _root_.Soco.Whole.hundredths_of_finite {p : SLO ℤ} (hval : ValidSLO p)
    (hdiv : p.d = 1 ∨ ∀ l ∈ p.load.take p.tEnd.toNat, l = 0 ∨ l ∣ 100) {ys : Schedule ℤ}
    (hy : InSpace p.tEnd p.bounds ys) (htop : loadTotal p ys ≠ ⊤) :
    ∀ (i : Nat) y, ys[i]? = some y → InHundredths (p.load.getD i 0) y := by
  obtain ⟨v1, v2, v3, v4, v5, v6, v7, v8, v9, v10, v11⟩ := id hval
  intro i y hi
  have hyb := hy.2 y (List.mem_of_getElem? hi)
  have hil : i < ys.length := (List.getElem?_eq_some_iff.1 hi).1
  have hip : i < p.load.length := by have := hy.1; omega
  have hne := Lb.totalCost_hit_ne_top _ _ _ _ _ ys htop i y hi
  refine Whole.hundredths_of_divisible hval hdiv _ ?_ y ?_ (InBox.nonneg hyb) ?_
  · exact getD_mem_take _ _ _ (by have := hy.1; omega) hip
  · have := List.Forall₂.length_eq hyb
    omega
  · by_contra hlt
    apply hne
    unfold loadCost
    refine if_pos ?_
    rw [show (1 + (i : Int) - 1).toNat = i by omega]
    exact not_le.1 hlt

/-- **C68** If moreover every load is zero or a divisor of 100, or if there is one type of servers only, the schedule is
optimal for the load problem. -/
theorem C68_divisors_optimal (S : Num.Solver) (hS : Exact S) (hS' : StaysFeasible S) (p : SLO ℤ) (hv : p.verify = .ok ())
    (hc : (p.hittingCost.length : Int) = p.d) (hpos : ∀ c ∈ p.hittingCost, 0 < c) (hT : 1 ≤ p.tEnd)
    (hcap : ∀ l ∈ p.load.take p.tEnd.toNat, l ≤ p.bounds.sum)
    (hdiv : p.d = 1 ∨ ∀ l ∈ p.load.take p.tEnd.toNat, l = 0 ∨ l ∣ 100) :
    ∃ xs c, solveOptimalSLO S (.ok p) none .dflt = .ok (xs, c) ∧ InSpace p.tEnd p.bounds xs ∧
      c.cost = loadTotal p xs ∧ c.cost ≠ ⊤ ∧ ∀ ys, InSpace p.tEnd p.bounds ys → c.cost ≤ loadTotal p ys := by
  have hval : ValidSLO p := by
    by_contra h
    have := (C10_slo_verify_exact p hc.ge).2 h
    rw [hv] at this; simp at this
  obtain ⟨xs, c, h1, h2, h3, h4, _, h6⟩ := C68_hundredths S hS hS' p hv hc hpos hT fun l hl =>
    Whole.hundredths_of_divisible hval hdiv l hl p.bounds hval.2.2.1 (fun u hu => (hval.2.2.2.2.2.1 u hu).le) (hcap l hl)
  refine ⟨xs, c, h1, h2, h3, h4, fun ys hy => ?_⟩
  by_cases htop : loadTotal p ys = ⊤
  · rw [htop]; exact le_top
  · exact h6 ys hy (Whole.hundredths_of_finite hval hdiv hy htop)

/-- Non-vacuity: two types, three slots. -/
example : ∃ S : Num.Solver, ∃ xs c, solveOptimalSLO S (.ok ⟨2, 3, [17, 40], [1, 2], [2, 1], [50, 0, 25]⟩) none .dflt =
    .ok (xs, c) ∧ c.cost ≠ ⊤ := by
  obtain ⟨S, h1, h2⟩ := exists_exact_feasible
  obtain ⟨xs, c, g1, _, _, g4, _⟩ := C68_divisors_optimal S h1 h2 ⟨2, 3, [17, 40], [1, 2], [2, 1], [50, 0, 25]⟩
    (by decide +kernel) rfl (by decide +kernel) (by decide) (by decide +kernel) (.inr (by decide))
  exact ⟨S, xs, c, g1, g4⟩

end Offline

end Soco
