import Verif.Spec.Network
import Verif.Spec.Feasible
import Verif.Props.ApproxRatio
import Verif.Props.Generated
import Verif.Props.Outcomes
import Verif.Props.Site
import Verif.Props.Solve

/-!
# C92: costs and plans of heterogeneous data centers
-/

namespace Soco
open Offline Spec

namespace Network

/-- The constraints of the assignment: the rest left for the last dimension is not negative. -/
def rest (d e : Nat) (lambda : LoadProfile) : List (List ℚ → Res Num.Slack) := (List.range e).map fun i zs => do
  let z ← (LoadFractions.new zs d e).get (d - 1) i lambda
  .ok (((-z : ℚ) : WithTop ℚ) : Num.Slack)

/-- Fractions the solver may choose. -/
structure Allowed (d e : Nat) (lambda : LoadProfile) (zs : List ℚ) : Prop where
  box : InBoxQ (List.replicate (d * e - e) ((0 : ℚ), (1 : ℚ))) zs
  grid : ∀ j ∈ zs, OnGrid j
  meets : Meets (rest d e lambda) zs

variable {d e : Nat} {lambda : LoadProfile} {zs : List ℚ}

theorem new_grid (hg : ∀ j ∈ zs, OnGrid j) : LoadFractions.new zs d e = ⟨zs, d, e⟩ := by
  unfold LoadFractions.new
  rw [applyPrecisionVec_grid hg]

theorem rest_meets_iff (hd : 1 ≤ d) (hl : lambda.length = e) (hz : zs.length = d * e - e) (hg : ∀ j ∈ zs, OnGrid j) :
    Meets (rest d e lambda) zs ↔ ∀ i < e, 0 ≤ (⟨zs, d, e⟩ : LoadFractions).fr lambda (d - 1) i := by
  have hz' : zs.length = (d - 1) * e := by rw [hz, Nat.sub_mul, Nat.one_mul]
  have key : ∀ i < e, (LoadFractions.new zs d e).get (d - 1) i lambda =
      .ok ((⟨zs, d, e⟩ : LoadFractions).fr lambda (d - 1) i) := by
    intro i hi
    rw [new_grid hg]
    exact LoadFractions.get_eq ⟨zs, d, e⟩ lambda hz' hl (d - 1) i (show d - 1 < d by omega) hi
  have hle : ∀ q : ℚ, (((-q : ℚ) : WithTop ℚ) : Num.Slack) ≤ 0 ↔ 0 ≤ q := by
    intro q
    have : (((-q : ℚ) : WithTop ℚ) : Num.Slack) ≤ ((0 : ℚ) : WithTop ℚ) ↔ 0 ≤ q := by
      rw [WithBot.coe_le_coe, WithTop.coe_le_coe]
      constructor <;> intro <;> linarith
    exact this
  constructor
  · intro h i hi
    obtain ⟨v, hv, hv0⟩ := h _ (List.mem_map.2 ⟨i, List.mem_range.2 hi, rfl⟩)
    rw [key i hi] at hv
    simp only [bind, Except.bind] at hv
    cases hv
    exact (hle _).1 hv0
  · intro h c hc
    obtain ⟨i, hi, rfl⟩ := List.mem_map.1 hc
    have hi := List.mem_range.1 hi
    refine ⟨(((-(⟨zs, d, e⟩ : LoadFractions).fr lambda (d - 1) i : ℚ) : WithTop ℚ) : Num.Slack), ?_, (hle _).2 (h i hi)⟩
    simp only [key i hi, bind, Except.bind]

/-- Everything can be left to the last dimension. -/
theorem allowed_zero (hd : 1 ≤ d) (hl : lambda.length = e) (h0 : ∀ q ∈ lambda, 0 ≤ q) :
    Allowed d e lambda (List.replicate (d * e - e) 0) := by
  have hg : ∀ j ∈ List.replicate (d * e - e) (0 : ℚ), OnGrid j := by
    intro j hj
    rw [List.eq_of_mem_replicate hj]
    exact ⟨0, by norm_num⟩
  refine ⟨?_, hg, ?_⟩
  · have := corner_inBox (List.replicate (d * e - e) ((0 : ℚ), (1 : ℚ))) fun b hb => (unitBox _ b hb).1
    simpa using this
  · rw [rest_meets_iff hd hl (by simp) hg]
    intro i hi
    unfold LoadFractions.fr
    rw [if_neg (show ¬ d - 1 < d - 1 by omega)]
    split
    · rename_i hp
      have hs : ((List.range (d - 1)).map fun j => (List.replicate (d * e - e) (0 : ℚ)).getD (j * e + i) 0).sum = 0 := by
        apply List.sum_eq_zero
        intro q hq
        obtain ⟨j, hj, rfl⟩ := List.mem_map.1 hq
        simp [List.getD, List.getElem?_replicate]
        split <;> rfl
      simp only [hs, sub_zero]
      refine div_nonneg ?_ hp.le
      have hi' : i < lambda.length := by omega
      rw [List.getD_eq_getElem _ _ hi']
      exact h0 _ (List.getElem_mem _)
    · exact le_rfl

/-- What an exact solver does for the cost of a slot. -/
theorem applyLoads_exact {T : Type} [Value T] {S : Num.Solver} (hS : Exact S) (hS' : StaysFeasible S) (hd : 1 ≤ d)
    {objective : LoadObjective T} (hl : lambda.length = e) (h0 : ∀ q ∈ lambda, 0 ≤ q) {t : Int} {x : Config T}
    (hx : x.length = d) (g : List ℚ → ECost)
    (hg : ∀ zs, Allowed d e lambda zs →
      (∃ o, objective t x lambda ⟨zs, d, e⟩ = .ok o ∧ o.energyCost + o.revenueLoss = g zs) ∨
      ((∃ f, objective t x lambda ⟨zs, d, e⟩ = .error (.failure f)) ∧ g zs = ⊤)) :
    ∃ c, applyLoads S d e objective lambda t x = .ok c ∧ (∃ zs, Allowed d e lambda zs ∧ c.cost = g zs) ∧
      ∀ zs, Allowed d e lambda zs → c.cost ≤ g zs := by
  have hsol : ∀ zs, Allowed d e lambda zs → solverObjective d e objective lambda t x zs = .ok (g zs) := by
    intro zs hz
    unfold solverObjective
    rw [new_grid hz.grid]
    rcases hg zs hz with ⟨o, h1, h2⟩ | ⟨⟨f, h1⟩, h2⟩
    · rw [h1]; simp only [h2]
    · rw [h1]; simp only [h2]
  obtain ⟨init, hinit⟩ : ∃ init, init = initialFractions (d * e - e) e x := ⟨_, rfl⟩
  have hil : init.length = d * e - e := by
    rw [hinit]
    unfold initialFractions
    simp only
    split
    · simp
    · simp [hx, Nat.sub_mul]
  obtain ⟨A, hA⟩ : ∃ A, A = S (List.replicate (d * e - e) (0, 1)) (solverObjective d e objective lambda t x) init
    (rest d e lambda) := ⟨_, rfl⟩
  have hz0 := allowed_zero hd hl h0
  have hfeas : ∃ y, InBoxQ (List.replicate (d * e - e) ((0 : ℚ), (1 : ℚ))) y ∧ (∀ j ∈ y, OnGrid j) ∧
      Meets (rest d e lambda) y := ⟨_, hz0.box, hz0.grid, hz0.meets⟩
  have hAll : Allowed d e lambda (Num.applyPrecisionVec A.x) := by
    rw [hA]
    exact ⟨inBoxQ_round (unitBox _) (hS.inside _ _ _ _ fun b hb => (unitBox _ b hb).1), onGrid_vec _,
      hS.feasible _ _ _ _ (unitBox _) hfeas⟩
  have hst : A.status = .done := by rw [hA]; exact hS.done _ _ _ _
  have hmin : Num.minimize S (solverObjective d e objective lambda t x) (List.replicate (d * e - e) (0, 1)) (some init)
      (rest d e lambda) = .ok (Num.applyPrecisionVec A.x, g (Num.applyPrecisionVec A.x)) := by
    refine (Num.C89_minimize S _ _ _ _ init rfl A hA _ _).2 ⟨by simp [hil], ?_, by simp [hst], rfl, _, hsol _ hAll,
      Or.inl ⟨hst, rfl⟩⟩
    intro p hp
    have hm := hS' _ _ _ _ (unitBox _) hfeas p (by rw [hA] at hp; exact hp)
    have ha : Allowed d e lambda (Num.applyPrecisionVec p) := ⟨hm.1, onGrid_vec _, hm.2⟩
    exact ⟨⟨_, hsol _ ha⟩, fun c hc => by obtain ⟨v, hv, _⟩ := hm.2 c hc; exact ⟨v, hv⟩⟩
  have hbest : ∀ zs, Allowed d e lambda zs → g (Num.applyPrecisionVec A.x) ≤ g zs := by
    intro zs hz
    have h1 := hsol _ hAll
    rw [hA] at h1 ⊢
    exact hS.best _ _ _ _ (unitBox _) zs _ _ hz.box hz.grid hz.meets h1 (hsol zs hz)
  have hde : e ≤ d * e := Nat.le_mul_of_pos_left e hd
  have happ : applyLoads S d e objective lambda t x =
      match objective t x lambda (LoadFractions.new (Num.applyPrecisionVec A.x) d e) with
      | .ok o => do
        assertP (decide (g (Num.applyPrecisionVec A.x) = o.energyCost + o.revenueLoss))
        .ok ⟨g (Num.applyPrecisionVec A.x), .success ⟨o.energyCost, o.revenueLoss, [[Num.applyPrecisionVec A.x]]⟩⟩
      | .error (.failure f) => .ok ⟨g (Num.applyPrecisionVec A.x), .failure f⟩
      | .error .panic => .error .panic := by
    unfold applyLoads
    dsimp only
    rw [← hinit]
    have : ((List.range e).map fun i zs => do
        let z ← (LoadFractions.new zs d e).get (d - 1) i lambda
        .ok (((-z : ℚ) : WithTop ℚ) : Num.Slack)) = rest d e lambda := rfl
    rw [this, hmin]
    simp only [assertP, hl, beq_self_eq_true, if_true, bind, Except.bind, decide_eq_true_eq, if_pos hde]
    generalize objective t x lambda (LoadFractions.new (Num.applyPrecisionVec A.x) d e) = r
    rcases r with (_ | _) | _ <;> rfl
  rw [happ, new_grid hAll.grid]
  rcases hg _ hAll with ⟨o, h1, h2⟩ | ⟨⟨f, h1⟩, h2⟩
  · rw [h1]
    refine ⟨⟨g (Num.applyPrecisionVec A.x), .success ⟨o.energyCost, o.revenueLoss, [[Num.applyPrecisionVec A.x]]⟩⟩, ?_,
      ⟨_, hAll, rfl⟩, hbest⟩
    simp only [h2, decide_true, assertP, if_true, bind, Except.bind]
  · rw [h1]
    exact ⟨⟨_, .failure f⟩, rfl, ⟨_, hAll, rfl⟩, hbest⟩

/-! ## Splits -/

section
variable {T : Type} [Value T] {m : DataCenterModel} {t : Int} {D : Site}

theorem dims (hD : Describes m t D) : m.d = D.locations * D.types ∧ m.e = D.sources * D.jobTypes := by
  simp [DataCenterModel.d, DataCenterModel.e, hD.locations, hD.types, hD.sources, hD.jobTypes]

/-- Fractions describe how loads are sent. -/
theorem assigned_of (x : Config T) (hx : x.length = D.locations * D.types)
    (hl : lambda.length = D.sources * D.jobTypes) (h0 : ∀ q ∈ lambda, 0 ≤ q)
    (hz : zs.length = (D.locations * D.types - 1) * (D.sources * D.jobTypes)) (z : Nat → Nat → ℚ)
    (hz0 : ∀ k i, k < D.locations * D.types → i < D.sources * D.jobTypes → 0 ≤ z k i)
    (h : ∀ k i, k < D.locations * D.types → i < D.sources * D.jobTypes →
      lambda.getD i 0 * z k i = lambda.getD i 0 *
        (⟨zs, D.locations * D.types, D.sources * D.jobTypes⟩ : LoadFractions).fr lambda k i) :
    DataCenterModel.Assigned D x lambda ⟨zs, D.locations * D.types, D.sources * D.jobTypes⟩ (D.active x) (D.sent lambda z) where
  servers := by
    intro j k hj hk
    have hlt : j * D.types + k < x.length := by rw [hx]; exact flat_lt _ _ _ _ hj hk
    refine ⟨x[j * D.types + k], List.getElem?_eq_getElem hlt, ?_⟩
    unfold Site.active
    rw [List.getD_eq_getElem _ _ (by simpa using hlt)]
    simp
  jobs := by
    intro j k hj hk
    refine ⟨_, LoadFractions.selectLoads_eq ⟨zs, D.locations * D.types, D.sources * D.jobTypes⟩ lambda hz hl _
      (flat_lt _ _ _ _ hj hk), by simp, ?_⟩
    intro s i
    unfold Site.sent encode
    by_cases hi : s * D.jobTypes + i < D.sources * D.jobTypes
    · rw [h _ _ (flat_lt _ _ _ _ hj hk) hi]
      simp only [List.getD, List.getElem?_map, List.getElem?_range hi, Option.map_some, Option.getD_some]
    · rw [List.getD_eq_default lambda _ (by omega), zero_mul, List.getD_eq_default _ _ (by simpa using hi)]
  nonneg := by
    intro j k s i hj hk hs hi
    have hlt := flat_lt D.sources D.jobTypes s i hs hi
    unfold Site.sent
    refine mul_nonneg ?_ (hz0 _ _ (flat_lt _ _ _ _ hj hk) hlt)
    rw [List.getD_eq_getElem _ _ (by omega)]
    exact h0 _ (List.getElem_mem _)

/-- The objective of the model is the cost of the slot. -/
theorem objective_slot (hD : Describes m t D) (hslot : 0 < D.slot)
    (htime : ∀ i k, i < D.jobTypes → k < D.types → 0 ≤ D.time i k) {x : Config T} {zs : LoadFractions}
    {n : Nat → Nat → ℚ} {a : Nat → Nat → Nat → Nat → ℚ} (hA : DataCenterModel.Assigned D x lambda zs n a) :
    (∃ o, m.objective t x lambda zs = .ok o ∧ o.energyCost + o.revenueLoss = D.slotCost n a) ∨
    ((∃ f, m.objective t x lambda zs = .error (.failure f)) ∧ D.slotCost n a = ⊤) := by
  obtain ⟨h1, h2⟩ := DataCenterModel.C70_objective hD hslot htime x lambda zs n a hA
  unfold Site.slotCost
  by_cases hf : D.Feasible n a
  · rw [if_pos hf]
    exact Or.inl ⟨_, h1 hf, rfl⟩
  · rw [if_neg hf]
    exact Or.inr ⟨h2 hf, rfl⟩

theorem slot_unique (hD : Describes m t D) (hslot : 0 < D.slot)
    (htime : ∀ i k, i < D.jobTypes → k < D.types → 0 ≤ D.time i k) {x : Config T} {zs : LoadFractions}
    {n : Nat → Nat → ℚ} {a b : Nat → Nat → Nat → Nat → ℚ} (hA : DataCenterModel.Assigned D x lambda zs n a)
    (hB : DataCenterModel.Assigned D x lambda zs n b) : D.slotCost n a = D.slotCost n b := by
  rcases objective_slot hD hslot htime hA with ⟨o, h1, h2⟩ | ⟨⟨f, h1⟩, h2⟩ <;>
  rcases objective_slot hD hslot htime hB with ⟨o', h3, h4⟩ | ⟨⟨f', h3⟩, h4⟩ <;> rw [h1] at h3
  · cases h3; rw [← h2, ← h4]
  · cases h3
  · cases h3
  · rw [h2, h4]

/-- Allowed fractions are a split. -/
theorem split_of_allowed (hd : 1 ≤ d) (hl : lambda.length = e) (h : Allowed d e lambda zs) :
    LoadSplit d lambda ((⟨zs, d, e⟩ : LoadFractions).fr lambda) where
  nonneg := by
    intro k i hk hi
    have hlen : zs.length = d * e - e := by rw [inBoxQ_length h.box]; simp
    by_cases hkd : k < d - 1
    · unfold LoadFractions.fr
      rw [if_pos hkd]
      have hlt : k * e + i < zs.length := by
        rw [hlen, ← Nat.sub_one_mul]; exact flat_lt _ _ _ _ hkd (hl ▸ hi)
      simp only
      rw [List.getD_eq_getElem _ _ hlt]
      exact unitBox_nonneg h.box _ (List.getElem_mem _)
    · obtain rfl : k = d - 1 := by omega
      exact (rest_meets_iff hd hl hlen h.grid).1 h.meets i (hl ▸ hi)
  grid := by
    intro k i hk hi
    have hlen : zs.length = d * e - e := by rw [inBoxQ_length h.box]; simp
    unfold LoadFractions.fr
    rw [if_pos (show k < d - 1 by omega)]
    have hlt : k * e + i < zs.length := by
      rw [hlen, ← Nat.sub_one_mul]; exact flat_lt _ _ _ _ (by omega) (hl ▸ hi)
    simp only
    rw [List.getD_eq_getElem _ _ hlt]
    exact h.grid _ (List.getElem_mem _)
  total := by
    intro i hi hp
    exact LoadFractions.fr_sum ⟨zs, d, e⟩ lambda hd hp i

/-- Every split is described by allowed fractions. -/
theorem allowed_of_split (hd : 1 ≤ d) (hl : lambda.length = e) (h0 : ∀ q ∈ lambda, 0 ≤ q) {z : Nat → Nat → ℚ}
    (h : LoadSplit d lambda z) : ∃ zs, Allowed d e lambda zs ∧ ∀ k i, k < d → i < e →
      lambda.getD i 0 * z k i = lambda.getD i 0 * (⟨zs, d, e⟩ : LoadFractions).fr lambda k i := by
  by_cases hp : 0 < lambda.sum
  · obtain ⟨zs, hzs⟩ : ∃ zs, zs = (List.range (d * e - e)).map fun q => z (q / e) (q % e) := ⟨_, rfl⟩
    have hlen : zs.length = d * e - e := by rw [hzs]; simp
    have hpos : ∀ q, q < d * e - e → 0 < e ∧ q / e < d - 1 := by
      intro q hq
      have he : 0 < e := by
        rcases Nat.eq_zero_or_pos e with h | h
        · subst h; simp at hq
        · exact h
      refine ⟨he, (Nat.div_lt_iff_lt_mul he).2 ?_⟩
      rwa [Nat.sub_mul, Nat.one_mul]
    have hget : ∀ k i, k < d - 1 → i < e → zs.getD (k * e + i) 0 = z k i := by
      intro k i hk hi
      have hlt : k * e + i < d * e - e := by rw [← Nat.sub_one_mul]; exact flat_lt _ _ _ _ hk hi
      rw [List.getD_eq_getElem _ _ (by omega)]
      simp only [hzs, List.getElem_map, List.getElem_range]
      congr 1
      · rw [Nat.mul_comm, Nat.mul_add_div (by omega), Nat.div_eq_of_lt hi, Nat.add_zero]
      · rw [Nat.mul_comm, Nat.mul_add_mod, Nat.mod_eq_of_lt hi]
    have hmem : ∀ q ∈ zs, ∃ k i, k < d - 1 ∧ i < e ∧ q = z k i := by
      intro q hq
      rw [hzs] at hq
      obtain ⟨n, hn, rfl⟩ := List.mem_map.1 hq
      have hn := hpos n (List.mem_range.1 hn)
      exact ⟨_, _, hn.2, Nat.mod_lt _ hn.1, rfl⟩
    have hgrid : ∀ j ∈ zs, OnGrid j := by
      intro q hq
      obtain ⟨k, i, hk, hi, rfl⟩ := hmem q hq
      exact h.grid k i (by omega) (by omega)
    have hfr : ∀ k i, k < d → i < e → (⟨zs, d, e⟩ : LoadFractions).fr lambda k i = z k i := by
      intro k i hk hi
      by_cases hkd : k < d - 1
      · unfold LoadFractions.fr
        rw [if_pos hkd]
        exact hget k i hkd hi
      · obtain rfl : k = d - 1 := by omega
        unfold LoadFractions.fr
        rw [if_neg hkd, if_pos hp, ← h.total i (by omega) hp]
        obtain ⟨n, rfl⟩ : ∃ n, d = n + 1 := ⟨d - 1, by omega⟩
        have e1 : (List.range n).map (fun j => zs.getD (j * e + i) 0) = (List.range n).map fun k => z k i := by
          apply List.map_congr_left
          intro j hj
          exact hget j i (by simpa using hj) hi
        simp only [Nat.add_sub_cancel, e1, sumTo, List.range_succ, List.map_append, List.sum_append, List.map_cons,
          List.map_nil, List.sum_cons, List.sum_nil]
        ring
    refine ⟨zs, ⟨?_, hgrid, ?_⟩, fun k i hk hi => by rw [hfr k i hk hi]⟩
    · have hbox : ∀ q ∈ zs, 0 ≤ q ∧ q ≤ 1 := by
        intro q hq
        obtain ⟨k, i, hk, hi, rfl⟩ := hmem q hq
        refine ⟨h.nonneg k i (by omega) (by omega), ?_⟩
        have hs : z k i ≤ sumTo d (fun k => z k i) :=
          List.single_le_sum (fun q hq => by
            obtain ⟨k, hk, rfl⟩ := List.mem_map.1 hq
            exact h.nonneg k i (List.mem_range.1 hk) (by omega)) _ (List.mem_map.2 ⟨k, List.mem_range.2 (by omega), rfl⟩)
        rw [h.total i (by omega) hp] at hs
        refine hs.trans ((div_le_one hp).2 ?_)
        rw [List.getD_eq_getElem _ _ (by omega)]
        exact List.single_le_sum h0 _ (List.getElem_mem _)
      have : ∀ (n : Nat) (ys : List ℚ), ys.length = n → (∀ q ∈ ys, 0 ≤ q ∧ q ≤ 1) →
          InBoxQ (List.replicate n ((0 : ℚ), (1 : ℚ))) ys := by
        intro n
        induction n with
        | zero => intro ys hy _; rw [List.length_eq_zero_iff] at hy; subst hy; exact List.Forall₂.nil
        | succ n ih =>
          intro ys hy hq
          match ys, hy with
          | y :: ys, hy =>
            exact List.Forall₂.cons (hq y (by simp)) (ih ys (by simpa using hy) fun q hm => hq q (by simp [hm]))
      exact this _ _ hlen hbox
    · rw [rest_meets_iff hd hl hlen hgrid]
      intro i hi
      rw [hfr _ _ (by omega) hi]
      exact h.nonneg _ _ (by omega) (by omega)
  · refine ⟨_, allowed_zero hd hl h0, fun k i _ hi => ?_⟩
    have : lambda.getD i 0 = 0 := by
      have hi' : i < lambda.length := by omega
      have h1 : lambda.getD i 0 ≤ lambda.sum := by
        rw [List.getD_eq_getElem _ _ hi']
        exact List.single_le_sum h0 _ (List.getElem_mem _)
      have h2 : 0 ≤ lambda.getD i 0 := by
        rw [List.getD_eq_getElem _ _ hi']
        exact h0 _ (List.getElem_mem _)
      linarith
    rw [this, zero_mul, zero_mul]

end
end Network

open Network

/-- **C92** The cost of a configuration of a network of data centers, with any numbers of locations, server types, sources
and job types, if the solver is exact: energy and lost revenue of a best split of the load of the slot among the
servers. -/
theorem C92_slot_cost {T : Type} [Value T] (S : Num.Solver) (hS : Exact S) (hS' : StaysFeasible S) (m : DataCenterModel)
    (t : Int) (D : Site) (hD : Describes m t D) (hd : 1 ≤ m.d) (hslot : 0 < D.slot)
    (htime : ∀ i k, i < D.jobTypes → k < D.types → 0 ≤ D.time i k) (x : Config T) (hx : x.length = m.d)
    (lambda : LoadProfile) (hl : lambda.length = m.e) (h0 : ∀ q ∈ lambda, 0 ≤ q) :
    ∃ c, applyLoads S m.d m.e m.objective lambda t x = .ok c ∧
      (∃ z, LoadSplit m.d lambda z ∧ c.cost = D.slotCost (D.active x) (D.sent lambda z)) ∧
      ∀ z, LoadSplit m.d lambda z → c.cost ≤ D.slotCost (D.active x) (D.sent lambda z) := by
  obtain ⟨e1, e2⟩ := dims hD
  rw [e1] at hd hx ⊢
  rw [e2] at hl ⊢
  have hA : ∀ zs, Allowed (D.locations * D.types) (D.sources * D.jobTypes) lambda zs → ∀ z : Nat → Nat → ℚ,
      (∀ k i, k < D.locations * D.types → i < D.sources * D.jobTypes → 0 ≤ z k i) →
      (∀ k i, k < D.locations * D.types → i < D.sources * D.jobTypes →
        lambda.getD i 0 * z k i = lambda.getD i 0 *
          (⟨zs, D.locations * D.types, D.sources * D.jobTypes⟩ : LoadFractions).fr lambda k i) →
      DataCenterModel.Assigned D x lambda ⟨zs, D.locations * D.types, D.sources * D.jobTypes⟩ (D.active x)
        (D.sent lambda z) := by
    intro zs hz z hz0 h
    exact assigned_of x hx hl h0 (by rw [inBoxQ_length hz.box, List.length_replicate, Nat.sub_mul, Nat.one_mul]) z hz0 h
  have hfr : ∀ zs, Allowed (D.locations * D.types) (D.sources * D.jobTypes) lambda zs →
      DataCenterModel.Assigned D x lambda ⟨zs, D.locations * D.types, D.sources * D.jobTypes⟩ (D.active x)
        (D.sent lambda ((⟨zs, D.locations * D.types, D.sources * D.jobTypes⟩ : LoadFractions).fr lambda)) :=
    fun zs hz => hA zs hz _ (fun k i hk hi => (split_of_allowed hd hl hz).nonneg k i hk (by omega)) fun _ _ _ _ => rfl
  obtain ⟨c, h1, ⟨zs, h2, h3⟩, h4⟩ := applyLoads_exact hS hS' hd hl h0 hx
    (fun zs => D.slotCost (D.active x)
      (D.sent lambda ((⟨zs, D.locations * D.types, D.sources * D.jobTypes⟩ : LoadFractions).fr lambda)))
    (t := t) (objective := m.objective) fun zs hz => objective_slot hD hslot htime (hfr zs hz)
  refine ⟨c, h1, ⟨_, split_of_allowed hd hl h2, h3⟩, ?_⟩
  intro z hz
  obtain ⟨zs', h5, h6⟩ := allowed_of_split hd hl h0 hz
  rw [slot_unique hD hslot htime (hA zs' h5 z (fun k i hk hi => hz.nonneg k i hk (by omega)) h6) (hfr zs' h5)]
  exact h4 zs' h5

namespace Network

theorem sumTo_flat (n k : Nat) (f : Nat → ℚ) :
    sumTo n (fun j => sumTo k fun i => f (j * k + i)) = sumTo (n * k) f := by
  induction n with
  | zero => simp [sumTo]
  | succ n ih =>
    rw [Nat.succ_mul]
    unfold sumTo at ih ⊢
    rw [List.range_succ, List.map_append, List.sum_append, ih, List.range_add, List.map_append, List.sum_append]
    simp [List.map_map, Function.comp_def]

end Network

/-- **C92** If there is a single source and a single job type, a split sends exactly the load of the slot to the servers of
the network. -/
theorem C92_everything_sent (D : Site) (hs : D.sources = 1) (hi : D.jobTypes = 1) (l : ℚ) (hl : 0 < l)
    (z : Nat → Nat → ℚ) (hz : LoadSplit (D.locations * D.types) [l] z) :
    sumTo D.locations (fun j => sumTo D.types fun k => D.jobs (D.sent [l] z) j k) = l := by
  have h := hz.total 0 (by simp) (by simpa using hl)
  simp only [List.sum_cons, List.sum_nil, add_zero, List.getD_cons_zero, div_self hl.ne'] at h
  have e : ∀ j k, D.jobs (D.sent [l] z) j k = l * z (j * D.types + k) 0 := by
    intro j k
    simp [Site.jobs, Site.sent, sumTo, hs, hi]
  simp only [e]
  rw [sumTo_flat _ _ fun q => l * z q 0]
  unfold sumTo at h ⊢
  rw [map_mul_left_sum, h, mul_one]

namespace Network

section
variable {D : Int → Site} {β : List ℚ} {loads : List (List ℚ)} {hit : Int → Config ℤ → ECost}

/-- A plan does not cost less than its configurations with best splits. -/
theorem plan_ge (bounds : List ℤ)
    (h : ∀ (i : Nat), i < loads.length → ∀ q : List ℤ × (Nat → Nat → ℚ), InBox bounds q.1 →
      LoadSplit bounds.length (loads.getD i []) q.2 →
      hit (i + 1) q.1 ≤ (D (i + 1)).slotCost ((D (i + 1)).active q.1) ((D (i + 1)).sent (loads.getD i []) q.2)) :
    ∀ (plan : List (List ℤ × (Nat → Nat → ℚ))) (n : Nat) (y : List ℤ) (z : Nat → Nat → ℚ),
      n + plan.length = loads.length →
      (∀ i q, plan[i]? = some q → InBox bounds q.1 ∧ LoadSplit bounds.length (loads.getD (n + i) []) q.2) →
      totalCost hit (upCost β) 1 (n + 1) y (plan.map Prod.fst) ≤
      totalCost (fun t (q : List ℤ × (Nat → Nat → ℚ)) =>
        (D t).slotCost ((D t).active q.1) ((D t).sent (loads.getD (t - 1).toNat []) q.2))
        (fun a b => upCost β a.1 b.1) 1 (n + 1) (y, z) plan
  | [], _, _, _, _, _ => le_refl _
  | q :: plan, n, y, z, hn, hq => by
    simp only [List.map_cons, totalCost]
    obtain ⟨h1, h2⟩ := hq 0 q rfl
    have e : (((n : Int) + 1) - 1).toNat = n := by omega
    have ih := plan_ge bounds h plan (n + 1) q.1 q.2 (by simp at hn; omega) fun i q' hi => by
      have := hq (i + 1) q' (by simpa using hi)
      rwa [show n + (i + 1) = n + 1 + i by omega] at this
    rw [e]
    push_cast at ih
    refine add_le_add (add_le_add (h n (by simp at hn; omega) q h1 (by simpa using h2)) (le_refl _)) ih

/-- Best splits for a schedule. -/
theorem plan_of (bounds : List ℤ)
    (h : ∀ (i : Nat), i < loads.length → ∀ x : Config ℤ, InBox bounds x → ∃ z, LoadSplit bounds.length (loads.getD i []) z ∧
      hit (i + 1) x = (D (i + 1)).slotCost ((D (i + 1)).active x) ((D (i + 1)).sent (loads.getD i []) z)) :
    ∀ (xs : Schedule ℤ) (n : Nat) (y : List ℤ) (z : Nat → Nat → ℚ), n + xs.length = loads.length →
      (∀ x ∈ xs, InBox bounds x) → ∃ plan : List (List ℤ × (Nat → Nat → ℚ)), plan.map Prod.fst = xs ∧
      (∀ i q, plan[i]? = some q → InBox bounds q.1 ∧ LoadSplit bounds.length (loads.getD (n + i) []) q.2) ∧
      totalCost hit (upCost β) 1 (n + 1) y xs =
      totalCost (fun t (q : List ℤ × (Nat → Nat → ℚ)) =>
        (D t).slotCost ((D t).active q.1) ((D t).sent (loads.getD (t - 1).toNat []) q.2))
        (fun a b => upCost β a.1 b.1) 1 (n + 1) (y, z) plan
  | [], _, _, _, _, _ => ⟨[], rfl, by simp, rfl⟩
  | x :: xs, n, y, z, hn, hx => by
    obtain ⟨z', h1, h2⟩ := h n (by simp at hn; omega) x (hx x (by simp))
    obtain ⟨plan, h3, h4, h5⟩ := plan_of bounds h xs (n + 1) x z' (by simp at hn; omega) fun x hm => hx x (by simp [hm])
    refine ⟨(x, z') :: plan, by simp [h3], ?_, ?_⟩
    · intro i q hi
      match i with
      | 0 =>
        simp only [List.getElem?_cons_zero, Option.some.injEq] at hi
        subst hi
        exact ⟨hx x (by simp), by simpa using h1⟩
      | i + 1 =>
        have := h4 i q (by simpa using hi)
        rwa [show n + 1 + i = n + (i + 1) by omega] at this
    · have e : (((n : Int) + 1) - 1).toNat = n := by omega
      simp only [totalCost]
      rw [e, h2]
      push_cast at h5
      rw [h5]

end
end Network

/-- **C92** Planning for a data center with any number of server types, if the solver is exact: solving the generated
problem with the graph search returns the numbers of servers of a cheapest plan, which also splits the load of every slot
in a best way, and its cost. The problem is assumed to be accepted by the library, which is the case for one location. -/
theorem C92_cheapest_plan (S : Num.Solver) (hS : Exact S) (hS' : StaysFeasible S) (m : DataCenterModel) (D : Int → Site)
    (loads : List LoadProfile) (hne : loads ≠ [])
    (hD : ∀ t : Int, 1 ≤ t → t ≤ loads.length → Describes m t (D t)) (hslot : 0 < m.delta)
    (htime : ∀ t i k, i < (D t).jobTypes → k < (D t).types → 0 ≤ (D t).time i k)
    (hl : ∀ l ∈ loads, l.length = m.e ∧ ∀ q ∈ l, 0 ≤ q)
    (p : SSCO ℤ DCSuccess DCFailure) (hp : m.toSSCO S loads = .ok p) (hv : p.verify = .ok ())
    (hcarry : ∀ (i : Nat), i < loads.length → ∃ z, LoadSplit m.d (loads.getD i []) z ∧
      (D (i + 1)).slotCost ((D (i + 1)).active p.bounds) ((D (i + 1)).sent (loads.getD i []) z) ≠ ⊤) :
    ∃ xs c plan, solveOptimal (m.toSSCO S loads) none ⟨false, 1, none⟩ = .ok (xs, c) ∧ plan.map Prod.fst = xs ∧
      IsNetworkPlan p.bounds loads plan ∧ c.cost = networkCost D p.switchingCost loads plan ∧
      ∀ plan', IsNetworkPlan p.bounds loads plan' → c.cost ≤ networkCost D p.switchingCost loads plan' := by
  have hvalid : ValidSSCO p := by
    by_contra hc
    have := (C10_ssco_verify_exact p).2 hc
    rw [hv] at this; simp at this
  obtain ⟨v1, v2, v3, v4, v5, v6⟩ := hvalid
  obtain ⟨hC, hhit, _⟩ := C75_convex S m loads p hp
  have hdm : p.d = m.d := by rw [hC.dims]; simp [DataCenterModel.d]
  have hd : 1 ≤ m.d := by omega
  have hbl : p.bounds.length = m.d := by omega
  have hβl : p.switchingCost.length = p.d.toNat := by omega
  have hslot' : ∀ i : Nat, i < loads.length → 0 < (D (i + 1)).slot := fun i hi => by
    rw [← (hD (i + 1) (by omega) (by omega)).slot]; exact hslot
  have hlen : ∀ i (hi : i < loads.length), (loads.getD i []).length = m.e ∧ ∀ q ∈ loads.getD i [], 0 ≤ q := by
    intro i hi
    rw [List.getD_eq_getElem _ _ hi]
    exact hl _ (List.getElem_mem _)
  have slot := fun (i : Nat) (hi : i < loads.length) (x : Config ℤ) (hx : InBox p.bounds x) =>
    C92_slot_cost S hS hS' m (i + 1) (D (i + 1)) (hD (i + 1) (by omega) (by omega)) hd (hslot' i hi) (htime _) x
      ((List.Forall₂.length_eq hx).symm.trans hbl) (loads.getD i []) (hlen i hi).1 (hlen i hi).2
  have hprob : ∀ (i : Nat), i < loads.length → ∀ x, InBox p.bounds x →
      p.toProb.hitCost (i + 1) x = applyLoads S m.d m.e m.objective (loads.getD i []) (i + 1) x := by
    intro i hi x hx
    have hlx : x.length = p.bounds.length := (List.Forall₂.length_eq hx).symm
    refine ((C06_guarded_evaluation _ _ p.bounds x hlx).1 hx).1.trans ?_
    refine hhit i _ ?_ x
    rw [List.getD_eq_getElem _ _ hi, List.getElem?_eq_getElem hi]
  let hit : Int → Config ℤ → ECost := fun t x =>
    match applyLoads S m.d m.e m.objective (loads.getD (t - 1).toNat []) t x with
    | .ok c => c.cost
    | .error _ => ⊤
  have hhit' : ∀ (i : Nat) x c, applyLoads S m.d m.e m.objective (loads.getD i []) (i + 1) x = .ok c →
      hit (i + 1) x = c.cost := by
    intro i x c hc
    simp only [hit]
    rw [show ((i : Int) + 1 - 1).toNat = i by omega, hc]
  have hT : p.tEnd = loads.length := hC.slots
  have hpos : 1 ≤ loads.length := by
    rcases loads with _ | ⟨_, _⟩
    · exact absurd rfl hne
    · simp
  have htop : InBox p.bounds p.bounds := by
    have : ∀ us : List ℤ, (∀ u ∈ us, 0 < u) → InBox us us := by
      intro us
      induction us with
      | nil => intro _; exact List.Forall₂.nil
      | cons u us ih =>
        intro h
        exact List.Forall₂.cons ⟨(h u (by simp)).le, le_refl u⟩ (ih fun v hv => h v (by simp [hv]))
    exact this _ v5
  obtain ⟨xs, c, s1, s2, s3, _, s5⟩ := C67_optimal p hv (by omega) ⟨false, 1, none⟩ rfl (by norm_num) hit
    (by
      intro t h1 h2 x hx
      obtain ⟨i, rfl⟩ : ∃ i : Nat, t = i + 1 := ⟨(t - 1).toNat, by omega⟩
      obtain ⟨c, hc, _⟩ := slot i (by omega) x hx
      rw [hprob i (by omega) x hx, hc, hhit' i x c hc]
      exact ⟨c.output, rfl⟩)
    (by
      intro t h1 h2
      obtain ⟨i, rfl⟩ : ∃ i : Nat, t = i + 1 := ⟨(t - 1).toNat, by omega⟩
      obtain ⟨c, hc, _, hle⟩ := slot i (by omega) p.bounds htop
      obtain ⟨z, hz, hz'⟩ := hcarry i (by omega)
      rw [hhit' i _ c hc]
      exact ne_top_of_le_ne_top hz' (hle z hz))
  obtain ⟨plan, q1, q2, q3⟩ := plan_of (D := D) (β := p.switchingCost) (loads := loads) (hit := hit) p.bounds
    (by
      intro i hi x hx
      obtain ⟨c, hc, ⟨z, hz, hz'⟩, _⟩ := slot i hi x hx
      exact ⟨z, hbl ▸ hz, by rw [hhit' i x c hc, hz']⟩)
    xs 0 (List.replicate p.d.toNat 0) (fun _ _ => 0) (by have := s2.1; omega) s2.2
  have hcost : c.cost = networkCost D p.switchingCost loads plan := by
    rw [s3]
    unfold networkCost
    rw [hβl]
    simpa using q3
  refine ⟨xs, c, plan, by rw [hp]; exact s1, q1, ⟨?_, ?_⟩, hcost, ?_⟩
  · have h1 := s2.1
    have h2 := congrArg List.length q1
    simp only [List.length_map] at h2
    omega
  · intro i q hi
    have := q2 i q hi
    rw [Nat.zero_add] at this
    exact this
  · rintro plan' ⟨r1, r2⟩
    have hxs : InSpace p.tEnd p.bounds (plan'.map Prod.fst) := by
      refine ⟨by simp; omega, ?_⟩
      intro x hx
      obtain ⟨q, hq, rfl⟩ := List.mem_map.1 hx
      obtain ⟨i, hi, rfl⟩ := List.getElem_of_mem hq
      exact (r2 i _ (List.getElem?_eq_getElem hi)).1
    have h1 := s5 _ hxs
    simp only at h1
    have h2 := plan_ge (D := D) (β := p.switchingCost) (loads := loads) (hit := hit) p.bounds
      (by
        intro i hi q hx hz
        obtain ⟨c, hc, _, hle⟩ := slot i hi q.1 hx
        rw [hhit' i q.1 c hc]
        exact hle q.2 (hbl ▸ hz))
      plan' 0 (List.replicate p.d.toNat 0) (fun _ _ => 0) (by omega) (by
        intro i q hi
        have := r2 i q hi
        rw [Nat.zero_add]
        exact this)
    rw [s3]
    unfold networkCost
    rw [hβl]
    exact h1.trans (by simpa using h2)

/-! ## An example: fast and slow servers -/

namespace Ex

/-- Two fast and two slow servers. -/
def duoModel : DataCenterModel where
  delta := 1
  locations := [⟨"a", fun _ => some 2⟩]
  serverTypes := [⟨"fast", 1⟩, ⟨"slow", 1⟩]
  sources := [⟨"", fun _ _ => .ok 0⟩]
  jobTypes := [⟨"job", fun st => .ok (if st.key = "fast" then 1 / 2 else 1)⟩]
  consumptionModel := .linear fun _ => some ⟨1, 2⟩
  energyModel := .linear fun _ => some fun _ => 5
  lossModel := fun _ => some ⟨1, 4⟩
  switchingModel := fun _ => some ⟨1, 1, 2, 0, 1, 0, 0⟩

/-- What this model describes. -/
def duoSite : Site where
  locations := 1
  types := 2
  sources := 1
  jobTypes := 1
  slot := 1
  maxUse := fun _ => 1
  time := fun _ k => if k = 0 then 1 / 2 else 1
  route := fun _ _ => 0
  power := fun _ u => 1 * ((2 - 1) * u + 1)
  price := fun _ p => ECost.mulQ 5 p
  loss := fun _ q => 1 * pos (q - 4)

theorem duo_describes (t : Int) : Describes duoModel t duoSite where
  locations := rfl
  types := rfl
  sources := rfl
  jobTypes := rfl
  slot := rfl
  maxUse := by
    intro k st h
    match k, h with
    | 0, h => cases h; rfl
    | 1, h => cases h; rfl
  time := by
    intro i jt k st h h2
    match i, h with
    | 0, h =>
      cases h
      match k, h2 with
      | 0, h2 => cases h2; rfl
      | 1, h2 => cases h2; rfl
  route := by
    intro s src j loc h h2
    match s, h with
    | 0, h => cases h; rfl
  power := by
    intro k st u h
    rfl
  price := by
    intro j loc p h1
    rfl
  loss := by
    intro i jt q h
    rfl

/-- Everything to the slow servers. -/
theorem duo_split (l : ℚ) (hl : 0 < l) : LoadSplit 2 [l] (fun k _ => if k = 0 then 0 else 1) where
  nonneg := by
    intro k i _ _
    split <;> norm_num
  grid := by
    intro k i hk _
    obtain rfl : k = 0 := by omega
    exact ⟨0, by norm_num⟩
  total := by
    intro i hi _
    have : i = 0 := by simpa using hi
    subst this
    simp [sumTo, List.range_succ, div_self hl.ne']

/-- The plan returned for two slots with one and one half job. -/
example (S : Num.Solver) (hS : Exact S) (hS' : StaysFeasible S) :
    ∃ xs c plan, solveOptimal (duoModel.toSSCO S [[1], [1 / 2]]) none ⟨false, 1, none⟩ = .ok (xs, c) ∧
      plan.map Prod.fst = xs ∧ IsNetworkPlan [2, 2] [[1], [1 / 2]] plan ∧
      c.cost = networkCost (fun _ => duoSite) [1 * (0 + 1 * 2) + 0 + 0, 1 * (0 + 1 * 2) + 0 + 0] [[1], [1 / 2]] plan ∧
      ∀ plan', IsNetworkPlan [2, 2] [[1], [1 / 2]] plan' → c.cost ≤
        networkCost (fun _ => duoSite) [1 * (0 + 1 * 2) + 0 + 0, 1 * (0 + 1 * 2) + 0 + 0] [[1], [1 / 2]] plan' := by
  have hp : duoModel.toSSCO (T := ℤ) S [[1], [1 / 2]] = .ok ⟨2, 2, [2, 2],
      [1 * (0 + 1 * 2) + 0 + 0, 1 * (0 + 1 * 2) + 0 + 0],
      applyLoadsOverTime S duoModel.d duoModel.e duoModel.objective [[1], [1 / 2]] 1⟩ := rfl
  refine C92_cheapest_plan S hS hS' duoModel (fun _ => duoSite) [[1], [1 / 2]] (by simp) (fun t _ _ => duo_describes t)
    (by norm_num [duoModel]) ?_ ?_ _ hp ?_ ?_
  · intro t i k _ _
    simp only [duoSite]
    split <;> norm_num
  · intro l hl
    simp only [List.mem_cons, List.not_mem_nil, or_false] at hl
    rcases hl with rfl | rfl
    · exact ⟨rfl, by norm_num⟩
    · exact ⟨rfl, by norm_num⟩
  · exact (C10_ssco_verify_exact _).1 ⟨by norm_num, by norm_num, rfl, rfl, by simp, by norm_num⟩
  · intro i hi
    have key : ∀ l : ℚ, 0 < l → l ≤ 1 → ∃ z, LoadSplit duoModel.d [l] z ∧
        duoSite.slotCost (duoSite.active [(2 : ℤ), 2]) (duoSite.sent [l] z) ≠ ⊤ := by
      intro l h0 h1
      refine ⟨_, duo_split l h0, ?_⟩
      have hu : l / 2 ≤ 1 := by linarith
      have hf : duoSite.Feasible (duoSite.active [(2 : ℤ), 2])
          (duoSite.sent [l] fun k _ => if k = 0 then 0 else 1) := by
        intro j k hj hk
        change j < 1 at hj
        change k < 2 at hk
        obtain rfl : j = 0 := by omega
        have : k = 0 ∨ k = 1 := by omega
        have h2 : l / 2 < 1 := by linarith
        rcases this with rfl | rfl <;>
          simp [duoSite, Site.active, Site.jobs, Site.utilisation, Site.work, Site.sent, sumTo, toQ, h2]
      unfold Site.slotCost
      rw [if_pos hf]
      have h2 : ¬ (2 : ℚ) ≤ 0 := by norm_num
      simp [h2, duoSite, Site.active, Site.energyCost, Site.energyOf, Site.utilisation, Site.work, Site.sent, sumTo, toQ,
        List.range_succ, hu, ECost.mulQ]
    match i, hi with
    | 0, _ => exact key 1 (by norm_num) (by norm_num)
    | 1, _ => exact key (1 / 2) (by norm_num) (by norm_num)

/-- There are such solvers. -/
example : ∃ S : Num.Solver, Exact S ∧ StaysFeasible S := exists_exact_feasible

end Ex
end Soco
