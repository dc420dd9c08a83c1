import Verif.Lemmas.SubCost
import Mathlib.Algebra.Order.BigOperators.Group.List
import Mathlib.Algebra.Order.Ring.Int

/-! # One step of algorithm B -/

namespace Soco
namespace Bb
open Spec

/-- What is required of a sub slot. -/
structure Fits (S : Num.Solver) (d : Nat) (bounds : List ℤ) (β : List ℚ) (h : SubSlot) : Prop where
  pd : h.p.d = d
  pbounds : h.p.bounds = bounds
  pswitching : h.p.switchingCost = β
  costs : h.p.hittingCost.length = d
  t : 1 ≤ h.t
  n : 1 ≤ h.n
  idle : ∀ f ∈ h.p.hittingCost, ∃ c, f.callCertain h.t 0 = .ok c ∧ 0 ≤ c.cost
  defined : ∀ x, InBox bounds x → ∃ c, (divided h.p h.n).hitCost S h.t x = .ok c
  finite : h.hit S bounds ≠ ⊤

theorem divQ_nonneg (c : ECost) (n : Nat) (h : 0 ≤ c) : 0 ≤ ECost.divQ c n := by
  cases c using WithTop.recTopCoe with
  | top => exact le_top
  | coe a =>
    have h' : 0 ≤ a := by exact_mod_cast h
    show (0 : ECost) ≤ ((a / n : ℚ) : ECost)
    exact_mod_cast div_nonneg h' (Nat.cast_nonneg n)

section
variable {S : Num.Solver} {hist : Nat → SubSlot} {d : Nat} {bounds : List ℤ} {β : List ℚ}

theorem Fits.idle_ok {h : SubSlot} (F : Fits S d bounds β h) (k : Nat) (raw : CostFn ℚ Unit DCFailure)
    (hk : h.p.hittingCost[k]? = some raw) :
    ∃ c, partCost raw h.n h.t 0 = .ok c ∧ c.cost = h.idle k ∧ 0 ≤ h.idle k := by
  obtain ⟨c, h1, h2⟩ := F.idle raw (List.mem_of_getElem? hk)
  have e : partCost raw h.n h.t 0 = .ok ⟨ECost.divQ c.cost h.n, c.output⟩ := by simp [partCost, h1]
  have e2 : h.idle k = ECost.divQ c.cost h.n := by simp [SubSlot.idle, hk, e]
  exact ⟨_, e, e2.symm, by rw [e2]; exact divQ_nonneg _ _ h2⟩

theorem target_hitB (S : Num.Solver) (q : SBLO ℤ) (t : Int) (ht : 1 ≤ t) (x : Config ℤ) (hx : InBox q.bounds x) :
    (q.intoSSCO S).toProb.hitCost t x = q.hitCost S t x := by
  have hlen : x.length = q.bounds.length := (List.Forall₂.length_eq hx).symm
  exact ((C06_guarded_evaluation _ t q.bounds x hlen).1 hx).1.trans (CostFn.callMean_certain _ t ht x)

theorem target_hitB_congr (S : Num.Solver) (q q' : SBLO ℤ) (hb : q.bounds = q'.bounds) (t : Int) (ht : 1 ≤ t)
    (x : Config ℤ) (h : q.hitCost S t x = q'.hitCost S t x) :
    (q.intoSSCO S).toProb.hitCost t x = (q'.intoSSCO S).toProb.hitCost t x := by
  unfold SBLO.intoSSCO SSCO.toProb CostFn.callMeanWithinBounds
  simp only [CostFn.callMean_certain _ t ht]
  rw [h, hb]

/-- The shared parameters are valid. -/
structure Params (d : Nat) (bounds : List ℤ) (β : List ℚ) : Prop where
  pos : 0 < d
  lb : bounds.length = d
  lβ : β.length = d
  posB : ∀ u ∈ bounds, 0 < u
  posβ : ∀ b ∈ β, 0 < b

theorem box_bounds (hP : Params d bounds β) : InBox bounds bounds := by
  unfold InBox
  rw [List.forall₂_same]
  intro u hu
  exact ⟨(hP.posB u hu).le, le_refl _⟩

/-- The optimum found in sub slot `k`. -/
theorem optimumB (hP : Params d bounds β) (k : Nat) (hF : ∀ i ≤ k, Fits S d bounds β (hist i)) (q : SBLO ℤ)
    (hq : Shows S hist d bounds β q) (hT : q.tEnd = (k : Int) + 1) :
    ∃ r y, Multi.optimalGraphSearch (q.intoSSCO S) none .dflt = .ok r ∧ Schedule.now r.path.xs = .ok y ∧
      r.path.xs.getLast? = some y ∧ SubOptimal S hist bounds β k r.path.xs := by
  have hvs : ValidSSCO (q.intoSSCO S) := by
    refine ⟨?_, ?_, ?_, ?_, ?_, ?_⟩
    · show 0 < q.d; rw [hq.d]; exact_mod_cast hP.pos
    · show 0 ≤ q.tEnd; omega
    · show (q.bounds.length : Int) = q.d; rw [hq.d, hq.bounds, hP.lb]
    · show (q.switchingCost.length : Int) = q.d; rw [hq.d, hq.switchingCost, hP.lβ]
    · show ∀ u ∈ q.bounds, 0 < u; rw [hq.bounds]; exact hP.posB
    · show ∀ u ∈ q.switchingCost, 0 < u; rw [hq.switchingCost]; exact hP.posβ
  have hver : (q.intoSSCO S).verify = .ok () := (C10_ssco_verify_exact _).1 hvs
  let hit : Int → Config ℤ → ECost := fun u x => (hist (u - 1).toNat).hit S x
  have hidx : ∀ t : Int, 1 ≤ t → t ≤ q.tEnd → ∃ i : Nat, i ≤ k ∧ t = (i : Int) + 1 ∧ (t - 1).toNat = i :=
    fun t h1 h2 => ⟨(t - 1).toNat, by omega, by omega, rfl⟩
  have hhit : ∀ t : Int, 1 ≤ t → t ≤ (q.intoSSCO S).tEnd → ∀ x, InBox (q.intoSSCO S).bounds x →
      ∃ out, (q.intoSSCO S).toProb.hitCost t x = .ok ⟨hit t x, out⟩ := by
    intro t h1 h2 x hx
    obtain ⟨i, hi, rfl, hti⟩ := hidx t h1 h2
    have hx' : InBox bounds x := by rw [← hq.bounds]; exact hx
    obtain ⟨c, hc⟩ := (hF i hi).defined x hx'
    rw [target_hitB S q _ h1 x hx, hq.hit i (by omega), hc]
    refine ⟨c.output, ?_⟩
    simp only [hit, hti, SubSlot.hit, hc]
  have hxb : InBox q.bounds q.bounds := by rw [hq.bounds]; exact box_bounds hP
  obtain ⟨r, h1, h2, h3, h4, h5, h6⟩ := C19_graph_search_optimal (q.intoSSCO S) hver (by show 1 ≤ q.tEnd; omega) .dflt rfl
    (by decide) hit hhit (by
      intro t ht ht'
      obtain ⟨i, hi, rfl, hti⟩ := hidx t ht ht'
      show (hist _).hit S q.bounds ≠ ⊤
      rw [hti, hq.bounds]
      exact (hF i hi).finite)
  have h2' : (r.path.xs.length : Int) = q.tEnd := h2
  have hlast : r.path.xs.length - 1 < r.path.xs.length := by omega
  have htot : ∀ ys : Schedule ℤ, (ys.length : Int) = q.tEnd → (∀ y ∈ ys, InBox q.bounds y) →
      ∃ out, (q.intoSSCO S).toProb.alphaUnfairObjective ys 1 = .ok ⟨subTotal S hist β ys, out⟩ := by
    intro ys hl hy
    obtain ⟨out, ho⟩ := Multi.objective_total (q.intoSSCO S) hvs 1 hit (fun _ => True)
      (fun t a b x hx _ => hhit t a b x hx) ys hl (fun y h => ⟨hy y h, trivial⟩)
    refine ⟨out, ?_⟩
    rw [ho]
    unfold subTotal
    rw [show (q.intoSSCO S).switchingCost = β from hq.switchingCost,
      show (q.intoSSCO S).d.toNat = β.length by rw [show (q.intoSSCO S).d = q.d from rfl, hq.d, hP.lβ, Int.toNat_natCast]]
  have e : r.path.cost = subTotal S hist β r.path.xs := by
    obtain ⟨out, ho⟩ := htot r.path.xs h2 h3
    obtain ⟨out', ho'⟩ := h5
    have := ho'.symm.trans ho
    injection this with this
    injection this
  refine ⟨r, r.path.xs[r.path.xs.length - 1], h1, ?_, ?_, ⟨by omega, ?_, e ▸ h4, ?_⟩⟩
  · rw [Schedule.now, idx_ok_iff]
    exact List.getElem?_eq_getElem hlast
  · rw [List.getLast?_eq_getElem?]
    exact List.getElem?_eq_getElem hlast
  · rw [← hq.bounds]; exact h3
  · intro zs hzl hz
    obtain ⟨c, hc1, hc2⟩ := h6 zs (by show (zs.length : Int) = q.tEnd; omega) (by
      show ∀ y ∈ zs, InBox q.bounds y
      rw [hq.bounds]; exact hz)
    obtain ⟨out, ho⟩ := htot zs (by omega) (by rw [hq.bounds]; exact hz)
    have : (Except.ok c : Res _) = .ok _ := hc1.symm.trans ho
    injection this with this
    rw [← e]
    rw [this] at hc2
    exact hc2

/-! ### Idle costs -/

theorem idleSince_self (idle : Nat → ECost) (s : Nat) : idleSince idle s s = 0 := by simp [idleSince]

theorem idleSince_succ (idle : Nat → ECost) (s i : Nat) (h : s ≤ i) :
    idleSince idle s (i + 1) = idleSince idle s i + idle (i + 1) := by
  unfold idleSince
  rw [show i + 1 - s = (i - s) + 1 by omega, List.range'_concat, List.map_append, List.sum_append]
  simp only [List.map_cons, List.map_nil, List.sum_cons, List.sum_nil, add_zero]
  rw [show s + 1 + 1 * (i - s) = i + 1 by omega]

theorem stillOn_congr {ups ups' : Nat → ℤ} (idle : Nat → ECost) (b : ℚ) (i : Nat) (h : ∀ s ≤ i, ups s = ups' s) :
    stillOn ups idle b i = stillOn ups' idle b i := by
  unfold stillOn
  congr 1
  apply List.map_congr_left
  intro s hs
  rw [h s (by rw [List.mem_range] at hs; omega)]

/-- The servers to be powered down now. -/
def expiring (ups : Nat → ℤ) (idle : Nat → ECost) (b : ℚ) (i : Nat) : ℤ :=
  ((List.range (i + 1)).map fun s =>
    if idleSince idle s i ≤ (b : ECost) ∧ (b : ECost) < idleSince idle s i + idle (i + 1) then ups s else 0).sum

theorem stillOn_succ (ups : Nat → ℤ) (idle : Nat → ECost) (b : ℚ) (i : Nat) (hb : 0 ≤ b) (h0 : 0 ≤ idle (i + 1)) :
    stillOn ups idle b (i + 1) = stillOn ups idle b i - expiring ups idle b i + ups (i + 1) := by
  have h1 : stillOn ups idle b (i + 1) =
      ((List.range (i + 1)).map fun s => if idleSince idle s (i + 1) ≤ (b : ECost) then ups s else 0).sum + ups (i + 1) := by
    have hb' : (0 : ECost) ≤ (b : ECost) := by exact_mod_cast hb
    unfold stillOn
    rw [List.range_succ (n := i + 1), List.map_append, List.sum_append]
    simp [idleSince_self, hb']
  rw [h1]
  have h2 : ∀ n ≤ i + 1, ((List.range n).map fun s => if idleSince idle s (i + 1) ≤ (b : ECost) then ups s else 0).sum =
      ((List.range n).map fun s => if idleSince idle s i ≤ (b : ECost) then ups s else 0).sum -
      ((List.range n).map fun s =>
        if idleSince idle s i ≤ (b : ECost) ∧ (b : ECost) < idleSince idle s i + idle (i + 1) then ups s else 0).sum := by
    intro n
    induction n with
    | zero => intro _; simp
    | succ n ih =>
      intro hn
      simp only [List.range_succ, List.map_append, List.sum_append, List.map_cons, List.map_nil, List.sum_cons,
        List.sum_nil, add_zero]
      rw [ih (by omega), idleSince_succ idle n i (by omega)]
      have hmono : idleSince idle n i ≤ idleSince idle n i + idle (i + 1) := le_add_of_nonneg_right h0
      by_cases c1 : idleSince idle n i ≤ (b : ECost)
      · by_cases c2 : idleSince idle n i + idle (i + 1) ≤ (b : ECost)
        · rw [if_pos c2, if_pos c1, if_neg (by rintro ⟨_, h⟩; exact absurd c2 (not_le.2 h))]
          omega
        · rw [if_neg c2, if_pos c1, if_pos ⟨c1, not_le.1 c2⟩]
          omega
      · rw [if_neg c1, if_neg (fun h => c1 (le_trans hmono h)), if_neg (fun h => c1 h.1)]
        omega
  rw [h2 (i + 1) (le_refl _)]
  rfl

theorem sum_ite_nonneg (n : Nat) (P : Nat → Prop) [DecidablePred P] (ups : Nat → ℤ) (h : ∀ s < n, 0 ≤ ups s) :
    0 ≤ ((List.range n).map fun s => if P s then ups s else 0).sum := by
  apply List.sum_nonneg
  intro x hx
  obtain ⟨s, hs, rfl⟩ := List.mem_map.1 hx
  rw [List.mem_range] at hs
  split
  · exact h s hs
  · exact le_refl _

end

/-! ### The servers powered down -/

theorem timeRange_from (a : Nat) (k : Nat) :
    timeRange ((a : Int) + 1) (k : Int) = (List.range' a (k - a)).map fun i : Nat => (i : Int) + 1 := by
  unfold timeRange
  rw [show ((k : Int) - ((a : Int) + 1) + 1).toNat = k - a by omega, List.range'_eq_map_range, List.map_map]
  apply List.map_congr_left
  intro i _
  simp only [Function.comp]
  push_cast
  omega

theorem cumulative_eq (f : CostFn ℚ Unit DCFailure) (idle : Nat → ECost) (s k : Nat)
    (h : ∀ i ≤ k, ∃ c, f.callCertain ((i : Int) + 1) 0 = .ok c ∧ c.cost = idle i) :
    cumulativeIdleHittingCost f ((s : Int) + 1 + 1) ((k : Int) + 1) = .ok (idleSince idle s k) := by
  unfold cumulativeIdleHittingCost idleSince
  have e := timeRange_from (s + 1) (k + 1)
  push_cast at e
  rw [e, List.map_map]
  apply sumM_ok_of
  intro i hi
  rw [List.mem_range'_1] at hi
  obtain ⟨c, h1, h2⟩ := h i (by omega)
  simp only [Function.comp, h1, bind, Except.bind, h2]

/-- What is powered down in sub slot `k`, if the sub slots before are `0, …, k - 1`. -/
def expiringAt (ups : Nat → ℤ) (idle : Nat → ECost) (b : ℚ) : Nat → ℤ
  | 0 => 0
  | k + 1 => expiring ups idle b k

theorem deactivated_eq (f : CostFn ℚ Unit DCFailure) (idle : Nat → ECost) (b : ℚ) (rows : List (List ℤ)) (k κ : Nat)
    (hl : rows.length = k) (hr : ∀ r ∈ rows, κ < r.length)
    (h : ∀ i ≤ k, ∃ c, f.callCertain ((i : Int) + 1) 0 = .ok c ∧ c.cost = idle i) :
    deactivatedQuantity f b rows ((k : Int) + 1) κ =
      .ok (expiringAt (fun s => (rows.getD s []).getD κ 0) idle b k) := by
  unfold deactivatedQuantity
  cases k with
  | zero => rfl
  | succ k =>
    have e := timeRange_from 0 (k + 1)
    rw [show (((0 : Nat) : Int) + 1) = 1 by simp] at e
    rw [show (((k + 1 : Nat) : Int) + 1 - 1) = ((k + 1 : Nat) : Int) by omega, e, List.map_map, Nat.sub_zero,
      ← List.range_eq_range']
    unfold expiringAt expiring
    apply sumM_ok_of
    intro s hs
    rw [List.mem_range] at hs
    have hc := cumulative_eq f idle s k (fun i hi => h i (by omega))
    obtain ⟨c, h1, h2⟩ := h (k + 1) (le_refl _)
    have hs' : s < rows.length := by omega
    simp only [Function.comp, Nat.cast_add, Nat.cast_one, hc, bind, Except.bind]
    push_cast at h1
    simp only [h1, h2]
    split
    · rw [show ((s : Int) + 1 - 1).toNat = s by omega, idx_getD _ s hs' []]
      refine idx_getD _ κ ?_ 0
      rw [List.getD_eq_getElem _ _ hs']
      exact hr _ (List.getElem_mem _)
    · rfl

/-! ### The step -/

/-- The memory and the schedule before sub slot `k`. -/
structure AInv (S : Num.Solver) (hist : Nat → SubSlot) (d : Nat) (bounds : List ℤ) (β : List ℚ) (k : Nat)
    (xs : Schedule ℤ) (rows : List (List ℤ)) : Prop where
  lenX : xs.length = k
  lenR : rows.length = k
  row : ∀ r ∈ rows, r.length = d ∧ ∀ u ∈ r, 0 ≤ u
  box : ∀ x ∈ xs, InBox bounds x
  on : ∀ i < k, ∀ (κ : Nat) (b : ℚ), β[κ]? = some b →
    (xs.getD i []).getD κ 0 = stillOn (fun s => (rows.getD s []).getD κ 0) (fun j => (hist j).idle κ) b i
  opt : ∀ i < k, ∃ ys y, SubOptimal S hist bounds β i ys ∧ ys.getLast? = some y ∧ ∀ κ < d,
    y.getD κ 0 ≤ (xs.getD i []).getD κ 0 ∧
    (0 < (rows.getD i []).getD κ 0 → (xs.getD i []).getD κ 0 = y.getD κ 0)

/-- The cache before sub slot `k`. -/
structure CacheInv (S : Num.Solver) (hist : Nat → SubSlot) (d : Nat) (bounds : List ℤ) (β : List ℚ) (k : Nat)
    (cache : Option (Cache Multi.Vertex)) : Prop where
  cacheT : ∀ c, cache = some c → 0 ≤ c.t ∧ c.t ≤ k
  same : ∀ q : SBLO ℤ, Shows S hist d bounds β q → (k : Int) ≤ q.tEnd →
    Multi.optimalGraphSearch (q.intoSSCO S) cache .dflt = Multi.optimalGraphSearch (q.intoSSCO S) none .dflt

theorem getD_append_last {α : Type} (xs : List α) (x a : α) (i : Nat) (hi : i < xs.length) :
    (xs ++ [x]).getD i a = xs.getD i a := by
  rw [List.getD_eq_getElem?_getD, List.getD_eq_getElem?_getD, List.getElem?_append_left hi]

theorem getD_append_new {α : Type} (xs : List α) (x a : α) (i : Nat) (hi : xs.length = i) :
    (xs ++ [x]).getD i a = x := by
  subst hi
  simp

theorem InBox.getD_le {bounds : List ℤ} {x : Config ℤ} (h : InBox bounds x) (κ : Nat) :
    0 ≤ x.getD κ 0 ∧ x.getD κ 0 ≤ bounds.getD κ 0 := by
  induction h generalizing κ with
  | nil => simp
  | cons h1 _ ih =>
    cases κ with
    | zero => simpa using h1
    | succ κ => simpa using ih κ

theorem inBox_of_getD {bounds : List ℤ} {x : Config ℤ} (hl : x.length = bounds.length)
    (h : ∀ κ < bounds.length, 0 ≤ x.getD κ 0 ∧ x.getD κ 0 ≤ bounds.getD κ 0) : InBox bounds x := by
  induction bounds generalizing x with
  | nil => rw [List.length_eq_zero_iff.1 hl]; exact .nil
  | cons b bounds ih =>
    cases x with
    | nil => simp at hl
    | cons j x =>
      refine .cons (by simpa using h 0 (by simp)) (ih (by simpa using hl) ?_)
      intro κ hκ
      simpa using h (κ + 1) (by simpa using hκ)

/-- The servers kept from the sub slots before `k`. -/
def carried (ups : Nat → ℤ) (idle : Nat → ECost) (b : ℚ) : Nat → ℤ
  | 0 => 0
  | k + 1 => stillOn ups idle b k - expiring ups idle b k

theorem carried_eq (ups : Nat → ℤ) (idle : Nat → ECost) (b : ℚ) (k : Nat) (hb : 0 ≤ b) (h0 : ∀ i ≤ k, 0 ≤ idle i)
    (ups' : Nat → ℤ) (h : ∀ s < k, ups' s = ups s) : stillOn ups' idle b k = carried ups idle b k + ups' k := by
  cases k with
  | zero =>
    have hb' : (0 : ECost) ≤ (b : ECost) := by exact_mod_cast hb
    simp [stillOn, carried, idleSince_self, hb']
  | succ k =>
    rw [stillOn_succ _ _ _ _ hb (h0 _ (le_refl _))]
    unfold carried
    congr 2
    · exact stillOn_congr _ _ _ fun s hs => h s (by omega)
    · unfold expiring
      congr 1
      apply List.map_congr_left
      intro s hs
      rw [List.mem_range] at hs
      rw [h s (by omega)]

theorem carried_nonneg (ups : Nat → ℤ) (idle : Nat → ECost) (b : ℚ) (k : Nat) (hb : 0 ≤ b) (h0 : ∀ i ≤ k, 0 ≤ idle i)
    (h : ∀ s, 0 ≤ ups s) : 0 ≤ carried ups idle b k := by
  have e := carried_eq ups idle b k hb h0 (fun s => if s = k then 0 else ups s) (fun s hs => if_neg (by omega))
  rw [if_pos rfl, add_zero] at e
  rw [← e]
  apply sum_ite_nonneg
  intro s _
  split
  · exact le_refl _
  · exact h s

theorem expiringAt_nonneg (ups : Nat → ℤ) (idle : Nat → ECost) (b : ℚ) (k : Nat) (h : ∀ s, 0 ≤ ups s) :
    0 ≤ expiringAt ups idle b k := by
  cases k with
  | zero => exact le_refl _
  | succ k => exact sum_ite_nonneg _ _ _ fun s _ => h s

theorem AInv.carried {S : Num.Solver} {hist : Nat → SubSlot} {d : Nat} {bounds : List ℤ} {β : List ℚ} {k : Nat}
    {xs : Schedule ℤ} {rows : List (List ℤ)} (I : AInv S hist d bounds β k xs rows) (κ : Nat) (b : ℚ) (hb : β[κ]? = some b) :
    (xs.getLastD (Config.repeat 0 d)).getD κ 0 -
      expiringAt (fun s => (rows.getD s []).getD κ 0) (fun j => (hist j).idle κ) b k =
    Bb.carried (fun s => (rows.getD s []).getD κ 0) (fun j => (hist j).idle κ) b k := by
  have hrep : (Config.repeat (0 : ℤ) d).getD κ 0 = 0 := by
    unfold Config.repeat
    rw [List.getD_eq_getElem?_getD]
    cases hh : (List.replicate d (0 : ℤ))[κ]? with
    | none => rfl
    | some a => exact (List.mem_replicate.1 (List.mem_of_getElem? hh)).2
  have hl := I.lenX
  cases k with
  | zero =>
    rw [List.length_eq_zero_iff.1 hl, List.getLastD_nil, hrep]
    rfl
  | succ k =>
    have hxl : k < xs.length := by omega
    have : xs.getLastD (Config.repeat 0 d) = xs.getD k [] := by
      rw [List.getLastD_eq_getLast?, List.getLast?_eq_getElem?, show xs.length - 1 = k by omega,
        List.getElem?_eq_getElem hxl, List.getD_eq_getElem _ _ hxl]
      rfl
    rw [this, I.on k (by omega) κ b hb]
    rfl

theorem inBox_prev {bounds : List ℤ} {d : Nat} {β : List ℚ} (hP : Params d bounds β) (xs : Schedule ℤ)
    (h : ∀ x ∈ xs, InBox bounds x) : InBox bounds (xs.getLastD (Config.repeat 0 d)) := by
  rw [List.getLastD_eq_getLast?]
  cases hx : xs.getLast? with
  | some x => exact h x (List.mem_of_getLast? hx)
  | none =>
    simp only [Option.getD_none]
    apply inBox_of_getD
    · simp [Config.repeat, hP.lb]
    · intro κ hκ
      have e : (Config.repeat (0 : ℤ) d).getD κ 0 = 0 := by
        unfold Config.repeat
        rw [List.getD_eq_getElem?_getD]
        cases hh : (List.replicate d (0 : ℤ))[κ]? with
        | none => rfl
        | some a => exact (List.mem_replicate.1 (List.mem_of_getElem? hh)).2
      rw [e]
      refine ⟨le_refl _, ?_⟩
      rw [List.getD_eq_getElem _ _ hκ]
      exact (hP.posB _ (List.getElem_mem hκ)).le

variable {S : Num.Solver} {hist : Nat → SubSlot} {d : Nat} {bounds : List ℤ} {β : List ℚ}

theorem algB_step (hP : Params d bounds β) (k U : Nat) (hkU : k < U) (hF : ∀ i ≤ k, Fits S d bounds β (hist i))
    (q : SBLO ℤ) (hq : Shows S hist d bounds β q) (hT : q.tEnd = (k : Int) + 1) (R : Rep hist d U q.hittingCost)
    (xs : Schedule ℤ) (m : AlgBMemory) (I : AInv S hist d bounds β k xs m.initTimes)
    (J : CacheInv S hist d bounds β k m.cache) :
    ∃ x m', algB S ⟨q, 0⟩ ((k : Int) + 1) xs m = .ok (x, some m') ∧
      AInv S hist d bounds β (k + 1) (xs ++ [x]) m'.initTimes ∧ CacheInv S hist d bounds β (k + 1) m'.cache := by
  obtain ⟨r, y, h1, h2, h3, h4⟩ := optimumB hP k hF q hq hT
  have hybox : InBox bounds y := h4.box y (List.mem_of_getLast? h3)
  have hyl : y.length = d := by have := List.Forall₂.length_eq hybox; have := hP.lb; omega
  have hqd : q.d.toNat = d := by rw [hq.d]; simp
  have hsearch : findOptimalConfig S m.cache q = .ok (y, r.cache) := by
    unfold findOptimalConfig
    rw [J.same q hq (by omega), h1]
    simp only [bind, Except.bind, h2]
  have hprevbox := inBox_prev hP xs I.box
  have hcar := fun κ hκ => I.carried κ (β.getD κ 0) hκ
  obtain ⟨prev, hprev⟩ : ∃ prev : Config ℤ, prev = xs.getLastD (Config.repeat 0 d) := ⟨_, rfl⟩
  rw [← hprev] at hprevbox hcar
  have hpl : prev.length = d := by have := List.Forall₂.length_eq hprevbox; have := hP.lb; omega
  obtain ⟨ups, hups⟩ : ∃ ups : Nat → Nat → ℤ, ∀ κ, ups κ = fun s => (m.initTimes.getD s []).getD κ 0 := ⟨_, fun _ => rfl⟩
  obtain ⟨idle, hidl⟩ : ∃ idle : Nat → Nat → ECost, ∀ κ, idle κ = fun j => (hist j).idle κ := ⟨_, fun _ => rfl⟩
  obtain ⟨off, hoff⟩ : ∃ off : Nat → ℤ, ∀ κ, off κ = expiringAt (ups κ) (idle κ) (β.getD κ 0) k := ⟨_, fun _ => rfl⟩
  obtain ⟨j, hj⟩ : ∃ j : Nat → ℤ, ∀ κ, j κ = prev.getD κ 0 - off κ := ⟨_, fun _ => rfl⟩
  obtain ⟨g, hgdef⟩ : ∃ g : Nat → ℤ × ℤ, ∀ κ, g κ =
    if j κ < y.getD κ 0 then (y.getD κ 0 - j κ, y.getD κ 0) else (0, j κ) := ⟨_, fun _ => rfl⟩
  have hupsnn : ∀ κ s, 0 ≤ ups κ s := by
    intro κ s
    rw [hups]
    simp only
    rw [List.getD_eq_getElem?_getD, List.getD_eq_getElem?_getD]
    cases hs : m.initTimes[s]? with
    | none => simp
    | some row =>
      simp only [Option.getD_some]
      cases hκ : row[κ]? with
      | none => simp
      | some u => exact (I.row row (List.mem_of_getElem? hs)).2 u (List.mem_of_getElem? hκ)
  have hβ : ∀ κ < d, β[κ]? = some (β.getD κ 0) := by
    intro κ hκ
    rw [List.getD_eq_getElem _ _ (by have := hP.lβ; omega)]
    exact List.getElem?_eq_getElem _
  have hβ0 : ∀ κ < d, 0 ≤ β.getD κ 0 := fun κ hκ => (hP.posβ _ (List.mem_of_getElem? (hβ κ hκ))).le
  have hidle : ∀ κ < d, ∀ i ≤ k, 0 ≤ idle κ i ∧
      ∃ c, (q.hittingCost.getD κ []).callCertain ((i : Int) + 1) 0 = .ok c ∧ c.cost = idle κ i := by
    intro κ hκ i hi
    have hf : q.hittingCost[κ]? = some (q.hittingCost.getD κ []) := by
      rw [List.getD_eq_getElem _ _ (by have := R.1; omega)]; exact List.getElem?_eq_getElem _
    obtain ⟨raw, r1, r2⟩ := (R.2 κ _ hf).2 i (by omega)
    obtain ⟨c, c1, c2, c3⟩ := (hF i hi).idle_ok κ raw r1
    rw [hidl]
    exact ⟨c3, c, (r2 0).1.trans c1, c2⟩
  have hdim : ∀ κ ∈ List.range d, stepDim q ((k : Int) + 1) prev y m.initTimes κ = .ok (g κ) := by
    intro κ hκ
    rw [List.mem_range] at hκ
    unfold stepDim
    rw [idx_getD prev κ (by omega) 0, idx_getD q.hittingCost κ (by have := R.1; omega) [],
      idx_getD q.switchingCost κ (by rw [hq.switchingCost, hP.lβ]; exact hκ) 0, hq.switchingCost]
    simp only [bind, Except.bind]
    rw [deactivated_eq (q.hittingCost.getD κ []) (idle κ) (β.getD κ 0) m.initTimes k κ I.lenR
      (fun r hr => by rw [(I.row r hr).1]; exact hκ) (fun i hi => (hidle κ hκ i hi).2), idx_getD y κ (by omega) 0, ← hups, ← hoff, hgdef, hj]
  have hrun : algB S ⟨q, 0⟩ ((k : Int) + 1) xs m =
      .ok (((List.range d).map g).map Prod.snd, some ⟨m.initTimes ++ [((List.range d).map g).map Prod.fst], some r.cache⟩) := by
    unfold algB
    simp only [hsearch, bind, Except.bind]
    rw [hqd, ← hprev, mapM_ok_of g hdim]
  have hjs : ∀ κ < d, j κ = carried (ups κ) (idle κ) (β.getD κ 0) k := by
    intro κ hκ
    rw [hj, hoff, hups, hidl]
    exact hcar κ (hβ κ hκ)
  have hoffnn : ∀ κ, 0 ≤ off κ := by
    intro κ
    rw [hoff]
    exact expiringAt_nonneg _ _ _ _ (hupsnn κ)
  have hjnn : ∀ κ < d, 0 ≤ j κ := by
    intro κ hκ
    rw [hjs κ hκ]
    exact carried_nonneg _ _ _ _ (hβ0 κ hκ) (fun i hi => (hidle κ hκ i hi).1) (hupsnn κ)
  have hg : ∀ κ < d, (g κ).2 = j κ + (g κ).1 ∧ 0 ≤ (g κ).1 ∧ y.getD κ 0 ≤ (g κ).2 ∧
      (0 < (g κ).1 → (g κ).2 = y.getD κ 0) ∧ 0 ≤ (g κ).2 ∧ (g κ).2 ≤ bounds.getD κ 0 := by
    intro κ hκ
    have a1 := InBox.getD_le hybox κ
    have a2 := InBox.getD_le hprevbox κ
    have a3 := hjnn κ hκ
    have a4 := hoffnn κ
    have a5 := hj κ
    rw [hgdef]
    split
    · refine ⟨by omega, by simp only; omega, le_refl _, fun _ => rfl, a1.1, a1.2⟩
    · refine ⟨by omega, le_refl _, by simp only; omega, fun h => absurd h (by simp), a3, by simp only; omega⟩
  have hgX : ∀ κ < d, (((List.range d).map g).map Prod.snd).getD κ 0 = (g κ).2 := by
    intro κ hκ
    simp [hκ]
  have hgR : ∀ κ < d, (((List.range d).map g).map Prod.fst).getD κ 0 = (g κ).1 := by
    intro κ hκ
    simp [hκ]
  have hxbox : InBox bounds (((List.range d).map g).map Prod.snd) := by
    apply inBox_of_getD
    · simp [hP.lb]
    · intro κ hκ
      rw [hP.lb] at hκ
      rw [hgX κ hκ]
      exact ⟨(hg κ hκ).2.2.2.2.1, (hg κ hκ).2.2.2.2.2⟩
  refine ⟨_, _, hrun, ⟨?_, ?_, ?_, ?_, ?_, ?_⟩, ⟨?_, ?_⟩⟩
  · simp [I.lenX]
  · simp [I.lenR]
  · intro row hrow
    rcases List.mem_append.1 hrow with h | h
    · exact I.row row h
    · rw [List.mem_singleton.1 h]
      refine ⟨by simp, ?_⟩
      intro u hu
      simp only [List.map_map, List.mem_map, List.mem_range] at hu
      obtain ⟨κ, hκ, rfl⟩ := hu
      exact (hg κ hκ).2.1
  · intro x hx
    rcases List.mem_append.1 hx with h | h
    · exact I.box x h
    · rw [List.mem_singleton.1 h]
      exact hxbox
  · intro i hi κ b hb
    have hκ : κ < d := by
      have := (List.getElem?_eq_some_iff.1 hb).1
      have := hP.lβ
      omega
    by_cases hik : i < k
    · rw [getD_append_last _ _ _ _ (by have := I.lenX; omega), I.on i hik κ b hb]
      apply stillOn_congr
      intro s hs
      simp only
      rw [getD_append_last _ _ _ _ (by have := I.lenR; omega)]
    · have : i = k := by omega
      subst this
      have hbe : b = β.getD κ 0 := by have := (hβ κ hκ).symm.trans hb; injection this with this; exact this.symm
      rw [getD_append_new _ _ _ _ I.lenX, hgX κ hκ, (hg κ hκ).1, hbe, hjs κ hκ,
        carried_eq (ups κ) (fun j => (hist j).idle κ) (β.getD κ 0) i (hβ0 κ hκ)
          (fun i' hi' => by have := (hidle κ hκ i' hi').1; rwa [hidl] at this) _ (fun s hs => ?_)]
      · rw [getD_append_new _ _ _ _ I.lenR, hgR κ hκ, hidl]
      · rw [hups, getD_append_last _ _ _ _ (by have := I.lenR; omega)]
  · intro i hi
    by_cases hik : i < k
    · obtain ⟨ys, z, o1, o2, o3⟩ := I.opt i hik
      refine ⟨ys, z, o1, o2, ?_⟩
      rw [getD_append_last _ _ _ _ (by have := I.lenX; omega), getD_append_last _ _ _ _ (by have := I.lenR; omega)]
      exact o3
    · have : i = k := by omega
      subst this
      refine ⟨r.path.xs, y, h4, h3, ?_⟩
      intro κ hκ
      rw [getD_append_new _ _ _ _ I.lenX, getD_append_new _ _ _ _ I.lenR, hgX κ hκ, hgR κ hκ]
      exact ⟨(hg κ hκ).2.2.1, (hg κ hκ).2.2.2.1⟩
  · rintro c ⟨⟩
    have hrun' := h1
    have hc := (C21_resume (q.intoSSCO S) (q.intoSSCO S) rfl rfl rfl (le_refl _) (by show 0 ≤ q.tEnd; omega)
      (fun _ _ _ _ => rfl) none (by simp) .dflt r h1).1
    have hc' : r.cache.t = q.tEnd := hc
    rw [hc']
    push_cast
    omega
  · intro q' hq' hle
    push_cast at hle
    exact (C21_resume (q.intoSSCO S) (q'.intoSSCO S) (hq.d.trans hq'.d.symm) (hq.bounds.trans hq'.bounds.symm)
      (hq.switchingCost.trans hq'.switchingCost.symm) (by show q.tEnd ≤ q'.tEnd; omega) (by show 0 ≤ q.tEnd; omega)
      (by
        intro t ht ht' x
        have ht'' : t ≤ q.tEnd := ht'
        apply target_hitB_congr S q q' (hq.bounds.trans hq'.bounds.symm) t ht x
        obtain ⟨i, rfl⟩ : ∃ i : Nat, t = (i : Int) + 1 := ⟨(t - 1).toNat, by omega⟩
        rw [hq.hit i (by omega), hq'.hit i (by omega)]) none (by simp) .dflt r h1).2

end Bb
end Soco
