import Verif.Model.BalancedBudgeting
import Verif.Spec.Budgeting
import Verif.Props.SloSblo
import Verif.Props.MultiGraph2
import Mathlib.Data.List.GetD

/-! # Cost functions of divided slots -/

namespace Soco

section
variable {X C D : Type} [OutSuccess C] [OutFailure D]

theorem CostFn.add_last (fs : CostFn X C D) (u : Int) (f : SingleCostFn X C D) (h : ∀ e ∈ fs, e.1 < u) :
    fs.add u f = fs ++ [(u, f)] := by
  induction fs with
  | nil => rfl
  | cons e fs ih =>
    obtain ⟨s, g⟩ := e
    have hs : s < u := h (s, g) (by simp)
    rw [CostFn.add, if_neg (by omega), if_neg (by omega), ih fun e he => h e (by simp [he])]
    rfl

theorem CostFn.get_append_lt (fs : CostFn X C D) (u t : Int) (f : SingleCostFn X C D) (h : t < u) :
    CostFn.get (fs ++ [(u, f)]) t = CostFn.get fs t := by
  unfold CostFn.get
  rw [List.filter_append]
  simp [not_le.2 h]

theorem CostFn.get_append_ge (fs : CostFn X C D) (u t : Int) (f : SingleCostFn X C D) (h : u ≤ t) (hu : 1 ≤ u) :
    CostFn.get (fs ++ [(u, f)]) t = .ok (u, f) := by
  unfold CostFn.get
  have ht : 1 ≤ t := by omega
  rw [List.filter_append]
  simp [h, hu, ht, assertP, bind, Except.bind]

theorem SingleCostFn.callMean_certain (f : Int → X → Res (Cost C D)) (s t : Int) (h : s ≤ t) (x : X) :
    (SingleCostFn.certain f).callMean s t x = f t x ∧ (SingleCostFn.certain f).callCertain s t x = f t x := by
  have e : (SingleCostFn.certain f).callPredictive s t x = (f t x).map fun c => [c] := by
    simp only [SingleCostFn.callPredictive, assertP, ge_iff_le, h, decide_true, if_true, bind, Except.bind,
      SingleCostFn.certain]
    cases f t x with
    | error e => rfl
    | ok c => by_cases h : t = s <;> simp [Except.map, h]
  unfold SingleCostFn.callMean SingleCostFn.callCertain
  rw [e]
  cases f t x with
  | error e => exact ⟨rfl, rfl⟩
  | ok c => simp [Except.map, bind, Except.bind, Cost.mean_singleton]

end

namespace Bb
open Spec

/-- The cost functions `hc` represent the sub slots `hist 0, …, hist (U - 1)`. -/
def Rep (hist : Nat → SubSlot) (d U : Nat) (hc : List (CostFn ℚ Unit DCFailure)) : Prop :=
  hc.length = d ∧ ∀ (k : Nat) (f : CostFn ℚ Unit DCFailure), hc[k]? = some f → (∀ e ∈ f, e.1 ≤ (U : Int)) ∧
    ∀ i < U, ∃ raw, (hist i).p.hittingCost[k]? = some raw ∧ ∀ y : ℚ,
      f.callCertain ((i : Int) + 1) y = partCost raw (hist i).n (hist i).t y ∧
      f.callMean ((i : Int) + 1) y = partCost raw (hist i).n (hist i).t y

theorem Rep.empty (hist : Nat → SubSlot) (d : Nat) : Rep hist d 0 ((List.range d).map fun _ => CostFn.empty) := by
  refine ⟨by simp, ?_⟩
  intro k f hf
  simp only [List.getElem?_map, Option.map_eq_some_iff] at hf
  obtain ⟨_, _, rfl⟩ := hf
  exact ⟨by simp [CostFn.empty], by omega⟩

theorem subCost_eq (raw : CostFn ℚ Unit DCFailure) (t : Int) (n : Nat) (uInit uEnd u : Int) (h1 : uInit ≤ u)
    (h2 : u ≤ uEnd) (y : ℚ) :
    (subCost raw t n uInit uEnd).callMean uInit u y = partCost raw n t y ∧
    (subCost raw t n uInit uEnd).callCertain uInit u y = partCost raw n t y := by
  unfold subCost
  obtain ⟨e1, e2⟩ := SingleCostFn.callMean_certain (C := Unit) (D := DCFailure) (fun (u : Int) (x : ℚ) => (do
    assertP (decide (uInit ≤ u ∧ u ≤ uEnd))
    let c ← raw.callCertain t x
    .ok ⟨ECost.divQ c.cost (n : Int), c.output⟩ : Res (Cost Unit DCFailure))) uInit u h1 y
  rw [e1, e2]
  simp only [assertP, h1, h2, and_self, decide_true, if_true, bind, Except.bind, partCost]
  cases raw.callCertain t y <;> simp

/-- Registering the costs of a slot divided into `n` parts. -/
theorem Rep.extend {hist : Nat → SubSlot} {d U : Nat} {hc : List (CostFn ℚ Unit DCFailure)} (R : Rep hist d U hc)
    (p : SBLO ℤ) (t : Int) (n : Nat) (hd : p.hittingCost.length = d) (hn : ∀ i < n, hist (U + i) = ⟨p, t, n⟩) (hn1 : 1 ≤ n) :
    ∃ hc', (List.range d).mapM (fun k => do
        let raw ← idx p.hittingCost k
        let old ← idx hc k
        .ok (old.add ((U : Int) + 1) (subCost raw t n ((U : Int) + 1) ((U : Int) + n)))) = (.ok hc' : Res _) ∧
      Rep hist d (U + n) hc' := by
  obtain ⟨R1, R2⟩ := R
  set g : Nat → CostFn ℚ Unit DCFailure := fun k =>
    (hc.getD k []).add ((U : Int) + 1) (subCost (p.hittingCost.getD k []) t n ((U : Int) + 1) ((U : Int) + n)) with hg
  refine ⟨(List.range d).map g, ?_, by simp, ?_⟩
  · apply mapM_ok_of
    intro k hk
    rw [List.mem_range] at hk
    rw [idx_getD _ k (by omega) [], idx_getD _ k (by omega) []]
    rfl
  · intro k f hf
    simp only [List.getElem?_map, Option.map_eq_some_iff] at hf
    obtain ⟨k', hk', rfl⟩ := hf
    obtain ⟨hk1, hk2⟩ := List.getElem?_eq_some_iff.1 hk'
    have hkd : k < d := by simpa using hk1
    have hkk : k' = k := by rw [← hk2]; simp
    subst hkk
    have hck : hc[k']? = some (hc.getD k' []) := by
      rw [List.getD_eq_getElem _ _ (by omega)]; exact List.getElem?_eq_getElem _
    obtain ⟨a1, a2⟩ := R2 k' _ hck
    have hadd : g k' = hc.getD k' [] ++ [((U : Int) + 1, subCost (p.hittingCost.getD k' []) t n ((U : Int) + 1) ((U : Int) + n))] := by
      rw [hg]
      exact CostFn.add_last _ _ _ fun e he => by have := a1 e he; omega
    refine ⟨?_, ?_⟩
    · intro e he
      rw [hadd, List.mem_append] at he
      rcases he with he | he
      · have := a1 e he; push_cast; omega
      · rw [List.mem_singleton.1 he]; push_cast; show (U : Int) + 1 ≤ _; omega
    · intro i hi
      by_cases hiU : i < U
      · obtain ⟨raw, b1, b2⟩ := a2 i hiU
        refine ⟨raw, b1, fun y => ?_⟩
        have e := CostFn.get_append_lt (hc.getD k' []) ((U : Int) + 1) ((i : Int) + 1)
          (subCost (p.hittingCost.getD k' []) t n ((U : Int) + 1) ((U : Int) + n)) (by omega)
        obtain ⟨b3, b4⟩ := b2 y
        rw [hadd]
        unfold CostFn.callCertain at b3 ⊢
        unfold CostFn.callMean at b4 ⊢
        rw [e]
        exact ⟨b3, b4⟩
      · have hh := hn (i - U) (by omega)
        rw [show U + (i - U) = i by omega] at hh
        rw [hh]
        refine ⟨p.hittingCost.getD k' [], ?_, fun y => ?_⟩
        · rw [List.getD_eq_getElem _ _ (by omega)]; exact List.getElem?_eq_getElem _
        · have e := CostFn.get_append_ge (hc.getD k' []) ((U : Int) + 1) ((i : Int) + 1)
            (subCost (p.hittingCost.getD k' []) t n ((U : Int) + 1) ((U : Int) + n)) (by omega) (by omega)
          rw [hadd]
          unfold CostFn.callCertain CostFn.callMean
          rw [e]
          obtain ⟨c1, c2⟩ := subCost_eq (p.hittingCost.getD k' []) t n ((U : Int) + 1) ((U : Int) + n) ((i : Int) + 1)
            (by omega) (by omega) y
          exact ⟨c2, c1⟩

/-- A problem whose sub slots up to `U` are `hist`: costs and loads. -/
structure Shows (S : Num.Solver) (hist : Nat → SubSlot) (d : Nat) (bounds : List ℤ) (β : List ℚ) (q : SBLO ℤ) : Prop where
  d : q.d = d
  bounds : q.bounds = bounds
  switchingCost : q.switchingCost = β
  hit : ∀ i : Nat, (i : Int) < q.tEnd → ∀ x, q.hitCost S ((i : Int) + 1) x = (divided (hist i).p (hist i).n).hitCost S (hist i).t x

theorem applyLoads_congr {T : Type} [Value T] (S : Num.Solver) (d e : Nat) (o₁ o₂ : LoadObjective T) (lambda : LoadProfile)
    (t₁ t₂ : Int) (x : Config T) (h : ∀ zs, o₁ t₁ x lambda zs = o₂ t₂ x lambda zs) :
    applyLoads S d e o₁ lambda t₁ x = applyLoads S d e o₂ lambda t₂ x := by
  have hs : solverObjective d e o₁ lambda t₁ x = solverObjective d e o₂ lambda t₂ x := by
    funext zs
    unfold solverObjective
    rw [h]
  unfold applyLoads
  rw [hs]
  simp only [h]

theorem hitCost_hist (S : Num.Solver) (hist : Nat → SubSlot) (d U : Nat) (q : SBLO ℤ) (R : Rep hist d U q.hittingCost)
    (hd : q.d = d) (i : Nat) (hi : i < U) (hp : (hist i).p.d = d) (hb : (hist i).p.bounds = q.bounds)
    (hlen : (hist i).p.hittingCost.length = d) (ht : 1 ≤ (hist i).t)
    (hl : access q.load ((i : Int) + 1) = access (hist i).p.load (hist i).t) (x : Config ℤ) :
    q.hitCost S ((i : Int) + 1) x = (divided (hist i).p (hist i).n).hitCost S (hist i).t x := by
  have hm : ∀ (xs : List ℤ) (t : Int), access (xs.map fun l => ([toQ l] : LoadProfile)) (unshiftTime t 1) =
      (access xs t).map fun l => ([toQ l] : LoadProfile) := by
    intro xs t
    unfold unshiftTime access
    rw [show t - 1 + 1 = t by omega, List.length_map]
    split
    · rw [List.getElem?_map]
    · rfl
  unfold SBLO.hitCost CostFn.callCertainWithinBounds applyLoadsOverTime
  rw [CostFn.callCertain_certain _ _ (by omega), CostFn.callCertain_certain _ _ ht]
  rw [hm, hm, show (divided (hist i).p (hist i).n).load = (hist i).p.load from rfl, ← hl,
    show (divided (hist i).p (hist i).n).bounds = q.bounds from hb,
    show (divided (hist i).p (hist i).n).d = q.d from hp.trans hd.symm]
  cases hacc : access q.load ((i : Int) + 1) with
  | none => rfl
  | some l =>
    simp only [Option.map_some]
    congr 1
    funext b
    congr 1
    apply applyLoads_congr
    intro zs
    unfold SBLO.objective
    rw [show (divided (hist i).p (hist i).n).d = q.d from hp.trans hd.symm]
    congr 1
    funext _
    congr 1
    apply List.map_congr_left
    intro k hk
    have hkd : k < d := by rw [List.mem_range] at hk; omega
    have hq : q.hittingCost[k]? = some (q.hittingCost.getD k []) := by
      rw [List.getD_eq_getElem _ _ (by have := R.1; omega)]; exact List.getElem?_eq_getElem _
    obtain ⟨_, r2⟩ := R.2 k _ hq
    obtain ⟨raw, r3, r4⟩ := r2 i hi
    have hdv : (divided (hist i).p (hist i).n).hittingCost[k]? =
        some (CostFn.new 1 (SingleCostFn.certain (partCost raw (hist i).n))) := by
      simp [divided, r3]
    unfold SBLO.dimCost
    rw [(idx_ok_iff _ _ _).2 hq, (idx_ok_iff _ _ _).2 hdv]
    simp only [bind, Except.bind]
    simp only [(r4 _).2, CostFn.callMean_certain _ _ ht]

end Bb
end Soco
