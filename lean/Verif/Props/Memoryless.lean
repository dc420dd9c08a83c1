import Verif.Lemmas.Memoryless
import Verif.Lemmas.LcpFrac
import Verif.Props.Descent3

/-! # C65: how much the memoryless algorithm costs -/

namespace Soco
namespace Descent
open Spec Num Lcp Work Mless

section
variable {C D : Type} [OutSuccess C] [OutFailure D]

/-- The decision of one slot: a point of the grid in reach, of least hitting cost. -/
structure Chosen (u β : ℚ) (f : ℚ → ℚ) (p x : ℚ) : Prop where
  nonneg : 0 ≤ x
  le : x ≤ u
  grid : OnGrid x
  reach : 2 * (β * |x - p|) ≤ f x
  best : ∀ y, 0 ≤ y → y ≤ u → OnGrid y → 2 * (β * |y - p|) ≤ f y → f x ≤ f y

/-- Every decision is `Chosen`, beginning in slot `t` at `p`. -/
def Chain (u β : ℚ) (φ : Int → ℚ → ℚ) : Int → ℚ → List ℚ → Prop
  | _, _, [] => True
  | t, p, x :: xs => Chosen u β (φ t) p x ∧ Chain u β φ (t + 1) x xs

theorem chain_run (S : Solver) (hS : Inner S) (hE : Exact S) (u β : ℚ) (hu : 0 ≤ u) (hit : Int → Config ℚ → ECost)
    (φ : Int → ℚ → ℚ) (hφ : ∀ t : Int, ∀ y, 0 ≤ y → y ≤ u → hit t [y] = ((φ t y : ℚ) : ECost))
    (hn : ∀ t : Int, ∀ y, 0 ≤ y → y ≤ u → 0 ≤ φ t y) :
    ∀ (os : List (Online (SSCO ℚ C D))) (xs : Schedule ℚ) (p : ℚ), latest 1 xs = [p] → 0 ≤ p → p ≤ u → OnGrid p →
      (∀ (i : Nat) o, os[i]? = some o → o.p.tEnd = xs.length + i + 1) →
      (∀ o ∈ os, (Usable o.p hit ∧ o.p.bounds = [u] ∧ o.w = 0) ∧ o.p.switchingCost = [β]) →
      ∃ js : List ℚ, Run (fun p : SSCO ℚ C D => p.tEnd) (memoryless S) xs none os (xs ++ js.map fun j => [j]) none ∧
        js.length = os.length ∧ Chain u β φ (xs.length + 1) p js := by
  intro os
  induction os with
  | nil =>
    intro xs p _ _ _ _ _ _
    exact ⟨[], by simpa using Run.nil _ _, rfl, trivial⟩
  | cons o os ih =>
    intro xs p hprev hp0 hp1 hp2 ht ho
    obtain ⟨⟨hp, hb, hw⟩, hβ⟩ := ho o (by simp)
    have hT : o.p.tEnd = (xs.length : Int) + 1 := by simpa using ht 0 o rfl
    obtain ⟨x, h1, h2, h3, h4, h5⟩ := C50_memoryless S hS o hw u β hb hβ hit hp (by omega) xs p hprev
    obtain ⟨h6, h7⟩ := h5 hE ⟨p, hp0, hp1, hp2, by
      rw [hφ _ p hp0 hp1, WithTop.coe_le_coe]; simpa using hn _ p hp0 hp1⟩
    rw [hφ _ x h2 h3, WithTop.coe_le_coe] at h6
    obtain ⟨js, j1, j2, j3⟩ := ih (xs ++ [[x]]) x (by simp [latest]) h2 h3 h4 (by
      intro i o' hi
      have := ht (i + 1) o' (by simpa using hi)
      rw [this]; simp; ring) (fun o' ho' => ho o' (by simp [ho']))
    refine ⟨x :: js, ?_, by simp [j2], ⟨h2, h3, h4, ?_, ?_⟩, ?_⟩
    · refine .step xs none o os [x] none _ none hT ?_ (by simpa using j1)
      rw [hT] at h1
      exact h1
    · rw [← hT]; exact h6
    · intro y y0 y1 y2 y3
      have := h7 y y0 y1 y2 (by rw [hφ _ y y0 y1, WithTop.coe_le_coe, hT]; exact y3)
      rw [hφ _ x h2 h3, hφ _ y y0 y1, WithTop.coe_le_coe, hT] at this
      exact this
    · simpa using j3

/-- Costs as a rational. -/
def costQ (φ : Int → ℚ → ℚ) (β : ℚ) : Int → ℚ → List ℚ → ℚ
  | _, _, [] => 0
  | t, p, x :: xs => φ t x + β * max 0 (x - p) + costQ φ β (t + 1) x xs

theorem totalCost_costQ (hit : Int → Config ℚ → ECost) (φ : Int → ℚ → ℚ) (u β : ℚ)
    (hφ : ∀ t : Int, ∀ y, 0 ≤ y → y ≤ u → hit t [y] = ((φ t y : ℚ) : ECost)) :
    ∀ (js : List ℚ) (t : Int) (p : ℚ), (∀ j ∈ js, 0 ≤ j ∧ j ≤ u) →
      totalCost (fun t j => hit t [j]) (mvQ β false) 1 t p js = ((costQ φ β t p js : ℚ) : ECost)
  | [], _, _, _ => rfl
  | x :: xs, t, p, h => by
    have hx := h x (by simp)
    rw [totalCost, totalCost_costQ hit φ u β hφ xs _ _ (fun j hj => h j (by simp [hj])), hφ t x hx.1 hx.2]
    simp only [costQ, mvQ, up, one_mul, Bool.false_eq_true, if_false]
    norm_cast

theorem objective_costQ (hit : Int → Config ℚ → ECost) (φ : Int → ℚ → ℚ) (u β : ℚ)
    (hφ : ∀ t : Int, ∀ y, 0 ≤ y → y ≤ u → hit t [y] = ((φ t y : ℚ) : ECost)) (p : SSCO ℚ C D) (hp : Usable p hit)
    (hb : p.bounds = [u]) (hβ : p.switchingCost = [β]) (js : List ℚ) (hl : p.tEnd = js.length)
    (hj : ∀ j ∈ js, 0 ≤ j ∧ j ≤ u) :
    ∃ o, p.toProb.objective (js.map fun j => [j]) = .ok ⟨((costQ φ β 1 0 js : ℚ) : ECost), o⟩ := by
  obtain ⟨o, ho⟩ := objective_oneQ (p := p) hβ (Q := fun j => 0 ≤ j ∧ j ≤ u) (g := fun t j => hit t [j]) 1 false 0 js
    (le_of_eq hl.symm) (fun t h1 h2 j hj => ssco_hitCost hp t h1 (by omega) [j] (by rw [hb]; exact .cons hj .nil)) hj
  refine ⟨o, ?_⟩
  have hd : p.toProb.defaultConfig = [0] := by
    simp [Prob.defaultConfig, SSCO.toProb, hp.dim, hb, Config.repeat]
  rw [totalCost_costQ hit φ u β hφ js 1 0 hj] at ho
  rw [Prob.objective, hd, ← ho]
  rw [← hl]; rfl

/-- Amortised costs of a run. -/
theorem amortised (u L β : ℚ) (hβ : 0 ≤ β) (hL : 0 ≤ L) (φ : Int → ℚ → ℚ) :
    ∀ (js : List ℚ) (t : Int) (p q : ℚ) (zs : List ℚ), 0 ≤ p → p ≤ u → OnGrid p → Chain u β φ t p js →
      (∀ s : Int, t ≤ s → s < t + js.length → Moderate 0 u L (φ s)) →
      zs.length = js.length → (∀ z ∈ zs, 0 ≤ z ∧ z ≤ u) →
      costQ φ β t p js - β / 2 * (js.getLastD p - p) + 5 * (β / 2) * (|js.getLastD p - zs.getLastD q| - |p - q|)
        ≤ 5 * (costQ φ β t q zs - β / 2 * (zs.getLastD q - q)) + js.length * ((5 * β + 5 / 2 * L) / 100)
  | [], t, p, q, zs, _, _, _, _, _, hl, _ => by
    obtain rfl := List.length_eq_zero_iff.1 hl
    simp [costQ]
  | x :: js, t, p, q, [], _, _, _, _, _, hl, _ => by simp at hl
  | x :: js, t, p, q, z :: zs, p0, p1, p2, hc, hg, hl, hz => by
    obtain ⟨hx, hc⟩ := hc
    have hz' := hz z (by simp)
    have ih := amortised u L β hβ hL φ js (t + 1) x z zs hx.nonneg hx.le hx.grid hc
      (fun s a b => hg s (by omega) (by simp only [List.length_cons]; push_cast; omega)) (by simpa using hl) (fun y hy => hz y (by simp [hy]))
    have st := step (Fn.of_gentle (hg t le_rfl (by simp))) hβ hL p2 hx.grid p0 p1 hx.nonneg hx.le hz'.1 hz'.2
      hx.reach hx.best
    have tri : |p - z| ≤ |p - q| + |z - q| := by
      have := abs_sub_le p q z
      rwa [abs_sub_comm q z] at this
    have m1 : max 0 (x - p) = 1 / 2 * |x - p| + 1 / 2 * (x - p) := by
      rcases le_total 0 (x - p) with h | h
      · rw [max_eq_right h, abs_of_nonneg h]; ring
      · rw [max_eq_left h, abs_of_nonpos h]; ring
    have m2 : max 0 (z - q) = 1 / 2 * |z - q| + 1 / 2 * (z - q) := by
      rcases le_total 0 (z - q) with h | h
      · rw [max_eq_right h, abs_of_nonneg h]; ring
      · rw [max_eq_left h, abs_of_nonpos h]; ring
    have l1 : (x :: js).getLastD p = js.getLastD x := by cases js <;> rfl
    have l2 : (z :: zs).getLastD q = zs.getLastD z := by cases zs <;> rfl
    simp only [costQ, l1, l2, m1, m2, List.length_cons]
    push_cast
    have := mul_le_mul_of_nonneg_left tri hβ
    linarith

/-- **C65** (what holds instead). With an exact optimiser, for convex hitting costs which change by at most `L` per unit,
the memoryless algorithm never fails, and the cost of its schedule is at most five times the cost of any other schedule,
plus an error of at most `(5 β + 5/2 L) / 100` per slot, which is due to the numeric precision of `1/100`. -/
theorem C65_competitive_partial (S : Solver) (hS : Inner S) (hE : Exact S) (u β L : ℚ) (hu : 0 ≤ u) (hβ : 0 ≤ β) (hL : 0 ≤ L)
    (hit : Int → Config ℚ → ECost) (φ : Int → ℚ → ℚ)
    (hφ : ∀ t : Int, ∀ y, 0 ≤ y → y ≤ u → hit t [y] = ((φ t y : ℚ) : ECost)) (hg : ∀ t : Int, Moderate 0 u L (φ t))
    (os : List (Online (SSCO ℚ C D))) (h : Shown [u] 0 hit os) (hos : ∀ o ∈ os, o.p.switchingCost = [β]) :
    ∃ ys, Run (fun p : SSCO ℚ C D => p.tEnd) (memoryless S) [] none os ys none ∧ ys.length = os.length ∧
      (∀ y ∈ ys, InBox [u] y) ∧
      ∀ o, os.getLast? = some o → ∃ c, o.p.toProb.objective ys = .ok c ∧
        ∀ zs : Schedule ℚ, zs.length = os.length → (∀ z ∈ zs, InBox [u] z) → ∃ c', o.p.toProb.objective zs = .ok c' ∧
          ∃ a b : ℚ, c.cost = (a : ECost) ∧ c'.cost = (b : ECost) ∧
            a ≤ 5 * b + os.length * ((5 * β + 5 / 2 * L) / 100) := by
  obtain ⟨js, j1, j2, j3⟩ := chain_run S hS hE u β hu hit φ hφ (fun t y a b => (hg t).nonneg y a b) os [] 0 rfl le_rfl hu
    ⟨0, by simp⟩ (by simpa using h.slot) (fun o ho => ⟨by simpa using h.usable o ho, hos o ho⟩)
  simp only [List.nil_append, List.length_nil, Nat.cast_zero, zero_add] at j1 j3
  have hjs : ∀ (js : List ℚ) (t : Int) (p : ℚ), Chain u β φ t p js → ∀ j ∈ js, 0 ≤ j ∧ j ≤ u := by
    intro js
    induction js with
    | nil => simp
    | cons x xs ih =>
      intro t p hc j hj
      rcases List.mem_cons.1 hj with rfl | hj
      · exact ⟨hc.1.nonneg, hc.1.le⟩
      · exact ih _ _ hc.2 j hj
  have hj := hjs js 1 0 j3
  refine ⟨_, j1, by simpa using j2, ?_, ?_⟩
  · intro y hy
    obtain ⟨j, hj', rfl⟩ := List.mem_map.1 hy
    exact .cons (hj j hj') .nil
  · intro o ho
    have hmem := List.mem_of_getLast? ho
    have hT : o.p.tEnd = os.length := by
      rw [List.getLast?_eq_getElem?] at ho
      have := h.slot _ o ho
      have hpos : 0 < os.length := List.length_pos_of_mem hmem
      omega
    obtain ⟨h1, h2, -⟩ := h.usable o hmem
    obtain ⟨c, hc⟩ := objective_costQ hit φ u β hφ o.p h1 h2 (hos o hmem) js (by rw [hT, j2]) hj
    refine ⟨_, hc, fun zs z1 z2 => ?_⟩
    obtain ⟨ks, rfl, hk⟩ : ∃ ks : List ℚ, zs = ks.map (fun j => [j]) ∧ ∀ k ∈ ks, 0 ≤ k ∧ k ≤ u := by
      clear z1
      induction zs with
      | nil => exact ⟨[], rfl, by simp⟩
      | cons z zs ih =>
        obtain ⟨ks, e, hk⟩ := ih (fun y hy => z2 y (by simp [hy]))
        have hz := z2 z (by simp)
        cases hz with
        | cons a b =>
          cases b
          refine ⟨_ :: ks, by rw [e]; rfl, ?_⟩
          intro k hk'
          rcases List.mem_cons.1 hk' with rfl | hk'
          · exact a
          · exact hk k hk'
    obtain ⟨c', hc'⟩ := objective_costQ hit φ u β hφ o.p h1 h2 (hos o hmem) ks (by rw [hT]; simpa using z1.symm) hk
    refine ⟨_, hc', _, _, rfl, rfl, ?_⟩
    have am := amortised u L β hβ hL φ js 1 0 0 ks le_rfl hu ⟨0, by simp⟩ j3 (fun s _ _ => hg s) (by
      rw [j2]; simpa using z1) hk
    have hlast : 0 ≤ ks.getLastD 0 := by
      cases ks using List.reverseRecOn with
      | nil => exact le_rfl
      | append_singleton l y => simpa using (hk y (by simp)).1
    have hx := le_abs_self (js.getLastD 0 - ks.getLastD 0)
    rw [← j2]
    simp only [sub_self, abs_zero, sub_zero] at am
    have m1 := mul_le_mul_of_nonneg_left hx hβ
    have m2 := mul_nonneg hβ (abs_nonneg (js.getLastD 0 - ks.getLastD 0))
    have m3 := mul_nonneg hβ hlast
    nlinarith

end

/-! ## Examples -/

namespace MlessEx

/-- Slot `t` of a one-dimensional instance with hitting costs `φ`, bound 1 and switching cost 1. -/
def inst (φ : Int → ℚ → ℚ) (t : Nat) : Online (SSCO ℚ Unit Unit) where
  p :=
    { d := 1, tEnd := t, bounds := [1], switchingCost := [1]
      hittingCost := CostFn.new 1 (SingleCostFn.certain fun t x => .ok (Cost.raw ((φ t (x.headD 0) : ℚ) : ECost))) }
  w := 0

/-- The history of `n` slots. -/
def hist (φ : Int → ℚ → ℚ) (n : Nat) : List (Online (SSCO ℚ Unit Unit)) := (List.range n).map fun i : Nat => inst φ (i + 1)

theorem shown (φ : Int → ℚ → ℚ) (n : Nat) : Shown [1] 0 (fun t x => ((φ t (x.headD 0) : ℚ) : ECost)) (hist φ n) where
  slot := by
    intro i o h
    simp only [hist, List.getElem?_map, Option.map_eq_some_iff] at h
    obtain ⟨j, h1, rfl⟩ := h
    have : j = i := by
      obtain ⟨_, h3⟩ := List.getElem?_eq_some_iff.1 h1
      simpa using h3.symm
    subst this
    simp [inst]
  usable := by
    intro o ho
    simp only [hist, List.mem_map] at ho
    obtain ⟨i, _, rfl⟩ := ho
    refine ⟨⟨rfl, rfl, ?_, ?_, ?_⟩, rfl, rfl⟩
    · intro u hu
      simp only [inst, List.mem_singleton] at hu
      subst hu
      exact ⟨by norm_num, 100, by norm_num⟩
    · intro s hs _ x r h
      rw [inst, CostFn.callPredictive_certain _ _ hs] at h
      simp only [Except.map, Except.ok.injEq] at h
      rw [← h]; rfl
    · intro s hs _ x _
      exact ⟨.success (), by rw [inst, CostFn.callMean_certain _ _ hs]; rfl⟩

theorem moves (φ : Int → ℚ → ℚ) (n : Nat) : ∀ o ∈ hist φ n, o.p.switchingCost = [1] := by
  intro o ho
  simp only [hist, List.mem_map] at ho
  obtain ⟨i, _, rfl⟩ := ho
  rfl

theorem last (φ : Int → ℚ → ℚ) (n : Nat) : (hist φ (n + 1)).getLast? = some (inst φ (n + 1)) := by
  rw [hist, List.range_succ, List.map_append]
  simp

theorem usable (φ : Int → ℚ → ℚ) (n : Nat) : Usable (inst φ (n + 1)).p (fun t x => ((φ t (x.headD 0) : ℚ) : ECost)) :=
  ((shown φ (n + 1)).usable _ (List.mem_of_getLast? (last φ n))).1

/-- Hitting costs `(1 - y) / 1000` in every slot. -/
def flat (_ : Int) (y : ℚ) : ℚ := (1 - y) / 1000

theorem flat_gentle (t : Int) : Moderate 0 1 (1 / 1000) (flat t) where
  nonneg x _ h := div_nonneg (by linarith) (by norm_num)
  convex x y _ _ _ _ a _ _ := by simp only [flat]; linarith
  slope x y _ _ _ _ := by
    rw [flat, flat, ← sub_div, abs_div, show (1 : ℚ) - x - (1 - y) = -(x - y) by ring, abs_neg,
      abs_of_pos (by norm_num : (0 : ℚ) < 1000)]
    linarith

/-- Non-vacuity of `C65_competitive_partial`: histories of every length. -/
example : ∃ S : Solver, Inner S ∧ Exact S ∧ ∀ n : Nat, ∃ ys,
    Run (fun p : SSCO ℚ Unit Unit => p.tEnd) (memoryless S) [] none (hist flat n) ys none := by
  obtain ⟨S, h1, h2⟩ := exists_exact
  refine ⟨S, h2, h1, fun n => ?_⟩
  obtain ⟨ys, h, -⟩ := C65_competitive_partial S h2 h1 1 1 (1 / 1000) (by norm_num) (by norm_num) (by norm_num) _ flat
    (fun _ _ _ _ => rfl) flat_gentle _ (shown flat n) (moves flat n)
  exact ⟨ys, h⟩

end MlessEx

open MlessEx

/-- **C65** is false of the code: because of the numeric precision there is no competitive ratio. With hitting costs
`(1 - y) / 1000`, bound 1 and switching cost 1, and any exact optimiser, the algorithm stays at zero for ever, so that its
costs exceed every `K`, while moving to 1 at once costs 1. -/
theorem C65_precision_counterexample (S : Solver) (hS : Inner S) (hE : Exact S) (K : ℚ) :
    ∃ (n : Nat) (ys zs : Schedule ℚ) (c c' : Cost Unit Unit),
      Run (fun p : SSCO ℚ Unit Unit => p.tEnd) (memoryless S) [] none (hist flat (n + 1)) ys none ∧
      (inst flat (n + 1)).p.toProb.objective ys = .ok c ∧ ((K : ℚ) : ECost) ≤ c.cost ∧
      zs.length = n + 1 ∧ (∀ z ∈ zs, InBox [1] z) ∧ (inst flat (n + 1)).p.toProb.objective zs = .ok c' ∧
      c'.cost = ((1 : ℚ) : ECost) := by
  obtain ⟨n, hn⟩ : ∃ n : Nat, 1000 * K ≤ n := ⟨⌈1000 * K⌉.toNat, (Int.le_ceil _).trans (by exact_mod_cast Int.self_le_toNat _)⟩
  obtain ⟨js, j1, j2, j3⟩ := chain_run S hS hE 1 1 zero_le_one _ flat (fun _ _ _ _ => rfl)
    (fun t y a b => (flat_gentle t).nonneg y a b) (hist flat (n + 1)) [] 0 rfl le_rfl zero_le_one ⟨0, by simp⟩
    (by simpa using (shown flat (n + 1)).slot)
    (fun o ho => ⟨by simpa using (shown flat (n + 1)).usable o ho, moves flat (n + 1) o ho⟩)
  simp only [List.nil_append] at j1 j3
  have hstay : ∀ (js : List ℚ) (t : Int), Chain 1 1 flat t 0 js →
      (∀ j ∈ js, 0 ≤ j ∧ j ≤ 1) ∧ costQ flat 1 t 0 js = js.length / 1000 := by
    intro js
    induction js with
    | nil => intro t _; simp [costQ]
    | cons x xs ih =>
      intro t ⟨hx, hc⟩
      obtain rfl : x = 0 := by
        obtain ⟨z, hz⟩ := hx.grid
        have h1 := hx.reach
        have h0 := hx.nonneg
        rw [sub_zero, abs_of_nonneg h0, flat] at h1
        have : (z : ℚ) < 1 := by
          rw [hz] at h1; linarith
        have h2 : z < 1 := by exact_mod_cast this
        have h3 : (0 : ℚ) ≤ z := by rw [hz] at h0; linarith
        have h4 : 0 ≤ z := by exact_mod_cast h3
        obtain rfl : z = 0 := by omega
        simpa using hz
      obtain ⟨a, b⟩ := ih _ hc
      refine ⟨fun j hj => ?_, ?_⟩
      · rcases List.mem_cons.1 hj with rfl | hj
        · exact ⟨le_rfl, zero_le_one⟩
        · exact a j hj
      · rw [costQ, b, flat]; simp; ring
  obtain ⟨hj, hcost⟩ := hstay js _ j3
  have hlen : js.length = n + 1 := by rw [j2]; simp [hist]
  obtain ⟨o, ho⟩ := objective_costQ _ flat 1 1 (fun _ _ _ _ => rfl) (inst flat (n + 1)).p (usable flat n) rfl rfl js
    (by rw [hlen]; rfl) hj
  have hone : ∀ (m : Nat) (t : Int), costQ flat 1 t 1 (List.replicate m 1) = 0 := by
    intro m
    induction m with
    | zero => intro t; rfl
    | succ m ih => intro t; rw [List.replicate_succ, costQ, ih, flat]; norm_num
  obtain ⟨o', ho'⟩ := objective_costQ _ flat 1 1 (fun _ _ _ _ => rfl) (inst flat (n + 1)).p (usable flat n) rfl rfl
    (List.replicate (n + 1) 1) (by simp [inst]) (by
      intro j hj
      rw [List.eq_of_mem_replicate hj]; exact ⟨zero_le_one, le_rfl⟩)
  refine ⟨n, _, _, _, _, j1, ho, ?_, by simp, ?_, ho', ?_⟩
  · rw [WithTop.coe_le_coe]
    have e := hcost
    simp only [List.length_nil, Nat.cast_zero, zero_add] at e
    rw [e, hlen]
    push_cast
    linarith
  · intro z hz
    obtain ⟨j, hj, rfl⟩ := List.mem_map.1 hz
    rw [List.eq_of_mem_replicate hj]
    exact .cons ⟨zero_le_one, le_rfl⟩ .nil
  · rw [List.replicate_succ, costQ, hone, flat]; norm_num

namespace MlessEx

/-- Hitting costs which lead the algorithm in steps of `1/5` up to `4/5` and back to `1/5`. -/
def swing (t : Int) (y : ℚ) : ℚ := if t ≤ 4 then 2 / (5 - t) * (1 - y) else if t ≤ 7 then 2 / (8 - t) * y else 0

end MlessEx

/-- **C65** is false of the code also where the precision plays no role: movements are paid for one way, but the algorithm
balances as if they were paid for both ways. In this instance of seven slots it moves in steps of `1/5` and pays 18/5 in
total, while moving to 1 and later back to 0 costs 1. -/
theorem C65_balance_counterexample (S : Solver) (hS : Inner S) (hE : Exact S) :
    ∃ (zs : Schedule ℚ) (c c' : Cost Unit Unit),
      Run (fun p : SSCO ℚ Unit Unit => p.tEnd) (memoryless S) [] none (hist swing 7)
        [[1 / 5], [2 / 5], [3 / 5], [4 / 5], [3 / 5], [2 / 5], [1 / 5]] none ∧
      (inst swing 7).p.toProb.objective [[1 / 5], [2 / 5], [3 / 5], [4 / 5], [3 / 5], [2 / 5], [1 / 5]] = .ok c ∧
      c.cost = ((18 / 5 : ℚ) : ECost) ∧
      zs.length = 7 ∧ (∀ z ∈ zs, InBox [1] z) ∧ (inst swing 7).p.toProb.objective zs = .ok c' ∧
      c'.cost = ((1 : ℚ) : ECost) := by
  have hnn : ∀ t : Int, ∀ y : ℚ, 0 ≤ y → y ≤ 1 → 0 ≤ swing t y := by
    intro t y y0 y1
    unfold swing
    split_ifs with h1 h2
    · have : (t : ℚ) ≤ 4 := by exact_mod_cast h1
      exact mul_nonneg (div_nonneg (by norm_num) (by linarith)) (by linarith)
    · have : (t : ℚ) ≤ 7 := by exact_mod_cast h2
      exact mul_nonneg (div_nonneg (by norm_num) (by linarith)) y0
    · exact le_rfl
  obtain ⟨js, j1, j2, j3⟩ := chain_run S hS hE 1 1 zero_le_one _ swing (fun _ _ _ _ => rfl) hnn (hist swing 7) [] 0 rfl le_rfl
    zero_le_one ⟨0, by simp⟩ (by simpa using (shown swing 7).slot)
    (fun o ho => ⟨by simpa using (shown swing 7).usable o ho, moves swing 7 o ho⟩)
  simp only [List.nil_append, List.length_nil, Nat.cast_zero, zero_add] at j1 j3
  have hlen : js.length = 7 := by rw [j2]; simp [hist]
  have hup : ∀ (f : ℚ → ℚ) (s p x q : ℚ), (∀ y, f y = s * (1 - y)) → 0 < s → Chosen 1 1 f p x → p ≤ q → 0 ≤ q → q ≤ 1 →
      OnGrid q → 2 * (q - p) = s * (1 - q) → x = q := by
    intro f s p x q hf hs hx h1 h0 h2 h3 h4
    have b := hx.best q h0 h2 h3 (by rw [abs_of_nonneg (by linarith), hf, one_mul, h4])
    rw [hf, hf] at b
    have hle : q ≤ x := by
      by_contra hc
      push Not at hc
      nlinarith
    have r := hx.reach
    rw [abs_of_nonneg (by linarith), hf] at r
    nlinarith
  have hdown : ∀ (f : ℚ → ℚ) (s p x q : ℚ), (∀ y, f y = s * y) → 0 < s → Chosen 1 1 f p x → q ≤ p → 0 ≤ q → q ≤ 1 →
      OnGrid q → 2 * (p - q) = s * q → x = q := by
    intro f s p x q hf hs hx h1 h0 h2 h3 h4
    have b := hx.best q h0 h2 h3 (by rw [abs_of_nonpos (by linarith), hf]; linarith)
    rw [hf, hf] at b
    have hle : x ≤ q := by
      by_contra hc
      push Not at hc
      nlinarith
    have r := hx.reach
    rw [abs_of_nonpos (by linarith), hf] at r
    nlinarith
  have hjs : js = [1 / 5, 2 / 5, 3 / 5, 4 / 5, 3 / 5, 2 / 5, 1 / 5] := by
    match js, hlen, j3 with
    | [a, b, c, d, e, f, g], _, ⟨ha, hb, hc, hd, he, hf, hg, _⟩ =>
      obtain rfl := hup _ (1 / 2) _ _ (1 / 5) (fun y => by simp only [swing]; norm_num) (by norm_num) ha (by norm_num) (by norm_num)
        (by norm_num) ⟨20, by norm_num⟩ (by norm_num)
      obtain rfl := hup _ (2 / 3) _ _ (2 / 5) (fun y => by simp only [swing]; norm_num) (by norm_num) hb (by norm_num) (by norm_num)
        (by norm_num) ⟨40, by norm_num⟩ (by norm_num)
      obtain rfl := hup _ 1 _ _ (3 / 5) (fun y => by simp only [swing]; norm_num) (by norm_num) hc (by norm_num) (by norm_num)
        (by norm_num) ⟨60, by norm_num⟩ (by norm_num)
      obtain rfl := hup _ 2 _ _ (4 / 5) (fun y => by simp only [swing]; norm_num) (by norm_num) hd (by norm_num) (by norm_num)
        (by norm_num) ⟨80, by norm_num⟩ (by norm_num)
      obtain rfl := hdown _ (2 / 3) _ _ (3 / 5) (fun y => by simp only [swing]; norm_num) (by norm_num) he (by norm_num) (by norm_num)
        (by norm_num) ⟨60, by norm_num⟩ (by norm_num)
      obtain rfl := hdown _ 1 _ _ (2 / 5) (fun y => by simp only [swing]; norm_num) (by norm_num) hf (by norm_num) (by norm_num)
        (by norm_num) ⟨40, by norm_num⟩ (by norm_num)
      obtain rfl := hdown _ 2 _ _ (1 / 5) (fun y => by simp only [swing]; norm_num) (by norm_num) hg (by norm_num) (by norm_num)
        (by norm_num) ⟨20, by norm_num⟩ (by norm_num)
      rfl
  subst hjs
  obtain ⟨o, ho⟩ := objective_costQ _ swing 1 1 (fun _ _ _ _ => rfl) (inst swing 7).p (usable swing 6) rfl rfl _ rfl
    (by norm_num : ∀ j ∈ [(1 : ℚ) / 5, 2 / 5, 3 / 5, 4 / 5, 3 / 5, 2 / 5, 1 / 5], 0 ≤ j ∧ j ≤ 1)
  obtain ⟨o', ho'⟩ := objective_costQ _ swing 1 1 (fun _ _ _ _ => rfl) (inst swing 7).p (usable swing 6) rfl rfl _ rfl
    (by norm_num : ∀ j ∈ [(1 : ℚ), 1, 1, 1, 0, 0, 0], 0 ≤ j ∧ j ≤ 1)
  refine ⟨_, _, _, j1, ho, ?_, rfl, ?_, ho', ?_⟩
  · simp only [costQ, swing]; norm_num
  · intro z hz
    obtain ⟨j, hj, rfl⟩ := List.mem_map.1 hz
    exact .cons ((by norm_num : ∀ j ∈ [(1 : ℚ), 1, 1, 1, 0, 0, 0], 0 ≤ j ∧ j ≤ 1) j hj) .nil
  · simp only [costQ, swing]; norm_num

end Descent
end Soco
