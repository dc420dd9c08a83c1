import Verif.Props.Twins

/-!
# C137: better servers first
-/

namespace Soco
namespace Spec

/-- The servers of the first type of `q`, of which there are `m`, are at least as good as those of the second type, of which there are
`n`: they start at the same cost, and using one of them in place of one of the second type does not make any slot dearer. -/
structure BetterFirst {C D : Type} (m n : ℤ) (q : SSCO ℤ C D) (hit : Int → Config ℤ → ECost) : Prop where
  bounds : ∃ bs, q.bounds = m :: n :: bs
  switching : ∃ b β, q.switchingCost = b :: b :: β
  better : ∀ t : Int, 1 ≤ t → t ≤ q.tEnd → ∀ i j x, InBox q.bounds (i :: (j + 1) :: x) → i < m → 0 ≤ j →
    hit t ((i + 1) :: j :: x) ≤ hit t (i :: (j + 1) :: x)

/-- As many servers in total, the first type first. -/
def packed (m : ℤ) (x : Config ℤ) : Config ℤ := dividedAt m (joined x)

/-- The second type is used only if all servers of the first are active. -/
def FirstFirst (m : ℤ) : Config ℤ → Prop
  | i :: j :: _ => 0 < j → i = m
  | _ => True

end Spec

variable {C D : Type} [OutSuccess C] [OutFailure D]

namespace Better
open Spec Periods Twins

theorem exchange {m n : ℤ} {bs : List ℤ} {g : Config ℤ → ECost}
    (h : ∀ i j x, InBox (m :: n :: bs) (i :: (j + 1) :: x) → i < m → 0 ≤ j → g ((i + 1) :: j :: x) ≤ g (i :: (j + 1) :: x)) :
    ∀ (k : Nat) (i j : ℤ) (x : Config ℤ), InBox (m :: n :: bs) (i :: j :: x) → i + k ≤ m → 0 ≤ j - k →
      g ((i + k) :: (j - k) :: x) ≤ g (i :: j :: x) := by
  intro k
  induction k with
  | zero => intro i j x _ _ _; simp
  | succ k ih =>
    intro i j x hb h1 h2
    push_cast at h1 h2
    match hb with
    | .cons ⟨b0, b1⟩ (.cons ⟨b2, b3⟩ hx) =>
      have e1 := ih i j x hb (by omega) (by omega)
      have e2 := h (i + k) (j - k - 1) x (.cons ⟨by omega, by omega⟩ (.cons ⟨by omega, by omega⟩ hx)) (by omega) (by omega)
      rw [sub_add_cancel] at e2
      refine le_trans (le_of_eq ?_) (e2.trans e1)
      congr 2
      · push_cast; ring
      · congr 1
        push_cast; ring

theorem hit_packed {m n : ℤ} {bs : List ℤ} {g : Config ℤ → ECost}
    (h : ∀ i j x, InBox (m :: n :: bs) (i :: (j + 1) :: x) → i < m → 0 ≤ j → g ((i + 1) :: j :: x) ≤ g (i :: (j + 1) :: x))
    {y : Config ℤ} (hy : InBox (m :: n :: bs) y) : g (packed m y) ≤ g y := by
  match y, hy with
  | i :: j :: x, hy@(.cons ⟨b0, b1⟩ (.cons ⟨b2, b3⟩ hx)) =>
    have := exchange h (min (i + j) m - i).toNat i j x hy (by omega) (by omega)
    refine le_trans (le_of_eq ?_) this
    unfold packed
    simp only [joined, dividedAt]
    congr 2
    · omega
    · congr 1
      omega

theorem in_packed {m n : ℤ} (hm : 0 ≤ m) (hn : 0 ≤ n) {bs : List ℤ} {y : Config ℤ} (hy : InBox (m :: n :: bs) y) :
    InBox (m :: n :: bs) (packed m y) := in_divided hm hn (in_joined hy)

theorem first_packed {m n : ℤ} {bs : List ℤ} {y : Config ℤ} (hy : InBox (m :: n :: bs) y) : FirstFirst m (packed m y) := by
  match y, hy with
  | i :: j :: x, .cons ⟨b0, b1⟩ (.cons ⟨b2, b3⟩ hx) =>
    unfold packed
    simp only [joined, dividedAt, FirstFirst]
    omega

theorem cost_packed {b : ℚ} (hb : 0 ≤ b) (β : List ℚ) {α : ℚ} (hα : 0 ≤ α) {m n : ℤ} {bs : List ℤ} {T : Int} {hit : Int → Config ℤ → ECost}
    (hs : ∀ t : Int, 1 ≤ t → t ≤ T → ∀ i j x, InBox (m :: n :: bs) (i :: (j + 1) :: x) → i < m → 0 ≤ j →
      hit t ((i + 1) :: j :: x) ≤ hit t (i :: (j + 1) :: x)) :
    ∀ (ys : Schedule ℤ) (t : Int) (i j : ℤ) (x : Config ℤ), 1 ≤ t → t + ys.length ≤ T + 1 → (∀ y ∈ ys, InBox (m :: n :: bs) y) →
      totalCost hit (upCost (b :: b :: β)) α t (packed m (i :: j :: x)) (ys.map (packed m)) ≤
        totalCost hit (upCost (b :: b :: β)) α t (i :: j :: x) ys := by
  intro ys
  induction ys with
  | nil => intro t i j x _ _ _; exact le_rfl
  | cons y ys ih =>
    intro t i j x h1 h2 h3
    simp only [List.length_cons] at h2
    push_cast at h2
    have hy := h3 y (by simp)
    have hh := hit_packed (hs t h1 (by omega)) hy
    match y, hy, hh with
    | i' :: j' :: y, hy, hh =>
      have := ih (t + 1) i' j' y (by omega) (by omega) fun z hz => h3 z (List.mem_cons_of_mem _ hz)
      simp only [List.map_cons, totalCost]
      refine add_le_add (add_le_add hh (WithTop.coe_le_coe.2 (mul_le_mul_of_nonneg_left ?_ hα))) this
      unfold packed
      simp only [joined, dividedAt]
      rw [up_divided]
      exact up_joined hb β i j i' j' x y

end Better

open Better Periods Twins in
/-- **C137** Using the better of two types of servers first makes no plan dearer. -/
theorem C137_plans (m n : ℤ) (q : SSCO ℤ C D) (hit : Int → Config ℤ → ECost) (W : Spec.BetterFirst m n q hit)
    (hv : q.verify = .ok ()) (H : Spec.Hits q hit) (α : ℚ) (hα : 0 ≤ α) (ys : Schedule ℤ) (hl : (ys.length : Int) = q.tEnd)
    (hy : ∀ y ∈ ys, Spec.InBox q.bounds y) :
    (∀ y ∈ ys.map (Spec.packed m), Spec.InBox q.bounds y ∧ Spec.FirstFirst m y) ∧
    ∃ c c', q.toProb.alphaUnfairObjective ys α = .ok c ∧ q.toProb.alphaUnfairObjective (ys.map (Spec.packed m)) α = .ok c' ∧
      c'.cost ≤ c.cost := by
  obtain ⟨bs, e2⟩ := W.bounds
  obtain ⟨b, β, e4⟩ := W.switching
  have hv' := valid_of hv
  have hm : 0 ≤ m := (hv'.2.2.2.2.1 m (by rw [e2]; simp)).le
  have hn : 0 ≤ n := (hv'.2.2.2.2.1 n (by rw [e2]; simp)).le
  have hb : 0 ≤ b := (hv'.2.2.2.2.2 b (by rw [e4]; simp)).le
  obtain ⟨k, k2⟩ : ∃ k, q.d.toNat = k + 2 := by
    have h1 := hv'.2.2.1
    rw [e2] at h1
    simp only [List.length_cons] at h1
    exact ⟨bs.length, by omega⟩
  have hin : ∀ y ∈ ys.map (Spec.packed m), Spec.InBox q.bounds y ∧ Spec.FirstFirst m y := by
    intro x h
    obtain ⟨y, hy', rfl⟩ := List.mem_map.1 h
    rw [e2]
    exact ⟨in_packed hm hn (e2 ▸ hy y hy'), first_packed (e2 ▸ hy y hy')⟩
  obtain ⟨o1, h1⟩ := objective_total hv H α ys hl hy
  obtain ⟨o2, h2⟩ := objective_total hv H α (ys.map (Spec.packed m)) (by rw [List.length_map, hl]) fun y h => (hin y h).1
  refine ⟨hin, _, _, h1, h2, ?_⟩
  have := cost_packed hb β hα (T := q.tEnd) (hit := hit) (fun t t1 t2 i j x h => W.better t t1 t2 i j x (e2 ▸ h)) ys 1 0 0
    (List.replicate k 0) le_rfl (by omega) (e2 ▸ hy)
  have e : Spec.packed m (0 :: 0 :: List.replicate k 0) = 0 :: 0 :: List.replicate k 0 := by
    unfold Spec.packed
    simp only [Spec.joined, Spec.dividedAt, add_zero, min_eq_left hm, sub_zero]
  rw [e] at this
  show Spec.totalCost _ _ _ _ _ _ ≤ Spec.totalCost _ _ _ _ _ _
  rw [e4, k2, List.replicate_succ, List.replicate_succ]
  exact this

/-- **C137** There is a cheapest plan that uses the better type first: rearrange the plan of the optimal search. -/
theorem C137_optimum (m n : ℤ) (q : SSCO ℤ C D) (hit : Int → Config ℤ → ECost) (W : Spec.BetterFirst m n q hit)
    (hv : q.verify = .ok ()) (hT : 1 ≤ q.tEnd) (H : Spec.Hits q hit) (o : OfflineOptions) (hl : o.l = none) (hα : 0 ≤ o.alpha) :
    ∃ r out, Multi.optimalGraphSearch q none o = .ok r ∧
      (∀ y ∈ r.path.xs.map (Spec.packed m), Spec.InBox q.bounds y ∧ Spec.FirstFirst m y) ∧
      q.toProb.alphaUnfairObjective (r.path.xs.map (Spec.packed m)) o.alpha = .ok ⟨r.path.cost, out⟩ := by
  obtain ⟨r, b1, b2, b3, -, ⟨ob, b5⟩, b6⟩ := C19_graph_search_optimal q hv hT o hl hα hit H.slot H.fin
  obtain ⟨h1, c, c', h2, h3, h4⟩ := C137_plans m n q hit W hv H o.alpha hα _ b2 b3
  obtain ⟨k, h5, h6⟩ := b6 _ (by rw [List.length_map, b2]) fun y hy => (h1 y hy).1
  rw [h3] at h5
  rw [h2] at b5
  rw [← Except.ok.inj h5] at h6
  rw [Except.ok.inj b5] at h4
  refine ⟨r, c'.output, b1, h1, ?_⟩
  rw [h3, le_antisymm h6 h4]

/-! ## Examples -/

/-- Two efficient and three older servers with the same switching cost. At least three are needed in the first slot, one in the second. -/
def Ex.oldNew : SSCO ℤ Unit Unit where
  d := 2
  tEnd := 2
  bounds := [2, 3]
  switchingCost := [2, 2]
  hittingCost := CostFn.new 1 (SingleCostFn.certain fun t x => .ok (Cost.raw
    (if x.getD 0 0 + x.getD 1 0 < 5 - 2 * t then ⊤ else (((x.getD 0 0 + 3 * x.getD 1 0 : ℤ) : ℚ) : ECost))))

theorem Ex.oldNew_hits : Spec.Hits Ex.oldNew
    fun t x => if x.getD 0 0 + x.getD 1 0 < 5 - 2 * t then ⊤ else (((x.getD 0 0 + 3 * x.getD 1 0 : ℤ) : ℚ) : ECost) where
  slot t t1 _ x hx := ⟨_, ((C06_guarded_evaluation _ t Ex.oldNew.bounds x hx.length_eq.symm).1 hx).1.trans (CostFn.callMean_certain _ t t1 _)⟩
  fin t t1 _ := by
    have : ¬ ((2 : ℤ) + 3 < 5 - 2 * t) := by omega
    show (if (2 : ℤ) + 3 < 5 - 2 * t then (⊤ : ECost) else _) ≠ ⊤
    rw [if_neg this]
    exact WithTop.coe_ne_top

/-- Non-vacuity of C137. -/
theorem Ex.oldNew_better : Spec.BetterFirst 2 3 Ex.oldNew
    fun t x => if x.getD 0 0 + x.getD 1 0 < 5 - 2 * t then ⊤ else (((x.getD 0 0 + 3 * x.getD 1 0 : ℤ) : ℚ) : ECost) where
  bounds := ⟨[], rfl⟩
  switching := ⟨2, [], rfl⟩
  better t t1 t2 i j x hx _ _ := by
    show (if i + 1 + j < 5 - 2 * t then (⊤ : ECost) else (((i + 1 + 3 * j : ℤ) : ℚ) : ECost)) ≤
      if i + (j + 1) < 5 - 2 * t then (⊤ : ECost) else (((i + 3 * (j + 1) : ℤ) : ℚ) : ECost)
    rw [show i + 1 + j = i + (j + 1) by ring]
    split
    · exact le_rfl
    · apply WithTop.coe_le_coe.2
      exact_mod_cast (by omega : i + 1 + 3 * j ≤ i + 3 * (j + 1))

example := C137_optimum 2 3 Ex.oldNew _ Ex.oldNew_better (by decide +kernel) (by decide) Ex.oldNew_hits

/-- One server of each of two types. The first starts cheaper and is cheaper to operate. Two servers are needed in the first and the last
slot, one in between. -/
def Ex.cheapStart : SSCO ℤ Unit Unit where
  d := 2
  tEnd := 3
  bounds := [1, 1]
  switchingCost := [1, 10]
  hittingCost := CostFn.new 1 (SingleCostFn.certain fun t x => .ok (Cost.raw
    (if x.getD 0 0 + x.getD 1 0 < (if t = 2 then 1 else 2) then ⊤ else (((5 * x.getD 0 0 + 6 * x.getD 1 0 : ℤ) : ℚ) : ECost))))

/-- **C137** Equal switching costs are needed: a type can be better in all respects, start cheaper and be cheaper to operate, and still be the
one to be powered down first, because it can be powered up again at less cost. Every plan that uses it first costs more than the
cheapest plan. -/
theorem C137_switching_counterexample :
    (Multi.optimalGraphSearch Ex.cheapStart none ⟨false, 1, none⟩).toOption.map (fun r => (r.path.xs, r.path.cost)) =
      some ([[1, 1], [0, 1], [1, 1]], ((40 : ℚ) : ECost)) ∧
    ∀ ys : Schedule ℤ, ys.length = 3 → (∀ y ∈ ys, Spec.InBox Ex.cheapStart.bounds y ∧ Spec.FirstFirst 1 y) →
      ∃ c, Ex.cheapStart.toProb.objective ys = .ok c ∧ ((44 : ℚ) : ECost) ≤ c.cost := by
  refine ⟨by decide +kernel, ?_⟩
  intro ys hl hy
  have cfg : ∀ y, Spec.InBox Ex.cheapStart.bounds y ∧ Spec.FirstFirst 1 y → y ∈ ([[0, 0], [1, 0], [1, 1]] : List (Config ℤ)) := by
    rintro y ⟨h1, h2⟩
    match y, h1, h2 with
    | [i, j], .cons ⟨a0, a1⟩ (.cons ⟨b0, b1⟩ .nil), h2 =>
      have h2 : 0 < j → i = 1 := h2
      have : (i = 0 ∧ j = 0) ∨ (i = 1 ∧ j = 0) ∨ (i = 1 ∧ j = 1) := by omega
      rcases this with ⟨rfl, rfl⟩ | ⟨rfl, rfl⟩ | ⟨rfl, rfl⟩ <;> simp
  have all : ∀ a ∈ ([[0, 0], [1, 0], [1, 1]] : List (Config ℤ)), ∀ b ∈ ([[0, 0], [1, 0], [1, 1]] : List (Config ℤ)),
      ∀ c ∈ ([[0, 0], [1, 0], [1, 1]] : List (Config ℤ)),
      (match Ex.cheapStart.toProb.objective [a, b, c] with
        | .ok r => decide (((44 : ℚ) : ECost) ≤ r.cost)
        | .error _ => false) = true := by decide +kernel
  match ys, hl with
  | [a, b, c], _ =>
    have := all a (cfg a (hy a (by simp))) b (cfg b (hy b (by simp))) c (cfg c (hy c (by simp)))
    revert this
    cases Ex.cheapStart.toProb.objective [a, b, c] with
    | error e => intro h; cases h
    | ok r => intro h; exact ⟨r, rfl, of_decide_eq_true h⟩

end Soco
