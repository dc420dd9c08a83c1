import Verif.Props.Periods
import Verif.Props.Expected
import Verif.Props.SolveLoads

/-!
# C134: finer slots without new information do not change the cost of plans
-/

namespace Soco
namespace Spec

/-- `q` is `p` with every slot divided into `k` slots of equal cost. -/
structure Finer {C D : Type} (k : Nat) (p q : SSCO ℤ C D) (hit hit' : Int → Config ℤ → ECost) : Prop where
  pos : 1 ≤ k
  d : q.d = p.d
  bounds : q.bounds = p.bounds
  switching : q.switchingCost = p.switchingCost
  tEnd : q.tEnd = k * p.tEnd
  part : ∀ (t : Int) (i : Nat), 1 ≤ t → t ≤ p.tEnd → i < k → ∀ x, InBox p.bounds x → k • hit' ((t - 1) * k + i + 1) x = hit t x

/-- A schedule in which every configuration is kept for `k` slots. -/
def stretched (k : Nat) (xs : Schedule ℤ) : Schedule ℤ := xs.flatMap (List.replicate k)

end Spec

variable {C D : Type} [OutSuccess C] [OutFailure D]

namespace Finer
open Spec Expect Periods

theorem up_triangle : ∀ (β : List ℚ) (a b c : List ℤ), (∀ x ∈ β, 0 ≤ x) → a.length = b.length → b.length = c.length →
    upCost β a c ≤ upCost β a b + upCost β b c := by
  intro β
  induction β with
  | nil => intro a b c _ _ _; simp [upCost, List.zipWith3]
  | cons β0 β ih =>
    intro a b c hβ h1 h2
    match a, b, c, h1, h2 with
    | [], [], [], _, _ => simp [upCost, List.zipWith3]
    | i :: a, j :: b, k :: c, h1, h2 =>
      have := ih a b c (fun x hx => hβ x (List.mem_cons_of_mem _ hx)) (by simpa using h1) (by simpa using h2)
      have h0 := hβ β0 (by simp)
      simp only [upCost, List.zipWith3, List.sum_cons] at this ⊢
      have e : max 0 (toQ k - toQ i) ≤ max 0 (toQ j - toQ i) + max 0 (toQ k - toQ j) := by
        rcases le_total (toQ j - toQ i) 0 with h3 | h3 <;> rcases le_total (toQ k - toQ j) 0 with h4 | h4 <;>
          rcases le_total (toQ k - toQ i) 0 with h5 | h5 <;> simp only [max_eq_left, max_eq_right, h3, h4, h5] <;> linarith
      have := mul_le_mul_of_nonneg_left e h0
      linarith

theorem up_nonneg : ∀ (β : List ℚ) (a b : List ℤ), (∀ x ∈ β, 0 ≤ x) → 0 ≤ upCost β a b := by
  intro β
  induction β with
  | nil => intro a b _; simp [upCost, List.zipWith3]
  | cons β0 β ih =>
    intro a b hβ
    match a, b with
    | [], _ => simp [upCost, List.zipWith3]
    | _ :: _, [] => simp [upCost, List.zipWith3]
    | i :: a, j :: b =>
      have := ih a b fun x hx => hβ x (List.mem_cons_of_mem _ hx)
      have h0 := hβ β0 (by simp)
      simp only [upCost, List.zipWith3, List.sum_cons] at this ⊢
      have := mul_nonneg h0 (le_max_left 0 (toQ j - toQ i))
      linarith

/-- Leaving out configurations does not add movement. -/
theorem move_sublist {β : List ℚ} (hβ : ∀ x ∈ β, 0 ≤ x) (n : Nat) {ys zs : Schedule ℤ} (h : ys.Sublist zs) :
    ∀ prev : Config ℤ, prev.length = n → (∀ z ∈ zs, z.length = n) →
      totalMove (upCost β) prev ys ≤ totalMove (upCost β) prev zs := by
  induction h with
  | slnil => intro prev _ _; exact le_rfl
  | @cons ys zs a h ih =>
    intro prev hp hz
    have ha := hz a (by simp)
    have h1 := ih a ha fun z hz' => hz z (List.mem_cons_of_mem _ hz')
    have h2 : totalMove (upCost β) prev ys ≤ upCost β prev a + totalMove (upCost β) a ys := by
      cases ys with
      | nil => simp only [totalMove]; have := up_nonneg β prev a hβ; linarith
      | cons y ys =>
        have hy : y.length = n := hz y (List.mem_cons_of_mem _ (h.subset (by simp)))
        have := up_triangle β prev a y hβ (by omega) (by omega)
        simp only [totalMove]
        linarith
    simp only [totalMove]
    linarith
  | @cons_cons ys zs a h ih =>
    intro prev _ hz
    have := ih a (hz a (by simp)) fun z hz' => hz z (List.mem_cons_of_mem _ hz')
    simp only [totalMove]
    linarith

theorem sub_chunks (i : Nat) : ∀ cs : List (List (Config ℤ)), (∀ c ∈ cs, i < c.length) →
    (cs.map fun c => c.getD i []).Sublist cs.flatten := by
  intro cs
  induction cs with
  | nil => intro _; exact .slnil
  | cons c cs ih =>
    intro h
    have h1 : [c.getD i []].Sublist c := by
      rw [List.singleton_sublist]
      have := h c (by simp)
      rw [List.getD_eq_getElem _ _ this]
      exact List.getElem_mem _
    have := h1.append (ih fun c hc => h c (List.mem_cons_of_mem _ hc))
    simpa using this

theorem chunks (k : Nat) : ∀ (T : Nat) (ys : Schedule ℤ), ys.length = k * T →
    ∃ cs : List (List (Config ℤ)), cs.length = T ∧ (∀ c ∈ cs, c.length = k) ∧ cs.flatten = ys := by
  intro T
  induction T with
  | zero => intro ys h; exact ⟨[], rfl, by simp, by simpa using (List.length_eq_zero_iff.1 (by simpa using h)).symm⟩
  | succ T ih =>
    intro ys h
    have hm : k * (T + 1) = k * T + k := by ring
    obtain ⟨cs, h1, h2, h3⟩ := ih (ys.drop k) (by rw [List.length_drop]; omega)
    refine ⟨ys.take k :: cs, by simp [h1], ?_, by simp [h3]⟩
    intro c hc
    rcases List.mem_cons.1 hc with rfl | hc
    · rw [List.length_take]; omega
    · exact h2 c hc

theorem totalHit_append (hit : Int → Config ℤ → ECost) : ∀ (xs ys : Schedule ℤ) (t : Int),
    totalHit hit t (xs ++ ys) = totalHit hit t xs + totalHit hit (t + xs.length) ys := by
  intro xs
  induction xs with
  | nil => intro ys t; simp [totalHit]
  | cons x xs ih =>
    intro ys t
    have e : t + ((x :: xs).length : Int) = t + 1 + xs.length := by simp only [List.length_cons]; push_cast; ring
    rw [List.cons_append, totalHit, totalHit, ih, e]
    exact (add_assoc _ _ _).symm

omit [OutSuccess C] [OutFailure D] in
/-- The hitting costs of the `k` parts of one slot. -/
theorem hit_chunk {k : Nat} {p q : SSCO ℤ C D} {hit hit' : Int → Config ℤ → ECost} (F : Spec.Finer k p q hit hit') (t : Int)
    (h1 : 1 ≤ t) (h2 : t ≤ p.tEnd) : ∀ (c : Schedule ℤ) (j : Nat), j + c.length ≤ k → (∀ x ∈ c, InBox p.bounds x) →
      k • totalHit hit' ((t - 1) * k + j + 1) c = (c.map (hit t)).sum := by
  intro c
  induction c with
  | nil => intro j _ _; simp [totalHit]
  | cons x c ih =>
    intro j hj hx
    simp only [List.length_cons] at hj
    have e := ih (j + 1) (by omega) fun y hy => hx y (List.mem_cons_of_mem _ hy)
    have e1 := F.part t j h1 h2 (by omega) x (hx x (by simp))
    simp only [totalHit, List.map_cons, List.sum_cons]
    rw [nsmul_add, e1, ← e]
    congr 3
    push_cast; ring

theorem sum_getD (f : Config ℤ → ECost) (c : Schedule ℤ) : ((List.range c.length).map fun i => f (c.getD i [])).sum = (c.map f).sum := by
  congr 1
  apply List.ext_getElem
  · simp
  · intro i h1 h2
    simp only [List.length_map, List.length_range] at h1
    simp [h1]

omit [OutSuccess C] [OutFailure D] in
theorem hit_chunks {k : Nat} {p q : SSCO ℤ C D} {hit hit' : Int → Config ℤ → ECost} (F : Spec.Finer k p q hit hit') :
    ∀ (cs : List (Schedule ℤ)) (t : Int), 1 ≤ t → t + cs.length ≤ p.tEnd + 1 → (∀ c ∈ cs, c.length = k) →
      (∀ c ∈ cs, ∀ x ∈ c, InBox p.bounds x) →
      ((List.range k).map fun i => totalHit hit t (cs.map fun c => c.getD i [])).sum =
        k • totalHit hit' ((t - 1) * k + 1) cs.flatten := by
  intro cs
  induction cs with
  | nil => intro t _ _ _ _; simp [totalHit]
  | cons c cs ih =>
    intro t h1 h2 hl hx
    simp only [List.length_cons] at h2
    push_cast at h2
    have e := ih (t + 1) (by omega) (by omega) (fun c hc => hl c (List.mem_cons_of_mem _ hc))
      fun c hc => hx c (List.mem_cons_of_mem _ hc)
    have e1 := hit_chunk F t h1 (by omega) c 0 (by rw [hl c (by simp)]; omega) (hx c (by simp))
    simp only [List.map_cons, totalHit, List.flatten_cons]
    rw [List.sum_map_add, totalHit_append, nsmul_add, e]
    congr 1
    · rw [← hl c (by simp), sum_getD, ← e1, hl c (by simp)]
      simp
    · congr 2
      rw [hl c (by simp)]
      ring

omit [OutSuccess C] [OutFailure D] in
theorem hit_stretched {k : Nat} {p q : SSCO ℤ C D} {hit hit' : Int → Config ℤ → ECost} (F : Spec.Finer k p q hit hit') :
    ∀ (xs : Schedule ℤ) (t : Int), 1 ≤ t → t + xs.length ≤ p.tEnd + 1 → (∀ x ∈ xs, InBox p.bounds x) →
      k • totalHit hit' ((t - 1) * k + 1) (stretched k xs) = k • totalHit hit t xs := by
  intro xs
  induction xs with
  | nil => intro t _ _ _; simp [totalHit, stretched]
  | cons x xs ih =>
    intro t h1 h2 hx
    simp only [List.length_cons] at h2
    push_cast at h2
    have e := ih (t + 1) (by omega) (by omega) fun y hy => hx y (List.mem_cons_of_mem _ hy)
    have e1 := hit_chunk F t h1 (by omega) (List.replicate k x) 0 (by simp) (fun y hy => by
      rw [List.eq_of_mem_replicate hy]; exact hx x (by simp))
    have es : stretched k (x :: xs) = List.replicate k x ++ stretched k xs := rfl
    rw [es, totalHit_append, nsmul_add, totalHit, nsmul_add, ← e]
    congr 1
    · have : ((t - 1) * k + ((0 : Nat) : Int) + 1) = (t - 1) * k + 1 := by push_cast; ring
      rw [this] at e1
      rw [e1]; simp
    · congr 2
      rw [List.length_replicate]; ring

theorem move_stretched {β : List ℚ} {k : Nat} (hk : 1 ≤ k) : ∀ (xs : Schedule ℤ) (prev : Config ℤ),
    totalMove (upCost β) prev (stretched k xs) = totalMove (upCost β) prev xs := by
  have hrep : ∀ (n : Nat) (x : Config ℤ) (zs : Schedule ℤ),
      totalMove (upCost β) x (List.replicate n x ++ zs) = totalMove (upCost β) x zs := by
    intro n x zs
    induction n with
    | zero => rfl
    | succ n ih => rw [List.replicate_succ, List.cons_append, totalMove, Offline.upCost_self, ih, zero_add]
  intro xs
  induction xs with
  | nil => intro prev; rfl
  | cons x xs ih =>
    intro prev
    obtain ⟨m, rfl⟩ : ∃ m, k = m + 1 := ⟨k - 1, by omega⟩
    show totalMove _ prev (List.replicate (m + 1) x ++ stretched (m + 1) xs) = _
    rw [List.replicate_succ, List.cons_append, totalMove, hrep, ih, totalMove]

theorem nsmul_cancel {k : Nat} (hk : 1 ≤ k) {a b : ECost} (h : k • a ≤ k • b) : a ≤ b := by
  have hk0 : (0 : ℚ) < k := by exact_mod_cast hk
  induction b using WithTop.recTopCoe with
  | top => exact le_top
  | coe b =>
    induction a using WithTop.recTopCoe with
    | top => rw [nsmul_top' k (by omega), ← WithTop.coe_nsmul] at h; simp at h
    | coe a =>
      rw [← WithTop.coe_nsmul, ← WithTop.coe_nsmul, WithTop.coe_le_coe, nsmul_eq_mul, nsmul_eq_mul] at h
      exact WithTop.coe_le_coe.2 (le_of_mul_le_mul_left h hk0)

theorem length_stretched (k : Nat) (xs : Schedule ℤ) : (stretched k xs).length = k * xs.length := by
  induction xs with
  | nil => simp [stretched]
  | cons x xs ih =>
    show (List.replicate k x ++ stretched k xs).length = _
    rw [List.length_append, ih, List.length_replicate, List.length_cons]; ring

theorem mem_stretched {k : Nat} {xs : Schedule ℤ} {x : Config ℤ} (h : x ∈ stretched k xs) : x ∈ xs := by
  obtain ⟨y, hy, hx⟩ := List.mem_flatMap.1 h
  rw [List.eq_of_mem_replicate hx]; exact hy

theorem sum_const (k : Nat) (a : ECost) : ((List.range k).map fun _ => a).sum = k • a := by simp

theorem le_sum_of {k : Nat} {a : ECost} {f : Nat → ECost} (h : ∀ i, i < k → a ≤ f i) : k • a ≤ ((List.range k).map f).sum := by
  rw [← sum_const]
  refine List.Forall₂.sum_le_sum ?_
  rw [List.forall₂_map_left_iff, List.forall₂_map_right_iff, List.forall₂_same]
  exact fun i hi => h i (List.mem_range.1 hi)

end Finer

open Finer Periods in
/-- **C134** If every slot is divided into `k` slots of equal cost, the optimal search finds plans of the same cost, and keeping
every configuration of the old plan for `k` slots is a best plan for the finer problem. -/
theorem C134_finer (k : Nat) (p q : SSCO ℤ C D) (hit hit' : Int → Config ℤ → ECost) (F : Spec.Finer k p q hit hit')
    (hv : p.verify = .ok ()) (hT : 1 ≤ p.tEnd) (H : Spec.Hits p hit) (H' : Spec.Hits q hit')
    (o : OfflineOptions) (hl : o.l = none) (hα : 0 ≤ o.alpha) :
    ∃ r r' out, Multi.optimalGraphSearch p none o = .ok r ∧ Multi.optimalGraphSearch q none o = .ok r' ∧
      r'.path.cost = r.path.cost ∧
      q.toProb.alphaUnfairObjective (Spec.stretched k r.path.xs) o.alpha = .ok ⟨r.path.cost, out⟩ := by
  have hv' := valid_of hv
  have hk := F.pos
  have hTq : 1 ≤ q.tEnd := by
    rw [F.tEnd]
    have : (1 : Int) ≤ k := by exact_mod_cast hk
    nlinarith
  have hvq : q.verify = .ok () := (C10_ssco_verify_exact q).1 (by
    obtain ⟨v1, v2, v3, v4, v5, v6⟩ := hv'
    refine ⟨by rw [F.d]; exact v1, by omega, by rw [F.d, F.bounds]; exact v3, by rw [F.d, F.switching]; exact v4,
      by rw [F.bounds]; exact v5, by rw [F.switching]; exact v6⟩)
  obtain ⟨r, a1, a2, a3, a4, a5, a6⟩ := best hv hT H o hl hα
  obtain ⟨r', b1, b2, b3, b4, b5, b6⟩ := best hvq hTq H' o hl hα
  have hβ : ∀ b ∈ p.switchingCost, 0 ≤ b := fun b hb => (hv'.2.2.2.2.2 b hb).le
  have hn : p.bounds.length = p.d.toNat := by have := hv'.2.2.1; omega
  -- the stretched plan
  have hsl : ((Spec.stretched k r.path.xs).length : Int) = q.tEnd := by
    rw [length_stretched, F.tEnd, ← a2]; push_cast; ring
  have hsb : ∀ x ∈ Spec.stretched k r.path.xs, Spec.InBox q.bounds x := fun x hx => by
    rw [F.bounds]; exact a3 x (mem_stretched hx)
  have hs : Spec.totalCost hit' (Spec.upCost q.switchingCost) o.alpha 1 (List.replicate q.d.toNat 0) (Spec.stretched k r.path.xs)
      = r.path.cost := by
    have e := hit_stretched F r.path.xs 1 le_rfl (by omega) a3
    simp only [sub_self, zero_mul, zero_add] at e
    have e' : Spec.totalHit hit' 1 (Spec.stretched k r.path.xs) = Spec.totalHit hit 1 r.path.xs :=
      le_antisymm (nsmul_cancel hk e.le) (nsmul_cancel hk e.ge)
    rw [a5, totalCost_eq, totalCost_eq, e', F.switching, F.d, move_stretched hk]
  obtain ⟨out, ho⟩ := objective_total hvq H' o.alpha _ hsl hsb
  rw [hs] at ho
  refine ⟨r, r', out, a1, b1, le_antisymm ?_ ?_, ho⟩
  · exact (b6 _ hsl hsb).trans hs.le
  -- choosing one of the parts of every slot
  obtain ⟨T, hTn⟩ : ∃ T : Nat, p.tEnd = T := ⟨p.tEnd.toNat, by omega⟩
  obtain ⟨cs, c1, c2, c3⟩ := chunks k T r'.path.xs (by
    have := F.tEnd
    rw [hTn] at this
    exact_mod_cast b2.trans this)
  have hin : ∀ c ∈ cs, ∀ x ∈ c, Spec.InBox p.bounds x := fun c hc x hx => by
    have := b3 x (c3 ▸ List.mem_flatten.2 ⟨c, hc, hx⟩)
    rwa [F.bounds] at this
  have hsub : ∀ i, i < k → ∀ x ∈ cs.map (fun c => c.getD i []), Spec.InBox p.bounds x := by
    intro i hi x hx
    obtain ⟨c, hc, rfl⟩ := List.mem_map.1 hx
    have hlt : i < c.length := by rw [c2 c hc]; exact hi
    rw [List.getD_eq_getElem _ _ hlt]
    exact hin c hc _ (List.getElem_mem _)
  have hmv : ∀ i, i < k → Spec.totalMove (Spec.upCost p.switchingCost) (List.replicate p.d.toNat 0) (cs.map fun c => c.getD i [])
      ≤ Spec.totalMove (Spec.upCost p.switchingCost) (List.replicate p.d.toNat 0) r'.path.xs := by
    intro i hi
    rw [← c3]
    refine move_sublist hβ p.d.toNat (sub_chunks i cs fun c hc => by rw [c2 c hc]; exact hi) _ (by simp) ?_
    intro z hz
    obtain ⟨c, hc, hz⟩ := List.mem_flatten.1 hz
    rw [← (hin c hc z hz).length_eq, hn]
  refine nsmul_cancel hk ?_
  have h1 : k • r.path.cost ≤ ((List.range k).map fun i => Spec.totalHit hit 1 (cs.map fun c => c.getD i []) +
      ((o.alpha * Spec.totalMove (Spec.upCost p.switchingCost) (List.replicate p.d.toNat 0) r'.path.xs : ℚ) : ECost)).sum := by
    refine le_sum_of fun i hi => (a6 (cs.map fun c => c.getD i []) (by simp [c1, hTn]) (hsub i hi)).trans ?_
    rw [totalCost_eq]
    exact add_le_add le_rfl (WithTop.coe_le_coe.2 (mul_le_mul_of_nonneg_left (hmv i hi) hα))
  refine h1.trans (le_of_eq ?_)
  have e := hit_chunks F cs 1 le_rfl (by rw [c1, hTn]; omega) c2 hin
  simp only [sub_self, zero_mul, zero_add] at e
  rw [List.sum_map_add, e, sum_const, b5, totalCost_eq, nsmul_add, c3, F.switching, F.d]

open Finer Periods in
/-- **C134** Keeping every configuration for `k` slots does not change the cost of any plan. -/
theorem C134_plans (k : Nat) (p q : SSCO ℤ C D) (hit hit' : Int → Config ℤ → ECost) (F : Spec.Finer k p q hit hit')
    (hv : p.verify = .ok ()) (hT : 1 ≤ p.tEnd) (H : Spec.Hits p hit) (H' : Spec.Hits q hit') (α : ℚ)
    (xs : Schedule ℤ) (hxs : (xs.length : Int) = p.tEnd) (hb : ∀ x ∈ xs, Spec.InBox p.bounds x) :
    ∃ c out out', p.toProb.alphaUnfairObjective xs α = .ok ⟨c, out⟩ ∧
      q.toProb.alphaUnfairObjective (Spec.stretched k xs) α = .ok ⟨c, out'⟩ := by
  have hv' := valid_of hv
  have hk := F.pos
  have hTq : 1 ≤ q.tEnd := by
    rw [F.tEnd]
    have : (1 : Int) ≤ k := by exact_mod_cast hk
    nlinarith
  have hvq : q.verify = .ok () := (C10_ssco_verify_exact q).1 (by
    obtain ⟨v1, v2, v3, v4, v5, v6⟩ := hv'
    refine ⟨by rw [F.d]; exact v1, by omega, by rw [F.d, F.bounds]; exact v3, by rw [F.d, F.switching]; exact v4,
      by rw [F.bounds]; exact v5, by rw [F.switching]; exact v6⟩)
  have hsl : ((Spec.stretched k xs).length : Int) = q.tEnd := by
    rw [length_stretched, F.tEnd, ← hxs]; push_cast; ring
  obtain ⟨out, h1⟩ := objective_total hv H α xs hxs hb
  obtain ⟨out', h2⟩ := objective_total hvq H' α (Spec.stretched k xs) hsl fun x hx => by
    rw [F.bounds]; exact hb x (mem_stretched hx)
  have e := hit_stretched F xs 1 le_rfl (by omega) hb
  simp only [sub_self, zero_mul, zero_add] at e
  have e' : Spec.totalHit hit' 1 (Spec.stretched k xs) = Spec.totalHit hit 1 xs :=
    le_antisymm (nsmul_cancel hk e.le) (nsmul_cancel hk e.ge)
  refine ⟨_, out, out', h1, ?_⟩
  rw [h2, totalCost_eq, totalCost_eq, e', F.switching, F.d, move_stretched hk]

/-! ## Examples -/

/-- Up to two servers, one slot per hour: `|x - t|` for every hour. -/
def Ex.hours : SSCO ℤ Unit Unit where
  d := 1
  tEnd := 2
  bounds := [2]
  switchingCost := [1 / 3]
  hittingCost := CostFn.new 1 (SingleCostFn.certain fun t x => .ok (Cost.raw (((|x.getD 0 0 - t| : ℤ) : ℚ) : ECost)))

/-- The same with slots of twenty minutes. -/
def Ex.minutes : SSCO ℤ Unit Unit where
  d := 1
  tEnd := 6
  bounds := [2]
  switchingCost := [1 / 3]
  hittingCost := CostFn.new 1 (SingleCostFn.certain fun t x => .ok (Cost.raw ((((|x.getD 0 0 - ((t - 1) / 3 + 1)| : ℤ) : ℚ) / 3 : ℚ) : ECost)))

theorem Ex.hours_hits : Spec.Hits Ex.hours fun t x => ((((|x.getD 0 0 - t| : ℤ) : ℚ)) : ECost) where
  slot t t1 _ x hx := ⟨_, ((C06_guarded_evaluation _ t Ex.hours.bounds x hx.length_eq.symm).1 hx).1.trans (CostFn.callMean_certain _ t t1 _)⟩
  fin _ _ _ := WithTop.coe_ne_top

theorem Ex.minutes_hits : Spec.Hits Ex.minutes fun t x => ((((|x.getD 0 0 - ((t - 1) / 3 + 1)| : ℤ) : ℚ) / 3 : ℚ) : ECost) where
  slot t t1 _ x hx := ⟨_, ((C06_guarded_evaluation _ t Ex.minutes.bounds x hx.length_eq.symm).1 hx).1.trans (CostFn.callMean_certain _ t t1 _)⟩
  fin _ _ _ := WithTop.coe_ne_top

/-- Non-vacuity of `C134_finer`. -/
theorem Ex.hours_minutes : Spec.Finer 3 Ex.hours Ex.minutes (fun t x => ((((|x.getD 0 0 - t| : ℤ) : ℚ)) : ECost))
    (fun t x => ((((|x.getD 0 0 - ((t - 1) / 3 + 1)| : ℤ) : ℚ) / 3 : ℚ) : ECost)) where
  pos := by norm_num
  d := rfl
  bounds := rfl
  switching := rfl
  tEnd := rfl
  part t i t1 t2 hi x hx := by
    have e : ((t - 1) * (3 : Nat) + i + 1 - 1) / 3 + 1 = t := by push_cast; omega
    simp only [e]
    rw [show (3 : Nat) = 2 + 1 from rfl, succ_nsmul, two_nsmul, ← WithTop.coe_add, ← WithTop.coe_add]
    congr 1
    ring

example := C134_finer 3 Ex.hours Ex.minutes _ _ Ex.hours_minutes (by decide +kernel) (by decide) Ex.hours_hits Ex.minutes_hits

/-- The plans of the two instances. -/
example : (Multi.optimalGraphSearch Ex.hours none ⟨false, 1, none⟩).toOption.map (fun r => (r.path.xs, r.path.cost)) =
      some ([[1], [2]], ((2 / 3 : ℚ) : ECost)) ∧
    (Multi.optimalGraphSearch Ex.minutes none ⟨false, 1, none⟩).toOption.map (·.path.cost) = some ((2 / 3 : ℚ) : ECost) := by
  decide +kernel

/-- If the costs of the parts of a slot differ, as with information that becomes available later, the finer plan can be
cheaper: here one server is needed in the first part only. -/
def Ex.uneven : SSCO ℤ Unit Unit where
  d := 1
  tEnd := 2
  bounds := [1]
  switchingCost := [1 / 3]
  hittingCost := CostFn.new 1 (SingleCostFn.certain fun t x => .ok (Cost.raw (((|x.getD 0 0 - t % 2| : ℤ) : ℚ) : ECost)))

/-- Both slots of `Ex.uneven` taken together. -/
def Ex.together : SSCO ℤ Unit Unit where
  d := 1
  tEnd := 1
  bounds := [1]
  switchingCost := [1 / 3]
  hittingCost := CostFn.new 1 (SingleCostFn.certain fun _ x =>
    .ok (Cost.raw ((((|x.getD 0 0 - 1| + |x.getD 0 0| : ℤ)) : ℚ) : ECost)))

/-- **C134** Slots of equal cost are needed: with costs that differ between the parts of a slot, the finer plan is cheaper. -/
theorem C134_uneven_counterexample :
    (Multi.optimalGraphSearch Ex.together none ⟨false, 1, none⟩).toOption.map (·.path.cost) = some ((1 : ℚ) : ECost) ∧
    (Multi.optimalGraphSearch Ex.uneven none ⟨false, 1, none⟩).toOption.map (·.path.cost) = some ((1 / 3 : ℚ) : ECost) := by
  decide +kernel

end Soco
