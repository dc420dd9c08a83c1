import Verif.Props.Eventually

/-!
# C144: capacity provisioning does not switch more than the optimal plan
-/

namespace Soco

/-- The number of servers started along a sequence of numbers of active servers, beginning with `x`. -/
def Spec.starts : ℤ → List ℤ → ℤ
  | _, [] => 0
  | x, y :: ys => max 0 (y - x) + Spec.starts y ys

/-- The number of servers switched off along a sequence of numbers of active servers, beginning with `x`. -/
def Spec.stops : ℤ → List ℤ → ℤ
  | _, [] => 0
  | x, y :: ys => max 0 (x - y) + Spec.stops y ys

open Lcp Work Uni Window Low

variable {C D : Type} [OutSuccess C] [OutFailure D]

namespace Starts

theorem balance : ∀ (js : List ℤ) (x : ℤ), Spec.starts x js - Spec.stops x js = js.getLastD x - x := by
  intro js
  induction js with
  | nil => intro x; simp [Spec.starts, Spec.stops]
  | cons y ys ih =>
    intro x
    have := ih y
    simp only [Spec.starts, Spec.stops, List.getLastD_cons]
    omega

theorem snoc : ∀ (js : List ℤ) (x y : ℤ), Spec.starts x (js ++ [y]) = Spec.starts x js + max 0 (y - js.getLastD x) := by
  intro js
  induction js with
  | nil => intro x y; simp [Spec.starts]
  | cons z zs ih =>
    intro x y
    simp only [List.cons_append, Spec.starts, ih, List.getLastD_cons]
    omega

theorem climb_starts (js : List ℤ) (c : Nat → ℚ) (c0 : c 0 = 0) (hc : ∀ i < js.length, c (i + 1) = ((js.getD i 0 : ℤ) : ℚ)) :
    ∀ n ≤ js.length, climb c n = ((Spec.starts 0 (js.take n) : ℤ) : ℚ) ∧ c n = (((js.take n).getLastD 0 : ℤ) : ℚ) := by
  intro n
  induction n with
  | zero => intro _; simp [climb, Spec.starts, c0]
  | succ n ih =>
    intro hn
    obtain ⟨h1, h2⟩ := ih (by omega)
    have hl := last_take (xs := js) (t := n) (by omega)
    refine ⟨?_, by rw [hl, hc n (by omega)]⟩
    have e : js.take (n + 1) = js.take n ++ [js.getD n 0] := by
      rw [List.take_add_one, List.getD_eq_getElem?_getD, List.getElem?_eq_getElem (by omega : n < js.length)]
      rfl
    rw [climb, h1, e, snoc, h2, hc n (by omega)]
    push_cast
    rfl

theorem up_climb {x0 : ℚ} {L U : Nat → ℚ} : ∀ n, Up x0 L U n = climb (lazy x0 L U) n
  | 0 => rfl
  | n + 1 => by rw [Up, climb, up_climb n]

end Starts

open Starts

/-- **C144**. Integral lazy capacity provisioning, played with a prediction window of `w` slots, has at no time started more servers, or
switched off more servers, than the plan which the optimal graph search returns for all slots known in the end has up to then. -/
theorem C144_starts {m : ℤ} {β : ℚ} {g : Int → ℤ → ECost} (w : Nat) (ps : List (SSCO ℤ C D)) (hne : ps ≠ [])
    (K : Spec.Costs m β g (ps.length + w)) (I : ∀ k (h : k < ps.length), Spec.Foresight ps[k] m β g (k + 1) w)
    (q : SSCO ℤ C D) (Q : Spec.Inst q m β g (ps.length + w)) :
    ∃ (js : List ℤ) (mem : Option (List (BoundsMem ℤ))) (P : Path) (ks : List ℤ),
      Spec.play SSCO.tEnd (lcpAlg boundedInt) [] none (ps.map fun p => ⟨p, w⟩) = .ok (js.map (fun j => [j]), mem) ∧
      Uni.optimalGraphSearch q 0 ⟨false, 1, none⟩ = .ok P ∧ P.xs = ks.map (fun k => [k]) ∧
      js.length = ps.length ∧ ks.length = ps.length + w ∧
      ∀ n ≤ ps.length, Spec.starts 0 (js.take n) ≤ Spec.starts 0 (ks.take n) ∧ Spec.stops 0 (js.take n) ≤ Spec.stops 0 (ks.take n) := by
  obtain ⟨js, bs, h1, h2, h3, M, h5⟩ := run_window w ps K I
  have hpos : 0 < ps.length := List.length_pos_iff.2 hne
  have hT := Q.tEnd
  obtain ⟨P, ks, g1, g2, g3, g4, g5, g6, g7⟩ := graphSearch_main (p := q) (m := m) (β := β) Q.d Q.bounds Q.switching
    K.hm K.hβ (by omega) 0 K.hm.le ⟨false, 1, none⟩ rfl zero_le_one (g := g)
    (fun t a b => Q.hit t a (by omega)) (fun t a b => K.fin _ (by omega) (by omega))
    (fun t a b => K.nonneg _ (by omega) (by omega) m K.hm.le le_rfl)
  have g8 := g7 (fun t a b => K.nonneg _ (by omega) (by omega)) (fun t a b => K.conv _ (by omega) (by omega))
  have hlen : ks.length = ps.length + w := by rw [hT] at g3; exact_mod_cast g3
  have hX : IsLow g β false m (bs.length + w) 1 0 ks := by
    rw [h3]
    refine ⟨hlen, g4, by rw [g5] at g6; exact g6, fun zs z1 z2 => ?_, fun zs z1 z2 => ?_⟩
    · have := (g8 zs (by rw [hT, z1]) z2).1
      rwa [g5] at this
    · have := (g8 zs (by rw [hT, z1]) z2).2
      rwa [g5] at this
  refine ⟨js, _, P, ks, h1, g1, g2, h2, hlen, fun n hn => ?_⟩
  have eL : ∀ i (h : i < bs.length), Lf bs (i + 1) = (bs[i].lower : ℚ) := fun i h => by
    simp [Lf, h]; rfl
  have eU : ∀ i (h : i < bs.length), Uf bs (i + 1) = (bs[i].upper : ℚ) := fun i h => by
    simp [Uf, h]; rfl
  have btw : ∀ t < n, Lf bs (t + 1) ≤ ((ks.getD t 0 : ℤ) : ℚ) ∧ ((ks.getD t 0 : ℤ) : ℚ) ≤ Uf bs (t + 1) := by
    intro t ht
    obtain ⟨a, b⟩ := Window.between K.hβ M hX t (by omega)
    rw [eL t (by omega), eU t (by omega)]
    exact ⟨by exact_mod_cast a, by exact_mod_cast b⟩
  let c : Nat → ℚ := fun i => match i with | 0 => 0 | i + 1 => ((ks.getD i 0 : ℤ) : ℚ)
  have key := up_le_climb (x0 := 0) (L := Lf bs) (U := Uf bs) (n := n) (fun t ht => (btw t ht).1.trans (btw t ht).2)
    (c := c) rfl (fun t ht => btw t ht) n le_rfl
  obtain ⟨c1, c2⟩ := climb_starts ks c rfl (fun i _ => rfl) n (by omega)
  obtain ⟨d1, d2⟩ := climb_starts js (lazy 0 (Lf bs) (Uf bs)) rfl (fun i hi => (h5 i (by omega)).symm) n (by omega)
  rw [up_climb, d1, c1, d2, c2] at key
  have key' : Spec.starts 0 (js.take n) + max 0 ((ks.take n).getLastD 0 - (js.take n).getLastD 0) ≤ Spec.starts 0 (ks.take n) := by
    exact_mod_cast key
  have b1 := balance (js.take n) 0
  have b2 := balance (ks.take n) 0
  omega

/-- **C144** (service). A service for a data center with one type of servers which has been told all `loads` in the end has at no time
started, or switched off, more servers than the optimal plan which an operator knowing all `loads` gets for the same data center. -/
theorem C144_service (S : Num.Solver) (hS : Spec.SolvesEmpty S) (choose : Nat → List ℚ → Nat → List ℚ)
    (hch : ChoosesFrom choose) (m : DataCenterModel) (F : Spec.Farm) (h : Spec.IsFarm m F) (hF : F.Valid)
    (loads : List ℚ) (hl : ∀ l ∈ loads, F.Carries l) (a b w r : Nat)
    (hab : a = 0 ∧ b = 0 ∨ w < a ∧ b = max 1 (a - 2 * w)) (ha : a ≤ loads.length) (hr : b + r + w = loads.length) (h1 : 1 ≤ b + r) :
    ∃ (js ks : List ℤ) (p : SSCO ℤ DCSuccess DCFailure) (P : Path),
      Spec.LazyService S choose m loads a b w r (js.map fun j => [j]) ∧
      m.toSSCO S (loads.map fun l => [l]) = .ok p ∧
      Uni.optimalGraphSearch p 0 ⟨false, 1, none⟩ = .ok P ∧ P.xs = ks.map (fun k => [k]) ∧
      js.length = b + r ∧ ks.length = loads.length ∧
      ∀ n ≤ b + r, Spec.starts 0 (js.take n) ≤ Spec.starts 0 (ks.take n) ∧ Spec.stops 0 (js.take n) ≤ Spec.stops 0 (ks.take n) := by
  obtain ⟨xs, ps, mem, s1, s2, s3, K, s4⟩ := Service.farm_plays S hS choose hch m F h hF loads hl a b w r hab ha hr.le
  obtain ⟨p, hp, I⟩ := C87_problem S hS m F h hF loads fun l hm => (hl l hm).1
  obtain ⟨js, mem', P, ks, g1, g2, g3, g4, g5, g6⟩ := C144_starts w ps (List.ne_nil_of_length_pos (by omega)) (by rw [s2]; exact K) s3 p
    (by rw [s2, hr]; exact I)
  rw [s4] at g1
  have e := (Prod.ext_iff.1 (Except.ok.inj g1)).1
  refine ⟨js, ks, p, P, by rwa [← show xs = js.map fun j => [j] from e], hp, g2, g3, g4.trans s2, by omega, fun n hn => g6 n (by omega)⟩

/-! ## Examples -/

/-- Non-vacuity of `C144_starts`, for any number of slots. -/
example (n N : Nat) (hn : 1 ≤ n) := C144_starts 0 ((List.range (N + 1)).map fun k => Ex.skiAt n (k + 1)) (by simp)
    (Ex.skiAt_costs n _ hn) (fun k hk => by
      simp only [List.getElem_map, List.getElem_range]
      exact Ex.skiAt_knows n (k + 1) 0) (Ex.skiAt n (N + 1)) (by
      have := toInst (Ex.skiAt_knows n (N + 1) 0)
      simpa using this)

/-- Non-vacuity of `C144_service`. -/
example (S : Num.Solver) (hS : Spec.SolvesEmpty S) (choose : Nat → List ℚ → Nat → List ℚ) (hch : ChoosesFrom choose) :=
  C144_service S hS choose hch Ex.farmModel Ex.farm Ex.farm_is Ex.farm_valid [3, 0, 7, 2] Ex.farm_carries 1 1 0 3 (by decide) (by decide)
    (by decide) (by decide)

/-- One server, which is needed in the first and in the last of three slots and costs 2 in between. -/
def Ex.between (k : Nat) : SSCO ℤ Unit Unit :=
  ⟨1, k, [1], [2], CostFn.new 1 (SingleCostFn.certain fun t x => .ok (Cost.raw
    (if t = 2 then ((2 * (x.getD 0 0) : ℤ) : ℚ) else if x.getD 0 0 < 1 then ⊤ else 0 : ECost)))⟩

/-- Other cheapest schedules may switch less: `C144_starts` is about the schedule returned by the search. -/
theorem C144_other_plans :
    (Spec.play SSCO.tEnd (lcpAlg boundedInt) [] none ((List.range 3).map fun k => ⟨Ex.between (k + 1), 0⟩)).map (·.1)
      = .ok [[1], [0], [1]] ∧
    (Uni.optimalGraphSearch (Ex.between 3) 0 ⟨false, 1, none⟩).map (·.xs) = .ok [[1], [0], [1]] ∧
    ((Ex.between 3).toProb.objective [[1], [0], [1]]).map (·.cost) = .ok ((4 : ℚ) : ECost) ∧
    ((Ex.between 3).toProb.objective [[1], [1], [1]]).map (·.cost) = .ok ((4 : ℚ) : ECost) ∧
    Spec.starts 0 [1, 0, 1] = 2 ∧ Spec.starts 0 [1, 1, 1] = 1 := by decide +kernel

end Soco
