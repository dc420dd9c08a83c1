import Verif.Props.Rbg

/-! # C51, C59: histories of randomly biased greedy, examples and limits -/

namespace Soco
namespace Rbg
open Spec Num Descent

section
variable {C D : Type} [OutSuccess C] [OutFailure D]

theorem run_rbg (P : Player) (S0 : Solver) (hS : Inner (solverOf P S0)) (hE : Exact (solverOf P S0)) (evict : Cache → Cache)
    (hev : ∀ c t x v, evict c t x = some v → c t x = some v) (θ : ℚ) (draw : Online (SCO ℚ C D) → ℚ) (world : Cache)
    (box : List (ℚ × ℚ)) (hit : Int → Config ℚ → ECost) (mv : Config ℚ → ℚ) :
    ∀ (os : List (Online (SCO ℚ C D))) (xs : Schedule ℚ),
      (∀ (i : Nat) o, os[i]? = some o → o.w = 0 ∧ o.p.d = 1 ∧ o.p.bounds = box ∧ o.p.tEnd = ((xs.length + i + 1 : Nat) : Int) ∧
        ∀ t : Nat, 1 ≤ t → t ≤ xs.length + i + 1 → Slot o.p t (hit t) mv) →
      ∃ ys, Run (fun p : SCO ℚ C D => p.tEnd) (rbg P evict θ draw world) xs none os (xs ++ ys) none ∧ ys.length = os.length ∧
        ∀ (i : Nat) o x, os[i]? = some o → ys[i]? = some x → Greedy box hit mv θ (xs.length + i + 1) (draw o) x := by
  intro os
  induction os with
  | nil => intro xs _; exact ⟨[], by simpa using .nil xs none, rfl, by simp⟩
  | cons o os ih =>
    intro xs h
    obtain ⟨hw, hd, hb, ht, hp⟩ := h 0 o rfl
    obtain ⟨x, h1, h2⟩ := C51_decision (solverOf P S0) hS hE o hd hit mv θ (xs.length + 1) (by omega) (by simpa using hp) (draw o)
    obtain ⟨ys, h3, h4, h5⟩ := ih (xs ++ [[x]]) (by
      intro i o ho
      have := h (i + 1) o ho
      simp only [List.length_append, List.length_singleton]
      rwa [show xs.length + 1 + i + 1 = xs.length + (i + 1) + 1 by ring])
    refine ⟨[x] :: ys, .step _ _ _ _ [x] none _ _ (by simpa using ht) ?_ (by simpa using h3), by simp [h4], ?_⟩
    · have := C51_step_without_cache P S0 evict hev θ draw world o hw hd (xs.length + 1) xs (draw o)
      rw [h1] at this
      exact_mod_cast this
    · intro i o' x' ho hx
      cases i with
      | zero =>
        simp only [List.getElem?_cons_zero, Option.some.injEq] at ho hx
        subst ho hx
        rw [← hb]
        exact h2
      | succ i =>
        have := h5 i o' x' (by simpa using ho) (by simpa using hx)
        simp only [List.length_append, List.length_singleton] at this
        rwa [show xs.length + 1 + i + 1 = xs.length + (i + 1) + 1 by ring] at this

/-- **C51** (histories). In every history randomly biased greedy succeeds in every slot, and each decision follows the
greedy rule for the bias drawn in that slot; neither what is left in the global cache nor what it forgets matters. -/
theorem C51_history (P : Player) (S0 : Solver) (hS : Inner (solverOf P S0)) (hE : Exact (solverOf P S0)) (evict : Cache → Cache)
    (hev : ∀ c t x v, evict c t x = some v → c t x = some v) (θ : ℚ) (draw : Online (SCO ℚ C D) → ℚ) (world : Cache)
    (box : List (ℚ × ℚ)) (hit : Int → Config ℚ → ECost) (mv : Config ℚ → ℚ) (os : List (Online (SCO ℚ C D)))
    (h : ∀ (i : Nat) o, os[i]? = some o → o.w = 0 ∧ o.p.d = 1 ∧ o.p.bounds = box ∧ o.p.tEnd = ((i + 1 : Nat) : Int) ∧
      ∀ t : Nat, 1 ≤ t → t ≤ i + 1 → Slot o.p t (hit t) mv) :
    ∃ ys, Run (fun p : SCO ℚ C D => p.tEnd) (rbg P evict θ draw world) [] none os ys none ∧ ys.length = os.length ∧
      ∀ (i : Nat) o x, os[i]? = some o → ys[i]? = some x → Greedy box hit mv θ (i + 1) (draw o) x := by
  have := run_rbg P S0 hS hE evict hev θ draw world box hit mv os [] (by simpa using h)
  simpa using this

/-- **C59** (partial). The algorithm follows the greedy rule for a single bias if every draw has the same outcome. Missing:
the bias is drawn anew in every slot, see `C59_counterexample`. -/
theorem C59_same_draw_partial (P : Player) (S0 : Solver) (hS : Inner (solverOf P S0)) (hE : Exact (solverOf P S0))
    (evict : Cache → Cache) (hev : ∀ c t x v, evict c t x = some v → c t x = some v) (θ r : ℚ) (world : Cache)
    (box : List (ℚ × ℚ)) (hit : Int → Config ℚ → ECost) (mv : Config ℚ → ℚ) (os : List (Online (SCO ℚ C D)))
    (h : ∀ (i : Nat) o, os[i]? = some o → o.w = 0 ∧ o.p.d = 1 ∧ o.p.bounds = box ∧ o.p.tEnd = ((i + 1 : Nat) : Int) ∧
      ∀ t : Nat, 1 ≤ t → t ≤ i + 1 → Slot o.p t (hit t) mv) :
    ∃ ys, Run (fun p : SCO ℚ C D => p.tEnd) (rbg P evict θ (fun _ => r) world) [] none os ys none ∧ ys.length = os.length ∧
      ∀ (i : Nat) x, ys[i]? = some x → Greedy box hit mv θ (i + 1) r x := by
  obtain ⟨ys, h1, h2, h3⟩ := C51_history P S0 hS hE evict hev θ (fun _ => r) world box hit mv os h
  refine ⟨ys, h1, h2, fun i x hx => ?_⟩
  have hi : i < os.length := by
    rw [← h2]
    exact (List.getElem?_eq_some_iff.1 hx).1
  exact h3 i os[i] x (List.getElem?_eq_getElem hi) hx

end

/-! ## Exact players exist -/

/-- Asks for all the values and keeps the best. -/
def scan (b : List ℚ) (v : ECost) : List (List ℚ) → Strategy
  | [] => .stop b .done
  | y :: ys => .ask y fun c => if c < v then scan y c ys else scan b v ys

open Classical in
/-- Scans the grid. -/
noncomputable def scanner : Player := fun box _ =>
  match (gridPoints box).filter (fun y => InBoxQ box y ∧ ∀ j ∈ y, OnGrid j) with
  | [] => .stop (box.map Prod.fst) .done
  | y :: ys => .ask y fun c => scan y c ys

theorem scan_ok (a0 : Answer) (f : List ℚ → Res ECost) (box : List (ℚ × ℚ)) (ys : List (List ℚ)) :
    ∀ (b : List ℚ) (v : ECost), (∀ y ∈ ys, GridPoint box y) → GridPoint box b → f b = .ok v →
      ((((answer a0 f (scan b v ys)).x = a0.x ∧ (answer a0 f (scan b v ys)).status = a0.status) ∨
        ((answer a0 f (scan b v ys)).status = .done ∧ GridPoint box (answer a0 f (scan b v ys)).x ∧
          ∃ c, f (answer a0 f (scan b v ys)).x = .ok c ∧ c ≤ v ∧ ∀ y ∈ ys, ∀ c', f y = .ok c' → c ≤ c')) ∧
      ∀ q ∈ (answer a0 f (scan b v ys)).probes, q ∈ ys) := by
  induction ys with
  | nil =>
    intro b v _ hb hv
    exact ⟨Or.inr ⟨rfl, hb, v, hv, le_rfl, by simp⟩, by simp [scan, answer]⟩
  | cons y ys ih =>
    intro b v hys hb hv
    have hy := hys y (by simp)
    have hys' : ∀ z ∈ ys, GridPoint box z := fun z hz => hys z (by simp [hz])
    have hr : applyPrecisionVec y = y := applyPrecisionVec_grid hy.2
    cases hf : f y with
    | error e =>
      have : answer a0 f (scan b v (y :: ys)) = { a0 with probes := [y] } := by
        simp only [scan, answer, hr, hf]
      rw [this]
      exact ⟨Or.inl ⟨rfl, rfl⟩, by simp⟩
    | ok w =>
      by_cases hlt : w < v
      · have : answer a0 f (scan b v (y :: ys)) =
            { answer a0 f (scan y w ys) with probes := y :: (answer a0 f (scan y w ys)).probes } := by
          simp only [scan, answer, hr, hf, if_pos hlt]
        rw [this]
        obtain ⟨h1, h2⟩ := ih y w hys' hy hf
        refine ⟨?_, by simpa using fun q hq => Or.inr (h2 q hq)⟩
        rcases h1 with h1 | ⟨h1, h3, c, h4, h5, h6⟩
        · exact Or.inl h1
        · refine Or.inr ⟨h1, h3, c, h4, h5.trans hlt.le, ?_⟩
          intro z hz c' hc'
          rcases List.mem_cons.1 hz with rfl | hz
          · rw [hf] at hc'
            cases hc'
            exact h5
          · exact h6 z hz c' hc'
      · have : answer a0 f (scan b v (y :: ys)) =
            { answer a0 f (scan b v ys) with probes := y :: (answer a0 f (scan b v ys)).probes } := by
          simp only [scan, answer, hr, hf, if_neg hlt]
        rw [this]
        obtain ⟨h1, h2⟩ := ih b v hys' hb hv
        refine ⟨?_, by simpa using fun q hq => Or.inr (h2 q hq)⟩
        rcases h1 with h1 | ⟨h1, h3, c, h4, h5, h6⟩
        · exact Or.inl h1
        · refine Or.inr ⟨h1, h3, c, h4, h5, ?_⟩
          intro z hz c' hc'
          rcases List.mem_cons.1 hz with rfl | hz
          · rw [hf] at hc'
            cases hc'
            exact h5.trans (not_lt.1 hlt)
          · exact h6 z hz c' hc'

open Classical in
theorem scanner_ok (a0 : Answer) (f : List ℚ → Res ECost) (box : List (ℚ × ℚ)) (init : List ℚ) :
    ((((answer a0 f (scanner box init)).x = a0.x ∧ (answer a0 f (scanner box init)).status = a0.status) ∨
      ((answer a0 f (scanner box init)).status = .done ∧ (answer a0 f (scanner box init)).x = box.map Prod.fst ∧
        ¬ ∃ y, GridPoint box y) ∨
      ((answer a0 f (scanner box init)).status = .done ∧ GridPoint box (answer a0 f (scanner box init)).x ∧
        ∃ c, f (answer a0 f (scanner box init)).x = .ok c ∧ ∀ y, GridPoint box y → ∀ c', f y = .ok c' → c ≤ c')) ∧
    ∀ q ∈ (answer a0 f (scanner box init)).probes, GridPoint box q) := by
  obtain ⟨G, hG⟩ : ∃ G, G = (gridPoints box).filter (fun y => InBoxQ box y ∧ ∀ j ∈ y, OnGrid j) := ⟨_, rfl⟩
  have hmem : ∀ y, y ∈ G ↔ GridPoint box y := by
    intro y
    rw [hG, List.mem_filter]
    simp only [decide_eq_true_eq]
    exact ⟨fun h => h.2, fun h => ⟨mem_gridPoints h.1 h.2, h⟩⟩
  simp only [scanner, ← hG]
  cases G with
  | nil =>
    refine ⟨Or.inr (Or.inl ⟨rfl, rfl, ?_⟩), by simp [answer]⟩
    rintro ⟨y, hy⟩
    simpa using (hmem y).2 hy
  | cons y ys =>
    have hy := (hmem y).1 (by simp)
    have hr : applyPrecisionVec y = y := applyPrecisionVec_grid hy.2
    have hys : ∀ z ∈ ys, GridPoint box z := fun z hz => (hmem z).1 (by simp [hz])
    cases hf : f y with
    | error e =>
      simp only [answer, hr, hf]
      exact ⟨Or.inl ⟨trivial, trivial⟩, by simpa using hy⟩
    | ok w =>
      simp only [answer, hr, hf]
      obtain ⟨h1, h2⟩ := scan_ok a0 f box ys y w hys hy hf
      refine ⟨?_, ?_⟩
      · rcases h1 with h1 | ⟨h1, h3, c, h4, h5, h6⟩
        · exact Or.inl h1
        · refine Or.inr (Or.inr ⟨h1, h3, c, h4, ?_⟩)
          intro z hz c' hc'
          rcases List.mem_cons.1 ((hmem z).2 hz) with rfl | hz
          · rw [hf] at hc'
            cases hc'
            exact h5
          · exact h6 z hz c' hc'
      · intro q hq
        rcases List.mem_cons.1 hq with rfl | hq
        · exact hy
        · exact hys q (h2 q hq)

/-- The player that scans the grid is one the theorems require. -/
theorem scanner_exact : ∃ S0 : Solver, Inner (solverOf scanner S0) ∧ Exact (solverOf scanner S0) := by
  obtain ⟨S0, h1, h2⟩ := exists_exact
  have corner : ∀ box : List (ℚ × ℚ), GridBox box → GridPoint box (box.map Prod.fst) := by
    intro box hb
    refine ⟨corner_inBox box fun b h => (hb b h).1, ?_⟩
    intro j hj
    obtain ⟨b, hb', rfl⟩ := List.mem_map.1 hj
    exact (hb b hb').2.1
  have hs : Sound (solverOf scanner S0) := by
    refine ⟨?_, ?_, ?_⟩
    · intro box f init cs hb
      cases cs with
      | cons c cs => exact h1.inside box f init _ hb
      | nil =>
        rcases (scanner_ok (S0 box f init []) f box init).1 with h | h | h
        · simp only [solverOf, h.1]; exact h1.inside box f init _ hb
        · simp only [solverOf, h.2.1]; exact corner_inBox box hb
        · exact h.2.1.1
    · intro box f init cs q hq
      cases cs with
      | cons c cs => exact h1.probes box f init _ q hq
      | nil => exact inBoxQ_length ((scanner_ok (S0 box f init []) f box init).2 q hq).1
    · intro box f init cs
      cases cs with
      | cons c cs => exact h1.ends box f init _
      | nil =>
        rcases (scanner_ok (S0 box f init []) f box init).1 with h | h | h
        · simp only [solverOf, h.2]; exact h1.ends box f init _
        · simp [solverOf, h.1]
        · simp [solverOf, h.1]
  refine ⟨S0, ⟨hs, ?_⟩, ⟨hs, ?_, ?_, ?_⟩⟩
  · intro box f init cs hb q hq
    cases cs with
    | cons c cs => exact h2.probed box f init _ hb q hq
    | nil => exact ((scanner_ok (S0 box f init []) f box init).2 q hq).1
  · intro box f init cs
    cases cs with
    | cons c cs => exact h1.done box f init _
    | nil =>
      rcases (scanner_ok (S0 box f init []) f box init).1 with h | h | h
      · simp only [solverOf, h.2]; exact h1.done box f init _
      · exact h.1
      · exact h.1
  · intro box f init cs hb he
    cases cs with
    | cons c cs => exact h1.feasible box f init _ hb he
    | nil => simp [Meets]
  · intro box f init cs hb y c c' a1 a2 a3 a4 a5
    cases cs with
    | cons e cs => exact h1.best box f init _ hb y c c' a1 a2 a3 a4 a5
    | nil =>
      rcases (scanner_ok (S0 box f init []) f box init).1 with h | h | h
      · simp only [solverOf, h.1] at a4
        exact h1.best box f init _ hb y c c' a1 a2 a3 a4 a5
      · exact absurd ⟨_, corner box hb⟩ h.2.2
      · obtain ⟨-, h3, c0, h4, h5⟩ := h
        have hr : applyPrecisionVec (solverOf scanner S0 box f init []).x = (solverOf scanner S0 box f init []).x :=
          applyPrecisionVec_grid h3.2
        rw [hr] at a4
        have h4' : f (solverOf scanner S0 box f init []).x = .ok c0 := h4
        rw [h4'] at a4
        cases a4
        exact h5 y ⟨a1, a2⟩ c' a5

/-- There are players as the theorems require. -/
theorem exists_player : ∃ (P : Player) (S0 : Solver), Inner (solverOf P S0) ∧ Exact (solverOf P S0) := ⟨scanner, scanner_exact⟩

/-! ## Examples -/

/-- Decision space `[0, 1]`; hitting costs `3/2 (1 - x)` in the first slot and `1/4 (1 - x)` from then on. -/
def exF (t : Int) (x : ℚ) : ℚ := if t ≤ 1 then 3 / 2 * (1 - x) else 1 / 4 * (1 - x)

def exQ (T : Int) : SCO ℚ Unit Unit where
  d := 1
  tEnd := T
  bounds := [(0, 1)]
  switchingCost := fun x => .ok |x.headD 0|
  hittingCost := CostFn.new 1 (SingleCostFn.certain fun t x => .ok (Cost.raw ((exF t (x.headD 0) : ℚ) : ECost)))

def exHit (t : Int) (x : Config ℚ) : ECost := ((exF t (x.headD 0) : ℚ) : ECost)

def exMv (x : Config ℚ) : ℚ := |x.headD 0|

theorem exQ_slot (T t : Int) (ht : 1 ≤ t) : Slot (exQ T) t (exHit t) exMv where
  box := by
    intro b hb
    simp only [exQ, List.mem_singleton] at hb
    subst hb
    exact ⟨by norm_num, ⟨0, by norm_num⟩, ⟨100, by norm_num⟩⟩
  dim := rfl
  certain := by
    intro x _
    exact ⟨.success (), by rw [exQ, CostFn.callCertain_certain _ _ ht]; rfl⟩
  mean := by
    intro x _
    exact ⟨.success (), by rw [exQ, CostFn.callMean_certain _ _ ht]; rfl⟩
  moves := fun _ _ => rfl

theorem exQ_shown (n : Nat) : ∀ (i : Nat) (o : Online (SCO ℚ Unit Unit)),
    ((List.range n).map fun i : Nat => (⟨exQ ((i + 1 : Nat) : Int), 0⟩ : Online (SCO ℚ Unit Unit)))[i]? = some o →
    o.w = 0 ∧ o.p.d = 1 ∧ o.p.bounds = [(0, 1)] ∧ o.p.tEnd = ((i + 1 : Nat) : Int) ∧
      ∀ t : Nat, 1 ≤ t → t ≤ i + 1 → Slot o.p t (exHit t) exMv := by
  intro i o ho
  simp only [List.getElem?_map, Option.map_eq_some_iff] at ho
  obtain ⟨j, hj, rfl⟩ := ho
  have : j = i := by
    rw [List.getElem?_eq_some_iff] at hj
    obtain ⟨h, e⟩ := hj
    simpa using e.symm
  subst this
  exact ⟨rfl, rfl, rfl, rfl, fun t ht _ => exQ_slot _ _ (by exact_mod_cast ht)⟩

/-- Non-vacuity of `C51_history` and `C59_same_draw_partial`: histories of every length, with a cache that forgets all. -/
example (n : Nat) : ∃ (P : Player) (S0 : Solver) (ys : Schedule ℚ), Inner (solverOf P S0) ∧ Exact (solverOf P S0) ∧
    Run (fun p : SCO ℚ Unit Unit => p.tEnd) (rbg P Cache.clear 1 (fun _ => 0) (fun _ _ => some 7)) [] none
      ((List.range n).map fun i : Nat => (⟨exQ ((i + 1 : Nat) : Int), 0⟩ : Online (SCO ℚ Unit Unit))) ys none ∧ ys.length = n := by
  obtain ⟨P, S0, h1, h2⟩ := exists_player
  obtain ⟨ys, h3, h4, -⟩ := C51_history P S0 h1 h2 Cache.clear (by intro c t x v h; simp [Cache.clear, Cache.empty] at h) 1 (fun _ => 0)
    (fun _ _ => some 7) [(0, 1)] exHit exMv _ (exQ_shown n)
  exact ⟨P, S0, ys, h1, h2, h3, by simpa using h4⟩

/-! ## Limits -/

theorem grid01 {y : Config ℚ} (h : GridPoint [(0, 1)] y) : ∃ a, y = [a] ∧ 0 ≤ a ∧ a ≤ 1 := by
  have := h.1
  unfold InBoxQ at this
  cases this with
  | cons a b => cases b; exact ⟨_, rfl, a.1, a.2⟩

/-- The work function of the example after one slot. -/
theorem ex_work1 (x : ℚ) (hx : GridPoint [(0, 1)] [x]) : IsWork [(0, 1)] exHit exMv 1 1 [x] ((3 / 2 - x / 2 : ℚ) : ECost) := by
  have val : ∀ a : ℚ, prefixCost exHit exMv 1 1 (List.replicate 1 0) [[a]] [x] = ((|a| + 3 / 2 * (1 - a) + |x - a| : ℚ) : ECost) := by
    intro a
    simp only [prefixCost, exHit, exF, exMv, List.replicate, List.zipWith, List.headD_cons, le_refl, if_true, one_mul, sub_zero,
      ← WithTop.coe_add]
  obtain ⟨_, e, h0, h1⟩ := grid01 hx
  cases e
  refine ⟨⟨[[x]], rfl, by simpa using hx, ?_⟩, ?_⟩
  · refine (val x).trans ?_
    rw [abs_of_nonneg h0, sub_self, abs_zero]
    congr 1
    ring
  · intro ys hl hg
    obtain ⟨y, rfl⟩ := List.length_eq_one_iff.1 hl
    obtain ⟨a, rfl, g0, g1⟩ := grid01 (hg y (by simp))
    refine le_of_le_of_eq ?_ (val a).symm
    rw [WithTop.coe_le_coe, abs_of_nonneg g0]
    cases abs_cases (x - a) <;> linarith

/-- The work function of the example after two slots. -/
theorem ex_work2 (x : ℚ) (hx : GridPoint [(0, 1)] [x]) : IsWork [(0, 1)] exHit exMv 1 2 [x] ((7 / 4 - 3 * x / 4 : ℚ) : ECost) := by
  have val : ∀ a b : ℚ, prefixCost exHit exMv 1 1 (List.replicate 1 0) [[a], [b]] [x] =
      ((|a| + 3 / 2 * (1 - a) + (|b - a| + 1 / 4 * (1 - b) + |x - b|) : ℚ) : ECost) := by
    intro a b
    have : ¬ ((1 : Int) + 1 ≤ 1) := by norm_num
    simp only [prefixCost, exHit, exF, exMv, List.replicate, List.zipWith, List.headD_cons, le_refl, if_true, one_mul, sub_zero, this,
      if_false, ← WithTop.coe_add]
  obtain ⟨_, e, h0, h1⟩ := grid01 hx
  cases e
  refine ⟨⟨[[x], [x]], rfl, by simpa using hx, ?_⟩, ?_⟩
  · refine (val x x).trans ?_
    rw [abs_of_nonneg h0, sub_self, abs_zero]
    congr 1
    ring
  · intro ys hl hg
    obtain ⟨y, z, rfl⟩ := List.length_eq_two.1 hl
    obtain ⟨a, rfl, g0, g1⟩ := grid01 (hg y (by simp))
    obtain ⟨b, rfl, k0, k1⟩ := grid01 (hg z (by simp))
    refine le_of_le_of_eq ?_ (val a b).symm
    rw [WithTop.coe_le_coe, abs_of_nonneg g0]
    cases abs_cases (x - b) <;> cases abs_cases (b - a) <;> linarith

theorem grid_zero : GridPoint [(0, 1)] [0] := ⟨.cons ⟨by norm_num, by norm_num⟩ .nil, by simpa using ⟨0, by norm_num⟩⟩

theorem grid_one : GridPoint [(0, 1)] [1] := ⟨.cons ⟨by norm_num, by norm_num⟩ .nil, by simpa using ⟨100, by norm_num⟩⟩

/-- **C59** (refuted). The bias is not kept: if the draws in two slots are `0` and `9/10`, then the algorithm decides for `1`
and then for `0`, which no single bias would do. -/
theorem C59_counterexample : ∃ (P : Player) (S0 : Solver), Inner (solverOf P S0) ∧ Exact (solverOf P S0) ∧
    Run (fun p : SCO ℚ Unit Unit => p.tEnd) (rbg P id 1 (fun o => if o.p.tEnd = 1 then 0 else 9 / 10) Cache.empty) [] none
      [⟨exQ 1, 0⟩, ⟨exQ 2, 0⟩] [[1], [0]] none ∧
    ¬ ∃ r : ℚ, Greedy [(0, 1)] exHit exMv 1 1 r [1] ∧ Greedy [(0, 1)] exHit exMv 1 2 r [0] := by
  obtain ⟨P, S0, h1, h2⟩ := exists_player
  refine ⟨P, S0, h1, h2, ?_, ?_⟩
  · obtain ⟨ys, h3, h4, h5⟩ := C51_history P S0 h1 h2 id (fun _ _ _ _ h => h) 1 (fun o => if o.p.tEnd = 1 then 0 else 9 / 10)
      Cache.empty [(0, 1)] exHit exMv _ (exQ_shown 2)
    obtain ⟨y, z, rfl⟩ := List.length_eq_two.1 (by simpa using h4)
    obtain ⟨g1, c1, w1, m1⟩ := h5 0 _ y rfl rfl
    obtain ⟨g2, c2, w2, m2⟩ := h5 1 _ z rfl rfl
    obtain ⟨a, rfl, a0, a1⟩ := grid01 g1
    obtain ⟨b, rfl, b0, b1⟩ := grid01 g2
    have e1 := m1 [1] _ grid_one (ex_work1 1 grid_one)
    have e2 := m2 [0] _ grid_zero (ex_work2 0 grid_zero)
    rw [w1.unique (ex_work1 a g1)] at e1
    rw [w2.unique (ex_work2 b g2)] at e2
    simp only [exQ, exMv, List.headD_cons, ← WithTop.coe_add, WithTop.coe_le_coe] at e1 e2
    norm_num [abs_of_nonneg b0] at e1 e2
    have ha : a = 1 := by linarith
    have hb : b = 0 := by linarith
    subst ha hb
    exact h3
  · rintro ⟨r, ⟨-, c1, w1, m1⟩, ⟨-, c2, w2, m2⟩⟩
    have e1 := m1 [0] _ grid_zero (ex_work1 0 grid_zero)
    have e2 := m2 [1] _ grid_one (ex_work2 1 grid_one)
    rw [w1.unique (ex_work1 1 grid_one)] at e1
    rw [w2.unique (ex_work2 0 grid_zero)] at e2
    simp only [exMv, List.headD_cons, ← WithTop.coe_add, WithTop.coe_le_coe] at e1 e2
    norm_num at e1 e2
    linarith

/-- The cache is only sound because it is cleared: its keys do not tell instances apart. A cache which is consistent for
scaling factor `1` makes the work function for scaling factor `2` wrong, so two runs must not interleave. -/
theorem C51_shared_cache_counterexample (P : Player) (S0 : Solver) : ∃ c : Cache,
    Consistent (solverOf P S0) (exQ 1).bounds (hitOf (exQ 1)) (exQ 1).switchingCost 1 c ∧
    (∃ c', work P id (exQ 1).bounds (hitOf (exQ 1)) (exQ 1).switchingCost 2 0 [1] c = .ok (1, c')) ∧
    workP (solverOf P S0) (exQ 1).bounds (hitOf (exQ 1)) (exQ 1).switchingCost 2 0 [1] = .ok 2 := by
  refine ⟨Cache.empty.set 0 [1] 1, ?_, ⟨_, rfl⟩, ?_⟩
  · intro t x v hv
    simp only [Cache.set, Cache.empty] at hv
    split at hv
    · rename_i h
      obtain ⟨rfl, rfl⟩ := h
      cases hv
      simp [workP, exQ, bind, Except.bind]
    · cases hv
  · simp [workP, exQ, bind, Except.bind]

end Rbg
end Soco
