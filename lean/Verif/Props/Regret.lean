import Verif.Lemmas.Regret
import Verif.Props.Descent3
import Verif.Spec.Schedule

/-! # C66: the regret of online gradient descent -/

namespace Soco
namespace Descent
open Spec Num Mless Regret

section
variable {C D : Type} [OutSuccess C] [OutFailure D]

/-- The instances of a one-dimensional history with decision space `[lo, hi]`: slot after slot, with the hitting costs `φ`. -/
structure Shows (lo hi : ℚ) (φ : Int → ℚ → ℚ) (os : List (Online (SCO ℚ C D))) : Prop where
  window : ∀ o ∈ os, o.w = 0 ∧ o.p.bounds = [(lo, hi)]
  slot : ∀ o ∈ os, ∃ mv, Slot o.p o.p.tEnd (fun x => ((φ o.p.tEnd (x.headD 0) : ℚ) : ECost)) mv

/-- All decisions but the last keep a distance of `ε` from the bounds. -/
def Within (lo hi ε : ℚ) : ℚ → List (Config ℚ) → Prop
  | _, [] => True
  | p, x :: xs => (lo ≤ p - ε ∧ p + ε ≤ hi) ∧ Within lo hi ε (x.headD 0) xs

theorem regret_run (S : Solver) (hS : Inner S) (hE : Exact S) (root : ℚ → ℚ) (hroot : ∀ a b, 0 ≤ a → a < b → root a < root b)
    (ε : ℚ) (hε : 0 < ε) (eta : Int → ℚ) (hη : ∀ t : Int, 0 < eta t) (mono : ∀ t : Int, 1 ≤ t → eta (t + 1) ≤ eta t)
    (lo hi L : ℚ) (φ : Int → ℚ → ℚ) (hg : ∀ t : Int, Moderate lo hi L (φ t)) (z : ℚ) (z1 : lo ≤ z) (z2 : z ≤ hi)
    (gl : OnGrid lo) (gh : OnGrid hi) (W : ℚ) :
    ∀ (os : List (Online (SCO ℚ C D))) (xs : Schedule ℚ) (p r : ℚ) (m k : Option Unit) (ys : List (Config ℚ)),
      Run (fun p : SCO ℚ C D => p.tEnd) (ogd S root ε eta) xs m os (xs ++ ys) k → Shows lo hi φ os →
      (∀ x ∈ xs, x.length = 1) → latest 1 xs = [p] → OnGrid p → lo ≤ p → p ≤ hi → Within lo hi ε p ys →
      (∀ i : Nat, i < os.length → 1 / (2 * eta (xs.length + 1 + i)) ≤ W) → 0 ≤ r → r ≤ W →
      (0 < os.length → r ≤ 1 / (2 * eta (xs.length + 1))) →
      ys.length = os.length ∧ (∀ y ∈ ys, GridPoint [(lo, hi)] y) ∧
      ∃ a : ℚ, totalHit (fun t x => ((φ t (x.headD 0) : ℚ) : ECost)) (xs.length + 1) ys = ((a : ℚ) : ECost) ∧
        a ≤ ((List.range os.length).map fun i : Nat => φ (xs.length + 1 + i) z).sum
          + ((hi - lo) ^ 2 * (W - r) + (p - z) ^ 2 * r)
          + ((List.range os.length).map fun i : Nat => err L ε (hi - lo) (eta (xs.length + 1 + i))).sum := by
  intro os
  induction os with
  | nil =>
    intro xs p r m k ys hrun _ _ _ _ p1 p2 _ _ r0 rW _
    have hys : ys = [] := by
      generalize he : xs ++ ys = zs at hrun
      cases hrun
      simpa using he
    subst hys
    refine ⟨rfl, by simp, 0, rfl, ?_⟩
    have := mul_nonneg (sq_nonneg (hi - lo)) (sub_nonneg.2 rW)
    have := mul_nonneg (sq_nonneg (p - z)) r0
    simp only [List.length_nil, List.range_zero, List.map_nil, List.sum_nil]
    linarith
  | cons o os ih =>
    intro xs p r m k ys hrun hsh hxs hprev gp p1 p2 hin hW r0 rW hr
    generalize he : xs ++ ys = zs at hrun
    cases hrun with
    | step _ _ _ _ x m' _ _ hslot hcall hrest =>
      -- the decision
      obtain ⟨hw, hb⟩ := hsh.window o (by simp)
      obtain ⟨mv, hp⟩ := hsh.slot o (by simp)
      have hslot' : o.p.tEnd = (xs.length : Int) + 1 := hslot
      rw [hslot'] at hp
      have hbl : o.p.bounds.length = 1 := by rw [hb]; rfl
      obtain ⟨x', c1, c2, c3⟩ := C50_ogd S hS o hw root hroot ε eta xs (by rw [hbl]; exact hxs) _ mv hp (hη _)
      have hcall' : (ogd S root ε eta).call o ((xs.length : Int) + 1) xs () = .ok (x, m') := hcall
      have c1' : (ogd S root ε eta).call o ((xs.length : Int) + 1) xs () = .ok (x', none) := c1
      rw [c1'] at hcall'
      cases hcall'
      -- the rest of the run
      obtain ⟨zs', hzs⟩ : ∃ zs', zs = (xs ++ [x]) ++ zs' := by
        have mono' : ∀ {xs m} {os : List (Online (SCO ℚ C D))} {zs k},
            Run (fun p : SCO ℚ C D => p.tEnd) (ogd S root ε eta) xs m os zs k → ∃ zs', zs = xs ++ zs' := by
          intro xs m os zs k h
          induction h with
          | nil => exact ⟨[], by simp⟩
          | step _ _ _ _ x _ _ _ _ _ _ ih => obtain ⟨l, hl⟩ := ih; exact ⟨x :: l, by simp [hl]⟩
        exact mono' hrest
      have hys : ys = x :: zs' := by
        rw [hzs, List.append_assoc] at he
        simpa using List.append_cancel_left he
      subst hys
      rw [hzs] at hrest
      obtain ⟨hin1, hin2⟩ := hin
      rw [hb] at c2 c3
      obtain ⟨j, rfl, j1, j2⟩ : ∃ j, x = [j] ∧ lo ≤ j ∧ j ≤ hi := by
        have := c2.1
        unfold InBoxQ at this
        cases this with
        | cons a b => cases b; exact ⟨_, rfl, a.1, a.2⟩
      have gj : OnGrid j := c2.2 j (by simp)
      have hl1 : [(lo, hi)].length = 1 := rfl
      rw [hl1, hprev] at c3
      have near := c3 hE (fun _ => φ (xs.length + 1) (p + ε)) (fun _ => φ (xs.length + 1) (p - ε)) (by
        intro k hk
        obtain rfl : k = 0 := by omega
        refine ⟨.cons ⟨by linarith [hin1.1], hin1.2⟩ .nil, by simp [bump], .cons ⟨by linarith [hin1.1], by linarith [hin1.2]⟩ .nil, ?_⟩
        simp [bump, sub_eq_add_neg]) _ rfl
      have st := Regret.step (Fn.of_gentle (hg (xs.length + 1))) hε (hη (xs.length + 1)) gl gh gp hin1.1 hin1.2 j1 j2 z1 z2 (by
        intro w w1 w2 w3
        have := near [w] ⟨.cons ⟨w1, w2⟩ .nil, by simpa using w3⟩
        simpa [sqDist] using this)
      have rate0 : 1 / (2 * eta (xs.length + 1)) ≤ W := by simpa using hW 0 (by simp)
      have rpos : 0 ≤ 1 / (2 * eta (xs.length + 1)) := by
        have := hη (xs.length + 1)
        positivity
      have hlen : ((xs ++ [[j]]).length : Int) = (xs.length : Int) + 1 := by simp
      obtain ⟨i1, i2, a, i3, i4⟩ := ih (xs ++ [[j]]) j (1 / (2 * eta (xs.length + 1))) none k zs' hrest
        ⟨fun o' ho' => hsh.window o' (by simp [ho']), fun o' ho' => hsh.slot o' (by simp [ho'])⟩ (by
          intro y hy
          rcases List.mem_append.1 hy with hy | hy
          · exact hxs y hy
          · rw [List.mem_singleton.1 hy]; rfl) (by simp [latest]) gj j1 j2 hin2 (by
          intro i hi
          rw [hlen]
          have := hW (i + 1) (by simpa using hi)
          push_cast at this
          rw [add_comm (i : Int) 1, ← add_assoc] at this
          exact this) rpos rate0 (by
          intro _
          rw [hlen]
          have h1 := hη (xs.length + 1 + 1)
          have h2 := mono (xs.length + 1) (by omega)
          exact one_div_le_one_div_of_le (by linarith) (by linarith))
      rw [hlen] at i3 i4
      refine ⟨by simp [i1], ?_, φ (xs.length + 1) j + a, ?_, ?_⟩
      · intro y hy
        rcases List.mem_cons.1 hy with rfl | hy
        · exact c2
        · exact i2 y hy
      · rw [totalHit, i3]; rfl
      · rw [List.length_cons, List.range_succ_eq_map, List.map_cons, List.map_cons, List.sum_cons, List.sum_cons, List.map_map,
          List.map_map]
        have e1 : ((fun i : Nat => φ (xs.length + 1 + i) z) ∘ Nat.succ) = fun i : Nat => φ ((xs.length : Int) + 1 + 1 + i) z := by
          funext i; simp only [Function.comp]; congr 1; push_cast; ring
        have e2 : ((fun i : Nat => err L ε (hi - lo) (eta (xs.length + 1 + i))) ∘ Nat.succ)
            = fun i : Nat => err L ε (hi - lo) (eta ((xs.length : Int) + 1 + 1 + i)) := by
          funext i; simp only [Function.comp]; congr 2; push_cast; ring
        rw [e1, e2]
        simp only [Nat.cast_zero, add_zero]
        have hsq : (p - z) ^ 2 ≤ (hi - lo) ^ 2 := by
          apply sq_le_sq' <;> linarith
        have hrr := hr (by simp)
        have := mul_le_mul_of_nonneg_right hsq (sub_nonneg.2 hrr)
        linarith

/-- **C66** (what holds instead). Every run of online gradient descent (one dimension, decision space `[lo, hi]`, convex
hitting costs which change by at most `L` per unit, an exact optimiser, non-increasing learning rates) whose decisions keep
the distance `ε` of the difference quotients from the bounds has, compared to any fixed `z`, a regret of at most
`(hi - lo)² / (2 η_n)` plus per slot `5/2 η L² + 2 L ε + ((hi - lo)/100 + 1/40000) / (2 η)`. The last summand, which is due to
the numeric precision, grows when the learning rate decreases. -/
theorem C66_regret_partial (S : Solver) (hS : Inner S) (hE : Exact S) (root : ℚ → ℚ)
    (hroot : ∀ a b, 0 ≤ a → a < b → root a < root b) (ε : ℚ) (hε : 0 < ε) (eta : Int → ℚ) (hη : ∀ t : Int, 0 < eta t)
    (mono : ∀ t : Int, 1 ≤ t → eta (t + 1) ≤ eta t) (lo hi L : ℚ) (gl : OnGrid lo) (gh : OnGrid hi) (φ : Int → ℚ → ℚ)
    (hg : ∀ t : Int, Moderate lo hi L (φ t)) (os : List (Online (SCO ℚ C D))) (hsh : Shows lo hi φ os) (ys : Schedule ℚ)
    (k : Option Unit) (hrun : Run (fun p : SCO ℚ C D => p.tEnd) (ogd S root ε eta) [] none os ys k)
    (h0 : lo ≤ 0 ∧ 0 ≤ hi) (hin : Within lo hi ε 0 ys) (z : ℚ) (z1 : lo ≤ z) (z2 : z ≤ hi) :
    ∃ a b : ℚ, totalHit (fun t x => ((φ t (x.headD 0) : ℚ) : ECost)) 1 ys = (a : ECost) ∧
      totalHit (fun t x => ((φ t (x.headD 0) : ℚ) : ECost)) 1 (List.replicate os.length [z]) = (b : ECost) ∧
      a ≤ b + (hi - lo) ^ 2 / (2 * eta os.length)
        + ((List.range os.length).map fun i : Nat => 5 / 2 * (eta (i + 1) * L ^ 2) + 2 * (L * ε)
          + ((hi - lo) / 100 + 1 / 40000) / (2 * eta (i + 1))).sum := by
  have hmono : ∀ i n : Nat, i < n → eta n ≤ eta (1 + i) := by
    intro i n h
    induction n with
    | zero => omega
    | succ n ih =>
      rcases Nat.lt_succ_iff_lt_or_eq.1 h with h | rfl
      · have := mono n (by omega)
        push_cast
        exact this.trans (ih h)
      · push_cast; rw [add_comm]
  have hW : 0 ≤ 1 / (2 * eta os.length) := by
    have := hη os.length
    positivity
  obtain ⟨-, -, a, h1, h2⟩ := regret_run S hS hE root hroot ε hε eta hη mono lo hi L φ hg z z1 z2 gl gh (1 / (2 * eta os.length)) os
    [] 0 0 none k ys (by simpa using hrun) hsh (by simp) rfl ⟨0, by simp⟩ h0.1 h0.2 hin (by
      intro i hi
      have a1 := hη os.length
      have a2 := hmono i os.length hi
      simp only [List.length_nil, Nat.cast_zero, zero_add]
      exact one_div_le_one_div_of_le (by linarith) (by linarith)) le_rfl hW (by
      intro _
      have := hη (0 + 1)
      simp only [List.length_nil, Nat.cast_zero]
      positivity)
  simp only [List.length_nil, Nat.cast_zero, zero_add, mul_zero, add_zero, sub_zero] at h1 h2
  have hrep : ∀ (n : Nat) (t : Int), totalHit (fun t x => ((φ t (x.headD 0) : ℚ) : ECost)) t (List.replicate n [z])
      = ((((List.range n).map fun i : Nat => φ (t + i) z).sum : ℚ) : ECost) := by
    intro n
    induction n with
    | zero => intro t; rfl
    | succ n ih =>
      intro t
      rw [List.replicate_succ, totalHit, ih, List.range_succ_eq_map, List.map_cons, List.sum_cons, List.map_map]
      have : ((fun i : Nat => φ (t + i) z) ∘ Nat.succ) = fun i : Nat => φ (t + 1 + i) z := by
        funext i; simp only [Function.comp]; congr 1; push_cast; ring
      rw [this]
      simp
  refine ⟨a, _, h1, hrep _ _, ?_⟩
  have e : ((hi - lo) ^ 2 * (1 / (2 * eta os.length))) = (hi - lo) ^ 2 / (2 * eta os.length) := by ring
  rw [e] at h2
  simp only [err, add_comm (1 : Int)] at h2 ⊢
  linarith

end

/-! ## Example and limits -/

namespace RegretEx

/-- Hitting costs `|x - 1/2|` on `[-1, 1]`. -/
def inst (t : Nat) : Online (SCO ℚ Unit Unit) where
  p :=
    { d := 1, tEnd := t, bounds := [(-1, 1)], switchingCost := fun x => .ok |x.headD 0|
      hittingCost := CostFn.new 1 (SingleCostFn.certain fun _ x => .ok (Cost.raw (((|x.headD 0 - 1 / 2| : ℚ)) : ECost))) }
  w := 0

theorem shows (os : List (Online (SCO ℚ Unit Unit))) (h : ∀ o ∈ os, ∃ t : Nat, 1 ≤ t ∧ o = inst t) :
    Shows (-1) 1 (fun _ x => |x - 1 / 2|) os where
  window o ho := by obtain ⟨t, _, rfl⟩ := h o ho; exact ⟨rfl, rfl⟩
  slot o ho := by
    obtain ⟨t, ht, rfl⟩ := h o ho
    refine ⟨fun x => |x.headD 0|, ?_, rfl, ?_, ?_, fun _ _ => rfl⟩
    · intro b hb
      simp only [inst, List.mem_singleton] at hb
      subst hb
      exact ⟨by norm_num, ⟨-100, by norm_num⟩, ⟨100, by norm_num⟩⟩
    · intro x _
      exact ⟨.success (), by rw [inst, CostFn.callCertain_certain _ _ (Int.ofNat_le.2 ht)]; rfl⟩
    · intro x _
      exact ⟨.success (), by rw [inst, CostFn.callMean_certain _ _ (Int.ofNat_le.2 ht)]; rfl⟩

theorem gentle (t : Int) : Moderate (-1) 1 1 ((fun _ x => |x - 1 / 2|) t) where
  nonneg _ _ _ := abs_nonneg _
  convex x y _ _ _ _ a h0 h1 := by
    have e : (1 - a) * x + a * y - 1 / 2 = (1 - a) * (x - 1 / 2) + a * (y - 1 / 2) := by ring
    simp only [e]
    refine (abs_add_le _ _).trans ?_
    rw [abs_mul, abs_mul, abs_of_nonneg (by linarith : 0 ≤ 1 - a), abs_of_nonneg h0]
  slope x y _ _ _ _ := by
    have := abs_abs_sub_abs_le_abs_sub (x - 1 / 2) (y - 1 / 2)
    rw [show x - 1 / 2 - (y - 1 / 2) = x - y by ring] at this
    simpa using this

end RegretEx

open RegretEx in
/-- Non-vacuity of `C66_regret_partial`. -/
example : ∃ (S : Solver) (ys : Schedule ℚ), Inner S ∧ Exact S ∧
    Run (fun p : SCO ℚ Unit Unit => p.tEnd) (ogd S id (1 / 100) fun _ => 1 / 10) [] none [inst 1, inst 2] ys none ∧
    Within (-1) 1 (1 / 100) 0 ys := by
  obtain ⟨S, h1, h2⟩ := exists_exact
  have hs := shows [inst 1, inst 2] (by simp; exact ⟨⟨1, by norm_num, rfl⟩, ⟨2, by norm_num, rfl⟩⟩)
  have hone : ∀ (t : Nat) (xs : Schedule ℚ) (p q : ℚ), inst t ∈ [inst 1, inst 2] → t = xs.length + 1 → (∀ x ∈ xs, x.length = 1) →
      latest 1 xs = [p] → -1 ≤ p - 1 / 100 → p + 1 / 100 ≤ 1 / 2 → q = p + 1 / 10 → OnGrid q → q ≤ 1 →
      (ogd S id (1 / 100) fun _ => 1 / 10).next (inst t) xs none = .ok ([q], none) := by
    intro t xs p q hm ht hxs hp p1 p2 hq gq q1
    obtain ⟨mv, hsl⟩ := hs.slot _ hm
    have htE : (inst t).p.tEnd = (xs.length : Int) + 1 := by rw [ht]; simp [inst]
    rw [htE] at hsl
    obtain ⟨x, a1, a2, a3⟩ := C50_ogd S h2 (inst t) rfl id (fun a b _ h => h) (1 / 100) (fun _ => 1 / 10) xs hxs _ mv hsl
      (by norm_num)
    have hb : (inst t).p.bounds = [(-1, 1)] := rfl
    rw [hb] at a2 a3
    obtain ⟨j, rfl, j1, j2⟩ : ∃ j, x = [j] ∧ -1 ≤ j ∧ j ≤ 1 := by
      have := a2.1
      unfold InBoxQ at this
      cases this with
      | cons a b => cases b; exact ⟨_, rfl, a.1, a.2⟩
    have hl1 : [((-1 : ℚ), (1 : ℚ))].length = 1 := rfl
    rw [hl1, hp] at a3
    have near := a3 h1 (fun _ => 1 / 2 - p - 1 / 100) (fun _ => 1 / 2 - p + 1 / 100) (by
      intro k hk
      obtain rfl : k = 0 := by omega
      refine ⟨.cons ⟨by linarith, by linarith⟩ .nil, ?_, .cons ⟨by linarith, by linarith⟩ .nil, ?_⟩
      · simp only [bump, List.modify_zero_cons, List.headD_cons]
        rw [abs_of_nonpos (by linarith)]
        congr 1; ring
      · simp only [bump, List.modify_zero_cons, List.headD_cons]
        rw [abs_of_nonpos (by linarith)]
        congr 1; ring) _ rfl [q] ⟨.cons ⟨by linarith, q1⟩ .nil, by simpa using gq⟩
    have e : p - 1 / 10 * ((1 / 2 - p - 1 / 100 - (1 / 2 - p + 1 / 100)) / (2 * (1 / 100))) = q := by rw [hq]; ring
    simp only [sqDist, List.range_one, List.zipWith_cons_cons, List.zipWith_nil_right, List.sum_cons, List.sum_nil, add_zero, e,
      sub_self] at near
    have : j = q := by nlinarith [sq_nonneg (j - q)]
    rw [a1, this]
  have r1 := hone 1 [] 0 (1 / 10) (by simp) rfl (by simp) rfl (by norm_num) (by norm_num) (by norm_num) ⟨10, by norm_num⟩ (by norm_num)
  have r2 := hone 2 [[1 / 10]] (1 / 10) (1 / 5) (by simp) rfl (by simp) rfl (by norm_num) (by norm_num) (by norm_num) ⟨20, by norm_num⟩
    (by norm_num)
  exact ⟨S, [[1 / 10], [1 / 5]], h2, h1, .step [] none (inst 1) _ [1 / 10] none _ none rfl r1
    (.step _ none (inst 2) _ [1 / 5] none _ none rfl r2 (.nil _ _)), by norm_num [Within]⟩

/-- **C66** is false of the code: at a bound (where the algorithm begins) the difference quotient is infinite, and with an
exact optimiser which breaks ties in favour of zero, gradient descent on `[0, 1]` with hitting costs `1 - x` never moves,
whatever the learning rates are. Over `n` slots its hitting costs are `n`, those of the constant 1 are zero. -/
theorem C66_regret_counterexample : ∃ S : Solver, Exact S ∧ Inner S ∧ ∀ (root : ℚ → ℚ) (ε : ℚ) (eta : Int → ℚ), 0 < ε → ε ≤ 1 →
    (∀ t : Int, 0 < eta t) → ∀ n : Nat,
    Run (fun p : SCO ℚ Unit Unit => p.tEnd) (ogd S root ε eta) [] none
      ((List.range n).map fun i : Nat => ⟨exP (fun x => 1 - x) (i + 1), 0⟩) (List.replicate n [0]) none ∧
    totalHit (fun _ x => ((1 - x.headD 0 : ℚ) : ECost)) 1 (List.replicate n ([0] : Config ℚ)) = ((n : ℚ) : ECost) ∧
    totalHit (fun _ x => ((1 - x.headD 0 : ℚ) : ECost)) 1 (List.replicate n ([1] : Config ℚ)) = 0 := by
  obtain ⟨S, e1, e2, e3⟩ := exists_exact_at [(0, 1)] [0] (ex_grid 0 le_rfl zero_le_one ⟨0, by simp⟩ (fun x => 1 - x) 1)
  refine ⟨S, e1, e2, fun root ε eta hε hε' hη n => ⟨?_, ?_, ?_⟩⟩
  · have stay : ∀ k : Nat, (ogd S root ε eta).next ⟨exP (fun x => 1 - x) (k + 1), 0⟩ (List.replicate k [0]) none = .ok ([0], none) := by
      intro k
      have hlat : latest 1 (List.replicate k ([0] : Config ℚ)) = [0] := by
        cases k with
        | zero => rfl
        | succ k => simp [latest, List.getLast?_replicate]
      have hsl := ex_slot (fun x => 1 - x) (k + 1) (((List.replicate k ([0] : Config ℚ)).length : Int) + 1) (by omega)
      rw [C50_ogd_boundary S ⟨exP (fun x => 1 - x) (k + 1), 0⟩ rfl root ε eta (List.replicate k [0]) (by
          intro x hx; rw [List.eq_of_mem_replicate hx]; rfl) _ _ hsl (hη _) 0 (by simp [exP]) (by
          change InBoxQ [((0 : ℚ), (1 : ℚ))] (bump (latest 1 (List.replicate k ([0] : Config ℚ))) 0 ε)
          rw [hlat]
          exact .cons (by simpa using ⟨hε.le, hε'⟩) .nil) WithTop.coe_ne_top (by
          change ¬ InBoxQ [((0 : ℚ), (1 : ℚ))] (bump (latest 1 (List.replicate k ([0] : Config ℚ))) 0 (-ε))
          rw [hlat]
          intro hin
          have : InBoxQ [((0 : ℚ), (1 : ℚ))] [0 + -ε] := hin
          unfold InBoxQ at this
          cases this with
          | cons a b => linarith [a.1])]
      have hr : applyPrecisionVec [0] = [0] := applyPrecisionVec_grid (by simpa using ⟨0, by simp⟩)
      have hm : minimize S (fun _ => .ok ⊤) [((0 : ℚ), (1 : ℚ))] none [] = .ok ([0], ⊤) := by
        unfold minimize
        simp only [e3]
        simp [visit, assertP, bind, Except.bind, hr]
      change (minimize S (fun _ => .ok ⊤) [((0 : ℚ), (1 : ℚ))] none []).map _ = _
      rw [hm]
      rfl
    have run : ∀ m k : Nat, Run (fun p : SCO ℚ Unit Unit => p.tEnd) (ogd S root ε eta) (List.replicate k [0]) none
        ((List.range m).map fun i : Nat => ⟨exP (fun x => 1 - x) ((k : Int) + i + 1), 0⟩) (List.replicate (k + m) [0]) none := by
      intro m
      induction m with
      | zero => intro k; exact .nil _ _
      | succ m ih =>
        intro k
        rw [List.range_succ_eq_map, List.map_cons, List.map_map]
        refine .step _ none _ _ [0] none _ none (by simp [exP]) ?_ ?_
        · have := stay k
          simp only [Nat.cast_zero, add_zero]
          have e : (ogd S root ε eta).next ⟨exP (fun x => 1 - x) (k + 1), 0⟩ (List.replicate k [0]) none
            = (ogd S root ε eta).call ⟨exP (fun x => 1 - x) (k + 1), 0⟩ ((List.replicate k ([0] : Config ℚ)).length + 1)
              (List.replicate k [0]) () := rfl
          rw [e] at this
          exact this
        · have := ih (k + 1)
          rw [show k + 1 + m = k + (m + 1) by omega] at this
          have e2 : List.replicate k ([0] : Config ℚ) ++ [[0]] = List.replicate (k + 1) [0] := by
            rw [← List.replicate_succ']
          rw [e2]
          convert this using 3 with i
          simp only [Function.comp]
          congr 2
          push_cast; ring
    have := run n 0
    simpa using this
  · have : ∀ (n : Nat) (t : Int), totalHit (fun _ x => ((1 - x.headD 0 : ℚ) : ECost)) t (List.replicate n ([0] : Config ℚ))
        = ((n : ℚ) : ECost) := by
      intro n
      induction n with
      | zero => intro t; simp [totalHit]
      | succ n ih =>
        intro t
        rw [List.replicate_succ, totalHit, ih]
        simp only [List.headD_cons, sub_zero]
        rw [← WithTop.coe_add]
        push_cast
        rw [add_comm]
    exact this n 1
  · have : ∀ (n : Nat) (t : Int), totalHit (fun _ x => ((1 - x.headD 0 : ℚ) : ECost)) t (List.replicate n ([1] : Config ℚ)) = 0 := by
      intro n
      induction n with
      | zero => intro t; rfl
      | succ n ih => intro t; rw [List.replicate_succ, totalHit, ih]; simp
    exact this n 1

end Descent
end Soco
