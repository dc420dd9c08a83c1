import Verif.Props.BalancedRatio

/-! # C81: regret of dual balanced descent -/

namespace Soco
namespace Descent
open Spec Num

/-- The dual norm of the Euclidean norm in one dimension. -/
def absDual (x : Config ℚ) : Res ℚ := .ok |x.headD 0|

section
variable {C D : Type} [OutSuccess C] [OutFailure D]

/-- If the hitting cost has a unique minimiser, away from the border of the decision space, and the dual imbalance there is below 10,
dual balanced descent moves there. -/
theorem dobd_follows (S : Solver) (hS : Inner S) (hE : Exact S) (B : Brent) (o : Online (SCO ℚ C D)) (hw : o.w = 0) (u : ℚ)
    (hb : o.p.bounds = [(0, u)]) (xs : Schedule ℚ) (hxs : ∀ x ∈ xs, x.length = 1) (f : ℚ → ℚ) (mv : Config ℚ → ℚ)
    (hp : Slot o.p (xs.length + 1) (fun x => ((f (x.headD 0) : ℚ) : ECost)) mv) (ε : ℚ) (hε : 0 < ε) (η : ℚ) (hη : 0 < η) (p : ℚ)
    (hl : latest 1 xs = [p]) (v : ℚ) (hv0 : ε ≤ v) (hvu : v ≤ u - ε) (hvg : OnGrid v)
    (hu : ∀ y, 0 ≤ y → y ≤ u → OnGrid y → y ≠ v → f v < f y)
    (hbal : |(|2 * v - 2 * p| - η * |(f (v + ε) - f (v - ε)) / (2 * ε)|)| < 10) :
    (dobd S B ε sqNorm absDual η).next o xs none = .ok ([v], none) := by
  have hvp : GridPoint o.p.bounds [v] := by
    rw [hb]; exact gridPoint_one.2 ⟨v, rfl, by linarith, by linarith, hvg⟩
  have hone : ∀ y, GridPoint o.p.bounds y → ((f (y.headD 0) : ℚ) : ECost) ≤ ((f v : ℚ) : ECost) → y = [v] := by
    intro y hy hle
    rw [hb] at hy
    obtain ⟨a, rfl, h0, h1, h2⟩ := gridPoint_one.1 hy
    simp only [List.headD_cons, WithTop.coe_le_coe] at hle
    by_contra hne
    have := hu a h0 h1 h2 (fun h => hne (by rw [h]))
    linarith
  have hxs' : ∀ x ∈ xs, x.length = o.p.bounds.length := by rw [hb]; exact hxs
  have hlat : latest o.p.bounds.length xs = [p] := by rw [hb]; exact hl
  obtain ⟨v', a', hv', hvg', -, hva, hvb⟩ := hittingMinimizer_ok hS hp
  have hvv : v' = [v] := hone v' hvg' (by simpa using hvb hE [v] hvp)
  subst hvv
  have haa := hva hE.done
  simp only [List.headD_cons] at haa
  subst haa
  obtain ⟨b, hbc⟩ := hitCost_total hp [p] (by rw [hb]; rfl)
  have hobd := fun l : ℚ => C50_obd S hS o hw xs hxs' _ mv hp ε sqNorm (fun x => (x.map (· ^ 2)).sum) (fun _ _ => rfl) l
  have hobda : (obd S ε sqNorm ((f v : ℚ) : ECost)).next o xs none = .ok ([v], none) := by
    obtain ⟨x, h1, h2, -, h4, -⟩ := hobd (f v)
    have := (h4 hE ⟨[v], hvp, by simp⟩).1
    rw [h1, hone x h2 this]
  have hgrad : ∀ x : ℚ, gradientQ ε sqNorm [x] = .ok [2 * x] := by
    intro x
    rw [gradientQ, centralDiff_ok _ ε sqNorm (fun x => (x.map (· ^ 2)).sum) [x] fun z _ => rfl]
    have : ((x + ε) ^ 2 - (x + -ε) ^ 2) / (2 * ε) = 2 * x := by
      field_simp
      ring
    simpa [bump] using this
  obtain ⟨Hc, hHc⟩ : ∃ Hc : List ℚ → ECost, ∀ x : List ℚ, x.length = o.p.bounds.length →
      ∃ c, o.p.toProb.hitCost (xs.length + 1) x = .ok c ∧ c.cost = Hc x := by
    have : ∀ x : List ℚ, ∃ q : ECost, x.length = o.p.bounds.length →
        ∃ c, o.p.toProb.hitCost (xs.length + 1) x = .ok c ∧ c.cost = q := by
      intro x
      by_cases hx : x.length = o.p.bounds.length
      · obtain ⟨c, hc⟩ := hitCost_total hp x hx
        exact ⟨c.cost, fun _ => ⟨c, hc, rfl⟩⟩
      · exact ⟨0, fun h => absurd h hx⟩
    choose q hq using this
    exact ⟨q, hq⟩
  have hone' : o.p.bounds.length = 1 := by rw [hb]; rfl
  have hgf : ∀ x : ℚ, gradient ε (fun y => do
      let c ← o.p.toProb.hitCost (xs.length + 1) y
      .ok c.cost) [x] = .ok [diffQuot ε (Hc [x + ε]) (Hc [x - ε])] := by
    intro x
    rw [gradient, centralDiff_ok _ ε _ Hc [x] fun z hz => by
      obtain ⟨c, h1, h2⟩ := hHc z (by rw [hz, hone']; rfl)
      simp only [h1, h2, bind, Except.bind]]
    simp [bump, sub_eq_add_neg]
  have hgapok : ∀ l, ∃ q, gap S ε sqNorm absDual η o (xs.length + 1) xs [p] l = .ok q := by
    intro l
    obtain ⟨x, h1, h2, -⟩ := hobd l
    rw [hb] at h2
    obtain ⟨x, rfl, -⟩ := gridPoint_one.1 h2
    simp only [gap, h1, bind, Except.bind, hgrad]
    have := hgf x
    simp only [bind, Except.bind] at this
    simp only [this, absDual]
    cases allFinite [diffQuot ε (Hc [x + ε]) (Hc [x - ε])] with
    | none => exact ⟨⊥, if_pos hη⟩
    | some g => exact ⟨_, rfl⟩
  have hHv : ∀ x, 0 ≤ x → x ≤ u → Hc [x] = ((f x : ℚ) : ECost) := by
    intro x h0 h1
    obtain ⟨c, k1, k2⟩ := hHc [x] (by rw [hone']; rfl)
    obtain ⟨o', k3⟩ := (hitCost_eq hp [x]).1 (by rw [hb]; exact .cons ⟨h0, h1⟩ .nil)
    rw [k3] at k1
    cases k1
    exact k2.symm
  have hgapa : gap S ε sqNorm absDual η o (xs.length + 1) xs [p] (f v) =
      .ok (((|2 * v - 2 * p| - η * |(f (v + ε) - f (v - ε)) / (2 * ε)| : ℚ) : WithTop ℚ) : Slack) := by
    simp only [gap, hobda, bind, Except.bind, hgrad]
    have := hgf v
    simp only [bind, Except.bind] at this
    rw [hHv _ (by linarith) (by linarith), hHv _ (by linarith) (by linarith)] at this
    simp only [this, absDual]
    rfl
  have hroot : ∀ b', findRoot B (f v) b' (gap S ε sqNorm absDual η o (xs.length + 1) xs [p]) = .ok (f v) := by
    intro b'
    unfold findRoot
    split
    · rfl
    obtain ⟨r, hr⟩ := hgapok b'
    simp only [hgapa, hr, bind, Except.bind]
    have : Slack.abs (((|2 * v - 2 * p| - η * |(f (v + ε) - f (v - ε)) / (2 * ε)| : ℚ) : WithTop ℚ) : Slack) <
        ((rootPrecision : ℚ) : ECost) := by
      show ((|(|2 * v - 2 * p| - η * |(f (v + ε) - f (v - ε)) / (2 * ε)|)| : ℚ) : ECost) < _
      rw [WithTop.coe_lt_coe]
      have h10 : rootPrecision = 10 := by norm_num [rootPrecision, precision]
      rw [h10]
      exact hbal
    exact if_pos this
  have e : (dobd S B ε sqNorm absDual η).next o xs none = (dobd S B ε sqNorm absDual η).call o (xs.length + 1) xs () := rfl
  rw [e]
  simp only [dobd, hw, assertR, decide_true, if_true, bind, Except.bind, hv', prevX_eq o.p hp.dim, hlat, hbc]
  have := hroot (upperLevel (f v) b.cost)
  change Except.bind (findRoot B (f v) (upperLevel (f v) b.cost) (gap S ε sqNorm absDual η o (xs.length + 1) xs [p]))
    (fun l => (obd S ε sqNorm ((l : ℚ) : ECost)).next o xs none) = _
  rw [this]
  exact hobda

/-- **C81** (partial). In one dimension with movement cost `|x|` and the squared norm as distance-generating function: if the
minimisers `v` of the hitting costs are unique, at least the finite-difference step away from the border, and the dual imbalance
there is below 10, then dual balanced descent chooses the minimisers, and so its regret against any fixed configuration is at
most the movement along the minimisers. Missing: sublinear regret, which is false (`C81_regret_counterexample`). -/
theorem C81_path_partial (S : Solver) (hS : Inner S) (hE : Exact S) (B : Brent) (u : ℚ) (f : Int → ℚ → ℚ) (ε : ℚ) (hε : 0 < ε) (η : ℚ)
    (hη : 0 < η) (v : ℕ → ℚ) (hv : ∀ i, ε ≤ v i ∧ v i ≤ u - ε ∧ OnGrid (v i))
    (hu : ∀ (i : ℕ) y, 0 ≤ y → y ≤ u → OnGrid y → y ≠ v i → f ((i : Int) + 1) (v i) < f ((i : Int) + 1) y)
    (hbal : ∀ (i : ℕ) p, 0 ≤ p → p ≤ u → 
      |(|2 * v i - 2 * p| - η * |(f ((i : Int) + 1) (v i + ε) - f ((i : Int) + 1) (v i - ε)) / (2 * ε)|)| < 10)
    (os : List (Online (SCO ℚ C D)))
    (ho : ∀ (i : Nat) o, os[i]? = some o → o.w = 0 ∧ o.p.bounds = [(0, u)] ∧
      Slot o.p ((i : Int) + 1) (fun x => ((f ((i : Int) + 1) (x.headD 0) : ℚ) : ECost)) (fun x => |x.headD 0|))
    (ys : Schedule ℚ) (k : Option Unit) (hr : Run (fun p : SCO ℚ C D => p.tEnd) (dobd S B ε sqNorm absDual η) [] none os ys k) :
    ys = (List.range os.length).map (fun i : ℕ => [v i]) ∧ ∀ y, 0 ≤ y → y ≤ u → OnGrid y → 
      totalCost (fun t (x : Config ℚ) => ((f t (x.headD 0) : ℚ) : ECost))
        (fun a b : Config ℚ => |(List.zipWith (· - ·) b a).headD 0|) 1 1 [0] ys ≤
      totalCost (fun t (x : Config ℚ) => ((f t (x.headD 0) : ℚ) : ECost))
        (fun a b : Config ℚ => |(List.zipWith (· - ·) b a).headD 0|) 1 1 [0] (List.replicate os.length [y]) +
      ((totalMove (fun a b : Config ℚ => |(List.zipWith (· - ·) b a).headD 0|) [0] ys : ℚ) : ECost) := by
  have key : ∀ (os : List (Online (SCO ℚ C D))) (n : ℕ) (mem : Option Unit) (ys : Schedule ℚ) (k : Option Unit),
      (∀ (i : Nat) o, os[i]? = some o → o.w = 0 ∧ o.p.bounds = [(0, u)] ∧
        Slot o.p (((n + i : ℕ) : Int) + 1) (fun x => ((f (((n + i : ℕ) : Int) + 1) (x.headD 0) : ℚ) : ECost)) (fun x => |x.headD 0|)) →
      Run (fun p : SCO ℚ C D => p.tEnd) (dobd S B ε sqNorm absDual η) ((List.range n).map fun i : ℕ => [v i]) mem os ys k →
      ys = (List.range (n + os.length)).map fun i : ℕ => [v i] := by
    intro os
    induction os with
    | nil => intro n mem ys k _ hr; cases hr; rfl
    | cons o os ih =>
      intro n mem ys k ho hr
      cases hr with
      | step _ _ _ _ x mem' _ _ slot dec rest =>
        obtain ⟨h1, h2, h3⟩ := ho 0 o rfl
        have hl : ((List.range n).map fun i : ℕ => ([v i] : Config ℚ)).length = n := by simp
        have hpp : ∃ p, latest 1 ((List.range n).map fun i : ℕ => ([v i] : Config ℚ)) = [p] ∧ 0 ≤ p ∧ p ≤ u := by
          cases n with
          | zero => exact ⟨0, rfl, le_rfl, by have := hv 0; linarith⟩
          | succ n =>
            refine ⟨v n, by simp [List.range_succ, latest], ?_, ?_⟩
            · linarith [(hv n).1]
            · linarith [(hv n).2.1]
        obtain ⟨p, p1, p2, p3⟩ := hpp
        have := dobd_follows S hS hE B o h1 u h2 ((List.range n).map fun i : ℕ => ([v i] : Config ℚ)) (by simp) (f ((n : Int) + 1))
          (fun x => |x.headD 0|) (by rw [hl]; exact h3) ε hε η hη p p1 (v n) (hv n).1 (hv n).2.1 (hv n).2.2 (hu n) (hbal n p p2 p3)
        have e : (dobd S B ε sqNorm absDual η).next o ((List.range n).map fun i : ℕ => ([v i] : Config ℚ)) none =
          (dobd S B ε sqNorm absDual η).call o (((List.range n).map fun i : ℕ => ([v i] : Config ℚ)).length + 1)
            ((List.range n).map fun i : ℕ => ([v i] : Config ℚ)) () := rfl
        rw [e] at this
        have hd : (mem.getD ((dobd S B ε sqNorm absDual η).default o)) = () := rfl
        rw [hd, this] at dec
        simp only [Except.ok.injEq, Prod.mk.injEq] at dec
        obtain ⟨d1, d2⟩ := dec
        subst d1 d2
        have hs : (List.range n).map (fun i : ℕ => ([v i] : Config ℚ)) ++ [[v n]] = (List.range (n + 1)).map fun i : ℕ => [v i] := by
          simp [List.range_succ]
        rw [hs] at rest
        rw [ih (n + 1) none ys k (by
          intro i o' ho'
          have := ho (i + 1) o' ho'
          rwa [show n + (i + 1) = n + 1 + i by ring] at this) rest, List.length_cons, show n + 1 + os.length = n + (os.length + 1) by ring]
  have hys := key os 0 none ys k (by simpa using ho) hr
  rw [Nat.zero_add] at hys
  refine ⟨hys, fun y y0 y1 y2 => ?_⟩
  subst hys
  have sum : ∀ (n k : ℕ) (p q : Config ℚ), 
      totalCost (fun t (x : Config ℚ) => ((f t (x.headD 0) : ℚ) : ECost))
        (fun a b : Config ℚ => |(List.zipWith (· - ·) b a).headD 0|) 1 ((k : Int) + 1) p ((List.range' k n).map fun i : ℕ => [v i]) ≤
      totalCost (fun t (x : Config ℚ) => ((f t (x.headD 0) : ℚ) : ECost))
        (fun a b : Config ℚ => |(List.zipWith (· - ·) b a).headD 0|) 1 ((k : Int) + 1) q (List.replicate n [y]) +
      ((totalMove (fun a b : Config ℚ => |(List.zipWith (· - ·) b a).headD 0|) p ((List.range' k n).map fun i : ℕ => [v i]) : ℚ) : ECost) := by
    intro n
    induction n with
    | zero => intro k p q; simp [totalCost, totalMove]
    | succ n ih =>
      intro k p q
      have h1 := ih (k + 1) [v k] [y]
      have e : (((k + 1 : ℕ) : Int) + 1) = (k : Int) + 1 + 1 := by push_cast; ring
      rw [e] at h1
      simp only [List.range'_succ, List.map_cons, List.replicate_succ, totalCost, totalMove]
      have h2 : f ((k : Int) + 1) (v k) ≤ f ((k : Int) + 1) y := by
        by_cases hy : y = v k
        · rw [hy]
        · exact (hu k y y0 y1 y2 hy).le
      have h3 : ((f ((k : Int) + 1) (v k) : ℚ) : ECost) + ((1 * |(List.zipWith (· - ·) [v k] p).headD 0| : ℚ) : ECost) ≤
          ((f ((k : Int) + 1) y : ℚ) : ECost) + ((1 * |(List.zipWith (· - ·) [y] q).headD 0| : ℚ) : ECost) +
            ((|(List.zipWith (· - ·) [v k] p).headD 0| : ℚ) : ECost) := by
        rw [← WithTop.coe_add, ← WithTop.coe_add, ← WithTop.coe_add, WithTop.coe_le_coe]
        have := abs_nonneg ((List.zipWith (· - ·) [y] q).headD 0)
        linarith
      have h4 := add_le_add h3 h1
      refine h4.trans (le_of_eq ?_)
      rw [WithTop.coe_add]
      simp only [List.headD_cons]
      rw [add_add_add_comm]
  have := sum os.length 0 [0] [0]
  rw [← List.range_eq_range'] at this
  simpa using this

end

/-- Minimisers 1/4, 3/4, 1/4, … -/
def swing (i : ℕ) : ℚ := if i % 2 = 0 then 1 / 4 else 3 / 4

/-- Hitting costs `1/10` times the distance to the minimiser of the slot. -/
def swingF (t : Int) (x : ℚ) : ℚ := 1 / 10 * |x - swing (t.toNat + 1)|

theorem swing_two (k : ℕ) : swing (k + 1 + 1) = swing k := by
  unfold swing
  rw [show (k + 1 + 1) % 2 = k % 2 by omega]

theorem swing_cases (i : ℕ) : swing i = 1 / 4 ∧ swing (i + 1) = 3 / 4 ∨ swing i = 3 / 4 ∧ swing (i + 1) = 1 / 4 := by
  rcases Nat.mod_two_eq_zero_or_one i with h | h
  · left
    have : (i + 1) % 2 = 1 := by omega
    simp [swing, h, this]
  · right
    have : (i + 1) % 2 = 0 := by omega
    simp [swing, h, this]

theorem swingF_at (i : ℕ) (x : ℚ) : swingF ((i : Int) + 1) x = 1 / 10 * |x - swing i| := by
  rw [swingF, show ((i : Int) + 1).toNat = i + 1 by omega, swing_two]

theorem swing_minimiser (i : ℕ) (ε : ℚ) (h1 : ε ≤ 1 / 4) : ε ≤ swing i ∧ swing i ≤ 1 - ε ∧ OnGrid (swing i) := by
  rcases swing_cases i with ⟨h, -⟩ | ⟨h, -⟩
  · rw [h]; exact ⟨h1, by linarith, 25, by norm_num⟩
  · rw [h]; exact ⟨by linarith, by linarith, 75, by norm_num⟩

theorem swing_unique (i : ℕ) (y : ℚ) (h : y ≠ swing i) : swingF ((i : Int) + 1) (swing i) < swingF ((i : Int) + 1) y := by
  rw [swingF_at, swingF_at, sub_self, abs_zero, mul_zero]
  have := abs_pos.2 (sub_ne_zero.2 h)
  linarith

theorem swing_balance (i : ℕ) (ε η p : ℚ) (hε : 0 < ε) (p0 : 0 ≤ p) (p1 : p ≤ 1) :
    |(|2 * swing i - 2 * p| - η * |(swingF ((i : Int) + 1) (swing i + ε) - swingF ((i : Int) + 1) (swing i - ε)) / (2 * ε)|)| < 10 := by
  rw [swingF_at, swingF_at]
  have h1 : swing i + ε - swing i = ε := by ring
  have h2 : swing i - ε - swing i = -ε := by ring
  rw [h1, h2, abs_neg, sub_self, zero_div, abs_zero, mul_zero, sub_zero, abs_abs, abs_lt]
  rcases swing_cases i with ⟨h, -⟩ | ⟨h, -⟩ <;> rw [h] <;> constructor <;> linarith

/-- **C81** is false of the code. In the instances with hitting costs `1/10 |x - a|`, where the minimiser `a` alternates between `1/4`
and `3/4`, dual balanced descent with any balance parameter `η` follows the minimisers, and its regret against staying at `1/4`
grows linearly: after `T` slots it is at least `9/20 T - 1/2`. -/
theorem C81_regret_counterexample (S : Solver) (hS : Inner S) (hE : Exact S) (B : Brent) (ε : ℚ) (hε : 0 < ε) (hε' : ε ≤ 1 / 4) (η : ℚ)
    (hη : 0 < η) (T : ℕ) :
    ∃ (ys : Schedule ℚ) (b c : ℚ),
      Run (fun p : SCO ℚ Unit Unit => p.tEnd) (dobd S B ε sqNorm absDual η) [] none (lineHistory 1 swingF (fun x => |x|) T) ys none ∧
      totalCost (fun t (x : Config ℚ) => ((swingF t (x.headD 0) : ℚ) : ECost))
        (fun a b : Config ℚ => |(List.zipWith (· - ·) b a).headD 0|) 1 1 [0] ys = (b : ECost) ∧
      totalCost (fun t (x : Config ℚ) => ((swingF t (x.headD 0) : ℚ) : ECost))
        (fun a b : Config ℚ => |(List.zipWith (· - ·) b a).headD 0|) 1 1 [0] (List.replicate T [1 / 4]) = (c : ECost) ∧
      9 / 20 * T - 1 / 2 ≤ b - c := by
  have hrun := line_run 1 swingF (fun x => |x|) (dobd S B ε sqNorm absDual η) swing (by
    intro i
    obtain ⟨xs, hx⟩ : ∃ xs, xs = ((List.range i).map fun j : ℕ => ([swing j] : Config ℚ)) := ⟨_, rfl⟩
    have hl : xs.length = i := by simp [hx]
    obtain ⟨p, hp, p0, p1⟩ : ∃ p, latest 1 xs = [p] ∧ 0 ≤ p ∧ p ≤ 1 := by
      rw [hx]
      cases i with
      | zero => exact ⟨0, rfl, le_rfl, by norm_num⟩
      | succ i =>
        have := swing_minimiser i ε hε'
        exact ⟨swing i, by simp [List.range_succ, latest], by linarith, by linarith⟩
    have := swing_minimiser i ε hε'
    have := dobd_follows S hS hE B ⟨lineQ 1 swingF (fun x => |x|) ((i + 1 : ℕ) : Int), 0⟩ rfl 1 rfl xs (by rw [hx]; simp)
      (swingF ((i : Int) + 1)) (fun x => |x.headD 0|) (by
        rw [hl]
        exact line_slot 1 zero_le_one ⟨100, by norm_num⟩ swingF (fun x => |x|) _ ((i : Int) + 1) (by omega)) ε hε η hη p hp (swing i)
      this.1 this.2.1 this.2.2 (fun y _ _ _ h => swing_unique i y h) (swing_balance i ε η p hε p0 p1)
    have e : (dobd S B ε sqNorm absDual η).next ⟨lineQ 1 swingF (fun x => |x|) ((i + 1 : ℕ) : Int), 0⟩ xs none =
      (dobd S B ε sqNorm absDual η).call ⟨lineQ 1 swingF (fun x => |x|) ((i + 1 : ℕ) : Int), 0⟩ (xs.length + 1) xs () := rfl
    rw [e, hl] at this
    rw [← hx]
    exact this) T
  have hA : ∀ (n k : ℕ), totalCost (fun t (x : Config ℚ) => ((swingF t (x.headD 0) : ℚ) : ECost))
      (fun a b : Config ℚ => |(List.zipWith (· - ·) b a).headD 0|) 1 ((k : Int) + 1) [swing (k + 1)]
      ((List.range' k n).map fun i : ℕ => [swing i]) = ((1 / 2 * n : ℚ) : ECost) := by
    intro n
    induction n with
    | zero => intro k; simp [totalCost]
    | succ n ih =>
      intro k
      have h1 := ih (k + 1)
      have e : (((k + 1 : ℕ) : Int) + 1) = (k : Int) + 1 + 1 := by push_cast; ring
      rw [e, swing_two] at h1
      simp only [List.range'_succ, List.map_cons, totalCost]
      rw [h1]
      simp only [← WithTop.coe_add, WithTop.coe_eq_coe, List.headD_cons, List.zipWith_cons_cons, swingF_at, sub_self, abs_zero]
      have : |swing k - swing (k + 1)| = 1 / 2 := by
        rcases swing_cases k with ⟨h, h'⟩ | ⟨h, h'⟩ <;> rw [h, h']
        · rw [abs_of_nonpos] <;> norm_num
        · rw [abs_of_nonneg] <;> norm_num
      rw [this]
      push_cast
      ring
  have hB : ∀ (n k : ℕ), ∃ c : ℚ, totalCost (fun t (x : Config ℚ) => ((swingF t (x.headD 0) : ℚ) : ECost))
      (fun a b : Config ℚ => |(List.zipWith (· - ·) b a).headD 0|) 1 ((k : Int) + 1) [1 / 4] (List.replicate n [1 / 4]) = (c : ECost) ∧
      c ≤ 1 / 20 * n := by
    intro n
    induction n with
    | zero => intro k; exact ⟨0, by simp [totalCost], by simp⟩
    | succ n ih =>
      intro k
      obtain ⟨c, h1, h2⟩ := ih (k + 1)
      have e : (((k + 1 : ℕ) : Int) + 1) = (k : Int) + 1 + 1 := by push_cast; ring
      rw [e] at h1
      refine ⟨swingF ((k : Int) + 1) (1 / 4) + 1 * |1 / 4 - 1 / 4| + c, ?_, ?_⟩
      · simp only [List.replicate_succ, totalCost]
        rw [h1]
        simp only [← WithTop.coe_add, List.headD_cons, List.zipWith_cons_cons]
      · rw [swingF_at]
        have : |1 / 4 - swing k| ≤ 1 / 2 := by
          rcases swing_cases k with ⟨h, -⟩ | ⟨h, -⟩ <;> rw [h]
          · norm_num
          · rw [abs_of_nonpos] <;> norm_num
        rw [sub_self, abs_zero]
        push_cast
        linarith
  cases T with
  | zero => exact ⟨_, 0, 0, hrun, by simp [totalCost], by simp [totalCost], by norm_num⟩
  | succ T =>
    have h1 := hA T 1
    obtain ⟨c, h2, h3⟩ := hB T 1
    have e2 : ((1 : ℕ) : Int) + 1 = 1 + 1 := rfl
    rw [e2] at h1 h2
    refine ⟨_, swingF 1 (1 / 4) + 1 * |1 / 4 - 0| + 1 / 2 * T, swingF 1 (1 / 4) + 1 * |1 / 4 - 0| + c, hrun, ?_, ?_, ?_⟩
    · rw [List.range_eq_range', List.range'_succ]
      simp only [List.map_cons, totalCost]
      have e3 : swing 0 = 1 / 4 := by simp [swing]
      have e4 : swing (1 + 1) = 1 / 4 := by simp [swing]
      rw [e4] at h1
      rw [e3, Nat.zero_add, h1]
      simp only [← WithTop.coe_add, List.headD_cons, List.zipWith_cons_cons]
    · simp only [List.replicate_succ, totalCost]
      rw [h2]
      simp only [← WithTop.coe_add, List.headD_cons, List.zipWith_cons_cons]
    · push_cast
      linarith

/-- Non-vacuity of the hypotheses of `C81_path_partial`: the instances of the counterexample, whose runs it describes. -/
example (T : ℕ) : (∀ i, (1 / 10 : ℚ) ≤ swing i ∧ swing i ≤ 1 - 1 / 10 ∧ OnGrid (swing i)) ∧
    (∀ (i : ℕ) y, 0 ≤ y → y ≤ 1 → OnGrid y → y ≠ swing i → swingF ((i : Int) + 1) (swing i) < swingF ((i : Int) + 1) y) ∧
    (∀ (i : ℕ) p, 0 ≤ p → p ≤ 1 → |(|2 * swing i - 2 * p| -
      1 * |(swingF ((i : Int) + 1) (swing i + 1 / 10) - swingF ((i : Int) + 1) (swing i - 1 / 10)) / (2 * (1 / 10))|)| < 10) ∧
    (∀ (i : Nat) o, (lineHistory 1 swingF (fun x => |x|) T)[i]? = some o → o.w = 0 ∧ o.p.bounds = [(0, 1)] ∧
      Slot o.p ((i : Int) + 1) (fun x => ((swingF ((i : Int) + 1) (x.headD 0) : ℚ) : ECost)) (fun x => |x.headD 0|)) := by
  refine ⟨fun i => swing_minimiser i _ (by norm_num), fun i y _ _ _ h => swing_unique i y h,
    fun i p p0 p1 => swing_balance i (1 / 10) 1 p (by norm_num) p0 p1, ?_⟩
  intro i o ho
  rw [line_get _ _ _ _ _ _ ho]
  exact ⟨rfl, rfl, line_slot 1 zero_le_one ⟨100, by norm_num⟩ swingF (fun x => |x|) _ ((i : Int) + 1) (by omega)⟩

end Descent
end Soco
