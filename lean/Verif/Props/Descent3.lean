import Verif.Props.Descent2

/-! # C50, C58: examples and limits of descent algorithms -/

namespace Soco
namespace Descent
open Spec Num

/-! ## Examples -/

/-- One dimension with decision space `[0, 1]`, hitting cost `f` in all slots and movement cost `|x|`. -/
def exP (f : ℚ → ℚ) (t : Int) : SCO ℚ Unit Unit where
  d := 1
  tEnd := t
  bounds := [(0, 1)]
  switchingCost := fun x => .ok |x.headD 0|
  hittingCost := CostFn.new 1 (SingleCostFn.certain fun _ x => .ok (Cost.raw ((f (x.headD 0) : ℚ) : ECost)))

theorem ex_slot (f : ℚ → ℚ) (T t : Int) (ht : 1 ≤ t) :
    Slot (exP f T) t (fun x => ((f (x.headD 0) : ℚ) : ECost)) (fun x => |x.headD 0|) where
  box := by
    intro b hb
    simp only [exP, List.mem_singleton] at hb
    subst hb
    exact ⟨by norm_num, ⟨0, by norm_num⟩, ⟨100, by norm_num⟩⟩
  dim := rfl
  certain := by
    intro x _
    exact ⟨.success (), by rw [exP, CostFn.callCertain_certain _ _ ht]; rfl⟩
  mean := by
    intro x _
    exact ⟨.success (), by rw [exP, CostFn.callMean_certain _ _ ht]; rfl⟩
  moves := fun _ _ => rfl

/-- The squared Euclidean norm as generating function. -/
def sqNorm (x : Config ℚ) : Res ℚ := .ok (x.map (· ^ 2)).sum

theorem ex_grid (y : ℚ) (h0 : 0 ≤ y) (h1 : y ≤ 1) (hg : OnGrid y) (f : ℚ → ℚ) (T : Int) : GridPoint (exP f T).bounds [y] :=
  ⟨.cons ⟨h0, h1⟩ .nil, by simpa using hg⟩

theorem ex_inv {x : List ℚ} (f : ℚ → ℚ) (T : Int) (h : GridPoint (exP f T).bounds x) : ∃ y, x = [y] ∧ 0 ≤ y ∧ y ≤ 1 := by
  have := h.1
  unfold InBoxQ exP at this
  cases this with
  | cons a b => cases b; exact ⟨_, rfl, a.1, a.2⟩

/-- A root finder that always answers. -/
def someRoot : Brent := fun ab _ => ([], some ab.1)

theorem someRoot_answers : Answers someRoot := by
  intro a b f l r _ _ _
  simp [someRoot]

/-- Non-vacuity of the hypotheses of `C50_obd`, `C50_pobd`, `C50_dobd`, `C50_gobd` and `C50_robd`, in slot 2. -/
example : ∃ S : Solver, Inner S ∧ Exact S ∧ Answers someRoot ∧
    (∀ x ∈ ([[1 / 2]] : Schedule ℚ), x.length = (exP (fun x => x ^ 2) 2).bounds.length) ∧
    (∃ hit mv, Slot (exP (fun x => x ^ 2) 2) (([[1 / 2]] : Schedule ℚ).length + 1) hit mv ∧
      ∃ y, GridPoint (exP (fun x => x ^ 2) 2).bounds y ∧ hit y ≠ ⊤) ∧
    (∀ x : Config ℚ, x.length = (exP (fun x => x ^ 2) 2).bounds.length → sqNorm x = .ok (x.map (· ^ 2)).sum) := by
  obtain ⟨S, h1, h2⟩ := exists_exact
  exact ⟨S, h2, h1, someRoot_answers, by simp [exP], ⟨_, _, ex_slot _ 2 _ (by norm_num), [0],
    ex_grid 0 le_rfl (by norm_num) ⟨0, by norm_num⟩ _ _, WithTop.coe_ne_top⟩, fun _ _ => rfl⟩

/-- Non-vacuity of `C50_ogd` and `C50_ogd_stays`: costs `(x - 1/2)^2`, at `1/2`, with root the identity. -/
example : ∃ S : Solver, (ogd S id (1 / 100) fun _ => 1).next ⟨exP (fun x => (x - 1 / 2) ^ 2) 2, 0⟩ [[1 / 2]] none =
    .ok ([1 / 2], none) := by
  obtain ⟨S, h1, h2⟩ := exists_exact
  refine ⟨S, C50_ogd_stays S h2 h1 ⟨exP (fun x => (x - 1 / 2) ^ 2) 2, 0⟩ rfl id (fun a b _ h => h) (1 / 100) (fun _ => 1)
    [[1 / 2]] (by simp [exP]) (fun x => (((x.headD 0 - 1 / 2) ^ 2 : ℚ) : ECost)) (fun x => |x.headD 0|)
    (ex_slot (fun x => (x - 1 / 2) ^ 2) 2 (((1 : Nat) : Int) + 1) (by norm_num)) (by norm_num) [1 / 2] rfl
    (ex_grid _ (by norm_num) (by norm_num) ⟨50, by norm_num⟩ _ _) ?_⟩
  intro k hk
  have : k = 0 := by simp [exP] at hk; exact hk
  subst this
  refine ⟨(1 / 100) ^ 2, ?_, ?_, ?_, ?_⟩
  · exact .cons (by norm_num) .nil
  · simp [bump]
  · exact .cons (by norm_num) .nil
  · simp only [bump, List.modify_zero_cons, List.headD_cons, WithTop.coe_inj]; norm_num

/-- Non-vacuity of `C50_memoryless_history`: histories of every length. -/
example : ∃ S : Solver, Inner S ∧ Exact S ∧ ∀ n : Nat, ∃ ys, Run (fun p : SSCO ℚ Unit Unit => p.tEnd) (memoryless S) [] none
    ((List.range n).map fun i : Nat => Horizon.ex (i + 1) 0) ys none := by
  obtain ⟨S, h1, h2⟩ := exists_exact
  refine ⟨S, h2, h1, fun n => ?_⟩
  obtain ⟨ys, h, -⟩ := C50_memoryless_history S h2 h1 1 1 (by norm_num) Horizon.exHit (by
      intro t x
      rw [Horizon.exHit, ← WithTop.coe_zero, WithTop.coe_le_coe]
      positivity) _ (Horizon.ex_shown n 0) (by
      intro o ho
      simp only [List.mem_map] at ho
      obtain ⟨i, _, rfl⟩ := ho
      rfl)
  exact ⟨ys, h⟩

/-! ## Limits -/

open Classical in
/-- An exact optimiser may answer as it likes when all points are equally good. -/
theorem exists_exact_at (B : List (ℚ × ℚ)) (y : List ℚ) (hy : GridPoint B y) :
    ∃ S : Solver, Exact S ∧ Inner S ∧ ∀ init, S B (fun _ => .ok ⊤) init [] = ⟨[], y, .done⟩ := by
  obtain ⟨S, h1, h2⟩ := exists_exact
  refine ⟨fun box f init cs => if box = B ∧ f = (fun _ => .ok ⊤) ∧ cs = [] then ⟨[], y, .done⟩ else S box f init cs,
    ⟨⟨?_, ?_, ?_⟩, ?_, ?_, ?_⟩, ⟨⟨?_, ?_, ?_⟩, ?_⟩, fun init => by simp⟩
  · intro box f init cs hb
    split
    · rename_i h; rw [h.1]; exact hy.1
    · exact h1.inside box f init cs hb
  · intro box f init cs q hq
    split at hq
    · simp at hq
    · exact h1.probes box f init cs q hq
  · intro box f init cs
    split
    · simp
    · exact h1.ends box f init cs
  · intro box f init cs
    split
    · rfl
    · exact h1.done box f init cs
  · intro box f init cs hb hex
    split
    · rename_i h
      rw [h.2.2]
      simp [Meets]
    · exact h1.feasible box f init cs hb hex
  · intro box f init cs hb z c c' a1 a2 a3 a4 a5
    split at a4
    · rename_i h
      rw [h.2.1] at a4 a5
      cases a4
      cases a5
      exact le_rfl
    · exact h1.best box f init cs hb z c c' a1 a2 a3 a4 a5
  · intro box f init cs hb
    split
    · rename_i h; rw [h.1]; exact hy.1
    · exact h1.inside box f init cs hb
  · intro box f init cs q hq
    split at hq
    · simp at hq
    · exact h1.probes box f init cs q hq
  · intro box f init cs
    split
    · simp
    · exact h1.ends box f init cs
  · intro box f init cs hb q hq
    split at hq
    · simp at hq
    · exact h2.probed box f init cs hb q hq

/-- **C50** (limits of gradient descent). In the first slot of an instance with decision space `[0, 1]`, coming from the
minimiser 0 of an increasing hitting cost, gradient descent may go to any point of the decision space, depending on how an
exact optimiser breaks ties. -/
theorem C50_ogd_counterexample (y : ℚ) (h0 : 0 ≤ y) (h1 : y ≤ 1) (hg : OnGrid y) (ε : ℚ) (hε : 0 < ε) (hε' : ε ≤ 1) (root : ℚ → ℚ) :
    ∃ S : Solver, Exact S ∧ Inner S ∧
      (ogd S root ε fun _ => 1).next ⟨exP (fun x => x) 1, 0⟩ [] none = .ok ([y], none) := by
  obtain ⟨S, e1, e2, e3⟩ := exists_exact_at [(0, 1)] [y] (ex_grid y h0 h1 hg (fun x => x) 1)
  refine ⟨S, e1, e2, ?_⟩
  rw [C50_ogd_boundary S ⟨exP (fun x => x) 1, 0⟩ rfl root ε (fun _ => 1) [] (by simp) (fun x => ((x.headD 0 : ℚ) : ECost))
    (fun x => |x.headD 0|) (ex_slot (fun x => x) 1 (((0 : Nat) : Int) + 1) (by norm_num)) (by norm_num) 0
    (by simp [exP]) (.cons (by simpa using ⟨hε.le, hε'⟩) .nil) WithTop.coe_ne_top ?_]
  · have hr : applyPrecisionVec [y] = [y] := applyPrecisionVec_grid (by simpa using hg)
    have hm : minimize S (fun _ => .ok ⊤) [((0 : ℚ), (1 : ℚ))] none [] = .ok ([y], ⊤) := by
      unfold minimize
      simp only [e3]
      simp [visit, assertP, bind, Except.bind, hr]
    show (minimize S (fun _ => .ok ⊤) [((0 : ℚ), (1 : ℚ))] none []).map _ = _
    rw [hm]
    rfl
  · intro hin
    have : InBoxQ [((0 : ℚ), (1 : ℚ))] [0 + -ε] := hin
    unfold InBoxQ at this
    cases this with
    | cons a b => linarith [a.1]

/-- **C50** (limits of balanced descent). With a generating function that is undefined unless all entries are positive, such
as the negative entropy, balanced descent never succeeds in the first slot. -/
theorem C50_negative_entropy {C D : Type} [OutSuccess C] [OutFailure D] (S : Solver) (o : Online (SCO ℚ C D)) (ε : ℚ)
    (h : Config ℚ → Res ℚ) (hh : ∀ x : Config ℚ, (∃ j ∈ x, j ≤ 0) → h x = .error .panic) (hd : 0 < o.p.d) (l : ECost)
    (r : Config ℚ × Option Unit) : (obd S ε h l).next o [] none ≠ .ok r := by
  have hprev : h (prevX o.p.d []) = .error .panic := by
    apply hh
    refine ⟨0, ?_, le_rfl⟩
    simp [prevX, Schedule.nowWithDefault, Config.repeat]
    omega
  have hdiv : ∀ y r, bregmanDivergence ε h y (prevX o.p.d []) ≠ .ok r := by
    intro y r
    unfold bregmanDivergence
    simp only [hprev, bind, Except.bind]
    cases h y <;> simp
  have e : (obd S ε h l).next o [] none = (obd S ε h l).call o 1 [] () := rfl
  rw [e]
  simp only [obd, bind, Except.bind, assertR, bregmanProjection]
  intro hr
  split at hr
  · cases hr
  · split at hr
    · cases hr
    · split at hr
      · cases hr
      · rename_i heq
        split at heq
        · cases heq
        · split at heq
          · cases heq
          · rename_i hmin
            unfold minimize at hmin
            simp only [bind, Except.bind] at hmin
            split at hmin
            · cases hmin
            · split at hmin
              · cases hmin
              · split at hmin
                · cases hmin
                · split at hmin
                  · cases hmin
                  · rename_i hobj
                    split at hobj
                    · cases hobj
                    · rename_i hb
                      exact hdiv _ _ hb


/-- **C50** (limits of regularised descent). In exact arithmetic the weight of the regulariser is always zero. -/
theorem C50_robd_weights (s m β eps : ℚ) (hs : 0 ≤ s) (he : 0 < eps) :
    buildParameters s m β eps = (2 / (1 + s), 0) := by
  have h : (2 / (1 + s) * m / 2 * (1 + s) - m) / β = 0 := by
    have : 2 / (1 + s) * m / 2 * (1 + s) - m = 0 := by
      have : (1 + s) ≠ 0 := by positivity
      field_simp
      ring
    rw [this, zero_div]
  simp only [buildParameters, h, sub_zero, abs_zero, he, if_true]

/-! ## C58: primal balanced descent does not keep the balance -/

/-- **C58** (partial). If moving to a minimiser of the hitting cost costs at most `β` times that hitting cost, primal
balanced descent goes there, and the movement costs at most `β` times the hitting cost of the result. -/
theorem C58_pobd_balance_partial {C D : Type} [OutSuccess C] [OutFailure D] (S : Solver) (hS : Inner S) (hE : Exact S) (B : Brent)
    (o : Online (SCO ℚ C D)) (hw : o.w = 0)
    (xs : Schedule ℚ) (hit : Config ℚ → ECost) (mv : Config ℚ → ℚ)
    (hp : Slot o.p (xs.length + 1) hit mv) (ε : ℚ) (h : Config ℚ → Res ℚ) (β : ℚ) (hβ : 0 < β)
    (hxs : ∀ x ∈ xs, x.length = o.p.bounds.length)
    (hmv : ∀ v, GridPoint o.p.bounds v → (∀ y, GridPoint o.p.bounds y → hit v ≤ hit y) →
      ((mv (Config.sub v (latest o.p.bounds.length xs)) : ℚ) : ECost) ≤ ECost.mulQ β (hit v)) :
    ∃ x, (pobd S B ε h β).next o xs none = .ok (x, none) ∧ GridPoint o.p.bounds x ∧
      (∀ y, GridPoint o.p.bounds y → hit x ≤ hit y) ∧
      ((mv (Config.sub x (latest o.p.bounds.length xs)) : ℚ) : ECost) ≤ ECost.mulQ β (hit x) := by
  obtain ⟨v, a, hv, hvg, -, hva, hvb⟩ := hittingMinimizer_ok hS hp
  have hva := hva hE.done
  have hprl : (latest o.p.bounds.length xs).length = o.p.bounds.length := latest_length _ _ hxs
  have hm := hp.moves (Config.sub v (latest o.p.bounds.length xs)) (by simp [Config.sub, inBoxQ_length hvg.1, hprl])
  have hle := hmv v hvg (hvb hE)
  refine ⟨v, ?_, hvg, hvb hE, hle⟩
  have e : (pobd S B ε h β).next o xs none = (pobd S B ε h β).call o (xs.length + 1) xs () := rfl
  rw [e]
  simp only [pobd, hw, assertR, decide_true, if_true, bind, Except.bind, hv, hm, prevX_eq o.p hp.dim]
  rw [← hva] at hle
  cases a using WithTop.recTopCoe with
  | top =>
    show (if 0 < β then _ else _) = _
    rw [if_pos hβ]
  | coe a =>
    show (if mv (Config.sub v (latest o.p.bounds.length xs)) ≤ β * a then _ else _) = _
    rw [if_pos]
    simpa only [ECost.mulQ, WithTop.map_coe, WithTop.coe_le_coe] using hle

/-- **C58** is false of the code. With hitting cost `|1 - x|` on `[0, 1]`, coming from 0, and `β = 1/2`, primal balanced
descent with any exact optimiser goes to 1 at movement cost 1, although the hitting cost there is 0; going to `0.33` would
have kept the balance. The root finder accepts any level at which the imbalance is below 10. -/
theorem C58_pobd_counterexample (S : Solver) (hS : Inner S) (hE : Exact S) (B : Brent) (ε : ℚ) :
    (pobd S B ε sqNorm (1 / 2)).next ⟨exP (fun x => |1 - x|) 1, 0⟩ [] none = .ok ([1], none) ∧
    ¬ |(1 : ℚ) - 0| ≤ 1 / 2 * |1 - (1 : ℚ)| ∧ |(33 / 100 : ℚ) - 0| ≤ 1 / 2 * |1 - (33 / 100 : ℚ)| := by
  refine ⟨?_, by norm_num, by rw [abs_of_nonneg, abs_of_nonneg] <;> norm_num⟩
  have hp := ex_slot (fun x => |1 - x|) 1 (([] : Schedule ℚ).length + 1) (by norm_num)
  have hone : ∀ x, GridPoint (exP (fun x => |1 - x|) 1).bounds x →
      ((|1 - x.headD 0| : ℚ) : ECost) ≤ ((0 : ℚ) : ECost) → x = [1] := by
    intro x hx hle
    obtain ⟨y, rfl, h0, h1⟩ := ex_inv _ _ hx
    rw [WithTop.coe_le_coe] at hle
    have h2 : |1 - y| ≤ 0 := hle
    have := abs_nonpos_iff.1 h2
    congr 1
    linarith
  have h1g := ex_grid 1 (by norm_num) le_rfl ⟨100, by norm_num⟩ (fun x => |1 - x|) 1
  obtain ⟨v, a, hv, hvg, -, hva, hvb⟩ := hittingMinimizer_ok hS hp
  have hv1 : v = [1] := hone v hvg (by simpa using hvb hE [1] h1g)
  subst hv1
  have ha := hva hE.done
  simp at ha
  subst ha
  have hobd := fun l : ℚ => C50_obd S hS ⟨exP (fun x => |1 - x|) 1, 0⟩ rfl [] (by simp) _ _ hp ε sqNorm
    (fun x => (x.map (· ^ 2)).sum) (fun _ _ => rfl) l
  have hobd0 : (obd S ε sqNorm ((0 : ℚ) : ECost)).next ⟨exP (fun x => |1 - x|) 1, 0⟩ [] none = .ok ([1], none) := by
    obtain ⟨x, h1, h2, -, h4, -⟩ := hobd 0
    have := (h4 hE ⟨[1], h1g, by simp⟩).1
    rw [h1, hone x h2 this]
  obtain ⟨x1, hx1, hx1g, -⟩ := hobd 1
  obtain ⟨y1, rfl, -, -⟩ := ex_inv _ _ hx1g
  have e : (pobd S B ε sqNorm (1 / 2)).next ⟨exP (fun x => |1 - x|) 1, 0⟩ [] none =
      (pobd S B ε sqNorm (1 / 2)).call ⟨exP (fun x => |1 - x|) 1, 0⟩ (([] : Schedule ℚ).length + 1) [] () := rfl
  rw [e]
  obtain ⟨o', hb⟩ := (hitCost_eq hp [0]).1 (.cons (by norm_num) .nil)
  have hprev : prevX (exP (fun x => |1 - x|) 1).d [] = [0] := rfl
  have hroot : findRoot B 0 1 (fun l : ℚ => do
      let x ← (obd S ε sqNorm ((l : ℚ) : ECost)).next ⟨exP (fun x => |1 - x|) 1, 0⟩ [] none
      let m ← (exP (fun x => |1 - x|) 1).switchingCost (Config.sub x.1 [0])
      .ok (((m - 1 / 2 * l : ℚ) : WithTop ℚ) : Slack)) = .ok 0 := by
    unfold findRoot
    rw [if_neg (by norm_num [precision])]
    simp only [hobd0, hx1, bind, Except.bind]
    have : Slack.abs (((((|(Config.sub [1] [0] : List ℚ).headD 0| : ℚ) - 1 / 2 * 0 : ℚ)) : WithTop ℚ) : Slack) <
        ((rootPrecision : ℚ) : ECost) := by
      show ((|(|(1 - 0 : ℚ)| - 1 / 2 * 0)| : ℚ) : ECost) < _
      rw [WithTop.coe_lt_coe]
      norm_num [rootPrecision, precision]
    exact if_pos this
  simp only [pobd, assertR, decide_true, if_true, bind, Except.bind, hv, hprev, hb]
  have hsw : (exP (fun x => |1 - x|) 1).switchingCost (Config.sub [1] [0]) = .ok 1 := by
    show (Except.ok |(1 - 0 : ℚ)| : Res ℚ) = _
    norm_num
  have hup : upperLevel 0 ((|1 - ([0] : List ℚ).headD 0| : ℚ) : ECost) = 1 := by
    show |(1 - 0 : ℚ)| = 1
    norm_num
  simp only [bind, Except.bind] at hroot
  rw [hsw]
  simp only [hup, hroot, hobd0]
  norm_num

end Descent
end Soco
