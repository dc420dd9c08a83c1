import Verif.Props.Descent
import Verif.Props.Horizon
import Mathlib.Algebra.Order.BigOperators.Group.List

/-! # C50: gradient descent and the memoryless algorithm; limits of balanced descent -/

namespace Soco
namespace Descent
open Spec Num

section
variable {C D : Type} [OutSuccess C] [OutFailure D]

open Classical in
/-- The hitting cost, infinite outside of the decision space. -/
noncomputable def hitOr (box : List (ℚ × ℚ)) (hit : Config ℚ → ECost) (x : Config ℚ) : ECost :=
  if InBoxQ box x then hit x else ⊤

theorem hitCost_hitOr {p : SCO ℚ C D} {t : Int} {hit : Config ℚ → ECost} {mv : Config ℚ → ℚ} (h : Slot p t hit mv) (x : Config ℚ)
    (hx : x.length = p.bounds.length) : ∃ o, p.toProb.hitCost t x = .ok ⟨hitOr p.bounds hit x, o⟩ := by
  unfold hitOr
  split
  · exact (hitCost_eq h x).1 (by assumption)
  · exact (hitCost_eq h x).2 hx (by assumption)

theorem scale_ok (η : ℚ) (hη : 0 < η) (g : Slack) : ∃ s, scale η g = .ok s ∧
    (∀ q : ℚ, g = ((q : WithTop ℚ) : Slack) → s = (((η * q : ℚ) : WithTop ℚ) : Slack)) ∧
    (finite? g = none → ∀ x, finite? (minus x s) = none) := by
  rcases g with _ | _ | q
  · exact ⟨⊥, if_pos hη, fun q h => (by cases h), fun _ x => rfl⟩
  · exact ⟨⊤, if_pos hη, fun q h => (by cases h), fun _ x => rfl⟩
  · exact ⟨_, rfl, fun q h => (by cases h; rfl), fun h => (by cases h)⟩

/-- The point towards which gradient descent moves. -/
theorem ogd_eq {p : SCO ℚ C D} {w : Int} (S : Solver) (root : ℚ → ℚ) (ε : ℚ) (eta : Int → ℚ) (hw : w = 0)
    (xs : Schedule ℚ) (hxs : ∀ x ∈ xs, x.length = p.bounds.length) (hit : Config ℚ → ECost) (mv : Config ℚ → ℚ)
    (hp : Slot p (xs.length + 1) hit mv) (hη : 0 < eta (xs.length + 1)) :
    ∃ steps : List Slack, List.Forall₂ (fun k s => scale (eta (xs.length + 1))
        (diffQuot ε (hitOr p.bounds hit (bump (latest p.bounds.length xs) k ε))
          (hitOr p.bounds hit (bump (latest p.bounds.length xs) k (-ε)))) = .ok s) (List.range p.bounds.length) steps ∧
      (ogd S root ε eta).next ⟨p, w⟩ xs none =
        (findMinimizer S (fun x => .ok (euclideanTo root (List.zipWith minus (latest p.bounds.length xs) steps) x)) p.bounds).map
          fun r => (r.1, none) := by
  have hprl : (latest p.bounds.length xs).length = p.bounds.length := latest_length _ _ hxs
  obtain ⟨g, hg⟩ : ∃ g : List Slack, g = (List.range p.bounds.length).map fun k : Nat =>
    diffQuot ε (hitOr p.bounds hit (bump (latest p.bounds.length xs) k ε))
          (hitOr p.bounds hit (bump (latest p.bounds.length xs) k (-ε))) := ⟨_, rfl⟩
  have hgrad : gradient ε (fun x => do
      let c ← p.toProb.hitCost (xs.length + 1) x
      .ok c.cost) (latest p.bounds.length xs) = .ok g := by
    rw [gradient, centralDiff_ok _ ε _ (hitOr p.bounds hit), hprl, ← hg]
    intro y hy
    obtain ⟨o, ho⟩ := hitCost_hitOr hp y (by rw [hy, hprl])
    simp only [ho, bind, Except.bind]
  obtain ⟨steps, hs⟩ : ∃ steps, g.mapM (scale (eta (xs.length + 1))) = .ok steps := by
    clear hg hgrad
    induction g with
    | nil => exact ⟨[], rfl⟩
    | cons x g ih =>
      obtain ⟨s, h1, -⟩ := scale_ok _ hη x
      obtain ⟨ss, h2⟩ := ih
      exact ⟨s :: ss, by rw [List.mapM_cons, h1, h2]; rfl⟩
  refine ⟨steps, ?_, ?_⟩
  · have := (mapM_ok_iff _ _ _).1 hs
    rw [hg, List.forall₂_map_left_iff] at this
    exact this
  · have e : (ogd S root ε eta).next ⟨p, w⟩ xs none = (ogd S root ε eta).call ⟨p, w⟩ (xs.length + 1) xs () := rfl
    rw [e]
    simp only [bind, Except.bind] at hgrad
    simp only [ogd, hw, assertR, decide_true, if_true, bind, Except.bind, prevX_eq p hp.dim, add_sub_cancel_right, hgrad, hs]
    cases findMinimizer S _ p.bounds <;> rfl

theorem euclideanTo_finite (root : ℚ → ℚ) (x y : List ℚ) :
    euclideanTo root (y.map fun q : ℚ => ((q : WithTop ℚ) : Slack)) x = ((root (sqDist x y) : ℚ) : ECost) := by
  have h : allFinite (y.map fun q : ℚ => ((q : WithTop ℚ) : Slack)) = some y := by
    unfold allFinite
    induction y with
    | nil => rfl
    | cons q y ih =>
      rw [List.map_cons, List.mapM_cons, ih]
      rfl
  rw [euclideanTo, h]
  simp [sqDist, Config.sub, List.map_zipWith]

theorem allFinite_none (g : List Slack) (k : Nat) (s : Slack) (hk : g[k]? = some s) (hs : finite? s = none) :
    allFinite g = none := by
  unfold allFinite
  induction g generalizing k with
  | nil => simp at hk
  | cons x g ih =>
    rw [List.mapM_cons]
    cases k with
    | zero =>
      simp only [List.getElem?_cons_zero, Option.some.injEq] at hk
      rw [hk, hs]
      rfl
    | succ k =>
      rw [ih k (by simpa using hk)]
      cases finite? x <;> rfl

/-- **C50** (gradient descent). The step succeeds and stays in the decision space. If a step `ε` in every direction stays in
the decision space and has finite costs, and the optimiser is exact, then the result is the projection of the gradient step
from the latest configuration: no point of the grid is closer (in Euclidean distance) to the configuration from which `η`
times the difference quotients are subtracted. -/
theorem C50_ogd (S : Solver) (hS : Inner S) (o : Online (SCO ℚ C D)) (hw : o.w = 0) (root : ℚ → ℚ)
    (hroot : ∀ a b, 0 ≤ a → a < b → root a < root b) (ε : ℚ) (eta : Int → ℚ)
    (xs : Schedule ℚ) (hxs : ∀ x ∈ xs, x.length = o.p.bounds.length) (hit : Config ℚ → ECost) (mv : Config ℚ → ℚ)
    (hp : Slot o.p (xs.length + 1) hit mv) (hη : 0 < eta (xs.length + 1)) :
    ∃ x, (ogd S root ε eta).next o xs none = .ok (x, none) ∧ GridPoint o.p.bounds x ∧
      (Exact S → ∀ ahead behind : Nat → ℚ,
        (∀ k < o.p.bounds.length, InBoxQ o.p.bounds (bump (latest o.p.bounds.length xs) k ε) ∧
          hit (bump (latest o.p.bounds.length xs) k ε) = ((ahead k : ℚ) : ECost) ∧
          InBoxQ o.p.bounds (bump (latest o.p.bounds.length xs) k (-ε)) ∧
          hit (bump (latest o.p.bounds.length xs) k (-ε)) = ((behind k : ℚ) : ECost)) →
        ∀ goal, goal = List.zipWith (fun (a : ℚ) (k : Nat) => a - eta (xs.length + 1) * ((ahead k - behind k) / (2 * ε)))
            (latest o.p.bounds.length xs) (List.range o.p.bounds.length) →
          ∀ y, GridPoint o.p.bounds y → sqDist x goal ≤ sqDist y goal) := by
  obtain ⟨steps, h1, h2⟩ := ogd_eq (w := o.w) S root ε eta hw xs hxs hit mv hp hη
  obtain ⟨f, hf⟩ : ∃ f : List ℚ → ECost, f = euclideanTo root (List.zipWith minus (latest o.p.bounds.length xs) steps) :=
    ⟨_, rfl⟩
  obtain ⟨x, b, h3, h4, h5, h6, -, -⟩ := minimize_inner hS hp.box none (by simp) [] (f := fun x => .ok (f x))
    (fun x _ => ⟨_, rfl⟩) (by simp)
  refine ⟨x, ?_, ⟨h4, h5⟩, ?_⟩
  · rw [show o = ⟨o.p, o.w⟩ from rfl, h2, ← hf, findMinimizer, h3]
    rfl
  · intro hE ahead behind hk goal hgoal y hy
    have hst : steps = (List.range o.p.bounds.length).map fun k : Nat =>
        (((eta (xs.length + 1) * ((ahead k - behind k) / (2 * ε)) : ℚ) : WithTop ℚ) : Slack) := by
      have hr : ∀ k ∈ List.range o.p.bounds.length, k < o.p.bounds.length := fun k hk => List.mem_range.1 hk
      clear h2 hf
      generalize List.range o.p.bounds.length = rs at h1 hr
      induction h1 with
      | nil => rfl
      | @cons k s ks ss a1 _ ih =>
        rw [List.map_cons, ← ih fun k hk => hr k (by simp [hk])]
        obtain ⟨e1, e2, e3, e4⟩ := hk k (hr k (by simp))
        rw [hitOr, hitOr, if_pos e1, if_pos e3, e2, e4] at a1
        congr 1
        exact (Except.ok.inj a1).symm
    have hz : List.zipWith minus (latest o.p.bounds.length xs) steps = goal.map fun q : ℚ => ((q : WithTop ℚ) : Slack) := by
      rw [hst, hgoal, List.map_zipWith, List.zipWith_map_right]
      rfl
    rw [hz] at hf
    have := hE.best o.p.bounds (fun x => .ok (f x)) _ [] hp.box y _ _ hy.1 hy.2 (by simp [Meets])
      (by rw [← h6]) rfl
    rw [hf, euclideanTo_finite, euclideanTo_finite, WithTop.coe_le_coe] at this
    by_contra hlt
    have h0 : 0 ≤ sqDist y goal := by
      unfold sqDist
      apply List.sum_nonneg
      intro a ha
      rw [← List.map_uncurry_zip_eq_zipWith, List.mem_map] at ha
      obtain ⟨b, -, rfl⟩ := ha
      exact sq_nonneg _
    exact absurd this (not_le.2 (hroot _ _ h0 (not_le.1 hlt)))

theorem sqDist_zero (x y : List ℚ) (hl : x.length = y.length) (h : sqDist x y ≤ 0) : x = y := by
  unfold sqDist at h
  induction x generalizing y with
  | nil => cases y with
    | nil => rfl
    | cons b y => simp at hl
  | cons a x ih =>
    cases y with
    | nil => simp at hl
    | cons b y =>
      simp only [List.zipWith_cons_cons, List.sum_cons] at h
      have h0 : 0 ≤ (List.zipWith (fun a b : ℚ => (a - b) ^ 2) x y).sum := by
        apply List.sum_nonneg
        intro a ha
        rw [← List.map_uncurry_zip_eq_zipWith, List.mem_map] at ha
        obtain ⟨b, -, rfl⟩ := ha
        exact sq_nonneg _
      have h1 := sq_nonneg (a - b)
      have h2 : (a - b) ^ 2 = 0 := by linarith
      have h3 : a = b := by
        have := pow_eq_zero_iff (two_ne_zero) |>.1 h2
        linarith
      rw [h3, ih y (by simpa using hl) (by linarith)]

/-- **C50** (gradient descent, zero gradient). With an exact optimiser, gradient descent stays at a point of the grid at
which the hitting cost takes the same finite value a step `ε` ahead and behind in every dimension. -/
theorem C50_ogd_stays (S : Solver) (hS : Inner S) (hE : Exact S) (o : Online (SCO ℚ C D)) (hw : o.w = 0) (root : ℚ → ℚ)
    (hroot : ∀ a b, 0 ≤ a → a < b → root a < root b) (ε : ℚ) (eta : Int → ℚ)
    (xs : Schedule ℚ) (hxs : ∀ x ∈ xs, x.length = o.p.bounds.length) (hit : Config ℚ → ECost) (mv : Config ℚ → ℚ)
    (hp : Slot o.p (xs.length + 1) hit mv) (hη : 0 < eta (xs.length + 1))
    (prev : Config ℚ) (hprev : prev = latest o.p.bounds.length xs) (hg : GridPoint o.p.bounds prev)
    (hflat : ∀ k < o.p.bounds.length, ∃ c : ℚ, InBoxQ o.p.bounds (bump prev k ε) ∧ hit (bump prev k ε) = ((c : ℚ) : ECost) ∧
      InBoxQ o.p.bounds (bump prev k (-ε)) ∧ hit (bump prev k (-ε)) = ((c : ℚ) : ECost)) :
    (ogd S root ε eta).next o xs none = .ok (prev, none) := by
  obtain ⟨x, h1, h2, h3⟩ := C50_ogd S hS o hw root hroot ε eta xs hxs hit mv hp hη
  have : ∃ c : Nat → ℚ, ∀ k < o.p.bounds.length, InBoxQ o.p.bounds (bump prev k ε) ∧ hit (bump prev k ε) = ((c k : ℚ) : ECost) ∧
      InBoxQ o.p.bounds (bump prev k (-ε)) ∧ hit (bump prev k (-ε)) = ((c k : ℚ) : ECost) := by
    choose! c hc using hflat
    exact ⟨c, hc⟩
  obtain ⟨c, hc⟩ := this
  have hgoal : prev = List.zipWith (fun (a : ℚ) (k : Nat) => a - eta (xs.length + 1) * ((c k - c k) / (2 * ε)))
      (latest o.p.bounds.length xs) (List.range o.p.bounds.length) := by
    rw [← hprev]
    apply List.ext_getElem?
    intro i
    have hl := inBoxQ_length hg.1
    by_cases hi : i < o.p.bounds.length
    · rw [List.getElem?_zipWith, List.getElem?_eq_getElem (by omega), List.getElem?_range hi]
      simp
    · rw [List.getElem?_zipWith, List.getElem?_eq_none (by omega)]
  rw [← hprev] at h3
  have := h3 hE c c hc prev (by rw [hprev] at hgoal ⊢; exact hgoal) prev hg
  have h0 : sqDist prev prev = 0 := by
    unfold sqDist
    rw [List.sum_eq_zero]
    intro a ha
    rw [List.zipWith_self, List.mem_map] at ha
    obtain ⟨b, -, rfl⟩ := ha
    simp
  rw [h0] at this
  rw [h1, sqDist_zero x prev (by rw [inBoxQ_length h2.1, inBoxQ_length hg.1]) this]

/-- **C50** (limits of gradient descent). If in some dimension a step ahead has finite cost and a step behind leaves the
decision space, as it does at the lower bounds, then gradient descent asks the optimiser to minimise the constant `∞`:
the decision does not depend on the hitting cost at all. -/
theorem C50_ogd_boundary (S : Solver) (o : Online (SCO ℚ C D)) (hw : o.w = 0) (root : ℚ → ℚ) (ε : ℚ) (eta : Int → ℚ)
    (xs : Schedule ℚ) (hxs : ∀ x ∈ xs, x.length = o.p.bounds.length) (hit : Config ℚ → ECost) (mv : Config ℚ → ℚ)
    (hp : Slot o.p (xs.length + 1) hit mv) (hη : 0 < eta (xs.length + 1)) (k : Nat) (hk : k < o.p.bounds.length)
    (hin : InBoxQ o.p.bounds (bump (latest o.p.bounds.length xs) k ε))
    (hfin : hit (bump (latest o.p.bounds.length xs) k ε) ≠ ⊤)
    (hout : ¬ InBoxQ o.p.bounds (bump (latest o.p.bounds.length xs) k (-ε))) :
    (ogd S root ε eta).next o xs none =
      (minimize S (fun _ => .ok ⊤) o.p.bounds none []).map fun r => (r.1, none) := by
  obtain ⟨steps, h1, h2⟩ := ogd_eq (w := o.w) S root ε eta hw xs hxs hit mv hp hη
  have hprl : (latest o.p.bounds.length xs).length = o.p.bounds.length := latest_length _ _ hxs
  rw [show o = ⟨o.p, o.w⟩ from rfl, h2]
  have : ∀ x, euclideanTo root (List.zipWith minus (latest o.p.bounds.length xs) steps) x = ⊤ := by
    intro x
    have hl : steps.length = o.p.bounds.length := by simpa using h1.length_eq.symm
    have hs := (List.forall₂_iff_get.1 h1).2 k (by simpa using hk) (by omega)
    simp only [List.get_eq_getElem, List.getElem_range] at hs
    obtain ⟨q, hq⟩ := WithTop.ne_top_iff_exists.1 hfin
    rw [hitOr, hitOr, if_pos hin, if_neg hout, ← hq] at hs
    have hdq : diffQuot ε ((q : ℚ) : ECost) ⊤ = ⊥ := rfl
    rw [hdq] at hs
    obtain ⟨s, e1, -, e2⟩ := scale_ok _ hη ⊥
    rw [e1] at hs
    have e3 := e2 rfl (latest o.p.bounds.length xs)[k]
    unfold euclideanTo
    rw [allFinite_none _ k (minus (latest o.p.bounds.length xs)[k] s) ?_ e3]
    rw [List.getElem?_zipWith, List.getElem?_eq_getElem (by omega), List.getElem?_eq_getElem (by omega),
      ← Except.ok.inj hs]
  simp only [this]
  rfl

/-! ## Memoryless algorithm -/

theorem ssco_hitCost {p : SSCO ℚ C D} {hit : Int → Config ℚ → ECost} (h : Usable p hit) (t : Int) (h1 : 1 ≤ t) (h2 : t ≤ p.tEnd)
    (x : Config ℚ) (hx : InBox p.bounds x) : ∃ o, p.toProb.hitCost t x = .ok ⟨hit t x, o⟩ := by
  have e : p.toProb.hitCost t x = p.hittingCost.callMeanWithinBounds t x (withinVec p.bounds) := rfl
  obtain ⟨o, ho⟩ := h.defined t h1 h2 x hx
  refine ⟨o, ?_⟩
  rw [e, CostFn.callMeanWithinBounds, (withinVec_eq p.bounds x).1.2 hx]
  exact ho

theorem balance_le (β x p : ℚ) (c : ECost) : balance β x p c ≤ 0 ↔ ((2 * (β * |x - p|) : ℚ) : ECost) ≤ c := by
  cases c using WithTop.recTopCoe with
  | top => exact ⟨fun _ => le_top, fun _ => (bot_le : (⊥ : Slack) ≤ 0)⟩
  | coe c =>
    change ((((β * |x - p| - c / 2 : ℚ)) : WithTop ℚ) : Slack) ≤ 0 ↔ _
    rw [← WithBot.coe_zero, WithBot.coe_le_coe, ← WithTop.coe_zero, WithTop.coe_le_coe, WithTop.coe_le_coe]
    constructor <;> intro h <;> linarith

/-- **C50** (memoryless algorithm). The step succeeds and stays in the decision space. With an exact optimiser, if there is
a point of the grid to which moving costs at most half its hitting cost, then the result is such a point, and has the
smallest hitting cost among them. -/
theorem C50_memoryless (S : Solver) (hS : Inner S) (o : Online (SSCO ℚ C D)) (hw : o.w = 0) (u β : ℚ)
    (hb : o.p.bounds = [u]) (hβ : o.p.switchingCost = [β]) (hit : Int → Config ℚ → ECost) (hp : Usable o.p hit)
    (ht : 1 ≤ o.p.tEnd) (xs : Schedule ℚ) (p : ℚ) (hprev : latest 1 xs = [p]) :
    ∃ x, (memoryless S).call o o.p.tEnd xs () = .ok ([x], none) ∧ 0 ≤ x ∧ x ≤ u ∧ OnGrid x ∧
      (Exact S → (∃ y, 0 ≤ y ∧ y ≤ u ∧ OnGrid y ∧ ((2 * (β * |y - p|) : ℚ) : ECost) ≤ hit o.p.tEnd [y]) →
        ((2 * (β * |x - p|) : ℚ) : ECost) ≤ hit o.p.tEnd [x] ∧
        ∀ y, 0 ≤ y → y ≤ u → OnGrid y → ((2 * (β * |y - p|) : ℚ) : ECost) ≤ hit o.p.tEnd [y] →
          hit o.p.tEnd [x] ≤ hit o.p.tEnd [y]) := by
  obtain ⟨f, hf⟩ : ∃ f : List ℚ → Res ECost, f = (fun x => do
        let c ← o.p.toProb.hitCost o.p.tEnd x
        .ok c.cost) := ⟨_, rfl⟩
  obtain ⟨c, hc⟩ : ∃ c : List ℚ → Res Slack, c = (fun x => do
        let x0 ← idx x 0
        let β ← idx o.p.switchingCost 0
        let c ← o.p.toProb.hitCost o.p.tEnd [x0]
        .ok (balance β x0 p c.cost)) := ⟨_, rfl⟩
  have hbox : ∀ x : List ℚ, InBoxQ [(0, u)] x → ∃ j, x = [j] ∧ 0 ≤ j ∧ j ≤ u ∧ InBox o.p.bounds x := by
    intro x hx
    unfold InBoxQ at hx
    cases hx with
    | cons a b => cases b; exact ⟨_, rfl, a.1, a.2, by rw [hb]; exact .cons a .nil⟩
  have fv : ∀ x : List ℚ, InBoxQ [(0, u)] x → f x = .ok (hit o.p.tEnd x) := by
    intro x hx
    obtain ⟨j, rfl, -, -, hj⟩ := hbox x hx
    obtain ⟨o', ho⟩ := ssco_hitCost hp o.p.tEnd ht le_rfl _ hj
    simp only [hf, ho, bind, Except.bind]
  have cv : ∀ j : ℚ, InBoxQ [(0, u)] [j] → c [j] = .ok (balance β j p (hit o.p.tEnd [j])) := by
    intro j hx
    obtain ⟨_, _, -, -, hj⟩ := hbox _ hx
    obtain ⟨o', ho⟩ := ssco_hitCost hp o.p.tEnd ht le_rfl _ hj
    simp [hc, ho, hβ, bind, Except.bind, idx]
  have hgb : GridBox [((0 : ℚ), u)] := by
    intro b hb'
    simp only [List.mem_singleton] at hb'
    subst hb'
    have := hp.bound u (by simp [hb])
    exact ⟨this.1, ⟨0, by simp⟩, this.2⟩
  obtain ⟨x, b, h1, h2, h3, h4, -, -⟩ := minimize_inner hS hgb none (by simp) [c] (f := f) (fun x hx => ⟨_, fv x hx⟩) (by
    intro c' hc' x hx
    simp only [List.mem_singleton] at hc'
    subst hc'
    obtain ⟨j, rfl, -, -, -⟩ := hbox x hx
    exact ⟨_, cv j hx⟩)
  obtain ⟨j, rfl, hj0, hj1, -⟩ := hbox x h2
  have one : ∀ y : ℚ, 0 ≤ y → y ≤ u → InBoxQ [(0, u)] [y] := fun y h0 h1 => .cons ⟨h0, h1⟩ .nil
  have meets : ∀ y : ℚ, InBoxQ [(0, u)] [y] → (Meets [c] [y] ↔ ((2 * (β * |y - p|) : ℚ) : ECost) ≤ hit o.p.tEnd [y]) := by
    intro y hy
    rw [← balance_le]
    simp [Meets, cv y hy]
  refine ⟨j, ?_, hj0, hj1, h3 j (by simp), ?_⟩
  · have hnow : idx (Schedule.nowWithDefault xs [0]) 0 = .ok p := by
      have : Schedule.nowWithDefault xs [0] = [p] := by
        rw [← hprev]
        simp [latest, Schedule.nowWithDefault, List.getLastD_eq_getLast?]
      rw [this]; rfl
    have hd : o.p.d = 1 := by rw [hp.dim, hb]; rfl
    have hu : idx o.p.bounds 0 = .ok u := by rw [hb]; rfl
    rw [hf, hc] at h1
    simp only [bind, Except.bind] at h1
    simp only [memoryless, hw, hd, assertR, decide_true, if_true, bind, Except.bind, hnow, hu, h1]
    rfl
  · rintro hE ⟨y, y0, y1, y2, y3⟩
    have hm : Meets [c] [j] := by
      rw [h4]
      exact hE.feasible _ _ _ _ hgb ⟨[y], one y y0 y1, by simpa using y2, (meets y (one y y0 y1)).2 y3⟩
    refine ⟨(meets j h2).1 hm, ?_⟩
    intro z z0 z1 z2 z3
    exact hE.best [(0, u)] f _ [c] hgb [z] _ _ (one z z0 z1) (by simpa using z2) ((meets z (one z z0 z1)).2 z3)
      (by rw [← h4, fv _ h2]) (fv _ (one z z0 z1))

theorem run_memoryless (S : Solver) (hS : Inner S) (hE : Exact S) (u β : ℚ) (hit : Int → Config ℚ → ECost)
    (hn : ∀ t x, 0 ≤ hit t x) :
    ∀ (os : List (Online (SSCO ℚ C D))) (xs : Schedule ℚ),
      (∀ (i : Nat) o, os[i]? = some o → o.p.tEnd = xs.length + i + 1) →
      (∀ o ∈ os, (Usable o.p hit ∧ o.p.bounds = [u] ∧ o.w = 0) ∧ o.p.switchingCost = [β]) →
      (0 ≤ u) →
      (∀ x ∈ xs, ∃ j, x = [j] ∧ 0 ≤ j ∧ j ≤ u ∧ OnGrid j) →
      (∀ (i : Nat) a b, ([0] :: xs)[i]? = some [a] → xs[i]? = some [b] →
        ((2 * (β * |b - a|) : ℚ) : ECost) ≤ hit (i + 1) [b]) →
      ∃ ys, Run (fun p : SSCO ℚ C D => p.tEnd) (memoryless S) xs none os ys none ∧ ys.length = xs.length + os.length ∧
        (∀ x ∈ ys, ∃ j, x = [j] ∧ 0 ≤ j ∧ j ≤ u ∧ OnGrid j) ∧
        ∀ (i : Nat) a b, ([0] :: ys)[i]? = some [a] → ys[i]? = some [b] →
          ((2 * (β * |b - a|) : ℚ) : ECost) ≤ hit (i + 1) [b] := by
  intro os
  induction os with
  | nil => intro xs _ _ _ hx hm; exact ⟨xs, .nil _ _, by simp, hx, hm⟩
  | cons o os ih =>
    intro xs ht hu hu0 hx hm
    obtain ⟨⟨hp, hb, hw⟩, hβ⟩ := hu o (by simp)
    have hT : o.p.tEnd = (xs.length : Int) + 1 := by simpa using ht 0 o rfl
    obtain ⟨p, hprev, hp0, hp1, hp2⟩ : ∃ p, latest 1 xs = [p] ∧ 0 ≤ p ∧ p ≤ u ∧ OnGrid p := by
      unfold latest
      cases e : xs.getLast? with
      | none => exact ⟨0, rfl, le_rfl, hu0, 0, by simp⟩
      | some x => exact hx x (List.mem_of_getLast? e)
    obtain ⟨x, h1, h2, h3, h4, h5⟩ := C50_memoryless S hS o hw u β hb hβ hit hp (by omega) xs p hprev
    obtain ⟨h6, -⟩ := h5 hE ⟨p, hp0, hp1, hp2, by simpa using hn _ _⟩
    obtain ⟨ys, h7, h8, h9⟩ := ih (xs ++ [[x]]) (by
        intro i o' hi
        have := ht (i + 1) o' (by simpa using hi)
        rw [this]; simp; ring)
      (fun o' ho' => hu o' (by simp [ho'])) hu0 (by
        intro y hy
        rcases List.mem_append.1 hy with hy | hy
        · exact hx y hy
        · rw [List.mem_singleton.1 hy]; exact ⟨x, rfl, h2, h3, h4⟩) (by
        intro i a b ha hb'
        by_cases hi : i < xs.length
        · refine hm i a b ?_ ?_
          · rw [← List.cons_append, List.getElem?_append_left (by simp; omega)] at ha
            exact ha
          · rw [List.getElem?_append_left hi] at hb'
            exact hb'
        · have hi' : i = xs.length := by
            have := (List.getElem?_eq_some_iff.1 hb').1
            simp at this
            omega
          subst hi'
          have hbx : b = x := by simpa using hb'.symm
          have hap : a = p := by
            rw [← List.cons_append, List.getElem?_append_left (by simp)] at ha
            have : ([0] :: xs)[xs.length]? = some [p] := by
              rw [← hprev]
              unfold latest
              cases xs using List.reverseRecOn with
              | nil => rfl
              | append_singleton l y => simp
            rw [this] at ha
            simpa using ha.symm
          rw [hbx, hap, ← hT]
          exact h6)
    refine ⟨ys, .step xs none o os [x] none ys none hT ?_ h7, by simp at h8 ⊢; omega, h9⟩
    rw [hT] at h1
    exact h1

/-- **C50** (memoryless algorithm, histories). With an exact optimiser and non-negative hitting costs the algorithm succeeds
in every slot of every history, stays in the decision space, and in every slot pays for movement at most half the hitting
cost. -/
theorem C50_memoryless_history (S : Solver) (hS : Inner S) (hE : Exact S) (u β : ℚ) (hu : 0 ≤ u)
    (hit : Int → Config ℚ → ECost) (hn : ∀ t x, 0 ≤ hit t x) (os : List (Online (SSCO ℚ C D)))
    (h : Shown [u] 0 hit os) (hβ : ∀ o ∈ os, o.p.switchingCost = [β]) :
    ∃ ys, Run (fun p : SSCO ℚ C D => p.tEnd) (memoryless S) [] none os ys none ∧ ys.length = os.length ∧
      (∀ x ∈ ys, ∃ j, x = [j] ∧ 0 ≤ j ∧ j ≤ u ∧ OnGrid j) ∧
      ∀ (i : Nat) a b, ([0] :: ys)[i]? = some [a] → ys[i]? = some [b] →
        ((2 * (β * |b - a|) : ℚ) : ECost) ≤ hit (i + 1) [b] := by
  obtain ⟨ys, h1, h2, h3⟩ := run_memoryless S hS hE u β hit hn os [] (by simpa using h.slot)
    (fun o ho => ⟨by simpa using h.usable o ho, hβ o ho⟩) hu (by simp) (by simp)
  exact ⟨ys, h1, by simpa using h2, h3⟩

end
end Descent
end Soco
