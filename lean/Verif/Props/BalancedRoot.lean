import Verif.Props.DualRegret

/-! # C58: balance, when the level is searched for -/

namespace Soco
namespace Spec
open Num

/-- The root finder finds a root that is a multiple of the numeric precision, if there is one in the interval. -/
def FindsRoots (B : Brent) : Prop :=
  ∀ (a b : ℚ) (f : ℚ → Res Slack), (∃ x, a ≤ x ∧ x ≤ b ∧ OnGrid x ∧ f x = .ok ((((0 : ℚ) : WithTop ℚ)) : Slack)) →
    ∃ x, (B (a, b) f).2 = some x ∧ a ≤ x ∧ x ≤ b ∧ OnGrid x ∧ f x = .ok ((((0 : ℚ) : WithTop ℚ)) : Slack)

/-- `x` is a point with hitting cost at most `l` that is nearest to `prev`. -/
def Nearest (box : List (ℚ × ℚ)) (hit : Config ℚ → ECost) (dist : Config ℚ → ℚ) (l : ℚ) (x : Config ℚ) : Prop :=
  GridPoint box x ∧ hit x ≤ ((l : ℚ) : ECost) ∧ ∀ y, GridPoint box y → hit y ≤ ((l : ℚ) : ECost) → dist x ≤ dist y

end Spec

namespace Descent
open Spec Num

theorem applyPrecision_onGrid {x : ℚ} (h : OnGrid x) : applyPrecision x = x := (onGrid_iff x).1 h

/-- If the function is at least 10 at the lower and at most -10 at the upper end, and has a root on the grid, a root is found. -/
theorem findRoot_root {B : Brent} (hB : FindsRoots B) {a b : ℚ} (hab : precision ≤ |a - b|) (f : ℚ → Res Slack) (hf : ∀ x, ∃ v, f x = .ok v)
    (l r : ℚ) (hl : f a = .ok (((l : ℚ) : WithTop ℚ) : Slack)) (hl10 : 10 ≤ l) (rs : Slack) (hr : f b = .ok rs)
    (hr10 : rs ≤ ((((-10 : ℚ)) : WithTop ℚ) : Slack))
    (hroot : ∃ x, a ≤ x ∧ x ≤ b ∧ OnGrid x ∧ f x = .ok ((((0 : ℚ) : WithTop ℚ)) : Slack)) :
    ∃ x, findRoot B a b f = .ok x ∧ a ≤ x ∧ x ≤ b ∧ OnGrid x ∧ f x = .ok ((((0 : ℚ) : WithTop ℚ)) : Slack) := by
  obtain ⟨x, hx, h1, h2, h3, h4⟩ := hB a b f hroot
  refine ⟨x, ?_, h1, h2, h3, h4⟩
  have h10 : rootPrecision = 10 := by norm_num [rootPrecision, precision]
  unfold findRoot
  rw [if_neg (not_lt.2 hab)]
  simp only [hl, hr, bind, Except.bind]
  have n1 : ¬ Slack.abs (((l : ℚ) : WithTop ℚ) : Slack) < ((rootPrecision : ℚ) : ECost) := by
    show ¬ ((|l| : ℚ) : ECost) < _
    rw [WithTop.coe_lt_coe, h10, not_lt]
    exact hl10.trans (le_abs_self l)
  have n2 : ¬ Slack.abs rs < ((rootPrecision : ℚ) : ECost) := by
    rcases rs with _ | _ | q
    · exact not_lt.2 le_top
    · exact not_lt.2 le_top
    · show ¬ ((|q| : ℚ) : ECost) < _
      have hq : q ≤ -10 := WithTop.coe_le_coe.1 (WithBot.coe_le_coe.1 hr10)
      rw [WithTop.coe_lt_coe, h10, not_lt]
      have := neg_le_abs q
      linarith
  have n3 : ¬ ((0 < (((l : ℚ) : WithTop ℚ) : Slack) ∧ 0 < rs) ∨ ((((l : ℚ) : WithTop ℚ) : Slack) < 0 ∧ rs < 0)) := by
    have z : (0 : Slack) = (((0 : ℚ) : WithTop ℚ) : Slack) := rfl
    rintro (⟨-, h⟩ | ⟨h, -⟩)
    · have := lt_of_lt_of_le h hr10
      rw [z, WithBot.coe_lt_coe, WithTop.coe_lt_coe] at this
      norm_num at this
    · rw [z, WithBot.coe_lt_coe, WithTop.coe_lt_coe] at h
      linarith
  rw [if_neg n1, if_neg n2, if_neg n3, visit1_ok f hf]
  simp only [hx]
  rw [applyPrecision_onGrid h3]

section
variable {C D : Type} [OutSuccess C] [OutFailure D]

/-- **C58** (partial, when the level is searched for). Suppose that the least hitting cost is `a`, that moving to a point of this cost costs at least 10 more than `β a`, that moving to the nearest
point of hitting cost at most `u` costs at least 10 less than `β u`, where `u` is the hitting cost of the previous configuration, or `1000 a` if that is infinite, and that there is a level between `a` and `u`, a multiple of the precision,
with which the movement is in balance. Then primal balanced descent chooses such a level `l`, moves to a nearest point of hitting cost at most `l`, and the movement costs exactly `β l`. -/
theorem C58_level_partial (S : Solver) (hS : Inner S) (hE : Exact S) (B : Brent) (hB : FindsRoots B) (o : Online (SCO ℚ C D)) (hw : o.w = 0)
    (xs : Schedule ℚ) (hxs : ∀ x ∈ xs, x.length = o.p.bounds.length) (hit : Config ℚ → ECost) (mv : Config ℚ → ℚ)
    (hp : Slot o.p (xs.length + 1) hit mv) (ε : ℚ) (h : Config ℚ → Res ℚ) (H : Config ℚ → ℚ)
    (hh : ∀ x : Config ℚ, x.length = o.p.bounds.length → h x = .ok (H x)) (β : ℚ)
    (prev : Config ℚ) (hprev : prev = latest o.p.bounds.length xs) (a u : ℚ)
    (ha : ∀ v, GridPoint o.p.bounds v → ((a : ℚ) : ECost) ≤ hit v) (hmin : ∃ v, GridPoint o.p.bounds v ∧ hit v = ((a : ℚ) : ECost))
    (hu : (InBoxQ o.p.bounds prev ∧ hit prev = ((u : ℚ) : ECost)) ∨ ((InBoxQ o.p.bounds prev → hit prev = ⊤) ∧ u = 1000 * a))
    (hau : 1 / 100 ≤ u - a)
    (hlow : ∀ v, GridPoint o.p.bounds v → hit v = ((a : ℚ) : ECost) → β * a + 10 ≤ mv (Config.sub v prev))
    (hhigh : ∀ x, Nearest o.p.bounds hit (fun x => divergence ε H x prev) u x → mv (Config.sub x prev) + 10 ≤ β * u)
    (hlevel : ∃ l, a ≤ l ∧ l ≤ u ∧ OnGrid l ∧ ∀ x, Nearest o.p.bounds hit (fun x => divergence ε H x prev) l x → mv (Config.sub x prev) = β * l) :
    ∃ x l, (pobd S B ε h β).next o xs none = .ok (x, none) ∧ a ≤ l ∧ l ≤ u ∧
      Nearest o.p.bounds hit (fun x => divergence ε H x prev) l x ∧ mv (Config.sub x prev) = β * l := by
  subst hprev
  obtain ⟨v, a', hv, hvg, -, hva, hvb⟩ := hittingMinimizer_ok hS hp
  obtain ⟨w, hwg, hwa⟩ := hmin
  have hva1 : hit v = ((a : ℚ) : ECost) := le_antisymm (hwa ▸ hvb hE w hwg) (ha v hvg)
  have hva2 : a' = ((a : ℚ) : ECost) := (hva hE.done).trans hva1
  subst hva2
  have hprl : (latest o.p.bounds.length xs).length = o.p.bounds.length := latest_length _ _ hxs
  have hsub : ∀ x : Config ℚ, x.length = o.p.bounds.length →
      o.p.switchingCost (Config.sub x (latest o.p.bounds.length xs)) = .ok (mv (Config.sub x (latest o.p.bounds.length xs))) := by
    intro x hx
    apply hp.moves
    simp [Config.sub, hx, hprl]
  have hm := hsub v (inBoxQ_length hvg.1)
  obtain ⟨b, hb, hbu⟩ : ∃ b, o.p.toProb.hitCost (xs.length + 1) (latest o.p.bounds.length xs) = .ok b ∧ upperLevel a b.cost = u := by
    rcases hu with ⟨h1, h2⟩ | ⟨h1, h2⟩
    · obtain ⟨o', ho⟩ := (hitCost_eq hp _).1 h1
      exact ⟨_, ho, by rw [h2]; rfl⟩
    · by_cases hin : InBoxQ o.p.bounds (latest o.p.bounds.length xs)
      · obtain ⟨o', ho⟩ := (hitCost_eq hp _).1 hin
        exact ⟨_, ho, by rw [h1 hin, h2]; rfl⟩
      · obtain ⟨o', ho⟩ := (hitCost_eq hp _).2 hprl hin
        exact ⟨_, ho, by rw [h2]; rfl⟩
  -- the imbalance
  have hobd : ∀ l : ℚ, ∃ x, (obd S ε h ((l : ℚ) : ECost)).next o xs none = .ok (x, none) ∧ GridPoint o.p.bounds x ∧
      (a ≤ l → Nearest o.p.bounds hit (fun x => divergence ε H x (latest o.p.bounds.length xs)) l x) := by
    intro l
    obtain ⟨x, h1, h2, -, h3, -⟩ := C50_obd S hS o hw xs hxs hit mv hp ε h H hh l
    refine ⟨x, h1, h2, fun hal => ?_⟩
    obtain ⟨h4, h5⟩ := h3 hE ⟨v, hvg, by rw [hva1, WithTop.coe_le_coe]; exact hal⟩
    exact ⟨h2, h4, h5⟩
  obtain ⟨F, hF⟩ : ∃ F : ℚ → Res Slack, F = (fun l : ℚ => do
      let x ← (obd S ε h ((l : ℚ) : ECost)).next o xs none
      let m ← o.p.switchingCost (Config.sub x.1 (latest o.p.bounds.length xs))
      .ok (((m - β * l : ℚ) : WithTop ℚ) : Slack)) := ⟨_, rfl⟩
  have hFv : ∀ l x, (obd S ε h ((l : ℚ) : ECost)).next o xs none = .ok (x, none) → GridPoint o.p.bounds x →
      F l = .ok (((mv (Config.sub x (latest o.p.bounds.length xs)) - β * l : ℚ) : WithTop ℚ) : Slack) := by
    intro l x h1 h2
    simp only [hF, h1, bind, Except.bind, hsub x (inBoxQ_length h2.1)]
  obtain ⟨xa, a1, a2, a3⟩ := hobd a
  obtain ⟨xu, u1, u2, u3⟩ := hobd u
  obtain ⟨l0, l1, l2, l3, l4⟩ := hlevel
  obtain ⟨x0, o1, o2, o3⟩ := hobd l0
  have hxa : hit xa = ((a : ℚ) : ECost) := le_antisymm (a3 le_rfl).2.1 (ha xa a2)
  obtain ⟨l, r1, r2, r3, r4, r5⟩ := findRoot_root hB (a := a) (b := u) (by
      rw [abs_sub_comm]; exact le_trans (by norm_num [precision]) (hau.trans (le_abs_self _))) F
    (fun l => by obtain ⟨x, h1, h2, -⟩ := hobd l; exact ⟨_, hFv l x h1 h2⟩) _ 0 (hFv a xa a1 a2) (by have := hlow xa a2 hxa; linarith)
    _ (hFv u xu u1 u2) (by
      rw [WithBot.coe_le_coe, WithTop.coe_le_coe]
      have := hhigh xu (u3 (by linarith))
      linarith)
    ⟨l0, l1, l2, l3, by rw [hFv l0 x0 o1 o2, l4 x0 (o3 l1), sub_self]⟩
  obtain ⟨x, h1, h2, h3⟩ := hobd l
  refine ⟨x, l, ?_, r2, r3, h3 r2, ?_⟩
  · have e : (pobd S B ε h β).next o xs none = (pobd S B ε h β).call o (xs.length + 1) xs () := rfl
    rw [e]
    simp only [pobd, hw, assertR, decide_true, if_true, bind, Except.bind, hv, hm, prevX_eq o.p hp.dim]
    show (if mv (Config.sub v (latest o.p.bounds.length xs)) ≤ β * a then _ else _) = _
    rw [if_neg (by have := hlow v hvg hva1; linarith)]
    rw [hF] at r1
    simp only [bind, Except.bind] at r1
    simp only [hb, hbu, r1]
    exact h1
  · rw [hFv l x h1 h2] at r5
    have := WithTop.coe_injective (WithBot.coe_injective (Except.ok.inj r5))
    linarith

end

/-! ## An instance -/

/-- Root finders as required exist. -/
theorem exists_findsRoots : ∃ B : Brent, FindsRoots B := by
  classical
  refine ⟨fun i f => ([], if h : ∃ x, i.1 ≤ x ∧ x ≤ i.2 ∧ OnGrid x ∧ f x = .ok ((((0 : ℚ) : WithTop ℚ)) : Slack) then some h.choose else none), ?_⟩
  intro a b f h
  have h' : ∃ x, (a, b).1 ≤ x ∧ x ≤ (a, b).2 ∧ OnGrid x ∧ f x = .ok ((((0 : ℚ) : WithTop ℚ)) : Slack) := h
  exact ⟨h'.choose, dif_pos h', h'.choose_spec.1, h'.choose_spec.2.1, h'.choose_spec.2.2.1, h'.choose_spec.2.2.2⟩

/-- Decision space `[1, 2]`, which does not contain the initial configuration. -/
def upperP : SCO ℚ Unit Unit where
  d := 1
  tEnd := 1
  bounds := [(1, 2)]
  switchingCost := fun x => .ok (100 * |x.headD 0|)
  hittingCost := CostFn.new 1 (SingleCostFn.certain fun _ x => .ok (Cost.raw ((100 * (3 - x.headD 0) : ℚ) : ECost)))

/-- Non-vacuity of `C58_level_partial`, and its use: coming from 0, the algorithm goes to `3/2`, where both movement and hitting cost are 150. -/
example (S : Solver) (hS : Inner S) (hE : Exact S) (B : Brent) (hB : FindsRoots B) (ε : ℚ) :
    (pobd S B ε sqNorm 1).next ⟨upperP, 0⟩ [] none = .ok ([3 / 2], none) := by
  have hp : Slot upperP (([] : Schedule ℚ).length + 1) (fun x => ((100 * (3 - x.headD 0) : ℚ) : ECost)) (fun x => 100 * |x.headD 0|) := {
    box := by
      intro b hb
      simp only [upperP, List.mem_singleton] at hb
      subst hb
      exact ⟨by norm_num, ⟨100, by norm_num⟩, ⟨200, by norm_num⟩⟩
    dim := rfl
    certain := fun x _ => ⟨.success (), by rw [upperP, CostFn.callCertain_certain _ _ (by norm_num)]; rfl⟩
    mean := fun x _ => ⟨.success (), by rw [upperP, CostFn.callMean_certain _ _ (by norm_num)]; rfl⟩
    moves := fun _ _ => rfl }
  have inv : ∀ x, GridPoint upperP.bounds x → ∃ y, x = [y] ∧ 1 ≤ y ∧ y ≤ 2 := by
    intro x hx
    have := hx.1
    unfold InBoxQ upperP at this
    cases this with
    | cons a b => cases b; exact ⟨_, rfl, a.1, a.2⟩
  have grid : ∀ y : ℚ, 1 ≤ y → y ≤ 2 → OnGrid y → GridPoint upperP.bounds [y] := fun y h0 h1 hg => ⟨.cons ⟨h0, h1⟩ .nil, by simpa using hg⟩
  have hdiv : ∀ y : ℚ, divergence ε (fun x : List ℚ => (x.map (· ^ 2)).sum) [y] [0] = y ^ 2 := by
    intro y
    simp [divergence, bump]
  have near : ∀ l x, Nearest upperP.bounds (fun x => ((100 * (3 - x.headD 0) : ℚ) : ECost))
      (fun x => divergence ε (fun x : List ℚ => (x.map (· ^ 2)).sum) x [0]) l x → ∀ y, 1 ≤ y → y ≤ 2 → OnGrid y → 100 * (3 - y) ≤ l →
      ∃ z, x = [z] ∧ 1 ≤ z ∧ z ≤ y ∧ 100 * (3 - z) ≤ l := by
    rintro l x ⟨h1, h2, h3⟩ y y1 y2 y3 y4
    obtain ⟨z, rfl, z1, z2⟩ := inv x h1
    have h4 := h3 [y] (grid y y1 y2 y3) (by simpa using y4)
    simp only [hdiv] at h4
    refine ⟨z, rfl, z1, ?_, by simpa using h2⟩
    by_contra hc
    push Not at hc
    nlinarith
  obtain ⟨x, l, h1, h2, h3, h4, h5⟩ := C58_level_partial S hS hE B hB ⟨upperP, 0⟩ rfl [] (by simp) _ _ hp ε sqNorm
    (fun x => (x.map (· ^ 2)).sum) (fun _ _ => rfl) 1 [0] rfl 100 100000
    (by
      intro v hv
      obtain ⟨y, rfl, y1, y2⟩ := inv v hv
      simp only [List.headD_cons, WithTop.coe_le_coe]
      linarith)
    ⟨[2], grid 2 (by norm_num) le_rfl ⟨200, by norm_num⟩, by simp only [List.headD_cons, WithTop.coe_eq_coe]; norm_num⟩
    (Or.inr ⟨fun h => by
      unfold InBoxQ upperP at h
      cases h with
      | cons a b => exact absurd a.1 (by norm_num), by norm_num⟩)
    (by norm_num)
    (by
      intro v hv hv2
      obtain ⟨y, rfl, y1, y2⟩ := inv v hv
      simp only [List.headD_cons, WithTop.coe_eq_coe] at hv2
      have : y = 2 := by linarith
      subst this
      simp [Config.sub]
      norm_num)
    (by
      intro x hx
      obtain ⟨z, rfl, z1, z2, -⟩ := near _ _ hx 1 le_rfl (by norm_num) ⟨100, by norm_num⟩ (by norm_num)
      simp only [Config.sub, List.zipWith_cons_cons, List.headD_cons, sub_zero]
      rw [abs_of_nonneg (by linarith)]
      linarith)
    ⟨150, by norm_num, by norm_num, ⟨15000, by norm_num⟩, by
      intro x hx
      obtain ⟨z, rfl, z1, z2, z3⟩ := near _ _ hx (3 / 2) (by norm_num) (by norm_num) ⟨150, by norm_num⟩ (by norm_num)
      simp only [Config.sub, List.zipWith_cons_cons, List.headD_cons, sub_zero]
      rw [abs_of_nonneg (by linarith)]
      linarith⟩
  rw [h1]
  obtain ⟨y, rfl, y1, y2⟩ := inv x h4.1
  simp only [Config.sub, List.zipWith_cons_cons, List.headD_cons, sub_zero] at h5
  rw [abs_of_nonneg (by linarith)] at h5
  have h6 := h4.2.1
  simp only [List.headD_cons, WithTop.coe_le_coe] at h6
  have hge : 3 / 2 ≤ y := by linarith
  rcases le_or_gt (150 : ℚ) l with hl | hl
  · obtain ⟨z, e, z1, z2, -⟩ := near _ _ h4 (3 / 2) (by norm_num) (by norm_num) ⟨150, by norm_num⟩ (by linarith)
    have : y = z := by simpa using e
    have : y = 3 / 2 := by linarith
    rw [this]
  · exfalso; linarith

end Descent
end Soco
