import Verif.Props.Horizon
import Mathlib.Tactic.Positivity

/-!
# C76: cost of horizon control, compared with the optimum
-/

namespace Soco
namespace Spec

/-- The average of configurations with `d` entries. -/
def average (d : Nat) (xs : List (Config ℚ)) : Config ℚ :=
  (List.range d).map fun j => (xs.map fun x : Config ℚ => x.getD j 0).sum / xs.length

/-- Convexity: the average of configurations costs at most the average of their costs. -/
def ConvexOver (bounds : List ℚ) (f : Config ℚ → ℚ) : Prop :=
  ∀ xs : List (Config ℚ), xs ≠ [] → (∀ x ∈ xs, InBox bounds x) →
    f (average bounds.length xs) ≤ (xs.map f).sum / xs.length

/-- Switching on all servers of a configuration costs at most `ρ` times as much as operating them for a slot. -/
def CheapSwitching (bounds β : List ℚ) (hit : Int → Config ℚ → ECost) (ρ : ℚ) : Prop :=
  ∀ t : Int, 1 ≤ t → ∀ x, InBox bounds x → ∀ c : ℚ, hit t x = (c : ECost) → weighted β x ≤ ρ * c

end Spec
open Spec
namespace Horizon

/-! ## Sums over the slots -/

/-- `good t prev x` for all slots of a schedule. -/
def Chain (good : Int → Config ℚ → Config ℚ → Prop) : Int → Config ℚ → Schedule ℚ → Prop
  | _, _, [] => True
  | t, prev, x :: xs => good t prev x ∧ Chain good (t + 1) x xs

/-- Slot by slot, a decision costs at most `κ` times the hitting cost of each configuration of the decision space. -/
def Near (bounds β : List ℚ) (hit : Int → Config ℚ → ECost) (κ : ℚ) (t : Int) (prev x : Config ℚ) : Prop :=
  ∀ z, InBox bounds z → (∀ j ∈ z, OnGrid j) → ∀ c : ℚ, hit t z = (c : ECost) →
    ∃ a : ℚ, hit t x = (a : ECost) ∧ a + upCost β prev x ≤ κ * c

theorem upCost_nonneg' (β : List ℚ) (hβ : ∀ b ∈ β, 0 ≤ b) : ∀ y x : Config ℚ, 0 ≤ upCost β y x := by
  intro y x
  unfold upCost
  induction β generalizing y x with
  | nil => simp [List.zipWith3]
  | cons b β ih =>
    cases y with
    | nil => simp [List.zipWith3]
    | cons y ys =>
      cases x with
      | nil => simp [List.zipWith3]
      | cons x xs =>
        simp only [List.zipWith3, List.sum_cons]
        have h1 := ih (fun b hb => hβ b (by simp [hb])) ys xs
        have h2 := mul_nonneg (hβ b (by simp)) (le_max_left 0 (toQ x - toQ y))
        linarith

theorem upCost_le_weighted (β : List ℚ) (hβ : ∀ b ∈ β, 0 ≤ b) : ∀ y x : Config ℚ, (∀ j ∈ y, 0 ≤ j) → (∀ j ∈ x, 0 ≤ j) →
    upCost β y x ≤ weighted β x := by
  intro y x
  unfold upCost weighted
  induction β generalizing y x with
  | nil => simp [List.zipWith3]
  | cons b β ih =>
    intro hy hx
    cases x with
    | nil => cases y <;> simp [List.zipWith3]
    | cons x xs =>
      have hb := hβ b (by simp)
      have hx0 := hx x (by simp)
      cases y with
      | nil =>
        simp only [List.zipWith3, List.zipWith_cons_cons, List.sum_cons, List.sum_nil]
        have h1 := ih (fun b hb => hβ b (by simp [hb])) [] xs (by simp) fun j hj => hx j (by simp [hj])
        have h2 : (List.zipWith3 (fun b yk xk => b * max 0 (toQ xk - toQ yk)) β ([] : Config ℚ) xs) = [] := by
          cases β <;> rfl
        rw [h2] at h1
        have := mul_nonneg hb hx0
        simp only [toQ, Value.toQHom, RingHom.id_apply] at *
        simp at h1
        linarith
      | cons y ys =>
        simp only [List.zipWith3, List.zipWith_cons_cons, List.sum_cons]
        have h1 := ih (fun b hb => hβ b (by simp [hb])) ys xs (fun j hj => hy j (by simp [hj])) fun j hj => hx j (by simp [hj])
        have hy0 := hy y (by simp)
        have h2 : b * max 0 (toQ x - toQ y) ≤ b * toQ x := by
          apply mul_le_mul_of_nonneg_left _ hb
          simp only [toQ, Value.toQHom, RingHom.id_apply]
          exact max_le hx0 (by linarith)
        linarith

theorem inBox_nonneg {bounds : List ℚ} {x : Config ℚ} (h : InBox bounds x) : ∀ j ∈ x, 0 ≤ j := by
  unfold InBox at h
  induction h with
  | nil => simp
  | cons a _ ih =>
    intro j hj
    rcases List.mem_cons.1 hj with rfl | hj
    · exact a.1
    · exact ih j hj

theorem chain_cost (bounds β : List ℚ) (hβ : ∀ b ∈ β, 0 ≤ b) (hit : Int → Config ℚ → ECost) (κ : ℚ) (hκ : 0 ≤ κ) :
    ∀ (xs zs : Schedule ℚ) (t : Int) (prev prev' : Config ℚ), xs.length = zs.length →
      Chain (Near bounds β hit κ) t prev xs → Plan bounds zs → ∀ c : ℚ,
      totalCost hit (upCost β) 1 t prev' zs = (c : ECost) →
      ∃ a : ℚ, totalCost hit (upCost β) 1 t prev xs = (a : ECost) ∧ a ≤ κ * c := by
  intro xs
  induction xs with
  | nil =>
    intro zs t prev prev' hl _ _ c hc
    have : zs = [] := List.length_eq_zero_iff.1 hl.symm
    subst this
    rw [totalCost] at hc
    have : c = 0 := (WithTop.coe_eq_zero.1 hc.symm)
    subst this
    exact ⟨0, rfl, by simp⟩
  | cons x xs ih =>
    intro zs t prev prev' hl hch hz c hc
    cases zs with
    | nil => simp at hl
    | cons z zs =>
      rw [totalCost] at hc
      cases h1 : hit t z using WithTop.recTopCoe with
      | top => rw [h1] at hc; simp at hc
      | coe c1 =>
        cases h2 : totalCost hit (upCost β) 1 (t + 1) z zs using WithTop.recTopCoe with
        | top => rw [h2] at hc; simp at hc
        | coe c2 =>
          rw [h1, h2] at hc
          norm_cast at hc
          obtain ⟨a1, e1, l1⟩ := hch.1 z (hz z (by simp)).1 (hz z (by simp)).2 c1 h1
          obtain ⟨a2, e2, l2⟩ := ih zs (t + 1) x z (by simpa using hl) hch.2 (fun y hy => hz y (by simp [hy])) c2 h2
          refine ⟨a1 + 1 * upCost β prev x + a2, ?_, ?_⟩
          · rw [totalCost, e1, e2]; norm_cast
          · have := mul_nonneg hκ (upCost_nonneg' β hβ prev' z)
            rw [← hc]
            nlinarith

section
variable {C D : Type} [OutSuccess C] [OutFailure D]

theorem run_chain {M : Type} (A : OnlineAlgorithm (SSCO ℚ C D) ℚ M) (good : Int → Config ℚ → Config ℚ → Prop) (d : Nat)
    (memOk : Option M → Prop) (boxed : Config ℚ → Prop)
    {os : List (Online (SSCO ℚ C D))} {xs ys : Schedule ℚ} {m k : Option M}
    (h : Run (fun p : SSCO ℚ C D => p.tEnd) A xs m os ys k)
    (hstep : ∀ o ∈ os, ∀ (xs : Schedule ℚ) (m : Option M) (x : Config ℚ) (m' : Option M), o.p.tEnd = (xs.length : Int) + 1 →
      (∀ x ∈ xs, boxed x) → memOk m → A.call o ((xs.length : Int) + 1) xs (m.getD (A.default o)) = .ok (x, m') →
      boxed x ∧ memOk m' ∧ good ((xs.length : Int) + 1) (xs.getLastD (List.replicate d 0)) x)
    (hx : ∀ x ∈ xs, boxed x) (hm : memOk m) :
    ∃ tail, ys = xs ++ tail ∧ tail.length = os.length ∧ (∀ x ∈ tail, boxed x) ∧
      Chain good ((xs.length : Int) + 1) (xs.getLastD (List.replicate d 0)) tail := by
  induction h with
  | nil xs m => exact ⟨[], by simp, rfl, by simp, trivial⟩
  | step xs m o os x m' ys k slot dec rest ih =>
    obtain ⟨h1, h2, h3⟩ := hstep o (by simp) xs m x m' slot hx hm dec
    obtain ⟨tail, e, l, hb, hc⟩ := ih (fun o ho => hstep o (by simp [ho]))
      (by intro y hy; rcases List.mem_append.1 hy with hy | hy; exacts [hx y hy, by simp at hy; exact hy ▸ h1]) h2
    refine ⟨x :: tail, by simp [e], by simp [l], ?_, h3, ?_⟩
    · intro y hy
      rcases List.mem_cons.1 hy with rfl | hy
      exacts [h1, hb y hy]
    · simpa using hc

theorem plan_single {bounds : List ℚ} {z : Config ℚ} (h1 : InBox bounds z) (h2 : ∀ j ∈ z, OnGrid j) : Plan bounds [z] := by
  intro x hx
  simp only [List.mem_singleton] at hx
  subst hx
  exact ⟨h1, h2⟩

theorem planCost_single (hit : Int → Config ℚ → ECost) (β : List ℚ) (t : Int) (ht : 1 ≤ t) (prev x : Config ℚ) :
    planCost hit β t prev [x] = hit t x + ((upCost β prev x : ℚ) : ECost) := by
  simp [planCost, totalCost, fromSlotOne, not_lt.2 ht]

theorem getLastD_nonneg {bounds : List ℚ} (xs : Schedule ℚ) (d : Nat) (h : ∀ x ∈ xs, InBox bounds x) :
    ∀ j ∈ xs.getLastD (List.replicate d 0), (0 : ℚ) ≤ j := by
  rw [List.getLastD_eq_getLast?]
  cases hl : xs.getLast? with
  | none =>
    intro j hj
    simp at hj
    simp [hj.2]
  | some y => exact inBox_nonneg (h y (List.mem_of_getLast? hl))

/-- A decision which minimises the cost of its slot costs at most `1 + ρ` times any hitting cost. -/
theorem near_of_optimal {bounds β : List ℚ} (hβ : ∀ b ∈ β, 0 ≤ b) {hit : Int → Config ℚ → ECost} {ρ : ℚ}
    (hρ : CheapSwitching bounds β hit ρ) {t : Int} (ht : 1 ≤ t) {prev x : Config ℚ} (hprev : ∀ j ∈ prev, 0 ≤ j)
    (hopt : OptimalPlan hit β bounds t prev [x]) : Near bounds β hit (1 + ρ) t prev x := by
  intro z hz hg c hc
  have h1 := hopt [z] rfl (plan_single hz hg)
  rw [planCost_single hit β t ht, planCost_single hit β t ht, hc] at h1
  cases hx : hit t x using WithTop.recTopCoe with
  | top => rw [hx] at h1; norm_cast at h1
  | coe a =>
    rw [hx] at h1
    norm_cast at h1
    refine ⟨a, rfl, ?_⟩
    have h2 := upCost_le_weighted β hβ prev z hprev (inBox_nonneg hz)
    have h3 := hρ t ht z hz c hc
    linarith

/-- **C76** (partial, receding horizon control) If switching on costs at most `ρ` times as much as operating for a slot,
the schedule costs at most `1 + ρ` times as much as any schedule on the numeric grid, whatever the window. The property
asks for ratios that tend to one as the window grows. -/
theorem C76_rhc_partial (S : Num.Solver) (hS : Exact S) (bounds β : List ℚ) (hβ : ∀ b ∈ β, 0 ≤ b) (w : Nat)
    (hit : Int → Config ℚ → ECost) (ρ : ℚ) (hρ0 : 0 ≤ ρ) (hρ : CheapSwitching bounds β hit ρ)
    (os : List (Online (SSCO ℚ C D))) (h : Shown bounds w hit os) (hsw : ∀ o ∈ os, o.p.switchingCost = β)
    (ys : Schedule ℚ) (k : Option Unit) (hr : Run (fun p : SSCO ℚ C D => p.tEnd) (rhc S) [] none os ys k)
    (zs : Schedule ℚ) (hzs : Plan bounds zs) (hl : zs.length = os.length) (c : ℚ)
    (hc : totalCost hit (upCost β) 1 1 (List.replicate bounds.length 0) zs = (c : ECost)) :
    ∃ a : ℚ, totalCost hit (upCost β) 1 1 (List.replicate bounds.length 0) ys = (a : ECost) ∧ a ≤ (1 + ρ) * c := by
  obtain ⟨tail, e, l, _, hch⟩ := run_chain (rhc S) (Near bounds β hit (1 + ρ)) bounds.length (fun _ => True)
    (InBox bounds) hr (by
      intro o ho xs m x m' hT hx _ hcall
      obtain ⟨hp, hb, hw⟩ := h.usable o ho
      obtain ⟨y, h1, h2, h3⟩ := C39_rhc_step_partial S hS.toSound o hit hp (by omega) xs
        (fun x h => by rw [hb]; exact (List.Forall₂.length_eq (hx x h)).symm) (m.getD ((rhc S).default o))
      rw [hT] at h1
      rw [h1] at hcall
      cases hcall
      rw [hb] at h2
      have h4 := h3 hS
      rw [hsw o ho, hb, hT] at h4
      exact ⟨h2, trivial, near_of_optimal hβ hρ (by omega) (getLastD_nonneg xs _ hx) h4⟩)
    (by simp) trivial
  rw [List.nil_append] at e
  subst e
  exact chain_cost bounds β hβ hit (1 + ρ) (by linarith) ys zs 1 _ _ (by omega) (by simpa using hch) hzs c hc

theorem totalCost_snoc {X : Type} (hit : Int → X → ECost) (mv : X → X → ℚ) (α : ℚ) (q : X) (ps : List X) :
    ∀ (t : Int) (prev : X), totalCost hit mv α t prev (ps ++ [q]) = totalCost hit mv α t prev ps +
      (hit (t + ps.length) q + ((α * mv (ps.getLastD prev) q : ℚ) : ECost)) := by
  induction ps with
  | nil => intro t prev; simp [totalCost]
  | cons p ps ih =>
    intro t prev
    have e1 : t + ((p :: ps).length : Int) = t + 1 + ps.length := by simp; ring
    have e2 : (p :: ps).getLastD prev = ps.getLastD p := List.getLastD_cons
    rw [List.cons_append, totalCost, ih, totalCost, e1, e2, ← add_assoc]

theorem totalCost_finite {X : Type} (h : Int → X → ℚ) (mv : X → X → ℚ) (α : ℚ) (ps : List X) :
    ∀ (t : Int) (prev : X), ∃ c : ℚ, totalCost (fun t x => ((h t x : ℚ) : ECost)) mv α t prev ps = (c : ECost) := by
  induction ps with
  | nil => intro _ _; exact ⟨0, rfl⟩
  | cons p ps ih =>
    intro t prev
    obtain ⟨c, hc⟩ := ih (t + 1) p
    exact ⟨h t p + α * mv prev p + c, by rw [totalCost, hc]; norm_cast⟩

/-- The last configuration of an optimal plan minimises the cost of its slot. -/
theorem optimal_last {bounds β : List ℚ} {h : Int → Config ℚ → ℚ} {s : Int} {prev : Config ℚ} {ps : Schedule ℚ}
    {q : Config ℚ} (hps : Plan bounds ps) (hopt : OptimalPlan (fun t x => ((h t x : ℚ) : ECost)) β bounds s prev (ps ++ [q])) :
    OptimalPlan (fun t x => ((h t x : ℚ) : ECost)) β bounds (s + ps.length) (ps.getLastD prev) [q] := by
  intro other hl hother
  obtain ⟨z, rfl⟩ := List.length_eq_one_iff.1 hl
  have h1 := hopt (ps ++ [z]) (by simp) (by
    intro x hx
    rcases List.mem_append.1 hx with hx | hx
    exacts [hps x hx, hother x hx])
  unfold planCost at h1 ⊢
  rw [totalCost_snoc, totalCost_snoc] at h1
  have e : fromSlotOne (fun t x => ((h t x : ℚ) : ECost)) = fun (t : Int) (x : Config ℚ) => (((if t < 1 then 0 else h t x) : ℚ) : ECost) := by
    funext t x
    unfold fromSlotOne
    split <;> simp
  obtain ⟨c, hc⟩ := totalCost_finite (fun (t : Int) (x : Config ℚ) => if t < 1 then 0 else h t x) (upCost β) 1 ps s prev
  rw [e] at h1 ⊢
  rw [hc] at h1
  simp only [totalCost] at h1 ⊢
  norm_cast at h1 ⊢
  linarith

theorem average_eq (d : Nat) (L : List (Config ℚ)) (x : Config ℚ) (hx : x.length = d)
    (h : ∀ j, x.getD j 0 = (L.map fun y : Config ℚ => y.getD j 0).sum / L.length) : x = average d L := by
  apply List.ext_getElem
  · simp [average, hx]
  · intro j h1 h2
    simp only [average, List.getElem_map, List.getElem_range]
    rw [← h j, List.getD_eq_getElem _ _ h1]

theorem sum_le_mul (L : List (Config ℚ)) (f : Config ℚ → ℚ) (b : ℚ) (h : ∀ y ∈ L, f y ≤ b) :
    (L.map f).sum ≤ L.length * b := by
  induction L with
  | nil => simp
  | cons y L ih =>
    have h1 := h y (by simp)
    have h2 := ih fun y hy => h y (by simp [hy])
    simp only [List.map_cons, List.sum_cons, List.length_cons]
    push_cast
    linarith

/-- **C76** (partial, averaging fixed horizon control) For finite convex hitting costs, if switching on costs at most `ρ`
times as much as operating for a slot, the schedule costs at most `(1 + ρ)²` times as much as any schedule on the numeric
grid, whatever the window. The property asks for ratios that tend to one as the window grows. -/
theorem C76_afhc_partial (S : Num.Solver) (hS : Exact S) (bounds β : List ℚ) (hβ : ∀ b ∈ β, 0 ≤ b) (w : Nat)
    (hit : Int → Config ℚ → ℚ) (hconv : ∀ t, ConvexOver bounds (hit t)) (ρ : ℚ) (hρ0 : 0 ≤ ρ)
    (hρ : CheapSwitching bounds β (fun t x => ((hit t x : ℚ) : ECost)) ρ) (os : List (Online (SSCO ℚ C D)))
    (h : Shown bounds w (fun t x => ((hit t x : ℚ) : ECost)) os) (hsw : ∀ o ∈ os, o.p.switchingCost = β)
    (ys : Schedule ℚ) (k : Option Memory) (hr : Run (fun p : SSCO ℚ C D => p.tEnd) (afhc S) [] none os ys k)
    (zs : Schedule ℚ) (hzs : Plan bounds zs) (hl : zs.length = os.length) (c : ℚ)
    (hc : totalCost (fun t x => ((hit t x : ℚ) : ECost)) (upCost β) 1 1 (List.replicate bounds.length 0) zs = (c : ECost)) :
    ∃ a : ℚ, totalCost (fun t x => ((hit t x : ℚ) : ECost)) (upCost β) 1 1 (List.replicate bounds.length 0) ys = (a : ECost) ∧
      a ≤ (1 + ρ) ^ 2 * c := by
  obtain ⟨tail, e, l, _, hch⟩ := run_chain (afhc S)
    (Near bounds β (fun t x => ((hit t x : ℚ) : ECost)) ((1 + ρ) ^ 2)) bounds.length
    (fun m => ∀ mem ∈ m, mem.length = w + 1 ∧ ∀ x ∈ mem, InBox bounds x) (InBox bounds) hr (by
      intro o ho xs m x m' hT hx hm hcall
      obtain ⟨hp, hb, hw⟩ := h.usable o ho
      have hzero : InBox bounds (List.replicate bounds.length 0) := by
        have := fun u hu => (hp.bound u hu).1
        rw [hb] at this
        clear * - this
        unfold InBox
        induction bounds with
        | nil => exact .nil
        | cons u us ih =>
          rw [List.length_cons, List.replicate_succ]
          exact .cons ⟨le_rfl, this u (by simp)⟩ (ih fun v hv => this v (by simp [hv]))
      have hmem : (m.getD ((afhc S).default o)).length = w + 1 ∧
          ∀ y ∈ m.getD ((afhc S).default o), InBox bounds y := by
        cases m with
        | some mem => exact hm mem rfl
        | none =>
          have hd : o.p.d.toNat = bounds.length := by rw [hp.dim, hb]; simp
          refine ⟨by simp [afhc, hw], ?_⟩
          intro y hy
          simp only [Option.getD_none, afhc, List.mem_replicate, Config.repeat, hd] at hy
          rw [hy.2]
          exact hzero
      obtain ⟨Ps, h1, h2, y, h3, h4, h5⟩ := C39_afhc_step_partial S hS.toSound o _ hp w hw xs _ hmem.1
        (fun y hy => by rw [hb]; exact (List.Forall₂.length_eq (hmem.2 y hy)).symm)
      rw [hT] at h3
      rw [h3] at hcall
      cases hcall
      rw [hb] at h4
      have hPs : ∀ (i : Nat) P, Ps[i]? = some P → ∃ q, P[w - i]? = some q ∧ InBox bounds q ∧
          ∀ z, InBox bounds z → (∀ j ∈ z, OnGrid j) →
            hit ((xs.length : Int) + 1) q ≤ (1 + ρ) * hit ((xs.length : Int) + 1) z := by
        intro i P hP
        have hi : i < w + 1 := by
          have := (List.getElem?_eq_some_iff.1 hP).1
          omega
        obtain ⟨p1, p2, prev, p3, p4⟩ := h2 i P hP
        have hlt : w - i < P.length := by omega
        have p5 := p4 hS
        rw [hb] at p2
        rw [hsw o ho, hb, hT, show w + 1 - i = w - i + 1 by omega, List.take_succ, List.getElem?_eq_getElem hlt] at p5
        have hpre : Plan bounds (P.take (w - i)) := fun y hy => p2 y (List.mem_of_mem_take hy)
        have p6 := optimal_last hpre p5
        have e : (xs.length : Int) + 1 - w + i + ((P.take (w - i)).length : Int) = xs.length + 1 := by
          rw [List.length_take, min_eq_left hlt.le]
          omega
        rw [e] at p6
        refine ⟨P[w - i], List.getElem?_eq_getElem hlt, (p2 _ (List.getElem_mem hlt)).1, ?_⟩
        intro z hz hg
        obtain ⟨a, q1, q2⟩ := near_of_optimal hβ hρ (by omega) (by
          rw [List.getLastD_eq_getLast?]
          cases hl : (P.take (w - i)).getLast? with
          | none => exact inBox_nonneg (hmem.2 prev (List.mem_of_getElem? p3))
          | some y => exact inBox_nonneg (hpre y (List.mem_of_getLast? hl)).1) p6 z hz hg _ rfl
        rw [WithTop.coe_eq_coe] at q1
        have := upCost_nonneg' β hβ ((P.take (w - i)).getLastD prev) P[w - i]
        linarith
      set L : List (Config ℚ) := Ps.mapIdx fun i P => (P : Schedule ℚ).getD (w - i) [] with hL
      have hLl : L.length = w + 1 := by simp [hL, h1]
      have hLm : ∀ q ∈ L, InBox bounds q ∧ ∀ z, InBox bounds z → (∀ j ∈ z, OnGrid j) →
          hit ((xs.length : Int) + 1) q ≤ (1 + ρ) * hit ((xs.length : Int) + 1) z := by
        intro q hq
        obtain ⟨i, hi, rfl⟩ := List.mem_mapIdx.1 hq
        obtain ⟨q, q1, q2, q3⟩ := hPs i Ps[i] (List.getElem?_eq_getElem hi)
        rw [List.getD_eq_getElem?_getD, q1, Option.getD_some]
        exact ⟨q2, q3⟩
      have havg : x = average bounds.length L := by
        apply average_eq
        · exact (List.Forall₂.length_eq h4).symm
        · intro j
          rw [h5 j, hLl]
          congr 1
          · congr 1
            rw [hL]
            apply List.ext_getElem <;> simp
          · push_cast; rfl
      have hLne : L ≠ [] := by
        intro h0
        rw [h0] at hLl
        simp at hLl
      have hw0 : (0 : ℚ) < (L.length : ℚ) := by rw [hLl]; positivity
      refine ⟨h4, ?_, ?_⟩
      · intro mem hmem'
        rw [Option.mem_def, Option.some.injEq] at hmem'
        subst hmem'
        refine ⟨by simp [h1], ?_⟩
        intro z hz
        obtain ⟨P, hP, rfl⟩ := List.mem_map.1 hz
        obtain ⟨i, hi⟩ := List.mem_iff_getElem?.1 hP
        obtain ⟨p1, p2, _⟩ := h2 i P hi
        rw [hb] at p2
        have h0 : 0 < P.length := by omega
        rw [List.getD_eq_getElem _ _ h0]
        exact (p2 _ (List.getElem_mem h0)).1
      · intro z hz hg c hc
        rw [WithTop.coe_eq_coe] at hc
        refine ⟨_, rfl, ?_⟩
        have q1 := hconv ((xs.length : Int) + 1) L hLne fun q hq => (hLm q hq).1
        rw [← havg] at q1
        have q2 := sum_le_mul L (hit ((xs.length : Int) + 1)) ((1 + ρ) * c) fun q hq => by
          have := (hLm q hq).2 z hz hg
          rwa [hc] at this
        have q3 : hit ((xs.length : Int) + 1) x ≤ (1 + ρ) * c := by
          refine q1.trans ?_
          rw [div_le_iff₀ hw0]
          linarith
        have q4 := upCost_le_weighted β hβ (xs.getLastD (List.replicate bounds.length 0)) x
          (getLastD_nonneg xs _ hx) (inBox_nonneg h4)
        have q5 := hρ ((xs.length : Int) + 1) (by omega) x h4 _ rfl
        have q6 := mul_le_mul_of_nonneg_left q3 hρ0
        nlinarith)
    (by simp) (by simp)
  rw [List.nil_append] at e
  subst e
  exact chain_cost bounds β hβ _ ((1 + ρ) ^ 2) (by positivity) ys zs 1 _ _ (by omega) (by simpa using hch) hzs c hc

end

/-! ## The ratio does not tend to one -/

/-- One server for the single job of every slot: `4 * |1 - x|` for missing the job and `1/4` for operating the server. -/
def steepCost (_ : Int) (x : Config ℚ) : ℚ := 4 * |1 - x.headD 0| + x.headD 0 / 4

/-- Slot `t` of an instance with these costs, bound 1 and switching cost 4. -/
def steep (t w : Nat) : Online (SSCO ℚ Unit Unit) where
  p :=
    { d := 1, tEnd := t, bounds := [1], switchingCost := [4]
      hittingCost := CostFn.new 1 (SingleCostFn.certain fun t x => .ok (Cost.raw ((steepCost t x : ℚ) : ECost))) }
  w := w

theorem steep_usable (t w : Nat) : Usable (steep t w).p fun t x => ((steepCost t x : ℚ) : ECost) where
  dim := rfl
  costs := rfl
  bound := by
    intro u hu
    simp only [steep, List.mem_singleton] at hu
    subst hu
    exact ⟨by norm_num, 100, by norm_num⟩
  certain := by
    intro s hs _ x r h
    rw [steep, CostFn.callPredictive_certain _ _ hs] at h
    simp only [Except.map, Except.ok.injEq] at h
    rw [← h]; rfl
  defined := by
    intro s hs _ x _
    exact ⟨.success (), by rw [steep, CostFn.callMean_certain _ _ hs]; rfl⟩

/-- The history of `n` slots. -/
def steepHistory (n w : Nat) : List (Online (SSCO ℚ Unit Unit)) := (List.range n).map fun i : Nat => steep (i + 1) w

theorem steep_shown (n w : Nat) : Shown [1] w (fun t x => ((steepCost t x : ℚ) : ECost)) (steepHistory n w) where
  slot := by
    intro i o h
    simp only [steepHistory, List.getElem?_map, Option.map_eq_some_iff] at h
    obtain ⟨j, h1, rfl⟩ := h
    have : j = i := by
      have := List.getElem?_eq_some_iff.1 h1
      obtain ⟨_, h3⟩ := this
      simpa using h3.symm
    subst this
    simp [steep]
  usable := by
    intro o ho
    simp only [steepHistory, List.mem_map] at ho
    obtain ⟨i, _, rfl⟩ := ho
    exact ⟨steep_usable _ _, rfl, rfl⟩

theorem inBox_one {x : Config ℚ} (h : InBox [1] x) : ∃ y : ℚ, x = [y] ∧ 0 ≤ y ∧ y ≤ 1 := by
  unfold InBox at h
  cases h with
  | cons a b => cases b; exact ⟨_, rfl, a⟩

theorem steepCost_eq (t : Int) (y : ℚ) (h : y ≤ 1) : steepCost t [y] = 4 - 15 / 4 * y := by
  simp only [steepCost, List.headD_cons]
  rw [abs_of_nonneg (by linarith)]
  ring

theorem up_one (a b : ℚ) : upCost [4] [a] [b] = 4 * max 0 (b - a) := by
  simp [upCost, List.zipWith3, toQ, Value.toQHom]

theorem steep_cheap : CheapSwitching [1] [4] (fun t x => ((steepCost t x : ℚ) : ECost)) 16 := by
  intro t _ x hx c hc
  rw [WithTop.coe_eq_coe] at hc
  obtain ⟨y, rfl, h0, h1⟩ := inBox_one hx
  rw [steepCost_eq t y h1] at hc
  simp only [weighted, List.zipWith_cons_cons, List.zipWith_nil_left, List.sum_cons, List.sum_nil, toQ, Value.toQHom,
    RingHom.id_apply]
  linarith

theorem steep_convex (t : Int) : ConvexOver [1] (steepCost t) := by
  intro xs hne hxs
  have hpos : (0 : ℚ) < xs.length := by
    have : 0 < xs.length := List.length_pos_iff.2 hne
    exact_mod_cast this
  have e : ∀ L : List (Config ℚ), (∀ x ∈ L, InBox [1] x) →
      (L.map (steepCost t)).sum = 4 * L.length - 15 / 4 * (L.map fun x : Config ℚ => x.getD 0 0).sum ∧
      (L.map fun x : Config ℚ => x.getD 0 0).sum ≤ L.length := by
    intro L hL
    induction L with
    | nil => simp
    | cons x L ih =>
      obtain ⟨y, rfl, h0, h1⟩ := inBox_one (hL x (by simp))
      obtain ⟨i1, i2⟩ := ih fun x hx => hL x (by simp [hx])
      simp only [List.map_cons, List.sum_cons, List.length_cons, steepCost_eq t y h1, i1, List.getD_cons_zero]
      push_cast
      constructor <;> linarith
  obtain ⟨e1, e2⟩ := e xs hxs
  have : average [(1 : ℚ)].length xs = [(xs.map fun x : Config ℚ => x.getD 0 0).sum / xs.length] := by
    simp [average]
  rw [this, steepCost_eq t _ (by rw [div_le_one hpos]; exact e2), e1, sub_div, mul_div_cancel_right₀ _ hpos.ne', mul_div_assoc]

theorem grid_zero : Plan [(1 : ℚ)] [[0]] := by
  apply plan_single
  · simp [InBox]
  · intro j hj
    simp only [List.mem_singleton] at hj
    subst hj
    exact ⟨0, by simp⟩

/-- Nobody switches on a server for a single slot. -/
theorem steep_stays {t : Int} (ht : 1 ≤ t) {x : Config ℚ} (hx : InBox [1] x)
    (h : OptimalPlan (fun t x => ((steepCost t x : ℚ) : ECost)) [4] [1] t [0] [x]) : x = [0] := by
  obtain ⟨y, rfl, h0, h1⟩ := inBox_one hx
  have h2 := h [[0]] rfl grid_zero
  rw [planCost_single _ _ _ ht, planCost_single _ _ _ ht] at h2
  norm_cast at h2
  rw [steepCost_eq t y h1, steepCost_eq t 0 (by norm_num), up_one, up_one, sub_zero, max_eq_right h0] at h2
  norm_num at h2
  have : y = 0 := by linarith
  rw [this]

theorem chain_stays : ∀ (xs : Schedule ℚ) (t : Int),
    Chain (fun _ prev x => prev = [0] → x = [0]) t [0] xs → xs = List.replicate xs.length [0] := by
  intro xs
  induction xs with
  | nil => intro _ _; rfl
  | cons x xs ih =>
    intro t h
    have h1 := h.1 rfl
    subst h1
    rw [List.length_cons, List.replicate_succ, ← ih _ h.2]

theorem steep_total (a : ℚ) (h : a ≤ 1) (n : Nat) : ∀ (t : Int) (prev : ℚ),
    totalCost (fun t x => ((steepCost t x : ℚ) : ECost)) (upCost [4]) 1 t [prev] (List.replicate (n + 1) [a]) =
      (((n + 1 : ℚ) * (4 - 15 / 4 * a) + 4 * max 0 (a - prev) : ℚ) : ECost) := by
  induction n with
  | zero =>
    intro t prev
    simp only [List.replicate_succ, List.replicate_zero, totalCost, steepCost_eq t a h, up_one]
    norm_cast
    simp
  | succ n ih =>
    intro t prev
    rw [List.replicate_succ, totalCost, ih, steepCost_eq t a h, up_one]
    norm_cast
    simp only [sub_self, max_self]
    push_cast
    ring

/-- Receding horizon control never serves the jobs which arrive in all slots, however large its window: it costs `4 n` in
`n` slots, whereas one server costs `4 + n / 4`. So the ratio approaches 16, for every window and every exact optimiser. -/
theorem C76_rhc_counterexample (S : Num.Solver) (hS : Exact S) (n w : Nat) (ys : Schedule ℚ) (k : Option Unit)
    (hr : Run (fun p : SSCO ℚ Unit Unit => p.tEnd) (rhc S) [] none (steepHistory (n + 1) w) ys k) :
    ys = List.replicate (n + 1) [0] ∧
    totalCost (fun t x => ((steepCost t x : ℚ) : ECost)) (upCost [4]) 1 1 [0] ys = ((4 * (n + 1) : ℚ) : ECost) ∧
    totalCost (fun t x => ((steepCost t x : ℚ) : ECost)) (upCost [4]) 1 1 [0] (List.replicate (n + 1) [1]) =
      ((4 + (n + 1) / 4 : ℚ) : ECost) := by
  obtain ⟨tail, e, l, _, hch⟩ := run_chain (rhc S) (fun _ prev x => prev = [0] → x = [0]) 1 (fun _ => True)
    (InBox [1]) hr (by
      intro o ho xs m x m' hT hx _ hcall
      obtain ⟨hp, hb, hw⟩ := (steep_shown (n + 1) w).usable o ho
      obtain ⟨y, h1, h2, h3⟩ := C39_rhc_step_partial S hS.toSound o _ hp (by omega) xs
        (fun x h => by rw [hb]; exact (List.Forall₂.length_eq (hx x h)).symm) (m.getD ((rhc S).default o))
      rw [hT] at h1
      rw [h1] at hcall
      cases hcall
      rw [hb] at h2
      have h4 := h3 hS
      have hsw : o.p.switchingCost = [4] := by
        simp only [steepHistory, List.mem_map] at ho
        obtain ⟨i, _, rfl⟩ := ho
        rfl
      rw [hsw, hb, hT] at h4
      refine ⟨h2, trivial, fun hprev => ?_⟩
      rw [show [(1 : ℚ)].length = 1 from rfl, hprev] at h4
      exact steep_stays (by omega) h2 h4)
    (by simp) trivial
  rw [List.nil_append] at e
  subst e
  have h1 := chain_stays ys _ hch
  rw [l] at h1
  have hl : (steepHistory (n + 1) w).length = n + 1 := by simp [steepHistory]
  rw [hl] at h1
  refine ⟨h1, ?_, ?_⟩
  · rw [h1, steep_total 0 (by norm_num)]
    norm_num
    ring
  · rw [steep_total 1 le_rfl, WithTop.coe_eq_coe]
    norm_num
    ring

theorem run_unique {P T M : Type} {tEnd : P → Int} {A : OnlineAlgorithm P T M} {xs : Schedule T} {m : Option M}
    {os : List (Online P)} {ys ys' : Schedule T} {k k' : Option M} (h : Run tEnd A xs m os ys k) :
    Run tEnd A xs m os ys' k' → ys = ys' ∧ k = k' := by
  induction h with
  | nil xs m => intro h; cases h; exact ⟨rfl, rfl⟩
  | step xs m o os x m' ys k slot dec rest ih =>
    intro h
    cases h with
    | step _ _ _ _ x' m'' _ _ slot' dec' rest' =>
      rw [dec] at dec'
      cases dec'
      exact ih rest'

/-- Slots before the first cost nothing but the switching. -/
theorem early_cost (h : Int → Config ℚ → ℚ) (ps : Schedule ℚ) (hps : ∀ p ∈ ps, InBox [1] p) : ∀ (t : Int) (a : ℚ),
    t + ps.length ≤ 1 → ∃ b c : ℚ, ps.getLastD [a] = [b] ∧
      totalCost (fromSlotOne fun t x => ((h t x : ℚ) : ECost)) (upCost [4]) 1 t [a] ps = (c : ECost) ∧ 4 * (b - a) ≤ c := by
  induction ps with
  | nil => intro t a _; exact ⟨a, 0, rfl, rfl, by simp⟩
  | cons p ps ih =>
    intro t a ht
    obtain ⟨y, rfl, h0, h1⟩ := inBox_one (hps p (by simp))
    simp only [List.length_cons] at ht
    push_cast at ht
    obtain ⟨b, c, e1, e2, e3⟩ := ih (fun p hp => hps p (by simp [hp])) (t + 1) y (by omega)
    refine ⟨b, 4 * max 0 (y - a) + c, by rw [List.getLastD_cons, e1], ?_, ?_⟩
    · rw [totalCost, e2, up_one, fromSlotOne, if_pos (by omega)]
      norm_cast
      ring
    · have := le_max_right 0 (y - a)
      linarith

theorem early_zero (h : Int → Config ℚ → ℚ) (n : Nat) : ∀ (t : Int), t + n ≤ 1 →
      totalCost (fromSlotOne fun t x => ((h t x : ℚ) : ECost)) (upCost [4]) 1 t [0] (List.replicate n [0]) = 0 ∧
      (List.replicate n [(0 : ℚ)]).getLastD [0] = [0] := by
  induction n with
  | zero => intro t _; exact ⟨rfl, rfl⟩
  | succ n ih =>
    intro t ht
    push_cast at ht
    obtain ⟨h1, h2⟩ := ih (t + 1) (by omega)
    rw [List.replicate_succ, totalCost, h1, up_one, fromSlotOne, if_pos (by omega), List.getLastD_cons, h2]
    simp

/-- A plan which ends in the first slot ends without a server. -/
theorem steep_first (ps : Schedule ℚ) (q : Config ℚ) (h : Plan [1] (ps ++ [q])) (s : Int) (hs : s + ps.length = 1)
    (hopt : OptimalPlan (fun t x => ((steepCost t x : ℚ) : ECost)) [4] [1] s [0] (ps ++ [q])) : q = [0] := by
  have h1 := hopt (List.replicate ps.length [0] ++ [[0]]) (by simp) (by
    intro x hx
    have : x = [0] := by
      rcases List.mem_append.1 hx with hx | hx
      · exact List.eq_of_mem_replicate hx
      · simpa using hx
    subst this
    exact grid_zero [0] (by simp))
  obtain ⟨y, rfl, y0, y1⟩ := inBox_one (h q (by simp)).1
  obtain ⟨b, c, e1, e2, e3⟩ := early_cost steepCost ps (fun p hp => (h p (by simp [hp])).1) s 0 (by omega)
  obtain ⟨z1, z2⟩ := early_zero steepCost ps.length s (by omega)
  unfold planCost at h1
  rw [totalCost_snoc, totalCost_snoc, e1, e2, z1, z2, List.length_replicate, hs, up_one, up_one] at h1
  simp only [fromSlotOne] at h1
  rw [if_neg (by norm_num), if_neg (by norm_num), steepCost_eq 1 y y1, steepCost_eq 1 0 (by norm_num)] at h1
  norm_cast at h1
  have := le_max_right 0 (y - b)
  norm_num at h1
  have : y = 0 := by linarith
  rw [this]

theorem steep_afhc_first (S : Num.Solver) (hS : Exact S) (w : Nat) (x : Config ℚ) (m : Option Memory)
    (h : (afhc S).call (steep 1 w) 1 [] ((afhc S).default (steep 1 w)) = .ok (x, m)) : x = [0] := by
  have hd : (afhc S).default (steep 1 w) = List.replicate (w + 1) [0] := by
    simp [afhc, steep, Config.repeat]
  rw [hd] at h
  obtain ⟨Ps, h1, h2, y, h3, h4, h5⟩ := C39_afhc_step_partial S hS.toSound (steep 1 w) _ (steep_usable 1 w) w rfl []
    (List.replicate (w + 1) [0]) (by simp) (by
      intro x hx
      rw [List.eq_of_mem_replicate hx]
      rfl)
  have h3' : (afhc S).call (steep 1 w) 1 [] (List.replicate (w + 1) [0]) = _ := h3
  rw [h3'] at h
  cases h
  obtain ⟨a, rfl, a0, a1⟩ := inBox_one h4
  have h6 := h5 0
  have hz : (Ps.mapIdx fun i P => ((P : Schedule ℚ).getD (w - i) []).getD 0 0) = List.replicate (w + 1) (0 : ℚ) := by
    apply List.ext_getElem
    · simp [h1]
    · intro i i1 i2
      have hi : i < Ps.length := by simpa using i1
      obtain ⟨p1, p2, prev, p3, p4⟩ := h2 i Ps[i] (List.getElem?_eq_getElem hi)
      have hlt : w - i < Ps[i].length := by omega
      have p5 := p4 hS
      have e : Ps[i].take (w + 1 - i) = Ps[i].take (w - i) ++ [Ps[i][w - i]] := by
        rw [show w + 1 - i = w - i + 1 by omega, List.take_succ, List.getElem?_eq_getElem hlt]
        rfl
      have hprev : prev = [0] := List.eq_of_mem_replicate (List.mem_of_getElem? p3)
      rw [e, hprev] at p5
      have hq := steep_first (Ps[i].take (w - i)) (Ps[i][w - i]) (by
        rw [← e]
        exact fun y hy => p2 y (List.mem_of_mem_take hy)) _ (by
          rw [List.length_take, min_eq_left hlt.le]
          have : (steep 1 w).p.tEnd = 1 := rfl
          omega) p5
      simp only [List.getElem_mapIdx, List.getElem_replicate]
      rw [List.getD_eq_getElem _ _ hlt, hq]
      rfl
  rw [hz] at h6
  simp at h6
  rw [h6]

/-- Averaging fixed horizon control does not serve the first of two jobs, however large its window: it costs at least `8`,
whereas one server costs `9/2`. The ratio is at least `16/9` for every window and every exact optimiser. -/
theorem C76_afhc_counterexample (S : Num.Solver) (hS : Exact S) (w : Nat) (ys : Schedule ℚ) (k : Option Memory)
    (hr : Run (fun p : SSCO ℚ Unit Unit => p.tEnd) (afhc S) [] none (steepHistory 2 w) ys k) :
    ys.head? = some [0] ∧
    ((8 : ℚ) : ECost) ≤ totalCost (fun t x => ((steepCost t x : ℚ) : ECost)) (upCost [4]) 1 1 [0] ys ∧
    totalCost (fun t x => ((steepCost t x : ℚ) : ECost)) (upCost [4]) 1 1 [0] [[1], [1]] = ((9 / 2 : ℚ) : ECost) := by
  obtain ⟨ys', k', hr', hl, hbox⟩ := C39_afhc_history S hS.toSound [1] w _ _ (steep_shown 2 w)
  obtain ⟨rfl, rfl⟩ := run_unique hr hr'
  have hh : steepHistory 2 w = [steep 1 w, steep 2 w] := rfl
  rw [hh] at hr
  cases hr with
  | step _ _ _ _ x m' _ _ slot dec rest =>
    cases rest with
    | step _ _ _ _ x2 m'' _ _ slot2 dec2 rest2 =>
      cases rest2
      have hx := steep_afhc_first S hS w x m' dec
      subst hx
      obtain ⟨y, rfl, y0, y1⟩ := inBox_one (hbox x2 (by simp))
      refine ⟨rfl, ?_, ?_⟩
      · simp only [List.nil_append, List.cons_append, totalCost, steepCost_eq _ y y1, steepCost_eq _ 0 zero_le_one, up_one,
          sub_zero, max_eq_right y0]
        norm_cast
        norm_num
        linarith
      · have := steep_total 1 le_rfl 1 1 0
        rw [show List.replicate (1 + 1) [(1 : ℚ)] = [[1], [1]] from rfl] at this
        rw [this, WithTop.coe_eq_coe]
        norm_num

/-- Non-vacuity of the positive and the negative results: both algorithms have runs on these histories, the costs are
convex, and switching is at most 16 times as expensive as operating a server. -/
example : ∃ S : Num.Solver, Exact S ∧ ∀ n w : Nat,
    (∃ ys k, Run (fun p : SSCO ℚ Unit Unit => p.tEnd) (rhc S) [] none (steepHistory n w) ys k) ∧
    (∃ ys k, Run (fun p : SSCO ℚ Unit Unit => p.tEnd) (afhc S) [] none (steepHistory n w) ys k) ∧
    (∀ t, ConvexOver [1] (steepCost t)) ∧ CheapSwitching [1] [4] (fun t x => ((steepCost t x : ℚ) : ECost)) 16 ∧
    ∀ o ∈ steepHistory n w, o.p.switchingCost = [4] := by
  obtain ⟨S, hS, _⟩ := exists_exact
  refine ⟨S, hS, fun n w => ⟨?_, ?_, steep_convex, steep_cheap, ?_⟩⟩
  · obtain ⟨ys, h, _⟩ := C39_rhc_history S hS.toSound _ w _ _ (steep_shown n w)
    exact ⟨ys, none, h⟩
  · obtain ⟨ys, k, h, _⟩ := C39_afhc_history S hS.toSound _ w _ _ (steep_shown n w)
    exact ⟨ys, k, h⟩
  · intro o ho
    simp only [steepHistory, List.mem_map] at ho
    obtain ⟨i, _, rfl⟩ := ho
    rfl

end Horizon
end Soco
