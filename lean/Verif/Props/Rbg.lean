import Verif.Spec.Rbg
import Verif.Model.Rbg
import Verif.Props.Descent3

/-! # C51, C59: randomly biased greedy -/

namespace Soco
namespace Rbg
open Spec Num Descent

/-! ## Caching -/

/-- What the player does against a function without state. If the function fails, the rest of the answer, which is never
looked at, is the one of `a0`. -/
def answer (a0 : Answer) (f : List ℚ → Res ECost) : Strategy → Answer
  | .stop x s => ⟨[], x, s⟩
  | .ask y k =>
    match f (applyPrecisionVec y) with
    | .ok v => { answer a0 f (k v) with probes := y :: (answer a0 f (k v)).probes }
    | .error _ => { a0 with probes := [y] }

/-- The player as a solver; problems with constraints are left to `S0`. -/
def solverOf (P : Player) (S0 : Solver) : Solver := fun box f init cs =>
  match cs with
  | [] => answer (S0 box f init []) f (P box init)
  | c :: cs => S0 box f init (c :: cs)

/-- The work function without cache. -/
def workP (S : Solver) (bounds : List (ℚ × ℚ)) (hit : Int → List ℚ → Res ECost)
    (switchingCost : List ℚ → Res ℚ) (θ : ℚ) : Nat → List ℚ → Res ECost
  | 0, x => do
    let m ← switchingCost x
    .ok ((θ * m : ℚ) : ECost)
  | t + 1, x => do
    let r ← minimize S (fun y => do
      let a ← workP S bounds hit switchingCost θ t y
      let b ← hit ((t + 1 : Nat) : Int) y
      let m ← switchingCost (Config.sub x y)
      .ok (a + b + ((θ * m : ℚ) : ECost))) bounds none []
    .ok r.2

/-- A computation with state returns what a computation without returns, and keeps the invariant. -/
def Agrees {σ α : Type} (I : σ → Prop) (r : Res (α × σ)) (g : Res α) : Prop :=
  (∀ e, g = .error e → r = .error e) ∧ ∀ v, g = .ok v → ∃ c, r = .ok (v, c) ∧ I c

theorem run_agrees {σ : Type} (I : σ → Prop) (f : List ℚ → σ → Res (ECost × σ)) (g : List ℚ → Res ECost) (a0 : Answer)
    (h : ∀ y c, I c → Agrees I (f y c) (g y)) :
    ∀ (s : Strategy) (c : σ), I c →
      (∀ e, visit g [] (answer a0 g s).probes = .error e → s.run f c = .error e) ∧
      (visit g [] (answer a0 g s).probes = .ok () →
        ∃ c', s.run f c = .ok (((answer a0 g s).x, (answer a0 g s).status), c') ∧ I c') := by
  intro s
  induction s with
  | stop x s =>
    intro c hc
    refine ⟨?_, fun _ => ⟨c, rfl, hc⟩⟩
    intro e he
    simp [answer, visit] at he
  | ask y k ih =>
    intro c hc
    obtain ⟨h1, h2⟩ := h (applyPrecisionVec y) c hc
    cases hg : g (applyPrecisionVec y) with
    | error e =>
      refine ⟨?_, ?_⟩
      · intro e' he
        simp only [answer, hg, visit, bind, Except.bind] at he
        cases he
        simp only [Strategy.run, h1 e hg, bind, Except.bind]
      · intro he
        simp [answer, hg, visit, bind, Except.bind] at he
    | ok v =>
      obtain ⟨c', h3, h4⟩ := h2 v hg
      obtain ⟨h5, h6⟩ := ih v c' h4
      simp only [answer, hg, visit, List.mapM_nil, Strategy.run, h3, bind, Except.bind, pure, Except.pure]
      exact ⟨h5, h6⟩

theorem minimizeC_agrees {σ : Type} (P : Player) (S0 : Solver) (I : σ → Prop) (f : List ℚ → σ → Res (ECost × σ))
    (g : List ℚ → Res ECost) (h : ∀ y c, I c → Agrees I (f y c) (g y)) (bounds : List (ℚ × ℚ)) (c : σ) (hc : I c) :
    Agrees I (minimizeC P f bounds c) (minimize (solverOf P S0) g bounds none []) := by
  obtain ⟨h1, h2⟩ := run_agrees I f g (S0 bounds g (bounds.map Prod.snd) []) h (P bounds (bounds.map Prod.snd)) c hc
  have e : ∀ x0, solverOf P S0 bounds g x0 [] = answer (S0 bounds g x0 []) g (P bounds x0) := fun _ => rfl
  unfold minimizeC minimize
  simp only [Option.getD_none, List.length_map, beq_self_eq_true, assertP, if_true, bind, Except.bind, e]
  obtain ⟨a, ha⟩ : ∃ a, a = answer (S0 bounds g (bounds.map Prod.snd) []) g (P bounds (bounds.map Prod.snd)) := ⟨_, rfl⟩
  rw [← ha] at h1 h2 ⊢
  cases hv : visit g [] a.probes with
  | error err =>
    rw [h1 err hv]
    refine ⟨fun e he => by simpa using he, fun v hv => by simp at hv⟩
  | ok u =>
    obtain ⟨c', h3, h4⟩ := h2 hv
    rw [h3]
    simp only
    by_cases hs : a.status = .failed
    · simp only [hs]
      refine ⟨fun e he => by simpa using he, fun v hv => by simp at hv⟩
    · have : (a.status != Status.failed) = true := by simpa using hs
      simp only [this, if_true]
      obtain ⟨h5, h6⟩ := h (applyPrecisionVec a.x) c' h4
      cases hg : g (applyPrecisionVec a.x) with
      | error err =>
        rw [h5 err hg]
        refine ⟨fun e he => by simpa using he, fun v hv => by simp at hv⟩
      | ok v =>
        obtain ⟨c'', h7, h8⟩ := h6 v hg
        rw [h7]
        refine ⟨fun e he => by simp at he, fun v hv => ⟨c'', ?_, h8⟩⟩
        simp only [Except.ok.injEq] at hv ⊢
        rw [← hv]

/-- All entries of the cache are values of the work function. -/
def Consistent (S : Solver) (bounds : List (ℚ × ℚ)) (hit : Int → List ℚ → Res ECost)
    (switchingCost : List ℚ → Res ℚ) (θ : ℚ) (c : Cache) : Prop :=
  ∀ t x v, c t x = some v → workP S bounds hit switchingCost θ t x = .ok v

/-- **C51** (cache). Whatever the cache forgets, the cached work function returns the value of the work function without
cache (or the same failure), and leaves correct values in the cache. -/
theorem C51_cache (P : Player) (S0 : Solver) (evict : Cache → Cache) (hev : ∀ c t x v, evict c t x = some v → c t x = some v)
    (bounds : List (ℚ × ℚ)) (hit : Int → List ℚ → Res ECost) (sw : List ℚ → Res ℚ) (θ : ℚ) (t : Nat) :
    ∀ (x : List ℚ) (c : Cache), Consistent (solverOf P S0) bounds hit sw θ c →
      Agrees (Consistent (solverOf P S0) bounds hit sw θ) (work P evict bounds hit sw θ t x c)
        (workP (solverOf P S0) bounds hit sw θ t x) := by
  have hmemo : ∀ (t : Nat) (x : List ℚ) (c : Cache) (compute : Cache → Res (ECost × Cache)),
      Consistent (solverOf P S0) bounds hit sw θ c →
      Agrees (Consistent (solverOf P S0) bounds hit sw θ) (compute c) (workP (solverOf P S0) bounds hit sw θ t x) →
      Agrees (Consistent (solverOf P S0) bounds hit sw θ) (memo evict t x c compute)
        (workP (solverOf P S0) bounds hit sw θ t x) := by
    intro t x c compute hc hcomp
    unfold memo
    cases hl : c t x with
    | some v =>
      rw [hc t x v hl]
      exact ⟨fun e he => (by cases he), fun v' hv' => (by cases hv'; exact ⟨c, rfl, hc⟩)⟩
    | none =>
      obtain ⟨h1, h2⟩ := hcomp
      refine ⟨fun e he => by simp only [h1 e he, bind, Except.bind], fun v hv => ?_⟩
      obtain ⟨c', h3, h4⟩ := h2 v hv
      refine ⟨evict (c'.set t x v), by simp only [h3, bind, Except.bind], ?_⟩
      intro s y u hu
      have := hev _ _ _ _ hu
      unfold Cache.set at this
      split at this
      · rename_i h
        cases this
        rw [h.1, h.2, hv]
      · exact h4 s y u this
  induction t with
  | zero =>
    intro x c hc
    refine hmemo 0 x c _ hc ?_
    unfold workP
    cases sw x with
    | error e => exact ⟨fun e' he => by simpa [bind, Except.bind] using he, fun v hv => by simp [bind, Except.bind] at hv⟩
    | ok m => exact ⟨fun e he => by simp [bind, Except.bind] at he, fun v hv => ⟨c, by simpa [bind, Except.bind] using hv, hc⟩⟩
  | succ t ih =>
    intro x c hc
    refine hmemo (t + 1) x c _ hc ?_
    unfold workP
    have := minimizeC_agrees P S0 (Consistent (solverOf P S0) bounds hit sw θ) (fun y c => do
        let a ← work P evict bounds hit sw θ t y c
        let b ← hit ((t + 1 : Nat) : Int) y
        let m ← sw (Config.sub x y)
        .ok (a.1 + b + ((θ * m : ℚ) : ECost), a.2)) (fun y => do
        let a ← workP (solverOf P S0) bounds hit sw θ t y
        let b ← hit ((t + 1 : Nat) : Int) y
        let m ← sw (Config.sub x y)
        .ok (a + b + ((θ * m : ℚ) : ECost))) (by
      intro y c hc
      obtain ⟨h1, h2⟩ := ih y c hc
      cases hw : workP (solverOf P S0) bounds hit sw θ t y with
      | error e =>
        simp only [h1 e hw, bind, Except.bind]
        exact ⟨fun e' he => by simpa using he, fun v hv => by simp at hv⟩
      | ok v =>
        obtain ⟨c', h3, h4⟩ := h2 v hw
        simp only [h3, bind, Except.bind]
        cases hit ((t + 1 : Nat) : Int) y with
        | error e => exact ⟨fun e' he => by simpa using he, fun v hv => by simp at hv⟩
        | ok b =>
          cases sw (Config.sub x y) with
          | error e => exact ⟨fun e' he => by simpa using he, fun v hv => by simp at hv⟩
          | ok m => exact ⟨fun e he => by simp at he, fun v hv => ⟨c', by simpa using hv, h4⟩⟩) bounds c hc
    obtain ⟨h1, h2⟩ := this
    refine ⟨?_, ?_⟩
    · intro e he
      cases hm : minimize (solverOf P S0) (fun y => do
        let a ← workP (solverOf P S0) bounds hit sw θ t y
        let b ← hit ((t + 1 : Nat) : Int) y
        let m ← sw (Config.sub x y)
        .ok (a + b + ((θ * m : ℚ) : ECost))) bounds none [] with
      | error e' =>
        rw [hm] at he
        cases he
        rw [h1 _ hm]
        rfl
      | ok r =>
        rw [hm] at he
        cases he
    · intro v hv
      cases hm : minimize (solverOf P S0) (fun y => do
        let a ← workP (solverOf P S0) bounds hit sw θ t y
        let b ← hit ((t + 1 : Nat) : Int) y
        let m ← sw (Config.sub x y)
        .ok (a + b + ((θ * m : ℚ) : ECost))) bounds none [] with
      | error e' =>
        rw [hm] at hv
        cases hv
      | ok r =>
        rw [hm] at hv
        obtain ⟨c', h3, h4⟩ := h2 r hm
        rw [h3]
        exact ⟨c', by cases hv; rfl, h4⟩

section
variable {C D : Type} [OutSuccess C] [OutFailure D]

/-- Randomly biased greedy without cache. -/
def rbgP (S : Solver) (θ : ℚ) (o : Online (SCO ℚ C D)) (t : Nat) (r : ℚ) : Res ℚ := do
  let res ← minimize S (fun x => do
    let a ← workP S o.p.bounds (hitOf o.p) o.p.switchingCost θ t x
    let m ← o.p.switchingCost x
    .ok (a + ((r * θ * m : ℚ) : ECost))) o.p.bounds none []
  idx res.1 0

/-- **C51** (cache, whole step). A step of randomly biased greedy returns what it would return without cache, no matter
what other calls left in the global cache before and what the cache forgets. -/
theorem C51_step_without_cache (P : Player) (S0 : Solver) (evict : Cache → Cache)
    (hev : ∀ c t x v, evict c t x = some v → c t x = some v) (θ : ℚ) (draw : Online (SCO ℚ C D) → ℚ) (world : Cache)
    (o : Online (SCO ℚ C D)) (hw : o.w = 0) (hd : o.p.d = 1) (t : Nat) (xs : Schedule ℚ) (r : ℚ) :
    (rbg P evict θ draw world).call o t xs r = (rbgP (solverOf P S0) θ o t r).map fun x => ([x], none) := by
  have h := minimizeC_agrees P S0 (Consistent (solverOf P S0) o.p.bounds (hitOf o.p) o.p.switchingCost θ) (fun x c => do
      let a ← work P evict o.p.bounds (hitOf o.p) o.p.switchingCost θ t x c
      let m ← o.p.switchingCost x
      .ok (a.1 + ((r * θ * m : ℚ) : ECost), a.2)) (fun x => do
      let a ← workP (solverOf P S0) o.p.bounds (hitOf o.p) o.p.switchingCost θ t x
      let m ← o.p.switchingCost x
      .ok (a + ((r * θ * m : ℚ) : ECost))) (by
    intro y c hc
    obtain ⟨h1, h2⟩ := C51_cache P S0 evict hev o.p.bounds (hitOf o.p) o.p.switchingCost θ t y c hc
    cases hw : workP (solverOf P S0) o.p.bounds (hitOf o.p) o.p.switchingCost θ t y with
    | error e =>
      simp only [h1 e hw, bind, Except.bind]
      exact ⟨fun e' he => by simpa using he, fun v hv => by simp at hv⟩
    | ok v =>
      obtain ⟨c', h3, h4⟩ := h2 v hw
      simp only [h3, bind, Except.bind]
      cases o.p.switchingCost y with
      | error e => exact ⟨fun e' he => by simpa using he, fun v hv => by simp at hv⟩
      | ok m => exact ⟨fun e he => by simp at he, fun v hv => ⟨c', by simpa using hv, h4⟩⟩) o.p.bounds world.clear (by
    intro t x v hv
    simp [Cache.clear, Cache.empty] at hv)
  obtain ⟨h1, h2⟩ := h
  simp only [rbg, rbgP, hw, hd, assertR, decide_true, if_true, add_sub_cancel_right, Int.toNat_natCast, bind, Except.bind] at h1 h2 ⊢
  revert h1 h2
  generalize minimize (solverOf P S0) _ _ _ _ = M
  intro h1 h2
  cases hm : M with
  | error e => rw [h1 e hm]; rfl
  | ok res =>
    obtain ⟨c', h3, h4⟩ := h2 res hm
    rw [h3]
    simp only
    cases idx res.1 0 <;> rfl

/-! ## Work function -/

theorem prefixCost_concat (hit : Int → Config ℚ → ECost) (mv : Config ℚ → ℚ) (θ : ℚ) (ys : List (Config ℚ)) (y x : Config ℚ) :
    ∀ (t : Int) (prev : Config ℚ), prefixCost hit mv θ t prev (ys ++ [y]) x =
      prefixCost hit mv θ t prev ys y + hit (t + ys.length) y + ((θ * mv (List.zipWith (· - ·) x y) : ℚ) : ECost) := by
  induction ys with
  | nil => intro t prev; simp [prefixCost]
  | cons z ys ih =>
    intro t prev
    simp only [List.cons_append, prefixCost, ih, List.length_cons]
    rw [show t + 1 + (ys.length : Int) = t + ((ys.length + 1 : Nat) : Int) by push_cast; ring]
    simp only [add_assoc]

theorem zipWith_sub_zero (x : List ℚ) (n : Nat) (h : x.length = n) : List.zipWith (· - ·) x (List.replicate n 0) = x := by
  subst h
  induction x with
  | nil => rfl
  | cons a x ih => simp [List.replicate_succ, ih]

theorem hitOf_eq {p : SCO ℚ C D} {t : Int} {hit : Config ℚ → ECost} {mv : Config ℚ → ℚ} (h : Slot p t hit mv) (x : Config ℚ)
    (hx : InBoxQ p.bounds x) : hitOf p t x = .ok (hit x) := by
  obtain ⟨o, ho⟩ := (hitCost_eq h x).1 hx
  simp only [hitOf, ho, bind, Except.bind]

/-- **C51** (work function). With an exact optimiser, the work function of `t` slots at `x` is the smallest cost of a schedule
for these slots followed by a move to `x`. -/
theorem C51_work_function (S : Solver) (hS : Inner S) (hE : Exact S) (p : SCO ℚ C D) (hit : Int → Config ℚ → ECost) (mv : Config ℚ → ℚ)
    (θ : ℚ) (T : Nat) (hp : ∀ t : Nat, 1 ≤ t → t ≤ T → Slot p t (hit t) mv)
    (hmv : ∀ x : Config ℚ, x.length = p.bounds.length → p.switchingCost x = .ok (mv x)) :
    ∀ (t : Nat), t ≤ T → ∀ x : Config ℚ, x.length = p.bounds.length →
      ∃ c, workP S p.bounds (hitOf p) p.switchingCost θ t x = .ok c ∧ IsWork p.bounds hit mv θ t x c := by
  intro t
  induction t with
  | zero =>
    intro _ x hx
    refine ⟨((θ * mv x : ℚ) : ECost), by simp only [workP, hmv x hx, bind, Except.bind], ⟨⟨[], rfl, by simp, ?_⟩, ?_⟩⟩
    · rw [prefixCost, zipWith_sub_zero x _ hx]
    · intro ys hl _
      rw [List.length_eq_zero_iff.1 hl, prefixCost, zipWith_sub_zero x _ hx]
  | succ t ih =>
    intro ht x hx
    have hslot := hp (t + 1) (by omega) ht
    choose! W hW using ih (by omega)
    obtain ⟨f, hf⟩ : ∃ f : List ℚ → Res ECost, f = (fun y => do
      let a ← workP S p.bounds (hitOf p) p.switchingCost θ t y
      let b ← hitOf p ((t + 1 : Nat) : Int) y
      let m ← p.switchingCost (Config.sub x y)
      .ok (a + b + ((θ * m : ℚ) : ECost))) := ⟨_, rfl⟩
    have fv : ∀ y : List ℚ, InBoxQ p.bounds y → f y = .ok (W y + hit ((t + 1 : Nat) : Int) y +
        ((θ * mv (List.zipWith (· - ·) x y) : ℚ) : ECost)) := by
      intro y hy
      have hl := inBoxQ_length hy
      simp only [hf, (hW y hl).1, hitOf_eq hslot y hy, hmv (Config.sub x y) (by simp [Config.sub, hx, hl]), bind, Except.bind]
      rfl
    obtain ⟨y, v, h1, h2, h3, h4, h5, -⟩ := minimize_inner hS hslot.box none (by simp) [] (f := f)
      (fun x hx => ⟨_, fv x hx⟩) (by simp)
    have hv := h5 (hE.done _ _ _ _)
    rw [fv y h2] at hv
    refine ⟨v, by rw [workP, ← hf, h1]; rfl, ⟨?_, ?_⟩⟩
    · obtain ⟨⟨ys, e1, e2, e3⟩, -⟩ := (hW y (inBoxQ_length h2)).2
      refine ⟨ys ++ [y], by simp [e1], ?_, ?_⟩
      · intro z hz
        rcases List.mem_append.1 hz with hz | hz
        · exact e2 z hz
        · rw [List.mem_singleton.1 hz]; exact ⟨h2, h3⟩
      · rw [prefixCost_concat, e3, e1, show (1 : Int) + (t : Int) = ((t + 1 : Nat) : Int) by push_cast; ring]
        exact Except.ok.inj hv
    · intro ys hl hg
      obtain ⟨zs, z, rfl⟩ : ∃ zs z, ys = zs ++ [z] := by
        cases ys using List.reverseRecOn with
        | nil => simp at hl
        | append_singleton zs z => exact ⟨zs, z, rfl⟩
      have hlz : zs.length = t := by simpa using hl
      have hz := hg z (by simp)
      have hle := hE.best p.bounds f _ [] hslot.box z v _ hz.1 hz.2 (by simp [Meets])
        (by rw [← h4, fv y h2, hv]) (fv z hz.1)
      refine le_trans hle ?_
      rw [prefixCost_concat, hlz, show (1 : Int) + (t : Int) = ((t + 1 : Nat) : Int) by push_cast; ring]
      gcongr
      exact (hW z (inBoxQ_length hz.1)).2.least zs hlz fun w hw => hg w (by simp [hw])

theorem _root_.Soco.Spec.IsWork.unique {box : List (ℚ × ℚ)} {hit : Int → Config ℚ → ECost} {mv : Config ℚ → ℚ} {θ : ℚ} {t : Nat}
    {x : Config ℚ} {c c' : ECost} (h : IsWork box hit mv θ t x c) (h' : IsWork box hit mv θ t x c') : c = c' := by
  obtain ⟨ys, e1, e2, e3⟩ := h.attained
  obtain ⟨zs, e4, e5, e6⟩ := h'.attained
  apply le_antisymm
  · rw [← e6]; exact h.least zs e4 e5
  · rw [← e3]; exact h'.least ys e1 e2

/-- **C51** (decision). With an exact optimiser, randomly biased greedy goes to a point of the decision space which minimises
the sum of work function and biased distance from zero. -/
theorem C51_decision (S : Solver) (hS : Inner S) (hE : Exact S) (o : Online (SCO ℚ C D)) (hd : o.p.d = 1) (hit : Int → Config ℚ → ECost)
    (mv : Config ℚ → ℚ) (θ : ℚ) (T : Nat) (hT : 1 ≤ T) (hp : ∀ t : Nat, 1 ≤ t → t ≤ T → Slot o.p t (hit t) mv) (r : ℚ) :
    ∃ x, rbgP S θ o T r = .ok x ∧ Greedy o.p.bounds hit mv θ T r [x] := by
  have hslot := hp T hT le_rfl
  have hmv := hslot.moves
  have hw := C51_work_function S hS hE o.p hit mv θ T hp hmv T le_rfl
  choose! W hW using hw
  have hlen : o.p.bounds.length = 1 := by
    have := hslot.dim
    rw [hd] at this
    exact_mod_cast this.symm
  obtain ⟨f, hf⟩ : ∃ f : List ℚ → Res ECost, f = (fun x => do
    let a ← workP S o.p.bounds (hitOf o.p) o.p.switchingCost θ T x
    let m ← o.p.switchingCost x
    .ok (a + ((r * θ * m : ℚ) : ECost))) := ⟨_, rfl⟩
  have fv : ∀ y : List ℚ, InBoxQ o.p.bounds y → f y = .ok (W y + ((r * θ * mv y : ℚ) : ECost)) := by
    intro y hy
    have hl := inBoxQ_length hy
    simp only [hf, (hW y hl).1, hmv y hl, bind, Except.bind]
  obtain ⟨y, v, h1, h2, h3, h4, -, -⟩ := minimize_inner hS hslot.box none (by simp) [] (f := f)
    (fun x hx => ⟨_, fv x hx⟩) (by simp)
  obtain ⟨x, rfl⟩ : ∃ x, y = [x] := by
    have := inBoxQ_length h2
    rw [hlen] at this
    exact List.length_eq_one_iff.1 this
  refine ⟨x, ?_, ⟨h2, h3⟩, W [x], (hW [x] (by simp [hlen])).2, ?_⟩
  · rw [rbgP, ← hf, h1]
    rfl
  · intro y c' hy hc'
    have hl := inBoxQ_length hy.1
    rw [hc'.unique (hW y hl).2]
    exact hE.best o.p.bounds f _ [] hslot.box y _ _ hy.1 hy.2 (by simp [Meets]) (by rw [← h4, fv _ h2]) (fv _ hy.1)

end
end Rbg
end Soco
