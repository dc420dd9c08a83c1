import Verif.Model.DualNorm
import Verif.Props.Numerics

/-! # C89: outcomes of numeric optimisation and root finding, whatever the libraries answer -/

namespace Soco
namespace Num

theorem visit_ok_iff (f : List ℚ → Res ECost) (cs : List (List ℚ → Res Slack)) : ∀ ps : List (List ℚ),
    visit f cs ps = .ok () ↔ ∀ p ∈ ps, (∃ w, f (p.map applyPrecision) = .ok w) ∧ ∀ c ∈ cs, ∃ w, c (p.map applyPrecision) = .ok w
  | [] => by simp [visit]
  | p :: ps => by
    have hc : (∃ ws, cs.mapM (fun c => c (applyPrecisionVec p)) = .ok ws) ↔ ∀ c ∈ cs, ∃ w, c (p.map applyPrecision) = .ok w := by
      induction cs with
      | nil => simp [pure, Except.pure]
      | cons c cs ih =>
        rw [List.mapM_cons, List.forall_mem_cons, ← ih]
        show _ ↔ (∃ w, c (applyPrecisionVec p) = .ok w) ∧ _
        cases c (applyPrecisionVec p) with
        | error e => simp [bind, Except.bind]
        | ok w =>
          cases List.mapM (fun c => c (applyPrecisionVec p)) cs with
          | error e => simp [bind, Except.bind]
          | ok ws => simp [bind, Except.bind, pure, Except.pure]
    rw [List.forall_mem_cons, ← hc, ← visit_ok_iff f cs ps]
    show _ ↔ ((∃ w, f (applyPrecisionVec p) = .ok w) ∧ _) ∧ _
    simp only [visit]
    cases f (applyPrecisionVec p) with
    | error e => simp [bind, Except.bind]
    | ok w =>
      cases List.mapM (fun c => c (applyPrecisionVec p)) cs with
      | error e => simp [bind, Except.bind]
      | ok ws => simp [bind, Except.bind]

/-- **C89, minimisation.** A minimisation returns if and only if the initial point, by default the upper bounds, has one entry per
bound, objective and all constraints can be evaluated at every point that the library probes, rounded to the precision, and at the
rounded result, and the library does not fail. It then returns the rounded result with the objective there, or with infinity if the
library gave up. -/
theorem C89_minimize (S : Solver) (f : List ℚ → Res ECost) (bounds : List (ℚ × ℚ)) (init : Option (List ℚ))
    (cs : List (List ℚ → Res Slack)) (x0 : List ℚ) (hx0 : x0 = init.getD (bounds.map Prod.snd)) (a : Answer)
    (ha : a = S bounds f x0 cs) (x : List ℚ) (v : ECost) :
    minimize S f bounds init cs = .ok (x, v) ↔
      x0.length = bounds.length ∧
      (∀ p ∈ a.probes, (∃ w, f (p.map applyPrecision) = .ok w) ∧ ∀ c ∈ cs, ∃ w, c (p.map applyPrecision) = .ok w) ∧
      a.status ≠ .failed ∧ x = a.x.map applyPrecision ∧
      ∃ w, f x = .ok w ∧ ((a.status = .done ∧ v = w) ∨ (a.status = .timedOut ∧ v = ⊤)) := by
  subst hx0
  rw [← visit_ok_iff]
  simp only [minimize, ← ha]
  by_cases hl : (init.getD (bounds.map Prod.snd)).length = bounds.length
  · simp only [assertP, hl, beq_self_eq_true, if_true, bind, Except.bind, true_and]
    cases visit f cs a.probes with
    | error e => simp
    | ok _ =>
      simp only [true_and]
      cases hs : a.status with
      | failed => simp
      | done =>
        rw [if_pos (show (Status.done != Status.failed) = true from rfl)]
        simp only [show applyPrecisionVec a.x = a.x.map applyPrecision from rfl]
        constructor
        · intro h
          cases hf : f (a.x.map applyPrecision) with
          | error e => rw [hf] at h; cases h
          | ok w =>
            rw [hf] at h
            simp only [reduceCtorEq, if_false, Except.ok.injEq, Prod.mk.injEq] at h
            obtain ⟨rfl, rfl⟩ := h
            exact ⟨by simp, rfl, _, hf, by simp⟩
        · rintro ⟨_, rfl, w, hw, ⟨_, rfl⟩ | ⟨h, _⟩⟩
          · rw [hw]; simp
          · cases h
      | timedOut =>
        rw [if_pos (show (Status.timedOut != Status.failed) = true from rfl)]
        simp only [show applyPrecisionVec a.x = a.x.map applyPrecision from rfl]
        constructor
        · intro h
          cases hf : f (a.x.map applyPrecision) with
          | error e => rw [hf] at h; cases h
          | ok w =>
            rw [hf] at h
            simp only [if_true, Except.ok.injEq, Prod.mk.injEq] at h
            obtain ⟨rfl, rfl⟩ := h
            exact ⟨by simp, rfl, _, hf, by simp⟩
        · rintro ⟨_, rfl, w, hw, ⟨h, _⟩ | ⟨_, rfl⟩⟩
          · cases h
          · rw [hw]; simp
  · simp [assertP, hl, bind, Except.bind]

/-- A panic of the objective or of a constraint at any point that is probed, and every failure of the library, is a panic of the
minimisation: no result is made up. -/
theorem C89_minimize_panics (S : Solver) (f : List ℚ → Res ECost) (bounds : List (ℚ × ℚ)) (init : Option (List ℚ))
    (cs : List (List ℚ → Res Slack)) (a : Answer) (ha : a = S bounds f (init.getD (bounds.map Prod.snd)) cs)
    (h : (∃ p ∈ a.probes, ∃ e, f (p.map applyPrecision) = .error e) ∨
      (∃ p ∈ a.probes, ∃ c ∈ cs, ∃ e, c (p.map applyPrecision) = .error e) ∨ a.status = .failed) :
    ∃ e, minimize S f bounds init cs = .error e := by
  cases hm : minimize S f bounds init cs with
  | error e => exact ⟨e, rfl⟩
  | ok r =>
    obtain ⟨x, v⟩ := r
    obtain ⟨_, h2, h3, _⟩ := (C89_minimize S f bounds init cs _ rfl a ha x v).1 hm
    rcases h with ⟨p, hp, e, he⟩ | ⟨p, hp, c, hc, e, he⟩ | h
    · obtain ⟨w, hw⟩ := (h2 p hp).1
      rw [he] at hw; cases hw
    · obtain ⟨w, hw⟩ := (h2 p hp).2 c hc
      rw [he] at hw; cases hw
    · exact absurd h h3

/-- **C89, maximisation without bounds.** The search begins at zero; it returns the rounded result, also when the library gave up, if
and only if everything that is probed can be evaluated and the library does not fail. -/
theorem C89_maximize (M : Maximizer) (f : List ℚ → Res ℚ) (d : Nat) (cs : List (List ℚ → Res Slack)) (a : Answer)
    (ha : a = M d f (List.replicate d 0) cs) (x : List ℚ) :
    unboundedMaximizer M f d cs = .ok x ↔
      (∀ p ∈ a.probes, (∃ w, f (p.map applyPrecision) = .ok w) ∧ ∀ c ∈ cs, ∃ w, c (p.map applyPrecision) = .ok w) ∧
      a.status ≠ .failed ∧ x = a.x.map applyPrecision := by
  have hv := visit_ok_iff (fun z => do
    let v ← f z
    .ok (v : ECost)) cs a.probes
  have he : ∀ p : List ℚ, (∃ w, (do
      let v ← f (p.map applyPrecision)
      .ok (v : ECost) : Res ECost) = .ok w) ↔ ∃ w, f (p.map applyPrecision) = .ok w := by
    intro p
    cases f (p.map applyPrecision) with
    | error e => simp [bind, Except.bind]
    | ok w => simp [bind, Except.bind]
  simp only [he] at hv
  rw [← hv]
  simp only [unboundedMaximizer, ← ha]
  cases visit (fun z => do
    let v ← f z
    .ok (v : ECost)) cs a.probes with
  | error e => simp [bind, Except.bind]
  | ok _ =>
    by_cases hs : a.status = .failed
    · simp [bind, Except.bind, hs, assertP]
    · simp only [bind, Except.bind, assertP, bne_iff_ne, ne_eq, hs, not_false_eq_true, if_true, Except.ok.injEq, true_and]
      exact eq_comm

end Num

namespace Descent
open Num

/-- **C89, root finding.** On an interval shorter than the precision of 0.01 the left end is returned, without any evaluation. -/
theorem C89_root_narrow (B : Brent) (a b : ℚ) (f : ℚ → Res Slack) (h : |a - b| < 1 / 100) : findRoot B a b f = .ok a := by
  unfold findRoot
  rw [if_pos (by simpa [precision] using h)]

/-- On every other interval both ends are evaluated; a panic there is a panic of the search. -/
theorem C89_root_panics (B : Brent) (a b : ℚ) (f : ℚ → Res Slack) (h : 1 / 100 ≤ |a - b|)
    (hf : (∃ e, f a = .error e) ∨ ∃ e, f b = .error e) : ∃ e, findRoot B a b f = .error e := by
  unfold findRoot
  rw [if_neg (by simpa [precision] using h)]
  cases hl : f a with
  | error e => exact ⟨e, rfl⟩
  | ok l =>
    rcases hf with ⟨e, he⟩ | ⟨e, he⟩
    · rw [hl] at he; cases he
    · exact ⟨e, by simp only [bind, Except.bind, he]⟩

/-- The left end is returned if its value is less than 10 away from zero, the right one if only its value is, and the one with the
smaller value if both have the same sign. -/
theorem C89_root_ends (B : Brent) (a b : ℚ) (f : ℚ → Res Slack) (h : 1 / 100 ≤ |a - b|) (l r : Slack) (hl : f a = .ok l)
    (hr : f b = .ok r) :
    (l.abs < ((10 : ℚ) : ECost) → findRoot B a b f = .ok a) ∧
    (((10 : ℚ) : ECost) ≤ l.abs → r.abs < ((10 : ℚ) : ECost) → findRoot B a b f = .ok b) ∧
    (((10 : ℚ) : ECost) ≤ l.abs → ((10 : ℚ) : ECost) ≤ r.abs → (0 < l ∧ 0 < r) ∨ (l < 0 ∧ r < 0) →
      (l.abs ≤ r.abs → findRoot B a b f = .ok a) ∧ (r.abs < l.abs → findRoot B a b f = .ok b)) := by
  have h10 : rootPrecision = 10 := by norm_num [rootPrecision, precision]
  unfold findRoot
  rw [if_neg (by simpa [precision] using h)]
  simp only [hl, hr, bind, Except.bind, h10]
  refine ⟨fun h1 => ?_, fun h1 h2 => ?_, fun h1 h2 h3 => ⟨fun h4 => ?_, fun h4 => ?_⟩⟩
  · rw [if_pos h1]
  · rw [if_neg (not_lt.2 h1), if_pos h2]
  · rw [if_neg (not_lt.2 h1), if_neg (not_lt.2 h2), if_pos h3, if_pos h4]
  · rw [if_neg (not_lt.2 h1), if_neg (not_lt.2 h2), if_pos h3, if_neg (not_le.2 h4)]

theorem abs_small_of_zero {l : Slack} (h : ((10 : ℚ) : ECost) ≤ l.abs) : l ≠ 0 := by
  rintro rfl
  have : Slack.abs (0 : Slack) = ((0 : ℚ) : ECost) := by
    show ((|0| : ℚ) : ECost) = _
    rw [abs_zero]
  rw [this, WithTop.coe_le_coe] at h
  norm_num at h

/-- The library is asked only if the values at the ends have opposite signs, so its requirement that the interval brackets a root is
met: otherwise one of the ends is returned, and the answer is the same with every library. -/
theorem C89_root_brackets (B B' : Brent) (a b : ℚ) (f : ℚ → Res Slack) (h : 1 / 100 ≤ |a - b|) (l r : Slack) (hl : f a = .ok l)
    (hr : f b = .ok r) (hs : ¬ (l < 0 ∧ 0 < r)) (hs' : ¬ (r < 0 ∧ 0 < l)) :
    findRoot B a b f = findRoot B' a b f ∧ ∃ x, (x = a ∨ x = b) ∧ findRoot B a b f = .ok x := by
  obtain ⟨e1, e2, e3⟩ := C89_root_ends B a b f h l r hl hr
  obtain ⟨f1, f2, f3⟩ := C89_root_ends B' a b f h l r hl hr
  rcases lt_or_ge l.abs ((10 : ℚ) : ECost) with h1 | h1
  · exact ⟨by rw [e1 h1, f1 h1], a, .inl rfl, e1 h1⟩
  rcases lt_or_ge r.abs ((10 : ℚ) : ECost) with h2 | h2
  · exact ⟨by rw [e2 h1 h2, f2 h1 h2], b, .inr rfl, e2 h1 h2⟩
  have h3 : (0 < l ∧ 0 < r) ∨ (l < 0 ∧ r < 0) := by
    rcases lt_or_gt_of_ne (abs_small_of_zero h1) with h4 | h4 <;> rcases lt_or_gt_of_ne (abs_small_of_zero h2) with h5 | h5
    · exact .inr ⟨h4, h5⟩
    · exact absurd ⟨h4, h5⟩ hs
    · exact absurd ⟨h5, h4⟩ hs'
    · exact .inl ⟨h4, h5⟩
  rcases le_or_gt l.abs r.abs with h4 | h4
  · exact ⟨by rw [(e3 h1 h2 h3).1 h4, (f3 h1 h2 h3).1 h4], a, .inl rfl, (e3 h1 h2 h3).1 h4⟩
  · exact ⟨by rw [(e3 h1 h2 h3).2 h4, (f3 h1 h2 h3).2 h4], b, .inr rfl, (e3 h1 h2 h3).2 h4⟩

theorem visit1_ok_iff (f : ℚ → Res Slack) : ∀ ps : List ℚ, visit1 f ps = .ok () ↔ ∀ p ∈ ps, ∃ w, f p = .ok w
  | [] => by simp [visit1]
  | p :: ps => by
    rw [List.forall_mem_cons, ← visit1_ok_iff f ps]
    simp only [visit1]
    cases f p with
    | error e => simp [bind, Except.bind]
    | ok w => simp [bind, Except.bind]

/-- If the values at the ends are at least 10 away from zero and have opposite signs, the search returns if and only if the library
finds a root and the function can be evaluated at every point the library probes; it then returns that root, rounded. -/
theorem C89_root_inner (B : Brent) (a b : ℚ) (f : ℚ → Res Slack) (h : 1 / 100 ≤ |a - b|) (l r : Slack) (hl : f a = .ok l)
    (hr : f b = .ok r) (hl10 : ((10 : ℚ) : ECost) ≤ l.abs) (hr10 : ((10 : ℚ) : ECost) ≤ r.abs)
    (hs : (l < 0 ∧ 0 < r) ∨ (r < 0 ∧ 0 < l)) (x : ℚ) :
    findRoot B a b f = .ok x ↔
      (∀ p ∈ (B (a, b) f).1, ∃ w, f p = .ok w) ∧ ∃ y, (B (a, b) f).2 = some y ∧ x = applyPrecision y := by
  have h10 : rootPrecision = 10 := by norm_num [rootPrecision, precision]
  rw [← visit1_ok_iff]
  unfold findRoot
  rw [if_neg (by simpa [precision] using h)]
  simp only [hl, hr, bind, Except.bind, h10]
  rw [if_neg (not_lt.2 hl10), if_neg (not_lt.2 hr10), if_neg (by
    rintro (⟨h1, h2⟩ | ⟨h1, h2⟩) <;> rcases hs with ⟨h3, h4⟩ | ⟨h3, h4⟩
    · exact absurd h1 (not_lt.2 h3.le)
    · exact absurd h2 (not_lt.2 h3.le)
    · exact absurd h2 (not_lt.2 h4.le)
    · exact absurd h1 (not_lt.2 h4.le))]
  cases visit1 f (B (a, b) f).1 with
  | error e => simp
  | ok _ =>
    cases (B (a, b) f).2 with
    | none => simp
    | some y =>
      simp only [Except.ok.injEq, Option.some.injEq, true_and, exists_eq_left']
      exact eq_comm

/-! ### Concrete cases -/

/-- A line through 1/2 with slope 40 on `[0, 1]`: the values at the ends are -20 and 20, so that the library is asked. -/
example : findRoot (fun _ _ => ([0, 1 / 2], some (1 / 2))) 0 1 (fun x => .ok (((40 * x - 20 : ℚ) : WithTop ℚ) : Slack)) =
    .ok (applyPrecision (1 / 2)) := by
  refine (C89_root_inner _ 0 1 _ (by norm_num) (((-20 : ℚ) : WithTop ℚ) : Slack) (((20 : ℚ) : WithTop ℚ) : Slack) ?_ ?_ ?_ ?_ ?_ _).2 ⟨?_, 1 / 2, rfl, rfl⟩
  · norm_num
  · norm_num
  · show ((10 : ℚ) : ECost) ≤ ((|-20| : ℚ) : ECost)
    rw [WithTop.coe_le_coe]; norm_num
  · show ((10 : ℚ) : ECost) ≤ ((|20| : ℚ) : ECost)
    rw [WithTop.coe_le_coe]; norm_num
  · left
    constructor
    · show (((-20 : ℚ) : WithTop ℚ) : Slack) < (((0 : ℚ) : WithTop ℚ) : Slack)
      rw [WithBot.coe_lt_coe, WithTop.coe_lt_coe]; norm_num
    · show (((0 : ℚ) : WithTop ℚ) : Slack) < (((20 : ℚ) : WithTop ℚ) : Slack)
      rw [WithBot.coe_lt_coe, WithTop.coe_lt_coe]; norm_num
  · intro p _
    exact ⟨_, rfl⟩

/-- A slope of 10 is too flat: the values at the ends are -5 and 5, and the left end is returned though the root is 1/2. -/
example (B : Brent) : findRoot B 0 1 (fun x => .ok (((10 * x - 5 : ℚ) : WithTop ℚ) : Slack)) = .ok 0 := by
  refine (C89_root_ends B 0 1 _ (by norm_num) (((-5 : ℚ) : WithTop ℚ) : Slack) (((5 : ℚ) : WithTop ℚ) : Slack) ?_ ?_).1 ?_
  · norm_num
  · norm_num
  · show ((|-5| : ℚ) : ECost) < ((10 : ℚ) : ECost)
    rw [WithTop.coe_lt_coe]; norm_num

end Descent

namespace Num

/-- A minimisation of `x` on `[0, 1]` with the constraint `1 / 4 ≤ x`, and a library that probes the upper end and answers 0.2537. -/
example : minimize (fun _ _ _ _ => ⟨[[1]], [2537 / 10000], .done⟩) (fun x => .ok ((x.headD 0 : ℚ) : ECost)) [(0, 1)] none
    [fun x => .ok (((1 / 4 - x.headD 0 : ℚ) : WithTop ℚ) : Slack)] =
      .ok ([applyPrecision (2537 / 10000)], ((applyPrecision (2537 / 10000) : ℚ) : ECost)) :=
  (C89_minimize _ _ _ _ _ _ rfl _ rfl _ _).2 ⟨rfl, fun p _ => ⟨⟨_, rfl⟩, fun c hc => by
    rw [List.mem_singleton] at hc
    subst hc
    exact ⟨_, rfl⟩⟩, by simp, rfl, _, rfl, .inl ⟨rfl, rfl⟩⟩

end Num
end Soco
