import Verif.Lemmas.Objective
import Verif.Lemmas.CostFn
import Verif.Props.Examples

/-!
# C01–C03: the objective functions
-/

namespace Soco

section
variable {T C D : Type} [Value T] [OutSuccess C]

/-- A problem whose movement cost is the scaled Manhattan movement with switching costs `β`
(SSCO, SLO and SBLO). -/
def Prob.Simplified (p : Prob T C D) (β : List ℚ) : Prop :=
  ∀ y x inv, p.movement y x inv = scaledMovement β x y inv

theorem SSCO.simplified [OutFailure D] (p : SSCO T C D) :
    p.toProb.Simplified p.switchingCost := fun _ _ _ => rfl

theorem SLO.simplified (p : SLO T) : p.toProb.Simplified p.switchingCost := fun _ _ _ => rfl

theorem totalMove_telescope (β : List ℚ) (n : Nat) (xs : List (List T)) (prev : List T)
    (hp : prev.length = n) (hx : ∀ x ∈ xs, x.length = n) :
    Spec.totalMove (Spec.upCost β) prev xs
      = Spec.totalMove (Spec.downCost β) prev xs
        + (Spec.weighted β (xs.getLastD prev) - Spec.weighted β prev) := by
  induction xs generalizing prev with
  | nil => simp [Spec.totalMove]
  | cons x xs ih =>
    have hxl := hx x (by simp)
    have ih' := ih x hxl (fun y hy => hx y (by simp [hy]))
    have h2 := upCost_sub_downCost β prev x (by rw [hxl, hp])
    simp only [Spec.totalMove, ih', h2, List.getLastD_cons]
    ring

theorem Simplified.mv_ok {p : Prob T C D} {β : List ℚ} (hs : p.Simplified β) (n : Nat)
    (hβ : n ≤ β.length) (l : List (Config T)) (hl : ∀ x ∈ l, x.length = n) (inv : Bool) :
    ∀ y ∈ l, ∀ x ∈ l, p.movement y x inv = .ok (Spec.moveCost inv β y x) := by
  intro y hy x hx
  rw [hs, scaledMovement_eq β x y inv (by rw [hl x hx, hl y hy]) (by rw [hl x hx]; exact hβ)]

/-- **C01** (general form). On well-dimensioned schedules covering the horizon, the plain and the
inverted objective (same `α`, same initial configuration) have the same outputs and failures, and
their costs differ exactly by `α` times the weighted difference of last and initial
configuration. -/
theorem C01_plain_vs_inverted_from (p : Prob T C D) (β : List ℚ) (hp : p.Simplified β)
    (xs : Schedule T) (dflt : Config T) (α : ℚ) (hdim : ∀ x ∈ dflt :: xs, x.length ≤ β.length)
    (hsame : ∀ x ∈ xs, x.length = dflt.length) :
    (p.objectiveWithDefault' xs dflt α false xs.length).map
        (fun c => (c.cost + ((α * Spec.weighted β dflt : ℚ) : ECost), c.output))
      = (p.objectiveWithDefault' xs dflt α true xs.length).map
        (fun c => (c.cost + ((α * Spec.weighted β (xs.getLastD dflt) : ℚ) : ECost), c.output)) := by
  have hl : ∀ x ∈ dflt :: xs, x.length = dflt.length := by
    intro x hx; rcases List.mem_cons.1 hx with rfl | hx
    · rfl
    · exact hsame x hx
  have hβ := hdim dflt (by simp)
  have hm := fun inv => Simplified.mv_ok hp dflt.length hβ (dflt :: xs) hl inv
  rw [objective_decomp p xs dflt α false xs.length (Spec.upCost β) (by
      rw [padTo_self]; intro y hy x hx
      simpa [Spec.moveCost] using hm false y hy x (List.mem_cons_of_mem _ hx)),
    objective_decomp p xs dflt α true xs.length (Spec.downCost β) (by
      rw [padTo_self]; intro y hy x hx
      simpa [Spec.moveCost] using hm true y hy x (List.mem_cons_of_mem _ hx))]
  cases hitTerms p dflt xs.length 1 xs with
  | error e => rfl
  | ok hs =>
    simp only [Except.map, padTo_self, Except.ok.injEq, Prod.mk.injEq, and_true, add_assoc]
    congr 1
    rw [← WithTop.coe_add, ← WithTop.coe_add, WithTop.coe_inj,
      totalMove_telescope β dflt.length xs dflt rfl hsame]
    ring

/-- **C01**. For a simplified problem and a schedule covering the horizon from the all-zero
configuration: the objective is the inverted objective plus the cost of powering the last
configuration down, with the same output, and one fails exactly if the other does. -/
theorem C01_plain_vs_inverted (p : Prob T C D) (β : List ℚ) (hp : p.Simplified β)
    (xs : Schedule T) (hT : p.tEnd = xs.length) (hd : ∀ x ∈ xs, (x.length : Int) = p.d)
    (h0 : 0 ≤ p.d) (hβ : (β.length : Int) = p.d) :
    (p.objective xs).map (fun c => (c.cost, c.output))
      = (p.invertedObjective xs).map (fun c =>
        (c.cost + ((Spec.weighted β (xs.getLastD (List.replicate p.d.toNat 0)) : ℚ) : ECost),
          c.output)) := by
  have hz := weighted_zero (T := T) β p.d.toNat
  have key := C01_plain_vs_inverted_from p β hp xs p.defaultConfig 1 (by
      intro x hx
      rcases List.mem_cons.1 hx with rfl | hx
      · simp [Prob.defaultConfig, Config.repeat]; omega
      · have := hd x hx; omega)
    (by intro x hx; have := hd x hx; simp [Prob.defaultConfig, Config.repeat]; omega)
  unfold Prob.objective Prob.invertedObjective
  rw [hT]
  simpa [Prob.defaultConfig, Config.repeat, hz] using key

/-- The hypotheses of C01 hold for a two-dimensional instance and a schedule that goes up and down. -/
example := C01_plain_vs_inverted Ex.ssco2.toProb [3, 1/2] (SSCO.simplified _) Ex.xs2 rfl
  (by decide) (by decide) rfl
example := C01_plain_vs_inverted Ex.slo2.toProb [1, 3] (SLO.simplified _) Ex.xs2 rfl
  (by decide) (by decide) rfl
example : Ex.xs2.getLastD (List.replicate 2 0) = [1, 2] := rfl

/-! ## C02 -/

/-- **C02** (sum). If hitting costs and movements of the (padded) schedule are defined, the objective
over the horizon `n` is the recursive sum over the slots of hitting cost plus `α` times movement,
where a missing configuration is read as the default and no hitting cost is charged after the
problem's own horizon. -/
theorem C02_objective_eq_totalCost (p : Prob T C D) (xs : Schedule T) (dflt : Config T) (α : ℚ)
    (inv : Bool) (n : Nat) (hit : Int → Config T → ECost) (mv : Config T → Config T → ℚ)
    (hh : ∀ t : Int, 1 ≤ t → t ≤ n → t ≤ p.tEnd → ∀ x ∈ Spec.padTo n dflt xs,
      ∃ o, p.hitCost t x = .ok ⟨hit t x, o⟩)
    (hm : ∀ y ∈ dflt :: Spec.padTo n dflt xs, ∀ x ∈ Spec.padTo n dflt xs,
      p.movement y x inv = .ok (mv y x)) :
    ∃ o, p.objectiveWithDefault' xs dflt α inv n
      = .ok ⟨Spec.totalCost (fun t x => if t > p.tEnd then 0 else hit t x) mv α 1 dflt
          (Spec.padTo n dflt xs), o⟩ := by
  rw [objective_decomp p xs dflt α inv n mv hm]
  obtain ⟨hs, h1, h2⟩ := hitTerms_ok p dflt hit n 1 xs (by
    intro s hs1 hs2 x hx hT; exact hh s hs1 (by omega) hT x hx)
  refine ⟨(Cost.sum hs).output, ?_⟩
  rw [h1, totalCost_eq, ← h2]
  rfl

/-- Converse to `C02_objective_eq_totalCost`: if a slot within the horizon has no hitting cost
(the evaluation panics), the objective fails as well. -/
theorem C02_objective_fails (p : Prob T C D) (xs : Schedule T) (dflt : Config T) (α : ℚ)
    (inv : Bool) (t : Nat) (n : Nat) (ht : t < n) (hT : (t : Int) + 1 ≤ p.tEnd) (e : Fault)
    (he : p.hitCost (t + 1) ((xs[t]?).getD dflt) = .error e) :
    ∃ e', p.objectiveWithDefault' xs dflt α inv n = .error e' := by
  unfold Prob.objectiveWithDefault'
  rw [sumOverSchedule_eq]
  suffices h : ∀ (n t : Nat) (s : Int) (prev : Config T) (xs : Schedule T), t < n →
      s + t ≤ p.tEnd → p.hitCost (s + t) ((xs[t]?).getD dflt) = .error e →
      ∃ e', slotTerms (p.slotCost α inv) dflt n s prev xs = .error e' by
    obtain ⟨e', h'⟩ := h n t 1 dflt xs ht (by omega) (by rw [add_comm]; exact he)
    exact ⟨e', by rw [h']; rfl⟩
  intro n
  induction n with
  | zero => intro t s prev xs h; omega
  | succ n ih =>
    intro t s prev xs ht hs he
    rw [slotTerms]
    cases h1 : p.slotCost α inv s prev (xs.headD dflt) with
    | error e' => exact ⟨e', rfl⟩
    | ok c =>
      cases t with
      | zero =>
        exfalso
        have h0 : (xs[0]?).getD dflt = xs.headD dflt := by cases xs <;> rfl
        rw [h0] at he
        simp only [Nat.cast_zero, add_zero] at he hs
        simp only [Prob.slotCost, Prob.hitOrNone, gt_iff_lt, not_lt.2 hs, if_false, he, bind,
          Except.bind, reduceCtorEq] at h1
      | succ t =>
        have e1 : (xs[t + 1]?).getD dflt = ((xs.tail)[t]?).getD dflt := by cases xs <;> simp
        obtain ⟨e', h2⟩ := ih t (s + 1) (xs.headD dflt) xs.tail (by omega) (by push_cast at hs; omega)
          (by rw [← e1, ← he]; congr 1; push_cast; ring)
        exact ⟨e', by rw [h2]; rfl⟩

theorem slotTerms_pad {X β : Type} (f : Int → X → X → Res β) (dflt : X) (n : Nat) :
    ∀ (t : Int) (prev : X) (xs : List X),
    slotTerms f dflt n t prev (Spec.padTo n dflt xs) = slotTerms f dflt n t prev xs := by
  induction n with
  | zero => intros; rfl
  | succ n ih =>
    intro t prev xs
    rw [padTo_succ, slotTerms, slotTerms]
    simp only [List.headD_cons, List.tail_cons, ih]

/-- **C02** (locality). The objective over the horizon `n` only reads the first `n` configurations,
and reads missing ones as the default configuration. -/
theorem C02_objective_reads_prefix (p : Prob T C D) (xs : Schedule T) (dflt : Config T) (α : ℚ)
    (inv : Bool) (n : Nat) :
    p.objectiveWithDefault' xs dflt α inv n
      = p.objectiveWithDefault' (Spec.padTo n dflt xs) dflt α inv n := by
  unfold Prob.objectiveWithDefault'
  rw [sumOverSchedule_eq, sumOverSchedule_eq, slotTerms_pad]

/-- The problem that remains after slot `m`. -/
def Spec.remaining (p : Prob T C D) (m : Nat) : Prob T C D :=
  { p with tEnd := p.tEnd - m, hitCost := fun t x => p.hitCost (t + m) x }

theorem slotTerms_split {X β : Type} (f : Int → X → X → Res β) (dflt : X) (k : Nat) (m : Nat) :
    ∀ (t : Int) (prev : X) (xs : List X),
    slotTerms f dflt (m + k) t prev xs
      = (do
        let a ← slotTerms f dflt m t prev xs
        let b ← slotTerms f dflt k (t + m) ((Spec.padTo m dflt xs).getLastD prev) (xs.drop m)
        .ok (a ++ b)) := by
  induction m with
  | zero =>
    intro t prev xs
    simp only [Nat.zero_add, slotTerms, padTo_zero, Nat.cast_zero, add_zero, bind, Except.bind]
    cases h : slotTerms f dflt k t prev xs <;> simp [h]
  | succ m ih =>
    intro t prev xs
    have e1 : m + 1 + k = (m + k) + 1 := by omega
    have e2 : t + 1 + (m : Int) = t + ((m + 1 : Nat) : Int) := by push_cast; ring
    have e3 : xs.tail.drop m = xs.drop (m + 1) := by cases xs <;> simp
    rw [e1, slotTerms, slotTerms, padTo_succ, List.getLastD_cons, ih, e2, e3]
    simp only [bind, Except.bind]
    cases f t prev (xs.headD dflt) with
    | error e => rfl
    | ok c =>
      simp only
      cases slotTerms f dflt m (t + 1) (xs.headD dflt) xs.tail with
      | error e => rfl
      | ok a =>
        simp only
        cases slotTerms f dflt k (t + ((m + 1 : Nat) : Int))
          ((Spec.padTo m dflt xs.tail).getLastD (xs.headD dflt)) (xs.drop (m + 1)) <;> rfl

theorem slotTerms_congr {X β : Type} {f g : Int → X → X → Res β} (dflt dflt' : X) (s : Int)
    (h : ∀ t y x, f (t + s) y x = g t y x) (n : Nat) :
    ∀ (t : Int) (prev : X) (xs : List X), n ≤ xs.length →
    slotTerms f dflt n (t + s) prev xs = slotTerms g dflt' n t prev xs := by
  induction n with
  | zero => intros; rfl
  | succ n ih =>
    intro t prev xs hx
    cases xs with
    | nil => simp at hx
    | cons x xs =>
      have e : t + s + 1 = (t + 1) + s := by ring
      rw [slotTerms, slotTerms]
      simp only [List.headD_cons, List.tail_cons, h, e]
      rw [ih (t + 1) x xs (by simpa using hx)]

/-- **C02** (split). For every slot `m` the objective of a schedule is the objective of its first `m`
configurations plus the objective of the remaining problem, started from the configuration
reached in slot `m`. Failures are preserved. -/
theorem C02_objective_splits (p : Prob T C D) (xs : Schedule T) (dflt : Config T) (α : ℚ)
    (inv : Bool) (m : Nat) (hm : m ≤ xs.length) :
    (p.objectiveWithDefault' xs dflt α inv xs.length).map (·.cost)
      = (do
        let a ← p.objectiveWithDefault' (xs.take m) dflt α inv m
        let b ← (Spec.remaining p m).objectiveWithDefault' (xs.drop m) ((xs.take m).getLastD dflt)
          α inv (xs.length - m : Nat)
        .ok (a.cost + b.cost)) := by
  unfold Prob.objectiveWithDefault'
  rw [sumOverSchedule_eq, sumOverSchedule_eq, sumOverSchedule_eq]
  have e0 : xs.length = m + (xs.length - m) := by omega
  have e1 : Spec.padTo m dflt xs = xs.take m := by simp [Spec.padTo, hm]
  have e2 : slotTerms (p.slotCost α inv) dflt m 1 dflt (xs.take m)
      = slotTerms (p.slotCost α inv) dflt m 1 dflt xs := by rw [← e1, slotTerms_pad]
  have e3 := slotTerms_congr (f := p.slotCost α inv) (g := (Spec.remaining p m).slotCost α inv)
    dflt ((xs.take m).getLastD dflt) m (by
      intro t y x
      have : (t + (m : Int) > p.tEnd) = (t > p.tEnd - m) := by
        apply propext; constructor <;> intro h <;> omega
      simp only [Prob.slotCost, Prob.hitOrNone, Spec.remaining, this]
      rfl)
    (xs.length - m) 1 ((xs.take m).getLastD dflt) (xs.drop m) (by simp)
  conv_lhs => rw [e0, slotTerms_split, e1, e3]
  rw [e2]
  cases slotTerms (p.slotCost α inv) dflt m 1 dflt xs with
  | error e => rfl
  | ok a =>
    simp only [bind, Except.bind, Except.map]
    cases slotTerms ((Spec.remaining p m).slotCost α inv) ((xs.take m).getLastD dflt)
      (xs.length - m) 1 ((xs.take m).getLastD dflt) (xs.drop m) with
    | error e => rfl
    | ok b => simp [Cost.sum_cost]

/-- Every slot of `ssco2` has a cost for every point of dimension two. -/
theorem Ex.ssco2_hit (t : Int) (ht : 1 ≤ t) (x : Config ℤ) (hx : x.length = 2) :
    ∃ o, Ex.ssco2.toProb.hitCost t x = .ok ⟨if x.getD 0 0 < 0 ∨ 2 < x.getD 0 0 ∨ x.getD 1 0 < 0 ∨
      3 < x.getD 1 0 then ⊤ else Ex.hit2 t x, o⟩ := by
  match x, hx with
  | [a, b], _ =>
    by_cases h : a < 0 ∨ 2 < a ∨ b < 0 ∨ 3 < b
    · refine ⟨.failure (), ?_⟩
      have : withinVec Ex.ssco2.bounds [a, b] = .ok false := by
        simp [withinVec, Ex.ssco2]; omega
      simp [SSCO.toProb, CostFn.callMeanWithinBounds, this, bind, Except.bind, h,
        CostFn.outsideCost, OutFailure.outside]
    · refine ⟨.success (), ?_⟩
      have : withinVec Ex.ssco2.bounds [a, b] = .ok true := by
        simp [withinVec, Ex.ssco2]; omega
      simp only [SSCO.toProb, CostFn.callMeanWithinBounds, this, bind, Except.bind, if_true]
      simp only [Ex.ssco2, CostFn.callMean_certain _ t ht]
      simp [h, Cost.raw]

/-- C02's hypotheses hold for `ssco2`, every schedule of dimension two and every horizon. -/
example (xs : Schedule ℤ) (hx : ∀ x ∈ xs, x.length = 2) (n : Nat) (α : ℚ) (inv : Bool) :=
  C02_objective_eq_totalCost Ex.ssco2.toProb xs [0, 0] α inv n _
    (Spec.moveCost inv [3, 1/2])
    (fun t h1 _ _ x h => Ex.ssco2_hit t h1 x (by
      unfold Spec.padTo at h
      rcases List.mem_append.1 h with h | h
      · exact hx x (List.mem_of_mem_take h)
      · rw [(List.mem_replicate.1 h).2]; rfl))
    (fun y hy x h => by
      have aux : ∀ z ∈ [0, 0] :: Spec.padTo n [0, 0] xs, z.length = 2 := by
        intro z hz
        rcases List.mem_cons.1 hz with rfl | hz
        · rfl
        · unfold Spec.padTo at hz
          rcases List.mem_append.1 hz with h | h
          · exact hx z (List.mem_of_mem_take h)
          · rw [(List.mem_replicate.1 h).2]; rfl
      exact Simplified.mv_ok (SSCO.simplified Ex.ssco2) 2 (by decide) _ aux inv y hy x
        (List.mem_cons_of_mem _ h))

/-! ## C03 -/

theorem upCost_nonneg (β : List ℚ) (hβ : ∀ b ∈ β, 0 ≤ b) (y x : List T) :
    0 ≤ Spec.upCost β y x := by
  unfold Spec.upCost
  induction β generalizing y x with
  | nil => simp [List.zipWith3]
  | cons b β ih =>
    cases y <;> cases x <;> simp only [List.zipWith3, List.sum_nil, List.sum_cons, le_refl]
    exact add_nonneg (mul_nonneg (hβ b (by simp)) (le_max_left _ _))
      (ih (fun b hb => hβ b (by simp [hb])) _ _)

theorem moveCost_nonneg (inv : Bool) (β : List ℚ) (hβ : ∀ b ∈ β, 0 ≤ b) (y x : List T) :
    0 ≤ Spec.moveCost inv β y x := by
  cases inv <;> simp [Spec.moveCost, Spec.downCost, upCost_nonneg β hβ]

theorem totalMove_nonneg {X : Type} (mv : X → X → ℚ) (h : ∀ y x, 0 ≤ mv y x) (prev : X)
    (xs : List X) : 0 ≤ Spec.totalMove mv prev xs := by
  induction xs generalizing prev with
  | nil => simp [Spec.totalMove]
  | cons x xs ih => exact add_nonneg (h _ _) (ih x)

theorem totalHit_nonneg {X : Type} (hit : Int → X → ECost) (t : Int) (xs : List X)
    (h : ∀ s, t ≤ s → ∀ x ∈ xs, 0 ≤ hit s x) : 0 ≤ Spec.totalHit hit t xs := by
  induction xs generalizing t with
  | nil => simp [Spec.totalHit]
  | cons x xs ih =>
    exact add_nonneg (h t le_rfl x (by simp))
      (ih (t + 1) fun s hs y hy => h s (by omega) y (by simp [hy]))

theorem hitTerms_nonneg (p : Prob T C D) (dflt : Config T) (n : Nat) :
    ∀ (t : Int) (xs : Schedule T) (hs : List (Cost C D)), hitTerms p dflt n t xs = .ok hs →
    (∀ t x c, p.hitCost t x = .ok c → 0 ≤ c.cost) → 0 ≤ (hs.map (·.cost)).sum := by
  induction n with
  | zero => intro t xs hs h _; simp [hitTerms, slotTerms] at h; subst h; simp
  | succ n ih =>
    intro t xs hs h hnn
    rw [hitTerms_succ] at h
    simp only [bind, Except.bind] at h
    cases h1 : p.hitOrNone t (xs.headD dflt) with
    | error e => rw [h1] at h; simp at h
    | ok c =>
      rw [h1] at h
      cases h2 : hitTerms p dflt n (t + 1) xs.tail with
      | error e => rw [h2] at h; simp at h
      | ok r =>
        rw [h2] at h
        simp only [Except.ok.injEq] at h
        subst h
        simp only [List.map_cons, List.sum_cons]
        refine add_nonneg ?_ (ih (t + 1) xs.tail r h2 hnn)
        unfold Prob.hitOrNone at h1
        split_ifs at h1 with hc
        · simp at h1; subst h1; simp [Cost.dflt]
        · exact hnn _ _ _ h1

/-- `total_movement` of a simplified problem, in closed form. -/
theorem totalMovement_eq (p : Prob T C D) (β : List ℚ) (hp : p.Simplified β) (xs : Schedule T)
    (hT : p.tEnd = xs.length) (hd : ∀ x ∈ xs, (x.length : Int) = p.d) (h0 : 0 ≤ p.d)
    (hβ : (β.length : Int) = p.d) (inv : Bool) :
    p.totalMovement xs inv
      = .ok ((Spec.totalMove (Spec.moveCost inv β) p.defaultConfig xs : ℚ) : ECost) := by
  have hl : ∀ x ∈ p.defaultConfig :: xs, x.length = p.d.toNat := by
    intro x hx; rcases List.mem_cons.1 hx with rfl | hx
    · simp [Prob.defaultConfig, Config.repeat]
    · have := hd x hx; omega
  have hm := Simplified.mv_ok hp p.d.toNat (by omega) _ hl inv
  unfold Prob.totalMovement
  rw [hT, sumOverSchedule_eq]
  generalize p.defaultConfig = dflt at hm ⊢
  have key : ∀ (xs : Schedule T) (prev : Config T) (t : Int),
      (∀ y ∈ prev :: xs, ∀ x ∈ prev :: xs, p.movement y x inv = .ok (Spec.moveCost inv β y x)) →
      ∃ cs : List (Cost Unit Unit), slotTerms (fun (_ : Int) prevX x => do
        let m ← p.movement prevX x inv
        .ok (Cost.raw ((m : ℚ) : ECost))) dflt xs.length t prev xs = .ok cs ∧
        (cs.map (·.cost)).sum = ((Spec.totalMove (Spec.moveCost inv β) prev xs : ℚ) : ECost) := by
    intro xs
    induction xs with
    | nil => intro prev t _; exact ⟨[], rfl, by simp [Spec.totalMove]⟩
    | cons x xs ih =>
      intro prev t h
      obtain ⟨cs, h1, h2⟩ := ih x (t + 1) (fun y hy z hz =>
        h y (List.mem_cons_of_mem _ hy) z (List.mem_cons_of_mem _ hz))
      refine ⟨Cost.raw ((Spec.moveCost inv β prev x : ℚ) : ECost) :: cs, ?_, ?_⟩
      · rw [List.length_cons, slotTerms]
        simp only [List.headD_cons, List.tail_cons]
        rw [h prev (by simp) x (by simp), h1]
        rfl
      · simp [Spec.totalMove, h2, Cost.raw]
  obtain ⟨cs, h1, h2⟩ := key xs dflt 1 hm
  rw [h1]
  simp [Except.map, bind, Except.bind, Cost.sum_cost, h2]

/-- The hitting part of an objective: the objective without movement costs (`α = 0`). -/
def Spec.hittingPart (p : Prob T C D) (xs : Schedule T) : Res ECost :=
  (p.alphaUnfairObjective xs 0).map (·.cost)

/-- **C03** (decomposition). The `α`-unfair objective is the hitting part plus `α` times
`total_movement`. -/
theorem C03_alpha_unfair_decomposes (p : Prob T C D) (β : List ℚ) (hp : p.Simplified β)
    (xs : Schedule T) (hT : p.tEnd = xs.length) (hd : ∀ x ∈ xs, (x.length : Int) = p.d)
    (h0 : 0 ≤ p.d) (hβ : (β.length : Int) = p.d) (α : ℚ) :
    ∃ m : ℚ, p.totalMovement xs false = .ok (m : ECost) ∧
      (p.alphaUnfairObjective xs α).map (·.cost)
        = (Spec.hittingPart p xs).map (· + ((α * m : ℚ) : ECost)) := by
  refine ⟨_, totalMovement_eq p β hp xs hT hd h0 hβ false, ?_⟩
  have hl : ∀ x ∈ p.defaultConfig :: xs, x.length = p.d.toNat := by
    intro x hx; rcases List.mem_cons.1 hx with rfl | hx
    · simp [Prob.defaultConfig, Config.repeat]
    · have := hd x hx; omega
  have hm := Simplified.mv_ok hp p.d.toNat (by omega) _ hl false
  have hm' : ∀ y ∈ p.defaultConfig :: Spec.padTo xs.length p.defaultConfig xs,
      ∀ x ∈ Spec.padTo xs.length p.defaultConfig xs,
      p.movement y x false = .ok (Spec.moveCost false β y x) := by
    rw [padTo_self]; intro y hy x hx; exact hm y hy x (List.mem_cons_of_mem _ hx)
  unfold Spec.hittingPart Prob.alphaUnfairObjective
  rw [hT, objective_decomp p xs _ α false xs.length _ hm',
    objective_decomp p xs _ 0 false xs.length _ hm']
  cases hitTerms p p.defaultConfig xs.length 1 xs with
  | error e => rfl
  | ok hs => simp [Except.map, padTo_self]

/-- **C03** (sign). With non-negative hitting costs, switching costs and `α`, objectives of both
directions and `total_movement` are non-negative. -/
theorem C03_nonneg (p : Prob T C D) (β : List ℚ) (hp : p.Simplified β)
    (xs : Schedule T) (hT : p.tEnd = xs.length) (hd : ∀ x ∈ xs, (x.length : Int) = p.d)
    (h0 : 0 ≤ p.d) (hβ : (β.length : Int) = p.d) (hβ0 : ∀ b ∈ β, 0 ≤ b) (α : ℚ) (hα : 0 ≤ α)
    (hhit : ∀ t x c, p.hitCost t x = .ok c → 0 ≤ c.cost) (inv : Bool) :
    (∀ c, p.objectiveWithDefault' xs p.defaultConfig α inv p.tEnd = .ok c → 0 ≤ c.cost) ∧
    (∃ m : ℚ, p.totalMovement xs inv = .ok (m : ECost) ∧ 0 ≤ m) := by
  refine ⟨?_, _, totalMovement_eq p β hp xs hT hd h0 hβ inv,
    totalMove_nonneg _ (moveCost_nonneg inv β hβ0) _ _⟩
  intro c hc
  have hl : ∀ x ∈ p.defaultConfig :: xs, x.length = p.d.toNat := by
    intro x hx; rcases List.mem_cons.1 hx with rfl | hx
    · simp [Prob.defaultConfig, Config.repeat]
    · have := hd x hx; omega
  have hm := Simplified.mv_ok hp p.d.toNat (by omega) _ hl inv
  rw [hT, objective_decomp p xs _ α inv xs.length (Spec.moveCost inv β) (by
    rw [padTo_self]; intro y hy x hx; exact hm y hy x (List.mem_cons_of_mem _ hx))] at hc
  cases hs : hitTerms p p.defaultConfig xs.length 1 xs with
  | error e => rw [hs] at hc; simp [Except.map] at hc
  | ok l =>
    rw [hs] at hc
    simp only [Except.map, Except.ok.injEq] at hc
    subst hc
    refine add_nonneg (hitTerms_nonneg p _ _ _ _ _ hs hhit) ?_
    rw [← WithTop.coe_zero, WithTop.coe_le_coe]
    exact mul_nonneg hα (totalMove_nonneg _ (moveCost_nonneg inv β hβ0) _ _)

/-- **C03** (monotonicity). The `α`-unfair objective is non-decreasing in `α`. -/
theorem C03_monotone_in_alpha (p : Prob T C D) (β : List ℚ) (hp : p.Simplified β)
    (xs : Schedule T) (hT : p.tEnd = xs.length) (hd : ∀ x ∈ xs, (x.length : Int) = p.d)
    (h0 : 0 ≤ p.d) (hβ : (β.length : Int) = p.d) (hβ0 : ∀ b ∈ β, 0 ≤ b) (α α' : ℚ)
    (hα : α ≤ α') (c c' : Cost C D) (h : p.alphaUnfairObjective xs α = .ok c)
    (h' : p.alphaUnfairObjective xs α' = .ok c') : c.cost ≤ c'.cost := by
  obtain ⟨m, hm, e⟩ := C03_alpha_unfair_decomposes p β hp xs hT hd h0 hβ α
  obtain ⟨m', hm', e'⟩ := C03_alpha_unfair_decomposes p β hp xs hT hd h0 hβ α'
  have hmeq := totalMovement_eq p β hp xs hT hd h0 hβ false
  have hnn := totalMove_nonneg _ (moveCost_nonneg false β hβ0) p.defaultConfig xs
  rw [hm] at hm'
  have hmm : m = m' := by simpa using hm'
  rw [hm] at hmeq
  have hm0 : 0 ≤ m := by
    have : m = Spec.totalMove (Spec.moveCost false β) p.defaultConfig xs := by simpa using hmeq
    rw [this]; exact hnn
  rw [h] at e; rw [h', ← hmm] at e'
  cases hh : Spec.hittingPart p xs with
  | error e => rw [hh] at e'; simp [Except.map] at e'
  | ok k =>
    rw [hh] at e e'
    simp only [Except.map, Except.ok.injEq] at e e'
    rw [e, e']
    have : α * m ≤ α' * m := mul_le_mul_of_nonneg_right hα hm0
    gcongr
    exact WithTop.coe_le_coe.2 this

/-- C03's hypotheses hold for `ssco2` and the schedule `xs2`. -/
example (α : ℚ) := C03_alpha_unfair_decomposes Ex.ssco2.toProb [3, 1/2] (SSCO.simplified _) Ex.xs2
  rfl (by decide) (by decide) rfl α
example : ∀ b ∈ ([3, 1/2] : List ℚ), 0 ≤ b := by simp

end

end Soco
