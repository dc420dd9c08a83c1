import Verif.Lemmas.RoundCost
import Verif.Lemmas.LcpFrac
import Verif.Props.UniGraph
import Verif.Spec.Online

/-!
# C73: randomised rounding preserves costs in expectation
-/

namespace Soco
open Rand MeasureTheory Uni Lcp Work

/-- An integral problem with one dimension, bound `m`, switching cost `β`, `n` slots and the finite hitting costs `c`,
whose model outputs can be merged (which the relaxation does). -/
structure Spec.Relaxable {C D : Type} [OutSuccess C] [OutFailure D] (p : SSCO ℤ C D) (m : ℤ) (β : ℚ)
    (c : Int → ℤ → ℚ) (n : Nat) : Prop where
  d : p.d = 1
  bounds : p.bounds = [m]
  switching : p.switchingCost = [β]
  tEnd : p.tEnd = n
  hit : ∀ t : Int, 1 ≤ t → t ≤ n → ∃ out : ℤ → ModelOutput C D,
    (∀ z, 0 ≤ z → z ≤ m → p.hittingCost.callCertain t [z] = .ok ⟨(c t z : ℚ), out z⟩) ∧
    ∀ z, 0 ≤ z → z < m → ∃ o, ModelOutput.verticalReduce [out z, out (z + 1)] = .ok o

/-- The cost of a schedule as a real number. -/
noncomputable def Spec.realCost {T C D : Type} [Value T] [OutSuccess C] [OutFailure D] (p : SSCO T C D)
    (xs : Schedule T) : ℝ :=
  match p.toProb.objective xs with
  | .ok c => ((c.cost.untopD 0 : ℚ) : ℝ)
  | .error _ => 0

/-- A schedule of one-dimensional configurations. -/
def Spec.single {T : Type} (xs : List T) : Schedule T := xs.map fun x => [x]

section
variable {C D : Type} [OutSuccess C] [OutFailure D] {p : SSCO ℤ C D} {m : ℤ} {β : ℚ} {c : Int → ℤ → ℚ} {n : Nat}

theorem Rand.hit_int (h : Spec.Relaxable p m β c n) {t : Int} (h1 : 1 ≤ t) (h2 : t ≤ n) {z : ℤ} (h3 : 0 ≤ z)
    (h4 : z ≤ m) : ∃ out, p.toProb.hitCost t [z] = .ok ⟨((c t z : ℚ) : ECost), out⟩ := by
  obtain ⟨out, ho, _⟩ := h.hit t h1 h2
  refine ⟨out z, ?_⟩
  have hw : withinVec p.bounds [z] = .ok true := by simp [withinVec, h.bounds, h3, h4]
  have hc := ho z h3 h4
  simp only [SSCO.toProb, CostFn.callMeanWithinBounds, hw, bind, Except.bind, if_true]
  rw [CostFn.callMean_eq]
  rw [CostFn.callCertain_eq] at hc
  cases hp : p.hittingCost.callPredictive t [z] with
  | error e => rw [hp] at hc; simp [bind, Except.bind] at hc
  | ok r =>
    rw [hp] at hc
    simp only [bind, Except.bind] at hc ⊢
    match r, hc with
    | [a], hc =>
      simp only [Except.ok.injEq] at hc
      rw [Cost.mean_singleton, hc]

theorem Rand.hit_frac (h : Spec.Relaxable p m β c n) {t : Int} (h1 : 1 ≤ t) (h2 : t ≤ n) {y : ℚ} (h3 : 0 ≤ y)
    (h4 : y ≤ m) : ∃ out, p.intoF.toProb.hitCost t [y] = .ok ⟨((interp (c t) y : ℚ) : ECost), out⟩ := by
  obtain ⟨out, ho, hm⟩ := h.hit t h1 h2
  have f0 : 0 ≤ ⌊y⌋ := Int.floor_nonneg.2 h3
  have f1 : (⌊y⌋ : ℚ) ≤ y := Int.floor_le y
  have f2 : y < ⌊y⌋ + 1 := Int.lt_floor_add_one y
  have f3 : ⌊y⌋ ≤ m := by
    have : (⌊y⌋ : ℚ) ≤ m := le_trans f1 h4
    exact_mod_cast this
  have hw : withinVec p.intoF.bounds [y] = .ok true := by
    simp [withinVec, SSCO.intoF, h.bounds, toFrac, h3, h4]
  simp only [SSCO.toProb, CostFn.callMeanWithinBounds, hw, bind, Except.bind, if_true]
  by_cases hi : (⌊y⌋ : ℚ) = y
  · refine ⟨out ⌊y⌋, ?_⟩
    have := (C09_relaxed_at_integer p.hittingCost t h1 ⌊y⌋).2
    rw [hi] at this
    show p.hittingCost.intoF.callMean t [y] = _
    rw [this, ho _ f0 f3]
    simp [interp, hi]
  · have g0 : 0 < y - ⌊y⌋ := sub_pos.2 (lt_of_le_of_ne f1 hi)
    have f4 : ⌊y⌋ < m := by
      have : (⌊y⌋ : ℚ) < m := by linarith
      exact_mod_cast this
    obtain ⟨o, ho'⟩ := hm ⌊y⌋ f0 f4
    obtain ⟨a, ha, hb, _⟩ := C09_relaxed_between p.hittingCost t h1 ⌊y⌋ (y - ⌊y⌋) g0 (by linarith) _ _ o
      (ho _ f0 f3) (ho _ (by omega) (by omega)) ho'
    rw [add_sub_cancel] at ha
    refine ⟨o, ?_⟩
    show p.hittingCost.intoF.callMean t [y] = _
    rw [ha, hb _ _ rfl rfl]
    congr 3
    unfold interp
    ring

/-- Costs of an integral schedule. -/
theorem Rand.cost_int (h : Spec.Relaxable p m β c n) {xs : List ℤ} (hl : xs.length = n)
    (hx : ∀ x ∈ xs, 0 ≤ x ∧ x ≤ m) : ∃ out, p.toProb.objective (Spec.single xs)
      = .ok ⟨Spec.totalCost (fun t j => ((c t j : ℚ) : ECost)) (mv1 β false) 1 1 0 xs, out⟩ := by
  have := objective_one h.switching (Q := fun j => 0 ≤ j ∧ j ≤ m)
    (fun t a b j hj => hit_int h a (by rwa [h.tEnd] at b) hj.1 hj.2) 1 false 0 xs (by rw [h.tEnd, hl]) hx
  unfold Prob.objective
  rw [show p.toProb.defaultConfig = [0] by simp [Prob.defaultConfig, SSCO.toProb, h.d]; rfl]
  exact this

/-- Costs of a fractional schedule. -/
theorem Rand.cost_frac (h : Spec.Relaxable p m β c n) {ys : List ℚ} (hl : ys.length = n)
    (hx : ∀ y ∈ ys, 0 ≤ y ∧ y ≤ m) : ∃ out, p.intoF.toProb.objective (Spec.single ys)
      = .ok ⟨Spec.totalCost (fun t j => ((interp (c t) j : ℚ) : ECost)) (mvQ β false) 1 1 0 ys, out⟩ := by
  have := objective_oneQ (p := p.intoF) h.switching (Q := fun j => 0 ≤ j ∧ j ≤ m) 1 false 0 ys
    (by show _ ≤ p.tEnd; rw [h.tEnd, hl])
    (fun t a b j hj => hit_frac h a (by rwa [hl] at b) hj.1 hj.2) hx
  unfold Prob.objective
  rw [show p.intoF.toProb.defaultConfig = [0] by
      simp [Prob.defaultConfig, SSCO.toProb, SSCO.intoF, h.d]; rfl,
    show p.intoF.toProb.tEnd = ys.length by show p.tEnd = _; rw [h.tEnd, hl]]
  exact this

/-! ### Real numbers -/

theorem Rand.lerp_cast (c : ℤ → ℚ) (y : ℚ) : lerp (fun z => (c z : ℝ)) (y : ℝ) = ((interp c y : ℚ) : ℝ) := by
  have hf : Int.fract (y : ℝ) = ((y - ⌊y⌋ : ℚ) : ℝ) := by
    rw [Int.fract, Rat.floor_cast]; push_cast; rfl
  unfold lerp interp
  rw [hf, Rat.floor_cast, Rat.ceil_cast]
  by_cases hi : (⌊y⌋ : ℚ) = y
  · rw [hi]; simp
  · have hc : ⌈y⌉ = ⌊y⌋ + 1 := by
      apply le_antisymm (Int.ceil_le_floor_add_one y)
      rw [Int.add_one_le_iff, Int.lt_ceil]
      exact lt_of_le_of_ne (Int.floor_le y) hi
    rw [hc]; push_cast; ring

theorem Rand.intCost_cast (c : Int → ℤ → ℚ) (β : ℚ) : ∀ (xs : List ℤ) (t : Int) (x : ℤ), ∃ q : ℚ,
    Spec.totalCost (fun t j => ((c t j : ℚ) : ECost)) (mv1 β false) 1 t x xs = ((q : ℚ) : ECost) ∧
      intCost (fun t z => (c t z : ℝ)) β t x xs = q := by
  intro xs
  induction xs with
  | nil => intro t x; exact ⟨0, rfl, by simp [intCost]⟩
  | cons z xs ih =>
    intro t x
    obtain ⟨q, h1, h2⟩ := ih (t + 1) z
    refine ⟨c t z + 1 * mv1 β false x z + q, ?_, ?_⟩
    · rw [Spec.totalCost, h1]; rfl
    · rw [intCost, h2]
      simp only [mv1]
      push_cast
      simp

theorem Rand.fracCost_cast (c : Int → ℤ → ℚ) (β : ℚ) : ∀ (ys : List ℚ) (t : Int) (y : ℚ), ∃ q : ℚ,
    Spec.totalCost (fun t j => ((interp (c t) j : ℚ) : ECost)) (mvQ β false) 1 t y ys = ((q : ℚ) : ECost) ∧
      fracCost (fun t z => (c t z : ℝ)) β t y (ys.map fun z : ℚ => (z : ℝ)) = q := by
  intro ys
  induction ys with
  | nil => intro t x; exact ⟨0, rfl, by simp [fracCost]⟩
  | cons z xs ih =>
    intro t x
    obtain ⟨q, h1, h2⟩ := ih (t + 1) z
    refine ⟨interp (c t) z + 1 * mvQ β false x z + q, ?_, ?_⟩
    · rw [Spec.totalCost, h1]; rfl
    · rw [List.map_cons, fracCost, h2, lerp_cast (c t) z]
      simp only [mvQ, up]
      push_cast
      simp

theorem Rand.realCost_int (h : Spec.Relaxable p m β c n) {xs : List ℤ} (hl : xs.length = n)
    (hx : ∀ x ∈ xs, 0 ≤ x ∧ x ≤ m) : (∃ a, p.toProb.objective (Spec.single xs) = .ok a ∧ a.cost ≠ ⊤) ∧
      Spec.realCost p (Spec.single xs) = intCost (fun t z => (c t z : ℝ)) β 1 0 xs := by
  obtain ⟨out, ho⟩ := cost_int h hl hx
  obtain ⟨q, h1, h2⟩ := intCost_cast c β xs 1 0
  rw [h1] at ho
  refine ⟨⟨_, ho, WithTop.coe_ne_top⟩, ?_⟩
  unfold Spec.realCost
  rw [ho, h2]
  rfl

theorem Rand.realCost_frac (h : Spec.Relaxable p m β c n) {ys : List ℚ} (hl : ys.length = n)
    (hx : ∀ y ∈ ys, 0 ≤ y ∧ y ≤ m) : (∃ a, p.intoF.toProb.objective (Spec.single ys) = .ok a ∧ a.cost ≠ ⊤) ∧
      Spec.realCost p.intoF (Spec.single ys)
        = fracCost (fun t z => (c t z : ℝ)) β 1 0 (ys.map fun z : ℚ => (z : ℝ)) := by
  obtain ⟨out, ho⟩ := cost_frac h hl hx
  obtain ⟨q, h1, h2⟩ := fracCost_cast c β ys 1 0
  rw [h1] at ho
  rw [Rat.cast_zero] at h2
  refine ⟨⟨_, ho, WithTop.coe_ne_top⟩, ?_⟩
  unfold Spec.realCost
  rw [ho, h2]
  rfl

/-- The relaxation charges integral schedules what the problem charges. -/
theorem Rand.intCost_frac (c : Int → ℤ → ℝ) (β : ℝ) : ∀ (xs : List ℤ) (t : Int) (x : ℤ),
    fracCost c β t x (xs.map fun z : ℤ => (z : ℝ)) = intCost c β t x xs := by
  intro xs
  induction xs with
  | nil => intro t x; rfl
  | cons z xs ih =>
    intro t x
    rw [List.map_cons, fracCost, intCost, ih]
    simp [lerp]

theorem Rand.roundAll_box {m : ℤ} : ∀ (ys rs : List ℝ) (x : ℤ) (y : ℝ), (∀ y ∈ ys, 0 ≤ y ∧ y ≤ m) →
    rs.length = ys.length → (Spec.roundAll next x y ys rs).length = ys.length ∧
      ∀ k ∈ Spec.roundAll next x y ys rs, 0 ≤ k ∧ k ≤ m := by
  intro ys
  induction ys with
  | nil => intro rs x y _ _; simp [Spec.roundAll]
  | cons z ys ih =>
    intro rs x y h hl
    obtain ⟨r, rs, rfl⟩ := List.exists_cons_of_length_eq_add_one (by rw [hl, List.length_cons])
    simp only [List.length_cons, Nat.add_right_cancel_iff] at hl
    obtain ⟨h1, h2⟩ := ih rs (next x y z r) z (fun w hw => h w (List.mem_cons_of_mem _ hw)) hl
    obtain ⟨h3, h4⟩ := h z List.mem_cons_self
    rw [Spec.roundAll]
    refine ⟨by simp [h1], ?_⟩
    intro k hk
    rcases List.mem_cons.1 hk with rfl | hk
    · have a1 : (0 : ℤ) ≤ ⌊z⌋ := Int.floor_nonneg.2 h3
      have a2 : ⌈z⌉ ≤ m := Int.ceil_le.2 h4
      have a3 := Int.floor_le_ceil z
      rcases next_support x y z r with e | e <;> rw [e] <;> omega
    · exact h2 k hk

theorem Rand.expect_congr : ∀ (n : ℕ) (F G : List ℝ → ℝ), (∀ rs, rs.length = n → F rs = G rs) →
    Spec.expect n F = Spec.expect n G := by
  intro n
  induction n with
  | zero => intro F G h; exact h [] rfl
  | succ n ih =>
    intro F G h
    show ∫ r, _ ∂Spec.unif = ∫ r, _ ∂Spec.unif
    congr 1
    funext r
    exact ih _ _ fun rs hr => h (r :: rs) (by simp [hr])

/-- **C73** (partial) Along a fractional schedule of gentle steps, the expected cost of the integral schedule (on the
original problem, over independent uniform draws) is the cost of the fractional schedule on the relaxed problem. Not so
for the remaining steps, see `C73_decrease_counterexample`. -/
theorem C73_expected_cost_partial (h : Spec.Relaxable p m β c n) (ys : List ℚ) (hl : ys.length = n)
    (hb : ∀ y ∈ ys, 0 ≤ y ∧ y ≤ m) (hg : Spec.Gentle 0 (ys.map fun y : ℚ => (y : ℝ))) :
    (∀ rs : List ℝ, rs.length = n → ∃ a, p.toProb.objective
      (Spec.single (Spec.roundAll next 0 0 (ys.map fun y : ℚ => (y : ℝ)) rs)) = .ok a ∧ a.cost ≠ ⊤) ∧
    (∃ a, p.intoF.toProb.objective (Spec.single ys) = .ok a ∧ a.cost ≠ ⊤) ∧
    Spec.expect n (fun rs => Spec.realCost p (Spec.single (Spec.roundAll next 0 0 (ys.map fun y : ℚ => (y : ℝ)) rs)))
      = Spec.realCost p.intoF (Spec.single ys) := by
  have hb' : ∀ y ∈ ys.map (fun y : ℚ => (y : ℝ)), 0 ≤ y ∧ y ≤ m := by
    intro y hy
    obtain ⟨q, hq, rfl⟩ := List.mem_map.1 hy
    exact ⟨by exact_mod_cast (hb q hq).1, by exact_mod_cast (hb q hq).2⟩
  have hbox : ∀ rs : List ℝ, rs.length = n → _ := fun rs hr =>
    roundAll_box (ys.map fun y : ℚ => (y : ℝ)) rs 0 0 hb' (by rw [List.length_map, hl, hr])
  have hfr := realCost_frac h hl hb
  refine ⟨fun rs hr => (realCost_int h (by rw [(hbox rs hr).1, List.length_map, hl]) (hbox rs hr).2).1, hfr.1, ?_⟩
  rw [hfr.2, expect_congr n _ _ fun rs hr =>
    (realCost_int h (by rw [(hbox rs hr).1, List.length_map, hl]) (hbox rs hr).2).2]
  have := lerp_runCost (fun t z => (c t z : ℝ)) β _ 1 0 hg
  rw [← this, lerp, runCost, List.length_map, hl]
  simp [runCost, hl]

/-- **C73** (partial) Hence, if the fractional schedule costs at most `κ` times any fractional schedule of the relaxed
problem, the expected cost of the integral schedule is at most `κ` times the cost of any integral schedule. -/
theorem C73_ratio_partial (h : Spec.Relaxable p m β c n) (ys : List ℚ) (hl : ys.length = n)
    (hb : ∀ y ∈ ys, 0 ≤ y ∧ y ≤ m) (hg : Spec.Gentle 0 (ys.map fun y : ℚ => (y : ℝ))) (κ : ℝ)
    (hκ : ∀ zs : List ℚ, zs.length = n → (∀ z ∈ zs, 0 ≤ z ∧ z ≤ m) →
      Spec.realCost p.intoF (Spec.single ys) ≤ κ * Spec.realCost p.intoF (Spec.single zs)) (xs : List ℤ)
    (hx : xs.length = n) (hxb : ∀ x ∈ xs, 0 ≤ x ∧ x ≤ m) :
    Spec.expect n (fun rs => Spec.realCost p (Spec.single (Spec.roundAll next 0 0 (ys.map fun y : ℚ => (y : ℝ)) rs)))
      ≤ κ * Spec.realCost p (Spec.single xs) := by
  rw [(C73_expected_cost_partial h ys hl hb hg).2.2]
  have h1 : (xs.map fun z : ℤ => (z : ℚ)).length = n := by rw [List.length_map, hx]
  have h2 : ∀ z ∈ xs.map fun z : ℤ => (z : ℚ), 0 ≤ z ∧ z ≤ (m : ℚ) := by
    intro z hz
    obtain ⟨q, hq, rfl⟩ := List.mem_map.1 hz
    exact ⟨by exact_mod_cast (hxb q hq).1, by exact_mod_cast (hxb q hq).2⟩
  refine (hκ _ h1 h2).trans_eq ?_
  have e := intCost_frac (fun t z => (c t z : ℝ)) β xs 1 0
  rw [(realCost_frac h h1 h2).2, (realCost_int h hx hxb).2, ← e]
  simp [Function.comp_def]

end

section
variable {C D M : Type} [OutSuccess C] [OutFailure D]

/-- **C73, link to the algorithm.** If the relaxation decides `ys` whatever the integral schedule so far (as the
probabilistic algorithm and randomly biased greedy do, which only use their memory), a run of the algorithm is the
rounding of `ys` with the draws of the slots. -/
theorem C73_run (R : OnlineAlgorithm (SSCO ℚ C D) ℚ M) (draw : Int → ℚ) (os : List (Online (SSCO ℤ C D))) (ys : List ℚ)
    (mems : ℕ → Option M) (hl : os.length = ys.length) (h0 : mems 0 = none)
    (ho : ∀ k (h : k < os.length), os[k].w = 0 ∧ os[k].p.d = 1 ∧ os[k].p.tEnd = k + 1)
    (hR : ∀ k (h : k < os.length) (h' : k < ys.length) (xs : Schedule ℚ), xs.length = k →
      R.next ⟨os[k].p.intoF, 0⟩ xs (mems k) = .ok ([ys[k]], mems (k + 1))) :
    ∃ mem, Spec.play SSCO.tEnd (randomized R draw) [] none os = .ok (Spec.single (Spec.roundAll next 0 0
      (ys.map fun y : ℚ => (y : ℝ)) ((List.range ys.length).map fun k : ℕ => ((draw (k + 1) : ℚ) : ℝ))), mem) := by
  have key : ∀ (os' : List (Online (SSCO ℤ C D))) (ys' : List ℚ) (k : ℕ) (xs : List ℤ) (px : ℤ) (py : ℚ)
      (m : Option (Memory M)), os' = os.drop k → ys' = ys.drop k → xs.length = k →
      (Schedule.nowWithDefault (Spec.single xs) [0]) = [px] → (m.getD ⟨[0], none⟩).y = [py] →
      (m.getD ⟨[0], none⟩).relaxation = mems k →
      ∃ mem, Spec.play SSCO.tEnd (randomized R draw) (Spec.single xs) m os' = .ok (Spec.single (xs ++
        Spec.roundAll next px (py : ℝ) (ys'.map fun y : ℚ => (y : ℝ))
          ((List.range' k ys'.length).map fun k : ℕ => ((draw (k + 1) : ℚ) : ℝ))), mem) := by
    intro os'
    induction os' with
    | nil =>
      intro ys' k xs px py m e1 e2 e3 e4 e5 e6
      have : ys' = [] := by
        rw [e2, List.drop_eq_nil_iff, ← hl]
        exact List.drop_eq_nil_iff.1 e1.symm
      subst this
      exact ⟨m, by simp [Spec.play, Spec.roundAll]⟩
    | cons o os' ih =>
      intro ys' k xs px py m e1 e2 e3 e4 e5 e6
      have hk : k < os.length := by
        by_contra hc
        rw [List.drop_eq_nil_of_le (by omega)] at e1
        cases e1
      have hk' : k < ys.length := by omega
      rw [List.drop_eq_getElem_cons hk] at e1
      obtain ⟨e0, e1'⟩ := List.cons.inj e1
      subst e0
      rw [List.drop_eq_getElem_cons hk'] at e2
      obtain ⟨w0, d1, t1⟩ := ho k hk
      have hstep : (randomized R draw).next os[k] (Spec.single xs) m
          = .ok ([next px py ys[k] (draw (k + 1))], some ⟨[ys[k]], mems (k + 1)⟩) := by
        have hRk := hR k hk hk' (Schedule.toF (Spec.single xs)) (by simp [Schedule.toF, Spec.single, e3])
        have et : Schedule.tEnd (Spec.single xs) + 1 = (k : Int) + 1 := by simp [Schedule.tEnd, Spec.single, e3]
        have ed : (randomized R draw).default os[k] = ⟨[0], none⟩ := rfl
        simp only [OnlineAlgorithm.next, ed]
        simp only [randomized, assertR, w0, d1, e4, e5, e6, et, bind, Except.bind, beq_self_eq_true, if_true, hRk, idx,
          List.getElem?_cons_zero]
      have hnext : onlineNext SSCO.tEnd (randomized R draw) os[k] (Spec.single xs) m
          = .ok ([next px py ys[k] (draw (k + 1))], Spec.single (xs ++ [next px py ys[k] (draw (k + 1))]),
            some ⟨[ys[k]], mems (k + 1)⟩) := by
        have et : Schedule.tEnd (Spec.single xs) + 1 = os[k].p.tEnd := by
          rw [t1]; simp [Schedule.tEnd, Spec.single, e3]
        simp only [onlineNext, assertR, et, decide_true, if_true, bind, Except.bind, hstep]
        simp [Schedule.extend, Spec.single]
      obtain ⟨mem, hm⟩ := ih (ys.drop (k + 1)) (k + 1) (xs ++ [next px py ys[k] (draw (k + 1))])
        (next px py ys[k] (draw (k + 1))) ys[k] (some ⟨[ys[k]], mems (k + 1)⟩) e1' rfl (by simp [e3])
        (by simp [Schedule.nowWithDefault, Spec.single]) rfl rfl
      refine ⟨mem, ?_⟩
      simp only [Spec.play, hnext]
      rw [hm, e2]
      congr 3
      rw [List.map_cons, List.length_cons, List.range'_succ, List.map_cons, Spec.roundAll, ← next_cast]
      simp
  obtain ⟨mem, hm⟩ := key os ys 0 [] 0 0 none rfl rfl rfl rfl rfl h0.symm
  rw [Rat.cast_zero] at hm
  refine ⟨mem, ?_⟩
  rw [List.range_eq_range']
  simpa [Spec.single] using hm

end

/-- A server of which the second slot wants one, at cost `1`. -/
def Ex.wanted (b : ℚ) : SSCO ℤ Unit Unit where
  d := 1
  tEnd := 2
  bounds := [1]
  switchingCost := [b]
  hittingCost := CostFn.new 1 (SingleCostFn.certain fun _ x =>
    .ok (Cost.raw (if x = [0] then 1 else 0)))

theorem Ex.wanted_ok (b : ℚ) : Spec.Relaxable (Ex.wanted b) 1 b (fun _ z => if z = 0 then 1 else 0) 2 where
  d := rfl
  bounds := rfl
  switching := rfl
  tEnd := rfl
  hit := by
    intro t h1 _
    refine ⟨fun _ => (Cost.raw 0 : Cost Unit Unit).output, fun z _ _ => ?_, fun z _ _ => ⟨_, rfl⟩⟩
    rw [Ex.wanted, CostFn.callCertain_certain _ t h1]
    by_cases hz : z = 0
    · simp [hz, Cost.raw]
    · simp [hz, Cost.raw]

/-- **C73 fails when coming down from an integer to a fractional value.** For every ratio `κ` there are a problem and a
fractional schedule which costs at most twice any fractional schedule, but the cost of its rounding is, whatever the
draws, more than `κ` times the cost of some integral schedule. -/
theorem C73_decrease_counterexample (κ : ℚ) (hκ : 1 ≤ κ) : ∃ (p : SSCO ℤ Unit Unit) (c : Int → ℤ → ℚ) (β : ℚ) (ys : List ℚ)
    (xs : List ℤ), Spec.Relaxable p 1 β c 2 ∧ 0 < β ∧ ys.length = 2 ∧ (∀ y ∈ ys, 0 ≤ y ∧ y ≤ 1) ∧
    (∀ zs : List ℚ, zs.length = 2 → (∀ z ∈ zs, 0 ≤ z ∧ z ≤ 1) →
      Spec.realCost p.intoF (Spec.single ys) ≤ 2 * Spec.realCost p.intoF (Spec.single zs)) ∧
    xs.length = 2 ∧ (∀ x ∈ xs, 0 ≤ x ∧ x ≤ 1) ∧
    ∀ rs : List ℝ, rs.length = 2 → κ * Spec.realCost p (Spec.single xs)
      < Spec.realCost p (Spec.single (Spec.roundAll next 0 0 (ys.map fun y : ℚ => (y : ℝ)) rs)) := by
  have hb0 : (0 : ℚ) < 1 / (2 * κ) := by positivity
  have hb1 : 1 / (2 * κ) ≤ 1 / 2 := by
    rw [div_le_div_iff₀ (by positivity) (by norm_num)]; linarith
  set b : ℚ := 1 / (2 * κ) with hb
  have hκb : κ * b = 1 / 2 := by rw [hb]; field_simp
  have hR := Ex.wanted_ok b
  have hpair : ∀ l : List ℚ, l.length = 2 → ∃ u v, l = [u, v] := by
    intro l h
    match l, h with
    | [u, v], _ => exact ⟨u, v, rfl⟩
  have hlerp : ∀ z : ℚ, 0 ≤ z → z ≤ 1 → lerp (fun z : ℤ => (((if z = 0 then 1 else 0 : ℚ)) : ℝ)) (z : ℝ) = 1 - z := by
    intro z h0 h1
    rw [lerp_cast (fun z : ℤ => (if z = 0 then 1 else 0 : ℚ)) z]
    unfold interp
    rcases h1.lt_or_eq with h | h
    · have : ⌊z⌋ = 0 := by rw [Int.floor_eq_iff]; constructor <;> push_cast <;> linarith
      rw [this]; push_cast; simp; ring
    · subst h; norm_num
  have hfrac : ∀ u v : ℚ, 0 ≤ u → u ≤ 1 → 0 ≤ v → v ≤ 1 → Spec.realCost (Ex.wanted b).intoF (Spec.single [u, v])
      = (1 - u) + b * u + ((1 - v) + b * max 0 ((v : ℝ) - u)) := by
    intro u v h1 h2 h3 h4
    rw [(realCost_frac hR rfl (by intro y hy; simp at hy; rcases hy with rfl | rfl <;> constructor <;> assumption_mod_cast)).2]
    simp only [List.map_cons, List.map_nil, fracCost]
    rw [hlerp u h1 h2, hlerp v h3 h4, sub_zero, max_eq_right (by exact_mod_cast h1)]
    ring
  have hb0' : (0 : ℝ) < b := by exact_mod_cast hb0
  have hb1' : (b : ℝ) ≤ 1 / 2 := by
    have : ((b : ℚ) : ℝ) ≤ ((1 / 2 : ℚ) : ℝ) := by exact_mod_cast hb1
    push_cast at this; linarith
  refine ⟨Ex.wanted b, _, b, [1, 1 - b], [1, 1], hR, hb0, rfl, ?_, ?_, rfl, by decide, ?_⟩
  · intro y hy
    simp at hy
    rcases hy with rfl | rfl <;> constructor <;> linarith
  · intro zs hz hzb
    obtain ⟨u, v, rfl⟩ := hpair zs hz
    obtain ⟨u0, u1⟩ := hzb u (by simp)
    obtain ⟨v0, v1⟩ := hzb v (by simp)
    rw [hfrac 1 (1 - b) (by norm_num) le_rfl (by linarith) (by linarith), hfrac u v u0 u1 v0 v1]
    push_cast
    rw [max_eq_left (by linarith)]
    have u1' : (u : ℝ) ≤ 1 := by exact_mod_cast u1
    have v1' : (v : ℝ) ≤ 1 := by exact_mod_cast v1
    have u0' : (0 : ℝ) ≤ u := by exact_mod_cast u0
    have := le_max_left (0 : ℝ) (v - u)
    have := le_max_right (0 : ℝ) (v - u)
    nlinarith
  · intro rs hr
    obtain ⟨r, rs, rfl⟩ := List.exists_cons_of_length_eq_add_one hr
    obtain ⟨r', rs, rfl⟩ := List.exists_cons_of_length_eq_add_one (by simpa using hr : rs.length = 0 + 1)
    have e1 : next 0 0 ((1 : ℚ) : ℝ) r = 1 := by
      rw [next_integral (by simp)]; simp
    have hfl : ⌊((1 - b : ℚ) : ℝ)⌋ = 0 := by
      rw [Int.floor_eq_iff]; push_cast; constructor <;> linarith
    have hce : ⌈((1 - b : ℚ) : ℝ)⌉ = 1 := by
      rw [Int.ceil_eq_iff]; push_cast; constructor <;> linarith
    have e2 : next 1 ((1 : ℚ) : ℝ) ((1 - b : ℚ) : ℝ) r' = 0 := by
      rw [next_down_far (by rw [hfl]; push_cast; linarith) (by rw [hce]; push_cast; linarith), hfl]
    have e3 : Spec.roundAll next 0 0 ([1, 1 - b].map fun y : ℚ => (y : ℝ)) (r :: r' :: rs) = [1, 0] := by
      simp only [List.map_cons, List.map_nil, Spec.roundAll, e1, e2]
    rw [e3, (realCost_int hR rfl (by decide)).2, (realCost_int hR rfl (by decide)).2]
    simp [intCost]
    have : (κ : ℝ) * b = 1 / 2 := by
      have : ((κ * b : ℚ) : ℝ) = ((1 / 2 : ℚ) : ℝ) := by rw [hκb]
      push_cast at this; linarith
    nlinarith

/-- C73 applies to a gentle schedule. -/
example := C73_expected_cost_partial (Ex.wanted_ok 3) [1 / 4, 1 / 2] rfl
  (by intro y hy; simp at hy; rcases hy with rfl | rfl <;> norm_num)
  (by simp [Spec.Gentle, Spec.GentleStep]; norm_num)

/-- The relaxation of the examples decides independently of the schedule. -/
example := C73_run Ex.halves (fun _ => 1 / 3)
  [⟨{ Ex.ssco1 with tEnd := 1 }, 0⟩, ⟨{ Ex.ssco1 with tEnd := 2 }, 0⟩, ⟨{ Ex.ssco1 with tEnd := 3 }, 0⟩]
  [1 / 2, 1, 3 / 2] (fun k => if k = 0 then none else some ()) rfl rfl
  (by intro k h; have : k = 0 ∨ k = 1 ∨ k = 2 := by simp at h; omega
      rcases this with rfl | rfl | rfl <;> exact ⟨rfl, rfl, rfl⟩)
  (by intro k h h' xs hx
      have : k = 0 ∨ k = 1 ∨ k = 2 := by simp at h; omega
      rcases this with rfl | rfl | rfl <;>
        simp [OnlineAlgorithm.next, Ex.halves, Schedule.tEnd, hx] <;> norm_num)

end Soco
