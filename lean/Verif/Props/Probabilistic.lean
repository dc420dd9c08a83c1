import Verif.Model.Probabilistic
import Verif.Spec.Probabilistic
import Verif.Spec.Online
import Verif.Props.Descent3

/-! # C62, C63: the probabilistic algorithm -/

namespace Soco
namespace Probabilistic
open Spec Num Descent

/-- Evaluates everywhere. -/
def Defined {α β : Type} (f : α → Res β) : Prop := ∀ x, ∃ v, f x = .ok v

/-- The external routines return a value for every function that has one everywhere. -/
structure Tools.Total (T : Tools) : Prop where
  derivative : ∀ f, Defined f → Defined (T.derivative f)
  second : ∀ f, Defined f → Defined (T.second f)
  integrate : ∀ bp a b f, Defined f → ∃ v, T.integrate bp a b f = .ok v

/-- The root finder stays in its interval. -/
def Brackets (B : Brent) : Prop := ∀ a b f x, a ≤ b → (B (a, b) f).2 = some x → a ≤ x ∧ x ≤ b

theorem findRoot_mem {B : Brent} (hB : Brackets B) {a b : ℚ} (hab : a ≤ b) (ha : OnGrid a) (hb : OnGrid b) {f : ℚ → Res Slack}
    {x : ℚ} (h : findRoot B a b f = .ok x) : a ≤ x ∧ x ≤ b := by
  unfold findRoot at h
  split at h
  · cases h; exact ⟨le_rfl, hab⟩
  · cases hl : f a with
    | error e => simp [hl, bind, Except.bind] at h
    | ok l =>
      cases hr : f b with
      | error e => simp [hl, hr, bind, Except.bind] at h
      | ok r =>
        simp only [hl, hr, bind, Except.bind] at h
        split at h
        · cases h; exact ⟨le_rfl, hab⟩
        · split at h
          · cases h; exact ⟨hab, le_rfl⟩
          · split at h
            · cases h
              split
              · exact ⟨le_rfl, hab⟩
              · exact ⟨hab, le_rfl⟩
            · cases hv : visit1 f (B (a, b) f).1 with
              | error e => simp [hv] at h
              | ok _ =>
                cases hx : (B (a, b) f).2 with
                | none => simp [hv, hx] at h
                | some y =>
                  simp only [hv, hx] at h
                  cases h
                  have hy := hB a b f y hab hx
                  have hbox : GridBox [(a, b)] := by
                    intro c hc
                    simp only [List.mem_singleton] at hc
                    subst hc
                    exact ⟨hab, ha, hb⟩
                  have := inBoxQ_round hbox (x := [y]) (.cons hy .nil)
                  unfold InBoxQ applyPrecisionVec at this
                  cases this with
                  | cons h1 _ => exact h1

section
variable {C D : Type} [OutSuccess C] [OutFailure D]

/-- A one-dimensional instance with bound `u` and switching cost `β` whose hitting costs in slot `t` are the finite numbers
`f x`, for all numbers `x`. -/
structure Smooth (p : SSCO ℚ C D) (t : Int) (u β : ℚ) (f : ℚ → ℚ) : Prop where
  dim : p.d = 1
  bound : p.bounds = [u]
  pos : 0 ≤ u
  grid : OnGrid u
  switching : p.switchingCost = [β]
  charged : β ≠ 0
  costs : ∀ x, ∃ o, p.hittingCost.callCertain t [x] = .ok ⟨((f x : ℚ) : ECost), o⟩

theorem cost_eq {p : SSCO ℚ C D} {t : Int} {u β : ℚ} {f : ℚ → ℚ} (h : Smooth p t u β f) (x : ℚ) :
    cost p t x = .ok ((f x : ℚ) : ECost) := by
  obtain ⟨o, ho⟩ := h.costs x
  simp only [cost, ho, bind, Except.bind]

theorem derivative_ok {T : Tools} (hT : T.Total) {p : SSCO ℚ C D} {t : Int} {u β : ℚ} {f : ℚ → ℚ} (h : Smooth p t u β f) :
    Defined (derivative T (cost p t)) := by
  intro x
  obtain ⟨r, hr⟩ := hT.derivative (cost p t) (fun y => ⟨_, cost_eq h y⟩) x
  simp only [derivative, cost_eq h, bind, Except.bind, hr]
  show ∃ v, (match r with
    | some s => Except.ok (roundSlack s)
    | none => _) = Except.ok v
  cases r <;> exact ⟨_, rfl⟩

theorem second_ok {T : Tools} (hT : T.Total) {p : SSCO ℚ C D} {t : Int} {u β : ℚ} {f : ℚ → ℚ} (h : Smooth p t u β f) :
    Defined (secondDerivative T (cost p t)) := by
  intro x
  obtain ⟨r, hr⟩ := hT.second (cost p t) (fun y => ⟨_, cost_eq h y⟩) x
  simp only [secondDerivative, cost_eq h, bind, Except.bind, hr]
  show ∃ v, (match r with
    | some s => Except.ok (applyPrecision s)
    | none => _) = Except.ok v
  cases r <;> exact ⟨_, rfl⟩

theorem density_ok {T : Tools} (hT : T.Total) {p : SSCO ℚ C D} {t : Int} {u β : ℚ} {f : ℚ → ℚ} (h : Smooth p t u β f)
    {prev : Density} (hp : Defined prev) (xl xr : ℚ) : Defined (density T p t prev xl xr) := by
  intro x
  obtain ⟨a, ha⟩ := hp x
  obtain ⟨s, hs⟩ := second_ok hT h x
  simp only [density, ha, hs, h.switching, idx, List.getElem?_cons_zero, bind, Except.bind, if_neg h.charged]
  split <;> exact ⟨_, rfl⟩

theorem rightGap_ok {T : Tools} (hT : T.Total) {p : SSCO ℚ C D} {t : Int} {u β : ℚ} {f : ℚ → ℚ} (h : Smooth p t u β f)
    (bp : Breakpoints) {prev : Density} (hp : Defined prev) : Defined (rightGap T p t bp prev) := by
  intro x
  obtain ⟨d, hd⟩ := derivative_ok hT h x
  obtain ⟨i, hi⟩ := hT.integrate bp (.of x) ⊤ prev hp
  simp only [rightGap, hd, hi, h.switching, idx, List.getElem?_cons_zero, bind, Except.bind]
  exact ⟨_, rfl⟩

theorem leftGap_ok {T : Tools} (hT : T.Total) {p : SSCO ℚ C D} {t : Int} {u β : ℚ} {f : ℚ → ℚ} (h : Smooth p t u β f)
    (bp : Breakpoints) {prev : Density} (hp : Defined prev) : Defined (leftGap T p t bp prev) := by
  intro x
  obtain ⟨d, hd⟩ := derivative_ok hT h x
  obtain ⟨i, hi⟩ := hT.integrate bp ⊥ (.of x) prev hp
  simp only [leftGap, hd, hi, h.switching, idx, List.getElem?_cons_zero, bind, Except.bind]
  exact ⟨_, rfl⟩

/-- The minimiser of the hitting cost. -/
theorem minimizer_ok {S : Solver} (hS : Sound S) {p : SSCO ℚ C D} {t : Int} {u β : ℚ} {f : ℚ → ℚ} (h : Smooth p t u β f) :
    ∃ xm v, hittingMinimizer S t p.hittingCost [(0, u)] = .ok ([xm], v) ∧ 0 ≤ xm ∧ xm ≤ u ∧ OnGrid xm ∧
      (Exact S → ∀ y, 0 ≤ y → y ≤ u → OnGrid y → f xm ≤ f y) := by
  have hbox : GridBox [((0 : ℚ), u)] := by
    intro c hc
    simp only [List.mem_singleton] at hc
    subst hc
    exact ⟨h.pos, ⟨0, by norm_num⟩, h.grid⟩
  obtain ⟨g, hg⟩ : ∃ g : List ℚ → Res ECost, g = (fun x => do
    let c ← p.hittingCost.callCertain t x
    .ok c.cost) := ⟨_, rfl⟩
  have gv : ∀ x : ℚ, g [x] = .ok ((f x : ℚ) : ECost) := by
    intro x
    obtain ⟨o, ho⟩ := h.costs x
    simp only [hg, ho, bind, Except.bind]
  obtain ⟨x, v, h1, h2, h3, h4, -, -⟩ := minimize_sound hS hbox none (by simp) [] (f := g) (by
    intro x hx
    obtain ⟨y, rfl⟩ := List.length_eq_one_iff.1 (by simpa using hx)
    exact ⟨_, gv y⟩) (by simp)
  unfold InBoxQ at h2
  cases h2 with
  | @cons _ xm _ _ a b =>
    cases b
    refine ⟨xm, v, ?_, a.1, a.2, h3 xm (by simp), ?_⟩
    · rw [hittingMinimizer, findMinimizer, ← hg]
      exact h1
    · intro hE y y0 y1 yg
      have := hE.best [(0, u)] g _ [] hbox [y] _ _ (.cons ⟨y0, y1⟩ .nil) (by simpa using yg) (by simp [Meets])
        (by rw [← h4]; exact gv xm) (gv y)
      exact WithTop.coe_le_coe.1 this

/-- **C62.** A step of the probabilistic algorithm succeeds and stays in the decision space. It determines `xl ≤ xr` in the
decision space; the new density vanishes outside of `[xl, xr]`, and within it the second derivative of the hitting cost
divided by twice the switching cost is added. Both are recorded as breakpoints, and no breakpoint is lost. -/
theorem C62_probabilistic (S : Solver) (hS : Sound S) (B : Brent) (hB : Answers B) (hB' : Brackets B) (T : Tools) (hT : T.Total)
    (options : Breakpoints) (o : Online (SSCO ℚ C D)) (hw : o.w = 0) (t : Int) (u β : ℚ) (f : ℚ → ℚ) (h : Smooth o.p t u β f)
    (xs : Schedule ℚ) (m : Memory) (hm : Defined m.p) :
    ∃ x xl xr m', (probabilistic S B T options).call o t xs m = .ok ([x], some m') ∧ 0 ≤ x ∧ x ≤ u ∧
      0 ≤ xl ∧ xl ≤ xr ∧ xr ≤ u ∧ Defined m'.p ∧
      (∀ y, ¬ (xl ≤ y ∧ y ≤ xr) → m'.p y = .ok 0) ∧
      (∀ y a s, xl ≤ y → y ≤ xr → m.p y = .ok a → secondDerivative T (cost o.p t) y = .ok s → m'.p y = .ok (a + s / (2 * β))) ∧
      (∀ b, b ∈ m'.breakpoints ↔ b ∈ m.breakpoints ∨ b = xl ∨ b = xr) := by
  obtain ⟨xm, v, h1, h2, h3, h4, -⟩ := minimizer_ok hS h
  have g0 : OnGrid 0 := ⟨0, by norm_num⟩
  obtain ⟨xr, hr⟩ := findRoot_ok hB xm u _ (rightGap_ok hT h (options.add m.breakpoints) hm)
  obtain ⟨xl, hl⟩ := findRoot_ok hB 0 xm _ (leftGap_ok hT h (options.add m.breakpoints) hm)
  obtain ⟨r1, r2⟩ := findRoot_mem hB' h3 h4 h.grid hr
  obtain ⟨l1, l2⟩ := findRoot_mem hB' h2 g0 h4 hl
  have hd := density_ok hT h hm xl xr
  obtain ⟨e, he⟩ := hT.integrate (options.add m.breakpoints) (.of xl) (.of xr) (fun x => do
      let v ← density T o.p t m.p xl xr x
      .ok (x * v)) (by
    intro x
    obtain ⟨v, hv⟩ := hd x
    exact ⟨x * v, by simp only [hv, bind, Except.bind]⟩)
  have mem_push : ∀ (bs : List ℚ) (b c : ℚ), c ∈ push bs b ↔ c ∈ bs ∨ c = b := by
    intro bs b c
    unfold push
    split
    · rename_i hc
      constructor
      · exact Or.inl
      · rintro (h | rfl)
        · exact h
        · simpa using hc
    · simp
  refine ⟨if e < xl ∨ e > xr then xm else e, xl, xr, ⟨density T o.p t m.p xl xr, push (push m.breakpoints xl) xr⟩,
    ?_, ?_, ?_, l1, l2.trans r1, r2, hd, ?_, ?_, ?_⟩
  · simp only [bind, Except.bind] at he
    simp only [probabilistic, hw, h.dim, h.bound, assertR, decide_true, if_true, idx, List.getElem?_cons_zero, h1, hr, hl, he, bind,
      Except.bind]
  · split
    · exact h2
    · rename_i hc
      push Not at hc
      exact l1.trans hc.1
  · split
    · exact h3
    · rename_i hc
      push Not at hc
      exact hc.2.trans r2
  · intro y hy
    exact if_neg hy
  · intro y a s y1 y2 ha hs
    simp only [density, if_pos (And.intro y1 y2), ha, hs, h.switching, idx, List.getElem?_cons_zero, bind, Except.bind,
      if_neg h.charged]
  · intro b
    rw [mem_push, mem_push, or_assoc]

theorem run_probabilistic (S : Solver) (hS : Sound S) (B : Brent) (hB : Answers B) (hB' : Brackets B) (T : Tools) (hT : T.Total)
    (options : Breakpoints) (u β : ℚ) (f : Int → ℚ → ℚ) :
    ∀ (os : List (Online (SSCO ℚ C D))) (xs : Schedule ℚ) (m : Option Memory), (∀ m' ∈ m, Defined m'.p) →
      (∀ (i : Nat) o, os[i]? = some o → o.w = 0 ∧ o.p.tEnd = (xs.length : Int) + i + 1 ∧
        Smooth o.p ((xs.length : Int) + i + 1) u β (f ((xs.length : Int) + i + 1))) →
      ∃ ys k, Run (fun p : SSCO ℚ C D => p.tEnd) (probabilistic S B T options) xs m os (xs ++ ys) k ∧ ys.length = os.length ∧
        ∀ y ∈ ys, ∃ j, y = [j] ∧ 0 ≤ j ∧ j ≤ u := by
  intro os
  induction os with
  | nil => intro xs m _ _; exact ⟨[], m, by simpa using .nil xs m, rfl, by simp⟩
  | cons o os ih =>
    intro xs m hm h
    obtain ⟨hw, ht, hp⟩ := h 0 o rfl
    have hd : Defined (m.getD ((probabilistic S B T options).default o)).p := by
      cases m with
      | none => exact fun x => ⟨_, rfl⟩
      | some m => exact hm m rfl
    obtain ⟨x, xl, xr, m', h1, h2, h3, -, -, -, h4, -⟩ := C62_probabilistic S hS B hB hB' T hT options o hw _ u β _ hp xs _ hd
    obtain ⟨ys, k, h5, h6, h7⟩ := ih (xs ++ [[x]]) (some m') (by
      intro m'' h''
      cases h''
      exact h4) (by
      intro i o ho
      have := h (i + 1) o ho
      rw [List.length_append, List.length_singleton]
      push_cast at this ⊢
      rwa [show (xs.length : Int) + 1 + i + 1 = xs.length + (i + 1) + 1 by ring])
    refine ⟨[x] :: ys, k, .step _ _ _ _ [x] (some m') _ _ (by simpa using ht) (by simpa using h1) (by simpa using h5), by simp [h6], ?_⟩
    intro y hy
    rcases List.mem_cons.1 hy with rfl | hy
    · exact ⟨x, rfl, h2, h3⟩
    · exact h7 y hy

/-- **C62** (histories). The probabilistic algorithm succeeds in every slot of every history and stays in the decision
space. -/
theorem C62_history (S : Solver) (hS : Sound S) (B : Brent) (hB : Answers B) (hB' : Brackets B) (T : Tools) (hT : T.Total)
    (options : Breakpoints) (u β : ℚ) (f : Int → ℚ → ℚ) (os : List (Online (SSCO ℚ C D)))
    (h : ∀ (i : Nat) o, os[i]? = some o → o.w = 0 ∧ o.p.tEnd = (i : Int) + 1 ∧ Smooth o.p ((i : Int) + 1) u β (f ((i : Int) + 1))) :
    ∃ ys k, Run (fun p : SSCO ℚ C D => p.tEnd) (probabilistic S B T options) [] none os ys k ∧ ys.length = os.length ∧
      ∀ y ∈ ys, ∃ j, y = [j] ∧ 0 ≤ j ∧ j ≤ u := by
  have := run_probabilistic S hS B hB hB' T hT options u β f os [] none (by simp) (by simpa using h)
  simpa using this

/-! ## The left bound -/

/-- **C63** (left bound). The left bound should be the point at which the growth of the slope up to the minimiser makes up
for twice the mass to its left. The code searches for a root of a function which is never negative where the hitting cost
decreases, so that the left bound is always `0` or the minimiser, no matter what the density is. -/
theorem C63_left_bound_partial (B : Brent) (T : Tools) (p : SSCO ℚ C D) (t : Int) (β : ℚ) (hβ : 0 ≤ β) (hs : p.switchingCost = [β])
    (bp : Breakpoints) (prev : Density) (xm : ℚ)
    (hd : ∀ x s, 0 ≤ x → x ≤ xm → derivative T (cost p t) x = .ok s → s ≤ 0)
    (hi : ∀ x i, T.integrate bp ⊥ (.of x) prev = .ok i → 0 ≤ i) (hxm : 0 ≤ xm) (xl : ℚ)
    (h : findRoot B 0 xm (leftGap T p t bp prev) = .ok xl) : xl = 0 ∨ xl = xm := by
  have hpos : ∀ x v, 0 ≤ x → x ≤ xm → leftGap T p t bp prev x = .ok v → 0 ≤ v := by
    intro x v x0 x1 hv
    simp only [leftGap, hs, idx, List.getElem?_cons_zero, bind, Except.bind] at hv
    cases e1 : T.integrate bp ⊥ (.of x) prev with
    | error e => simp [e1] at hv
    | ok i =>
      cases e2 : derivative T (cost p t) x with
      | error e => simp [e1, e2] at hv
      | ok s =>
        simp only [e1, e2] at hv
        cases hv
        have a := hi x i e1
        have b := hd x s x0 x1 e2
        rcases s with _ | _ | q
        · exact le_top
        · have b' : ((⊤ : WithTop ℚ) : Slack) ≤ (((0 : ℚ) : WithTop ℚ) : Slack) := b
          rw [WithBot.coe_le_coe, top_le_iff] at b'
          exact absurd b' WithTop.coe_ne_top
        · have b' : q ≤ 0 := by
            have : (((q : ℚ) : WithTop ℚ) : Slack) ≤ (((0 : ℚ) : WithTop ℚ) : Slack) := b
            rwa [WithBot.coe_le_coe, WithTop.coe_le_coe] at this
          show (((0 : ℚ) : WithTop ℚ) : Slack) ≤ (((2 * β * i - q : ℚ) : WithTop ℚ) : Slack)
          rw [WithBot.coe_le_coe, WithTop.coe_le_coe]
          have := mul_nonneg hβ a
          linarith
  unfold findRoot at h
  split at h
  · cases h; exact Or.inl rfl
  · cases hl : leftGap T p t bp prev 0 with
    | error e => simp [hl, bind, Except.bind] at h
    | ok l =>
      cases hr : leftGap T p t bp prev xm with
      | error e => simp [hl, hr, bind, Except.bind] at h
      | ok r =>
        have pl := hpos 0 l le_rfl hxm hl
        have pr := hpos xm r hxm le_rfl hr
        simp only [hl, hr, bind, Except.bind] at h
        split at h
        · cases h; exact Or.inl rfl
        · split at h
          · cases h; exact Or.inr rfl
          · split at h
            · cases h
              split
              · exact Or.inl rfl
              · exact Or.inr rfl
            · rename_i n1 n2 n3
              exfalso
              have small : Slack.abs (0 : Slack) < ((rootPrecision : ℚ) : ECost) := by
                show (((|0| : ℚ) : ℚ) : ECost) < _
                rw [WithTop.coe_lt_coe]
                norm_num [rootPrecision, precision]
              apply n3
              refine Or.inl ⟨pl.lt_of_ne ?_, pr.lt_of_ne ?_⟩
              · rintro rfl; exact n1 small
              · rintro rfl; exact n2 small

end
end Probabilistic
end Soco
