import Verif.Props.Units
import Verif.Props.MultiGraph2

/-!
# C107: plans for slightly wrong costs
-/

namespace Soco

namespace Spec

/-- `q` is `p` with other costs, and costs at most `ρ` times as much plus `ε` in every slot: every feasible
configuration has in `q` at most `ρ` times its hitting cost in `p`, plus `ε`, and every switching cost is at most `ρ`
times that of `p`. -/
structure AtMost {T C D : Type} [Value T] [OutSuccess C] [OutFailure D] (ρ ε : ℚ) (p q : SSCO T C D) : Prop where
  d : q.d = p.d
  tEnd : q.tEnd = p.tEnd
  bounds : q.bounds = p.bounds
  switching : List.Forall₂ (fun a b => b ≤ ρ * a) p.switchingCost q.switchingCost
  hit : ∀ t : Int, 1 ≤ t → t ≤ p.tEnd → ∀ x, InBox p.bounds x →
    ∃ c c', p.toProb.hitCost t x = .ok c ∧ q.toProb.hitCost t x = .ok c' ∧ c'.cost ≤ ECost.mulQ ρ c.cost + (ε : ECost)

end Spec

open Currency

variable {T C D : Type} [Value T] [OutSuccess C] [OutFailure D]

namespace Robust

theorem up_mono {ρ : ℚ} {a b : List ℚ} (h : List.Forall₂ (fun a b => b ≤ ρ * a) a b) :
    ∀ y x : List T, Spec.upCost b y x ≤ ρ * Spec.upCost a y x := by
  induction h with
  | nil => intro y x; simp [Spec.upCost, List.zipWith3]
  | cons h _ ih =>
    intro y x
    cases y with
    | nil => simp [Spec.upCost, List.zipWith3]
    | cons j y =>
      cases x with
      | nil => simp [Spec.upCost, List.zipWith3]
      | cons i x =>
        have := ih y x
        simp only [Spec.upCost, List.zipWith3, List.sum_cons] at this ⊢
        have h2 := mul_le_mul_of_nonneg_right h (le_max_left 0 (toQ i - toQ j))
        linarith

theorem move_mono {ρ : ℚ} {a b : List ℚ} (h : List.Forall₂ (fun a b => b ≤ ρ * a) a b) (inv : Bool) (y x : List T) :
    Spec.moveCost inv b y x ≤ ρ * Spec.moveCost inv a y x := by
  cases inv
  · exact up_mono h y x
  · exact up_mono h x y

theorem mulQ_mono {c : ℚ} (hc : 0 ≤ c) {a b : ECost} (h : a ≤ b) : ECost.mulQ c a ≤ ECost.mulQ c b := by
  induction b using WithTop.recTopCoe with
  | top => exact le_top
  | coe b =>
    induction a using WithTop.recTopCoe with
    | top => simp at h
    | coe a =>
      have := WithTop.coe_le_coe.1 h
      exact WithTop.coe_le_coe.2 (mul_le_mul_of_nonneg_left this hc)

theorem mulQ_mulQ (a b : ℚ) (c : ECost) : ECost.mulQ a (ECost.mulQ b c) = ECost.mulQ (a * b) c := by
  induction c using WithTop.recTopCoe with
  | top => rfl
  | coe c =>
    show ((a * (b * c) : ℚ) : ECost) = ((a * b * c : ℚ) : ECost)
    rw [mul_assoc]

theorem mulQ_coe' (a b : ℚ) : ECost.mulQ a (b : ECost) = ((a * b : ℚ) : ECost) := rfl

theorem totalCost_atMost {X : Type} {g g' : Int → X → ECost} {mv mv' : X → X → ℚ} {α ρ ε : ℚ} (hα : 0 ≤ α)
    (hm : ∀ x y, mv' x y ≤ ρ * mv x y) :
    ∀ (xs : List X) (t : Int) (x : X), (∀ s : Int, t ≤ s → s < t + xs.length → ∀ y ∈ xs,
        g' s y ≤ ECost.mulQ ρ (g s y) + (ε : ECost)) →
      Spec.totalCost g' mv' α t x xs ≤
        ECost.mulQ ρ (Spec.totalCost g mv α t x xs) + ((xs.length * ε : ℚ) : ECost) := by
  intro xs
  induction xs with
  | nil => intro t x _; simp [Spec.totalCost, ECost.mulQ]
  | cons y xs ih =>
    intro t x hg
    have hl : ((y :: xs).length : Int) = xs.length + 1 := by simp
    have h1 := ih (t + 1) y (fun s s1 s2 z hz => hg s (by omega) (by omega) z (List.mem_cons_of_mem _ hz))
    have h2 := hg t le_rfl (by omega) y (by simp)
    have h3 : ((α * mv' x y : ℚ) : ECost) ≤ ECost.mulQ ρ ((α * mv x y : ℚ) : ECost) := by
      rw [mulQ_coe']
      apply WithTop.coe_le_coe.2
      have := mul_le_mul_of_nonneg_left (hm x y) hα
      linarith
    rw [Spec.totalCost, Spec.totalCost]
    refine (add_le_add (add_le_add h2 h3) h1).trans (le_of_eq ?_)
    rw [mulQ_add, mulQ_add]
    have e : (((y :: xs).length * ε : ℚ) : ECost) = (ε : ECost) + ((xs.length * ε : ℚ) : ECost) := by
      rw [← WithTop.coe_add]
      congr 1
      push_cast [List.length_cons]
      ring
    rw [e]
    abel

/-- The hitting cost, nothing if it is not defined. -/
def hitOr (p : SSCO T C D) (t : Int) (x : Config T) : ECost :=
  match p.toProb.hitCost t x with
  | .ok c => c.cost
  | .error _ => 0

theorem objective_hitOr (p : SSCO T C D) (n : Nat) (hn : p.bounds.length = n) (hs : n ≤ p.switchingCost.length)
    (h : ∀ t : Int, 1 ≤ t → t ≤ p.tEnd → ∀ x, Spec.InBox p.bounds x → ∃ c, p.toProb.hitCost t x = .ok c)
    (xs : Schedule T) (hl : (xs.length : Int) = p.tEnd) (hx : ∀ x ∈ xs, Spec.InBox p.bounds x) (dflt : Config T)
    (hd : dflt.length = n) (α : ℚ) (inv : Bool) :
    ∃ out, p.toProb.objectiveWithDefault' xs dflt α inv p.tEnd =
      .ok ⟨Spec.totalCost (hitOr p) (Spec.moveCost inv p.switchingCost) α 1 dflt xs, out⟩ := by
  have hlen : ∀ x ∈ dflt :: xs, x.length = n := by
    intro x hx'
    rcases List.mem_cons.1 hx' with rfl | hx'
    · exact hd
    · rw [← (hx x hx').length_eq, hn]
  obtain ⟨out, ho⟩ := C02_objective_eq_totalCost p.toProb xs dflt α inv xs.length (hitOr p) (Spec.moveCost inv p.switchingCost)
    (fun t t1 _ t2 x hx' => by
      rw [padTo_self] at hx'
      obtain ⟨c, hc⟩ := h t t1 t2 x (hx x hx')
      exact ⟨c.output, by rw [hitOr, hc]⟩)
    (fun y hy x hx' => by
      rw [padTo_self] at hy hx'
      exact Simplified.mv_ok (SSCO.simplified p) n hs _ hlen inv y hy x (List.mem_cons_of_mem _ hx'))
  refine ⟨out, ?_⟩
  rw [← hl, ho, padTo_self]
  congr 2
  apply Uni.totalCost_congr
  · intro s s1 s2 y hy
    have : ¬ s > p.toProb.tEnd := by
      have : p.toProb.tEnd = p.tEnd := rfl
      omega
    simp [this]

end Robust

open Robust

/-- **C107** (costs). If the costs of `q` are at most `ρ` times those of `p` plus `ε` per slot, then every schedule
costs in `q` at most `ρ` times what it costs in `p`, plus `ε` times the number of slots. For every start, weight of
the switching costs and direction in which they are paid. -/
theorem C107_costs (p q : SSCO T C D) (ρ ε : ℚ) (h : Spec.AtMost ρ ε p q) (hsc : p.bounds.length ≤ p.switchingCost.length)
    (xs : Schedule T) (hl : (xs.length : Int) = p.tEnd) (hx : ∀ x ∈ xs, Spec.InBox p.bounds x) (dflt : Config T)
    (hd : dflt.length = p.bounds.length) (α : ℚ) (hα : 0 ≤ α) (inv : Bool) :
    ∃ c c', p.toProb.objectiveWithDefault' xs dflt α inv p.tEnd = .ok c ∧
      q.toProb.objectiveWithDefault' xs dflt α inv q.tEnd = .ok c' ∧
      c'.cost ≤ ECost.mulQ ρ c.cost + ((p.tEnd * ε : ℚ) : ECost) := by
  obtain ⟨o1, e1⟩ := objective_hitOr p _ rfl hsc (fun t t1 t2 x hx => by
    obtain ⟨c, c', a, _, _⟩ := h.hit t t1 t2 x hx; exact ⟨c, a⟩) xs hl hx dflt hd α inv
  obtain ⟨o2, e2⟩ := objective_hitOr q p.bounds.length (by rw [h.bounds]) (by rw [← h.switching.length_eq]; exact hsc)
    (fun t t1 t2 x hx => by
      rw [h.tEnd] at t2; rw [h.bounds] at hx
      obtain ⟨c, c', _, a, _⟩ := h.hit t t1 t2 x hx; exact ⟨c', a⟩) xs (by rw [h.tEnd, hl]) (by rw [h.bounds]; exact hx) dflt hd α inv
  refine ⟨_, _, e1, e2, ?_⟩
  have := totalCost_atMost (g := hitOr p) (g' := hitOr q) (ε := ε) hα (move_mono h.switching inv) xs 1 dflt
    (fun s s1 s2 y hy => by
      obtain ⟨c, c', a, b, hle⟩ := h.hit s s1 (by omega) y (hx y hy)
      unfold hitOr
      rw [a, b]
      exact hle)
  rw [← hl]
  exact_mod_cast this

/-- **C107** (plans). Let `p` be what is believed and `q` what is true, the true costs being at most `ρ` times the believed
ones plus `ε` per slot, and the believed ones at most `σ` times the true ones plus `δ`. A plan within a factor `a` of the
believed optimum costs in truth at most `a ρ σ` times the true optimum, plus `ρ a δ + ε` per slot. -/
theorem C107_plans (p q : SSCO T C D) (ρ ε σ δ : ℚ) (hρ : 0 ≤ ρ) (h : Spec.AtMost ρ ε p q) (h' : Spec.AtMost σ δ q p)
    (hsc : p.bounds.length ≤ p.switchingCost.length) (dflt : Config T)
    (hd : dflt.length = p.bounds.length) (α : ℚ) (hα : 0 ≤ α) (inv : Bool) (a : ℚ) (ha : 0 ≤ a)
    (xs : Schedule T) (hl : (xs.length : Int) = p.tEnd) (hx : ∀ x ∈ xs, Spec.InBox p.bounds x)
    (hplan : ∀ ys : Schedule T, (ys.length : Int) = p.tEnd → (∀ y ∈ ys, Spec.InBox p.bounds y) →
      ∀ c c', p.toProb.objectiveWithDefault' xs dflt α inv p.tEnd = .ok c →
        p.toProb.objectiveWithDefault' ys dflt α inv p.tEnd = .ok c' → c.cost ≤ ECost.mulQ a c'.cost) :
    ∃ c, q.toProb.objectiveWithDefault' xs dflt α inv q.tEnd = .ok c ∧
      ∀ ys : Schedule T, (ys.length : Int) = q.tEnd → (∀ y ∈ ys, Spec.InBox q.bounds y) →
        ∃ c', q.toProb.objectiveWithDefault' ys dflt α inv q.tEnd = .ok c' ∧
          c.cost ≤ ECost.mulQ (a * ρ * σ) c'.cost + ((q.tEnd * (ρ * a * δ + ε) : ℚ) : ECost) := by
  obtain ⟨c, c', e1, e2, hle⟩ := C107_costs p q ρ ε h hsc xs hl hx dflt hd α hα inv
  refine ⟨c', e2, fun ys y1 y2 => ?_⟩
  obtain ⟨k, k', f1, f2, hle'⟩ := C107_costs q p σ δ h' (by rw [h.bounds, ← h.switching.length_eq]; exact hsc) ys y1 y2 dflt
    (by rw [h.bounds]; exact hd) α hα inv
  refine ⟨k, f1, ?_⟩
  have h1 := hplan ys (by rw [← h.tEnd]; exact y1) (by rw [← h.bounds]; exact y2) c k' e1 f2
  have h2 := h1.trans (mulQ_mono ha hle')
  refine (hle.trans (add_le_add_left (mulQ_mono hρ h2) _)).trans (le_of_eq ?_)
  rw [mulQ_add, mulQ_add, mulQ_mulQ, mulQ_mulQ, mulQ_coe', mulQ_coe', add_assoc, ← WithTop.coe_add, h.tEnd]
  congr 2
  · ring
  · ring

/-- **C107** (one dimension). The schedule that the graph search finds for convex believed costs costs in truth at most
`ρ σ` times the true optimum, plus `ρ δ + ε` per slot; the true costs need not be convex. In particular, if no hitting
cost is wrong by more than `ε`, it costs at most `2 ε` per slot more than the true optimum. -/
theorem C107_one_dimension (p q : SSCO ℤ C D) (ρ ε σ δ : ℚ) (hρ : 0 ≤ ρ) (h : Spec.AtMost ρ ε p q) (h' : Spec.AtMost σ δ q p)
    (hv : p.verify = .ok ()) (hd : p.d = 1) (m : ℤ)
    (hb : p.bounds = [m]) (xStart : ℤ) (hx : xStart ≤ m) (o : OfflineOptions) (hl : o.l = none)
    (hα : 0 ≤ o.alpha) (g : Int → ℤ → ECost)
    (hhit : ∀ t : Int, 1 ≤ t → t ≤ p.tEnd → ∀ j, 0 ≤ j → j ≤ m →
      ∃ out, p.toProb.hitCost t [j] = .ok ⟨g t j, out⟩)
    (hfin : ∀ t : Int, 1 ≤ t → t ≤ p.tEnd → g t m ≠ ⊤)
    (hnn : ∀ t : Int, 1 ≤ t → t ≤ p.tEnd → ∀ j, 0 ≤ j → j ≤ m → 0 ≤ g t j)
    (hconv : ∀ t : Int, 1 ≤ t → t ≤ p.tEnd → Spec.ConvexOnE m (g t)) :
    ∃ P c, Uni.optimalGraphSearch p xStart o = .ok P ∧
      q.toProb.objectiveWithDefault' P.xs [xStart] o.alpha o.inverted q.tEnd = .ok c ∧
      ∀ ys : Schedule ℤ, (ys.length : Int) = q.tEnd → (∀ y ∈ ys, Spec.InBox q.bounds y) →
        ∃ c', q.toProb.objectiveWithDefault' ys [xStart] o.alpha o.inverted q.tEnd = .ok c' ∧
          c.cost ≤ ECost.mulQ (ρ * σ) c'.cost + ((q.tEnd * (ρ * δ + ε) : ℚ) : ECost) := by
  obtain ⟨P, h1, h2, h3, ⟨out, h4⟩, h5⟩ := C17_optimal p hv hd m hb xStart hx o hl hα g hhit hfin hnn hconv
  obtain ⟨m', β, _, hs, _⟩ := Uni.valid_one hv hd
  obtain ⟨c, e1, e2⟩ := C107_plans p q ρ ε σ δ hρ h h' (by rw [hb, hs]; rfl) [xStart] (by rw [hb]; rfl) o.alpha hα o.inverted 1
    zero_le_one P.xs h2 h3 (fun ys y1 y2 c c' hc hc' => by
      obtain ⟨k, k1, k2⟩ := h5 ys y1 y2
      rw [h4] at hc
      rw [k1] at hc'
      obtain rfl := Except.ok.inj hc
      obtain rfl := Except.ok.inj hc'
      refine k2.trans (le_of_eq ?_)
      induction k.cost using WithTop.recTopCoe with
      | top => rfl
      | coe r => rw [mulQ_coe', one_mul])
  refine ⟨P, c, h1, e1, fun ys y1 y2 => ?_⟩
  obtain ⟨c', f1, f2⟩ := e2 ys y1 y2
  exact ⟨c', f1, by simpa using f2⟩

/-- **C107** (several dimensions). The same for the optimal search in several dimensions, with arbitrary believed costs. -/
theorem C107_several_dimensions (p q : SSCO ℤ C D) (ρ ε σ δ : ℚ) (hρ : 0 ≤ ρ) (h : Spec.AtMost ρ ε p q) (h' : Spec.AtMost σ δ q p)
    (hv : p.verify = .ok ()) (hT : 1 ≤ p.tEnd)
    (o : OfflineOptions) (hl : o.l = none) (hα : 0 ≤ o.alpha)
    (hfin : ∀ t : Int, 1 ≤ t → t ≤ p.tEnd → ∀ c, p.toProb.hitCost t p.bounds = .ok c → c.cost ≠ ⊤) :
    ∃ r c, Multi.optimalGraphSearch p none o = .ok r ∧
      q.toProb.alphaUnfairObjective r.path.xs o.alpha = .ok c ∧
      ∀ ys : Schedule ℤ, (ys.length : Int) = q.tEnd → (∀ y ∈ ys, Spec.InBox q.bounds y) →
        ∃ c', q.toProb.alphaUnfairObjective ys o.alpha = .ok c' ∧
          c.cost ≤ ECost.mulQ (ρ * σ) c'.cost + ((q.tEnd * (ρ * δ + ε) : ℚ) : ECost) := by
  have hv' : Spec.ValidSSCO p := by
    by_contra hc
    have := (C10_ssco_verify_exact p).2 hc
    rw [hv] at this; simp at this
  obtain ⟨v1, v2, v3, v4, v5, v6⟩ := hv'
  have hbox : Spec.InBox p.bounds p.bounds := List.forall₂_same.2 fun b hb => ⟨(v5 b hb).le, le_rfl⟩
  obtain ⟨r, h1, h2, h3, h6, ⟨out, h4⟩, h5⟩ := C19_graph_search_optimal p hv hT o hl hα (hitOr p)
    (fun t t1 t2 x hx => by
      obtain ⟨c, _, a, _⟩ := h.hit t t1 t2 x hx
      exact ⟨c.output, by rw [hitOr, a]⟩)
    (fun t t1 t2 => by
      obtain ⟨c, _, a, _⟩ := h.hit t t1 t2 _ hbox
      have := hfin t t1 t2 c a
      rwa [hitOr, a])
  have e0 : q.toProb.defaultConfig = p.toProb.defaultConfig := by
    show Config.repeat _ q.d.toNat = Config.repeat _ p.d.toNat
    rw [h.d]
  obtain ⟨c, e1, e2⟩ := C107_plans p q ρ ε σ δ hρ h h' (by omega) p.toProb.defaultConfig (by
      simp [Prob.defaultConfig, Config.repeat, SSCO.toProb]; omega) o.alpha hα false 1
    zero_le_one r.path.xs h2 h3 (fun ys y1 y2 c c' hc hc' => by
      obtain ⟨k, k1, k2⟩ := h5 ys y1 y2
      have h4' : p.toProb.objectiveWithDefault' r.path.xs p.toProb.defaultConfig o.alpha false p.tEnd = _ := h4
      have k1' : p.toProb.objectiveWithDefault' ys p.toProb.defaultConfig o.alpha false p.tEnd = _ := k1
      rw [h4'] at hc
      rw [k1'] at hc'
      obtain rfl := Except.ok.inj hc
      obtain rfl := Except.ok.inj hc'
      refine k2.trans (le_of_eq ?_)
      induction k.cost using WithTop.recTopCoe with
      | top => rfl
      | coe r => rw [mulQ_coe', one_mul])
  refine ⟨r, c, h1, ?_, fun ys y1 y2 => ?_⟩
  · unfold Prob.alphaUnfairObjective
    rw [e0]; exact e1
  obtain ⟨c', f1, f2⟩ := e2 ys y1 y2
  refine ⟨c', ?_, by simpa using f2⟩
  unfold Prob.alphaUnfairObjective
  rw [e0]; exact f1

open Lcp in
/-- **C107** (lazy capacity provisioning). Played on believed convex costs that are revealed slot by slot, the schedule of lazy
capacity provisioning costs in truth at most `3 ρ σ` times the true optimum, plus `3 ρ δ + ε` per slot. -/
theorem C107_lazy {m : ℤ} {β : ℚ} {g : Int → ℤ → ECost} (ps : List (SSCO ℤ C D))
    (K : Spec.Costs m β g ps.length) (I : ∀ k (h : k < ps.length), Spec.Inst ps[k] m β g (k + 1))
    (p q : SSCO ℤ C D) (hp : ps.getLast? = some p) (ρ ε σ δ : ℚ) (hρ : 0 ≤ ρ) (h : Spec.AtMost ρ ε p q)
    (h' : Spec.AtMost σ δ q p) :
    ∃ xs mem c, Spec.play SSCO.tEnd (lcpAlg boundedInt) [] none (ps.map fun p => ⟨p, 0⟩) = .ok (xs, mem) ∧
      q.toProb.objective xs = .ok c ∧
      ∀ ys : Schedule ℤ, ys.length = ps.length → (∀ y ∈ ys, Spec.InBox [m] y) →
        ∃ c', q.toProb.objective ys = .ok c' ∧
          c.cost ≤ ECost.mulQ (3 * ρ * σ) c'.cost + ((ps.length * (3 * ρ * δ + ε) : ℚ) : ECost) := by
  obtain ⟨xs, mem, h1, h2, h3, h4⟩ := C29_three_competitive ps K I
  obtain ⟨c, c1, c2, c3⟩ := h4 p hp
  have hne : ps ≠ [] := by rintro rfl; simp at hp
  have hpos : 0 < ps.length := List.length_pos_iff.2 hne
  have Ip : Spec.Inst p m β g ps.length := by
    have := I (ps.length - 1) (by omega)
    rw [Nat.sub_add_cancel hpos] at this
    rw [List.getLast?_eq_getElem?, List.getElem?_eq_getElem (by omega)] at hp
    rw [← Option.some.inj hp]
    exact this
  have e0 : q.toProb.defaultConfig = p.toProb.defaultConfig := by
    show Config.repeat _ q.d.toNat = Config.repeat _ p.d.toNat
    rw [h.d]
  obtain ⟨k, e1, e2⟩ := C107_plans p q ρ ε σ δ hρ h h' (by rw [Ip.bounds, Ip.switching]; rfl) p.toProb.defaultConfig (by
      simp [Prob.defaultConfig, Config.repeat, SSCO.toProb, Ip.d, Ip.bounds]) 1 zero_le_one false 3
    (by norm_num) xs (by rw [Ip.tEnd, h2]) (by rw [Ip.bounds]; exact h3) (fun ys y1 y2 a b ha hb => by
      rw [Ip.bounds] at y2
      obtain ⟨k, k1, k2⟩ := c3 ys (by rw [Ip.tEnd] at y1; exact_mod_cast y1) y2
      have c1' : p.toProb.objectiveWithDefault' xs p.toProb.defaultConfig 1 false p.tEnd = _ := c1
      have k1' : p.toProb.objectiveWithDefault' ys p.toProb.defaultConfig 1 false p.tEnd = _ := k1
      rw [c1'] at ha
      rw [k1'] at hb
      obtain rfl := Except.ok.inj ha
      obtain rfl := Except.ok.inj hb
      refine k2.trans (le_of_eq ?_)
      induction k.cost using WithTop.recTopCoe with
      | top => rfl
      | coe r =>
        rw [mulQ_coe', ← WithTop.coe_add, ← WithTop.coe_add]
        congr 1; ring)
  refine ⟨xs, mem, k, h1, ?_, fun ys y1 y2 => ?_⟩
  · unfold Prob.objective
    rw [e0]; exact e1
  obtain ⟨c', f1, f2⟩ := e2 ys (by rw [h.tEnd, Ip.tEnd, y1]) (by rw [h.bounds, Ip.bounds]; exact y2)
  refine ⟨c', ?_, ?_⟩
  · unfold Prob.objective
    rw [e0]; exact f1
  · rw [h.tEnd, Ip.tEnd] at f2
    have e : ρ * 3 * δ = 3 * ρ * δ := by ring
    rw [e] at f2
    exact_mod_cast f2


/-! ## The claims are not empty -/

/-- What `Ex.sscoAt n` costs in truth: half a unit more for odd configurations (not convex), and a cheaper start. -/
def Ex.odd (n : Nat) : SSCO ℤ Unit Unit where
  d := 1
  tEnd := n
  bounds := [5]
  switchingCost := [19/10]
  hittingCost := CostFn.new 1 (SingleCostFn.certain fun t x =>
    .ok (Cost.raw (((((|x.getD 0 0 - t| : ℤ) : ℚ) + (if x.getD 0 0 % 2 = 1 then 1/2 else 0) : ℚ)) : ECost)))

theorem Ex.odd_hit (n : Nat) (t : Int) (ht : 1 ≤ t) (j : ℤ) (h0 : 0 ≤ j) (hj : j ≤ 5) :
    ∃ out, (Ex.odd n).toProb.hitCost t [j]
      = .ok ⟨((((|j - t| : ℤ) : ℚ) + (if j % 2 = 1 then 1/2 else 0) : ℚ) : ECost), out⟩ := by
  rw [Uni.hit_within (p := Ex.odd n) rfl h0 hj, Ex.odd, CostFn.callMean_certain _ _ ht]
  exact ⟨_, rfl⟩

theorem Ex.odd_above (n : Nat) : Spec.AtMost 1 (1/2) (Ex.sscoAt n) (Ex.odd n) where
  d := rfl
  tEnd := rfl
  bounds := rfl
  switching := .cons (by norm_num) .nil
  hit t t1 _ x hx := by
    have hx' : List.Forall₂ (fun (b j : ℤ) => 0 ≤ j ∧ j ≤ b) [5] x := hx
    cases hx' with
    | @cons _ j _ _ h h2 =>
      cases h2
      obtain ⟨o1, e1⟩ := Ex.ssco1_hit t t1 j h.1 h.2
      obtain ⟨o2, e2⟩ := Ex.odd_hit n t t1 j h.1 h.2
      refine ⟨_, _, e1, e2, WithTop.coe_le_coe.2 ?_⟩
      show _ ≤ 1 * _ + (1/2 : ℚ)
      split_ifs <;> linarith

theorem Ex.odd_below (n : Nat) : Spec.AtMost (20/19) 0 (Ex.odd n) (Ex.sscoAt n) where
  d := rfl
  tEnd := rfl
  bounds := rfl
  switching := .cons (by norm_num) .nil
  hit t t1 _ x hx := by
    have hx' : List.Forall₂ (fun (b j : ℤ) => 0 ≤ j ∧ j ≤ b) [5] x := hx
    cases hx' with
    | @cons _ j _ _ h h2 =>
      cases h2
      obtain ⟨o1, e1⟩ := Ex.ssco1_hit t t1 j h.1 h.2
      obtain ⟨o2, e2⟩ := Ex.odd_hit n t t1 j h.1 h.2
      refine ⟨_, _, e2, e1, WithTop.coe_le_coe.2 ?_⟩
      show _ ≤ (20/19 : ℚ) * _ + 0
      have : (0 : ℚ) ≤ ((|j - t| : ℤ) : ℚ) := by exact_mod_cast abs_nonneg _
      split_ifs <;> linarith

example (inverted : Bool) := C107_one_dimension (Ex.sscoAt 4) (Ex.odd 4) 1 (1/2) (20/19) 0 (by norm_num) (Ex.odd_above 4)
  (Ex.odd_below 4) (by decide +kernel) rfl 5 rfl 2 (by omega) ⟨inverted, 3, none⟩ rfl (by norm_num)
  (fun t j => (((|j - t| : ℤ) : ℚ) : ECost)) (fun t h1 _ j h0 hj => Ex.ssco1_hit t h1 j h0 hj) (fun _ _ _ => WithTop.coe_ne_top)
  (fun t h1 h2 => (Ex.abs_costs 4).nonneg t h1 h2) (fun t h1 h2 => (Ex.abs_costs 4).conv t h1 h2)

example (n : Nat) := C107_lazy ((List.range (n + 1)).map fun k => Ex.sscoAt (k + 1))
  (Ex.abs_costs _) (fun k hk => by
    simp only [List.getElem_map, List.getElem_range]
    exact Ex.sscoAt_inst (k + 1)) (Ex.sscoAt (n + 1)) (Ex.odd (n + 1)) (by simp [List.range_succ]) 1 (1/2) (20/19) 0 (by norm_num)
  (Ex.odd_above _) (Ex.odd_below _)

/-- In two dimensions: all true costs are ten percent higher than believed. -/
theorem Ex.dear_above : Spec.AtMost (11/10) 0 Ex.ssco2 (Ex.ssco2In (11/10)) where
  d := rfl
  tEnd := rfl
  bounds := rfl
  switching := .cons (by norm_num) (.cons (by norm_num) .nil)
  hit t t1 t2 x hx := by
    obtain ⟨o, e⟩ := Ex.ssco2_hit t t1 x hx.length_eq.symm
    have := (Ex.ssco2In_currency (11/10)).hit t t1 t2 x hx
    rw [e] at this
    cases h : (Ex.ssco2In (11/10)).toProb.hitCost t x with
    | error f => rw [h] at this; simp [Except.map] at this
    | ok c' =>
      rw [h] at this
      refine ⟨_, c', e, rfl, ?_⟩
      have := Except.ok.inj this
      dsimp only at this
      rw [this, WithTop.coe_zero, add_zero]

theorem Ex.dear_below : Spec.AtMost (10/11) 0 (Ex.ssco2In (11/10)) Ex.ssco2 where
  d := rfl
  tEnd := rfl
  bounds := rfl
  switching := .cons (by norm_num) (.cons (by norm_num) .nil)
  hit t t1 t2 x hx := by
    obtain ⟨c, c', e, e', _⟩ := Ex.dear_above.hit t t1 t2 x hx
    have := (Ex.ssco2In_currency (11/10)).hit t t1 t2 x hx
    rw [e, e'] at this
    have := Except.ok.inj this
    dsimp only at this
    refine ⟨c', c, e', e, ?_⟩
    rw [this, mulQ_mulQ, WithTop.coe_zero, add_zero]
    induction c.cost using WithTop.recTopCoe with
    | top => exact le_top
    | coe r => rw [mulQ_coe']; norm_num

example (o : OfflineOptions) (hl : o.l = none) (hα : 0 ≤ o.alpha) := C107_several_dimensions Ex.ssco2 (Ex.ssco2In (11/10)) (11/10) 0
  (10/11) 0 (by norm_num) Ex.dear_above Ex.dear_below (by decide +kernel) (by decide) o hl hα (fun t t1 t2 c hc => by
    obtain ⟨o, e⟩ := Ex.ssco2_hitBox t t1 Ex.ssco2.bounds (List.Forall₂.cons (by decide) (.cons (by decide) .nil))
    rw [e] at hc
    obtain rfl := Except.ok.inj hc
    exact Ex.ssco2_top t t1 t2)

end Soco
