import Verif.Props.Rbg2
import Verif.Props.HorizonRatio
import Verif.Lemmas.BiasedGreedy

/-! # C77: what randomly biased greedy costs in expectation -/

namespace Soco
namespace Spec

/-- The `k`-th of `N` equally spaced numbers between `-1` and `1`. -/
def spread (N k : ℕ) : ℚ := (2 * k + 1) / N - 1

/-- Convexity between points of `[0, u]`. -/
def ConvexUpTo (u : ℚ) (f : ℚ → ℚ) : Prop :=
  ∀ x y : ℚ, 0 ≤ x → x ≤ u → 0 ≤ y → y ≤ u → f ((x + y) / 2) ≤ (f x + f y) / 2

/-- The mean of a function of `n` independent choices out of `0, …, N - 1`. -/
def meanOver (N : ℕ) : ℕ → (List ℕ → ℚ) → ℚ
  | 0, F => F []
  | n + 1, F => (∑ k ∈ Finset.range N, meanOver N n fun ks => F (k :: ks)) / N

end Spec

namespace Rbg
open Spec Num Descent Finset

/-- The work function on the grid. -/
def gridWork (m : ℕ) (b : ℚ) (f : ℕ → ℕ → ℚ) : ℕ → ℕ → ℚ
  | 0, i => b * i
  | t + 1, i => (range (m + 1)).inf' ⟨0, by simp⟩ fun y => gridWork m b f t y + f (t + 1) y + b * |(i : ℚ) - y|

theorem gridWork_fn (m : ℕ) (b : ℚ) (f : ℕ → ℕ → ℚ) : Biased.WorkFn m b f (gridWork m b f) where
  zero := fun _ _ => rfl
  least := by
    intro t i y _ hy
    exact inf'_le (fun y => gridWork m b f t y + f (t + 1) y + b * |(i : ℚ) - y|) (mem_range.2 (by omega))
  attained := by
    intro t i _
    obtain ⟨y, hy, e⟩ := exists_mem_eq_inf' (s := range (m + 1)) ⟨0, by simp⟩
      fun y : ℕ => gridWork m b f t y + f (t + 1) y + b * |(i : ℚ) - y|
    exact ⟨y, by have := mem_range.1 hy; omega, e⟩

theorem grid_iff (m : ℕ) (y : Config ℚ) : GridPoint [(0, (m : ℚ) / 100)] y ↔ ∃ i : ℕ, i ≤ m ∧ y = [(i : ℚ) / 100] := by
  constructor
  · rintro ⟨h1, h2⟩
    unfold InBoxQ at h1
    cases h1 with
    | cons a b =>
      cases b
      rename_i x
      obtain ⟨z, hz⟩ := h2 x (by simp)
      simp only at a
      have hz0 : 0 ≤ z := by
        have : (0 : ℚ) ≤ z := by linarith [a.1]
        exact_mod_cast this
      obtain ⟨i, rfl⟩ := Int.eq_ofNat_of_zero_le hz0
      refine ⟨i, ?_, by rw [hz]; push_cast; ring_nf⟩
      have : (i : ℚ) ≤ m := by
        have := a.2
        push_cast at hz
        linarith
      exact_mod_cast this
  · rintro ⟨i, hi, rfl⟩
    have hq : (i : ℚ) ≤ m := by exact_mod_cast hi
    refine ⟨.cons ⟨by positivity, by simp only; linarith⟩ .nil, ?_⟩
    intro j hj
    rw [List.mem_singleton] at hj
    subst hj
    exact ⟨i, by push_cast; ring⟩

section
variable (u β θ : ℚ) (f : Int → ℚ → ℚ)

/-- Hitting costs of the configurations with one entry. -/
def hitOne (t : Int) (x : Config ℚ) : ECost := ((f t (x.headD 0) : ℚ) : ECost)

/-- Weighted absolute value. -/
def mvOne (x : Config ℚ) : ℚ := β * |x.headD 0|

theorem gridWork_isWork (m : ℕ) : ∀ (t i : ℕ), i ≤ m →
    IsWork [(0, (m : ℚ) / 100)] (hitOne f) (mvOne β) θ t [(i : ℚ) / 100]
      ((gridWork m (θ * β / 100) (fun t i => f t ((i : ℚ) / 100)) t i : ℚ) : ECost) := by
  have hmv : ∀ i y : ℕ, θ * mvOne β (List.zipWith (· - ·) [(i : ℚ) / 100] [(y : ℚ) / 100]) = θ * β / 100 * |(i : ℚ) - y| := by
    intro i y
    simp only [mvOne, List.zipWith_cons_cons, List.headD_cons]
    rw [← sub_div, abs_div, abs_of_pos (show (0 : ℚ) < 100 by norm_num)]
    ring
  intro t
  induction t with
  | zero =>
    intro i _
    have e : prefixCost (hitOne f) (mvOne β) θ 1 (List.replicate [((0 : ℚ), (m : ℚ) / 100)].length 0) [] [(i : ℚ) / 100] =
        ((gridWork m (θ * β / 100) (fun t i => f t ((i : ℚ) / 100)) 0 i : ℚ) : ECost) := by
      have h0 : List.replicate [((0 : ℚ), (m : ℚ) / 100)].length (0 : ℚ) = [((0 : ℕ) : ℚ) / 100] := by simp
      rw [h0]
      simp only [prefixCost, hmv, gridWork]
      rw [WithTop.coe_eq_coe, Nat.cast_zero, sub_zero, abs_of_nonneg (Nat.cast_nonneg i)]
    refine ⟨⟨[], rfl, by simp, e⟩, ?_⟩
    intro ys hl _
    rw [List.length_eq_zero_iff] at hl
    subst hl
    exact e.ge
  | succ t ih =>
    intro i hi
    have hW := gridWork_fn m (θ * β / 100) (fun t i => f t ((i : ℚ) / 100))
    constructor
    · obtain ⟨y, hy, e⟩ := hW.attained t i hi
      obtain ⟨ys, h1, h2, h3⟩ := (ih y hy).attained
      refine ⟨ys ++ [[(y : ℚ) / 100]], by simp [h1], ?_, ?_⟩
      · intro z hz
        rcases List.mem_append.1 hz with hz | hz
        · exact h2 z hz
        · rw [List.mem_singleton] at hz
          subst hz
          exact (grid_iff m _).2 ⟨y, hy, rfl⟩
      · rw [prefixCost_concat, h3, e, hmv, h1]
        simp only [hitOne, List.headD_cons, ← WithTop.coe_add]
        rw [WithTop.coe_eq_coe]
        push_cast
        rw [add_comm (1 : Int) t]
    · intro ys hl hg
      obtain ⟨zs, z, rfl⟩ : ∃ zs z, ys = zs ++ [z] := by
        rcases List.eq_nil_or_concat ys with h | ⟨a, b, h⟩
        · subst h; simp at hl
        · exact ⟨a, b, by simpa using h⟩
      have hl' : zs.length = t := by simpa using hl
      obtain ⟨y, hy, rfl⟩ := (grid_iff m z).1 (hg z (by simp))
      have h1 := (ih y hy).least zs hl' fun w hw => hg w (by simp [hw])
      have h2 := hW.least t i y hi hy
      rw [prefixCost_concat, hmv, hl']
      refine le_trans (WithTop.coe_le_coe.2 h2) ?_
      rw [WithTop.coe_add, WithTop.coe_add]
      gcongr
      simp only [hitOne, List.headD_cons]
      rw [WithTop.coe_le_coe]
      push_cast
      rw [add_comm (1 : Int) t]

/-- The point with number `i` of a schedule, zero before the first slot. -/
def stepOf (xs : List ℕ) : ℕ → ℕ
  | 0 => 0
  | t + 1 => xs.getD t 0

theorem totalCost_grid (m : ℕ) (xs : List ℕ) : ∀ (t : ℕ) (p : ℕ),
    totalCost (hitOne f) (fun a b => mvOne β (List.zipWith (· - ·) b a)) θ ((t + 1 : ℕ) : Int) [(p : ℚ) / 100]
      (xs.map fun i : ℕ => [(i : ℚ) / 100]) =
    ((∑ s ∈ range xs.length, (f ((t + s + 1 : ℕ) : Int) (((p :: xs).getD (s + 1) 0 : ℕ) / 100 : ℚ) +
      θ * β / 100 * |(((p :: xs).getD (s + 1) 0 : ℕ) : ℚ) - ((p :: xs).getD s 0 : ℕ)|) : ℚ) : ECost) := by
  induction xs with
  | nil => intro t p; simp [totalCost]
  | cons x xs ih =>
    intro t p
    have h1 := ih (t + 1) x
    simp only [List.map_cons, totalCost]
    rw [show (((t + 1 : ℕ) : Int) + 1) = ((t + 1 + 1 : ℕ) : Int) by push_cast; ring, h1, List.length_cons, sum_range_succ']
    simp only [hitOne, mvOne, List.headD_cons, List.zipWith_cons_cons, ← WithTop.coe_add, List.getD_cons_succ, List.getD_cons_zero]
    rw [WithTop.coe_eq_coe]
    have e1 : θ * (β * |(x : ℚ) / 100 - (p : ℚ) / 100|) = θ * β / 100 * |(x : ℚ) - p| := by
      rw [← sub_div, abs_div, abs_of_pos (show (0 : ℚ) < 100 by norm_num)]
      ring
    rw [e1, add_comm]
    congr 1
    apply sum_congr rfl
    intro s _
    rw [show t + 1 + s + 1 = t + (s + 1) + 1 by ring]

/-- The work function is at most the cost of each schedule. -/
theorem work_le (m : ℕ) (hb : 0 ≤ θ * β / 100) (zs : List ℕ) (hz : ∀ i ∈ zs, i ≤ m) (W : ℕ → ℕ → ℚ)
    (hW : Biased.WorkFn m (θ * β / 100) (fun t i => f t ((i : ℚ) / 100)) W) :
    ∀ T, T ≤ zs.length → W T ((0 :: zs).getD T 0) ≤ ∑ s ∈ range T, (f ((s + 1 : ℕ) : Int) (((0 :: zs).getD (s + 1) 0 : ℕ) / 100 : ℚ) +
      θ * β / 100 * |(((0 :: zs).getD (s + 1) 0 : ℕ) : ℚ) - ((0 :: zs).getD s 0 : ℕ)|) := by
  have hle : ∀ s, (0 :: zs).getD s 0 ≤ m := by
    intro s
    rw [List.getD_eq_getElem?_getD]
    cases h : (0 :: zs)[s]? with
    | none => simp
    | some v =>
      have := List.mem_of_getElem? h
      rcases List.mem_cons.1 this with h | h
      · subst h; simp
      · exact hz v h
  intro T
  induction T with
  | zero =>
    intro _
    rw [hW.zero _ (hle 0)]
    simp
  | succ T ih =>
    intro hT
    have h1 := ih (by omega)
    have h2 := hW.least T ((0 :: zs).getD (T + 1) 0) ((0 :: zs).getD (T + 1) 0) (hle _) (hle _)
    have h3 := hW.lip hb T ((0 :: zs).getD (T + 1) 0) ((0 :: zs).getD T 0) (hle _) (hle _)
    rw [sub_self, abs_zero, mul_zero, add_zero] at h2
    rw [sum_range_succ]
    linarith

end

section
variable {C D : Type} [OutSuccess C] [OutFailure D]

theorem grid_schedule (m : ℕ) : ∀ ys : Schedule ℚ, (∀ y ∈ ys, GridPoint [(0, (m : ℚ) / 100)] y) →
    ∃ xs : List ℕ, (∀ i ∈ xs, i ≤ m) ∧ ys = xs.map fun i : ℕ => [(i : ℚ) / 100] := by
  intro ys
  induction ys with
  | nil => intro _; exact ⟨[], by simp, rfl⟩
  | cons y ys ih =>
    intro h
    obtain ⟨i, hi, rfl⟩ := (grid_iff m y).1 (h y (by simp))
    obtain ⟨xs, h1, rfl⟩ := ih fun z hz => h z (by simp [hz])
    exact ⟨i :: xs, by simpa using ⟨hi, h1⟩, rfl⟩

/-- **C77** (partial). If one bias is drawn from `N` equally spaced values between `-1` and `1` and used in all slots, then
the mean of what randomly biased greedy pays is at most twice what any schedule on the grid pays, up to a term that vanishes for
large `N`. Movement is weighted by `θ`, which is `1` by default. Missing: the bias is drawn anew in every slot, see
`C77_redrawn_counterexample`; the draws are reals between `-1` and `1`; and an exact optimiser is assumed. -/
theorem C77_same_draw_partial (P : Player) (S0 : Solver) (hS : Inner (solverOf P S0)) (hE : Exact (solverOf P S0))
    (evict : Cache → Cache) (hev : ∀ c t x v, evict c t x = some v → c t x = some v) (θ : ℚ) (hθ : 0 < θ) (world : Cache)
    (u : ℚ) (hu : 0 ≤ u) (hug : OnGrid u) (f : Int → ℚ → ℚ) (hf0 : ∀ t x, 0 ≤ x → x ≤ u → 0 ≤ f t x)
    (hf : ∀ t, ConvexUpTo u (f t)) (β : ℚ) (hβ : 0 < β) (os : List (Online (SCO ℚ C D)))
    (h : ∀ (i : Nat) o, os[i]? = some o → o.w = 0 ∧ o.p.d = 1 ∧ o.p.bounds = [(0, u)] ∧ o.p.tEnd = ((i + 1 : Nat) : Int) ∧
      ∀ t : Nat, 1 ≤ t → t ≤ i + 1 → Slot o.p t (fun x => ((f t (x.headD 0) : ℚ) : ECost)) (fun x => β * |x.headD 0|))
    (N : ℕ) (hN : 0 < N) (ys : ℕ → Schedule ℚ) (k' : ℕ → Option ℚ)
    (hr : ∀ k, k < N → Run (fun p : SCO ℚ C D => p.tEnd) (rbg P evict θ (fun _ => spread N k) world) [] none os (ys k) (k' k))
    (zs : Schedule ℚ) (hzl : zs.length = os.length) (hzs : ∀ z ∈ zs, GridPoint [(0, u)] z) :
    ∃ (a : ℕ → ℚ) (c : ℚ),
      (∀ k, k < N → totalCost (fun t x => ((f t (x.headD 0) : ℚ) : ECost)) (fun x y => β * |(List.zipWith (· - ·) y x).headD 0|) θ 1 [0]
        (ys k) = (a k : ECost)) ∧
      totalCost (fun t x => ((f t (x.headD 0) : ℚ) : ECost)) (fun x y => β * |(List.zipWith (· - ·) y x).headD 0|) θ 1 [0] zs = (c : ECost) ∧
      (∑ k ∈ range N, a k) / N ≤ 2 * c + os.length * (θ * β * u) / N := by
  obtain ⟨z, hz⟩ := hug
  obtain ⟨m, rfl⟩ := Int.eq_ofNat_of_zero_le (show 0 ≤ z by
    have : (0 : ℚ) ≤ z := by linarith
    exact_mod_cast this)
  have hum : u = (m : ℚ) / 100 := by rw [hz]; push_cast; ring
  subst hum
  have hb : 0 < θ * β / 100 := by positivity
  set F : ℕ → ℕ → ℚ := fun t i => f t ((i : ℚ) / 100) with hF
  set W := gridWork m (θ * β / 100) F with hWdef
  have hW : Biased.WorkFn m (θ * β / 100) F W := gridWork_fn m _ F
  have hin : ∀ i : ℕ, i ≤ m → (0 : ℚ) ≤ (i : ℚ) / 100 ∧ (i : ℚ) / 100 ≤ (m : ℚ) / 100 := by
    intro i hi
    have : (i : ℚ) ≤ m := by exact_mod_cast hi
    exact ⟨by positivity, by linarith⟩
  have hFc : ∀ t, 1 ≤ t → Biased.Conv m (F t) := by
    intro t _ i hi
    have a1 := hin i (by omega)
    have a2 := hin (i + 2) (by omega)
    have := hf t _ _ a1.1 a1.2 a2.1 a2.2
    have e : ((i : ℚ) / 100 + ((i + 2 : ℕ) : ℚ) / 100) / 2 = ((i + 1 : ℕ) : ℚ) / 100 := by push_cast; ring
    rw [e] at this
    simp only [hF]
    linarith
  have hF0 : ∀ t i, i ≤ m → 0 ≤ F t i := fun t i hi => hf0 t _ (hin i hi).1 (hin i hi).2
  -- the runs
  have hruns : ∀ k, k < N → ∃ xs : List ℕ, xs.length = os.length ∧ (∀ i ∈ xs, i ≤ m) ∧ (ys k = xs.map fun i : ℕ => [(i : ℚ) / 100]) ∧
      ∀ t, t < os.length → Biased.IsGreedy m (θ * β / 100) W (Biased.bias N k) (t + 1) ((0 :: xs).getD (t + 1) 0) := by
    intro k hk
    obtain ⟨ys', r1, r2, r3⟩ := C59_same_draw_partial P S0 hS hE evict hev θ (spread N k) world [(0, (m : ℚ) / 100)]
      (hitOne f) (mvOne β) os h
    obtain ⟨rfl, -⟩ := Horizon.run_unique (hr k hk) r1
    obtain ⟨xs, x1, x2⟩ := grid_schedule m (ys k) (by
      intro y hy
      obtain ⟨i, hi⟩ := List.mem_iff_getElem?.1 hy
      exact (r3 i y hi).1)
    have hxl : xs.length = os.length := by rw [← r2, x2, List.length_map]
    refine ⟨xs, hxl, x1, x2, ?_⟩
    intro t ht
    have hget : ∃ v, xs[t]? = some v := ⟨xs[t], List.getElem?_eq_getElem (by omega)⟩
    obtain ⟨v, hv⟩ := hget
    have hvm : v ≤ m := x1 v (List.mem_of_getElem? hv)
    obtain ⟨-, c, hc, hmin⟩ := r3 t [(v : ℚ) / 100] (by rw [x2, List.getElem?_map, hv]; rfl)
    rw [List.getD_cons_succ, List.getD_eq_getElem?_getD, hv, Option.getD_some]
    refine ⟨hvm, ?_⟩
    intro i hi
    have h1 := hmin [(i : ℚ) / 100] _ ((grid_iff m _).2 ⟨i, hi, rfl⟩) (gridWork_isWork β θ f m (t + 1) i hi)
    rw [hc.unique (gridWork_isWork β θ f m (t + 1) v hvm)] at h1
    simp only [← WithTop.coe_add, WithTop.coe_le_coe, mvOne, List.headD_cons] at h1
    rw [abs_of_nonneg (hin v hvm).1, abs_of_nonneg (hin i hi).1] at h1
    have hsp : spread N k = Biased.bias N k := rfl
    rw [hsp] at h1
    have e : ∀ w : ℚ, Biased.bias N k * θ * (β * (w / 100)) = Biased.bias N k * (θ * β / 100) * w := fun w => by ring
    rw [e, e] at h1
    exact h1
  choose! xs x1 x2 x3 x4 using hruns
  obtain ⟨zz, z1, rfl⟩ := grid_schedule m zs hzs
  have hzl' : zz.length = os.length := by simpa using hzl
  have h0 : ([0] : Config ℚ) = [((0 : ℕ) : ℚ) / 100] := by simp
  have htwo := hW.two hb hFc hF0 N hN os.length (fun k t => (0 :: xs k).getD t 0) (fun _ _ => rfl) x4
    ((0 :: zz).getD os.length 0) (by
      rw [List.getD_eq_getElem?_getD]
      cases hq : (0 :: zz)[os.length]? with
      | none => simp
      | some v =>
        rcases List.mem_cons.1 (List.mem_of_getElem? hq) with hv | hv
        · subst hv; simp
        · exact z1 v hv)
  have hopt := work_le β θ f m hb.le zz z1 W hW os.length (by omega)
  refine ⟨fun k => ∑ s ∈ range os.length, (F (s + 1) ((0 :: xs k).getD (s + 1) 0) +
    θ * β / 100 * |(((0 :: xs k).getD (s + 1) 0 : ℕ) : ℚ) - ((0 :: xs k).getD s 0 : ℕ)|),
    ∑ s ∈ range os.length, (F (s + 1) ((0 :: zz).getD (s + 1) 0) +
    θ * β / 100 * |(((0 :: zz).getD (s + 1) 0 : ℕ) : ℚ) - ((0 :: zz).getD s 0 : ℕ)|), ?_, ?_, ?_⟩
  · intro k hk
    have := totalCost_grid β θ f m (xs k) 0 0
    rw [x1 k hk, ← x3 k hk, ← h0] at this
    simp only [Nat.zero_add] at this
    exact this
  · have := totalCost_grid β θ f m zz 0 0
    rw [hzl', ← h0] at this
    simp only [Nat.zero_add] at this
    exact this
  · have hNq : (0 : ℚ) < N := by exact_mod_cast hN
    rw [div_le_iff₀ hNq, add_mul, div_mul_cancel₀ _ hNq.ne']
    have h5 := mul_le_mul_of_nonneg_left (mul_le_mul_of_nonneg_left hopt (show (0 : ℚ) ≤ 2 by norm_num)) hNq.le
    simp only [hF] at htwo ⊢
    have e : (m : ℚ) * (θ * β / 100) = θ * β * ((m : ℚ) / 100) := by ring
    rw [e] at htwo
    linarith

end

/-! ## Redrawn biases -/

/-- In the first slot the hitting cost is `1 - x`, from then on it is zero. -/
def rF (t : Int) (x : ℚ) : ℚ := if t ≤ 1 then 1 - x else 0

def rQ (T : Int) : SCO ℚ Unit Unit where
  d := 1
  tEnd := T
  bounds := [(0, 1)]
  switchingCost := fun x => .ok (1 * |x.headD 0|)
  hittingCost := CostFn.new 1 (SingleCostFn.certain fun t x => .ok (Cost.raw ((rF t (x.headD 0) : ℚ) : ECost)))

/-- The instances of the first `T` slots. -/
def rHistory (T : ℕ) : List (Online (SCO ℚ Unit Unit)) := (List.range T).map fun i : ℕ => ⟨rQ ((i + 1 : ℕ) : Int), 0⟩

theorem rQ_slot (T t : Int) (ht : 1 ≤ t) : Slot (rQ T) t (fun x => ((rF t (x.headD 0) : ℚ) : ECost)) (fun x => 1 * |x.headD 0|) where
  box := by
    intro b hb
    simp only [rQ, List.mem_singleton] at hb
    subst hb
    exact ⟨by norm_num, ⟨0, by norm_num⟩, ⟨100, by norm_num⟩⟩
  dim := rfl
  certain := by
    intro x _
    exact ⟨.success (), by rw [rQ, CostFn.callCertain_certain _ _ ht]; rfl⟩
  mean := by
    intro x _
    exact ⟨.success (), by rw [rQ, CostFn.callMean_certain _ _ ht]; rfl⟩
  moves := fun _ _ => rfl

theorem rQ_shown (T : ℕ) : ∀ (i : Nat) (o : Online (SCO ℚ Unit Unit)), (rHistory T)[i]? = some o →
    o.w = 0 ∧ o.p.d = 1 ∧ o.p.bounds = [(0, 1)] ∧ o.p.tEnd = ((i + 1 : Nat) : Int) ∧
      ∀ t : Nat, 1 ≤ t → t ≤ i + 1 → Slot o.p t (fun x => ((rF t (x.headD 0) : ℚ) : ECost)) (fun x => 1 * |x.headD 0|) := by
  intro i o ho
  simp only [rHistory, List.getElem?_map, Option.map_eq_some_iff] at ho
  obtain ⟨j, hj, rfl⟩ := ho
  have : j = i := by
    rw [List.getElem?_eq_some_iff] at hj
    obtain ⟨h, e⟩ := hj
    simpa using e.symm
  subst this
  exact ⟨rfl, rfl, rfl, rfl, fun t ht _ => rQ_slot _ _ (by exact_mod_cast ht)⟩

/-- Non-vacuity of `C77_same_draw_partial`: histories of every length and every number of draws. -/
example (T N : ℕ) (hN : 0 < N) : ∃ (P : Player) (S0 : Solver) (ys : ℕ → Schedule ℚ), Inner (solverOf P S0) ∧ Exact (solverOf P S0) ∧
    (∀ k, k < N → Run (fun p : SCO ℚ Unit Unit => p.tEnd) (rbg P id 1 (fun _ => spread N k) Cache.empty) [] none (rHistory T) (ys k) none) ∧
    ∃ (a : ℕ → ℚ),
      (∀ k, k < N → totalCost (fun t x => ((rF t (x.headD 0) : ℚ) : ECost)) (fun x y => 1 * |(List.zipWith (· - ·) y x).headD 0|) 1 1 [0]
        (ys k) = (a k : ECost)) := by
  obtain ⟨P, S0, h1, h2⟩ := exists_player
  have hex : ∀ k, ∃ ys, Run (fun p : SCO ℚ Unit Unit => p.tEnd) (rbg P id 1 (fun _ => spread N k) Cache.empty) [] none (rHistory T) ys none := by
    intro k
    obtain ⟨ys, h3, -⟩ := C51_history P S0 h1 h2 id (fun _ _ _ _ h => h) 1 (fun _ => spread N k) Cache.empty [(0, 1)]
      (fun t x => ((rF t (x.headD 0) : ℚ) : ECost)) (fun x => 1 * |x.headD 0|) _ (rQ_shown T)
    exact ⟨ys, h3⟩
  choose ys hys using hex
  refine ⟨P, S0, ys, h1, h2, fun k _ => hys k, ?_⟩
  obtain ⟨a, c, ha, -, -⟩ := C77_same_draw_partial P S0 h1 h2 id (fun _ _ _ _ h => h) 1 one_pos Cache.empty 1 zero_le_one ⟨100, by norm_num⟩
    rF (by intro t x _ _; unfold rF; split <;> linarith) (by intro t x y _ _ _ _; unfold rF; split <;> linarith) 1 one_pos
    (rHistory T) (rQ_shown T) N hN ys (fun _ => none) (fun k _ => hys k) (List.replicate T [0]) (by simp [rHistory])
    (by intro z hz; rw [List.eq_of_mem_replicate hz]; exact grid_zero)
  exact ⟨a, ha⟩

theorem prefix_nonneg (ys : List (Config ℚ)) : ∀ (s : Int) (p x : Config ℚ), 2 ≤ s →
    0 ≤ prefixCost (fun t x => ((rF t (x.headD 0) : ℚ) : ECost)) (fun x => 1 * |x.headD 0|) 1 s p ys x := by
  induction ys with
  | nil =>
    intro s p x _
    simp only [prefixCost]
    rw [← WithTop.coe_zero, WithTop.coe_le_coe]
    positivity
  | cons y ys ih =>
    intro s p x hs
    simp only [prefixCost]
    have h1 := ih (s + 1) y x (by omega)
    refine add_nonneg (add_nonneg ?_ ?_) h1
    · rw [← WithTop.coe_zero, WithTop.coe_le_coe]
      positivity
    · rw [rF, if_neg (by omega)]
      exact le_rfl

theorem prefix_stay (a : ℚ) (n : ℕ) : ∀ (s : Int), 2 ≤ s →
    prefixCost (fun t x => ((rF t (x.headD 0) : ℚ) : ECost)) (fun x => 1 * |x.headD 0|) 1 s [a] (List.replicate n [a]) [a] = 0 := by
  induction n with
  | zero => intro s _; simp [prefixCost]
  | succ n ih =>
    intro s hs
    rw [List.replicate_succ]
    simp only [prefixCost]
    rw [ih (s + 1) (by omega), rF, if_neg (by omega)]
    simp

/-- The work function is the same everywhere. -/
theorem rQ_work (t : ℕ) (x : Config ℚ) (hx : GridPoint [(0, 1)] x) :
    IsWork [(0, 1)] (fun t x => ((rF t (x.headD 0) : ℚ) : ECost)) (fun x => 1 * |x.headD 0|) 1 (t + 1) x ((1 : ℚ) : ECost) := by
  have first : ∀ a : ℚ, 0 ≤ a →
      ((1 * (1 * |(List.zipWith (· - ·) [a] (List.replicate 1 0)).headD 0|) : ℚ) : ECost) + ((rF 1 (([a] : Config ℚ).headD 0) : ℚ) : ECost) =
        ((1 : ℚ) : ECost) := by
    intro a ha
    rw [← WithTop.coe_add, WithTop.coe_eq_coe]
    simp [rF, abs_of_nonneg ha]
  constructor
  · obtain ⟨a, rfl, h0, h1⟩ := grid01 hx
    refine ⟨List.replicate (t + 1) [a], by simp, ?_, ?_⟩
    · intro y hy
      rw [List.eq_of_mem_replicate hy]
      exact hx
    · rw [List.replicate_succ]
      simp only [prefixCost]
      rw [show ((1 : Int) + 1) = 2 from rfl, prefix_stay a t 2 le_rfl, add_zero]
      exact first a h0
  · intro ys hl hg
    cases ys with
    | nil => simp at hl
    | cons y ys =>
      obtain ⟨a, rfl, h0, h1⟩ := grid01 (hg y (by simp))
      simp only [prefixCost]
      refine (first a h0).symm.le.trans ?_
      exact le_add_of_nonneg_right (prefix_nonneg ys 2 [a] x le_rfl)

/-- Where the `k`-th of `2 n` draws leads. -/
def posOf (n k : ℕ) : ℚ := if k < n then 1 else 0

theorem rQ_greedy (n : ℕ) (hn : 0 < n) (t k : ℕ) (x : Config ℚ)
    (h : Greedy [(0, 1)] (fun t x => ((rF t (x.headD 0) : ℚ) : ECost)) (fun x => 1 * |x.headD 0|) 1 (t + 1) (spread (2 * n) k) x) :
    x = [posOf n k] := by
  obtain ⟨hx, c, hc, hmin⟩ := h
  have hn' : (0 : ℚ) < ((2 * n : ℕ) : ℚ) := by exact_mod_cast (by omega : 0 < 2 * n)
  rw [hc.unique (rQ_work t x hx)] at hmin
  obtain ⟨a, rfl, h0, h1⟩ := grid01 hx
  unfold posOf
  split
  · rename_i hk
    have hr : spread (2 * n) k < 0 := by
      unfold spread
      rw [sub_neg, div_lt_one hn']
      exact_mod_cast (by omega : 2 * k + 1 < 2 * n)
    have := hmin [1] _ grid_one (rQ_work t [1] grid_one)
    simp only [← WithTop.coe_add, WithTop.coe_le_coe, List.headD_cons, mul_one, one_mul, abs_of_nonneg h0, abs_one] at this
    congr 1
    nlinarith
  · rename_i hk
    have hr : 0 < spread (2 * n) k := by
      unfold spread
      rw [sub_pos, lt_div_iff₀ hn', one_mul]
      exact_mod_cast (by omega : 2 * n < 2 * k + 1)
    have := hmin [0] _ grid_zero (rQ_work t [0] grid_zero)
    simp only [← WithTop.coe_add, WithTop.coe_le_coe, List.headD_cons, mul_one, one_mul, abs_of_nonneg h0, abs_zero, mul_zero] at this
    congr 1
    nlinarith

/-- Number of moves. -/
def walk (n : ℕ) : ℚ → List ℕ → ℚ
  | _, [] => 0
  | p, k :: ks => |posOf n k - p| + walk n (posOf n k) ks

theorem meanOver_add (N : ℕ) (hN : 0 < N) (c : ℚ) : ∀ (T : ℕ) (F : List ℕ → ℚ),
    meanOver N T (fun ks => c + F ks) = c + meanOver N T F := by
  intro T
  have hN' : (N : ℚ) ≠ 0 := by exact_mod_cast hN.ne'
  induction T with
  | zero => intro F; rfl
  | succ T ih =>
    intro F
    simp only [meanOver, ih, sum_add_distrib, sum_const, card_range, nsmul_eq_mul]
    field_simp

theorem pos_mean (n : ℕ) (p : ℚ) (hp : p = 0 ∨ p = 1) : ∑ k ∈ range (2 * n), |posOf n k - p| = n := by
  have e : ∑ k ∈ range (2 * n), |posOf n k - p| = n * |1 - p| + n * |0 - p| := by
    rw [two_mul, sum_range_add]
    congr 1
    · rw [sum_congr rfl (g := fun _ => |1 - p|)]
      · simp
      · intro k hk
        rw [posOf, if_pos (by simpa using hk)]
    · rw [sum_congr rfl (g := fun _ => |0 - p|)]
      · simp
      · intro k _
        rw [posOf, if_neg (by omega)]
  rw [e]
  rcases hp with rfl | rfl <;> simp

theorem walk_mean (n : ℕ) (hn : 0 < n) : ∀ (T : ℕ) (p : ℚ), (p = 0 ∨ p = 1) → meanOver (2 * n) T (walk n p) = T / 2 := by
  intro T
  have hn' : (n : ℚ) ≠ 0 := by exact_mod_cast hn.ne'
  induction T with
  | zero => intro p _; simp [meanOver, walk]
  | succ T ih =>
    intro p hp
    have h1 : ∀ k, meanOver (2 * n) T (fun ks => walk n p (k :: ks)) = |posOf n k - p| + T / 2 := by
      intro k
      rw [← ih (posOf n k) (by unfold posOf; split <;> simp), ← meanOver_add (2 * n) (by omega)]
      rfl
    simp only [meanOver, h1, sum_add_distrib, pos_mean n p hp, sum_const, card_range, nsmul_eq_mul]
    push_cast
    field_simp
    ring

theorem walk_cost (n : ℕ) (ks : List ℕ) : ∀ (t : Int) (p : ℚ), 2 ≤ t →
    totalCost (fun t x => ((rF t (x.headD 0) : ℚ) : ECost)) (fun x y => 1 * |(List.zipWith (· - ·) y x).headD 0|) 1 t [p]
      (ks.map fun k => [posOf n k]) = ((walk n p ks : ℚ) : ECost) := by
  induction ks with
  | nil => intro t p _; rfl
  | cons k ks ih =>
    intro t p ht
    simp only [List.map_cons, totalCost, walk]
    rw [ih (t + 1) _ (by omega), rF, if_neg (by omega), ← WithTop.coe_add, ← WithTop.coe_add]
    simp

/-- **C77** (refuted). The algorithm draws a new bias in every slot. If these draws are independent, each one of `2 n` equally
spaced values between `-1` and `1`, then the mean of its cost grows with the number of slots although staying at zero costs `1`: in
this history no ratio holds in expectation. -/
theorem C77_redrawn_counterexample (P : Player) (S0 : Solver) (hS : Inner (solverOf P S0)) (hE : Exact (solverOf P S0))
    (evict : Cache → Cache) (hev : ∀ c t x v, evict c t x = some v → c t x = some v) (world : Cache) (n : ℕ) (hn : 0 < n) (T : ℕ) :
    ∃ cost : List ℕ → ℚ,
      (∀ ks : List ℕ, ks.length = T + 1 → ∃ ys,
        Run (fun p : SCO ℚ Unit Unit => p.tEnd) (rbg P evict 1 (fun o => spread (2 * n) (ks.getD (o.p.tEnd - 1).toNat 0)) world) [] none
          (rHistory (T + 1)) ys none ∧
        totalCost (fun t x => ((rF t (x.headD 0) : ℚ) : ECost)) (fun x y => 1 * |(List.zipWith (· - ·) y x).headD 0|) 1 1 [0] ys =
          (cost ks : ECost)) ∧
      meanOver (2 * n) (T + 1) cost = 1 + T / 2 ∧
      totalCost (fun t x => ((rF t (x.headD 0) : ℚ) : ECost)) (fun x y => 1 * |(List.zipWith (· - ·) y x).headD 0|) 1 1 [0]
        (List.replicate (T + 1) [0]) = 1 := by
  refine ⟨fun ks => match ks with
    | [] => 0
    | k :: ks => 1 + walk n (posOf n k) ks, ?_, ?_, ?_⟩
  · intro ks hks
    obtain ⟨ys, h1, h2, h3⟩ := C51_history P S0 hS hE evict hev 1 (fun o => spread (2 * n) (ks.getD (o.p.tEnd - 1).toNat 0)) world
      [(0, 1)] (fun t x => ((rF t (x.headD 0) : ℚ) : ECost)) (fun x => 1 * |x.headD 0|) _ (rQ_shown (T + 1))
    refine ⟨ys, h1, ?_⟩
    have hlen : (rHistory (T + 1)).length = T + 1 := by simp [rHistory]
    have hys : ys = ks.map fun k => [posOf n k] := by
      apply List.ext_getElem
      · rw [h2, hlen, List.length_map, hks]
      · intro i hi hi'
        have hi2 : i < ks.length := by simpa using hi'
        have ho : (rHistory (T + 1))[i]? = some ⟨rQ ((i + 1 : ℕ) : Int), 0⟩ := by
          rw [rHistory, List.getElem?_map, List.getElem?_range (by omega)]
          rfl
        have := h3 i _ ys[i] ho (List.getElem?_eq_getElem hi)
        have e : ks.getD (((rQ ((i + 1 : ℕ) : Int)).tEnd - 1).toNat) 0 = ks[i] := by
          have : ((rQ ((i + 1 : ℕ) : Int)).tEnd - 1).toNat = i := by simp [rQ]
          rw [this, List.getD_eq_getElem?_getD, List.getElem?_eq_getElem hi2]
          rfl
        simp only [e] at this
        rw [rQ_greedy n hn i _ _ this, List.getElem_map]
    subst hys
    cases ks with
    | nil => simp at hks
    | cons k ks =>
      simp only [List.map_cons, totalCost]
      rw [show ((1 : Int) + 1) = 2 from rfl, walk_cost n ks 2 _ le_rfl, ← WithTop.coe_add, ← WithTop.coe_add, WithTop.coe_eq_coe]
      by_cases hk : k < n <;> simp [posOf, rF, hk]
  · have hn' : (n : ℚ) ≠ 0 := by exact_mod_cast hn.ne'
    have h1 : ∀ k, meanOver (2 * n) T (fun ks => 1 + walk n (posOf n k) ks) = 1 + T / 2 := by
      intro k
      rw [meanOver_add (2 * n) (by omega) 1 T (walk n (posOf n k)), walk_mean n hn T _ (by unfold posOf; split <;> simp)]
    simp only [meanOver, h1, sum_const, card_range, nsmul_eq_mul]
    push_cast
    field_simp
  · have hz : ∀ (m : ℕ) (t : Int), 2 ≤ t →
        totalCost (fun t x => ((rF t (x.headD 0) : ℚ) : ECost)) (fun x y => 1 * |(List.zipWith (· - ·) y x).headD 0|) 1 t [0]
          (List.replicate m [0]) = 0 := by
      intro m
      induction m with
      | zero => intro t _; rfl
      | succ m ih =>
        intro t ht
        rw [List.replicate_succ]
        simp only [totalCost]
        rw [ih (t + 1) (by omega), rF, if_neg (by omega)]
        simp
    rw [List.replicate_succ]
    simp only [totalCost]
    rw [show ((1 : Int) + 1) = 2 from rfl, hz T 2 le_rfl]
    simp [rF]

end Rbg
end Soco
