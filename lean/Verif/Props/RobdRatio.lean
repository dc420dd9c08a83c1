import Verif.Props.Descent3
import Verif.Props.HorizonRatio
import Mathlib.Tactic.FieldSimp

/-! # C78: what regularised balanced descent costs -/

namespace Soco
namespace Spec

/-- `f` is `m`-strongly convex on `[0, u]`. -/
def StronglyConvex (u m : ℚ) (f : ℚ → ℚ) : Prop :=
  ∀ x y c : ℚ, 0 ≤ x → x ≤ u → 0 ≤ y → y ≤ u → 0 ≤ c → c ≤ 1 →
    f ((1 - c) * x + c * y) ≤ (1 - c) * f x + c * f y - m / 2 * (c * (1 - c)) * (x - y) ^ 2

/-- The requirement on the parameter `m` in the documentation of the algorithm: away from a minimiser `v` the hitting cost grows
at least like `m / 2` times the squared distance. -/
def Grows (u m : ℚ) (f : ℚ → ℚ) : Prop :=
  ∀ v : ℚ, 0 ≤ v → v ≤ u → OnGrid v → (∀ y, 0 ≤ y → y ≤ u → OnGrid y → f v ≤ f y) →
    ∀ x, 0 ≤ x → x ≤ u → OnGrid x → f v + m / 2 * (x - v) ^ 2 ≤ f x

end Spec

namespace Descent
open Spec Num

theorem _root_.Soco.Spec.StronglyConvex.add {u m n : ℚ} {f g : ℚ → ℚ} (hf : StronglyConvex u m f) (hg : StronglyConvex u n g) :
    StronglyConvex u (m + n) fun x => f x + g x := by
  intro x y c h1 h2 h3 h4 h5 h6
  have a := hf x y c h1 h2 h3 h4 h5 h6
  have b := hg x y c h1 h2 h3 h4 h5 h6
  simp only
  linarith

theorem stronglyConvex_sq (u l a : ℚ) : StronglyConvex u l fun x => l * (1 / 2 * (x - a) ^ 2) := by
  intro x y c _ _ _ _ _ _
  simp only
  apply le_of_eq
  ring

/-- Minimisers on the grid. -/
theorem grid_min {u M : ℚ} {F : ℚ → ℚ} (hF : StronglyConvex u M F) {x : ℚ} (hx0 : 0 ≤ x) (hxu : x ≤ u) (hxg : OnGrid x)
    (hmin : ∀ y, 0 ≤ y → y ≤ u → OnGrid y → F x ≤ F y) {y : ℚ} (hy0 : 0 ≤ y) (hyu : y ≤ u) (hyg : OnGrid y) :
    F x + M / 2 * ((y - x) ^ 2 - 1 / 100 * |y - x|) ≤ F y := by
  obtain ⟨a, ha⟩ := hxg
  obtain ⟨b, hb⟩ := hyg
  rcases lt_trichotomy a b with h | h | h
  · have hd : (a : ℚ) + 1 ≤ b := by exact_mod_cast h
    have hD : 0 < y - x := by rw [ha, hb]; linarith
    have hle : (1 : ℚ) / 100 ≤ y - x := by rw [ha, hb]; linarith
    have hc0 : 0 < 1 / 100 / (y - x) := by positivity
    have hc1 : 1 / 100 / (y - x) ≤ 1 := by rw [div_le_one hD]; exact hle
    have e : (1 - 1 / 100 / (y - x)) * x + 1 / 100 / (y - x) * y = x + 1 / 100 := by
      field_simp
      ring
    have h1 := hF x y (1 / 100 / (y - x)) hx0 hxu hy0 hyu hc0.le hc1
    rw [e] at h1
    have h2 := hmin (x + 1 / 100) (by linarith) (by linarith) ⟨a + 1, by rw [ha]; push_cast; ring⟩
    rw [abs_of_pos hD]
    set c := 1 / 100 / (y - x) with hc
    have hcD : c * (y - x) = 1 / 100 := by rw [hc]; field_simp
    have h3 : 0 ≤ c * (F y - F x - M / 2 * (1 - c) * (y - x) ^ 2) := by nlinarith
    have h4 : 0 ≤ F y - F x - M / 2 * (1 - c) * (y - x) ^ 2 := by
      by_contra hneg
      push Not at hneg
      have := mul_neg_of_pos_of_neg hc0 hneg
      linarith
    have h5 : M / 2 * (1 - c) * (y - x) ^ 2 = M / 2 * ((y - x) ^ 2 - 1 / 100 * (y - x)) := by
      rw [← hcD]; ring
    linarith
  · subst h
    have : y = x := by rw [ha, hb]
    subst this
    simp
  · have hd : (b : ℚ) + 1 ≤ a := by exact_mod_cast h
    have hD : 0 < x - y := by rw [ha, hb]; linarith
    have hle : (1 : ℚ) / 100 ≤ x - y := by rw [ha, hb]; linarith
    have hc0 : 0 < 1 / 100 / (x - y) := by positivity
    have hc1 : 1 / 100 / (x - y) ≤ 1 := by rw [div_le_one hD]; exact hle
    have e : (1 - 1 / 100 / (x - y)) * x + 1 / 100 / (x - y) * y = x - 1 / 100 := by
      field_simp
      ring
    have h1 := hF x y (1 / 100 / (x - y)) hx0 hxu hy0 hyu hc0.le hc1
    rw [e] at h1
    have h2 := hmin (x - 1 / 100) (by linarith) (by linarith) ⟨a - 1, by rw [ha]; push_cast; ring⟩
    rw [abs_sub_comm, abs_of_pos hD]
    set c := 1 / 100 / (x - y) with hc
    have hcD : c * (x - y) = 1 / 100 := by rw [hc]; field_simp
    have h3 : 0 ≤ c * (F y - F x - M / 2 * (1 - c) * (x - y) ^ 2) := by nlinarith
    have h4 : 0 ≤ F y - F x - M / 2 * (1 - c) * (x - y) ^ 2 := by
      by_contra hneg
      push Not at hneg
      have := mul_neg_of_pos_of_neg hc0 hneg
      linarith
    have h5 : M / 2 * (1 - c) * (x - y) ^ 2 = M / 2 * ((y - x) ^ 2 - 1 / 100 * (x - y)) := by
      rw [← hcD]; ring
    linarith

/-- The potential. -/
def leash (M x y : ℚ) : ℚ := M / 2 * ((y - x) ^ 2 - 1 / 100 * |y - x|)

theorem leash_nonneg {M x y : ℚ} (hM : 0 ≤ M) (hx : OnGrid x) (hy : OnGrid y) : 0 ≤ leash M x y := by
  obtain ⟨a, ha⟩ := hx
  obtain ⟨b, hb⟩ := hy
  unfold leash
  apply mul_nonneg (by linarith)
  have e : y - x = ((b - a : ℤ) : ℚ) / 100 := by rw [ha, hb]; push_cast; ring
  have h : |b - a| ≤ (b - a) ^ 2 := by
    rw [← sq_abs]
    exact Int.le_self_sq |b - a|
  have h' : |((b - a : ℤ) : ℚ)| ≤ ((b - a : ℤ) : ℚ) ^ 2 := by exact_mod_cast h
  rw [e, abs_div, abs_of_pos (show (0 : ℚ) < 100 by norm_num)]
  nlinarith

/-- One slot. -/
theorem robd_step {u m l1 l2 η : ℚ} (hm : 0 < m) (h1 : 0 < l1) (h2 : 0 ≤ l2) (hη : 0 < η) (hη' : η < m + l2) {f : ℚ → ℚ}
    (hf : StronglyConvex u m f) (hg : Grows u m f) (hf0 : ∀ x, 0 ≤ x → x ≤ u → 0 ≤ f x)
    {p v x : ℚ} (hv0 : 0 ≤ v) (hvu : v ≤ u) (hvg : OnGrid v)
    (hv : ∀ y, 0 ≤ y → y ≤ u → OnGrid y → f v ≤ f y) (hx0 : 0 ≤ x) (hxu : x ≤ u) (hxg : OnGrid x)
    (hmin : ∀ y, 0 ≤ y → y ≤ u → OnGrid y → f x + l1 * (1 / 2 * (x - p) ^ 2) + l2 * (1 / 2 * (x - v) ^ 2) ≤
      f y + l1 * (1 / 2 * (y - p) ^ 2) + l2 * (1 / 2 * (y - v) ^ 2)) (q : ℚ) {y : ℚ} (hy0 : 0 ≤ y) (hyu : y ≤ u) (hyg : OnGrid y) :
    f x + l1 * (1 / 2 * (x - p) ^ 2) + leash (m + l1 + l2) x y ≤
      (1 + l2 / m) * f y + (1 + l1 / (m + l2 - η)) * l1 * (1 / 2 * (y - q) ^ 2) + leash (m + l1 + l2) p q +
        (m + l1 + l2) ^ 2 / (80000 * η) := by
  have a1 := grid_min (((hf.add (stronglyConvex_sq u l1 p))).add (stronglyConvex_sq u l2 v)) hx0 hxu hxg hmin hy0 hyu hyg
  have a2 := hg v hv0 hvu hvg hv y hy0 hyu hyg
  have a3 := hf0 v hv0 hvu
  have a4 : l2 * (1 / 2 * (y - v) ^ 2) ≤ l2 / m * f y := by
    have : m * (1 / 2 * (y - v) ^ 2) ≤ f y := by linarith
    calc l2 * (1 / 2 * (y - v) ^ 2) = l2 / m * (m * (1 / 2 * (y - v) ^ 2)) := by field_simp
      _ ≤ l2 / m * f y := mul_le_mul_of_nonneg_left this (by positivity)
  have a5 : 0 ≤ l2 * (1 / 2 * (x - v) ^ 2) := by positivity
  -- movement
  set e := m + l2 - η with he
  have hepos : 0 < e := by rw [he]; linarith
  have a6 : l1 * (1 / 2 * (y - p) ^ 2) ≤ (1 + l1 / e) * l1 * (1 / 2 * (y - q) ^ 2) + (l1 + e) * (1 / 2 * (q - p) ^ 2) := by
    have : (1 + l1 / e) * l1 * (1 / 2 * (y - q) ^ 2) + (l1 + e) * (1 / 2 * (q - p) ^ 2) - l1 * (1 / 2 * (y - p) ^ 2) =
        1 / (2 * e) * (l1 * (y - q) - e * (q - p)) ^ 2 := by
      field_simp
      ring
    have h0 : 0 ≤ 1 / (2 * e) * (l1 * (y - q) - e * (q - p)) ^ 2 := by positivity
    linarith
  have a7 : (l1 + e) * (1 / 2 * (q - p) ^ 2) ≤ leash (m + l1 + l2) p q + (m + l1 + l2) ^ 2 / (80000 * η) := by
    unfold leash
    set M := m + l1 + l2
    have hM : l1 + e = M - η := by rw [he]; ring
    rw [hM, ← sq_abs (q - p)]
    have : M / 2 * (|q - p| ^ 2 - 1 / 100 * |q - p|) + M ^ 2 / (80000 * η) - (M - η) * (1 / 2 * |q - p| ^ 2) =
        η / 2 * (|q - p| - M / (200 * η)) ^ 2 := by
      field_simp
      ring
    have h0 : 0 ≤ η / 2 * (|q - p| - M / (200 * η)) ^ 2 := by positivity
    linarith
  have hgap : leash (m + l1 + l2) x y = (m + l1 + l2) / 2 * ((y - x) ^ 2 - 1 / 100 * |y - x|) := rfl
  rw [hgap]
  linarith

/-- Hitting costs of a schedule with one entry per slot. -/
def hitSum (f : Int → ℚ → ℚ) : Int → List ℚ → ℚ
  | _, [] => 0
  | t, x :: xs => f t x + hitSum f (t + 1) xs

/-- Squared movement of such a schedule. -/
def moveSum : ℚ → List ℚ → ℚ
  | _, [] => 0
  | p, x :: xs => 1 / 2 * (x - p) ^ 2 + moveSum x xs

theorem totalCost_sum (f : Int → ℚ → ℚ) (α : ℚ) (xs : List ℚ) : ∀ (t : Int) (p : ℚ),
    totalCost (fun t (x : Config ℚ) => ((f t (x.headD 0) : ℚ) : ECost))
      (fun a b : Config ℚ => 1 / 2 * (List.zipWith (· - ·) b a).headD 0 ^ 2) α t [p] (xs.map fun x => [x]) =
      ((hitSum f t xs + α * moveSum p xs : ℚ) : ECost) := by
  induction xs with
  | nil => intro t p; simp [totalCost, hitSum, moveSum]
  | cons x xs ih =>
    intro t p
    simp only [List.map_cons, totalCost, ih, hitSum, moveSum, List.headD_cons, List.zipWith_cons_cons, ← WithTop.coe_add]
    rw [WithTop.coe_eq_coe]
    ring

theorem gridPoint_one {u : ℚ} {y : Config ℚ} : GridPoint [(0, u)] y ↔ ∃ a, y = [a] ∧ 0 ≤ a ∧ a ≤ u ∧ OnGrid a := by
  constructor
  · rintro ⟨h, hg⟩
    unfold InBoxQ at h
    cases h with
    | cons a b => cases b; exact ⟨_, rfl, a.1, a.2, hg _ (by simp)⟩
  · rintro ⟨a, rfl, h0, h1, h2⟩
    exact ⟨.cons ⟨h0, h1⟩ .nil, by simpa using h2⟩

section
variable {C D : Type} [OutSuccess C] [OutFailure D]

/-- What one step does. -/
theorem robd_call (S : Solver) (hS : Inner S) (hE : Exact S) (o : Online (SCO ℚ C D)) (hw : o.w = 0) (u : ℚ)
    (hb : o.p.bounds = [(0, u)]) (f : Int → ℚ → ℚ) (xs : Schedule ℚ) (hxs : ∀ x ∈ xs, x.length = 1)
    (hp : Slot o.p (xs.length + 1) (fun x => ((f (xs.length + 1) (x.headD 0) : ℚ) : ECost)) (fun x => 1 / 2 * x.headD 0 ^ 2)) (l1 l2 p : ℚ)
    (hl : latest 1 xs = [p]) :
    ∃ x v, (robd S l1 l2).call o (xs.length + 1) xs () = .ok ([x], none) ∧ 0 ≤ x ∧ x ≤ u ∧ OnGrid x ∧ 0 ≤ v ∧ v ≤ u ∧ OnGrid v ∧
      (∀ y, 0 ≤ y → y ≤ u → OnGrid y → f (xs.length + 1) v ≤ f (xs.length + 1) y) ∧
      (∀ y, 0 ≤ y → y ≤ u → OnGrid y → f (xs.length + 1) x + l1 * (1 / 2 * (x - p) ^ 2) + l2 * (1 / 2 * (x - v) ^ 2) ≤
        f (xs.length + 1) y + l1 * (1 / 2 * (y - p) ^ 2) + l2 * (1 / 2 * (y - v) ^ 2)) := by
  obtain ⟨x, v, a, h1, h2, h3, h4⟩ := C50_robd S hS o hw xs (by rw [hb]; exact hxs) _ _ hp l1 l2
  obtain ⟨v', a', k1, k2, -, -, k3⟩ := hittingMinimizer_ok hS hp
  rw [h2] at k1
  cases k1
  rw [hb] at h3 k2
  obtain ⟨x, rfl, x1, x2, x3⟩ := gridPoint_one.1 h3
  obtain ⟨v, rfl, v1, v2, v3⟩ := gridPoint_one.1 k2
  refine ⟨x, v, h1, x1, x2, x3, v1, v2, v3, ?_, ?_⟩
  · intro y y1 y2 y3
    have := k3 hE [y] (by rw [hb]; exact gridPoint_one.2 ⟨y, rfl, y1, y2, y3⟩)
    simpa using this
  · intro y y1 y2 y3
    have := h4 hE [y] (by rw [hb]; exact gridPoint_one.2 ⟨y, rfl, y1, y2, y3⟩)
    rw [hb, show [((0 : ℚ), u)].length = 1 from rfl, hl] at this
    simp only [Config.sub, List.zipWith_cons_cons, List.headD_cons, ← WithTop.coe_add, WithTop.coe_le_coe] at this
    exact this

theorem robd_run (S : Solver) (hS : Inner S) (hE : Exact S) (u m l1 l2 η : ℚ) (hm : 0 < m) (h1 : 0 < l1) (h2 : 0 ≤ l2) (hη : 0 < η)
    (hη' : η < m + l2) (f : Int → ℚ → ℚ) (hf : ∀ t, StronglyConvex u m (f t)) (hg : ∀ t, Grows u m (f t))
    (hf0 : ∀ t x, 0 ≤ x → x ≤ u → 0 ≤ f t x) :
    ∀ (os : List (Online (SCO ℚ C D))) (xs : Schedule ℚ) (mem : Option Unit) (ys : Schedule ℚ) (k : Option Unit),
      Run (fun p : SCO ℚ C D => p.tEnd) (robd S l1 l2) xs mem os ys k →
      (∀ (i : Nat) o, os[i]? = some o → o.w = 0 ∧ o.p.bounds = [(0, u)] ∧
        Slot o.p ((xs.length + i + 1 : Nat) : Int) (fun x => ((f ((xs.length + i + 1 : Nat) : Int) (x.headD 0) : ℚ) : ECost))
          (fun x => 1 / 2 * x.headD 0 ^ 2)) →
      (∀ x ∈ xs, x.length = 1) → ∀ p, latest 1 xs = [p] → ∀ (q : ℚ) (zs : List ℚ), zs.length = os.length →
      (∀ z ∈ zs, 0 ≤ z ∧ z ≤ u ∧ OnGrid z) →
      ∃ ws : List ℚ, ys = xs ++ ws.map (fun w => [w]) ∧
        hitSum f ((xs.length + 1 : Nat) : Int) ws + l1 * moveSum p ws ≤
          (1 + l2 / m) * hitSum f ((xs.length + 1 : Nat) : Int) zs + (1 + l1 / (m + l2 - η)) * l1 * moveSum q zs +
            max 0 (leash (m + l1 + l2) p q) + os.length * ((m + l1 + l2) ^ 2 / (80000 * η)) := by
  intro os
  induction os with
  | nil =>
    intro xs mem ys k hr _ _ p _ q zs hl _
    cases hr
    rw [List.length_eq_zero_iff.1 hl]
    exact ⟨[], by simp, by simp [hitSum, moveSum]⟩
  | cons o os ih =>
    intro xs mem ys k hr h hxs p hp q zs hl hzs
    cases zs with
    | nil => simp at hl
    | cons z zs =>
      cases hr with
      | step _ _ _ _ x mem' _ _ slot dec rest =>
        obtain ⟨hw, hb, hs⟩ := h 0 o rfl
        have hc : ((xs.length + 0 + 1 : Nat) : Int) = (xs.length : Int) + 1 := by push_cast; ring
        rw [hc] at hs
        obtain ⟨x', v, c1, c2, c3, c4, c5, c6, c7, c8, c9⟩ := robd_call S hS hE o hw u hb f xs hxs hs l1 l2 p hp
        have hd : (mem.getD ((robd S l1 l2).default o)) = () := rfl
        rw [hd, c1] at dec
        cases dec
        obtain ⟨z1, z2, z3⟩ := hzs z (by simp)
        have hstep := robd_step hm h1 h2 hη hη' (hf ((xs.length : Int) + 1)) (hg _) (hf0 _) c5 c6 c7 c8 c2 c3 c4 c9 q z1 z2 z3
        obtain ⟨ws, w1, w2⟩ := ih (xs ++ [[x']]) none ys k rest (by
            intro i o' ho
            have := h (i + 1) o' ho
            simp only [List.length_append, List.length_singleton]
            rwa [show xs.length + 1 + i + 1 = xs.length + (i + 1) + 1 by ring]) (by
            intro y hy
            rcases List.mem_append.1 hy with hy | hy
            · exact hxs y hy
            · rw [List.mem_singleton.1 hy]; rfl) x' (by simp [latest]) z zs (by simpa using hl) fun y hy => hzs y (by simp [hy])
        refine ⟨x' :: ws, by rw [w1]; simp, ?_⟩
        have e1 : (((xs ++ [[x']]).length + 1 : Nat) : Int) = ((xs.length + 1 : Nat) : Int) + 1 := by
          simp
        rw [e1] at w2
        have hgn : 0 ≤ leash (m + l1 + l2) x' z := leash_nonneg (by linarith) c4 z3
        rw [max_eq_right hgn] at w2
        simp only [hitSum, moveSum, List.length_cons]
        have e2 : ((xs.length + 1 : Nat) : Int) = (xs.length : Int) + 1 := by push_cast; ring
        rw [e2] at w2 ⊢
        push_cast
        have := le_max_right 0 (leash (m + l1 + l2) p q)
        linarith

/-- **C78** (partial). Movement costs half the squared distance, hitting costs are `m`-strongly convex. With weights `l1 ≤ 1` and
`l2`, regularised balanced descent pays at most `R` times the cost of any schedule on the grid plus a term per slot caused by the
numeric precision, whenever `R ≥ (m + l2) / (m l1)` and `R ≥ 1 + l1 / (m + l2 - η)`. Missing: more than one dimension, and the
term for the numeric precision cannot be avoided (`C78_precision_counterexample`). -/
theorem C78_robd_partial (S : Solver) (hS : Inner S) (hE : Exact S) (u m l1 l2 η R : ℚ) (hm : 0 < m) (h1 : 0 < l1) (h1' : l1 ≤ 1)
    (h2 : 0 ≤ l2) (hη : 0 < η) (hη' : η < m + l2) (hR : (m + l2) / (m * l1) ≤ R) (hR' : 1 + l1 / (m + l2 - η) ≤ R)
    (f : Int → ℚ → ℚ) (hf : ∀ t, StronglyConvex u m (f t)) (hg : ∀ t, Grows u m (f t))
    (hf0 : ∀ t x, 0 ≤ x → x ≤ u → 0 ≤ f t x) (os : List (Online (SCO ℚ C D)))
    (h : ∀ (i : Nat) o, os[i]? = some o → o.w = 0 ∧ o.p.bounds = [(0, u)] ∧
      Slot o.p ((i + 1 : Nat) : Int) (fun x => ((f ((i + 1 : Nat) : Int) (x.headD 0) : ℚ) : ECost)) (fun x => 1 / 2 * x.headD 0 ^ 2))
    (ys : Schedule ℚ) (k : Option Unit) (hr : Run (fun p : SCO ℚ C D => p.tEnd) (robd S l1 l2) [] none os ys k)
    (zs : Schedule ℚ) (hzl : zs.length = os.length) (hzs : ∀ z ∈ zs, GridPoint [(0, u)] z) :
    ∃ a c : ℚ,
      totalCost (fun t (x : Config ℚ) => ((f t (x.headD 0) : ℚ) : ECost))
        (fun a b : Config ℚ => 1 / 2 * (List.zipWith (· - ·) b a).headD 0 ^ 2) 1 1 [0] ys = (a : ECost) ∧
      totalCost (fun t (x : Config ℚ) => ((f t (x.headD 0) : ℚ) : ECost))
        (fun a b : Config ℚ => 1 / 2 * (List.zipWith (· - ·) b a).headD 0 ^ 2) 1 1 [0] zs = (c : ECost) ∧
      a ≤ R * c + os.length * ((m + l1 + l2) ^ 2 / (80000 * η * l1)) := by
  obtain ⟨vs, hv, rfl⟩ : ∃ vs : List ℚ, (∀ z ∈ vs, 0 ≤ z ∧ z ≤ u ∧ OnGrid z) ∧ zs = vs.map fun w => [w] := by
    clear hzl
    induction zs with
    | nil => exact ⟨[], by simp, rfl⟩
    | cons z zs ih =>
      obtain ⟨vs, i1, rfl⟩ := ih fun y hy => hzs y (by simp [hy])
      obtain ⟨a, rfl, a1, a2, a3⟩ := gridPoint_one.1 (hzs z (by simp))
      exact ⟨a :: vs, by simpa using ⟨⟨a1, a2, a3⟩, i1⟩, rfl⟩
  obtain ⟨ws, w1, w2⟩ := robd_run S hS hE u m l1 l2 η hm h1 h2 hη hη' f hf hg hf0 os [] none ys k hr (by simpa using h) (by simp) 0
    (by simp [latest]) 0 vs (by simpa using hzl) hv
  rw [List.nil_append] at w1
  subst w1
  have hone : (([] : Schedule ℚ).length + 1 : Nat) = 1 := rfl
  rw [hone, Nat.cast_one] at w2
  refine ⟨_, _, totalCost_sum f 1 ws 1 0, totalCost_sum f 1 vs 1 0, ?_⟩
  have hg0 : leash (m + l1 + l2) 0 0 = 0 := by simp [leash]
  rw [hg0, max_self, add_zero] at w2
  have hit0 : ∀ (xs : List ℚ) (t : Int), (∀ z ∈ xs, 0 ≤ z ∧ z ≤ u) → 0 ≤ hitSum f t xs := by
    intro xs
    induction xs with
    | nil => intro t _; simp [hitSum]
    | cons x xs ih =>
      intro t hx
      have := hf0 t x (hx x (by simp)).1 (hx x (by simp)).2
      have := ih (t + 1) fun z hz => hx z (by simp [hz])
      simp only [hitSum]
      linarith
  have mv0 : ∀ (xs : List ℚ) (p : ℚ), 0 ≤ moveSum p xs := by
    intro xs
    induction xs with
    | nil => intro p; simp [moveSum]
    | cons x xs ih =>
      intro p
      have := ih x
      simp only [moveSum]
      positivity
  have hys : ∀ z ∈ ws, 0 ≤ z ∧ z ≤ u := by
    obtain ⟨ws', w3, w4⟩ : ∃ ws' : List ℚ, ws.map (fun w => [w]) = ws'.map (fun w => [w]) ∧ ∀ z ∈ ws', 0 ≤ z ∧ z ≤ u := by
      have key : ∀ (os : List (Online (SCO ℚ C D))) (xs : Schedule ℚ) (mem : Option Unit) (ys : Schedule ℚ) (k : Option Unit),
          Run (fun p : SCO ℚ C D => p.tEnd) (robd S l1 l2) xs mem os ys k →
          (∀ (i : Nat) o, os[i]? = some o → o.w = 0 ∧ o.p.bounds = [(0, u)] ∧
            Slot o.p ((xs.length + i + 1 : Nat) : Int) (fun x => ((f ((xs.length + i + 1 : Nat) : Int) (x.headD 0) : ℚ) : ECost))
              (fun x => 1 / 2 * x.headD 0 ^ 2)) →
          (∃ xs' : List ℚ, xs = xs'.map (fun w => [w]) ∧ ∀ z ∈ xs', 0 ≤ z ∧ z ≤ u) →
          ∃ ys' : List ℚ, ys = ys'.map (fun w => [w]) ∧ ∀ z ∈ ys', 0 ≤ z ∧ z ≤ u := by
        intro os
        induction os with
        | nil => intro xs mem ys k hr _ hx; cases hr; exact hx
        | cons o os ih =>
          intro xs mem ys k hr h hx
          cases hr with
          | step _ _ _ _ x mem' _ _ slot dec rest =>
            obtain ⟨xs', rfl, hx'⟩ := hx
            obtain ⟨hw, hb, hs⟩ := h 0 o rfl
            have hc : (((xs'.map fun w => [w]).length + 0 + 1 : Nat) : Int) = ((xs'.map fun w : ℚ => [w]).length : Int) + 1 := by
              push_cast; ring
            rw [hc] at hs
            obtain ⟨p, hp⟩ : ∃ p, latest 1 (xs'.map fun w => [w]) = [p] := by
              rcases List.eq_nil_or_concat xs' with e | ⟨a, b, e⟩
              · subst e; exact ⟨0, rfl⟩
              · subst e; exact ⟨b, by simp [latest]⟩
            obtain ⟨x', v, c1, c2, c3, -⟩ := robd_call S hS hE o hw u hb f _ (by simp) hs l1 l2 p hp
            have hd : (mem.getD ((robd S l1 l2).default o)) = () := rfl
            rw [hd, c1] at dec
            cases dec
            refine ih _ _ _ _ rest ?_ ⟨xs' ++ [x'], by simp, ?_⟩
            · intro i o' ho
              have := h (i + 1) o' ho
              simp only [List.length_append, List.length_singleton]
              rwa [show (xs'.map fun w : ℚ => [w]).length + 1 + i + 1 = (xs'.map fun w : ℚ => [w]).length + (i + 1) + 1 by ring]
            · intro z hz
              rcases List.mem_append.1 hz with hz | hz
              · exact hx' z hz
              · rw [List.mem_singleton.1 hz]; exact ⟨c2, c3⟩
      exact key os [] none _ k hr (by simpa using h) ⟨[], rfl, by simp⟩
    have : ws = ws' := by
      have hinj : Function.Injective fun w : ℚ => [w] := fun a b hab => by simpa using hab
      exact (List.map_injective_iff.2 hinj) w3
    rw [this]
    exact w4
  have hA := hit0 ws 1 hys
  have hB := hit0 vs 1 fun z hz => ⟨(hv z hz).1, (hv z hz).2.1⟩
  have hC := mv0 vs 0
  have k1 : hitSum f 1 ws + 1 * moveSum 0 ws ≤ 1 / l1 * (hitSum f 1 ws + l1 * moveSum 0 ws) := by
    have e : 1 / l1 * (hitSum f 1 ws + l1 * moveSum 0 ws) = 1 / l1 * hitSum f 1 ws + moveSum 0 ws := by field_simp
    rw [e, one_mul]
    have : 1 ≤ 1 / l1 := by rw [le_div_iff₀ h1]; linarith
    have := mul_le_mul_of_nonneg_right this hA
    linarith
  have k2 := mul_le_mul_of_nonneg_left w2 (show 0 ≤ 1 / l1 by positivity)
  have k3 : 1 / l1 * ((1 + l2 / m) * hitSum f 1 vs + (1 + l1 / (m + l2 - η)) * l1 * moveSum 0 vs +
      os.length * ((m + l1 + l2) ^ 2 / (80000 * η))) =
      (m + l2) / (m * l1) * hitSum f 1 vs + (1 + l1 / (m + l2 - η)) * moveSum 0 vs +
        os.length * ((m + l1 + l2) ^ 2 / (80000 * η * l1)) := by
    generalize 1 + l1 / (m + l2 - η) = A
    field_simp
  rw [k3] at k2
  have k4 := mul_le_mul_of_nonneg_right hR hB
  have k5 := mul_le_mul_of_nonneg_right hR' hC
  linarith

end

/-! ## Weights, an instance, and limits -/

/-- **C78** (weights). Up to `η`, the weights that the code computes yield the documented optimal ratio `(1 + s) / 2`, where `s` is
the square root of `1 + 4 / m`. This holds for both pairs of weights among which the code chooses, that is, for every tolerance `eps`, even if it is 0 or rounding errors exceed it. -/
theorem C78_weights (m s eps : ℚ) (hm : 0 < m) (hs : 0 ≤ s) (hs2 : s ^ 2 = 1 + 4 / m) (R : ℚ) (hR : (1 + s) / 2 < R) :
    ∃ l1 l2 η : ℚ, buildParameters s m 1 eps = (l1, l2) ∧ 0 < l1 ∧ l1 ≤ 1 ∧ 0 ≤ l2 ∧ 0 < η ∧ η < m + l2 ∧
      (m + l2) / (m * l1) ≤ R ∧ 1 + l1 / (m + l2 - η) ≤ R := by
  have hs1 : 1 < s := by
    have : 0 < 4 / m := by positivity
    nlinarith
  have hl : (0 : ℚ) < 2 / (1 + s) := by positivity
  have hR1 : 1 < R := by linarith
  have hml : 2 / (1 + s) / m = (s - 1) / 2 := by
    have e : 4 / m = (s - 1) * (s + 1) := by linarith
    have : 2 / (1 + s) / m = 4 / m / (2 * (1 + s)) := by field_simp; ring
    rw [this, e]
    field_simp
    ring
  by_cases he : 0 < eps
  · have hlt : 2 / (1 + s) / (R - 1) < m := by
      rw [div_lt_iff₀ (by linarith)]
      have : 2 / (1 + s) = (s - 1) / 2 * m := by rw [← hml]; field_simp
      rw [this, mul_comm m]
      exact mul_lt_mul_of_pos_right (by linarith) hm
    refine ⟨2 / (1 + s), 0, m - 2 / (1 + s) / (R - 1), C50_robd_weights s m 1 eps hs he, hl, ?_, le_rfl, by linarith, ?_, ?_, ?_⟩
    · rw [div_le_one (by linarith)]
      linarith
    · have : 0 < 2 / (1 + s) / (R - 1) := div_pos hl (by linarith)
      linarith
    · rw [add_zero, div_mul_eq_div_div, div_self hm.ne', one_div_div]
      exact hR.le
    · rw [add_zero, sub_sub_cancel, div_div_cancel₀ hl.ne']
      linarith
  · have hw : buildParameters s m 1 eps = (1, m * (1 + s) / 2 - m) := by
      unfold buildParameters
      rw [if_neg (fun h => he ((abs_nonneg _).trans_lt h))]
      simp only [div_one, Prod.mk.injEq, true_and]
      ring
    have hsm : m * (1 + s) / 2 = 2 / (s - 1) := by
      have e : 4 = (s - 1) * (s + 1) * m := by
        have : 4 / m * m = 4 := by field_simp
        rw [← this]
        congr 1
        linarith
      have h0 : s - 1 ≠ 0 := by linarith
      field_simp
      linarith
    have hlt : 1 / (R - 1) < m * (1 + s) / 2 := by
      rw [hsm, div_lt_div_iff₀ (by linarith) (by linarith)]
      linarith
    have hpos : 0 < 1 / (R - 1) := div_pos one_pos (by linarith)
    refine ⟨1, m * (1 + s) / 2 - m, m * (1 + s) / 2 - 1 / (R - 1), hw, one_pos, le_rfl, ?_, by linarith, by linarith, ?_, ?_⟩
    · nlinarith
    · rw [show m + (m * (1 + s) / 2 - m) = m * ((1 + s) / 2) by ring, mul_one, mul_div_cancel_left₀ _ hm.ne']
      exact hR.le
    · rw [show m + (m * (1 + s) / 2 - m) - (m * (1 + s) / 2 - 1 / (R - 1)) = 1 / (R - 1) by ring, one_div_one_div]
      linarith

/-- Decision space `[0, 1]`, movement costs half the squared distance, and hitting cost `1/12 (x - 1/100)^2` in all slots. -/
def nearF (_ : Int) (x : ℚ) : ℚ := 1 / 12 * (x - 1 / 100) ^ 2

def nearQ (T : Int) : SCO ℚ Unit Unit where
  d := 1
  tEnd := T
  bounds := [(0, 1)]
  switchingCost := fun x => .ok (1 / 2 * x.headD 0 ^ 2)
  hittingCost := CostFn.new 1 (SingleCostFn.certain fun t x => .ok (Cost.raw ((nearF t (x.headD 0) : ℚ) : ECost)))

/-- The instances of the first `T` slots. -/
def nearHistory (T : ℕ) : List (Online (SCO ℚ Unit Unit)) := (List.range T).map fun i : ℕ => ⟨nearQ ((i + 1 : ℕ) : Int), 0⟩

theorem near_slot (T t : Int) (ht : 1 ≤ t) :
    Slot (nearQ T) t (fun x => ((nearF t (x.headD 0) : ℚ) : ECost)) (fun x => 1 / 2 * x.headD 0 ^ 2) where
  box := by
    intro b hb
    simp only [nearQ, List.mem_singleton] at hb
    subst hb
    exact ⟨by norm_num, ⟨0, by norm_num⟩, ⟨100, by norm_num⟩⟩
  dim := rfl
  certain := by
    intro x _
    exact ⟨.success (), by rw [nearQ, CostFn.callCertain_certain _ _ ht]; rfl⟩
  mean := by
    intro x _
    exact ⟨.success (), by rw [nearQ, CostFn.callMean_certain _ _ ht]; rfl⟩
  moves := fun _ _ => rfl

theorem near_get (T i : ℕ) (o : Online (SCO ℚ Unit Unit)) (ho : (nearHistory T)[i]? = some o) :
    o = ⟨nearQ ((i + 1 : ℕ) : Int), 0⟩ := by
  simp only [nearHistory, List.getElem?_map, Option.map_eq_some_iff] at ho
  obtain ⟨j, hj, rfl⟩ := ho
  have : j = i := by
    rw [List.getElem?_eq_some_iff] at hj
    obtain ⟨h, e⟩ := hj
    simpa using e.symm
  subst this
  rfl

theorem near_shown (T : ℕ) : ∀ (i : Nat) (o : Online (SCO ℚ Unit Unit)), (nearHistory T)[i]? = some o → o.w = 0 ∧ o.p.bounds = [(0, 1)] ∧
    Slot o.p ((i + 1 : Nat) : Int) (fun x => ((nearF ((i + 1 : Nat) : Int) (x.headD 0) : ℚ) : ECost)) (fun x => 1 / 2 * x.headD 0 ^ 2) := by
  intro i o ho
  rw [near_get T i o ho]
  exact ⟨rfl, rfl, near_slot _ _ (by push_cast; omega)⟩

theorem near_convex (t : Int) : StronglyConvex 1 (1 / 6) (nearF t) := by
  intro x y c _ _ _ _ _ _
  unfold nearF
  apply le_of_eq
  ring

theorem near_grows (t : Int) : Grows 1 (1 / 6) (nearF t) := by
  intro v _ _ _ hv x _ _ _
  have h := hv (1 / 100) (by norm_num) (by norm_num) ⟨1, by norm_num⟩
  unfold nearF at h ⊢
  have h1 : (v - 1 / 100) ^ 2 ≤ 0 := by linarith [h, show (1 : ℚ) / 12 * (1 / 100 - 1 / 100) ^ 2 = 0 by norm_num]
  have h2 : v - 1 / 100 = 0 := by
    have : (v - 1 / 100) ^ 2 = 0 := le_antisymm h1 (sq_nonneg _)
    simpa using this
  have : v = 1 / 100 := by linarith
  subst this
  apply le_of_eq
  ring

/-- In every slot of this history the algorithm stays at zero. -/
theorem near_stays (S : Solver) (hS : Inner S) (hE : Exact S) (l1 : ℚ) (hl : 1 / 6 < l1) (o : Online (SCO ℚ Unit Unit)) (n : ℕ)
    (ho : o = ⟨nearQ ((n + 1 : ℕ) : Int), 0⟩) :
    (robd S l1 0).call o (n + 1) (List.replicate n [0]) () = .ok ([0], none) := by
  subst ho
  have hlat : latest 1 (List.replicate n ([0] : Config ℚ)) = [0] := by
    cases n with
    | zero => rfl
    | succ n => simp [latest, List.getLast?_replicate]
  obtain ⟨x, v, c1, c2, c3, c4, -, -, -, -, c9⟩ := robd_call S hS hE ⟨nearQ ((n + 1 : ℕ) : Int), 0⟩ rfl 1 rfl nearF (List.replicate n [0])
    (by intro x hx; rw [List.eq_of_mem_replicate hx]; rfl) (near_slot _ _ (by omega)) l1 0 0 hlat
  have h0 := c9 0 le_rfl zero_le_one ⟨0, by norm_num⟩
  unfold nearF at h0
  obtain ⟨z, hz⟩ := c4
  have hx : x = 0 := by
    by_contra hne
    have hpos : 0 < x := lt_of_le_of_ne c2 (Ne.symm hne)
    have hz1 : 1 ≤ z := by
      have : (0 : ℚ) < z := by linarith
      exact_mod_cast this
    have hge : 1 / 100 ≤ x := by
      have : (1 : ℚ) ≤ z := by exact_mod_cast hz1
      linarith
    nlinarith [mul_pos (sub_pos.2 hl) (mul_pos hpos hpos), mul_nonneg hpos.le (sub_nonneg.2 hge)]
  subst hx
  rw [List.length_replicate] at c1
  exact c1

theorem near_run (S : Solver) (hS : Inner S) (hE : Exact S) (l1 : ℚ) (hl : 1 / 6 < l1) : ∀ (n j : ℕ),
    Run (fun p : SCO ℚ Unit Unit => p.tEnd) (robd S l1 0) (List.replicate j [0]) none
      ((List.range n).map fun i : ℕ => ⟨nearQ ((j + i + 1 : ℕ) : Int), 0⟩) (List.replicate (j + n) [0]) none := by
  intro n
  induction n with
  | zero => intro j; exact .nil _ _
  | succ n ih =>
    intro j
    rw [List.range_succ_eq_map, List.map_cons, List.map_map]
    have hrest := ih (j + 1)
    refine .step _ _ _ _ [0] none _ _ (by simp [nearQ]) ?_ ?_
    · have := near_stays S hS hE l1 hl ⟨nearQ ((j + 0 + 1 : ℕ) : Int), 0⟩ j rfl
      rw [List.length_replicate]
      exact this
    · have e : List.replicate j ([0] : Config ℚ) ++ [[0]] = List.replicate (j + 1) [0] := by rw [List.replicate_succ']
      rw [e, show j + (n + 1) = j + 1 + n by ring]
      have e2 : (List.range n).map ((fun i : ℕ => (⟨nearQ ((j + i + 1 : ℕ) : Int), 0⟩ : Online (SCO ℚ Unit Unit))) ∘ Nat.succ) =
          (List.range n).map fun i : ℕ => ⟨nearQ ((j + 1 + i + 1 : ℕ) : Int), 0⟩ := by
        apply List.map_congr_left
        intro i _
        simp only [Function.comp, Nat.succ_eq_add_one]
        rw [show j + (i + 1) + 1 = j + 1 + i + 1 by ring]
      rw [e2]
      exact hrest

/-- **C78** (refuted). Hitting costs are `1/6`-strongly convex with their minimum on the grid, and the weights are those of the code
(`l1 = 1/3`). Every step towards the minimum of the hitting cost would pay off, but a step of the numeric precision is too long: the
algorithm stays at zero for all slots and pays `T / 120000`. Going to the minimum costs `1 / 20000`. So no ratio holds. -/
theorem C78_precision_counterexample (S : Solver) (hS : Inner S) (hE : Exact S) (eps : ℚ) (he : 0 < eps) (T : ℕ) :
    buildParameters 5 (1 / 6) 1 eps = (1 / 3, 0) ∧ (5 : ℚ) ^ 2 = 1 + 4 / (1 / 6) ∧
    (∀ t, StronglyConvex 1 (1 / 6) (nearF t)) ∧ (∀ t, Grows 1 (1 / 6) (nearF t)) ∧
    Run (fun p : SCO ℚ Unit Unit => p.tEnd) (robd S (1 / 3) 0) [] none (nearHistory T) (List.replicate T [0]) none ∧
    totalCost (fun t (x : Config ℚ) => ((nearF t (x.headD 0) : ℚ) : ECost))
      (fun a b : Config ℚ => 1 / 2 * (List.zipWith (· - ·) b a).headD 0 ^ 2) 1 1 [0] (List.replicate T [0]) =
        ((T / 120000 : ℚ) : ECost) ∧
    (0 < T → totalCost (fun t (x : Config ℚ) => ((nearF t (x.headD 0) : ℚ) : ECost))
      (fun a b : Config ℚ => 1 / 2 * (List.zipWith (· - ·) b a).headD 0 ^ 2) 1 1 [0] (List.replicate T [1 / 100]) =
        ((1 / 20000 : ℚ) : ECost)) := by
  refine ⟨?_, by norm_num, near_convex, near_grows, ?_, ?_, ?_⟩
  · rw [C50_robd_weights 5 (1 / 6) 1 eps (by norm_num) he]
    norm_num
  · have := near_run S hS hE (1 / 3) (by norm_num) T 0
    simpa [nearHistory] using this
  · have key : ∀ (n : ℕ) (t : Int), hitSum nearF t (List.replicate n 0) + 1 * moveSum 0 (List.replicate n 0) = n / 120000 := by
      intro n
      induction n with
      | zero => intro t; simp [hitSum, moveSum]
      | succ n ih =>
        intro t
        have := ih (t + 1)
        simp only [List.replicate_succ, hitSum, moveSum, nearF] at this ⊢
        push_cast
        linarith
    have := totalCost_sum nearF 1 (List.replicate T 0) 1 0
    rw [key, List.map_replicate] at this
    exact this
  · intro hT
    obtain ⟨n, rfl⟩ : ∃ n, T = n + 1 := ⟨T - 1, by omega⟩
    have key : ∀ (n : ℕ) (t : Int), hitSum nearF t (List.replicate n (1 / 100)) + 1 * moveSum (1 / 100) (List.replicate n (1 / 100)) = 0 := by
      intro n
      induction n with
      | zero => intro t; simp [hitSum, moveSum]
      | succ n ih =>
        intro t
        have := ih (t + 1)
        simp only [List.replicate_succ, hitSum, moveSum, nearF] at this ⊢
        linarith
    have := totalCost_sum nearF 1 (List.replicate (n + 1) (1 / 100)) 1 0
    have k := key n (1 + 1)
    rw [List.map_replicate] at this
    refine this.trans ?_
    rw [WithTop.coe_eq_coe]
    simp only [List.replicate_succ, hitSum, moveSum, nearF] at k ⊢
    linarith

/-- Non-vacuity of `C78_robd_partial`: histories of every length, with the weights of the code and `R = 4`. -/
example (T : ℕ) : ∃ (S : Solver) (a c : ℚ), Inner S ∧ Exact S ∧
    totalCost (fun t (x : Config ℚ) => ((nearF t (x.headD 0) : ℚ) : ECost))
      (fun a b : Config ℚ => 1 / 2 * (List.zipWith (· - ·) b a).headD 0 ^ 2) 1 1 [0] (List.replicate T [0]) = (a : ECost) ∧
    a ≤ 4 * c + T * ((1 / 6 + 1 / 3 + 0) ^ 2 / (80000 * (1 / 18) * (1 / 3))) := by
  obtain ⟨S, h1, h2⟩ := exists_exact
  obtain ⟨a, c, ha, -, hac⟩ := C78_robd_partial S h2 h1 1 (1 / 6) (1 / 3) 0 (1 / 18) 4 (by norm_num) (by norm_num) (by norm_num) le_rfl
    (by norm_num) (by norm_num) (by norm_num) (by norm_num) nearF near_convex near_grows
    (by intro t x _ _; unfold nearF; positivity) (nearHistory T) (near_shown T) (List.replicate T [0]) none
    (by have := near_run S h2 h1 (1 / 3) (by norm_num) T 0; simpa [nearHistory] using this)
    (List.replicate T [1 / 100]) (by simp [nearHistory])
    (by intro z hz; rw [List.eq_of_mem_replicate hz]; exact gridPoint_one.2 ⟨_, rfl, by norm_num, by norm_num, ⟨1, by norm_num⟩⟩)
  refine ⟨S, a, c, h2, h1, ha, ?_⟩
  simpa [nearHistory] using hac

end Descent
end Soco
