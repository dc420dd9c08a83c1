import Verif.Spec.DualNorm
import Verif.Props.DualRegret
import Verif.Props.Distance
import Mathlib.Data.Set.Finite.List
import Mathlib.Data.Set.Finite.Lattice
import Mathlib.Order.Interval.Finset.Defs
import Mathlib.Data.Int.Interval
import Mathlib.Data.Set.Finite.Lemmas

/-! # C84: dual norms -/

namespace Soco
namespace Distance
open Spec Num

theorem onGrid_finite (r : ℚ) : { q : ℚ | OnGrid q ∧ |q| ≤ r }.Finite := by
  refine ((Set.finite_Icc (-⌈r * 100⌉) ⌈r * 100⌉).image fun z : ℤ => (z : ℚ) * (1 / 100)).subset ?_
  rintro q ⟨⟨z, rfl⟩, hq⟩
  refine ⟨z, ⟨?_, ?_⟩, rfl⟩
  · have h1 := (abs_le.1 hq).1
    have h2 : -((⌈r * 100⌉ : ℤ) : ℚ) ≤ z := by have := Int.le_ceil (r * 100); linarith
    exact_mod_cast h2
  · have h1 := (abs_le.1 hq).2
    have h2 : (z : ℚ) ≤ ((⌈r * 100⌉ : ℤ) : ℚ) := by have := Int.le_ceil (r * 100); linarith
    exact_mod_cast h2

theorem gridVec_finite (n : Nat) (r : ℚ) : { z : List ℚ | z.length = n ∧ ∀ j ∈ z, OnGrid j ∧ |j| ≤ r }.Finite := by
  have := (onGrid_finite r).to_subtype
  refine ((List.finite_length_eq { q : ℚ | OnGrid q ∧ |q| ≤ r } n).image (List.map Subtype.val)).subset ?_
  rintro z ⟨h1, h2⟩
  refine ⟨z.attach.map fun j => ⟨j.1, h2 j.1 j.2⟩, ?_, ?_⟩
  · show List.length _ = n
    simpa using h1
  simp [Function.comp_def]

/-- A best candidate exists if the unit ball is bounded. -/
theorem exists_best (n : Nat) (ν : List ℚ → ℚ) (h0 : ν (List.replicate n 0) ≤ 1) (r : ℚ)
    (hr : ∀ z : List ℚ, z.length = n → ν z ≤ 1 → ∀ j ∈ z, |j| ≤ r) (x : List ℚ) :
    ∃ y : List ℚ, (y.length = n ∧ (∀ j ∈ y, OnGrid j) ∧ ν y ≤ 1) ∧
      ∀ z : List ℚ, (z.length = n ∧ (∀ j ∈ z, OnGrid j) ∧ ν z ≤ 1) → inner z x ≤ inner y x := by
  have hfin : { z : List ℚ | z.length = n ∧ (∀ j ∈ z, OnGrid j) ∧ ν z ≤ 1 }.Finite :=
    (gridVec_finite n r).subset fun z hz => ⟨hz.1, fun j hj => ⟨hz.2.1 j hj, hr z hz.1 hz.2.2 j hj⟩⟩
  obtain ⟨y, hy, hb⟩ := Set.exists_max_image _ (fun z => inner z x) hfin
    ⟨List.replicate n 0, by simp, by
      intro j hj
      rw [List.mem_replicate] at hj
      rw [hj.2]
      exact ⟨0, by norm_num⟩, h0⟩
  exact ⟨y, hy, fun z hz => hb z hz⟩

theorem meets_ball {N : List ℚ → Res ℚ} {ν : List ℚ → ℚ} {z : List ℚ} (h : N z = .ok (ν z)) :
    Meets [unitBall N] z ↔ ν z ≤ 1 := by
  simp only [Meets, List.mem_singleton, forall_eq, unitBall, h, bind, Except.bind]
  constructor
  · rintro ⟨v, h1, h2⟩
    cases h1
    have h2' : (((ν z - 1 : ℚ) : WithTop ℚ) : Slack) ≤ (((0 : ℚ) : WithTop ℚ) : Slack) := h2
    rw [WithBot.coe_le_coe, WithTop.coe_le_coe] at h2'
    linarith
  · intro h1
    refine ⟨_, rfl, ?_⟩
    show (((ν z - 1 : ℚ) : WithTop ℚ) : Slack) ≤ (((0 : ℚ) : WithTop ℚ) : Slack)
    rw [WithBot.coe_le_coe, WithTop.coe_le_coe]
    linarith

theorem visit_ok (f : List ℚ → Res ECost) (cs : List (List ℚ → Res Slack)) (n : Nat) (hf : ∀ z : List ℚ, z.length = n → ∃ v, f z = .ok v)
    (hc : ∀ c ∈ cs, ∀ z : List ℚ, z.length = n → ∃ v, c z = .ok v) : ∀ ps : List (List ℚ), (∀ q ∈ ps, q.length = n) →
      visit f cs ps = .ok ()
  | [], _ => rfl
  | q :: ps, h => by
    have hq : (applyPrecisionVec q).length = n := by simpa [applyPrecisionVec] using h q (by simp)
    obtain ⟨v, hv⟩ := hf _ hq
    have hm : ∃ vs, cs.mapM (fun c => c (applyPrecisionVec q)) = .ok vs := by
      clear h
      induction cs with
      | nil => exact ⟨[], rfl⟩
      | cons c cs ih =>
        obtain ⟨w, hw⟩ := hc c (by simp) _ hq
        obtain ⟨ws, hws⟩ := ih (fun c' h' => hc c' (by simp [h']))
        exact ⟨w :: ws, by simp [List.mapM_cons, hw, hws, bind, Except.bind, pure, Except.pure]⟩
    obtain ⟨vs, hvs⟩ := hm
    simp only [visit, hv, hvs, bind, Except.bind]
    exact visit_ok f cs n hf hc ps fun q' h' => h q' (by simp [h'])

/-- **C84** (values). For a norm that is defined on vectors of the dimension and whose unit ball is bounded, the dual norm is
the largest inner product with a vector in the unit ball, among vectors of multiples of the numeric precision. -/
theorem C84_value (M : Maximizer) (hM : ExactMax M) (n : Nat) (N : List ℚ → Res ℚ) (ν : List ℚ → ℚ)
    (hN : ∀ z, z.length = n → N z = .ok (ν z)) (h0 : ν (List.replicate n 0) ≤ 1) (r : ℚ)
    (hr : ∀ z : List ℚ, z.length = n → ν z ≤ 1 → ∀ j ∈ z, |j| ≤ r) (x : List ℚ) (hx : x.length = n) :
    ∃ v, finiteDual M N x = .ok v ∧ GridDual n ν x v := by
  have hcand : ∀ z, Candidate n [unitBall N] z ↔ z.length = n ∧ (∀ j ∈ z, OnGrid j) ∧ ν z ≤ 1 := by
    intro z
    constructor
    · rintro ⟨a, b, c⟩
      exact ⟨a, b, (meets_ball (hN z a)).1 c⟩
    · rintro ⟨a, b, c⟩
      exact ⟨a, b, (meets_ball (hN z a)).2 c⟩
  obtain ⟨y, hy, hb⟩ := exists_best n ν h0 r hr x
  obtain ⟨hc, hbest⟩ := hM.best n (fun z => .ok (Config.dot z x)) (List.replicate n 0) [unitBall N] (fun z => inner z x)
    (fun _ _ => rfl) ⟨y, (hcand y).2 hy, fun z hz => hb z ((hcand z).1 hz)⟩
  refine ⟨inner (applyPrecisionVec (M n (fun z => .ok (Config.dot z x)) (List.replicate n 0) [unitBall N]).x) x, ?_, ?_, ?_⟩
  · simp only [finiteDual, unboundedMaximizer, hx]
    have hv := visit_ok (fun z => do
        let v ← (Except.ok (Config.dot z x) : Res ℚ)
        .ok (v : ECost)) [unitBall N] n (fun z _ => ⟨_, rfl⟩) (by
      intro c hc z hz
      simp only [List.mem_singleton] at hc
      subst hc
      simp only [unitBall, hN z hz, bind, Except.bind]
      exact ⟨_, rfl⟩) _ (hM.probes n (fun z => .ok (Config.dot z x)) (List.replicate n 0) [unitBall N])
    rw [hv]
    simp only [bind, Except.bind, assertP]
    rw [if_pos (by simpa using hM.ends n _ _ _)]
    rfl
  · obtain ⟨a, b, c⟩ := (hcand _).1 hc
    exact ⟨_, a, b, c, rfl⟩
  · rintro q ⟨z, h1, h2, h3, rfl⟩
    exact hbest z ((hcand z).2 ⟨h1, h2, h3⟩)

/-! ## Dual norms are norms -/

theorem inner_neg (z x : List ℚ) : inner (z.map fun a => -a) x = -inner z x := by
  induction z generalizing x with
  | nil => simp [inner]
  | cons a z ih =>
    cases x with
    | nil => simp [inner]
    | cons b x =>
      have := ih x
      simp only [inner, List.map_cons, List.zipWith_cons_cons, List.sum_cons] at this ⊢
      rw [this]; ring

theorem inner_smul (c : ℚ) (z x : List ℚ) : inner z (x.map fun a => c * a) = c * inner z x := by
  induction z generalizing x with
  | nil => simp [inner]
  | cons a z ih =>
    cases x with
    | nil => simp [inner]
    | cons b x =>
      have := ih x
      simp only [inner, List.map_cons, List.zipWith_cons_cons, List.sum_cons] at this ⊢
      rw [this]; ring

theorem inner_add : ∀ (z x y : List ℚ), x.length = y.length → inner z (List.zipWith (· + ·) x y) = inner z x + inner z y
  | [], _, _, _ => by simp [inner]
  | _ :: _, [], [], _ => by simp [inner]
  | a :: z, b :: x, c :: y, h => by
    have := inner_add z x y (by simpa using h)
    simp only [inner, List.zipWith_cons_cons, List.sum_cons] at this ⊢
    rw [this]; ring

theorem inner_zero (z : List ℚ) (n : Nat) : inner z (List.replicate n 0) = 0 := by
  induction z generalizing n with
  | nil => simp [inner]
  | cons a z ih =>
    cases n with
    | zero => simp [inner]
    | succ n =>
      have := ih n
      simp only [inner, List.replicate_succ, List.zipWith_cons_cons, List.sum_cons] at this ⊢
      rw [this]; ring

theorem onGrid_neg {q : ℚ} (h : OnGrid q) : OnGrid (-q) := by
  obtain ⟨z, rfl⟩ := h
  exact ⟨-z, by push_cast; ring⟩

/-- **C84** (seminorm). The dual of a norm whose unit ball is bounded succeeds on all vectors of the dimension, and is a seminorm. -/
theorem C84_seminorm (M : Maximizer) (hM : ExactMax M) (n : Nat) (N : List ℚ → Res ℚ) (ν : List ℚ → ℚ)
    (hN : ∀ z, z.length = n → N z = .ok (ν z)) (hν : IsNorm (fun c : ℚ => |c|) n ν) (r : ℚ)
    (hr : ∀ z : List ℚ, z.length = n → ν z ≤ 1 → ∀ j ∈ z, |j| ≤ r) :
    ∃ D : List ℚ → ℚ, (∀ x, x.length = n → finiteDual M N x = .ok (D x) ∧ GridDual n ν x (D x)) ∧
      IsSeminorm (fun c : ℚ => |c|) n D := by
  have h0 : ν (List.replicate n 0) ≤ 1 := by rw [hν.zero]; norm_num
  have key := fun x : List ℚ => C84_value M hM n N ν hN h0 r hr x
  obtain ⟨D, hD⟩ : ∃ D : List ℚ → ℚ, ∀ x, x.length = n → finiteDual M N x = .ok (D x) ∧ GridDual n ν x (D x) := by
    have : ∀ x : List ℚ, ∃ v : ℚ, x.length = n → finiteDual M N x = .ok v ∧ GridDual n ν x v := by
      intro x
      by_cases hx : x.length = n
      · obtain ⟨v, hv⟩ := key x hx
        exact ⟨v, fun _ => hv⟩
      · exact ⟨0, fun h => absurd h hx⟩
    choose D hD using this
    exact ⟨D, hD⟩
  have zeroMem : ∀ j ∈ List.replicate n (0 : ℚ), OnGrid j := by
    intro j hj
    rw [List.mem_replicate] at hj
    rw [hj.2]
    exact ⟨0, by norm_num⟩
  have negMem : ∀ z : List ℚ, (∀ j ∈ z, OnGrid j) → ∀ j ∈ z.map fun a => -a, OnGrid j := by
    intro z hz j hj
    rw [List.mem_map] at hj
    obtain ⟨a, ha, rfl⟩ := hj
    exact onGrid_neg (hz a ha)
  have zeroInner : ∀ (m : Nat) (x : List ℚ), inner (List.replicate m 0) x = 0 := by
    intro m x
    induction m generalizing x with
    | zero => simp [inner]
    | succ m ih =>
      cases x with
      | nil => simp [inner]
      | cons a x =>
        have := ih x
        simp only [inner, List.replicate_succ, List.zipWith_cons_cons, List.sum_cons] at this ⊢
        rw [this]; ring
  have nonneg : ∀ x, x.length = n → 0 ≤ D x := by
    intro x hx
    have := (hD x hx).2.2 ⟨List.replicate n 0, by simp, zeroMem, h0, rfl⟩
    rwa [zeroInner] at this
  have pos : ∀ c : ℚ, 0 ≤ c → ∀ x, x.length = n → D (x.map fun a => c * a) = c * D x := by
    intro c hc x hx
    refine ((hD (x.map fun a => c * a) (by simpa using hx)).2).unique ⟨?_, ?_⟩
    · obtain ⟨z, h1, h2, h3, h4⟩ := (hD x hx).2.1
      exact ⟨z, h1, h2, h3, by rw [inner_smul, h4]⟩
    · rintro q ⟨z, h1, h2, h3, rfl⟩
      rw [inner_smul]
      exact mul_le_mul_of_nonneg_left ((hD x hx).2.2 ⟨z, h1, h2, h3, rfl⟩) hc
  have symm : ∀ x, x.length = n → D (x.map fun a => -a) = D x := by
    intro x hx
    have e : (x.map fun a => -a) = x.map fun a => (-1) * a := by simp
    refine ((hD (x.map fun a => -a) (by simpa using hx)).2).unique ⟨?_, ?_⟩
    · obtain ⟨z, h1, h2, h3, h4⟩ := (hD x hx).2.1
      refine ⟨z.map fun a => -a, by simpa using h1, negMem z h2, by rwa [hν.symm z h1], ?_⟩
      rw [e, inner_smul, inner_neg, h4]; ring
    · rintro q ⟨z, h1, h2, h3, rfl⟩
      rw [e, inner_smul, neg_one_mul, ← inner_neg]
      exact (hD x hx).2.2 ⟨z.map fun a => -a, by simpa using h1, negMem z h2, by rwa [hν.symm z h1], rfl⟩
  refine ⟨D, hD, ?_⟩
  exact
    { nonneg := nonneg
      zero := by
        refine ((hD (List.replicate n 0) (by simp)).2).unique ⟨?_, ?_⟩
        · exact ⟨List.replicate n 0, by simp, zeroMem, h0, (zeroInner _ _).symm⟩
        · rintro q ⟨z, h1, h2, h3, rfl⟩
          rw [inner_zero]
      symm := symm
      homogeneous := by
        intro c x hx
        rcases le_total 0 c with hc | hc
        · simp only [abs_of_nonneg hc]
          exact pos c hc x hx
        · simp only [abs_of_nonpos hc]
          have := pos (-c) (by linarith) (x.map fun a => -a) (by simpa using hx)
          rw [symm x hx, List.map_map] at this
          rw [← this]
          congr 1
          exact List.map_congr_left fun a _ => by simp
      triangle := by
        intro x y hx hy
        obtain ⟨z, h1, h2, h3, h4⟩ := (hD (List.zipWith (· + ·) x y) (by simp [hx, hy])).2.1
        rw [h4, inner_add z x y (hx.trans hy.symm)]
        exact add_le_add ((hD x hx).2.2 ⟨z, h1, h2, h3, rfl⟩) ((hD y hy).2.2 ⟨z, h1, h2, h3, rfl⟩) }

/-! ## Comparison with the dual over all vectors -/

/-- Truncation to a multiple of the precision. -/
def towardZero (q : ℚ) : ℚ := if 0 ≤ q then (⌊q * 100⌋ : ℚ) * (1 / 100) else (⌈q * 100⌉ : ℚ) * (1 / 100)

theorem towardZero_grid (q : ℚ) : OnGrid (towardZero q) := by
  unfold towardZero
  split
  · exact ⟨⌊q * 100⌋, rfl⟩
  · exact ⟨⌈q * 100⌉, rfl⟩

theorem towardZero_le (q : ℚ) : |towardZero q| ≤ |q| ∧ |q - towardZero q| ≤ 1 / 100 := by
  unfold towardZero
  split
  · rename_i h
    have h1 := Int.floor_le (q * 100)
    have h2 := Int.lt_floor_add_one (q * 100)
    have h3 : (0 : ℚ) ≤ (⌊q * 100⌋ : ℚ) := by exact_mod_cast Int.floor_nonneg.2 (by linarith)
    rw [abs_of_nonneg (by linarith), abs_of_nonneg h, abs_of_nonneg (by linarith)]
    constructor <;> linarith
  · rename_i h
    push Not at h
    have h1 := Int.le_ceil (q * 100)
    have h2 := Int.ceil_lt_add_one (q * 100)
    have h3 : (⌈q * 100⌉ : ℚ) ≤ 0 := by exact_mod_cast Int.ceil_le.2 (by push_cast; linarith)
    rw [abs_of_nonpos (by linarith), abs_of_neg h, abs_of_nonpos (by linarith)]
    constructor <;> linarith

theorem inner_trunc : ∀ (y x : List ℚ), inner y x ≤ inner (y.map towardZero) x + (x.map fun a => |a|).sum / 100
  | [], x => by
    have : 0 ≤ (x.map fun a : ℚ => |a|).sum := List.sum_nonneg (by simp)
    simp only [inner, List.zipWith_nil_left, List.map_nil, List.sum_nil, zero_add]
    positivity
  | _ :: _, [] => by simp [inner]
  | b :: y, a :: x => by
    have ih := inner_trunc y x
    simp only [inner, List.map_cons, List.zipWith_cons_cons, List.sum_cons] at ih ⊢
    have h1 : (b - towardZero b) * a ≤ |b - towardZero b| * |a| := by
      rw [← abs_mul]; exact le_abs_self _
    have h2 := mul_le_mul_of_nonneg_right (towardZero_le b).2 (abs_nonneg a)
    nlinarith

/-- Entries that are smaller in size do not make the norm larger. -/
def MonotoneNorm (n : Nat) (ν : List ℚ → ℚ) : Prop :=
  ∀ y z : List ℚ, y.length = n → List.Forall₂ (fun a b => |a| ≤ |b|) z y → ν z ≤ ν y

/-- **C84** (generalised Cauchy-Schwarz inequality). The inner product of two vectors is at most the norm of one times the dual norm of the
other, up to the numeric precision; and the dual norm is attained in the unit ball. -/
theorem C84_inner (M : Maximizer) (hM : ExactMax M) (n : Nat) (N : List ℚ → Res ℚ) (ν : List ℚ → ℚ)
    (hN : ∀ z, z.length = n → N z = .ok (ν z)) (hν : IsNorm (fun c : ℚ => |c|) n ν) (hm : MonotoneNorm n ν) (r : ℚ)
    (hr : ∀ z : List ℚ, z.length = n → ν z ≤ 1 → ∀ j ∈ z, |j| ≤ r) (x : List ℚ) (hx : x.length = n) :
    ∃ v, finiteDual M N x = .ok v ∧
      (∀ y : List ℚ, y.length = n → inner y x ≤ ν y * (v + (x.map fun a => |a|).sum / 100)) ∧
      ∃ y : List ℚ, y.length = n ∧ ν y ≤ 1 ∧ inner y x = v := by
  have h0 : ν (List.replicate n 0) ≤ 1 := by rw [hν.zero]; norm_num
  obtain ⟨v, h1, h2⟩ := C84_value M hM n N ν hN h0 r hr x hx
  have unit : ∀ y : List ℚ, y.length = n → ν y ≤ 1 → inner y x ≤ v + (x.map fun a => |a|).sum / 100 := by
    intro y hy hy1
    refine (inner_trunc y x).trans (add_le_add ?_ le_rfl)
    refine h2.2 ⟨y.map towardZero, by simpa using hy, ?_, (hm y _ hy ?_).trans hy1, rfl⟩
    · intro j hj
      rw [List.mem_map] at hj
      obtain ⟨a, _, rfl⟩ := hj
      exact towardZero_grid a
    · rw [List.forall₂_map_left_iff]
      exact List.forall₂_same.2 fun a _ => (towardZero_le a).1
  refine ⟨v, h1, ?_, ?_⟩
  · intro y hy
    rcases (hν.nonneg y hy).lt_or_eq with hpos | hz
    · have := unit (y.map fun a => (ν y)⁻¹ * a) (by simpa using hy) (by
        rw [hν.homogeneous _ _ hy, abs_of_pos (inv_pos.2 hpos), inv_mul_cancel₀ hpos.ne'])
      have e : inner (y.map fun a => (ν y)⁻¹ * a) x = (ν y)⁻¹ * inner y x := by
        have h := inner_smul (ν y)⁻¹ x y
        have comm : ∀ a b : List ℚ, inner a b = inner b a := fun a b => by
          unfold inner
          rw [List.zipWith_comm_of_comm fun a b => mul_comm a b]
        rw [comm, h, comm]
      rw [e, inv_mul_le_iff₀ hpos] at this
      exact this
    · rw [← hz, hν.definite y hy hz.symm, zero_mul]
      clear hx h1 h2 unit
      have : ∀ (m : Nat) (x : List ℚ), inner (List.replicate m 0) x = 0 := by
        intro m
        induction m with
        | zero => simp [inner]
        | succ m ih =>
          intro x
          cases x with
          | nil => simp [inner]
          | cons a x =>
            have := ih x
            simp only [inner, List.replicate_succ, List.zipWith_cons_cons, List.sum_cons] at this ⊢
            rw [this]; ring
      rw [this]
  · obtain ⟨z, a, _, b, c⟩ := h2.1
    exact ⟨z, a, b, c.symm⟩

/-! ## The Manhattan norm -/

theorem toQ_id (q : ℚ) : toQ q = q := rfl

theorem manhattan_mem : ∀ (z : List ℚ), manhattan z ≤ 1 → ∀ j ∈ z, |j| ≤ 1 := by
  intro z hz j hj
  refine le_trans ?_ hz
  exact List.single_le_sum (by simp) _ (List.mem_map.2 ⟨j, hj, rfl⟩)

theorem inner_le_max (v : ℚ) : ∀ (z x : List ℚ), (∀ j ∈ x, |j| ≤ v) → 0 ≤ v → inner z x ≤ v * manhattan z
  | [], x, _, _ => by simp [inner, manhattan]
  | b :: z, [], _, hv => by
    have : 0 ≤ manhattan (T := ℚ) (b :: z) := List.sum_nonneg (by simp)
    simpa [inner] using mul_nonneg hv this
  | b :: z, a :: x, h, hv => by
    have ih := inner_le_max v z x (fun j hj => h j (by simp [hj])) hv
    have h1 := h a (by simp)
    simp only [inner, manhattan, List.map_cons, List.zipWith_cons_cons, List.sum_cons, toQ_id] at ih ⊢
    have h2 : b * a ≤ |b| * |a| := by rw [← abs_mul]; exact le_abs_self _
    nlinarith [mul_le_mul_of_nonneg_left h1 (abs_nonneg b)]

/-- A unit vector, or its negative. -/
theorem unit_inner : ∀ (x : List ℚ) (j : ℚ), j ∈ x → ∃ z : List ℚ, z.length = x.length ∧ (∀ a ∈ z, OnGrid a) ∧ manhattan z = 1 ∧
    inner z x = |j|
  | a :: x, j, hj => by
    have zeros : ∀ (m : Nat) (x : List ℚ), inner (List.replicate m 0) x = 0 := by
      intro m
      induction m with
      | zero => simp [inner]
      | succ m ih =>
        intro x
        cases x with
        | nil => simp [inner]
        | cons a x =>
          have := ih x
          simp only [inner, List.replicate_succ, List.zipWith_cons_cons, List.sum_cons] at this ⊢
          rw [this]; ring
    rcases List.mem_cons.1 hj with rfl | hj
    · have hz := zeros x.length x
      have e : ∀ m : Nat, ((List.replicate m (0 : ℚ)).map fun j => |toQ j|).sum = 0 := by
        intro m
        simp [toQ_id]
      rcases le_total 0 j with h | h
      · refine ⟨1 :: List.replicate x.length 0, by simp, ?_, ?_, ?_⟩
        · intro b hb
          rcases List.mem_cons.1 hb with rfl | hb
          · exact ⟨100, by norm_num⟩
          · rw [(List.mem_replicate.1 hb).2]; exact ⟨0, by norm_num⟩
        · simp only [manhattan, List.map_cons, List.sum_cons, e, toQ_id]; norm_num
        · simp only [inner, List.zipWith_cons_cons, List.sum_cons] at hz ⊢
          rw [hz, abs_of_nonneg h]; ring
      · refine ⟨-1 :: List.replicate x.length 0, by simp, ?_, ?_, ?_⟩
        · intro b hb
          rcases List.mem_cons.1 hb with rfl | hb
          · exact ⟨-100, by norm_num⟩
          · rw [(List.mem_replicate.1 hb).2]; exact ⟨0, by norm_num⟩
        · simp only [manhattan, List.map_cons, List.sum_cons, e, toQ_id]; norm_num
        · simp only [inner, List.zipWith_cons_cons, List.sum_cons] at hz ⊢
          rw [hz, abs_of_nonpos h]; ring
    · obtain ⟨z, h1, h2, h3, h4⟩ := unit_inner x j hj
      refine ⟨0 :: z, by simp [h1], ?_, ?_, ?_⟩
      · intro b hb
        rcases List.mem_cons.1 hb with rfl | hb
        · exact ⟨0, by norm_num⟩
        · exact h2 b hb
      · simp only [manhattan, List.map_cons, List.sum_cons, toQ_id] at h3 ⊢
        rw [h3]; norm_num
      · simp only [inner, List.zipWith_cons_cons, List.sum_cons] at h4 ⊢
        rw [h4]; ring

/-- **C84** (Manhattan norm). The dual of the Manhattan norm is the maximum norm, exactly. -/
theorem C84_manhattan (M : Maximizer) (hM : ExactMax M) (x : List ℚ) :
    ∃ v, finiteDual M (fun z => .ok (manhattan z)) x = .ok v ∧ 0 ≤ v ∧ (∀ j ∈ x, |j| ≤ v) ∧ (v = 0 ∨ ∃ j ∈ x, v = |j|) := by
  obtain ⟨v, h1, h2, h3⟩ := C84_value M hM x.length (fun z => .ok (manhattan z)) manhattan (fun _ _ => rfl)
    (by simp [manhattan, toQ_id]) 1 (fun z _ h => manhattan_mem z h) x rfl
  have hge : ∀ j ∈ x, |j| ≤ v := by
    intro j hj
    obtain ⟨z, a, b, c, d⟩ := unit_inner x j hj
    rw [← d]
    exact h3 ⟨z, a, b, c.le, rfl⟩
  obtain ⟨z, a, b, c, d⟩ := h2
  by_cases hx : x = []
  · subst hx
    have : v = 0 := by rw [d]; simp [inner]
    exact ⟨v, h1, this.ge, hge, .inl this⟩
  · obtain ⟨j, hj, hmax⟩ := (by
      have hfin : { j : ℚ | j ∈ x }.Finite := List.finite_toSet x
      exact Set.exists_max_image _ (fun j : ℚ => |j|) hfin (List.exists_mem_of_ne_nil x hx) : ∃ j ∈ x, ∀ i ∈ x, |i| ≤ |j|)
    have hle : v ≤ |j| := by
      rw [d]
      refine (inner_le_max |j| z x (fun i hi => hmax i hi) (abs_nonneg j)).trans ?_
      nlinarith [abs_nonneg j]
    exact ⟨v, h1, (abs_nonneg j).trans (hge j hj), hge, .inr ⟨j, hj, le_antisymm hle (hge j hj)⟩⟩

/-- In one dimension the dual norm is the absolute value, as assumed of dual balanced descent for C81. -/
theorem C84_line (M : Maximizer) (hM : ExactMax M) (N : List ℚ → Res ℚ) (hN : ∀ z : ℚ, N [z] = .ok |z|) (a : ℚ) :
    finiteDual M N [a] = Descent.absDual [a] := by
  obtain ⟨v, h1, h2, h3⟩ := C84_value M hM 1 N (fun z => |z.headD 0|) (by
      intro z hz
      obtain ⟨b, rfl⟩ := List.length_eq_one_iff.1 hz
      exact hN b) (by simp) 1 (by
      intro z hz h j hj
      obtain ⟨b, rfl⟩ := List.length_eq_one_iff.1 hz
      simp only [List.mem_singleton] at hj
      subst hj
      exact h) [a] rfl
  rw [h1]
  show Except.ok v = Except.ok |a|
  congr 1
  refine le_antisymm ?_ ?_
  · obtain ⟨z, e1, -, e3, rfl⟩ := h2
    obtain ⟨b, rfl⟩ := List.length_eq_one_iff.1 e1
    simp only [List.headD_cons] at e3
    simp only [inner, List.zipWith_cons_cons, List.zipWith_nil_left, List.sum_cons, List.sum_nil, add_zero]
    calc b * a ≤ |b| * |a| := by rw [← abs_mul]; exact le_abs_self _
      _ ≤ 1 * |a| := mul_le_mul_of_nonneg_right e3 (abs_nonneg a)
      _ = |a| := one_mul _
  · rcases le_total 0 a with ha | ha
    · rw [abs_of_nonneg ha]
      refine h3 ⟨[1], rfl, ?_, by simp, by simp [inner]⟩
      intro j hj
      simp only [List.mem_singleton] at hj
      exact ⟨100, by rw [hj]; norm_num⟩
    · rw [abs_of_nonpos ha]
      refine h3 ⟨[-1], rfl, ?_, by simp, by simp [inner]⟩
      intro j hj
      simp only [List.mem_singleton] at hj
      exact ⟨-100, by rw [hj]; norm_num⟩

/-! ## What fails -/

/-- **C84 is false of the code** in that dual norms need not be definite, nor approximate the dual in relative terms: points of the unit ball are rounded to
multiples of 0.01. With a switching cost of 400 the Manhattan norm scaled with the switching cost is 200 times the absolute value, no
multiple of 0.01 but 0 is in the unit ball, and the dual norm vanishes, although `1/200` has norm 1 and inner product `x / 200` with `x`. -/
theorem C84_definite_counterexample (M : Maximizer) (hM : ExactMax M) (x : ℚ) :
    finiteDual M (manhattanScaled [400]) [x] = .ok 0 ∧ manhattanScaled [400] ([1 / 200] : Config ℚ) = .ok 1 ∧
      inner [1 / 200] [x] = x / 200 := by
  have hN : ∀ z : List ℚ, z.length = 1 → manhattanScaled [400] z = .ok (200 * |z.headD 0|) := by
    intro z hz
    obtain ⟨b, rfl⟩ := List.length_eq_one_iff.1 hz
    simp only [manhattanScaled, bind, Except.bind, toQ_id, List.headD_cons]
    norm_num
  obtain ⟨v, h1, h2, h3⟩ := C84_value M hM 1 (manhattanScaled [400]) (fun z => 200 * |z.headD 0|) hN (by simp) 1 (by
      intro z hz h j hj
      obtain ⟨b, rfl⟩ := List.length_eq_one_iff.1 hz
      simp only [List.mem_singleton] at hj
      subst hj
      simp only [List.headD_cons] at h
      linarith [abs_nonneg j]) [x] rfl
  refine ⟨?_, ?_, ?_⟩
  · rw [h1]
    congr 1
    obtain ⟨z, e1, e2, e3, rfl⟩ := h2
    obtain ⟨b, rfl⟩ := List.length_eq_one_iff.1 e1
    obtain ⟨i, rfl⟩ := e2 b (by simp)
    simp only [List.headD_cons] at e3
    have hi : i = 0 := by
      by_contra hne
      have h4 : (1 : ℚ) ≤ |(i : ℚ)| := by
        have : (1 : ℤ) ≤ |i| := Int.one_le_abs hne
        exact_mod_cast this
      rw [abs_mul, abs_of_pos (by norm_num : (0 : ℚ) < 1 / 100)] at e3
      linarith
    subst hi
    simp [inner]
  · rw [hN _ rfl]
    norm_num
  · simp only [inner, List.zipWith_cons_cons, List.zipWith_nil_left, List.sum_cons, List.sum_nil]
    ring

/-- **C84** (infinite vectors). The dual norm of a vector with an infinite entry is infinite; otherwise it is that of the finite numbers. -/
theorem C84_infinite (M : Maximizer) (N : List ℚ → Res ℚ) (x : List Slack) :
    (∀ (k : Nat) (s : Slack), x[k]? = some s → (s = ⊤ ∨ s = ⊥) → dualNorm M N x = .ok ⊤) ∧
    (∀ y : List ℚ, x = y.map (fun q : ℚ => ((q : WithTop ℚ) : Slack)) → ∀ v, finiteDual M N y = .ok v →
      dualNorm M N x = .ok (v : ECost)) := by
  constructor
  · intro k s hk hs
    have : Descent.allFinite x = none := Descent.allFinite_none x k s hk (by rcases hs with rfl | rfl <;> rfl)
    simp only [dualNorm, this]
  · rintro y rfl v hv
    have : Descent.allFinite (y.map fun q : ℚ => ((q : WithTop ℚ) : Slack)) = some y := by
      unfold Descent.allFinite
      clear hv
      induction y with
      | nil => rfl
      | cons a y ih =>
        rw [List.map_cons, List.mapM_cons, ih]
        rfl
    simp only [dualNorm, this, hv, bind, Except.bind]

/-! ## Non-vacuity -/

open Classical in
/-- An exact maximiser. -/
theorem exists_exactMax : ∃ M : Maximizer, ExactMax M := by
  let best : Nat → (List ℚ → Res ℚ) → List (List ℚ → Res Slack) → List ℚ → Prop := fun d f cs y =>
    Candidate d cs y ∧ ∀ z, Candidate d cs z → ∀ a b, f z = .ok a → f y = .ok b → a ≤ b
  refine ⟨fun d f _ cs => ⟨[], if h : ∃ y, best d f cs y then h.choose else List.replicate d 0, .done⟩, ?_, ?_, ?_, ?_⟩
  · intro d f init cs
    simp only
    split
    · rename_i h
      exact h.choose_spec.1.1
    · simp
  · intro d f init cs q hq
    simp at hq
  · intro d f init cs
    simp
  · intro d f init cs g hg hy
    have h : ∃ y, best d f cs y := by
      obtain ⟨y, h1, h2⟩ := hy
      refine ⟨y, h1, fun z hz a b ha hb => ?_⟩
      rw [hg z hz.1] at ha
      rw [hg y h1.1] at hb
      cases ha; cases hb
      exact h2 z hz
    simp only [dif_pos h]
    obtain ⟨h1, h2⟩ := h.choose_spec
    rw [applyPrecisionVec_grid h1.2.1]
    exact ⟨h1, fun z hz => h2 z hz _ _ (hg z hz.1) (hg _ h1.1)⟩

/-- Non-vacuity of `C84_value`, `C84_seminorm` and `C84_inner`: the Manhattan norm in any dimension. -/
example (n : Nat) : ∃ M : Maximizer, ExactMax M ∧ (∃ D : List ℚ → ℚ, IsSeminorm (fun c : ℚ => |c|) n D) ∧
    ∀ x : List ℚ, x.length = n → ∃ v, finiteDual M (fun z => .ok (manhattan z)) x = .ok v ∧
      ∀ y : List ℚ, y.length = n → inner y x ≤ manhattan y * (v + (x.map fun a => |a|).sum / 100) := by
  obtain ⟨M, hM⟩ := exists_exactMax
  have hn : IsNorm (fun c : ℚ => |c|) n (manhattan (T := ℚ)) := C49_manhattan n
  have hb : ∀ z : List ℚ, z.length = n → manhattan z ≤ 1 → ∀ j ∈ z, |j| ≤ 1 := fun z _ h => manhattan_mem z h
  obtain ⟨D, -, h⟩ := C84_seminorm M hM n (fun z => .ok (manhattan z)) manhattan (fun _ _ => rfl) hn 1 hb
  refine ⟨M, hM, ⟨D, h⟩, fun x hx => ?_⟩
  obtain ⟨v, h1, h2, -⟩ := C84_inner M hM n (fun z => .ok (manhattan z)) manhattan (fun _ _ => rfl) hn (by
    intro y z hl h
    clear hn hb hl
    unfold manhattan
    induction h with
    | nil => simp
    | cons h1 _ ih =>
      simp only [List.map_cons, List.sum_cons, toQ_id] at ih ⊢
      exact add_le_add h1 ih) 1 hb x hx
  exact ⟨v, h1, h2⟩

/-- A value: the dual of the Manhattan norm of `(3, -4)` is 4. -/
example : ∃ M : Maximizer, finiteDual M (fun z => .ok (manhattan z)) [3, -4] = .ok 4 := by
  obtain ⟨M, hM⟩ := exists_exactMax
  refine ⟨M, ?_⟩
  obtain ⟨v, h1, h2, h3, h4⟩ := C84_manhattan M hM [3, -4]
  rw [h1]
  congr 1
  have a := h3 (-4) (by simp)
  norm_num at a
  rcases h4 with rfl | ⟨j, hj, rfl⟩
  · norm_num at a
  · simp only [List.mem_cons, List.not_mem_nil, or_false] at hj
    rcases hj with rfl | rfl
    · norm_num at a
    · norm_num

/-! ## The Manhattan norm scaled with switching costs -/

theorem halfAbs_mono : ∀ (β : List ℚ), (∀ b ∈ β, 0 ≤ b) → ∀ (y z : List ℚ), List.Forall₂ (fun a b => |a| ≤ |b|) z y → halfAbs β z ≤ halfAbs β y
  | [], _, y, z, _ => by simp [halfAbs]
  | b :: β, hβ, _, _, .nil => le_rfl
  | b :: β, hβ, _, _, .cons (a := a) (b := c) h hs => by
    have ih := halfAbs_mono β (fun b hb => hβ b (by simp [hb])) _ _ hs
    have hb := hβ b (by simp)
    simp only [halfAbs, List.zipWith_cons_cons, List.sum_cons, toQ_id] at ih ⊢
    have := mul_le_mul_of_nonneg_left h (by linarith : 0 ≤ b / 2)
    linarith

theorem halfAbs_ball : ∀ (β : List ℚ), (∀ b ∈ β, 0 < b) → ∀ z : List ℚ, z.length = β.length → halfAbs β z ≤ 1 → ∀ j ∈ z,
    |j| ≤ (β.map fun b => 2 / b).sum
  | [], _, [], _, _, j, hj => by simp at hj
  | b :: β, hβ, a :: z, hl, h, j, hj => by
    have hb := hβ b (by simp)
    have hrest : 0 ≤ halfAbs β z :=
      (halfAbs_seminorm (T := ℚ) β (fun c hc => (hβ c (by simp [hc])).le) z.length).nonneg z rfl
    have hsum : 0 ≤ (β.map fun b => 2 / b).sum := List.sum_nonneg (by
      intro q hq
      rw [List.mem_map] at hq
      obtain ⟨c, hc, rfl⟩ := hq
      have := hβ c (by simp [hc])
      positivity)
    have hh : b / 2 * |a| + halfAbs β z ≤ 1 := h
    rw [List.map_cons, List.sum_cons]
    rcases List.mem_cons.1 hj with rfl | hj
    · have : |j| ≤ 2 / b := by
        rw [le_div_iff₀ hb]
        nlinarith
      linarith
    · have h1 : 0 ≤ b / 2 * |a| := by positivity
      have := halfAbs_ball β (fun c hc => hβ c (by simp [hc])) z (by simpa using hl) (by linarith) j hj
      have h2 : 0 ≤ 2 / b := by positivity
      linarith

/-- **C84** (scaled Manhattan norm). With positive switching costs the dual of the Manhattan norm scaled with them succeeds, and an inner product is at
most half the cost of switching from 0 to `y` and back, times the dual norm, up to the numeric precision. -/
theorem C84_scaled (M : Maximizer) (hM : ExactMax M) (β : List ℚ) (hβ : ∀ b ∈ β, 0 < b) (x : List ℚ) (hx : x.length = β.length) :
    ∃ v, finiteDual M (manhattanScaled β) x = .ok v ∧ 0 ≤ v ∧ ∀ y : List ℚ, y.length = β.length →
      ∃ c, manhattanScaled β y = .ok c ∧ inner y x ≤ c * (v + (x.map fun a => |a|).sum / 100) := by
  have hok : ∀ z : List ℚ, z.length = β.length → manhattanScaled β z = .ok (halfAbs β z) := fun z hz => manhattanScaled_ok β z hz.le
  have hn : IsNorm (fun c : ℚ => |c|) β.length (halfAbs (T := ℚ) β) := by
    obtain ⟨N, h1, -, h2, -⟩ := C49_manhattan_scaled (T := ℚ) β fun b hb => (hβ b hb).le
    have h3 := h2 hβ
    have e : ∀ z : List ℚ, z.length = β.length → N z = halfAbs β z := by
      intro z hz
      have := h1 z hz
      rw [hok z hz] at this
      injection this with this
      exact this.symm
    exact { halfAbs_seminorm (T := ℚ) β (fun b hb => (hβ b hb).le) β.length with
      definite := fun z hz h => h3.definite z hz (by rw [e z hz]; exact h) }
  obtain ⟨v, h1, h2, h3⟩ := C84_inner M hM β.length (manhattanScaled β) (halfAbs β) hok hn
    (fun y z _ h => halfAbs_mono β (fun b hb => (hβ b hb).le) y z h) _ (halfAbs_ball β hβ) x hx
  obtain ⟨D, hD, hs⟩ := C84_seminorm M hM β.length (manhattanScaled β) (halfAbs β) hok hn _ (halfAbs_ball β hβ)
  have hv : v = D x := by
    have := (hD x hx).1
    rw [h1] at this
    injection this
  exact ⟨v, h1, hv ▸ hs.nonneg x hx, fun y hy => ⟨_, hok y hy, h2 y hy⟩⟩

/-- Non-vacuity of `C84_scaled`. -/
example : ∃ M : Maximizer, ∃ v, finiteDual M (manhattanScaled [2, 3]) [1, 5] = .ok v ∧ 0 ≤ v := by
  obtain ⟨M, hM⟩ := exists_exactMax
  obtain ⟨v, h1, h2, -⟩ := C84_scaled M hM [2, 3] (by norm_num) [1, 5] rfl
  exact ⟨M, v, h1, h2⟩

end Distance
end Soco
