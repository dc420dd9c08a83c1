import Mathlib.Algebra.BigOperators.Intervals
import Mathlib.Algebra.Order.BigOperators.Group.Finset
import Mathlib.Algebra.BigOperators.Ring.Finset
import Mathlib.Data.Rat.Cast.Order
import Mathlib.Tactic.Linarith
import Mathlib.Tactic.Ring
import Verif.Model.Basic

/-!
# Powering servers down when they have idled for long enough

Auxiliary facts about the costs of sequences of configurations: `F i x` is what the configuration `x` costs in slot `i`,
`β κ` is the cost of powering a server of type `κ` up and `l κ i` the cost of an idle server of type `κ` in slot `i`.
-/

namespace Soco.LazyRatio
open Finset

/-- The number of servers before slot `i`. -/
def pr (z : ℕ → ℤ) : ℕ → ℤ
  | 0 => 0
  | i + 1 => z i

/-- What is paid for powering up in slot `i`. -/
def sw (β : ℚ) (z : ℕ → ℤ) (i : ℕ) : ℚ := β * max 0 ((z i : ℚ) - pr z i)

theorem coe_sum {ι : Type} (s : Finset ι) (f : ι → ℚ) : ((∑ i ∈ s, f i : ℚ) : ECost) = ∑ i ∈ s, (f i : ECost) := by
  classical
  induction s using Finset.induction_on with
  | empty => simp
  | insert a s ha ih => rw [sum_insert ha, sum_insert ha, WithTop.coe_add, ih]

theorem sw_nonneg {β : ℚ} (hβ : 0 ≤ β) (z : ℕ → ℤ) (i : ℕ) : 0 ≤ sw β z i := mul_nonneg hβ (le_max_left _ _)

/-! ### Numbers of power-ups -/

/-- Idle cost in the slots `s + 1, …, i`. -/
def D (l : ℕ → ℚ) (s i : ℕ) : ℚ := ∑ j ∈ Ioc s i, l j

/-- The servers still on in slot `i`. -/
def on (l : ℕ → ℚ) (β : ℚ) (ups : ℕ → ℤ) (i : ℕ) : ℤ := ∑ s ∈ range (i + 1), if D l s i ≤ β then ups s else 0

variable {l : ℕ → ℚ} {β : ℚ}

theorem D_mono (hl : ∀ i, 0 ≤ l i) (s i : ℕ) : D l s i ≤ D l s (i + 1) := by
  apply sum_le_sum_of_subset_of_nonneg
  · intro j hj
    simp only [mem_Ioc] at hj ⊢
    omega
  · intros; exact hl _

theorem D_anti (hl : ∀ i, 0 ≤ l i) {s s' : ℕ} (h : s ≤ s') (i : ℕ) : D l s' i ≤ D l s i := by
  apply sum_le_sum_of_subset_of_nonneg
  · intro j hj
    simp only [mem_Ioc] at hj ⊢
    omega
  · intros; exact hl _

theorem D_self (s : ℕ) : D l s s = 0 := by simp [D]

theorem D_succ (s i : ℕ) (h : s ≤ i) : D l s (i + 1) = D l s i + l (i + 1) := by
  unfold D
  rw [sum_Ioc_succ_top h]

/-- What is paid in the slots `a, …, k` if idle servers cost `l`. -/
theorem window (hβ : 0 ≤ β) (hl : ∀ i, 0 ≤ l i) (z : ℕ → ℤ) (hz : ∀ i, 0 ≤ z i) (a k : ℕ) :
    min β (∑ i ∈ Ico a (a + k + 1), l i) * z (a + k) ≤ ∑ i ∈ Ico a (a + k + 1), (sw β z i + l i * z i) := by
  induction k with
  | zero =>
    simp only [Nat.add_zero, Nat.Ico_succ_singleton, sum_singleton]
    have h1 := sw_nonneg hβ z a
    have h2 : (0 : ℚ) ≤ z a := by exact_mod_cast hz a
    have := mul_le_mul_of_nonneg_right (min_le_right β (l a)) h2
    linarith
  | succ k ih =>
    rw [show a + (k + 1) + 1 = (a + k + 1) + 1 by omega, sum_Ico_succ_top (by omega : a ≤ a + k + 1) l,
      sum_Ico_succ_top (by omega : a ≤ a + k + 1) fun i => sw β z i + l i * z i]
    set Λ := ∑ i ∈ Ico a (a + k + 1), l i
    set T := ∑ i ∈ Ico a (a + k + 1), (sw β z i + l i * z i)
    rw [show a + (k + 1) = a + k + 1 by omega]
    have h0 : (0 : ℚ) ≤ z (a + k + 1) := by exact_mod_cast hz _
    have hl0 := hl (a + k + 1)
    have hΛ : 0 ≤ Λ := sum_nonneg fun i _ => hl i
    have e1 : sw β z (a + k + 1) = β * max 0 ((z (a + k + 1) : ℚ) - z (a + k)) := rfl
    have e2 : min β Λ * ((z (a + k + 1) : ℚ) - z (a + k)) ≤ sw β z (a + k + 1) := by
      rw [e1]
      calc min β Λ * ((z (a + k + 1) : ℚ) - z (a + k)) ≤ min β Λ * max 0 ((z (a + k + 1) : ℚ) - z (a + k)) :=
            mul_le_mul_of_nonneg_left (le_max_right _ _) (le_min hβ hΛ)
        _ ≤ _ := mul_le_mul_of_nonneg_right (min_le_left _ _) (le_max_left _ _)
    have e3 : min β (Λ + l (a + k + 1)) ≤ min β Λ + l (a + k + 1) := by
      rcases le_total β Λ with h | h
      · rw [min_eq_left h]
        exact (min_le_left _ _).trans (by linarith)
      · rw [min_eq_right h]; exact min_le_right _ _
    have e4 := mul_le_mul_of_nonneg_right e3 h0
    rw [add_mul] at e4
    rw [mul_sub] at e2
    linarith

theorem first (hβ : 0 ≤ β) (hl : ∀ i, 0 ≤ l i) (z : ℕ → ℤ) (hz : ∀ i, 0 ≤ z i) (k : ℕ) :
    β * z k ≤ ∑ i ∈ range (k + 1), (sw β z i + l i * z i) := by
  induction k with
  | zero =>
    rw [sum_range_one]
    have : sw β z 0 = β * max 0 ((z 0 : ℚ) - 0) := by simp [sw, pr]
    have h2 : (0 : ℚ) ≤ z 0 := by exact_mod_cast hz 0
    rw [this, sub_zero, max_eq_right h2]
    have := mul_nonneg (hl 0) h2
    linarith
  | succ k ih =>
    rw [sum_range_succ]
    have e1 : sw β z (k + 1) = β * max 0 ((z (k + 1) : ℚ) - z k) := rfl
    have e2 := mul_le_mul_of_nonneg_left (le_max_right 0 ((z (k + 1) : ℚ) - z k)) hβ
    have h2 : (0 : ℚ) ≤ z (k + 1) := by exact_mod_cast hz _
    have := mul_nonneg (hl (k + 1)) h2
    rw [e1]
    linarith

/-- The idle cost of a server while it is on. -/
theorem idle_le (hβ : 0 ≤ β) (hl : ∀ i, 0 ≤ l i) (s n : ℕ) :
    ∑ i ∈ Ioc s (s + n), (if D l s i ≤ β then l i else 0) ≤ min β (D l s (s + n)) := by
  induction n with
  | zero => simp [D_self, hβ]
  | succ n ih =>
    rw [← Nat.add_assoc, sum_Ioc_succ_top (by omega)]
    have hD : D l s (s + n + 1) = D l s (s + n) + l (s + n + 1) := D_succ _ _ (by omega)
    rw [hD]
    have h1 := hl (s + n + 1)
    have h2 := le_min_iff.1 ih
    split
    · rename_i h
      exact le_min (by linarith) (by linarith)
    · exact le_min (by linarith) (by linarith)

theorem on_idle (hβ : 0 ≤ β) (hl : ∀ i, 0 ≤ l i) (e : ℚ) (he : ∀ i, l i ≤ e) (ups : ℕ → ℤ) (hu : ∀ i, 0 ≤ ups i) (N : ℕ) :
    ∑ i ∈ range N, l i * on l β ups i ≤ (β + e) * ((∑ s ∈ range N, ups s : ℤ) : ℚ) := by
  have e1 : ∑ i ∈ range N, l i * (on l β ups i : ℚ) =
      ∑ s ∈ range N, (ups s : ℚ) * ∑ i ∈ Ico s N, (if D l s i ≤ β then l i else 0) := by
    have : ∀ i ∈ range N, l i * (on l β ups i : ℚ) = ∑ s ∈ range N, if s ≤ i then (ups s : ℚ) * (if D l s i ≤ β then l i else 0) else 0 := by
      intro i hi
      rw [← sum_filter, show (range N).filter (fun s => s ≤ i) = range (i + 1) by
        ext s; simp only [mem_filter, mem_range]; have := mem_range.1 hi; omega]
      unfold on
      push_cast
      rw [mul_sum]
      apply sum_congr rfl
      intro s _
      split <;> simp [mul_comm]
    rw [sum_congr rfl this, sum_comm]
    apply sum_congr rfl
    intro s _
    rw [mul_sum, ← sum_filter]
    apply sum_congr
    · ext i
      simp only [mem_filter, mem_range, mem_Ico]
      omega
    · intros; rfl
  rw [e1]
  push_cast
  rw [mul_sum]
  apply sum_le_sum
  intro s hs
  have hsN := mem_range.1 hs
  rw [mul_comm]
  refine mul_le_mul_of_nonneg_right ?_ (by exact_mod_cast hu s)
  have h0 : Ico s N = insert s (Ioc s (s + (N - 1 - s))) := by
    ext i
    simp only [mem_Ico, mem_insert, mem_Ioc]
    omega
  rw [h0, sum_insert (by simp), if_pos (by rw [D_self]; exact hβ)]
  have := (idle_le hβ hl s (N - 1 - s)).trans (min_le_left _ _)
  have := he s
  linarith

theorem on_step (hβ : 0 ≤ β) (hl : ∀ i, 0 ≤ l i) (ups : ℕ → ℤ) (hu : ∀ i, 0 ≤ ups i) (i : ℕ) :
    on l β ups i - pr (on l β ups) i ≤ ups i := by
  cases i with
  | zero => simp [on, pr, D_self, hβ]
  | succ i =>
    simp only [pr]
    have : on l β ups (i + 1) = (∑ s ∈ range (i + 1), if D l s (i + 1) ≤ β then ups s else 0) + ups (i + 1) := by
      unfold on
      rw [sum_range_succ, if_pos (by rw [D_self]; exact hβ)]
    rw [this]
    have : (∑ s ∈ range (i + 1), if D l s (i + 1) ≤ β then ups s else 0) ≤ on l β ups i := by
      apply sum_le_sum
      intro s _
      by_cases h : D l s (i + 1) ≤ β
      · rw [if_pos h, if_pos ((D_mono hl s i).trans h)]
      · rw [if_neg h]
        split
        · exact hu s
        · exact le_refl _
    linarith

/-! ### Several types -/

/-- The servers of type `κ`. -/
def co (z : ℕ → List ℤ) (κ : ℕ) (i : ℕ) : ℤ := (z i).getD κ 0

/-- What is paid for powering up in slot `i`. -/
def SW (d : ℕ) (β : ℕ → ℚ) (z : ℕ → List ℤ) (i : ℕ) : ℚ := ∑ κ ∈ range d, sw (β κ) (co z κ) i

/-- What the first `n` slots cost. -/
def C (F : ℕ → List ℤ → ECost) (d : ℕ) (β : ℕ → ℚ) (z : ℕ → List ℤ) (n : ℕ) : ECost :=
  ∑ i ∈ range n, (F i (z i) + (SW d β z i : ECost))

theorem C_succ (F : ℕ → List ℤ → ECost) (d : ℕ) (β : ℕ → ℚ) (z : ℕ → List ℤ) (n : ℕ) :
    C F d β z (n + 1) = C F d β z n + (F n (z n) + (SW d β z n : ECost)) := sum_range_succ _ _

theorem pr_congr (z w : ℕ → ℤ) (n : ℕ) (h : ∀ i < n, z i = w i) : pr z n = pr w n := by
  cases n with
  | zero => rfl
  | succ i => exact h i (by omega)

theorem C_congr (F : ℕ → List ℤ → ECost) (d : ℕ) (β : ℕ → ℚ) (z w : ℕ → List ℤ) (n : ℕ) (h : ∀ i < n, z i = w i) :
    C F d β z n = C F d β w n := by
  apply sum_congr rfl
  intro i hi
  have hi := mem_range.1 hi
  rw [h i hi]
  congr 2
  apply sum_congr rfl
  intro κ _
  have : pr (co z κ) i = pr (co w κ) i := by
    apply pr_congr
    intro j hj
    simp only [co]
    rw [h j (by omega)]
  rw [sw, sw, this]
  simp only [co]
  rw [h i hi]

theorem C_Ico (F : ℕ → List ℤ → ECost) (d : ℕ) (β : ℕ → ℚ) (z : ℕ → List ℤ) (a b : ℕ) (h : a ≤ b) :
    C F d β z b = C F d β z a + ∑ i ∈ Ico a b, (F i (z i) + (SW d β z i : ECost)) := by
  unfold C
  rw [range_eq_Ico, range_eq_Ico, sum_Ico_consecutive _ (Nat.zero_le a) h]

theorem SW_nonneg {d : ℕ} {β : ℕ → ℚ} (hβ : ∀ κ < d, 0 ≤ β κ) (z : ℕ → List ℤ) (i : ℕ) : 0 ≤ SW d β z i :=
  sum_nonneg fun κ hκ => sw_nonneg (hβ κ (mem_range.1 hκ)) _ _

theorem SW_ge {d : ℕ} {β : ℕ → ℚ} (hβ : ∀ κ < d, 0 ≤ β κ) (z : ℕ → List ℤ) (i κ : ℕ) (hκ : κ < d) :
    sw (β κ) (co z κ) i ≤ SW d β z i :=
  single_le_sum (f := fun κ => sw (β κ) (co z κ) i) (fun κ hκ => sw_nonneg (hβ κ (mem_range.1 hκ)) _ _) (mem_range.2 hκ)

/-- `y` is optimal for the first `n` slots, among the sequences in `B`. -/
structure Best (F : ℕ → List ℤ → ECost) (d : ℕ) (β : ℕ → ℚ) (B : List ℤ → Prop) (n : ℕ) (y : ℕ → List ℤ) : Prop where
  box : ∀ i, B (y i)
  least : ∀ z : ℕ → List ℤ, (∀ i, B (z i)) → C F d β y n ≤ C F d β z n

/-- The hitting costs of the last configurations of the optima of prefixes are at most the cost of any sequence. -/
theorem hits_le (F : ℕ → List ℤ → ECost) {d : ℕ} {β : ℕ → ℚ} (hβ : ∀ κ < d, 0 ≤ β κ) (B : List ℤ → Prop) (N : ℕ)
    (Y : ℕ → ℕ → List ℤ) (hY : ∀ n < N, Best F d β B (n + 1) (Y n)) (z : ℕ → List ℤ) (hz : ∀ i, B (z i)) :
    ∑ i ∈ range N, F i (Y i i) ≤ C F d β z N := by
  induction N generalizing z with
  | zero => simp [C]
  | succ N ih =>
    have b := hY N (by omega)
    refine le_trans ?_ (b.least z hz)
    rw [sum_range_succ, C_succ]
    refine add_le_add (ih (fun n hn => hY n (by omega)) _ b.box) ?_
    exact le_add_of_nonneg_right (WithTop.coe_nonneg.2 (SW_nonneg hβ _ _))

/-- Powering up servers of type `κ` costs at most as much as any sequence, if there are only as many as in the last
configuration of an optimum for the slots so far whenever some are powered up. -/
theorem ups_le (F : ℕ → List ℤ → ECost) {d : ℕ} {β : ℕ → ℚ} (hβ : ∀ κ < d, 0 ≤ β κ) (B : List ℤ → Prop) (N : ℕ)
    (Y : ℕ → ℕ → List ℤ) (hY : ∀ n < N, Best F d β B (n + 1) (Y n)) (κ : ℕ) (hκ : κ < d) {l : ℕ → ℚ} (hl : ∀ i, 0 ≤ l i)
    (hB : ∀ x, B x → 0 ≤ x.getD κ 0) (hF : ∀ i < N, ∀ x, B x → ((l i * (x.getD κ 0 : ℤ) : ℚ) : ECost) ≤ F i x)
    (ups : ℕ → ℤ) (hu : ∀ i, 0 ≤ ups i) (hon : ∀ i < N, 0 < ups i → on l (β κ) ups i ≤ (Y i i).getD κ 0) (n : ℕ) (hn : n ≤ N)
    (z : ℕ → List ℤ) (hz : ∀ i, B (z i)) :
    ((β κ * ((∑ s ∈ range n, ups s : ℤ) : ℚ) : ℚ) : ECost) ≤ C F d β z n := by
  have hb := hβ κ hκ
  -- what is paid in some slots
  have hpay : ∀ (y : ℕ → List ℤ), (∀ i, B (y i)) → ∀ s : Finset ℕ, (∀ i ∈ s, i < N) →
      ((∑ i ∈ s, (sw (β κ) (co y κ) i + l i * co y κ i) : ℚ) : ECost) ≤ ∑ i ∈ s, (F i (y i) + (SW d β y i : ECost)) := by
    intro y hy s hs
    rw [coe_sum]
    apply sum_le_sum
    intro i hi
    rw [WithTop.coe_add, add_comm]
    exact add_le_add (hF i (hs i hi) _ (hy i)) (WithTop.coe_le_coe.2 (SW_ge hβ y i κ hκ))
  have hpos : ∀ (y : ℕ → List ℤ), (∀ i, B (y i)) → ∀ i, 0 ≤ sw (β κ) (co y κ) i + l i * co y κ i := fun y hy i =>
    add_nonneg (sw_nonneg hb _ i) (mul_nonneg (hl i) (by exact_mod_cast hB _ (hy i)))
  induction n using Nat.strong_induction_on generalizing z with
  | _ n ih =>
    cases n with
    | zero => simp [C]
    | succ τ =>
      rcases (hu τ).lt_or_eq with h | h
      · have b := hY τ (by omega)
        refine le_trans ?_ (b.least z hz)
        obtain ⟨y, hy⟩ : ∃ y, y = Y τ := ⟨_, rfl⟩
        rw [← hy] at b ⊢
        have hex : ∃ a, D l a τ ≤ β κ := ⟨τ, by rw [D_self]; exact hb⟩
        classical
        obtain ⟨a, ha, hmin⟩ : ∃ a, D l a τ ≤ β κ ∧ ∀ b < a, ¬ D l b τ ≤ β κ :=
          ⟨Nat.find hex, Nat.find_spec hex, fun b hb => Nat.find_min hex hb⟩
        have haτ : a ≤ τ := by
          by_contra hc
          exact hmin τ (by omega) (by rw [D_self]; exact hb)
        have hsum : ∑ s ∈ Ico a (τ + 1), ups s ≤ co y κ τ := by
          refine le_trans (le_of_eq ?_) ((hon τ (by omega) h).trans (le_of_eq (by rw [co, hy])))
          unfold on
          rw [range_eq_Ico, ← sum_Ico_consecutive _ (Nat.zero_le a) (by omega : a ≤ τ + 1)]
          have e1 : ∑ s ∈ Ico 0 a, (if D l s τ ≤ β κ then ups s else 0) = 0 := by
            apply sum_eq_zero
            intro s hs
            rw [if_neg (hmin s (mem_Ico.1 hs).2)]
          rw [e1, zero_add]
          apply sum_congr rfl
          intro s hs
          rw [if_pos ((D_anti hl (mem_Ico.1 hs).1 τ).trans ha)]
        have hsum' : ((∑ s ∈ Ico a (τ + 1), ups s : ℤ) : ℚ) ≤ co y κ τ := by exact_mod_cast hsum
        have hnn : ∀ i, 0 ≤ co y κ i := fun i => hB _ (b.box i)
        have hlast : β κ * co y κ τ ≤ ∑ i ∈ Ico a (τ + 1), (sw (β κ) (co y κ) i + l i * co y κ i) := by
          rcases Nat.eq_zero_or_pos a with h0 | h0
          · subst h0
            rw [← range_eq_Ico]
            exact first hb hl _ hnn τ
          · have hw := window hb hl _ hnn a (τ - a)
            rw [show a + (τ - a) = τ by omega] at hw
            have hΛ : β κ ≤ ∑ i ∈ Ico a (τ + 1), l i := by
              have := hmin (a - 1) (by omega)
              unfold D at this
              rw [show Ioc (a - 1) τ = Ico a (τ + 1) by ext j; simp only [mem_Ioc, mem_Ico]; omega] at this
              exact (not_le.1 this).le
            rwa [min_eq_left hΛ] at hw
        have hrec := ih a (by omega) (by omega) y b.box
        rw [C_Ico F d β y a (τ + 1) (by omega)]
        have h1 : β κ * ((∑ s ∈ range (τ + 1), ups s : ℤ) : ℚ) ≤
            β κ * ((∑ s ∈ range a, ups s : ℤ) : ℚ) + ∑ i ∈ Ico a (τ + 1), (sw (β κ) (co y κ) i + l i * co y κ i) := by
          rw [range_eq_Ico, ← sum_Ico_consecutive _ (Nat.zero_le a) (by omega : a ≤ τ + 1), ← range_eq_Ico]
          rw [Int.cast_add, mul_add]
          have := mul_le_mul_of_nonneg_left hsum' hb
          linarith
        refine (WithTop.coe_le_coe.2 h1).trans ?_
        rw [WithTop.coe_add]
        exact add_le_add hrec (hpay y b.box _ fun i hi => by have := mem_Ico.1 hi; omega)
      · rw [sum_range_succ, ← h, add_zero, C_succ]
        refine (ih τ (by omega) (by omega) z hz).trans (le_add_of_nonneg_right ?_)
        have h1 := hpay z hz {τ} (fun i hi => by rw [mem_singleton] at hi; omega)
        rw [sum_singleton, sum_singleton] at h1
        exact (WithTop.coe_nonneg.2 (hpos z hz τ)).trans h1

/-- The cost of powering servers down as soon as they have idled for more than their switching cost, when `Y n` is
optimal for the first `n + 1` slots, there are always as many servers as in the last of these, and only as many if servers
are powered up. -/
theorem ratio (F : ℕ → List ℤ → ECost) {d : ℕ} (hd : 0 < d) {β : ℕ → ℚ} (hβ : ∀ κ < d, 0 < β κ) (l : ℕ → ℕ → ℚ)
    (hl : ∀ κ i, 0 ≤ l κ i) (ε : ℚ) (hε : 0 < ε) (he : ∀ κ < d, ∀ i, l κ i ≤ ε / d * β κ) (B : List ℤ → Prop) (N : ℕ)
    (Y : ℕ → ℕ → List ℤ) (hY : ∀ n < N, Best F d β B (n + 1) (Y n)) (ups : ℕ → ℕ → ℤ) (hu : ∀ κ i, 0 ≤ ups κ i)
    (x : ℕ → List ℤ) (hx : ∀ i < N, ∀ κ < d, (x i).getD κ 0 = on (l κ) (β κ) (ups κ) i) (hxB : ∀ i < N, B (x i))
    (h1 : ∀ i < N, ∀ κ < d, (Y i i).getD κ 0 ≤ (x i).getD κ 0)
    (h2 : ∀ i < N, ∀ κ < d, 0 < ups κ i → (x i).getD κ 0 ≤ (Y i i).getD κ 0)
    (hB : ∀ x, B x → ∀ κ, 0 ≤ x.getD κ 0)
    (hF : ∀ i < N, ∀ x, B x → ∀ κ < d, ((l κ i * (x.getD κ 0 : ℤ) : ℚ) : ECost) ≤ F i x)
    (hF' : ∀ i < N, ∀ x y, B x → B y → (∀ κ < d, x.getD κ 0 ≤ y.getD κ 0) →
      F i y ≤ F i x + ((∑ κ ∈ range d, l κ i * ((y.getD κ 0 : ℤ) - (x.getD κ 0 : ℤ)) : ℚ) : ECost))
    (z : ℕ → List ℤ) (hz : ∀ i, B (z i)) (c : ℚ) (hc : C F d β z N = (c : ECost)) :
    C F d β x N ≤ (((2 * d + 1 + ε) * c : ℚ) : ECost) := by
  have hβ' : ∀ κ < d, 0 ≤ β κ := fun κ h => (hβ κ h).le
  have hits := hits_le F hβ' B N Y hY z hz
  rw [hc] at hits
  have hups : ∀ κ < d, β κ * ((∑ s ∈ range N, ups κ s : ℤ) : ℚ) ≤ c := by
    intro κ hκ
    have := ups_le F hβ' B N Y hY κ hκ (hl κ) (fun x hx => hB x hx κ) (fun i hi x hx => hF i hi x hx κ hκ) (ups κ) (hu κ)
      (fun i hi hp => by rw [← hx i hi κ hκ]; exact h2 i hi κ hκ hp) N (le_refl _) z hz
    rw [hc] at this
    exact WithTop.coe_le_coe.1 this
  have hidle : ∀ κ < d, ∑ i ∈ range N, l κ i * on (l κ) (β κ) (ups κ) i ≤
      (β κ + ε / d * β κ) * ((∑ s ∈ range N, ups κ s : ℤ) : ℚ) :=
    fun κ hκ => on_idle (hβ' κ hκ) (hl κ) (ε / d * β κ) (he κ hκ) (ups κ) (hu κ) N
  have hsw : ∀ κ < d, ∑ i ∈ range N, sw (β κ) (co x κ) i ≤ β κ * ((∑ s ∈ range N, ups κ s : ℤ) : ℚ) := by
    intro κ hκ
    push_cast
    rw [mul_sum]
    apply sum_le_sum
    intro i hi
    have hi := mem_range.1 hi
    unfold sw
    refine mul_le_mul_of_nonneg_left (max_le (by exact_mod_cast hu κ i) ?_) (hβ' κ hκ)
    have e1 : co x κ i = on (l κ) (β κ) (ups κ) i := hx i hi κ hκ
    have e2 : pr (co x κ) i = pr (on (l κ) (β κ) (ups κ)) i := pr_congr _ _ _ fun j hj => hx j (by omega) κ hκ
    rw [e1, e2]
    have := on_step (hβ' κ hκ) (hl κ) (ups κ) (hu κ) i
    exact_mod_cast this
  have hhit : ∑ i ∈ range N, F i (x i) ≤ (c : ECost) +
      ((∑ κ ∈ range d, ∑ i ∈ range N, l κ i * on (l κ) (β κ) (ups κ) i : ℚ) : ECost) := by
    refine le_trans ?_ (add_le_add hits (le_refl _))
    rw [sum_comm, coe_sum, ← sum_add_distrib]
    apply sum_le_sum
    intro i hi
    have hi := mem_range.1 hi
    refine (hF' i hi _ _ ((hY i hi).box i) (hxB i hi) (h1 i hi)).trans (add_le_add (le_refl _) ?_)
    rw [WithTop.coe_le_coe]
    apply sum_le_sum
    intro κ hκ
    rw [← hx i hi κ (mem_range.1 hκ)]
    refine mul_le_mul_of_nonneg_left ?_ (hl κ i)
    have : (0 : ℚ) ≤ ((Y i i).getD κ 0 : ℤ) := by exact_mod_cast hB _ ((hY i hi).box i) κ
    linarith
  have hSW : ∑ i ∈ range N, SW d β x i ≤ ∑ κ ∈ range d, β κ * ((∑ s ∈ range N, ups κ s : ℤ) : ℚ) := by
    unfold SW
    rw [sum_comm]
    exact sum_le_sum fun κ hκ => hsw κ (mem_range.1 hκ)
  unfold C
  rw [sum_add_distrib, ← coe_sum]
  refine (add_le_add hhit (WithTop.coe_le_coe.2 hSW)).trans ?_
  rw [← WithTop.coe_add, ← WithTop.coe_add, WithTop.coe_le_coe]
  have hd' : (0 : ℚ) < d := by exact_mod_cast hd
  have key : ∀ κ ∈ range d, ∑ i ∈ range N, l κ i * on (l κ) (β κ) (ups κ) i +
      β κ * ((∑ s ∈ range N, ups κ s : ℤ) : ℚ) ≤ (2 + ε / d) * c := by
    intro κ hκ
    have hκ := mem_range.1 hκ
    have a1 := hidle κ hκ
    have a2 := mul_le_mul_of_nonneg_left (hups κ hκ) (show 0 ≤ 2 + ε / d by have := div_pos hε hd'; linarith)
    calc _ ≤ (β κ + ε / d * β κ) * ((∑ s ∈ range N, ups κ s : ℤ) : ℚ) + β κ * ((∑ s ∈ range N, ups κ s : ℤ) : ℚ) := by linarith
      _ = (2 + ε / d) * (β κ * ((∑ s ∈ range N, ups κ s : ℤ) : ℚ)) := by ring
      _ ≤ _ := a2
  have := sum_le_sum key
  rw [sum_add_distrib, sum_const, card_range, nsmul_eq_mul] at this
  have e : (d : ℚ) * ((2 + ε / d) * c) = (2 * d + ε) * c := by field_simp
  rw [e] at this
  linarith

/-! ### Slots divided into parts -/

theorem nsmul_div (c : ECost) (n : ℕ) (hn : 1 ≤ n) : n • ECost.divQ c n = c := by
  have hn' : (n : ℚ) ≠ 0 := by
    have : n ≠ 0 := by omega
    exact_mod_cast this
  cases c using WithTop.recTopCoe with
  | top =>
    obtain ⟨k, rfl⟩ : ∃ k, n = k + 1 := ⟨n - 1, by omega⟩
    show (k + 1) • (⊤ : ECost) = ⊤
    rw [succ_nsmul, add_top]
  | coe a =>
    show n • ((a / n : ℚ) : ECost) = a
    rw [← WithTop.coe_nsmul, nsmul_eq_mul, mul_div_cancel₀ _ hn']

theorem sw_travel {β : ℚ} (hβ : 0 ≤ β) (z : ℕ → ℤ) (a b : ℕ) (h : a ≤ b) :
    β * max 0 ((pr z b : ℚ) - pr z a) ≤ ∑ i ∈ Ico a b, sw β z i := by
  induction b, h using Nat.le_induction with
  | base => simp
  | succ b hb ih =>
    rw [sum_Ico_succ_top hb]
    have e : sw β z b = β * max 0 ((pr z (b + 1) : ℚ) - pr z b) := rfl
    rw [e]
    refine le_trans ?_ (add_le_add ih (le_refl _))
    rw [← mul_add]
    refine mul_le_mul_of_nonneg_left ?_ hβ
    refine max_le (add_nonneg (le_max_left _ _) (le_max_left _ _)) ?_
    have := le_max_right 0 ((pr z b : ℚ) - pr z a)
    have := le_max_right 0 ((pr z (b + 1) : ℚ) - pr z b)
    linarith

/-- Slot `k` consists of the parts `pre k, …, pre (k + 1) - 1`, each of which costs the same. -/
structure Parts (F F' : ℕ → List ℤ → ECost) (B : List ℤ → Prop) (pre : ℕ → ℕ) (K : ℕ) : Prop where
  zero : pre 0 = 0
  lt : ∀ k < K, pre k < pre (k + 1)
  cost : ∀ k < K, ∀ i, pre k ≤ i → i < pre (k + 1) → ∀ x, B x → F i x = ECost.divQ (F' k x) ((pre (k + 1) - pre k : ℕ) : ℚ)

theorem Parts.mono {F F' : ℕ → List ℤ → ECost} {B : List ℤ → Prop} {pre : ℕ → ℕ} {K : ℕ} (P : Parts F F' B pre K) {j k : ℕ}
    (h : j ≤ k) (hk : k ≤ K) : pre j ≤ pre k := by
  induction k, h using Nat.le_induction with
  | base => exact le_refl _
  | succ k _ ih => exact (ih (by omega)).trans (P.lt k (by omega)).le

theorem Parts.find {F F' : ℕ → List ℤ → ECost} {B : List ℤ → Prop} {pre : ℕ → ℕ} {K : ℕ} (P : Parts F F' B pre K) (i : ℕ)
    (k : ℕ) (hi : i < pre k) : ∃ j < k, pre j ≤ i ∧ i < pre (j + 1) := by
  induction k with
  | zero => rw [P.zero] at hi; omega
  | succ k ih =>
    by_cases h : i < pre k
    · obtain ⟨j, h1, h2⟩ := ih h
      exact ⟨j, by omega, h2⟩
    · exact ⟨k, by omega, by omega, hi⟩

theorem Parts.const {F F' : ℕ → List ℤ → ECost} {B : List ℤ → Prop} {pre : ℕ → ℕ} {K : ℕ} (P : Parts F F' B pre K) (d : ℕ)
    (β : ℕ → ℚ) (z w : ℕ → List ℤ) (hz : ∀ i, B (z i))
    (hw : ∀ k < K, ∀ i, pre k ≤ i → i < pre (k + 1) → w i = z k) (k : ℕ) (hk : k ≤ K) :
    C F d β w (pre k) = C F' d β z k ∧ ∀ κ, pr (co w κ) (pre k) = pr (co z κ) k := by
  induction k with
  | zero => rw [P.zero]; simp [C, pr]
  | succ k ih =>
    obtain ⟨h1, h2⟩ := ih (by omega)
    have hlt := P.lt k (by omega)
    have hl : ∀ κ, pr (co w κ) (pre (k + 1)) = co z κ k := by
      intro κ
      obtain ⟨j, hj⟩ : ∃ j, pre (k + 1) = j + 1 := ⟨pre (k + 1) - 1, by omega⟩
      rw [hj]
      show co w κ j = _
      simp only [co]
      rw [hw k (by omega) j (by omega) (by omega)]
    refine ⟨?_, hl⟩
    rw [C_Ico F d β w (pre k) _ hlt.le, h1, C_succ]
    congr 1
    rw [sum_add_distrib]
    congr 1
    · rw [sum_congr rfl (g := fun _ => ECost.divQ (F' k (z k)) ((pre (k + 1) - pre k : ℕ) : ℚ)), sum_const, Nat.card_Ico,
        nsmul_div _ _ (by omega)]
      intro i hi
      rw [mem_Ico] at hi
      rw [hw k (by omega) i hi.1 hi.2, P.cost k (by omega) i hi.1 hi.2 _ (hz k)]
    · rw [sum_eq_sum_Ico_succ_bot hlt, sum_eq_zero, add_zero]
      · congr 1
        apply sum_congr rfl
        intro κ _
        unfold sw
        rw [h2 κ]
        simp only [co]
        rw [hw k (by omega) _ (le_refl _) hlt]
      · intro i hi
        rw [mem_Ico] at hi
        obtain ⟨j, rfl⟩ : ∃ j, i = j + 1 := ⟨i - 1, by omega⟩
        have : SW d β w (j + 1) = 0 := by
          apply sum_eq_zero
          intro κ _
          unfold sw
          simp only [pr, co]
          rw [hw k (by omega) _ (by omega) hi.2, hw k (by omega) j (by omega) (by omega)]
          simp
        rw [this]
        rfl

/-- What it costs to go from `x` to `w`. -/
def gapUp (d : ℕ) (β : ℕ → ℚ) (w x : ℕ → List ℤ) (i k : ℕ) : ℚ :=
  ∑ κ ∈ range d, β κ * max 0 ((pr (co w κ) i : ℚ) - pr (co x κ) k)

/-- Using in each slot the configuration of its cheapest part is not more expensive. -/
theorem Parts.cheapest {F F' : ℕ → List ℤ → ECost} {B : List ℤ → Prop} {pre : ℕ → ℕ} {K : ℕ} (P : Parts F F' B pre K) {d : ℕ}
    {β : ℕ → ℚ} (hβ : ∀ κ < d, 0 ≤ β κ) (w x : ℕ → List ℤ) (hb : ∀ i < pre K, B (w i))
    (hx : ∀ k < K, ∃ i, pre k ≤ i ∧ i < pre (k + 1) ∧ w i = x k ∧
      ∀ j, pre k ≤ j → j < pre (k + 1) → F i (w i) ≤ F j (w j)) (k : ℕ) (hk : k ≤ K) :
    C F' d β x k + (gapUp d β w x (pre k) k : ECost) ≤ C F d β w (pre k) := by
  induction k with
  | zero => rw [P.zero]; simp [C, pr, gapUp]
  | succ k ih =>
    have hlt := P.lt k (by omega)
    obtain ⟨i, i1, i2, i3, i4⟩ := hx k (by omega)
    have ih := ih (by omega)
    rw [C_Ico F d β w (pre k) _ hlt.le, C_succ, sum_add_distrib, ← coe_sum]
    have hhit : F' k (x k) ≤ ∑ j ∈ Ico (pre k) (pre (k + 1)), F j (w j) := by
      have hiK : i < pre K := i2.trans_le (P.mono (by omega) (le_refl _))
      rw [← nsmul_div (F' k (x k)) (pre (k + 1) - pre k) (by omega),
        ← P.cost k (by omega) i i1 i2 (x k) (i3 ▸ hb i hiK), ← Nat.card_Ico, ← i3]
      apply card_nsmul_le_sum
      intro j hj
      rw [mem_Ico] at hj
      exact i4 j hj.1 hj.2
    have key : SW d β x k + gapUp d β w x (pre (k + 1)) (k + 1) ≤
        gapUp d β w x (pre k) k + ∑ j ∈ Ico (pre k) (pre (k + 1)), SW d β w j := by
      unfold gapUp SW
      rw [sum_comm (s := Ico _ _), ← sum_add_distrib, ← sum_add_distrib]
      apply sum_le_sum
      intro κ hκ
      have hβκ := hβ κ (mem_range.1 hκ)
      have t1 := sw_travel hβκ (co w κ) (pre k) (i + 1) (by omega)
      have t2 := sw_travel hβκ (co w κ) (i + 1) (pre (k + 1)) (by omega)
      have hsum : ∑ j ∈ Ico (pre k) (pre (k + 1)), sw (β κ) (co w κ) j =
          ∑ j ∈ Ico (pre k) (i + 1), sw (β κ) (co w κ) j + ∑ j ∈ Ico (i + 1) (pre (k + 1)), sw (β κ) (co w κ) j :=
        (sum_Ico_consecutive _ (by omega) (by omega)).symm
      have e1 : pr (co w κ) (i + 1) = co x κ k := by
        show co w κ i = _
        simp only [co, i3]
      have e2 : pr (co x κ) (k + 1) = co x κ k := rfl
      rw [e1] at t1 t2
      rw [e2, hsum]
      have : sw (β κ) (co x κ) k ≤ β κ * max 0 ((pr (co w κ) (pre k) : ℚ) - pr (co x κ) k) +
          β κ * max 0 ((co x κ k : ℚ) - pr (co w κ) (pre k)) := by
        unfold sw
        rw [← mul_add]
        refine mul_le_mul_of_nonneg_left ?_ hβκ
        refine max_le (add_nonneg (le_max_left _ _) (le_max_left _ _)) ?_
        have := le_max_right 0 ((pr (co w κ) (pre k) : ℚ) - pr (co x κ) k)
        have := le_max_right 0 ((co x κ k : ℚ) - pr (co w κ) (pre k))
        linarith
      linarith
    calc C F' d β x k + (F' k (x k) + (SW d β x k : ECost)) + (gapUp d β w x (pre (k + 1)) (k + 1) : ECost)
        = (C F' d β x k + F' k (x k)) + ((SW d β x k + gapUp d β w x (pre (k + 1)) (k + 1) : ℚ) : ECost) := by
          rw [WithTop.coe_add]; simp only [add_assoc]
      _ ≤ (C F' d β x k + F' k (x k)) + ((gapUp d β w x (pre k) k +
            ∑ j ∈ Ico (pre k) (pre (k + 1)), SW d β w j : ℚ) : ECost) :=
          add_le_add (le_refl _) (WithTop.coe_le_coe.2 key)
      _ = (C F' d β x k + (gapUp d β w x (pre k) k : ECost)) + (F' k (x k) +
            ((∑ j ∈ Ico (pre k) (pre (k + 1)), SW d β w j : ℚ) : ECost)) := by
          rw [WithTop.coe_add, add_add_add_comm]
      _ ≤ _ := add_le_add ih (add_le_add hhit (le_refl _))

/-- A sequence of slots, part by part. -/
theorem Parts.stretch {F F' : ℕ → List ℤ → ECost} {B : List ℤ → Prop} {pre : ℕ → ℕ} {K : ℕ} (P : Parts F F' B pre K)
    (z : ℕ → List ℤ) (hz : ∀ i, B (z i)) : ∃ w : ℕ → List ℤ, (∀ i, B (w i)) ∧
      ∀ k < K, ∀ i, pre k ≤ i → i < pre (k + 1) → w i = z k := by
  classical
  refine ⟨fun i => if h : ∃ k, i < pre (k + 1) then z (Nat.find h) else z 0, ?_, ?_⟩
  · intro i
    dsimp only
    split
    · exact hz _
    · exact hz 0
  · intro k hk i h1 h2
    have hex : ∃ k, i < pre (k + 1) := ⟨k, h2⟩
    simp only [dif_pos hex]
    congr 1
    apply le_antisymm (Nat.find_min' hex h2)
    by_contra hc
    have h3 := Nat.find_spec hex
    have h4 := P.mono (show Nat.find hex + 1 ≤ k by omega) hk.le
    omega

end Soco.LazyRatio
