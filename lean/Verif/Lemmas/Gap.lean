import Verif.Lemmas.SkiRental
import Mathlib.Data.List.GetD

/-! # Servers between two slots in which they are needed -/

namespace Soco.Gap
open Lb

/-- What a single server costs, which is active (`true`) or not. -/
def laneCost (c β : ℚ) : Bool → List Bool → ℚ
  | _, [] => 0
  | p, y :: ys => (if y = true then c else 0) + (if y = true ∧ ¬ p = true then β else 0) + laneCost c β y ys

/-- The least cost of a server which is needed in the slots given, if it is active and if it is not. -/
def least (c β : ℚ) : List Bool → ℚ × ℚ
  | [] => (0, 0)
  | true :: ds => (c + (least c β ds).1, β + c + (least c β ds).1)
  | false :: ds => (min (c + (least c β ds).1) (least c β ds).2, (least c β ds).2)

/-- The server is needed after a gap that is short enough. -/
def Soon (K : Nat → Prop) (ds : List Bool) : Prop := ∃ n, ds.getD n false = true ∧ K (n + 1)

open Classical in
/-- Whether an active server stays active although it is not needed. -/
noncomputable def keeps (K : Nat → Prop) (p : Bool) (ds : List Bool) : Bool := decide (p = true ∧ Soon K ds)

theorem keeps_iff (K : Nat → Prop) (p : Bool) (ds : List Bool) : keeps K p ds = true ↔ p = true ∧ Soon K ds := by
  classical
  unfold keeps
  exact decide_eq_true_iff

/-- Stay active in gaps that are short enough. -/
noncomputable def bridge (K : Nat → Prop) : Bool → List Bool → List Bool
  | _, [] => []
  | _, true :: ds => true :: bridge K true ds
  | p, false :: ds => keeps K p ds :: bridge K (keeps K p ds) ds

theorem bridge_length (K : Nat → Prop) : ∀ (p : Bool) (ds : List Bool), (bridge K p ds).length = ds.length
  | _, [] => rfl
  | _, true :: ds => by simp [bridge, bridge_length K true ds]
  | p, false :: ds => by simp [bridge, bridge_length K _ ds]

theorem bridge_needed (K : Nat → Prop) : ∀ (p : Bool) (ds : List Bool) (k : Nat), ds.getD k false = true →
    (bridge K p ds).getD k false = true
  | _, [], k, h => by simp at h
  | _, true :: ds, 0, _ => by simp [bridge]
  | _, true :: ds, k + 1, h => by simpa [bridge] using bridge_needed K true ds k (by simpa using h)
  | p, false :: ds, 0, h => by simp at h
  | p, false :: ds, k + 1, h => by simpa [bridge] using bridge_needed K _ ds k (by simpa using h)

/-- In which slots the server is active. -/
theorem bridge_iff (K : Nat → Prop) (hK : ∀ n, K (n + 1) → K n) : ∀ (ds : List Bool) (p : Bool) (k : Nat), k < ds.length →
    ((bridge K p ds).getD k false = true ↔ ds.getD k false = true ∨ ∃ j, k < j ∧ ds.getD j false = true ∧
      ((p = true ∧ K j) ∨ ∃ i, i < k ∧ ds.getD i false = true ∧ K (j - i - 1)))
  | [], _, _, h => by simp at h
  | true :: ds, p, 0, _ => by simp [bridge]
  | true :: ds, p, k + 1, h => by
    have ih := bridge_iff K hK ds true k (by simpa using h)
    simp only [bridge, List.getD_cons_succ]
    rw [ih]
    refine or_congr_right ⟨?_, ?_⟩
    · rintro ⟨j, h1, h2, h3⟩
      refine ⟨j + 1, by omega, by simpa using h2, .inr ?_⟩
      rcases h3 with ⟨_, h3⟩ | ⟨i, h3, h4, h5⟩
      · exact ⟨0, by omega, by simp, by simpa using h3⟩
      · exact ⟨i + 1, by omega, by simpa using h4, by rwa [show j + 1 - (i + 1) - 1 = j - i - 1 by omega]⟩
    · rintro ⟨j, h1, h2, h3⟩
      obtain ⟨j, rfl⟩ : ∃ j', j = j' + 1 := ⟨j - 1, by omega⟩
      refine ⟨j, by omega, by simpa using h2, ?_⟩
      rcases h3 with ⟨_, h3⟩ | ⟨i, h3, h4, h5⟩
      · exact .inl ⟨rfl, hK _ h3⟩
      · cases i with
        | zero => exact .inl ⟨rfl, by simpa using h5⟩
        | succ i => exact .inr ⟨i, by omega, by simpa using h4, by rwa [show j + 1 - (i + 1) - 1 = j - i - 1 by omega] at h5⟩
  | false :: ds, p, 0, _ => by
    simp only [bridge, List.getD_cons_zero, keeps_iff, Bool.false_eq_true, false_or]
    constructor
    · rintro ⟨h1, n, h2, h3⟩
      exact ⟨n + 1, by omega, by simpa using h2, .inl ⟨h1, h3⟩⟩
    · rintro ⟨j, h1, h2, h3⟩
      obtain ⟨j, rfl⟩ : ∃ j', j = j' + 1 := ⟨j - 1, by omega⟩
      rcases h3 with ⟨h3, h4⟩ | ⟨i, h3, _⟩
      · exact ⟨h3, j, by simpa using h2, h4⟩
      · omega
  | false :: ds, p, k + 1, h => by
    have ih := bridge_iff K hK ds (keeps K p ds) k (by simpa using h)
    simp only [bridge, List.getD_cons_succ]
    rw [ih]
    have mono : ∀ a b, a ≤ b → K b → K a := fun a b hab => by
      induction hab with
      | refl => exact id
      | step _ ih => exact fun h => ih (hK _ h)
    constructor
    · rintro (h0 | ⟨j, h1, h2, h3⟩)
      · exact .inl h0
      rcases h3 with ⟨h3, h4⟩ | ⟨i, h3, h4, h5⟩
      · rw [keeps_iff] at h3
        obtain ⟨hp, n, h5, h6⟩ := h3
        rcases lt_trichotomy n k with hn | rfl | hn
        · exact .inr ⟨j + 1, by omega, by simpa using h2, .inr ⟨n + 1, by omega, by simpa using h5, mono _ _ (by omega) h4⟩⟩
        · exact .inl h5
        · exact .inr ⟨n + 1, by omega, by simpa using h5, .inl ⟨hp, h6⟩⟩
      · exact .inr ⟨j + 1, by omega, by simpa using h2, .inr ⟨i + 1, by omega, by simpa using h4,
          by rwa [show j + 1 - (i + 1) - 1 = j - i - 1 by omega]⟩⟩
    · rintro (h0 | ⟨j, h1, h2, h3⟩)
      · exact .inl h0
      obtain ⟨j, rfl⟩ : ∃ j', j = j' + 1 := ⟨j - 1, by omega⟩
      have h2' : ds.getD j false = true := by simpa using h2
      refine .inr ⟨j, by omega, h2', ?_⟩
      rcases h3 with ⟨h3, h4⟩ | ⟨i, h3, h4, h5⟩
      · exact .inl ⟨by rw [keeps_iff]; exact ⟨h3, j, h2', h4⟩, hK _ h4⟩
      · cases i with
        | zero => simp at h4
        | succ i => exact .inr ⟨i, by omega, by simpa using h4, by rwa [show j + 1 - (i + 1) - 1 = j - i - 1 by omega] at h5⟩

section
variable {c β : ℚ} (hc : 0 < c) (hβ : 0 ≤ β)
include hc hβ

theorem least_bounds : ∀ ds : List Bool, (least c β ds).1 ≤ (least c β ds).2 ∧ (least c β ds).2 ≤ (least c β ds).1 + β
  | [] => by simp [least, hβ]
  | true :: ds => by simp only [least]; constructor <;> linarith
  | false :: ds => by
    obtain ⟨h1, h2⟩ := least_bounds ds
    simp only [least]
    refine ⟨min_le_right _ _, ?_⟩
    rcases min_cases (c + (least c β ds).1) (least c β ds).2 with ⟨h, _⟩ | ⟨h, _⟩ <;> rw [h] <;> linarith

omit hβ in
theorem least_gt : ∀ (ds : List Bool) (x : ℚ), 0 ≤ x →
    (x < (least c β ds).2 - (least c β ds).1 ↔ ∃ n : Nat, ds.getD n false = true ∧ n * c + x < β)
  | [], x, hx => by simp [least]; linarith
  | true :: ds, x, hx => by
    simp only [least]
    constructor
    · intro h
      exact ⟨0, by simp, by simp; linarith⟩
    · rintro ⟨n, _, h⟩
      have : (0 : ℚ) ≤ n * c := by positivity
      linarith
  | false :: ds, x, hx => by
    have ih := least_gt ds (x + c) (by linarith)
    simp only [least]
    have e : x < (least c β ds).2 - min (c + (least c β ds).1) (least c β ds).2 ↔
        x + c < (least c β ds).2 - (least c β ds).1 := by
      rcases le_total (c + (least c β ds).1) (least c β ds).2 with h | h
      · rw [min_eq_left h]; constructor <;> intro <;> linarith
      · rw [min_eq_right h]; constructor <;> intro <;> linarith
    rw [e, ih]
    constructor
    · rintro ⟨n, h1, h2⟩
      exact ⟨n + 1, by simpa using h1, by push_cast; linarith⟩
    · rintro ⟨n, h1, h2⟩
      cases n with
      | zero => simp at h1
      | succ n => exact ⟨n, by simpa using h1, by push_cast at h2; linarith⟩

omit hβ in
theorem least_ge : ∀ (ds : List Bool) (x : ℚ), 0 < x →
    (x ≤ (least c β ds).2 - (least c β ds).1 ↔ ∃ n : Nat, ds.getD n false = true ∧ n * c + x ≤ β)
  | [], x, hx => by simp [least]; linarith
  | true :: ds, x, hx => by
    simp only [least]
    constructor
    · intro h
      exact ⟨0, by simp, by simp; linarith⟩
    · rintro ⟨n, _, h⟩
      have : (0 : ℚ) ≤ n * c := by positivity
      linarith
  | false :: ds, x, hx => by
    have ih := least_ge ds (x + c) (by linarith)
    simp only [least]
    have e : x ≤ (least c β ds).2 - min (c + (least c β ds).1) (least c β ds).2 ↔
        x + c ≤ (least c β ds).2 - (least c β ds).1 := by
      rcases le_total (c + (least c β ds).1) (least c β ds).2 with h | h
      · rw [min_eq_left h]; constructor <;> intro <;> linarith
      · rw [min_eq_right h]; constructor <;> intro <;> linarith
    rw [e, ih]
    constructor
    · rintro ⟨n, h1, h2⟩
      exact ⟨n + 1, by simpa using h1, by push_cast; linarith⟩
    · rintro ⟨n, h1, h2⟩
      cases n with
      | zero => simp at h1
      | succ n => exact ⟨n, by simpa using h1, by push_cast at h2; linarith⟩

omit hβ in
theorem soon_lt (ds : List Bool) : Soon (fun n => (n : ℚ) * c < β) ds ↔ c + (least c β ds).1 < (least c β ds).2 := by
  have := least_gt (β := β) hc ds c hc.le
  rw [show c + (least c β ds).1 < (least c β ds).2 ↔ c < (least c β ds).2 - (least c β ds).1 by
    constructor <;> intro <;> linarith, this]
  unfold Soon
  refine exists_congr fun n => and_congr_right fun _ => ?_
  push_cast
  constructor <;> intro <;> linarith

omit hβ in
theorem soon_le (ds : List Bool) : Soon (fun n => (n : ℚ) * c ≤ β) ds ↔ c + (least c β ds).1 ≤ (least c β ds).2 := by
  have := least_ge (β := β) hc ds c hc
  rw [show c + (least c β ds).1 ≤ (least c β ds).2 ↔ c ≤ (least c β ds).2 - (least c β ds).1 by
    constructor <;> intro <;> linarith, this]
  unfold Soon
  refine exists_congr fun n => and_congr_right fun _ => ?_
  push_cast
  constructor <;> intro <;> linarith

/-- The least cost from the state given. -/
def leastFrom (c β : ℚ) (p : Bool) (ds : List Bool) : ℚ := if p = true then (least c β ds).1 else (least c β ds).2

omit hβ in
theorem bridge_cost : ∀ (ds : List Bool) (p : Bool),
    laneCost c β p (bridge (fun n => (n : ℚ) * c < β) p ds) = leastFrom c β p ds
  | [], p => by simp [bridge, laneCost, leastFrom, least]
  | true :: ds, p => by
    simp only [bridge, laneCost, bridge_cost ds, leastFrom, least]
    cases p <;> simp
    ring
  | false :: ds, p => by
    simp only [bridge, laneCost, bridge_cost ds]
    by_cases h : p = true ∧ Soon (fun n => (n : ℚ) * c < β) ds
    · rw [(keeps_iff _ _ _).2 h]
      simp only [h, leastFrom, least, if_true]
      rw [min_eq_left ((soon_lt hc ds).1 h.2).le]
      simp
    · rw [Bool.eq_false_iff.2 fun h' => h ((keeps_iff _ _ _).1 h')]
      simp only [leastFrom, least]
      cases p with
      | false => simp
      | true =>
        have : ¬ Soon (fun n => (n : ℚ) * c < β) ds := fun hs => h ⟨rfl, hs⟩
        rw [soon_lt hc, not_lt] at this
        simp [this]

theorem least_step (d y p : Bool) (ds : List Bool) (h : d = true → y = true) :
    leastFrom c β p (d :: ds) ≤ (if y = true then c else 0) + (if y = true ∧ ¬ p = true then β else 0) + leastFrom c β y ds := by
  obtain ⟨h1, h2⟩ := least_bounds hc hβ ds
  cases d with
  | true =>
    obtain rfl := h rfl
    cases p <;> simp [leastFrom, least]
    linarith
  | false =>
    cases p <;> cases y <;> simp [leastFrom, least]
    linarith

theorem least_le : ∀ (ds ys : List Bool) (p : Bool), List.Forall₂ (fun d y => d = true → y = true) ds ys →
    leastFrom c β p ds ≤ laneCost c β p ys
  | [], _, p, h => by cases h; simp [leastFrom, least, laneCost]
  | d :: ds, _, p, h => by
    cases h with
    | @cons _ y _ ys h1 h2 =>
      have := least_le ds ys y h2
      have := least_step hc hβ d y p ds h1
      simp only [laneCost]
      linarith

/-- Whoever pays the least stays active in short gaps. -/
theorem stays : ∀ (ds ys : List Bool) (p q : Bool), (q = true → p = true) →
    List.Forall₂ (fun d y => d = true → y = true) ds ys → laneCost c β p ys ≤ leastFrom c β p ds →
    ∀ k, (bridge (fun n => (n : ℚ) * c < β) q ds).getD k false = true → ys.getD k false = true
  | [], _, _, _, _, h, _, k, hk => by simp [bridge] at hk
  | d :: ds, _, p, q, hqp, h, hle, k, hk => by
    cases h with
    | @cons _ y _ ys h1 h2 =>
      have a1 := least_le hc hβ ds ys y h2
      have a2 := least_step hc hβ d y p ds h1
      simp only [laneCost] at hle
      have tail : laneCost c β y ys ≤ leastFrom c β y ds := by linarith
      have head : (if y = true then c else 0) + (if y = true ∧ ¬ p = true then β else 0) + leastFrom c β y ds ≤
          leastFrom c β p (d :: ds) := by linarith
      cases d with
      | true =>
        obtain rfl := h1 rfl
        cases k with
        | zero => simp
        | succ k => simpa using stays ds ys true true id h2 tail k (by simpa [bridge] using hk)
      | false =>
        have key : q = true ∧ Soon (fun n => (n : ℚ) * c < β) ds → y = true := by
          rintro ⟨hq, hs⟩
          obtain rfl := hqp hq
          rw [soon_lt hc] at hs
          by_contra hy
          simp only [Bool.not_eq_true] at hy
          subst hy
          simp only [leastFrom, least, Bool.false_eq_true, if_false, if_true, min_eq_left hs.le] at head
          simp at head
          linarith
        cases k with
        | zero => simpa using key (by simpa [bridge, keeps_iff] using hk)
        | succ k =>
          have := stays ds ys y _ (by rw [keeps_iff]; exact key) h2 tail k (by simpa [bridge] using hk)
          simpa using this

/-- Whoever pays the least is not active in long gaps. -/
theorem leaves : ∀ (ds ys : List Bool) (p q : Bool), (p = true → q = true) →
    List.Forall₂ (fun d y => d = true → y = true) ds ys → laneCost c β p ys ≤ leastFrom c β p ds →
    ∀ k, ys.getD k false = true → (bridge (fun n => (n : ℚ) * c ≤ β) q ds).getD k false = true
  | [], _, _, _, _, h, _, k, hk => by cases h; simp at hk
  | d :: ds, _, p, q, hqp, h, hle, k, hk => by
    cases h with
    | @cons _ y _ ys h1 h2 =>
      have a1 := least_le hc hβ ds ys y h2
      have a2 := least_step hc hβ d y p ds h1
      simp only [laneCost] at hle
      have tail : laneCost c β y ys ≤ leastFrom c β y ds := by linarith
      have head : (if y = true then c else 0) + (if y = true ∧ ¬ p = true then β else 0) + leastFrom c β y ds ≤
          leastFrom c β p (d :: ds) := by linarith
      cases d with
      | true =>
        cases k with
        | zero => simp [bridge]
        | succ k =>
          obtain rfl := h1 rfl
          simpa [bridge] using leaves ds ys true true id h2 tail k (by simpa using hk)
      | false =>
        have key : y = true → q = true ∧ Soon (fun n => (n : ℚ) * c ≤ β) ds := by
          rintro rfl
          obtain ⟨b1, b2⟩ := least_bounds hc hβ ds
          cases p with
          | false =>
            exfalso
            simp [leastFrom, least] at head
            linarith
          | true =>
            refine ⟨hqp rfl, (soon_le hc ds).2 ?_⟩
            simp [leastFrom, least] at head
            linarith
        cases k with
        | zero => simpa [bridge, keeps_iff] using key (by simpa using hk)
        | succ k =>
          have := leaves ds ys y _ (by rw [keeps_iff]; exact key) h2 tail k (by simpa using hk)
          simpa [bridge] using this

end

/-! ### Several servers -/

/-- Whether the `j`-th server is needed. -/
def lane (j : Nat) (ls : List ℤ) : List Bool := ls.map fun l => decide ((j : ℤ) < l)

theorem lane_getD (j : Nat) (ls : List ℤ) (k : Nat) : (lane j ls).getD k false = true ↔ (j : ℤ) < ls.getD k 0 := by
  unfold lane
  rw [List.getD_eq_getElem?_getD, List.getD_eq_getElem?_getD, List.getElem?_map]
  cases ls[k]? <;> simp

theorem sum_if (m : Nat) (a : ℚ) (p : Nat → Prop) [DecidablePred p] : ∑ j ∈ Finset.range m, (if p j then a else 0) =
    a * ∑ j ∈ Finset.range m, if p j then (1 : ℚ) else 0 := by
  rw [Finset.mul_sum]
  apply Finset.sum_congr rfl
  intro j _
  split <;> simp

theorem lineCost_lanes (c β : ℚ) (m : Nat) : ∀ (ys : List ℤ) (y : ℤ), 0 ≤ y → y ≤ m → (∀ z ∈ ys, 0 ≤ z ∧ z ≤ m) →
    lineCost c β y ys = ∑ j ∈ Finset.range m, laneCost c β (decide ((j : ℤ) < y)) (lane j ys)
  | [], y, _, _, _ => by simp [lineCost, lane, laneCost]
  | z :: ys, y, h0, hm, h => by
    obtain ⟨z0, zm⟩ := h z (by simp)
    have ih := lineCost_lanes c β m ys z z0 zm fun z hz => h z (by simp [hz])
    simp only [lineCost, lane, List.map_cons, laneCost, decide_eq_true_eq]
    rw [ih, Finset.sum_add_distrib, Finset.sum_add_distrib, sum_if m c, sum_if m β, ← threshold_sum m z z0 zm, rise_sum m y z h0 hm z0 zm]
    rfl

/-- How many servers are active. -/
def count (m : Nat) (b : Nat → Bool) : ℤ := ((List.range m).countP b : Nat)

theorem count_sum (m : Nat) (b : Nat → Bool) : (count m b : ℚ) = ∑ j ∈ Finset.range m, if b j = true then (1 : ℚ) else 0 := by
  unfold count
  rw [Int.cast_natCast, ← countP_sum]
  simp

theorem count_le (m : Nat) (b : Nat → Bool) : 0 ≤ count m b ∧ count m b ≤ m := by
  unfold count
  have := List.countP_le_length (p := b) (l := List.range m)
  rw [List.length_range] at this
  omega

theorem stack_le (c : ℚ) {β : ℚ} (hβ : 0 ≤ β) (m : Nat) : ∀ (n : Nat) (p : Nat → Bool) (W : Nat → List Bool),
    (∀ j, (W j).length = n) →
    lineCost c β (count m p) ((List.range n).map fun k => count m fun j => (W j).getD k false) ≤
      ∑ j ∈ Finset.range m, laneCost c β (p j) (W j)
  | 0, p, W, h => by
    have : ∀ j, W j = [] := fun j => List.eq_nil_of_length_eq_zero (h j)
    simp [this, lineCost, laneCost]
  | n + 1, p, W, h => by
    have hc : ∀ j, W j = (W j).getD 0 false :: (W j).tail := fun j => by
      have := h j
      cases hw : W j with
      | nil => rw [hw] at this; simp at this
      | cons a l => simp
    have ih := stack_le c hβ m n (fun j => (W j).getD 0 false) (fun j => (W j).tail) fun j => by simp [h j]
    have e : ∀ j k, (W j).tail.getD k false = (W j).getD (k + 1) false := fun j k => by
      conv_rhs => rw [hc j]
      simp
    simp only [e] at ih
    rw [List.range_succ_eq_map, List.map_cons, List.map_map, lineCost]
    have e2 : ∑ j ∈ Finset.range m, laneCost c β (p j) (W j) = ∑ j ∈ Finset.range m,
        ((if (W j).getD 0 false = true then c else 0) + (if (W j).getD 0 false = true ∧ ¬ p j = true then β else 0) +
          laneCost c β ((W j).getD 0 false) (W j).tail) := by
      apply Finset.sum_congr rfl
      intro j _
      conv_lhs => rw [hc j]
      rfl
    rw [e2, Finset.sum_add_distrib, Finset.sum_add_distrib, sum_if m c, sum_if m β, ← count_sum]
    have r := rise_le m (fun j => p j = true) (fun j => (W j).getD 0 false = true)
    rw [← count_sum, ← count_sum] at r
    have r' := mul_le_mul_of_nonneg_left r hβ
    have : ((fun k => count m fun j => (W j).getD k false) ∘ Nat.succ) = fun k => count m fun j => (W j).getD (k + 1) false := rfl
    rw [this]
    linarith

/-- The servers which are active if each of them stays active in short gaps. -/
noncomputable def plan (c β : ℚ) (m : Nat) (ls : List ℤ) : List ℤ :=
  (List.range ls.length).map fun k => count m fun j => (bridge (fun n => (n : ℚ) * c < β) false (lane j ls)).getD k false

theorem plan_length (c β : ℚ) (m : Nat) (ls : List ℤ) : (plan c β m ls).length = ls.length := by simp [plan]

theorem plan_box (c β : ℚ) (m : Nat) (ls : List ℤ) : ∀ v ∈ plan c β m ls, 0 ≤ v ∧ v ≤ m := by
  intro v hv
  obtain ⟨k, _, rfl⟩ := List.mem_map.1 hv
  exact count_le _ _

theorem plan_getD (c β : ℚ) (m : Nat) (ls : List ℤ) {k : Nat} (hk : k < ls.length) : (plan c β m ls).getD k 0 =
    count m fun j => (bridge (fun n => (n : ℚ) * c < β) false (lane j ls)).getD k false := by
  rw [List.getD_eq_getElem _ _ (by rw [plan_length]; exact hk)]
  simp [plan]

theorem count_threshold (m : Nat) {y : ℤ} (h0 : 0 ≤ y) (hm : y ≤ m) : count m (fun j => decide ((j : ℤ) < y)) = y := by
  have h1 := count_sum m fun j => decide ((j : ℤ) < y)
  have h2 := threshold_sum m y h0 hm
  simp only [decide_eq_true_eq] at h1
  rw [← h2] at h1
  exact_mod_cast h1

theorem count_mono (m : Nat) {a b : Nat → Bool} (h : ∀ j, j < m → a j = true → b j = true) : count m a ≤ count m b := by
  unfold count
  have : (List.range m).countP a ≤ (List.range m).countP b :=
    List.countP_mono_left fun j hj => h j (List.mem_range.1 hj)
  omega

/-- Lanes in which one is contained in the other, and equally many are active. -/
theorem count_eq (m : Nat) {a b : Nat → Bool} (h : ∀ j, j < m → a j = true → b j = true) (he : count m b ≤ count m a) :
    ∀ j, j < m → b j = true → a j = true := by
  intro j hj hb
  by_contra ha
  have h1 : count m a < count m b := by
    have e : ((count m a : ℤ) : ℚ) < count m b := by
      rw [count_sum, count_sum]
      apply Finset.sum_lt_sum
      · intro i hi
        have := h i (Finset.mem_range.1 hi)
        split_ifs <;> simp_all
      · exact ⟨j, Finset.mem_range.2 hj, by simp [ha, hb]⟩
    exact_mod_cast e
  omega

section
variable {c β : ℚ} (hc : 0 < c) (hβ : 0 ≤ β) {m : Nat} {ls : List ℤ} (hls : ∀ l ∈ ls, l ≤ m)
include hc hβ hls

omit hc hβ in
theorem plan_cover : List.Forall₂ (· ≤ ·) ls (plan c β m ls) := by
  rw [List.forall₂_iff_get]
  refine ⟨(plan_length ..).symm, fun k h1 h2 => ?_⟩
  have e := plan_getD c β m ls h1
  rw [List.getD_eq_getElem _ _ h2] at e
  simp only [List.get_eq_getElem]
  rw [e]
  have hl := hls ls[k] (List.getElem_mem h1)
  by_cases h0 : 0 ≤ ls[k]
  · refine le_trans (count_threshold m h0 hl).ge (count_mono m fun j _ hj => ?_)
    apply bridge_needed
    rw [lane_getD, List.getD_eq_getElem _ _ h1]
    exact of_decide_eq_true hj
  · exact le_trans (by omega) (count_le _ _).1

omit hβ hls hc in
theorem lanes_cover {ys : List ℤ} (h : List.Forall₂ (· ≤ ·) ls ys) (j : Nat) :
    List.Forall₂ (fun d y => d = true → y = true) (lane j ls) (lane j ys) := by
  unfold lane
  rw [List.forall₂_map_left_iff, List.forall₂_map_right_iff]
  refine h.imp fun a b hab hd => ?_
  rw [decide_eq_true_eq] at hd ⊢
  omega

omit hls in
theorem plan_cheapest {ys : List ℤ} (h : List.Forall₂ (· ≤ ·) ls ys) (hy : ∀ y ∈ ys, 0 ≤ y ∧ y ≤ m) :
    lineCost c β 0 (plan c β m ls) ≤ lineCost c β 0 ys := by
  have h1 := stack_le c hβ m ls.length (fun _ => false) (fun j => bridge (fun n => (n : ℚ) * c < β) false (lane j ls))
    fun j => by rw [bridge_length]; simp [lane]
  have h2 := lineCost_lanes c β m ys 0 le_rfl (by omega) hy
  have h3 : count m (fun _ => false) = 0 := by simp [count]
  rw [h3] at h1
  refine h1.trans ?_
  rw [h2]
  apply Finset.sum_le_sum
  intro j _
  rw [bridge_cost hc, show decide ((j : ℤ) < 0) = false by simp]
  exact least_le hc hβ _ _ _ (lanes_cover h j)

omit hls in
theorem lanes_least {ys : List ℤ} (h : List.Forall₂ (· ≤ ·) ls ys) (hy : ∀ y ∈ ys, 0 ≤ y ∧ y ≤ m)
    (hopt : lineCost c β 0 ys ≤ lineCost c β 0 (plan c β m ls)) (j : Nat) (hj : j < m) :
    laneCost c β false (lane j ys) ≤ leastFrom c β false (lane j ls) := by
  have h1 := stack_le c hβ m ls.length (fun _ => false) (fun j => bridge (fun n => (n : ℚ) * c < β) false (lane j ls))
    fun j => by rw [bridge_length]; simp [lane]
  have h2 := lineCost_lanes c β m ys 0 le_rfl (by omega) hy
  have h3 : count m (fun _ => false) = 0 := by simp [count]
  rw [h3] at h1
  have h4 := hopt.trans h1
  rw [h2] at h4
  simp only [bridge_cost hc] at h4
  by_contra hlt
  push Not at hlt
  have : ∑ j ∈ Finset.range m, leastFrom c β false (lane j ls) <
      ∑ j ∈ Finset.range m, laneCost c β (decide ((j : ℤ) < 0)) (lane j ys) := by
    apply Finset.sum_lt_sum
    · intro i _
      rw [show decide ((i : ℤ) < 0) = false by simp]
      exact least_le hc hβ _ _ _ (lanes_cover h i)
    · refine ⟨j, Finset.mem_range.2 hj, ?_⟩
      rw [show decide ((j : ℤ) < 0) = false by simp]
      exact hlt
  linarith

end

end Soco.Gap
