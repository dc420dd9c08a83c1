import Verif.Lemmas.Lcp
import Verif.Lemmas.Low
import Verif.Spec.Foresight

/-!
# Capacity provisioning with a prediction window

Bounds found with a window are entries of the lowest cheapest schedules of a longer horizon.
-/

namespace Soco.Window
open Soco Work Uni Spec Lcp Low

/-- A cheapest sequence, and the pointwise lowest one. -/
structure IsLow (g : Int → ℤ → ECost) (β : ℚ) (inv : Bool) (m : ℤ) (N : Nat) (t : Int) (x : ℤ) (js : List ℤ) :
    Prop where
  len : js.length = N
  box : ∀ j ∈ js, 0 ≤ j ∧ j ≤ m
  fin : Spec.totalCost g (mv1 β inv) 1 t x js ≠ ⊤
  opt : ∀ ks : List ℤ, ks.length = N → (∀ k ∈ ks, 0 ≤ k ∧ k ≤ m) →
    Spec.totalCost g (mv1 β inv) 1 t x js ≤ Spec.totalCost g (mv1 β inv) 1 t x ks
  low : ∀ ks : List ℤ, ks.length = N → (∀ k ∈ ks, 0 ≤ k ∧ k ≤ m) →
    Spec.totalCost g (mv1 β inv) 1 t x ks ≤ Spec.totalCost g (mv1 β inv) 1 t x js → Below js ks

section
variable {g : Int → ℤ → ECost} {β : ℚ} {inv : Bool} {m : ℤ} {N : Nat} {t : Int} {x : ℤ} {js ks : List ℤ}

theorem IsLow.unique (h : IsLow g β inv m N t x js) (h' : IsLow g β inv m N t x ks) : js = ks :=
  below_antisymm (h.low ks h'.len h'.box (h'.opt js h.len h.box)) (h'.low js h.len h.box (h.opt ks h'.len h'.box))

theorem cost_append {X : Type} (hit : Int → X → ECost) (mv : X → X → ℚ) (α : ℚ) :
    ∀ (xs ys : List X) (t : Int) (x : X), Spec.totalCost hit mv α t x (xs ++ ys)
      = Spec.totalCost hit mv α t x xs + Spec.totalCost hit mv α (t + xs.length) (xs.getLastD x) ys := by
  intro xs
  induction xs with
  | nil => intro ys t x; simp [Spec.totalCost]
  | cons y xs ih =>
    intro ys t x
    simp only [List.cons_append, Spec.totalCost, ih, List.getLastD_cons, List.length_cons, Nat.cast_add,
      Nat.cast_one]
    rw [show t + 1 + (xs.length : Int) = t + ((xs.length : Int) + 1) by ring]
    abel

theorem IsLow.tail (h : IsLow g β inv m N t x js) {s : Nat} (hs : s ≤ N) :
    IsLow g β inv m (N - s) (t + s) ((js.take s).getLastD x) (js.drop s) := by
  have hl : (js.take s).length = s := by rw [List.length_take, h.len]; omega
  have e : ∀ ks, Spec.totalCost g (mv1 β inv) 1 t x (js.take s ++ ks)
      = Spec.totalCost g (mv1 β inv) 1 t x (js.take s)
        + Spec.totalCost g (mv1 β inv) 1 (t + s) ((js.take s).getLastD x) ks := by
    intro ks; rw [cost_append, hl]
  have e0 := e (js.drop s)
  rw [List.take_append_drop] at e0
  have hf := h.fin
  rw [e0] at hf
  have f1 : Spec.totalCost g (mv1 β inv) 1 t x (js.take s) ≠ ⊤ := fun h => hf (by rw [h, top_add])
  have f2 : Spec.totalCost g (mv1 β inv) 1 (t + s) ((js.take s).getLastD x) (js.drop s) ≠ ⊤ :=
    fun h => hf (by rw [h, add_top])
  have hb1 : ∀ j ∈ js.take s, 0 ≤ j ∧ j ≤ m := fun j hj => h.box j (List.mem_of_mem_take hj)
  have key : ∀ ks : List ℤ, ks.length = N - s → (∀ k ∈ ks, 0 ≤ k ∧ k ≤ m) →
      (js.take s ++ ks).length = N ∧ ∀ k ∈ js.take s ++ ks, 0 ≤ k ∧ k ≤ m := by
    intro ks k1 k2
    refine ⟨by rw [List.length_append, hl, k1]; omega, fun k hk => ?_⟩
    rcases List.mem_append.1 hk with hk | hk
    · exact hb1 k hk
    · exact k2 k hk
  refine ⟨by rw [List.length_drop, h.len], fun j hj => h.box j (List.mem_of_mem_drop hj), f2, ?_, ?_⟩
  · intro ks k1 k2
    obtain ⟨a, b⟩ := key ks k1 k2
    have := h.opt _ a b
    rw [e0, e] at this
    exact WithTop.le_of_add_le_add_left f1 this
  · intro ks k1 k2 hle
    obtain ⟨a, b⟩ := key ks k1 k2
    have := h.low _ a b (by rw [e0, e]; exact add_le_add le_rfl hle)
    have := List.forall₂_drop s this
    rwa [List.drop_left' hl] at this

theorem down1 (g : Int → ℤ → ECost) (β : ℚ) (t : Int) (x : ℤ) (ys : List ℤ) :
    Spec.totalCost g (mv1 β true) 1 t x ys + ((β * (ys.getLastD x : ℤ) : ℚ) : ECost)
      = Spec.totalCost g (mv1 β false) 1 t x ys + ((β * x : ℚ) : ECost) := by
  have := down_eq (β := β) (f := hitQ g) t (x : ℚ) (ys.map fun j : ℤ => (j : ℚ))
  rwa [cost_cast_inv, cost_cast, getLastD_cast] at this

theorem last_append (xs ys : List ℤ) (x : ℤ) : (xs ++ ys).getLastD x = ys.getLastD (xs.getLastD x) := by
  induction ys using List.reverseRecOn with
  | nil => simp
  | append_singleton ys y _ => rw [← List.append_assoc, List.getLastD_concat, List.getLastD_concat]

/-- Powering up to the first entry. -/
def entry (β : ℚ) (z : ℤ) : List ℤ → ℚ
  | [] => 0
  | y :: _ => β * max 0 ((y : ℚ) - z)

/-- The first slots of a lowest cheapest sequence, seen with a potential for the remaining slots. -/
theorem IsLow.potential (hβ : 0 < β) (h : IsLow g β inv m N t x js) {s : Nat} (hs : s ≤ N) :
    ∃ V : ℤ → ℚ, (∀ z z' : ℤ, z ≤ z' → V z' ≤ V z ∧ V z ≤ V z' + β * (z' - z)) ∧
      Spec.totalCost g (mv1 β false) 1 t x (js.take s) ≠ ⊤ ∧
      ∀ ks : List ℤ, ks.length = s → (∀ k ∈ ks, 0 ≤ k ∧ k ≤ m) →
        Spec.totalCost g (mv1 β false) 1 t x (js.take s) + ((V ((js.take s).getLastD x) : ℚ) : ECost)
          ≤ Spec.totalCost g (mv1 β false) 1 t x ks + ((V (ks.getLastD x) : ℚ) : ECost) ∧
        (Spec.totalCost g (mv1 β false) 1 t x ks + ((V (ks.getLastD x) : ℚ) : ECost)
          ≤ Spec.totalCost g (mv1 β false) 1 t x (js.take s) + ((V ((js.take s).getLastD x) : ℚ) : ECost) →
          Below (js.take s) ks) := by
  have hl : (js.take s).length = s := by rw [List.length_take, h.len]; omega
  -- finite costs of the whole sequence
  have hup : Spec.totalCost g (mv1 β false) 1 t x js ≠ ⊤ := by
    cases inv with
    | false => exact h.fin
    | true =>
      intro hc
      have := down1 g β t x js
      rw [hc, top_add, coe_fp h.fin, ← WithTop.coe_add] at this
      exact WithTop.coe_ne_top this
  have e0 : Spec.totalCost g (mv1 β false) 1 t x js = Spec.totalCost g (mv1 β false) 1 t x (js.take s)
        + Spec.totalCost g (mv1 β false) 1 (t + s) ((js.take s).getLastD x) (js.drop s) := by
    conv_lhs => rw [← List.take_append_drop s js]
    rw [cost_append, hl]
  have f1 : Spec.totalCost g (mv1 β false) 1 t x (js.take s) ≠ ⊤ := fun h => hup (by rw [e0, h, top_add])
  have f2 : Spec.totalCost g (mv1 β false) 1 (t + s) ((js.take s).getLastD x) (js.drop s) ≠ ⊤ :=
    fun h => hup (by rw [e0, h, add_top])
  generalize hC : js.drop s = cs at *
  -- the rest as a function of the state before it
  have tailf : ∃ c : ℚ, ∀ z : ℤ, Spec.totalCost g (mv1 β false) 1 (t + s) z cs
      = ((c + entry β z cs : ℚ) : ECost) := by
    cases cs with
    | nil => exact ⟨0, fun z => by simp [Spec.totalCost, entry]⟩
    | cons y ys =>
      simp only [Spec.totalCost] at f2 ⊢
      have g1 : g (t + s) y ≠ ⊤ := fun h => f2 (by rw [h]; simp)
      have g2 : Spec.totalCost g (mv1 β false) 1 (t + s + 1) y ys ≠ ⊤ := fun h => f2 (by rw [h]; simp)
      refine ⟨fp (g (t + s) y) + fp (Spec.totalCost g (mv1 β false) 1 (t + s + 1) y ys), fun z => ?_⟩
      rw [coe_fp g1, coe_fp g2, ← WithTop.coe_add, ← WithTop.coe_add, WithTop.coe_inj, fp_coe, fp_coe]
      have : mv1 β false z y = β * max 0 ((y : ℚ) - z) := by simp [mv1]
      rw [this, entry]; ring
  obtain ⟨c, hc⟩ := tailf
  let V : ℤ → ℚ := fun z => (c + entry β z cs)
    - (if inv then β * ((cs.getLastD z : ℤ) : ℚ) - β * x else 0)
  have eV : ∀ ks : List ℤ, ks.length = s → Spec.totalCost g (mv1 β inv) 1 t x (ks ++ cs)
      = Spec.totalCost g (mv1 β false) 1 t x ks + ((V (ks.getLastD x) : ℚ) : ECost) := by
    intro ks k1
    cases inv with
    | false => rw [cost_append, k1, hc]; simp [V]
    | true =>
      have d := down1 g β t x (ks ++ cs)
      rw [cost_append g (mv1 β false), k1, hc, last_append] at d
      generalize Spec.totalCost g (mv1 β true) 1 t x (ks ++ cs) = a at *
      generalize Spec.totalCost g (mv1 β false) 1 t x ks = b at *
      simp only [V, if_true]
      cases b using WithTop.recTopCoe with
      | top =>
        cases a using WithTop.recTopCoe with
        | top => simp
        | coe a => rw [← WithTop.coe_add] at d; simp at d
      | coe b =>
        cases a using WithTop.recTopCoe with
        | top => rw [top_add, ← WithTop.coe_add, ← WithTop.coe_add] at d; exact absurd d.symm WithTop.coe_ne_top
        | coe a =>
          rw [← WithTop.coe_add, ← WithTop.coe_add, ← WithTop.coe_add, WithTop.coe_inj] at d
          rw [← WithTop.coe_add, WithTop.coe_inj]
          linarith
  have ej : js = js.take s ++ cs := by rw [← hC, List.take_append_drop]
  refine ⟨V, ?_, f1, ?_⟩
  · intro z z' hz
    have hz' : (z : ℚ) ≤ z' := by exact_mod_cast hz
    have hb := mul_nonneg hβ.le (sub_nonneg.2 hz')
    cases cs with
    | nil =>
      simp only [V, List.getLastD_nil, entry]
      split_ifs <;> constructor <;> linarith
    | cons y ys =>
      simp only [V, List.getLastD_cons, entry]
      have m1 : β * max 0 ((y : ℚ) - z') ≤ β * max 0 ((y : ℚ) - z) :=
        mul_le_mul_of_nonneg_left (max_le_max le_rfl (by linarith)) hβ.le
      have m2 : β * max 0 ((y : ℚ) - z) ≤ β * (max 0 ((y : ℚ) - z') + (z' - z)) := by
        refine mul_le_mul_of_nonneg_left (max_le ?_ ?_) hβ.le
        · have := le_max_left 0 ((y : ℚ) - z'); linarith
        · have := le_max_right 0 ((y : ℚ) - z'); linarith
      rw [mul_add] at m2
      constructor <;> linarith
  · intro ks k1 k2
    have a : (ks ++ cs).length = N := by rw [List.length_append, k1, ← hC, List.length_drop, h.len]; omega
    have b : ∀ k ∈ ks ++ cs, 0 ≤ k ∧ k ≤ m := by
      intro k hk
      rcases List.mem_append.1 hk with hk | hk
      · exact k2 k hk
      · rw [← hC] at hk; exact h.box k (List.mem_of_mem_drop hk)
    have e1 : Spec.totalCost g (mv1 β inv) 1 t x js
        = Spec.totalCost g (mv1 β false) 1 t x (js.take s) + ((V ((js.take s).getLastD x) : ℚ) : ECost) := by
      conv_lhs => rw [ej]
      exact eV _ hl
    refine ⟨?_, fun hle => ?_⟩
    · rw [← eV ks k1, ← e1]; exact h.opt _ a b
    · have := h.low _ a b (by rw [eV ks k1, e1]; exact hle)
      have := List.forall₂_take s this
      rwa [List.take_left' k1] at this

theorem par1 (hβ : 0 < β) (inv : Bool) : Par (mv1 β inv) 1 := by
  have h : ∀ i i' j j' : ℤ, max 0 (min (j : ℚ) j' - min (i : ℚ) i') + max 0 (max (j : ℚ) j' - max (i : ℚ) i')
      ≤ max 0 ((j : ℚ) - i) + max 0 ((j' : ℚ) - i') := by
    intro i i' j j'
    have a1 := le_max_left 0 ((j : ℚ) - i)
    have a2 := le_max_right 0 ((j : ℚ) - i)
    have a3 := le_max_left 0 ((j' : ℚ) - i')
    have a4 := le_max_right 0 ((j' : ℚ) - i')
    rcases min_cases (j : ℚ) j' with ⟨e, h⟩ | ⟨e, h⟩ <;> rcases max_cases (j : ℚ) j' with ⟨e', h'⟩ | ⟨e', h'⟩ <;>
    rcases min_cases (i : ℚ) i' with ⟨r, k⟩ | ⟨r, k⟩ <;> rcases max_cases (i : ℚ) i' with ⟨r', k'⟩ | ⟨r', k'⟩ <;>
    rw [e, e', r, r'] <;>
    first
    | linarith
    | (rcases max_cases 0 ((j : ℚ) - i') with ⟨u, _⟩ | ⟨u, _⟩ <;>
       rcases max_cases 0 ((j' : ℚ) - i) with ⟨v, _⟩ | ⟨v, _⟩ <;>
       rcases max_cases 0 ((j : ℚ) - i) with ⟨y, _⟩ | ⟨y, _⟩ <;>
       rcases max_cases 0 ((j' : ℚ) - i') with ⟨z, _⟩ | ⟨z, _⟩ <;>
       simp only [u, v, y, z] <;> linarith)
  intro i i' j j'
  cases inv with
  | false =>
    have := mul_le_mul_of_nonneg_left (h i i' j j') hβ.le
    simp only [mv1, one_mul]
    push_cast
    simp
    linarith
  | true =>
    have := mul_le_mul_of_nonneg_left (h j j' i i') hβ.le
    simp only [mv1, one_mul]
    push_cast
    simp
    linarith

theorem last_box {ks : List ℤ} {x : ℤ} (hx : 0 ≤ x ∧ x ≤ m) (h : ∀ k ∈ ks, 0 ≤ k ∧ k ≤ m) :
    0 ≤ ks.getLastD x ∧ ks.getLastD x ≤ m := by
  obtain rfl | ⟨zs, y, rfl⟩ := List.eq_nil_or_concat' ks
  · exact hx
  · rw [List.getLastD_concat]; exact h y (by simp)

theorem meet_last' {xs ys : List ℤ} (x : ℤ) (h : xs.length = ys.length) :
    (meet xs ys).getLastD x = min (xs.getLastD x) (ys.getLastD x) := by
  have := meet_last (x := x) (y := x) h
  rwa [min_self] at this

theorem join_last' {xs ys : List ℤ} (x : ℤ) (h : xs.length = ys.length) :
    (join xs ys).getLastD x = max (xs.getLastD x) (ys.getLastD x) := by
  have := join_last (x := x) (y := x) h
  rwa [max_self] at this

theorem cost_nonneg (hβ : 0 < β) : ∀ (N : Nat) (ks : List ℤ) (t : Int) (x : ℤ), ks.length = N →
    (∀ r : Int, t ≤ r → r < t + N → ∀ j, 0 ≤ j → j ≤ m → 0 ≤ g r j) →
    (∀ k ∈ ks, 0 ≤ k ∧ k ≤ m) → 0 ≤ Spec.totalCost g (mv1 β inv) 1 t x ks := by
  intro N
  induction N with
  | zero =>
    intro ks t x hl _ _
    rw [List.length_eq_zero_iff.1 hl]; exact le_rfl
  | succ N ih =>
    intro ks t x hl hg hk
    obtain _ | ⟨y, ys⟩ := ks
    · simp at hl
    have h1 := ih ys (t + 1) y (by simpa using hl) (fun r a b => hg r (by omega) (by push_cast; omega))
      (fun k h => hk k (by simp [h]))
    have h2 := hg t le_rfl (by push_cast; omega) y (hk y (by simp)).1 (hk y (by simp)).2
    have h3 : (0 : ECost) ≤ ((1 * mv1 β inv x y : ℚ) : ECost) := by
      have : (0 : ℚ) ≤ 1 * mv1 β inv x y := by
        rw [one_mul, mv1]; exact mul_nonneg hβ.le (by exact_mod_cast le_max_left _ _)
      exact_mod_cast this
    simp only [Spec.totalCost]
    positivity

/-- Lengthening the horizon does not decrease the lowest cheapest sequence. -/
theorem low_prefix (hβ : 0 < β) {A : List ℤ} {s : Nat} (hA : IsLow g β false m s t x A)
    (h : IsLow g β inv m N t x js) (hs : s ≤ N) : Below A (js.take s) := by
  obtain ⟨V, V1, V2, V3⟩ := h.potential hβ hs
  have hl : (js.take s).length = s := by rw [List.length_take, h.len]; omega
  have hlen : A.length = (js.take s).length := by rw [hA.len, hl]
  have hb : ∀ j ∈ js.take s, 0 ≤ j ∧ j ≤ m := fun j hj => h.box j (List.mem_of_mem_take hj)
  have bm : ∀ k ∈ meet A (js.take s), 0 ≤ k ∧ k ≤ m := fun k hk => by
    rcases meet_mem hk with hk | hk
    · exact hA.box k hk
    · exact hb k hk
  have bj : ∀ k ∈ join A (js.take s), 0 ≤ k ∧ k ≤ m := fun k hk => by
    rcases join_mem hk with hk | hk
    · exact hA.box k hk
    · exact hb k hk
  have lat := totalCost_meet_join (g := g) (par1 hβ false) hlen t x
  have o := (V3 (join A (js.take s)) (by rw [join_length hlen, hA.len]) bj).1
  have hv := (V1 ((js.take s).getLastD x) ((join A (js.take s)).getLastD x)
    (by rw [join_last' x hlen]; exact le_max_right _ _)).1
  refine below_trans (hA.low _ (by rw [meet_length hlen, hA.len]) bm ?_) (meet_below_right hlen)
  have fA := hA.fin
  generalize Spec.totalCost g (mv1 β false) 1 t x (meet A (js.take s)) = a at *
  generalize Spec.totalCost g (mv1 β false) 1 t x (join A (js.take s)) = b at *
  generalize Spec.totalCost g (mv1 β false) 1 t x A = c at *
  generalize Spec.totalCost g (mv1 β false) 1 t x (js.take s) = d at *
  generalize V ((js.take s).getLastD x) = v at *
  generalize V ((join A (js.take s)).getLastD x) = v' at *
  rw [coe_fp fA, coe_fp V2] at lat
  have fa : a ≠ ⊤ := fun h => by rw [h, top_add] at lat; simp [← WithTop.coe_add] at lat
  have fb : b ≠ ⊤ := fun h => by rw [h, add_top] at lat; simp [← WithTop.coe_add] at lat
  rw [coe_fp fa, coe_fp fb, ← WithTop.coe_add, ← WithTop.coe_add, WithTop.coe_le_coe] at lat
  rw [coe_fp fb, coe_fp V2, ← WithTop.coe_add, ← WithTop.coe_add, WithTop.coe_le_coe] at o
  rw [coe_fp fa, coe_fp fA, WithTop.coe_le_coe]
  linarith

/-- Lengthening the horizon does not increase the cheapest sequence for powering down. -/
theorem prefix_high (hβ : 0 < β) {A : List ℤ} {s : Nat} (hA : IsLow g β true m s t x A)
    (h : IsLow g β inv m N t x js) (hs : s ≤ N) : Below (js.take s) A := by
  obtain ⟨V, V1, V2, V3⟩ := h.potential hβ hs
  have hl : (js.take s).length = s := by rw [List.length_take, h.len]; omega
  have hlen : A.length = (js.take s).length := by rw [hA.len, hl]
  have hb : ∀ j ∈ js.take s, 0 ≤ j ∧ j ≤ m := fun j hj => h.box j (List.mem_of_mem_take hj)
  have bm : ∀ k ∈ meet A (js.take s), 0 ≤ k ∧ k ≤ m := fun k hk => by
    rcases meet_mem hk with hk | hk
    · exact hA.box k hk
    · exact hb k hk
  have bj : ∀ k ∈ join A (js.take s), 0 ≤ k ∧ k ≤ m := fun k hk => by
    rcases join_mem hk with hk | hk
    · exact hA.box k hk
    · exact hb k hk
  have lat := totalCost_meet_join (g := g) (par1 hβ false) hlen t x
  have o := hA.opt (join A (js.take s)) (by rw [join_length hlen, hA.len]) bj
  have d1 := down1 g β t x A
  have d2 := down1 g β t x (join A (js.take s))
  rw [join_last' x hlen] at d2
  have hv := (V1 ((meet A (js.take s)).getLastD x) ((js.take s).getLastD x)
    (by rw [meet_last' x hlen]; exact min_le_right _ _)).2
  have hmm : ((min (A.getLastD x) ((js.take s).getLastD x) : ℤ) : ℚ)
      + ((max (A.getLastD x) ((js.take s).getLastD x) : ℤ) : ℚ)
      = ((A.getLastD x : ℤ) : ℚ) + (((js.take s).getLastD x : ℤ) : ℚ) := by
    exact_mod_cast min_add_max _ _
  refine below_trans ((V3 _ (by rw [meet_length hlen, hA.len]) bm).2 ?_) (meet_below_left hlen)
  have eM := meet_last' x hlen
  rw [← eM] at hmm
  have fA := hA.fin
  generalize Spec.totalCost g (mv1 β true) 1 t x A = cA at *
  generalize Spec.totalCost g (mv1 β true) 1 t x (join A (js.take s)) = cJ at *
  generalize Spec.totalCost g (mv1 β false) 1 t x (meet A (js.take s)) = a at *
  generalize Spec.totalCost g (mv1 β false) 1 t x (join A (js.take s)) = b at *
  generalize Spec.totalCost g (mv1 β false) 1 t x A = c at *
  generalize Spec.totalCost g (mv1 β false) 1 t x (js.take s) = d at *
  generalize V ((js.take s).getLastD x) = v at *
  generalize V ((meet A (js.take s)).getLastD x) = v' at *
  have fc : c ≠ ⊤ := fun h => by rw [h, top_add, coe_fp fA, ← WithTop.coe_add] at d1; exact WithTop.coe_ne_top d1
  rw [coe_fp fc, coe_fp V2] at lat
  have fa : a ≠ ⊤ := fun h => by rw [h, top_add] at lat; simp [← WithTop.coe_add] at lat
  have fb : b ≠ ⊤ := fun h => by rw [h, add_top] at lat; simp [← WithTop.coe_add] at lat
  have fJ : cJ ≠ ⊤ := fun h => by
    rw [h, top_add, coe_fp fb, ← WithTop.coe_add] at d2; exact WithTop.coe_ne_top d2.symm
  rw [coe_fp fa, coe_fp fb, ← WithTop.coe_add, ← WithTop.coe_add, WithTop.coe_le_coe] at lat
  rw [coe_fp fA, coe_fp fc, ← WithTop.coe_add, ← WithTop.coe_add, WithTop.coe_inj] at d1
  rw [coe_fp fJ, coe_fp fb, ← WithTop.coe_add, ← WithTop.coe_add, WithTop.coe_inj] at d2
  rw [coe_fp fA, coe_fp fJ, WithTop.coe_le_coe] at o
  rw [coe_fp fa, coe_fp V2, ← WithTop.coe_add, ← WithTop.coe_add, WithTop.coe_le_coe]
  have hmm' := congrArg (fun r => β * r) hmm
  simp only [mul_add] at hmm'
  rw [mul_sub] at hv
  linarith

end

/-! ## The bounds found -/

variable {C D : Type} [OutSuccess C] [OutFailure D]

/-- The bound found with a window is an entry of the lowest cheapest sequence of the longer horizon. -/
theorem findBound_low {p : SSCO ℤ C D} {m : ℤ} {β : ℚ} {g : Int → ℤ → ECost} {n s w : Nat}
    (I : Foresight p m β g n w) (K : Costs m β g (n + w)) (hs : s < n) {x : ℤ} (hx : x ≤ m) (inverted : Bool) :
    ∃ js : List ℤ, IsLow g β inverted m (n + w - s) ((s : Int) + 1) x js ∧
      findBoundInt p 1 inverted w n s x = .ok (js.getD (n - s - 1) 0) := by
  have hcert := I.certain (1 + s) (by omega) (by omega)
  let q : SSCO ℤ C D := { p.reset s with tEnd := (p.reset s).tEnd + w }
  have hT : q.tEnd = ((n + w - s : Nat) : Int) := by
    show p.tEnd - s + w = _
    rw [I.tEnd]; omega
  have hhit : ∀ t : Int, 1 ≤ t → t ≤ q.tEnd → ∀ j, 0 ≤ j → j ≤ m →
      ∃ out, q.toProb.hitCost t [j] = .ok ⟨g (t + s) j, out⟩ := by
    intro t h1 h2 j h3 h4
    have : q.toProb.hitCost t [j] = (p.reset s).toProb.hitCost t [j] := rfl
    rw [this, reset_hit (by omega) h1 hcert]
    exact I.hit _ (by omega) (by omega) j h3 h4
  obtain ⟨P, js, h1, h2, h3, h4, h5, h6, h7⟩ := graphSearch_main (p := q) (m := m) (β := β) I.d I.bounds I.switching
    K.hm K.hβ (by omega) x hx { inverted := inverted, alpha := 1, l := none } rfl zero_le_one
    (g := fun t => g (t + s)) hhit (fun t a b => K.fin _ (by omega) (by push_cast; omega))
    (fun t a b => K.nonneg _ (by omega) (by push_cast; omega) m K.hm.le le_rfl)
  have h8 := h7 (fun t a b => K.nonneg _ (by omega) (by push_cast; omega))
    (fun t a b => K.conv _ (by omega) (by push_cast; omega))
  have hlen : js.length = n + w - s := by rw [hT] at h3; exact_mod_cast h3
  have e : ∀ ks : List ℤ, Spec.totalCost g (mv1 β inverted) 1 ((s : Int) + 1) x ks
      = Spec.totalCost (fun t => g (t + s)) (mv1 β inverted) 1 1 x ks := fun ks =>
    (totalCost_shift g (mv1 β inverted) 1 s ks 1 x).symm
  refine ⟨js, ⟨hlen, h4, ?_, ?_, ?_⟩, ?_⟩
  · rw [e]; rw [h5] at h6; exact h6
  · intro ks k1 k2
    rw [e, e]
    have := (h8 ks (by rw [hT, k1]) k2).1
    rwa [h5] at this
  · intro ks k1 k2
    rw [e, e]
    have := (h8 ks (by rw [hT, k1]) k2).2
    rwa [h5] at this
  · have hl : P.xs[((n : Int) - s).toNat - 1]? = some [js.getD (n - s - 1) 0] := by
      rw [h2, List.getElem?_map]
      have : ((n : Int) - s).toNat - 1 = n - s - 1 := by omega
      have hi : n - s - 1 < js.length := by omega
      rw [this, List.getD_eq_getElem?_getD, List.getElem?_eq_getElem hi]; rfl
    have hnpos : ¬ ((n : Int) ≤ 0) := by omega
    have h1' : optimalGraphSearch { p.reset s with tEnd := (p.reset s).tEnd + w } x
        { inverted := inverted, alpha := 1, l := none } = .ok P := h1
    have hle : (1 : Int) ≤ n - s := by omega
    simp only [findBoundInt, assertP, assertR, I.tEnd, I.d, le_refl, decide_true, if_true, bind, Except.bind,
      if_neg hnpos]
    rw [h1']
    simp only [hle, decide_true, if_true, idx, hl, List.getElem?_cons_zero]

/-- The bounds in memory are entries of the lowest cheapest schedules of the horizons seen so far. -/
def Marks (g : Int → ℤ → ECost) (β : ℚ) (m : ℤ) (w : Nat) (bs : List (BoundsMem ℤ)) : Prop :=
  ∀ k (b : BoundsMem ℤ), bs[k]? = some b → ∃ X Y, IsLow g β false m (k + 1 + w) 1 0 X ∧
    IsLow g β true m (k + 1 + w) 1 0 Y ∧ X.getD k 0 = b.lower ∧ Y.getD k 0 = b.upper

theorem below_getD {xs ys : List ℤ} (h : Below xs ys) (i : Nat) : xs.getD i 0 ≤ ys.getD i 0 := by
  obtain ⟨h1, h2⟩ := below_iff.1 h
  rcases lt_or_ge i xs.length with hi | hi
  · rw [List.getD_eq_getElem?_getD, List.getD_eq_getElem?_getD, List.getElem?_eq_getElem hi,
      List.getElem?_eq_getElem (h1 ▸ hi)]
    exact h2 i hi _
  · rw [List.getD_eq_getElem?_getD, List.getD_eq_getElem?_getD, List.getElem?_eq_none hi,
      List.getElem?_eq_none (h1 ▸ hi)]

theorem take_getD (xs : List ℤ) {i n : Nat} (h : i < n) : (xs.take n).getD i 0 = xs.getD i 0 := by
  rw [List.getD_eq_getElem?_getD, List.getElem?_take_of_lt h, ← List.getD_eq_getElem?_getD]

/-- A restart in agreeing bounds does not change the bound found. -/
theorem find_marks {p : SSCO ℤ C D} {m : ℤ} {β : ℚ} {g : Int → ℤ → ECost} {w : Nat} {bs : List (BoundsMem ℤ)}
    (M : Marks g β m w bs) (I : Foresight p m β g (bs.length + 1) w) (K : Costs m β g (bs.length + 1 + w))
    (inverted : Bool) :
    ∃ X, IsLow g β inverted m (bs.length + 1 + w) 1 0 X ∧
      findBoundInt p 1 inverted w ((bs.length + 1 : Nat) : Int) (findInitialTime bs).1 (findInitialTime bs).2
        = .ok (X.getD bs.length 0) := by
  obtain ⟨X, hX, eX⟩ := findBound_low (s := 0) I K (by omega) (x := 0) K.hm.le inverted
  simp only [Nat.cast_zero, zero_add, Nat.sub_zero] at hX eX
  refine ⟨X, hX, ?_⟩
  rcases findInitialTime_spec bs with e | ⟨s, x, e, a, b, c⟩
  · rw [e]; simpa using eX
  rw [e]
  obtain ⟨A, B, hA, hB, eA, eB⟩ := M (s - 1) _ c
  have hs1 : s - 1 + 1 = s := by omega
  rw [hs1] at hA hB
  have q1 := below_getD (low_prefix K.hβ hA hX (by omega)) (s - 1)
  have q2 := below_getD (prefix_high K.hβ hB hX (by omega)) (s - 1)
  rw [take_getD _ (by omega)] at q1 q2
  have ex : X.getD (s - 1) 0 = x := by simp only [] at eA eB; omega
  have hl : (X.take s).length = s := by rw [List.length_take, hX.len]; omega
  have elast : (X.take s).getLastD 0 = x := by
    rw [← ex, ← take_getD X (by omega : s - 1 < s)]
    obtain h | ⟨zs, y, h⟩ := List.eq_nil_or_concat' (X.take s)
    · rw [h] at hl; simp at hl; omega
    · rw [h]; rw [h] at hl
      rw [List.getLastD_concat]
      have : s - 1 = zs.length := by simp at hl; omega
      rw [this]; simp
  have T := hX.tail (s := s) (by omega)
  rw [elast] at T
  have hxm : x ≤ m := by
    rw [← ex, List.getD_eq_getElem?_getD, List.getElem?_eq_getElem (by rw [hX.len]; omega)]
    exact (hX.box _ (List.getElem_mem _)).2
  obtain ⟨js, hj, ej⟩ := findBound_low (s := s) I K (by omega) hxm inverted
  have : js = X.drop s := hj.unique (by rw [add_comm (1 : Int)] at T; exact T)
  rw [ej, this]
  have e2 : (X.drop s).getD (bs.length + 1 - s - 1) 0 = X.getD bs.length 0 := by
    rw [List.getD_eq_getElem?_getD, List.getElem?_drop, ← List.getD_eq_getElem?_getD]
    congr 1; omega
  rw [e2]

end Soco.Window
