import Verif.Props.Lanes
import Mathlib.Algebra.Order.Floor.Ring
import Mathlib.Data.Rat.Floor

/-! # One step of lazy budgeting on lanes -/

namespace Soco.Lb

/-- What holds of lanes `L` and horizons `H` after slot `t`, if a lane of type `k` is kept for `N k` slots. -/
structure LaneInv (m d : Nat) (bounds : List ℤ) (N : Nat → ℤ) (t : ℤ) (L : Nat → Nat) (H : Nat → ℤ) : Prop where
  antiL : ∀ i j, i ≤ j → j < m → L j ≤ L i
  antiH : ∀ i j, i ≤ j → j < m → H j ≤ H i
  le : ∀ j, j < m → L j ≤ d
  hor : ∀ j, j < m → H j ≤ t + N (L j)
  cap : ∀ i b, bounds[i]? = some b → ((((List.range m).map L).count (i + 1) : Nat) : ℤ) ≤ b

/-- The lane after slot `t`. -/
def stepL (t : ℤ) (L O : Nat → Nat) (H : Nat → ℤ) (j : Nat) : Nat := if L j < O j ∨ t ≥ H j then O j else L j

/-- The horizon after slot `t`. -/
def stepH (N : Nat → ℤ) (t : ℤ) (L O : Nat → Nat) (H : Nat → ℤ) (j : Nat) : ℤ :=
  if L j < O j ∨ t ≥ H j then t + N (O j) else max (H j) (t + N (O j))

theorem stepL_eq (t : ℤ) (L O : Nat → Nat) (H : Nat → ℤ) (j : Nat) :
    stepL t L O H j = max (if t < H j then L j else 0) (O j) := by
  unfold stepL
  by_cases h : t < H j
  · by_cases h' : L j < O j
    · rw [if_pos (Or.inl h'), if_pos h, max_eq_right h'.le]
    · rw [if_neg (by omega), if_pos h, max_eq_left (by omega)]
  · rw [if_pos (Or.inr (by omega)), if_neg h]
    omega

section
variable {m d : Nat} {bounds : List ℤ} {N : Nat → ℤ} {t : ℤ} {L O : Nat → Nat} {H : Nat → ℤ}

theorem count_eq_tails (m : Nat) (L : Nat → Nat) (k : Nat) :
    ((((List.range m).map L).count k : Nat) : ℤ) =
      ((List.range m).countP fun j => decide (k ≤ L j) : Nat) -
      ((List.range m).countP fun j => decide (k + 1 ≤ L j) : Nat) := by
  have := countP_ge_eq m L k
  omega

theorem countP_max (m : Nat) (A O : Nat → Nat) (hA : ∀ i j, i ≤ j → j < m → A j ≤ A i)
    (hO : ∀ i j, i ≤ j → j < m → O j ≤ O i) (k : Nat) :
    ((List.range m).countP fun j => decide (k ≤ max (A j) (O j))) =
      max ((List.range m).countP fun j => decide (k ≤ A j)) ((List.range m).countP fun j => decide (k ≤ O j)) := by
  obtain ⟨a1, a2⟩ := countP_range_closed (fun j => decide (k ≤ A j)) m fun i j hij hj h => by
    simp only [decide_eq_true_eq] at h ⊢; exact le_trans h (hA i j hij hj)
  obtain ⟨o1, o2⟩ := countP_range_closed (fun j => decide (k ≤ O j)) m fun i j hij hj h => by
    simp only [decide_eq_true_eq] at h ⊢; exact le_trans h (hO i j hij hj)
  apply countP_range_lt
  · intro j hj
    have h1 := a2 j hj
    have h2 := o2 j hj
    simp only [decide_eq_true_eq] at h1 h2 ⊢
    rw [lt_max_iff, le_max_iff, h1, h2]
  · exact max_le a1 o1

theorem countP_antitone (m : Nat) (L : Nat → Nat) (k : Nat) :
    ((List.range m).countP fun j => decide (k + 1 ≤ L j)) ≤ (List.range m).countP fun j => decide (k ≤ L j) :=
  List.countP_mono_left fun j _ h => by simp only [decide_eq_true_eq] at h ⊢; omega

theorem LaneInv.step (I : LaneInv m d bounds N t L H) (hN : ∀ k k', k ≤ k' → k' ≤ d → N k ≤ N k')
    (hN0 : N 0 = 0) (hO : ∀ i j, i ≤ j → j < m → O j ≤ O i) (hOd : ∀ j, j < m → O j ≤ d)
    (hOc : ∀ i b, bounds[i]? = some b → ((((List.range m).map O).count (i + 1) : Nat) : ℤ) ≤ b) :
    LaneInv m d bounds N (t + 1) (stepL (t + 1) L O H) (stepH N (t + 1) L O H) ∧
      ∀ k, ((List.range m).countP fun j => decide (k ≤ O j)) ≤
        (List.range m).countP fun j => decide (k ≤ stepL (t + 1) L O H j) := by
  have hNn : ∀ k, k ≤ d → 0 ≤ N k := fun k hk => by rw [← hN0]; exact hN 0 k (by omega) hk
  have hH : ∀ j, j < m → stepH N (t + 1) L O H j = max (H j) (t + 1 + N (O j)) := by
    intro j hj
    have h1 := hNn (O j) (hOd j hj)
    have h2 := I.hor j hj
    unfold stepH
    split
    · rename_i h
      rcases h with h | h
      · have := hN (L j) (O j) h.le (hOd j hj)
        omega
      · omega
    · rfl
  set A : Nat → Nat := fun j => if t + 1 < H j then L j else 0 with hA
  have hL : ∀ j, stepL (t + 1) L O H j = max (A j) (O j) := stepL_eq _ L O H
  have antiA : ∀ i j, i ≤ j → j < m → A j ≤ A i := by
    intro i j hij hj
    have h1 := I.antiL i j hij hj
    have h2 := I.antiH i j hij hj
    simp only [hA]
    split_ifs <;> omega
  have hAc : ∀ i b, bounds[i]? = some b → ((((List.range m).map A).count (i + 1) : Nat) : ℤ) ≤ b := by
    intro i b hb
    refine le_trans ?_ (I.cap i b hb)
    simp only [List.count, List.countP_map]
    have : List.countP ((fun x => x == i + 1) ∘ A) (List.range m) ≤
        List.countP ((fun x => x == i + 1) ∘ L) (List.range m) := by
      apply List.countP_mono_left
      intro j _ h
      simp only [Function.comp, beq_iff_eq, hA] at h ⊢
      split at h
      · exact h
      · omega
    exact_mod_cast this
  refine ⟨⟨?_, ?_, ?_, ?_, ?_⟩, ?_⟩
  · intro i j hij hj
    rw [hL, hL]
    exact max_le_max (antiA i j hij hj) (hO i j hij hj)
  · intro i j hij hj
    rw [hH j hj, hH i (by omega)]
    have := hN (O j) (O i) (hO i j hij hj) (hOd i (by omega))
    exact max_le_max (I.antiH i j hij hj) (by omega)
  · intro j hj
    rw [hL]
    refine max_le ?_ (hOd j hj)
    simp only [hA]
    split
    · exact I.le j hj
    · omega
  · intro j hj
    have hle : stepL (t + 1) L O H j ≤ d := by
      rw [hL]
      refine max_le ?_ (hOd j hj)
      simp only [hA]
      split
      · exact I.le j hj
      · omega
    have h1 := hN (O j) (stepL (t + 1) L O H j) (by rw [hL]; exact le_max_right _ _) hle
    rw [hH j hj]
    refine max_le ?_ (by omega)
    by_cases h : t + 1 < H j
    · have h2 := hN (L j) (stepL (t + 1) L O H j) (by rw [hL]; simp only [hA, if_pos h]; exact le_max_left _ _) hle
      have := I.hor j hj
      omega
    · have := hNn _ hle
      omega
  · intro i b hb
    have e1 := hAc i b hb
    have e2 := hOc i b hb
    rw [count_eq_tails] at e1 e2 ⊢
    simp only [hL]
    rw [countP_max m A O antiA hO, countP_max m A O antiA hO]
    have := countP_antitone m A (i + 1)
    have := countP_antitone m O (i + 1)
    omega
  · intro k
    simp only [hL]
    rw [countP_max m A O antiA hO]
    exact le_max_right _ _

end
end Soco.Lb
