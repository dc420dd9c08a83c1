import Verif.Spec.Schedule
import Mathlib.Data.List.Forall2
import Mathlib.Data.List.Induction
import Mathlib.Order.Lattice
import Mathlib.Tactic.Abel
import Mathlib.Tactic.Linarith

/-!
# Schedules of numbers under the pointwise order

With a movement cost that prefers parallel moves the pointwise minimum and maximum of two schedules together
are not more expensive than the two schedules.
-/

namespace Soco.Low

/-- Moving in parallel is not more expensive than crossing. -/
def Par (mv : ℤ → ℤ → ℚ) (α : ℚ) : Prop := ∀ i i' j j' : ℤ,
  α * mv (min i i') (min j j') + α * mv (max i i') (max j j') ≤ α * mv i j + α * mv i' j'

/-- Pointwise order. -/
abbrev Below (xs ys : List ℤ) : Prop := List.Forall₂ (· ≤ ·) xs ys

/-- Pointwise minimum. -/
def meet (xs ys : List ℤ) : List ℤ := List.zipWith min xs ys
/-- Pointwise maximum. -/
def join (xs ys : List ℤ) : List ℤ := List.zipWith max xs ys

theorem below_refl (xs : List ℤ) : Below xs xs := List.forall₂_same.2 fun _ _ => le_rfl

theorem below_trans {xs ys zs : List ℤ} (h1 : Below xs ys) (h2 : Below ys zs) : Below xs zs := by
  induction h1 generalizing zs with
  | nil => exact h2
  | cons h _ ih =>
    cases h2 with
    | cons h' t => exact .cons (h.trans h') (ih t)

theorem below_antisymm {xs ys : List ℤ} (h1 : Below xs ys) (h2 : Below ys xs) : xs = ys := by
  induction h1 with
  | nil => rfl
  | cons h _ ih =>
    cases h2 with
    | cons h' t => rw [ih t, le_antisymm h h']

theorem below_iff {xs ys : List ℤ} : Below xs ys ↔ xs.length = ys.length ∧
    ∀ i (h1 : i < xs.length) (h2 : i < ys.length), xs[i] ≤ ys[i] := by
  rw [Below, List.forall₂_iff_get]
  simp [List.get_eq_getElem]

theorem below_snoc {xs ys : List ℤ} {x y : ℤ} (h : Below xs ys) (hxy : x ≤ y) : Below (xs ++ [x]) (ys ++ [y]) :=
  List.rel_append h (.cons hxy .nil)

theorem meet_length {xs ys : List ℤ} (h : xs.length = ys.length) : (meet xs ys).length = xs.length := by
  simp [meet, h]
theorem join_length {xs ys : List ℤ} (h : xs.length = ys.length) : (join xs ys).length = xs.length := by
  simp [join, h]

theorem meet_get {xs ys : List ℤ} {i : Nat} (h : i < (meet xs ys).length) (h1 : i < xs.length) (h2 : i < ys.length) :
    (meet xs ys)[i] = min xs[i] ys[i] := by simp [meet]
theorem join_get {xs ys : List ℤ} {i : Nat} (h : i < (join xs ys).length) (h1 : i < xs.length) (h2 : i < ys.length) :
    (join xs ys)[i] = max xs[i] ys[i] := by simp [join]

theorem meet_below_left {xs ys : List ℤ} (h : xs.length = ys.length) : Below (meet xs ys) xs :=
  below_iff.2 ⟨meet_length h, fun i h1 h2 => by rw [meet_get h1 h2 (h ▸ h2)]; exact min_le_left _ _⟩
theorem meet_below_right {xs ys : List ℤ} (h : xs.length = ys.length) : Below (meet xs ys) ys :=
  below_iff.2 ⟨(meet_length h).trans h, fun i h1 h2 => by rw [meet_get h1 (h ▸ h2) h2]; exact min_le_right _ _⟩
theorem below_join_left {xs ys : List ℤ} (h : xs.length = ys.length) : Below xs (join xs ys) :=
  below_iff.2 ⟨(join_length h).symm, fun i h1 h2 => by rw [join_get h2 h1 (h ▸ h1)]; exact le_max_left _ _⟩
theorem below_join_right {xs ys : List ℤ} (h : xs.length = ys.length) : Below ys (join xs ys) :=
  below_iff.2 ⟨((join_length h).trans h).symm, fun i h1 h2 => by rw [join_get h2 (h ▸ h1) h1]; exact le_max_right _ _⟩

theorem meet_mem {xs ys : List ℤ} {z : ℤ} (h : z ∈ meet xs ys) : z ∈ xs ∨ z ∈ ys := by
  obtain ⟨i, hi, rfl⟩ := List.getElem_of_mem h
  have : i < xs.length ∧ i < ys.length := by simpa [meet] using hi
  rw [meet_get hi this.1 this.2]
  rcases min_choice xs[i] ys[i] with e | e <;> rw [e]
  · exact .inl (List.getElem_mem _)
  · exact .inr (List.getElem_mem _)
theorem join_mem {xs ys : List ℤ} {z : ℤ} (h : z ∈ join xs ys) : z ∈ xs ∨ z ∈ ys := by
  obtain ⟨i, hi, rfl⟩ := List.getElem_of_mem h
  have : i < xs.length ∧ i < ys.length := by simpa [join] using hi
  rw [join_get hi this.1 this.2]
  rcases max_choice xs[i] ys[i] with e | e <;> rw [e]
  · exact .inl (List.getElem_mem _)
  · exact .inr (List.getElem_mem _)

theorem meet_last {xs ys : List ℤ} {x y : ℤ} (h : xs.length = ys.length) :
    (meet xs ys).getLastD (min x y) = min (xs.getLastD x) (ys.getLastD y) := by
  induction xs using List.reverseRecOn with
  | nil => rw [List.length_eq_zero_iff.1 h.symm]; rfl
  | append_singleton xs a _ =>
    obtain rfl | ⟨ys, b, rfl⟩ := List.eq_nil_or_concat' ys
    · simp at h
    · have h' : xs.length = ys.length := by simpa using h
      rw [meet, List.zipWith_append h']
      simp
theorem join_last {xs ys : List ℤ} {x y : ℤ} (h : xs.length = ys.length) :
    (join xs ys).getLastD (max x y) = max (xs.getLastD x) (ys.getLastD y) := by
  induction xs using List.reverseRecOn with
  | nil => rw [List.length_eq_zero_iff.1 h.symm]; rfl
  | append_singleton xs a _ =>
    obtain rfl | ⟨ys, b, rfl⟩ := List.eq_nil_or_concat' ys
    · simp at h
    · have h' : xs.length = ys.length := by simpa using h
      rw [join, List.zipWith_append h']
      simp

theorem totalCost_lattice {g : Int → ℤ → ECost} {mv : ℤ → ℤ → ℚ} {α : ℚ} (P : Par mv α) :
    ∀ (xs ys : List ℤ), xs.length = ys.length → ∀ (t : Int) (x y : ℤ),
    Spec.totalCost g mv α t (min x y) (meet xs ys) + Spec.totalCost g mv α t (max x y) (join xs ys)
      ≤ Spec.totalCost g mv α t x xs + Spec.totalCost g mv α t y ys := by
  intro xs
  induction xs with
  | nil =>
    intro ys h t x y
    rw [List.length_eq_zero_iff.1 h.symm]; simp [meet, join, Spec.totalCost]
  | cons a xs ih =>
    intro ys h t x y
    obtain _ | ⟨b, ys⟩ := ys
    · simp at h
    have h1 := ih ys (by simpa using h) (t + 1) a b
    have h2 : g t (min a b) + g t (max a b) = g t a + g t b := by
      rcases le_total a b with h | h
      · rw [min_eq_left h, max_eq_right h]
      · rw [min_eq_right h, max_eq_left h, add_comm]
    have h3 : ((α * mv (min x y) (min a b) : ℚ) : ECost) + ((α * mv (max x y) (max a b) : ℚ) : ECost)
        ≤ ((α * mv x a : ℚ) : ECost) + ((α * mv y b : ℚ) : ECost) := by
      rw [← WithTop.coe_add, ← WithTop.coe_add, WithTop.coe_le_coe]
      exact P x y a b
    have e1 : meet (a :: xs) (b :: ys) = min a b :: meet xs ys := rfl
    have e2 : join (a :: xs) (b :: ys) = max a b :: join xs ys := rfl
    rw [e1, e2]
    simp only [Spec.totalCost]
    calc _ = (g t (min a b) + g t (max a b)) + (((α * mv (min x y) (min a b) : ℚ) : ECost)
            + ((α * mv (max x y) (max a b) : ℚ) : ECost))
          + (Spec.totalCost g mv α (t + 1) (min a b) (meet xs ys)
            + Spec.totalCost g mv α (t + 1) (max a b) (join xs ys)) := by abel
      _ ≤ (g t a + g t b) + (((α * mv x a : ℚ) : ECost) + ((α * mv y b : ℚ) : ECost))
          + (Spec.totalCost g mv α (t + 1) a xs + Spec.totalCost g mv α (t + 1) b ys) :=
          add_le_add (add_le_add h2.le h3) h1
      _ = _ := by abel

/-- With the same start. -/
theorem totalCost_meet_join {g : Int → ℤ → ECost} {mv : ℤ → ℤ → ℚ} {α : ℚ} (P : Par mv α) {xs ys : List ℤ}
    (h : xs.length = ys.length) (t : Int) (x : ℤ) :
    Spec.totalCost g mv α t x (meet xs ys) + Spec.totalCost g mv α t x (join xs ys)
      ≤ Spec.totalCost g mv α t x xs + Spec.totalCost g mv α t x ys := by
  have := totalCost_lattice (g := g) P xs ys h t x x
  rwa [min_self, max_self] at this

end Soco.Low
