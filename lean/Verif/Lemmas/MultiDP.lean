import Verif.Lemmas.MultiPick
import Verif.Spec.Schedule
import Mathlib.Tactic.Linarith
import Mathlib.Tactic.Ring
import Mathlib.Data.List.Induction

/-! # Multi-dimensional graph search: the dynamic program -/

namespace Soco

theorem totalCost_snoc {X : Type} (hit : Int → X → ECost) (mv : X → X → ℚ) (α : ℚ) (x : X) :
    ∀ (xs : List X) (t : Int) (prev : X),
    Spec.totalCost hit mv α t prev (xs ++ [x]) = Spec.totalCost hit mv α t prev xs
      + (hit (t + xs.length) x + ((α * mv (xs.getLastD prev) x : ℚ) : ECost)) := by
  intro xs
  induction xs with
  | nil => intro t prev; simp [Spec.totalCost]
  | cons y xs ih =>
    intro t prev
    have e : t + 1 + (xs.length : Int) = t + ((y :: xs).length : Int) := by
      simp only [List.length_cons]; push_cast; ring
    simp only [List.cons_append, Spec.totalCost, ih, List.getLastD_cons, e]
    abel

theorem upCost_cons {T : Type} [Value T] (b : ℚ) (β : List ℚ) (y : T) (ys : List T) (x : T)
    (xs : List T) :
    Spec.upCost (b :: β) (y :: ys) (x :: xs) = b * max 0 (toQ x - toQ y) + Spec.upCost β ys xs := by
  simp [Spec.upCost, List.zipWith3]

theorem weighted_cons {T : Type} [Value T] (b : ℚ) (β : List ℚ) (x : T) (xs : List T) :
    Spec.weighted (b :: β) (x :: xs) = b * toQ x + Spec.weighted β xs := by
  simp [Spec.weighted]

theorem weighted_set (β : List ℚ) (c : ℤ) : ∀ (x : List ℤ) (k : Nat), x.length = β.length →
    k < x.length → Spec.weighted β x
      = Spec.weighted β (x.set k c) + β.getD k 0 * ((x.getD k 0 : ℚ) - c) := by
  induction β with
  | nil => intro x k h hk; subst_vars; simp_all
  | cons b β ih =>
    intro x k h hk
    match x, k with
    | [], _ => simp at hk
    | x :: xs, 0 => simp [weighted_cons, toQ, Value.toQHom]; ring
    | x :: xs, k + 1 =>
      simp only [List.set_cons_succ, weighted_cons, List.getD_cons_succ]
      rw [ih xs k (by simpa using h) (by simpa using hk)]; ring

theorem upCost_set_le (β : List ℚ) (hβ : ∀ b ∈ β, 0 ≤ b) (c : ℤ) : ∀ (y x : List ℤ) (k : Nat),
    x.length = β.length → y.length = β.length → k < x.length → c ≤ x.getD k 0 →
    Spec.upCost β y x
      ≤ Spec.upCost β y (x.set k c) + β.getD k 0 * ((x.getD k 0 : ℚ) - c) := by
  induction β with
  | nil => intro y x k h h' hk; subst_vars; simp_all
  | cons b β ih =>
    intro y x k h h' hk hc
    match y, x, k with
    | _, [], _ => simp at hk
    | [], _ :: _, _ => simp at h'
    | y :: ys, x :: xs, 0 =>
      have hb := hβ b (by simp)
      have hc' : (c : ℚ) ≤ x := by exact_mod_cast hc
      simp only [List.set_cons_zero, upCost_cons, List.getD_cons_zero]
      have : max 0 (toQ x - toQ y) ≤ max 0 (toQ c - toQ y) + ((x : ℚ) - c) := by
        simp only [toQ, Value.toQHom, Int.coe_castRingHom]
        refine max_le ?_ ?_
        · have := le_max_left 0 ((c : ℚ) - y); linarith
        · have := le_max_right 0 ((c : ℚ) - y); linarith
      have := mul_le_mul_of_nonneg_left this hb
      linarith
    | y :: ys, x :: xs, k + 1 =>
      simp only [List.set_cons_succ, upCost_cons, List.getD_cons_succ]
      have := ih (fun b hb => hβ b (by simp [hb])) ys xs k (by simpa using h) (by simpa using h')
        (by simpa using hk) (by simpa using hc)
      linarith

theorem upCost_set_eq (β : List ℚ) (c : ℤ) : ∀ (y x : List ℤ) (k : Nat),
    x.length = β.length → y.length = β.length → k < x.length → c ≤ x.getD k 0 → y.getD k 0 ≤ c →
    Spec.upCost β y x
      = Spec.upCost β y (x.set k c) + β.getD k 0 * ((x.getD k 0 : ℚ) - c) := by
  induction β with
  | nil => intro y x k h h' hk; subst_vars; simp_all
  | cons b β ih =>
    intro y x k h h' hk hc hy
    match y, x, k with
    | _, [], _ => simp at hk
    | [], _ :: _, _ => simp at h'
    | y :: ys, x :: xs, 0 =>
      have hc' : (c : ℚ) ≤ x := by exact_mod_cast hc
      have hy' : (y : ℚ) ≤ c := by exact_mod_cast hy
      simp only [List.set_cons_zero, upCost_cons, List.getD_cons_zero]
      have e1 : max 0 (toQ x - toQ y) = (x : ℚ) - y := by
        simp only [toQ, Value.toQHom, Int.coe_castRingHom]
        exact max_eq_right (by linarith)
      have e2 : max 0 (toQ c - toQ y) = (c : ℚ) - y := by
        simp only [toQ, Value.toQHom, Int.coe_castRingHom]
        exact max_eq_right (by linarith)
      rw [e1, e2]; ring
    | y :: ys, x :: xs, k + 1 =>
      simp only [List.set_cons_succ, upCost_cons, List.getD_cons_succ]
      rw [ih ys xs k (by simpa using h) (by simpa using h') (by simpa using hk) (by simpa using hc)
        (by simpa using hy)]
      ring

theorem upCost_of_le (β : List ℚ) : ∀ (y x : List ℤ), (∀ k, x.getD k 0 ≤ y.getD k 0) →
    x.length = y.length → Spec.upCost β y x = 0 := by
  induction β with
  | nil => intros; simp [Spec.upCost, List.zipWith3]
  | cons b β ih =>
    intro y x h hl
    match y, x with
    | [], [] => simp [Spec.upCost, List.zipWith3]
    | [], _ :: _ => simp at hl
    | _ :: _, [] => simp at hl
    | y :: ys, x :: xs =>
      have h0 : x ≤ y := by simpa using h 0
      have h0' : (x : ℚ) ≤ y := by exact_mod_cast h0
      rw [upCost_cons, ih ys xs (fun k => by simpa using h (k + 1)) (by simpa using hl)]
      have : max 0 (toQ x - toQ y) = 0 := by
        simp only [toQ, Value.toQHom, Int.coe_castRingHom]
        exact max_eq_left (by linarith)
      rw [this]; ring

namespace Multi

variable {C D : Type} [OutSuccess C] [OutFailure D]

/-- What the search needs to know about the instance. -/
structure Setting (p : SSCO ℤ C D) (v : Values) (alpha : ℚ) (hit : Int → Config ℤ → ECost) : Prop where
  grid : Grid p v
  dpos : 0 < v.boundIndices.length
  alpha : 0 ≤ alpha
  beta : ∀ b ∈ p.switchingCost, 0 ≤ b
  hit : ∀ t : Int, 1 ≤ t → t ≤ p.tEnd → ∀ i, Ok v.boundIndices i →
    ∃ o, p.toProb.hitCost t (v.cfg i) = .ok ⟨hit t (v.cfg i), o⟩

section
variable {p : SSCO ℤ C D} {v : Values} {alpha : ℚ} {inverted : Bool} {hit : Int → Config ℤ → ECost}

theorem Grid.val_lt (g : Grid p v) {i j : Nat} (hij : i < j) (hj : j < v.values.length) :
    v.val i < v.val j := by
  have h := List.pairwise_iff_getElem.1 g.mono i j (by omega) hj hij
  simpa [Values.val, List.getD, hj, (by omega : i < v.values.length)] using h

theorem Grid.val_le (g : Grid p v) {i j : Nat} (hij : i ≤ j) (hj : j < v.values.length) :
    v.val i ≤ v.val j := by
  rcases Nat.lt_or_eq_of_le hij with h | rfl
  · exact le_of_lt (g.val_lt h hj)
  · exact le_rfl

theorem Ok.lt {v : Values} (g : Grid p v) {i : List Nat} (hi : Ok v.boundIndices i) (k : Nat) :
    i.getD k 0 < v.values.length := lt_of_le_of_lt (hi.2 k) (g.blt' k)

/-- Cost of an index schedule from the zero configuration, without inversion. -/
def obj (p : SSCO ℤ C D) (v : Values) (alpha : ℚ) (hit : Int → Config ℤ → ECost)
    (js : List (List Nat)) : ECost :=
  Spec.totalCost hit (Spec.upCost p.switchingCost) alpha 1 (v.cfg (base true v.boundIndices))
    (js.map v.cfg)

/-- Last index vector. -/
def lastI (v : Values) (js : List (List Nat)) : List Nat := js.getLastD (base true v.boundIndices)

/-- Switching cost of powering up between index vectors. -/
def upI (p : SSCO ℤ C D) (v : Values) (j i : List Nat) : ℚ :=
  Spec.upCost p.switchingCost (v.cfg j) (v.cfg i)

/-- The part of the powering-up cost that the inverted search charges only when powering down. -/
def phi (p : SSCO ℤ C D) (v : Values) (alpha : ℚ) (inverted : Bool) (i : List Nat) : ℚ :=
  if inverted then alpha * Spec.weighted p.switchingCost (v.cfg i) else 0

theorem getLastD_map {α β : Type} (f : α → β) (l : List α) (a : α) :
    (l.map f).getLastD (f a) = f (l.getLastD a) := by
  induction l generalizing a with
  | nil => rfl
  | cons b l ih => simp only [List.map_cons, List.getLastD_cons, ih]

theorem obj_snoc (js : List (List Nat)) (i : List Nat) :
    obj p v alpha hit (js ++ [i]) = obj p v alpha hit js
      + (hit (js.length + 1) (v.cfg i) + ((alpha * upI p v (lastI v js) i : ℚ) : ECost)) := by
  simp only [obj, List.map_append, List.map_cons, List.map_nil, totalCost_snoc, List.length_map,
    getLastD_map, upI, lastI, add_comm (1 : Int)]

theorem lastI_ok (js : List (List Nat)) (h : ∀ j ∈ js, Ok v.boundIndices j) :
    Ok v.boundIndices (lastI v js) := by
  unfold lastI
  induction js using List.reverseRecOn with
  | nil => exact Ok.base true _
  | append_singleton l a _ => simpa using h a (by simp)

theorem cfg_length (v : Values) (i : List Nat) : (v.cfg i).length = i.length := by simp [Values.cfg]

theorem upI_of_le (g : Grid p v) {i j : List Nat} (hi : Ok v.boundIndices i)
    (hj : Ok v.boundIndices j) (h : ∀ k, i.getD k 0 ≤ j.getD k 0) : upI p v j i = 0 := by
  refine upCost_of_le _ _ _ (fun k => ?_) (by rw [cfg_length, cfg_length, hi.1, hj.1])
  by_cases hk : k < v.boundIndices.length
  · rw [cfg_getD v (by rw [hi.1]; exact hk), cfg_getD v (by rw [hj.1]; exact hk)]
    exact g.val_le (h k) (hj.lt g k)
  · have e1 : k ≥ (v.cfg i).length := by rw [cfg_length, hi.1]; omega
    have e2 : k ≥ (v.cfg j).length := by rw [cfg_length, hj.1]; omega
    simp [List.getD, e1, e2]

theorem Grid.scl (g : Grid p v) : p.switchingCost.length = v.boundIndices.length := by
  rw [g.sc, g.bi]

/-- A step of the upward layer, in terms of costs corrected by `phi`. -/
theorem stepCost_up (g : Grid p v) {i : List Nat} (hi : Ok v.boundIndices i) {l j : Nat}
    (hl : l < v.boundIndices.length) (hs : step false (i.getD l 0) (v.boundIndices.getD l 0) = some j) :
    ∃ q : ℚ, stepCost p v alpha inverted true l (i.getD l 0) j = (q : ECost) ∧
      q + phi p v alpha inverted i
        = alpha * (p.switchingCost.getD l 0 * ((v.val (i.getD l 0) : ℚ) - v.val j))
          + phi p v alpha inverted (i.set l j) ∧
      v.val j ≤ v.val (i.getD l 0) := by
  have hil : l < i.length := by rw [hi.1]; exact hl
  have hj : j + 1 = i.getD l 0 := by
    simp only [step, Bool.false_eq_true, if_false] at hs
    split at hs
    · simp at hs
    · simp at hs; simp at *; omega
  have hlt : v.val j < v.val (i.getD l 0) := g.val_lt (by omega) (hi.lt g l)
  have hw : Spec.weighted p.switchingCost (v.cfg i)
      = Spec.weighted p.switchingCost (v.cfg (i.set l j))
        + p.switchingCost.getD l 0 * ((v.val (i.getD l 0) : ℚ) - v.val j) := by
    have := weighted_set p.switchingCost (v.val j) (v.cfg i) l (by rw [cfg_length, g.scl, hi.1])
      (by rw [cfg_length]; exact hil)
    rw [this, cfg_set, cfg_getD v hil]
  cases inverted
  · refine ⟨alpha * p.switchingCost.getD l 0 * ((v.val (i.getD l 0) - v.val j : ℤ) : ℚ), ?_, ?_,
      le_of_lt hlt⟩
    · have : scalarMovement (v.val (i.getD l 0)) (v.val j) false = v.val (i.getD l 0) - v.val j := by
        simp only [scalarMovement, pos_eq, Bool.false_eq_true, if_false]
        exact max_eq_right (by omega)
      unfold stepCost
      rw [this]
      simp
    · simp only [phi, Bool.false_eq_true, if_false]; push_cast; ring
  · refine ⟨0, by simp [stepCost], ?_, le_of_lt hlt⟩
    simp only [phi, if_true, hw]; ring

/-- A step of the downward layer. -/
theorem stepCost_down (g : Grid p v) {i : List Nat} (hi : Ok v.boundIndices i) {l j : Nat}
    (hl : l < v.boundIndices.length) (hs : step true (i.getD l 0) (v.boundIndices.getD l 0) = some j) :
    ∃ q : ℚ, stepCost p v alpha inverted false l (i.getD l 0) j = (q : ECost) ∧
      q + phi p v alpha inverted i = phi p v alpha inverted (i.set l j) := by
  have hil : l < i.length := by rw [hi.1]; exact hl
  have hjb := step_le (hi.2 l) hs
  have hj : j = i.getD l 0 + 1 := by
    simp only [step, if_true] at hs
    split at hs
    · simp at hs
    · simp at hs; simp at *; omega
  have hlt : v.val (i.getD l 0) < v.val j := g.val_lt (by omega) (lt_of_le_of_lt hjb (g.blt' l))
  have hw : Spec.weighted p.switchingCost (v.cfg i)
      = Spec.weighted p.switchingCost (v.cfg (i.set l j))
        + p.switchingCost.getD l 0 * ((v.val (i.getD l 0) : ℚ) - v.val j) := by
    have := weighted_set p.switchingCost (v.val j) (v.cfg i) l (by rw [cfg_length, g.scl, hi.1])
      (by rw [cfg_length]; exact hil)
    rw [this, cfg_set, cfg_getD v hil]
  cases inverted
  · exact ⟨0, by simp [stepCost], by simp [phi]⟩
  · refine ⟨alpha * p.switchingCost.getD l 0 * ((v.val j - v.val (i.getD l 0) : ℤ) : ℚ), ?_, ?_⟩
    · have : scalarMovement (v.val (i.getD l 0)) (v.val j) true = v.val j - v.val (i.getD l 0) := by
        simp only [scalarMovement, pos_eq, if_true]
        exact max_eq_right (by omega)
      unfold stepCost
      rw [this]
      simp
    · simp only [phi, if_true, hw]; push_cast; ring

/-- The path stored for a vertex of the upward layer of slot `n + 1`. -/
structure UpOK (p : SSCO ℤ C D) (v : Values) (alpha : ℚ) (inverted : Bool)
    (hit : Int → Config ℤ → ECost) (n : Nat) (i : List Nat) (P : Path) : Prop where
  fin : P.cost ≠ ⊤
  sound : ∃ js : List (List Nat), (∀ j ∈ js, Ok v.boundIndices j) ∧ js.length = n ∧
    P.xs = js.map v.cfg ∧
    obj p v alpha hit js + ((alpha * upI p v (lastI v js) i : ℚ) : ECost)
      ≤ P.cost + ((phi p v alpha inverted i : ℚ) : ECost)
  complete : ∀ js : List (List Nat), (∀ j ∈ js, Ok v.boundIndices j) → js.length = n →
    P.cost + ((phi p v alpha inverted i : ℚ) : ECost)
      ≤ obj p v alpha hit js + ((alpha * upI p v (lastI v js) i : ℚ) : ECost)

/-- The path stored for a vertex of the downward layer of slot `n`. -/
structure DownOK (p : SSCO ℤ C D) (v : Values) (alpha : ℚ) (inverted : Bool)
    (hit : Int → Config ℤ → ECost) (n : Nat) (i : List Nat) (P : Path) : Prop where
  fin : P.cost ≠ ⊤
  sound : ∃ js : List (List Nat), (∀ j ∈ js, Ok v.boundIndices j) ∧ js.length = n ∧
    P.xs = js.map v.cfg ∧ (∀ k, i.getD k 0 ≤ (lastI v js).getD k 0) ∧
    obj p v alpha hit js ≤ P.cost + ((phi p v alpha inverted i : ℚ) : ECost)
  complete : ∀ js : List (List Nat), (∀ j ∈ js, Ok v.boundIndices j) → js.length = n →
    (∀ k, i.getD k 0 ≤ (lastI v js).getD k 0) →
    P.cost + ((phi p v alpha inverted i : ℚ) : ECost) ≤ obj p v alpha hit js

end

end Multi
end Soco
