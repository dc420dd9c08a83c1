import Verif.Spec.Static
import Verif.Spec.Schedule
import Mathlib.Tactic.Linarith

/-!
# Lemmas: covering a load by servers of unit capacity at least cost
-/

namespace Soco.Cover
open Soco Soco.Spec

theorem weighted_append (ws : List ℚ) (u y : List ℤ) :
    weighted ws (u ++ y) = weighted ws u + weighted (ws.drop u.length) y := by
  induction u generalizing ws with
  | nil => simp [weighted]
  | cons a u ih =>
    cases ws with
    | nil => simp [weighted]
    | cons w ws =>
      have := ih ws
      simp only [weighted] at this ⊢
      simp only [List.cons_append, List.zipWith_cons_cons, List.sum_cons, List.length_cons, List.drop_succ_cons]
      rw [this]; ring

theorem weighted_cons (w : ℚ) (ws : List ℚ) (a : ℤ) (v : List ℤ) : weighted (w :: ws) (a :: v) = w * a + weighted ws v := by
  simp only [weighted, List.zipWith_cons_cons, List.sum_cons]
  rfl

/-- If one configuration has more servers than another, a server can be moved from the former to the latter. -/
theorem exchange {bs : List (ℤ × ℤ)} {v v' : List ℤ} (h : InBoxes bs v) (h' : InBoxes bs v') (hs : v'.sum < v.sum) :
    ∃ w w', InBoxes bs w ∧ InBoxes bs w' ∧ w.sum = v.sum - 1 ∧ w'.sum = v'.sum + 1 ∧
      ∀ ws : List ℚ, weighted ws w + weighted ws w' = weighted ws v + weighted ws v' := by
  induction h generalizing v' with
  | nil => cases h'; simp at hs
  | @cons b a bs v ha h ih =>
    cases h' with
    | @cons _ a' _ v' ha' h' =>
      by_cases hlt : a' < a
      · refine ⟨(a - 1) :: v, (a' + 1) :: v', .cons ⟨?_, ?_⟩ h, .cons ⟨?_, ?_⟩ h', by simp; ring, by simp; ring, ?_⟩
        · have := ha'.1; omega
        · have := ha.2; omega
        · have := ha'.1; omega
        · have := ha.2; omega
        · intro ws
          cases ws with
          | nil => simp [weighted]
          | cons w ws => simp only [weighted_cons]; push_cast; ring
      · simp only [List.sum_cons] at hs
        obtain ⟨w, w', h1, h2, h3, h4, h5⟩ := ih h' (by omega)
        refine ⟨a :: w, a' :: w', .cons ha h1, .cons ha' h2, by simp [h3]; ring, by simp [h4]; ring, ?_⟩
        intro ws
        cases ws with
        | nil => simp [weighted]
        | cons q ws => simp only [weighted_cons]; linarith [h5 ws]

/-- The cost of a configuration with at least `P` servers. -/
def cover (P : ℤ) (ws : List ℚ) (x : Config ℤ) : ECost := if x.sum < P then ⊤ else ((weighted ws x : ℚ) : ECost)

theorem cover_ne_top {P : ℤ} {ws : List ℚ} {x : Config ℤ} : cover P ws x ≠ ⊤ ↔ P ≤ x.sum := by
  unfold cover
  split <;> simp <;> omega

theorem inBoxes_append {u v : List ℤ} {bs : List (ℤ × ℤ)} (h : InBoxes bs (u ++ v)) :
    InBoxes (bs.take u.length) u ∧ InBoxes (bs.drop u.length) v := by
  induction u generalizing bs with
  | nil => exact ⟨List.Forall₂.nil, by simpa using h⟩
  | cons a u ih =>
    cases h with
    | cons h1 h2 =>
      obtain ⟨g1, g2⟩ := ih h2
      exact ⟨.cons h1 g1, g2⟩

theorem inBoxes_join {u v : List ℤ} {bs : List (ℤ × ℤ)} (h1 : InBoxes (bs.take u.length) u)
    (h2 : InBoxes (bs.drop u.length) v) : InBoxes bs (u ++ v) := by
  have := List.rel_append h1 h2
  simp only [List.take_append_drop] at this
  exact this

/-- Least costs of covering a load are quasi-convex in the next number of servers. -/
theorem cover_marginals (P : ℤ) (ws : List ℚ) (bounds : List (ℤ × ℤ)) : QuasiConvexMarginals (cover P ws) bounds := by
  intro u i j l a b c hij hjl ha hb hc
  by_cases htop : max a c = ⊤
  · rw [htop]; exact le_top
  obtain ⟨M, hM⟩ : ∃ M : ℚ, max a c = (M : ECost) := ⟨_, (WithTop.coe_untop _ htop).symm⟩
  set E : ℤ → Prop := fun k => ∃ v, InBoxes bounds (u ++ [k] ++ v) ∧ cover P ws (u ++ [k] ++ v) ≤ (M : ECost) with hE
  have hEi : E i := by
    obtain ⟨v, h1, h2⟩ := ha.1
    exact ⟨v, h1, by rw [h2, ← hM]; exact le_max_left _ _⟩
  have hEl : E l := by
    obtain ⟨v, h1, h2⟩ := hc.1
    exact ⟨v, h1, by rw [h2, ← hM]; exact le_max_right _ _⟩
  have step : ∀ i l : ℤ, i < l → E i → E l → E (i + 1) ∨ E (l - 1) := by
    intro i l hil hi hl
    obtain ⟨v, v1, v2⟩ := hi
    obtain ⟨v', v1', v2'⟩ := hl
    have key : ∀ (k : ℤ) (v : List ℤ), cover P ws (u ++ [k] ++ v) ≤ (M : ECost) ↔ P ≤ u.sum + k + v.sum ∧
        weighted ws (u ++ [k]) + weighted (ws.drop (u.length + 1)) v ≤ M := by
      intro k v
      unfold cover
      rw [weighted_append]
      simp only [List.sum_append, List.sum_cons, List.sum_nil, add_zero, List.length_append, List.length_cons,
        List.length_nil, zero_add]
      split
      · rename_i h
        constructor
        · intro h'; simp at h'
        · rintro ⟨h', _⟩; omega
      · rename_i h
        rw [WithTop.coe_le_coe]
        exact ⟨fun h' => ⟨by omega, h'⟩, fun h' => h'.2⟩
    rw [key] at v2 v2'
    obtain ⟨b1, b2⟩ := inBoxes_append v1
    obtain ⟨b1', b2'⟩ := inBoxes_append v1'
    have hbox : ∀ (k : ℤ) (w : List ℤ), i ≤ k → k ≤ l → InBoxes (bounds.drop (u.length + 1)) w → InBoxes bounds (u ++ [k] ++ w) := by
      intro k w h1 h2 hw
      refine inBoxes_join ?_ (by simpa using hw)
      obtain ⟨c1, c2⟩ := inBoxes_append b1
      obtain ⟨c1', c2'⟩ := inBoxes_append b1'
      simp only [List.length_append, List.length_cons, List.length_nil, zero_add] at c1 c2 c1' c2' ⊢
      refine inBoxes_join c1 ?_
      match hds : List.drop u.length (List.take (u.length + 1) bounds), c2, c2' with
      | [e], .cons e1 .nil, .cons e2 .nil =>
        exact .cons ⟨h1.trans' e1.1, h2.trans e2.2⟩ .nil
    simp only [List.length_append, List.length_cons, List.length_nil, zero_add] at b2 b2'
    have hlin : ∀ k : ℤ, weighted ws (u ++ [k]) = weighted ws u + ((ws.drop u.length).headD 0) * k := by
      intro k
      rw [weighted_append]
      congr 1
      cases ws.drop u.length with
      | nil => simp [weighted]
      | cons w ws' => rw [weighted_cons]; simp [weighted]
    rw [hlin] at v2 v2'
    suffices h : ∃ w w', InBoxes (bounds.drop (u.length + 1)) w ∧ InBoxes (bounds.drop (u.length + 1)) w' ∧
        P ≤ u.sum + (i + 1) + w.sum ∧ P ≤ u.sum + (l - 1) + w'.sum ∧
        weighted (ws.drop (u.length + 1)) w + weighted (ws.drop (u.length + 1)) w' ≤
          weighted (ws.drop (u.length + 1)) v + weighted (ws.drop (u.length + 1)) v' by
      obtain ⟨w, w', w1, w2, w3, w4, w5⟩ := h
      by_cases hM1 : weighted ws u + ((ws.drop u.length).headD 0) * ((i + 1 : ℤ) : ℚ) + weighted (ws.drop (u.length + 1)) w ≤ M
      · exact Or.inl ⟨w, hbox _ _ (by omega) (by omega) w1, (key _ _).2 ⟨w3, by rw [hlin]; exact hM1⟩⟩
      · refine Or.inr ⟨w', hbox _ _ (by omega) (by omega) w2, (key _ _).2 ⟨w4, ?_⟩⟩
        rw [hlin]
        have e1 := v2.2
        have e2 := v2'.2
        push_cast at hM1 ⊢
        nlinarith
    by_cases hex : P ≤ u.sum + (l - 1) + v'.sum
    · exact ⟨v, v', b2, b2', by omega, hex, le_rfl⟩
    · obtain ⟨w, w', h1, h2, h3, h4, h5⟩ := exchange b2 b2' (by omega)
      exact ⟨w, w', h1, h2, by omega, by omega, (h5 _).le⟩
  have main : ∀ (n : Nat) (i l : ℤ), (l - i).toNat = n → i < j → j < l → E i → E l → E j := by
    intro n
    induction n with
    | zero => intro i l h1 h2 h3; omega
    | succ n ih =>
      intro i l h1 h2 h3 h4 h5
      rcases step i l (by omega) h4 h5 with h | h
      · by_cases he : j = i + 1
        · rw [he]; exact h
        · exact ih (i + 1) l (by omega) (by omega) h3 h h5
      · by_cases he : j = l - 1
        · rw [he]; exact h
        · exact ih i (l - 1) (by omega) h2 (by omega) h4 h
  obtain ⟨v, h1, h2⟩ := main _ i l rfl hij hjl hEi hEl
  rw [hM]
  exact (hb.2 v h1).trans h2

end Soco.Cover
