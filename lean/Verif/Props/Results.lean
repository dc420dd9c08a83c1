import Verif.Model.Loads

/-! # Helper lemmas: lists of results -/

namespace Soco
universe u

theorem mapM_ok_iff {ε α β : Type} (f : α → Except ε β) (xs : List α) (ys : List β) :
    xs.mapM f = .ok ys ↔ List.Forall₂ (fun x y => f x = .ok y) xs ys := by
  induction xs generalizing ys with
  | nil =>
    rw [List.mapM_nil]
    constructor
    · intro h; cases h; exact .nil
    · intro h; cases h; rfl
  | cons x xs ih =>
    rw [List.mapM_cons]
    cases hx : f x with
    | error e =>
      constructor
      · intro h; cases h
      · intro h; cases h with | cons h1 h2 => rw [hx] at h1; cases h1
    | ok y =>
      cases hxs : xs.mapM f with
      | error e =>
        constructor
        · intro h; cases h
        · intro h
          cases h with
          | cons h1 h2 => rw [(ih _).2 h2] at hxs; cases hxs
      | ok ys' =>
        constructor
        · intro h; cases h; exact .cons hx ((ih _).1 hxs)
        · intro h
          cases h with
          | cons h1 h2 =>
            rw [(ih _).2 h2] at hxs; cases hxs
            rw [hx] at h1; cases h1; rfl

theorem mapM_ok_length {ε α β : Type} {f : α → Except ε β} {xs : List α} {ys : List β} (h : xs.mapM f = .ok ys) :
    ys.length = xs.length := ((mapM_ok_iff f xs ys).1 h).length_eq.symm

theorem mapM_ok_get {ε α β : Type} {f : α → Except ε β} {xs : List α} {ys : List β} (h : xs.mapM f = .ok ys)
    {i : Nat} {x : α} (hx : xs[i]? = some x) : ∃ y, ys[i]? = some y ∧ f x = .ok y := by
  have h2 := (mapM_ok_iff f xs ys).1 h
  clear h
  induction h2 generalizing i with
  | nil => simp at hx
  | cons h1 _ ih =>
    cases i with
    | zero => simp at hx; subst hx; exact ⟨_, rfl, h1⟩
    | succ i => simp at hx; simpa using ih hx

theorem mapM_ok_of {ε α β : Type} {f : α → Except ε β} {xs : List α} (g : α → β) (h : ∀ x ∈ xs, f x = .ok (g x)) :
    xs.mapM f = .ok (xs.map g) := by
  rw [mapM_ok_iff]
  induction xs with
  | nil => exact .nil
  | cons x xs ih =>
    exact .cons (h x (by simp)) (ih fun y hy => h y (by simp [hy]))

theorem sumM_ok_iff {ε α : Type} [Zero α] [Add α] (es : List (Except ε α)) (s : α) :
    sumM es = .ok s ↔ ∃ vs : List α, List.Forall₂ (fun e v => e = .ok v) es vs ∧ s = vs.sum := by
  induction es generalizing s with
  | nil =>
    constructor
    · intro h; cases h; exact ⟨[], .nil, rfl⟩
    · rintro ⟨vs, h, rfl⟩; cases h; rfl
  | cons e es ih =>
    constructor
    · intro h
      cases e with
      | error e => cases h
      | ok v =>
        cases hs : sumM es with
        | error e => simp only [sumM, bind, Except.bind, hs] at h; cases h
        | ok s' =>
          simp only [sumM, bind, Except.bind, hs] at h
          cases h
          obtain ⟨vs, h1, rfl⟩ := (ih _).1 hs
          exact ⟨v :: vs, .cons rfl h1, by simp⟩
    · rintro ⟨vs, h, rfl⟩
      cases h with
      | @cons _ v _ vs h1 h2 =>
        subst h1
        simp only [sumM, bind, Except.bind, (ih _).2 ⟨_, h2, rfl⟩, List.sum_cons]

theorem sumM_ok_of {ε α ι : Type} [Zero α] [Add α] {f : ι → Except ε α} {xs : List ι} (g : ι → α)
    (h : ∀ x ∈ xs, f x = .ok (g x)) : sumM (xs.map f) = .ok (xs.map g).sum := by
  rw [sumM_ok_iff]
  refine ⟨xs.map g, ?_, rfl⟩
  induction xs with
  | nil => exact .nil
  | cons x xs ih => exact .cons (h x (by simp)) (ih fun y hy => h y (by simp [hy]))

/-- The summands of a successful sum. -/
theorem sumM_map_ok {ε α ι : Type} [Zero α] [Add α] {f : ι → Except ε α} {xs : List ι} {s : α}
    (h : sumM (xs.map f) = .ok s) : ∃ g : List α, List.Forall₂ (fun x v => f x = .ok v) xs g ∧ s = g.sum := by
  obtain ⟨vs, h1, h2⟩ := (sumM_ok_iff _ _).1 h
  exact ⟨vs, List.forall₂_map_left_iff.1 h1, h2⟩

theorem idx_ok_iff {α : Type} (xs : List α) (i : Nat) (a : α) : idx xs i = .ok a ↔ xs[i]? = some a := by
  unfold idx
  cases h : xs[i]? <;> simp

theorem IRes.ofRes_ok_iff {α : Type} (r : Res α) (a : α) : IRes.ofRes r = .ok a ↔ r = .ok a := by
  cases r <;> simp [IRes.ofRes]

end Soco
