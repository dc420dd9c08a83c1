import Verif.Model.ApproxGraph
import Mathlib.Algebra.Order.Archimedean.Basic
import Mathlib.Tactic.Linarith

/-! Lemmas about the approximation grid. -/

namespace Soco
namespace Multi

theorem mem_pushNew {vs : List ℤ} {x y : ℤ} : y ∈ pushNew vs x ↔ y ∈ vs ∨ y = x := by
  unfold pushNew; split_ifs with h
  · exact ⟨Or.inl, fun h' => h'.elim id fun e => e ▸ h⟩
  · simp

theorem nodup_pushNew {vs : List ℤ} {x : ℤ} (h : vs.Nodup) : (pushNew vs x).Nodup := by
  unfold pushNew; split_ifs with hx
  · exact h
  · rw [List.nodup_append]; refine ⟨h, by simp, ?_⟩
    rintro a ha b hb rfl
    exact hx (by simpa using (List.mem_singleton.1 hb) ▸ ha)

theorem foldl_pushNew (bs : List ℤ) : ∀ vs : List ℤ, (∀ y, y ∈ bs.foldl pushNew vs ↔ y ∈ vs ∨ y ∈ bs) ∧
    (vs.Nodup → (bs.foldl pushNew vs).Nodup) := by
  induction bs with
  | nil => intro vs; simp
  | cons b bs ih =>
    intro vs
    refine ⟨fun y => ?_, fun h => (ih _).2 (nodup_pushNew h)⟩
    rw [List.foldl_cons, (ih _).1, mem_pushNew]
    simp [or_assoc]

theorem powerLoop_nodup (γ : ℚ) (m : ℤ) : ∀ n i vs out, powerLoop γ m n i vs = some out → vs.Nodup →
    out.Nodup := by
  intro n
  induction n with
  | zero => intro i vs out h; simp [powerLoop] at h
  | succ n ih =>
    intro i vs out h hn
    simp only [powerLoop] at h
    split_ifs at h with h1 h2
    · cases h; exact hn
    · cases h; exact nodup_pushNew hn
    · exact ih _ _ _ h (nodup_pushNew (nodup_pushNew hn))

theorem powerLoop_sound (γ : ℚ) (m : ℤ) : ∀ n i vs out, powerLoop γ m n i vs = some out → ∀ x ∈ out,
    x ∈ vs ∨ ∃ j, i ≤ j ∧ (x = ⌊γ ^ j⌋ ∨ x = ⌈γ ^ j⌉) ∧ x ≤ m := by
  intro n
  induction n with
  | zero => intro i vs out h; simp [powerLoop] at h
  | succ n ih =>
    intro i vs out h x hx
    simp only [powerLoop] at h
    split_ifs at h with h1 h2
    · cases h; exact .inl hx
    · cases h
      rcases mem_pushNew.1 hx with hx | rfl
      · exact .inl hx
      · exact .inr ⟨i, le_rfl, .inl rfl, by omega⟩
    · rcases ih _ _ _ h x hx with hx | ⟨j, hj, hx⟩
      · rcases mem_pushNew.1 hx with hx | rfl
        · rcases mem_pushNew.1 hx with hx | rfl
          · exact .inl hx
          · exact .inr ⟨i, le_rfl, .inl rfl, by omega⟩
        · exact .inr ⟨i, le_rfl, .inr rfl, by omega⟩
      · exact .inr ⟨j, by omega, hx⟩

theorem powerLoop_keep (γ : ℚ) (m : ℤ) : ∀ n i vs out, powerLoop γ m n i vs = some out → ∀ x ∈ vs,
    x ∈ out := by
  intro n
  induction n with
  | zero => intro i vs out h; simp [powerLoop] at h
  | succ n ih =>
    intro i vs out h x hx
    simp only [powerLoop] at h
    split_ifs at h with h1 h2
    · cases h; exact hx
    · cases h; exact mem_pushNew.2 (.inl hx)
    · exact ih _ _ _ h x (mem_pushNew.2 (.inl (mem_pushNew.2 (.inl hx))))

theorem powerLoop_complete (γ : ℚ) (m : ℤ) : ∀ n i vs out, powerLoop γ m n i vs = some out →
    ∀ j, i ≤ j → (∀ k, i ≤ k → k < j → ⌈γ ^ k⌉ ≤ m) →
      (⌊γ ^ j⌋ ≤ m → ⌊γ ^ j⌋ ∈ out) ∧ (⌈γ ^ j⌉ ≤ m → ⌈γ ^ j⌉ ∈ out) := by
  intro n
  induction n with
  | zero => intro i vs out h; simp [powerLoop] at h
  | succ n ih =>
    intro i vs out h j hj hk
    have hfc : ∀ k, ⌊γ ^ k⌋ ≤ ⌈γ ^ k⌉ := fun k => Int.floor_le_ceil _
    simp only [powerLoop] at h
    rcases Nat.eq_or_lt_of_le hj with rfl | hlt
    · split_ifs at h with h1 h2
      · have := hfc i
        exact ⟨fun h' => by omega, fun h' => by omega⟩
      · cases h
        exact ⟨fun _ => mem_pushNew.2 (.inr rfl), fun h' => by omega⟩
      · exact ⟨fun _ => powerLoop_keep _ _ _ _ _ _ h _ (mem_pushNew.2 (.inl (mem_pushNew.2 (.inr rfl)))),
          fun _ => powerLoop_keep _ _ _ _ _ _ h _ (mem_pushNew.2 (.inr rfl))⟩
    · have hi := hk i le_rfl hlt
      have := hfc i
      rw [if_neg (by omega), if_neg (by omega)] at h
      exact ih _ _ _ h j hlt fun k h1 h2 => hk k (by omega) h2

theorem powerLoop_mono (γ : ℚ) (m : ℤ) : ∀ n i vs out, powerLoop γ m n i vs = some out → ∀ n', n ≤ n' →
    powerLoop γ m n' i vs = some out := by
  intro n
  induction n with
  | zero => intro i vs out h; simp [powerLoop] at h
  | succ n ih =>
    intro i vs out h n' hn
    obtain ⟨k, rfl⟩ : ∃ k, n' = k + 1 := ⟨n' - 1, by omega⟩
    simp only [powerLoop] at h ⊢
    split_ifs at h ⊢ with h1 h2
    · exact h
    · exact h
    · exact ih _ _ _ h k (by omega)

theorem powerLoop_isSome (γ : ℚ) (hγ : 1 < γ) (m : ℤ) (N : Nat) (hN : ((m : ℚ) + 1) ≤ γ ^ N) :
    ∀ n i vs, N < n + i → 0 < n → ∃ out, powerLoop γ m n i vs = some out := by
  intro n
  induction n with
  | zero => intro i vs _ h; omega
  | succ n ih =>
    intro i vs h _
    simp only [powerLoop]
    split_ifs with h1 h2
    · exact ⟨_, rfl⟩
    · exact ⟨_, rfl⟩
    · refine ih _ _ (by omega) ?_
      by_contra hc
      have hNi : N ≤ i := by omega
      apply h1
      have : γ ^ N ≤ γ ^ i := pow_le_pow_right₀ hγ.le hNi
      have : m + 1 ≤ ⌊γ ^ i⌋ := Int.le_floor.2 (by push_cast; linarith)
      omega

theorem powerLoop_none (γ : ℚ) (h0 : 0 ≤ γ) (h1 : γ ≤ 1) (m : ℤ) (hm : 1 ≤ m) :
    ∀ n i vs, powerLoop γ m n i vs = none := by
  intro n
  induction n with
  | zero => intro i vs; rfl
  | succ n ih =>
    intro i vs
    have hp : γ ^ i ≤ 1 := pow_le_one₀ h0 h1
    have hc : ⌈γ ^ i⌉ ≤ 1 := Int.ceil_le.2 (by exact_mod_cast hp)
    have hf : ⌊γ ^ i⌋ ≤ ⌈γ ^ i⌉ := Int.floor_le_ceil _
    simp only [powerLoop]
    rw [if_neg (by omega), if_neg (by omega)]
    exact ih _ _

end Multi
end Soco
