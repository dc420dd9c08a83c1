import Verif.Model.Basic
import Verif.Lemmas.Objective

/-!
# C12 (raw encodings) and C13 (scalar utilities)
-/

namespace Soco

/-! ## C12 -/

section
variable {T : Type} [Value T]

/-- **C12** (acceptance). `from_raw` accepts exactly the encodings of length `d * w`, panics on all
others, and returns `w` configurations of `d` entries. -/
theorem C12_from_raw_accepts (d w : Nat) (raw : List T) :
    (raw.length = d * w → ∃ xs, Schedule.fromRaw d w raw = .ok xs ∧ xs.length = w ∧
      (∀ x ∈ xs, x.length = d) ∧ xs.flatten = raw) ∧
    (raw.length ≠ d * w → Schedule.fromRaw d w raw = .error .panic) := by
  refine ⟨fun h => ⟨_, by rw [Schedule.fromRaw, if_pos h], by simp, ?_, ?_⟩,
    fun h => by rw [Schedule.fromRaw, if_neg h]⟩
  · intro x hx
    simp only [List.mem_map, List.mem_range] at hx
    obtain ⟨t, ht, rfl⟩ := hx
    simp only [List.length_take, List.length_drop, h]
    have : d * t + d ≤ d * w := by
      have := Nat.mul_le_mul_left d (show t + 1 ≤ w by omega)
      rw [Nat.mul_add] at this; omega
    omega
  · induction w generalizing raw with
    | zero => simp at h; simp [h]
    | succ w ih =>
      rw [List.range_succ_eq_map]
      have h1 : (raw.drop d).length = d * w := by
        rw [List.length_drop, h, Nat.mul_add]; omega
      have h2 := ih (raw.drop d) h1
      simp only [List.map_cons, List.map_map, List.flatten_cons, Nat.mul_zero, List.drop_zero]
      have h3 : (List.range w).map ((fun t => (raw.drop (d * t)).take d) ∘ Nat.succ)
          = (List.range w).map fun t => ((raw.drop d).drop (d * t)).take d := by
        apply List.map_congr_left
        intro t _
        simp only [Function.comp, List.drop_drop]
        congr 2
        rw [Nat.mul_succ]; omega
      rw [h3, h2, List.take_append_drop]

/-- **C12** (round trip). Decoding the flattened schedule returns the schedule. -/
theorem C12_from_raw_flatten (d : Nat) (xs : Schedule T) (hd : ∀ x ∈ xs, x.length = d) :
    Schedule.fromRaw d xs.length xs.flatten = .ok xs := by
  have hlen : xs.flatten.length = d * xs.length := by
    induction xs with
    | nil => simp
    | cons x xs ih =>
      rw [List.flatten_cons, List.length_append, ih fun y hy => hd y (by simp [hy]), hd x (by simp),
        List.length_cons, Nat.mul_succ]; omega
  rw [Schedule.fromRaw, if_pos hlen]
  congr 1
  clear hlen
  induction xs with
  | nil => rfl
  | cons x xs ih =>
    have hx : x.length = d := hd x (by simp)
    rw [List.length_cons, List.range_succ_eq_map]
    simp only [List.map_cons, List.map_map, Nat.mul_zero, List.drop_zero, List.flatten_cons]
    have h1 : (x ++ xs.flatten).take d = x := by rw [← hx]; simp
    rw [h1]
    congr 1
    conv_rhs => rw [← ih fun y hy => hd y (by simp [hy])]
    apply List.map_congr_left
    intro t _
    simp only [Function.comp]
    have : d * t.succ = x.length + d * t := by rw [Nat.mul_succ, hx]; omega
    rw [this, ← List.drop_drop, List.drop_left]

/-- **C12** (`build_raw`). Encodes the schedule that repeats one configuration `w` times, and has the
length `raw_encoding_len` (so that its assertion never fires). -/
theorem C12_build_raw (w : Nat) (x : Config T) :
    (Schedule.buildRaw w x).length = Schedule.rawEncodingLen x.length w ∧
    Schedule.fromRaw x.length w (Schedule.buildRaw w x) = .ok (List.replicate w x) := by
  have h : Schedule.buildRaw w x = (List.replicate w x).flatten := by
    unfold Schedule.buildRaw
    rw [List.flatMap_def]
    congr 1
    rw [List.map_const', List.length_range]
  have h2 := C12_from_raw_flatten x.length (List.replicate w x) (by
    intro y hy; rw [(List.mem_replicate.1 hy).2])
  rw [List.length_replicate] at h2
  refine ⟨?_, by rw [h]; exact h2⟩
  rw [h]; simp [Schedule.rawEncodingLen, Nat.mul_comm]

example : Schedule.fromRaw 2 3 [(1 : ℤ), 0, 2, 0, 1, 2] = .ok [[1, 0], [2, 0], [1, 2]] := by
  decide +kernel

end

/-! ## C13 -/

section
variable {T : Type} [Value T]

/-- **C13** (lattice). `max`, `min`, `pos` are the lattice operations. -/
theorem C13_lattice (x y : T) :
    umax x y = max x y ∧ umin x y = min x y ∧ pos x = max 0 x :=
  ⟨umax_eq x y, umin_eq x y, pos_eq x⟩

theorem project_eq (x a b : T) : project x a b = max a (min b x) := by
  rw [project, umax_eq, umin_eq]

/-- **C13** (`project`). The projection lies in the interval, is the identity on it, moves to the
nearest end otherwise, is idempotent, monotone and non-expansive, and is the closest point of the
interval. -/
theorem C13_project (a b : T) (hab : a ≤ b) (x : T) :
    (a ≤ project x a b ∧ project x a b ≤ b) ∧
    (a ≤ x → x ≤ b → project x a b = x) ∧
    (x < a → project x a b = a) ∧ (b < x → project x a b = b) ∧
    project (project x a b) a b = project x a b ∧
    (∀ y, x ≤ y → project x a b ≤ project y a b) ∧
    (∀ y, |project x a b - project y a b| ≤ |x - y|) ∧
    (∀ y, a ≤ y → y ≤ b → |project x a b - x| ≤ |y - x|) := by
  simp only [project_eq]
  have hid : ∀ z, a ≤ z → z ≤ b → max a (min b z) = z := by
    intro z h1 h2; rw [min_eq_right h2, max_eq_right h1]
  have hin : ∀ z, a ≤ max a (min b z) ∧ max a (min b z) ≤ b :=
    fun z => ⟨le_max_left _ _, max_le hab (min_le_left _ _)⟩
  have hmono : ∀ u v : T, u ≤ v → max a (min b u) ≤ max a (min b v) := fun u v huv =>
    max_le_max le_rfl (min_le_min le_rfl huv)
  have hne : ∀ u v : T, u ≤ v → max a (min b v) - max a (min b u) ≤ v - u := by
    intro u v huv
    rcases le_total u a with h1 | h1
    · have : max a (min b u) = a := by
        rw [min_eq_right (le_trans h1 hab), max_eq_left h1]
      rw [this]
      have : max a (min b v) ≤ max a v := max_le_max le_rfl (min_le_right _ _)
      rcases le_total a v with h2 | h2
      · rw [max_eq_right h2] at this; linarith
      · rw [max_eq_left h2] at this; linarith
    · rcases le_total v b with h2 | h2
      · rw [hid u h1 (le_trans huv h2), hid v (le_trans h1 huv) h2]
      · have : max a (min b v) = b := by rw [min_eq_left h2, max_eq_right hab]
        rw [this]
        rcases le_total u b with h3 | h3
        · rw [hid u h1 h3]; linarith
        · have : max a (min b u) = b := by rw [min_eq_left h3, max_eq_right hab]
          rw [this]; linarith
  refine ⟨hin x, hid x, ?_, ?_, hid _ (hin x).1 (hin x).2, hmono x, ?_, ?_⟩
  · intro h; rw [min_eq_right (le_trans h.le hab), max_eq_left h.le]
  · intro h; rw [min_eq_left h.le, max_eq_right hab]
  · intro y
    rcases le_total x y with h | h
    · rw [abs_sub_comm, abs_sub_comm x y, abs_of_nonneg (sub_nonneg.2 (hmono _ _ h)),
        abs_of_nonneg (sub_nonneg.2 h)]
      exact hne x y h
    · rw [abs_of_nonneg (sub_nonneg.2 (hmono _ _ h)), abs_of_nonneg (sub_nonneg.2 h)]
      exact hne y x h
  · intro y h1 h2
    rcases lt_or_ge x a with h3 | h3
    · rw [min_eq_right (le_trans h3.le hab), max_eq_left h3.le, abs_of_nonneg (by linarith),
        abs_of_nonneg (by linarith)]; linarith
    · rcases le_or_gt x b with h4 | h4
      · rw [hid x h3 h4]; simp
      · rw [min_eq_left h4.le, max_eq_right hab, abs_of_nonpos (by linarith),
          abs_of_nonpos (by linarith)]; linarith

end

/-- **C13** (time scales). Shifting and unshifting are inverse; slot 1 is mapped to the start. -/
theorem C13_shift_unshift (t s : Int) :
    unshiftTime (shiftTime t s) s = t ∧ shiftTime (unshiftTime t s) s = t ∧ shiftTime 1 s = s := by
  unfold unshiftTime shiftTime
  omega

/-- **C13** (`access`). Lookup is 1-based and defined exactly on `1..len`. -/
theorem C13_access {α : Type} (xs : List α) (i : Int) :
    ((access xs i).isSome ↔ 1 ≤ i ∧ i ≤ xs.length) ∧
    ∀ (k : Nat) (h : k < xs.length), access xs (k + 1) = some xs[k] := by
  constructor
  · unfold access
    split_ifs with h
    · have h2 : (i - 1).toNat < xs.length := by omega
      simp [h]; omega
    · simp [h]
  · intro k h
    rw [access_natCast_succ]; simp [h]

/-- **C13** (`is_pow_of_2`). Among natural numbers exactly the powers of two are recognised. -/
theorem C13_is_pow_of_2 (x : Nat) : isPowOf2 x = true ↔ ∃ k, x = 2 ^ k := by
  have := @Nat.ne_zero_and_sub_one_eq_zero_iff_isPowerOfTwo x
  unfold isPowOf2
  simp only [Bool.and_eq_true, bne_iff_ne, beq_iff_eq]
  exact this

/-- **C13** (`frac`). The fractional part lies in `[0, 1)` and leaves an integer. -/
theorem C13_frac (x : ℚ) : 0 ≤ frac x ∧ frac x < 1 ∧ ∃ z : ℤ, x = z + frac x := by
  unfold frac
  have h2 : (⌊x⌋ : ℚ) ≤ x := Int.floor_le x
  have h3 : x < ⌊x⌋ + 1 := Int.lt_floor_add_one x
  exact ⟨by linarith, by linarith, ⌊x⌋, by ring⟩

example : project (7 : ℤ) 2 5 = 5 ∧ project (-1 : ℚ) 0 (1/2) = 0 ∧ isPowOf2 64 = true ∧
    isPowOf2 96 = false ∧ access [5, 6, 7] 3 = some 7 ∧ access [5, 6, 7] 0 = none := by
  decide +kernel

end Soco
