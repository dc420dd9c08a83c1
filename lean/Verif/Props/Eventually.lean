import Verif.Props.Useless
import Verif.Props.SteadyLazy

/-!
# C143: unneeded servers are switched off in time, and needed ones are started in time
-/

namespace Soco
open Lcp Work Uni Window Low

variable {C D : Type} [OutSuccess C] [OutFailure D]

namespace Eventually

/-- The sum of the decreases of `u` along a sequence. -/
def drops (u : ℤ → ℚ) : ℤ → List ℤ → ℚ
  | _, [] => 0
  | x, y :: ys => max 0 (u x - u y) + drops u y ys

theorem drops_nonneg (u : ℤ → ℚ) : ∀ (ks : List ℤ) (x : ℤ), 0 ≤ drops u x ks := by
  intro ks
  induction ks with
  | nil => intro x; exact le_rfl
  | cons y ks ih => intro x; exact add_nonneg (le_max_left _ _) (ih y)

/-- There is a level to which `u` drops, and below which it never is. -/
theorem level (u : ℤ → ℚ) (h0 : ∀ z, 0 ≤ u z) : ∀ (ks : List ℤ) (x : ℤ), ks ≠ [] →
    ∃ c, 0 ≤ c ∧ u x ≤ drops u x ks + c ∧ ks.length * c ≤ (ks.map u).sum := by
  intro ks
  induction ks with
  | nil => intro x h; exact absurd rfl h
  | cons y ks ih =>
    intro x _
    rcases eq_or_ne ks [] with rfl | hk
    · refine ⟨u y, h0 y, ?_, by simp⟩
      have := le_max_right 0 (u x - u y)
      simp only [drops]
      linarith
    · obtain ⟨c, c0, c1, c2⟩ := ih y hk
      have d0 := drops_nonneg u ks y
      have := le_max_right 0 (u x - u y)
      simp only [drops, List.map_cons, List.sum_cons, List.length_cons]
      push_cast
      have kl : (0 : ℚ) ≤ ks.length := by positivity
      rcases le_total (u y) c with h | h
      · refine ⟨u y, h0 y, by linarith, ?_⟩
        have := mul_le_mul_of_nonneg_left h kl
        linarith
      · exact ⟨c, c0, by linarith, by linarith⟩

section
variable {g : Int → ℤ → ECost} {mv : ℤ → ℤ → ℚ} {r : ℤ → ℤ} {u : ℤ → ℚ} {κ e : ℚ} {m : ℤ}

theorem replace (h1 : ∀ x y, mv (r x) (r y) + κ * max 0 (u x - u y) ≤ mv x y) :
    ∀ (ks : List ℤ) (t : Int) (x : ℤ), (∀ k ∈ ks, 0 ≤ k ∧ k ≤ m) →
      (∀ s : Int, t ≤ s → s < t + ks.length → ∀ z, 0 ≤ z → z ≤ m → g s (r z) + ((e * u z : ℚ) : ECost) ≤ g s z) →
      Spec.totalCost g mv 1 t (r x) (ks.map r) + ((e * (ks.map u).sum + κ * drops u x ks : ℚ) : ECost)
        ≤ Spec.totalCost g mv 1 t x ks := by
  intro ks
  induction ks with
  | nil => intro t x _ _; simp [Spec.totalCost, drops]
  | cons y ks ih =>
    intro t x hb hg
    have hy := hb y (by simp)
    have i := ih (t + 1) y (fun k hk => hb k (by simp [hk])) (fun s a b => hg s (by omega) (by
      simp only [List.length_cons]; push_cast; omega))
    have i2 := hg t le_rfl (by simp only [List.length_cons]; push_cast; omega) y hy.1 hy.2
    have i3 : ((1 * mv (r x) (r y) + κ * max 0 (u x - u y) : ℚ) : ECost) ≤ ((1 * mv x y : ℚ) : ECost) :=
      WithTop.coe_le_coe.2 (by rw [one_mul, one_mul]; exact h1 x y)
    simp only [List.map_cons, Spec.totalCost, List.sum_cons, drops]
    refine le_trans (le_of_eq ?_) (add_le_add (add_le_add i2 i3) i)
    rw [show e * (u y + (ks.map u).sum) + κ * (max 0 (u x - u y) + drops u y ks)
      = e * u y + κ * max 0 (u x - u y) + (e * (ks.map u).sum + κ * drops u y ks) by ring]
    push_cast
    abel

theorem first (h2 : ∀ x y, mv x (r y) ≤ mv (r x) (r y) + κ * u x) (h0 : ∀ z, 0 ≤ u z) (hκ : 0 ≤ κ) (ks : List ℤ) (t : Int) (x : ℤ) :
    Spec.totalCost g mv 1 t x (ks.map r) ≤ Spec.totalCost g mv 1 t (r x) (ks.map r) + ((κ * u x : ℚ) : ECost) := by
  cases ks with
  | nil =>
    simp only [List.map_nil, Spec.totalCost, zero_add]
    exact WithTop.coe_le_coe.2 (mul_nonneg hκ (h0 x))
  | cons y ks =>
    simp only [List.map_cons, Spec.totalCost]
    have i3 : ((1 * mv x (r y) : ℚ) : ECost) ≤ ((1 * mv (r x) (r y) + κ * u x : ℚ) : ECost) :=
      WithTop.coe_le_coe.2 (by rw [one_mul, one_mul]; exact h2 x y)
    refine le_trans (add_le_add (add_le_add le_rfl i3) le_rfl) (le_of_eq ?_)
    push_cast
    abel

/-- Replacing the end of a sequence. -/
theorem ending (h1 : ∀ x y, mv (r x) (r y) + κ * max 0 (u x - u y) ≤ mv x y)
    (h2 : ∀ x y, mv x (r y) ≤ mv (r x) (r y) + κ * u x) (h0 : ∀ z, 0 ≤ u z) (hκ : 0 ≤ κ)
    (ks : List ℤ) (t : Int) (x : ℤ) (hb : ∀ k ∈ ks, 0 ≤ k ∧ k ≤ m)
    (hg : ∀ s : Int, t ≤ s → s < t + ks.length → ∀ z, 0 ≤ z → z ≤ m → g s (r z) + ((e * u z : ℚ) : ECost) ≤ g s z)
    (δ : ℚ) (hδ : κ * u x + δ ≤ e * (ks.map u).sum + κ * drops u x ks) :
    Spec.totalCost g mv 1 t x (ks.map r) + (δ : ECost) ≤ Spec.totalCost g mv 1 t x ks := by
  refine le_trans (add_le_add (first (g := g) h2 h0 hκ ks t x) le_rfl) (le_trans ?_ (replace h1 ks t x hb hg))
  rw [add_assoc, ← WithTop.coe_add]
  exact add_le_add le_rfl (WithTop.coe_le_coe.2 hδ)

end

/-- The number of servers beyond `a`. -/
def over (a z : ℤ) : ℚ := ((max 0 (z - a) : ℤ) : ℚ)
/-- The number of servers lacking to `a`. -/
def lack (a z : ℤ) : ℚ := ((max 0 (a - z) : ℤ) : ℚ)

theorem over_nonneg (a z : ℤ) : 0 ≤ over a z := by unfold over; exact_mod_cast le_max_left _ _
theorem lack_nonneg (a z : ℤ) : 0 ≤ lack a z := by unfold lack; exact_mod_cast le_max_left _ _

theorem over_down {β : ℚ} (a x y : ℤ) :
    mv1 β true (min x a) (min y a) + β * max 0 (over a x - over a y) = mv1 β true x y := by
  unfold mv1 over
  rw [← mul_add]
  congr 1
  rw [← Int.cast_sub, ← Int.cast_zero (R := ℚ), ← Int.cast_max, ← Int.cast_add]
  congr 1
  simp only [if_true]
  omega

theorem over_first {β : ℚ} (hβ : 0 < β) (a x y : ℤ) :
    mv1 β true x (min y a) ≤ mv1 β true (min x a) (min y a) + β * over a x := by
  unfold mv1 over
  rw [← mul_add]
  refine mul_le_mul_of_nonneg_left ?_ hβ.le
  rw [← Int.cast_add]
  have : max 0 (if true = true then x - min y a else min y a - x) ≤
    max 0 (if true = true then min x a - min y a else min y a - min x a) + max 0 (x - a) := by simp only [if_true]; omega
  exact_mod_cast this

theorem over_up {β : ℚ} (hβ : 0 < β) (a x y : ℤ) : mv1 β false (min x a) (min y a) ≤ mv1 β false x y := by
  unfold mv1
  refine mul_le_mul_of_nonneg_left ?_ hβ.le
  have : max 0 (if false = true then min x a - min y a else min y a - min x a) ≤ max 0 (if false = true then x - y else y - x) := by
    simp; omega
  exact_mod_cast this

theorem over_up_first {β : ℚ} (hβ : 0 < β) (a x y : ℤ) : mv1 β false x (min y a) ≤ mv1 β false (min x a) (min y a) := by
  unfold mv1
  refine mul_le_mul_of_nonneg_left ?_ hβ.le
  have : max 0 (if false = true then x - min y a else min y a - x) ≤
      max 0 (if false = true then min x a - min y a else min y a - min x a) := by
    simp; omega
  exact_mod_cast this

theorem lack_up {β : ℚ} (a x y : ℤ) :
    mv1 β false (max x a) (max y a) + β * max 0 (lack a x - lack a y) = mv1 β false x y := by
  unfold mv1 lack
  rw [← mul_add]
  congr 1
  rw [← Int.cast_sub, ← Int.cast_zero (R := ℚ), ← Int.cast_max, ← Int.cast_add]
  congr 1
  simp
  omega

theorem lack_first {β : ℚ} (hβ : 0 < β) (a x y : ℤ) :
    mv1 β false x (max y a) ≤ mv1 β false (max x a) (max y a) + β * lack a x := by
  unfold mv1 lack
  rw [← mul_add]
  refine mul_le_mul_of_nonneg_left ?_ hβ.le
  rw [← Int.cast_add]
  have : max 0 (if false = true then x - max y a else max y a - x) ≤
    max 0 (if false = true then max x a - max y a else max y a - max x a) + max 0 (a - x) := by
      simp; omega
  exact_mod_cast this

section
variable {g : Int → ℤ → ECost} {β e : ℚ} {m a : ℤ} {N s : Nat} {X : List ℤ}

theorem split (X : List ℤ) (hs : s ≤ X.length) (mv : ℤ → ℤ → ℚ) (r : ℤ → ℤ) (δ : ℚ)
    (h : Spec.totalCost g mv 1 (1 + s) ((X.take s).getLastD 0) ((X.drop s).map r) + (δ : ECost)
      ≤ Spec.totalCost g mv 1 (1 + s) ((X.take s).getLastD 0) (X.drop s)) :
    Spec.totalCost g mv 1 1 0 (X.take s ++ (X.drop s).map r) + (δ : ECost) ≤ Spec.totalCost g mv 1 1 0 X := by
  conv_rhs => rw [← List.take_append_drop s X]
  have hl : (X.take s).length = s := by rw [List.length_take]; omega
  rw [cost_append, cost_append, hl, add_assoc]
  exact add_le_add le_rfl h

theorem getD_end (X : List ℤ) (r : ℤ → ℤ) {k : Nat} (hk : s ≤ k) (hX : k < X.length) :
    (X.take s ++ (X.drop s).map r).getD k 0 = r (X.getD k 0) := by
  have hl : (X.take s).length = s := by rw [List.length_take]; omega
  rw [List.getD_append_right _ _ _ _ (by omega), hl, List.getD_eq_getElem?_getD, List.getElem?_map, List.getElem?_drop,
    show s + (k - s) = k by omega, List.getElem?_eq_getElem hX, List.getD_eq_getElem?_getD, List.getElem?_eq_getElem hX]
  simp

theorem low_off {inv : Bool} (hβ : 0 < β) (hX : IsLow g β inv m N 1 0 X) (ha : 0 ≤ a) (he : 0 ≤ e)
    (hg : ∀ t : Int, s < t → t ≤ N → ∀ z, a ≤ z → z ≤ m → g t a + ((e * ((z - a : ℤ) : ℚ) : ℚ) : ECost) ≤ g t z)
    {k : Nat} (hs : s ≤ k) (hk : k < N) (hN : β ≤ ((N - s : ℕ) : ℚ) * e) : X.getD k 0 ≤ a := by
  have hlen := hX.len
  have hl : (X.drop s).length = N - s := by rw [List.length_drop, hlen]
  have hne : X.drop s ≠ [] := by intro h; rw [h] at hl; simp at hl; omega
  have hb : ∀ k ∈ X.drop s, 0 ≤ k ∧ k ≤ m := fun k hk => hX.box k (List.mem_of_mem_drop hk)
  have hg' : ∀ t : Int, 1 + (s : Int) ≤ t → t < 1 + s + (X.drop s).length → ∀ z, 0 ≤ z → z ≤ m →
      g t (min z a) + ((e * over a z : ℚ) : ECost) ≤ g t z := by
    intro t t0 t1 z z0 z1
    rw [hl] at t1
    rcases le_total z a with h | h
    · rw [min_eq_left h]
      simp [over, max_eq_left (by omega : z - a ≤ 0)]
    · rw [min_eq_right h]
      have := hg t (by omega) (by omega) z h z1
      rwa [over, max_eq_right (by omega : 0 ≤ z - a)]
  have hs0 : 0 ≤ ((X.drop s).map (over a)).sum := List.sum_nonneg fun x hx => by
    obtain ⟨z, -, rfl⟩ := List.mem_map.1 hx
    exact over_nonneg a z
  have key : Spec.totalCost g (mv1 β inv) 1 (1 + s) ((X.take s).getLastD 0) ((X.drop s).map (min · a)) + ((0 : ℚ) : ECost)
      ≤ Spec.totalCost g (mv1 β inv) 1 (1 + s) ((X.take s).getLastD 0) (X.drop s) := by
    cases inv with
    | true =>
      refine ending (κ := β) (u := over a) (e := e) (fun x y => (over_down a x y).le) (over_first hβ a) (over_nonneg a) hβ.le
        _ _ _ hb hg' 0 ?_
      obtain ⟨c, c0, c1, c2⟩ := level (over a) (over_nonneg a) _ ((X.take s).getLastD 0) hne
      rw [hl] at c2
      have h1 := mul_le_mul_of_nonneg_left c1 hβ.le
      have h2 := mul_le_mul_of_nonneg_left c2 he
      have h3 := mul_le_mul_of_nonneg_right hN c0
      linarith
    | false =>
      refine ending (κ := 0) (u := over a) (e := e) (fun x y => ?_) (fun x y => ?_) (over_nonneg a) le_rfl _ _ _ hb hg' 0 ?_
      · rw [zero_mul, add_zero]; exact over_up hβ a x y
      · rw [zero_mul, add_zero]; exact over_up_first hβ a x y
      · have := mul_nonneg he hs0
        linarith
  have fin := split X (by omega) _ _ 0 key
  rw [WithTop.coe_zero, add_zero] at fin
  have low := hX.low _ (by simp [hlen]; omega) (fun k hk => by
    rcases List.mem_append.1 hk with hk | hk
    · exact hX.box k (List.mem_of_mem_take hk)
    · obtain ⟨z, hz, rfl⟩ := List.mem_map.1 hk
      have := hb z hz
      constructor <;> omega) fin
  have := below_getD low k
  rw [getD_end X _ hs (by omega)] at this
  omega

theorem low_on (hβ : 0 < β) (hX : IsLow g β false m N 1 0 X) (ha : a ≤ m) (he : 0 < e)
    (hg : ∀ t : Int, s < t → t ≤ N → ∀ z, 0 ≤ z → z ≤ a → g t a + ((e * ((a - z : ℤ) : ℚ) : ℚ) : ECost) ≤ g t z)
    {k : Nat} (hs : s ≤ k) (hk : k < N) (hN : β < ((N - s : ℕ) : ℚ) * e) : a ≤ X.getD k 0 := by
  by_contra hlt
  push Not at hlt
  have hlen := hX.len
  have hl : (X.drop s).length = N - s := by rw [List.length_drop, hlen]
  have hne : X.drop s ≠ [] := by intro h; rw [h] at hl; simp at hl; omega
  have hb : ∀ k ∈ X.drop s, 0 ≤ k ∧ k ≤ m := fun k hk => hX.box k (List.mem_of_mem_drop hk)
  have hg' : ∀ t : Int, 1 + (s : Int) ≤ t → t < 1 + s + (X.drop s).length → ∀ z, 0 ≤ z → z ≤ m →
      g t (max z a) + ((e * lack a z : ℚ) : ECost) ≤ g t z := by
    intro t t0 t1 z z0 z1
    rw [hl] at t1
    rcases le_total a z with h | h
    · rw [max_eq_left h]
      simp [lack, max_eq_left (by omega : a - z ≤ 0)]
    · rw [max_eq_right h]
      have := hg t (by omega) (by omega) z z0 h
      rwa [lack, max_eq_right (by omega : 0 ≤ a - z)]
  have hpos : 0 < ((X.drop s).map (lack a)).sum := by
    have hm : lack a (X.getD k 0) ∈ (X.drop s).map (lack a) := by
      refine List.mem_map.2 ⟨_, ?_, rfl⟩
      rw [List.getD_eq_getElem?_getD, List.getElem?_eq_getElem (by omega : k < X.length), Option.getD_some]
      refine List.mem_iff_getElem?.2 ⟨k - s, ?_⟩
      rw [List.getElem?_drop, show s + (k - s) = k by omega, List.getElem?_eq_getElem (by omega)]
    refine lt_of_lt_of_le ?_ (List.single_le_sum (fun x hx => by
      obtain ⟨z, -, rfl⟩ := List.mem_map.1 hx
      exact lack_nonneg a z) _ hm)
    unfold lack
    exact_mod_cast lt_max_of_lt_right (by omega)
  obtain ⟨c, c0, c1, c2⟩ := level (lack a) (lack_nonneg a) _ ((X.take s).getLastD 0) hne
  rw [hl] at c2
  obtain ⟨δ, δ0, hδ⟩ : ∃ δ, 0 < δ ∧ β * lack a ((X.take s).getLastD 0) + δ ≤ e * ((X.drop s).map (lack a)).sum
      + β * drops (lack a) ((X.take s).getLastD 0) (X.drop s) := by
    refine ⟨e * ((X.drop s).map (lack a)).sum + β * drops (lack a) ((X.take s).getLastD 0) (X.drop s)
      - β * lack a ((X.take s).getLastD 0), ?_, by linarith⟩
    have h1 := mul_le_mul_of_nonneg_left c1 hβ.le
    rcases eq_or_lt_of_le c0 with rfl | c0
    · have := mul_pos he hpos
      linarith
    · have h2 := mul_le_mul_of_nonneg_left c2 he.le
      have h3 := mul_lt_mul_of_pos_right hN c0
      linarith
  have key := ending (g := g) (κ := β) (u := lack a) (e := e) (fun x y => (lack_up a x y).le) (lack_first hβ a) (lack_nonneg a) hβ.le
        _ _ _ hb hg' δ hδ
  have fin := split X (by omega) _ _ δ key
  have opt := hX.opt (X.take s ++ (X.drop s).map (max · a)) (by simp [hlen]; omega) (fun k hk => by
    rcases List.mem_append.1 hk with hk | hk
    · exact hX.box k (List.mem_of_mem_take hk)
    · obtain ⟨z, hz, rfl⟩ := List.mem_map.1 hk
      have := hb z hz
      constructor <;> omega)
  have := hX.fin
  have hle := le_trans (add_le_add opt le_rfl) fin
  rw [coe_fp this, ← WithTop.coe_add, WithTop.coe_le_coe] at hle
  linarith

end

end Eventually

open Eventually

/-- **C143** (switching off). Let every server beyond `a` cost at least `e` in every slot after slot `s`. Lazy capacity provisioning with a
prediction window of `w` slots has at most `a` servers active in every slot `i + 1` after `s` for which the extra cost of a server from slot
`s + 1` to the end of the window reaches the switching cost. -/
theorem C143_off {m : ℤ} {β : ℚ} {g : Int → ℤ → ECost} (w : Nat) (ps : List (SSCO ℤ C D))
    (K : Spec.Costs m β g (ps.length + w)) (I : ∀ k (h : k < ps.length), Spec.Foresight ps[k] m β g (k + 1) w)
    (a : ℤ) (ha : 0 ≤ a) (e : ℚ) (he : 0 ≤ e) (s : Nat)
    (hg : ∀ t : Int, s < t → t ≤ (ps.length + w : Nat) → ∀ z, a ≤ z → z ≤ m →
      g t a + ((e * ((z - a : ℤ) : ℚ) : ℚ) : ECost) ≤ g t z) :
    ∃ (js : List ℤ) (mem : Option (List (BoundsMem ℤ))),
      Spec.play SSCO.tEnd (lcpAlg boundedInt) [] none (ps.map fun p => ⟨p, w⟩) = .ok (js.map (fun j => [j]), mem) ∧
      js.length = ps.length ∧ ∀ i (h : i < js.length), s ≤ i → β ≤ ((i + 1 + w - s : ℕ) : ℚ) * e → js[i] ≤ a := by
  obtain ⟨js, bs, h1, h2, h3, M, h5⟩ := run_window w ps K I
  refine ⟨js, _, h1, h2, fun i hi hsi hN => ?_⟩
  have hib : i < bs.length := by omega
  obtain ⟨X, Y, hX, hY, eX, eY⟩ := M i bs[i] (List.getElem?_eq_getElem hib)
  have l := low_off K.hβ hX ha he (fun t a b => hg t a (by push_cast at b ⊢; omega)) hsi (by omega) hN
  have u := low_off K.hβ hY ha he (fun t a b => hg t a (by push_cast at b ⊢; omega)) hsi (by omega) hN
  rw [eX] at l
  rw [eY] at u
  have ee := h5 i (by omega)
  have eL : Lf bs (i + 1) = (bs[i].lower : ℚ) := by simp [Lf, hib]; rfl
  have eU : Uf bs (i + 1) = (bs[i].upper : ℚ) := by simp [Uf, hib]; rfl
  rw [lazy, clampQ, eL, eU, List.getD_eq_getElem?_getD, List.getElem?_eq_getElem hi, Option.getD_some] at ee
  have : ((js[i] : ℤ) : ℚ) ≤ a := by
    rw [ee]
    exact max_le (by exact_mod_cast l) ((min_le_left _ _).trans (by exact_mod_cast u))
  exact_mod_cast this

/-- **C143** (starting). Let every server which lacks to `a` cost at least `e` in every slot after slot `s`. Lazy capacity provisioning with
a prediction window of `w` slots has at least `a` servers active in every slot `i + 1` after `s` for which the cost of a lacking server from
slot `s + 1` to the end of the window exceeds the switching cost. -/
theorem C143_on {m : ℤ} {β : ℚ} {g : Int → ℤ → ECost} (w : Nat) (ps : List (SSCO ℤ C D))
    (K : Spec.Costs m β g (ps.length + w)) (I : ∀ k (h : k < ps.length), Spec.Foresight ps[k] m β g (k + 1) w)
    (a : ℤ) (ha : a ≤ m) (e : ℚ) (s : Nat)
    (hg : ∀ t : Int, s < t → t ≤ (ps.length + w : Nat) → ∀ z, 0 ≤ z → z ≤ a →
      g t a + ((e * ((a - z : ℤ) : ℚ) : ℚ) : ECost) ≤ g t z) :
    ∃ (js : List ℤ) (mem : Option (List (BoundsMem ℤ))),
      Spec.play SSCO.tEnd (lcpAlg boundedInt) [] none (ps.map fun p => ⟨p, w⟩) = .ok (js.map (fun j => [j]), mem) ∧
      js.length = ps.length ∧ ∀ i (h : i < js.length), s ≤ i → β < ((i + 1 + w - s : ℕ) : ℚ) * e → a ≤ js[i] := by
  obtain ⟨js, bs, h1, h2, h3, M, h5⟩ := run_window w ps K I
  refine ⟨js, _, h1, h2, fun i hi hsi hN => ?_⟩
  have hib : i < bs.length := by omega
  obtain ⟨X, Y, hX, hY, eX, eY⟩ := M i bs[i] (List.getElem?_eq_getElem hib)
  have he : 0 < e := by
    by_contra hn
    push Not at hn
    have : ((i + 1 + w - s : ℕ) : ℚ) * e ≤ 0 := mul_nonpos_of_nonneg_of_nonpos (by positivity) hn
    linarith [K.hβ]
  have l := low_on K.hβ hX ha he (fun t a b => hg t a (by push_cast at b ⊢; omega)) hsi (by omega) hN
  rw [eX] at l
  have ee := h5 i (by omega)
  have eL : Lf bs (i + 1) = (bs[i].lower : ℚ) := by simp [Lf, hib]; rfl
  rw [lazy, clampQ, eL, List.getD_eq_getElem?_getD, List.getElem?_eq_getElem hi, Option.getD_some] at ee
  have : ((a : ℤ) : ℚ) ≤ js[i] := by
    rw [ee]
    exact le_max_of_le_left (by exact_mod_cast l)
  exact_mod_cast this


/-- **C143** (service, switching off). Let every server beyond `k` cost at least `e` in every slot after slot `s`. A service for a data
center with one type of servers has at most `k` servers active as soon as the extra cost of a server from slot `s + 1` to the end of the
window reaches the switching cost. -/
theorem C143_service_off (S : Num.Solver) (hS : Spec.SolvesEmpty S) (choose : Nat → List ℚ → Nat → List ℚ)
    (hch : ChoosesFrom choose) (m : DataCenterModel) (F : Spec.Farm) (h : Spec.IsFarm m F) (hF : F.Valid)
    (loads : List ℚ) (hl : ∀ l ∈ loads, F.Carries l) (k : ℤ) (hk : 0 ≤ k) (e : ℚ) (he : 0 ≤ e) (s : Nat)
    (hs : ∀ (i : Nat) l, s ≤ i → loads[i]? = some l → ∀ j : ℤ, k ≤ j → j ≤ F.servers →
      F.slotCost (i + 1) l k + ((e * ((j - k : ℤ) : ℚ) : ℚ) : ECost) ≤ F.slotCost (i + 1) l j)
    (a b w r : Nat)
    (hab : a = 0 ∧ b = 0 ∨ w < a ∧ b = max 1 (a - 2 * w)) (ha : a ≤ loads.length) (hr : b + r + w ≤ loads.length) :
    ∃ js : List ℤ, Spec.LazyService S choose m loads a b w r (js.map fun j => [j]) ∧ js.length = b + r ∧
      ∀ i (h : i < js.length), s ≤ i → F.switching ≤ ((i + 1 + w - s : ℕ) : ℚ) * e → js[i] ≤ k := by
  obtain ⟨xs, ps, mem, s1, s2, s3, K, s4⟩ := Service.farm_plays S hS choose hch m F h hF loads hl a b w r hab ha hr
  obtain ⟨js, mem', h1, h2, h3⟩ := C143_off w ps (by rw [s2]; exact K) s3 k hk e he s (fun t a b j j0 j1 => by
    rw [s2] at b
    obtain ⟨l, hl'⟩ : ∃ l, loads[(t - 1).toNat]? = some l := ⟨_, List.getElem?_eq_getElem (by omega)⟩
    have := hs _ l (by omega) hl' j j0 j1
    rw [show (((t - 1).toNat : Nat) : Int) + 1 = t by omega] at this
    rw [List.getD_eq_getElem?_getD, hl']
    exact this)
  rw [s4] at h1
  have e := (Prod.ext_iff.1 (Except.ok.inj h1)).1
  exact ⟨js, by rwa [← show xs = js.map fun j => [j] from e], h2.trans s2, h3⟩

/-- **C143** (service, starting). Let every server lacking to `k` cost at least `e` in every slot after slot `s`. A service for a data
center with one type of servers has at least `k` servers active as soon as the cost of a lacking server from slot `s + 1` to the end of the
window exceeds the switching cost. -/
theorem C143_service_on (S : Num.Solver) (hS : Spec.SolvesEmpty S) (choose : Nat → List ℚ → Nat → List ℚ)
    (hch : ChoosesFrom choose) (m : DataCenterModel) (F : Spec.Farm) (h : Spec.IsFarm m F) (hF : F.Valid)
    (loads : List ℚ) (hl : ∀ l ∈ loads, F.Carries l) (k : ℤ) (hk : k ≤ F.servers) (e : ℚ) (s : Nat)
    (hs : ∀ (i : Nat) l, s ≤ i → loads[i]? = some l → ∀ j : ℤ, 0 ≤ j → j ≤ k →
      F.slotCost (i + 1) l k + ((e * ((k - j : ℤ) : ℚ) : ℚ) : ECost) ≤ F.slotCost (i + 1) l j)
    (a b w r : Nat)
    (hab : a = 0 ∧ b = 0 ∨ w < a ∧ b = max 1 (a - 2 * w)) (ha : a ≤ loads.length) (hr : b + r + w ≤ loads.length) :
    ∃ js : List ℤ, Spec.LazyService S choose m loads a b w r (js.map fun j => [j]) ∧ js.length = b + r ∧
      ∀ i (h : i < js.length), s ≤ i → F.switching < ((i + 1 + w - s : ℕ) : ℚ) * e → k ≤ js[i] := by
  obtain ⟨xs, ps, mem, s1, s2, s3, K, s4⟩ := Service.farm_plays S hS choose hch m F h hF loads hl a b w r hab ha hr
  obtain ⟨js, mem', h1, h2, h3⟩ := C143_on w ps (by rw [s2]; exact K) s3 k hk e s (fun t a b j j0 j1 => by
    rw [s2] at b
    obtain ⟨l, hl'⟩ : ∃ l, loads[(t - 1).toNat]? = some l := ⟨_, List.getElem?_eq_getElem (by omega)⟩
    have := hs _ l (by omega) hl' j j0 j1
    rw [show (((t - 1).toNat : Nat) : Int) + 1 = t by omega] at this
    rw [List.getD_eq_getElem?_getD, hl']
    exact this)
  rw [s4] at h1
  have e := (Prod.ext_iff.1 (Except.ok.inj h1)).1
  exact ⟨js, by rwa [← show xs = js.map fun j => [j] from e], h2.trans s2, h3⟩

/-- **C143** (no more jobs). If no jobs arrive after slot `s`, and an idle server costs at least `e` in each of these slots, all servers are
switched off as soon as the cost of an idle server from slot `s + 1` to the end of the window reaches the switching cost. -/
theorem C143_no_more_jobs (S : Num.Solver) (hS : Spec.SolvesEmpty S) (choose : Nat → List ℚ → Nat → List ℚ)
    (hch : ChoosesFrom choose) (m : DataCenterModel) (F : Spec.Farm) (h : Spec.IsFarm m F) (hF : F.Valid)
    (loads : List ℚ) (hl : ∀ l ∈ loads, F.Carries l) (e : ℚ) (he : 0 ≤ e) (s : Nat)
    (h0 : ∀ (i : Nat) l, s ≤ i → loads[i]? = some l → l = 0)
    (hi : ∀ t : Int, s < t → t ≤ loads.length → e ≤ F.price t * F.power 0)
    (a b w r : Nat)
    (hab : a = 0 ∧ b = 0 ∨ w < a ∧ b = max 1 (a - 2 * w)) (ha : a ≤ loads.length) (hr : b + r + w ≤ loads.length) :
    ∃ js : List ℤ, Spec.LazyService S choose m loads a b w r (js.map fun j => [j]) ∧ js.length = b + r ∧
      ∀ i (h : i < js.length), s ≤ i → F.switching ≤ ((i + 1 + w - s : ℕ) : ℚ) * e → js[i] ≤ 0 := by
  refine C143_service_off S hS choose hch m F h hF loads hl 0 le_rfl e he s (fun i l hsi hil j j0 _ => ?_) a b w r hab ha hr
  have := h0 i l hsi hil
  subst this
  have hlt : i < loads.length := (List.getElem?_eq_some_iff.1 hil).1
  have hp := hi (i + 1) (by omega) (by omega)
  have e0 : F.slotCost (i + 1) 0 ((0 : ℤ) : ℚ) = 0 := by simp [Spec.Farm.slotCost]
  rw [e0, zero_add]
  unfold Spec.Farm.slotCost
  split
  · rename_i hj
    have : (j : ℚ) = 0 := le_antisymm hj (by exact_mod_cast j0)
    have : j = 0 := by exact_mod_cast this
    subst this
    simp
  · rename_i hj
    push Not at hj
    split
    · refine WithTop.coe_le_coe.2 ?_
      have hu : F.use 0 j = 0 := by simp [Spec.Farm.use]
      rw [hu, mul_zero, add_zero, sub_zero]
      nlinarith
    · exact le_top

/-! ## Examples -/

/-- Non-vacuity of `C143_no_more_jobs`. -/
example (S : Num.Solver) (hS : Spec.SolvesEmpty S) (choose : Nat → List ℚ → Nat → List ℚ) (hch : ChoosesFrom choose) :=
  C143_no_more_jobs S hS choose hch Ex.idleModel Ex.idleFarm Ex.idle_is Ex.idle_valid [1, 3, 0, 0, 0, 0] (by
      intro l hl
      simp only [List.mem_cons, List.not_mem_nil, or_false] at hl
      rcases hl with rfl | rfl | rfl | rfl | rfl | rfl <;> norm_num [Spec.Farm.Carries, Spec.Farm.use, Ex.idleFarm])
    1 (by norm_num) 2 (by
      intro i l hi hl
      obtain ⟨k, rfl⟩ : ∃ k, i = k + 2 := ⟨i - 2, by omega⟩
      rcases k with _ | _ | _ | _ | k <;> simp at hl <;> exact hl.symm) (by
      intro t _ _
      norm_num [Ex.idleFarm]) 1 1 0 5 (by decide) (by decide) (by decide)

/-- One server which is needed in the first slot only and costs 1 in every slot. -/
def Ex.onceHit (t : Int) (j : ℤ) : ECost := if t = 1 ∧ j < 1 then ⊤ else ((j : ℚ) : ECost)

/-- The problem up to slot `k`, with switching cost 3. -/
def Ex.onceAt (k : Nat) : SSCO ℤ Unit Unit :=
  ⟨1, k, [1], [3], CostFn.new 1 (SingleCostFn.certain fun t x => .ok (Cost.raw (Ex.onceHit t (x.getD 0 0))))⟩

/-- The bound of `C143_off` is reached: with switching cost 3 the server is kept for two further slots and switched off in the third. -/
theorem C143_off_tight : (Spec.play SSCO.tEnd (lcpAlg boundedInt) [] none ((List.range 5).map fun k => ⟨Ex.onceAt (k + 1), 0⟩)).map (·.1)
    = .ok [[1], [1], [1], [0], [0]] := by decide +kernel

/-- The bound of `C143_on` is reached: see `C140_tight`, where the server is needed from the first slot on. -/
example (n : Nat) (hn : 1 ≤ n) := C143_on 0 ((List.range (n + 1)).map fun k => Ex.skiAt n (k + 1))
    (Ex.skiAt_costs n _ hn) (fun k hk => by
      simp only [List.getElem_map, List.getElem_range]
      exact Ex.skiAt_knows n (k + 1) 0) 1 le_rfl 1 0 (fun t _ _ z z0 z1 => by
      simp only [Ex.skiHit, ← WithTop.coe_add]
      refine WithTop.coe_le_coe.2 ?_
      push_cast
      linarith)

end Soco
