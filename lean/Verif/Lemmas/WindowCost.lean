import Verif.Lemmas.Window
import Mathlib.Tactic.NormNum

/-!
# Cost of capacity provisioning with a prediction window
-/

namespace Soco.Work

section
variable {D : ℚ → Prop} {β : ℚ} {J : ℚ → ECost} {L U y : ℚ}

/-- No cheaper way of reaching `y` exists than being there. -/
def Tight (D : ℚ → Prop) (β : ℚ) (J : ℚ → ECost) (y : ℚ) : Prop :=
  J y ≠ ⊤ ∧ ∀ z, D z → J z ≠ ⊤ → fp (J y) ≤ fp (J z) + β * max 0 (y - z)

theorem Tight.hull (B : Bds D β J L U) (hy : D y) (T : Tight D β J y) : hull β J L U y = fp (J y) := by
  apply le_antisymm
  · have := B.hull_le hy hy T.1
    simpa using this
  · exact T.2 _ (B.clamp_mem hy).1 (B.fin_clamp hy)

theorem Tight.between (hc : ConvD D J) {a b : ℚ} (ha : D a) (hb : D b) (hy : D y) (h1 : a ≤ y)
    (h2 : y ≤ b) (Ta : Tight D β J a) (Tb : Tight D β J b) : Tight D β J y := by
  refine ⟨hc.fin ha hy hb h1 h2 Ta.1 Tb.1, fun z hz fz => ?_⟩
  rcases le_total z y with h | h
  · rw [max_eq_right (sub_nonneg.2 h)]
    have q := Tb.2 z hz fz
    rw [max_eq_right (by linarith)] at q
    rcases eq_or_lt_of_le (h.trans h2) with e | hlt
    · have : y = z := le_antisymm (h2.trans e.ge) h
      rw [this]; simp
    · have c := hc.chord hz hy hb h h2 fz Tb.1
      have q' : (y - z) * fp (J b) ≤ (y - z) * (fp (J z) + β * (b - z)) :=
        mul_le_mul_of_nonneg_left q (by linarith)
      have : (b - z) * fp (J y) ≤ (b - z) * (fp (J z) + β * (y - z)) := by nlinarith
      exact le_of_mul_le_mul_left this (by linarith)
  · rw [max_eq_left (by linarith), mul_zero, add_zero]
    have q := Ta.2 z hz fz
    rw [max_eq_left (by linarith), mul_zero, add_zero] at q
    rcases eq_or_lt_of_le (h1.trans h) with e | hlt
    · have : y = z := le_antisymm h (e ▸ h1)
      rw [this]
    · have c := hc.chord ha hy hz h1 h Ta.1 fz
      have q' : (z - y) * fp (J a) ≤ (z - y) * fp (J z) := mul_le_mul_of_nonneg_left q (by linarith)
      have : (z - a) * fp (J y) ≤ (z - a) * fp (J z) := by nlinarith
      exact le_of_mul_le_mul_left this (by linarith)

end

section
variable {D : ℚ → Prop} {β x0 : ℚ} {f : Int → ℚ → ECost} {l u L U : Nat → ℚ}

/-- Bounds which are ordered and tight in every slot. -/
structure TightB (D : ℚ → Prop) (β x0 : ℚ) (f : Int → ℚ → ECost) (l u L U : Nat → ℚ) (n : Nat) : Prop where
  dL : ∀ t < n, D (L (t + 1))
  dU : ∀ t < n, D (U (t + 1))
  le : ∀ t < n, L (t + 1) ≤ U (t + 1)
  tL : ∀ t < n, Tight D β (J β x0 f l u t) (L (t + 1))
  tU : ∀ t < n, Tight D β (J β x0 f l u t) (U (t + 1))

theorem clampQ_cases {a b : ℚ} (h : a ≤ b) (y : ℚ) : (y ≤ a ∧ clampQ a b y = a) ∨
    (a ≤ y ∧ y ≤ b ∧ clampQ a b y = y) ∨ (b ≤ y ∧ clampQ a b y = b) := by
  unfold clampQ
  rcases le_total y a with h1 | h1
  · left; refine ⟨h1, ?_⟩; rw [min_eq_right (h1.trans h), max_eq_left h1]
  · rcases le_total y b with h' | h'
    · right; left; refine ⟨h1, h', ?_⟩; rw [min_eq_right h', max_eq_right h1]
    · right; right; refine ⟨h', ?_⟩; rw [min_eq_left h', max_eq_right h]

theorem clampQ_mem {a b y : ℚ} (h : a ≤ b) (ha : D a) (hb : D b) (hy : D y) :
    D (clampQ a b y) ∧ a ≤ clampQ a b y ∧ clampQ a b y ≤ b := by
  rcases clampQ_cases h y with ⟨_, e⟩ | ⟨h1, h2, e⟩ | ⟨_, e⟩ <;> rw [e]
  · exact ⟨ha, le_rfl, h⟩
  · exact ⟨hy, h1, h2⟩
  · exact ⟨hb, h, le_rfl⟩

theorem TightB.mem {n : Nat} (T : TightB D β x0 f l u L U n) (h0 : D x0) : ∀ t ≤ n, D (lazy x0 L U t)
  | 0, _ => h0
  | t + 1, ht => (clampQ_mem (T.le t ht) (T.dL t ht) (T.dU t ht) (T.mem h0 t (by omega))).1

theorem TightB.tight {n : Nat} (T : TightB D β x0 f l u L U n) (B : AllB D β x0 f l u n) (h0 : D x0)
    {t : Nat} (ht : t < n) : Tight D β (J β x0 f l u t) (lazy x0 L U (t + 1)) := by
  obtain ⟨a, b, c⟩ := clampQ_mem (T.le t ht) (T.dL t ht) (T.dU t ht) (T.mem h0 t (by omega))
  exact Tight.between (B t ht).conv (T.dL t ht) (T.dU t ht) a b c (T.tL t ht) (T.tU t ht)

theorem TightB.cost {n : Nat} (T : TightB D β x0 f l u L U n) (B : AllB D β x0 f l u n) (h0 : D x0) :
    ∀ t ≤ n, Spec.totalCost f (up β) 1 1 x0 ((List.range t).map fun i => lazy x0 L U (i + 1))
      = ((Hit x0 f L U t + β * Up x0 L U t : ℚ) : ECost)
  | 0, _ => by simp [Spec.totalCost, Hit, Up]
  | t + 1, ht => by
    rw [List.range_succ, List.map_append, List.map_singleton, totalCost_snoc, T.cost B h0 t (by omega)]
    have : (((List.range t).map fun i => lazy x0 L U (i + 1)).getLastD x0) = lazy x0 L U t := by
      cases t with
      | zero => rfl
      | succ t => rw [List.range_succ, List.map_append, List.map_singleton, List.getLastD_concat]
    rw [this, List.length_map, List.length_range, add_comm (1 : Int),
      coe_fp (J_fin.1 (T.tight B h0 (by omega : t < n)).1),
      ← WithTop.coe_add, ← WithTop.coe_add, Hit, Up, up]
    congr 1; ring

theorem TightB.hit (hβ : 0 < β) {n : Nat} (T : TightB D β x0 f l u L U n) (B : AllB D β x0 f l u n) (h0 : D x0) :
    ∀ t ≤ n, Hit x0 f L U t ≤ H β x0 f l u t (lazy x0 L U t) + β * (Up x0 L U t - (lazy x0 L U t - x0))
  | 0, _ => by simp [Hit, H, lazy, Up]
  | t + 1, ht => by
    have ih := T.hit hβ B h0 t (by omega)
    have Bt := B t (by omega)
    have hD := T.mem h0 t (by omega)
    have hD' := T.mem h0 (t + 1) ht
    have Tt := T.tight B h0 (by omega : t < n)
    have e1 : H β x0 f l u (t + 1) (lazy x0 L U (t + 1)) = fp (J β x0 f l u t (lazy x0 L U (t + 1))) :=
      Tt.hull Bt hD'
    have e2 : fp (J β x0 f l u t (lazy x0 L U (t + 1)))
        = fp (f ((t : Int) + 1) (lazy x0 L U (t + 1))) + H β x0 f l u t (lazy x0 L U (t + 1)) := by
      rw [J, coe_fp (J_fin.1 Tt.1), ← WithTop.coe_add, fp_coe, fp_coe]
    rw [e1, e2, Hit, Up]
    generalize lazy x0 L U (t + 1) = x' at *
    generalize lazy x0 L U t = x at *
    rcases le_total x x' with h | h
    · have := H_mono hβ B (by omega : t ≤ n) hD hD' h
      rw [max_eq_right (sub_nonneg.2 h)]
      linarith
    · have := H_lip hβ B (by omega : t ≤ n) hD' hD h
      rw [max_eq_left (by linarith)]
      linarith

/-- Total powering up of a sequence. -/
def climb (c : Nat → ℚ) : Nat → ℚ
  | 0 => 0
  | t + 1 => climb c t + max 0 (c (t + 1) - c t)

/-- The lazy schedule powers up at most as much as any schedule between the bounds. -/
theorem up_le_climb {n : Nat} (le : ∀ t < n, L (t + 1) ≤ U (t + 1)) {c : Nat → ℚ} (c0 : c 0 = x0)
    (hc : ∀ t < n, L (t + 1) ≤ c (t + 1) ∧ c (t + 1) ≤ U (t + 1)) : ∀ t ≤ n,
    Up x0 L U t + max 0 (c t - lazy x0 L U t) ≤ climb c t
  | 0, _ => by simp [Up, climb, lazy, c0]
  | t + 1, ht => by
    have ih := up_le_climb le c0 hc t (by omega)
    obtain ⟨a, b⟩ := hc t ht
    rw [Up, climb]
    have e : lazy x0 L U (t + 1) = clampQ (L (t + 1)) (U (t + 1)) (lazy x0 L U t) := rfl
    have a1 := le_max_left 0 (c t - lazy x0 L U t)
    have a2 := le_max_right 0 (c t - lazy x0 L U t)
    have a3 := le_max_left 0 (c (t + 1) - c t)
    have a4 := le_max_right 0 (c (t + 1) - c t)
    rcases clampQ_cases (le t ht) (lazy x0 L U t) with ⟨h, e'⟩ | ⟨h1, h2, e'⟩ | ⟨h, e'⟩ <;> rw [e, e']
    · rw [max_eq_right (sub_nonneg.2 h), max_eq_right (sub_nonneg.2 a)]; linarith
    · rw [sub_self, max_self]
      rcases max_cases 0 (c (t + 1) - lazy x0 L U t) with ⟨r, _⟩ | ⟨r, _⟩ <;> rw [r] <;> linarith
    · rw [max_eq_left (by linarith), max_eq_left (by linarith)]; linarith

theorem climb_le_cost {n : Nat} {c : Nat → ℚ} (c0 : c 0 = x0)
    (hnn : ∀ t < n, 0 ≤ f ((t : Int) + 1) (c (t + 1))) : ∀ t ≤ n,
    ((β * climb c t : ℚ) : ECost)
      ≤ Spec.totalCost f (up β) 1 1 x0 ((List.range t).map fun i => c (i + 1))
  | 0, _ => by simp [Spec.totalCost, climb]
  | t + 1, ht => by
    have ih := climb_le_cost c0 hnn t (by omega)
    rw [List.range_succ, List.map_append, List.map_singleton, totalCost_snoc]
    have : (((List.range t).map fun i => c (i + 1)).getLastD x0) = c t := by
      cases t with
      | zero => exact c0.symm
      | succ t => rw [List.range_succ, List.map_append, List.map_singleton, List.getLastD_concat]
    rw [this, List.length_map, List.length_range, add_comm (1 : Int), climb, mul_add, WithTop.coe_add, one_mul]
    refine add_le_add ih ?_
    calc _ = 0 + ((β * max 0 (c (t + 1) - c t) : ℚ) : ECost) := (zero_add _).symm
      _ ≤ _ := add_le_add (hnn t ht) le_rfl

/-- The lazy schedule costs at most three times any schedule between the bounds. -/
theorem TightB.three (hβ : 0 < β) {n : Nat} (T : TightB D β x0 f l u L U n) (B : AllB D β x0 f l u n) (h0 : D x0)
    (hmin : ∀ y, D y → x0 ≤ y) {c : Nat → ℚ} (c0 : c 0 = x0) (hD : ∀ t < n, D (c (t + 1)))
    (hc : ∀ t < n, L (t + 1) ≤ c (t + 1) ∧ c (t + 1) ≤ U (t + 1))
    (hnn : ∀ t < n, ∀ y, D y → 0 ≤ f ((t : Int) + 1) y) :
    Spec.totalCost f (up β) 1 1 x0 ((List.range n).map fun i => lazy x0 L U (i + 1))
      ≤ Spec.totalCost f (up β) 1 1 x0 ((List.range n).map fun i => c (i + 1))
        + Spec.totalCost f (up β) 1 1 x0 ((List.range n).map fun i => c (i + 1))
        + Spec.totalCost f (up β) 1 1 x0 ((List.range n).map fun i => c (i + 1)) := by
  rw [T.cost B h0 n le_rfl]
  cases n with
  | zero => simp [Spec.totalCost, Hit, Up]
  | succ n =>
    have hx := T.mem h0 (n + 1) le_rfl
    have a1 := T.hit hβ B h0 (n + 1) le_rfl
    have a2 := H_lip hβ B le_rfl h0 hx (hmin _ hx)
    have a3 := up_le_climb T.le c0 hc (n + 1) le_rfl
    have a3' := le_max_left 0 (c (n + 1) - lazy x0 L U (n + 1))
    have a5 : β * Up x0 L U (n + 1) ≤ β * climb c (n + 1) := mul_le_mul_of_nonneg_left (by linarith) hβ.le
    have a6 := climb_le_cost (β := β) (f := f) c0 (fun t ht => hnn t ht _ (hD t ht)) (n + 1) le_rfl
    have Bn := B n (by omega)
    have a4 : H β x0 f l u (n + 1) x0 = fp (J β x0 f l u n (l (n + 1))) :=
      Bn.hull_left (hmin _ Bn.dL)
    have hyD : ∀ y ∈ (List.range (n + 1)).map (fun i => c (i + 1)), D y := by
      intro y hy
      obtain ⟨i, hi, rfl⟩ := List.mem_map.1 hy
      exact hD i (List.mem_range.1 hi)
    have hl : ((List.range (n + 1)).map (fun i => c (i + 1))).length = n + 1 := by simp
    generalize (List.range (n + 1)).map (fun i => c (i + 1)) = ys at *
    have low := lower (D := D) (base_zero (β := β) (x0 := x0) (f := f) (L := l) (U := u)) n
      (fun t ht => B t (by omega)) ys hyD hl
    simp only [Nat.cast_zero, zero_add, WithTop.coe_zero] at low
    have hne : ys ≠ [] := by rintro rfl; simp at hl
    have hlast := last_mem (x := x0) hne hyD
    cases hy : Spec.totalCost f (up β) 1 1 x0 ys using WithTop.recTopCoe with
    | top => simp
    | coe a =>
      rw [hy] at low a6
      have fl : J β x0 f l u n (ys.getLastD x0) ≠ ⊤ := fun h => by rw [h] at low; simp at low
      have := Bn.minL _ hlast fl
      rw [coe_fp fl, WithTop.coe_le_coe] at low
      rw [WithTop.coe_le_coe] at a6
      rw [← WithTop.coe_add, ← WithTop.coe_add, WithTop.coe_le_coe]
      linarith

end

end Soco.Work

namespace Soco.Window
open Soco Work Uni Spec Lcp Low

theorem last_take {xs : List ℤ} {t : Nat} (h : t < xs.length) : (xs.take (t + 1)).getLastD 0 = xs.getD t 0 := by
  rw [List.take_succ_eq_append_getElem h, List.getLastD_concat, List.getD_eq_getElem?_getD,
    List.getElem?_eq_getElem h]
  rfl

/-- The entries of lowest cheapest schedules are tight. -/
theorem IsLow.tight {g : Int → ℤ → ECost} {β : ℚ} {inv : Bool} {m : ℤ} {N : Nat} {X : List ℤ} {l u : Nat → ℚ}
    (hβ : 0 < β) (h : IsLow g β inv m N 1 0 X) {n t : Nat} (B : AllB (DomZ m) β 0 (hitQ g) l u n) (ht : t < n)
    (hN : t + 1 ≤ N) : Tight (DomZ m) β (J β 0 (hitQ g) l u t) ((X.getD t 0 : ℤ) : ℚ) := by
  obtain ⟨V, V1, V2, V3⟩ := h.potential hβ hN
  have hl : (X.take (t + 1)).length = t + 1 := by rw [List.length_take, h.len]; omega
  have hb : ∀ j ∈ X.take (t + 1), 0 ≤ j ∧ j ≤ m := fun j hj => h.box j (List.mem_of_mem_take hj)
  have elast := last_take (xs := X) (t := t) (by rw [h.len]; omega)
  have B' : AllB (DomZ m) β 0 (hitQ g) l u (0 + t) := fun i hi => B i (by omega)
  have low := lower (base_zero (β := β) (x0 := 0) (f := hitQ g) (L := l) (U := u)) t B'
    ((X.take (t + 1)).map fun j : ℤ => (j : ℚ)) (mem_domZ hb) (by simpa using hl)
  rw [← Int.cast_zero (R := ℚ), getLastD_cast, cost_cast, elast] at low
  simp only [Nat.cast_zero, Int.cast_zero, zero_add, WithTop.coe_zero] at low
  rw [elast] at V3
  have fy : J β 0 (hitQ g) l u t ((X.getD t 0 : ℤ) : ℚ) ≠ ⊤ := fun h => by
    rw [h, coe_fp V2] at low; simp at low
  refine ⟨fy, fun z hz fz => ?_⟩
  have bc := back_cost (base_zero (β := β) (x0 := 0) (f := hitQ g) (L := l) (U := u)) t B' z hz
  have bl := back_last (L := l) (U := u) 0 t z ((0 : ℤ) : ℚ)
  have bn := back_length (L := l) (U := u) 0 t z
  obtain ⟨ks, ek, hk⟩ := domZ_list _ (back_mem B' hz)
  rw [ek] at bc bl bn
  rw [getLastD_cast] at bl
  rw [← Int.cast_zero (R := ℚ), cost_cast] at bc
  simp only [Nat.cast_zero, Int.cast_zero, zero_add, WithTop.coe_zero] at bc
  have o := (V3 ks (by simpa using bn) hk).1
  rw [bc, coe_fp V2, coe_fp fz, ← WithTop.coe_add, ← WithTop.coe_add, WithTop.coe_le_coe] at o
  rw [coe_fp fy, coe_fp V2, WithTop.coe_le_coe] at low
  rw [← bl] at *
  generalize ks.getLastD 0 = i at *
  generalize X.getD t 0 = j at *
  rcases le_total i j with hij | hij
  · have := (V1 i j hij).2
    have hij' : (i : ℚ) ≤ j := by exact_mod_cast hij
    rw [max_eq_right (sub_nonneg.2 hij')]
    linarith
  · have := (V1 j i hij).1
    have hij' : (j : ℚ) ≤ i := by exact_mod_cast hij
    rw [max_eq_left (sub_nonpos.2 hij')]
    linarith

variable {C D : Type} [OutSuccess C] [OutFailure D]

/-- The run of lazy capacity provisioning with a window. -/
theorem run_window {m : ℤ} {β : ℚ} {g : Int → ℤ → ECost} (w : Nat) (ps : List (SSCO ℤ C D))
    (K : Costs m β g (ps.length + w)) (I : ∀ k (h : k < ps.length), Foresight ps[k] m β g (k + 1) w) :
    ∃ (js : List ℤ) (bs : List (BoundsMem ℤ)),
      Spec.play SSCO.tEnd (lcpAlg boundedInt) [] none (ps.map fun p => ⟨p, w⟩)
        = .ok (js.map (fun j => [j]), if ps = [] then none else some bs) ∧
      js.length = ps.length ∧ bs.length = ps.length ∧ Marks g β m w bs ∧
      ∀ i < ps.length, ((js.getD i 0 : ℤ) : ℚ) = lazy 0 (Lf bs) (Uf bs) (i + 1) := by
  have hlen : (ps.map fun p => (⟨p, w⟩ : Online (SSCO ℤ C D))).length = ps.length := by simp
  obtain ⟨js, bs, h1, h2, h3, h4, h5⟩ := run_inv (T := ℤ) (boundedInt (C := C) (D := D)) (Marks g β m w)
    (fun k b h => by simp at h) (ps.map fun p => ⟨p, w⟩)
    (fun o ho => by
      obtain ⟨p, hp, rfl⟩ := List.mem_map.1 ho
      obtain ⟨k, hk, rfl⟩ := List.getElem_of_mem hp
      exact (I k hk).d)
    (fun k hk => by
      rw [hlen] at hk
      rw [List.getElem_map]
      exact (I k hk).tEnd)
    (fun k hk bs hbs M => by
      rw [hlen] at hk
      rw [List.getElem_map]
      subst hbs
      have Ik := I _ hk
      have Kk : Costs m β g (bs.length + 1 + w) := ⟨K.hm, K.hβ, fun t a b => K.fin t a (by push_cast at b ⊢; omega),
        fun t a b => K.nonneg t a (by push_cast at b ⊢; omega), fun t a b => K.conv t a (by push_cast at b ⊢; omega)⟩
      obtain ⟨X, hX, eX⟩ := find_marks M Ik Kk false
      obtain ⟨Y, hY, eY⟩ := find_marks M Ik Kk true
      rw [Nat.cast_add, Nat.cast_one] at eX eY
      refine ⟨X.getD bs.length 0, Y.getD bs.length 0, eX, eY, ?_⟩
      intro k b hb
      rcases lt_trichotomy k bs.length with h | rfl | h
      · rw [List.getElem?_append_left h] at hb
        exact M k b hb
      · simp at hb
        subst hb
        exact ⟨X, Y, hX, hY, rfl, rfl⟩
      · rw [List.getElem?_eq_none (by simp; omega)] at hb
        cases hb)
  rw [hlen] at h2 h3 h5
  refine ⟨js, bs, ?_, h2, h3, h4, h5⟩
  have e : ((ps.map fun p => (⟨p, w⟩ : Online (SSCO ℤ C D))) = []) ↔ ps = [] := by simp
  simp only [e] at h1
  exact h1

end Soco.Window
