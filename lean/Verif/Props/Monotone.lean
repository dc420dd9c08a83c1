import Verif.Props.Ties
import Verif.Props.LcpWindow
import Verif.Props.SingleType

/-!
# C108: more load never leads to fewer servers
-/

namespace Soco

namespace Spec

/-- Under the costs `g'` every additional server is worth at least as much as under `g`: going from `i` to `j ≥ i` servers
adds to the cost of a slot at most as much under `g'` as it does under `g`. Written without differences, as costs may be
infinite. -/
def Busier (m : ℤ) (n : Int) (g g' : Int → ℤ → ECost) : Prop :=
  ∀ t : Int, 1 ≤ t → t ≤ n → ∀ i j : ℤ, 0 ≤ i → i ≤ j → j ≤ m → g' t j + g t i ≤ g' t i + g t j

end Spec

namespace Busy
open Low

/-- The pointwise minimum under the old and the pointwise maximum under the new costs. -/
theorem cross {g g' : Int → ℤ → ECost} {mv : ℤ → ℤ → ℚ} {α : ℚ} (P : Par mv α) {m : ℤ} {n : Int}
    (B : Spec.Busier m n g g') :
    ∀ (xs ys : List ℤ), xs.length = ys.length → (∀ j ∈ xs, 0 ≤ j ∧ j ≤ m) → (∀ j ∈ ys, 0 ≤ j ∧ j ≤ m) →
    ∀ (t : Int) (x y : ℤ), 1 ≤ t → t + xs.length ≤ n + 1 →
    Spec.totalCost g mv α t (min x y) (meet xs ys) + Spec.totalCost g' mv α t (max x y) (join xs ys)
      ≤ Spec.totalCost g mv α t x xs + Spec.totalCost g' mv α t y ys := by
  intro xs
  induction xs with
  | nil =>
    intro ys h _ _ t x y _ _
    rw [List.length_eq_zero_iff.1 h.symm]; simp [meet, join, Spec.totalCost]
  | cons a xs ih =>
    intro ys h hx hy t x y h1t hn
    obtain _ | ⟨b, ys⟩ := ys
    · simp at h
    have h1 := ih ys (by simpa using h) (fun j hj => hx j (by simp [hj])) (fun j hj => hy j (by simp [hj])) (t + 1) a b
      (by omega) (by simp only [List.length_cons] at hn; push_cast at hn; omega)
    have ha := hx a (by simp)
    have hb := hy b (by simp)
    have h2 : g t (min a b) + g' t (max a b) ≤ g t a + g' t b := by
      rcases le_total a b with h | h
      · rw [min_eq_left h, max_eq_right h]
      · rw [min_eq_right h, max_eq_left h, add_comm, add_comm (g t a)]
        exact B t h1t (by simp only [List.length_cons] at hn; push_cast at hn; omega) b a hb.1 h ha.2
    have h3 : ((α * mv (min x y) (min a b) : ℚ) : ECost) + ((α * mv (max x y) (max a b) : ℚ) : ECost)
        ≤ ((α * mv x a : ℚ) : ECost) + ((α * mv y b : ℚ) : ECost) := by
      rw [← WithTop.coe_add, ← WithTop.coe_add, WithTop.coe_le_coe]
      exact P x y a b
    have e1 : meet (a :: xs) (b :: ys) = min a b :: meet xs ys := rfl
    have e2 : join (a :: xs) (b :: ys) = max a b :: join xs ys := rfl
    rw [e1, e2]
    simp only [Spec.totalCost]
    calc _ = (g t (min a b) + g' t (max a b)) + (((α * mv (min x y) (min a b) : ℚ) : ECost)
            + ((α * mv (max x y) (max a b) : ℚ) : ECost))
          + (Spec.totalCost g mv α (t + 1) (min a b) (meet xs ys)
            + Spec.totalCost g' mv α (t + 1) (max a b) (join xs ys)) := by abel
      _ ≤ (g t a + g' t b) + (((α * mv x a : ℚ) : ECost) + ((α * mv y b : ℚ) : ECost))
          + (Spec.totalCost g mv α (t + 1) a xs + Spec.totalCost g' mv α (t + 1) b ys) :=
          add_le_add (add_le_add h2 h3) h1
      _ = _ := by abel

/-- The lowest optimum under the old costs is below every optimum under the new costs. -/
theorem low_below {g g' : Int → ℤ → ECost} {mv : ℤ → ℤ → ℚ} {α : ℚ} (P : Par mv α) {m : ℤ} {n : Nat}
    (B : Spec.Busier m n g g') {x y : ℤ} (hxy : x ≤ y) {xs ys : List ℤ} (hx : xs.length = n) (hy : ys.length = n)
    (bx : ∀ j ∈ xs, 0 ≤ j ∧ j ≤ m) (byy : ∀ j ∈ ys, 0 ≤ j ∧ j ≤ m)
    (low : ∀ ks : List ℤ, ks.length = n → (∀ k ∈ ks, 0 ≤ k ∧ k ≤ m) →
      Spec.totalCost g mv α 1 x ks ≤ Spec.totalCost g mv α 1 x xs → Below xs ks)
    (fin : Spec.totalCost g' mv α 1 y ys ≠ ⊤)
    (opt : ∀ ks : List ℤ, ks.length = n → (∀ k ∈ ks, 0 ≤ k ∧ k ≤ m) →
      Spec.totalCost g' mv α 1 y ys ≤ Spec.totalCost g' mv α 1 y ks) : Below xs ys := by
  have hl : xs.length = ys.length := by omega
  have c := cross P B xs ys hl bx byy 1 x y le_rfl (by omega)
  rw [min_eq_left hxy, max_eq_right hxy] at c
  have hj := opt (join xs ys) (by rw [join_length hl]; exact hx) (fun k hk => (join_mem hk).elim (bx k) (byy k))
  have hm : Spec.totalCost g mv α 1 x (meet xs ys) ≤ Spec.totalCost g mv α 1 x xs := by
    have c' := (add_le_add_right hj _).trans c
    exact (WithTop.add_le_add_iff_right fin).1 c'
  exact below_trans (low _ (by rw [meet_length hl]; exact hx) (fun k hk => (meet_mem hk).elim (bx k) (byy k)) hm)
    (meet_below_right hl)

open Uni Window Work Lcp

theorem isLow_mono {g g' : Int → ℤ → ECost} {β : ℚ} (hβ : 0 < β) {inv : Bool} {m : ℤ} {n : Nat} {X Y : List ℤ}
    (B : Spec.Busier m n g g') (hX : IsLow g β inv m n 1 0 X) (hY : IsLow g' β inv m n 1 0 Y) : Below X Y :=
  low_below (par1 hβ inv) B le_rfl hX.len hY.len hX.box hY.box hX.low hY.fin hY.opt

theorem busier_le {g g' : Int → ℤ → ECost} {m : ℤ} {n k : Int} (h : k ≤ n) (B : Spec.Busier m n g g') :
    Spec.Busier m k g g' := fun t h1 h2 => B t h1 (h2.trans h)

/-- The bounds of lazy capacity provisioning. -/
theorem marks_mono {g g' : Int → ℤ → ECost} {β : ℚ} (hβ : 0 < β) {m : ℤ} {w n : Nat} {bs bs' : List (BoundsMem ℤ)}
    (hl : bs.length = n) (hl' : bs'.length = n) (B : Spec.Busier m ((n + w : Nat) : Int) g g') (M : Marks g β m w bs)
    (M' : Marks g' β m w bs') : ∀ k (h : k < bs.length) (h' : k < bs'.length),
      bs[k].lower ≤ bs'[k].lower ∧ bs[k].upper ≤ bs'[k].upper := by
  intro k h h'
  obtain ⟨X, Y, x1, y1, ex, ey⟩ := M k _ (List.getElem?_eq_getElem h)
  obtain ⟨X', Y', x1', y1', ex', ey'⟩ := M' k _ (List.getElem?_eq_getElem h')
  have B' : Spec.Busier m ((k + 1 + w : Nat) : Int) g g' := busier_le (by push_cast; omega) B
  rw [← ex, ← ey, ← ex', ← ey']
  exact ⟨below_getD (isLow_mono hβ B' x1 x1') k, below_getD (isLow_mono hβ B' y1 y1') k⟩

theorem lazy_mono {x : ℚ} {L U L' U' : Nat → ℚ} {n : Nat} (hL : ∀ k, 1 ≤ k → k ≤ n → L k ≤ L' k)
    (hU : ∀ k, 1 ≤ k → k ≤ n → U k ≤ U' k) : ∀ k, k ≤ n → lazy x L U k ≤ lazy x L' U' k
  | 0, _ => le_rfl
  | k + 1, h => by
    have := lazy_mono (x := x) hL hU k (by omega)
    exact max_le_max (hL _ (by omega) h) (min_le_min (hU _ (by omega) h) this)

/-! ### Data centers -/

/-- Chords of a convex function further to the right are steeper. -/
theorem chords {f : ℚ → ℚ} {a b c d : ℚ} (hab : a ≤ b) (hac : a ≤ c) (hbd : b ≤ d) (hcd : c ≤ d)
    (hf : ∀ s, 0 ≤ s → s ≤ 1 → f ((1 - s) * a + s * d) ≤ (1 - s) * f a + s * f d) :
    (f b - f a) * (d - c) ≤ (f d - f c) * (b - a) := by
  rcases eq_or_lt_of_le (hab.trans hbd) with h | h
  · have hb : b = a := le_antisymm (by linarith) hab
    have hc : c = a := le_antisymm (by linarith) hac
    rw [hb, hc, ← h]
  have h' : 0 < d - a := by linarith
  have e1 : (1 - (b - a) / (d - a)) * a + (b - a) / (d - a) * d = b := by field_simp; ring
  have e2 : (1 - (c - a) / (d - a)) * a + (c - a) / (d - a) * d = c := by field_simp; ring
  have h1 := hf ((b - a) / (d - a)) (div_nonneg (by linarith) h'.le) ((div_le_one h').2 (by linarith))
  have h2 := hf ((c - a) / (d - a)) (div_nonneg (by linarith) h'.le) ((div_le_one h').2 (by linarith))
  rw [e1] at h1
  rw [e2] at h2
  have i1 : (f b - f a) * (d - a) ≤ (b - a) * (f d - f a) := by
    have := mul_le_mul_of_nonneg_right h1 h'.le
    have e : ((1 - (b - a) / (d - a)) * f a + (b - a) / (d - a) * f d) * (d - a)
        = f a * (d - a) + (b - a) * (f d - f a) := by field_simp; ring
    rw [e] at this
    linarith
  have i2 : (d - c) * (f d - f a) ≤ (f d - f c) * (d - a) := by
    have := mul_le_mul_of_nonneg_right h2 h'.le
    have e : ((1 - (c - a) / (d - a)) * f a + (c - a) / (d - a) * f d) * (d - a)
        = f a * (d - a) + (c - a) * (f d - f a) := by field_simp; ring
    rw [e] at this
    linarith
  have j1 := mul_le_mul_of_nonneg_right i1 (show 0 ≤ d - c by linarith)
  have j2 := mul_le_mul_of_nonneg_right i2 (show 0 ≤ b - a by linarith)
  have : (f b - f a) * (d - c) * (d - a) ≤ (f d - f c) * (b - a) * (d - a) := by linarith
  exact le_of_mul_le_mul_right this h'

/-- The perspective of a convex function: sharing among more servers makes additional work cheaper. -/
theorem perspective {f : ℚ → ℚ} {v v' i j : ℚ} (hi : 0 < i) (hij : i ≤ j) (hv : 0 ≤ v) (hvv : v ≤ v')
    (hf : ∀ s, 0 ≤ s → s ≤ 1 → f ((1 - s) * (v / j) + s * (v' / i)) ≤ (1 - s) * f (v / j) + s * f (v' / i)) :
    j * f (v' / j) + i * f (v / i) ≤ i * f (v' / i) + j * f (v / j) := by
  rcases eq_or_lt_of_le hvv with rfl | h
  · linarith
  have hj : 0 < j := hi.trans_le hij
  have a1 : v / j ≤ v' / j := div_le_div_of_nonneg_right hvv hj.le
  have a2 : v / j ≤ v / i := div_le_div_of_nonneg_left hv hi hij
  have a3 : v' / j ≤ v' / i := div_le_div_of_nonneg_left (hv.trans hvv) hi hij
  have a4 : v / i ≤ v' / i := div_le_div_of_nonneg_right hvv hi.le
  have := chords a1 a2 a3 a4 hf
  have e1 : v' / i - v / i = (v' - v) / i := by ring
  have e2 : v' / j - v / j = (v' - v) / j := by ring
  rw [e1, e2] at this
  have h' : 0 < v' - v := by linarith
  have t := mul_le_mul_of_nonneg_right this (show 0 ≤ i * j / (v' - v) from div_nonneg (mul_nonneg hi.le hj.le) h'.le)
  have k1 : (f (v' / j) - f (v / j)) * ((v' - v) / i) * (i * j / (v' - v)) = (f (v' / j) - f (v / j)) * j := by
    field_simp
  have k2 : (f (v' / i) - f (v / i)) * ((v' - v) / j) * (i * j / (v' - v)) = (f (v' / i) - f (v / i)) * i := by
    field_simp
  rw [k1, k2] at t
  linarith

/-- The delay times the utilisation is a convex function of the utilisation. -/
theorem delay_convex {T r a d : ℚ} (hT : 0 ≤ T) (ha : 0 ≤ a) (ha1 : a < 1) (hd : 0 ≤ d) (hd1 : d < 1) (s : ℚ)
    (h0 : 0 ≤ s) (h1 : s ≤ 1) :
    ((1 - s) * a + s * d) * max 0 (T / (1 - ((1 - s) * a + s * d)) + r)
      ≤ (1 - s) * (a * max 0 (T / (1 - a) + r)) + s * (d * max 0 (T / (1 - d) + r)) := by
  obtain ⟨u, hu⟩ : ∃ u, u = (1 - s) * a + s * d := ⟨_, rfl⟩
  have hu0 : 0 ≤ u := hu ▸ add_nonneg (mul_nonneg (by linarith) ha) (mul_nonneg h0 hd)
  have hu1 : u < 1 := by
    have e : 1 - u = (1 - s) * (1 - a) + s * (1 - d) := by rw [hu]; ring
    rcases eq_or_lt_of_le h0 with h | h
    · rw [hu, ← h]; linarith
    · have := mul_nonneg (sub_nonneg.2 h1) (sub_nonneg.2 ha1.le)
      have := mul_pos h (sub_pos.2 hd1)
      linarith
  rw [← hu]
  have n1 : 0 ≤ (1 - s) * (a * max 0 (T / (1 - a) + r)) := mul_nonneg (by linarith) (mul_nonneg ha (le_max_left _ _))
  have n2 : 0 ≤ s * (d * max 0 (T / (1 - d) + r)) := mul_nonneg h0 (mul_nonneg hd (le_max_left _ _))
  rcases max_cases 0 (T / (1 - u) + r) with ⟨e, _⟩ | ⟨e, _⟩
  · rw [e]; linarith
  rw [e]
  have m1 : (1 - s) * (a * (T / (1 - a) + r)) ≤ (1 - s) * (a * max 0 (T / (1 - a) + r)) :=
    mul_le_mul_of_nonneg_left (mul_le_mul_of_nonneg_left (le_max_right _ _) ha) (by linarith)
  have m2 : s * (d * (T / (1 - d) + r)) ≤ s * (d * max 0 (T / (1 - d) + r)) :=
    mul_le_mul_of_nonneg_left (mul_le_mul_of_nonneg_left (le_max_right _ _) hd) h0
  have pa : 0 < 1 - a := by linarith
  have pd : 0 < 1 - d := by linarith
  have pu : 0 < 1 - u := by linarith
  have inv : (1 - s) * (1 / (1 - a)) + s * (1 / (1 - d)) - 1 / (1 - u)
      = (1 - s) * s * (a - d) ^ 2 / ((1 - a) * (1 - d) * (1 - u)) := by
    have e : 1 - u = (1 - s) * (1 - a) + s * (1 - d) := by rw [hu]; ring
    have : (1 - s) * (1 - a) + s * (1 - d) ≠ 0 := by rw [← e]; exact pu.ne'
    rw [e]
    field_simp
    ring
  have i0 : 0 ≤ (1 - s) * s * (a - d) ^ 2 / ((1 - a) * (1 - d) * (1 - u)) :=
    div_nonneg (mul_nonneg (mul_nonneg (by linarith) h0) (sq_nonneg _)) (mul_nonneg (mul_nonneg pa.le pd.le) pu.le)
  have key : ∀ x : ℚ, 0 < 1 - x → x * (T / (1 - x) + r) = T * (1 / (1 - x)) - T + r * x := by
    intro x hx
    field_simp
    ring
  have i1 := mul_nonneg hT (inv ▸ i0)
  rw [key u pu]
  rw [key a pa] at m1
  rw [key d pd] at m2
  have : r * u = (1 - s) * (r * a) + s * (r * d) := by rw [hu]; ring
  linarith

variable {F : Spec.Farm}

/-- With more jobs every additional server is worth at least as much. -/
theorem slotCost_busier (hF : F.Valid) (t : Int) (ht : 1 ≤ t) {l l' : ℚ} (hl : 0 ≤ l) (hll : l ≤ l') {i j : ℚ}
    (hij : i ≤ j) :
    F.slotCost t l' j + F.slotCost t l i ≤ F.slotCost t l' i + F.slotCost t l j := by
  rcases eq_or_lt_of_le hll with rfl | hlt
  · rw [add_comm]
  have hl' : 0 < l' := hl.trans_lt hlt
  cases hc : F.slotCost t l' i using WithTop.recTopCoe with
  | top => simp
  | coe c =>
    have hi0 : ¬ i ≤ 0 := by
      intro h
      rw [Spec.Farm.slotCost, if_pos h, if_neg hl'.ne'] at hc
      exact WithTop.coe_ne_top hc.symm
    have hip : 0 < i := not_le.1 hi0
    have hjp : 0 < j := hip.trans_le hij
    obtain ⟨v, hv⟩ : ∃ v, v = F.time * l / F.slot := ⟨_, rfl⟩
    obtain ⟨v', hv'⟩ : ∃ v', v' = F.time * l' / F.slot := ⟨_, rfl⟩
    have hv0 : 0 ≤ v := hv ▸ div_nonneg (mul_nonneg hF.time hl) hF.slot.le
    have hvv : v ≤ v' := by
      rw [hv, hv']
      exact div_le_div_of_nonneg_right (mul_le_mul_of_nonneg_left hll hF.time) hF.slot.le
    have use : ∀ k : ℚ, F.use l k = v / k := fun k => by
      unfold Spec.Farm.use; rw [hv, div_div, mul_comm k]
    have use' : ∀ k : ℚ, F.use l' k = v' / k := fun k => by
      unfold Spec.Farm.use; rw [hv', div_div, mul_comm k]
    have ok : v' / i < 1 ∧ v' / i ≤ F.maxUse := by
      by_contra h
      rw [Spec.Farm.slotCost, if_neg hi0, use', if_neg h] at hc
      exact WithTop.coe_ne_top hc.symm
    have a1 : v / j ≤ v' / i := (div_le_div_of_nonneg_right hvv hjp.le).trans
      (div_le_div_of_nonneg_left (hv0.trans hvv) hip hij)
    have a2 : v / i ≤ v' / i := div_le_div_of_nonneg_right hvv hip.le
    have a3 : v' / j ≤ v' / i := div_le_div_of_nonneg_left (hv0.trans hvv) hip hij
    rw [← hc]
    simp only [Spec.Farm.slotCost, if_neg hi0, if_neg (not_le.2 hjp), use, use']
    rw [if_pos ok, if_pos ⟨a3.trans_lt ok.1, a3.trans ok.2⟩, if_pos ⟨a2.trans_lt ok.1, a2.trans ok.2⟩,
      if_pos ⟨a1.trans_lt ok.1, a1.trans ok.2⟩, ← WithTop.coe_add, ← WithTop.coe_add, WithTop.coe_le_coe]
    have b1 : 0 ≤ v / j := div_nonneg hv0 hjp.le
    have b2 : 0 ≤ v' / i := div_nonneg (hv0.trans hvv) hip.le
    have energy := mul_le_mul_of_nonneg_left (perspective (f := F.power) hip hij hv0 hvv
      (fun s h0 h1 => hF.convex _ _ b1 b2 s h0 h1)) (hF.price t ht).le
    have hslot := hF.slot
    have loss : l' * max 0 (F.time / (1 - v' / j) + F.route t + F.time - F.delay)
          + l * max 0 (F.time / (1 - v / i) + F.route t + F.time - F.delay)
        ≤ l' * max 0 (F.time / (1 - v' / i) + F.route t + F.time - F.delay)
          + l * max 0 (F.time / (1 - v / j) + F.route t + F.time - F.delay) := by
      rcases eq_or_lt_of_le hF.time with h | h
      · rw [← h]
        simp
      have e : ∀ x, F.time / (1 - x) + F.route t + F.time - F.delay
          = F.time / (1 - x) + (F.route t + F.time - F.delay) := fun x => by ring
      simp only [e]
      have p := perspective (f := fun x => x * max 0 (F.time / (1 - x) + (F.route t + F.time - F.delay))) hip hij hv0 hvv
        (fun s h0 h1 => delay_convex hF.time b1 (a1.trans_lt ok.1) b2 ok.1 s h0 h1)
      have q : ∀ (x k y : ℚ), 0 < k → k * (x / k * y) = x * y := fun x k y hk => by field_simp
      rw [q _ _ _ hip, q _ _ _ hip, q _ _ _ hjp, q _ _ _ hjp] at p
      have el : l = v * (F.slot / F.time) := by rw [hv]; field_simp
      have el' : l' = v' * (F.slot / F.time) := by rw [hv']; field_simp
      have := mul_le_mul_of_nonneg_left p (show 0 ≤ F.slot / F.time from div_nonneg hslot.le h.le)
      rw [el, el']
      linarith
    have loss' := mul_le_mul_of_nonneg_left loss hF.gamma
    linarith

theorem farm_busier (hF : F.Valid) {loads loads' : List ℚ} (hl : ∀ l ∈ loads, 0 ≤ l)
    (h : List.Forall₂ (· ≤ ·) loads loads') :
    Spec.Busier F.servers loads.length (fun t j => F.slotCost t (loads.getD (t - 1).toNat 0) j)
      (fun t j => F.slotCost t (loads'.getD (t - 1).toNat 0) j) := by
  intro t h1 h2 i j _ hij _
  have hlen := h.length_eq
  have hlt : (t - 1).toNat < loads.length := by omega
  dsimp only
  rw [List.getD_eq_getElem _ _ hlt, List.getD_eq_getElem _ _ (hlen ▸ hlt)]
  exact slotCost_busier hF t h1 (hl _ (List.getElem_mem _)) ((List.forall₂_iff_get.1 h).2 _ hlt (hlen ▸ hlt))
    (by exact_mod_cast hij)

/-- What can be processed can also be processed if there is less of it. -/
theorem carries_le (hF : F.Valid) {l l' : ℚ} (hl : 0 ≤ l) (hll : l ≤ l') (h : F.Carries l') : F.Carries l := by
  have hu : F.use l F.servers ≤ F.use l' F.servers := by
    unfold Spec.Farm.use
    exact div_le_div_of_nonneg_right (mul_le_mul_of_nonneg_left hll hF.time)
      (mul_nonneg (by exact_mod_cast hF.servers.le) hF.slot.le)
  exact ⟨hl, hu.trans_lt h.2.1, hu.trans h.2.2⟩

theorem all_carries (hF : F.Valid) {loads loads' : List ℚ} (hl : ∀ l ∈ loads, 0 ≤ l) (hl' : ∀ l ∈ loads', F.Carries l)
    (h : List.Forall₂ (· ≤ ·) loads loads') : ∀ l ∈ loads, F.Carries l := by
  induction h with
  | nil => simp
  | cons hab _ ih =>
    intro l hm
    rcases List.mem_cons.1 hm with rfl | hm
    · exact carries_le hF (hl _ (by simp)) hab (hl' _ (by simp))
    · exact ih (fun l hl'' => hl l (by simp [hl''])) (fun l hl'' => hl' l (by simp [hl''])) l hm

end Busy

variable {C D : Type} [OutSuccess C] [OutFailure D]

open Uni Low Window Lcp Busy

/-- **C108** Two one-dimensional problems which only differ in their hitting costs, such that under the second every
additional server is worth at least as much as under the first. With convex costs, the optimal schedule found for the second
problem uses in every slot at least as many servers as the one found for the first, also if it starts with more servers. -/
theorem C108_one_dimension (p p' : SSCO ℤ C D) (hv : p.verify = .ok ()) (hd : p.d = 1) (m : ℤ) (hb : p.bounds = [m])
    (hp' : p'.d = p.d ∧ p'.tEnd = p.tEnd ∧ p'.bounds = p.bounds ∧ p'.switchingCost = p.switchingCost)
    (x x' : ℤ) (hx : x ≤ x') (hxm : x' ≤ m) (o : OfflineOptions) (hl : o.l = none) (hα : 0 ≤ o.alpha)
    (g g' : Int → ℤ → ECost)
    (hhit : ∀ t : Int, 1 ≤ t → t ≤ p.tEnd → ∀ j, 0 ≤ j → j ≤ m →
      (∃ out, p.toProb.hitCost t [j] = .ok ⟨g t j, out⟩) ∧ ∃ out, p'.toProb.hitCost t [j] = .ok ⟨g' t j, out⟩)
    (hfin : ∀ t : Int, 1 ≤ t → t ≤ p.tEnd → g t m ≠ ⊤ ∧ g' t m ≠ ⊤)
    (hnn : ∀ t : Int, 1 ≤ t → t ≤ p.tEnd → ∀ j, 0 ≤ j → j ≤ m → 0 ≤ g t j ∧ 0 ≤ g' t j)
    (hconv : ∀ t : Int, 1 ≤ t → t ≤ p.tEnd → Spec.ConvexOnE m (g t) ∧ Spec.ConvexOnE m (g' t))
    (B : Spec.Busier m p.tEnd g g') :
    ∃ P P', Uni.optimalGraphSearch p x o = .ok P ∧ Uni.optimalGraphSearch p' x' o = .ok P' ∧
      List.Forall₂ (List.Forall₂ (· ≤ ·)) P.xs P'.xs := by
  obtain ⟨m', β, hb', hs, hm, hβ, hT⟩ := valid_one hv hd
  have : m' = m := by rw [hb] at hb'; simpa using hb'.symm
  subst this
  obtain ⟨e1, e2, e3, e4⟩ := hp'
  obtain ⟨P, js, h1, h2, h3, h4, h5, h6, h7⟩ := graphSearch_main hd hb hs hm hβ hT x (hx.trans hxm) o hl hα
    (fun t a b j c d => (hhit t a b j c d).1) (fun t a b => (hfin t a b).1)
    (fun t h1 h2 => (hnn t h1 h2 m' hm.le le_rfl).1)
  obtain ⟨P', js', h1', h2', h3', h4', h5', h6', h7'⟩ := graphSearch_main (e1.trans hd) (e3.trans hb) (e4.trans hs) hm hβ
    (by rw [e2]; exact hT) x' hxm o hl hα (by rw [e2]; exact fun t a b j c d => (hhit t a b j c d).2)
    (by rw [e2]; exact fun t a b => (hfin t a b).2) (by rw [e2]; exact fun t h1 h2 => (hnn t h1 h2 m' hm.le le_rfl).2)
  rw [e2] at h3' h7'
  have h7 := h7 (fun t a b j c d => (hnn t a b j c d).1) (fun t a b => (hconv t a b).1)
  have h7' := h7' (fun t a b j c d => (hnn t a b j c d).2) (fun t a b => (hconv t a b).2)
  refine ⟨P, P', h1, h1', ?_⟩
  rw [h2, h2', List.forall₂_map_left_iff, List.forall₂_map_right_iff]
  rw [← h3] at B h7 h7' h3'
  have hnn' : 0 ≤ o.alpha * β := mul_nonneg hα hβ.le
  have par : Par (mv1 β o.inverted) o.alpha := par_of_mvAB (mv1_mvAB _ _ _) (by split_ifs <;> simp [hnn'])
    (by split_ifs <;> simp [hnn'])
  have := low_below par B hx rfl (by omega) h4 h4'
    (fun ks k1 k2 hle => (h7 ks (by omega) k2).2 (by rw [h5]; exact hle)) (by rw [← h5']; exact h6')
    (fun ks k1 k2 => by rw [← h5']; exact (h7' ks (by omega) k2).1)
  exact this.imp fun i j hij => .cons hij .nil

/-- **C108** The same online: with every prediction window, lazy capacity provisioning decides on at least as many servers
in every slot if every additional server is worth at least as much. -/
theorem C108_lazy {m : ℤ} {β : ℚ} {g g' : Int → ℤ → ECost} (w : Nat) (ps ps' : List (SSCO ℤ C D))
    (hl : ps'.length = ps.length) (K : Spec.Costs m β g (ps.length + w)) (K' : Spec.Costs m β g' (ps.length + w))
    (I : ∀ k (h : k < ps.length), Spec.Foresight ps[k] m β g (k + 1) w)
    (I' : ∀ k (h : k < ps'.length), Spec.Foresight ps'[k] m β g' (k + 1) w)
    (B : Spec.Busier m (ps.length + w) g g') :
    ∃ xs mem xs' mem', Spec.play SSCO.tEnd (lcpAlg boundedInt) [] none (ps.map fun p => ⟨p, w⟩) = .ok (xs, mem) ∧
      Spec.play SSCO.tEnd (lcpAlg boundedInt) [] none (ps'.map fun p => ⟨p, w⟩) = .ok (xs', mem') ∧
      xs.length = ps.length ∧ List.Forall₂ (List.Forall₂ (· ≤ ·)) xs xs' := by
  obtain ⟨js, bs, h1, h2, h3, M, h5⟩ := run_window w ps K I
  obtain ⟨js', bs', h1', h2', h3', M', h5'⟩ := run_window w ps' (by rw [hl]; exact K') I'
  rw [hl] at h2' h3' h5'
  refine ⟨_, _, _, _, h1, h1', by simpa using h2, ?_⟩
  have mono := marks_mono K.hβ h3 h3' (by push_cast; exact B) M M'
  rw [List.forall₂_map_left_iff, List.forall₂_map_right_iff]
  have : Below js js' := by
    rw [below_iff]
    refine ⟨h2.trans h2'.symm, fun i hi hi' => ?_⟩
    have a := h5 i (by omega)
    have a' := h5' i (by omega)
    have := lazy_mono (x := 0) (L := Lf bs) (U := Uf bs) (L' := Lf bs') (U' := Uf bs') (n := ps.length)
      (fun k k1 k2 => by
        unfold Lf
        rw [List.getElem?_eq_getElem (by omega : k - 1 < bs.length), List.getElem?_eq_getElem (by omega : k - 1 < bs'.length)]
        have := (mono (k - 1) (by omega) (by omega)).1
        show ((bs[k - 1].lower : ℤ) : ℚ) ≤ ((bs'[k - 1].lower : ℤ) : ℚ)
        exact_mod_cast this)
      (fun k k1 k2 => by
        unfold Uf
        rw [List.getElem?_eq_getElem (by omega : k - 1 < bs.length), List.getElem?_eq_getElem (by omega : k - 1 < bs'.length)]
        have := (mono (k - 1) (by omega) (by omega)).2
        show ((bs[k - 1].upper : ℤ) : ℚ) ≤ ((bs'[k - 1].upper : ℤ) : ℚ)
        exact_mod_cast this) (i + 1) (by omega)
    rw [← a, ← a', List.getD_eq_getElem _ _ hi, List.getD_eq_getElem _ _ hi'] at this
    exact_mod_cast this
  exact this.imp fun i j hij => .cons hij .nil

/-- **C108** A data center with one type of servers and jobs. If in every slot at least as many jobs arrive, all of which can
be processed, then every additional server is worth at least as much, so the optimal schedule uses at least as many servers in
every slot. -/
theorem C108_single_type (S : Num.Solver) (hS : Spec.SolvesEmpty S) (m : DataCenterModel) (F : Spec.Farm)
    (h : Spec.IsFarm m F) (hF : F.Valid) (loads loads' : List ℚ) (hl : ∀ l ∈ loads, 0 ≤ l) (hl' : ∀ l ∈ loads', F.Carries l)
    (hll : List.Forall₂ (· ≤ ·) loads loads') (o : OfflineOptions) (ho : o.l = none) (hα : 0 ≤ o.alpha) :
    ∃ p p' P P', m.toSSCO (T := ℤ) S (loads.map fun l => [l]) = .ok p ∧ m.toSSCO (T := ℤ) S (loads'.map fun l => [l]) = .ok p' ∧
      Uni.optimalGraphSearch p 0 o = .ok P ∧ Uni.optimalGraphSearch p' 0 o = .ok P' ∧
      P.xs.length = loads.length ∧ List.Forall₂ (List.Forall₂ (· ≤ ·)) P.xs P'.xs := by
  have hc := all_carries hF hl hl' hll
  have hlen := hll.length_eq
  obtain ⟨p, hp, I⟩ := C87_problem S hS m F h hF loads hl
  obtain ⟨p', hp', I'⟩ := C87_problem S hS m F h hF loads' fun l hm => (hl' l hm).1
  have K := C87_convex F hF loads hc
  have K' := C87_convex F hF loads' hl'
  rw [← hlen] at I' K'
  have hv : p.verify = .ok () := by
    simp [SSCO.verify, I.d, I.bounds, I.switching, I.tEnd, assertValidity, assertR, forRange, idx, K.hm, K.hβ, bind, Except.bind, pure,
      Except.pure]
  obtain ⟨P, P', h1, h2, h3⟩ := C108_one_dimension p p' hv I.d F.servers I.bounds
    ⟨I'.d.trans I.d.symm, I'.tEnd.trans I.tEnd.symm, I'.bounds.trans I.bounds.symm, I'.switching.trans I.switching.symm⟩
    0 0 le_rfl K.hm.le o ho hα _ _
    (by rw [I.tEnd]; exact fun t a b j c d => ⟨I.hit t a b j c d, I'.hit t a b j c d⟩)
    (by rw [I.tEnd]; exact fun t a b => ⟨K.fin t a b, K'.fin t a b⟩)
    (by rw [I.tEnd]; exact fun t a b j c d => ⟨K.nonneg t a b j c d, K'.nonneg t a b j c d⟩)
    (by rw [I.tEnd]; exact fun t a b => ⟨K.conv t a b, K'.conv t a b⟩)
    (by rw [I.tEnd]; exact farm_busier hF hl hll)
  obtain ⟨P'', q1, q2, _⟩ := C16_feasible_true_cost p hv I.d F.servers I.bounds 0 K.hm.le o ho hα _
    (by rw [I.tEnd]; exact I.hit) (by rw [I.tEnd]; exact K.fin)
    (by rw [I.tEnd]; exact fun t a b => K.nonneg t a b _ K.hm.le le_rfl)
  rw [h1] at q1
  cases q1
  exact ⟨p, p', P, P', hp, hp', h1, h2, by rw [I.tEnd] at q2; exact_mod_cast q2, h3⟩

/-- **C108** Lazy capacity provisioning for such a data center, with any prediction window: revealing the first `n` slots
one after another, it decides on at least as many servers in every slot if at least as many jobs arrive in every slot. -/
theorem C108_single_type_lazy (S : Num.Solver) (hS : Spec.SolvesEmpty S) (m : DataCenterModel) (F : Spec.Farm)
    (h : Spec.IsFarm m F) (hF : F.Valid) (loads loads' : List ℚ) (hl : ∀ l ∈ loads, 0 ≤ l) (hl' : ∀ l ∈ loads', F.Carries l)
    (hll : List.Forall₂ (· ≤ ·) loads loads') (n w : Nat) (hn : n + w = loads.length) :
    ∃ p p' xs mem xs' mem', m.toSSCO (T := ℤ) S (loads.map fun l => [l]) = .ok p ∧
      m.toSSCO (T := ℤ) S (loads'.map fun l => [l]) = .ok p' ∧
      Spec.play SSCO.tEnd (lcpAlg boundedInt) [] none
        ((List.range n).map fun (k : Nat) => ⟨{ p with tEnd := (k : Int) + 1 }, w⟩) = .ok (xs, mem) ∧
      Spec.play SSCO.tEnd (lcpAlg boundedInt) [] none
        ((List.range n).map fun (k : Nat) => ⟨{ p' with tEnd := (k : Int) + 1 }, w⟩) = .ok (xs', mem') ∧
      xs.length = n ∧ List.Forall₂ (List.Forall₂ (· ≤ ·)) xs xs' := by
  have hc := all_carries hF hl hl' hll
  have hlen := hll.length_eq
  obtain ⟨p, hp, I⟩ := C87_problem S hS m F h hF loads hl
  obtain ⟨p', hp', I'⟩ := C87_problem S hS m F h hF loads' fun l hm => (hl' l hm).1
  have K := C87_convex F hF loads hc
  have K' := C87_convex F hF loads' hl'
  have B := farm_busier hF hl hll
  rw [← hlen] at I' K'
  rw [← hn] at I I' K K' B
  have fore : ∀ {q : SSCO ℤ DCSuccess DCFailure} {g}, Spec.Inst q F.servers F.switching g (n + w) → ∀ k, k < n →
      Spec.Foresight { q with tEnd := (k : Int) + 1 } F.servers F.switching g (k + 1) w := by
    intro q g J k hk
    exact ⟨J.d, J.bounds, J.switching, by push_cast; rfl, fun t a b => J.hit t a (by push_cast at b ⊢; omega),
      fun t a b => J.certain t a (by push_cast at b ⊢; omega)⟩
  obtain ⟨xs, mem, xs', mem', h1, h2, h3, h4⟩ := C108_lazy w
    ((List.range n).map fun (k : Nat) => ({ p with tEnd := (k : Int) + 1 } : SSCO ℤ DCSuccess DCFailure))
    ((List.range n).map fun (k : Nat) => ({ p' with tEnd := (k : Int) + 1 } : SSCO ℤ DCSuccess DCFailure))
    (by simp) (by rw [List.length_map, List.length_range]; exact K) (by rw [List.length_map, List.length_range]; exact K')
    (fun k hk => by
      simp only [List.getElem_map, List.getElem_range]
      exact fore I k (by simpa using hk))
    (fun k hk => by
      simp only [List.getElem_map, List.getElem_range]
      exact fore I' k (by simpa using hk)) (by rw [List.length_map, List.length_range]; exact_mod_cast B)
  rw [List.map_map] at h1 h2
  exact ⟨p, p', xs, mem, xs', mem', hp, hp', h1, h2, by simpa using h3, h4⟩

/-! ## Examples -/

theorem Ex.fewer_jobs : List.Forall₂ (· ≤ ·) ([2, 0, 5, 1] : List ℚ) [3, 0, 7, 2] := by norm_num

example (S : Num.Solver) (hS : Spec.SolvesEmpty S) := C108_single_type S hS Ex.farmModel Ex.farm Ex.farm_is Ex.farm_valid
  [2, 0, 5, 1] [3, 0, 7, 2] (by norm_num) Ex.farm_carries Ex.fewer_jobs ⟨false, 1, none⟩ rfl (by norm_num)

example (S : Num.Solver) (hS : Spec.SolvesEmpty S) := C108_single_type_lazy S hS Ex.farmModel Ex.farm Ex.farm_is Ex.farm_valid
  [2, 0, 5, 1] [3, 0, 7, 2] (by norm_num) Ex.farm_carries Ex.fewer_jobs 3 1 rfl

/-- Serving `l t` jobs with servers which process one job each. -/
def Ex.each (l : Int → ℤ) : SSCO ℤ Unit Unit where
  d := 1
  tEnd := 3
  bounds := [4]
  switchingCost := [2]
  hittingCost := CostFn.new 1 (.certain fun t x => .ok (Cost.raw (((x.headD 0 : ℚ) + 3 * max 0 (l t - x.headD 0 : ℚ) : ℚ) : ECost)))

theorem Ex.each_valid (l : Int → ℤ) : (Ex.each l).verify = .ok () := by
  simp [Ex.each, SSCO.verify, assertValidity, assertR, forRange, idx, bind, Except.bind, pure, Except.pure]

theorem Ex.each_hit (l : Int → ℤ) (t : Int) (h1 : 1 ≤ t) (j : ℤ) (h0 : 0 ≤ j) (hj : j ≤ 4) :
    (Ex.each l).toProb.hitCost t [j] = .ok (Cost.raw (((j : ℚ) + 3 * max 0 (l t - j : ℚ) : ℚ) : ECost)) := by
  rw [SingleType.hit_within (p := Ex.each l) rfl h0 hj]
  simp only [Ex.each]
  rw [CostFn.callMean_certain _ _ h1]
  rfl

theorem Ex.each_convex (l : ℤ) : Spec.ConvexOnE 4 fun j => (((j : ℚ) + 3 * max 0 (l - j : ℚ) : ℚ) : ECost) := by
  intro x y z _ hxy hyz _ fx fz hx hz
  have e1 := WithTop.coe_injective hx
  have e2 := WithTop.coe_injective hz
  subst e1 e2
  refine ⟨_, rfl, ?_⟩
  have a : (x : ℚ) < y := by exact_mod_cast hxy
  have b : (y : ℚ) < z := by exact_mod_cast hyz
  have n1 := mul_nonneg (sub_nonneg.2 b.le) (le_max_left 0 (l - x : ℚ))
  have n2 := mul_nonneg (sub_nonneg.2 a.le) (le_max_left 0 (l - z : ℚ))
  have n3 := mul_le_mul_of_nonneg_left (le_max_right 0 (l - x : ℚ)) (sub_nonneg.2 b.le)
  have n4 := mul_le_mul_of_nonneg_left (le_max_right 0 (l - z : ℚ)) (sub_nonneg.2 a.le)
  rcases max_cases 0 (l - y : ℚ) with ⟨e, _⟩ | ⟨e, _⟩ <;> rw [e] <;> linarith

theorem Ex.each_busier (l l' : Int → ℤ) (h : ∀ t, l t ≤ l' t) :
    Spec.Busier 4 3 (fun t j => (((j : ℚ) + 3 * max 0 (l t - j : ℚ) : ℚ) : ECost))
      fun t j => (((j : ℚ) + 3 * max 0 (l' t - j : ℚ) : ℚ) : ECost) := by
  intro t _ _ i j _ hij _
  dsimp only
  rw [← WithTop.coe_add, ← WithTop.coe_add, WithTop.coe_le_coe]
  have a : (i : ℚ) ≤ j := by exact_mod_cast hij
  have b : (l t : ℚ) ≤ l' t := by exact_mod_cast h t
  rcases max_cases 0 (l' t - j : ℚ) with ⟨e, _⟩ | ⟨e, _⟩ <;> rcases max_cases 0 (l t - i : ℚ) with ⟨e', _⟩ | ⟨e', _⟩ <;>
    rcases max_cases 0 (l' t - i : ℚ) with ⟨r, _⟩ | ⟨r, _⟩ <;> rcases max_cases 0 (l t - j : ℚ) with ⟨r', _⟩ | ⟨r', _⟩ <;>
    rw [e, e', r, r'] <;> linarith

example (l l' : Int → ℤ) (h : ∀ t, l t ≤ l' t) (inverted : Bool) := C108_one_dimension (Ex.each l) (Ex.each l')
  (Ex.each_valid l) rfl 4 rfl ⟨rfl, rfl, rfl, rfl⟩ 0 1 (by norm_num) (by norm_num) ⟨inverted, 2, none⟩ rfl (by norm_num) _ _
  (fun t h1 _ j h0 hj => ⟨⟨_, Ex.each_hit l t h1 j h0 hj⟩, ⟨_, Ex.each_hit l' t h1 j h0 hj⟩⟩)
  (fun _ _ _ => ⟨WithTop.coe_ne_top, WithTop.coe_ne_top⟩)
  (fun t _ _ j h0 _ => by
    have h0' : (0 : ℚ) ≤ j := by exact_mod_cast h0
    exact ⟨WithTop.coe_nonneg.2 (add_nonneg h0' (mul_nonneg (by norm_num) (le_max_left _ _))),
      WithTop.coe_nonneg.2 (add_nonneg h0' (mul_nonneg (by norm_num) (le_max_left _ _)))⟩)
  (fun t _ _ => ⟨Ex.each_convex (l t), Ex.each_convex (l' t)⟩) (Ex.each_busier l l' h)

/-- More servers at higher costs: that costs are larger is not enough. -/
example : ¬ Spec.Busier 4 3 (fun _ _ => ((0 : ℚ) : ECost)) fun _ j => ((j : ℚ) : ECost) := by
  intro h
  have := h 1 (by norm_num) (by norm_num) 0 1 (by norm_num) (by norm_num) (by norm_num)
  have h10 : ((1 : ℚ) : ECost) ≤ ((0 : ℚ) : ECost) := by simpa using this
  rw [WithTop.coe_le_coe] at h10
  norm_num at h10

end Soco
