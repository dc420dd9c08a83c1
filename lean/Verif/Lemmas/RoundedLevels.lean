import Verif.Lemmas.RoundedCap

/-! # Uni-dimensional graph search with rounded arithmetic: all levels -/

namespace Soco
namespace Uni.Rounded
open Prox

variable {C D : Type} [OutSuccess C] [OutFailure D]

/-- Every fine sequence can be moved into the window around a nearly optimal coarse sequence, at the price of twice its distance to
the optimum. -/
theorem near_to_window {T : Nat} {m M : ℤ} {g : Int → ℤ → ECost} {mv : ℤ → ℤ → ℚ} {alpha a b : ℚ} {xStart : ℤ} {h : ℤ}
    (G : Good T m g) (hmv : ∀ i j, alpha * mv i j = mvAB a b (j - i)) (ha : 0 ≤ a)
    (hb : 0 ≤ b) (hh : 0 < h) {xs vs : List ℤ} (hx : Feas T m M g (2 * h) xs) {E qx qv : ℚ}
    (hqx : Spec.totalCost (extCost g m) mv alpha 1 xStart xs = (qx : ECost))
    (hopt : ∀ ks (q : ℚ), OnMult T M (2 * h) ks → Spec.totalCost (extCost g m) mv alpha 1 xStart ks = (q : ECost) → qx ≤ q + E)
    (hv : OnMult T M h vs)
    (hcap : ∀ j ∈ vs, j ≤ cap m h) (hqv : Spec.totalCost (extCost g m) mv alpha 1 xStart vs = (qv : ECost)) :
    ∃ (ws : List ℤ) (qw : ℚ), OnMult T M h ws ∧
      (∀ i, (h1 : i < ws.length) → (h2 : i < xs.length) → ∃ e : ℤ, -2 ≤ e ∧ e ≤ 2 ∧
        ws[i] = xs[i] + e * h) ∧
      Spec.totalCost (extCost g m) mv alpha 1 xStart ws = (qw : ECost) ∧ qw ≤ qv + 2 * E := by
  have hvf : AllFin (extCost g m) vs := (totalCost_ne_top _ mv alpha xStart _).1 (by rw [hqv]; exact WithTop.coe_ne_top)
  obtain ⟨X, rfl⟩ := exists_mulSeq (h := h) hx.on.len
    fun j hj => dvd_trans (Dvd.intro_left _ rfl) (hx.on.dvd j hj)
  obtain ⟨V, rfl⟩ := exists_mulSeq hv.len hv.dvd
  have hXd : ∀ t < T, 2 ∣ X t := fun t ht => by
    obtain ⟨c, hc⟩ := hx.on.dvd _ (mem_mulSeq.2 ⟨t, ht, rfl⟩)
    exact ⟨c, mul_left_cancel₀ hh.ne' (by rw [hc]; ring)⟩
  have hX0 : ∀ t < T, 0 ≤ h * X t := fun t ht => hx.on.lo _ (mem_mulSeq.2 ⟨t, ht, rfl⟩)
  have hXM : ∀ t < T, h * X t ≤ M := fun t ht => hx.on.hi _ (mem_mulSeq.2 ⟨t, ht, rfl⟩)
  have hXc : ∀ t < T, h * X t ≤ cap m (2 * h) := fun t ht => hx.cap _ (mem_mulSeq.2 ⟨t, ht, rfl⟩)
  have hV0 : ∀ t < T, 0 ≤ h * V t := fun t ht => hv.lo _ (mem_mulSeq.2 ⟨t, ht, rfl⟩)
  have hVM : ∀ t < T, h * V t ≤ M := fun t ht => hv.hi _ (mem_mulSeq.2 ⟨t, ht, rfl⟩)
  have hVc : ∀ t < T, h * V t ≤ cap m h := fun t ht => hcap _ (mem_mulSeq.2 ⟨t, ht, rfl⟩)
  have hXf := allFin_mulSeq.1 hx.fin
  have hVf := allFin_mulSeq.1 hvf
  have hX0' : ∀ t < T, 0 ≤ X t := fun t ht => by
    by_contra hc
    have := mul_neg_of_pos_of_neg hh (not_le.1 hc)
    have := hX0 t ht
    omega
  have hV0' : ∀ t < T, 0 ≤ V t := fun t ht => by
    by_contra hc
    have := mul_neg_of_pos_of_neg hh (not_le.1 hc)
    have := hV0 t ht
    omega
  have mono : ∀ {p q : ℤ}, p ≤ q → h * p ≤ h * q := fun hpq => mul_le_mul_of_nonneg_left hpq hh.le
  have ex : tot T (fun t z => fT g m a b xStart t (h * z)) (a * h) (b * h) X = qx := by
    rw [totalCost_mulSeq hmv hh.le hXf] at hqx
    exact_mod_cast hqx
  have ev : tot T (fun t z => fT g m a b xStart t (h * z)) (a * h) (b * h) V = qv := by
    rw [totalCost_mulSeq hmv hh.le hVf] at hqv
    exact_mod_cast hqv
  have key : ∀ Y : Nat → ℤ, (∀ t < T, 2 ∣ Y t) → (∀ t < T, 0 ≤ Y t) → (∀ t < T, h * Y t ≤ M) →
      (∀ t < T, extCost g m ((t : Int) + 1) (h * Y t) ≠ ⊤) →
      tot T (fun t z => fT g m a b xStart t (h * z)) (a * h) (b * h) X
        ≤ tot T (fun t z => fT g m a b xStart t (h * z)) (a * h) (b * h) Y + E := by
    intro Y hd h0 hM hf
    rw [ex]
    refine hopt (mulSeq T h Y) _
      { len := mulSeq_length Y
        dvd := by
          intro j hj; obtain ⟨t, ht, rfl⟩ := mem_mulSeq.1 hj
          obtain ⟨c, hc⟩ := hd t ht
          exact ⟨c, by rw [hc]; ring⟩
        lo := by intro j hj; obtain ⟨t, ht, rfl⟩ := mem_mulSeq.1 hj; exact mul_nonneg hh.le (h0 t ht)
        hi := by intro j hj; obtain ⟨t, ht, rfl⟩ := mem_mulSeq.1 hj; exact hM t ht } (totalCost_mulSeq hmv hh.le hf)
  have main := near_clamp T (fun t z => fT g m a b xStart t (h * z)) (a * h) (b * h)
    (mul_nonneg ha (by exact_mod_cast hh.le)) (mul_nonneg hb (by exact_mod_cast hh.le)) X V E hXd
    (by
      intro t ht y J hy _ hJ hle
      have h0 := hX0' t ht
      exact fT_slope_up G ha hb hh ht hJ (h0.trans hy) ((mono hle).trans (hVc t ht))
        (G.fin_up (by omega) (by omega) (hX0 t ht) (mono hy) (hXf t ht)))
    (by
      intro t ht y J hy _ hJ hle
      refine fT_slope_down G ha hb hh ht hJ ((hV0' t ht).trans hle) ((mono hy).trans (hXc t ht)) ?_
      exact G.fin_up (by omega) (by omega) (hV0 t ht) (mono hle) (hVf t ht))
    (by
      intro Y hd hY
      refine key Y hd ?_ ?_ ?_
      all_goals
        intro t ht
        have h0 := hX0' t ht
        rcases hY t ht with h' | h'
      · omega
      · omega
      · rw [h']; exact hXM t ht
      · exact (mono h'.2.le).trans (hVM t ht)
      · rw [h']; exact hXf t ht
      · exact G.fin_up (by omega) (by omega) (hX0 t ht) (mono h'.1.le) (hXf t ht))
    (by
      intro Y hd hY
      refine key Y hd ?_ ?_ ?_
      all_goals
        intro t ht
        have h0 := hX0' t ht
        have h0' := hV0' t ht
        rcases hY t ht with h' | h'
      · omega
      · omega
      · rw [h']; exact hXM t ht
      · exact (mono h'.2.le).trans (hXM t ht)
      · rw [h']; exact hXf t ht
      · exact G.fin_up (by omega) (by omega) (hV0 t ht) (mono h'.1.le) (hVf t ht))
  rw [ev] at main
  refine ⟨mulSeq T h (fun t => max (min (V t) (X t + 2)) (X t - 2)), _, mulSeq_onMult ?_ ?_, ?_, totalCost_mulSeq hmv hh.le ?_, main⟩
  · intro t ht
    have := hX0' t ht; have := hV0' t ht
    exact mul_nonneg hh.le (by omega)
  · intro t ht
    rcases le_total (X t) (V t) with hc | hc
    · exact (mono (by omega)).trans (hVM t ht)
    · exact (mono (by omega)).trans (hXM t ht)
  · intro i h1 h2
    refine ⟨max (min (V i) (X i + 2)) (X i - 2) - X i, by omega, by omega, ?_⟩
    rw [mulSeq_get, mulSeq_get]; ring
  · intro t ht
    rcases le_total (X t) (V t) with hc | hc
    · exact G.fin_up (by omega) (by omega) (hX0 t ht) (mono (by omega)) (hXf t ht)
    · exact G.fin_up (by omega) (by omega) (hV0 t ht) (mono (by omega)) (hVf t ht)

/-- What the search is run on: `m` is the bound and `M` the power of two it is extended to; `H` and `r` are hitting costs and movements
as computed. -/
structure Setup (fl : ℚ → ℚ) (u : ℚ) (p : SSCO ℤ C D) (inverted : Bool) (T : Nat) (m M : ℤ) (g : Int → ℤ → ECost)
    (mv : ℤ → ℤ → ℚ) (H : Int → ℤ → ECost) (r : ℤ → ℤ → ℚ) (alpha a b : ℚ) (xStart : ℤ) : Prop where
  rounds : Spec.Rounds u fl
  mono : ∀ x y, 0 ≤ x → x ≤ y → fl x ≤ fl y
  alpha0 : 0 ≤ alpha
  tEnd : p.tEnd = T
  hit : ∀ t : Int, 1 ≤ t → t ≤ T → ∀ j, 0 ≤ j → j ≤ M → ∃ o, p.toProb.hitCost t [j] = .ok ⟨H t j, o⟩
  hitNear : ∀ t : Int, 1 ≤ t → t ≤ T → ∀ j, 0 ≤ j → j ≤ M → Near u 3 (H t j) (extCost g m t j)
  hitUp : ∀ t : Int, 1 ≤ t → t ≤ T → ∀ i j, m ≤ i → i < j → j ≤ M → H t i ≤ H t j
  mov0 : ∀ i j, 0 ≤ mv i j
  mov : ∀ i j, Soco.Rounded.scaledMovement fl p.switchingCost [j] [i] inverted = .ok (r i j)
  movNear : ∀ i j, (1 - u) ^ 2 * mv i j ≤ r i j ∧ r i j ≤ (1 + u) ^ 2 * mv i j
  movMono : ∀ i j i' j', mv i j ≤ mv i' j' → r i j ≤ r i' j'
  mvUp : ∀ κ s j, κ < j → mv (min s κ) κ ≤ mv s j
  mvDown : ∀ κ s j, j ≤ κ → κ < s → mv κ j ≤ mv s j
  hmv : ∀ i j, alpha * mv i j = mvAB a b (j - i)
  ha : 0 ≤ a
  hb : 0 ≤ b
  good : Good T m g
  mM : m ≤ M
  start : xStart ≤ m

/-- A path whose schedule is on the multiples of `h`, costs at most `B` and at most `E` more than any other such schedule. -/
structure Level (u : ℚ) (T : Nat) (m M : ℤ) (g : Int → ℤ → ECost) (mv : ℤ → ℤ → ℚ) (alpha : ℚ) (xStart : ℤ) (h : ℤ) (E B : ℚ)
    (P : Path) (js : List ℤ) (c q : ℚ) : Prop where
  xs : P.xs = js.map (fun j => [j])
  cost : P.cost = (c : ECost)
  feas : Feas T m M g h js
  total : Spec.totalCost (extCost g m) mv alpha 1 xStart js = (q : ECost)
  nonneg : 0 ≤ q
  low : (1 - u) ^ (T + 4) * q ≤ c
  up : c ≤ (1 + u) ^ (T + 4) * q
  bound : q ≤ B
  opt : ∀ ks (q' : ℚ), OnMult T M h ks → Spec.totalCost (extCost g m) mv alpha 1 xStart ks = (q' : ECost) → q ≤ q' + E

section
variable {fl : ℚ → ℚ} {u : ℚ} {p : SSCO ℤ C D} {inverted : Bool} {T : Nat} {m M : ℤ} {g : Int → ℤ → ECost} {mv : ℤ → ℤ → ℚ}
  {H : Int → ℤ → ECost} {r : ℤ → ℤ → ℚ}
  {alpha a b : ℚ} {xStart : ℤ} {h : ℤ} {R : Int → List ℤ} {rows : Int → Res (List ℤ)} {ρ : ℚ}

theorem near_nonneg (hR : Spec.Rounds u fl) {k : Nat} {e x : ECost} (hn : Near u k e x) : 0 ≤ e := by
  rcases hn with ⟨_, h⟩ | ⟨e', x', _, h, h0, hl, _⟩
  · rw [h]; exact le_top
  · rw [h]
    exact_mod_cast le_trans (mul_nonneg (low_pos hR k) h0) hl

theorem rows_run (S : Setup fl u p inverted T m M g mv H r alpha a b xStart) (hh : 0 < h)
    (hrows : ∀ t : Int, 1 ≤ t → t ≤ T → rows t = .ok (R t))
    (on : ∀ t : Int, 1 ≤ t → t ≤ T → ∀ j ∈ R t, h ∣ j ∧ 0 ≤ j ∧ j ≤ M)
    (capMem : ∀ t : Int, 1 ≤ t → t ≤ T → ∀ j ∈ R t, cap m h < j → cap m h ∈ R t) (sorted : ∀ t, (R t).Pairwise (· ≤ ·))
    (hρ : ∀ x y : ℚ, (1 - u) ^ (T + 4) * x ≤ (1 + u) ^ (T + 4) * y → x ≤ ρ * y)
    (hex : ∃ js : List ℤ, js.length = T ∧ RowSeq R js ∧ AllFin (extCost g m) js) :
    ∃ (P : Path) (js : List ℤ) (c q : ℚ), findSchedule fl p rows alpha inverted xStart = .ok P ∧ P.xs = js.map (fun j => [j]) ∧
      P.cost = (c : ECost) ∧ Feas T m M g h js ∧ Spec.totalCost (extCost g m) mv alpha 1 xStart js = (q : ECost) ∧ 0 ≤ q ∧
      (1 - u) ^ (T + 4) * q ≤ c ∧ c ≤ (1 + u) ^ (T + 4) * q ∧
      ∀ (ks : List ℤ) (q' : ℚ), ks.length = T → RowSeq R ks → Spec.totalCost (extCost g m) mv alpha 1 xStart ks = (q' : ECost) →
        q ≤ ρ * q' := by
  obtain ⟨ys, y1, y2, y3⟩ := hex
  have ev : Evals fl u p alpha inverted R (extCost g m) mv :=
    { rounds := S.rounds
      alpha := S.alpha0
      hit := fun t h1 h2 j hj => by
        rw [S.tEnd] at h2
        obtain ⟨_, h3, h4⟩ := on t h1 h2 j hj
        obtain ⟨o, ho⟩ := S.hit t h1 h2 j h3 h4
        exact ⟨_, o, ho, S.hitNear t h1 h2 j h3 h4⟩
      mov0 := S.mov0
      mov := fun i j => ⟨_, S.mov i j, S.movNear i j⟩ }
  have K : Caps fl p alpha inverted R xStart (cap m h) H r :=
    { mono := S.mono
      fl0 := fun x hx => fl_nonneg S.rounds hx
      alpha0 := S.alpha0
      hit := fun t h1 h2 j hj => by
        rw [S.tEnd] at h2
        obtain ⟨_, h3, h4⟩ := on t h1 h2 j hj
        exact S.hit t h1 h2 j h3 h4
      hit0 := fun t h1 h2 j hj => by
        rw [S.tEnd] at h2
        obtain ⟨_, h3, h4⟩ := on t h1 h2 j hj
        exact near_nonneg S.rounds (S.hitNear t h1 h2 j h3 h4)
      hitUp := fun t h1 h2 j hj hlt => by
        rw [S.tEnd] at h2
        obtain ⟨_, h3, h4⟩ := on t h1 h2 j hj
        exact ⟨capMem t h1 h2 j hj hlt, S.hitUp t h1 h2 _ _ (le_cap hh) hlt h4⟩
      mov := S.mov
      mov0 := fun i j => le_trans (mul_nonneg (low_pos S.rounds 2) (S.mov0 i j)) (S.movNear i j).1
      movUp := fun s j hj => S.movMono _ _ _ _ (S.mvUp _ s j hj)
      movDown := fun s j hj hs => S.movMono _ _ _ _ (S.mvDown _ s j hj hs)
      sorted := sorted
      start := S.start.trans (le_cap hh) }
  have hT : p.tEnd.toNat = T := by rw [S.tEnd]; simp
  have hrows' : ∀ t : Int, 1 ≤ t → t ≤ p.tEnd → rows t = .ok (R t) := fun t h1 h2 => hrows t h1 (by rw [← S.tEnd]; exact h2)
  obtain ⟨P, js, c, q, h1, h2, h3, h4, h5, h6, h7, h8, h9⟩ := findSchedule_ok (rows := rows) (xStart := xStart) ev
    (by rw [S.tEnd]; omega) hrows'
    ⟨ys, by rw [S.tEnd, y1], y2, (totalCost_ne_top _ _ _ _ _).2 y3⟩
  have hcap := findSchedule_capped K (by rw [S.tEnd]; omega) hrows' (fun t h1 h2 => by
    rw [S.tEnd] at h2
    have := y2 (t - 1).toNat (by omega)
    rw [show (((t - 1).toNat : Nat) : Int) + 1 = t by omega] at this
    exact List.ne_nil_of_mem this) h1 (by rw [h5]; exact WithTop.coe_ne_top)
  rw [hT, S.tEnd] at *
  have hl : js.length = T := by omega
  refine ⟨P, js, c, q, h1, h4, h5, ⟨rowSeq_onMult hl h3 on, fun j hj => ?_, ?_⟩, h6, h7, h8, h9 js q (by omega) h3 h6, ?_⟩
  · obtain ⟨j', hj', e⟩ := hcap [j] (by rw [h4]; exact List.mem_map.2 ⟨j, hj, rfl⟩)
    have : j = j' := by simpa using e
    omega
  · exact (totalCost_ne_top _ mv alpha xStart _).1 (by rw [h6]; exact WithTop.coe_ne_top)
  · intro ks q' k1 k2 k3
    exact hρ _ _ (h8.trans (h9 ks q' (by omega) k2 k3))

/-- The first run. -/
theorem base_level (S : Setup fl u p inverted T m M g mv H r alpha a b xStart) (hh : 0 < h) (hM : h ∣ M)
    {Ls : List ℤ} (hL : ∀ j, j ∈ Ls ↔ h ∣ j ∧ 0 ≤ j ∧ j ≤ M) (hsort : Ls.Pairwise (· ≤ ·)) (hρ1 : 1 ≤ ρ)
    (hρ : ∀ x y : ℚ, (1 - u) ^ (T + 4) * x ≤ (1 + u) ^ (T + 4) * y → x ≤ ρ * y)
    {zs : List ℤ} {B : ℚ} (hz : OnMult T M h zs) (hB : Spec.totalCost (extCost g m) mv alpha 1 xStart zs = (B : ECost)) :
    ∃ P js c q, findSchedule fl p (fun _ => .ok Ls) alpha inverted xStart = .ok P ∧
      Level u T m M g mv alpha xStart h ((ρ - 1) * B) (ρ * B) P js c q := by
  have hm := S.good.hm
  have hon : ∀ ks, OnMult T M h ks → RowSeq (fun _ => Ls) ks := fun ks hk i hi => by
    have hm := List.getElem_mem hi
    exact (hL _).2 ⟨hk.dvd _ hm, hk.lo _ hm, hk.hi _ hm⟩
  obtain ⟨P, js, c, q, h1, h2, h3, h4, h5, h6, h7, h8, h9⟩ := rows_run (xStart := xStart) (rows := fun _ => .ok Ls) (R := fun _ => Ls) S hh
    (fun _ _ _ => rfl) (fun _ _ _ j hj => (hL j).1 hj)
    (fun _ _ _ j _ hj => (hL _).2 ⟨dvd_cap, by have := le_cap (m := m) hh; omega, cap_le hh hM S.mM⟩) (fun _ => hsort) hρ
    ⟨zs, hz.len, hon zs hz, (totalCost_ne_top _ mv alpha xStart _).1 (by rw [hB]; exact WithTop.coe_ne_top)⟩
  have hqB := h9 zs B hz.len (hon zs hz) hB
  refine ⟨P, js, c, q, h1, h2, h3, h4, h5, h6, h7, h8, hqB, ?_⟩
  intro ks q' hk hq'
  have := h9 ks q' hk.len (hon ks hk) hq'
  rcases le_total q' B with hc | hc
  · nlinarith
  · nlinarith

theorem step_level (S : Setup fl u p inverted T m M g mv H r alpha a b xStart) (k : Nat) (hρ1 : 1 ≤ ρ)
    (hρ : ∀ x y : ℚ, (1 - u) ^ (T + 4) * x ≤ (1 + u) ^ (T + 4) * y → x ≤ ρ * y)
    {E B : ℚ} {P : Path} {xs : List ℤ} {c q : ℚ} (L : Level u T m M g mv alpha xStart (2 ^ (k + 1)) E B P xs c q) :
    ∃ P' js' c' q', findSchedule fl p (nextRows M P.xs k) alpha inverted xStart = .ok P' ∧
      Level u T m M g mv alpha xStart (2 ^ k) (2 * E + (ρ - 1) * B) (ρ * B) P' js' c' q' := by
  have hm := S.good.hm
  have hh : (0 : ℤ) < 2 ^ k := by positivity
  have e2 : (2 : ℤ) ^ (k + 1) = 2 * 2 ^ k := by rw [pow_succ]; ring
  rw [L.xs]
  have hx := L.feas
  have hopt := L.opt
  rw [e2] at hx hopt
  generalize hhdef : (2 : ℤ) ^ k = h at *
  have hget : ∀ t : Int, 1 ≤ t → t ≤ T → xs.getD (t.toNat - 1) 0 ∈ xs := by
    intro t h1 h2
    have := hx.on.len
    have hlt : t.toNat - 1 < xs.length := by omega
    rw [List.getD, List.getElem?_eq_getElem hlt]
    exact List.getElem_mem hlt
  have hself : RowSeq (windowRows M xs h) xs := by
    intro i hi
    have hm := List.getElem_mem hi
    refine mem_windowRows.2 ⟨⟨0, by omega, by omega, ?_⟩, hx.on.lo _ hm, hx.on.hi _ hm⟩
    rw [show ((i : Int) + 1).toNat - 1 = i by omega, List.getD, List.getElem?_eq_getElem hi]
    simp
  obtain ⟨P', js, c', q', h1, h2, h3, h4, h5, h6, h7, h8, h9⟩ := rows_run (xStart := xStart)
    (rows := nextRows M (xs.map fun j => [j]) k) (R := windowRows M xs h) (h := h) S hh
    (fun t h1 h2 => by rw [nextRows_eq h1 (by rw [hx.on.len]; exact h2), hhdef])
    (fun t h1 h2 j hj => by
      obtain ⟨⟨e, _, _, rfl⟩, h3, h4⟩ := mem_windowRows.1 hj
      refine ⟨dvd_add ?_ (dvd_mul_left _ _), h3, h4⟩
      exact dvd_trans (Dvd.intro_left _ rfl) (hx.on.dvd _ (hget t h1 h2)))
    (fun t h1 h2 j hj hlt => by
      obtain ⟨⟨e, e1, e2, rfl⟩, h3, h4⟩ := mem_windowRows.1 hj
      have hxc := hx.cap _ (hget t h1 h2)
      obtain ⟨c, hc⟩ := hx.on.dvd _ (hget t h1 h2)
      obtain ⟨d, hd⟩ := dvd_cap (m := m) (h := h)
      have h5 := cap_two (m := m) hh
      have h6 := le_cap (m := m) hh
      refine mem_windowRows.2 ⟨⟨d - 2 * c, ?_, ?_, ?_⟩, by omega, by omega⟩
      · rw [hc] at hxc
        rw [hd] at h5
        have : h * (2 * c) ≤ h * (d + 1) := by nlinarith
        have := le_of_mul_le_mul_left this hh
        omega
      · rw [hc, hd] at hlt
        have : h * d < h * (2 * c + e) := by nlinarith
        have := lt_of_mul_lt_mul_left this hh.le
        omega
      · rw [hc, hd]; ring) (windowRows_sorted hh xs) hρ
    ⟨xs, hx.on.len, hself, hx.fin⟩
  have hqq := h9 xs q hx.on.len hself L.total
  have hB := L.bound
  have hq0 := L.nonneg
  refine ⟨P', js, c', q', h1, h2, h3, h4, h5, h6, h7, h8, by nlinarith, ?_⟩
  intro ks qk hk hqk
  have hcl := (totalCost_clamp (mv := mv) S.hmv S.ha S.hb hm S.good.fin (fun t h1 h2 => S.good.nonneg t h1 h2 m (by omega) le_rfl)
    (c := cap m h) (le_cap hh) (S.start.trans (le_cap hh)) ks hk.len.le).1
  rw [hqk] at hcl
  rcases ecases (Spec.totalCost (extCost g m) mv alpha 1 xStart (ks.map (min · (cap m h)))) with ht | ⟨qv, hqv⟩
  · rw [ht, top_le_iff] at hcl; cases hcl
  rw [hqv, WithTop.coe_le_coe] at hcl
  obtain ⟨ws, qw, w1, w2, w3, w4⟩ := near_to_window (vs := ks.map (min · (cap m h))) S.good S.hmv S.ha S.hb hh hx L.total hopt
    (onMult_cap hm hh hk)
    (fun j hj => by
      obtain ⟨i, hi, rfl⟩ := List.mem_map.1 hj
      exact min_le_right _ _) hqv
  have hw : RowSeq (windowRows M xs h) ws := fun i hi => by
    have hi' : i < xs.length := by rw [hx.on.len, ← w1.len]; exact hi
    obtain ⟨e, e1, e2, e3⟩ := w2 i hi hi'
    refine mem_windowRows.2 ⟨⟨e, e1, e2, ?_⟩, w1.lo _ (List.getElem_mem hi), w1.hi _ (List.getElem_mem hi)⟩
    rw [e3, show ((i : Int) + 1).toNat - 1 = i by omega, List.getD, List.getElem?_eq_getElem hi']
    rfl
  have hqw := h9 ws qw w1.len hw w3
  have : (ρ - 1) * q ≤ (ρ - 1) * B := mul_le_mul_of_nonneg_left hB (by linarith)
  rcases le_total qw q with hc | hc
  · nlinarith
  · nlinarith

theorem loop_levels (S : Setup fl u p inverted T m M g mv H r alpha a b xStart) (hρ1 : 1 ≤ ρ)
    (hρ : ∀ x y : ℚ, (1 - u) ^ (T + 4) * x ≤ (1 + u) ^ (T + 4) * y → x ≤ ρ * y) {B : ℚ} :
    ∀ (n i : Nat) (P : Path) (js : List ℤ) (c q : ℚ),
      Level u T m M g mv alpha xStart (2 ^ n) ((ρ - 1) * ρ ^ i * (2 ^ (i + 1) - 1) * B) (ρ ^ (i + 1) * B) P js c q →
      ∃ P' js' c' q', (List.range n).reverse.foldlM
          (fun path k => findSchedule fl p (nextRows M path.xs k) alpha inverted xStart) P = .ok P' ∧
        Level u T m M g mv alpha xStart 1 ((ρ - 1) * ρ ^ (i + n) * (2 ^ (i + n + 1) - 1) * B) (ρ ^ (i + n + 1) * B) P' js' c' q' := by
  intro n
  induction n with
  | zero =>
    intro i P js c q L
    exact ⟨P, js, c, q, rfl, by simpa using L⟩
  | succ n ih =>
    intro i P js c q L
    obtain ⟨P1, js1, c1, q1, a1, a2⟩ := step_level S n hρ1 hρ L
    have e1 : 2 * ((ρ - 1) * ρ ^ i * (2 ^ (i + 1) - 1) * B) + (ρ - 1) * (ρ ^ (i + 1) * B)
        ≤ (ρ - 1) * ρ ^ (i + 1) * (2 ^ (i + 1 + 1) - 1) * B := by
      have hB : 0 ≤ B := by
        have := L.nonneg.trans L.bound
        exact nonneg_of_mul_nonneg_right this (by positivity)
      have h1 : 0 ≤ (ρ - 1) * ρ ^ i * (2 ^ (i + 1) - 1) * B := by
        have : (1 : ℚ) ≤ 2 ^ (i + 1) := one_le_pow₀ (by norm_num)
        have : 0 ≤ ρ ^ i := by positivity
        exact mul_nonneg (mul_nonneg (mul_nonneg (by linarith) this) (by linarith)) hB
      have h2 := mul_le_mul_of_nonneg_left hρ1 h1
      have h3 : (ρ - 1) * ρ ^ (i + 1) * (2 ^ (i + 1 + 1) - 1) * B
          = 2 * ((ρ - 1) * ρ ^ i * (2 ^ (i + 1) - 1) * B * ρ) + (ρ - 1) * (ρ ^ (i + 1) * B) := by ring
      rw [h3]
      linarith
    have a3 : Level u T m M g mv alpha xStart (2 ^ n) ((ρ - 1) * ρ ^ (i + 1) * (2 ^ (i + 1 + 1) - 1) * B) (ρ ^ (i + 1 + 1) * B)
        P1 js1 c1 q1 :=
      { a2 with
        bound := by
          have := a2.bound
          calc q1 ≤ ρ * (ρ ^ (i + 1) * B) := this
            _ = _ := by ring
        opt := fun ks q' hk hq' => by
          have := a2.opt ks q' hk hq'
          linarith }
    obtain ⟨P2, js2, c2, q2, b1, b2⟩ := ih (i + 1) P1 js1 c1 q1 a3
    refine ⟨P2, js2, c2, q2, ?_, ?_⟩
    · rw [List.range_succ, List.reverse_append, List.reverse_singleton, List.singleton_append,
        Multi.foldlM_cons', a1]
      exact b1
    · rw [show i + (n + 1) = i + 1 + n by ring]
      exact b2

theorem kInit_pow (n : Nat) : kInit (2 ^ n) ≤ n ∧ 2 ^ kInit (2 ^ n) ∣ (2 : ℤ) ^ n ∧ (kInit (2 ^ n) = 0 ∨ kInit (2 ^ n) + 2 = n) := by
  have e : ((2 : ℤ) ^ n).toNat = 2 ^ n := by
    rw [show ((2 : ℤ) ^ n) = ((2 ^ n : Nat) : ℤ) by push_cast; rfl]; exact Int.toNat_natCast _
  have h : kInit (2 ^ n) = 0 ∨ kInit (2 ^ n) = n - 2 := by
    unfold kInit
    rw [e, Nat.log_pow (by omega)]
    split_ifs
    · right; rfl
    · left; rfl
  have h1 : kInit (2 ^ n) ≤ n := by omega
  exact ⟨h1, pow_dvd_pow 2 h1, by omega⟩

theorem search_level {n : Nat} (S : Setup fl u p inverted T m (2 ^ n) g mv H r alpha a b xStart) (hρ1 : 1 ≤ ρ)
    (hρ : ∀ x y : ℚ, (1 - u) ^ (T + 4) * x ≤ (1 + u) ^ (T + 4) * y → x ≤ ρ * y) {zs : List ℤ} {B : ℚ}
    (hz : OnMult T (2 ^ n) (2 ^ kInit (2 ^ n)) zs)
    (hB : Spec.totalCost (extCost g m) mv alpha 1 xStart zs = (B : ECost)) :
    ∃ P js c q, search fl p (2 ^ n) alpha inverted xStart = .ok P ∧
      Level u T m (2 ^ n) g mv alpha xStart 1 ((ρ - 1) * ρ ^ kInit (2 ^ n) * (2 ^ (kInit (2 ^ n) + 1) - 1) * B)
        (ρ ^ (kInit (2 ^ n) + 1) * B) P js c q := by
  have hk : kInit (2 ^ n) ≤ n := (kInit_pow n).1
  obtain ⟨P, js, c, q, h1, h2⟩ := base_level S (h := 2 ^ kInit (2 ^ n)) (by positivity) (pow_dvd_pow 2 hk) (mem_initialRows n) (initialRows_sorted (by positivity))
    hρ1 hρ hz hB
  obtain ⟨P', js', c', q', b1, b2⟩ := loop_levels S hρ1 hρ (B := B) (kInit (2 ^ n)) 0 P js c q (by
    have e1 : (ρ - 1) * ρ ^ 0 * (2 ^ (0 + 1) - 1) * B = (ρ - 1) * B := by norm_num
    have e2 : ρ ^ (0 + 1) * B = ρ * B := by norm_num
    rw [e1, e2]
    exact h2)
  refine ⟨P', js', c', q', ?_, by simpa using b2⟩
  simp only [search, h1, bind, Except.bind]
  exact b1

end

end Uni.Rounded
end Soco
