import Verif.Lemmas.UniStep
import Mathlib.Data.Nat.Log

/-! # Uni-dimensional graph search: all levels -/

namespace Soco
namespace Uni
open Prox

variable {C D : Type} [OutSuccess C] [OutFailure D]

/-- What the search is run on: `p` evaluates to the extension of `g` beyond `m`, up to `M`. -/
structure Setup (p : SSCO ℤ C D) (inverted : Bool) (T : Nat) (m M : ℤ) (g : Int → ℤ → ECost)
    (mv : ℤ → ℤ → ℚ) (alpha a b : ℚ) (xStart : ℤ) : Prop where
  tEnd : p.tEnd = T
  hit : ∀ t : Int, 1 ≤ t → t ≤ T → ∀ j, 0 ≤ j → j ≤ M → ∃ o, p.toProb.hitCost t [j] = .ok ⟨extCost g m t j, o⟩
  mov : ∀ i j, p.toProb.movement [i] [j] inverted = .ok (mv i j)
  hmv : ∀ i j, alpha * mv i j = mvAB a b (j - i)
  ha : 0 ≤ a
  hb : 0 ≤ b
  hm : 1 ≤ m
  mM : m ≤ M
  fin : ∀ t : Int, 1 ≤ t → t ≤ T → g t m ≠ ⊤
  nonneg : ∀ t : Int, 1 ≤ t → t ≤ T → 0 ≤ g t m
  start : xStart ≤ m

section
variable {p : SSCO ℤ C D} {inverted : Bool} {T : Nat} {m M : ℤ} {g : Int → ℤ → ECost} {mv : ℤ → ℤ → ℚ}
  {alpha a b : ℚ} {xStart : ℤ} {h : ℤ} {R : Int → List ℤ} {rows : Int → Res (List ℤ)}

theorem par_of_mvAB (hmv : ∀ i j, alpha * mv i j = mvAB a b (j - i)) (ha : 0 ≤ a) (hb : 0 ≤ b) :
    Low.Par mv alpha := by
  intro i i' j j'
  simp only [hmv, mvAB]
  have h1 : max 0 (min j j' - min i i') + max 0 (max j j' - max i i') ≤ max 0 (j - i) + max 0 (j' - i') := by
    omega
  have h2 : max 0 (-(min j j' - min i i')) + max 0 (-(max j j' - max i i'))
      ≤ max 0 (-(j - i)) + max 0 (-(j' - i')) := by
    omega
  have h1' := mul_le_mul_of_nonneg_left (Int.cast_le (R := ℚ) |>.2 h1) ha
  have h2' := mul_le_mul_of_nonneg_left (Int.cast_le (R := ℚ) |>.2 h2) hb
  rw [Int.cast_add, Int.cast_add] at h1' h2'
  linarith

theorem rowSeq_map {f : ℤ → ℤ} {js : List ℤ} (hjs : RowSeq R js)
    (hf : ∀ t : Int, 1 ≤ t → t ≤ js.length → ∀ j ∈ R t, f j ∈ R t) : RowSeq R (js.map f) := by
  intro i hi
  rw [List.getElem_map]
  simp only [List.length_map] at hi
  exact hf _ (by omega) (by omega) _ (hjs i hi)

theorem rowSeq_onMult {js : List ℤ} (hl : js.length = T) (hjs : RowSeq R js)
    (on : ∀ t : Int, 1 ≤ t → t ≤ T → ∀ j ∈ R t, h ∣ j ∧ 0 ≤ j ∧ j ≤ M) : OnMult T M h js := by
  have key : ∀ j ∈ js, h ∣ j ∧ 0 ≤ j ∧ j ≤ M := by
    intro j hj
    obtain ⟨i, hi, rfl⟩ := List.getElem_of_mem hj
    exact on _ (by omega) (by omega) _ (hjs i hi)
  exact ⟨hl, fun j hj => (key j hj).1, fun j hj => (key j hj).2.1, fun j hj => (key j hj).2.2⟩

/-- One run of `find_schedule`. -/
theorem rows_feas (S : Setup p inverted T m M g mv alpha a b xStart) (hh : 0 < h)
    (hrows : ∀ t : Int, 1 ≤ t → t ≤ T → rows t = .ok (R t))
    (on : ∀ t : Int, 1 ≤ t → t ≤ T → ∀ j ∈ R t, h ∣ j ∧ 0 ≤ j ∧ j ≤ M)
    (capMem : ∀ t : Int, 1 ≤ t → t ≤ T → ∀ j ∈ R t, cap m h < j → cap m h ∈ R t)
    (hex : ∃ js : List ℤ, js.length = T ∧ RowSeq R js ∧ AllFin (extCost g m) js) :
    ∃ P js, findSchedule p rows alpha inverted xStart = .ok P ∧ P.xs = js.map (fun j => [j]) ∧
      P.cost = Spec.totalCost (extCost g m) mv alpha 1 xStart js ∧ Feas T m M g h js ∧
      (∀ ks : List ℤ, ks.length = T → RowSeq R ks →
        Spec.totalCost (extCost g m) mv alpha 1 xStart js
          ≤ Spec.totalCost (extCost g m) mv alpha 1 xStart ks) ∧
      ((∀ t, (R t).Pairwise (· ≤ ·)) → ∀ ks : List ℤ, ks.length = T → RowSeq R ks →
        Spec.totalCost (extCost g m) mv alpha 1 xStart ks
          ≤ Spec.totalCost (extCost g m) mv alpha 1 xStart js → Low.Below js ks) := by
  obtain ⟨ys, y1, y2, y3⟩ := hex
  have ev : Evals p inverted R (extCost g m) mv :=
    { hit := fun t h1 h2 j hj => by
        rw [S.tEnd] at h2
        exact S.hit t h1 h2 j (on t h1 h2 j hj).2.1 (on t h1 h2 j hj).2.2
      mov := S.mov }
  obtain ⟨P, hP, hsound, hopt⟩ := findSchedule_ok (rows := rows) (alpha := alpha) (xStart := xStart) ev
    (by rw [S.tEnd]; omega) (fun t h1 h2 => hrows t h1 (by rw [← S.tEnd]; exact h2))
    (fun t h1 h2 => by
      rw [S.tEnd] at h2
      have := y2 (t - 1).toNat (by omega)
      rw [show (((t - 1).toNat : Nat) : Int) + 1 = t by omega] at this
      exact List.ne_nil_of_mem this)
  rw [S.tEnd] at hsound hopt
  have hfin : P.cost ≠ ⊤ := by
    intro hc
    have := hopt ys (by omega) y2
    rw [hc, top_le_iff] at this
    exact (totalCost_ne_top _ _ _ _ _).2 y3 this
  rcases hsound with ⟨hc, _⟩ | ⟨js, j1, j2, j3, j4, _, j6⟩
  · exact absurd hc hfin
  have hl : js.length = T := by omega
  have jf : AllFin (extCost g m) js := (totalCost_ne_top _ mv alpha xStart _).1 (j4 ▸ hfin)
  refine ⟨P, js, hP, j3, j4, ⟨rowSeq_onMult hl j2 on, ?_, jf⟩, fun ks k1 k2 => j4 ▸ hopt ks (by omega) k2,
    fun hR ks k1 k2 k3 => j6 hR (par_of_mvAB S.hmv S.ha S.hb) ks (by omega) k2 (j4 ▸ k3)⟩
  by_contra hc
  push Not at hc
  obtain ⟨_, hlt⟩ := totalCost_clamp S.hmv S.ha S.hb S.hm S.fin S.nonneg (c := cap m h) (le_cap hh)
    (S.start.trans (le_cap hh)) js hl.le
  have h1 := hlt jf hc
  have h2 := hopt (js.map (min · (cap m h))) (by simp [hl]) (rowSeq_map j2 fun t h1 h2 j hj => by
    rcases le_or_gt j (cap m h) with h' | h'
    · rw [min_eq_left h']; exact hj
    · rw [min_eq_right h'.le]; exact capMem t h1 (by omega) j hj h')
  rw [j4] at h2
  exact absurd h1 (not_lt.2 h2)

/-- The first run, over all multiples of `h`. -/
theorem base_feas (S : Setup p inverted T m M g mv alpha a b xStart) (hh : 0 < h) (hM : h ∣ M)
    {Ls : List ℤ} (hL : ∀ j, j ∈ Ls ↔ h ∣ j ∧ 0 ≤ j ∧ j ≤ M) (hsort : Ls.Pairwise (· ≤ ·)) :
    ∃ P js, findSchedule p (fun _ => .ok Ls) alpha inverted xStart = .ok P ∧
      P.xs = js.map (fun j => [j]) ∧
      P.cost = Spec.totalCost (extCost g m) mv alpha 1 xStart js ∧ Feas T m M g h js ∧
      OptAt T m M g mv alpha xStart h js ∧ LowAt T m M g mv alpha xStart h js := by
  have hm := S.hm
  have hmM := S.mM
  obtain ⟨P, js, h1, h2, h3, h4, h5, h6⟩ := rows_feas (rows := fun _ => .ok Ls) (R := fun _ => Ls) S hh
    (fun _ _ _ => rfl) (fun _ _ _ j hj => (hL j).1 hj)
    (fun _ _ _ j _ hj => (hL _).2 ⟨dvd_cap, by have := le_cap (m := m) hh; omega, cap_le hh hM hmM⟩)
    ⟨List.replicate T M, by simp, fun i hi => by
      rw [List.getElem_replicate]; exact (hL M).2 ⟨hM, by omega, le_rfl⟩, fun i hi => by
      rw [List.getElem_replicate]
      rw [List.length_replicate] at hi
      have hf := S.fin ((i : Int) + 1) (by omega) (by omega)
      rcases eq_or_lt_of_le hmM with h | h
      · rw [← h, ext_le le_rfl]; exact hf
      · obtain ⟨c, hc⟩ := WithTop.ne_top_iff_exists.1 hf
        rw [ext_top hc.symm h]; exact WithTop.coe_ne_top⟩
  refine ⟨P, js, h1, h2, h3, h4, fun ks hk => h5 ks hk.len fun i hi => ?_,
    fun ks hk hc => h6 (fun _ => hsort) ks hk.len (fun i hi => ?_) hc⟩
  all_goals
    have hm := List.getElem_mem hi
    exact (hL _).2 ⟨hk.dvd _ hm, hk.lo _ hm, hk.hi _ hm⟩

/-- The rows of the window around a sequence. -/
def windowRows (M : ℤ) (xs : List ℤ) (h : ℤ) (t : Int) : List ℤ :=
  (([-2, -1, 0, 1, 2].map fun e : ℤ => xs.getD (t.toNat - 1) 0 + e * h).filter
    fun j => decide (0 ≤ j) && decide (j ≤ M))

theorem mem_windowRows {xs : List ℤ} {t : Int} {j : ℤ} :
    j ∈ windowRows M xs h t ↔ (∃ e : ℤ, -2 ≤ e ∧ e ≤ 2 ∧ j = xs.getD (t.toNat - 1) 0 + e * h) ∧ 0 ≤ j ∧ j ≤ M := by
  unfold windowRows
  rw [List.mem_filter]
  simp only [List.mem_map, Bool.and_eq_true, decide_eq_true_eq]
  constructor
  · rintro ⟨⟨e, he, rfl⟩, h1⟩
    simp at he
    exact ⟨⟨e, by omega, by omega, rfl⟩, h1⟩
  · rintro ⟨⟨e, h2, h3, rfl⟩, h1⟩
    refine ⟨⟨e, ?_, rfl⟩, h1⟩
    simp; omega

theorem windowRows_sorted (hh : 0 < h) (xs : List ℤ) (t : Int) : (windowRows M xs h t).Pairwise (· ≤ ·) := by
  unfold windowRows
  refine List.Pairwise.filter _ ?_
  simp only [List.map_cons, List.map_nil, List.pairwise_cons, List.mem_cons, List.not_mem_nil, or_false,
    forall_eq_or_imp, forall_eq, List.Pairwise.nil, and_true, IsEmpty.forall_iff, implies_true]
  refine ⟨⟨?_, ?_, ?_, ?_⟩, ⟨?_, ?_, ?_⟩, ⟨?_, ?_⟩, ?_⟩ <;> linarith

theorem nextRows_eq {xs : List ℤ} {k : Nat} {t : Int} (h1 : 1 ≤ t) (h2 : t ≤ xs.length) :
    nextRows M (xs.map fun j => [j]) k t = .ok (windowRows M xs (2 ^ k) t) := by
  have hlt : t.toNat - 1 < xs.length := by omega
  simp [nextRows, idx, hlt, windowRows, bind, Except.bind, List.getD]

theorem onMult_cap (hm : 1 ≤ m) (hh : 0 < h) {ks : List ℤ} (hk : OnMult T M h ks) :
    OnMult T M h (ks.map (min · (cap m h))) where
  len := by rw [List.length_map, hk.len]
  dvd := by
    intro j hj
    obtain ⟨i, hi, rfl⟩ := List.mem_map.1 hj
    rcases min_choice i (cap m h) with e | e <;> rw [e]
    · exact hk.dvd i hi
    · exact dvd_cap
  lo := by
    intro j hj
    obtain ⟨i, hi, rfl⟩ := List.mem_map.1 hj
    have := hk.lo i hi; have := le_cap (m := m) hh; omega
  hi := by
    intro j hj
    obtain ⟨i, hi, rfl⟩ := List.mem_map.1 hj
    have := hk.hi i hi; omega

theorem step_feas (S : Setup p inverted T m M g mv alpha a b xStart) (k : Nat) (hM : (2 : ℤ) ^ k ∣ M)
    {xs : List ℤ} (hx : Feas T m M g (2 ^ (k + 1)) xs) :
    ∃ P js, findSchedule p (nextRows M (xs.map fun j => [j]) k) alpha inverted xStart = .ok P ∧
      P.xs = js.map (fun j => [j]) ∧
      P.cost = Spec.totalCost (extCost g m) mv alpha 1 xStart js ∧ Feas T m M g (2 ^ k) js ∧
      (Good T m g → OptAt T m M g mv alpha xStart (2 ^ (k + 1)) xs →
        OptAt T m M g mv alpha xStart (2 ^ k) js ∧ (LowAt T m M g mv alpha xStart (2 ^ (k + 1)) xs →
          LowAt T m M g mv alpha xStart (2 ^ k) js)) := by
  have hh : (0 : ℤ) < 2 ^ k := by positivity
  have e2 : (2 : ℤ) ^ (k + 1) = 2 * 2 ^ k := by rw [pow_succ]; ring
  rw [e2] at hx ⊢
  generalize hhdef : (2 : ℤ) ^ k = h at *
  have hm := S.hm
  have hmM := S.mM
  have hget : ∀ t : Int, 1 ≤ t → t ≤ T → xs.getD (t.toNat - 1) 0 ∈ xs := by
    intro t h1 h2
    have := hx.on.len
    have hlt : t.toNat - 1 < xs.length := by omega
    rw [List.getD, List.getElem?_eq_getElem hlt]
    exact List.getElem_mem hlt
  have hself : RowSeq (windowRows M xs h) xs := by
    intro i hi
    have hm := List.getElem_mem hi
    refine mem_windowRows.2 ⟨⟨0, by omega, by omega, ?_⟩, hx.on.lo _ hm, hx.on.hi _ hm⟩
    rw [show ((i : Int) + 1).toNat - 1 = i by omega, List.getD, List.getElem?_eq_getElem hi]
    simp
  obtain ⟨P, js, h1, h2, h3, h4, h5, h6⟩ := rows_feas (rows := nextRows M (xs.map fun j => [j]) k)
    (R := windowRows M xs h) (h := h) S hh
    (fun t h1 h2 => by rw [nextRows_eq h1 (by rw [hx.on.len]; exact h2), hhdef])
    (fun t h1 h2 j hj => by
      obtain ⟨⟨e, _, _, rfl⟩, h3, h4⟩ := mem_windowRows.1 hj
      refine ⟨dvd_add ?_ (dvd_mul_left _ _), h3, h4⟩
      exact dvd_trans (Dvd.intro_left _ rfl) (hx.on.dvd _ (hget t h1 h2)))
    (fun t h1 h2 j hj hlt => by
      obtain ⟨⟨e, e1, e2, rfl⟩, h3, h4⟩ := mem_windowRows.1 hj
      have hxc := hx.cap _ (hget t h1 h2)
      obtain ⟨c, hc⟩ := hx.on.dvd _ (hget t h1 h2)
      obtain ⟨d, hd⟩ := dvd_cap (m := m) (h := h)
      have h5 := cap_two (m := m) hh
      have h6 := le_cap (m := m) hh
      refine mem_windowRows.2 ⟨⟨d - 2 * c, ?_, ?_, ?_⟩, by omega, by omega⟩
      · rw [hc] at hxc
        rw [hd] at h5
        have : h * (2 * c) ≤ h * (d + 1) := by nlinarith
        have := le_of_mul_le_mul_left this hh
        omega
      · rw [hc, hd] at hlt
        have : h * d < h * (2 * c + e) := by nlinarith
        have := lt_of_mul_lt_mul_left this hh.le
        omega
      · rw [hc, hd]; ring)
    ⟨xs, hx.on.len, hself, hx.fin⟩
  -- every fine sequence has a cheaper one in the window
  have hwin : Good T m g → OptAt T m M g mv alpha xStart (2 * h) xs → ∀ ks, OnMult T M h ks →
      AllFin (extCost g m) (ks.map (min · (cap m h))) → ∃ ws : List ℤ, ws.length = T ∧
        RowSeq (windowRows M xs h) ws ∧ Spec.totalCost (extCost g m) mv alpha 1 xStart ws
          ≤ Spec.totalCost (extCost g m) mv alpha 1 xStart ks ∧
        ∀ i, (h1 : i < ws.length) → (h2 : i < xs.length) → (h3 : i < (ks.map (min · (cap m h))).length) →
          xs[i] - 2 * h ≤ (ks.map (min · (cap m h)))[i] → ws[i] ≤ (ks.map (min · (cap m h)))[i] := by
    intro G hopt ks hk hfin
    have hcl := (totalCost_clamp (mv := mv) S.hmv S.ha S.hb S.hm S.fin S.nonneg (c := cap m h) (le_cap hh)
      (S.start.trans (le_cap hh)) ks hk.len.le).1
    obtain ⟨ws, w1, w2, w3, w4⟩ := to_window (vs := ks.map (min · (cap m h))) G S.hmv S.ha S.hb hh hx hopt
      (onMult_cap hm hh hk)
      (by
        intro j hj
        obtain ⟨i, hi, rfl⟩ := List.mem_map.1 hj
        exact min_le_right _ _) hfin
    refine ⟨ws, w1.len, fun i hi => ?_, w3.trans hcl, w4⟩
    have hi' : i < xs.length := by rw [hx.on.len, ← w1.len]; exact hi
    obtain ⟨e, e1, e2, e3⟩ := w2 i hi hi'
    refine mem_windowRows.2 ⟨⟨e, e1, e2, ?_⟩, w1.lo _ (List.getElem_mem hi), w1.hi _ (List.getElem_mem hi)⟩
    rw [e3, show ((i : Int) + 1).toNat - 1 = i by omega, List.getD, List.getElem?_eq_getElem hi']
    rfl
  have hopt' : Good T m g → OptAt T m M g mv alpha xStart (2 * h) xs → OptAt T m M g mv alpha xStart h js := by
    intro G hopt ks hk
    have hcl := (totalCost_clamp (mv := mv) S.hmv S.ha S.hb S.hm S.fin S.nonneg (c := cap m h) (le_cap hh)
      (S.start.trans (le_cap hh)) ks hk.len.le).1
    by_cases hfin : AllFin (extCost g m) (ks.map (min · (cap m h)))
    swap
    · rw [← totalCost_ne_top _ mv alpha xStart, not_not] at hfin
      rw [hfin, top_le_iff] at hcl
      rw [hcl]; exact le_top
    obtain ⟨ws, w1, w2, w3, _⟩ := hwin G hopt ks hk hfin
    exact (h5 ws w1 w2).trans w3
  refine ⟨P, js, h1, h2, h3, h4, fun G hopt => ⟨hopt' G hopt, fun hlow ks hk hc => ?_⟩⟩
  have hcl := (totalCost_clamp (mv := mv) S.hmv S.ha S.hb S.hm S.fin S.nonneg (c := cap m h) (le_cap hh)
    (S.start.trans (le_cap hh)) ks hk.len.le).1
  have hfin : AllFin (extCost g m) (ks.map (min · (cap m h))) := by
    rw [← totalCost_ne_top _ mv alpha xStart]
    intro h
    rw [h, top_le_iff] at hcl
    rw [hcl, top_le_iff] at hc
    exact (totalCost_ne_top _ mv alpha xStart _).2 h4.fin hc
  obtain ⟨ws, w1, w2, w3, w4⟩ := hwin G hopt ks hk hfin
  have hnear := near_window (vs := ks.map (min · (cap m h))) G S.hmv S.ha S.hb hh hx hlow
    (onMult_cap hm hh hk) hfin (fun ls hls => (hcl.trans hc).trans (hopt' G hopt ls hls))
  have hb := h6 (windowRows_sorted hh xs) ws w1 w2 (w3.trans hc)
  obtain ⟨b1, b2⟩ := Low.below_iff.1 hb
  refine Low.below_iff.2 ⟨by rw [h4.on.len, hk.len], fun i i1 i2 => ?_⟩
  have i3 : i < ws.length := by omega
  have i4 : i < xs.length := by rw [hx.on.len, ← w1]; exact i3
  have i5 : i < (ks.map (min · (cap m h))).length := by simpa using i2
  have := (b2 i i1 i3).trans (w4 i i3 i4 i5 (hnear i i4 i5))
  rw [List.getElem_map] at this
  exact this.trans (min_le_left _ _)

theorem loop_feas (S : Setup p inverted T m M g mv alpha a b xStart) :
    ∀ (n : Nat), (2 : ℤ) ^ n ∣ M → ∀ (P : Path) (js : List ℤ), P.xs = js.map (fun j => [j]) →
      P.cost = Spec.totalCost (extCost g m) mv alpha 1 xStart js → Feas T m M g (2 ^ n) js →
      ∃ P' js', (List.range n).reverse.foldlM
          (fun path k => findSchedule p (nextRows M path.xs k) alpha inverted xStart) P = .ok P' ∧
        P'.xs = js'.map (fun j => [j]) ∧
        P'.cost = Spec.totalCost (extCost g m) mv alpha 1 xStart js' ∧ Feas T m M g 1 js' ∧
        (Good T m g → OptAt T m M g mv alpha xStart (2 ^ n) js → OptAt T m M g mv alpha xStart 1 js' ∧
          (LowAt T m M g mv alpha xStart (2 ^ n) js → LowAt T m M g mv alpha xStart 1 js')) := by
  intro n
  induction n with
  | zero =>
    intro _ P js h1 h2 h3
    exact ⟨P, js, rfl, h1, h2, by simpa using h3, fun _ h => ⟨by simpa using h, fun h => by simpa using h⟩⟩
  | succ n ih =>
    intro hM P js h1 h2 h3
    have hM' : (2 : ℤ) ^ n ∣ M := dvd_trans (pow_dvd_pow 2 (by omega)) hM
    obtain ⟨P1, js1, a1, a2, a3, a4, a5⟩ := step_feas S n hM' h3
    obtain ⟨P2, js2, b1, b2, b3, b4, b5⟩ := ih hM' P1 js1 a2 a3 a4
    refine ⟨P2, js2, ?_, b2, b3, b4, fun G ho => ⟨(b5 G (a5 G ho).1).1, fun hl =>
      (b5 G (a5 G ho).1).2 ((a5 G ho).2 hl)⟩⟩
    rw [List.range_succ, List.reverse_append, List.reverse_singleton, List.singleton_append,
      Multi.foldlM_cons', h1, a1]
    exact b1

theorem mem_initialRows (n : Nat) (j : ℤ) :
    j ∈ initialRows (2 ^ n) ↔ (2 : ℤ) ^ kInit (2 ^ n) ∣ j ∧ 0 ≤ j ∧ j ≤ 2 ^ n := by
  match n with
  | 0 => simp [initialRows, kInit]; omega
  | 1 => simp [initialRows, kInit]; omega
  | n + 2 =>
    have hk : kInit (2 ^ (n + 2)) = n := by
      have h1 : (0 : ℤ) < 2 ^ n := by positivity
      have h2 : ((2 : ℤ) ^ (n + 2)) > 2 := by rw [pow_add]; omega
      have h3 : ((2 : ℤ) ^ (n + 2)).toNat = 2 ^ (n + 2) := by
        rw [show ((2 : ℤ) ^ (n + 2)) = ((2 ^ (n + 2) : Nat) : ℤ) by push_cast; rfl]; exact Int.toNat_natCast _
      rw [kInit, if_pos h2, h3, Nat.log_pow (by omega)]; omega
    rw [hk]
    have h0 : (0 : ℤ) < 2 ^ n := by positivity
    have h4 : (2 : ℤ) ^ (n + 2) = 4 * 2 ^ n := by rw [pow_add]; ring
    have hq : ∀ e : ℤ, e * 2 ^ (n + 2) / 4 = e * 2 ^ n := fun e => by
      rw [h4, show e * (4 * 2 ^ n) = e * 2 ^ n * 4 by ring, Int.mul_ediv_cancel _ (by norm_num)]
    unfold initialRows
    simp only [List.mem_map, hq]
    rw [h4]
    generalize (2 : ℤ) ^ n = h at *
    constructor
    · rintro ⟨e, he, rfl⟩
      simp at he
      have : 0 ≤ e ∧ e ≤ 4 := by omega
      exact ⟨dvd_mul_left _ _, mul_nonneg this.1 h0.le, mul_le_mul_of_nonneg_right this.2 h0.le⟩
    · rintro ⟨⟨c, rfl⟩, h1, h2⟩
      refine ⟨c, ?_, mul_comm _ _⟩
      have c1 : 0 ≤ c := nonneg_of_mul_nonneg_right h1 h0
      have c2 : c ≤ 4 := le_of_mul_le_mul_left (by linarith) h0
      simp; omega

theorem initialRows_sorted {M : ℤ} (hM : 0 ≤ M) : (initialRows M).Pairwise (· ≤ ·) := by
  unfold initialRows
  refine List.pairwise_map.2 (List.Pairwise.imp (R := (· ≤ ·)) (fun {a b} hab => ?_) (by decide))
  exact Int.ediv_le_ediv (by norm_num) (mul_le_mul_of_nonneg_right hab hM)

theorem search_feas {n : Nat} (S : Setup p inverted T m (2 ^ n) g mv alpha a b xStart) :
    ∃ P js, search p (2 ^ n) alpha inverted xStart = .ok P ∧ P.xs = js.map (fun j => [j]) ∧
      P.cost = Spec.totalCost (extCost g m) mv alpha 1 xStart js ∧ Feas T m (2 ^ n) g 1 js ∧
      (Good T m g → OptAt T m (2 ^ n) g mv alpha xStart 1 js ∧ LowAt T m (2 ^ n) g mv alpha xStart 1 js) := by
  have hdvd : (2 : ℤ) ^ kInit (2 ^ n) ∣ 2 ^ n := ((mem_initialRows n (2 ^ n)).1 (by
    unfold initialRows
    refine List.mem_map.2 ⟨4, by simp, ?_⟩
    rw [mul_comm, Int.mul_ediv_cancel _ (by norm_num)])).1
  obtain ⟨P, js, h1, h2, h3, h4, h5, h6⟩ := base_feas S (h := 2 ^ kInit (2 ^ n)) (by positivity) hdvd
    (mem_initialRows n) (initialRows_sorted (by positivity))
  obtain ⟨P', js', b1, b2, b3, b4, b5⟩ := loop_feas S _ hdvd P js h2 h3 h4
  refine ⟨P', js', ?_, b2, b3, b4, fun G => ⟨(b5 G h5).1, (b5 G h5).2 h6⟩⟩
  simp only [search, h1, bind, Except.bind]
  exact b1

end

end Uni
end Soco
