import Verif.Lemmas.RoundedPick
import Verif.Lemmas.MultiMain
import Verif.Spec.Rounding

/-! # The graph search with rounded arithmetic: errors accumulate with the number of edges of a path -/

namespace Soco.Multi.Rounded

variable {C D : Type} [OutSuccess C] [OutFailure D] {fl : ℚ → ℚ}
variable {p : SSCO ℤ C D} {v : Values} {alpha : ℚ} {inverted : Bool} {hit : Int → Config ℤ → ECost} {u : ℚ}

theorem addFl_coe (a b : ℚ) : addFl fl (a : ECost) (b : ECost) = ((fl (a + b) : ℚ) : ECost) := rfl

theorem addFl_ne_top {a b : ECost} (h : addFl fl a b ≠ ⊤) : a ≠ ⊤ ∧ b ≠ ⊤ := by
  constructor
  · rintro rfl; exact h (by simp [addFl])
  · rintro rfl; exact h (by simp [addFl])

theorem add_le_iff {x : ECost} {a b : ℚ} : x + (a : ECost) ≤ (b : ECost) ↔ ∃ o : ℚ, x = (o : ECost) ∧ o + a ≤ b := by
  constructor
  · intro h
    induction x using WithTop.recTopCoe with
    | top => simp at h
    | coe o => exact ⟨o, rfl, by rw [← WithTop.coe_add, WithTop.coe_le_coe] at h; exact h⟩
  · rintro ⟨o, rfl, h⟩
    rw [← WithTop.coe_add, WithTop.coe_le_coe]; exact h

theorem le_iff' {x : ECost} {b : ℚ} : x ≤ (b : ECost) ↔ ∃ o : ℚ, x = (o : ECost) ∧ o ≤ b := by
  have := add_le_iff (x := x) (a := 0) (b := b)
  simpa using this

theorem low (R : Spec.Rounds u fl) {E E' : Nat} {q e q' c d : ℚ} (h1 : (1 - u) ^ E * q ≤ c) (hc : 0 ≤ c)
    (h2 : (1 - u) ^ 2 * e ≤ d) (he : 0 ≤ e) (hE : 2 ≤ E) (hE' : E + 1 ≤ E') (hq : q' ≤ q + e) :
    (1 - u) ^ E' * q' ≤ fl (c + d) := by
  have hA : 0 ≤ 1 - u := by linarith [R.lt_one]
  have hA1 : 1 - u ≤ 1 := by linarith [R.nonneg]
  have hd : 0 ≤ d := le_trans (mul_nonneg (pow_nonneg hA 2) he) h2
  refine le_trans ?_ (R.below _ (by linarith))
  by_cases h0 : q' ≤ 0
  · exact le_trans (mul_nonpos_of_nonneg_of_nonpos (pow_nonneg hA _) h0) (mul_nonneg hA (by linarith))
  · push Not at h0
    calc (1 - u) ^ E' * q' ≤ (1 - u) ^ (E + 1) * (q + e) :=
          mul_le_mul (pow_le_pow_of_le_one hA hA1 hE') hq h0.le (pow_nonneg hA _)
      _ = (1 - u) * ((1 - u) ^ E * q + (1 - u) ^ E * e) := by ring
      _ ≤ (1 - u) * (c + d) := by
          refine mul_le_mul_of_nonneg_left (add_le_add h1 (le_trans ?_ h2)) hA
          exact mul_le_mul_of_nonneg_right (pow_le_pow_of_le_one hA hA1 hE) he

theorem high (R : Spec.Rounds u fl) {E E' : Nat} {q e q' c d : ℚ} (h1 : c ≤ (1 + u) ^ E * q) (hc : 0 ≤ c)
    (h2 : d ≤ (1 + u) ^ 2 * e) (hd : 0 ≤ d) (he : 0 ≤ e) (hE : 2 ≤ E) (hE' : E + 1 ≤ E') (hq : q + e ≤ q') :
    fl (c + d) ≤ (1 + u) ^ E' * q' := by
  have hB : 1 ≤ 1 + u := by linarith [R.nonneg]
  have hB0 : 0 ≤ 1 + u := by linarith
  have hq0 : 0 ≤ q := by
    by_contra h
    push Not at h
    have := mul_neg_of_pos_of_neg (pow_pos (by linarith : 0 < 1 + u) E) h
    linarith
  refine (R.above _ (by linarith)).trans ?_
  calc (1 + u) * (c + d) ≤ (1 + u) * ((1 + u) ^ E * q + (1 + u) ^ E * e) := by
        refine mul_le_mul_of_nonneg_left (add_le_add h1 (h2.trans ?_)) hB0
        exact mul_le_mul_of_nonneg_right (pow_le_pow_right₀ hB hE) he
    _ = (1 + u) ^ (E + 1) * (q + e) := by ring
    _ ≤ (1 + u) ^ E' * q' := mul_le_mul (pow_le_pow_right₀ hB hE') hq (by linarith) (pow_nonneg hB0 _)

theorem fl_nonneg (R : Spec.Rounds u fl) {x : ℚ} (h : 0 ≤ x) : 0 ≤ fl x :=
  le_trans (mul_nonneg (by linarith [R.lt_one]) h) (R.below x h)

/-- The rounded cost of a step. -/
theorem stepCost_round (R : Spec.Rounds u fl) (st : Setting p v alpha hit) (up : Bool) (l i j : Nat) {q : ℚ}
    (h : Multi.stepCost p v alpha inverted up l i j = (q : ECost)) :
    0 ≤ q ∧ ∃ d : ℚ, stepCost fl p v alpha inverted up l i j = (d : ECost) ∧ 0 ≤ d ∧ (1 - u) ^ 2 * q ≤ d ∧ d ≤ (1 + u) ^ 2 * q := by
  have hA : 0 ≤ 1 - u := by linarith [R.lt_one]
  have hB : 0 ≤ 1 + u := by linarith [R.nonneg]
  unfold Multi.stepCost at h
  unfold stepCost
  split at h
  · rename_i hc
    rw [if_pos hc]
    have h := WithTop.coe_injective h
    have hb : 0 ≤ p.switchingCost.getD l 0 := by
      unfold List.getD
      cases hg : p.switchingCost[l]? with
      | none => simp
      | some b => exact st.beta b (List.mem_of_getElem? hg)
    have hm : (0 : ℚ) ≤ ((scalarMovement (v.val i) (v.val j) inverted : ℤ) : ℚ) := by
      have : (0 : ℤ) ≤ scalarMovement (v.val i) (v.val j) inverted := by
        unfold scalarMovement
        rw [pos_eq]
        exact le_max_left _ _
      exact_mod_cast this
    have hab := mul_nonneg st.alpha hb
    have h1 := R.below _ hab
    have h2 := R.above _ hab
    have hf := fl_nonneg R hab
    have h3 := R.below _ (mul_nonneg hf hm)
    have h4 := R.above _ (mul_nonneg hf hm)
    refine ⟨by rw [← h]; exact mul_nonneg hab hm, _, rfl, fl_nonneg R (mul_nonneg hf hm), ?_, ?_⟩
    · calc (1 - u) ^ 2 * q = (1 - u) * (((1 - u) * (alpha * p.switchingCost.getD l 0)) *
            ((scalarMovement (v.val i) (v.val j) inverted : ℤ) : ℚ)) := by rw [← h]; ring
        _ ≤ _ := le_trans (mul_le_mul_of_nonneg_left (mul_le_mul_of_nonneg_right h1 hm) hA) h3
    · calc _ ≤ (1 + u) * (((1 + u) * (alpha * p.switchingCost.getD l 0)) *
            ((scalarMovement (v.val i) (v.val j) inverted : ℤ) : ℚ)) :=
            le_trans h4 (mul_le_mul_of_nonneg_left (mul_le_mul_of_nonneg_right h2 hm) hB)
        _ = (1 + u) ^ 2 * q := by rw [← h]; ring
  · rename_i hc
    rw [if_neg hc]
    have h : (0 : ℚ) = q := WithTop.coe_injective h
    subst h
    exact ⟨le_rfl, 0, rfl, le_rfl, by simp, by simp⟩

theorem sum_set (i : List Nat) (l j : Nat) (h : l < i.length) : (i.set l j).sum + i.getD l 0 = i.sum + j := by
  induction i generalizing l with
  | nil => simp at h
  | cons a i ih =>
    cases l with
    | zero => simp; omega
    | succ l =>
      have := ih l (by simpa using h)
      simp only [List.set_cons_succ, List.sum_cons, List.getD_cons_succ] at this ⊢
      omega

theorem sum_le : ∀ {b i : List Nat}, Ok b i → i.sum ≤ b.sum := by
  intro b
  induction b with
  | nil => intro i h; rw [List.length_eq_zero_iff.1 h.1]
  | cons a b ih =>
    intro i h
    cases i with
    | nil => simp
    | cons c i =>
      have h1 := h.2 0
      have h2 := ih (i := i) ⟨by simpa using h.1, fun k => by simpa using h.2 (k + 1)⟩
      simp only [List.getD_cons_zero] at h1
      simp only [List.sum_cons]
      omega

/-- Number of roundings on a path to a vertex of the upward layer of slot `n + 1`. -/
def eUp (v : Values) (n : Nat) (i : List Nat) : Nat := n * (2 * v.boundIndices.sum + 2) + 2 + i.sum

/-- Number of roundings on a path to a vertex of the downward layer of slot `n`. -/
def eDown (v : Values) (n : Nat) (i : List Nat) : Nat := n * (2 * v.boundIndices.sum + 2) + 1 - i.sum

/-- The path stored for a vertex of the upward layer of slot `n + 1`. -/
structure UpR (u : ℚ) (p : SSCO ℤ C D) (v : Values) (alpha : ℚ) (inverted : Bool)
    (hit : Int → Config ℤ → ECost) (n : Nat) (i : List Nat) (P : Path) (c : ℚ) : Prop where
  cost : P.cost = (c : ECost)
  nonneg : 0 ≤ c
  sound : ∃ (js : List (List Nat)) (q : ℚ), (∀ j ∈ js, Ok v.boundIndices j) ∧ js.length = n ∧
    P.xs = js.map v.cfg ∧
    obj p v alpha hit js + ((alpha * upI p v (lastI v js) i : ℚ) : ECost) ≤ ((q + phi p v alpha inverted i : ℚ) : ECost) ∧
    (1 - u) ^ eUp v n i * q ≤ c
  complete : ∀ (js : List (List Nat)) (q : ℚ), (∀ j ∈ js, Ok v.boundIndices j) → js.length = n →
    obj p v alpha hit js + ((alpha * upI p v (lastI v js) i : ℚ) : ECost) ≤ ((q + phi p v alpha inverted i : ℚ) : ECost) →
    c ≤ (1 + u) ^ eUp v n i * q

/-- The path stored for a vertex of the downward layer of slot `n`. -/
structure DownR (u : ℚ) (p : SSCO ℤ C D) (v : Values) (alpha : ℚ) (inverted : Bool)
    (hit : Int → Config ℤ → ECost) (n : Nat) (i : List Nat) (P : Path) (c : ℚ) : Prop where
  cost : P.cost = (c : ECost)
  nonneg : 0 ≤ c
  sound : ∃ (js : List (List Nat)) (q : ℚ), (∀ j ∈ js, Ok v.boundIndices j) ∧ js.length = n ∧
    P.xs = js.map v.cfg ∧ (∀ k, i.getD k 0 ≤ (lastI v js).getD k 0) ∧
    obj p v alpha hit js ≤ ((q + phi p v alpha inverted i : ℚ) : ECost) ∧
    (1 - u) ^ eDown v n i * q ≤ c
  complete : ∀ (js : List (List Nat)) (q : ℚ), (∀ j ∈ js, Ok v.boundIndices j) → js.length = n →
    (∀ k, i.getD k 0 ≤ (lastI v js).getD k 0) →
    obj p v alpha hit js ≤ ((q + phi p v alpha inverted i : ℚ) : ECost) →
    c ≤ (1 + u) ^ eDown v n i * q

theorem visit_up (R : Spec.Rounds u fl) (st : Setting p v alpha hit) {n : Nat}
    (paths : Paths Vertex) {i : List Nat} (hi : Ok v.boundIndices i)
    (hpred : ∀ i', Pred true v.boundIndices i' i → ∃ P c,
      paths { config := v.conf i', up := true } = some P ∧ UpR u p v alpha inverted hit n i' P c)
    (hprev : 0 < n → ∃ P c, paths { config := v.conf i, up := false } = some P ∧
      DownR u p v alpha inverted hit n i P c) :
    ∃ P c, handleConfig fl p alpha inverted ((n : Int) + 1) v.boundIndices.length true v paths (v.conf i)
        = .ok (paths.insert { config := v.conf i, up := true } P) ∧
      UpR u p v alpha inverted hit n i P c := by
  have g := st.grid
  by_cases h0 : n = 0 ∧ i = base true v.boundIndices
  · obtain ⟨rfl, rfl⟩ := h0
    have hz : upI p v (lastI v []) (base true v.boundIndices) = 0 :=
      upI_of_le g (Ok.base true _) (Ok.base true _) fun k => le_rfl
    refine ⟨_, 0, handleConfig_first fl g alpha inverted paths, rfl, le_rfl, ⟨[], 0, by simp, rfl, rfl, ?_, by simp⟩, ?_⟩
    · rw [phi_base g, hz]
      simp [obj, Spec.totalCost]
    · intro js q _ hl hq
      rw [List.length_eq_zero_iff.1 hl, phi_base g, hz] at hq
      obtain ⟨o, ho, hq⟩ := add_le_iff.1 hq
      have : o = 0 := by
        have : (0 : ECost) = (o : ECost) := by rw [← ho]; rfl
        exact (WithTop.coe_injective this).symm
      refine mul_nonneg (pow_nonneg (by linarith [R.nonneg]) _) (by linarith)
  -- the edges
  have hstay : ∀ e ∈ stay v ((n : Int) + 1) true 0 i, 0 < n ∧
      e = { src := { config := v.conf i, up := false }, cost := 0 } := by
    intro e he
    unfold stay at he
    split at he
    · rename_i h; rcases h with h | h
      · simp at he; exact ⟨by omega, he⟩
      · simp at h
    · simp at he
  have hpres : ∀ e ∈ moves fl p v alpha inverted true i ++ stay v ((n : Int) + 1) true 0 i,
      ∃ P, paths e.src = some P := by
    intro e he
    rcases List.mem_append.1 he with he | he
    · obtain ⟨l, j, hl, hs, rfl⟩ := mem_moves.1 he
      obtain ⟨P, _, hP, _⟩ := hpred _ ⟨l, j, hl, hs, rfl⟩
      exact ⟨P, hP⟩
    · obtain ⟨hn, rfl⟩ := hstay e he
      obtain ⟨P, _, hP, _⟩ := hprev hn
      exact ⟨P, hP⟩
  have hfin : ∃ e ∈ moves fl p v alpha inverted true i ++ stay v ((n : Int) + 1) true 0 i,
      ∃ P, paths e.src = some P ∧ addFl fl P.cost e.cost ≠ ⊤ := by
    by_cases hn : 0 < n
    · obtain ⟨P, c, hP, hOK⟩ := hprev hn
      refine ⟨{ src := { config := v.conf i, up := false }, cost := 0 }, ?_, P, hP, ?_⟩
      · rw [List.mem_append]; right
        unfold stay
        rw [if_pos (Or.inl (by omega))]; simp
      · rw [hOK.cost]
        exact WithTop.coe_ne_top (a := fl (c + 0))
    · have hne : i ≠ base true v.boundIndices := fun h => h0 ⟨by omega, h⟩
      obtain ⟨l, hl⟩ := exists_pos hi hne
      have hl' := hi.lt_length hl
      have hs : step false (i.getD l 0) (v.boundIndices.getD l 0) = some (i.getD l 0 - 1) := by
        simp only [step, Bool.false_eq_true, if_false]; exact if_neg (by omega)
      obtain ⟨P, c, hP, hOK⟩ := hpred _ ⟨l, _, hl', hs, rfl⟩
      obtain ⟨q, hq, _⟩ := stepCost_up (alpha := alpha) (inverted := inverted) g hi hl' hs
      obtain ⟨_, d, hd, _⟩ := stepCost_round R st true l _ _ hq
      refine ⟨_, List.mem_append.2 (Or.inl (mem_moves.2 ⟨l, _, hl', hs, rfl⟩)), P, hP, ?_⟩
      simp only [hd, hOK.cost, addFl_coe]
      exact WithTop.coe_ne_top
  obtain ⟨e, he, P, hP, hok, hne, hmin⟩ :=
    handleConfig_ok fl g alpha inverted true ((n : Int) + 1) hi 0 (by simp) paths hpres hfin
  have hxs : (extendPath fl v true i e P).xs = P.xs := by simp [extendPath]
  have hcost : (extendPath fl v true i e P).cost = addFl fl P.cost e.cost := rfl
  obtain ⟨a, ha⟩ := WithTop.ne_top_iff_exists.1 (addFl_ne_top hne).1
  obtain ⟨d, hd⟩ := WithTop.ne_top_iff_exists.1 (addFl_ne_top hne).2
  rw [← ha, ← hd, addFl_coe] at hcost hmin
  -- soundness, with the sign
  have hsound : 0 ≤ fl (a + d) ∧ ∃ (js : List (List Nat)) (q : ℚ), (∀ j ∈ js, Ok v.boundIndices j) ∧ js.length = n ∧
      P.xs = js.map v.cfg ∧
      obj p v alpha hit js + ((alpha * upI p v (lastI v js) i : ℚ) : ECost) ≤ ((q + phi p v alpha inverted i : ℚ) : ECost) ∧
      (1 - u) ^ eUp v n i * q ≤ fl (a + d) := by
    rcases List.mem_append.1 he with he | he
    · obtain ⟨l, j, hl, hs, rfl⟩ := mem_moves.1 he
      obtain ⟨P', c, hP', hOK⟩ := hpred _ ⟨l, j, hl, hs, rfl⟩
      rw [hP] at hP'; cases hP'
      obtain ⟨q, hq, hphi, hle⟩ := stepCost_up (alpha := alpha) (inverted := inverted) g hi hl hs
      obtain ⟨hq0, d', hd', d0, d1, d2⟩ := stepCost_round R st true l _ _ hq
      have had : d = d' := by
        have : (d : ECost) = d' := by rw [hd]; exact hd'
        exact WithTop.coe_injective this
      have hac : a = c := by
        have : (a : ECost) = c := by rw [ha]; exact hOK.cost
        exact WithTop.coe_injective this
      subst had hac
      refine ⟨fl_nonneg R (add_nonneg hOK.nonneg d0), ?_⟩
      obtain ⟨js, r, h1, h2, h3, h4, h5⟩ := hOK.sound
      refine ⟨js, r + q, h1, h2, h3, ?_, ?_⟩
      · have hil : l < i.length := by rw [hi.1]; exact hl
        have hL := lastI_ok js h1
        have hup : upI p v (lastI v js) i ≤ upI p v (lastI v js) (i.set l j)
            + p.switchingCost.getD l 0 * ((v.val (i.getD l 0) : ℚ) - v.val j) := by
          have := upCost_set_le p.switchingCost st.beta (v.val j) (v.cfg (lastI v js)) (v.cfg i) l
            (by rw [cfg_length, g.scl, hi.1]) (by rw [cfg_length, g.scl, hL.1])
            (by rw [cfg_length]; exact hil) (by rw [cfg_getD v hil]; exact hle)
          rw [cfg_set, cfg_getD v hil] at this
          exact this
        have hup' := mul_le_mul_of_nonneg_left hup st.alpha
        rw [mul_add] at hup'
        obtain ⟨o, ho, hle'⟩ := add_le_iff.1 h4
        exact add_le_iff.2 ⟨o, ho, by linarith⟩
      · refine low R h5 hOK.nonneg d1 hq0 (by unfold eUp; omega) ?_ le_rfl
        have := sum_set i l j (by rw [hi.1]; exact hl)
        have hj : j + 1 = i.getD l 0 := by
          simp only [step, Bool.not_true, Bool.false_eq_true, if_false] at hs
          split at hs
          · simp at hs
          · simp at hs; simp at *; omega
        unfold eUp
        omega
    · obtain ⟨hn, rfl⟩ := hstay e he
      obtain ⟨P', c, hP', hOK⟩ := hprev hn
      rw [hP] at hP'; cases hP'
      have had : d = 0 := by
        have : (d : ECost) = ((0 : ℚ) : ECost) := hd
        exact WithTop.coe_injective this
      have hac : a = c := by
        have : (a : ECost) = c := by rw [ha]; exact hOK.cost
        exact WithTop.coe_injective this
      subst had hac
      refine ⟨fl_nonneg R (by linarith [hOK.nonneg]), ?_⟩
      obtain ⟨js, q, h1, h2, h3, h4, h5, h6⟩ := hOK.sound
      refine ⟨js, q, h1, h2, h3, ?_, ?_⟩
      · rw [upI_of_le g hi (lastI_ok js h1) h4]
        simpa using h5
      · have hs := sum_le hi
        refine low R h6 hOK.nonneg (e := 0) (by simp) le_rfl ?_ ?_ (by simp)
        · unfold eDown
          obtain ⟨m, rfl⟩ : ∃ m, n = m + 1 := ⟨n - 1, by omega⟩
          rw [Nat.add_mul]
          omega
        · unfold eDown eUp
          omega
  refine ⟨_, fl (a + d), hok, hcost, hsound.1, ?_, ?_⟩
  · rw [hxs]; exact hsound.2
  · -- completeness
    intro js q hjs hlen hq
    have hL := lastI_ok js hjs
    by_cases hle : ∀ k, i.getD k 0 ≤ (lastI v js).getD k 0
    · by_cases hn : 0 < n
      · obtain ⟨P', c, hP', hOK⟩ := hprev hn
        have hmem : ({ src := { config := v.conf i, up := false }, cost := 0 } : Edge)
            ∈ moves fl p v alpha inverted true i ++ stay v ((n : Int) + 1) true 0 i := by
          rw [List.mem_append]; right
          unfold stay
          rw [if_pos (Or.inl (by omega))]; simp
        have h1 := hmin _ hmem P' hP'
        rw [hOK.cost] at h1
        have h1 : fl (a + d) ≤ fl (c + 0) := WithTop.coe_le_coe.1 h1
        rw [upI_of_le g hi hL hle] at hq
        have h2 := hOK.complete js q hjs hlen hle (by simpa using hq)
        refine h1.trans ?_
        have hs := sum_le hi
        refine high R h2 hOK.nonneg (e := 0) (by simp) le_rfl le_rfl ?_ ?_ (by simp)
        · unfold eDown
          obtain ⟨m, rfl⟩ : ∃ m, n = m + 1 := ⟨n - 1, by omega⟩
          rw [Nat.add_mul]
          omega
        · unfold eDown eUp
          omega
      · exfalso
        apply h0
        refine ⟨by omega, ?_⟩
        have : js = [] := List.length_eq_zero_iff.1 (by omega)
        subst this
        exact hi.eq_of_getD (Ok.base true _) fun l _ => le_antisymm (hle l) (by
          rw [getD_base_true]; exact Nat.zero_le _)
    · push Not at hle
      obtain ⟨l, hl⟩ := hle
      have hl' := hi.lt_length hl
      have hil : l < i.length := by rw [hi.1]; exact hl'
      have hll : l < (lastI v js).length := by rw [hL.1]; exact hl'
      have hs : step false (i.getD l 0) (v.boundIndices.getD l 0) = some (i.getD l 0 - 1) := by
        simp only [step, Bool.false_eq_true, if_false]; exact if_neg (by omega)
      obtain ⟨P', c, hP', hOK⟩ := hpred _ ⟨l, _, hl', hs, rfl⟩
      obtain ⟨qe, hqe, hphi, hle⟩ := stepCost_up (alpha := alpha) (inverted := inverted) g hi hl' hs
      obtain ⟨hq0, d', hd', d0, d1, d2⟩ := stepCost_round R st true l _ _ hqe
      have h1 := hmin _ (List.mem_append.2 (Or.inl (mem_moves.2 ⟨l, _, hl', hs, rfl⟩))) P' hP'
      simp only [hd', hOK.cost, addFl_coe] at h1
      have h1 : fl (a + d) ≤ fl (c + d') := WithTop.coe_le_coe.1 h1
      have hup : upI p v (lastI v js) i = upI p v (lastI v js) (i.set l (i.getD l 0 - 1))
          + p.switchingCost.getD l 0 * ((v.val (i.getD l 0) : ℚ) - v.val (i.getD l 0 - 1)) := by
        have := upCost_set_eq p.switchingCost (v.val (i.getD l 0 - 1)) (v.cfg (lastI v js)) (v.cfg i) l
          (by rw [cfg_length, g.scl, hi.1]) (by rw [cfg_length, g.scl, hL.1])
          (by rw [cfg_length]; exact hil) (by rw [cfg_getD v hil]; exact hle)
          (by rw [cfg_getD v hll]; exact g.val_le (by omega) (by have := hi.lt g l; omega))
        rw [cfg_set, cfg_getD v hil] at this
        exact this
      obtain ⟨o, ho, hqo⟩ := add_le_iff.1 hq
      have h2 := hOK.complete js (q - qe) hjs hlen (add_le_iff.2 ⟨o, ho, by
        rw [hup, mul_add] at hqo
        linarith⟩)
      refine h1.trans (high R h2 hOK.nonneg d2 d0 hq0 (by unfold eUp; omega) ?_ (by linarith))
      have := sum_set i l (i.getD l 0 - 1) hil
      unfold eUp
      omega

theorem visit_down (R : Spec.Rounds u fl) (st : Setting p v alpha hit) (hpos : ∀ t : Int, 1 ≤ t → t ≤ p.tEnd → ∀ i, Ok v.boundIndices i → 0 ≤ hit t (v.cfg i)) {n : Nat}
    (hn : (n : Int) + 1 ≤ p.tEnd) (hfb : hit ((n : Int) + 1) p.bounds ≠ ⊤)
    (paths : Paths Vertex) {i : List Nat} (hi : Ok v.boundIndices i)
    (hpred : ∀ i', Pred false v.boundIndices i' i → ∃ P c,
      paths { config := v.conf i', up := false } = some P ∧
      DownR u p v alpha inverted hit (n + 1) i' P c)
    (hup : ∃ P c, paths { config := v.conf i, up := true } = some P ∧
      UpR u p v alpha inverted hit n i P c) :
    ∃ P c, handleConfig fl p alpha inverted ((n : Int) + 1) v.boundIndices.length false v paths (v.conf i)
        = .ok (paths.insert { config := v.conf i, up := false } P) ∧
      DownR u p v alpha inverted hit (n + 1) i P c := by
  have g := st.grid
  have hA : 0 ≤ 1 - u := by linarith [R.lt_one]
  have hA1 : 1 - u ≤ 1 := by linarith [R.nonneg]
  have hB : 1 ≤ 1 + u := by linarith [R.nonneg]
  have hsum := sum_le hi
  set hc := hit ((n : Int) + 1) (v.cfg i) with hhc
  obtain ⟨U, cU, hU, hUOK⟩ := hup
  have hstay : stay v ((n : Int) + 1) false hc i
      = [{ src := { config := v.conf i, up := true }, cost := hc }] := by simp [stay]
  have hmemstay : ({ src := { config := v.conf i, up := true }, cost := hc } : Edge)
      ∈ moves fl p v alpha inverted false i ++ stay v ((n : Int) + 1) false hc i := by
    rw [hstay]; simp
  have hpres : ∀ e ∈ moves fl p v alpha inverted false i ++ stay v ((n : Int) + 1) false hc i,
      ∃ P, paths e.src = some P := by
    intro e he
    rcases List.mem_append.1 he with he | he
    · obtain ⟨l, j, hl, hs, rfl⟩ := mem_moves.1 he
      obtain ⟨P, _, hP, _⟩ := hpred _ ⟨l, j, hl, hs, rfl⟩
      exact ⟨P, hP⟩
    · rw [hstay] at he
      rw [List.mem_singleton.1 he]; exact ⟨U, hU⟩
  have hfin : ∃ e ∈ moves fl p v alpha inverted false i ++ stay v ((n : Int) + 1) false hc i,
      ∃ P, paths e.src = some P ∧ addFl fl P.cost e.cost ≠ ⊤ := by
    by_cases hb : i = v.boundIndices
    · have h1 : hc ≠ ⊤ := by
        have : v.cfg i = p.bounds := by rw [hb, g.bounds]; rfl
        rw [hhc, this]; exact hfb
      obtain ⟨x, hx⟩ := WithTop.ne_top_iff_exists.1 h1
      refine ⟨_, hmemstay, U, hU, ?_⟩
      simp only [hUOK.cost, ← hx, addFl_coe]
      exact WithTop.coe_ne_top
    · obtain ⟨l, hl⟩ := exists_lt_bound hi hb
      have hl' : l < v.boundIndices.length :=
        Ok.lt_length (⟨rfl, fun _ => le_rfl⟩ : Ok v.boundIndices v.boundIndices) hl
      have hs : step true (i.getD l 0) (v.boundIndices.getD l 0) = some (i.getD l 0 + 1) := by
        simp only [step, if_true]; exact if_neg (by omega)
      obtain ⟨P, c, hP, hOK⟩ := hpred _ ⟨l, _, hl', hs, rfl⟩
      obtain ⟨q, hq, _⟩ := stepCost_down (alpha := alpha) (inverted := inverted) g hi hl' hs
      obtain ⟨_, d, hd, _⟩ := stepCost_round R st false l _ _ hq
      refine ⟨_, List.mem_append.2 (Or.inl (mem_moves.2 ⟨l, _, hl', hs, rfl⟩)), P, hP, ?_⟩
      simp only [hd, hOK.cost, addFl_coe]
      exact WithTop.coe_ne_top
  obtain ⟨e, he, P, hP, hok, hne, hmin⟩ :=
    handleConfig_ok fl g alpha inverted false ((n : Int) + 1) hi hc
      (fun _ => st.hit _ (by omega) hn i hi) paths hpres hfin
  have hcost : (extendPath fl v false i e P).cost = addFl fl P.cost e.cost := rfl
  obtain ⟨a, ha⟩ := WithTop.ne_top_iff_exists.1 (addFl_ne_top hne).1
  obtain ⟨d, hd⟩ := WithTop.ne_top_iff_exists.1 (addFl_ne_top hne).2
  rw [← ha, ← hd, addFl_coe] at hcost hmin
  have hexp : ∀ l, l < i.length → ∀ j, j = i.getD l 0 + 1 → j ≤ v.boundIndices.getD l 0 →
      2 ≤ eDown v (n + 1) (i.set l j) ∧ eDown v (n + 1) (i.set l j) + 1 ≤ eDown v (n + 1) i := by
    intro l hl j hj hjb
    have h1 := sum_set i l j hl
    have h2 := sum_le (hi.set hjb)
    unfold eDown
    rw [Nat.add_mul]
    omega
  have hsound : 0 ≤ fl (a + d) ∧ ∃ (js : List (List Nat)) (q : ℚ), (∀ j ∈ js, Ok v.boundIndices j) ∧ js.length = n + 1 ∧
      (extendPath fl v false i e P).xs = js.map v.cfg ∧ (∀ k, i.getD k 0 ≤ (lastI v js).getD k 0) ∧
      obj p v alpha hit js ≤ ((q + phi p v alpha inverted i : ℚ) : ECost) ∧
      (1 - u) ^ eDown v (n + 1) i * q ≤ fl (a + d) := by
    rcases List.mem_append.1 he with he | he
    · obtain ⟨l, j, hl, hs, rfl⟩ := mem_moves.1 he
      obtain ⟨P', c, hP', hOK⟩ := hpred _ ⟨l, j, hl, hs, rfl⟩
      rw [hP] at hP'; cases hP'
      obtain ⟨q, hq, hphi⟩ := stepCost_down (alpha := alpha) (inverted := inverted) g hi hl hs
      obtain ⟨hq0, d', hd', d0, d1, d2⟩ := stepCost_round R st false l _ _ hq
      have had : d = d' := by
        have : (d : ECost) = d' := by rw [hd]; exact hd'
        exact WithTop.coe_injective this
      have hac : a = c := by
        have : (a : ECost) = c := by rw [ha]; exact hOK.cost
        exact WithTop.coe_injective this
      subst had hac
      have hj : j = i.getD l 0 + 1 := by
        simp only [step, Bool.not_false, if_true] at hs
        split at hs
        · simp at hs
        · simp at hs; simp at *; omega
      have hil : l < i.length := by rw [hi.1]; exact hl
      obtain ⟨x1, x2⟩ := hexp l hil j hj (step_le (hi.2 l) hs)
      refine ⟨fl_nonneg R (add_nonneg hOK.nonneg d0), ?_⟩
      obtain ⟨js, r, h1, h2, h3, h4, h5, h6⟩ := hOK.sound
      refine ⟨js, r + q, h1, h2, by simpa [extendPath] using h3, ?_, ?_, ?_⟩
      · intro k
        refine le_trans ?_ (h4 k)
        by_cases hk : l = k
        · subst hk
          rw [getD_set_self hil]
          omega
        · rw [getD_set_ne hk]
      · refine h5.trans (WithTop.coe_le_coe.2 ?_)
        linarith
      · exact low R h6 hOK.nonneg d1 hq0 x1 x2 le_rfl
    · rw [hstay] at he
      rw [List.mem_singleton.1 he] at hP hd ⊢
      rw [hU] at hP; cases hP
      have hac : a = cU := by
        have : (a : ECost) = cU := by rw [ha]; exact hUOK.cost
        exact WithTop.coe_injective this
      subst hac
      have hd : (d : ECost) = hc := hd
      have hd0 : 0 ≤ d := by
        have := hpos ((n : Int) + 1) (by omega) hn i hi
        rw [← hhc, ← hd] at this
        exact_mod_cast this
      refine ⟨fl_nonneg R (add_nonneg hUOK.nonneg hd0), ?_⟩
      obtain ⟨js, q, h1, h2, h3, h4, h5⟩ := hUOK.sound
      refine ⟨js ++ [i], q + d, ?_, by simp [h2], by simp [extendPath, h3], ?_, ?_, ?_⟩
      · intro j hj
        rcases List.mem_append.1 hj with hj | hj
        · exact h1 j hj
        · rw [List.mem_singleton.1 hj]; exact hi
      · intro k; simp [lastI]
      · rw [obj_snoc, h2, ← hhc, ← hd]
        obtain ⟨o, ho, hle⟩ := add_le_iff.1 h4
        rw [ho, ← WithTop.coe_add, ← WithTop.coe_add, WithTop.coe_le_coe]
        linarith
      · refine low R h5 hUOK.nonneg ?_ hd0 (by unfold eUp; omega) ?_ le_rfl
        · have := pow_le_one₀ hA hA1 (n := 2)
          nlinarith
        · unfold eUp eDown
          rw [Nat.add_mul]
          omega
  refine ⟨_, fl (a + d), hok, hcost, hsound.1, hsound.2, ?_⟩
  -- completeness
  intro js q hjs hlen hle hq
  have hL := lastI_ok js hjs
  by_cases heq : i = lastI v js
  · obtain ⟨js', j, rfl⟩ : ∃ js' j, js = js' ++ [j] :=
      ⟨js.dropLast, js.getLast (by intro h; simp [h] at hlen),
        (List.dropLast_append_getLast _).symm⟩
    have hij : i = j := by simpa [lastI] using heq
    subst hij
    have hlen' : js'.length = n := by simpa using hlen
    have h1 := hmin _ hmemstay U hU
    rw [obj_snoc, hlen', ← hhc] at hq
    have hct : hc ≠ ⊤ := by
      intro h
      rw [h] at hq
      simp at hq
    obtain ⟨x, hx⟩ := WithTop.ne_top_iff_exists.1 hct
    have hx0 : 0 ≤ x := by
      have := hpos ((n : Int) + 1) (by omega) hn i hi
      rw [← hhc, ← hx] at this
      exact_mod_cast this
    simp only [hUOK.cost, ← hx, addFl_coe] at h1
    have h1 : fl (a + d) ≤ fl (cU + x) := WithTop.coe_le_coe.1 h1
    rw [← hx, ← WithTop.coe_add] at hq
    obtain ⟨o, ho, hle'⟩ := add_le_iff.1 hq
    have h2 := hUOK.complete js' (q - x) (fun j hj => hjs j (by simp [hj])) hlen' (add_le_iff.2 ⟨o, ho, by linarith⟩)
    refine h1.trans (high R h2 hUOK.nonneg ?_ hx0 hx0 (by unfold eUp; omega) ?_ (by linarith))
    · have := one_le_pow₀ hB (n := 2)
      nlinarith
    · unfold eUp eDown
      rw [Nat.add_mul]
      omega
  · obtain ⟨l, hl⟩ : ∃ l, i.getD l 0 < (lastI v js).getD l 0 := by
      by_contra hc'
      push Not at hc'
      exact heq (hi.eq_of_getD hL fun l _ => le_antisymm (hle l) (hc' l))
    have hl' := hL.lt_length hl
    have hil : l < i.length := by rw [hi.1]; exact hl'
    have hlb := hL.2 l
    have hs : step true (i.getD l 0) (v.boundIndices.getD l 0) = some (i.getD l 0 + 1) := by
      simp only [step, if_true]; exact if_neg (by omega)
    obtain ⟨P', c, hP', hOK⟩ := hpred _ ⟨l, _, hl', hs, rfl⟩
    obtain ⟨qe, hqe, hphi⟩ := stepCost_down (alpha := alpha) (inverted := inverted) g hi hl' hs
    obtain ⟨hq0, d', hd', d0, d1, d2⟩ := stepCost_round R st false l _ _ hqe
    have h1 := hmin _ (List.mem_append.2 (Or.inl (mem_moves.2 ⟨l, _, hl', hs, rfl⟩))) P' hP'
    simp only [hd', hOK.cost, addFl_coe] at h1
    have h1 : fl (a + d) ≤ fl (c + d') := WithTop.coe_le_coe.1 h1
    obtain ⟨x1, x2⟩ := hexp l hil _ rfl (by omega)
    have h2 := hOK.complete js (q - qe) hjs hlen (by
      intro k
      by_cases hk : l = k
      · subst hk
        rw [getD_set_self hil]; omega
      · rw [getD_set_ne hk]; exact hle k) (by
      refine hq.trans (WithTop.coe_le_coe.2 ?_)
      linarith)
    exact h1.trans (high R h2 hOK.nonneg d2 d0 hq0 x1 x2 (by linarith))

/-- All vertices of the upward (downward) layer of a slot have paths with small errors. -/
def AllUp (u : ℚ) (p : SSCO ℤ C D) (v : Values) (alpha : ℚ) (inverted : Bool) (hit : Int → Config ℤ → ECost)
    (n : Nat) (paths : Paths Vertex) : Prop :=
  ∀ i, Ok v.boundIndices i → ∃ P c, paths { config := v.conf i, up := true } = some P ∧
    UpR u p v alpha inverted hit n i P c

/-- See `AllUp`. -/
def AllDown (u : ℚ) (p : SSCO ℤ C D) (v : Values) (alpha : ℚ) (inverted : Bool) (hit : Int → Config ℤ → ECost)
    (n : Nat) (paths : Paths Vertex) : Prop :=
  ∀ i, Ok v.boundIndices i → ∃ P c, paths { config := v.conf i, up := false } = some P ∧
    DownR u p v alpha inverted hit n i P c

theorem layer_up (R : Spec.Rounds u fl) (st : Setting p v alpha hit) {n : Nat} (paths : Paths Vertex)
    (hprev : 0 < n → AllDown u p v alpha inverted hit n paths) :
    ∃ paths', handleLayer fl p alpha inverted ((n : Int) + 1) true v paths = .ok paths' ∧
      AllUp u p v alpha inverted hit n paths' := by
  rw [handleLayer_eq fl alpha inverted _ true st.grid st.dpos]
  suffices h : ∀ (L : List (List Nat)), (∀ i ∈ L, Ok v.boundIndices i) →
      ∀ (S : Set (List Nat)), ClosedFrom (Pred true v.boundIndices) S L → ∀ (paths : Paths Vertex),
      (0 < n → AllDown u p v alpha inverted hit n paths) →
      (∀ i ∈ S, ∃ P c, paths { config := v.conf i, up := true } = some P ∧
        UpR u p v alpha inverted hit n i P c) →
      ∃ paths', (L.map v.conf).foldlM (handleConfig fl p alpha inverted ((n : Int) + 1)
        v.boundIndices.length true v) paths = .ok paths' ∧
        ∀ i, (i ∈ S ∨ i ∈ L) → ∃ P c, paths' { config := v.conf i, up := true } = some P ∧
          UpR u p v alpha inverted hit n i P c by
    obtain ⟨paths', h1, h2⟩ := h _ (fun i hi => mem_ord_iff.1 hi) ∅ (closedFrom_ord le_rfl) paths
      hprev (by simp)
    exact ⟨paths', h1, fun i hi => h2 i (Or.inr (mem_ord_iff.2 hi))⟩
  intro L
  induction L with
  | nil => intro _ S _ paths _ hS; exact ⟨paths, rfl, fun i hi => hS i (by simpa using hi)⟩
  | cons i L ih =>
    intro hL S hcl paths hprev hS
    have hi := hL i (by simp)
    obtain ⟨P, c, h1, h2⟩ := visit_up R st paths hi (fun i' hi' => hS i' (hcl.1 i' hi'))
      (fun hn => hprev hn i hi)
    obtain ⟨paths', h3, h4⟩ := ih (fun x hx => hL x (by simp [hx])) (insert i S) hcl.2
      (paths.insert { config := v.conf i, up := true } P) (by
        intro hn x hx
        rw [insert_ne _ (by simp)]; exact hprev hn x hx) (by
        intro x hx
        by_cases hxi : x = i
        · subst hxi; exact ⟨P, c, insert_self _ _ _, h2⟩
        · rw [insert_ne _ (by simp [conf_inj, hxi])]
          exact hS x (by simpa [hxi] using hx))
    refine ⟨paths', ?_, ?_⟩
    · rw [List.map_cons, foldlM_cons', h1]; exact h3
    · intro x hx
      apply h4
      simp only [List.mem_cons, Set.mem_insert_iff] at hx ⊢
      tauto

theorem layer_down (R : Spec.Rounds u fl) (st : Setting p v alpha hit) (hpos : ∀ t : Int, 1 ≤ t → t ≤ p.tEnd → ∀ i, Ok v.boundIndices i → 0 ≤ hit t (v.cfg i)) {n : Nat} (hn : (n : Int) + 1 ≤ p.tEnd)
    (hfb : hit ((n : Int) + 1) p.bounds ≠ ⊤) (paths : Paths Vertex)
    (hup : AllUp u p v alpha inverted hit n paths) :
    ∃ paths', handleLayer fl p alpha inverted ((n : Int) + 1) false v paths = .ok paths' ∧
      AllDown u p v alpha inverted hit (n + 1) paths' := by
  rw [handleLayer_eq fl alpha inverted _ false st.grid st.dpos]
  suffices h : ∀ (L : List (List Nat)), (∀ i ∈ L, Ok v.boundIndices i) →
      ∀ (S : Set (List Nat)), ClosedFrom (Pred false v.boundIndices) S L → ∀ (paths : Paths Vertex),
      AllUp u p v alpha inverted hit n paths →
      (∀ i ∈ S, ∃ P c, paths { config := v.conf i, up := false } = some P ∧
        DownR u p v alpha inverted hit (n + 1) i P c) →
      ∃ paths', (L.map v.conf).foldlM (handleConfig fl p alpha inverted ((n : Int) + 1)
        v.boundIndices.length false v) paths = .ok paths' ∧
        ∀ i, (i ∈ S ∨ i ∈ L) → ∃ P c, paths' { config := v.conf i, up := false } = some P ∧
          DownR u p v alpha inverted hit (n + 1) i P c by
    obtain ⟨paths', h1, h2⟩ := h _ (fun i hi => mem_ord_iff.1 hi) ∅ (closedFrom_ord le_rfl) paths
      hup (by simp)
    exact ⟨paths', h1, fun i hi => h2 i (Or.inr (mem_ord_iff.2 hi))⟩
  intro L
  induction L with
  | nil => intro _ S _ paths _ hS; exact ⟨paths, rfl, fun i hi => hS i (by simpa using hi)⟩
  | cons i L ih =>
    intro hL S hcl paths hup hS
    have hi := hL i (by simp)
    obtain ⟨P, c, h1, h2⟩ := visit_down R st hpos hn hfb paths hi (fun i' hi' => hS i' (hcl.1 i' hi'))
      (hup i hi)
    obtain ⟨paths', h3, h4⟩ := ih (fun x hx => hL x (by simp [hx])) (insert i S) hcl.2
      (paths.insert { config := v.conf i, up := false } P) (by
        intro x hx
        rw [insert_ne _ (by simp)]; exact hup x hx) (by
        intro x hx
        by_cases hxi : x = i
        · subst hxi; exact ⟨P, c, insert_self _ _ _, h2⟩
        · rw [insert_ne _ (by simp [conf_inj, hxi])]
          exact hS x (by simpa [hxi] using hx))
    refine ⟨paths', ?_, ?_⟩
    · rw [List.map_cons, foldlM_cons', h1]; exact h3
    · intro x hx
      apply h4
      simp only [List.mem_cons, Set.mem_insert_iff] at hx ⊢
      tauto


end Soco.Multi.Rounded
