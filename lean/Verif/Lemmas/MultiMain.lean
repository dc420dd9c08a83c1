import Verif.Lemmas.MultiDP

/-! # Multi-dimensional graph search: correctness of the layers -/

namespace Soco.Multi

variable {C D : Type} [OutSuccess C] [OutFailure D]
variable {p : SSCO ℤ C D} {v : Values} {alpha : ℚ} {inverted : Bool} {hit : Int → Config ℤ → ECost}

theorem phi_base (g : Grid p v) : phi p v alpha inverted (base true v.boundIndices) = 0 := by
  unfold phi
  split
  · have hb : v.cfg (base true v.boundIndices) = List.replicate p.d.toNat 0 := by
      have := g.base_conf true
      rw [show v.cfg (base true v.boundIndices) = (v.conf (base true v.boundIndices)).config from rfl,
        ← this]; rfl
    rw [hb, weighted_zero]; ring
  · rfl

theorem getD_base_true (b : List Nat) (l : Nat) : (base true b).getD l 0 = 0 := by
  simp only [base, if_true, List.getD, List.getElem?_replicate]; split <;> rfl

theorem Ok.eq_of_getD {b i i' : List Nat} (h : Ok b i) (h' : Ok b i')
    (he : ∀ l, l < b.length → i.getD l 0 = i'.getD l 0) : i = i' := by
  apply List.ext_getElem
  · rw [h.1, h'.1]
  · intro k h1 h2
    have := he k (by rw [← h.1]; exact h1)
    simpa [List.getD, h1, h2] using this

theorem Ok.lt_length {b i : List Nat} (h : Ok b i) {l m : Nat} (hm : m < i.getD l 0) :
    l < b.length := by
  by_contra hl
  have : l ≥ i.length := by rw [h.1]; omega
  simp [List.getD, this] at hm

theorem exists_pos {b i : List Nat} (h : Ok b i) (hne : i ≠ base true b) : ∃ l, 0 < i.getD l 0 := by
  by_contra hc
  push Not at hc
  exact hne (h.eq_of_getD (Ok.base true b) fun l _ => by
    rw [getD_base_true]; exact Nat.le_zero.1 (hc l))

theorem exists_lt_bound {b i : List Nat} (h : Ok b i) (hne : i ≠ b) :
    ∃ l, i.getD l 0 < b.getD l 0 := by
  by_contra hc
  push Not at hc
  exact hne (h.eq_of_getD ⟨rfl, fun _ => le_rfl⟩ fun l _ => le_antisymm (h.2 l) (hc l))

theorem visit_up (st : Setting p v alpha hit) {n : Nat}
    (paths : Paths Vertex) {i : List Nat} (hi : Ok v.boundIndices i)
    (hpred : ∀ i', Pred true v.boundIndices i' i → ∃ P,
      paths { config := v.conf i', up := true } = some P ∧ UpOK p v alpha inverted hit n i' P)
    (hprev : 0 < n → ∃ P, paths { config := v.conf i, up := false } = some P ∧
      DownOK p v alpha inverted hit n i P) :
    ∃ P, handleConfig p alpha inverted ((n : Int) + 1) v.boundIndices.length true v paths (v.conf i)
        = .ok (paths.insert { config := v.conf i, up := true } P) ∧
      UpOK p v alpha inverted hit n i P := by
  have g := st.grid
  by_cases h0 : n = 0 ∧ i = base true v.boundIndices
  · obtain ⟨rfl, rfl⟩ := h0
    refine ⟨_, handleConfig_first g alpha inverted paths, by simp, ⟨[], by simp, rfl, rfl, ?_⟩, ?_⟩
    · rw [phi_base g]
      have : upI p v (lastI v []) (base true v.boundIndices) = 0 :=
        upI_of_le g (Ok.base true _) (Ok.base true _) fun k => le_rfl
      simp [obj, Spec.totalCost, this]
    · intro js _ hl
      rw [List.length_eq_zero_iff.1 hl, phi_base g]
      have : upI p v (lastI v []) (base true v.boundIndices) = 0 :=
        upI_of_le g (Ok.base true _) (Ok.base true _) fun k => le_rfl
      simp [obj, Spec.totalCost, this]
  -- the edges
  have hstay : ∀ e ∈ stay v ((n : Int) + 1) true 0 i, 0 < n ∧
      e = { src := { config := v.conf i, up := false }, cost := 0 } := by
    intro e he
    unfold stay at he
    split at he
    · rename_i h; rcases h with h | h
      · simp at he; exact ⟨by omega, he⟩
      · simp at h
    · simp at he
  have hpres : ∀ e ∈ moves p v alpha inverted true i ++ stay v ((n : Int) + 1) true 0 i,
      ∃ P, paths e.src = some P := by
    intro e he
    rcases List.mem_append.1 he with he | he
    · obtain ⟨l, j, hl, hs, rfl⟩ := mem_moves.1 he
      obtain ⟨P, hP, _⟩ := hpred _ ⟨l, j, hl, hs, rfl⟩
      exact ⟨P, hP⟩
    · obtain ⟨hn, rfl⟩ := hstay e he
      obtain ⟨P, hP, _⟩ := hprev hn
      exact ⟨P, hP⟩
  have hfin : ∃ e ∈ moves p v alpha inverted true i ++ stay v ((n : Int) + 1) true 0 i,
      ∃ P, paths e.src = some P ∧ P.cost + e.cost ≠ ⊤ := by
    by_cases hn : 0 < n
    · obtain ⟨P, hP, hOK⟩ := hprev hn
      refine ⟨{ src := { config := v.conf i, up := false }, cost := 0 }, ?_, P, hP, ?_⟩
      · rw [List.mem_append]; right
        unfold stay
        rw [if_pos (Or.inl (by omega))]; simp
      · simpa using hOK.fin
    · have hne : i ≠ base true v.boundIndices := fun h => h0 ⟨by omega, h⟩
      obtain ⟨l, hl⟩ := exists_pos hi hne
      have hl' := hi.lt_length hl
      have hs : step false (i.getD l 0) (v.boundIndices.getD l 0) = some (i.getD l 0 - 1) := by
        simp only [step, Bool.false_eq_true, if_false]; exact if_neg (by omega)
      obtain ⟨P, hP, hOK⟩ := hpred _ ⟨l, _, hl', hs, rfl⟩
      obtain ⟨q, hq, _⟩ := stepCost_up (alpha := alpha) (inverted := inverted) g hi hl' hs
      refine ⟨_, List.mem_append.2 (Or.inl (mem_moves.2 ⟨l, _, hl', hs, rfl⟩)), P, hP, ?_⟩
      simp only [hq]
      exact WithTop.add_ne_top.2 ⟨hOK.fin, WithTop.coe_ne_top⟩
  obtain ⟨e, he, P, hP, hok, hne, hmin⟩ :=
    handleConfig_ok g alpha inverted true ((n : Int) + 1) hi 0 (by simp) paths hpres hfin
  refine ⟨_, hok, ?_, ?_, ?_⟩
  · exact hne
  · -- soundness
    have hxs : (extendPath v true i e P).xs = P.xs := by simp [extendPath]
    have hcost : (extendPath v true i e P).cost = P.cost + e.cost := rfl
    rw [hxs, hcost]
    rcases List.mem_append.1 he with he | he
    · obtain ⟨l, j, hl, hs, rfl⟩ := mem_moves.1 he
      obtain ⟨P', hP', hOK⟩ := hpred _ ⟨l, j, hl, hs, rfl⟩
      rw [hP] at hP'; cases hP'
      obtain ⟨q, hq, hphi, hle⟩ := stepCost_up (alpha := alpha) (inverted := inverted) g hi hl hs
      obtain ⟨js, h1, h2, h3, h4⟩ := hOK.sound
      refine ⟨js, h1, h2, h3, ?_⟩
      simp only [hq]
      have hil : l < i.length := by rw [hi.1]; exact hl
      have hL := lastI_ok js h1
      have hup : upI p v (lastI v js) i ≤ upI p v (lastI v js) (i.set l j)
          + p.switchingCost.getD l 0 * ((v.val (i.getD l 0) : ℚ) - v.val j) := by
        have := upCost_set_le p.switchingCost st.beta (v.val j) (v.cfg (lastI v js)) (v.cfg i) l
          (by rw [cfg_length, g.scl, hi.1]) (by rw [cfg_length, g.scl, hL.1])
          (by rw [cfg_length]; exact hil) (by rw [cfg_getD v hil]; exact hle)
        rw [cfg_set, cfg_getD v hil] at this
        exact this
      calc obj p v alpha hit js + ((alpha * upI p v (lastI v js) i : ℚ) : ECost)
          ≤ obj p v alpha hit js + ((alpha * (upI p v (lastI v js) (i.set l j)
            + p.switchingCost.getD l 0 * ((v.val (i.getD l 0) : ℚ) - v.val j)) : ℚ) : ECost) :=
          add_le_add le_rfl (WithTop.coe_le_coe.2 (mul_le_mul_of_nonneg_left hup st.alpha))
        _ = (obj p v alpha hit js + ((alpha * upI p v (lastI v js) (i.set l j) : ℚ) : ECost))
            + ((alpha * (p.switchingCost.getD l 0 * ((v.val (i.getD l 0) : ℚ) - v.val j)) : ℚ)
              : ECost) := by rw [mul_add, WithTop.coe_add, add_assoc]
        _ ≤ (P.cost + ((phi p v alpha inverted (i.set l j) : ℚ) : ECost))
            + ((alpha * (p.switchingCost.getD l 0 * ((v.val (i.getD l 0) : ℚ) - v.val j)) : ℚ)
              : ECost) := add_le_add h4 le_rfl
        _ = P.cost + (q : ECost) + ((phi p v alpha inverted i : ℚ) : ECost) := by
          rw [add_assoc, add_assoc, ← WithTop.coe_add, ← WithTop.coe_add, hphi, add_comm (phi _ _ _ _ _)]
    · obtain ⟨hn, rfl⟩ := hstay e he
      obtain ⟨P', hP', hOK⟩ := hprev hn
      rw [hP] at hP'; cases hP'
      obtain ⟨js, h1, h2, h3, h4, h5⟩ := hOK.sound
      refine ⟨js, h1, h2, h3, ?_⟩
      rw [upI_of_le g hi (lastI_ok js h1) h4]
      simpa using h5
  · -- completeness
    intro js hjs hlen
    have hL := lastI_ok js hjs
    have hcost : (extendPath v true i e P).cost = P.cost + e.cost := rfl
    rw [hcost]
    by_cases hle : ∀ k, i.getD k 0 ≤ (lastI v js).getD k 0
    · by_cases hn : 0 < n
      · obtain ⟨P', hP', hOK⟩ := hprev hn
        have hmem : ({ src := { config := v.conf i, up := false }, cost := 0 } : Edge)
            ∈ moves p v alpha inverted true i ++ stay v ((n : Int) + 1) true 0 i := by
          rw [List.mem_append]; right
          unfold stay
          rw [if_pos (Or.inl (by omega))]; simp
        have h1 := hmin _ hmem P' hP'
        have h2 := hOK.complete js hjs hlen hle
        rw [upI_of_le g hi hL hle]
        simp only [mul_zero, WithTop.coe_zero, add_zero] at h1 ⊢
        exact (add_le_add h1 le_rfl).trans h2
      · exfalso
        apply h0
        refine ⟨by omega, ?_⟩
        have : js = [] := List.length_eq_zero_iff.1 (by omega)
        subst this
        exact hi.eq_of_getD (Ok.base true _) fun l _ => le_antisymm (hle l) (by
          rw [getD_base_true]; exact Nat.zero_le _)
    · push Not at hle
      obtain ⟨l, hl⟩ := hle
      have hl' := hi.lt_length hl
      have hil : l < i.length := by rw [hi.1]; exact hl'
      have hll : l < (lastI v js).length := by rw [hL.1]; exact hl'
      have hs : step false (i.getD l 0) (v.boundIndices.getD l 0) = some (i.getD l 0 - 1) := by
        simp only [step, Bool.false_eq_true, if_false]; exact if_neg (by omega)
      obtain ⟨P', hP', hOK⟩ := hpred _ ⟨l, _, hl', hs, rfl⟩
      obtain ⟨q, hq, hphi, hle⟩ := stepCost_up (alpha := alpha) (inverted := inverted) g hi hl' hs
      have h1 := hmin _ (List.mem_append.2 (Or.inl (mem_moves.2 ⟨l, _, hl', hs, rfl⟩))) P' hP'
      have h2 := hOK.complete js hjs hlen
      simp only [hq] at h1
      have hup : upI p v (lastI v js) i = upI p v (lastI v js) (i.set l (i.getD l 0 - 1))
          + p.switchingCost.getD l 0 * ((v.val (i.getD l 0) : ℚ) - v.val (i.getD l 0 - 1)) := by
        have := upCost_set_eq p.switchingCost (v.val (i.getD l 0 - 1)) (v.cfg (lastI v js)) (v.cfg i) l
          (by rw [cfg_length, g.scl, hi.1]) (by rw [cfg_length, g.scl, hL.1])
          (by rw [cfg_length]; exact hil) (by rw [cfg_getD v hil]; exact hle)
          (by rw [cfg_getD v hll]; exact g.val_le (by omega) (by have := hi.lt g l; omega))
        rw [cfg_set, cfg_getD v hil] at this
        exact this
      calc P.cost + e.cost + ((phi p v alpha inverted i : ℚ) : ECost)
          ≤ P'.cost + (q : ECost) + ((phi p v alpha inverted i : ℚ) : ECost) := add_le_add h1 le_rfl
        _ = (P'.cost + ((phi p v alpha inverted (i.set l (i.getD l 0 - 1)) : ℚ) : ECost))
            + ((alpha * (p.switchingCost.getD l 0
              * ((v.val (i.getD l 0) : ℚ) - v.val (i.getD l 0 - 1))) : ℚ) : ECost) := by
          rw [add_assoc, add_assoc, ← WithTop.coe_add, ← WithTop.coe_add, hphi, add_comm (phi _ _ _ _ _)]
        _ ≤ (obj p v alpha hit js
              + ((alpha * upI p v (lastI v js) (i.set l (i.getD l 0 - 1)) : ℚ) : ECost))
            + ((alpha * (p.switchingCost.getD l 0
              * ((v.val (i.getD l 0) : ℚ) - v.val (i.getD l 0 - 1))) : ℚ) : ECost) :=
          add_le_add h2 le_rfl
        _ = obj p v alpha hit js + ((alpha * upI p v (lastI v js) i : ℚ) : ECost) := by
          rw [hup, mul_add, WithTop.coe_add, add_assoc]

theorem visit_down (st : Setting p v alpha hit) {n : Nat} (hn : (n : Int) + 1 ≤ p.tEnd)
    (hfb : hit ((n : Int) + 1) p.bounds ≠ ⊤)
    (paths : Paths Vertex) {i : List Nat} (hi : Ok v.boundIndices i)
    (hpred : ∀ i', Pred false v.boundIndices i' i → ∃ P,
      paths { config := v.conf i', up := false } = some P ∧
      DownOK p v alpha inverted hit (n + 1) i' P)
    (hup : ∃ P, paths { config := v.conf i, up := true } = some P ∧
      UpOK p v alpha inverted hit n i P) :
    ∃ P, handleConfig p alpha inverted ((n : Int) + 1) v.boundIndices.length false v paths (v.conf i)
        = .ok (paths.insert { config := v.conf i, up := false } P) ∧
      DownOK p v alpha inverted hit (n + 1) i P := by
  have g := st.grid
  set hc := hit ((n : Int) + 1) (v.cfg i) with hhc
  obtain ⟨U, hU, hUOK⟩ := hup
  have hstay : stay v ((n : Int) + 1) false hc i
      = [{ src := { config := v.conf i, up := true }, cost := hc }] := by simp [stay]
  have hmemstay : ({ src := { config := v.conf i, up := true }, cost := hc } : Edge)
      ∈ moves p v alpha inverted false i ++ stay v ((n : Int) + 1) false hc i := by
    rw [hstay]; simp
  have hpres : ∀ e ∈ moves p v alpha inverted false i ++ stay v ((n : Int) + 1) false hc i,
      ∃ P, paths e.src = some P := by
    intro e he
    rcases List.mem_append.1 he with he | he
    · obtain ⟨l, j, hl, hs, rfl⟩ := mem_moves.1 he
      obtain ⟨P, hP, _⟩ := hpred _ ⟨l, j, hl, hs, rfl⟩
      exact ⟨P, hP⟩
    · rw [hstay] at he
      rw [List.mem_singleton.1 he]; exact ⟨U, hU⟩
  have hfin : ∃ e ∈ moves p v alpha inverted false i ++ stay v ((n : Int) + 1) false hc i,
      ∃ P, paths e.src = some P ∧ P.cost + e.cost ≠ ⊤ := by
    by_cases hb : i = v.boundIndices
    · refine ⟨_, hmemstay, U, hU, WithTop.add_ne_top.2 ⟨hUOK.fin, ?_⟩⟩
      have : v.cfg i = p.bounds := by rw [hb, g.bounds]; rfl
      simp only [hhc, this]; exact hfb
    · obtain ⟨l, hl⟩ := exists_lt_bound hi hb
      have hl' : l < v.boundIndices.length :=
        Ok.lt_length (⟨rfl, fun _ => le_rfl⟩ : Ok v.boundIndices v.boundIndices) hl
      have hs : step true (i.getD l 0) (v.boundIndices.getD l 0) = some (i.getD l 0 + 1) := by
        simp only [step, if_true]; exact if_neg (by omega)
      obtain ⟨P, hP, hOK⟩ := hpred _ ⟨l, _, hl', hs, rfl⟩
      obtain ⟨q, hq, _⟩ := stepCost_down (alpha := alpha) (inverted := inverted) g hi hl' hs
      refine ⟨_, List.mem_append.2 (Or.inl (mem_moves.2 ⟨l, _, hl', hs, rfl⟩)), P, hP, ?_⟩
      simp only [hq]
      exact WithTop.add_ne_top.2 ⟨hOK.fin, WithTop.coe_ne_top⟩
  obtain ⟨e, he, P, hP, hok, hne, hmin⟩ :=
    handleConfig_ok g alpha inverted false ((n : Int) + 1) hi hc
      (fun _ => st.hit _ (by omega) hn i hi) paths hpres hfin
  have hcost : (extendPath v false i e P).cost = P.cost + e.cost := rfl
  refine ⟨_, hok, hne, ?_, ?_⟩
  · -- soundness
    rcases List.mem_append.1 he with he | he
    · obtain ⟨l, j, hl, hs, rfl⟩ := mem_moves.1 he
      obtain ⟨P', hP', hOK⟩ := hpred _ ⟨l, j, hl, hs, rfl⟩
      rw [hP] at hP'; cases hP'
      obtain ⟨q, hq, hphi⟩ := stepCost_down (alpha := alpha) (inverted := inverted) g hi hl hs
      obtain ⟨js, h1, h2, h3, h4, h5⟩ := hOK.sound
      refine ⟨js, h1, h2, by simpa [extendPath] using h3, ?_, ?_⟩
      · intro k
        refine le_trans ?_ (h4 k)
        by_cases hk : l = k
        · subst hk
          rw [getD_set_self (by rw [hi.1]; exact hl)]
          simp only [step, Bool.not_false, if_true] at hs
          split at hs
          · simp at hs
          · simp at hs; simp at *; omega
        · rw [getD_set_ne hk]
      · rw [hcost]
        simp only [hq]
        rw [add_assoc, ← WithTop.coe_add, hphi]
        exact h5
    · rw [hstay] at he
      rw [List.mem_singleton.1 he] at hP hcost ⊢
      rw [hU] at hP; cases hP
      obtain ⟨js, h1, h2, h3, h4⟩ := hUOK.sound
      refine ⟨js ++ [i], ?_, by simp [h2], by simp [extendPath, h3], ?_, ?_⟩
      · intro j hj
        rcases List.mem_append.1 hj with hj | hj
        · exact h1 j hj
        · rw [List.mem_singleton.1 hj]; exact hi
      · intro k; simp [lastI]
      · rw [hcost, obj_snoc, h2]
        calc obj p v alpha hit js
              + (hit ((n : Int) + 1) (v.cfg i) + ((alpha * upI p v (lastI v js) i : ℚ) : ECost))
            = (obj p v alpha hit js + ((alpha * upI p v (lastI v js) i : ℚ) : ECost)) + hc := by
              rw [hhc]; abel
          _ ≤ (U.cost + ((phi p v alpha inverted i : ℚ) : ECost)) + hc := add_le_add h4 le_rfl
          _ = U.cost + hc + ((phi p v alpha inverted i : ℚ) : ECost) := by abel
  · -- completeness
    intro js hjs hlen hle
    have hL := lastI_ok js hjs
    rw [hcost]
    by_cases heq : i = lastI v js
    · obtain ⟨js', j, rfl⟩ : ∃ js' j, js = js' ++ [j] :=
        ⟨js.dropLast, js.getLast (by intro h; simp [h] at hlen),
          (List.dropLast_append_getLast _).symm⟩
      have hij : i = j := by simpa [lastI] using heq
      subst hij
      have hlen' : js'.length = n := by simpa using hlen
      have h1 := hmin _ hmemstay U hU
      have h2 := hUOK.complete js' (fun j hj => hjs j (by simp [hj])) hlen'
      rw [obj_snoc, hlen']
      calc P.cost + e.cost + ((phi p v alpha inverted i : ℚ) : ECost)
          ≤ U.cost + hc + ((phi p v alpha inverted i : ℚ) : ECost) := add_le_add h1 le_rfl
        _ = (U.cost + ((phi p v alpha inverted i : ℚ) : ECost)) + hc := by abel
        _ ≤ (obj p v alpha hit js' + ((alpha * upI p v (lastI v js') i : ℚ) : ECost)) + hc :=
          add_le_add h2 le_rfl
        _ = _ := by rw [hhc]; abel
    · obtain ⟨l, hl⟩ : ∃ l, i.getD l 0 < (lastI v js).getD l 0 := by
        by_contra hc'
        push Not at hc'
        exact heq (hi.eq_of_getD hL fun l _ => le_antisymm (hle l) (hc' l))
      have hl' := hL.lt_length hl
      have hlb := hL.2 l
      have hs : step true (i.getD l 0) (v.boundIndices.getD l 0) = some (i.getD l 0 + 1) := by
        simp only [step, if_true]; exact if_neg (by omega)
      obtain ⟨P', hP', hOK⟩ := hpred _ ⟨l, _, hl', hs, rfl⟩
      obtain ⟨q, hq, hphi⟩ := stepCost_down (alpha := alpha) (inverted := inverted) g hi hl' hs
      have h1 := hmin _ (List.mem_append.2 (Or.inl (mem_moves.2 ⟨l, _, hl', hs, rfl⟩))) P' hP'
      simp only [hq] at h1
      have h2 := hOK.complete js hjs hlen (by
        intro k
        by_cases hk : l = k
        · subst hk
          rw [getD_set_self (by rw [hi.1]; exact hl')]; omega
        · rw [getD_set_ne hk]; exact hle k)
      refine (add_le_add h1 le_rfl).trans ?_
      rw [add_assoc, ← WithTop.coe_add, hphi]
      exact h2

theorem insert_self (paths : Paths Vertex) (w : Vertex) (P : Path) : paths.insert w P w = some P := by
  simp [Paths.insert]

theorem insert_ne (paths : Paths Vertex) {w u : Vertex} (h : u ≠ w) (P : Path) :
    paths.insert w P u = paths u := by
  simp [Paths.insert, h]

/-- All vertices of the upward (downward) layer of a slot have correct paths. -/
def AllUp (p : SSCO ℤ C D) (v : Values) (alpha : ℚ) (inverted : Bool) (hit : Int → Config ℤ → ECost)
    (n : Nat) (paths : Paths Vertex) : Prop :=
  ∀ i, Ok v.boundIndices i → ∃ P, paths { config := v.conf i, up := true } = some P ∧
    UpOK p v alpha inverted hit n i P

/-- See `AllUp`. -/
def AllDown (p : SSCO ℤ C D) (v : Values) (alpha : ℚ) (inverted : Bool) (hit : Int → Config ℤ → ECost)
    (n : Nat) (paths : Paths Vertex) : Prop :=
  ∀ i, Ok v.boundIndices i → ∃ P, paths { config := v.conf i, up := false } = some P ∧
    DownOK p v alpha inverted hit n i P

theorem layer_up (st : Setting p v alpha hit) {n : Nat} (paths : Paths Vertex)
    (hprev : 0 < n → AllDown p v alpha inverted hit n paths) :
    ∃ paths', handleLayer p alpha inverted ((n : Int) + 1) true v paths = .ok paths' ∧
      AllUp p v alpha inverted hit n paths' := by
  rw [handleLayer_eq alpha inverted _ true st.grid st.dpos]
  suffices h : ∀ (L : List (List Nat)), (∀ i ∈ L, Ok v.boundIndices i) →
      ∀ (S : Set (List Nat)), ClosedFrom (Pred true v.boundIndices) S L → ∀ (paths : Paths Vertex),
      (0 < n → AllDown p v alpha inverted hit n paths) →
      (∀ i ∈ S, ∃ P, paths { config := v.conf i, up := true } = some P ∧
        UpOK p v alpha inverted hit n i P) →
      ∃ paths', (L.map v.conf).foldlM (handleConfig p alpha inverted ((n : Int) + 1)
        v.boundIndices.length true v) paths = .ok paths' ∧
        ∀ i, (i ∈ S ∨ i ∈ L) → ∃ P, paths' { config := v.conf i, up := true } = some P ∧
          UpOK p v alpha inverted hit n i P by
    obtain ⟨paths', h1, h2⟩ := h _ (fun i hi => mem_ord_iff.1 hi) ∅ (closedFrom_ord le_rfl) paths
      hprev (by simp)
    exact ⟨paths', h1, fun i hi => h2 i (Or.inr (mem_ord_iff.2 hi))⟩
  intro L
  induction L with
  | nil => intro _ S _ paths _ hS; exact ⟨paths, rfl, fun i hi => hS i (by simpa using hi)⟩
  | cons i L ih =>
    intro hL S hcl paths hprev hS
    have hi := hL i (by simp)
    obtain ⟨P, h1, h2⟩ := visit_up st paths hi (fun i' hi' => hS i' (hcl.1 i' hi'))
      (fun hn => hprev hn i hi)
    obtain ⟨paths', h3, h4⟩ := ih (fun x hx => hL x (by simp [hx])) (insert i S) hcl.2
      (paths.insert { config := v.conf i, up := true } P) (by
        intro hn x hx
        rw [insert_ne _ (by simp)]; exact hprev hn x hx) (by
        intro x hx
        by_cases hxi : x = i
        · subst hxi; exact ⟨P, insert_self _ _ _, h2⟩
        · rw [insert_ne _ (by simp [conf_inj, hxi])]
          exact hS x (by simpa [hxi] using hx))
    refine ⟨paths', ?_, ?_⟩
    · rw [List.map_cons, foldlM_cons', h1]; exact h3
    · intro x hx
      apply h4
      simp only [List.mem_cons, Set.mem_insert_iff] at hx ⊢
      tauto

theorem layer_down (st : Setting p v alpha hit) {n : Nat} (hn : (n : Int) + 1 ≤ p.tEnd)
    (hfb : hit ((n : Int) + 1) p.bounds ≠ ⊤) (paths : Paths Vertex)
    (hup : AllUp p v alpha inverted hit n paths) :
    ∃ paths', handleLayer p alpha inverted ((n : Int) + 1) false v paths = .ok paths' ∧
      AllDown p v alpha inverted hit (n + 1) paths' := by
  rw [handleLayer_eq alpha inverted _ false st.grid st.dpos]
  suffices h : ∀ (L : List (List Nat)), (∀ i ∈ L, Ok v.boundIndices i) →
      ∀ (S : Set (List Nat)), ClosedFrom (Pred false v.boundIndices) S L → ∀ (paths : Paths Vertex),
      AllUp p v alpha inverted hit n paths →
      (∀ i ∈ S, ∃ P, paths { config := v.conf i, up := false } = some P ∧
        DownOK p v alpha inverted hit (n + 1) i P) →
      ∃ paths', (L.map v.conf).foldlM (handleConfig p alpha inverted ((n : Int) + 1)
        v.boundIndices.length false v) paths = .ok paths' ∧
        ∀ i, (i ∈ S ∨ i ∈ L) → ∃ P, paths' { config := v.conf i, up := false } = some P ∧
          DownOK p v alpha inverted hit (n + 1) i P by
    obtain ⟨paths', h1, h2⟩ := h _ (fun i hi => mem_ord_iff.1 hi) ∅ (closedFrom_ord le_rfl) paths
      hup (by simp)
    exact ⟨paths', h1, fun i hi => h2 i (Or.inr (mem_ord_iff.2 hi))⟩
  intro L
  induction L with
  | nil => intro _ S _ paths _ hS; exact ⟨paths, rfl, fun i hi => hS i (by simpa using hi)⟩
  | cons i L ih =>
    intro hL S hcl paths hup hS
    have hi := hL i (by simp)
    obtain ⟨P, h1, h2⟩ := visit_down st hn hfb paths hi (fun i' hi' => hS i' (hcl.1 i' hi'))
      (hup i hi)
    obtain ⟨paths', h3, h4⟩ := ih (fun x hx => hL x (by simp [hx])) (insert i S) hcl.2
      (paths.insert { config := v.conf i, up := false } P) (by
        intro x hx
        rw [insert_ne _ (by simp)]; exact hup x hx) (by
        intro x hx
        by_cases hxi : x = i
        · subst hxi; exact ⟨P, insert_self _ _ _, h2⟩
        · rw [insert_ne _ (by simp [conf_inj, hxi])]
          exact hS x (by simpa [hxi] using hx))
    refine ⟨paths', ?_, ?_⟩
    · rw [List.map_cons, foldlM_cons', h1]; exact h3
    · intro x hx
      apply h4
      simp only [List.mem_cons, Set.mem_insert_iff] at hx ⊢
      tauto

/-- If the highest configuration has infinite cost, the downward layer panics. -/
theorem layer_down_panic (st : Setting p v alpha hit) {n : Nat} (hn : (n : Int) + 1 ≤ p.tEnd)
    (hfb : hit ((n : Int) + 1) p.bounds = ⊤) (paths : Paths Vertex) :
    handleLayer p alpha inverted ((n : Int) + 1) false v paths = .error .panic := by
  have g := st.grid
  rw [handleLayer_eq alpha inverted _ false st.grid st.dpos]
  obtain ⟨L, hL⟩ : ∃ L, ord false v.boundIndices v.boundIndices.length = v.boundIndices :: L := by
    generalize v.boundIndices.length = m
    induction m with
    | zero => exact ⟨[], rfl⟩
    | succ m ih => obtain ⟨L, hL⟩ := ih; exact ⟨_, by rw [ord, hL]; rfl⟩
  rw [hL, List.map_cons, foldlM_cons']
  have hb : Ok v.boundIndices v.boundIndices := ⟨rfl, fun _ => le_rfl⟩
  have hcfg : v.cfg v.boundIndices = p.bounds := by rw [g.bounds]; rfl
  have hedges : moves p v alpha inverted false v.boundIndices = [] := by
    rw [List.eq_nil_iff_forall_not_mem]
    intro e he
    obtain ⟨l, j, hl, hs, _⟩ := mem_moves.1 he
    simp [step] at hs
  have hpr := findPredecessors_ok g alpha inverted false ((n : Int) + 1) hb ⊤ (fun _ => by
    obtain ⟨o, ho⟩ := st.hit ((n : Int) + 1) (by omega) hn _ hb
    rw [hcfg, hfb] at ho; rw [hcfg]; exact ⟨o, ho⟩) (Or.inr (by rw [hedges]; simp [stay]))
  have hpanic := findOptimal_panic paths (moves p v alpha inverted false v.boundIndices
    ++ stay v ((n : Int) + 1) false ⊤ v.boundIndices) (by rw [hedges]; simp [stay])
    (by rw [hedges]; simp [stay])
  simp only [handleConfig, hpr, hpanic, bind, Except.bind]

end Soco.Multi
