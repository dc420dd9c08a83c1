import Verif.Lemmas.RoundedUni

/-! # Uni-dimensional graph search with rounded arithmetic: states that are too large are not chosen -/

namespace Soco
namespace Uni.Rounded

variable {C D : Type} [OutSuccess C] [OutFailure D]

/-- Costs grow beyond `κ`, also as computed. -/
structure Caps (fl : ℚ → ℚ) (p : SSCO ℤ C D) (alpha : ℚ) (inverted : Bool) (R : Int → List ℤ) (xStart κ : ℤ) (H : Int → ℤ → ECost)
    (r : ℤ → ℤ → ℚ) : Prop where
  mono : ∀ x y, 0 ≤ x → x ≤ y → fl x ≤ fl y
  fl0 : ∀ x, 0 ≤ x → 0 ≤ fl x
  alpha0 : 0 ≤ alpha
  hit : ∀ t : Int, 1 ≤ t → t ≤ p.tEnd → ∀ j ∈ R t, ∃ o, p.toProb.hitCost t [j] = .ok ⟨H t j, o⟩
  hit0 : ∀ t : Int, 1 ≤ t → t ≤ p.tEnd → ∀ j ∈ R t, 0 ≤ H t j
  hitUp : ∀ t : Int, 1 ≤ t → t ≤ p.tEnd → ∀ j ∈ R t, κ < j → κ ∈ R t ∧ H t κ ≤ H t j
  mov : ∀ i j, Soco.Rounded.scaledMovement fl p.switchingCost [j] [i] inverted = .ok (r i j)
  mov0 : ∀ i j, 0 ≤ r i j
  movUp : ∀ s j, κ < j → r (min s κ) κ ≤ r s j
  movDown : ∀ s j, j ≤ κ → κ < s → r κ j ≤ r s j
  sorted : ∀ t, (R t).Pairwise (· ≤ ·)
  start : xStart ≤ κ

/-- The cost of an edge, as computed. -/
def edge (fl : ℚ → ℚ) (alpha : ℚ) (H : Int → ℤ → ECost) (r : ℤ → ℤ → ℚ) (t : Int) (i j : ℤ) : ECost :=
  addFl fl (H t j) ((fl (alpha * r i j) : ℚ) : ECost)

/-- The cost of the best path to a vertex, as computed. -/
def best (fl : ℚ → ℚ) (alpha : ℚ) (H : Int → ℤ → ECost) (r : ℤ → ℤ → ℚ) (R : Int → List ℤ) (xStart : ℤ) : Nat → ℤ → ECost
  | 0, _ => 0
  | n + 1, j => ((before R xStart n).map fun s =>
      addFl fl (best fl alpha H r R xStart n s) (edge fl alpha H r ((n : Int) + 1) s j)).foldr min ⊤

theorem foldr_min_le {l : List ECost} {x : ECost} (h : x ∈ l) : l.foldr min ⊤ ≤ x := by
  induction l with
  | nil => simp at h
  | cons a l ih =>
    rcases List.mem_cons.1 h with rfl | h
    · exact min_le_left _ _
    · exact (min_le_right _ _).trans (ih h)

theorem foldr_min_mem (l : List ECost) : l.foldr min ⊤ = ⊤ ∨ l.foldr min ⊤ ∈ l := by
  induction l with
  | nil => exact .inl rfl
  | cons a l ih =>
    simp only [List.foldr_cons]
    rcases min_choice a (l.foldr min ⊤) with h | h <;> rw [h]
    · exact .inr (by simp)
    · rcases ih with h' | h'
      · exact .inl h'
      · exact .inr (by simp [h'])

theorem addFl_mono {fl : ℚ → ℚ} (mono : ∀ x y, 0 ≤ x → x ≤ y → fl x ≤ fl y) {a b a' b' : ECost} (ha : 0 ≤ a) (hb : 0 ≤ b)
    (h1 : a ≤ a') (h2 : b ≤ b') : addFl fl a b ≤ addFl fl a' b' := by
  rcases ecases a' with h | ⟨x', hx'⟩
  · rw [h, addFl_top_left]; exact le_top
  rcases ecases b' with h | ⟨y', hy'⟩
  · rw [h, addFl_top_right]; exact le_top
  subst hx' hy'
  rcases ecases a with h | ⟨x, hx⟩
  · rw [h, top_le_iff] at h1; cases h1
  rcases ecases b with h | ⟨y, hy⟩
  · rw [h, top_le_iff] at h2; cases h2
  subst hx hy
  rw [addFl_coe, addFl_coe, WithTop.coe_le_coe]
  have e1 : (0 : ℚ) ≤ x := by exact_mod_cast ha
  have e2 : (0 : ℚ) ≤ y := by exact_mod_cast hb
  have e3 : x ≤ x' := by exact_mod_cast h1
  have e4 : y ≤ y' := by exact_mod_cast h2
  exact mono _ _ (add_nonneg e1 e2) (add_le_add e3 e4)

theorem addFl_nonneg {fl : ℚ → ℚ} (fl0 : ∀ x, 0 ≤ x → 0 ≤ fl x) {a b : ECost} (ha : 0 ≤ a) (hb : 0 ≤ b) : 0 ≤ addFl fl a b := by
  rcases ecases a with h | ⟨x, hx⟩
  · rw [h, addFl_top_left]; exact le_top
  rcases ecases b with h | ⟨y, hy⟩
  · rw [h, addFl_top_right]; exact le_top
  subst hx hy
  rw [addFl_coe]
  have e1 : (0 : ℚ) ≤ x := by exact_mod_cast ha
  have e2 : (0 : ℚ) ≤ y := by exact_mod_cast hb
  exact_mod_cast fl0 _ (add_nonneg e1 e2)

variable {fl : ℚ → ℚ} {p : SSCO ℤ C D} {rows : Int → Res (List ℤ)} {alpha : ℚ} {inverted : Bool} {xStart κ : ℤ}
  {R : Int → List ℤ} {H : Int → ℤ → ECost} {r : ℤ → ℤ → ℚ}

theorem edge_nonneg (K : Caps fl p alpha inverted R xStart κ H r) {t : Int} (h1 : 1 ≤ t) (h2 : t ≤ p.tEnd) (i : ℤ) {j : ℤ}
    (hj : j ∈ R t) : 0 ≤ edge fl alpha H r t i j :=
  addFl_nonneg K.fl0 (K.hit0 t h1 h2 j hj) (by exact_mod_cast K.fl0 _ (mul_nonneg K.alpha0 (K.mov0 i j)))

theorem best_nonneg (K : Caps fl p alpha inverted R xStart κ H r) : ∀ n : Nat, (n : Int) ≤ p.tEnd → ∀ j ∈ before R xStart n,
    0 ≤ best fl alpha H r R xStart n j := by
  intro n
  induction n with
  | zero => intro _ j _; exact le_rfl
  | succ n ih =>
    intro hn j hj
    push_cast at hn
    have hj' : j ∈ R ((n : Int) + 1) := by simpa [before] using hj
    simp only [best]
    rcases foldr_min_mem ((before R xStart n).map fun s =>
      addFl fl (best fl alpha H r R xStart n s) (edge fl alpha H r ((n : Int) + 1) s j)) with h | h
    · rw [h]; exact le_top
    · obtain ⟨s, hs, e⟩ := List.mem_map.1 h
      rw [← e]
      exact addFl_nonneg K.fl0 (ih (by omega) s hs) (edge_nonneg K (by omega) hn s hj')

theorem best_up (K : Caps fl p alpha inverted R xStart κ H r) : ∀ n : Nat, (n : Int) ≤ p.tEnd → ∀ j ∈ before R xStart n, κ < j →
    κ ∈ before R xStart n ∧ best fl alpha H r R xStart n κ ≤ best fl alpha H r R xStart n j := by
  intro n
  induction n with
  | zero =>
    intro _ j hj hlt
    have : j = xStart := by simpa [before] using hj
    have := K.start
    omega
  | succ n ih =>
    intro hn j hj hlt
    push_cast at hn
    have hb : before R xStart (n + 1) = R ((n : Int) + 1) := by simp [before]
    rw [hb] at hj ⊢
    obtain ⟨hκ, hH⟩ := K.hitUp _ (by omega) hn j hj hlt
    refine ⟨hκ, ?_⟩
    simp only [best]
    rcases foldr_min_mem ((before R xStart n).map fun s =>
      addFl fl (best fl alpha H r R xStart n s) (edge fl alpha H r ((n : Int) + 1) s j)) with h | h
    · rw [h]; exact le_top
    · obtain ⟨s, hs, e⟩ := List.mem_map.1 h
      rw [← e]
      have hs' : min s κ ∈ before R xStart n ∧ best fl alpha H r R xStart n (min s κ) ≤ best fl alpha H r R xStart n s := by
        rcases le_or_gt s κ with h' | h'
        · rw [min_eq_left h']; exact ⟨hs, le_rfl⟩
        · rw [min_eq_right h'.le]; exact ih (by omega) s hs h'
      refine (foldr_min_le (List.mem_map.2 ⟨min s κ, hs'.1, rfl⟩)).trans ?_
      refine addFl_mono K.mono (best_nonneg K n (by omega) _ hs'.1) (edge_nonneg K (by omega) hn _ hκ) hs'.2 ?_
      refine addFl_mono K.mono (K.hit0 _ (by omega) hn _ hκ)
        (by exact_mod_cast K.fl0 _ (mul_nonneg K.alpha0 (K.mov0 _ _))) hH ?_
      exact WithTop.coe_le_coe.2 (K.mono _ _ (mul_nonneg K.alpha0 (K.mov0 _ _))
        (mul_le_mul_of_nonneg_left (K.movUp s j hlt) K.alpha0))

/-- The first of the cheapest sources is picked. -/
theorem foldlM_first {paths : Paths Vertex} {t : Int} {dst : ℤ} {C' : ℤ → ECost} :
    ∀ (src : List ℤ) (s0 : ℤ) (c0 : ECost), src.Pairwise (· ≤ ·) →
    (∀ s ∈ src, ∃ P, paths (t - 1, s) = some P ∧ ∃ c, buildCost fl p t s dst alpha inverted = .ok c ∧
      C' s = addFl fl P.cost c) →
    ∃ s c, src.foldlM (pickSource fl p paths t dst alpha inverted) (s0, c0) = .ok (s, c) ∧
      c = (src.map C').foldr min c0 ∧
      ((s = s0 ∧ c = c0) ∨ (s ∈ src ∧ c = C' s ∧ c < c0 ∧ ∀ s' ∈ src, s' < s → c < C' s')) := by
  intro src
  induction src with
  | nil => intro s0 c0 _ _; exact ⟨s0, c0, rfl, rfl, .inl ⟨rfl, rfl⟩⟩
  | cons a src ih =>
    intro s0 c0 hp h
    obtain ⟨hp1, hp2⟩ := List.pairwise_cons.1 hp
    obtain ⟨P, hP, c, hc, hC⟩ := h a (by simp)
    have hstep : pickSource fl p paths t dst alpha inverted (s0, c0) a
        = .ok (if C' a < c0 then (a, C' a) else (s0, c0)) := by
      simp only [pickSource, Paths.at, hP, hc, bind, Except.bind, hC]
    have hmin : ∀ (l : List ECost) (x y : ECost), l.foldr min (min x y) = min x (l.foldr min y) := by
      intro l x y
      induction l with
      | nil => rfl
      | cons b l ih => simp only [List.foldr_cons, ih]; rw [min_left_comm]
    by_cases hlt : C' a < c0
    · obtain ⟨s, c', h1, h2, h3⟩ := ih a (C' a) hp2 fun s hs => h s (by simp [hs])
      refine ⟨s, c', ?_, ?_, .inr ?_⟩
      · rw [Multi.foldlM_cons', hstep, if_pos hlt]; exact h1
      · rw [h2, List.map_cons, List.foldr_cons, ← hmin, min_eq_left hlt.le]
      · rcases h3 with ⟨rfl, rfl⟩ | ⟨h5, h6, h7, h8⟩
        · refine ⟨by simp, rfl, hlt, ?_⟩
          intro s' hs' hlt'
          rcases List.mem_cons.1 hs' with rfl | hs'
          · omega
          · have := hp1 s' hs'; omega
        · refine ⟨by simp [h5], h6, h7.trans hlt, ?_⟩
          intro s' hs' hlt'
          rcases List.mem_cons.1 hs' with rfl | hs'
          · exact h7
          · exact h8 s' hs' hlt'
    · obtain ⟨s, c', h1, h2, h3⟩ := ih s0 c0 hp2 fun s hs => h s (by simp [hs])
      refine ⟨s, c', ?_, ?_, ?_⟩
      · rw [Multi.foldlM_cons', hstep, if_neg hlt]; exact h1
      · rw [h2, List.map_cons, List.foldr_cons, ← hmin, min_eq_right (not_lt.1 hlt)]
      · rcases h3 with h | ⟨h5, h6, h7, h8⟩
        · exact .inl h
        · refine .inr ⟨by simp [h5], h6, h7, ?_⟩
          intro s' hs' hlt'
          rcases List.mem_cons.1 hs' with rfl | hs'
          · exact lt_of_lt_of_le h7 (not_lt.1 hlt)
          · exact h8 s' hs' hlt'

/-- The entries of vertices up to `κ` never leave the states up to `κ`. -/
def CapEntry (fl : ℚ → ℚ) (alpha : ℚ) (H : Int → ℤ → ECost) (r : ℤ → ℤ → ℚ) (R : Int → List ℤ) (xStart κ : ℤ) (n : Nat) (s : ℤ)
    (P : Path) : Prop :=
  P.cost = best fl alpha H r R xStart n s ∧ (s ≤ κ → P.cost ≠ ⊤ → ∀ x ∈ P.xs, ∃ j ≤ κ, x = [j])

theorem cap_keeps (K : Caps fl p alpha inverted R xStart κ H r) :
    StepKeeps fl p alpha inverted R xStart (CapEntry fl alpha H r R xStart κ) := by
  intro n hn hne paths hin dst hdst
  have e1 : (n : Int) + 1 - 1 = n := by ring
  have hsorted : (before R xStart n).Pairwise (· ≤ ·) := by
    unfold before
    split_ifs
    · simp
    · exact K.sorted _
  have hbuild : ∀ s, buildCost fl p ((n : Int) + 1) s dst alpha inverted = .ok (edge fl alpha H r ((n : Int) + 1) s dst) := by
    intro s
    obtain ⟨o, ho⟩ := K.hit _ (by omega) hn dst hdst
    simp only [buildCost, ho, K.mov, bind, Except.bind, edge]
  obtain ⟨first, rest, hsrc⟩ : ∃ a l, before R xStart n = a :: l := by
    rcases h : before R xStart n with _ | ⟨a, l⟩
    · exact absurd h hne
    · exact ⟨a, l, rfl⟩
  obtain ⟨s, c, h1, h2, h3⟩ := foldlM_first (fl := fl) (p := p) (paths := paths) (t := (n : Int) + 1) (dst := dst) (alpha := alpha)
    (inverted := inverted)
    (C' := fun s => addFl fl (best fl alpha H r R xStart n s) (edge fl alpha H r ((n : Int) + 1) s dst)) (before R xStart n) first ⊤
    hsorted (by
      intro s hs
      obtain ⟨P, hP, hE⟩ := hin s hs
      exact ⟨P, by rw [e1]; exact hP, _, hbuild s, by rw [hE.1]⟩)
  have hs : s ∈ before R xStart n := by
    rcases h3 with ⟨rfl, _⟩ | h
    · rw [hsrc]; simp
    · exact h.1
  obtain ⟨P, hP, hE⟩ := hin s hs
  refine ⟨⟨P.xs.extend [dst], c⟩, ?_, ?_, ?_⟩
  · have h1' := h1
    rw [hsrc] at h1' ⊢
    simp only [findShortestSubpath, idx, List.getElem?_cons_zero, bind, Except.bind] at h1' ⊢
    rw [h1']
    simp only [updatePaths, e1, Paths.at, hP, bind, Except.bind]
  · exact h2
  · intro hle hfin x hx
    simp only at hfin hx
    rcases h3 with ⟨_, h⟩ | ⟨_, hc, _, hfirst⟩
    · exact absurd h hfin
    have hsκ : s ≤ κ := by
      by_contra hgt
      push Not at hgt
      obtain ⟨hκ, hbest⟩ := best_up K n (by omega) s hs hgt
      have hlt := hfirst κ hκ hgt
      refine absurd hlt (not_lt.2 ?_)
      rw [hc]
      refine addFl_mono K.mono (best_nonneg K n (by omega) _ hκ) (edge_nonneg K (by omega) hn _ hdst) hbest ?_
      refine addFl_mono K.mono (K.hit0 _ (by omega) hn _ hdst)
        (by exact_mod_cast K.fl0 _ (mul_nonneg K.alpha0 (K.mov0 _ _))) le_rfl ?_
      exact WithTop.coe_le_coe.2 (K.mono _ _ (mul_nonneg K.alpha0 (K.mov0 _ _))
        (mul_le_mul_of_nonneg_left (K.movDown s dst hle hgt) K.alpha0))
    have hPfin : P.cost ≠ ⊤ := by
      intro h
      rw [hE.1] at h
      rw [hc] at hfin
      simp only [h, addFl_top_left] at hfin
      exact hfin rfl
    simp only [Schedule.extend, List.mem_append, List.mem_singleton] at hx
    rcases hx with hx | rfl
    · exact hE.2 hsκ hPfin x hx
    · exact ⟨dst, hle, rfl⟩

theorem findSchedule_capped (K : Caps fl p alpha inverted R xStart κ H r) (hT : 0 ≤ p.tEnd)
    (hrows : ∀ t : Int, 1 ≤ t → t ≤ p.tEnd → rows t = .ok (R t)) (hne : ∀ t : Int, 1 ≤ t → t ≤ p.tEnd → R t ≠ [])
    {P : Path} (hP : findSchedule fl p rows alpha inverted xStart = .ok P) (hfin : P.cost ≠ ⊤) : ∀ x ∈ P.xs, ∃ j ≤ κ, x = [j] := by
  obtain ⟨n, hn⟩ : ∃ n : Nat, p.tEnd = n := ⟨p.tEnd.toNat, by omega⟩
  obtain ⟨paths, h1, h2⟩ := slots_keep (cap_keeps K) ⟨rfl, fun _ _ x hx => by simp at hx⟩ hrows hne n (by omega)
  obtain ⟨Q, h3, h4, _, h5⟩ := foldlM_pickEnd (tEnd := (n : Int)) (paths := paths)
    (before R xStart n) ⟨[], ⊤⟩ fun s hs => by obtain ⟨Q, hQ, _⟩ := h2 s hs; exact ⟨Q, hQ⟩
  have hPQ : P = Q := by
    simp only [findSchedule, hn, h1, bind, Except.bind] at hP
    have := hP.symm.trans h3
    exact Except.ok.inj this
  subst hPQ
  have hsorted : (before R xStart n).Pairwise (· ≤ ·) := by
    unfold before
    split_ifs
    · simp
    · exact K.sorted _
  rcases h4 with rfl | ⟨s, hs, h6, _, h7⟩
  · exact absurd rfl hfin
  obtain ⟨Q, hQ, hE⟩ := h2 s hs
  rw [h6] at hQ; cases hQ
  refine hE.2 ?_ hfin
  by_contra hgt
  push Not at hgt
  obtain ⟨hκ, hbest⟩ := best_up K n (by omega) s hs hgt
  obtain ⟨Q', hQ', hE'⟩ := h2 κ hκ
  have h8 := h5 κ hκ Q' hQ'
  have := h7 hsorted κ hκ Q' hQ' (le_antisymm (by rw [hE'.1, hE.1]; exact hbest) h8)
  omega

end Uni.Rounded
end Soco
