import Verif.Model.RoundedUni
import Verif.Spec.Rounding
import Verif.Lemmas.UniMain
import Verif.Lemmas.NearProximity

/-! # Uni-dimensional graph search with rounded arithmetic: one run over given rows -/

namespace Soco
namespace Uni.Rounded

variable {C D : Type} [OutSuccess C] [OutFailure D]

/-- `e` is `x`, up to `k` roundings. -/
def Near (u : ℚ) (k : Nat) (e x : ECost) : Prop :=
  (x = ⊤ ∧ e = ⊤) ∨ ∃ e' x' : ℚ, x = (x' : ECost) ∧ e = (e' : ECost) ∧ 0 ≤ x' ∧ (1 - u) ^ k * x' ≤ e' ∧ e' ≤ (1 + u) ^ k * x'

section near
variable {fl : ℚ → ℚ} {u : ℚ} (R : Spec.Rounds u fl)
include R

theorem low_mono {k k' : Nat} (hk : k ≤ k') {x : ℚ} (hx : 0 ≤ x) : (1 - u) ^ k' * x ≤ (1 - u) ^ k * x :=
  mul_le_mul_of_nonneg_right (pow_le_pow_of_le_one (by linarith [R.lt_one]) (by linarith [R.nonneg]) hk) hx

theorem up_mono {k k' : Nat} (hk : k ≤ k') {x : ℚ} (hx : 0 ≤ x) : (1 + u) ^ k * x ≤ (1 + u) ^ k' * x :=
  mul_le_mul_of_nonneg_right (pow_le_pow_right₀ (by linarith [R.nonneg]) hk) hx

theorem low_pos (k : Nat) : 0 ≤ (1 - u) ^ k := pow_nonneg (by linarith [R.lt_one]) k

theorem up_pos (k : Nat) : 0 ≤ (1 + u) ^ k := pow_nonneg (by linarith [R.nonneg]) k

theorem low_add {k l : Nat} {a b x y : ℚ} (hx : 0 ≤ x) (hy : 0 ≤ y) (ha : (1 - u) ^ k * x ≤ a) (hb : (1 - u) ^ l * y ≤ b) (hkl : l ≤ k) :
    (1 - u) ^ (k + 1) * (x + y) ≤ fl (a + b) := by
  have h1 := low_mono R hkl hy
  have h2 : (1 - u) ^ k * (x + y) ≤ a + b := by rw [mul_add]; linarith
  have h3 := R.below (a + b) (le_trans (mul_nonneg (low_pos R k) (add_nonneg hx hy)) h2)
  refine le_trans ?_ h3
  rw [pow_succ, mul_comm ((1 - u) ^ k), mul_assoc]
  exact mul_le_mul_of_nonneg_left h2 (by linarith [R.lt_one])

theorem up_add {k l : Nat} {a b x y : ℚ} (ha0 : 0 ≤ a) (hb0 : 0 ≤ b) (hy : 0 ≤ y) (ha : a ≤ (1 + u) ^ k * x) (hb : b ≤ (1 + u) ^ l * y)
    (hkl : l ≤ k) : fl (a + b) ≤ (1 + u) ^ (k + 1) * (x + y) := by
  have h1 := up_mono R hkl hy
  have h2 : a + b ≤ (1 + u) ^ k * (x + y) := by rw [mul_add]; linarith
  refine (R.above (a + b) (add_nonneg ha0 hb0)).trans ?_
  rw [pow_succ, mul_comm ((1 + u) ^ k), mul_assoc]
  exact mul_le_mul_of_nonneg_left h2 (by linarith [R.nonneg])

theorem fl_nonneg {x : ℚ} (hx : 0 ≤ x) : 0 ≤ fl x := le_trans (mul_nonneg (by linarith [R.lt_one]) hx) (R.below x hx)

end near

theorem ecases (x : ECost) : x = ⊤ ∨ ∃ q : ℚ, x = (q : ECost) := by
  induction x using WithTop.recTopCoe with
  | top => exact .inl rfl
  | coe q => exact .inr ⟨q, rfl⟩

theorem addFl_coe (fl : ℚ → ℚ) (a b : ℚ) : addFl fl (a : ECost) (b : ECost) = ((fl (a + b) : ℚ) : ECost) := rfl

theorem addFl_top_left (fl : ℚ → ℚ) (b : ECost) : addFl fl ⊤ b = ⊤ := by unfold addFl; rw [top_add]; rfl

theorem addFl_top_right (fl : ℚ → ℚ) (a : ECost) : addFl fl a ⊤ = ⊤ := by unfold addFl; rw [add_top]; rfl

variable {fl : ℚ → ℚ} {u : ℚ} {p : SSCO ℤ C D} {rows : Int → Res (List ℤ)} {alpha : ℚ} {inverted : Bool} {xStart : ℤ}
  {R : Int → List ℤ} {g : Int → ℤ → ECost} {mv : ℤ → ℤ → ℚ}

/-- What the code evaluates, and how exactly. -/
structure Evals (fl : ℚ → ℚ) (u : ℚ) (p : SSCO ℤ C D) (alpha : ℚ) (inverted : Bool) (R : Int → List ℤ) (g : Int → ℤ → ECost)
    (mv : ℤ → ℤ → ℚ) : Prop where
  rounds : Spec.Rounds u fl
  alpha : 0 ≤ alpha
  hit : ∀ t : Int, 1 ≤ t → t ≤ p.tEnd → ∀ j ∈ R t, ∃ e o, p.toProb.hitCost t [j] = .ok ⟨e, o⟩ ∧ Near u 3 e (g t j)
  mov0 : ∀ i j, 0 ≤ mv i j
  mov : ∀ i j, ∃ r, Soco.Rounded.scaledMovement fl p.switchingCost [j] [i] inverted = .ok r ∧
    (1 - u) ^ 2 * mv i j ≤ r ∧ r ≤ (1 + u) ^ 2 * mv i j

theorem buildCost_ok (ev : Evals fl u p alpha inverted R g mv) {t : Int} (h1 : 1 ≤ t) (h2 : t ≤ p.tEnd) {i j : ℤ} (hj : j ∈ R t) :
    ∃ e, buildCost fl p t i j alpha inverted = .ok e ∧ Near u 4 e (g t j + ((alpha * mv i j : ℚ) : ECost)) := by
  obtain ⟨e, o, ho, hne⟩ := ev.hit t h1 h2 j hj
  obtain ⟨r, hr, hr1, hr2⟩ := ev.mov i j
  refine ⟨_, by simp only [buildCost, ho, hr, bind, Except.bind]; rfl, ?_⟩
  have hm0 := ev.mov0 i j
  have hr0 : 0 ≤ r := le_trans (mul_nonneg (low_pos ev.rounds 2) hm0) hr1
  have har := mul_nonneg ev.alpha hr0
  have ham := mul_nonneg ev.alpha hm0
  have s1 : (1 - u) ^ 3 * (alpha * mv i j) ≤ fl (alpha * r) := by
    refine le_trans ?_ (ev.rounds.below _ har)
    calc (1 - u) ^ 3 * (alpha * mv i j) = (1 - u) * (alpha * ((1 - u) ^ 2 * mv i j)) := by ring
      _ ≤ _ := mul_le_mul_of_nonneg_left (mul_le_mul_of_nonneg_left hr1 ev.alpha) (by linarith [ev.rounds.lt_one])
  have s2 : fl (alpha * r) ≤ (1 + u) ^ 3 * (alpha * mv i j) := by
    refine (ev.rounds.above _ har).trans ?_
    calc (1 + u) * (alpha * r) ≤ (1 + u) * (alpha * ((1 + u) ^ 2 * mv i j)) :=
          mul_le_mul_of_nonneg_left (mul_le_mul_of_nonneg_left hr2 ev.alpha) (by linarith [ev.rounds.nonneg])
      _ = _ := by ring
  have s3 := fl_nonneg ev.rounds har
  rcases hne with ⟨hg, he⟩ | ⟨e', q, hg, he, hq, hl, hu⟩
  · rw [hg]; exact .inl ⟨top_add _, by simp only [he]; exact addFl_top_left _ _⟩
  · rw [hg]
    have he0 : 0 ≤ e' := le_trans (mul_nonneg (low_pos ev.rounds 3) hq) hl
    refine .inr ⟨fl (e' + fl (alpha * r)), q + alpha * mv i j, by norm_cast, by simp only [he]; exact addFl_coe _ _ _,
      add_nonneg hq ham, ?_, ?_⟩
    · exact low_add (k := 3) (l := 3) ev.rounds hq ham hl s1 le_rfl
    · exact up_add (k := 3) (l := 3) ev.rounds he0 s3 ham hu s2 le_rfl

/-- The entry of a vertex: a path to it whose cost, as computed, is nearly optimal. -/
structure Entry (u : ℚ) (R : Int → List ℤ) (g : Int → ℤ → ECost) (mv : ℤ → ℤ → ℚ) (alpha : ℚ) (xStart : ℤ)
    (n : Nat) (j : ℤ) (P : Path) : Prop where
  nonneg : 0 ≤ P.cost
  sound : ∀ c : ℚ, P.cost = (c : ECost) → ∃ (js : List ℤ) (q : ℚ), js.length = n ∧ RowSeq R js ∧ js.getLastD xStart = j ∧
    P.xs = js.map (fun j => [j]) ∧ Spec.totalCost g mv alpha 1 xStart js = (q : ECost) ∧ 0 ≤ q ∧ (1 - u) ^ (n + 4) * q ≤ c
  complete : ∀ (js : List ℤ) (q : ℚ), js.length = n → RowSeq R js → js.getLastD xStart = j →
    Spec.totalCost g mv alpha 1 xStart js = (q : ECost) → 0 ≤ q ∧ ∃ c : ℚ, P.cost = (c : ECost) ∧ c ≤ (1 + u) ^ (n + 4) * q

theorem foldlM_pickSource {paths : Paths Vertex} {t : Int} {dst : ℤ} {C' : ℤ → ECost} :
    ∀ (src : List ℤ) (s0 : ℤ) (c0 : ECost),
    (∀ s ∈ src, ∃ P, paths (t - 1, s) = some P ∧ ∃ c, buildCost fl p t s dst alpha inverted = .ok c ∧
      C' s = addFl fl P.cost c) →
    ∃ s c, src.foldlM (pickSource fl p paths t dst alpha inverted) (s0, c0) = .ok (s, c) ∧
      ((s = s0 ∧ c = c0) ∨ (s ∈ src ∧ c = C' s ∧ c < c0)) ∧ c ≤ c0 ∧ (∀ s' ∈ src, c ≤ C' s') := by
  intro src
  induction src with
  | nil => intro s0 c0 _; exact ⟨s0, c0, rfl, .inl ⟨rfl, rfl⟩, le_rfl, by simp⟩
  | cons a src ih =>
    intro s0 c0 h
    obtain ⟨P, hP, c, hc, hC⟩ := h a (by simp)
    have hstep : pickSource fl p paths t dst alpha inverted (s0, c0) a
        = .ok (if C' a < c0 then (a, C' a) else (s0, c0)) := by
      simp only [pickSource, Paths.at, hP, hc, bind, Except.bind, hC]
    by_cases hlt : C' a < c0
    · obtain ⟨s, c', h1, h2, h3, h4⟩ := ih a (C' a) fun s hs => h s (by simp [hs])
      refine ⟨s, c', ?_, ?_, h3.trans hlt.le, ?_⟩
      · rw [Multi.foldlM_cons', hstep, if_pos hlt]; exact h1
      · rcases h2 with ⟨rfl, rfl⟩ | ⟨h5, h6, h7⟩
        · exact .inr ⟨by simp, rfl, hlt⟩
        · exact .inr ⟨by simp [h5], h6, h7.trans hlt⟩
      · intro s' hs'
        rcases List.mem_cons.1 hs' with rfl | hs'
        · exact h3
        · exact h4 s' hs'
    · obtain ⟨s, c', h1, h2, h3, h4⟩ := ih s0 c0 fun s hs => h s (by simp [hs])
      refine ⟨s, c', ?_, ?_, h3, ?_⟩
      · rw [Multi.foldlM_cons', hstep, if_neg hlt]; exact h1
      · rcases h2 with h | ⟨h5, h6, h7⟩
        · exact .inl h
        · exact .inr ⟨by simp [h5], h6, h7⟩
      · intro s' hs'
        rcases List.mem_cons.1 hs' with rfl | hs'
        · exact h3.trans (le_of_not_gt hlt)
        · exact h4 s' hs'

theorem findShortestSubpath_ok (ev : Evals fl u p alpha inverted R g mv) {n : Nat} (hn : (n : Int) + 1 ≤ p.tEnd)
    {src : List ℤ} (hsrc : src ≠ []) {paths : Paths Vertex}
    (hin : ∀ s ∈ src, ∃ P, paths ((n : Int), s) = some P ∧ Entry u R g mv alpha xStart n s P)
    (hall : ∀ js : List ℤ, js.length = n → RowSeq R js → js.getLastD xStart ∈ src)
    {dst : ℤ} (hdst : dst ∈ R ((n : Int) + 1)) :
    ∃ P, findShortestSubpath fl p ((n : Int) + 1) src alpha inverted paths dst
        = .ok (paths.insert ((n : Int) + 1, dst) P) ∧
      Entry u R g mv alpha xStart (n + 1) dst P := by
  obtain ⟨first, rest, rfl⟩ : ∃ a l, src = a :: l := by
    rcases src with _ | ⟨a, l⟩
    · exact absurd rfl hsrc
    · exact ⟨a, l, rfl⟩
  classical
  choose edge he1 he2 using fun i => buildCost_ok (i := i) ev (by omega : 1 ≤ (n : Int) + 1) hn hdst
  let cost : ℤ → ECost := fun s => match paths ((n : Int), s) with
    | some P => addFl fl P.cost (edge s)
    | none => ⊤
  have hcost : ∀ s P, paths ((n : Int), s) = some P → cost s = addFl fl P.cost (edge s) := by
    intro s P h; simp only [cost, h]
  have e1 : (n : Int) + 1 - 1 = n := by ring
  obtain ⟨s, c, h1, h2, _, h4⟩ := foldlM_pickSource (fl := fl) (p := p) (paths := paths) (t := (n : Int) + 1)
    (dst := dst) (alpha := alpha) (inverted := inverted) (C' := cost) (first :: rest) first ⊤ (by
      intro s hs
      obtain ⟨P, hP, _⟩ := hin s hs
      exact ⟨P, by rw [e1]; exact hP, _, he1 s, hcost s P hP⟩)
  have hs : s ∈ first :: rest ∧ c = cost s := by
    rcases h2 with ⟨rfl, rfl⟩ | h
    · exact ⟨by simp, le_antisymm (h4 s (by simp)) le_top⟩
    · exact ⟨h.1, h.2.1⟩
  obtain ⟨P, hP, hE⟩ := hin s hs.1
  have hedge : ∀ i (e' : ℚ), edge i = (e' : ECost) → ∃ x : ℚ, g ((n : Int) + 1) dst + ((alpha * mv i dst : ℚ) : ECost) = (x : ECost) ∧
      0 ≤ x ∧ (1 - u) ^ 4 * x ≤ e' ∧ 0 ≤ e' := by
    intro i e' h
    rcases he2 i with ⟨_, ht⟩ | ⟨e'', x, hx, he, h0, hl, _⟩
    · rw [ht] at h; cases h
    · rw [he] at h
      have : e'' = e' := by exact_mod_cast h
      subst this
      exact ⟨x, hx, h0, hl, le_trans (mul_nonneg (low_pos ev.rounds 4) h0) hl⟩
  have hfin : ∀ c' : ℚ, c = (c' : ECost) → ∃ a e : ℚ, P.cost = (a : ECost) ∧ edge s = (e : ECost) ∧ c' = fl (a + e) := by
    intro c' h
    rw [hs.2, hcost s P hP] at h
    rcases ecases (P.cost) with ha | ⟨a, ha⟩
    · rw [ha, addFl_top_left] at h; cases h
    rcases ecases (edge s) with hb | ⟨e, hb⟩
    · rw [hb, addFl_top_right] at h; cases h
    rw [ha, hb, addFl_coe] at h
    exact ⟨a, e, ha, hb, by exact_mod_cast h.symm⟩
  refine ⟨⟨P.xs.extend [dst], c⟩, ?_, ?_, ?_, ?_⟩
  · have h1' := h1
    simp only [findShortestSubpath, idx, List.getElem?_cons_zero, bind, Except.bind] at h1' ⊢
    rw [h1']
    simp only [updatePaths, e1, Paths.at, hP, bind, Except.bind]
  · simp only
    rcases ecases (c) with hc | ⟨c', hc⟩
    · rw [hc]; exact le_top
    · rw [hc]
      obtain ⟨a, e, ha, hb, rfl⟩ := hfin c' hc
      obtain ⟨_, _, _, _, h0⟩ := hedge s e hb
      have ha0 := hE.nonneg
      rw [ha] at ha0
      have ha0 : (0 : ℚ) ≤ a := by exact_mod_cast ha0
      exact_mod_cast fl_nonneg ev.rounds (add_nonneg ha0 h0)
  · intro c' hc
    simp only at hc
    obtain ⟨a, e, ha, hb, rfl⟩ := hfin c' hc
    obtain ⟨x, hx, hx0, hxe, _⟩ := hedge s e hb
    obtain ⟨js, q, j1, j2, j3, j4, j5, j6, j7⟩ := hE.sound a ha
    refine ⟨js ++ [dst], q + x, by simp [j1], rowSeq_snoc.2 ⟨j2, by rw [j1]; exact hdst⟩, by simp, ?_, ?_, add_nonneg j6 hx0, ?_⟩
    · simp [Schedule.extend, j4]
    · rw [totalCost_snoc, j1, j3, j5, add_comm (1 : Int), hx]
      norm_cast
    · have := low_add ev.rounds (k := n + 4) (l := 4) j6 hx0 j7 hxe (by omega)
      rwa [show n + 1 + 4 = n + 4 + 1 by ring]
  · intro js q j1 j2 j3 j4
    obtain ⟨ks, k, rfl⟩ : ∃ ks k, js = ks ++ [k] := by
      rcases List.eq_nil_or_concat' js with h | ⟨ks, k, h⟩
      · subst h; simp at j1
      · exact ⟨ks, k, h⟩
    have hk : k = dst := by simpa using j3
    subst hk
    have hlen : ks.length = n := by simpa using j1
    obtain ⟨hr, _⟩ := rowSeq_snoc.1 j2
    have hmem := hall ks hlen hr
    obtain ⟨Q, hQ, hEQ⟩ := hin _ hmem
    rw [totalCost_snoc, hlen, add_comm (1 : Int)] at j4
    rcases ecases (Spec.totalCost g mv alpha 1 xStart ks) with hq1 | ⟨q1, hq1⟩
    · rw [hq1, top_add] at j4; cases j4
    obtain ⟨hq0, b, hb, hbq⟩ := hEQ.complete ks q1 hlen hr rfl hq1
    rw [hq1] at j4
    rcases he2 (ks.getLastD xStart) with ⟨ht, _⟩ | ⟨e, x, hx, he, hx0, hxl, hxu⟩
    · rw [ht, add_top] at j4; cases j4
    rw [hx] at j4
    have hqe : q1 + x = q := by exact_mod_cast j4
    subst hqe
    have he0 : 0 ≤ e := le_trans (mul_nonneg (low_pos ev.rounds 4) hx0) hxl
    have hb0 := hEQ.nonneg
    rw [hb] at hb0
    have hb0 : (0 : ℚ) ≤ b := by exact_mod_cast hb0
    refine ⟨add_nonneg hq0 hx0, ?_⟩
    have hle := h4 _ hmem
    rw [hcost _ Q hQ, hb, he, addFl_coe] at hle
    rcases ecases (c) with hc | ⟨c', hc⟩
    · rw [hc, top_le_iff] at hle; cases hle
    rw [hc] at hle
    refine ⟨c', hc, le_trans (by exact_mod_cast hle) ?_⟩
    have := up_add ev.rounds (k := n + 4) (l := 4) hb0 he0 hx0 hbq hxu (by omega)
    rwa [show n + 1 + 4 = n + 4 + 1 by ring]

/-- A run keeps a property `E` of the entries of the vertices, if every vertex does. -/
def StepKeeps (fl : ℚ → ℚ) (p : SSCO ℤ C D) (alpha : ℚ) (inverted : Bool) (R : Int → List ℤ) (xStart : ℤ)
    (E : Nat → ℤ → Path → Prop) : Prop :=
  ∀ n : Nat, (n : Int) + 1 ≤ p.tEnd → before R xStart n ≠ [] → ∀ paths : Paths Vertex,
    (∀ s ∈ before R xStart n, ∃ P, paths ((n : Int), s) = some P ∧ E n s P) → ∀ dst ∈ R ((n : Int) + 1),
    ∃ P, findShortestSubpath fl p ((n : Int) + 1) (before R xStart n) alpha inverted paths dst
        = .ok (paths.insert ((n : Int) + 1, dst) P) ∧ E (n + 1) dst P

theorem slot_ok {E : Nat → ℤ → Path → Prop} (keep : StepKeeps fl p alpha inverted R xStart E)
    (hrows : ∀ t : Int, 1 ≤ t → t ≤ p.tEnd → rows t = .ok (R t))
    {n : Nat} (hn : (n : Int) + 1 ≤ p.tEnd) (hne : before R xStart n ≠ []) {paths : Paths Vertex}
    (hin : ∀ s ∈ before R xStart n, ∃ P, paths ((n : Int), s) = some P ∧ E n s P) :
    ∃ paths', slot fl p rows alpha inverted (paths, before R xStart n) ((n : Int) + 1)
        = .ok (paths', before R xStart (n + 1)) ∧
      ∀ s ∈ before R xStart (n + 1), ∃ P, paths' (((n + 1 : Nat) : Int), s) = some P ∧ E (n + 1) s P := by
  have hb : before R xStart (n + 1) = R ((n : Int) + 1) := by simp [before]
  suffices h : ∀ (l : List ℤ), (∀ j ∈ l, j ∈ R ((n : Int) + 1)) → ∀ paths : Paths Vertex,
      (∀ s ∈ before R xStart n, ∃ P, paths ((n : Int), s) = some P ∧ E n s P) →
      ∃ paths', l.foldlM (findShortestSubpath fl p ((n : Int) + 1) (before R xStart n) alpha inverted) paths
          = .ok paths' ∧
        (∀ s ∈ l, ∃ P, paths' ((n : Int) + 1, s) = some P ∧ E (n + 1) s P) ∧
        ∀ s, (∃ P, paths ((n : Int) + 1, s) = some P ∧ E (n + 1) s P) →
          ∃ P, paths' ((n : Int) + 1, s) = some P ∧ E (n + 1) s P by
    obtain ⟨paths', h1, h2, _⟩ := h (R ((n : Int) + 1)) (fun _ h => h) paths hin
    refine ⟨paths', ?_, ?_⟩
    · simp only [slot, hrows _ (by omega) hn, bind, Except.bind, h1, hb]
    · rw [hb]; push_cast; exact h2
  intro l
  induction l with
  | nil => intro _ paths _; exact ⟨paths, rfl, by simp, fun _ h => h⟩
  | cons j l ih =>
    intro hl paths hin
    obtain ⟨P, h1, h2⟩ := keep n hn hne paths hin j (hl j (by simp))
    obtain ⟨paths', h3, h4, h5⟩ := ih (fun k hk => hl k (by simp [hk]))
      (paths.insert ((n : Int) + 1, j) P) (by
        intro s hs
        obtain ⟨Q, hQ, hE⟩ := hin s hs
        refine ⟨Q, ?_, hE⟩
        unfold Paths.insert
        rw [if_neg (by simp), hQ])
    have hj : ∃ P', paths.insert ((n : Int) + 1, j) P ((n : Int) + 1, j) = some P' ∧ E (n + 1) j P' :=
      ⟨P, by simp [Paths.insert], h2⟩
    refine ⟨paths', ?_, ?_, ?_⟩
    · rw [Multi.foldlM_cons', h1]; exact h3
    · intro s hs
      rcases List.mem_cons.1 hs with rfl | hs
      · exact h5 _ hj
      · exact h4 s hs
    · intro s ⟨Q, hQ, hE⟩
      apply h5
      by_cases hsj : s = j
      · subst hsj; exact hj
      · exact ⟨Q, by unfold Paths.insert; rw [if_neg (by simp [hsj]), hQ], hE⟩

theorem slots_keep {E : Nat → ℤ → Path → Prop} (keep : StepKeeps fl p alpha inverted R xStart E) (h0 : E 0 xStart ⟨[], 0⟩)
    (hrows : ∀ t : Int, 1 ≤ t → t ≤ p.tEnd → rows t = .ok (R t))
    (hne : ∀ t : Int, 1 ≤ t → t ≤ p.tEnd → R t ≠ []) : ∀ n : Nat, (n : Int) ≤ p.tEnd →
    ∃ paths, (timeRange 1 (n : Int)).foldlM (slot fl p rows alpha inverted)
        ((Paths.empty (V := Vertex)).insert (0, xStart) ⟨[], 0⟩, [xStart])
        = .ok (paths, before R xStart n) ∧
      ∀ s ∈ before R xStart n, ∃ P, paths ((n : Int), s) = some P ∧ E n s P := by
  intro n
  induction n with
  | zero =>
    intro _
    refine ⟨_, rfl, ?_⟩
    intro s hs
    have : s = xStart := by simpa [before] using hs
    subst this
    exact ⟨⟨[], 0⟩, by simp [Paths.insert], h0⟩
  | succ n ih =>
    intro hn
    push_cast at hn
    obtain ⟨paths, h1, h2⟩ := ih (by omega)
    have hne' : before R xStart n ≠ [] := by
      unfold before
      split_ifs with h
      · simp
      · exact hne _ (by omega) (by omega)
    obtain ⟨paths', h3, h4⟩ := slot_ok keep hrows hn hne' h2
    refine ⟨paths', ?_, h4⟩
    push_cast
    rw [timeRange_succ', Multi.foldlM_append', h1]
    simp only [bind, Except.bind, List.foldlM_cons, List.foldlM_nil, h3, pure, Except.pure]

theorem slots_ok (ev : Evals fl u p alpha inverted R g mv) (hrows : ∀ t : Int, 1 ≤ t → t ≤ p.tEnd → rows t = .ok (R t))
    (hne : ∀ t : Int, 1 ≤ t → t ≤ p.tEnd → R t ≠ []) : ∀ n : Nat, (n : Int) ≤ p.tEnd →
    ∃ paths, (timeRange 1 (n : Int)).foldlM (slot fl p rows alpha inverted)
        ((Paths.empty (V := Vertex)).insert (0, xStart) ⟨[], 0⟩, [xStart])
        = .ok (paths, before R xStart n) ∧
      ∀ s ∈ before R xStart n, ∃ P, paths ((n : Int), s) = some P ∧ Entry u R g mv alpha xStart n s P := by
  refine slots_keep ?_ ⟨le_rfl, ?_, ?_⟩ hrows hne
  · intro n hn hne paths hin dst hdst
    exact findShortestSubpath_ok (alpha := alpha) (xStart := xStart) ev hn hne hin
      (fun js h1 h2 => by have := last_mem_before (xStart := xStart) h2; rwa [h1] at this) hdst
  · intro c hc
    have hc : (0 : ℚ) = c := WithTop.coe_injective hc
    subst hc
    exact ⟨[], 0, rfl, rowSeq_nil, rfl, rfl, rfl, le_rfl, by simp⟩
  · intro js q h _ _ hq
    rw [List.length_eq_zero_iff.1 h] at hq
    have hq : (0 : ℚ) = q := WithTop.coe_injective hq
    subst hq
    exact ⟨le_rfl, 0, rfl, by simp⟩

/-- One run over given rows: the schedule returned is nearly as cheap as any other one on the rows, and its cost is reported nearly. -/
theorem findSchedule_ok (ev : Evals fl u p alpha inverted R g mv) (hT : 0 ≤ p.tEnd)
    (hrows : ∀ t : Int, 1 ≤ t → t ≤ p.tEnd → rows t = .ok (R t))
    (hex : ∃ (js : List ℤ), (js.length : Int) = p.tEnd ∧ RowSeq R js ∧ Spec.totalCost g mv alpha 1 xStart js ≠ ⊤) :
    ∃ (P : Path) (js : List ℤ) (c q : ℚ), findSchedule fl p rows alpha inverted xStart = .ok P ∧ (js.length : Int) = p.tEnd ∧ RowSeq R js ∧
      P.xs = js.map (fun j => [j]) ∧ P.cost = (c : ECost) ∧ Spec.totalCost g mv alpha 1 xStart js = (q : ECost) ∧ 0 ≤ q ∧
      (1 - u) ^ (p.tEnd.toNat + 4) * q ≤ c ∧
      ∀ (ks : List ℤ) (q' : ℚ), (ks.length : Int) = p.tEnd → RowSeq R ks → Spec.totalCost g mv alpha 1 xStart ks = (q' : ECost) →
        c ≤ (1 + u) ^ (p.tEnd.toNat + 4) * q' := by
  obtain ⟨n, hn⟩ : ∃ n : Nat, p.tEnd = n := ⟨p.tEnd.toNat, by omega⟩
  obtain ⟨ys, y1, y2, y3⟩ := hex
  obtain ⟨paths, h1, h2⟩ := slots_ok (alpha := alpha) (xStart := xStart) ev hrows
    (fun t h1 h2 => by
      have := y2 (t - 1).toNat (by omega)
      rw [show (((t - 1).toNat : Nat) : Int) + 1 = t by omega] at this
      exact List.ne_nil_of_mem this) n (by omega)
  obtain ⟨P, h3, h4, _, h5⟩ := foldlM_pickEnd (tEnd := (n : Int)) (paths := paths)
    (before R xStart n) ⟨[], ⊤⟩ fun s hs => by obtain ⟨Q, hQ, _⟩ := h2 s hs; exact ⟨Q, hQ⟩
  have hall : ∀ (ks : List ℤ) (q' : ℚ), (ks.length : Int) = p.tEnd → RowSeq R ks →
      Spec.totalCost g mv alpha 1 xStart ks = (q' : ECost) → ∃ c : ℚ, P.cost = (c : ECost) ∧ c ≤ (1 + u) ^ (n + 4) * q' := by
    intro ks q' k1 k2 k3
    have hmem := last_mem_before (xStart := xStart) k2
    have hl : ks.length = n := by omega
    rw [hl] at hmem
    obtain ⟨Q, hQ, hE⟩ := h2 _ hmem
    obtain ⟨_, b, hb, hbq⟩ := hE.complete ks q' hl k2 rfl k3
    have hle := h5 _ hmem Q hQ
    rw [hb] at hle
    rcases ecases (P.cost) with hc | ⟨c, hc⟩
    · rw [hc, top_le_iff] at hle; cases hle
    · rw [hc] at hle
      exact ⟨c, hc, le_trans (by exact_mod_cast hle) hbq⟩
  obtain ⟨q0, hq0⟩ := WithTop.ne_top_iff_exists.1 y3
  obtain ⟨c, hc, _⟩ := hall ys q0 y1 y2 hq0.symm
  rcases h4 with rfl | ⟨s, hs, h6, h7, _⟩
  · simp at hc
  obtain ⟨Q, hQ, hE⟩ := h2 s hs
  rw [h6] at hQ; cases hQ
  obtain ⟨js, q, j1, j2, j3, j4, j5, j6, j7⟩ := hE.sound c hc
  rw [show p.tEnd.toNat = n by omega]
  refine ⟨P, js, c, q, ?_, by omega, j2, j4, hc, j5, j6, j7, ?_⟩
  · simp only [findSchedule, hn, h1, bind, Except.bind]
    exact h3
  · intro ks q' k1 k2 k3
    obtain ⟨c', hc', h⟩ := hall ks q' k1 k2 k3
    rw [hc] at hc'
    have : c = c' := by exact_mod_cast hc'
    rwa [this]

end Uni.Rounded
end Soco
