import Verif.Lemmas.RoundedDP
import Verif.Props.MultiGraph2
import Mathlib.Algebra.Order.Ring.Pow

/-!
# C120: rounding of floating point numbers in the graph search
-/

namespace Soco
open Multi

variable {C D : Type} [OutSuccess C] [OutFailure D]

namespace Multi.Rounded
variable {fl : ℚ → ℚ} {p : SSCO ℤ C D} {v : Values} {alpha : ℚ} {inverted : Bool} {hit : Int → Config ℤ → ECost} {u : ℚ}

theorem run_slots (R : Spec.Rounds u fl) (st : Setting p v alpha hit)
    (hpos : ∀ t : Int, 1 ≤ t → t ≤ p.tEnd → ∀ i, Ok v.boundIndices i → 0 ≤ hit t (v.cfg i)) :
    ∀ (n : Nat), (n : Int) ≤ p.tEnd → (∀ t : Int, 1 ≤ t → t ≤ n → hit t p.bounds ≠ ⊤) →
    ∃ paths, (timeRange 1 n).foldlM (handleSlot fl p alpha inverted v) Paths.empty = .ok paths ∧
      (0 < n → AllDown u p v alpha inverted hit n paths) := by
  intro n
  induction n with
  | zero => intro _ _; exact ⟨Paths.empty, rfl, by simp⟩
  | succ n ih =>
    intro hn hf
    push_cast at hn hf ⊢
    obtain ⟨paths, h1, h2⟩ := ih (by omega) fun t h h' => hf t h (by omega)
    obtain ⟨paths1, h3, h4⟩ := layer_up (inverted := inverted) R st paths h2
    obtain ⟨paths2, h5, h6⟩ := layer_down R st hpos hn (hf _ (by omega) le_rfl) paths1 h4
    refine ⟨paths2, ?_, fun _ => h6⟩
    rw [timeRange_succ, foldlM_append', h1]
    simp only [bind, Except.bind, List.foldlM_cons, List.foldlM_nil, handleSlot, h3, h5, pure,
      Except.pure]

/-- The search on an arbitrary grid. -/
theorem graphSearch_grid (R : Spec.Rounds u fl) (p : SSCO ℤ C D) (v : Values) (hv : Spec.ValidSSCO p) (g : Grid p v)
    (hT : 1 ≤ p.tEnd) (o : OfflineOptions) (hl : o.l = none) (hα : 0 ≤ o.alpha)
    (hit : Int → Config ℤ → ECost)
    (hhit : ∀ t : Int, 1 ≤ t → t ≤ p.tEnd → ∀ x, OnGrid p v x →
      0 ≤ hit t x ∧ ∃ out, p.toProb.hitCost t x = .ok ⟨hit t x, out⟩)
    (hfin : ∀ t : Int, 1 ≤ t → t ≤ p.tEnd → hit t p.bounds ≠ ⊤) :
    ∃ (r : CachedPath Vertex) (c k : ℚ), graphSearch fl p v none o = .ok r ∧ (r.path.xs.length : Int) = p.tEnd ∧
      (∀ x ∈ r.path.xs, OnGrid p v x) ∧ r.path.cost = (c : ECost) ∧ 0 ≤ c ∧
      (∃ out, p.toProb.alphaUnfairObjective r.path.xs o.alpha = .ok ⟨(k : ECost), out⟩) ∧
      (1 - u) ^ (p.tEnd.toNat * (2 * v.boundIndices.sum + 2) + 1) * k ≤ c ∧
      (∀ ys : Schedule ℤ, (ys.length : Int) = p.tEnd → (∀ y ∈ ys, OnGrid p v y) →
        ∃ c', p.toProb.alphaUnfairObjective ys o.alpha = .ok c' ∧
          ∀ q : ℚ, c'.cost = (q : ECost) → c ≤ (1 + u) ^ (p.tEnd.toNat * (2 * v.boundIndices.sum + 2) + 1) * q) := by
  obtain ⟨h1, h2, h3, h4, h5, h6⟩ := id hv
  have hd := g.toNat
  have st : Setting p v o.alpha hit :=
    { grid := g, dpos := by omega, alpha := hα, beta := fun b hb => le_of_lt (h6 b hb)
      hit := fun t ht ht' i hi => (hhit t ht ht' _ (onGrid_cfg g hi)).2 }
  obtain ⟨n, hn⟩ : ∃ n : Nat, p.tEnd = n := ⟨p.tEnd.toNat, by omega⟩
  obtain ⟨paths, hr, hall⟩ := run_slots (inverted := o.inverted) R st
    (fun t ht ht' i hi => (hhit t ht ht' _ (onGrid_cfg g hi)).1) n (by omega)
    (fun t ht ht' => hfin t ht (by omega))
  have hB := Ok.base true v.boundIndices
  obtain ⟨P, c, hP, hOK⟩ := hall (by omega) _ hB
  have hsum : (base true v.boundIndices).sum = 0 := by simp [base]
  have hexp : eDown v n (base true v.boundIndices) = p.tEnd.toNat * (2 * v.boundIndices.sum + 2) + 1 := by
    rw [eDown, hsum, hn]
    simp
  have hzero : v.cfg (base true v.boundIndices) = List.replicate p.d.toNat 0 := by
    have := g.base_conf true
    rw [show v.cfg (base true v.boundIndices) = (v.conf (base true v.boundIndices)).config from rfl,
      ← this]; rfl
  have hbase : ∀ js : List (List Nat), ∀ k, (base true v.boundIndices).getD k 0
      ≤ (lastI v js).getD k 0 := by
    intro js k; rw [getD_base_true]; exact Nat.zero_le _
  obtain ⟨js, q, hj1, hj2, hj3, hj4, hj5, hj6⟩ := hOK.sound
  have hcomp := hOK.complete
  rw [phi_base g] at hj5 hcomp
  rw [hexp] at hj6 hcomp
  simp only [add_zero] at hj5 hcomp
  obtain ⟨k, hk, hkq⟩ := le_iff'.1 hj5
  have hxs : ∀ x ∈ P.xs, OnGrid p v x := by
    intro x hx
    rw [hj3] at hx
    obtain ⟨i, hi, rfl⟩ := List.mem_map.1 hx
    exact onGrid_cfg g (hj1 i hi)
  have hlen : (P.xs.length : Int) = p.tEnd := by rw [hj3, List.length_map, hj2, hn]
  have hobj := objective_total p hv o.alpha hit (fun x => ∀ j ∈ x, j ∈ v.values)
    (fun t ht ht' x hx hq => (hhit t ht ht' x ⟨hx, hq⟩).2)
  refine ⟨⟨P, ⟨p.tEnd, paths⟩⟩, c, k, ?_, hlen, hxs, hOK.cost, hOK.nonneg, ?_, ?_, ?_⟩
  · unfold graphSearch
    rw [hn]
    simp only [hl, Option.isNone_none, assertR, if_true, readCache, bind, Except.bind, hr,
      g.base_conf, Paths.at, hP]
  · obtain ⟨out, ho⟩ := hobj P.xs hlen hxs
    refine ⟨out, ?_⟩
    rw [ho, ← hk, obj, hj3, hzero]
  · exact (mul_le_mul_of_nonneg_left hkq (pow_nonneg (by linarith [R.lt_one]) _)).trans hj6
  · intro ys hyl hys
    obtain ⟨out, ho⟩ := hobj ys hyl hys
    refine ⟨_, ho, ?_⟩
    intro q hq
    obtain ⟨ks, hk1, hk2⟩ := lift_schedule g ys hys
    refine hcomp ks q hk1 (by rw [← hk2, List.length_map] at hyl; omega) (hbase ks) ?_
    rw [obj, hk2, hzero, ← hq]

end Multi.Rounded

/-- **C120** The multi-dimensional graph search, with sums and products of costs rounded with relative error at most `u`, as by floating
point arithmetic. It returns a schedule of horizon length inside the bounds. Let `k` be the exact cost of this schedule, and `N` the
number of roundings on a path. Then the reported cost lies between `(1 - u)^N * k` and `(1 + u)^N * k`, and `(1 - u)^N * k` is at most
`(1 + u)^N` times the exact cost of any other schedule. -/
theorem C120_graph_search {fl : ℚ → ℚ} {u : ℚ} (R : Spec.Rounds u fl) (p : SSCO ℤ C D) (hv : p.verify = .ok ()) (hT : 1 ≤ p.tEnd)
    (o : OfflineOptions) (hl : o.l = none) (hα : 0 ≤ o.alpha) (hit : Int → Config ℤ → ECost)
    (hhit : ∀ t : Int, 1 ≤ t → t ≤ p.tEnd → ∀ x, Spec.InBox p.bounds x →
      0 ≤ hit t x ∧ ∃ out, p.toProb.hitCost t x = .ok ⟨hit t x, out⟩)
    (hfin : ∀ t : Int, 1 ≤ t → t ≤ p.tEnd → hit t p.bounds ≠ ⊤) :
    ∃ (r : CachedPath Vertex) (c k : ℚ), Rounded.optimalGraphSearch fl p none o = .ok r ∧ (r.path.xs.length : Int) = p.tEnd ∧
      (∀ x ∈ r.path.xs, Spec.InBox p.bounds x) ∧ r.path.cost = (c : ECost) ∧ 0 ≤ k ∧
      (∃ out, p.toProb.alphaUnfairObjective r.path.xs o.alpha = .ok ⟨(k : ECost), out⟩) ∧
      (1 - u) ^ Spec.roundings p.tEnd.toNat p.bounds * k ≤ c ∧ c ≤ (1 + u) ^ Spec.roundings p.tEnd.toNat p.bounds * k ∧
      ∀ ys : Schedule ℤ, (ys.length : Int) = p.tEnd → (∀ y ∈ ys, Spec.InBox p.bounds y) →
        ∃ c', p.toProb.alphaUnfairObjective ys o.alpha = .ok c' ∧
          ∀ q : ℚ, c'.cost = (q : ECost) →
            (1 - u) ^ Spec.roundings p.tEnd.toNat p.bounds * k ≤ (1 + u) ^ Spec.roundings p.tEnd.toNat p.bounds * q := by
  have hv' : Spec.ValidSSCO p := by
    by_contra hc
    have := (C10_ssco_verify_exact p).2 hc
    rw [hv] at this; simp at this
  obtain ⟨v, h1, g, h2⟩ := allValues_grid p hv'
  have hb : v.boundIndices = p.bounds.map Int.toNat := by
    unfold allValues at h1
    split at h1
    · cases h1
    · cases h1; rfl
  obtain ⟨r, c, k, h3, h4, h5, h6, h6', h7, h8, h9⟩ := Rounded.graphSearch_grid R p v hv' g hT o hl hα hit
    (fun t ht ht' x hx => hhit t ht ht' x ((h2 x).1 hx)) hfin
  rw [hb] at h8 h9
  have h10 : c ≤ (1 + u) ^ Spec.roundings p.tEnd.toNat p.bounds * k := by
    obtain ⟨c', c1, c2⟩ := h9 r.path.xs h4 h5
    obtain ⟨out, h7⟩ := h7
    rw [h7] at c1
    cases c1
    exact c2 k rfl
  have h11 : 0 ≤ k := by
    by_contra hc
    push Not at hc
    have := mul_neg_of_pos_of_neg (pow_pos (show 0 < 1 + u by linarith [R.nonneg]) (Spec.roundings p.tEnd.toNat p.bounds)) hc
    linarith
  refine ⟨r, c, k, ?_, h4, fun x hx => (h2 x).1 (h5 x hx), h6, h11, h7, h8, h10, ?_⟩
  · simp only [Rounded.optimalGraphSearch, h1, bind, Except.bind, h3]
  · intro ys hy hys
    obtain ⟨c', c1, c2⟩ := h9 ys hy fun y hy' => (h2 y).2 (hys y hy')
    exact ⟨c', c1, fun q hq => h8.trans (c2 q hq)⟩

/-- A small relative error of every operation makes a small relative error of many operations. -/
theorem Rounded.few {u : ℚ} {N : Nat} (hu : 0 ≤ u) {ε : ℚ} (hε : 0 ≤ ε) (hε1 : ε ≤ 1 / 8) (hN : (N : ℚ) * u ≤ ε) {a b : ℚ} (hb : 0 ≤ b)
    (h : (1 - u) ^ N * a ≤ (1 + u) ^ N * b) (hu1 : u < 1) : a ≤ (1 + 4 * ε) * b := by
  have hA : 0 ≤ 1 - u := by linarith
  have h1 : 1 - (N : ℚ) * u ≤ (1 - u) ^ N := by
    have := one_add_mul_le_pow (a := -u) (by linarith) N
    calc 1 - (N : ℚ) * u = 1 + (N : ℚ) * -u := by ring
      _ ≤ (1 + -u) ^ N := this
      _ = (1 - u) ^ N := by rw [← sub_eq_add_neg]
  have h2 : (1 - u) ^ N * (1 + u) ^ N ≤ 1 := by
    rw [← mul_pow]
    exact pow_le_one₀ (mul_nonneg hA (by linarith)) (by nlinarith)
  have hAN : 0 ≤ (1 - u) ^ N := pow_nonneg hA N
  have h3 : 1 - ε ≤ (1 - u) ^ N := by linarith
  have h4 : (1 - u) ^ N * ((1 - u) ^ N * a) ≤ b := by
    calc (1 - u) ^ N * ((1 - u) ^ N * a) ≤ (1 - u) ^ N * ((1 + u) ^ N * b) := mul_le_mul_of_nonneg_left h hAN
      _ = ((1 - u) ^ N * (1 + u) ^ N) * b := by ring
      _ ≤ 1 * b := mul_le_mul_of_nonneg_right h2 hb
      _ = b := one_mul b
  by_cases ha : a ≤ 0
  · exact ha.trans (mul_nonneg (by linarith) hb)
  · push Not at ha
    have h5 : (1 - ε) * ((1 - ε) * a) ≤ b := by
      refine le_trans ?_ h4
      have h6 : (1 - ε) * a ≤ (1 - u) ^ N * a := mul_le_mul_of_nonneg_right h3 ha.le
      exact mul_le_mul h3 h6 (mul_nonneg (by linarith) ha.le) hAN
    have h7 : a ≤ (1 + 4 * ε) * ((1 - ε) * ((1 - ε) * a)) := by
      have : 1 ≤ (1 + 4 * ε) * ((1 - ε) * (1 - ε)) := by nlinarith [mul_nonneg hε hε, mul_nonneg (mul_nonneg hε hε) hε]
      calc a = 1 * a := (one_mul a).symm
        _ ≤ ((1 + 4 * ε) * ((1 - ε) * (1 - ε))) * a := mul_le_mul_of_nonneg_right this ha.le
        _ = _ := by ring
    exact h7.trans (mul_le_mul_of_nonneg_left h5 (by linarith))

/-- Rounding to 53 binary digits has a relative error of at most `2⁻⁵³`. -/
theorem C120_double_rounds : Spec.Rounds (1 / 2 ^ 53) Spec.double := by
  have key : ∀ x, 0 ≤ x → |x - Spec.double x| ≤ 1 / 2 ^ 53 * x := by
    intro x hx
    rcases hx.eq_or_lt with rfl | hx
    · simp [Spec.double]
    have h2 : (0 : ℚ) < 2 ^ (Int.log 2 x - 52) := zpow_pos (by norm_num) _
    have e1 : (2 : ℚ) ^ (52 - Int.log 2 x) * 2 ^ (Int.log 2 x - 52) = 1 := by
      rw [← zpow_add₀ (by norm_num)]
      simp
    have e2 : x - Spec.double x =
        (x * 2 ^ (52 - Int.log 2 x) - (round (x * 2 ^ (52 - Int.log 2 x)) : ℚ)) * 2 ^ (Int.log 2 x - 52) := by
      rw [sub_mul, mul_assoc, e1, mul_one]
      rfl
    rw [e2, abs_mul, abs_of_pos h2]
    have h3 := abs_sub_round (x * 2 ^ (52 - Int.log 2 x))
    have h4 : ((2 : ℕ) : ℚ) ^ Int.log 2 x ≤ x := Int.zpow_log_le_self (by norm_num) hx
    calc |x * 2 ^ (52 - Int.log 2 x) - (round (x * 2 ^ (52 - Int.log 2 x)) : ℚ)| * 2 ^ (Int.log 2 x - 52)
        ≤ 1 / 2 * 2 ^ (Int.log 2 x - 52) := mul_le_mul_of_nonneg_right h3 h2.le
      _ = 1 / 2 ^ 53 * 2 ^ Int.log 2 x := by
          rw [zpow_sub₀ (by norm_num)]
          norm_num
          ring
      _ ≤ 1 / 2 ^ 53 * x := by
          refine mul_le_mul_of_nonneg_left ?_ (by norm_num)
          simpa using h4
  refine ⟨by norm_num, by norm_num, ?_, ?_⟩
  · intro x hx
    have := (abs_le.1 (key x hx)).2
    linarith
  · intro x hx
    have := (abs_le.1 (key x hx)).1
    linarith

/-- A billion roundings to 53 binary digits. -/
theorem Rounded.billion {N : Nat} (hN : N ≤ 10 ^ 9) {k c : ℚ} (hk : 0 ≤ k) (h6 : (1 - 1 / 2 ^ 53) ^ N * k ≤ c)
    (h7 : c ≤ (1 + 1 / 2 ^ 53) ^ N * k) : |c - k| ≤ 1 / 10 ^ 6 * k := by
  have hN' : (N : ℚ) * (1 / 2 ^ 53) ≤ 1 / (5 * 10 ^ 6) := by
    have : (N : ℚ) ≤ 10 ^ 9 := by exact_mod_cast hN
    calc (N : ℚ) * (1 / 2 ^ 53) ≤ 10 ^ 9 * (1 / 2 ^ 53) := mul_le_mul_of_nonneg_right this (by norm_num)
      _ ≤ 1 / (5 * 10 ^ 6) := by norm_num
  have hlow : 1 - 1 / (5 * 10 ^ 6) ≤ (1 - 1 / 2 ^ 53 : ℚ) ^ N := by
    have := one_add_mul_le_pow (a := -(1 / 2 ^ 53 : ℚ)) (by norm_num) N
    rw [← sub_eq_add_neg] at this
    linarith
  have hup : c ≤ (1 + 4 * (1 / (5 * 10 ^ 6))) * k := by
    refine Rounded.few (N := N) (u := 1 / 2 ^ 53) (by norm_num) (by norm_num) (by norm_num) hN' hk ?_ (by norm_num)
    have hc : 0 ≤ c := le_trans (mul_nonneg (pow_nonneg (by norm_num) N) hk) h6
    have h1 : (1 - 1 / 2 ^ 53 : ℚ) ^ N ≤ 1 := pow_le_one₀ (by norm_num) (by norm_num)
    exact le_trans (mul_le_of_le_one_left hc h1) h7
  have hlow' := (mul_le_mul_of_nonneg_right hlow hk).trans h6
  rw [abs_le]
  constructor <;> linarith

/-- **C120** With 53 binary digits, as in `f64`, and at most a billion roundings on a path (for example a thousand slots and half a
million servers), the schedule returned costs at most a millionth more than any other one, and the reported cost is its cost up to a
millionth. -/
theorem C120_double (p : SSCO ℤ C D) (hv : p.verify = .ok ()) (hT : 1 ≤ p.tEnd)
    (o : OfflineOptions) (hl : o.l = none) (hα : 0 ≤ o.alpha) (hit : Int → Config ℤ → ECost)
    (hhit : ∀ t : Int, 1 ≤ t → t ≤ p.tEnd → ∀ x, Spec.InBox p.bounds x →
      0 ≤ hit t x ∧ ∃ out, p.toProb.hitCost t x = .ok ⟨hit t x, out⟩)
    (hfin : ∀ t : Int, 1 ≤ t → t ≤ p.tEnd → hit t p.bounds ≠ ⊤)
    (hN : Spec.roundings p.tEnd.toNat p.bounds ≤ 10 ^ 9) :
    ∃ (r : CachedPath Vertex) (c k : ℚ), Rounded.optimalGraphSearch Spec.double p none o = .ok r ∧
      (r.path.xs.length : Int) = p.tEnd ∧ (∀ x ∈ r.path.xs, Spec.InBox p.bounds x) ∧ r.path.cost = (c : ECost) ∧
      (∃ out, p.toProb.alphaUnfairObjective r.path.xs o.alpha = .ok ⟨(k : ECost), out⟩) ∧
      |c - k| ≤ 1 / 10 ^ 6 * k ∧
      ∀ ys : Schedule ℤ, (ys.length : Int) = p.tEnd → (∀ y ∈ ys, Spec.InBox p.bounds y) →
        ∃ c', p.toProb.alphaUnfairObjective ys o.alpha = .ok c' ∧
          ∀ q : ℚ, c'.cost = (q : ECost) → k ≤ (1 + 1 / 10 ^ 6) * q := by
  obtain ⟨r, c, k, h1, h2, h3, h4, hk, h5, h6, h7, h8⟩ := C120_graph_search C120_double_rounds p hv hT o hl hα hit hhit hfin
  generalize Spec.roundings p.tEnd.toNat p.bounds = N at hN h6 h7 h8
  have hN' : (N : ℚ) * (1 / 2 ^ 53) ≤ 1 / (5 * 10 ^ 6) := by
    have : (N : ℚ) ≤ 10 ^ 9 := by exact_mod_cast hN
    calc (N : ℚ) * (1 / 2 ^ 53) ≤ 10 ^ 9 * (1 / 2 ^ 53) := mul_le_mul_of_nonneg_right this (by norm_num)
      _ ≤ 1 / (5 * 10 ^ 6) := by norm_num
  refine ⟨r, c, k, h1, h2, h3, h4, h5, Rounded.billion hN hk h6 h7, ?_⟩
  · intro ys hy hys
    obtain ⟨c', c1, c2⟩ := h8 ys hy hys
    refine ⟨c', c1, fun q hq => ?_⟩
    have h9 := c2 q hq
    have hq0 : 0 ≤ q := by
      by_contra hc
      push Not at hc
      have h10 := mul_neg_of_pos_of_neg (pow_pos (show (0 : ℚ) < 1 + 1 / 2 ^ 53 by norm_num) N) hc
      have h11 := mul_nonneg (pow_nonneg (show (0 : ℚ) ≤ 1 - 1 / 2 ^ 53 by norm_num) N) hk
      linarith
    have := Rounded.few (N := N) (u := 1 / 2 ^ 53) (by norm_num) (by norm_num) (by norm_num) hN' hq0 h9 (by norm_num)
    refine this.trans (mul_le_mul_of_nonneg_right (by norm_num) hq0)

namespace Multi.Rounded

theorem addFl_id (a b : ECost) : addFl (fun x => x) a b = a + b := by
  unfold addFl
  cases a + b <;> rfl

theorem pickedCost_id : pickedCost (fun x => x) = Multi.pickedCost := by
  funext x
  rcases x with _ | ⟨e, path⟩
  · rfl
  · exact addFl_id _ _

theorem handleConfig_id : @handleConfig C D _ _ (fun x => x) = @Multi.handleConfig C D _ _ := by
  have h1 : @findPredecessors C D _ _ (fun x => x) = @Multi.findPredecessors C D _ _ := by
    funext p alpha inverted t up k c v
    rfl
  have h2 : pick (fun x => x) = Multi.pick := by
    funext paths picked e
    unfold pick Multi.pick
    simp only [addFl_id, pickedCost_id]
  have h3 : findOptimal (fun x => x) = Multi.findOptimal := by
    funext preds paths
    unfold findOptimal Multi.findOptimal
    rw [h2]
  have h4 : updatePaths (fun x => x) = Multi.updatePaths := by
    funext paths pred dst
    unfold updatePaths Multi.updatePaths
    simp only [addFl_id]
    rfl
  funext p alpha inverted t k up v paths c
  unfold handleConfig Multi.handleConfig
  rw [h1, h3, h4]

theorem handleLoop_id (p : SSCO ℤ C D) (alpha : ℚ) (inverted : Bool) (t : Int) (k : Nat) (up : Bool) (v : Values) :
    ∀ n c s, handleLoop (fun x => x) p alpha inverted t k up v n c s = Multi.handleLoop p alpha inverted t k up v n c s := by
  intro n
  induction n with
  | zero => intro c s; rfl
  | succ n ih =>
    intro c s
    obtain ⟨paths, added⟩ := s
    unfold handleLoop Multi.handleLoop
    rw [handleConfig_id]
    simp only [ih]
    rfl

theorem handleDims_id (p : SSCO ℤ C D) (alpha : ℚ) (inverted : Bool) (t : Int) (up : Bool) (v : Values) :
    ∀ n k cs paths, handleDims (fun x => x) p alpha inverted t up v n k cs paths
      = Multi.handleDims p alpha inverted t up v n k cs paths := by
  intro n
  induction n with
  | zero => intro k cs paths; rfl
  | succ n ih =>
    intro k cs paths
    have : handleBase (fun x => x) p alpha inverted t k up v = Multi.handleBase p alpha inverted t k up v := by
      funext s base
      unfold handleBase Multi.handleBase
      simp only [handleLoop_id]
    unfold handleDims Multi.handleDims
    rw [this]
    simp only [ih]

end Multi.Rounded

/-- The model with rounding, without errors, is the model of the search. -/
theorem C120_exact (p : SSCO ℤ C D) (cache : Option (Cache Vertex)) (o : OfflineOptions) :
    Rounded.optimalGraphSearch (fun x => x) p cache o = Multi.optimalGraphSearch p cache o := by
  have h : ∀ alpha inverted v, Rounded.handleSlot (fun x => x) p alpha inverted v = Multi.handleSlot p alpha inverted v := by
    intro alpha inverted v
    funext paths t
    unfold Rounded.handleSlot Multi.handleSlot Rounded.handleLayer Multi.handleLayer
    simp only [Rounded.handleDims_id]
  unfold Rounded.optimalGraphSearch Multi.optimalGraphSearch Rounded.graphSearch Multi.graphSearch
  simp only [h]

theorem Ex.ssco2_hitPos (t : Int) (ht : 1 ≤ t) (x : Config ℤ) (hx : Spec.InBox Ex.ssco2.bounds x) :
    0 ≤ Ex.hitBox2 t x ∧ ∃ out, Ex.ssco2.toProb.hitCost t x = .ok ⟨Ex.hitBox2 t x, out⟩ := by
  refine ⟨?_, Ex.ssco2_hitBox t ht x hx⟩
  unfold Ex.hitBox2 Ex.hit2
  split
  · exact le_top
  split
  · exact le_top
  · have : (0 : ℤ) ≤ x.getD 0 0 + 2 * x.getD 1 0 := by omega
    have : (0 : ℚ) ≤ ((x.getD 0 0 + 2 * x.getD 1 0 : ℤ) : ℚ) := by exact_mod_cast this
    exact_mod_cast this

/-- C120 applies to a two-dimensional instance whose load must be met, with numbers of 53 binary digits. -/
example (inverted : Bool) := C120_double Ex.ssco2 (by decide +kernel) (by decide)
  ⟨inverted, 2, none⟩ rfl (by norm_num) Ex.hitBox2 (fun t ht _ x hx => Ex.ssco2_hitPos t ht x hx)
  Ex.ssco2_top (by decide)

/-- A dear first slot, and a second slot in which the server costs one and no server costs nothing; powering up costs a half. -/
def Ex.dearSlot : SSCO ℤ Unit Unit where
  d := 1
  tEnd := 2
  bounds := [1]
  switchingCost := [1 / 2]
  hittingCost := CostFn.new 1 (SingleCostFn.certain fun t x => .ok (Cost.raw
    ((if t = 1 then 2 ^ 60 else if x = [0] then 0 else 1 : ℚ) : ECost)))

/-- Rounding can change the plan: no server is needed, but beside the cost of the first slot the search with 53 binary digits does not
see what powering up and the second slot cost. -/
theorem C120_optimal_counterexample :
    (Rounded.optimalGraphSearch Spec.double Ex.dearSlot none ⟨false, 1, none⟩).map (·.path.xs) = .ok [[1], [1]] ∧
    (Ex.dearSlot.toProb.objective [[1], [1]]).map (·.cost) = .ok ((2 ^ 60 + 3 / 2 : ℚ) : ECost) ∧
    (Ex.dearSlot.toProb.objective [[0], [0]]).map (·.cost) = .ok ((2 ^ 60 : ℚ) : ECost) := by
  decide +kernel

end Soco
