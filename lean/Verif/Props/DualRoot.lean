import Verif.Props.BalancedRoot

/-! # C81: dual balance, when the level is searched for -/

namespace Soco
namespace Spec

/-- The difference quotient of `f` at `x` with step `ε` to both sides. -/
def slope (ε : ℚ) (f : ℚ → ℚ) (x : ℚ) : ℚ := (f (x + ε) - f (x - ε)) / (2 * ε)

/-- `x` is a point of `[0, u]`, a multiple of the precision, with hitting cost at most `l`, and no such point is nearer to `p`. -/
def NearestOn (u : ℚ) (f : ℚ → ℚ) (p l x : ℚ) : Prop :=
  (0 ≤ x ∧ x ≤ u ∧ OnGrid x) ∧ f x ≤ l ∧ ∀ y, 0 ≤ y → y ≤ u → OnGrid y → f y ≤ l → |x - p| ≤ |y - p|

end Spec

namespace Descent
open Spec Num

section
variable {C D : Type} [OutSuccess C] [OutFailure D]

/-- The dual imbalance on a line: infinitely negative within `ε` of the border. -/
theorem gap_line (S : Solver) (o : Online (SCO ℚ C D)) (u : ℚ) (hb : o.p.bounds = [(0, u)]) (xs : Schedule ℚ) (f : ℚ → ℚ)
    (mv : Config ℚ → ℚ) (hp : Slot o.p (xs.length + 1) (fun x => ((f (x.headD 0) : ℚ) : ECost)) mv) (ε : ℚ) (hε : 0 < ε) (hεu : 2 * ε ≤ u)
    (η : ℚ) (hη : 0 < η) (p l x : ℚ) (hx0 : 0 ≤ x) (hxu : x ≤ u)
    (hx : (obd S ε sqNorm ((l : ℚ) : ECost)).next o xs none = .ok ([x], none)) :
    gap S ε sqNorm absDual η o (xs.length + 1) xs [p] l =
      .ok (if ε ≤ x ∧ x ≤ u - ε then (((|2 * x - 2 * p| - η * |slope ε f x| : ℚ) : WithTop ℚ) : Slack) else ⊥) := by
  have hgrad : ∀ x : ℚ, gradientQ ε sqNorm [x] = .ok [2 * x] := by
    intro x
    rw [gradientQ, centralDiff_ok _ ε sqNorm (fun x => (x.map (· ^ 2)).sum) [x] fun z _ => rfl]
    have : ((x + ε) ^ 2 - (x + -ε) ^ 2) / (2 * ε) = 2 * x := by
      field_simp
      ring
    simpa [bump] using this
  have hone : o.p.bounds.length = 1 := by rw [hb]; rfl
  obtain ⟨Hc, hHc⟩ : ∃ Hc : List ℚ → ECost, ∀ x : List ℚ, x.length = o.p.bounds.length →
      ∃ c, o.p.toProb.hitCost (xs.length + 1) x = .ok c ∧ c.cost = Hc x := by
    have : ∀ x : List ℚ, ∃ q : ECost, x.length = o.p.bounds.length →
        ∃ c, o.p.toProb.hitCost (xs.length + 1) x = .ok c ∧ c.cost = q := by
      intro x
      by_cases hx : x.length = o.p.bounds.length
      · obtain ⟨c, hc⟩ := hitCost_total hp x hx
        exact ⟨c.cost, fun _ => ⟨c, hc, rfl⟩⟩
      · exact ⟨0, fun h => absurd h hx⟩
    choose q hq using this
    exact ⟨q, hq⟩
  have hgf : gradient ε (fun y => do
      let c ← o.p.toProb.hitCost (xs.length + 1) y
      .ok c.cost) [x] = .ok [diffQuot ε (Hc [x + ε]) (Hc [x - ε])] := by
    rw [gradient, centralDiff_ok _ ε _ Hc [x] fun z hz => by
      obtain ⟨c, h1, h2⟩ := hHc z (by rw [hz, hone]; rfl)
      simp only [h1, h2, bind, Except.bind]]
    simp [bump, sub_eq_add_neg]
  have hin : ∀ x, 0 ≤ x → x ≤ u → Hc [x] = ((f x : ℚ) : ECost) := by
    intro x h0 h1
    obtain ⟨c, k1, k2⟩ := hHc [x] (by rw [hone]; rfl)
    obtain ⟨o', k3⟩ := (hitCost_eq hp [x]).1 (by rw [hb]; exact .cons ⟨h0, h1⟩ .nil)
    rw [k3] at k1
    cases k1
    exact k2.symm
  have hout : ∀ x, ¬ (0 ≤ x ∧ x ≤ u) → Hc [x] = ⊤ := by
    intro x h0
    obtain ⟨c, k1, k2⟩ := hHc [x] (by rw [hone]; rfl)
    obtain ⟨o', k3⟩ := (hitCost_eq hp [x]).2 (by rw [hone]; rfl) (by
      rw [hb]
      intro h
      cases h with
      | cons a _ => exact h0 a)
    rw [k3] at k1
    cases k1
    exact k2.symm
  simp only [gap, hx, bind, Except.bind, hgrad]
  simp only [bind, Except.bind] at hgf
  simp only [hgf, absDual]
  by_cases h1 : ε ≤ x ∧ x ≤ u - ε
  · rw [if_pos h1, hin _ (by linarith) (by linarith [h1.2]), hin _ (by linarith [h1.1]) (by linarith)]
    rfl
  · rw [if_neg h1]
    by_cases h2 : ε ≤ x
    · have h3 : ¬ x ≤ u - ε := fun h => h1 ⟨h2, h⟩
      rw [hout (x + ε) (fun h => h3 (by linarith [h.2])), hin _ (by linarith) (by linarith)]
      exact if_pos hη
    · rw [hin (x + ε) (by linarith) (by linarith), hout (x - ε) (fun h => h2 (by linarith [h.1]))]
      exact if_pos hη

/-- **C81** (partial, when the level is searched for). In one dimension with movement cost `|x|` and the squared norm as distance-generating
function, let `a` be the least hitting cost. Suppose that at every minimiser the dual movement exceeds `η` times the slope of the hitting cost by
at least 10, that at the previous configuration `p` the slope is at least `10 / η` (or `p` lies at the border), and that some level between `a` and
the hitting cost of `p`, a multiple of the precision, balances the two. Then dual balanced descent chooses such a level `l`: it moves to a
point nearest to `p` of hitting cost at most `l`, where dual movement and `η` times the slope are equal. -/
theorem C81_level_partial (S : Solver) (hS : Inner S) (hE : Exact S) (B : Brent) (hB : FindsRoots B) (o : Online (SCO ℚ C D)) (hw : o.w = 0)
    (u : ℚ) (hb : o.p.bounds = [(0, u)]) (xs : Schedule ℚ) (hxs : ∀ x ∈ xs, x.length = 1) (f : ℚ → ℚ) (mv : Config ℚ → ℚ)
    (hp : Slot o.p (xs.length + 1) (fun x => ((f (x.headD 0) : ℚ) : ECost)) mv) (ε : ℚ) (hε : 0 < ε) (hεu : 2 * ε ≤ u) (η : ℚ) (hη : 0 < η)
    (p : ℚ) (hl : latest 1 xs = [p]) (hp0 : 0 ≤ p) (hpu : p ≤ u) (hpg : OnGrid p) (a : ℚ)
    (ha : ∀ v, 0 ≤ v → v ≤ u → OnGrid v → a ≤ f v) (hmin : ∃ v, 0 ≤ v ∧ v ≤ u ∧ OnGrid v ∧ f v = a) (hap : 1 / 100 ≤ f p - a)
    (hlow : ∀ v, 0 ≤ v → v ≤ u → OnGrid v → f v = a → ε ≤ v ∧ v ≤ u - ε ∧ η * |slope ε f v| + 10 ≤ 2 * |v - p|)
    (hhigh : ε ≤ p → p ≤ u - ε → 10 ≤ η * |slope ε f p|)
    (hlevel : ∃ l, a ≤ l ∧ l ≤ f p ∧ OnGrid l ∧ ∀ x, NearestOn u f p l x → ε ≤ x ∧ x ≤ u - ε ∧ 2 * |x - p| = η * |slope ε f x|) :
    ∃ x l, (dobd S B ε sqNorm absDual η).next o xs none = .ok ([x], none) ∧ a ≤ l ∧ l ≤ f p ∧ NearestOn u f p l x ∧
      ε ≤ x ∧ x ≤ u - ε ∧ 2 * |x - p| = η * |slope ε f x| := by
  have hxs' : ∀ x ∈ xs, x.length = o.p.bounds.length := by rw [hb]; exact hxs
  have hlat : latest o.p.bounds.length xs = [p] := by rw [hb]; exact hl
  have hgp : ∀ y : ℚ, 0 ≤ y → y ≤ u → OnGrid y → GridPoint o.p.bounds [y] := by
    intro y h0 h1 h2
    rw [hb]; exact gridPoint_one.2 ⟨y, rfl, h0, h1, h2⟩
  obtain ⟨v', a', hv', hvg', -, hva, hvb⟩ := hittingMinimizer_ok hS hp
  have haa : a' = ((a : ℚ) : ECost) := by
    rw [hva hE.done]
    obtain ⟨w, w0, w1, w2, w3⟩ := hmin
    have h1 := hvb hE [w] (hgp w w0 w1 w2)
    rw [hb] at hvg'
    obtain ⟨z, rfl, z0, z1, z2⟩ := gridPoint_one.1 hvg'
    simp only [List.headD_cons, WithTop.coe_le_coe] at h1 ⊢
    rw [WithTop.coe_eq_coe]
    exact le_antisymm (w3 ▸ h1) (ha z z0 z1 z2)
  subst haa
  obtain ⟨o', hbc⟩ := (hitCost_eq hp [p]).1 (by rw [hb]; exact .cons ⟨hp0, hpu⟩ .nil)
  -- the decisions for given levels
  have hdiv : ∀ y : ℚ, divergence ε (fun x : List ℚ => (x.map (· ^ 2)).sum) [y] [p] = (y - p) ^ 2 := by
    intro y
    have : ((p + ε) ^ 2 - (p + -ε) ^ 2) / (2 * ε) = 2 * p := by
      field_simp
      ring
    simp [divergence, bump, this]
    ring
  have hobd : ∀ l : ℚ, ∃ x, (obd S ε sqNorm ((l : ℚ) : ECost)).next o xs none = .ok ([x], none) ∧ 0 ≤ x ∧ x ≤ u ∧ OnGrid x ∧
      (a ≤ l → NearestOn u f p l x) := by
    intro l
    obtain ⟨x, h1, h2, -, h3, -⟩ := C50_obd S hS o hw xs hxs' _ mv hp ε sqNorm (fun x => (x.map (· ^ 2)).sum) (fun _ _ => rfl) l
    have h2' := h2
    rw [hb] at h2'
    obtain ⟨x, rfl, x0, x1, x2⟩ := gridPoint_one.1 h2'
    refine ⟨x, h1, x0, x1, x2, fun hal => ?_⟩
    obtain ⟨w, w0, w1, w2, w3⟩ := hmin
    obtain ⟨h4, h5⟩ := h3 hE ⟨[w], hgp w w0 w1 w2, by simp only [List.headD_cons, WithTop.coe_le_coe]; rw [w3]; exact hal⟩
    simp only [List.headD_cons, WithTop.coe_le_coe] at h4
    refine ⟨⟨x0, x1, x2⟩, h4, fun y y0 y1 y2 y3 => ?_⟩
    have := h5 [y] (hgp y y0 y1 y2) (by simpa using y3)
    rw [hlat, hdiv, hdiv] at this
    exact sq_le_sq.1 this
  have hgap := fun l x => gap_line S o u hb xs f mv hp ε hε hεu η hη p l x
  have habs : ∀ x : ℚ, |2 * x - 2 * p| = 2 * |x - p| := by
    intro x
    rw [← mul_sub, abs_mul, abs_two]
  obtain ⟨xa, a1, a2, a3, a4, a5⟩ := hobd a
  obtain ⟨xu, u1, u2, u3, u4, u5⟩ := hobd (f p)
  obtain ⟨l0, l1, l2, l3, l4⟩ := hlevel
  obtain ⟨x0, o1, o2, o3, -, o5⟩ := hobd l0
  have hxa := hlow xa a2 a3 a4 (le_antisymm (a5 le_rfl).2.1 (ha xa a2 a3 a4))
  have hxu : xu = p := by
    have := (u5 (by linarith)).2.2 p hp0 hpu hpg le_rfl
    rw [sub_self, abs_zero] at this
    have := abs_nonpos_iff.1 this
    linarith
  subst hxu
  have ga := hgap a xa a2 a3 a1
  rw [if_pos ⟨hxa.1, hxa.2.1⟩] at ga
  have gu := hgap (f xu) xu u2 u3 u1
  have g0 := hgap l0 x0 o2 o3 o1
  have hx0 := l4 x0 (o5 l1)
  rw [if_pos ⟨hx0.1, hx0.2.1⟩, habs, hx0.2.2, sub_self] at g0
  obtain ⟨l, r1, r2, r3, r4, r5⟩ := findRoot_root hB (a := a) (b := f xu) (by
      rw [abs_sub_comm]; exact le_trans (by norm_num [precision]) (hap.trans (le_abs_self _)))
    (gap S ε sqNorm absDual η o (xs.length + 1) xs [xu])
    (fun l => by obtain ⟨x, h1, h2, h3, -⟩ := hobd l; exact ⟨_, hgap l x h2 h3 h1⟩) _ 0 ga (by rw [habs]; linarith [hxa.2.2])
    _ gu (by
      split_ifs with h
      · rw [WithBot.coe_le_coe, WithTop.coe_le_coe, habs, sub_self, abs_zero, mul_zero]
        linarith [hhigh h.1 h.2]
      · exact bot_le)
    ⟨l0, l1, l2, l3, g0⟩
  obtain ⟨x, h1, h2, h3, -, h5⟩ := hobd l
  have gl := hgap l x h2 h3 h1
  rw [r5] at gl
  have gl := Except.ok.inj gl
  by_cases hc : ε ≤ x ∧ x ≤ u - ε
  · rw [if_pos hc, WithBot.coe_inj, WithTop.coe_eq_coe, habs] at gl
    refine ⟨x, l, ?_, r2, r3, h5 r2, hc.1, hc.2, by linarith⟩
    have e : (dobd S B ε sqNorm absDual η).next o xs none = (dobd S B ε sqNorm absDual η).call o (xs.length + 1) xs () := rfl
    rw [e]
    simp only [dobd, hw, assertR, decide_true, if_true, bind, Except.bind, hv', prevX_eq o.p hp.dim, hlat, hbc]
    change Except.bind (findRoot B a (f xu) (gap S ε sqNorm absDual η o (xs.length + 1) xs [xu]))
      (fun l => (obd S ε sqNorm ((l : ℚ) : ECost)).next o xs none) = _
    rw [r1]
    exact h1
  · rw [if_neg hc] at gl
    cases gl

end

/-- Non-vacuity of `C81_level_partial`, and its use: with hitting cost `(x - 20)²` on `[0, 40]` and `η = 1`, the algorithm goes from 0 to 10. -/
example (S : Solver) (hS : Inner S) (hE : Exact S) (B : Brent) (hB : FindsRoots B) (ε : ℚ) (hε : 0 < ε) (hε1 : ε ≤ 1) :
    (dobd S B ε sqNorm absDual 1).next ⟨lineQ 40 (fun _ x => (x - 20) ^ 2) (fun x => |x|) 1, 0⟩ [] none = .ok ([10], none) := by
  have hs : ∀ x : ℚ, slope ε (fun x => (x - 20) ^ 2) x = 2 * (x - 20) := by
    intro x
    unfold slope
    field_simp
    ring
  obtain ⟨x, l, h1, -, -, h4, -, -, h7⟩ := C81_level_partial S hS hE B hB ⟨lineQ 40 (fun _ x => (x - 20) ^ 2) (fun x => |x|) 1, 0⟩ rfl 40 rfl [] (by simp)
    (fun x => (x - 20) ^ 2) (fun x => |x.headD 0|)
    (line_slot 40 (by norm_num) ⟨4000, by norm_num⟩ (fun _ x => (x - 20) ^ 2) (fun x => |x|) _ 1 (by norm_num)) ε hε (by linarith) 1 one_pos 0 rfl le_rfl (by norm_num)
    ⟨0, by norm_num⟩ 0 (fun v _ _ _ => sq_nonneg _) ⟨20, by norm_num, by norm_num, ⟨2000, by norm_num⟩, by norm_num⟩ (by norm_num)
    (by
      intro v _ _ _ h
      have : v = 20 := by
        have := pow_eq_zero_iff (two_ne_zero) |>.1 h
        linarith
      subst this
      refine ⟨by linarith, by linarith, ?_⟩
      rw [hs]; norm_num)
    (fun h _ => absurd h (by linarith))
    ⟨100, by norm_num, by norm_num, ⟨10000, by norm_num⟩, by
      rintro x ⟨⟨x0, x1, -⟩, h2, h3⟩
      have h4 := h3 10 (by norm_num) (by norm_num) ⟨1000, by norm_num⟩ (by norm_num)
      rw [sub_zero, sub_zero, abs_of_nonneg x0, abs_of_nonneg (by norm_num)] at h4
      have h5 : x = 10 := by nlinarith
      subst h5
      refine ⟨by linarith, by linarith, ?_⟩
      rw [hs]; norm_num⟩
  rw [h1]
  rw [hs, sub_zero, abs_of_nonneg h4.1.1, one_mul, abs_mul, abs_two] at h7
  have h8 : x = |x - 20| := by linarith
  have : x = 10 := by
    rcases abs_cases (x - 20) with ⟨h, _⟩ | ⟨h, _⟩ <;> linarith
  rw [this]

end Descent
end Soco
