import Verif.Props.LazyOne
import Verif.Lemmas.SkiExpect

/-!
# C72: randomised lazy budgeting with one server type
-/

namespace Soco
namespace Lb
open MeasureTheory

/-- **C72** The random factor lies in the unit interval, where its distribution function is `(exp x - 1) / (e - 1)`. -/
theorem C72_distribution :
    (∀ r ∈ Set.Icc (0 : ℝ) 1, sampleGamma r ∈ Set.Icc (0 : ℝ) 1) ∧
    ∀ x ∈ Set.Icc (0 : ℝ) 1, Spec.unif {r | sampleGamma r ≤ x} = ENNReal.ofReal ((Real.exp x - 1) / (Real.exp 1 - 1)) := by
  have he := e_gt
  refine ⟨fun r hr => factor_le r hr.1 hr.2, fun x hx => ?_⟩
  have hm : Measurable sampleGamma := by
    unfold sampleGamma
    apply Real.measurable_log.comp
    exact (measurable_id.mul_const _).add_const _
  have hset : MeasurableSet {r | sampleGamma r ≤ x} := hm measurableSet_Iic
  have hx1 := Real.exp_le_exp.2 hx.2
  have hx0 := Real.one_le_exp hx.1
  have e : {r | sampleGamma r ≤ x} ∩ Set.Icc 0 1 = Set.Icc 0 ((Real.exp x - 1) / (Real.exp 1 - 1)) := by
    ext r
    simp only [Set.mem_inter_iff, Set.mem_setOf_eq, Set.mem_Icc]
    have hq : (Real.exp x - 1) / (Real.exp 1 - 1) ≤ 1 := by
      rw [div_le_one (by linarith)]
      linarith
    constructor
    · rintro ⟨h1, h2, h3⟩
      refine ⟨h2, ?_⟩
      unfold sampleGamma at h1
      rw [Real.log_le_iff_le_exp (arg_pos r h2)] at h1
      rw [le_div_iff₀ (by linarith)]
      linarith
    · rintro ⟨h1, h2⟩
      refine ⟨?_, h1, by linarith⟩
      unfold sampleGamma
      rw [Real.log_le_iff_le_exp (arg_pos r h1)]
      rw [le_div_iff₀ (by linarith)] at h2
      linarith
  rw [Spec.unif, Measure.restrict_apply hset, e, Real.volume_Icc, sub_zero]

/-- Runs of the algorithm and competing schedules as numbers of servers. -/
theorem run_line (S : Num.Solver) (hS : Spec.Shaped S) (hE : Spec.SolvesEmpty S) (randomized : Bool) (m : ℤ) (c β : ℚ)
    (hc : 0 < c) (ps : List (SLO ℤ)) (h : ShownOne m c β ps) (p : SLO ℤ) (hp : ps.getLast? = some p) :
    0 < β ∧ ∃ ls : List ℤ,
      (∀ gamma : ℚ, 0 ≤ gamma → ∀ W, W = Spec.keepSlots (if randomized then gamma else 1) β c →
        (∃ mem, Spec.play SLO.tEnd (alg S gamma randomized) [] none (ps.map fun p => ⟨p, 0⟩) =
          .ok ((rentals W m.toNat (fun _ => W) ls).map fun v => [v], mem)) ∧
        Spec.loadTotal p ((rentals W m.toNat (fun _ => W) ls).map fun v => [v]) =
          ((lineCost c β 0 (rentals W m.toNat (fun _ => W) ls) : ℚ) : ECost)) ∧
      ∀ zs, Spec.InSpace p.tEnd p.bounds zs → Spec.loadTotal p zs ≠ ⊤ →
        ∃ us, Spec.loadTotal p zs = ((lineCost c β 0 us : ℚ) : ECost) ∧
          List.Forall₂ (fun (l y : ℤ) => l ≤ y ∧ 0 ≤ y ∧ y ≤ (m.toNat : ℤ)) ls us := by
  have hpm : p ∈ ps := List.mem_of_getLast? hp
  have hpo := h.one p hpm
  have hβ : 0 < β := hpo.valid.2.2.2.2.2.2.1 β (by rw [hpo.switching]; simp)
  have hm0 : 0 < m := hpo.valid.2.2.2.2.2.1 m (by rw [hpo.bounds]; simp)
  have hps : ps.length ≠ 0 := by
    intro e
    rw [List.length_eq_zero_iff] at e
    subst e
    simp at hpm
  have hpk : ps[ps.length - 1]? = some p := by rwa [List.getLast?_eq_getElem?] at hp
  have hpT := h.slot _ p hpk
  have hlen : ps.length ≤ p.load.length := by
    have := hpo.valid.2.2.2.2.1
    omega
  set ls := p.load.take ps.length with hls
  have hlsl : ls.length = ps.length := by rw [hls, List.length_take]; omega
  have hlsD : ∀ i, i < ps.length → p.load.getD i 0 = ls.getD i 0 := by
    intro i hi
    rw [List.getD_eq_getElem _ _ (by omega), List.getD_eq_getElem _ _ (by omega)]
    simp [hls]
  have hld : (ps.map fun p => p.load.getD (p.tEnd - 1).toNat 0) = ls := by
    have := loads_take m c β ps h _ p hpk
    rwa [show ps.length - 1 + 1 = ps.length by omega, List.take_of_length_le (by simp)] at this
  refine ⟨hβ, ls, ?_, ?_⟩
  · intro gamma hg W hW
    obtain ⟨mem, h1⟩ := play_start S hS hE randomized gamma hg m c β hc hβ ps h
    rw [hld, ← hW] at h1
    have hW1 : 1 ≤ W := by rw [hW]; unfold Spec.keepSlots; omega
    have hloads : ∀ l ∈ ls, l ≤ (m.toNat : ℤ) := fun l hl => by have := hpo.loads l (List.mem_of_mem_take hl); omega
    refine ⟨⟨mem, h1⟩, ?_⟩
    apply loadTotal_line hpo
    intro i v hv
    have hi : i < ls.length := by
      rw [← rentals_length W m.toNat (fun _ => W) ls]
      exact (List.getElem?_eq_some_iff.1 hv).1
    rw [hlsD i (by omega)]
    exact rentals_cover W m.toNat hW1 _ ls hloads i _ v
      (by rw [List.getD_eq_getElem _ _ hi, List.getElem?_eq_getElem hi]) hv
  · intro zs hz ht
    obtain ⟨us, rfl, hus⟩ := space_line (hpo.bounds ▸ hz.2)
    have hcu := loadTotal_cover hpo us ht
    refine ⟨us, loadTotal_line hpo us hcu, ?_⟩
    have hul : us.length = ls.length := by
      have := hz.1
      rw [List.length_map] at this
      omega
    rw [List.forall₂_iff_get]
    refine ⟨hul.symm, fun i a b => ?_⟩
    simp only [List.get_eq_getElem]
    have h3 := hcu i us[i] (List.getElem?_eq_getElem b)
    rw [hlsD i (by omega), List.getD_eq_getElem _ _ a] at h3
    have h4 := hus us[i] (List.getElem_mem b)
    exact ⟨h3, h4.1, by omega⟩

/-- The cost of a schedule as a real number. -/
noncomputable def realCost (p : SLO ℤ) (xs : Schedule ℤ) : ℝ := (((Spec.loadTotal p xs).untopD 0 : ℚ) : ℝ)

/-- **C72** (partial) With one server type, the expected cost of randomised lazy budgeting is at most `e / (e - 1)` times
the cost of any schedule handling the loads. The factor used by the algorithm is a number `q r` which allows for as many
slots as the real factor drawn. For `d` types the documentation claims `d` times this ratio, which fails for
two types, see `C72_two_types_counterexample`. -/
theorem C72_randomized_partial (S : Num.Solver) (hS : Spec.Shaped S) (hE : Spec.SolvesEmpty S) (m : ℤ) (c β : ℚ)
    (hc : 0 < c) (ps : List (SLO ℤ)) (h : ShownOne m c β ps) (p : SLO ℤ) (hp : ps.getLast? = some p) (q : ℝ → ℚ)
    (hq : ∀ r ∈ Set.Icc (0 : ℝ) 1, 0 ≤ q r ∧ ⌊q r * β / c⌋ = ⌊sampleGamma r * β / c⌋) (xs : ℝ → Schedule ℤ)
    (hxs : ∀ r ∈ Set.Icc (0 : ℝ) 1, ∃ mem,
      Spec.play SLO.tEnd (alg S (q r) true) [] none (ps.map fun p => ⟨p, 0⟩) = .ok (xs r, mem)) :
    (∀ r ∈ Set.Icc (0 : ℝ) 1, Spec.loadTotal p (xs r) ≠ ⊤) ∧
    Integrable (fun r => realCost p (xs r)) Spec.unif ∧
    ∀ zs, Spec.InSpace p.tEnd p.bounds zs → Spec.loadTotal p zs ≠ ⊤ →
      ∫ r, realCost p (xs r) ∂Spec.unif ≤ Real.exp 1 / (Real.exp 1 - 1) * realCost p zs := by
  obtain ⟨hβ, ls, hrun, hcomp⟩ := run_line S hS hE true m c β hc ps h p hp
  have hc' : (0 : ℝ) < c := by exact_mod_cast hc
  have hβ' : (0 : ℝ) < β := by exact_mod_cast hβ
  have hb : (0 : ℝ) ≤ (β : ℝ) / c := by positivity
  have hval : ∀ r ∈ Set.Icc (0 : ℝ) 1, Spec.loadTotal p (xs r) =
      ((lineCost c β 0 (rentals (slots ((β : ℝ) / c) r) m.toNat (fun _ => slots ((β : ℝ) / c) r) ls) : ℚ) : ECost) := by
    intro r hr
    obtain ⟨h1, h2⟩ := hq r hr
    have hW : slots ((β : ℝ) / c) r = Spec.keepSlots (if true then q r else 1) β c := by
      simp only [if_true]
      unfold slots Spec.keepSlots
      rw [h2, ← mul_div_assoc]
      rfl
    obtain ⟨⟨mem, h3⟩, h4⟩ := hrun (q r) h1 _ hW
    obtain ⟨mem', h5⟩ := hxs r hr
    rw [h3] at h5
    injection h5 with h5
    injection h5 with h5 _
    rw [← h5, h4]
  have hae : (fun r => ((lineCost c β 0 (rentals (slots ((β : ℝ) / c) r) m.toNat
      (fun _ => slots ((β : ℝ) / c) r) ls) : ℚ) : ℝ)) =ᵐ[Spec.unif] fun r => realCost p (xs r) := by
    unfold Spec.unif
    refine (ae_restrict_iff' measurableSet_Icc).2 (Filter.Eventually.of_forall fun r hr => ?_)
    show _ = realCost p (xs r)
    unfold realCost
    rw [hval r hr]
    rfl
  refine ⟨fun r hr => by rw [hval r hr]; exact WithTop.coe_ne_top, ?_, ?_⟩
  · exact (expected_integrable _ hb fun W =>
      ((lineCost c β 0 (rentals W m.toNat (fun _ => W) ls) : ℚ) : ℝ)).congr hae
  · intro zs hz ht
    obtain ⟨us, hu, hF⟩ := hcomp zs hz ht
    rw [← integral_congr_ae hae]
    have := expected_le m.toNat c β hc hβ ls us hF
    unfold realCost
    rw [hu]
    exact this

/-- Such numbers exist. -/
theorem factor_exists (c β : ℚ) (hc : 0 < c) (hβ : 0 < β) : ∃ q : ℝ → ℚ, ∀ r ∈ Set.Icc (0 : ℝ) 1,
    0 ≤ q r ∧ ⌊q r * β / c⌋ = ⌊sampleGamma r * β / c⌋ := by
  have hc' : (0 : ℝ) < c := by exact_mod_cast hc
  have hβ' : (0 : ℝ) < β := by exact_mod_cast hβ
  refine ⟨fun r => (⌊sampleGamma r * β / c⌋ : ℚ) * c / β, fun r hr => ⟨?_, ?_⟩⟩
  · have h0 := (factor_le r hr.1 hr.2).1
    have : (0 : ℤ) ≤ ⌊sampleGamma r * β / c⌋ := Int.floor_nonneg.2 (by positivity)
    have : (0 : ℚ) ≤ (⌊sampleGamma r * β / c⌋ : ℚ) := by exact_mod_cast this
    positivity
  · have e : (⌊sampleGamma r * β / c⌋ : ℚ) * c / β * β / c = (⌊sampleGamma r * β / c⌋ : ℚ) := by field_simp
    simp only [e, Int.floor_intCast]

/-- The hypotheses are met by the instances of C69. -/
example : ∃ (q : ℝ → ℚ) (xs : ℝ → Schedule ℤ), (∀ r ∈ Set.Icc (0 : ℝ) 1, Spec.loadTotal (rented 4) (xs r) ≠ ⊤) ∧
    (∀ r ∈ Set.Icc (0 : ℝ) 1, ∃ mem, Spec.play SLO.tEnd (alg Offline.lazySolver (q r) true) [] none
      ([rented 1, rented 2, rented 3, rented 4].map fun p => ⟨p, 0⟩) = .ok (xs r, mem)) ∧
    ∫ r, realCost (rented 4) (xs r) ∂Spec.unif ≤
      Real.exp 1 / (Real.exp 1 - 1) * realCost (rented 4) [[3], [1], [1], [0]] := by
  obtain ⟨q, hq⟩ := factor_exists 1 2 (by norm_num) (by norm_num)
  have hrun : ∀ r : ℝ, ∃ xs, r ∈ Set.Icc (0 : ℝ) 1 → ∃ mem, Spec.play SLO.tEnd (alg Offline.lazySolver (q r) true) [] none
      ([rented 1, rented 2, rented 3, rented 4].map fun p => ⟨p, 0⟩) = .ok (xs, mem) := by
    intro r
    by_cases hr : r ∈ Set.Icc (0 : ℝ) 1
    · obtain ⟨xs, mem, h1, _⟩ := C69_window Offline.lazySolver lazySolver_ok.1 lazySolver_ok.2 true (q r) (hq r hr).1 3 1 2
        (by decide) _ rented_ok
      exact ⟨xs, fun _ => ⟨mem, h1⟩⟩
    · exact ⟨[], fun h => absurd h hr⟩
  choose xs hxs using hrun
  have := C72_randomized_partial Offline.lazySolver lazySolver_ok.1 lazySolver_ok.2 3 1 2 (by decide) _ rented_ok (rented 4)
    rfl q hq xs hxs
  exact ⟨q, xs, this.1, hxs, this.2.2 _ (by
    refine ⟨rfl, ?_⟩
    intro x hx
    simp only [List.mem_cons, List.not_mem_nil, or_false] at hx
    rcases hx with rfl | rfl | rfl | rfl <;> exact .cons (by decide) .nil) (by decide +kernel)⟩

end Lb
end Soco
