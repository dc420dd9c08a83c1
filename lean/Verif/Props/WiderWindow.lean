import Verif.Props.LcpWindow

/-!
# C130: a wider prediction window narrows the range of decisions
-/

namespace Soco
open Lcp Work Uni Window Low

variable {C D : Type} [OutSuccess C] [OutFailure D]

/-- **C130** Lazy capacity provisioning is played twice on the same requests, with a window of `w` slots and with a wider one of
`w'` slots. In every slot the bounds memorised with the wider window lie between those of the other run. Hence the decisions of
both runs lie between the bounds of the first one. -/
theorem C130_wider_window {m : ℤ} {β : ℚ} {g : Int → ℤ → ECost} (w w' : Nat) (hw : w ≤ w') (ps : List (SSCO ℤ C D))
    (hne : ps ≠ []) (K : Spec.Costs m β g (ps.length + w'))
    (I : ∀ k (h : k < ps.length), Spec.Foresight ps[k] m β g (k + 1) w') :
    ∃ (js js' : List ℤ) (bs bs' : List (BoundsMem ℤ)),
      Spec.play SSCO.tEnd (lcpAlg boundedInt) [] none (ps.map fun p => ⟨p, w⟩) = .ok (js.map (fun j => [j]), some bs) ∧
      Spec.play SSCO.tEnd (lcpAlg boundedInt) [] none (ps.map fun p => ⟨p, w'⟩) = .ok (js'.map (fun j => [j]), some bs') ∧
      js.length = ps.length ∧ js'.length = ps.length ∧ bs.length = ps.length ∧ bs'.length = ps.length ∧
      ∀ i (h : i < bs.length) (h' : i < bs'.length) (hj : i < js.length) (hj' : i < js'.length),
        bs[i].lower ≤ bs'[i].lower ∧ bs'[i].lower ≤ bs'[i].upper ∧ bs'[i].upper ≤ bs[i].upper ∧
        bs[i].lower ≤ js[i] ∧ js[i] ≤ bs[i].upper ∧ bs'[i].lower ≤ js'[i] ∧ js'[i] ≤ bs'[i].upper := by
  have Kw : Spec.Costs m β g (ps.length + w) := ⟨K.hm, K.hβ, fun t a b => K.fin t a (by push_cast at b ⊢; omega),
    fun t a b => K.nonneg t a (by push_cast at b ⊢; omega), fun t a b => K.conv t a (by push_cast at b ⊢; omega)⟩
  have Iw : ∀ k (h : k < ps.length), Spec.Foresight ps[k] m β g (k + 1) w := fun k h =>
    ⟨(I k h).d, (I k h).bounds, (I k h).switching, (I k h).tEnd, fun t a b => (I k h).hit t a (by push_cast at b ⊢; omega), (I k h).certain⟩
  have aux : ∀ (w : Nat), Spec.Costs m β g (ps.length + w) → (∀ k (h : k < ps.length), Spec.Foresight ps[k] m β g (k + 1) w) →
      ∃ (js : List ℤ) (bs : List (BoundsMem ℤ)),
        Spec.play SSCO.tEnd (lcpAlg boundedInt) [] none (ps.map fun p => ⟨p, w⟩) = .ok (js.map (fun j => [j]), some bs) ∧
        js.length = ps.length ∧ bs.length = ps.length ∧ Marks g β m w bs ∧
        ∀ i (h : i < bs.length) (hj : i < js.length), bs[i].lower ≤ js[i] ∧ js[i] ≤ bs[i].upper := by
    intro w K I
    obtain ⟨js, bs, h1, h2, h3, M, h5⟩ := run_window w ps K I
    rw [if_neg hne] at h1
    refine ⟨js, bs, h1, h2, h3, M, fun i hi hj => ?_⟩
    obtain ⟨A, B, hA, hB, eA, eB⟩ := M i bs[i] (List.getElem?_eq_getElem hi)
    have q := below_getD (low_prefix K.hβ hA hB le_rfl) i
    rw [take_getD _ (by omega), eA, eB] at q
    have eL : Lf bs (i + 1) = (bs[i].lower : ℚ) := by simp [Lf, hi]; rfl
    have eU : Uf bs (i + 1) = (bs[i].upper : ℚ) := by simp [Uf, hi]; rfl
    have hx := h5 i (by omega)
    have e : js.getD i 0 = js[i] := by simp [List.getD_eq_getElem?_getD, hj]
    have hle : (bs[i].lower : ℚ) ≤ bs[i].upper := by exact_mod_cast q
    rw [e, lazy, eL, eU] at hx
    have hc := clampQ_mem (D := fun _ => True) (y := lazy 0 (Lf bs) (Uf bs) i) hle trivial trivial trivial
    rw [← hx] at hc
    exact ⟨by exact_mod_cast hc.2.1, by exact_mod_cast hc.2.2⟩
  obtain ⟨js, bs, h1, h2, h3, h4, h5⟩ := aux w Kw Iw
  obtain ⟨js', bs', h1', h2', h3', h4', h5'⟩ := aux w' K I
  refine ⟨js, js', bs, bs', h1, h1', h2, h2', h3, h3', fun i h h' hj hj' => ?_⟩
  obtain ⟨A, B, hA, hB, eA, eB⟩ := h4 i bs[i] (List.getElem?_eq_getElem h)
  obtain ⟨A', B', hA', hB', eA', eB'⟩ := h4' i bs'[i] (List.getElem?_eq_getElem h')
  have q1 := below_getD (low_prefix K.hβ hA hA' (by omega)) i
  have q2 := below_getD (prefix_high K.hβ hB hB' (by omega)) i
  rw [take_getD _ (by omega)] at q1 q2
  rw [eA, eA'] at q1
  rw [eB, eB'] at q2
  obtain ⟨a, b⟩ := h5 i h hj
  obtain ⟨a', b'⟩ := h5' i h' hj'
  exact ⟨q1, by omega, q2, a, b, a', b'⟩

/-- One server; powering it up costs 2. Not running it costs 2 in the slots 1 and 3, running it costs 1 in slot 2. -/
def Ex.pause (t : Int) : SSCO ℤ Unit Unit where
  d := 1
  tEnd := t
  bounds := [1]
  switchingCost := [2]
  hittingCost := CostFn.new 1 (SingleCostFn.certain fun t x =>
    .ok (Cost.raw (((if x.getD 0 0 = 0 then (if t = 1 ∨ t = 3 then 2 else 0) else (if t = 2 then 1 else 0) : ℤ) : ℚ) : ECost)))

/-- **C130** (limit). A wider window does not always lead to lower costs: with a window of one slot the server is started one
slot too early. -/
theorem C130_cost_counterexample :
    (Spec.play SSCO.tEnd (lcpAlg boundedInt) [] none ([1, 2, 3].map fun t => ⟨Ex.pause t, 0⟩)).toOption.map (·.1)
      = some [[0], [0], [1]] ∧
    ((Ex.pause 3).toProb.objective [[0], [0], [1]]).toOption.map (·.cost) = some ((4 : ℚ) : ECost) ∧
    (Spec.play SSCO.tEnd (lcpAlg boundedInt) [] none ([1, 2, 3].map fun t => ⟨Ex.pause t, 1⟩)).toOption.map (·.1)
      = some [[0], [1], [1]] ∧
    ((Ex.pause 3).toProb.objective [[0], [1], [1]]).toOption.map (·.cost) = some ((5 : ℚ) : ECost) := by
  decide +kernel

/-- Non-vacuity of `C130_wider_window`, with any windows. -/
example (n w w' : Nat) (hw : w ≤ w') := C130_wider_window w w' hw ((List.range (n + 1)).map fun k => Ex.sscoAt (k + 1)) (by simp)
  (Ex.abs_costs _) (fun k hk => by
    simp only [List.getElem_map, List.getElem_range]
    have := Ex.sscoAt_inst (k + 1)
    exact ⟨this.d, this.bounds, this.switching, this.tEnd, fun t h1 _ j h0 hj => Ex.ssco1_hit t h1 j h0 hj,
      this.certain⟩)

end Soco
