import Verif.Lemmas.WindowCost
import Verif.Props.Lcp
import Verif.Props.Streaming

/-!
# C101: lazy capacity provisioning with a prediction window
-/

namespace Soco
open Lcp Work Uni Window Low

variable {C D : Type} [OutSuccess C] [OutFailure D]

theorem Window.toInst {p : SSCO ℤ C D} {m : ℤ} {β : ℚ} {g : Int → ℤ → ECost} {n w : Nat}
    (I : Spec.Foresight p m β g n w) : Spec.Inst p m β g n :=
  ⟨I.d, I.bounds, I.switching, I.tEnd, fun t a b => I.hit t a (by omega), I.certain⟩

/-- What the run provides: ordered bounds, and the lowest optimal schedule of all slots seen between them. -/
theorem Window.between {m : ℤ} {β : ℚ} {g : Int → ℤ → ECost} {w : Nat} {bs : List (BoundsMem ℤ)} (hβ : 0 < β)
    (M : Marks g β m w bs) {X : List ℤ} (hX : IsLow g β false m (bs.length + w) 1 0 X) (i : Nat) (h : i < bs.length) :
    bs[i].lower ≤ X.getD i 0 ∧ X.getD i 0 ≤ bs[i].upper := by
  obtain ⟨A, B, hA, hB, eA, eB⟩ := M i bs[i] (List.getElem?_eq_getElem h)
  have q1 := below_getD (low_prefix hβ hA hX (by omega)) i
  have q2 := below_getD (prefix_high hβ hB hX (by omega)) i
  rw [take_getD _ (by omega)] at q1 q2
  exact ⟨eA ▸ q1, eB ▸ q2⟩

theorem Window.getD_box {m : ℤ} {X : List ℤ} (hX : ∀ j ∈ X, 0 ≤ j ∧ j ≤ m) {i : Nat} (h : i < X.length) :
    0 ≤ X.getD i 0 ∧ X.getD i 0 ≤ m := by
  rw [List.getD_eq_getElem?_getD, List.getElem?_eq_getElem h]
  exact hX _ (List.getElem_mem _)

/-- **C101** (bounds). While lazy capacity provisioning with a prediction window of `w` slots is played on a
problem revealed slot by slot, all memorised bounds lie in the decision space, no lower bound exceeds its upper
bound, the schedule lies between the bounds, and some schedule which is optimal for all slots known in the end,
those of the last window included, lies between the bounds in every slot. -/
theorem C101_window_bounds {m : ℤ} {β : ℚ} {g : Int → ℤ → ECost} (w : Nat) (ps : List (SSCO ℤ C D))
    (hne : ps ≠ []) (K : Spec.Costs m β g (ps.length + w))
    (I : ∀ k (h : k < ps.length), Spec.Foresight ps[k] m β g (k + 1) w)
    (q : SSCO ℤ C D) (Q : Spec.Inst q m β g (ps.length + w)) :
    ∃ (js : List ℤ) (bs : List (BoundsMem ℤ)),
      Spec.play SSCO.tEnd (lcpAlg boundedInt) [] none (ps.map fun p => ⟨p, w⟩)
        = .ok (js.map (fun j => [j]), some bs) ∧
      js.length = ps.length ∧ bs.length = ps.length ∧
      (∀ b ∈ bs, 0 ≤ b.lower ∧ b.lower ≤ b.upper ∧ b.upper ≤ m) ∧
      (∀ i (h : i < js.length) (h' : i < bs.length), bs[i].lower ≤ js[i] ∧ js[i] ≤ bs[i].upper) ∧
      ∃ ks : List ℤ, ks.length = ps.length + w ∧ (∀ k ∈ ks, 0 ≤ k ∧ k ≤ m) ∧
        (∀ i (h : i < ks.length) (h' : i < bs.length), bs[i].lower ≤ ks[i] ∧ ks[i] ≤ bs[i].upper) ∧
        ∃ c, q.toProb.objective (ks.map fun j => [j]) = .ok c ∧
          ∀ ys : Schedule ℤ, ys.length = ps.length + w → (∀ y ∈ ys, Spec.InBox [m] y) →
            ∃ c', q.toProb.objective ys = .ok c' ∧ c.cost ≤ c'.cost := by
  obtain ⟨js, bs, h1, h2, h3, M, h5⟩ := run_window w ps K I
  rw [if_neg hne] at h1
  have hpos : 0 < ps.length := List.length_pos_iff.2 hne
  obtain ⟨X, _, hX, _⟩ := M (ps.length - 1) bs[ps.length - 1] (List.getElem?_eq_getElem (by omega))
  rw [Nat.sub_add_cancel hpos] at hX
  have hXb : IsLow g β false m (bs.length + w) 1 0 X := by rw [h3]; exact hX
  have hb : ∀ i (h : i < bs.length), 0 ≤ bs[i].lower ∧ bs[i].upper ≤ m := by
    intro i h
    obtain ⟨A, B, hA, hB, eA, eB⟩ := M i bs[i] (List.getElem?_eq_getElem h)
    exact ⟨eA ▸ (getD_box hA.box (by rw [hA.len]; omega)).1, eB ▸ (getD_box hB.box (by rw [hB.len]; omega)).2⟩
  have eL : ∀ i (h : i < bs.length), Lf bs (i + 1) = (bs[i].lower : ℚ) := fun i h => by
    simp [Lf, h]; rfl
  have eU : ∀ i (h : i < bs.length), Uf bs (i + 1) = (bs[i].upper : ℚ) := fun i h => by
    simp [Uf, h]; rfl
  refine ⟨js, bs, h1, h2, h3, ?_, ?_, X, hX.len, hX.box, ?_, ?_⟩
  · intro b hb'
    obtain ⟨i, hi, rfl⟩ := List.getElem_of_mem hb'
    obtain ⟨a, c⟩ := Window.between K.hβ M hXb i hi
    exact ⟨(hb i hi).1, a.trans c, (hb i hi).2⟩
  · intro i hi hi'
    have hx := h5 i (by omega)
    have e : js.getD i 0 = js[i] := by simp [List.getD_eq_getElem?_getD, hi]
    obtain ⟨a, c⟩ := Window.between K.hβ M hXb i hi'
    have hle : (bs[i].lower : ℚ) ≤ bs[i].upper := by exact_mod_cast a.trans c
    rw [e, lazy, eL i hi', eU i hi'] at hx
    have hc := clampQ_mem (D := fun _ => True) (y := lazy 0 (Lf bs) (Uf bs) i) hle trivial trivial trivial
    rw [← hx] at hc
    exact ⟨by exact_mod_cast hc.2.1, by exact_mod_cast hc.2.2⟩
  · intro i hi hi'
    have := Window.between K.hβ M hXb i hi'
    rwa [List.getD_eq_getElem?_getD, List.getElem?_eq_getElem hi] at this
  · obtain ⟨out, ho⟩ := objective_last Q X hX.len hX.box
    refine ⟨_, ho, fun zs z1 z2 => ?_⟩
    obtain ⟨zs, rfl, hz⟩ := exists_seq zs z2
    obtain ⟨out', ho'⟩ := objective_last Q zs (by simpa using z1) hz
    exact ⟨_, ho', hX.opt zs (by simpa using z1) hz⟩

/-- **C101** (values). The bounds memorised in a slot are exactly the numbers of servers which the lowest optimal
schedule of the slots known then, those of the window included, uses in this slot: for the lower bound with switching
costs paid for powering up, for the upper bound with switching costs paid for powering down. -/
theorem C101_window_bound_values {m : ℤ} {β : ℚ} {g : Int → ℤ → ECost} (w : Nat) (ps : List (SSCO ℤ C D))
    (hne : ps ≠ []) (K : Spec.Costs m β g (ps.length + w))
    (I : ∀ k (h : k < ps.length), Spec.Foresight ps[k] m β g (k + 1) w) :
    ∃ (js : List ℤ) (bs : List (BoundsMem ℤ)),
      Spec.play SSCO.tEnd (lcpAlg boundedInt) [] none (ps.map fun p => ⟨p, w⟩)
        = .ok (js.map (fun j => [j]), some bs) ∧ bs.length = ps.length ∧
      ∀ k (h : k < bs.length) (q : SSCO ℤ C D), Spec.Inst q m β g (k + 1 + w) → ∀ inverted : Bool,
        ∃ (xs : Schedule ℤ) (c : Cost C D), xs.length = k + 1 + w ∧ (∀ x ∈ xs, Spec.InBox [m] x) ∧
          xs[k]? = some [if inverted then bs[k].upper else bs[k].lower] ∧
          q.toProb.objectiveWithDefault' xs [0] 1 inverted q.tEnd = .ok c ∧
          ∀ ys : Schedule ℤ, ys.length = k + 1 + w → (∀ y ∈ ys, Spec.InBox [m] y) →
            ∃ c', q.toProb.objectiveWithDefault' ys [0] 1 inverted q.tEnd = .ok c' ∧ c.cost ≤ c'.cost ∧
              (c'.cost ≤ c.cost → List.Forall₂ (List.Forall₂ (· ≤ ·)) xs ys) := by
  obtain ⟨js, bs, h1, h2, h3, M, h5⟩ := run_window w ps K I
  rw [if_neg hne] at h1
  refine ⟨js, bs, h1, h3, fun k hk q J inverted => ?_⟩
  obtain ⟨A, B, hA, hB, eA, eB⟩ := M k bs[k] (List.getElem?_eq_getElem hk)
  have obj : ∀ ks : List ℤ, ks.length = k + 1 + w → (∀ k ∈ ks, 0 ≤ k ∧ k ≤ m) →
      ∃ out, q.toProb.objectiveWithDefault' (ks.map fun j => [j]) [0] 1 inverted q.tEnd
        = .ok ⟨Spec.totalCost g (mv1 β inverted) 1 1 0 ks, out⟩ := fun ks k1 k2 =>
    objective_one J.switching (Q := fun j => 0 ≤ j ∧ j ≤ m)
      (fun t a b j hj => J.hit t a (by rwa [J.tEnd] at b) j hj.1 hj.2) 1 inverted 0 ks
      (by rw [J.tEnd, k1]) k2
  have main : ∀ (X : List ℤ) (b : ℤ), IsLow g β inverted m (k + 1 + w) 1 0 X → X.getD k 0 = b →
      ∃ (xs : Schedule ℤ) (c : Cost C D), xs.length = k + 1 + w ∧ (∀ x ∈ xs, Spec.InBox [m] x) ∧
          xs[k]? = some [b] ∧
          q.toProb.objectiveWithDefault' xs [0] 1 inverted q.tEnd = .ok c ∧
          ∀ ys : Schedule ℤ, ys.length = k + 1 + w → (∀ y ∈ ys, Spec.InBox [m] y) →
            ∃ c', q.toProb.objectiveWithDefault' ys [0] 1 inverted q.tEnd = .ok c' ∧ c.cost ≤ c'.cost ∧
              (c'.cost ≤ c.cost → List.Forall₂ (List.Forall₂ (· ≤ ·)) xs ys) := by
    intro X b hX eX
    obtain ⟨out, ho⟩ := obj X hX.len hX.box
    refine ⟨X.map fun j => [j], _, by simpa using hX.len, ?_, ?_, ho, fun ys y1 y2 => ?_⟩
    · intro x hx
      obtain ⟨j, hj, rfl⟩ := List.mem_map.1 hx
      exact List.Forall₂.cons (hX.box j hj) List.Forall₂.nil
    · have hl : k < X.length := by rw [hX.len]; omega
      rw [List.getD_eq_getElem?_getD, List.getElem?_eq_getElem hl] at eX
      simp only [Option.getD_some] at eX
      simp [hl, eX]
    · obtain ⟨ks, rfl, hk⟩ := exists_seq ys y2
      obtain ⟨out', ho'⟩ := obj ks (by simpa using y1) hk
      refine ⟨_, ho', hX.opt ks (by simpa using y1) hk, fun hle => ?_⟩
      have := hX.low ks (by simpa using y1) hk hle
      rw [List.forall₂_map_left_iff, List.forall₂_map_right_iff]
      exact this.imp fun i j hij => .cons hij .nil
  cases inverted with
  | false => exact main A _ hA eA
  | true => exact main B _ hB eB

/-- **C101**. Played with perfect predictions of the next `w` slots, integral lazy capacity provisioning never
fails, and its cost over the slots played is at most three times the cost of every schedule over the slots
played and the last window. -/
theorem C101_window_three_competitive {m : ℤ} {β : ℚ} {g : Int → ℤ → ECost} (w : Nat) (ps : List (SSCO ℤ C D))
    (K : Spec.Costs m β g (ps.length + w))
    (I : ∀ k (h : k < ps.length), Spec.Foresight ps[k] m β g (k + 1) w)
    (q : SSCO ℤ C D) (Q : Spec.Inst q m β g (ps.length + w)) :
    ∃ xs mem, Spec.play SSCO.tEnd (lcpAlg boundedInt) [] none (ps.map fun p => ⟨p, w⟩) = .ok (xs, mem) ∧
      xs.length = ps.length ∧ (∀ x ∈ xs, Spec.InBox [m] x) ∧
      ∀ p, ps.getLast? = some p → ∃ c, p.toProb.objective xs = .ok c ∧ c.cost ≠ ⊤ ∧
        ∀ ys : Schedule ℤ, ys.length = ps.length + w → (∀ y ∈ ys, Spec.InBox [m] y) →
          ∃ c', q.toProb.objective ys = .ok c' ∧ c.cost ≤ c'.cost + c'.cost + c'.cost := by
  obtain ⟨js, bs, h1, h2, h3, M, h5⟩ := run_window w ps K I
  have K0 : Spec.Costs m β g ps.length := ⟨K.hm, K.hβ, fun t a b => K.fin t a (by push_cast; omega),
    fun t a b => K.nonneg t a (by push_cast; omega), fun t a b => K.conv t a (by push_cast; omega)⟩
  obtain ⟨_, bs0, _, _, _, B, _⟩ := run_int ps K0 (fun k h => toInst (I k h))
  have h0 : DomZ m 0 := ⟨0, le_rfl, K.hm.le, by simp⟩
  rcases List.eq_nil_or_concat' ps with rfl | hps
  · refine ⟨_, _, h1, by simpa using h2, ?_, by simp⟩
    rw [List.length_eq_zero_iff.1 h2]; simp
  have hpos : 0 < ps.length := by obtain ⟨a, b, rfl⟩ := hps; simp
  obtain ⟨X, _, hX, _⟩ := M (ps.length - 1) bs[ps.length - 1] (List.getElem?_eq_getElem (by omega))
  rw [Nat.sub_add_cancel hpos] at hX
  have hXb : IsLow g β false m (bs.length + w) 1 0 X := by rw [h3]; exact hX
  have eL : ∀ i (h : i < bs.length), Lf bs (i + 1) = (bs[i].lower : ℚ) := fun i h => by
    simp [Lf, h]; rfl
  have eU : ∀ i (h : i < bs.length), Uf bs (i + 1) = (bs[i].upper : ℚ) := fun i h => by
    simp [Uf, h]; rfl
  have dom : ∀ {A : List ℤ} {i : Nat}, (∀ j ∈ A, 0 ≤ j ∧ j ≤ m) → i < A.length → DomZ m ((A.getD i 0 : ℤ) : ℚ) :=
    fun hA hi => ⟨_, (getD_box hA hi).1, (getD_box hA hi).2, rfl⟩
  have btw : ∀ t < ps.length, Lf bs (t + 1) ≤ ((X.getD t 0 : ℤ) : ℚ) ∧ ((X.getD t 0 : ℤ) : ℚ) ≤ Uf bs (t + 1) := by
    intro t ht
    have := Window.between K.hβ M hXb t (by omega)
    rw [eL t (by omega), eU t (by omega)]
    exact ⟨by exact_mod_cast this.1, by exact_mod_cast this.2⟩
  have T : TightB (DomZ m) β 0 (hitQ g) (Lf bs0) (Uf bs0) (Lf bs) (Uf bs) ps.length := by
    have key : ∀ t (ht : t < ps.length),
        (DomZ m (Lf bs (t + 1)) ∧ Tight (DomZ m) β (J β 0 (hitQ g) (Lf bs0) (Uf bs0) t) (Lf bs (t + 1))) ∧
        (DomZ m (Uf bs (t + 1)) ∧ Tight (DomZ m) β (J β 0 (hitQ g) (Lf bs0) (Uf bs0) t) (Uf bs (t + 1))) := by
      intro t ht
      obtain ⟨A, A', hA, hA', eA, eA'⟩ := M t bs[t] (List.getElem?_eq_getElem (by omega))
      rw [eL t (by omega), eU t (by omega), ← eA, ← eA']
      exact ⟨⟨dom hA.box (by rw [hA.len]; omega), hA.tight K.hβ B ht (by omega)⟩,
        ⟨dom hA'.box (by rw [hA'.len]; omega), hA'.tight K.hβ B ht (by omega)⟩⟩
    exact ⟨fun t h => (key t h).1.1, fun t h => (key t h).2.1, fun t h => (btw t h).1.trans (btw t h).2,
      fun t h => (key t h).1.2, fun t h => (key t h).2.2⟩
  have ejs : js.map (fun j : ℤ => (j : ℚ)) = (List.range ps.length).map fun i => lazy 0 (Lf bs) (Uf bs) (i + 1) := by
    apply List.ext_getElem (by simp [h2])
    intro i hi hi'
    have hi2 : i < js.length := by simpa using hi
    have := h5 i (by omega)
    simp only [List.getElem_map, List.getElem_range, ← this]
    simp [List.getD_eq_getElem?_getD, hi2]
  have hj : ∀ j ∈ js, 0 ≤ j ∧ j ≤ m := by
    intro j hj
    have : (j : ℚ) ∈ (List.range ps.length).map fun i => lazy 0 (Lf bs) (Uf bs) (i + 1) := by
      rw [← ejs]; exact List.mem_map_of_mem hj
    obtain ⟨i, hi, e⟩ := List.mem_map.1 this
    obtain ⟨k, k0, km, hk⟩ := T.mem h0 (i + 1) (List.mem_range.1 hi)
    have : j = k := by
      have h : (j : ℚ) = (k : ℚ) := by rw [← hk, ← e]
      exact_mod_cast h
    omega
  refine ⟨_, _, h1, by simpa using h2, ?_, ?_⟩
  · intro x hx
    obtain ⟨j, hj', rfl⟩ := List.mem_map.1 hx
    exact List.Forall₂.cons (hj j hj') List.Forall₂.nil
  · intro p hp
    have hlast : Spec.Inst p m β g ps.length := by
      obtain ⟨ps', r, rfl⟩ := hps
      have := I ps'.length (by simp)
      simp at hp
      subst hp
      exact toInst (by simpa using this)
    obtain ⟨out, ho⟩ := objective_last hlast js h2 hj
    have hc := cost_cast g β 1 0 js
    rw [ejs, Int.cast_zero] at hc
    refine ⟨_, ho, ?_, fun ys y1 y2 => ?_⟩
    · rw [← hc, T.cost B h0 _ le_rfl]; exact WithTop.coe_ne_top
    · obtain ⟨ks, rfl, hk⟩ := exists_seq ys y2
      obtain ⟨out', ho'⟩ := objective_last Q ks (by simpa using y1) hk
      refine ⟨_, ho', ?_⟩
      have three := T.three K.hβ B h0 (by rintro y ⟨j, j0, _, rfl⟩; exact_mod_cast j0)
        (c := fun i => match i with | 0 => 0 | i + 1 => ((X.getD i 0 : ℤ) : ℚ)) rfl
        (fun t ht => dom hX.box (by rw [hX.len]; omega)) btw
        (fun t ht y ⟨j, j0, jm, e⟩ => by
          rw [e, hitQ_cast]; exact K.nonneg _ (by omega) (by push_cast; omega) j j0 jm)
      have eX : (List.range ps.length).map (fun i => ((X.getD i 0 : ℤ) : ℚ))
          = (X.take ps.length).map fun j : ℤ => (j : ℚ) := by
        apply List.ext_getElem (by simp [hX.len])
        intro i hi hi'
        have hi2 : i < X.length := by simp at hi; rw [hX.len]; omega
        simp [List.getD_eq_getElem?_getD, hi2]
      have hc' := cost_cast g β 1 0 (X.take ps.length)
      rw [Int.cast_zero, ← eX] at hc'
      simp only [] at three
      rw [hc, hc'] at three
      have split : Spec.totalCost g (mv1 β false) 1 1 0 (X.take ps.length) ≤ Spec.totalCost g (mv1 β false) 1 1 0 ks := by
        refine le_trans ?_ (hX.opt ks (by simpa using y1) hk)
        conv_rhs => rw [← List.take_append_drop ps.length X, cost_append]
        refine le_add_of_nonneg_right ?_
        have hl : (X.take ps.length).length = ps.length := by rw [List.length_take, hX.len]; omega
        rw [hl]
        exact cost_nonneg (m := m) K.hβ w _ _ _ (by rw [List.length_drop, hX.len]; omega)
          (fun t a b j j0 jm => K.nonneg t (by omega) (by push_cast; omega) j j0 jm)
          (fun j hj => hX.box j (List.mem_of_mem_drop hj))
      exact three.trans (add_le_add (add_le_add split split) split)

/-- C101 applies to `Ex.ssco1` revealed over any number of slots, with any window. -/
example (n w : Nat) := C101_window_three_competitive w ((List.range n).map fun k => Ex.sscoAt (k + 1))
  (Ex.abs_costs _) (fun k hk => by
    simp only [List.getElem_map, List.getElem_range]
    have := Ex.sscoAt_inst (k + 1)
    exact ⟨this.d, this.bounds, this.switching, this.tEnd, fun t h1 _ j h0 hj => Ex.ssco1_hit t h1 j h0 hj,
      this.certain⟩)
  (Ex.sscoAt (n + w)) (by simpa using Ex.sscoAt_inst (n + w))

/-- C101 for the values of the bounds, likewise. -/
example (n w : Nat) := C101_window_bound_values w ((List.range (n + 1)).map fun k => Ex.sscoAt (k + 1)) (by simp)
  (Ex.abs_costs _) (fun k hk => by
    simp only [List.getElem_map, List.getElem_range]
    have := Ex.sscoAt_inst (k + 1)
    exact ⟨this.d, this.bounds, this.switching, this.tEnd, fun t h1 _ j h0 hj => Ex.ssco1_hit t h1 j h0 hj,
      this.certain⟩)

/-- One slot is played; the next one, which is foreseen, needs a server. -/
def Ex.soon : SSCO ℤ Unit Unit where
  d := 1
  tEnd := 1
  bounds := [1]
  switchingCost := [10]
  hittingCost := CostFn.new 1 (SingleCostFn.certain fun t x =>
    .ok (Cost.raw (((if x.getD 0 0 = 0 then (if t = 1 then 1 else 100) else 0 : ℤ) : ℚ) : ECost)))

/-- **C101** (comparison). The cost of a schedule over the slots played alone is no substitute: a server powered
up for the foreseen slot has been paid for, but has not been useful yet. -/
theorem C101_short_horizon_counterexample :
    ((Spec.play SSCO.tEnd (lcpAlg boundedInt) [] none [⟨Ex.soon, 1⟩]).toOption.map (·.1)) = some [[1]] ∧
    ((Ex.soon.toProb.objective [[1]]).toOption.map (·.cost)) = some ((10 : ℚ) : ECost) ∧
    ((Ex.soon.toProb.objective [[0]]).toOption.map (·.cost)) = some ((1 : ℚ) : ECost) := by
  decide +kernel

omit [OutSuccess C] [OutFailure D] in
/-- Streaming a problem offline plays the instances which reveal it slot by slot. -/
theorem Window.stream_slots {M : Type} (A : OnlineAlgorithm (SSCO ℤ C D) ℤ M) (p : SSCO ℤ C D) (w N : Nat)
    (hv : ∀ k : Nat, k + w ≤ N → Online.verify SSCO.verify ⟨{ p with tEnd := k }, w⟩ = .ok ()) :
    ∀ (j k : Nat) (xs : Schedule ℤ) (mem : Option M) (ys : Schedule ℤ) (mem' : Option M), k + j + w = N →
      Spec.play SSCO.tEnd A xs mem
        ((List.range (j + 1)).map fun i => ⟨{ p with tEnd := ((k + i : Nat) : Int) }, w⟩) = .ok (ys, mem') →
      streamFrom SSCO.tEnd (Online.verify SSCO.verify) A
        (offlineUpdate SSCO.tEnd (fun p t => { p with tEnd := t }) N) (j + 1) ⟨{ p with tEnd := k }, w⟩ xs mem
        = some (.ok (⟨{ p with tEnd := ((k + j : Nat) : Int) }, w⟩, ys, mem')) := by
  intro j
  induction j with
  | zero =>
    intro k xs mem ys mem' hk hr
    have hn : ¬ ((k : Int) < (N : Int) - (w : Int)) := by omega
    simp only [Nat.zero_add, List.range_one, List.map_cons, List.map_nil, Spec.play, Nat.add_zero] at hr
    rw [streamFrom]
    cases h : onlineNext SSCO.tEnd A ⟨{ p with tEnd := (k : Int) }, w⟩ xs mem with
    | error e => rw [h] at hr; cases hr
    | ok r =>
      obtain ⟨x, xs', m⟩ := r
      rw [h] at hr
      cases hr
      simp [offlineUpdate, hn]
  | succ j ih =>
    intro k xs mem ys mem' hk hr
    rw [List.range_succ_eq_map, List.map_cons, List.map_map] at hr
    have e : ((List.range (j + 1)).map ((fun i => (⟨{ p with tEnd := ((k + i : Nat) : Int) }, w⟩ :
        Online (SSCO ℤ C D))) ∘ Nat.succ)) =
        (List.range (j + 1)).map fun i => ⟨{ p with tEnd := (((k + 1) + i : Nat) : Int) }, w⟩ := by
      apply List.map_congr_left
      intro i _
      simp only [Function.comp, Nat.succ_eq_add_one]
      have : k + (i + 1) = k + 1 + i := by omega
      rw [this]
    rw [e, Nat.add_zero] at hr
    have hn : ((k : Int) < (N : Int) - (w : Int)) := by omega
    rw [streamFrom]
    simp only [Spec.play] at hr
    cases h : onlineNext SSCO.tEnd A ⟨{ p with tEnd := (k : Int) }, w⟩ xs mem with
    | error e => rw [h] at hr; cases hr
    | ok r =>
      obtain ⟨x, xs', m⟩ := r
      rw [h] at hr
      have hv' := hv (k + 1) (by omega)
      push_cast at hv'
      simp only [offlineUpdate, if_pos hn, hv']
      have := ih (k + 1) xs' m ys mem' (by omega) hr
      push_cast at this
      rw [this]
      have e2 : (k : Int) + 1 + j = ((k + (j + 1) : Nat) : Int) := by push_cast; ring
      rw [e2]

/-- **C101** (streaming). An offline problem of `N` slots with convex costs, streamed with a prediction window of `w < N`
slots: the stream ends well after `N - w` decisions, which together cost at most three times what any schedule for all
`N` slots costs. -/
theorem C101_offline_stream {m : ℤ} {β : ℚ} {g : Int → ℤ → ECost} (w N : Nat) (hw : w < N)
    (K : Spec.Costs m β g N) (p : SSCO ℤ C D) (I : Spec.Inst p m β g N) :
    ∃ (fuel : Nat) (xs : Schedule ℤ) (mem : Option (List (BoundsMem ℤ))),
      offlineStream SSCO.tEnd (fun p t => { p with tEnd := t }) (Online.verify SSCO.verify) (lcpAlg boundedInt) N fuel
        ⟨{ p with tEnd := 1 }, w⟩ = some (.ok (⟨{ p with tEnd := ((N - w : Nat) : Int) }, w⟩, xs, mem)) ∧
      xs.length = N - w ∧ (∀ x ∈ xs, Spec.InBox [m] x) ∧
      ∃ c, ({ p with tEnd := ((N - w : Nat) : Int) } : SSCO ℤ C D).toProb.objective xs = .ok c ∧ c.cost ≠ ⊤ ∧
        ∀ ys : Schedule ℤ, ys.length = N → (∀ y ∈ ys, Spec.InBox [m] y) →
          ∃ c', p.toProb.objective ys = .ok c' ∧ c.cost ≤ c'.cost + c'.cost + c'.cost := by
  have hl : ((List.range (N - w)).map fun i => ({ p with tEnd := ((1 + i : Nat) : Int) } : SSCO ℤ C D)).length + w = N := by
    simp; omega
  obtain ⟨xs, mem, h1, h2, h3, h4⟩ := C101_window_three_competitive w
    ((List.range (N - w)).map fun i => ({ p with tEnd := ((1 + i : Nat) : Int) } : SSCO ℤ C D)) (by rw [hl]; exact K)
    (by
      intro k hk
      simp only [List.length_map, List.length_range] at hk
      simp only [List.getElem_map, List.getElem_range]
      exact ⟨I.d, I.bounds, I.switching, by push_cast; ring, fun t a b => I.hit t a (by push_cast at b; omega),
        fun t a b => I.certain t a (by push_cast at b; omega)⟩) p (by rw [hl]; exact I)
  have hlast : ((List.range (N - w)).map fun i => ({ p with tEnd := ((1 + i : Nat) : Int) } : SSCO ℤ C D)).getLast?
      = some { p with tEnd := ((N - w : Nat) : Int) } := by
    obtain ⟨j, hj⟩ : ∃ j, N - w = j + 1 := ⟨N - w - 1, by omega⟩
    rw [hj, List.range_succ, List.map_append]
    simp [add_comm]
  obtain ⟨c, c1, c2, c3⟩ := h4 _ hlast
  have hv : ∀ k : Nat, k + w ≤ N → Online.verify SSCO.verify ⟨({ p with tEnd := (k : Int) } : SSCO ℤ C D), (w : Int)⟩ = .ok () := by
    intro k _
    simp [Online.verify, SSCO.verify, I.d, I.bounds, I.switching, assertValidity, assertR, forRange, idx, K.hm,
      K.hβ, bind, Except.bind, pure, Except.pure]
  obtain ⟨j, hj⟩ : ∃ j, N - w = j + 1 := ⟨N - w - 1, by omega⟩
  rw [List.map_map, hj] at h1
  have := Window.stream_slots (lcpAlg boundedInt) p w N hv j 1 [] none xs mem (by omega) h1
  have e : ((1 + j : Nat) : Int) = ((N - w : Nat) : Int) := by omega
  rw [e] at this
  refine ⟨j + 1, xs, mem, this, by simpa using h2, h3, c, c1, c2, fun ys y1 y2 => c3 ys (by simp; omega) y2⟩

/-- C101 applies to `Ex.ssco1` with any number of slots and any shorter window. -/
example (w N : Nat) (hw : w < N) := C101_offline_stream w N hw (Ex.abs_costs _) (Ex.sscoAt N) (Ex.sscoAt_inst N)
end Soco
