import Verif.Lemmas.Lcp
import Verif.Props.Examples

/-!
# C27–C29: lazy capacity provisioning
-/

namespace Soco
open Lcp Work Uni

/-! ## C27 -/

section
variable {T : Type} [Value T]

/-- **C27**. Every decision of lazy capacity provisioning is the lazy projection of the previous one (zero if
there is none): it is obtained from the two bounds computed for this slot, which are also what is memorised;
if the bounds are ordered the decision lies between them, equals the previous decision if that lies between
them, and is the nearest bound otherwise. Holds for integral and fractional problems, every window, every
memory, whatever finds the bounds. -/
theorem C27_lazy_projection (b : Bounded T) (w t : Int) (xs : Schedule T) (bounds : List (BoundsMem T))
    (x : Config T) (mem : Option (List (BoundsMem T))) (h : lcp b w t xs bounds = .ok (x, mem)) :
    ∃ i lower upper j, (xs.getLastD [0]).head? = some i ∧ x = [j] ∧
      mem = some (bounds ++ [⟨lower, upper⟩]) ∧
      b.find 1 false w b.tEnd (findInitialTime bounds).1 (findInitialTime bounds).2 = .ok lower ∧
      b.find 1 true w b.tEnd (findInitialTime bounds).1 (findInitialTime bounds).2 = .ok upper ∧
      (upper < lower → j = lower) ∧
      (lower ≤ upper → lower ≤ j ∧ j ≤ upper ∧ (lower ≤ i → i ≤ upper → j = i) ∧ (i < lower → j = lower) ∧
        (upper < i → j = upper)) := by
  simp only [lcp, assertR, bind, Except.bind] at h
  split_ifs at h with h1 h2
  simp only [Schedule.nowWithDefault] at h
  cases hx : xs.getLastD [0] with
  | nil => rw [hx] at h; simp [idx] at h
  | cons i r =>
    rw [hx] at h
    simp only [idx, List.getElem?_cons_zero] at h
    cases hl : b.find 1 false w b.tEnd (findInitialTime bounds).1 (findInitialTime bounds).2 with
    | error e => rw [hl] at h; simp at h
    | ok lower =>
      cases hu : b.find 1 true w b.tEnd (findInitialTime bounds).1 (findInitialTime bounds).2 with
      | error e => rw [hl, hu] at h; simp at h
      | ok upper =>
        rw [hl, hu] at h
        cases h
        refine ⟨i, lower, upper, _, rfl, rfl, rfl, rfl, rfl, ?_⟩
        rw [project, umax_eq, umin_eq]
        refine ⟨fun h => max_eq_left ((min_le_left _ _).trans h.le), fun hle => ⟨le_max_left _ _,
          max_le hle (min_le_left _ _), fun h1 h2 => ?_, fun h => ?_, fun h => ?_⟩⟩
        · rw [min_eq_right h2, max_eq_right h1]
        · exact max_eq_left ((min_le_right _ _).trans h.le)
        · rw [min_eq_left h.le, max_eq_right hle]

/-- **C27** (guards). A decision is made only for one-dimensional problems and only if there is exactly one
pair of bounds in memory for every previous slot. -/
theorem C27_guards (b : Bounded T) (w t : Int) (xs : Schedule T) (bounds : List (BoundsMem T)) :
    (b.d ≠ 1 → lcp b w t xs bounds = .error (.fail (.unsupportedProblemDimension b.d))) ∧
    (b.d = 1 → t - 1 ≠ bounds.length →
      lcp b w t xs bounds = .error (.fail (.onlineOutOfDateMemory (t - 1) bounds.length))) := by
  constructor
  · intro h; simp [lcp, assertR, h, bind, Except.bind]
  · intro h h'; simp [lcp, assertR, h, h', bind, Except.bind]

end

/-! ## C28 -/

section
variable {C D : Type} [OutSuccess C] [OutFailure D]

theorem default_one {p : SSCO ℤ C D} (hd : p.d = 1) : p.toProb.defaultConfig = [0] := by
  simp [Prob.defaultConfig, SSCO.toProb, hd, Config.repeat]

/-- **C28** (meaning). The lower bound at the current slot is the last state of a schedule which is optimal for
the plain objective, the upper bound that of a schedule which is optimal for the inverted objective. -/
theorem C28_bounds_end_optima (p : SSCO ℤ C D) (m : ℤ) (β : ℚ) (g : Int → ℤ → ECost) (n : Nat) (hn : 1 ≤ n)
    (I : Spec.Inst p m β g n) (K : Spec.Costs m β g n) (inverted : Bool) :
    ∃ (b : ℤ) (xs : Schedule ℤ) (c : Cost C D), (boundedInt p).find 1 inverted 0 p.tEnd 0 0 = .ok b ∧
      xs.length = n ∧ (∀ x ∈ xs, Spec.InBox p.bounds x) ∧ xs.getLast? = some [b] ∧
      p.toProb.objectiveWithDefault' xs [0] 1 inverted p.tEnd = .ok c ∧
      ∀ ys : Schedule ℤ, ys.length = n → (∀ y ∈ ys, Spec.InBox p.bounds y) →
        ∃ c', p.toProb.objectiveWithDefault' ys [0] 1 inverted p.tEnd = .ok c' ∧ c.cost ≤ c'.cost := by
  obtain ⟨js, h1, h2, h3, h4⟩ := findBound_ok (s := 0) I K hn (x := 0) K.hm.le inverted
  have obj : ∀ ks : List ℤ, ks.length = n → (∀ k ∈ ks, 0 ≤ k ∧ k ≤ m) →
      ∃ out, p.toProb.objectiveWithDefault' (ks.map fun j => [j]) [0] 1 inverted p.tEnd
        = .ok ⟨Spec.totalCost g (mv1 β inverted) 1 1 0 ks, out⟩ := fun ks k1 k2 =>
    objective_one I.switching (Q := fun j => 0 ≤ j ∧ j ≤ m)
      (fun t a b j hj => I.hit t a (by rwa [I.tEnd] at b) j hj.1 hj.2) 1 inverted 0 ks
      (by rw [I.tEnd, k1]) k2
  obtain ⟨out, ho⟩ := obj js (by omega) h2
  refine ⟨js.getLastD 0, js.map fun j => [j], _, ?_, by simpa using h1, ?_, ?_, ho, ?_⟩
  · rw [I.tEnd]; exact h3
  · intro x hx
    obtain ⟨j, hj, rfl⟩ := List.mem_map.1 hx
    rw [I.bounds]
    exact List.Forall₂.cons (h2 j hj) List.Forall₂.nil
  · obtain rfl | ⟨js', j, rfl⟩ := List.eq_nil_or_concat' js
    · simp at h1; omega
    · simp
  · intro ys y1 y2
    rw [I.bounds] at y2
    obtain ⟨ks, rfl, hk⟩ := exists_seq ys y2
    obtain ⟨out', ho'⟩ := obj ks (by simpa using y1) hk
    refine ⟨_, ho', ?_⟩
    have := h4 ks (by simpa using y1) hk
    simpa using this

/-- The run of lazy capacity provisioning. -/
theorem Lcp.run_int {m : ℤ} {β : ℚ} {g : Int → ℤ → ECost} (ps : List (SSCO ℤ C D))
    (K : Spec.Costs m β g ps.length) (I : ∀ k (h : k < ps.length), Spec.Inst ps[k] m β g (k + 1)) :
    ∃ (js : List ℤ) (bs : List (BoundsMem ℤ)),
      Spec.play SSCO.tEnd (lcpAlg boundedInt) [] none (ps.map fun p => ⟨p, 0⟩)
        = .ok (js.map (fun j => [j]), if ps = [] then none else some bs) ∧
      js.length = ps.length ∧ bs.length = ps.length ∧
      AllB (DomZ m) β 0 (hitQ g) (Lf bs) (Uf bs) ps.length ∧
      ∀ i < ps.length, ((js.getD i 0 : ℤ) : ℚ) = lazy 0 (Lf bs) (Uf bs) (i + 1) := by
  have hlen : (ps.map fun p => (⟨p, 0⟩ : Online (SSCO ℤ C D))).length = ps.length := by simp
  obtain ⟨js, bs, h1, h2, h3, h4, h5⟩ := run_ok (T := ℤ) (boundedInt (C := C) (D := D)) (D := DomZ m) (β := β)
    (f := hitQ g) K.hβ (μ := (m : ℚ)) ⟨m, K.hm.le, le_rfl, rfl⟩
    (ps.map fun p => ⟨p, 0⟩)
    (fun k hk => conv_hitQ (K.conv _ (by omega) (by rw [hlen] at hk; omega)))
    (fun k hk => by rw [hitQ_cast]; exact K.fin _ (by omega) (by rw [hlen] at hk; omega))
    (fun o ho => by
      obtain ⟨p, hp, rfl⟩ := List.mem_map.1 ho
      obtain ⟨k, hk, rfl⟩ := List.getElem_of_mem hp
      exact (I k hk).d)
    (fun k hk => by
      rw [hlen] at hk
      rw [List.getElem_map]
      exact (I k hk).tEnd)
    (fun k hk bs hbs hB => by
      rw [hlen] at hk
      rw [List.getElem_map]
      have Ik := I k hk
      have Kk : Spec.Costs m β g (k + 1) := ⟨K.hm, K.hβ, fun t a b => K.fin t a (by omega),
        fun t a b => K.nonneg t a (by omega), fun t a b => K.conv t a (by omega)⟩
      obtain ⟨s, x, e, hs, hx, hst⟩ : ∃ (s : Nat) (x : ℤ), findInitialTime bs = ((s : Int), x) ∧ s ≤ k ∧ x ≤ m ∧
          ((s = 0 ∧ x = 0) ∨ (1 ≤ s ∧ s + 1 ≤ bs.length ∧ bs[s - 1]? = some ⟨x, x⟩)) := by
        rcases findInitialTime_spec bs with e | ⟨s, x, e, a, b, c⟩
        · exact ⟨0, 0, e, by omega, K.hm.le, .inl ⟨rfl, rfl⟩⟩
        · refine ⟨s, x, e, by omega, ?_, .inr ⟨a, b, c⟩⟩
          have := (hB (s - 1) (by omega)).dL
          obtain ⟨j, _, jm, hj⟩ := this
          rw [Nat.sub_add_cancel a, Lf, c] at hj
          have hj' : (x : ℚ) = j := hj
          have : x = j := by exact_mod_cast hj'
          omega
      obtain ⟨ls, l1, l2, l3, l4⟩ := findBound_ok (s := s) Ik Kk (by omega) hx false
      obtain ⟨us, u1, u2, u3, u4⟩ := findBound_ok (s := s) Ik Kk (by omega) hx true
      rw [e]
      refine ⟨ls.getLastD x, us.getLastD x, s, (x : ℚ), l3, u3, hs, ?_, ?_, ?_⟩
      · rcases hst with ⟨rfl, rfl⟩ | ⟨a, b, c⟩
        · exact .inl ⟨rfl, by simp⟩
        · refine .inr ⟨a, ?_, ?_⟩
          · rw [Lf_append _ _ a (by omega), Lf, c]; rfl
          · rw [Uf_append _ _ a (by omega), Uf, c]; rfl
      · refine ⟨ls.map fun j : ℤ => (j : ℚ), by simpa using l1, mem_domZ l2, ?_, ?_⟩
        · rw [getLastD_cast, ← hbs, Lf_last]; rfl
        · intro ks k1 k2
          obtain ⟨ks, rfl, k3⟩ := domZ_list ks k2
          rw [cost_cast, cost_cast]
          exact l4 ks (by simpa using k1) k3
      · refine ⟨us.map fun j : ℤ => (j : ℚ), by simpa using u1, mem_domZ u2, ?_, ?_⟩
        · rw [getLastD_cast, ← hbs, Uf_last]; rfl
        · intro ks k1 k2
          obtain ⟨ks, rfl, k3⟩ := domZ_list ks k2
          rw [cost_cast_inv, cost_cast_inv]
          exact u4 ks (by simpa using k1) k3)
  rw [hlen] at h2 h3 h4 h5
  refine ⟨js, bs, ?_, h2, h3, h4, h5⟩
  have e : ((ps.map fun p => (⟨p, 0⟩ : Online (SSCO ℤ C D))) = []) ↔ ps = [] := by simp
  simp only [e] at h1
  exact h1

theorem Lcp.objective_last {m : ℤ} {β : ℚ} {g : Int → ℤ → ECost} {n : Nat} {p : SSCO ℤ C D}
    (I : Spec.Inst p m β g n) (ks : List ℤ) (k1 : ks.length = n) (k2 : ∀ k ∈ ks, 0 ≤ k ∧ k ≤ m) :
    ∃ out, p.toProb.objective (ks.map fun j => [j])
      = .ok ⟨Spec.totalCost g (mv1 β false) 1 1 0 ks, out⟩ := by
  rw [Prob.objective, default_one I.d]
  exact objective_one I.switching (Q := fun j => 0 ≤ j ∧ j ≤ m)
    (fun t a b j hj => I.hit t a (by rwa [I.tEnd] at b) j hj.1 hj.2) 1 false 0 ks (by rw [I.tEnd, k1]) k2

/-- **C28**. While lazy capacity provisioning is played on a problem revealed slot by slot, all memorised
bounds lie in the decision space, no lower bound exceeds its upper bound, the schedule lies between the
bounds, and for the problem of the last slot there is an optimal schedule which lies between the bounds in
every slot. -/
theorem C28_bounds_ordered_and_sandwich {m : ℤ} {β : ℚ} {g : Int → ℤ → ECost} (ps : List (SSCO ℤ C D))
    (hne : ps ≠ []) (K : Spec.Costs m β g ps.length)
    (I : ∀ k (h : k < ps.length), Spec.Inst ps[k] m β g (k + 1)) :
    ∃ (js : List ℤ) (bs : List (BoundsMem ℤ)),
      Spec.play SSCO.tEnd (lcpAlg boundedInt) [] none (ps.map fun p => ⟨p, 0⟩)
        = .ok (js.map (fun j => [j]), some bs) ∧
      js.length = ps.length ∧ bs.length = ps.length ∧
      (∀ b ∈ bs, 0 ≤ b.lower ∧ b.lower ≤ b.upper ∧ b.upper ≤ m) ∧
      (∀ i (h : i < js.length) (h' : i < bs.length), bs[i].lower ≤ js[i] ∧ js[i] ≤ bs[i].upper) ∧
      ∃ ks : List ℤ, ks.length = ps.length ∧ (∀ k ∈ ks, 0 ≤ k ∧ k ≤ m) ∧
        (∀ i (h : i < ks.length) (h' : i < bs.length), bs[i].lower ≤ ks[i] ∧ ks[i] ≤ bs[i].upper) ∧
        ∃ c, (ps.getLast hne).toProb.objective (ks.map fun j => [j]) = .ok c ∧
          ∀ ys : Schedule ℤ, ys.length = ps.length → (∀ y ∈ ys, Spec.InBox [m] y) →
            ∃ c', (ps.getLast hne).toProb.objective ys = .ok c' ∧ c.cost ≤ c'.cost := by
  obtain ⟨js, bs, h1, h2, h3, h4, h5⟩ := run_int ps K I
  rw [if_neg hne] at h1
  have eL : ∀ i (h : i < bs.length), Lf bs (i + 1) = (bs[i].lower : ℚ) := fun i h => by
    simp [Lf, h]; rfl
  have eU : ∀ i (h : i < bs.length), Uf bs (i + 1) = (bs[i].upper : ℚ) := fun i h => by
    simp [Uf, h]; rfl
  have hlast : Spec.Inst (ps.getLast hne) m β g ps.length := by
    have hpos : 0 < ps.length := List.length_pos_iff.2 hne
    have := I (ps.length - 1) (by omega)
    rw [List.getLast_eq_getElem, Nat.sub_add_cancel hpos] at *
    exact this
  refine ⟨js, bs, h1, h2, h3, ?_, ?_, ?_⟩
  · intro b hb
    obtain ⟨i, hi, rfl⟩ := List.getElem_of_mem hb
    have B := h4 i (by omega)
    obtain ⟨l, l0, _, hl⟩ := B.dL
    obtain ⟨u, _, um, hu⟩ := B.dU
    have le := B.le
    rw [eL i hi] at hl le
    rw [eU i hi] at hu le
    refine ⟨?_, by exact_mod_cast le, ?_⟩
    · have : bs[i].lower = l := by exact_mod_cast hl
      omega
    · have : bs[i].upper = u := by exact_mod_cast hu
      omega
  · intro i hi hi'
    have B := h4 i (by omega)
    have hx := h5 i (by omega)
    have hm := lazy_mem h4 ⟨0, le_rfl, K.hm.le, by simp⟩ i (by omega)
    have hc := B.clamp_mem hm
    have e : js.getD i 0 = js[i] := by simp [List.getD_eq_getElem?_getD, hi]
    rw [e] at hx
    rw [lazy] at hx
    rw [← hx, eL i hi', eU i hi'] at hc
    exact ⟨by exact_mod_cast hc.2.1, by exact_mod_cast hc.2.2⟩
  · obtain ⟨ys, y1, y2, y3, y4⟩ := sandwich ps.length h4
    obtain ⟨ks, rfl, hk⟩ := domZ_list ys y2
    have kl : ks.length = ps.length := by simpa using y1
    refine ⟨ks, kl, hk, ?_, ?_⟩
    · intro i hi hi'
      have := y3 i (by omega)
      have e : (ks.map fun j : ℤ => (j : ℚ)).getD i 0 = (ks[i] : ℚ) := by
        simp [List.getD_eq_getElem?_getD, hi]
      rw [e, eL i hi', eU i hi'] at this
      exact ⟨by exact_mod_cast this.1, by exact_mod_cast this.2⟩
    · obtain ⟨out, ho⟩ := objective_last hlast ks kl hk
      refine ⟨_, ho, fun zs z1 z2 => ?_⟩
      obtain ⟨zs, rfl, hz⟩ := exists_seq zs z2
      obtain ⟨out', ho'⟩ := objective_last hlast zs (by simpa using z1) hz
      refine ⟨_, ho', ?_⟩
      have := y4 (zs.map fun j : ℤ => (j : ℚ)) (by simpa using z1) (mem_domZ hz)
      rw [← Int.cast_zero, cost_cast, cost_cast] at this
      exact this

/-! ## C29 -/

/-- **C29**. Played on a problem revealed slot by slot (the hitting costs of a slot become known when it
starts), integral lazy capacity provisioning never fails, and the cost of its schedule is finite and at most
three times the cost of every other schedule. -/
theorem C29_three_competitive {m : ℤ} {β : ℚ} {g : Int → ℤ → ECost} (ps : List (SSCO ℤ C D))
    (K : Spec.Costs m β g ps.length) (I : ∀ k (h : k < ps.length), Spec.Inst ps[k] m β g (k + 1)) :
    ∃ xs mem, Spec.play SSCO.tEnd (lcpAlg boundedInt) [] none (ps.map fun p => ⟨p, 0⟩) = .ok (xs, mem) ∧
      xs.length = ps.length ∧ (∀ x ∈ xs, Spec.InBox [m] x) ∧
      ∀ p, ps.getLast? = some p → ∃ c, p.toProb.objective xs = .ok c ∧ c.cost ≠ ⊤ ∧
        ∀ ys : Schedule ℤ, ys.length = ps.length → (∀ y ∈ ys, Spec.InBox [m] y) →
          ∃ c', p.toProb.objective ys = .ok c' ∧ c.cost ≤ c'.cost + c'.cost + c'.cost := by
  obtain ⟨js, bs, h1, h2, h3, h4, h5⟩ := run_int ps K I
  have h0 : DomZ m 0 := ⟨0, le_rfl, K.hm.le, by simp⟩
  have ejs : js.map (fun j : ℤ => (j : ℚ)) = (List.range ps.length).map fun i => lazy 0 (Lf bs) (Uf bs) (i + 1) := by
    apply List.ext_getElem (by simp [h2])
    intro i hi hi'
    have hi2 : i < js.length := by simpa using hi
    have := h5 i (by omega)
    simp only [List.getElem_map, List.getElem_range, ← this]
    simp [List.getD_eq_getElem?_getD, hi2]
  have hj : ∀ j ∈ js, 0 ≤ j ∧ j ≤ m := by
    intro j hj
    have : (j : ℚ) ∈ (List.range ps.length).map fun i => lazy 0 (Lf bs) (Uf bs) (i + 1) := by
      rw [← ejs]; exact List.mem_map_of_mem hj
    obtain ⟨i, hi, e⟩ := List.mem_map.1 this
    obtain ⟨k, k0, km, hk⟩ := lazy_mem h4 h0 (i + 1) (List.mem_range.1 hi)
    have : j = k := by
      have h : (j : ℚ) = (k : ℚ) := by rw [← hk, ← e]
      exact_mod_cast h
    omega
  refine ⟨_, _, h1, by simpa using h2, ?_, ?_⟩
  · intro x hx
    obtain ⟨j, hj', rfl⟩ := List.mem_map.1 hx
    exact List.Forall₂.cons (hj j hj') List.Forall₂.nil
  · intro p hp
    have hlast : Spec.Inst p m β g ps.length := by
      obtain rfl | ⟨ps', q, rfl⟩ := List.eq_nil_or_concat' ps
      · simp at hp
      · have := I ps'.length (by simp)
        simp at hp
        subst hp
        simpa using this
    obtain ⟨out, ho⟩ := objective_last hlast js h2 hj
    have hc := cost_cast g β 1 0 js
    rw [ejs, Int.cast_zero] at hc
    refine ⟨_, ho, ?_, fun ys y1 y2 => ?_⟩
    · rw [← hc, lazy_cost h4 h0 _ le_rfl]; exact WithTop.coe_ne_top
    · obtain ⟨ks, rfl, hk⟩ := exists_seq ys y2
      obtain ⟨out', ho'⟩ := objective_last hlast ks (by simpa using y1) hk
      refine ⟨_, ho', ?_⟩
      have := lazy_three K.hβ h4 h0 (by rintro y ⟨j, j0, _, rfl⟩; exact_mod_cast j0)
        (fun t ht y ⟨j, j0, jm, e⟩ => by
          rw [e, hitQ_cast]; exact K.nonneg _ (by omega) (by omega) j j0 jm)
        (ks.map fun j : ℤ => (j : ℚ)) (by simpa using y1) (mem_domZ hk)
      have hc' := cost_cast g β 1 0 ks
      rw [Int.cast_zero] at hc'
      rw [hc, hc'] at this
      exact this

/-! ## Example -/

/-- `Ex.ssco1`, revealed slot by slot. -/
def Ex.sscoAt (k : Nat) : SSCO ℤ Unit Unit := { Ex.ssco1 with tEnd := k }

theorem Ex.sscoAt_inst (k : Nat) :
    Spec.Inst (Ex.sscoAt k) 5 2 (fun t j => (((|j - t| : ℤ) : ℚ) : ECost)) k where
  d := rfl
  bounds := rfl
  switching := rfl
  tEnd := rfl
  hit t h1 _ j h0 hj := Ex.ssco1_hit t h1 j h0 hj
  certain t h1 _ x r hr := by
    rw [Ex.sscoAt, Ex.ssco1, CostFn.callPredictive_certain _ _ h1] at hr
    simp only [Except.map, Except.ok.injEq] at hr
    rw [← hr]; rfl

theorem Ex.abs_costs (n : Nat) : Spec.Costs 5 2 (fun t j => (((|j - t| : ℤ) : ℚ) : ECost)) n where
  hm := by norm_num
  hβ := by norm_num
  fin _ _ _ := WithTop.coe_ne_top
  nonneg t _ _ j _ _ := by
    have : (0 : ℚ) ≤ ((|j - t| : ℤ) : ℚ) := by exact_mod_cast abs_nonneg _
    exact_mod_cast this
  conv := by
    intro t _ _ x y z _ h1 h2 _ a c ha hc
    refine ⟨_, rfl, ?_⟩
    have ha' : a = |(x : ℚ) - t| := by have := WithTop.coe_injective ha; push_cast at this; exact this.symm
    have hc' : c = |(z : ℚ) - t| := by have := WithTop.coe_injective hc; push_cast at this; exact this.symm
    subst ha' hc'
    have q1 : (x : ℚ) < y := by exact_mod_cast h1
    have q2 : (y : ℚ) < z := by exact_mod_cast h2
    push_cast
    rcases abs_cases ((y : ℚ) - t) with ⟨e, _⟩ | ⟨e, _⟩ <;> rw [e]
    · have := le_abs_self ((x : ℚ) - t); have := le_abs_self ((z : ℚ) - t); nlinarith
    · have := neg_abs_le ((x : ℚ) - t); have := neg_abs_le ((z : ℚ) - t); nlinarith

/-- C28 and C29 apply to `Ex.ssco1` revealed over any number of slots. -/
example (n : Nat) := C29_three_competitive ((List.range n).map fun k => Ex.sscoAt (k + 1))
  (Ex.abs_costs _) (fun k hk => by
    simp only [List.getElem_map, List.getElem_range]
    exact Ex.sscoAt_inst (k + 1))

end

end Soco
