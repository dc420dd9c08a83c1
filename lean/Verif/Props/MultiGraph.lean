import Verif.Lemmas.MultiMain
import Verif.Props.Verifiers
import Verif.Props.Outputs

/-!
# C19–C23: multi-dimensional graph search
-/

namespace Soco
open Multi

variable {C D : Type} [OutSuccess C] [OutFailure D]

namespace Multi
variable {p : SSCO ℤ C D} {v : Values} {alpha : ℚ} {inverted : Bool} {hit : Int → Config ℤ → ECost}

theorem timeRange_succ (n : Nat) : timeRange 1 ((n : Int) + 1) = timeRange 1 n ++ [(n : Int) + 1] := by
  have := timeRange_one (n + 1)
  rw [show ((n + 1 : Nat) : Int) = (n : Int) + 1 by push_cast; rfl] at this
  rw [this, timeRange_one, List.range_succ]
  simp [add_comm]

theorem run_slots (st : Setting p v alpha hit) : ∀ (n : Nat), (n : Int) ≤ p.tEnd →
    (∀ t : Int, 1 ≤ t → t ≤ n → hit t p.bounds ≠ ⊤) →
    ∃ paths, (timeRange 1 n).foldlM (handleSlot p alpha inverted v) Paths.empty = .ok paths ∧
      (0 < n → AllDown p v alpha inverted hit n paths) := by
  intro n
  induction n with
  | zero => intro _ _; exact ⟨Paths.empty, rfl, by simp⟩
  | succ n ih =>
    intro hn hf
    push_cast at hn hf ⊢
    obtain ⟨paths, h1, h2⟩ := ih (by omega) fun t h h' => hf t h (by omega)
    obtain ⟨paths1, h3, h4⟩ := layer_up (inverted := inverted) st paths h2
    obtain ⟨paths2, h5, h6⟩ := layer_down st hn (hf _ (by omega) le_rfl) paths1 h4
    refine ⟨paths2, ?_, fun _ => h6⟩
    rw [timeRange_succ, foldlM_append', h1]
    simp only [bind, Except.bind, List.foldlM_cons, List.foldlM_nil, handleSlot, h3, h5, pure,
      Except.pure]

theorem run_slots_panic (st : Setting p v alpha hit) (n : Nat) (hn : (n : Int) + 1 ≤ p.tEnd)
    (hf : ∀ t : Int, 1 ≤ t → t ≤ n → hit t p.bounds ≠ ⊤) (hp : hit ((n : Int) + 1) p.bounds = ⊤) :
    (timeRange 1 p.tEnd).foldlM (handleSlot p alpha inverted v) Paths.empty = .error .panic := by
  obtain ⟨paths, h1, h2⟩ := run_slots (inverted := inverted) st n (by omega) hf
  obtain ⟨paths1, h3, h4⟩ := layer_up (inverted := inverted) st paths h2
  obtain ⟨m, hm⟩ : ∃ m : Nat, p.tEnd = (n + 1 + m : Nat) := ⟨(p.tEnd - (n + 1)).toNat, by omega⟩
  have hsplit : ∀ m : Nat, ∃ l, timeRange 1 ((n + 1 + m : Nat) : Int)
      = timeRange 1 n ++ ((n : Int) + 1) :: l := by
    intro m
    induction m with
    | zero => exact ⟨[], by push_cast; exact timeRange_succ n⟩
    | succ m ih =>
      obtain ⟨l, hl⟩ := ih
      refine ⟨l ++ [((n + 1 + m : Nat) : Int) + 1], ?_⟩
      have := timeRange_succ (n + 1 + m)
      rw [show ((n + 1 + (m + 1) : Nat) : Int) = ((n + 1 + m : Nat) : Int) + 1 by push_cast; ring,
        this, hl]
      simp
  obtain ⟨l, hl⟩ := hsplit m
  rw [hm, hl, foldlM_append', h1]
  simp only [bind, Except.bind, List.foldlM_cons, handleSlot, h3,
    layer_down_panic st hn hp paths1]

/-- A configuration inside the bounds that uses only grid values. -/
def OnGrid (p : SSCO ℤ C D) (v : Values) (x : Config ℤ) : Prop :=
  Spec.InBox p.bounds x ∧ ∀ j ∈ x, j ∈ v.values

theorem Grid.val_inj (g : Grid p v) {i j : Nat} (hi : i < v.values.length) (hj : j < v.values.length)
    (h : v.val i ≤ v.val j) : i ≤ j := by
  by_contra hc
  exact absurd (g.val_lt (by omega : j < i) hi) (by omega)

theorem onGrid_cfg (g : Grid p v) {i : List Nat} (hi : Ok v.boundIndices i) : OnGrid p v (v.cfg i) := by
  constructor
  · unfold Spec.InBox
    rw [List.forall₂_iff_get]
    refine ⟨by rw [cfg_length, hi.1, g.bi], ?_⟩
    intro k h1 h2
    have hk : k < v.boundIndices.length := by rw [g.bi]; exact h1
    have hik : k < i.length := by rw [hi.1]; exact hk
    have e1 : p.bounds.get ⟨k, h1⟩ = v.val (v.boundIndices.getD k 0) := by
      have := g.bounds
      simp only [List.get_eq_getElem]
      rw [List.getElem_of_eq this]
      simp [Values.val, hk]
    have e2 : (v.cfg i).get ⟨k, h2⟩ = v.val (i.getD k 0) := by
      rw [← cfg_getD v hik]; simp [h2]
    rw [e1, e2]
    have h0 : v.val 0 = 0 := by simp [Values.val, List.getD, g.zero]
    exact ⟨by rw [← h0]; exact g.val_le (Nat.zero_le _) (hi.lt g k), g.val_le (hi.2 k) (g.blt' k)⟩
  · intro j hj
    obtain ⟨n, hn, rfl⟩ := List.mem_map.1 hj
    obtain ⟨k, hk, rfl⟩ := List.getElem_of_mem hn
    have := hi.lt g k
    simp only [List.getD, List.getElem?_eq_getElem hk, Option.getD_some] at this
    simp [Values.val, List.getD, this]

theorem cfg_of_onGrid (g : Grid p v) {x : Config ℤ} (hx : OnGrid p v x) :
    ∃ i, Ok v.boundIndices i ∧ v.cfg i = x := by
  have hch : ∀ j ∈ x, ∃ n, n < v.values.length ∧ v.val n = j := by
    intro j hj
    obtain ⟨n, hn, he⟩ := List.getElem_of_mem (hx.2 j hj)
    exact ⟨n, hn, by simp [Values.val, List.getD, hn, he]⟩
  let f : ℤ → Nat := fun j => if h : ∃ n, n < v.values.length ∧ v.val n = j then h.choose else 0
  have hf : ∀ j ∈ x, f j < v.values.length ∧ v.val (f j) = j := by
    intro j hj
    have h := hch j hj
    simp only [f, dif_pos h]; exact h.choose_spec
  refine ⟨x.map f, ⟨?_, ?_⟩, ?_⟩
  · rw [List.length_map, ← hx.1.length_eq, g.bi]
  · intro k
    by_cases hk : k < x.length
    · have hkb : k < p.bounds.length := by rw [hx.1.length_eq]; exact hk
      have hki : k < v.boundIndices.length := by rw [g.bi]; exact hkb
      have hfx := hf x[k] (List.getElem_mem _)
      have e1 : (x.map f).getD k 0 = f x[k] := by simp [List.getD, hk]
      rw [e1]
      refine g.val_inj hfx.1 (g.blt' k) ?_
      rw [hfx.2]
      have := (List.forall₂_iff_get.1 hx.1).2 k hkb hk
      have e2 : p.bounds.get ⟨k, hkb⟩ = v.val (v.boundIndices.getD k 0) := by
        have := g.bounds
        simp only [List.get_eq_getElem]
        rw [List.getElem_of_eq this]
        simp [Values.val, hki]
      rw [← e2]; simpa using this.2
    · simp [List.getD, hk]
  · unfold Values.cfg
    rw [List.map_map]
    conv_rhs => rw [← List.map_id x]
    exact List.map_congr_left fun j hj => (hf j hj).2

theorem lift_schedule (g : Grid p v) (ys : Schedule ℤ) (h : ∀ y ∈ ys, OnGrid p v y) :
    ∃ js : List (List Nat), (∀ j ∈ js, Ok v.boundIndices j) ∧ js.map v.cfg = ys := by
  induction ys with
  | nil => exact ⟨[], by simp, rfl⟩
  | cons y ys ih =>
    obtain ⟨js, h1, h2⟩ := ih fun z hz => h z (by simp [hz])
    obtain ⟨j, h3, h4⟩ := cfg_of_onGrid g (h y (by simp))
    refine ⟨j :: js, ?_, by simp [h2, h4]⟩
    intro i hi
    rcases List.mem_cons.1 hi with rfl | hi
    · exact h3
    · exact h1 i hi

/-- The objective of a schedule of horizon length inside the bounds is the specified total cost. -/
theorem objective_total (p : SSCO ℤ C D) (hv : Spec.ValidSSCO p) (alpha : ℚ)
    (hit : Int → Config ℤ → ECost) (Q : Config ℤ → Prop)
    (hh : ∀ t : Int, 1 ≤ t → t ≤ p.tEnd → ∀ x, Spec.InBox p.bounds x → Q x →
      ∃ o, p.toProb.hitCost t x = .ok ⟨hit t x, o⟩)
    (ys : Schedule ℤ) (hl : (ys.length : Int) = p.tEnd)
    (hy : ∀ y ∈ ys, Spec.InBox p.bounds y ∧ Q y) :
    ∃ out, p.toProb.alphaUnfairObjective ys alpha
      = .ok ⟨Spec.totalCost hit (Spec.upCost p.switchingCost) alpha 1
          (List.replicate p.d.toNat 0) ys, out⟩ := by
  obtain ⟨h1, h2, h3, h4, h5, h6⟩ := hv
  have hlen : ∀ y ∈ p.toProb.defaultConfig :: ys, y.length = p.d.toNat := by
    intro y h
    rcases List.mem_cons.1 h with rfl | h
    · simp [Prob.defaultConfig, Config.repeat, SSCO.toProb]
    · have := (hy y h).1.length_eq; omega
  have key := C02_objective_eq_totalCost p.toProb ys p.toProb.defaultConfig alpha false ys.length hit
    (Spec.upCost p.switchingCost) (by
      intro t ht _ ht' x hx
      rw [padTo_self] at hx
      exact hh t ht ht' x (hy x hx).1 (hy x hx).2) (by
      rw [padTo_self]
      intro y hy' x hx
      have := Simplified.mv_ok (SSCO.simplified p) p.d.toNat (by omega) _ hlen false y hy' x
        (List.mem_cons_of_mem _ hx)
      simpa [Spec.moveCost] using this)
  obtain ⟨out, ho⟩ := key
  refine ⟨out, ?_⟩
  rw [padTo_self] at ho
  unfold Prob.alphaUnfairObjective
  rw [show p.toProb.tEnd = (ys.length : Int) from hl.symm, ho]
  congr 2
  have hgen : ∀ (l : List (Config ℤ)) (t : Int) (prev : Config ℤ), t + l.length ≤ p.tEnd + 1 →
      Spec.totalCost (fun t x => if t > p.toProb.tEnd then 0 else hit t x)
        (Spec.upCost p.switchingCost) alpha t prev l
      = Spec.totalCost hit (Spec.upCost p.switchingCost) alpha t prev l := by
    intro l
    induction l with
    | nil => intros; rfl
    | cons x l ih =>
      intro t prev ht
      simp only [List.length_cons] at ht
      push_cast at ht
      simp only [Spec.totalCost]
      rw [ih (t + 1) x (by omega), if_neg (by simp only [SSCO.toProb]; omega)]
  exact hgen ys 1 _ (by omega)

/-- The search on an arbitrary grid. -/
theorem graphSearch_grid (p : SSCO ℤ C D) (v : Values) (hv : Spec.ValidSSCO p) (g : Grid p v)
    (hT : 1 ≤ p.tEnd) (o : OfflineOptions) (hl : o.l = none) (hα : 0 ≤ o.alpha)
    (hit : Int → Config ℤ → ECost)
    (hhit : ∀ t : Int, 1 ≤ t → t ≤ p.tEnd → ∀ x, OnGrid p v x →
      ∃ out, p.toProb.hitCost t x = .ok ⟨hit t x, out⟩)
    (hfin : ∀ t : Int, 1 ≤ t → t ≤ p.tEnd → hit t p.bounds ≠ ⊤) :
    ∃ r, graphSearch p v none o = .ok r ∧ (r.path.xs.length : Int) = p.tEnd ∧
      (∀ x ∈ r.path.xs, OnGrid p v x) ∧ r.path.cost ≠ ⊤ ∧
      (∃ out, p.toProb.alphaUnfairObjective r.path.xs o.alpha = .ok ⟨r.path.cost, out⟩) ∧
      ∀ ys : Schedule ℤ, (ys.length : Int) = p.tEnd → (∀ y ∈ ys, OnGrid p v y) →
        ∃ c, p.toProb.alphaUnfairObjective ys o.alpha = .ok c ∧ r.path.cost ≤ c.cost := by
  obtain ⟨h1, h2, h3, h4, h5, h6⟩ := id hv
  have hd := g.toNat
  have st : Setting p v o.alpha hit :=
    { grid := g, dpos := by omega, alpha := hα, beta := fun b hb => le_of_lt (h6 b hb)
      hit := fun t ht ht' i hi => hhit t ht ht' _ (onGrid_cfg g hi) }
  obtain ⟨n, hn⟩ : ∃ n : Nat, p.tEnd = n := ⟨p.tEnd.toNat, by omega⟩
  obtain ⟨paths, hr, hall⟩ := run_slots (inverted := o.inverted) st n (by omega)
    (fun t ht ht' => hfin t ht (by omega))
  have hB := Ok.base true v.boundIndices
  obtain ⟨P, hP, hOK⟩ := hall (by omega) _ hB
  have hzero : v.cfg (base true v.boundIndices) = List.replicate p.d.toNat 0 := by
    have := g.base_conf true
    rw [show v.cfg (base true v.boundIndices) = (v.conf (base true v.boundIndices)).config from rfl,
      ← this]; rfl
  have hbase : ∀ js : List (List Nat), ∀ k, (base true v.boundIndices).getD k 0
      ≤ (lastI v js).getD k 0 := by
    intro js k; rw [getD_base_true]; exact Nat.zero_le _
  obtain ⟨js, hj1, hj2, hj3, hj4, hj5⟩ := hOK.sound
  have hcomp := hOK.complete
  rw [phi_base g] at hj5 hcomp
  simp only [WithTop.coe_zero, add_zero] at hj5 hcomp
  have hcost : P.cost = obj p v o.alpha hit js := le_antisymm (hcomp js hj1 hj2 (hbase js)) hj5
  have hxs : ∀ x ∈ P.xs, OnGrid p v x := by
    intro x hx
    rw [hj3] at hx
    obtain ⟨i, hi, rfl⟩ := List.mem_map.1 hx
    exact onGrid_cfg g (hj1 i hi)
  have hlen : (P.xs.length : Int) = p.tEnd := by rw [hj3, List.length_map, hj2, hn]
  have hobj := objective_total p hv o.alpha hit (fun x => ∀ j ∈ x, j ∈ v.values)
    (fun t ht ht' x hx hq => hhit t ht ht' x ⟨hx, hq⟩)
  refine ⟨⟨P, ⟨p.tEnd, paths⟩⟩, ?_, hlen, hxs, hOK.fin, ?_, ?_⟩
  · unfold graphSearch
    rw [hn]
    simp only [hl, Option.isNone_none, assertR, if_true, readCache, bind, Except.bind, hr,
      g.base_conf, Paths.at, hP]
  · obtain ⟨out, ho⟩ := hobj P.xs hlen hxs
    refine ⟨out, ?_⟩
    rw [ho, hcost, obj, hj3, hzero]
  · intro ys hyl hys
    obtain ⟨out, ho⟩ := hobj ys hyl hys
    refine ⟨_, ho, ?_⟩
    obtain ⟨ks, hk1, hk2⟩ := lift_schedule g ys hys
    have := hcomp ks hk1 (by rw [← hk2, List.length_map] at hyl; omega) (hbase ks)
    rw [obj, hk2, hzero] at this
    exact this

/-- The grid of all integers. -/
theorem allValues_grid (p : SSCO ℤ C D) (hv : Spec.ValidSSCO p) :
    ∃ v, allValues p.bounds = .ok v ∧ Grid p v ∧
      ∀ x, OnGrid p v x ↔ Spec.InBox p.bounds x := by
  obtain ⟨h1, h2, h3, h4, h5, h6⟩ := hv
  obtain ⟨m, hm⟩ : ∃ m, p.bounds.max? = some m := by
    rcases hb : p.bounds with _ | ⟨a, l⟩
    · simp [hb] at h3; omega
    · exact ⟨_, rfl⟩
  have hmax := List.max?_eq_some_iff.1 hm
  have hmpos : 0 < m := h5 m hmax.1
  have hlen : ((List.range (m + 1).toNat).map fun i : Nat => (i : ℤ)).length = (m + 1).toNat := by simp
  refine ⟨_, by unfold allValues; rw [hm], ?_, ?_⟩
  · exact
    { dim := h3.symm
      sc := by omega
      bi := by simp
      bpos := by
        intro b hb
        obtain ⟨u, hu, rfl⟩ := List.mem_map.1 hb
        have := h5 u hu; omega
      blt := by
        intro b hb
        obtain ⟨u, hu, rfl⟩ := List.mem_map.1 hb
        have := h5 u hu; have := hmax.2 u hu
        simp only [List.length_map, List.length_range]; omega
      zero := by
        have : 0 < (m + 1).toNat := by omega
        simp [this]
      mono := by
        rw [List.pairwise_map]
        exact List.pairwise_lt_range.imp (by intro a b h; exact_mod_cast h)
      bounds := by
        rw [List.map_map]
        conv_lhs => rw [← List.map_id p.bounds]
        refine List.map_congr_left fun u hu => ?_
        have := h5 u hu; have := hmax.2 u hu
        have hlt : u.toNat < (m + 1).toNat := by omega
        simp [List.getD, hlt]; omega }
  · intro x
    refine ⟨fun h => h.1, fun h => ⟨h, fun j hj => ?_⟩⟩
    obtain ⟨k, hk, rfl⟩ := List.getElem_of_mem hj
    have hkb : k < p.bounds.length := by rw [h.length_eq]; exact hk
    have := (List.forall₂_iff_get.1 h).2 k hkb hk
    simp only [List.get_eq_getElem] at this
    have hle := hmax.2 p.bounds[k] (List.getElem_mem _)
    simp only [List.mem_map, List.mem_range]
    exact ⟨x[k].toNat, by omega, by omega⟩

end Multi

/-! ## C19 -/

/-- **C19**. On every integral instance accepted by `verify`, with a horizon of at least one slot, whose
hitting costs are defined inside the bounds and finite at the upper bounds, the multi-dimensional graph
search returns a schedule of horizon length inside the bounds. The reported cost is the α-unfair
objective of that schedule, it is finite, and no schedule inside the bounds has a smaller objective. No
convexity is assumed. -/
theorem C19_graph_search_optimal (p : SSCO ℤ C D) (hv : p.verify = .ok ()) (hT : 1 ≤ p.tEnd)
    (o : OfflineOptions) (hl : o.l = none) (hα : 0 ≤ o.alpha) (hit : Int → Config ℤ → ECost)
    (hhit : ∀ t : Int, 1 ≤ t → t ≤ p.tEnd → ∀ x, Spec.InBox p.bounds x →
      ∃ out, p.toProb.hitCost t x = .ok ⟨hit t x, out⟩)
    (hfin : ∀ t : Int, 1 ≤ t → t ≤ p.tEnd → hit t p.bounds ≠ ⊤) :
    ∃ r, optimalGraphSearch p none o = .ok r ∧ (r.path.xs.length : Int) = p.tEnd ∧
      (∀ x ∈ r.path.xs, Spec.InBox p.bounds x) ∧ r.path.cost ≠ ⊤ ∧
      (∃ out, p.toProb.alphaUnfairObjective r.path.xs o.alpha = .ok ⟨r.path.cost, out⟩) ∧
      ∀ ys : Schedule ℤ, (ys.length : Int) = p.tEnd → (∀ y ∈ ys, Spec.InBox p.bounds y) →
        ∃ c, p.toProb.alphaUnfairObjective ys o.alpha = .ok c ∧ r.path.cost ≤ c.cost := by
  have hv' : Spec.ValidSSCO p := by
    by_contra hc
    have := (C10_ssco_verify_exact p).2 hc
    rw [hv] at this; simp at this
  obtain ⟨v, h1, g, h2⟩ := allValues_grid p hv'
  obtain ⟨r, h3, h4, h5, h6, h7, h8⟩ := graphSearch_grid p v hv' g hT o hl hα hit
    (fun t ht ht' x hx => hhit t ht ht' x ((h2 x).1 hx)) hfin
  refine ⟨r, ?_, h4, fun x hx => (h2 x).1 (h5 x hx), h6, h7,
    fun ys hy hys => h8 ys hy fun y hy' => (h2 y).2 (hys y hy')⟩
  simp only [optimalGraphSearch, h1, bind, Except.bind, h3]

/-! ## C20 -/

/-- **C20**. On an instance accepted by `verify` whose hitting costs are defined inside the bounds, the
search either returns a path or panics, and it panics exactly if the horizon is empty or the
configuration with all servers active has infinite cost in some slot. -/
theorem C20_panics_iff (p : SSCO ℤ C D) (hv : p.verify = .ok ())
    (o : OfflineOptions) (hl : o.l = none) (hα : 0 ≤ o.alpha) (hit : Int → Config ℤ → ECost)
    (hhit : ∀ t : Int, 1 ≤ t → t ≤ p.tEnd → ∀ x, Spec.InBox p.bounds x →
      ∃ out, p.toProb.hitCost t x = .ok ⟨hit t x, out⟩) :
    (optimalGraphSearch p none o = .error .panic ↔
      p.tEnd = 0 ∨ ∃ t : Int, 1 ≤ t ∧ t ≤ p.tEnd ∧ hit t p.bounds = ⊤) ∧
    ∀ f, optimalGraphSearch p none o ≠ .error (.fail f) := by
  have hv' : Spec.ValidSSCO p := by
    by_contra hc
    have := (C10_ssco_verify_exact p).2 hc
    rw [hv] at this; simp at this
  obtain ⟨h1, h2, h3, h4, h5, h6⟩ := id hv'
  obtain ⟨v, hvv, g, hbox⟩ := allValues_grid p hv'
  have hd := g.toNat
  have st : Setting p v o.alpha hit :=
    { grid := g, dpos := by omega, alpha := hα, beta := fun b hb => le_of_lt (h6 b hb)
      hit := fun t ht ht' i hi => hhit t ht ht' _ ((hbox _).1 (onGrid_cfg g hi)) }
  have hunf : optimalGraphSearch p none o = graphSearch p v none o := by
    simp only [optimalGraphSearch, hvv, bind, Except.bind]
  have hpanic : p.tEnd = 0 ∨ (∃ t : Int, 1 ≤ t ∧ t ≤ p.tEnd ∧ hit t p.bounds = ⊤) →
      optimalGraphSearch p none o = .error .panic := by
    rintro (h0 | ⟨t, ht, ht', hinf⟩)
    · rw [hunf]
      unfold graphSearch
      simp only [hl, Option.isNone_none, assertR, if_true, readCache, bind, Except.bind, h0, timeRange]
      rfl
    · have : ∃ n : Nat, (n : Int) + 1 ≤ p.tEnd ∧ hit ((n : Int) + 1) p.bounds = ⊤ :=
        ⟨(t - 1).toNat, by omega, by rw [show (((t - 1).toNat : Nat) : Int) + 1 = t by omega]; exact hinf⟩
      classical
      obtain ⟨hn1, hn2⟩ := Nat.find_spec this
      have hmin : ∀ s : Int, 1 ≤ s → s ≤ (Nat.find this : Int) → hit s p.bounds ≠ ⊤ := by
        intro s hs hs' hc
        have := Nat.find_min this (m := (s - 1).toNat) (by omega)
        exact this ⟨by omega, by rw [show (((s - 1).toNat : Nat) : Int) + 1 = s by omega]; exact hc⟩
      have := run_slots_panic (inverted := o.inverted) st _ hn1 hmin hn2
      rw [hunf]
      unfold graphSearch
      simp only [hl, Option.isNone_none, assertR, if_true, readCache, bind, Except.bind, this]
  by_cases hbad : p.tEnd = 0 ∨ ∃ t : Int, 1 ≤ t ∧ t ≤ p.tEnd ∧ hit t p.bounds = ⊤
  · have := hpanic hbad
    exact ⟨⟨fun _ => hbad, fun _ => this⟩, by rw [this]; simp⟩
  · push Not at hbad
    obtain ⟨r, hr, _⟩ := C19_graph_search_optimal p hv (by omega) o hl hα hit hhit
      (fun t ht ht' => hbad.2 t ht ht')
    rw [hr]
    refine ⟨⟨by simp, fun h => ?_⟩, by simp⟩
    rcases h with h | ⟨t, ht, ht', h⟩
    · exact absurd h hbad.1
    · exact absurd h (hbad.2 t ht ht')

end Soco
