import Verif.Props.MultiGraph
import Mathlib.Tactic.Order

/-!
# C21–C23: resuming, parallelism and inversion of the multi-dimensional graph search
-/

namespace Soco
open Multi

variable {C D : Type} [OutSuccess C] [OutFailure D]

/-! ## C21 -/

namespace Multi
section Congr
variable {p₁ p₂ : SSCO ℤ C D} (hd : p₁.d = p₂.d) (hb : p₁.bounds = p₂.bounds)
  (hs : p₁.switchingCost = p₂.switchingCost) {t : Int}
  (hh : ∀ x, p₁.toProb.hitCost t x = p₂.toProb.hitCost t x) (alpha : ℚ) (inverted : Bool)
include hd hs hh

theorem handleConfig_congr_problem (k : Nat) (up : Bool) (v : Values) (paths : Paths Vertex)
    (c : IConf) : handleConfig p₁ alpha inverted t k up v paths c
      = handleConfig p₂ alpha inverted t k up v paths c := by
  have h1 : predEdge p₁ alpha inverted up c v = predEdge p₂ alpha inverted up c v := by
    funext l
    simp only [predEdge, edgeCost, hs]
  have h2 : inactionEdges p₁ t up c = inactionEdges p₂ t up c := by
    simp only [inactionEdges, inactionCost, hh]
  simp only [handleConfig, findPredecessors, h1, h2, hd]

theorem handleLoop_congr_problem (k : Nat) (up : Bool) (v : Values) : ∀ (n : Nat) (c : IConf)
    (s : Paths Vertex × List IConf), handleLoop p₁ alpha inverted t k up v n c s
      = handleLoop p₂ alpha inverted t k up v n c s := by
  intro n
  induction n with
  | zero => intros; rfl
  | succ n ih =>
    intro c s
    obtain ⟨paths, added⟩ := s
    simp only [handleLoop, handleConfig_congr_problem hd hs hh alpha inverted, ih]

theorem handleDims_congr_problem (up : Bool) (v : Values) : ∀ (n k : Nat) (cs : List IConf)
    (paths : Paths Vertex), handleDims p₁ alpha inverted t up v n k cs paths
      = handleDims p₂ alpha inverted t up v n k cs paths := by
  intro n
  induction n with
  | zero => intros; rfl
  | succ n ih =>
    intro k cs paths
    have : handleBase p₁ alpha inverted t k up v = handleBase p₂ alpha inverted t k up v := by
      funext s c
      simp only [handleBase, handleLoop_congr_problem hd hs hh alpha inverted]
    simp only [handleDims, this, ih]

include hb in
theorem handleSlot_congr_problem (v : Values) (paths : Paths Vertex) :
    handleSlot p₁ alpha inverted v paths t = handleSlot p₂ alpha inverted v paths t := by
  simp only [handleSlot, handleLayer, handleDims_congr_problem hd hs hh alpha inverted, hd, hb]

end Congr
end Multi

theorem timeRange_split (a m b : Int) (h1 : a ≤ m + 1) (h2 : m ≤ b) :
    timeRange a b = timeRange a m ++ timeRange (m + 1) b := by
  unfold timeRange
  rw [show (b - a + 1).toNat = (m - a + 1).toNat + (b - (m + 1) + 1).toNat by omega, List.range_add,
    List.map_append, List.map_map]
  congr 1
  refine List.map_congr_left fun i _ => ?_
  simp only [Function.comp]
  push_cast
  omega

/-- **C21** (one stage). Let `p₂` have the same dimensions, bounds and switching costs as `p₁`, a
horizon at least as long, and the same hitting costs in the slots of `p₁`. Continuing from the cache
which the search on `p₁` returned (itself started from scratch or from a cache that does not exceed
`p₁`'s horizon) gives exactly the result (path, cache and panics) of searching `p₂` in one go. -/
theorem C21_resume (p₁ p₂ : SSCO ℤ C D) (hd : p₁.d = p₂.d) (hb : p₁.bounds = p₂.bounds)
    (hs : p₁.switchingCost = p₂.switchingCost) (hT : p₁.tEnd ≤ p₂.tEnd) (h0 : 0 ≤ p₁.tEnd)
    (hh : ∀ t, 1 ≤ t → t ≤ p₁.tEnd → ∀ x, p₁.toProb.hitCost t x = p₂.toProb.hitCost t x)
    (c : Option (Cache Vertex)) (hc : ∀ c', c = some c' → 0 ≤ c'.t ∧ c'.t ≤ p₁.tEnd)
    (o : OfflineOptions) (r : CachedPath Vertex)
    (hr : optimalGraphSearch p₁ c o = .ok r) :
    r.cache.t = p₁.tEnd ∧
    optimalGraphSearch p₂ (some r.cache) o = optimalGraphSearch p₂ c o := by
  unfold optimalGraphSearch at hr ⊢
  rw [hb] at hr
  cases hv : allValues p₂.bounds with
  | error e => rw [hv] at hr; simp [bind, Except.bind] at hr
  | ok v =>
    rw [hv] at hr
    simp only [bind, Except.bind] at hr ⊢
    unfold graphSearch at hr ⊢
    by_cases hl : o.l.isNone = true
    · simp only [assertR, hl, if_true, bind, Except.bind] at hr ⊢
      have hstart : 1 ≤ (readCache c (1, Paths.empty)).1 ∧
          (readCache c (1, Paths.empty)).1 ≤ p₁.tEnd + 1 := by
        cases c with
        | none => simp only [readCache]; omega
        | some c' => have := hc c' rfl; simp only [readCache]; omega
      generalize readCache c (1, Paths.empty) = init at hr hstart ⊢
      have hcongr : (timeRange init.1 p₁.tEnd).foldlM (handleSlot p₁ o.alpha o.inverted v) init.2
          = (timeRange init.1 p₁.tEnd).foldlM (handleSlot p₂ o.alpha o.inverted v) init.2 := by
        apply foldlM_congr'
        intro t ht paths
        simp only [timeRange, List.mem_map, List.mem_range] at ht
        obtain ⟨i, hi, rfl⟩ := ht
        exact handleSlot_congr_problem hd hb hs (hh _ (by omega) (by omega)) _ _ v paths
      rw [hcongr] at hr
      rw [timeRange_split init.1 p₁.tEnd p₂.tEnd (by omega) hT, foldlM_append']
      cases h1 : (timeRange init.1 p₁.tEnd).foldlM (handleSlot p₂ o.alpha o.inverted v) init.2 with
      | error e => rw [h1] at hr; simp at hr
      | ok paths =>
        rw [h1] at hr
        simp only at hr
        cases h2 : paths.at { config := buildBaseConfig p₁.d.toNat p₁.bounds v true, up := false } with
        | error e => rw [h2] at hr; simp at hr
        | ok path =>
          rw [h2] at hr
          simp only [Except.ok.injEq] at hr
          subst hr
          exact ⟨rfl, rfl⟩
    · simp [assertR, hl, bind, Except.bind] at hr

/-- Caches obtained by searching prefixes of the horizon in stages. -/
inductive Staged (p : SSCO ℤ C D) (o : OfflineOptions) : Int → Cache Vertex → Prop
  | first {h : Int} {r : CachedPath Vertex} (h0 : 0 ≤ h)
      (hr : optimalGraphSearch { p with tEnd := h } none o = .ok r) : Staged p o h r.cache
  | next {h h' : Int} {c : Cache Vertex} {r : CachedPath Vertex} (hc : Staged p o h c) (hle : h ≤ h')
      (hr : optimalGraphSearch { p with tEnd := h' } (some c) o = .ok r) : Staged p o h' r.cache

theorem Staged.t_eq {p : SSCO ℤ C D} {o : OfflineOptions} {h : Int} {c : Cache Vertex}
    (hs : Staged p o h c) : 0 ≤ h ∧ c.t = h ∧ ∀ h', h ≤ h' →
      optimalGraphSearch { p with tEnd := h' } (some c) o
        = optimalGraphSearch { p with tEnd := h' } none o := by
  induction hs with
  | @first h r h0 hr =>
    have key := fun h' (hle : h ≤ h') => C21_resume { p with tEnd := h } { p with tEnd := h' } rfl rfl
      rfl hle h0 (fun _ _ _ _ => rfl) none (by simp) o r hr
    exact ⟨h0, (key h le_rfl).1, fun h' hle => (key h' hle).2⟩
  | @next h h' c r hc hle hr ih =>
    obtain ⟨h0, ht, ihe⟩ := ih
    have key := fun h'' (hle' : h' ≤ h'') => C21_resume { p with tEnd := h' } { p with tEnd := h'' }
      rfl rfl rfl hle' (by simp only; omega) (fun _ _ _ _ => rfl) (some c)
      (by rintro c' ⟨⟩; simp only; omega) o r hr
    exact ⟨by omega, (key h' le_rfl).1, fun h'' hle' => by rw [(key h'' hle').2, ihe h'' (by omega)]⟩

/-- **C21** (any number of stages). A search continued through any number of intermediate horizons
returns exactly what the search over the whole horizon returns. -/
theorem C21_resume_any_stages (p : SSCO ℤ C D) (o : OfflineOptions) (h h' : Int) (c : Cache Vertex)
    (hs : Staged p o h c) (hle : h ≤ h') :
    optimalGraphSearch { p with tEnd := h' } (some c) o
      = optimalGraphSearch { p with tEnd := h' } none o := hs.t_eq.2.2 h' hle

/-! ## C22 -/

namespace Multi

/-- The parallel `fold` and `reduce` of `multi_dimensional/graph_search.rs:343-378` for a given splitting
of the predecessors into chunks. -/
def parPick (paths : Paths Vertex) : Split Edge → Res (Option (Edge × Path))
  | .chunk es => es.foldlM (pick paths) none
  | .node l r => do
    let a ← parPick paths l
    let b ← parPick paths r
    .ok (reducePick a b)

theorem reducePick_none (a : Option (Edge × Path)) : reducePick a none = a := by cases a <;> rfl

theorem reducePick_step (a b : Option (Edge × Path)) (e : Edge) (P : Path) :
    reducePick a (if P.cost + e.cost < pickedCost b then some (e, P) else b)
      = if P.cost + e.cost < pickedCost (reducePick a b) then some (e, P) else reducePick a b := by
  rcases a with _ | a
  · rfl
  set q : Edge × Path := (e, P)
  have hq : P.cost + e.cost = pickedCost (some q) := rfl
  rw [hq]
  have hr : ∀ a b : Edge × Path, reducePick (some a) (some b)
      = if pickedCost (some a) ≤ pickedCost (some b) then some a else some b := by
    intro a b
    simp only [reducePick, pickedCost, add_comm]
  rcases b with _ | b
  · have hn : pickedCost none = ⊤ := rfl
    have ht : pickedCost (some a) ≤ ⊤ := le_top
    rw [reducePick_none]
    by_cases h : pickedCost (some q) < pickedCost none
    · rw [if_pos h, hr]
      split_ifs <;> first | rfl | (exfalso; order)
    · rw [if_neg h, reducePick_none]
      split_ifs <;> first | rfl | (exfalso; order)
  · by_cases h : pickedCost (some q) < pickedCost (some b)
    · rw [if_pos h, hr, hr]
      by_cases h2 : pickedCost (some a) ≤ pickedCost (some b)
      · rw [if_pos h2]
        split_ifs <;> first | rfl | (exfalso; order)
      · rw [if_neg h2, if_pos h]
        split_ifs <;> first | rfl | (exfalso; order)
    · rw [if_neg h, hr]
      by_cases h2 : pickedCost (some a) ≤ pickedCost (some b)
      · rw [if_pos h2]
        split_ifs <;> first | rfl | (exfalso; order)
      · rw [if_neg h2, if_neg h]

theorem foldlM_pick_acc (paths : Paths Vertex) (es : List Edge) (a b : Option (Edge × Path)) :
    es.foldlM (pick paths) (reducePick a b)
      = (es.foldlM (pick paths) b).map (reducePick a) := by
  induction es generalizing b with
  | nil => rfl
  | cons e es ih =>
    rw [foldlM_cons', foldlM_cons']
    simp only [pick]
    cases h : paths.at e.src with
    | error e => rfl
    | ok P =>
      simp only [bind, Except.bind]
      rw [← reducePick_step, ih]

theorem foldlM_pick_fault (paths : Paths Vertex) (es : List Edge) : ∀ (a : Option (Edge × Path))
    (f : Fault), es.foldlM (pick paths) a = .error f → f = .panic := by
  induction es with
  | nil => intro a f h; simp [pure, Except.pure] at h
  | cons e es ih =>
    intro a f h
    rw [foldlM_cons'] at h
    simp only [pick, Paths.at] at h
    cases hp : paths e.src with
    | none => simp [hp, bind, Except.bind] at h; exact h.symm
    | some P =>
      simp only [hp, bind, Except.bind] at h
      exact ih _ _ h

end Multi

/-- **C22** (splitting). However the parallel iterator splits the predecessors, fold and reduce give the
result of the sequential fold (including panics on missing paths). -/
theorem C22_split_independent (paths : Paths Vertex) (s : Split Edge) :
    parPick paths s = s.toList.foldlM (pick paths) none := by
  induction s with
  | chunk es => rfl
  | node l r ihl ihr =>
    rw [parPick, ihl, ihr, Split.toList, foldlM_append']
    cases h1 : l.toList.foldlM (pick paths) none with
    | error e => rfl
    | ok a =>
      simp only [bind, Except.bind]
      have := foldlM_pick_acc paths r.toList a none
      rw [reducePick_none] at this
      rw [this]
      cases r.toList.foldlM (pick paths) none <;> rfl

/-- **C22** (which one). If all predecessors have a path, the result is the first predecessor whose
total cost (path plus edge) is minimal; there is no result exactly if all total costs are infinite. -/
theorem C22_first_minimal (paths : Paths Vertex) (s : Split Edge) (f : Edge → Path)
    (hf : ∀ e ∈ s.toList, paths e.src = some (f e)) :
    (parPick paths s = .ok none ∧ ∀ e ∈ s.toList, (f e).cost + e.cost = ⊤) ∨
    ∃ before e after, s.toList = before ++ e :: after ∧ parPick paths s = .ok (some (e, f e)) ∧
      (f e).cost + e.cost ≠ ⊤ ∧
      (∀ e' ∈ before, (f e).cost + e.cost < (f e').cost + e'.cost) ∧
      (∀ e' ∈ after, (f e).cost + e.cost ≤ (f e').cost + e'.cost) := by
  rw [C22_split_independent]
  generalize s.toList = es at hf
  induction es using List.reverseRecOn with
  | nil => exact Or.inl ⟨rfl, by simp⟩
  | append_singleton es e ih =>
    have he := hf e (by simp)
    rw [foldlM_append']
    rcases ih (fun e' h => hf e' (by simp [h])) with ⟨h1, h2⟩ | ⟨before, e0, after, h1, h2, h3, h4, h5⟩
    · rw [h1]
      by_cases hlt : (f e).cost + e.cost < ⊤
      · right
        refine ⟨es, e, [], rfl, ?_, hlt.ne, ?_, by simp⟩
        · simp only [bind, Except.bind, List.foldlM_cons, List.foldlM_nil, pick, Paths.at, he,
            pickedCost, hlt, if_true]
          rfl
        · intro e' h'; rw [h2 e' h']; exact hlt
      · left
        refine ⟨?_, ?_⟩
        · simp only [bind, Except.bind, List.foldlM_cons, List.foldlM_nil, pick, Paths.at, he,
            pickedCost, hlt, if_false]
          rfl
        · intro e' h'
          rcases List.mem_append.1 h' with h' | h'
          · exact h2 e' h'
          · rw [List.mem_singleton.1 h']; exact not_lt_top_iff.1 hlt
    · rw [h2]
      by_cases hlt : (f e).cost + e.cost < (f e0).cost + e0.cost
      · right
        refine ⟨es, e, [], rfl, ?_, (lt_of_lt_of_le hlt le_top).ne, ?_, by simp⟩
        · simp only [bind, Except.bind, List.foldlM_cons, List.foldlM_nil, pick, Paths.at, he,
            pickedCost, hlt, if_true]
          rfl
        · intro e' h'
          rw [h1] at h'
          rcases List.mem_append.1 h' with h' | h'
          · exact hlt.trans (h4 e' h')
          · rcases List.mem_cons.1 h' with rfl | h'
            · exact hlt
            · exact lt_of_lt_of_le hlt (h5 e' h')
      · right
        refine ⟨before, e0, after ++ [e], by simp [h1], ?_, h3, h4, ?_⟩
        · simp only [bind, Except.bind, List.foldlM_cons, List.foldlM_nil, pick, Paths.at, he,
            pickedCost, hlt, if_false]
          rfl
        · intro e' h'
          rcases List.mem_append.1 h' with h' | h'
          · exact h5 e' h'
          · rw [List.mem_singleton.1 h']; exact not_lt.1 hlt

/-! ## C23 -/

/-- **C23** (what holds). With the `inverted` option the multi-dimensional search minimises the *plain*
(not the inverted) α-unfair objective, and reports the plain objective. What is missing: that it
minimises the inverted objective, which is false, see `C23_multi_inverted_counterexample`. -/
theorem C23_multi_inverted_minimises_plain_partial (p : SSCO ℤ C D) (hv : p.verify = .ok ())
    (hT : 1 ≤ p.tEnd) (alpha : ℚ) (hα : 0 ≤ alpha) (hit : Int → Config ℤ → ECost)
    (hhit : ∀ t : Int, 1 ≤ t → t ≤ p.tEnd → ∀ x, Spec.InBox p.bounds x →
      ∃ out, p.toProb.hitCost t x = .ok ⟨hit t x, out⟩)
    (hfin : ∀ t : Int, 1 ≤ t → t ≤ p.tEnd → hit t p.bounds ≠ ⊤) :
    ∃ r, optimalGraphSearch p none ⟨true, alpha, none⟩ = .ok r ∧
      (∃ out, p.toProb.alphaUnfairObjective r.path.xs alpha = .ok ⟨r.path.cost, out⟩) ∧
      ∀ ys : Schedule ℤ, (ys.length : Int) = p.tEnd → (∀ y ∈ ys, Spec.InBox p.bounds y) →
        ∃ c, p.toProb.alphaUnfairObjective ys alpha = .ok c ∧ r.path.cost ≤ c.cost := by
  obtain ⟨r, h1, _, _, _, h2, h3⟩ := C19_graph_search_optimal p hv hT ⟨true, alpha, none⟩ rfl hα hit
    hhit hfin
  exact ⟨r, h1, h2, h3⟩

/-- One server, one slot: being idle costs 1, running costs 0, powering up costs 2. -/
def Ex.inv1 : SSCO ℤ Unit Unit where
  d := 1
  tEnd := 1
  bounds := [1]
  switchingCost := [2]
  hittingCost := CostFn.new 1 (SingleCostFn.certain fun _ x =>
    .ok (Cost.raw (if x = [0] then 1 else 0)))

/-- **C23** (refutation). On `Ex.inv1` the inverted search returns `[[0]]` of inverted objective 1,
although `[[1]]` has inverted objective 0. -/
theorem C23_multi_inverted_counterexample :
    (optimalGraphSearch Ex.inv1 none ⟨true, 1, none⟩).map (fun r => (r.path.xs, r.path.cost))
      = .ok ([[0]], 1) ∧
    (Ex.inv1.toProb.invertedObjective [[0]]).map (·.cost) = .ok 1 ∧
    (Ex.inv1.toProb.invertedObjective [[1]]).map (·.cost) = .ok 0 := by
  refine ⟨?_, ?_, ?_⟩ <;> decide +kernel

/-! ## The hypotheses are met -/

/-- The hitting costs of `Ex.ssco2`. -/
def Ex.hitBox2 (t : Int) (x : Config ℤ) : ECost :=
  if x.getD 0 0 < 0 ∨ 2 < x.getD 0 0 ∨ x.getD 1 0 < 0 ∨ 3 < x.getD 1 0 then ⊤ else Ex.hit2 t x

theorem Ex.ssco2_hitBox (t : Int) (ht : 1 ≤ t) (x : Config ℤ) (hx : Spec.InBox Ex.ssco2.bounds x) :
    ∃ o, Ex.ssco2.toProb.hitCost t x = .ok ⟨Ex.hitBox2 t x, o⟩ :=
  Ex.ssco2_hit t ht x hx.length_eq.symm

theorem Ex.ssco2_top (t : Int) (_ : 1 ≤ t) (ht : t ≤ Ex.ssco2.tEnd) :
    Ex.hitBox2 t Ex.ssco2.bounds ≠ ⊤ := by
  have : ¬ (2 + 3 : ℤ) < t := by have : Ex.ssco2.tEnd = 3 := rfl; omega
  have h2 : Ex.hitBox2 t Ex.ssco2.bounds = if (2 + 3 : ℤ) < t then ⊤ else (((2 + 2 * 3 : ℤ) : ℚ) : ECost) := by
    simp [Ex.hitBox2, Ex.ssco2, Ex.hit2]
  rw [h2, if_neg this]; exact WithTop.coe_ne_top

/-- C19 (and so C20, C23) applies to a two-dimensional instance whose load must be met. -/
example (inverted : Bool) := C19_graph_search_optimal Ex.ssco2 (by decide +kernel) (by decide)
  ⟨inverted, 2, none⟩ rfl (by norm_num) Ex.hitBox2 (fun t ht _ x hx => Ex.ssco2_hitBox t ht x hx)
  Ex.ssco2_top

/-- C20: a slot in which no configuration is feasible makes the search panic. -/
example : (optimalGraphSearch { Ex.ssco2 with tEnd := 6 } none ⟨false, 1, none⟩).isOk = false := by
  decide +kernel

/-- C21 applies: the searches over the first one and first two slots of `Ex.ssco2` succeed. -/
example : ∃ c, Staged Ex.ssco2 ⟨false, 1, none⟩ 2 c := by
  have key := fun (h : Int) (h1 : 1 ≤ h) (h3 : h ≤ 3) =>
    C19_graph_search_optimal { Ex.ssco2 with tEnd := h }
      ((C10_ssco_verify_exact _).1 ⟨(by decide : 0 < Ex.ssco2.d), by simp only; omega, rfl, rfl,
        (by decide : ∀ u ∈ Ex.ssco2.bounds, 0 < u), (by decide +kernel : ∀ b ∈ Ex.ssco2.switchingCost, 0 < b)⟩) h1
      ⟨false, 1, none⟩ rfl (by norm_num) Ex.hitBox2 (fun t ht _ x hx => Ex.ssco2_hitBox t ht x hx)
      (fun t ht ht' => Ex.ssco2_top t ht (by simp only at ht'; have : Ex.ssco2.tEnd = 3 := rfl; omega))
  obtain ⟨r1, hr1, _⟩ := key 1 (by omega) (by omega)
  obtain ⟨r2, hr2, _⟩ := key 2 (by omega) (by omega)
  have s1 := Staged.first (p := Ex.ssco2) (o := ⟨false, 1, none⟩) (by omega) hr1
  have e := C21_resume_any_stages _ _ _ 2 _ s1 (by omega)
  rw [hr2] at e
  exact ⟨r2.cache, Staged.next s1 (by omega) e⟩

/-- C22: two predecessors of equal cost in different chunks; the first is taken. -/
example : (parPick (fun _ => some ⟨[], 1⟩)
    (.node (.chunk [⟨⟨⟨[0], [0]⟩, true⟩, 2⟩]) (.chunk [⟨⟨⟨[1], [1]⟩, true⟩, 2⟩]))).map
      (·.map fun q => q.1.src.config.config) = .ok (some [0]) := by decide +kernel

end Soco
