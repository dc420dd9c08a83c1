import Verif.Props.UniGraph
import Verif.Props.ApproxGraph
import Verif.Props.Discretise

/-!
# C104: how many costs the graph searches look at
-/

namespace Soco

variable {C D : Type} [OutSuccess C] [OutFailure D]

/-- Two problems differ at most in the hitting costs of configurations which are not in `Q t`. -/
def Spec.SameOn (Q : Int → List (Config ℤ)) (p p' : SSCO ℤ C D) : Prop :=
  p'.d = p.d ∧ p'.tEnd = p.tEnd ∧ p'.bounds = p.bounds ∧ p'.switchingCost = p.switchingCost ∧
  ∀ t : Int, 1 ≤ t → t ≤ p.tEnd → ∀ x ∈ Q t, p'.toProb.hitCost t x = p.toProb.hitCost t x

namespace Uni

theorem buildCost_same {p p' : SSCO ℤ C D} (hs : p'.switchingCost = p.switchingCost) {t : Int} {j : ℤ}
    (h : p'.toProb.hitCost t [j] = p.toProb.hitCost t [j]) (i : ℤ) (alpha : ℚ) (inverted : Bool) :
    buildCost p' t i j alpha inverted = buildCost p t i j alpha inverted := by
  unfold buildCost
  rw [h]
  have : p'.toProb.movement [i] [j] inverted = p.toProb.movement [i] [j] inverted := by
    simp only [SSCO.toProb, hs]
  rw [this]

theorem subpath_same {p p' : SSCO ℤ C D} (hs : p'.switchingCost = p.switchingCost) {t : Int} {j : ℤ}
    (h : p'.toProb.hitCost t [j] = p.toProb.hitCost t [j]) (src : List ℤ) (alpha : ℚ) (inverted : Bool) (paths : Paths Vertex) :
    findShortestSubpath p' t src alpha inverted paths j = findShortestSubpath p t src alpha inverted paths j := by
  unfold findShortestSubpath
  have : pickSource p' paths t j alpha inverted = pickSource p paths t j alpha inverted := by
    funext picked source
    unfold pickSource
    rw [buildCost_same hs h]
  rw [this]

/-- The rows of a slot, none if they cannot be determined. -/
def rowsAt (rows : Int → Res (List ℤ)) (t : Int) : List ℤ :=
  match rows t with
  | .ok r => r
  | .error _ => []

theorem findSchedule_same {p p' : SSCO ℤ C D} (hT : p'.tEnd = p.tEnd) (hs : p'.switchingCost = p.switchingCost)
    (rows : Int → Res (List ℤ)) (h : ∀ t : Int, 1 ≤ t → t ≤ p.tEnd → ∀ j ∈ rowsAt rows t,
      p'.toProb.hitCost t [j] = p.toProb.hitCost t [j]) (alpha : ℚ) (inverted : Bool) (xStart : ℤ) :
    findSchedule p' rows alpha inverted xStart = findSchedule p rows alpha inverted xStart := by
  unfold findSchedule
  rw [hT]
  have : (timeRange 1 p.tEnd).foldlM (slot p' rows alpha inverted)
      ((Paths.empty (V := Vertex)).insert (0, xStart) { xs := [], cost := 0 }, [xStart]) =
    (timeRange 1 p.tEnd).foldlM (slot p rows alpha inverted)
      ((Paths.empty (V := Vertex)).insert (0, xStart) { xs := [], cost := 0 }, [xStart]) := by
    apply Multi.foldlM_congr'
    intro t ht s
    obtain ⟨h1, h2⟩ := mem_timeRange ht
    unfold slot
    have hr := h t h1 h2
    unfold rowsAt at hr
    cases hrow : rows t with
    | error e => rfl
    | ok r =>
      rw [hrow] at hr
      simp only [bind, Except.bind]
      rw [Multi.foldlM_congr' (f := findShortestSubpath p' t s.2 alpha inverted)
        (h := findShortestSubpath p t s.2 alpha inverted) (fun j hj paths => subpath_same hs (hr j hj) _ _ _ _)]
  simp only [this]

theorem rowsAt_next (m : ℤ) (xs : Schedule ℤ) (k : Nat) (t : Int) :
    (rowsAt (nextRows m xs k) t).length ≤ 5 ∧ ∀ j ∈ rowsAt (nextRows m xs k) t, 0 ≤ j ∧ j ≤ m := by
  unfold rowsAt nextRows
  simp only [bind, Except.bind]
  cases idx xs (t.toNat - 1) with
  | error e => simp
  | ok x =>
    simp only
    cases idx x 0 with
    | error e => simp
    | ok j =>
      simp only
      refine ⟨(List.length_filter_le _ _).trans (by simp), ?_⟩
      intro i hi
      have := (List.mem_filter.1 hi).2
      simpa using this

theorem rowsAt_initial {m : ℤ} (hm : 0 ≤ m) (t : Int) :
    (rowsAt (fun _ => .ok (initialRows m)) t).length ≤ 5 ∧
      ∀ j ∈ rowsAt (fun _ => .ok (initialRows m)) t, 0 ≤ j ∧ j ≤ m := by
  unfold rowsAt initialRows
  refine ⟨by simp, ?_⟩
  intro j hj
  simp at hj
  rcases hj with rfl | rfl | rfl | rfl | rfl <;> omega

theorem refine_queries {p : SSCO ℤ C D} (m : ℤ) (alpha : ℚ) (inverted : Bool) (xStart : ℤ) : ∀ (ks : List Nat) (path : Path),
    ∃ Q : Int → List ℤ, (∀ t, (Q t).length ≤ 5 * ks.length) ∧ (∀ t, ∀ j ∈ Q t, 0 ≤ j ∧ j ≤ m) ∧
      ∀ p' : SSCO ℤ C D, p'.tEnd = p.tEnd → p'.switchingCost = p.switchingCost →
        (∀ t : Int, 1 ≤ t → t ≤ p.tEnd → ∀ j ∈ Q t, p'.toProb.hitCost t [j] = p.toProb.hitCost t [j]) →
        ks.foldlM (fun path k => findSchedule p' (nextRows m path.xs k) alpha inverted xStart) path =
        ks.foldlM (fun path k => findSchedule p (nextRows m path.xs k) alpha inverted xStart) path := by
  intro ks
  induction ks with
  | nil => intro path; exact ⟨fun _ => [], by simp, by simp, fun _ _ _ _ => rfl⟩
  | cons k ks ih =>
    intro path
    cases hf : findSchedule p (nextRows m path.xs k) alpha inverted xStart with
    | error e =>
      refine ⟨rowsAt (nextRows m path.xs k), fun t => ?_, fun t => (rowsAt_next _ _ _ _).2, ?_⟩
      · have := (rowsAt_next m path.xs k t).1
        simp only [List.length_cons]
        omega
      · intro p' h1 h2 h3
        rw [Multi.foldlM_cons', Multi.foldlM_cons', findSchedule_same h1 h2 _ h3, hf]
        rfl
    | ok path' =>
      obtain ⟨Q, q1, q2, q3⟩ := ih path'
      refine ⟨fun t => rowsAt (nextRows m path.xs k) t ++ Q t, fun t => ?_, fun t j hj => ?_, ?_⟩
      · have h1 := (rowsAt_next m path.xs k t).1
        have h2 := q1 t
        simp only [List.length_cons, List.length_append]
        omega
      · rcases List.mem_append.1 hj with h | h
        · exact (rowsAt_next _ _ _ _).2 j h
        · exact q2 t j h
      · intro p' h1 h2 h3
        rw [Multi.foldlM_cons', Multi.foldlM_cons',
          findSchedule_same h1 h2 _ (fun t t1 t2 j hj => h3 t t1 t2 j (List.mem_append_left _ hj)), hf]
        exact q3 p' h1 h2 fun t t1 t2 j hj => h3 t t1 t2 j (List.mem_append_right _ hj)

theorem search_queries {p : SSCO ℤ C D} {m : ℤ} (hm : 0 ≤ m) (alpha : ℚ) (inverted : Bool) (xStart : ℤ) :
    ∃ Q : Int → List ℤ, (∀ t, (Q t).length ≤ 5 * (kInit m + 1)) ∧ (∀ t, ∀ j ∈ Q t, 0 ≤ j ∧ j ≤ m) ∧
      ∀ p' : SSCO ℤ C D, p'.tEnd = p.tEnd → p'.switchingCost = p.switchingCost →
        (∀ t : Int, 1 ≤ t → t ≤ p.tEnd → ∀ j ∈ Q t, p'.toProb.hitCost t [j] = p.toProb.hitCost t [j]) →
        search p' m alpha inverted xStart = search p m alpha inverted xStart := by
  unfold search
  cases hf : findSchedule p (fun _ => .ok (initialRows m)) alpha inverted xStart with
  | error e =>
    refine ⟨rowsAt (fun _ => .ok (initialRows m)), fun t => ?_, fun t => (rowsAt_initial hm t).2, ?_⟩
    · have := (rowsAt_initial hm t).1
      omega
    · intro p' h1 h2 h3
      rw [findSchedule_same h1 h2 _ h3, hf]
      rfl
  | ok path =>
    obtain ⟨Q, q1, q2, q3⟩ := refine_queries (p := p) m alpha inverted xStart (List.range (kInit m)).reverse path
    refine ⟨fun t => rowsAt (fun _ => .ok (initialRows m)) t ++ Q t, fun t => ?_, fun t j hj => ?_, ?_⟩
    · have h1 := (rowsAt_initial hm t).1
      have h2 := q1 t
      simp only [List.length_append, List.length_reverse, List.length_range] at h2 ⊢
      omega
    · rcases List.mem_append.1 hj with h | h
      · exact (rowsAt_initial hm t).2 j h
      · exact q2 t j h
    · intro p' h1 h2 h3
      rw [findSchedule_same h1 h2 _ (fun t t1 t2 j hj => h3 t t1 t2 j (List.mem_append_left _ hj)), hf]
      exact q3 p' h1 h2 fun t t1 t2 j hj => h3 t t1 t2 j (List.mem_append_right _ hj)

theorem kInit_pow (n : Nat) : kInit (2 ^ n) + 1 = max 1 (n - 1) := by
  unfold kInit
  have e : ((2 : ℤ) ^ n).toNat = 2 ^ n := by
    have : ((2 ^ n : Nat) : ℤ) = 2 ^ n := by push_cast; rfl
    rw [← this, Int.toNat_natCast]
  rw [e, Nat.log_pow (by omega)]
  rcases Nat.lt_or_ge n 2 with h | h
  · rcases (show n = 0 ∨ n = 1 by omega) with rfl | rfl <;> simp
  · have : (2 : ℤ) < 2 ^ n := by
      calc (2 : ℤ) < 2 ^ 2 := by norm_num
        _ ≤ 2 ^ n := pow_le_pow_right₀ (by norm_num) h
    rw [if_pos this]
    omega

end Uni

open Uni in
/-- **C104** (one dimension) The optimal search for at most `m` servers looks at not more than `5 ⌈log₂ m⌉` costs per slot (in fact
five times `⌈log₂ m⌉ - 1`, but at least five): its result, or failure, stays the same whatever the other costs are. -/
theorem C104_one_dimension (p : SSCO ℤ C D) (m : ℤ) (hm : 0 < m) (hb : p.bounds = [m]) (xStart : ℤ) (o : OfflineOptions) :
    ∃ Q : Int → List (Config ℤ), (∀ t, (Q t).length ≤ 5 * max 1 (Nat.clog 2 m.toNat - 1)) ∧
      (∀ t, ∀ x ∈ Q t, Spec.InBox p.bounds x) ∧
      ∀ p', Spec.SameOn Q p p' → Uni.optimalGraphSearch p' xStart o = Uni.optimalGraphSearch p xStart o := by
  by_cases hp : isPowOf2 m.toNat = true
  · obtain ⟨k, hk⟩ := (C13_is_pow_of_2 _).1 hp
    have hm2 : m = 2 ^ k := by
      have : ((2 ^ k : Nat) : ℤ) = 2 ^ k := by push_cast; rfl
      omega
    obtain ⟨Q, q1, q2, q3⟩ := search_queries (p := p) hm.le o.alpha o.inverted xStart
    refine ⟨fun t => (Q t).map fun j => [j], fun t => ?_, fun t x hx => ?_, ?_⟩
    · have := q1 t
      rw [hm2, kInit_pow] at this
      rw [List.length_map, hk, Nat.clog_pow _ _ (by omega)]
      exact this
    · obtain ⟨j, hj, rfl⟩ := List.mem_map.1 hx
      rw [hb]
      exact .cons (q2 t j hj) .nil
    · rintro p' ⟨h1, h2, h3, h4, h5⟩
      have e : search p' m o.alpha o.inverted xStart = search p m o.alpha o.inverted xStart :=
        q3 p' h2 h4 fun t t1 t2 j hj => h5 t t1 t2 [j] (List.mem_map.2 ⟨j, hj, rfl⟩)
      have hb' : p'.bounds = [m] := by rw [h3, hb]
      unfold optimalGraphSearch
      simp only [h1, roundBound, hb, hb', idx, List.getElem?_cons_zero, bind, Except.bind, hp, if_true, e]
  · obtain ⟨q, hq⟩ : ∃ q, makePowOf2 p = .ok q := by
      simp [makePowOf2, hb, idx, bind, Except.bind]
    have hqb : q.bounds = [powBound m] ∧ q.tEnd = p.tEnd ∧ q.switchingCost = p.switchingCost := by
      have := hq
      simp only [makePowOf2, hb, idx, bind, Except.bind, List.getElem?_cons_zero] at this
      cases this
      exact ⟨rfl, rfl, rfl⟩
    obtain ⟨_, hle, _⟩ := powBound_spec hm
    obtain ⟨Q, q1, q2, q3⟩ := search_queries (p := q) (hm.le.trans hle) o.alpha o.inverted xStart
    refine ⟨fun t => (Q t).map fun j => [min j m], fun t => ?_, fun t x hx => ?_, ?_⟩
    · have := q1 t
      unfold powBound at this
      rw [kInit_pow] at this
      rw [List.length_map]
      exact this
    · obtain ⟨j, hj, rfl⟩ := List.mem_map.1 hx
      rw [hb]
      have := q2 t j hj
      exact .cons ⟨le_min this.1 hm.le, min_le_right _ _⟩ .nil
    · rintro p' ⟨h1, h2, h3, h4, h5⟩
      have hb' : p'.bounds = [m] := by rw [h3, hb]
      obtain ⟨q', hq'⟩ : ∃ q, makePowOf2 p' = .ok q := by
        simp [makePowOf2, hb', idx, bind, Except.bind]
      have hqb' : q'.bounds = [powBound m] ∧ q'.tEnd = p'.tEnd ∧ q'.switchingCost = p'.switchingCost := by
        have := hq'
        simp only [makePowOf2, hb', idx, bind, Except.bind, List.getElem?_cons_zero] at this
        cases this
        exact ⟨rfl, rfl, rfl⟩
      have e : search q' (powBound m) o.alpha o.inverted xStart = search q (powBound m) o.alpha o.inverted xStart := by
        refine q3 q' (by rw [hqb'.2.1, h2, hqb.2.1]) (by rw [hqb'.2.2, h4, hqb.2.2]) fun t t1 t2 j hj => ?_
        obtain ⟨j0, j1⟩ := q2 t j hj
        have := h5 t t1 (by rw [← hqb.2.1]; exact t2) [min j m] (List.mem_map.2 ⟨j, hj, rfl⟩)
        rw [makePow_hit hb hq t1 j0 j1, makePow_hit hb' hq' t1 j0 j1]
        split
        · rename_i h
          rw [min_eq_left h] at this
          exact this
        · rename_i h
          rw [min_eq_right (by omega)] at this
          rw [this]
      unfold optimalGraphSearch
      simp only [h1, roundBound, hb, hb', idx, List.getElem?_cons_zero, bind, Except.bind, hp, hq, hq', Bool.false_eq_true, if_false]
      simp only [hqb.1, hqb'.1, List.getElem?_cons_zero, e]

namespace Multi

/-- All lists of a given length over some values. -/
def tuples (vs : List ℤ) : Nat → List (Config ℤ)
  | 0 => [[]]
  | n + 1 => (tuples vs n).flatMap fun x => vs.map (· :: x)

theorem tuples_length (vs : List ℤ) (n : Nat) : (tuples vs n).length = vs.length ^ n := by
  induction n with
  | zero => rfl
  | succ n ih =>
    simp only [tuples, List.length_flatMap, List.length_map]
    rw [List.map_const', List.sum_replicate, ih, pow_succ]
    simp

theorem mem_tuples {vs : List ℤ} : ∀ {x : Config ℤ}, (∀ j ∈ x, j ∈ vs) → x ∈ tuples vs x.length
  | [], _ => by simp [tuples]
  | a :: x, h => by
    simp only [tuples, List.length_cons, List.mem_flatMap, List.mem_map]
    exact ⟨x, mem_tuples fun j hj => h j (List.mem_cons_of_mem _ hj), a, h a (by simp), rfl⟩

variable {p p' : SSCO ℤ C D} {v : Values}

theorem handleConfig_same (hd : p'.d = p.d) (hs : p'.switchingCost = p.switchingCost) {t : Int} {c : IConf}
    (h : p'.toProb.hitCost t c.config = p.toProb.hitCost t c.config) (alpha : ℚ) (inverted : Bool) (k : Nat) (up : Bool)
    (paths : Paths Vertex) :
    handleConfig p' alpha inverted t k up v paths c = handleConfig p alpha inverted t k up v paths c := by
  have e1 : predEdge p' alpha inverted up c v = predEdge p alpha inverted up c v := by
    funext l
    unfold predEdge edgeCost
    rw [hs]
  have e2 : inactionEdges p' t up c = inactionEdges p t up c := by
    unfold inactionEdges inactionCost
    rw [h]
  unfold handleConfig findPredecessors
  rw [e1, e2, hd]

theorem graphSearch_same (g : Grid p v) (hd : 0 < v.boundIndices.length) (h1 : p'.d = p.d) (h2 : p'.tEnd = p.tEnd)
    (h3 : p'.bounds = p.bounds) (h4 : p'.switchingCost = p.switchingCost) (cache : Option (Cache Vertex))
    (hc : ∀ c, cache = some c → 0 ≤ c.t) (h5 : ∀ t : Int, 1 ≤ t → (∀ c, cache = some c → c.t < t) → t ≤ p.tEnd →
      ∀ x, OnGrid p v x → p'.toProb.hitCost t x = p.toProb.hitCost t x) (o : OfflineOptions) : graphSearch p' v cache o = graphSearch p v cache o := by
  have g' : Grid p' v := ⟨by rw [h1, h3, g.dim], by rw [h4, h3, g.sc], by rw [h3, g.bi], g.bpos, g.blt, g.zero, g.mono,
    by rw [h3]; exact g.bounds⟩
  have hlayer : ∀ t : Int, 1 ≤ t → (∀ c, cache = some c → c.t < t) → t ≤ p.tEnd → ∀ up paths,
      handleLayer p' o.alpha o.inverted t up v paths =
      handleLayer p o.alpha o.inverted t up v paths := by
    intro t t1 tc t2 up paths
    rw [handleLayer_eq _ _ _ _ g' hd, handleLayer_eq _ _ _ _ g hd]
    apply Multi.foldlM_congr'
    intro c hcm s
    obtain ⟨i, hi, rfl⟩ := List.mem_map.1 hcm
    exact handleConfig_same h1 h4 (h5 t t1 tc t2 _ (onGrid_cfg g (mem_ord_iff.1 hi))) _ _ _ _ _
  have hr : 1 ≤ (readCache cache (1, Paths.empty)).1 := by
    unfold readCache
    cases cache with
    | none => simp
    | some c => have := hc c rfl; simp; omega
  unfold graphSearch
  rw [h1, h2, h3]
  have : (timeRange (readCache cache (1, Paths.empty)).1 p.tEnd).foldlM (handleSlot p' o.alpha o.inverted v)
      (readCache cache (1, Paths.empty)).2 =
    (timeRange (readCache cache (1, Paths.empty)).1 p.tEnd).foldlM (handleSlot p o.alpha o.inverted v)
      (readCache cache (1, Paths.empty)).2 := by
    apply Multi.foldlM_congr'
    intro t ht s
    obtain ⟨t1, t2⟩ := mem_timeRange ht
    have tc : ∀ c, cache = some c → c.t < t := by
      rintro c rfl
      simp only [readCache] at t1
      omega
    unfold handleSlot
    rw [hlayer t (by omega) tc t2]
    congr 1
    funext paths
    rw [hlayer t (by omega) tc t2]
  simp only [this]

theorem grid_values_length {γ : ℚ} (hγ : 1 < γ) {bounds vs : List ℤ} (hs : vs.Pairwise (· < ·))
    (hmem : ∀ x, x ∈ vs ↔ Spec.OnPowerGrid γ bounds x) {N : Nat} (hN : ∀ b ∈ bounds, (b : ℚ) + 1 ≤ γ ^ N) :
    vs.length ≤ 2 * (N - 1) + 1 + bounds.length := by
  have hsub : vs ⊆ [0] ++ bounds ++ (List.range (N - 1)).map (fun j => ⌊γ ^ (j + 1)⌋) ++
      (List.range (N - 1)).map (fun j => ⌈γ ^ (j + 1)⌉) := by
    intro x hx
    simp only [List.mem_append, List.mem_map, List.mem_range, List.mem_singleton]
    rcases (hmem x).1 hx with h | h | ⟨j, hj, hx, b, hb, hxb⟩
    · exact .inl (.inl (.inl h))
    · exact .inl (.inl (.inr h))
    · have hjN : j < N := by
        by_contra hc
        have h1 : γ ^ N ≤ γ ^ j := pow_le_pow_right₀ hγ.le (by omega)
        have h2 : (x : ℚ) ≤ b := by exact_mod_cast hxb
        have h3 := hN b hb
        have h4 : γ ^ j < (x : ℚ) + 1 := by
          rcases hx with rfl | rfl
          · exact Int.lt_floor_add_one _
          · have := Int.le_ceil (γ ^ j)
            linarith
        linarith
      rcases hx with rfl | rfl
      · exact .inl (.inr ⟨j - 1, by omega, by rw [Nat.sub_add_cancel hj]⟩)
      · exact .inr ⟨j - 1, by omega, by rw [Nat.sub_add_cancel hj]⟩
  have hnd : vs.Nodup := hs.imp fun h => ne_of_lt h
  have := (hnd.subperm hsub).length_le
  simp only [List.length_append, List.length_map, List.length_range, List.length_singleton] at this
  omega

end Multi

open Multi in
/-- **C104** (approximation) The approximate search with factor `γ` looks at not more than `(2 N + d)^d` costs per slot, where `N` is
any number with `γ^N` above the bounds: logarithmic in the bounds, and the same configurations in every slot. Its result, or failure,
stays the same whatever the other costs are. -/
theorem C104_approximation (p : SSCO ℤ C D) (hv : Spec.ValidSSCO p) (γ : ℚ) (hγ : 1 < γ) (N : Nat)
    (hN : ∀ b ∈ p.bounds, (b : ℚ) + 1 ≤ γ ^ N) (hN1 : 1 ≤ N) :
    ∃ (Q : List (Config ℤ)) (fuel₀ : Nat), Q.length ≤ (2 * N + p.bounds.length) ^ p.bounds.length ∧
      (∀ x ∈ Q, Spec.InBox p.bounds x) ∧
      ∀ p', Spec.SameOn (fun _ => Q) p p' → ∀ fuel, fuel₀ ≤ fuel → ∀ (cache : Option (Cache Vertex)) (o : OfflineOptions),
        (∀ c, cache = some c → 0 ≤ c.t) →
        ∃ r, approxGraphSearch fuel p cache γ o = some r ∧ approxGraphSearch fuel p' cache γ o = some r := by
  classical
  obtain ⟨v, n, h1, g, h3⟩ := approx_grid p hv γ hγ
  have hpos : 0 < v.boundIndices.length := by
    obtain ⟨a1, a2, a3, _⟩ := hv
    rw [g.bi]
    have := g.dim
    omega
  refine ⟨(tuples v.values p.bounds.length).filter fun x => decide (Spec.InBox p.bounds x), n, ?_, ?_, ?_⟩
  · refine (List.length_filter_le _ _).trans ?_
    rw [tuples_length]
    refine Nat.pow_le_pow_left ?_ _
    have := grid_values_length hγ g.mono h3 hN
    omega
  · intro x hx
    simpa using (List.mem_filter.1 hx).2
  · intro p' hp' fuel hf cache o hc
    refine ⟨graphSearch p v cache o, ?_, ?_⟩
    · unfold approxGraphSearch
      rw [h1 fuel hf]
      rfl
    · unfold approxGraphSearch
      rw [hp'.2.2.1, h1 fuel hf]
      simp only [Option.map_some, bind, Except.bind]
      rw [graphSearch_same g hpos hp'.1 hp'.2.1 hp'.2.2.1 hp'.2.2.2.1 cache hc (fun t t1 _ t2 x hx => ?_) o]
      refine hp'.2.2.2.2 t t1 t2 x ?_
      refine List.mem_filter.2 ⟨?_, by simpa using hx.1⟩
      have := mem_tuples hx.2
      rwa [← hx.1.length_eq] at this

open Multi in
/-- **C104** (feasible) The optimal search in several dimensions asks only for the costs of configurations within the bounds, and only
for the slots after those of its cache: whatever the costs are elsewhere, the result stays the same. -/
theorem C104_feasible (p p' : SSCO ℤ C D) (hv : Spec.ValidSSCO p) (cache : Option (Cache Vertex)) (o : OfflineOptions)
    (hc : ∀ c, cache = some c → 0 ≤ c.t) (hd : p'.d = p.d) (hT : p'.tEnd = p.tEnd) (hb : p'.bounds = p.bounds)
    (hs : p'.switchingCost = p.switchingCost)
    (h : ∀ t : Int, 1 ≤ t → (∀ c, cache = some c → c.t < t) → t ≤ p.tEnd → ∀ x, Spec.InBox p.bounds x →
      p'.toProb.hitCost t x = p.toProb.hitCost t x) :
    Multi.optimalGraphSearch p' cache o = Multi.optimalGraphSearch p cache o := by
  obtain ⟨v, h1, g, -⟩ := allValues_grid p hv
  have hpos : 0 < v.boundIndices.length := by
    obtain ⟨a1, a2, a3, _⟩ := hv
    rw [g.bi]
    have := g.dim
    omega
  unfold Multi.optimalGraphSearch
  rw [hb, h1]
  exact graphSearch_same g hpos hd hT hb hs cache hc (fun t t1 tc t2 x hx => h t t1 tc t2 x hx.1) o

/-! ## The claims are not empty -/

section Example

/-- A thousand servers, ten slots: cost `(x - 400)²`. -/
private def ex : SSCO ℤ Unit Unit :=
  { d := 1, tEnd := 10, bounds := [1000], switchingCost := [3]
    hittingCost := CostFn.new 1 (SingleCostFn.certain fun _ x => .ok (Cost.raw (((((x.getD 0 0 - 400) ^ 2 : ℤ) : ℚ) : ECost)))) }

/-- At most 45 of the 1001 costs of a slot matter. -/
example : ∃ Q : Int → List (Config ℤ), (∀ t, (Q t).length ≤ 45) ∧ (∀ t, ∀ x ∈ Q t, Spec.InBox ex.bounds x) ∧
    ∀ p', Spec.SameOn Q ex p' → Uni.optimalGraphSearch p' 0 ⟨false, 1, none⟩ = Uni.optimalGraphSearch ex 0 ⟨false, 1, none⟩ := by
  obtain ⟨Q, h1, h2, h3⟩ := C104_one_dimension ex 1000 (by norm_num) rfl 0 ⟨false, 1, none⟩
  refine ⟨Q, fun t => (h1 t).trans ?_, h2, h3⟩
  have : Nat.clog 2 (1000 : ℤ).toNat = 10 := by decide +kernel
  rw [this]
  decide

/-- At most 21 of them for the approximation within the factor `2 γ - 1 = 3`. -/
example : ∃ (Q : List (Config ℤ)) (fuel₀ : Nat), Q.length ≤ 21 ∧ (∀ x ∈ Q, Spec.InBox ex.bounds x) ∧
    ∀ p', Spec.SameOn (fun _ => Q) ex p' → ∀ fuel, fuel₀ ≤ fuel → ∃ r,
      Multi.approxGraphSearch fuel ex none 2 ⟨false, 1, none⟩ = some r ∧
      Multi.approxGraphSearch fuel p' none 2 ⟨false, 1, none⟩ = some r := by
  obtain ⟨Q, n, h1, h2, h3⟩ := C104_approximation ex
    ⟨by decide, by decide, by decide, by decide, by decide, by intro b hb; simp [ex] at hb; subst hb; norm_num⟩
    2 (by norm_num) 10 (by intro b hb; simp [ex] at hb; subst hb; norm_num) (by norm_num)
  exact ⟨Q, n, by simpa [ex] using h1, h2, fun p' hp fuel hf => h3 p' hp fuel hf none _ (by simp)⟩

end Example

end Soco
