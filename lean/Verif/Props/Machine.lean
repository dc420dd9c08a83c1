import Verif.Model.Machine
import Verif.Props.Queries

/-!
# C105: 32-bit integers
-/

namespace Soco

namespace I32

/-- Differences of non-negative `i32` never overflow. -/
theorem sub_fits {a b : ℤ} (ha : 0 ≤ a) (hb : 0 ≤ b) (fa : Fits a) (fb : Fits b) : Fits (a - b) := by
  unfold Fits at *; omega

theorem chk_ok {z : ℤ} (h : Fits z) : chk z = .ok z := if_pos h
theorem chk_panic {z : ℤ} (h : ¬ Fits z) : chk z = .error .panic := if_neg h

theorem total_ok : ∀ (x : List ℤ) (a : ℤ), 0 ≤ a → (∀ j ∈ x, 0 ≤ j) → a + x.sum ≤ 2 ^ 31 - 1 → x.foldlM add a = .ok (a + x.sum)
  | [], a, _, _, _ => by simp [pure, Except.pure]
  | j :: x, a, ha, hx, hs => by
    have hj := hx j (by simp)
    have hn : 0 ≤ x.sum := List.sum_nonneg fun i hi => hx i (by simp [hi])
    rw [List.sum_cons] at hs
    rw [Multi.foldlM_cons']
    have : add a j = .ok (a + j) := chk_ok (by unfold Fits; omega)
    rw [this]
    simp only [bind, Except.bind]
    rw [total_ok x (a + j) (by omega) (fun i hi => hx i (by simp [hi])) (by omega), List.sum_cons]
    congr 1
    ring

theorem total_panic : ∀ (x : List ℤ) (a : ℤ), 0 ≤ a → (∀ j ∈ x, 0 ≤ j) → a ≤ 2 ^ 31 - 1 → 2 ^ 31 - 1 < a + x.sum →
    x.foldlM add a = .error .panic
  | [], a, _, _, h1, h2 => by simp at h2; omega
  | j :: x, a, ha, hx, h1, h2 => by
    have hj := hx j (by simp)
    rw [Multi.foldlM_cons']
    by_cases hf : a + j ≤ 2 ^ 31 - 1
    · have : add a j = .ok (a + j) := chk_ok (by unfold Fits; omega)
      rw [this]
      simp only [bind, Except.bind]
      rw [List.sum_cons] at h2
      exact total_panic x (a + j) (by omega) (fun i hi => hx i (by simp [hi])) hf (by omega)
    · have : add a j = .error .panic := chk_panic (by unfold Fits; omega)
      rw [this]
      rfl

end I32

/-- **C105** (totals) The total of a non-negative configuration is exact up to the largest `i32`, and a panic beyond. -/
theorem C105_total (x : List ℤ) (hx : ∀ j ∈ x, 0 ≤ j) :
    I32.total x = if x.sum ≤ 2 ^ 31 - 1 then .ok x.sum else .error .panic := by
  unfold I32.total
  split
  · rename_i h
    rw [I32.total_ok x 0 le_rfl hx (by omega), zero_add]
  · rename_i h
    exact I32.total_panic x 0 le_rfl hx (by norm_num) (by omega)

/-- **C105** (time) For slots from 1 on, shifting is exact as long as the sum of both slots is an `i32`, a panic beyond; shifting back
is always exact. -/
theorem C105_time (t s : ℤ) (ht : 1 ≤ t) (hs : 1 ≤ s) (ft : I32.Fits t) (fs : I32.Fits s) :
    I32.shiftTime t s = (if t + s ≤ 2 ^ 31 - 1 then .ok (Soco.shiftTime t s) else .error .panic) ∧
    I32.unshiftTime t s = .ok (Soco.unshiftTime t s) := by
  unfold I32.Fits at ft fs
  constructor
  · unfold I32.shiftTime I32.add
    split
    · rw [I32.chk_ok (by unfold I32.Fits; omega)]
      exact I32.chk_ok (by unfold I32.Fits; omega)
    · rw [I32.chk_panic (by unfold I32.Fits; omega)]
      rfl
  · unfold I32.unshiftTime I32.sub
    rw [I32.chk_ok (by unfold I32.Fits; omega)]
    exact I32.chk_ok (by unfold I32.Fits; omega)

variable {C D : Type} [OutSuccess C] [OutFailure D]

namespace Uni

/-- All values of a schedule lie within the bound. -/
def Within (m : ℤ) (xs : Schedule ℤ) : Prop := ∀ x ∈ xs, ∃ j, x = [j] ∧ 0 ≤ j ∧ j ≤ m

/-- All paths found so far lie within the bound. -/
def PathsWithin (m : ℤ) (paths : Paths Vertex) : Prop := ∀ v path, paths v = some path → Within m path.xs

theorem subpath_within {p : SSCO ℤ C D} {m : ℤ} {t : Int} {src : List ℤ} {alpha : ℚ} {inverted : Bool} {paths paths' : Paths Vertex}
    {j : ℤ} (h0 : 0 ≤ j) (h1 : j ≤ m) (hp : PathsWithin m paths)
    (h : findShortestSubpath p t src alpha inverted paths j = .ok paths') : PathsWithin m paths' := by
  unfold findShortestSubpath at h
  simp only [bind, Except.bind] at h
  cases hf : idx src 0 with
  | error e => rw [hf] at h; simp at h
  | ok first =>
    rw [hf] at h
    simp only at h
    cases hk : src.foldlM (pickSource p paths t j alpha inverted) (first, ⊤) with
    | error e => rw [hk] at h; simp at h
    | ok picked =>
      rw [hk] at h
      simp only [updatePaths, bind, Except.bind, Paths.at] at h
      cases hv : paths (t - 1, picked.1) with
      | none => rw [hv] at h; simp at h
      | some prev =>
        rw [hv] at h
        simp only at h
        injection h with h
        subst h
        intro v path hpath
        unfold Paths.insert at hpath
        split at hpath
        · injection hpath with hpath
          subst hpath
          intro x hx
          simp only [Schedule.extend, List.mem_append, List.mem_singleton] at hx
          rcases hx with hx | rfl
          · exact hp _ _ hv x hx
          · exact ⟨j, rfl, h0, h1⟩
        · exact hp v path hpath

theorem findSchedule_within {p : SSCO ℤ C D} {m : ℤ} {rows : Int → Res (List ℤ)}
    (hr : ∀ t r, rows t = .ok r → ∀ j ∈ r, 0 ≤ j ∧ j ≤ m) {alpha : ℚ} {inverted : Bool} {xStart : ℤ} {path : Path}
    (h : findSchedule p rows alpha inverted xStart = .ok path) : Within m path.xs := by
  have hsub : ∀ (t : Int) (src r : List ℤ), (∀ j ∈ r, 0 ≤ j ∧ j ≤ m) → ∀ paths paths', PathsWithin m paths →
      r.foldlM (findShortestSubpath p t src alpha inverted) paths = .ok paths' → PathsWithin m paths' := by
    intro t src r
    induction r with
    | nil => intro _ paths paths' hp h; cases h; exact hp
    | cons j r ih =>
      intro hj paths paths' hp h
      rw [Multi.foldlM_cons'] at h
      cases hf : findShortestSubpath p t src alpha inverted paths j with
      | error e => rw [hf] at h; cases h
      | ok q =>
        rw [hf] at h
        obtain ⟨a1, a2⟩ := hj j (by simp)
        exact ih (fun i hi => hj i (by simp [hi])) q paths' (subpath_within a1 a2 hp hf) h
  have hslots : ∀ (ts : List Int) s s', PathsWithin m s.1 → ts.foldlM (slot p rows alpha inverted) s = .ok s' →
      PathsWithin m s'.1 := by
    intro ts
    induction ts with
    | nil => intro s s' hp h; cases h; exact hp
    | cons t ts ih =>
      intro s s' hp h
      rw [Multi.foldlM_cons'] at h
      cases hf : slot p rows alpha inverted s t with
      | error e => rw [hf] at h; cases h
      | ok q =>
        rw [hf] at h
        refine ih q s' ?_ h
        unfold slot at hf
        cases hrow : rows t with
        | error e => rw [hrow] at hf; cases hf
        | ok r =>
          rw [hrow] at hf
          simp only [bind, Except.bind] at hf
          cases hg : r.foldlM (findShortestSubpath p t s.2 alpha inverted) s.1 with
          | error e => rw [hg] at hf; cases hf
          | ok q' =>
            rw [hg] at hf
            cases hf
            exact hsub t s.2 r (hr t r hrow) _ _ hp hg
  have hend : ∀ (paths : Paths Vertex), PathsWithin m paths → ∀ (r : List ℤ) (a b : Path), Within m a.xs →
      r.foldlM (pickEnd p.tEnd paths) a = .ok b → Within m b.xs := by
    intro paths hp r
    induction r with
    | nil => intro a b ha h; cases h; exact ha
    | cons i r ih =>
      intro a b ha h
      rw [Multi.foldlM_cons'] at h
      unfold pickEnd Paths.at at h
      cases hv : paths (p.tEnd, i) with
      | none => rw [hv] at h; cases h
      | some q =>
        rw [hv] at h
        simp only [bind, Except.bind] at h
        refine ih _ _ ?_ h
        split
        · exact hp _ _ hv
        · exact ha
  unfold findSchedule at h
  simp only [bind, Except.bind] at h
  split at h
  · cases h
  · rename_i s hs
    refine hend _ (hslots _ _ _ ?_ hs) _ _ _ ?_ h
    · intro v q hq
      unfold Paths.insert at hq
      dsimp only at hq
      split at hq
      · cases hq
        intro x hx
        simp at hx
      · cases hq
    · intro x hx
      simp at hx

theorem initialRows32_ok {m : ℤ} (h0 : 0 < m) (h : m ≤ 2 ^ 28) : initialRows32 m = .ok (initialRows m) := by
  unfold initialRows32 initialRows I32.mul
  simp only [List.mapM_cons, List.mapM_nil, bind, Except.bind, pure, Except.pure, List.map_cons, List.map_nil]
  rw [I32.chk_ok (by unfold I32.Fits; omega), I32.chk_ok (by unfold I32.Fits; omega), I32.chk_ok (by unfold I32.Fits; omega),
    I32.chk_ok (by unfold I32.Fits; omega), I32.chk_ok (by unfold I32.Fits; omega)]

theorem initialRows32_panic {m : ℤ} (h : 2 ^ 29 ≤ m) (h1 : m ≤ 2 ^ 31 - 1) : initialRows32 m = .error .panic := by
  unfold initialRows32 I32.mul
  simp only [List.mapM_cons, List.mapM_nil, bind, Except.bind, pure, Except.pure]
  rw [I32.chk_ok (by unfold I32.Fits; omega), I32.chk_ok (by unfold I32.Fits; omega), I32.chk_panic (z := 4 * m) (by unfold I32.Fits; omega)]
  simp only
  rcases h2 : I32.chk (2 * m) with e | z
  · unfold I32.chk at h2
    split at h2 <;> cases h2
    rfl
  · rcases h3 : I32.chk (3 * m) with e | z'
    · unfold I32.chk at h3
      split at h3 <;> cases h3
      rfl
    · rfl

theorem nextRows32_ok {m : ℤ} (hm : m ≤ 2 ^ 28) {k : Nat} (hk : k ≤ 26) {xs : Schedule ℤ} (hx : Within m xs) (t : Int) :
    nextRows32 m xs k t = nextRows m xs k t := by
  unfold nextRows32 nextRows
  cases hi : idx xs (t.toNat - 1) with
  | error e => rfl
  | ok x =>
    have hmem : x ∈ xs := by
      unfold idx at hi
      split at hi
      · rename_i a ha
        cases hi
        exact List.mem_of_getElem? ha
      · cases hi
    obtain ⟨j, rfl, j0, j1⟩ := hx x hmem
    have hp : (2 : ℤ) ^ k ≤ 2 ^ 26 := pow_le_pow_right₀ (by norm_num) hk
    have hp0 : (0 : ℤ) < 2 ^ k := by positivity
    simp only [bind, Except.bind, idx, List.getElem?_cons_zero]
    have hrow : ∀ e ∈ ([-2, -1, 0, 1, 2] : List ℤ), nextRow32 j k e = .ok (j + e * 2 ^ k) := by
      intro e he
      have he' : e = -2 ∨ e = -1 ∨ e = 0 ∨ e = 1 ∨ e = 2 := by simpa using he
      unfold nextRow32 I32.pow2 I32.mul I32.add
      rw [I32.chk_ok (by unfold I32.Fits; omega)]
      simp only [bind, Except.bind]
      have e1 : I32.Fits (e * 2 ^ k) := by unfold I32.Fits; rcases he' with rfl | rfl | rfl | rfl | rfl <;> omega
      rw [I32.chk_ok e1]
      simp only
      exact I32.chk_ok (by unfold I32.Fits; rcases he' with rfl | rfl | rfl | rfl | rfl <;> omega)
    simp only [List.mapM_cons, List.mapM_nil, bind, Except.bind, pure, Except.pure]
    rw [hrow (-2) (by simp), hrow (-1) (by simp), hrow 0 (by simp), hrow 1 (by simp), hrow 2 (by simp)]
    simp only [List.map_cons, List.map_nil]

theorem rows_initial {m : ℤ} (hm : 0 ≤ m) : ∀ j ∈ initialRows m, 0 ≤ j ∧ j ≤ m := by
  intro j hj
  exact (rowsAt_initial hm 1).2 j hj

theorem rows_next {m : ℤ} {xs : Schedule ℤ} {k : Nat} : ∀ t r, nextRows m xs k t = .ok r → ∀ j ∈ r, 0 ≤ j ∧ j ≤ m := by
  intro t r hr
  have := (rowsAt_next m xs k t).2
  unfold rowsAt at this
  rw [hr] at this
  exact this

theorem search32_ok {p : SSCO ℤ C D} {m : ℤ} (h0 : 0 < m) (hm : m ≤ 2 ^ 28) (alpha : ℚ) (inverted : Bool) (xStart : ℤ) :
    search32 p m alpha inverted xStart = search p m alpha inverted xStart := by
  unfold search32 search
  rw [initialRows32_ok h0 hm]
  cases hf : findSchedule p (fun _ => .ok (initialRows m)) alpha inverted xStart with
  | error e => rfl
  | ok path =>
    have hw : Within m path.xs := findSchedule_within (fun t r hr => by cases hr; exact rows_initial h0.le) hf
    have hks : ∀ k ∈ (List.range (kInit m)).reverse, k ≤ 26 := by
      intro k hk
      rw [List.mem_reverse, List.mem_range] at hk
      unfold kInit at hk
      split at hk
      · have : Nat.log 2 m.toNat ≤ Nat.log 2 (2 ^ 28) := Nat.log_mono_right (by omega)
        rw [Nat.log_pow (by omega)] at this
        omega
      · omega
    simp only [bind, Except.bind]
    revert hw hks
    generalize (List.range (kInit m)).reverse = ks
    clear hf
    induction ks generalizing path with
    | nil => intro _ _; rfl
    | cons k ks ih =>
      intro hw hks
      rw [Multi.foldlM_cons', Multi.foldlM_cons']
      have : nextRows32 m path.xs k = nextRows m path.xs k := funext fun t => nextRows32_ok hm (hks k (by simp)) hw t
      rw [this]
      cases hg : findSchedule p (nextRows m path.xs k) alpha inverted xStart with
      | error e => rfl
      | ok path' => exact ih path' (findSchedule_within rows_next hg) fun i hi => hks i (by simp [hi])

end Uni

open Uni in
/-- **C105** (graph search) The one-dimensional search on `i32` is exact for bounds up to `2^28`. -/
theorem C105_search (p : SSCO ℤ C D) (m : ℤ) (h0 : 0 < m) (hm : m ≤ 2 ^ 28) (hb : p.bounds = [m]) (xStart : ℤ) (o : OfflineOptions) :
    optimalGraphSearch32 p xStart o = Uni.optimalGraphSearch p xStart o := by
  have hc : Nat.clog 2 m.toNat ≤ 28 := by
    rw [← Nat.clog_pow 2 28 (by omega)]
    exact Nat.clog_mono_right _ (by omega)
  have hpw : (2 : ℤ) ^ Nat.clog 2 m.toNat ≤ 2 ^ 28 := pow_le_pow_right₀ (by norm_num) hc
  have hp0 : (0 : ℤ) < 2 ^ Nat.clog 2 m.toNat := by positivity
  unfold optimalGraphSearch32 Uni.optimalGraphSearch roundBound32 roundBound
  simp only [hb, idx, List.getElem?_cons_zero, bind, Except.bind]
  by_cases hp : isPowOf2 m.toNat = true
  · simp only [hp, if_true, hb, List.getElem?_cons_zero]
    rw [search32_ok h0 hm]
  · have h1 : I32.pow2 (Nat.clog 2 m.toNat) = .ok (2 ^ Nat.clog 2 m.toNat) := I32.chk_ok (by unfold I32.Fits; omega)
    simp only [hp, h1, makePowOf2, hb, idx, bind, Except.bind, List.getElem?_cons_zero, Bool.false_eq_true, if_false, powBound]
    rw [search32_ok hp0 hpw]

open Uni in
/-- **C105** (graph search) For larger bounds it panics (as soon as there is a slot): four times the bound, rounded to a power of two,
overflows. -/
theorem C105_search_overflow (p : SSCO ℤ C D) (m : ℤ) (hm : 2 ^ 28 < m) (hf : I32.Fits m) (hb : p.bounds = [m]) (hd : p.d = 1)
    (hT : 1 ≤ p.tEnd) (xStart : ℤ) (o : OfflineOptions) (hl : o.l = none) :
    optimalGraphSearch32 p xStart o = .error .panic := by
  have hpanic : ∀ (q : SSCO ℤ C D) (M : ℤ), q.tEnd = p.tEnd → 2 ^ 29 ≤ M → M ≤ 2 ^ 31 - 1 →
      search32 q M o.alpha o.inverted xStart = .error .panic := by
    intro q M hq h1 h2
    obtain ⟨n, hn⟩ : ∃ n : Nat, (p.tEnd - 1 + 1).toNat = n + 1 := ⟨(p.tEnd - 1 + 1).toNat - 1, by omega⟩
    have hfirst : findSchedule q (fun _ => initialRows32 M) o.alpha o.inverted xStart = .error .panic := by
      unfold findSchedule timeRange
      rw [hq, hn, List.range_succ_eq_map, List.map_cons]
      simp only [Multi.foldlM_cons', slot, initialRows32_panic h1 h2, bind, Except.bind]
    unfold search32
    rw [hfirst]
    rfl
  unfold I32.Fits at hf
  unfold optimalGraphSearch32 roundBound32
  simp only [hl, hd, hb, idx, List.getElem?_cons_zero, bind, Except.bind, Option.isNone_none, decide_true, assertR, if_true]
  by_cases hp : isPowOf2 m.toNat = true
  · simp only [hp, if_true, hb, List.getElem?_cons_zero]
    refine hpanic p m rfl ?_ (by omega)
    obtain ⟨k, hk⟩ := (C13_is_pow_of_2 _).1 hp
    have hk29 : 29 ≤ k := by
      by_contra hc
      have : 2 ^ k ≤ 2 ^ 28 := Nat.pow_le_pow_right (by omega) (by omega)
      omega
    have : 2 ^ 29 ≤ 2 ^ k := Nat.pow_le_pow_right (by omega) hk29
    omega
  · have hc : 29 ≤ Nat.clog 2 m.toNat := by
      by_contra hc
      have h1 := Nat.le_pow_clog (b := 2) (by omega) m.toNat
      have h2 : 2 ^ Nat.clog 2 m.toNat ≤ 2 ^ 28 := Nat.pow_le_pow_right (by omega) (by omega)
      omega
    have hge : (2 : ℤ) ^ 29 ≤ 2 ^ Nat.clog 2 m.toNat := pow_le_pow_right₀ (by norm_num) hc
    by_cases hfit : (2 : ℤ) ^ Nat.clog 2 m.toNat ≤ 2 ^ 31 - 1
    · have h1 : I32.pow2 (Nat.clog 2 m.toNat) = .ok (2 ^ Nat.clog 2 m.toNat) := I32.chk_ok (by unfold I32.Fits; omega)
      simp only [hp, h1, makePowOf2, hb, idx, bind, Except.bind, List.getElem?_cons_zero, Bool.false_eq_true, if_false, powBound]
      exact hpanic _ _ rfl hge hfit
    · have h1 : I32.pow2 (Nat.clog 2 m.toNat) = .error .panic := I32.chk_panic (by unfold I32.Fits; omega)
      simp only [hp, h1, Bool.false_eq_true, if_false]

namespace Lb

theorem updateLane32_ok {p : SLO ℤ} {t : Int} (ht : 1 ≤ t) {gamma : ℚ} {randomized : Bool} (hg : 0 ≤ gamma)
    (hb : ∀ b ∈ p.switchingCost, 0 ≤ b) (hl : ∀ l ∈ p.hittingCost, 0 ≤ l)
    (hq : ∀ (k : Nat) (b l : ℚ), p.switchingCost[k]? = some b → p.hittingCost[k]? = some l → l ≠ 0 →
      t + ⌊(if randomized then gamma else 1) * b / l⌋ ≤ 2 ^ 31 - 1)
    (hT : t ≤ 2 ^ 31 - 1) (pl : List Nat) (ph : List Int) (ol : List Nat) (j : Nat) :
    updateLane32 p t gamma randomized pl ph ol j = updateLane p t gamma randomized pl ph ol j := by
  unfold updateLane32 updateLane
  simp only [bind, Except.bind]
  cases idx pl j with
  | error e => rfl
  | ok a =>
    cases idx ol j with
    | error e => rfl
    | ok k =>
      cases idx ph j with
      | error e => rfl
      | ok c =>
        simp only
        unfold nextTimeHorizon32 nextTimeHorizon
        by_cases hk : k = 0
        · simp only [hk, if_true]
          rw [show I32.add t 0 = .ok (t + 0) from I32.chk_ok (by unfold I32.Fits; omega)]
        · simp only [hk, if_false, bind, Except.bind, idx]
          cases hb' : p.switchingCost[k - 1]? with
          | none => rfl
          | some b =>
            cases hl' : p.hittingCost[k - 1]? with
            | none => rfl
            | some l =>
              simp only
              by_cases h0 : l = 0
              · simp only [h0, if_true]
                rw [show I32.add t (2 ^ 31 - 1) = .error .panic from I32.chk_panic (by unfold I32.Fits; omega)]
              · simp only [h0, if_false]
                have h1 := hq _ b l hb' hl' h0
                have h2 : 0 ≤ ⌊(if randomized = true then gamma else 1) * b / l⌋ := by
                  apply Int.floor_nonneg.2
                  have e1 := hb b (List.mem_of_getElem? hb')
                  have e2 := hl l (List.mem_of_getElem? hl')
                  have e3 : (0 : ℚ) ≤ if randomized = true then gamma else 1 := by split <;> first | exact hg | norm_num
                  positivity
                have h3 : I32.sat ⌊(if randomized = true then gamma else 1) * b / l⌋ =
                    ⌊(if randomized = true then gamma else 1) * b / l⌋ := by
                  unfold I32.sat
                  omega
                rw [h3, show I32.add t ⌊(if randomized = true then gamma else 1) * b / l⌋ =
                  .ok (t + ⌊(if randomized = true then gamma else 1) * b / l⌋) from I32.chk_ok (by unfold I32.Fits; omega)]

end Lb

/-- **C105** (lazy budgeting) A step of lazy budgeting on `i32` is exact if the total number of servers is an `i32` and so are the
slots until which servers are kept. (Hitting costs of zero abort both.) -/
theorem C105_lazy_budgeting (S : Num.Solver) (randomized : Bool) (o : Online (SLO ℤ)) (t : Int) (xs : Schedule ℤ) (m : Lb.Memory)
    (ht : 1 ≤ t) (hT : t ≤ 2 ^ 31 - 1) (hu : ∀ u ∈ o.p.bounds, 0 ≤ u) (hs : o.p.bounds.sum ≤ 2 ^ 31 - 1) (hg : 0 ≤ m.gamma)
    (hb : ∀ b ∈ o.p.switchingCost, 0 ≤ b) (hl : ∀ l ∈ o.p.hittingCost, 0 ≤ l)
    (hq : ∀ (k : Nat) (b l : ℚ), o.p.switchingCost[k]? = some b → o.p.hittingCost[k]? = some l → l ≠ 0 →
      t + ⌊(if randomized then m.gamma else 1) * b / l⌋ ≤ 2 ^ 31 - 1) :
    Lb.lb32 S randomized o t xs m = Lb.lb S randomized o t xs m := by
  unfold Lb.lb32 Lb.lb
  rw [C105_total _ hu, if_pos hs]
  have : ∀ ol, Lb.updateLane32 o.p t m.gamma randomized m.lanes m.horizons ol = Lb.updateLane o.p t m.gamma randomized m.lanes
      m.horizons ol := fun ol => funext fun j => Lb.updateLane32_ok ht hg hb hl hq hT _ _ _ _
  simp only [this, bind, Except.bind]

/-- **C105** (lazy budgeting) If a server type is kept beyond the largest `i32` the update of its lane panics, although the number of
slots saturates. -/
theorem C105_horizon_overflow (p : SLO ℤ) (t : Int) (ht : 1 ≤ t) (gamma : ℚ) (randomized : Bool) (pl : List Nat)
    (ph : List Int) (ol : List Nat) (j k : Nat) (hk : 0 < k) (b l : ℚ) (hj1 : j < pl.length) (hj2 : j < ph.length)
    (ho : ol[j]? = some k) (hb : p.switchingCost[k - 1]? = some b) (hl : p.hittingCost[k - 1]? = some l) (hl0 : l ≠ 0)
    (hq : 2 ^ 31 - 1 < t + ⌊(if randomized then gamma else 1) * b / l⌋) :
    Lb.updateLane32 p t gamma randomized pl ph ol j = .error .panic := by
  unfold Lb.updateLane32 Lb.nextTimeHorizon32
  simp only [idx, ho, hb, hl, List.getElem?_eq_getElem hj1, List.getElem?_eq_getElem hj2, bind, Except.bind,
    show k ≠ 0 by omega, hl0, if_false]
  rw [show I32.add t (I32.sat ⌊(if randomized = true then gamma else 1) * b / l⌋) = .error .panic from
    I32.chk_panic (by unfold I32.Fits I32.sat; omega)]

/-! ## Concrete cases -/

section Example

private def ex32 (m : ℤ) : SSCO ℤ Unit Unit :=
  { d := 1, tEnd := 2, bounds := [m], switchingCost := [3]
    hittingCost := CostFn.new 1 (SingleCostFn.certain fun _ x => .ok (Cost.raw (((((x.getD 0 0 - 4) ^ 2 : ℤ) : ℚ) : ECost)))) }

/-- A bound of one million is fine, one of three hundred million is not. -/
example : Uni.optimalGraphSearch32 (ex32 1000000) 0 ⟨false, 1, none⟩ = Uni.optimalGraphSearch (ex32 1000000) 0 ⟨false, 1, none⟩ ∧
    Uni.optimalGraphSearch32 (ex32 300000000) 0 ⟨false, 1, none⟩ = .error .panic :=
  ⟨C105_search _ 1000000 (by norm_num) (by norm_num) rfl _ _,
    C105_search_overflow _ 300000000 (by norm_num) (by unfold I32.Fits; norm_num) rfl rfl (by decide) _ _ rfl⟩

/-- A switching cost of `2^31` at a cost of one per slot: the horizon overflows in the first slot. -/
example : Lb.updateLane32 ⟨1, 1, [1], [2 ^ 31], [1], [1]⟩ 1 1 false [0] [0] [1] 0 = .error .panic :=
  C105_horizon_overflow _ 1 (by norm_num) 1 false [0] [0] [1] 0 1 (by norm_num) (2 ^ 31) 1 (by simp) (by simp) rfl rfl rfl
    (by norm_num) (by norm_num)

end Example

end Soco
