import Verif.Props.Best
import Verif.Props.LazyOne

/-!
# C117: two is the best factor for load problems

An adversary sends a job whenever the algorithm has no active server. The algorithm pays for powering up each time, or
for an idle server; a server which is always active and a server which is active for jobs only together pay hardly more.
-/

namespace Soco

namespace Spec

/-- An online algorithm for load problems with one server type which is guaranteed to stay within `c` times the cost of
any schedule, plus `K`: for all valid instances which reveal the loads slot by slot, the algorithm decides in every slot,
its schedule is feasible and handles all loads, and its cost `a` and the cost `b` of any feasible schedule which handles
all loads satisfy `a ≤ c * b + K`. -/
def CompetitiveLoad {M : Type} (A : OnlineAlgorithm (SLO ℤ) ℤ M) (c K : ℚ) : Prop :=
  ∀ (m : ℤ) (e β : ℚ) (ps : List (SLO ℤ)) (p : SLO ℤ), 0 < e → Lb.ShownOne m e β ps → ps.getLast? = some p →
    ∃ xs mem, play SLO.tEnd A [] none (ps.map fun p => ⟨p, 0⟩) = .ok (xs, mem) ∧ InSpace p.tEnd p.bounds xs ∧
      ∃ a : ℚ, loadTotal p xs = (a : ECost) ∧
        ∀ zs (b : ℚ), InSpace p.tEnd p.bounds zs → loadTotal p zs = (b : ECost) → a ≤ c * b + K

end Spec

namespace Best
open Spec Lb

/-- The load problem of the adversary, seen up to slot `n`. -/
def loadAt (e : ℚ) (ls : List ℤ) (n : Nat) : SLO ℤ where
  d := 1
  tEnd := n
  bounds := [1]
  switchingCost := [1]
  hittingCost := [e]
  load := ls.take n

theorem loadAt_one {e : ℚ} (he : 0 ≤ e) {ls : List ℤ} (h : ∀ l ∈ ls, l = 0 ∨ l = 1) {n : Nat} (hn : n ≤ ls.length) :
    OneType 1 e 1 (loadAt e ls n) := by
  have hl : ∀ l ∈ ls.take n, l = 0 ∨ l = 1 := fun l hl => h l (List.mem_of_mem_take hl)
  refine ⟨(C10_slo_verify_exact _ (by show (1 : ℤ) ≤ 1; exact le_rfl)).1 ⟨by show (0 : ℤ) < 1; decide,
    by show (0 : ℤ) ≤ n; omega, rfl, rfl, ?_, ?_, ?_, ?_, ?_, ?_, ?_⟩, rfl, rfl, rfl, rfl, ?_⟩
  · show (n : ℤ) ≤ ((ls.take n).length : ℤ)
    rw [List.length_take]; omega
  · intro u hu
    obtain rfl := List.mem_singleton.1 hu
    norm_num
  · intro u hu
    obtain rfl := List.mem_singleton.1 hu
    norm_num
  · intro k hk c hc
    have h0 : k = 0 := by have : (k : ℤ) < 1 := hk; omega
    subst h0
    have : e = c := by simpa [loadAt] using hc
    rw [← this]; exact he
  · intro k l hkl hl1
    have : (l : ℤ) < 1 := hl1
    omega
  · exact List.pairwise_singleton _ _
  · intro t _ l hl'
    have := hl l (List.mem_of_getElem? hl')
    omega
  · intro l hl'
    have := hl l hl'
    omega

/-- The instances shown in all slots. -/
def shownLoad (e : ℚ) (ls : List ℤ) : List (SLO ℤ) := (List.range ls.length).map fun k => loadAt e ls (k + 1)

theorem shownLoad_ok {e : ℚ} (he : 0 ≤ e) {ls : List ℤ} (h : ∀ l ∈ ls, l = 0 ∨ l = 1) : ShownOne 1 e 1 (shownLoad e ls) := by
  refine ⟨?_, ?_, ?_⟩
  · intro p hp
    obtain ⟨k, hk, rfl⟩ := List.mem_map.1 hp
    exact loadAt_one he h (by have := List.mem_range.1 hk; omega)
  · rw [List.pairwise_iff_getElem]
    intro i j hi hj hij
    have hj' : j < ls.length := by simpa [shownLoad] using hj
    simp only [shownLoad, List.getElem_map, List.getElem_range]
    refine ⟨rfl, rfl, rfl, rfl, by show ((i + 1 : ℕ) : ℤ) ≤ ((j + 1 : ℕ) : ℤ); omega, ?_⟩
    intro t h1 h2
    have h2' : t ≤ ((i + 1 : ℕ) : ℤ) := h2
    have e1 : ∀ n, n ≤ ls.length → (loadAt e ls n).load.length = n := fun n hn => by
      simp [loadAt]; omega
    unfold access
    rw [e1 _ (by omega), e1 _ (by omega), if_pos ⟨h1, h2'⟩, if_pos ⟨h1, by omega⟩]
    simp only [loadAt]
    rw [List.getElem?_take_of_lt (by omega), List.getElem?_take_of_lt (by omega)]
  · intro k p hp
    obtain ⟨hk, rfl⟩ := List.getElem?_eq_some_iff.1 hp
    simp only [shownLoad, List.getElem_map, List.getElem_range]
    show ((k + 1 : ℕ) : ℤ) = k + 1
    push_cast; rfl

theorem shownLoad_snoc (e : ℚ) (ls : List ℤ) (l : ℤ) :
    shownLoad e (ls ++ [l]) = shownLoad e ls ++ [loadAt e (ls ++ [l]) (ls.length + 1)] := by
  rw [shownLoad, List.length_append, List.length_singleton, List.range_succ, List.map_append, List.map_singleton, shownLoad]
  congr 1
  apply List.map_congr_left
  intro k hk
  have := List.mem_range.1 hk
  rw [loadAt, loadAt, List.take_append_of_le_length (by omega)]

theorem states_mem {bits : List Bool} : ∀ l ∈ states bits, l = 0 ∨ l = 1 := by
  intro l hl
  obtain ⟨b, _, rfl⟩ := List.mem_map.1 hl
  cases b <;> simp

theorem states_length (bits : List Bool) : (states bits).length = bits.length := by simp [states]

theorem shownLoad_last (e : ℚ) {ls : List ℤ} (h : ls ≠ []) : (shownLoad e ls).getLast? = some (loadAt e ls ls.length) := by
  have : ls.length ≠ 0 := by simpa using h
  rw [shownLoad, List.getLast?_map, List.getLast?_range, if_neg this]
  simp only [Option.map_some]
  congr 2
  omega

/-- The adversary forces its loads upon any algorithm that always decides. -/
theorem forceLoad {M : Type} (A : OnlineAlgorithm (SLO ℤ) ℤ M) (c K : ℚ) (h : CompetitiveLoad A c K) (e : ℚ) (he : 0 < e) :
    ∀ n : Nat, ∃ (js : List ℤ) (mem : Option M), js.length = n ∧ (∀ j ∈ js, j = 0 ∨ j = 1) ∧
      Spec.play SLO.tEnd A [] none ((shownLoad e (states (opp 0 js))).map fun p => ⟨p, 0⟩)
        = .ok (js.map fun j => [j], mem) := by
  intro n
  induction n with
  | zero => exact ⟨[], none, rfl, by simp, rfl⟩
  | succ n ih =>
    obtain ⟨js, mem, h1, h2, h3⟩ := ih
    set b := decide (js.getLastD 0 = 0) with hb
    have hne : states (opp 0 js ++ [b]) ≠ [] := by simp [states]
    have hl : (states (opp 0 js ++ [b])).length = n + 1 := by simp [states_length, opp_length, h1]
    obtain ⟨xs, mem', p1, p2, _⟩ := h 1 e 1 (shownLoad e (states (opp 0 js ++ [b]))) _ he
      (shownLoad_ok he.le states_mem) (shownLoad_last e hne)
    obtain ⟨ks, rfl, hk⟩ := space_line (m := 1) p2.2
    have hkl : ks.length = n + 1 := by
      have := p2.1
      rw [List.length_map] at this
      have e1 : (loadAt e (states (opp 0 js ++ [b])) (states (opp 0 js ++ [b])).length).tEnd = ((n + 1 : ℕ) : ℤ) := by
        show (((states (opp 0 js ++ [b])).length : ℕ) : ℤ) = _
        rw [hl]
      rw [e1] at this
      exact_mod_cast this
    have p1' := p1
    have e1 : states (opp 0 js ++ [b]) = states (opp 0 js) ++ [if b then 1 else 0] := by simp [states]
    rw [e1, shownLoad_snoc, List.map_append, play_append, h3] at p1'
    obtain ⟨zs, hz⟩ := play_extends _ _ _ _ _ _ _ p1'
    have hks : ∃ cs, ks = js ++ cs := by
      refine ⟨ks.drop js.length, ?_⟩
      have e1 := congrArg (List.take js.length) hz
      rw [List.take_append_of_le_length (by simp), ← List.map_take, ← List.map_take, List.take_of_length_le le_rfl] at e1
      have inj : Function.Injective fun j : ℤ => [j] := fun a b hab => by simpa using hab
      have e2 : ks.take js.length = js := List.map_injective_iff.2 inj e1
      conv_lhs => rw [← List.take_append_drop js.length ks, e2]
    obtain ⟨cs, rfl⟩ := hks
    obtain ⟨y, rfl⟩ : ∃ y, cs = [y] := List.length_eq_one_iff.1 (by simp at hkl; omega)
    refine ⟨js ++ [y], mem', hkl, fun j hj => by have := hk j hj; omega, ?_⟩
    rw [opp_snoc]; exact p1

/-- Lower bound on what the algorithm pays. -/
theorem line_alg {e : ℚ} (he : 0 ≤ e) : ∀ (js : List ℤ) (x : ℤ), (x = 0 ∨ x = 1) → (∀ j ∈ js, j = 0 ∨ j = 1) →
    List.Forall₂ (· ≤ ·) (states (opp x js)) js →
    e * js.length + (1 - e) * ups x js - e * x ≤ lineCost e 1 x js
  | [], x, hx, _, _ => by
    rcases hx with rfl | rfl <;> simp [ups, lineCost]
    exact he
  | y :: ys, x, hx, h, hc => by
    have hy := h y (by simp)
    simp only [opp, states, List.map_cons, List.forall₂_cons] at hc
    have := line_alg he ys y hy (fun j hj => h j (by simp [hj])) hc.2
    have h1 := hc.1
    simp only [ups, lineCost, List.length_cons]
    push_cast at this ⊢
    rcases hx with rfl | rfl <;> rcases hy with rfl | rfl
    · exact absurd h1 (by decide)
    all_goals norm_num at this ⊢
    all_goals linarith

/-- A server which is active for jobs only. -/
theorem line_jobs {e : ℚ} (he : 0 ≤ e) : ∀ (js : List ℤ) (x z : ℤ), (x = 0 ∨ x = 1) → 0 ≤ z → (∀ j ∈ js, j = 0 ∨ j = 1) →
    List.Forall₂ (· ≤ ·) (states (opp x js)) js →
    lineCost e 1 z (states (opp x js)) ≤ (1 + e) * ups x js
  | [], x, z, hx, _, _, _ => by simp [ups, lineCost, opp, states]
  | y :: ys, x, z, hx, hz, h, hc => by
    have hy := h y (by simp)
    simp only [opp, states, List.map_cons, List.forall₂_cons] at hc
    have h0 := line_jobs he ys y 0 hy le_rfl (fun j hj => h j (by simp [hj])) hc.2
    have h1 := line_jobs he ys y 1 hy (by norm_num) (fun j hj => h j (by simp [hj])) hc.2
    have h2 := hc.1
    have hz' : (0 : ℚ) ≤ z := by exact_mod_cast hz
    simp only [opp, ups, states, List.map_cons, lineCost] at h0 h1 ⊢
    rcases hx with rfl | rfl <;> rcases hy with rfl | rfl
    · exact absurd h2 (by decide)
    all_goals norm_num at h0 h1 ⊢
    · have : max 0 (1 - (z : ℚ)) ≤ 1 := max_le (by norm_num) (by linarith)
      linarith
    · have : max 0 (-(z : ℚ)) = 0 := max_eq_left (by linarith)
      rw [this]; linarith
    · have : max 0 (-(z : ℚ)) = 0 := max_eq_left (by linarith)
      rw [this]; linarith

theorem line_stay (e : ℚ) : ∀ n : Nat, lineCost e 1 1 (List.replicate n 1) = e * n
  | 0 => by simp [lineCost]
  | n + 1 => by
    rw [List.replicate_succ, lineCost, line_stay e n]
    push_cast; norm_num; ring

theorem line_on (e : ℚ) (n : Nat) : lineCost e 1 0 (List.replicate n 1) ≤ 1 + e * n := by
  cases n with
  | zero => simp [lineCost]
  | succ n =>
    rw [List.replicate_succ, lineCost, line_stay]
    push_cast; norm_num; linarith

theorem line_nonneg {e : ℚ} (he : 0 ≤ e) : ∀ (js : List ℤ) (x : ℤ), (∀ j ∈ js, j = 0 ∨ j = 1) → 0 ≤ lineCost e 1 x js
  | [], _, _ => le_rfl
  | y :: ys, x, h => by
    have h1 := line_nonneg he ys y fun j hj => h j (by simp [hj])
    have h2 : (0 : ℚ) ≤ y := by rcases h y (by simp) with rfl | rfl <;> norm_num
    have h3 := le_max_left (0 : ℚ) ((y : ℚ) - x)
    have := mul_nonneg he h2
    rw [lineCost]; linarith

end Best

open Best Spec Lb in
/-- **C117**. No online algorithm for load problems with one server type is guaranteed to stay within less than twice the
optimum, not even up to an additive constant. -/
theorem C117_best {M : Type} (A : OnlineAlgorithm (SLO ℤ) ℤ M) (c K : ℚ) (h : Spec.CompetitiveLoad A c K) : 2 ≤ c := by
  by_contra hc
  push Not at hc
  set c' := max c 0 with hc'
  have c0 : 0 ≤ c' := le_max_right _ _
  have c2 : c' < 2 := max_lt hc (by norm_num)
  set e : ℚ := (2 - c') / 8 with he
  have e0 : 0 < e := by rw [he]; linarith
  have e1 : e ≤ 1 / 4 := by rw [he]; linarith
  have d0 : 0 < (2 - c') * e := mul_pos (by linarith) e0
  obtain ⟨n, hn⟩ := exists_nat_gt ((2 + 2 * |K|) * 2 / ((2 - c') * e))
  rw [div_lt_iff₀ d0] at hn
  have K0 := abs_nonneg K
  have n0 : 0 < n := by
    rcases Nat.eq_zero_or_pos n with rfl | h0
    · exfalso; simp at hn; linarith
    · exact h0
  obtain ⟨js, mem, h1, h2, h3⟩ := forceLoad A c K h e e0 n
  set ls := states (opp 0 js) with hls
  have hll : ls.length = n := by rw [hls, states_length, opp_length, h1]
  have hne : ls ≠ [] := by intro h0; rw [h0] at hll; simp at hll; omega
  obtain ⟨xs, mem', p1, _, a, p3, p4⟩ := h 1 e 1 (shownLoad e ls) _ e0 (shownLoad_ok e0.le states_mem) (shownLoad_last e hne)
  rw [h3] at p1
  have hx := (Prod.mk.inj (Except.ok.inj p1)).1
  subst hx
  rw [hll] at p3 p4
  have one : OneType 1 e 1 (loadAt e ls n) := loadAt_one e0.le states_mem hll.ge
  have hload : ∀ i, (loadAt e ls n).load.getD i 0 = ls.getD i 0 := fun i => by
    show (ls.take n).getD i 0 = _
    rw [List.take_of_length_le hll.le]
  -- all loads are handled
  have hcov := loadTotal_cover one js (by rw [p3]; exact WithTop.coe_ne_top)
  have hF : List.Forall₂ (· ≤ ·) ls js := by
    rw [List.forall₂_iff_get]
    refine ⟨by rw [hll, h1], fun i a b => ?_⟩
    have := hcov i js[i] (List.getElem?_eq_getElem b)
    rw [hload, List.getD_eq_getElem _ _ a] at this
    exact this
  have ha : a = lineCost e 1 0 js := by
    have := loadTotal_line one js hcov
    rw [p3] at this
    exact WithTop.coe_injective this
  have cmp : ∀ ks : List ℤ, List.Forall₂ (· ≤ ·) ls ks → (∀ j ∈ ks, j = 0 ∨ j = 1) →
      a ≤ c' * lineCost e 1 0 ks + |K| := fun ks k1 k2 => by
    have hkc : ∀ (i : Nat) v, ks[i]? = some v → (loadAt e ls n).load.getD i 0 ≤ v := fun i v hv => by
      obtain ⟨hi, rfl⟩ := List.getElem?_eq_some_iff.1 hv
      have hi' : i < ls.length := by rw [k1.length_eq]; exact hi
      rw [hload, List.getD_eq_getElem _ _ hi']
      exact (List.forall₂_iff_get.1 k1).2 i hi' hi
    have := p4 (ks.map fun j => [j]) _ ⟨by
        rw [List.length_map, ← k1.length_eq, hll]; rfl, fun x hx => by
        obtain ⟨j, hj, rfl⟩ := List.mem_map.1 hx
        have := k2 j hj
        exact List.Forall₂.cons ⟨by omega, by omega⟩ List.Forall₂.nil⟩ (loadTotal_line one ks hkc)
    have q1 := mul_le_mul_of_nonneg_right (le_max_left c 0) (line_nonneg e0.le ks 0 k2)
    have q2 := le_abs_self K
    rw [hc']
    linarith
  have q1 := cmp (List.replicate n 1) (by
    rw [List.forall₂_iff_get]
    refine ⟨by simp [hll], fun i a b => ?_⟩
    have := states_mem ls[i] (List.getElem_mem a)
    simp only [List.get_eq_getElem, List.getElem_replicate]
    omega) fun j hj => .inr (List.eq_of_mem_replicate hj)
  have q2 := cmp ls (List.forall₂_same.2 fun _ _ => le_rfl) states_mem
  have s1 := line_on e n
  have s2 := line_jobs e0.le js 0 0 (.inl rfl) le_rfl h2 hF
  have s3 := line_alg e0.le js 0 (.inl rfl) h2 hF
  have s4 := ups_nonneg 0 js
  rw [← hls] at s2
  rw [h1, ← ha] at s3
  simp only [Int.cast_zero, mul_zero, sub_zero] at s3
  set U := ups 0 js
  have t1 : 2 * a ≤ c' * (1 + e * n + (1 + e) * U) + 2 * |K| := by
    have : c' * (lineCost e 1 0 (List.replicate n 1) + lineCost e 1 0 ls) ≤ c' * (1 + e * n + (1 + e) * U) :=
      mul_le_mul_of_nonneg_left (by linarith) c0
    linarith
  have e2 : c' = 2 - 8 * e := by rw [he]; ring
  rw [e2] at t1 hn
  have : 0 ≤ e * n := by positivity
  nlinarith [mul_nonneg e0.le s4, mul_nonneg e0.le this, mul_nonneg (mul_nonneg e0.le e0.le) s4]

open Spec Lb in
/-- **C117**. Deterministic lazy budgeting has the factor two with one server type. -/
theorem C117_lazy_budgeting (S : Num.Solver) (hS : Spec.Shaped S) (hE : Spec.SolvesEmpty S) (gamma : ℚ) (hg : 0 ≤ gamma) :
    Spec.CompetitiveLoad (alg S gamma false) 2 0 := by
  intro m e β ps p he h hp
  obtain ⟨xs, mem, h1, h2, h3, h4⟩ := C69_two_competitive_partial S hS hE gamma hg m e β he ps h p hp
  obtain ⟨a, ha⟩ := WithTop.ne_top_iff_exists.1 h3
  refine ⟨xs, mem, h1, h2, a, ha.symm, fun zs b hz hb => ?_⟩
  have := h4 zs hz
  rw [hb, ← ha] at this
  have : a ≤ b + b := by exact_mod_cast this
  linarith

/-- The hypothesis of `C117_best` is met by lazy budgeting, with the factor two. -/
example : (2 : ℚ) ≤ 2 := C117_best _ 2 0
  (C117_lazy_budgeting Offline.lazySolver Lb.lazySolver_ok.1 Lb.lazySolver_ok.2 1 (by decide))

end Soco
