import Verif.Lemmas.BudgetStep
import Verif.Props.LazyBudgeting
import Mathlib.Tactic.Linarith
import Mathlib.Tactic.FieldSimp
import Mathlib.Tactic.Positivity
import Mathlib.Algebra.Order.Floor.Ring

/-! # C34: lazy budgeting for balanced loads -/

namespace Soco

/-- **C10** (SBLO). `verify` accepts exactly the valid problems, and otherwise returns an error. -/
theorem C10_sblo_verify_exact {T : Type} [Value T] (p : SBLO T) : Checks p.verify (Spec.ValidSBLO p) := by
  unfold SBLO.verify Spec.ValidSBLO
  refine Checks.bind Checks.assert fun hd => Checks.bind Checks.assert fun _ =>
    Checks.bind Checks.assert fun hb => Checks.bind Checks.assert fun hs => Checks.bind Checks.assert fun hl => ?_
  have key : Checks (forRange p.d.toNat fun k => do
      assertValidity (decide ((← idx p.bounds k) > 0))
      assertValidity (decide ((← idx p.switchingCost k) > 0)))
      (∀ k < p.d.toNat, (∀ u, p.bounds[k]? = some u → 0 < u) ∧
        (∀ b, p.switchingCost[k]? = some b → 0 < b)) := by
    refine Checks.range fun k hk => ?_
    have h1 : k < p.bounds.length := by omega
    have h2 : k < p.switchingCost.length := by omega
    rw [idx_ok _ _ h1, idx_ok _ _ h2]
    refine Checks.iff (Checks.bind Checks.assert fun _ => Checks.assert) ?_
    simp [h1, h2]
  have k3 : Checks (forRange p.tEnd.toNat fun t => do
      assertValidity (decide ((← idx p.load t) ≥ 0)))
      (∀ t < p.tEnd.toNat, 0 ≤ p.load.getD t 0) := by
    refine Checks.range fun t ht => ?_
    have h1 : t < p.load.length := by omega
    rw [idx_ok _ _ h1]
    have e : p.load.getD t 0 = p.load[t] := by simp [List.getD, h1]
    rw [e]
    exact Checks.assert
  refine (Checks.bind key fun _ => k3).iff ?_
  constructor
  · rintro ⟨h, h3⟩
    refine ⟨?_, ?_, ?_⟩
    · intro u hu
      obtain ⟨k, hk, rfl⟩ := List.getElem_of_mem hu
      exact (h k (by omega)).1 _ (by simp [hk])
    · intro u hu
      obtain ⟨k, hk, rfl⟩ := List.getElem_of_mem hu
      exact (h k (by omega)).2 _ (by simp [hk])
    · intro t ht l hl'
      have := h3 t (by omega)
      simpa [List.getD, hl'] using this
  · rintro ⟨h1, h2, h3⟩
    refine ⟨fun k _ => ⟨fun u hu => h1 u (List.mem_of_getElem? hu), fun b hb => h2 b (List.mem_of_getElem? hb)⟩, ?_⟩
    intro t ht
    have h7 : t < p.load.length := by omega
    have := h3 t (by omega) p.load[t] (by simp [h7])
    simpa [List.getD, h7] using this

namespace Bb
open Spec

/-! ### The number of sub slots -/

/-- The idle costs in the last slot of an instance: finite, not negative, and not all zero. -/
structure IdleCosts (p : SBLO ℤ) : Prop where
  idle : ∀ f ∈ p.hittingCost, ∃ (c : Cost Unit DCFailure) (l : ℚ), f.callCertain p.tEnd 0 = .ok c ∧ c.cost = l ∧ 0 ≤ l
  some : ∃ f ∈ p.hittingCost, ∃ c, f.callCertain p.tEnd 0 = .ok c ∧ 0 < c.cost

theorem subTimeSlots_ok (p : SBLO ℤ) (hv : ValidSBLO p) (hl : (p.hittingCost.length : Int) = p.d) (hi : IdleCosts p) (ε : ℚ)
    (hε : 0 < ε) :
    ∃ n : Nat, determineSubTimeSlots p p.tEnd ε = .ok (n : Int) ∧ 1 ≤ n ∧ IsSubSlotCount p p.tEnd ε n := by
  obtain ⟨v1, v2, v3, v4, v5, v6, v7, v8⟩ := hv
  have hget : ∀ k < p.d.toNat, ∃ (f : CostFn ℚ Unit DCFailure) (b : ℚ) (c : Cost Unit DCFailure) (l : ℚ),
      p.hittingCost[k]? = .some f ∧ p.switchingCost[k]? = .some b ∧ f.callCertain p.tEnd 0 = .ok c ∧ c.cost = l ∧ 0 ≤ l ∧ 0 < b := by
    intro k hk
    have h1 : k < p.hittingCost.length := by omega
    have h2 : k < p.switchingCost.length := by omega
    obtain ⟨c, l, c1, c2, c3⟩ := hi.idle _ (List.getElem_mem h1)
    exact ⟨_, _, c, l, List.getElem?_eq_getElem h1, List.getElem?_eq_getElem h2, c1, c2, c3, v7 _ (List.getElem_mem h2)⟩
  have : Inhabited (Cost Unit DCFailure) := ⟨hi.some.choose_spec.2.choose⟩
  choose! F B Cc L a1 a2 a3 a4 a5 a6 using hget
  have hm : (List.range p.d.toNat).mapM (fun k => (do
      let f ← idx p.hittingCost k
      let l ← f.callCertain p.tEnd 0
      let b ← idx p.switchingCost k
      .ok (ECost.divQ l.cost b) : Res ECost)) = .ok ((List.range p.d.toNat).map fun k => ((L k / B k : ℚ) : ECost)) := by
    apply mapM_ok_of
    intro k hk
    rw [List.mem_range] at hk
    rw [(idx_ok_iff _ _ _).2 (a1 k hk), (idx_ok_iff _ _ _).2 (a2 k hk)]
    simp only [bind, Except.bind, a3 k hk, a4 k hk]
    rfl
  have hne : (List.range p.d.toNat).map (fun k => ((L k / B k : ℚ) : ECost)) ≠ [] := by
    simp only [ne_eq, List.map_eq_nil_iff, List.range_eq_nil]
    omega
  obtain ⟨q, hq⟩ : ∃ q, ((List.range p.d.toNat).map (fun k => ((L k / B k : ℚ) : ECost))).max? = some q :=
    Option.ne_none_iff_exists'.1 (by rw [ne_eq, List.max?_eq_none_iff]; exact hne)
  obtain ⟨q1, q2⟩ := List.max?_eq_some_iff.1 hq
  simp only [List.mem_map, List.mem_range] at q1 q2
  obtain ⟨k, hk, rfl⟩ := q1
  have q2' : ∀ k' < p.d.toNat, L k' / B k' ≤ L k / B k := by
    intro k' hk'
    have := q2 _ ⟨k', hk', rfl⟩
    exact_mod_cast this
  have hd0 : (0 : ℚ) < p.d := by exact_mod_cast v1
  have hdε : (0 : ℚ) < p.d / ε := div_pos hd0 hε
  have hpos : 0 < L k / B k := by
    obtain ⟨f, hf, c, c1, c2⟩ := hi.some
    obtain ⟨k', hk', rfl⟩ := List.getElem_of_mem hf
    have hk'' : k' < p.d.toNat := by omega
    have hF : F k' = p.hittingCost[k'] := by
      have := (a1 k' hk'').symm.trans (List.getElem?_eq_getElem hk')
      injection this
    have hC : Cc k' = c := by
      have h := a3 k' hk''
      rw [hF, c1] at h
      injection h with h
      exact h.symm
    have hL : 0 < L k' := by
      have h := a4 k' hk''
      rw [hC] at h
      rw [h] at c2
      exact_mod_cast c2
    exact lt_of_lt_of_le (div_pos hL (a6 k' hk'')) (q2' k' hk'')
  have hx : (0 : ℚ) < p.d / ε * (L k / B k) := mul_pos hdε hpos
  have hc0 : 1 ≤ ⌈(p.d : ℚ) / ε * (L k / B k)⌉ := by
    have := Int.ceil_pos.2 hx
    omega
  refine ⟨⌈(p.d : ℚ) / ε * (L k / B k)⌉.toNat, ?_, by omega, ?_, ?_⟩
  · unfold determineSubTimeSlots
    rw [hm]
    simp only [bind, Except.bind, hq]
    rw [Int.toNat_of_nonneg (by omega)]
    rw [if_neg (ne_of_gt hε)]
  · intro k' f b c b1 b2 b3
    have hk' : k' < p.d.toNat := by
      have := (List.getElem?_eq_some_iff.1 b1).1
      omega
    have e1 : F k' = f := by have := (a1 k' hk').symm.trans b1; injection this
    have e2 : B k' = b := by have := (a2 k' hk').symm.trans b2; injection this
    have e3 : Cc k' = c := by
      have h := a3 k' hk'
      rw [e1, b3] at h
      injection h with h
      exact h.symm
    refine ⟨L k', e3 ▸ a4 k' hk', ?_⟩
    have h1 : (p.d : ℚ) / ε * (L k' / b) ≤ p.d / ε * (L k / B k) := by
      rw [← e2]
      exact mul_le_mul_of_nonneg_left (q2' k' hk') hdε.le
    have h2 := Int.le_ceil ((p.d : ℚ) / ε * (L k / B k))
    have h3 : ((⌈(p.d : ℚ) / ε * (L k / B k)⌉.toNat : Nat) : ℚ) = ((⌈(p.d : ℚ) / ε * (L k / B k)⌉ : Int) : ℚ) := by
      exact_mod_cast congrArg (fun z : Int => (z : ℚ)) (Int.toNat_of_nonneg (show 0 ≤ ⌈(p.d : ℚ) / ε * (L k / B k)⌉ by omega))
    rw [h3]
    linarith
  · refine ⟨k, F k, B k, Cc k, L k, a1 k hk, a2 k hk, a3 k hk, a4 k hk, ?_⟩
    have h2 := Int.ceil_lt_add_one ((p.d : ℚ) / ε * (L k / B k))
    have h3 : ((⌈(p.d : ℚ) / ε * (L k / B k)⌉.toNat : Nat) : ℚ) = ((⌈(p.d : ℚ) / ε * (L k / B k)⌉ : Int) : ℚ) := by
      exact_mod_cast congrArg (fun z : Int => (z : ℚ)) (Int.toNat_of_nonneg (show 0 ≤ ⌈(p.d : ℚ) / ε * (L k / B k)⌉ by omega))
    rw [h3]
    exact h2

/-! ### Streaming the sub slots -/

variable {S : Num.Solver} {hist : Nat → SubSlot} {d : Nat} {bounds : List ℤ} {β : List ℚ}

/-- The loop over the sub slots ends within the given number of iterations. -/
theorem stream_fuel (hP : Params d bounds β) (U : Nat) (hF : ∀ i < U, Fits S d bounds β (hist i)) (q : SBLO ℤ)
    (hS : ∀ T : Int, T ≤ U → Shows S hist d bounds β { q with tEnd := T })
    (hV : ∀ T : Int, 0 ≤ T → T ≤ U → SBLO.verify { q with tEnd := T } = .ok ()) (R : Rep hist d U q.hittingCost)
    (fuel k : Nat) (hk : k < U) (hf : U - k ≤ fuel) (xs : Schedule ℤ) (mo : Option AlgBMemory)
    (I : AInv S hist d bounds β k xs (mo.getD {}).initTimes) (J : CacheInv S hist d bounds β k (mo.getD {}).cache) :
    ∃ ys m, offlineStreamFrom SBLO.tEnd SBLO.setTEnd (Online.verify SBLO.verify) (algBAlg S) (U : Int) fuel
        ⟨{ q with tEnd := (k : Int) + 1 }, 0⟩ xs mo = some (.ok (⟨{ q with tEnd := U }, 0⟩, xs ++ ys, some m)) ∧
      AInv S hist d bounds β U (xs ++ ys) m.initTimes ∧ CacheInv S hist d bounds β U m.cache := by
  induction fuel generalizing k xs mo with
  | zero => omega
  | succ fuel ih =>
    obtain ⟨x, m', e1, e2, e3⟩ := algB_step hP k U hk (fun i hi => hF i (by omega)) { q with tEnd := (k : Int) + 1 }
      (hS _ (by omega)) rfl R xs (mo.getD {}) I J
    have hxl : (xs.length : Int) = k := by have := I.lenX; omega
    have hnext : onlineNext SBLO.tEnd (algBAlg S) ⟨{ q with tEnd := (k : Int) + 1 }, 0⟩ xs mo =
        .ok (x, xs ++ [x], some m') := by
      unfold onlineNext OnlineAlgorithm.next
      simp only [Schedule.tEnd, hxl, decide_true, assertR, if_true, bind, Except.bind, algBAlg]
      rw [e1]
      rfl
    unfold offlineStreamFrom streamFrom
    rw [hnext]
    by_cases hlast : k + 1 = U
    · have hu : offlineUpdate (T := ℤ) SBLO.tEnd SBLO.setTEnd (U : Int) ⟨{ q with tEnd := (k : Int) + 1 }, 0⟩ (xs ++ [x]) =
          (⟨{ q with tEnd := (k : Int) + 1 }, 0⟩, false) := by
        unfold offlineUpdate
        rw [if_neg (by simp only; omega)]
      simp only [hu]
      refine ⟨[x], m', ?_, hlast ▸ e2, hlast ▸ e3⟩
      rw [show (U : Int) = (k : Int) + 1 by omega]
    · have hu : offlineUpdate (T := ℤ) SBLO.tEnd SBLO.setTEnd (U : Int) ⟨{ q with tEnd := (k : Int) + 1 }, 0⟩ (xs ++ [x]) =
          (⟨{ q with tEnd := ((k + 1 : Nat) : Int) + 1 }, 0⟩, true) := by
        unfold offlineUpdate
        rw [if_pos (by simp only; omega)]
        simp [SBLO.setTEnd]
      have hver : Online.verify SBLO.verify ⟨{ q with tEnd := ((k + 1 : Nat) : Int) + 1 }, 0⟩ = .ok () := by
        unfold Online.verify
        simp only [assertValidity, assertR, bind, Except.bind]
        simp only [ge_iff_le, le_refl, decide_true, if_true]
        exact hV _ (by omega) (by omega)
      simp only [hu, hver]
      obtain ⟨ys, m, f1, f2, f3⟩ := ih (k + 1) (by omega) (by omega) (xs ++ [x]) (some m') e2 e3
      refine ⟨x :: ys, m, ?_, by simpa using f2, f3⟩
      unfold offlineStreamFrom at f1
      rw [f1]
      simp

/-! ### The choice among the sub slots -/

theorem fold_min (f : Int → Res ECost) (h : Int → ECost) (us : List Int) (hf : ∀ u ∈ us, f u = .ok (h u)) (u₀ : Int) :
    ∃ u, us.foldlM (fun (m : Int × ECost) u => (do
        let c ← f u
        .ok (if c < m.2 then (u, c) else m) : Res (Int × ECost))) (u₀, h u₀) = .ok (u, h u) ∧
      (u = u₀ ∨ u ∈ us) ∧ h u ≤ h u₀ ∧ ∀ u' ∈ us, h u ≤ h u' := by
  induction us generalizing u₀ with
  | nil => exact ⟨u₀, rfl, .inl rfl, le_refl _, by simp⟩
  | cons a us ih =>
    rw [List.foldlM_cons, hf a (by simp)]
    simp only [bind, Except.bind]
    by_cases hlt : h a < h u₀
    · rw [if_pos hlt]
      obtain ⟨u, h1, h2, h3, h4⟩ := ih (fun u hu => hf u (by simp [hu])) a
      refine ⟨u, h1, ?_, le_trans h3 hlt.le, ?_⟩
      · rcases h2 with rfl | h2
        · exact .inr (by simp)
        · exact .inr (by simp [h2])
      · intro u' hu'
        rcases List.mem_cons.1 hu' with rfl | hu'
        · exact h3
        · exact h4 u' hu'
    · rw [if_neg hlt]
      obtain ⟨u, h1, h2, h3, h4⟩ := ih (fun u hu => hf u (by simp [hu])) u₀
      refine ⟨u, h1, ?_, h3, ?_⟩
      · rcases h2 with rfl | h2
        · exact .inl rfl
        · exact .inr (by simp [h2])
      · intro u' hu'
        rcases List.mem_cons.1 hu' with rfl | hu'
        · exact le_trans h3 (not_lt.1 hlt)
        · exact h4 u' hu'

theorem determineConfig_ok (q : SBLO ℤ) (U n : Nat) (hn : 1 ≤ n) (hT : q.tEnd = ((U + n : Nat) : Int))
    (hq : Shows S hist d bounds β q) (hF : ∀ i < U + n, Fits S d bounds β (hist i)) (xs : Schedule ℤ)
    (hl : xs.length = U + n) (hb : ∀ x ∈ xs, InBox bounds x) :
    ∃ i x, determineConfig S q xs ((U : Int) + 1) ((U : Int) + n) = .ok x ∧ U ≤ i ∧ i < U + n ∧ xs[i]? = some x ∧
      ∀ (i' : Nat) (x' : Config ℤ), U ≤ i' → i' < U + n → xs[i']? = some x' → (hist i).hit S x ≤ (hist i').hit S x' := by
  let H : Int → ECost := fun u => (hist (u - 1).toNat).hit S (xs.getD (u - 1).toNat [])
  have hacc : ∀ u : Int, 1 ≤ u → u ≤ ((U + n : Nat) : Int) → access xs u = some (xs.getD (u - 1).toNat []) := by
    intro u h1 h2
    unfold access
    rw [if_pos ⟨h1, by omega⟩, List.getD_eq_getElem _ _ (by omega)]
    exact List.getElem?_eq_getElem _
  have hhit : ∀ u : Int, 1 ≤ u → u ≤ ((U + n : Nat) : Int) → subHit S q xs u = .ok (H u) := by
    intro u h1 h2
    unfold subHit
    rw [hacc u h1 h2]
    obtain ⟨i, rfl⟩ : ∃ i : Nat, u = (i : Int) + 1 := ⟨(u - 1).toNat, by omega⟩
    simp only
    rw [hq.hit i (by omega)]
    have hi : ((i : Int) + 1 - 1).toNat = i := by omega
    have hmem : xs.getD i [] ∈ xs := by
      rw [List.getD_eq_getElem _ _ (by omega)]
      exact List.getElem_mem _
    obtain ⟨c, hc⟩ := (hF i (by omega)).defined _ (hb _ hmem)
    simp only [H, hi, hc, bind, Except.bind, SubSlot.hit]
  obtain ⟨u, h1, h2, h3, h4⟩ := fold_min (subHit S q xs) H (timeRange ((U : Int) + 1 + 1) ((U : Int) + n))
    (fun u hu => by
      simp only [timeRange, List.mem_map, List.mem_range] at hu
      obtain ⟨j, hj, rfl⟩ := hu
      exact hhit _ (by omega) (by push_cast; omega)) ((U : Int) + 1)
  have hu : (U : Int) + 1 ≤ u ∧ u ≤ (U : Int) + n := by
    rcases h2 with rfl | hu
    · omega
    · simp only [timeRange, List.mem_map, List.mem_range] at hu
      obtain ⟨j, hj, rfl⟩ := hu
      omega
  refine ⟨(u - 1).toNat, xs.getD (u - 1).toNat [], ?_, by omega, by omega, ?_, ?_⟩
  · unfold determineConfig
    rw [hhit _ (by omega) (by push_cast; omega)]
    simp only [bind, Except.bind] at h1 ⊢
    rw [h1]
    simp only [hacc u (by omega) (by push_cast; omega)]
  · rw [List.getD_eq_getElem _ _ (by omega)]
    exact List.getElem?_eq_getElem _
  · intro i' x' g1 g2 g3
    have hx' : x' = xs.getD i' [] := by rw [List.getD_eq_getElem?_getD, g3]; rfl
    have key : H u ≤ H ((i' : Int) + 1) := by
      by_cases hiU : i' = U
      · rw [hiU]; exact h3
      · apply h4
        simp only [timeRange, List.mem_map, List.mem_range]
        exact ⟨i' - U - 1, by omega, by omega⟩
    simpa [H, hx'] using key

/-! ### One slot -/

/-- What is required of an instance shown in its last slot. The costs of a part of the slot have to be defined within
the bounds, and finite if all servers are on. -/
structure Usable (S : Num.Solver) (d : Nat) (bounds : List ℤ) (β : List ℚ) (ε : ℚ) (p : SBLO ℤ) : Prop where
  valid : p.verify = .ok ()
  pd : p.d = d
  pbounds : p.bounds = bounds
  pswitching : p.switchingCost = β
  costs : p.hittingCost.length = d
  idle : IdleCosts p
  defined : ∀ n, IsSubSlotCount p p.tEnd ε n → ∀ x, InBox bounds x → ∃ c, (divided p n).hitCost S p.tEnd x = .ok c
  finite : ∀ n, IsSubSlotCount p p.tEnd ε n → (SubSlot.mk p p.tEnd n).hit S bounds ≠ ⊤

theorem Usable.valid' {S : Num.Solver} {d : Nat} {bounds : List ℤ} {β : List ℚ} {ε : ℚ} {p : SBLO ℤ}
    (h : Usable S d bounds β ε p) : ValidSBLO p := by
  by_contra hc
  have := (C10_sblo_verify_exact p).2 hc
  rw [h.valid] at this
  cases this

theorem Usable.fits {ε : ℚ} {p : SBLO ℤ} (h : Usable S d bounds β ε p) (ht : 1 ≤ p.tEnd) (n : Nat) (hn : 1 ≤ n)
    (hc : IsSubSlotCount p p.tEnd ε n) : Fits S d bounds β ⟨p, p.tEnd, n⟩ := by
  refine ⟨h.pd, h.pbounds, h.pswitching, h.costs, ht, hn, ?_, h.defined n hc, h.finite n hc⟩
  intro f hf
  obtain ⟨c, l, c1, c2, c3⟩ := h.idle.idle f hf
  exact ⟨c, c1, by rw [c2]; exact_mod_cast c3⟩

/-- The memory after `U` sub slots. -/
structure MInv (S : Num.Solver) (hist : Nat → SubSlot) (d : Nat) (bounds : List ℤ) (β : List ℚ) (U : Nat) (m : Memory) :
    Prop where
  fits : ∀ i < U, Fits S d bounds β (hist i)
  lenL : m.load.length = U
  loads : ∀ i < U, access m.load ((i : Int) + 1) = access (hist i).p.load (hist i).t
  nonneg : ∀ l ∈ m.load, 0 ≤ l
  rep : Rep hist d U m.hittingCost
  inv : AInv S hist d bounds β U m.modM.1 (m.modM.2.getD {}).initTimes
  cache : CacheInv S hist d bounds β U (m.modM.2.getD {}).cache

theorem lb_step (hP : Params d bounds β) (ε : ℚ) (p : SBLO ℤ) (hp : Usable S d bounds β ε p)
    (ht : 1 ≤ p.tEnd) (U n : Nat) (hc : determineSubTimeSlots p p.tEnd ε = .ok (n : Int)) (hn : 1 ≤ n)
    (hcount : IsSubSlotCount p p.tEnd ε n) (hblock : ∀ i < n, hist (U + i) = ⟨p, p.tEnd, n⟩) (m : Memory)
    (M : MInv S hist d bounds β U m) (xs : Schedule ℤ) :
    ∃ x m' ys, lb S ε ⟨p, 0⟩ p.tEnd xs m = .ok (x, some m') ∧ MInv S hist d bounds β (U + n) m' ∧
      m'.modM.1 = m.modM.1 ++ ys ∧
      ∃ i, U ≤ i ∧ i < U + n ∧ m'.modM.1[i]? = some x ∧
        ∀ (i' : Nat) (x' : Config ℤ), U ≤ i' → i' < U + n → m'.modM.1[i']? = some x' →
          (hist i).hit S x ≤ (hist i').hit S x' := by
  obtain ⟨v1, v2, v3, v4, v5, v6, v7, v8⟩ := hp.valid'
  have hfits : ∀ i < U + n, Fits S d bounds β (hist i) := by
    intro i hi
    by_cases h : i < U
    · exact M.fits i h
    · have e := hblock (i - U) (by omega)
      rw [show U + (i - U) = i by omega] at e
      rw [e]
      exact hp.fits ht n hn hcount
  obtain ⟨hc', r1, r2⟩ := M.rep.extend p p.tEnd n hp.costs hblock hn
  obtain ⟨l, hl, hl0⟩ : ∃ l, access p.load p.tEnd = some l ∧ 0 ≤ l := by
    have hlt : (p.tEnd - 1).toNat < p.load.length := by omega
    refine ⟨p.load[(p.tEnd - 1).toNat], ?_, v8 (p.tEnd - 1).toNat (by omega) _ (List.getElem?_eq_getElem hlt)⟩
    unfold access
    rw [if_pos ⟨ht, v5⟩]
    exact List.getElem?_eq_getElem hlt
  let load' := m.load ++ List.replicate n l
  have hlen' : load'.length = U + n := by simp [load', M.lenL]
  have hpd : p.d.toNat = d := by rw [hp.pd]; simp
  have hmod : modifyProblem p m.load m.hittingCost p.tEnd (n : Int) ((m.load.length : Int) + 1)
      ((m.load.length : Int) + 1 + (n : Int) - 1) =
      .ok (⟨p.d, (U : Int) + 1, p.bounds, p.switchingCost, hc', load'⟩, load', hc') := by
    unfold modifyProblem
    rw [M.lenL, show (U : Int) + 1 + (n : Int) - 1 = (U : Int) + n by omega, hpd, r1]
    simp only [bind, Except.bind, assertP, hl]
    rw [decide_eq_true (show (U : Int) + n - ((U : Int) + 1) + 1 = (n : Int) by omega),
      decide_eq_true (show (0 : Int) ≤ (n : Int) by omega), Int.toNat_natCast,
      decide_eq_true (show (((m.load ++ List.replicate n l).length : Nat) : Int) = (U : Int) + n by
        rw [List.length_append, List.length_replicate, M.lenL]; push_cast; rfl)]
    simp only [if_true]
    rw [show m.hittingCost.drop d = [] by
      apply List.drop_eq_nil_of_le
      have := M.rep.1
      omega, List.append_nil]
  let q : SBLO ℤ := ⟨p.d, (U : Int) + 1, p.bounds, p.switchingCost, hc', load'⟩
  have hloads : ∀ i < U + n, access load' ((i : Int) + 1) = access (hist i).p.load (hist i).t := by
    intro i hi
    have e0 : access load' ((i : Int) + 1) = load'[i]? := by
      unfold access
      rw [if_pos ⟨by omega, by rw [hlen']; push_cast; omega⟩, show ((i : Int) + 1 - 1).toNat = i by omega]
    by_cases h : i < U
    · rw [← M.loads i h, e0]
      unfold access
      rw [if_pos ⟨by omega, by rw [M.lenL]; omega⟩, show ((i : Int) + 1 - 1).toNat = i by omega]
      exact List.getElem?_append_left (by rw [M.lenL]; exact h)
    · have e := hblock (i - U) (by omega)
      rw [show U + (i - U) = i by omega] at e
      rw [e, e0]
      simp only [hl, load']
      rw [List.getElem?_append_right (by rw [M.lenL]; omega), List.getElem?_replicate, if_pos (by rw [M.lenL]; omega)]
  have hshow : ∀ T : Int, T ≤ ((U + n : Nat) : Int) → Shows S hist d bounds β { q with tEnd := T } := by
    intro T hT
    refine ⟨hp.pd, hp.pbounds, hp.pswitching, ?_⟩
    intro i hi x
    have hi' : i < U + n := by
      have : (i : Int) < T := hi
      omega
    have F := hfits i hi'
    exact hitCost_hist S hist d (U + n) { q with tEnd := T } r2 hp.pd i hi' F.pd (F.pbounds.trans hp.pbounds.symm) F.costs F.t
      (hloads i hi') x
  have hver : ∀ T : Int, 0 ≤ T → T ≤ ((U + n : Nat) : Int) → SBLO.verify { q with tEnd := T } = .ok () := by
    intro T h0 hT
    refine (C10_sblo_verify_exact _).1 ⟨v1, h0, v3, v4, ?_, v6, v7, ?_⟩
    · show T ≤ (load'.length : Int)
      rw [hlen']
      exact hT
    · intro t _ l' hl'
      have : l' ∈ m.load ++ List.replicate n l := List.mem_of_getElem? hl'
      rcases List.mem_append.1 this with h | h
      · exact M.nonneg l' h
      · rw [(List.mem_replicate.1 h).2]
        exact hl0
  obtain ⟨ys, m', s1, s2, s3⟩ := stream_fuel hP (U + n) hfits q hshow hver r2 (n + 1) U (by omega) (by omega) m.modM.1
    m.modM.2 M.inv M.cache
  obtain ⟨i, x, d1, d2, d3, d4, d5⟩ := determineConfig_ok { q with tEnd := ((U + n : Nat) : Int) } U n hn rfl
    (hshow _ (le_refl _)) hfits (m.modM.1 ++ ys) s2.lenX s2.box
  refine ⟨x, ⟨load', hc', (m.modM.1 ++ ys, some m')⟩, ys, ?_, ⟨hfits, hlen', hloads, ?_, r2, s2, s3⟩, rfl, i, d2, d3, d4, d5⟩
  · unfold lb
    simp only [assertR, decide_true, if_true, bind, Except.bind, hc, hmod]
    rw [M.lenL]
    rw [show (U : Int) + 1 + (n : Int) - 1 = ((U + n : Nat) : Int) by push_cast; omega, Int.toNat_natCast]
    have s1' : offlineStreamFrom SBLO.tEnd SBLO.setTEnd (Online.verify SBLO.verify) (algBAlg S) ((U + n : Nat) : Int) (n + 1)
      ⟨⟨p.d, (U : Int) + 1, p.bounds, p.switchingCost, hc', load'⟩, 0⟩ m.modM.1 m.modM.2 = _ := s1
    rw [s1']
    simp only
    rw [show ((U + n : Nat) : Int) = (U : Int) + n by push_cast; rfl] at d1 ⊢
    rw [d1]
  · intro l' hl'
    rcases List.mem_append.1 hl' with h | h
    · exact M.nonneg l' h
    · rw [(List.mem_replicate.1 h).2]
      exact hl0

theorem play_ok (hP : Params d bounds β) (ε : ℚ) (ps : List (SBLO ℤ)) (ns : List Nat)
    (hu : ∀ p ∈ ps, Usable S d bounds β ε p) (hns : ns.length = ps.length) (U : Nat)
    (hcount : ∀ (k n : Nat) (p : SBLO ℤ), ps[k]? = some p → ns[k]? = some n →
      determineSubTimeSlots p p.tEnd ε = .ok (n : Int) ∧ 1 ≤ n ∧ IsSubSlotCount p p.tEnd ε n ∧
      ∀ i < n, hist (U + (ns.take k).sum + i) = ⟨p, p.tEnd, n⟩)
    (xs : Schedule ℤ) (hs : ∀ (k : Nat) (p : SBLO ℤ), ps[k]? = some p → p.tEnd = (xs.length : Int) + (k : Int) + 1)
    (mo : Option Memory) (m₀ : Memory) (hm₀ : ∀ p ∈ ps, Memory.dflt ⟨p, 0⟩ = m₀)
    (M : MInv S hist d bounds β U (mo.getD m₀)) :
    ∃ ys mem sub, Spec.play SBLO.tEnd (alg S ε) xs mo (ps.map fun p => ⟨p, 0⟩) = .ok (xs ++ ys, mem) ∧
      ys.length = ps.length ∧ MInv S hist d bounds β (U + ns.sum) (mem.getD m₀) ∧
      (mem.getD m₀).modM.1 = (mo.getD m₀).modM.1 ++ sub ∧
      ∀ (k : Nat) (p : SBLO ℤ), ps[k]? = some p → ∃ x i, ys[k]? = some x ∧ U + (ns.take k).sum ≤ i ∧
        i < U + (ns.take (k + 1)).sum ∧ (mem.getD m₀).modM.1[i]? = some x ∧
        ∀ (i' : Nat) (x' : Config ℤ), U + (ns.take k).sum ≤ i' → i' < U + (ns.take (k + 1)).sum →
          (mem.getD m₀).modM.1[i']? = some x' → (hist i).hit S x ≤ (hist i').hit S x' := by
  induction ps generalizing ns U xs mo with
  | nil =>
    have : ns = [] := List.length_eq_zero_iff.1 (by simpa using hns)
    subst this
    exact ⟨[], mo, [], by simp [Spec.play], rfl, by simpa using M, by simp, by simp⟩
  | cons p ps ih =>
    cases ns with
    | nil => simp at hns
    | cons n ns =>
      obtain ⟨c1, c2, c3, c4⟩ := hcount 0 n p rfl rfl
      simp only [List.take_zero, List.sum_nil, Nat.add_zero] at c4
      have hT := hs 0 p rfl
      simp only [Nat.cast_zero, Int.add_zero] at hT
      obtain ⟨x, m', ys', e1, e2, e3, i, e4, e5, e6, e7⟩ := lb_step hP ε p (hu p (by simp)) (by omega) U n c1 c2 c3 c4
        (mo.getD m₀) M xs
      obtain ⟨ys, mem, sub, f1, f2, f3, f4, f5⟩ := ih ns (fun q hq => hu q (by simp [hq])) (by simpa using hns) (U + n) (by
        intro k n' q hq hn'
        obtain ⟨g1, g2, g3, g4⟩ := hcount (k + 1) n' q (by simpa using hq) (by simpa using hn')
        refine ⟨g1, g2, g3, fun i hi => ?_⟩
        have := g4 i hi
        rw [List.take_succ_cons, List.sum_cons, ← Nat.add_assoc] at this
        exact this) (xs ++ [x]) (by
        intro k q hq
        have := hs (k + 1) q (by simpa using hq)
        rw [this, List.length_append]
        push_cast
        simp
        omega) (some m') (fun q hq => hm₀ q (by simp [hq])) e2
      simp only [Option.getD_some] at f4
      have hsub : ∀ j < U + n, (mem.getD m₀).modM.1[j]? = m'.modM.1[j]? := by
        intro j hj
        rw [f4]
        exact List.getElem?_append_left (by have := e2.inv.lenX; omega)
      refine ⟨x :: ys, mem, ys' ++ sub, ?_, by simp [f2], ?_, ?_, ?_⟩
      · rw [List.map_cons, Spec.play]
        unfold onlineNext OnlineAlgorithm.next
        simp only [Schedule.tEnd, hT, decide_true, assertR, if_true, bind, Except.bind, alg, hm₀ p (by simp)]
        rw [← hT, e1]
        simp only [Schedule.extend]
        rw [show (OnlineAlgorithm.mk Memory.dflt (lb S ε) : OnlineAlgorithm (SBLO ℤ) ℤ Memory) = alg S ε from rfl, f1]
        simp
      · rw [List.sum_cons, ← Nat.add_assoc]
        exact f3
      · rw [f4, e3, List.append_assoc]
      · intro k q hq
        cases k with
        | zero =>
          simp only [List.getElem?_cons_zero, Option.some.injEq] at hq
          subst hq
          simp only [List.take_zero, List.sum_nil, Nat.add_zero, Nat.zero_add, List.take_succ_cons, List.sum_cons]
          refine ⟨x, i, rfl, e4, e5, ?_, ?_⟩
          · rw [hsub i e5]; exact e6
          · intro i' x' h1 h2 h3
            rw [hsub i' h2] at h3
            exact e7 i' x' h1 h2 h3
        | succ k =>
          obtain ⟨x', j, g1, g2⟩ := f5 k q (by simpa using hq)
          refine ⟨x', j, by simpa using g1, ?_⟩
          simp only [List.take_succ_cons, List.sum_cons, ← Nat.add_assoc]
          simpa only [List.take_succ_cons] using g2

/-! ### The theorem -/

/-- The instances shown to the algorithm, slot by slot. -/
structure Shown (S : Num.Solver) (d : Nat) (bounds : List ℤ) (β : List ℚ) (ε : ℚ) (ps : List (SBLO ℤ)) : Prop where
  usable : ∀ p ∈ ps, Usable S d bounds β ε p
  slot : ∀ (k : Nat) (p : SBLO ℤ), ps[k]? = some p → p.tEnd = (k : Int) + 1

theorem subSlots_get (ps : List (SBLO ℤ)) (ns : List Nat) (k n : Nat) (p : SBLO ℤ) (hp : ps[k]? = some p)
    (hn : ns[k]? = some n) (i : Nat) (hi : i < n) :
    (subSlots ps ns)[(ns.take k).sum + i]? = some ⟨p, p.tEnd, n⟩ := by
  induction ps generalizing ns k with
  | nil => simp at hp
  | cons q ps ih =>
    cases ns with
    | nil => simp at hn
    | cons n' ns =>
      have hS : subSlots (q :: ps) (n' :: ns) = List.replicate n' ⟨q, q.tEnd, n'⟩ ++ subSlots ps ns := rfl
      rw [hS]
      cases k with
      | zero =>
        simp only [List.getElem?_cons_zero, Option.some.injEq] at hp hn
        subst hp hn
        simp only [List.take_zero, List.sum_nil, Nat.zero_add]
        rw [List.getElem?_append_left (by simpa using hi), List.getElem?_replicate, if_pos hi]
      | succ k =>
        simp only [List.getElem?_cons_succ] at hp hn
        rw [List.take_succ_cons, List.sum_cons, List.getElem?_append_right (by simp; omega), List.length_replicate,
          show n' + (ns.take k).sum + i - n' = (ns.take k).sum + i by omega]
        exact ih ns k hp hn

/-- **C34** Playing lazy budgeting on instances shown slot by slot never fails. Slot `k` is divided into `ns[k]` parts,
the least number which is at least `d / ε * l / β` for the idle cost `l` and the switching cost `β` of each type. In
these sub slots the configurations `sub` are used, which satisfy the following.
* They respect the bounds.
* Let `ups i κ` be the number of servers of type `κ` powered up in sub slot `i`. Then the servers on in sub slot `i` are
  exactly those powered up so far whose idle cost since then does not exceed the switching cost.
* In each sub slot there are at least as many servers of each type as in the last configuration of an optimal schedule
  for the sub slots so far, and only as many if servers are powered up.
* The configuration of slot `k` is the one of a sub slot of `k` with the least hitting cost. -/
theorem C34_lazy_budgeting (S : Num.Solver) (d : Nat) (bounds : List ℤ) (β : List ℚ) (ε : ℚ) (hε : 0 < ε)
    (ps : List (SBLO ℤ)) (h : Shown S d bounds β ε ps) :
    ∃ (ns : List Nat) (xs : Schedule ℤ) (mem : Option Memory) (sub : Schedule ℤ) (ups : Nat → Nat → ℤ),
      Spec.play SBLO.tEnd (alg S ε) [] none (ps.map fun p => ⟨p, 0⟩) = .ok (xs, mem) ∧
      xs.length = ps.length ∧ ns.length = ps.length ∧ sub.length = ns.sum ∧
      (∀ (k n : Nat) (p : SBLO ℤ), ps[k]? = some p → ns[k]? = some n → 1 ≤ n ∧ IsSubSlotCount p p.tEnd ε n) ∧
      (∀ (i : Nat) (x : Config ℤ), sub[i]? = some x → InBox bounds x ∧
        (∀ (κ : Nat) (j : ℤ) (b : ℚ), x[κ]? = some j → β[κ]? = some b → 0 ≤ ups i κ ∧
          j = stillOn (fun s => ups s κ) (fun s => (subSlot (subSlots ps ns) s).idle κ) b i) ∧
        ∃ ys y, SubOptimal S (subSlot (subSlots ps ns)) bounds β i ys ∧ ys.getLast? = some y ∧
          List.Forall₂ (· ≤ ·) y x ∧ ∀ (κ : Nat) (j : ℤ), 0 < ups i κ → x[κ]? = some j → y[κ]? = some j) ∧
      ∀ (k : Nat) (x : Config ℤ), xs[k]? = some x → ∃ i, (ns.take k).sum ≤ i ∧ i < (ns.take (k + 1)).sum ∧
        sub[i]? = some x ∧
        ∀ (i' : Nat) (x' : Config ℤ), (ns.take k).sum ≤ i' → i' < (ns.take (k + 1)).sum → sub[i']? = some x' →
          (subSlot (subSlots ps ns) i).hit S x ≤ (subSlot (subSlots ps ns) i').hit S x' := by
  by_cases hps : ps = []
  · subst hps
    exact ⟨[], [], none, [], fun _ _ => 0, by simp [Spec.play], rfl, rfl, rfl, by simp, by simp, by simp⟩
  · obtain ⟨p₁, hp₁⟩ := List.exists_mem_of_ne_nil ps hps
    have hP : Params d bounds β := by
      have u := h.usable p₁ hp₁
      obtain ⟨v1, v2, v3, v4, v5, v6, v7, v8⟩ := u.valid'
      refine ⟨?_, ?_, ?_, u.pbounds ▸ v6, u.pswitching ▸ v7⟩
      · have := u.pd; omega
      · have := u.pd; rw [u.pbounds] at v3; omega
      · have := u.pd; rw [u.pswitching] at v4; omega
    have hcnt : ∀ p ∈ ps, ∃ n : Nat, determineSubTimeSlots p p.tEnd ε = .ok (n : Int) ∧ 1 ≤ n ∧ IsSubSlotCount p p.tEnd ε n := by
      intro p hp
      have u := h.usable p hp
      exact subTimeSlots_ok p u.valid' (by rw [u.pd, u.costs]) u.idle ε hε
    choose! N hN1 hN2 hN3 using hcnt
    obtain ⟨ns, hns⟩ : ∃ ns, ns = ps.map N := ⟨_, rfl⟩
    have hN : ∀ (k n : Nat) (p : SBLO ℤ), ps[k]? = some p → ns[k]? = some n → n = N p ∧ p ∈ ps := by
      intro k n p hp hn
      rw [hns, List.getElem?_map, hp] at hn
      simp only [Option.map_some, Option.some.injEq] at hn
      exact ⟨hn.symm, List.mem_of_getElem? hp⟩
    obtain ⟨hist, hhist⟩ : ∃ hist, hist = subSlot (subSlots ps ns) := ⟨_, rfl⟩
    obtain ⟨m₀, hm₀⟩ : ∃ m₀ : Memory, m₀ = ⟨[], (List.range d).map fun _ => CostFn.empty, ([], none)⟩ := ⟨_, rfl⟩
    have M₀ : MInv S hist d bounds β 0 ((none : Option Memory).getD m₀) := by
      subst hm₀
      refine ⟨by omega, rfl, by omega, by simp, Rep.empty hist d, ⟨rfl, rfl, ?_, ?_, by omega, by omega⟩, ⟨?_, ?_⟩⟩
      · intro r hr
        cases hr
      · intro x hx
        cases hx
      · rintro c hc
        cases hc
      · intros; rfl
    obtain ⟨ys, mem, sub, f1, f2, f3, f4, f5⟩ := play_ok (hist := hist) hP ε ps ns h.usable (by simp [hns]) 0 (by
      intro k n p hp hn
      obtain ⟨rfl, hmem⟩ := hN k n p hp hn
      refine ⟨hN1 p hmem, hN2 p hmem, hN3 p hmem, fun i hi => ?_⟩
      rw [hhist, Nat.zero_add]
      unfold subSlot
      rw [List.getD_eq_getElem?_getD, subSlots_get ps ns k _ p hp hn i hi]
      rfl) [] (fun k p hp => by simpa using h.slot k p hp) none m₀ (by
      intro p hp
      rw [hm₀]
      unfold Memory.dflt
      rw [show (Online.mk p 0).p.d.toNat = d by rw [(h.usable p hp).pd]; simp]) M₀
    rw [List.nil_append] at f1
    simp only [Nat.zero_add] at f3 f5
    obtain ⟨K, hK⟩ : ∃ K, K = mem.getD m₀ := ⟨_, rfl⟩
    rw [← hK] at f3 f5
    have hgetx : ∀ (i : Nat) (x : Config ℤ), K.modM.1[i]? = some x → i < ns.sum ∧ K.modM.1.getD i [] = x := by
      intro i x hx
      refine ⟨by have := (List.getElem?_eq_some_iff.1 hx).1; have := f3.inv.lenX; omega, ?_⟩
      rw [List.getD_eq_getElem?_getD, hx]
      rfl
    refine ⟨ns, ys, mem, K.modM.1, fun s κ => ((K.modM.2.getD {}).initTimes.getD s []).getD κ 0, f1, f2, by simp [hns],
      f3.inv.lenX, ?_, ?_, ?_⟩
    · intro k n p hp hn
      obtain ⟨rfl, hmem⟩ := hN k n p hp hn
      exact ⟨hN2 p hmem, hN3 p hmem⟩
    · intro i x hx
      obtain ⟨hi, hgx⟩ := hgetx i x hx
      have hbox := f3.inv.box x (List.mem_of_getElem? hx)
      have hxl : x.length = d := by have := List.Forall₂.length_eq hbox; have := hP.lb; omega
      refine ⟨hbox, ?_, ?_⟩
      · intro κ j b hj hb
        have e := f3.inv.on i hi κ b hb
        rw [hgx, List.getD_eq_getElem?_getD, hj, hhist] at e
        refine ⟨?_, e⟩
        simp only
        have hri : i < (K.modM.2.getD {}).initTimes.length := by have := f3.inv.lenR; omega
        rw [List.getD_eq_getElem _ _ hri]
        rw [List.getD_eq_getElem?_getD]
        cases hκ : ((K.modM.2.getD {}).initTimes[i])[κ]? with
        | none => simp
        | some u => exact (f3.inv.row _ (List.getElem_mem hri)).2 u (List.mem_of_getElem? hκ)
      · obtain ⟨zs, y, o1, o2, o3⟩ := f3.inv.opt i hi
        rw [hgx] at o3
        have hybox := o1.box y (List.mem_of_getLast? o2)
        have hyl : y.length = d := by have := List.Forall₂.length_eq hybox; have := hP.lb; omega
        refine ⟨zs, y, hhist ▸ o1, o2, ?_, ?_⟩
        · rw [List.forall₂_iff_get]
          refine ⟨by omega, fun κ h1 h2 => ?_⟩
          have := (o3 κ (by omega)).1
          rw [List.getD_eq_getElem _ _ h1, List.getD_eq_getElem _ _ h2] at this
          exact this
        · intro κ j h1 h2
          have hκ : κ < d := by have := (List.getElem?_eq_some_iff.1 h2).1; omega
          have := (o3 κ hκ).2 h1
          rw [List.getD_eq_getElem?_getD, h2] at this
          rw [List.getD_eq_getElem _ _ (by omega)] at this
          rw [List.getElem?_eq_getElem (by omega)]
          exact congrArg some this.symm
    · intro k x hx
      have hk : k < ps.length := by have := (List.getElem?_eq_some_iff.1 hx).1; omega
      obtain ⟨x', i, g1, g2, g3, g4, g5⟩ := f5 k ps[k] (List.getElem?_eq_getElem hk)
      have : x' = x := by have := g1.symm.trans hx; injection this
      subst this
      rw [← hhist]
      exact ⟨i, g2, g3, g4, g5⟩

/-! ### Examples -/

/-- The cost `a + x` of a server with load `x`. -/
def affine (a : ℚ) : CostFn ℚ Unit DCFailure := CostFn.new 1 (SingleCostFn.certain fun _ x => .ok ⟨((a + x : ℚ) : ECost), .none⟩)

/-- A balanced-load problem with two types in slot `t` of three. -/
def balanced (t : Nat) : SBLO ℤ where
  d := 2
  tEnd := t
  bounds := [1, 1]
  switchingCost := [2, 1]
  hittingCost := [affine 1, affine (3 / 2)]
  load := [1, 2, 0].take t

theorem affine_call (a : ℚ) (t : Nat) (ht : 1 ≤ t) : (affine a).callCertain (t : Int) 0 = .ok ⟨((a : ℚ) : ECost), .none⟩ := by
  unfold affine
  rw [CostFn.callCertain_certain _ _ (by omega)]
  simp

theorem balanced_count (t n : Nat) (ht : 1 ≤ t) (h : IsSubSlotCount (balanced t) t 2 n) : n = 2 := by
  obtain ⟨h1, k, f, b, c, l, g1, g2, g3, g4, g5⟩ := h
  obtain ⟨l', e1, e2⟩ := h1 1 (affine (3 / 2)) 1 _ rfl rfl (affine_call _ t ht)
  have e1' : (3 / 2 : ℚ) = l' := WithTop.coe_injective e1
  have e3 : (3 / 2 : ℚ) ≤ n := by
    rw [← e1'] at e2
    simp only [balanced] at e2
    norm_num at e2
    linarith
  have e4 : (n : ℚ) < 5 / 2 := by
    match k, g1, g2 with
    | 0, g1, g2 =>
      simp only [balanced, List.getElem?_cons_zero, Option.some.injEq] at g1 g2
      subst g1 g2
      rw [affine_call _ t ht] at g3
      injection g3 with g3
      rw [← g3] at g4
      have : (1 : ℚ) = l := WithTop.coe_injective g4
      rw [← this] at g5
      simp only [balanced] at g5
      norm_num at g5
      linarith
    | 1, g1, g2 =>
      simp only [balanced, List.getElem?_cons_zero, List.getElem?_cons_succ, Option.some.injEq] at g1 g2
      subst g1 g2
      rw [affine_call _ t ht] at g3
      injection g3 with g3
      rw [← g3] at g4
      have : (3 / 2 : ℚ) = l := WithTop.coe_injective g4
      rw [← this] at g5
      simp only [balanced] at g5
      norm_num at g5
      linarith
    | k + 2, g1, g2 => simp [balanced] at g1
  have h5 : n < 3 := by
    have : (n : ℚ) < (3 : Nat) := by push_cast; linarith
    exact_mod_cast this
  have h6 : 1 < n := by
    have : ((1 : Nat) : ℚ) < n := by push_cast; linarith
    exact_mod_cast this
  omega

/-- Non-vacuity: three slots with the loads 1, 2 and 0, each divided into two parts. -/
theorem balanced_shown : Shown Lb.gridSolver 2 [1, 1] [2, 1] 2 [balanced 1, balanced 2, balanced 3] := by
  have hu : ∀ n, n ∈ [1, 2, 3] → Usable Lb.gridSolver 2 [1, 1] [2, 1] 2 (balanced n) := by
    intro n hn
    have hn1 : 1 ≤ n := by
      simp only [List.mem_cons, List.not_mem_nil, or_false] at hn
      omega
    refine ⟨?_, rfl, rfl, rfl, rfl, ⟨?_, ?_⟩, ?_, ?_⟩
    · have : (balanced n).verify.toOption = some () := by
        simp only [List.mem_cons, List.not_mem_nil, or_false] at hn
        rcases hn with rfl | rfl | rfl <;> decide +kernel
      cases h : (balanced n).verify with
      | ok u => rfl
      | error e => rw [h] at this; simp [Except.toOption] at this
    · intro f hf
      simp only [balanced, List.mem_cons, List.not_mem_nil, or_false] at hf
      rcases hf with rfl | rfl
      · exact ⟨_, 1, affine_call _ n hn1, rfl, by norm_num⟩
      · exact ⟨_, 3 / 2, affine_call _ n hn1, rfl, by norm_num⟩
    · refine ⟨affine 1, by simp [balanced], _, affine_call _ n hn1, ?_⟩
      exact_mod_cast one_pos
    · intro k hk x hx
      rw [balanced_count n k hn1 hk]
      have : ((divided (balanced n) 2).hitCost Lb.gridSolver n x).toOption.isSome := by
        simp only [List.mem_cons, List.not_mem_nil, or_false] at hn
        have hx' := Lb.inBox_one_one hx
        rcases hn with rfl | rfl | rfl <;> rcases hx' with rfl | rfl | rfl | rfl <;> decide +kernel
      rw [show (balanced n).tEnd = (n : Int) from rfl]
      cases h : (divided (balanced n) 2).hitCost Lb.gridSolver n x with
      | ok c => exact ⟨c, rfl⟩
      | error e => rw [h] at this; simp [Except.toOption] at this
    · intro k hk
      rw [balanced_count n k hn1 hk, show (balanced n).tEnd = (n : Int) from rfl]
      simp only [List.mem_cons, List.not_mem_nil, or_false] at hn
      rcases hn with rfl | rfl | rfl <;> decide +kernel
  refine ⟨?_, ?_⟩
  · intro p hp
    simp only [List.mem_cons, List.not_mem_nil, or_false] at hp
    rcases hp with rfl | rfl | rfl <;> exact hu _ (by simp)
  · intro k p hp
    match k, hp with
    | 0, hp => simp at hp; subst hp; rfl
    | 1, hp => simp at hp; subst hp; rfl
    | 2, hp => simp at hp; subst hp; rfl
    | k + 3, hp => simp at hp

example : ((Spec.play SBLO.tEnd (alg Lb.gridSolver 2) [] none
    ([balanced 1, balanced 2, balanced 3].map fun p => ⟨p, 0⟩)).toOption.map fun q => (q.1, q.2.map (·.modM.1))) =
    some ([[0, 1], [0, 1], [1, 0]], some [[0, 1], [0, 1], [0, 1], [1, 1], [1, 0], [1, 0]]) := by decide +kernel

/-- A verified instance whose servers are free of charge while idle. -/
def idleFree : SBLO ℤ where
  d := 1
  tEnd := 1
  bounds := [1]
  switchingCost := [1]
  hittingCost := [affine 0]
  load := [1]

/-- The hypothesis that some idle cost is positive is needed: otherwise the slot has no sub slots, and the algorithm
aborts although the load can be served at a finite cost. -/
theorem C34_zero_idle_cost_counterexample :
    idleFree.verify.toOption.isSome ∧
    (idleFree.hitCost (constSolver []) 1 [1]).toOption.map (·.cost) = some ((1 : ℚ) : ECost) ∧
    (lb (constSolver []) 1 ⟨idleFree, 0⟩ 1 [] (Memory.dflt ⟨idleFree, 0⟩)).panics := by decide +kernel

end Bb
end Soco
