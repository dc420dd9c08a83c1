import Verif.Props.Pooling

/-!
# C149: diminishing returns of servers
-/

namespace Soco
variable {C D : Type} [OutSuccess C] [OutFailure D]

namespace Returns
open Uni Lcp Window

/-- Two numbers in the middle of `j` and `k`. -/
def lo (j k : ℤ) : ℤ := (j + k) / 2
def hi (j k : ℤ) : ℤ := (j + k + 1) / 2

theorem hit_mid {c : ℤ} {f : ℤ → ECost} (hf : Spec.ConvexOnE c f) {j k : ℤ} (hj : 0 ≤ j ∧ j ≤ c) (hk : 0 ≤ k ∧ k ≤ c) :
    f (lo j k) + f (hi j k) ≤ f j + f k := by
  wlog hjk : j ≤ k generalizing j k with H
  · have := H hk hj (by omega)
    rw [add_comm (f j)]
    have e1 : lo j k = lo k j := by unfold lo; rw [add_comm]
    have e2 : hi j k = hi k j := by unfold hi; rw [add_comm j]
    rw [e1, e2]
    exact this
  by_cases hn : k ≤ j + 1
  · have e1 : lo j k = j := by unfold lo; omega
    have e2 : hi j k = k := by unfold hi; omega
    rw [e1, e2]
  by_cases ht : f j + f k = ⊤
  · rw [ht]; exact le_top
  obtain ⟨t1, t2⟩ := WithTop.add_ne_top.1 ht
  obtain ⟨a, ha⟩ := WithTop.ne_top_iff_exists.1 t1
  obtain ⟨b, hb⟩ := WithTop.ne_top_iff_exists.1 t2
  obtain ⟨u, hu, hu'⟩ := hf j (lo j k) k hj.1 (by unfold lo; omega) (by unfold lo; omega) hk.2 a b ha.symm hb.symm
  obtain ⟨v, hv, hv'⟩ := hf j (hi j k) k hj.1 (by unfold hi; omega) (by unfold hi; omega) hk.2 a b ha.symm hb.symm
  rw [hu, hv, ← ha, ← hb, ← WithTop.coe_add, ← WithTop.coe_add]
  refine WithTop.coe_le_coe.2 ?_
  have hs : (lo j k : ℚ) + hi j k = j + k := by
    have : lo j k + hi j k = j + k := by unfold lo hi; omega
    exact_mod_cast this
  have hd : (0 : ℚ) < (k : ℚ) - j := by
    have : (j : ℚ) < k := by exact_mod_cast (by omega : j < k)
    linarith
  refine le_of_mul_le_mul_left ?_ hd
  have h1 : (hi j k : ℚ) = j + k - lo j k := by linarith
  rw [h1] at hv'
  linarith

theorem move_mid (x x' y y' : ℤ) : max 0 (lo x x' - lo y y') + max 0 (hi x x' - hi y y') ≤ max 0 (x - y) + max 0 (x' - y') := by
  unfold lo hi
  omega

theorem mv_mid {β : ℚ} (hβ : 0 ≤ β) (inv : Bool) (x x' y y' : ℤ) :
    mv1 β inv (lo y y') (lo x x') + mv1 β inv (hi y y') (hi x x') ≤ mv1 β inv y x + mv1 β inv y' x' := by
  have h1 : ((max 0 (lo x x' - lo y y') + max 0 (hi x x' - hi y y') : ℤ) : ℚ) ≤ ((max 0 (x - y) + max 0 (x' - y') : ℤ) : ℚ) := by
    exact_mod_cast move_mid x x' y y'
  have h2 : ((max 0 (lo y y' - lo x x') + max 0 (hi y y' - hi x x') : ℤ) : ℚ) ≤ ((max 0 (y - x) + max 0 (y' - x') : ℤ) : ℚ) := by
    exact_mod_cast move_mid y y' x x'
  push_cast at h1 h2
  unfold mv1
  cases inv
  · simp
    nlinarith
  · simp
    nlinarith

theorem total_mid {c : ℤ} {g : Int → ℤ → ECost} {β : ℚ} (hβ : 0 ≤ β) (inv : Bool) : ∀ (js ks : List ℤ) (t : Int) (x y : ℤ),
    js.length = ks.length → (∀ i : Nat, i < js.length → Spec.ConvexOnE c (g (t + i))) → (∀ j ∈ js, 0 ≤ j ∧ j ≤ c) → (∀ k ∈ ks, 0 ≤ k ∧ k ≤ c) →
    Spec.totalCost g (mv1 β inv) 1 t (lo x y) (List.zipWith lo js ks) + Spec.totalCost g (mv1 β inv) 1 t (hi x y) (List.zipWith hi js ks) ≤
      Spec.totalCost g (mv1 β inv) 1 t x js + Spec.totalCost g (mv1 β inv) 1 t y ks := by
  intro js
  induction js with
  | nil =>
    intro ks t x y hlen _ _ _
    have : ks = [] := List.length_eq_zero_iff.1 hlen.symm
    subst this
    exact le_rfl
  | cons j js ih =>
    intro ks t x y hlen hc hj hk
    cases ks with
    | nil => simp at hlen
    | cons k ks =>
      simp only [List.zipWith_cons_cons, Spec.totalCost]
      have h0 := hc 0 (by simp)
      simp only [Nat.cast_zero, add_zero] at h0
      have h1 := hit_mid h0 (hj j (by simp)) (hk k (by simp))
      have h2 : ((1 * mv1 β inv (lo x y) (lo j k) : ℚ) : ECost) + ((1 * mv1 β inv (hi x y) (hi j k) : ℚ) : ECost) ≤
          ((1 * mv1 β inv x j : ℚ) : ECost) + ((1 * mv1 β inv y k : ℚ) : ECost) := by
        rw [← WithTop.coe_add, ← WithTop.coe_add]
        refine WithTop.coe_le_coe.2 ?_
        rw [one_mul, one_mul, one_mul, one_mul]
        exact mv_mid hβ inv j k x y
      have h3 := ih ks (t + 1) j k (by simpa using hlen) (fun i hi => by
        have := hc (i + 1) (by simpa using hi)
        rw [Nat.cast_add, Nat.cast_one] at this
        rwa [show t + 1 + (i : Int) = t + (i + 1) by ring]) (fun j hm => hj j (List.mem_cons_of_mem _ hm))
        (fun j hm => hk j (List.mem_cons_of_mem _ hm))
      have := add_le_add (add_le_add h1 h2) h3
      refine le_trans (le_of_eq ?_) (this.trans (le_of_eq ?_)) <;> abel

theorem mem_zip {f : ℤ → ℤ → ℤ} : ∀ (js ks : List ℤ) (z : ℤ), z ∈ List.zipWith f js ks → ∃ j ∈ js, ∃ k ∈ ks, z = f j k := by
  intro js
  induction js with
  | nil => intro ks z hz; simp at hz
  | cons j js ih =>
    intro ks z hz
    cases ks with
    | nil => simp at hz
    | cons k ks =>
      rcases List.mem_cons.1 hz with rfl | hz
      · exact ⟨j, by simp, k, by simp, rfl⟩
      · obtain ⟨j', h1, k', h2, e⟩ := ih ks z hz
        exact ⟨j', List.mem_cons_of_mem _ h1, k', List.mem_cons_of_mem _ h2, e⟩

end Returns

open Returns Uni Lcp Window Fewer

/-- **C149** (one dimension). Three problems with the same convex costs and `a`, `b` and `c` servers, where `b` is at least the mean of `a`
and `c`. The optimal cost with `b` servers is at most the mean of the optimal costs with `a` and `c` servers. -/
theorem C149_one_dimension {p p' p'' : SSCO ℤ C D} {a b c : ℤ} {β : ℚ} {g : Int → ℤ → ECost} {n : Nat} (I : Spec.Inst p a β g n)
    (I' : Spec.Inst p' b β g n) (I'' : Spec.Inst p'' c β g n) (K : Spec.Costs c β g n) (h0 : 0 < a) (hab : a ≤ b) (hbc : b ≤ c)
    (hm : a + c ≤ 2 * b) (hfin : ∀ t : Int, 1 ≤ t → t ≤ n → g t a ≠ ⊤) (x : ℤ) (hx : x ≤ a) (o : OfflineOptions) (hl : o.l = none)
    (hα : 0 ≤ o.alpha) :
    ∃ P P' P'', Uni.optimalGraphSearch p x o = .ok P ∧ Uni.optimalGraphSearch p' x o = .ok P' ∧ Uni.optimalGraphSearch p'' x o = .ok P'' ∧
      P'.cost + P'.cost ≤ P.cost + P''.cost := by
  have hfin' : ∀ t : Int, 1 ≤ t → t ≤ n → g t b ≠ ⊤ := by
    intro t h1 h2
    rcases eq_or_lt_of_le hab with e | hab
    · rw [← e]; exact hfin t h1 h2
    rcases eq_or_lt_of_le hbc with e | hbc
    · rw [e]; exact K.fin t h1 h2
    obtain ⟨u, hu⟩ := WithTop.ne_top_iff_exists.1 (hfin t h1 h2)
    obtain ⟨v, hv⟩ := WithTop.ne_top_iff_exists.1 (K.fin t h1 h2)
    obtain ⟨w, hw, -⟩ := K.conv t h1 h2 a b c h0.le hab hbc le_rfl u v hu.symm hv.symm
    rw [hw]
    exact WithTop.coe_ne_top
  obtain ⟨P, js, a1, -, a3, a4⟩ := Replan.search_low I (costs_cut K h0 (hab.trans hbc) hfin) hx o hl hα
  obtain ⟨P', ls, b1, -, b3, b4⟩ := Replan.search_low I' (costs_cut K (h0.trans_le hab) hbc hfin') (hx.trans hab) o hl hα
  obtain ⟨P'', ks, c1, -, c3, c4⟩ := Replan.search_low I'' K (hx.trans (hab.trans hbc)) o hl hα
  refine ⟨P, P', P'', a1, b1, c1, ?_⟩
  rw [a3, b3, c3, Replan.weight js, Replan.weight ls, Replan.weight ks]
  have hlen : js.length = ks.length := a4.len.trans c4.len.symm
  have T := total_mid (c := c) (g := g) (mul_nonneg hα K.hβ.le) o.inverted js ks 1 x x hlen
    (fun i hi => K.conv _ (by omega) (by have := a4.len; omega))
    (fun j hj => ⟨(a4.box j hj).1, (a4.box j hj).2.trans (hab.trans hbc)⟩) c4.box
  have e1 : lo x x = x := by unfold lo; omega
  have e2 : hi x x = x := by unfold hi; omega
  rw [e1, e2] at T
  refine le_trans (add_le_add (b4.opt _ ?_ ?_) (b4.opt _ ?_ ?_)) T
  · rw [List.length_zipWith, ← hlen, min_self, a4.len]
  · intro z hz
    obtain ⟨j, hj, k, hk, rfl⟩ := mem_zip js ks z hz
    have h1 := a4.box j hj
    have h2 := c4.box k hk
    unfold lo
    omega
  · rw [List.length_zipWith, ← hlen, min_self, a4.len]
  · intro z hz
    obtain ⟨j, hj, k, hk, rfl⟩ := mem_zip js ks z hz
    have h1 := a4.box j hj
    have h2 := c4.box k hk
    unfold hi
    omega

/-- **C149** (data center). Let three data centers with one type of servers and jobs differ in their numbers of servers only. If the second
has at least the mean of the numbers of servers of the others, its optimal cost is at most the mean of their optimal costs. In particular
the second additional server saves at most as much as the first one. -/
theorem C149_single_type (S : Num.Solver) (hS : Spec.SolvesEmpty S) (m m' m'' : DataCenterModel) (F : Spec.Farm) (b c : ℤ)
    (h : Spec.IsFarm m F) (h' : Spec.IsFarm m' { F with servers := b }) (h'' : Spec.IsFarm m'' { F with servers := c }) (hF : F.Valid)
    (hab : F.servers ≤ b) (hbc : b ≤ c) (hm : F.servers + c ≤ 2 * b)
    (loads : List ℚ) (hl : ∀ l ∈ loads, F.Carries l) (o : OfflineOptions) (ho : o.l = none) (hα : 0 ≤ o.alpha) :
    ∃ p p' p'' P P' P'', m.toSSCO (T := ℤ) S (loads.map fun l => [l]) = .ok p ∧ m'.toSSCO (T := ℤ) S (loads.map fun l => [l]) = .ok p' ∧
      m''.toSSCO (T := ℤ) S (loads.map fun l => [l]) = .ok p'' ∧
      Uni.optimalGraphSearch p 0 o = .ok P ∧ Uni.optimalGraphSearch p' 0 o = .ok P' ∧ Uni.optimalGraphSearch p'' 0 o = .ok P'' ∧
      P'.cost + P'.cost ≤ P.cost + P''.cost ∧ P.cost ≠ ⊤ := by
  have val : ∀ s, F.servers ≤ s → Spec.Farm.Valid { F with servers := s } := fun s hs => { hF with servers := hF.servers.trans_le hs }
  have hl' : ∀ l ∈ loads, Spec.Farm.Carries { F with servers := c } l := by
    intro l hm
    obtain ⟨h0, h1, h2⟩ := hl l hm
    have hu : Spec.Farm.use { F with servers := c } l c ≤ F.use l F.servers := by
      unfold Spec.Farm.use
      apply div_le_div_of_nonneg_left (mul_nonneg hF.time h0)
      · exact mul_pos (by exact_mod_cast hF.servers) hF.slot
      · exact mul_le_mul_of_nonneg_right (by exact_mod_cast hab.trans hbc) hF.slot.le
    exact ⟨h0, hu.trans_lt h1, hu.trans h2⟩
  have pos : ∀ l ∈ loads, 0 ≤ l := fun l hm => (hl l hm).1
  obtain ⟨p, hp, I⟩ := C87_problem S hS m F h hF loads pos
  obtain ⟨p', hp', I'⟩ := C87_problem S hS m' _ h' (val b hab) loads pos
  obtain ⟨p'', hp'', I''⟩ := C87_problem S hS m'' _ h'' (val c (hab.trans hbc)) loads pos
  have K := C87_convex F hF loads hl
  have K'' := C87_convex _ (val c (hab.trans hbc)) loads hl'
  obtain ⟨P, P', P'', a1, a2, a3, a4⟩ := C149_one_dimension I I' I'' K'' hF.servers hab hbc hm K.fin 0 hF.servers.le o ho hα
  obtain ⟨P2, js, b1, -, b3, b4⟩ := Replan.search_low I K (x := 0) hF.servers.le o ho hα
  rw [a1] at b1
  obtain rfl := Except.ok.inj b1
  exact ⟨p, p', p'', P, P', P'', hp, hp', hp'', a1, a2, a3, a4, by rw [b3, Replan.weight js]; exact b4.fin⟩

/-! ## Examples -/

/-- The data center of `Ex.farm` with another number of servers. -/
def Ex.sizedModel (n : Nat) : DataCenterModel := { Ex.farmModel with locations := [⟨"a", fun _ => some n⟩] }

theorem Ex.sized_is (n : Nat) : Spec.IsFarm (Ex.sizedModel n) { Ex.farm with servers := n } :=
  ⟨_, _, _, _, rfl, rfl, rfl, rfl, rfl, rfl, rfl, fun _ _ => rfl, fun u => by
    simp only [Ex.sizedModel, Ex.farmModel, ConsumptionModel.consumption, lookup, bind, Except.bind, Ex.farm]
    congr 1
    ring, fun t p _ => rfl, rfl, ⟨_, rfl, by norm_num [SwitchingCost.switchingCost, Ex.farm]⟩, rfl⟩

/-- Non-vacuity of `C149_single_type` and so of `C149_one_dimension`: four, five and six servers. -/
example (S : Num.Solver) (hS : Spec.SolvesEmpty S) (inverted : Bool) := C149_single_type S hS Ex.farmModel (Ex.sizedModel 5) (Ex.sizedModel 6)
  Ex.farm 5 6 Ex.farm_is (Ex.sized_is 5) (Ex.sized_is 6) Ex.farm_valid (by decide) (by decide) (by decide) [3, 0, 7, 2] Ex.farm_carries
  ⟨inverted, 2, none⟩ rfl (by norm_num)

end Soco
