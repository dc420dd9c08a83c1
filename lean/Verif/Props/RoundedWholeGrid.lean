import Verif.Lemmas.RoundedWholeGrid
import Verif.Props.RoundedWhole
import Verif.Props.RoundedCost

/-!
# C126: whole costs in several dimensions, and the cost of a schedule
-/

namespace Soco
open Multi Spec

variable {C D : Type} [OutSuccess C] [OutFailure D]

/-! ## Graph searches in several dimensions -/

/-- **C126** Problems with any number of dimensions: if hitting costs are multiples of a unit `e` (at most `h` of them), if the cost of one
more server is too (at most `K` of them, scaled by `α`), and if rounding keeps the multiples up to what a path of the search can cost, the
search with rounded arithmetic is the exact search: the same schedule, the same cost, the same failures. -/
theorem C126_graph_search {fl : ℚ → ℚ} {e : ℚ} {N : Nat} (E : Spec.ExactTo fl e N) (p : SSCO ℤ C D) (hv : p.verify = .ok ())
    (hT : 0 ≤ p.tEnd) (h K a : Nat) (hβ : ∀ c ∈ p.switchingCost, ∃ n : Nat, c = n * e ∧ a * n ≤ K)
    (hit : ∀ t : Int, 1 ≤ t → t ≤ p.tEnd → ∀ x, Spec.InBox p.bounds x → ∀ c, p.toProb.hitCost t x = .ok c → Spec.Multiple e h c.cost)
    (o : OfflineOptions) (hα : o.alpha = a) (hN : p.tEnd.toNat * (2 * K * (p.bounds.map Int.toNat).sum + h) ≤ N) :
    Multi.Rounded.optimalGraphSearch fl p none o = Multi.optimalGraphSearch p none o := by
  have hv' : Spec.ValidSSCO p := by
    by_contra hc
    have := (C10_ssco_verify_exact p).2 hc
    rw [hv] at this; simp at this
  obtain ⟨v, h1, g, h2⟩ := allValues_grid p hv'
  obtain ⟨_, d1, d2, _⟩ := id hv'
  have e1 : v.boundIndices = p.bounds.map Int.toNat ∧ ∀ i, i < v.values.length → v.val i = i := by
    unfold allValues at h1
    split at h1
    · cases h1
    · cases h1
      refine ⟨rfl, fun i hi => ?_⟩
      simp only [List.length_map, List.length_range] at hi
      simp [Values.val, List.getD, hi]
  have U : Multi.Rounded.Units p v a e h K := by
    refine ⟨g, by have := g.toNat; have := g.bi; omega, ⟨1, le_rfl, fun b hb i hi => ?_, fun c hc => ?_⟩, fun t t1 t2 i hi c hc => ?_⟩
    · have := g.blt b hb
      rw [e1.2 (i + 1) (by omega), e1.2 i (by omega)]
      push_cast; omega
    · obtain ⟨n, n1, n2⟩ := hβ c hc
      exact ⟨n, n1, by rw [mul_one]; exact n2⟩
    · exact hit t t1 t2 _ ((h2 _).1 (onGrid_cfg g hi)) c hc
  simp only [Multi.Rounded.optimalGraphSearch, Multi.optimalGraphSearch, h1, bind, Except.bind]
  exact Multi.Rounded.graphSearch_whole E U hT o hα (by rw [e1.1]; exact hN)

/-- **C126** With 53 binary digits and whole costs (of any unit that is a power of two), the multi-dimensional search returns an optimal
schedule with its exact cost. -/
theorem C126_graph_search_optimal (z : ℤ) (p : SSCO ℤ C D) (hv : p.verify = .ok ()) (hT : 1 ≤ p.tEnd) (h K a : Nat)
    (hβ : ∀ c ∈ p.switchingCost, ∃ n : Nat, c = n * 2 ^ z ∧ a * n ≤ K) (hit : Int → Config ℤ → ECost)
    (hhit : ∀ t : Int, 1 ≤ t → t ≤ p.tEnd → ∀ x, Spec.InBox p.bounds x →
      Spec.Multiple (2 ^ z) h (hit t x) ∧ ∃ out, p.toProb.hitCost t x = .ok ⟨hit t x, out⟩)
    (hfin : ∀ t : Int, 1 ≤ t → t ≤ p.tEnd → hit t p.bounds ≠ ⊤)
    (o : OfflineOptions) (hl : o.l = none) (hα : o.alpha = a)
    (hN : p.tEnd.toNat * (2 * K * (p.bounds.map Int.toNat).sum + h) < 2 ^ 53) :
    ∃ r, Multi.Rounded.optimalGraphSearch Spec.double p none o = .ok r ∧ (r.path.xs.length : Int) = p.tEnd ∧
      (∀ x ∈ r.path.xs, Spec.InBox p.bounds x) ∧ r.path.cost ≠ ⊤ ∧
      (∃ out, p.toProb.alphaUnfairObjective r.path.xs o.alpha = .ok ⟨r.path.cost, out⟩) ∧
      ∀ ys : Schedule ℤ, (ys.length : Int) = p.tEnd → (∀ y ∈ ys, Spec.InBox p.bounds y) →
        ∃ c, p.toProb.alphaUnfairObjective ys o.alpha = .ok c ∧ r.path.cost ≤ c.cost := by
  rw [C126_graph_search (C126_double z) p hv (by omega) h K a hβ
    (fun t h1 h2 x hx c hc => by
      obtain ⟨m, out, ho⟩ := hhit t h1 h2 x hx
      rw [ho] at hc
      rw [← Except.ok.inj hc]
      exact m) o hα (by omega)]
  exact C19_graph_search_optimal p hv hT o hl (by rw [hα]; positivity) hit (fun t h1 h2 x hx => (hhit t h1 h2 x hx).2) hfin

/-- **C126** The approximate search: with the same computed powers of `γ`, rounding the costs does not change the result (see C124 for the exact
search). Here a step may
change the number of servers by as much as the bound of its dimension. -/
theorem C126_approx_search {fl : ℚ → ℚ} {e : ℚ} {N : Nat} (E : Spec.ExactTo fl e N) {δ γ : ℚ} {k : Nat} {pw : Nat → ℚ}
    (P : Spec.Powers δ γ k pw) (hγ : 1 < γ) (p : SSCO ℤ C D) (hv : p.verify = .ok ()) (hT : 0 ≤ p.tEnd)
    (hk : ∀ b ∈ p.bounds, (b : ℚ) + 1 ≤ (1 - δ) * γ ^ k) (h K a G : Nat) (hG : ∀ b ∈ p.bounds, b ≤ G)
    (hβ : ∀ c ∈ p.switchingCost, ∃ n : Nat, c = n * e ∧ a * n * G ≤ K)
    (hit : ∀ t : Int, 1 ≤ t → t ≤ p.tEnd → ∀ x, Spec.InBox p.bounds x → ∀ c, p.toProb.hitCost t x = .ok c → Spec.Multiple e h c.cost)
    (o : OfflineOptions) (hα : o.alpha = a) (hN : p.tEnd.toNat * (2 * K * (p.bounds.map Int.toNat).sum + h) ≤ N)
    (fuel : Nat) (hf : k ≤ fuel) :
    Multi.Rounded.approxGraphSearch fl pw fuel p none o = Multi.Rounded.approxGraphSearch (fun x => x) pw fuel p none o := by
  have hv' : Spec.ValidSSCO p := by
    by_contra hc
    have := (C10_ssco_verify_exact p).2 hc
    rw [hv] at this; simp at this
  obtain ⟨v, h1, g, h2⟩ := Multi.Rounded.approx_grid p hv' P hγ hk
  have hsum := Multi.Rounded.indices_le g
  have hd := g.toNat
  have hpos : 0 < v.boundIndices.length := by
    obtain ⟨_, d1, d2, _⟩ := hv'
    omega
  have hbound : ∀ b ∈ v.boundIndices, v.val b ≤ G := by
    intro b hb
    refine hG _ ?_
    rw [g.bounds]
    exact List.mem_map.2 ⟨b, hb, rfl⟩
  have hG1 : 1 ≤ G := by
    have hb := Multi.Rounded.getD_mem hpos
    have := hbound _ hb
    have h0 : v.val 0 = 0 := by simp [Values.val, List.getD, g.zero]
    have := g.val_lt (i := 0) (j := v.boundIndices.getD 0 0) (g.bpos _ hb) (g.blt _ hb)
    omega
  have U : Multi.Rounded.Units p v a e h K := by
    refine ⟨g, hpos, ⟨G, hG1, fun b hb i hi => ?_, hβ⟩, fun t t1 t2 i hi c hc => ?_⟩
    · have hblt := g.blt b hb
      have := hbound b hb
      have := g.val_le (i := i + 1) (j := b) hi hblt
      have := g.val_le (i := 0) (j := i) (Nat.zero_le _) (by omega)
      have h0 : v.val 0 = 0 := by simp [Values.val, List.getD, g.zero]
      omega
    · exact hit t t1 t2 _ (onGrid_cfg g hi).1 c hc
  simp only [Multi.Rounded.approxGraphSearch, Multi.Rounded.graphSearch_id, h1 fuel hf, Option.map_some, bind, Except.bind]
  rw [Multi.Rounded.graphSearch_whole E U hT o hα (le_trans (Nat.mul_le_mul_left _ (by
    have := Nat.mul_le_mul_left (2 * K) hsum
    omega)) hN)]

/-! ## The cost of a schedule -/

namespace Rounded

variable {fl : ℚ → ℚ} {e : ℚ} {N : Nat}

/-- `b` is computed for the exact cost `a`: it is `a`, if `a` is infinite or at most `N` units. -/
def Agree (e : ℚ) (N : Nat) (a b : ECost) : Prop := (∃ n, Multiple e n a) ∧ (Multiple e N a → b = a)

theorem Agree.add (E : ExactTo fl e N) {a b a' b' : ECost} (H : Agree e N a b) (H' : Agree e N a' b') :
    Agree e N (a + a') (addFl fl b b') := by
  obtain ⟨⟨n, hn⟩, h1⟩ := H
  obtain ⟨⟨n', hn'⟩, h1'⟩ := H'
  refine ⟨⟨n + n', hn.add hn'⟩, fun hm => ?_⟩
  rcases hn with rfl | ⟨k, hk, rfl⟩
  · rw [h1 (Or.inl rfl)]
    simp [addFl]
  rcases hn' with rfl | ⟨k', hk', rfl⟩
  · rw [h1' (Or.inl rfl)]
    simp [addFl]
  rcases hm with hm | ⟨j, hj, hm⟩
  · exact absurd hm (by rw [← WithTop.coe_add]; exact WithTop.coe_ne_top)
  rw [← WithTop.coe_add] at hm
  have h2 : (k * e + k' * e : ℚ) = j * e := WithTop.coe_injective hm
  have h3 : ((k + k' : ℕ) : ℚ) = (j : ℚ) := by
    rw [← add_mul] at h2
    push_cast
    exact mul_right_cancel₀ E.pos.ne' h2
  have h4 : k + k' = j := by exact_mod_cast h3
  rw [h1 (Or.inr ⟨k, by omega, rfl⟩), h1' (Or.inr ⟨k', by omega, rfl⟩)]
  exact E.addFl (a := k) (b := k') (Or.inr ⟨k, le_rfl, rfl⟩) (Or.inr ⟨k', le_rfl, rfl⟩) (by omega)

theorem weightedSum_whole (E : ExactTo fl e N) : ∀ (x : Config ℤ) (bs : List ℚ) (k : ℚ), (∀ b ∈ bs, ∃ n : Nat, b = n * e) →
    (∀ j ∈ x, 0 ≤ j) → Soco.weightedSum bs x = .ok k → ∃ M : Nat, k = M * e ∧
      ∀ acc, ∃ c, weightedSum fl acc bs x = .ok c ∧ ∀ A : Nat, acc = A * e → A + M ≤ N → c = ((A + M : ℕ) : ℚ) * e := by
  intro x
  induction x with
  | nil =>
    intro bs k _ _ hk
    have : k = 0 := by
      cases bs <;> exact (Except.ok.inj hk).symm
    subst this
    exact ⟨0, by simp, fun acc => ⟨acc, by cases bs <;> rfl, fun A hA _ => by simpa using hA⟩⟩
  | cons j x ih =>
    intro bs k hb hx hk
    rcases bs with _ | ⟨b, bs⟩
    · cases hk
    · simp only [Soco.weightedSum, bind, Except.bind] at hk
      rcases hr : Soco.weightedSum bs x with e | r
      · rw [hr] at hk; cases hk
      rw [hr] at hk
      have hk' : b * (j : ℚ) + r = k := Except.ok.inj hk
      obtain ⟨n, hn⟩ := hb b (by simp)
      obtain ⟨m, hm⟩ := Int.eq_ofNat_of_zero_le (hx j (by simp))
      obtain ⟨M, h1, h2⟩ := ih bs r (fun b hb' => hb b (by simp [hb'])) (fun j hj => hx j (by simp [hj])) hr
      have e1 : b * (j : ℚ) = ((n * m : ℕ) : ℚ) * e := by
        rw [hn, hm]; push_cast; ring
      refine ⟨n * m + M, ?_, fun acc => ?_⟩
      · rw [← hk', e1, h1]; push_cast; ring
      · obtain ⟨c, c1, c2⟩ := h2 (fl (acc + fl (b * (j : ℚ))))
        refine ⟨c, c1, fun A hA hN => ?_⟩
        rw [c2 (A + n * m) ?_ (by omega), Nat.add_assoc]
        rw [e1, E.exact _ (by omega), hA, ← add_mul, ← Nat.cast_add, E.exact _ (by omega)]

theorem slotCost_whole (E : ExactTo fl e N) (p : SSCO ℤ C D) (a : Nat) (ha : 1 ≤ a) (inverted : Bool) (t : Int)
    (prevX x : Config ℤ) (hb : ∀ b ∈ p.switchingCost, ∃ n : Nat, b = n * e)
    (hhit : ∀ c, p.toProb.hitOrNone t x = .ok c → ∃ n, Multiple e n c.cost) (c : Cost C D)
    (hc : p.toProb.slotCost a inverted t prevX x = .ok c) :
    ∃ b, slotCost fl p a inverted t prevX x = .ok b ∧ b.output = c.output ∧ Agree e N c.cost b.cost := by
  unfold Prob.slotCost at hc
  unfold slotCost
  rcases hh : p.toProb.hitOrNone t x with x' | h
  · rw [hh] at hc; cases hc
  rw [hh] at hc
  have hmv : p.toProb.movement prevX x inverted = Soco.scaledMovement p.switchingCost x prevX inverted := rfl
  simp only [bind, Except.bind, hmv, Soco.scaledMovement] at hc
  simp only [bind, Except.bind, scaledMovement]
  rcases hm : movementVec x prevX inverted with x' | m
  · rw [hm] at hc; cases hc
  rw [hm] at hc
  simp only at hc ⊢
  rcases hw : Soco.weightedSum p.switchingCost m with x' | w
  · rw [hw] at hc; cases hc
  rw [hw] at hc
  cases Except.ok.inj hc
  obtain ⟨_, h2⟩ := movementVec_nonneg x prevX inverted m hm
  obtain ⟨M, h3, h4⟩ := weightedSum_whole E m p.switchingCost w hb h2 hw
  obtain ⟨r, h5, h6⟩ := h4 0
  rw [h5]
  refine ⟨_, rfl, rfl, ?_⟩
  refine Agree.add E ⟨hhit h hh, fun _ => rfl⟩ ?_
  have e1 : (a : ℚ) * w = ((a * M : ℕ) : ℚ) * e := by rw [h3]; push_cast; ring
  refine ⟨⟨a * M, Or.inr ⟨a * M, le_rfl, by rw [e1]⟩⟩, fun hm => ?_⟩
  rcases hm with hm | ⟨j, hj, hm⟩
  · exact absurd hm WithTop.coe_ne_top
  have hm : (a : ℚ) * w = j * e := WithTop.coe_injective hm
  rw [e1] at hm
  have h7 : a * M = j := by exact_mod_cast mul_right_cancel₀ E.pos.ne' hm
  have h8 : M ≤ a * M := Nat.le_mul_of_pos_left _ ha
  have h9 := h6 0 (by simp) (by omega)
  rw [zero_add] at h9
  rw [h9, ← h3, e1, E.exact _ (by omega)]

/-- The same for costs with their outputs. -/
def AgreeC (e : ℚ) (N : Nat) (a b : Cost C D) : Prop := b.output = a.output ∧ Agree e N a.cost b.cost

omit [OutFailure D] in
theorem AgreeC.add (E : ExactTo fl e N) {a b a' b' : Cost C D} (H : AgreeC e N a b) (H' : AgreeC e N a' b') :
    AgreeC e N (a.add a') (addCost fl b b') :=
  ⟨by simp [addCost, Cost.add, H.1, H'.1], H.2.add E H'.2⟩

omit [OutSuccess C] [OutFailure D] in
theorem AgreeC.dflt : AgreeC e N (Cost.dflt : Cost C D) Cost.dflt :=
  ⟨rfl, ⟨0, Multiple.zero 0⟩, fun _ => rfl⟩

omit [OutFailure D] in
theorem foldl_whole (E : ExactTo fl e N) : ∀ (as bs : List (Cost C D)) (a b : Cost C D),
    List.Forall₂ (AgreeC e N) as bs → AgreeC e N a b → AgreeC e N (as.foldl Cost.add a) (bs.foldl (addCost fl) b) := by
  intro as bs a b h
  induction h generalizing a b with
  | nil => exact id
  | cons h _ ih => exact fun H => ih _ _ (H.add E h)

omit [OutSuccess C] [OutFailure D] in
theorem mapM_whole {ex ro : Int → Res (Cost C D)} : ∀ ts : List Int,
    (∀ t ∈ ts, ∃ a b, ex t = .ok a ∧ ro t = .ok b ∧ AgreeC e N a b) →
    ∃ as bs, ts.mapM ex = .ok as ∧ ts.mapM ro = .ok bs ∧ List.Forall₂ (AgreeC e N) as bs := by
  intro ts
  induction ts with
  | nil => intro _; exact ⟨[], [], rfl, rfl, .nil⟩
  | cons t ts ih =>
    intro h
    obtain ⟨as, bs, h1, h2, h3⟩ := ih fun t ht => h t (by simp [ht])
    obtain ⟨a, b, h5, h6, h7⟩ := h t (by simp)
    refine ⟨a :: as, b :: bs, ?_, ?_, .cons h7 h3⟩
    · simp [List.mapM_cons, h5, h1, bind, Except.bind, pure, Except.pure]
    · simp [List.mapM_cons, h6, h2, bind, Except.bind, pure, Except.pure]

omit [OutFailure D] in
theorem sumSplit_whole [AssocMerge C] (E : ExactTo fl e N) {ex ro : Int → Res (Cost C D)} : ∀ s : Split Int,
    (∀ t ∈ s.toList, ∃ a b, ex t = .ok a ∧ ro t = .ok b ∧ AgreeC e N a b) →
    ∃ as b, s.toList.mapM ex = .ok as ∧ sumSplit fl ro s = .ok b ∧ AgreeC e N (Cost.sum as) b := by
  intro s
  induction s with
  | chunk ts =>
    intro h
    obtain ⟨as, bs, h1, h2, h3⟩ := mapM_whole ts h
    refine ⟨as, sumCosts fl [Cost.dflt, sumCosts fl bs], h1, by simp only [sumSplit, bind, Except.bind, h2], ?_⟩
    have h5 : AgreeC e N (Cost.sum as) (sumCosts fl bs) := by
      cases h3 with
      | nil => exact AgreeC.dflt
      | cons h h' => exact foldl_whole E _ _ _ _ h' h
    have h6 := AgreeC.dflt.add E h5
    rw [Cost.dflt_add] at h6
    exact h6
  | node l r ihl ihr =>
    intro h
    obtain ⟨as, b, h1, h2, h3⟩ := ihl fun t ht => h t (by simp [Split.toList, ht])
    obtain ⟨as', b', h1', h2', h3'⟩ := ihr fun t ht => h t (by simp [Split.toList, ht])
    refine ⟨as ++ as', addCost fl b b', ?_, by simp only [sumSplit, bind, Except.bind, h2, h2']; rfl, ?_⟩
    · simp [Split.toList, List.mapM_append, h1, h1', bind, Except.bind, pure, Except.pure]
    · rw [Cost.sum_append]
      exact h3.add E h3'

end Rounded

/-- **C126** The cost of a schedule of integers: if hitting and switching costs are multiples of a unit, and if the cost of the schedule
is infinite or at most `N` units, the computation with rounded arithmetic returns exactly this cost with the same output of the model,
however the slots are split for the parallel sum. -/
theorem C126_objective [AssocMerge C] {fl : ℚ → ℚ} {e : ℚ} {N : Nat} (E : Spec.ExactTo fl e N) (p : SSCO ℤ C D) (xs : Schedule ℤ)
    (dflt : Config ℤ) (a : Nat) (ha : 1 ≤ a) (inverted : Bool) (hβ : ∀ b ∈ p.switchingCost, ∃ n : Nat, b = n * e)
    (hit : ∀ t : Int, 1 ≤ t → t ≤ p.tEnd → ∀ c, p.toProb.hitCost t ((xs.get t).getD dflt) = .ok c → ∃ n, Spec.Multiple e n c.cost)
    (s : Split Int) (hT : s.toList = timeRange 1 p.tEnd)
    (k : Cost C D) (hk : p.toProb.objectiveWithDefault' xs dflt a inverted p.tEnd = .ok k) (hN : Spec.Multiple e N k.cost) :
    Rounded.objective fl s p xs dflt a inverted = .ok k := by
  obtain ⟨cs, hcs⟩ : ∃ cs, (timeRange 1 p.tEnd).mapM (fun t =>
      p.toProb.slotCost a inverted t ((xs.get (t - 1)).getD dflt) ((xs.get t).getD dflt)) = .ok cs := by
    unfold Prob.objectiveWithDefault' sumOverSchedule at hk
    rcases h : (timeRange 1 p.tEnd).mapM (fun t =>
      p.toProb.slotCost a inverted t ((xs.get (t - 1)).getD dflt) ((xs.get t).getD dflt)) with e | cs
    · rw [h] at hk; cases hk
    · exact ⟨cs, rfl⟩
  have hslot : ∀ t ∈ s.toList, ∃ c b,
      p.toProb.slotCost a inverted t ((xs.get (t - 1)).getD dflt) ((xs.get t).getD dflt) = .ok c ∧
      Rounded.slotCost fl p a inverted t ((xs.get (t - 1)).getD dflt) ((xs.get t).getD dflt) = .ok b ∧
      Rounded.AgreeC e N c b := by
    intro t ht
    rw [hT] at ht
    have ht1 : 1 ≤ t := by
      unfold timeRange at ht
      obtain ⟨i, _, rfl⟩ := List.mem_map.1 ht
      omega
    obtain ⟨c, hc⟩ := Rounded.mapM_mem _ _ hcs t ht
    obtain ⟨b, h1, h2, h3⟩ := Rounded.slotCost_whole E p a ha inverted t _ _ hβ (by
      intro c hc
      unfold Prob.hitOrNone at hc
      split at hc
      · cases Except.ok.inj hc
        exact ⟨0, Spec.Multiple.zero 0⟩
      · exact hit t ht1 (by rename_i hgt; exact not_lt.1 hgt) _ hc) c hc
    exact ⟨c, b, hc, h1, h2, h3⟩
  obtain ⟨as, b, h1, h2, h3, h4⟩ := Rounded.sumSplit_whole E s hslot
  rw [hT] at h1
  unfold Prob.objectiveWithDefault' sumOverSchedule at hk
  rw [h1] at hk
  cases Except.ok.inj hk
  unfold Rounded.objective
  rw [h2]
  have h5 := h4.2 hN
  obtain ⟨bc, bo⟩ := b
  simp only at h3 h5
  rw [h3, h5]

/-- **C126** So the computed cost does not depend on the scheduling of threads, unlike in general (`C121_split_counterexample`). -/
theorem C126_split_independent [AssocMerge C] {fl : ℚ → ℚ} {e : ℚ} {N : Nat} (E : Spec.ExactTo fl e N) (p : SSCO ℤ C D) (xs : Schedule ℤ)
    (dflt : Config ℤ) (a : Nat) (ha : 1 ≤ a) (inverted : Bool) (hβ : ∀ b ∈ p.switchingCost, ∃ n : Nat, b = n * e)
    (hit : ∀ t : Int, 1 ≤ t → t ≤ p.tEnd → ∀ c, p.toProb.hitCost t ((xs.get t).getD dflt) = .ok c → ∃ n, Spec.Multiple e n c.cost)
    (s s' : Split Int) (hT : s.toList = timeRange 1 p.tEnd) (hT' : s'.toList = timeRange 1 p.tEnd)
    (k : Cost C D) (hk : p.toProb.objectiveWithDefault' xs dflt a inverted p.tEnd = .ok k) (hN : Spec.Multiple e N k.cost) :
    Rounded.objective fl s p xs dflt a inverted = Rounded.objective fl s' p xs dflt a inverted := by
  rw [C126_objective E p xs dflt a ha inverted hβ hit s hT k hk hN, C126_objective E p xs dflt a ha inverted hβ hit s' hT' k hk hN]

/-! ## Examples -/

/-- Two types of servers, costs in gridHalves. -/
def Ex.gridHalves : SSCO ℤ Unit Unit where
  d := 2
  tEnd := 3
  bounds := [2, 1]
  switchingCost := [3 / 2, 1]
  hittingCost := CostFn.new 1 (SingleCostFn.certain fun t x =>
    .ok (Cost.raw ((((|x.getD 0 0 + 2 * x.getD 1 0 - t| : ℤ) : ℚ) / 2 : ℚ) : ECost)))

theorem Ex.gridHalves_multiple (t : Int) (h1 : 1 ≤ t) (h2 : t ≤ 3) (x : Config ℤ) (hx : Spec.InBox Ex.gridHalves.bounds x) :
    Spec.Multiple (2 ^ (-1 : ℤ)) 6 ((((|x.getD 0 0 + 2 * x.getD 1 0 - t| : ℤ) : ℚ) / 2 : ℚ) : ECost) := by
  cases hx with
  | @cons _ j _ l a1 hx' =>
    cases hx' with
    | @cons _ k _ l' a2 hx'' =>
      simp only [List.getD_cons_zero, List.getD_cons_succ]
      refine Or.inr ⟨|j + 2 * k - t|.toNat, ?_, ?_⟩
      · have := a1.1
        have := a1.2
        have := a2.1
        have := a2.2
        rcases abs_cases (j + 2 * k - t) with ⟨e, _⟩ | ⟨e, _⟩ <;> rw [e] <;> omega
      · have h : (((|j + 2 * k - t|.toNat : ℕ) : ℤ) : ℚ) = ((|j + 2 * k - t| : ℤ) : ℚ) := by rw [Int.toNat_of_nonneg (abs_nonneg _)]
        rw [← h, Int.cast_natCast, zpow_neg_one, div_eq_mul_inv]

theorem Ex.gridHalves_hit (t : Int) (h1 : 1 ≤ t) (x : Config ℤ) (hx : Spec.InBox Ex.gridHalves.bounds x) :
    ∃ out, Ex.gridHalves.toProb.hitCost t x = .ok ⟨((((|x.getD 0 0 + 2 * x.getD 1 0 - t| : ℤ) : ℚ) / 2 : ℚ) : ECost), out⟩ := by
  have hlen : x.length = Ex.gridHalves.bounds.length := (List.Forall₂.length_eq hx).symm
  show ∃ out, Ex.gridHalves.hittingCost.callMeanWithinBounds t x _ = _
  rw [((C06_guarded_evaluation Ex.gridHalves.hittingCost t Ex.gridHalves.bounds x hlen).1 hx).1]
  exact ⟨_, CostFn.callMean_certain _ t h1 x⟩

/-- C126 applies to two dimensions, with costs in gridHalves. -/
example (inverted : Bool) := C126_graph_search_optimal (-1) Ex.gridHalves (by decide +kernel) (by decide) 6 6 2
  (by
    intro c hc
    simp only [Ex.gridHalves, List.mem_cons, List.not_mem_nil, or_false] at hc
    rcases hc with rfl | rfl
    · exact ⟨3, by norm_num, by norm_num⟩
    · exact ⟨2, by norm_num, by norm_num⟩)
  (fun t x => ((((|x.getD 0 0 + 2 * x.getD 1 0 - t| : ℤ) : ℚ) / 2 : ℚ) : ECost))
  (fun t h1 h2 x hx => ⟨Ex.gridHalves_multiple t h1 h2 x hx, Ex.gridHalves_hit t h1 x hx⟩)
  (fun _ _ _ => WithTop.coe_ne_top) ⟨inverted, 2, none⟩ rfl (by norm_num)
  (by decide)

/-- C126 applies to the approximate search with `γ = 3/2`. -/
example (inverted : Bool) := C126_approx_search (C126_double (-1)) (C124_powers (3 / 2) (by norm_num) 6) (by norm_num) Ex.gridHalves
  (by decide +kernel) (by decide) (by simp [Ex.gridHalves]; norm_num) 6 6 1 2 (by decide)
  (by
    intro c hc
    simp only [Ex.gridHalves, List.mem_cons, List.not_mem_nil, or_false] at hc
    rcases hc with rfl | rfl
    · exact ⟨3, by norm_num, by norm_num⟩
    · exact ⟨2, by norm_num, by norm_num⟩)
  (fun t h1 h2 x hx c hc => by
    obtain ⟨out, ho⟩ := Ex.gridHalves_hit t h1 x hx
    rw [ho] at hc
    rw [← Except.ok.inj hc]
    exact Ex.gridHalves_multiple t h1 h2 x hx) ⟨inverted, 1, none⟩ (by norm_num) (by decide)

/-- C126 applies to the cost of a schedule, for every split. -/
example (s : Split Int) (hs : s.toList = timeRange 1 3) :
    (Rounded.objective Spec.double s Ex.gridHalves [[1, 0], [0, 1], [1, 1]] [0, 0] 1 false).map (·.cost) = .ok ((4 : ℚ) : ECost) := by
  have h0 : (Ex.gridHalves.toProb.objectiveWithDefault' [[1, 0], [0, 1], [1, 1]] [0, 0] 1 false 3).map (·.cost) = .ok ((4 : ℚ) : ECost) := by
    decide +kernel
  rcases hk : Ex.gridHalves.toProb.objectiveWithDefault' [[1, 0], [0, 1], [1, 1]] [0, 0] 1 false 3 with e | k
  · rw [hk] at h0; cases h0
  rw [hk] at h0
  have h1 : k.cost = ((4 : ℚ) : ECost) := Except.ok.inj h0
  have := C126_objective (C126_double (-1)) Ex.gridHalves [[1, 0], [0, 1], [1, 1]] [0, 0] 1 le_rfl false
    (by
      intro c hc
      simp only [Ex.gridHalves, List.mem_cons, List.not_mem_nil, or_false] at hc
      rcases hc with rfl | rfl
      · exact ⟨3, by norm_num⟩
      · exact ⟨2, by norm_num⟩)
    (by
      intro t h1 h2 c hc
      have h2 : t ≤ 3 := h2
      have hx : Spec.InBox Ex.gridHalves.bounds ((Schedule.get [[1, 0], [0, 1], [1, 1]] t).getD [(0 : ℤ), 0]) := by
        interval_cases t <;> exact .cons (by decide) (.cons (by decide) .nil)
      obtain ⟨out, ho⟩ := Ex.gridHalves_hit t h1 _ hx
      rw [ho] at hc
      rw [← Except.ok.inj hc]
      exact ⟨6, Ex.gridHalves_multiple t h1 h2 _ hx⟩)
    s hs k (by rw [Nat.cast_one]; exact hk) (Or.inr ⟨8, by norm_num, by rw [h1]; norm_num⟩)
  rw [Nat.cast_one] at this
  rw [this]
  exact h0

end Soco
