import Verif.Model.RoundedCost
import Verif.Spec.Rounding
import Verif.Props.Outputs
import Verif.Props.Rounding
import Mathlib.Tactic.IntervalCases
import Mathlib.Tactic.Positivity

/-!
# C121: rounding and parallel summation of the cost of a schedule
-/

namespace Soco.Rounded

variable {C D : Type} [OutSuccess C] [OutFailure D]

/-- `y` is the exact value `x ≥ 0` after at most `n` roundings. -/
def NearQ (u : ℚ) (n : Nat) (x y : ℚ) : Prop := 0 ≤ x ∧ (1 - u) ^ n * x ≤ y ∧ y ≤ (1 + u) ^ n * x

variable {fl : ℚ → ℚ} {u : ℚ}

theorem NearQ.refl {x : ℚ} (hx : 0 ≤ x) : NearQ u 0 x x := ⟨hx, by simp, by simp⟩

theorem NearQ.mono (R : Spec.Rounds u fl) {n m : Nat} (h : n ≤ m) {x y : ℚ} (H : NearQ u n x y) : NearQ u m x y := by
  obtain ⟨h0, h1, h2⟩ := H
  have hu := R.nonneg
  have hu1 := R.lt_one
  refine ⟨h0, le_trans ?_ h1, h2.trans ?_⟩
  · exact mul_le_mul_of_nonneg_right (pow_le_pow_of_le_one (by linarith) (by linarith) h) h0
  · exact mul_le_mul_of_nonneg_right (pow_le_pow_right₀ (by linarith) h) h0

theorem NearQ.pos (R : Spec.Rounds u fl) {n : Nat} {x y : ℚ} (H : NearQ u n x y) : 0 ≤ y :=
  le_trans (mul_nonneg (pow_nonneg (by linarith [R.lt_one]) n) H.1) H.2.1

theorem NearQ.round (R : Spec.Rounds u fl) {n : Nat} {x y : ℚ} (H : NearQ u n x y) : NearQ u (n + 1) x (fl y) := by
  obtain ⟨h0, h1, h2⟩ := id H
  have hu := R.nonneg
  have hu1 := R.lt_one
  have hy := H.pos R
  refine ⟨h0, le_trans ?_ (R.below y hy), (R.above y hy).trans ?_⟩
  · rw [pow_succ', mul_assoc]
    exact mul_le_mul_of_nonneg_left h1 (by linarith)
  · rw [pow_succ', mul_assoc]
    exact mul_le_mul_of_nonneg_left h2 (by linarith)

theorem NearQ.add {n : Nat} {x y x' y' : ℚ} (H : NearQ u n x y) (H' : NearQ u n x' y') : NearQ u n (x + x') (y + y') :=
  ⟨add_nonneg H.1 H'.1, by rw [mul_add]; exact add_le_add H.2.1 H'.2.1, by rw [mul_add]; exact add_le_add H.2.2 H'.2.2⟩

theorem NearQ.scale {n : Nat} {x y a : ℚ} (ha : 0 ≤ a) (H : NearQ u n x y) : NearQ u n (a * x) (a * y) :=
  ⟨mul_nonneg ha H.1, by rw [mul_left_comm]; exact mul_le_mul_of_nonneg_left H.2.1 ha,
    by rw [mul_left_comm]; exact mul_le_mul_of_nonneg_left H.2.2 ha⟩

/-- The same, for costs which may be infinite. -/
def Near (u : ℚ) (n : Nat) (a b : ECost) : Prop :=
  (a = ⊤ ∧ b = ⊤) ∨ ∃ x y : ℚ, a = (x : ECost) ∧ b = (y : ECost) ∧ NearQ u n x y

theorem Near.mono (R : Spec.Rounds u fl) {n m : Nat} (h : n ≤ m) {a b : ECost} (H : Near u n a b) : Near u m a b := by
  rcases H with H | ⟨x, y, hx, hy, H⟩
  · exact .inl H
  · exact .inr ⟨x, y, hx, hy, H.mono R h⟩

theorem Near.add (R : Spec.Rounds u fl) {n : Nat} {a b a' b' : ECost} (H : Near u n a b) (H' : Near u n a' b') :
    Near u (n + 1) (a + a') (addFl fl b b') := by
  rcases H with ⟨rfl, rfl⟩ | ⟨x, y, rfl, rfl, H⟩
  · left
    simp [addFl]
  rcases H' with ⟨rfl, rfl⟩ | ⟨x', y', rfl, rfl, H'⟩
  · left
    simp [addFl]
  · exact .inr ⟨x + x', fl (y + y'), rfl, rfl, (H.add H').round R⟩

theorem weightedSum_near (R : Spec.Rounds u fl) : ∀ (x : Config ℤ) (bs : List ℚ) (m : Nat) (acc acc' k : ℚ), 1 ≤ m →
    (∀ b ∈ bs, 0 ≤ b) → (∀ j ∈ x, 0 ≤ j) → NearQ u m acc acc' → Soco.weightedSum bs x = .ok k →
    ∃ c, weightedSum fl acc' bs x = .ok c ∧ NearQ u (m + x.length) (acc + k) c := by
  intro x
  induction x with
  | nil =>
    intro bs m acc acc' k _ _ _ H hk
    have : k = 0 := by
      cases bs <;> exact (Except.ok.inj hk).symm
    subst this
    exact ⟨acc', by cases bs <;> rfl, by simpa using H⟩
  | cons j x ih =>
    intro bs m acc acc' k hm hb hx H hk
    rcases bs with _ | ⟨b, bs⟩
    · cases hk
    · simp only [Soco.weightedSum, bind, Except.bind] at hk
      rcases hr : Soco.weightedSum bs x with e | r
      · rw [hr] at hk; cases hk
      rw [hr] at hk
      have hk' : b * (j : ℚ) + r = k := Except.ok.inj hk
      have hbj : 0 ≤ b * (j : ℚ) := mul_nonneg (hb b (by simp)) (by exact_mod_cast hx j (by simp))
      have h1 : NearQ u m (b * (j : ℚ)) (fl (b * (j : ℚ))) := ((NearQ.refl hbj).round R).mono R hm
      obtain ⟨c, hc, hn⟩ := ih bs (m + 1) _ _ r (by omega) (fun b hb' => hb b (by simp [hb'])) (fun j hj => hx j (by simp [hj]))
        ((H.add h1).round R) hr
      refine ⟨c, hc, ?_⟩
      rw [← hk', ← add_assoc]
      simpa [Nat.add_comm, Nat.add_left_comm, Nat.add_assoc] using hn

theorem movementVec_nonneg : ∀ (x y : Config ℤ) (inverted : Bool) (r : Config ℤ), movementVec x y inverted = .ok r →
    r.length = x.length ∧ ∀ j ∈ r, 0 ≤ j := by
  intro x
  induction x with
  | nil =>
    intro y inverted r h
    cases Except.ok.inj h
    simp
  | cons j x ih =>
    intro y inverted r h
    rcases y with _ | ⟨pj, y⟩
    · cases h
    · simp only [movementVec, bind, Except.bind] at h
      rcases hr : movementVec x y inverted with e | s
      · rw [hr] at h; cases h
      rw [hr] at h
      cases Except.ok.inj h
      obtain ⟨h1, h2⟩ := ih y inverted s hr
      refine ⟨by simp [h1], ?_⟩
      intro i hi
      rcases List.mem_cons.1 hi with rfl | hi
      · unfold scalarMovement pos umax
        split <;> split <;> omega
      · exact h2 i hi

theorem slotCost_near (R : Spec.Rounds u fl) (p : SSCO ℤ C D) (alpha : ℚ) (hα : 0 ≤ alpha) (inverted : Bool) (t : Int)
    (prevX x : Config ℤ) (n : Nat) (hn : x.length ≤ n) (hb : ∀ b ∈ p.switchingCost, 0 ≤ b)
    (hpos : ∀ c, p.toProb.hitOrNone t x = .ok c → 0 ≤ c.cost) (a : Cost C D)
    (ha : p.toProb.slotCost alpha inverted t prevX x = .ok a) :
    ∃ b, slotCost fl p alpha inverted t prevX x = .ok b ∧ b.output = a.output ∧ Near u (n + 3) a.cost b.cost := by
  unfold Prob.slotCost at ha
  unfold slotCost
  rcases hh : p.toProb.hitOrNone t x with e | h
  · rw [hh] at ha; cases ha
  rw [hh] at ha
  have hmv : p.toProb.movement prevX x inverted = Soco.scaledMovement p.switchingCost x prevX inverted := rfl
  simp only [bind, Except.bind, hmv, Soco.scaledMovement] at ha
  simp only [bind, Except.bind, scaledMovement]
  rcases hm : movementVec x prevX inverted with e | m
  · rw [hm] at ha; cases ha
  rw [hm] at ha
  simp only at ha ⊢
  rcases hw : Soco.weightedSum p.switchingCost m with e | w
  · rw [hw] at ha; cases ha
  rw [hw] at ha
  cases Except.ok.inj ha
  obtain ⟨h1, h2⟩ := movementVec_nonneg x prevX inverted m hm
  obtain ⟨c, hc, hcn⟩ := weightedSum_near R m p.switchingCost 1 0 0 w le_rfl hb h2 ((NearQ.refl le_rfl).mono R (by omega)) hw
  rw [hc]
  refine ⟨_, rfl, rfl, ?_⟩
  rw [zero_add] at hcn
  have h3 : NearQ u (n + 2) (alpha * w) (fl (alpha * c)) := ((hcn.scale hα).round R).mono R (by omega)
  refine Near.add (n := n + 2) R ?_ (.inr ⟨_, _, rfl, rfl, h3⟩)
  have h0 := hpos h hh
  obtain ⟨hc, ho⟩ := h
  simp only at h0 ⊢
  induction hc using WithTop.recTopCoe with
  | top => exact .inl ⟨rfl, rfl⟩
  | coe q =>
    exact .inr ⟨q, q, rfl, rfl, (NearQ.refl (by exact_mod_cast h0)).mono R (by omega)⟩

/-- Costs with equal outputs. -/
def NearC (u : ℚ) (n : Nat) (a b : Cost C D) : Prop := b.output = a.output ∧ Near u n a.cost b.cost

theorem NearC.mono (R : Spec.Rounds u fl) {n m : Nat} (h : n ≤ m) {a b : Cost C D} (H : NearC u n a b) : NearC u m a b :=
  ⟨H.1, H.2.mono R h⟩

theorem NearC.add (R : Spec.Rounds u fl) {n : Nat} {a b a' b' : Cost C D} (H : NearC u n a b) (H' : NearC u n a' b') :
    NearC u (n + 1) (a.add a') (addCost fl b b') :=
  ⟨by simp [addCost, Cost.add, H.1, H'.1], H.2.add R H'.2⟩

theorem NearC.dflt : NearC u 0 (Cost.dflt : Cost C D) Cost.dflt :=
  ⟨rfl, .inr ⟨0, 0, rfl, rfl, NearQ.refl le_rfl⟩⟩

theorem foldl_near (R : Spec.Rounds u fl) {n : Nat} : ∀ (as bs : List (Cost C D)) (m : Nat) (a b : Cost C D), n ≤ m →
    List.Forall₂ (NearC u n) as bs → NearC u m a b →
    NearC u (m + as.length) (as.foldl Cost.add a) (bs.foldl (addCost fl) b) := by
  intro as bs m a b hm h
  induction h generalizing m a b with
  | nil => intro H; simpa using H
  | cons h _ ih =>
    intro H
    have := ih (m + 1) _ _ (by omega) (H.add R (h.mono R hm))
    simpa [Nat.add_comm, Nat.add_left_comm, Nat.add_assoc] using this

theorem mapM_near {ex ro : Int → Res (Cost C D)} {n : Nat} : ∀ ts : List Int,
    (∀ t ∈ ts, ∃ a b, ex t = .ok a ∧ ro t = .ok b ∧ NearC u n a b) →
    ∃ as bs, ts.mapM ex = .ok as ∧ ts.mapM ro = .ok bs ∧ List.Forall₂ (NearC u n) as bs ∧ as.length = ts.length := by
  intro ts
  induction ts with
  | nil => intro _; exact ⟨[], [], rfl, rfl, .nil, rfl⟩
  | cons t ts ih =>
    intro h
    obtain ⟨as, bs, h1, h2, h3, h4⟩ := ih fun t ht => h t (by simp [ht])
    obtain ⟨a, b, h5, h6, h7⟩ := h t (by simp)
    refine ⟨a :: as, b :: bs, ?_, ?_, .cons h7 h3, by simp [h4]⟩
    · simp [List.mapM_cons, h5, h1, bind, Except.bind, pure, Except.pure]
    · simp [List.mapM_cons, h6, h2, bind, Except.bind, pure, Except.pure]

theorem mapM_mem {α β : Type} (f : α → Res β) : ∀ (ts : List α) {cs : List β}, ts.mapM f = .ok cs → ∀ t ∈ ts, ∃ a, f t = .ok a := by
  intro ts
  induction ts with
  | nil => intro cs _ t ht; simp at ht
  | cons s ts ih =>
    intro cs h t ht
    simp only [List.mapM_cons, bind, Except.bind, pure, Except.pure] at h
    rcases h1 : f s with e | a
    · rw [h1] at h; cases h
    rw [h1] at h
    rcases h2 : ts.mapM f with e | as
    · rw [h2] at h; cases h
    rcases List.mem_cons.1 ht with rfl | ht
    · exact ⟨a, h1⟩
    · exact ih h2 t ht

theorem toList_pos {α : Type} : ∀ s : Split α, s.Proper → 1 ≤ s.toList.length
  | .chunk xs, h => List.length_pos_iff.2 h
  | .node l r, h => by
    have := toList_pos l h.1
    simp only [Split.toList, List.length_append]
    omega

theorem sumSplit_near [AssocMerge C] (R : Spec.Rounds u fl) {ex ro : Int → Res (Cost C D)} {n : Nat} : ∀ s : Split Int, s.Proper →
    (∀ t ∈ s.toList, ∃ a b, ex t = .ok a ∧ ro t = .ok b ∧ NearC u n a b) →
    ∃ as b, s.toList.mapM ex = .ok as ∧ sumSplit fl ro s = .ok b ∧ NearC u (n + s.toList.length) (Cost.sum as) b := by
  intro s
  induction s with
  | chunk ts =>
    intro hp h
    obtain ⟨as, bs, h1, h2, h3, h4⟩ := mapM_near ts h
    refine ⟨as, sumCosts fl [Cost.dflt, sumCosts fl bs], h1, by simp only [sumSplit, bind, Except.bind, h2], ?_⟩
    simp only [Split.toList]
    cases h3 with
    | nil => exact absurd (List.length_eq_zero_iff.1 h4.symm) hp
    | cons h h' =>
      rename_i a b as bs
      have h5 := foldl_near R _ _ n _ _ le_rfl h' h
      have h6 := (NearC.dflt.mono R (Nat.zero_le _)).add R h5
      rw [Cost.dflt_add] at h6
      simp only [List.length_cons] at h4
      have : n + as.length + 1 = n + ts.length := by omega
      rw [this] at h6
      exact h6
  | node l r ihl ihr =>
    intro hp h
    obtain ⟨as, b, h1, h2, h3⟩ := ihl hp.1 fun t ht => h t (by simp [Split.toList, ht])
    obtain ⟨as', b', h1', h2', h3'⟩ := ihr hp.2 fun t ht => h t (by simp [Split.toList, ht])
    refine ⟨as ++ as', addCost fl b b', ?_, by simp only [sumSplit, bind, Except.bind, h2, h2']; rfl, ?_⟩
    · simp [Split.toList, List.mapM_append, h1, h1', bind, Except.bind, pure, Except.pure]
    · rw [Cost.sum_append]
      have e1 := toList_pos l hp.1
      have e2 := toList_pos r hp.2
      obtain ⟨m, hm⟩ : ∃ m, n + (l.toList ++ r.toList).length = m + 1 :=
        ⟨n + (l.toList.length + r.toList.length) - 1, by rw [List.length_append]; omega⟩
      rw [List.length_append] at hm
      have := (h3.mono R (m := m) (by omega)).add R (h3'.mono R (m := m) (by omega))
      rw [← hm] at this
      simpa only [Split.toList, List.length_append] using this

end Soco.Rounded

namespace Soco

variable {C D : Type} [OutSuccess C] [OutFailure D]

/-- **C121** The cost of a schedule of integers, computed by floating point operations with relative error at most `u`, where the
slots are summed in parallel, split in any way. If the exact cost is defined, then the computation succeeds with the same output of
the model, is infinite exactly if the exact cost is, and otherwise deviates from the exact cost `k` by at most the factors
`(1 - u)^N` and `(1 + u)^N`, where `N` is the number of slots, plus the number of dimensions, plus three. -/
theorem C121_objective [AssocMerge C] {fl : ℚ → ℚ} {u : ℚ} (R : Spec.Rounds u fl) (p : SSCO ℤ C D) (xs : Schedule ℤ)
    (dflt : Config ℤ) (alpha : ℚ) (hα : 0 ≤ alpha) (inverted : Bool) (d : Nat) (hd : ∀ x ∈ xs, x.length ≤ d) (hd' : dflt.length ≤ d)
    (hb : ∀ b ∈ p.switchingCost, 0 ≤ b)
    (hpos : ∀ t : Int, 1 ≤ t → t ≤ p.tEnd → ∀ c, p.toProb.hitCost t ((xs.get t).getD dflt) = .ok c → 0 ≤ c.cost)
    (s : Split Int) (hs : s.Proper) (hT : s.toList = timeRange 1 p.tEnd)
    (k : Cost C D) (hk : p.toProb.objectiveWithDefault' xs dflt alpha inverted p.tEnd = .ok k) :
    ∃ c, Rounded.objective fl s p xs dflt alpha inverted = .ok c ∧ c.output = k.output ∧ (c.cost = ⊤ ↔ k.cost = ⊤) ∧
      ∀ q : ℚ, k.cost = (q : ECost) → 0 ≤ q ∧ ∃ r : ℚ, c.cost = (r : ECost) ∧
        (1 - u) ^ (p.tEnd.toNat + d + 3) * q ≤ r ∧ r ≤ (1 + u) ^ (p.tEnd.toNat + d + 3) * q := by
  obtain ⟨cs, hcs⟩ : ∃ cs, (timeRange 1 p.tEnd).mapM (fun t =>
      p.toProb.slotCost alpha inverted t ((xs.get (t - 1)).getD dflt) ((xs.get t).getD dflt)) = .ok cs := by
    unfold Prob.objectiveWithDefault' sumOverSchedule at hk
    rcases h : (timeRange 1 p.tEnd).mapM (fun t =>
      p.toProb.slotCost alpha inverted t ((xs.get (t - 1)).getD dflt) ((xs.get t).getD dflt)) with e | cs
    · rw [h] at hk; cases hk
    · exact ⟨cs, rfl⟩
  have hslot : ∀ t ∈ s.toList, ∃ a b,
      p.toProb.slotCost alpha inverted t ((xs.get (t - 1)).getD dflt) ((xs.get t).getD dflt) = .ok a ∧
      Rounded.slotCost fl p alpha inverted t ((xs.get (t - 1)).getD dflt) ((xs.get t).getD dflt) = .ok b ∧
      Rounded.NearC u (d + 3) a b := by
    intro t ht
    rw [hT] at ht
    have ht1 : 1 ≤ t := by
      unfold timeRange at ht
      obtain ⟨i, _, rfl⟩ := List.mem_map.1 ht
      omega
    obtain ⟨a, ha⟩ := Rounded.mapM_mem _ _ hcs t ht
    have hx : ((xs.get t).getD dflt).length ≤ d := by
      rcases hg : xs.get t with _ | x
      · exact hd'
      · exact hd x (by
          unfold Schedule.get access at hg
          split at hg
          · exact List.mem_of_getElem? hg
          · cases hg)
    obtain ⟨b, h1, h2, h3⟩ := Rounded.slotCost_near R p alpha hα inverted t _ _ d hx hb (by
      intro c hc
      unfold Prob.hitOrNone at hc
      split at hc
      · cases Except.ok.inj hc
        exact le_rfl
      · exact hpos t ht1 (by rename_i hgt; exact not_lt.1 hgt) _ hc) a ha
    exact ⟨a, b, ha, h1, h2, h3⟩
  obtain ⟨as, b, h1, h2, h3, h4⟩ := Rounded.sumSplit_near R s hs hslot
  rw [hT] at h1
  unfold Prob.objectiveWithDefault' sumOverSchedule at hk
  rw [h1] at hk
  cases Except.ok.inj hk
  have hlen : s.toList.length = p.tEnd.toNat := by
    rw [hT]
    simp [timeRange]
  rw [show d + 3 + s.toList.length = p.tEnd.toNat + d + 3 by omega] at h4
  refine ⟨b, h2, h3, ?_, ?_⟩
  · rcases h4 with ⟨h5, h6⟩ | ⟨x, y, h5, h6, -⟩
    · simp [h5, h6]
    · simp [h5, h6]
  · intro q hq
    rcases h4 with ⟨h5, h6⟩ | ⟨x, y, h5, h6, h7⟩
    · rw [h5] at hq; cases hq
    · rw [h5] at hq
      cases hq
      exact ⟨h7.1, y, h6, h7.2⟩

/-- **C121** With 53 binary digits, and at most a billion slots and dimensions, computed costs are exact up to a millionth, however the
slots are split. -/
theorem C121_double [AssocMerge C] (p : SSCO ℤ C D) (xs : Schedule ℤ)
    (dflt : Config ℤ) (alpha : ℚ) (hα : 0 ≤ alpha) (inverted : Bool) (d : Nat) (hd : ∀ x ∈ xs, x.length ≤ d) (hd' : dflt.length ≤ d)
    (hb : ∀ b ∈ p.switchingCost, 0 ≤ b)
    (hpos : ∀ t : Int, 1 ≤ t → t ≤ p.tEnd → ∀ c, p.toProb.hitCost t ((xs.get t).getD dflt) = .ok c → 0 ≤ c.cost) (hN : p.tEnd.toNat + d + 3 ≤ 10 ^ 9)
    (s : Split Int) (hs : s.Proper) (hT : s.toList = timeRange 1 p.tEnd)
    (k : Cost C D) (hk : p.toProb.objectiveWithDefault' xs dflt alpha inverted p.tEnd = .ok k) :
    ∃ c, Rounded.objective Spec.double s p xs dflt alpha inverted = .ok c ∧ c.output = k.output ∧ (c.cost = ⊤ ↔ k.cost = ⊤) ∧
      ∀ q : ℚ, k.cost = (q : ECost) → ∃ r : ℚ, c.cost = (r : ECost) ∧ |r - q| ≤ 1 / 10 ^ 6 * q := by
  obtain ⟨c, h1, h2, h3, h4⟩ := C121_objective C120_double_rounds p xs dflt alpha hα inverted d hd hd' hb hpos s hs hT k hk
  refine ⟨c, h1, h2, h3, fun q hq => ?_⟩
  obtain ⟨hq0, r, hr, h5, h6⟩ := h4 q hq
  exact ⟨r, hr, Rounded.billion hN hq0 h5 h6⟩

/-- Three slots: a dear one, and two cheap ones. -/
def Ex.threeSlots : SSCO ℤ Unit Unit where
  d := 1
  tEnd := 3
  bounds := [1]
  switchingCost := [1]
  hittingCost := CostFn.new 1 (SingleCostFn.certain fun t _ => .ok (Cost.raw ((if t = 1 then 2 ^ 53 else 3 / 4 : ℚ) : ECost)))

/-- C121 applies: two splittings of three slots. -/
example (s : Split Int) (h : s = .node (.chunk [1, 2]) (.chunk [3]) ∨ s = .node (.chunk [1]) (.chunk [2, 3])) :
    ∃ c r, Rounded.objective Spec.double s Ex.threeSlots [[0], [1], [0]] [0] 1 false = .ok c ∧ c.cost = ((r : ℚ) : ECost) ∧
      |r - (2 ^ 53 + 5 / 2)| ≤ 1 / 10 ^ 6 * (2 ^ 53 + 5 / 2) := by
  have h0 : (Ex.threeSlots.toProb.objectiveWithDefault' [[0], [1], [0]] [0] 1 false 3).map (·.cost)
      = .ok ((2 ^ 53 + 5 / 2 : ℚ) : ECost) := by decide +kernel
  have hpos : ∀ t ∈ [1, 2, 3], ∀ x ∈ [[0], [1]], ∃ q : ℕ,
      (Ex.threeSlots.toProb.hitCost t x).map (·.cost) = .ok (((q : ℚ) / 4 : ℚ) : ECost) := by
    have e : ∀ t ∈ [1, 2, 3], ∀ x ∈ [[0], [1]], (Ex.threeSlots.toProb.hitCost t x).map (·.cost)
        = .ok ((((if t = 1 then 2 ^ 55 else 3 : ℕ) : ℚ) / 4 : ℚ) : ECost) := by decide +kernel
    exact fun t ht x hx => ⟨_, e t ht x hx⟩
  rcases hk : Ex.threeSlots.toProb.objectiveWithDefault' [[0], [1], [0]] [0] 1 false 3 with e | k
  · rw [hk] at h0; cases h0
  rw [hk] at h0
  obtain ⟨c, h1, _, _, h2⟩ := C121_double Ex.threeSlots [[0], [1], [0]] [0] 1 (by norm_num) false 1 (by decide) (by decide)
    (by decide +kernel) (by
      intro t ht ht' c hc
      have h3 : t ≤ 3 := ht'
      have h4 : t ∈ [1, 2, 3] ∧ (Schedule.get [[0], [1], [0]] t).getD [(0 : ℤ)] ∈ [[0], [1]] := by
        interval_cases t <;> decide
      obtain ⟨q, hq⟩ := hpos t h4.1 _ h4.2
      rw [hc] at hq
      rw [show c.cost = (((q : ℚ) / 4 : ℚ) : ECost) from Except.ok.inj hq]
      have : (0 : ℚ) ≤ (q : ℚ) / 4 := by positivity
      exact_mod_cast this)
    (by decide) s (by rcases h with rfl | rfl <;> simp [Split.Proper]) (by rcases h with rfl | rfl <;> decide) k hk
  obtain ⟨r, hr, hle⟩ := h2 _ (Except.ok.inj h0)
  exact ⟨c, r, h1, hr, hle⟩

/-- The computed cost does depend on how the parallel sum splits the slots, so on the scheduling of threads. -/
theorem C121_split_counterexample :
    (Rounded.objective Spec.double (.node (.chunk [1, 2]) (.chunk [3])) Ex.threeSlots [[0], [0], [0]] [0] 1 false).map (·.cost)
      = .ok ((2 ^ 53 : ℚ) : ECost) ∧
    (Rounded.objective Spec.double (.node (.chunk [1]) (.chunk [2, 3])) Ex.threeSlots [[0], [0], [0]] [0] 1 false).map (·.cost)
      = .ok ((2 ^ 53 + 2 : ℚ) : ECost) := by
  decide +kernel

end Soco
