import Verif.Props.Robust
import Verif.Props.Replan

/-!
# C111: plans for reversed time
-/

namespace Soco

variable {T C D : Type} [Value T] [OutSuccess C] [OutFailure D]

namespace Spec

/-- `p'` is `p` with time running backwards: slot `t` has the costs of slot `T + 1 - t`. -/
structure Reversed (p p' : SSCO T C D) : Prop where
  d : p'.d = p.d
  tEnd : p'.tEnd = p.tEnd
  bounds : p'.bounds = p.bounds
  switching : p'.switchingCost = p.switchingCost
  hit : ∀ t : Int, 1 ≤ t → t ≤ p.tEnd → ∀ x, InBox p.bounds x →
    ∃ c c', p.toProb.hitCost (p.tEnd + 1 - t) x = .ok c ∧ p'.toProb.hitCost t x = .ok c' ∧ c'.cost = c.cost

end Spec

namespace Reverse
open Robust

theorem move_append {X : Type} (mv : X → X → ℚ) : ∀ (xs ys : List X) (a : X),
    Spec.totalMove mv a (xs ++ ys) = Spec.totalMove mv a xs + Spec.totalMove mv (xs.getLastD a) ys := by
  intro xs
  induction xs with
  | nil => intro ys a; simp [Spec.totalMove]
  | cons x xs ih =>
    intro ys a
    simp only [List.cons_append, Spec.totalMove, ih, List.getLastD_cons]
    ring

theorem move_reverse {X : Type} (mv : X → X → ℚ) : ∀ (xs : List X) (a b : X),
    Spec.totalMove mv a (xs ++ [b]) = Spec.totalMove (fun y x => mv x y) b (xs.reverse ++ [a]) := by
  intro xs
  induction xs with
  | nil => intro a b; simp [Spec.totalMove]
  | cons x xs ih =>
    intro a b
    rw [List.cons_append, Spec.totalMove, ih, List.reverse_cons, move_append _ (xs.reverse ++ [x])]
    simp [Spec.totalMove]
    ring

theorem hit_snoc {X : Type} (hit : Int → X → ECost) : ∀ (xs : List X) (t : Int) (x : X),
    Spec.totalHit hit t (xs ++ [x]) = Spec.totalHit hit t xs + hit (t + xs.length) x := by
  intro xs
  induction xs with
  | nil => intro t x; simp [Spec.totalHit]
  | cons y xs ih =>
    intro t x
    simp only [List.cons_append, Spec.totalHit, ih, List.length_cons, Nat.cast_add, Nat.cast_one]
    rw [show t + 1 + (xs.length : Int) = t + ((xs.length : Int) + 1) by ring, add_assoc]

theorem hit_shift {X : Type} (hit : Int → X → ECost) : ∀ (xs : List X) (t : Int),
    Spec.totalHit hit (t + 1) xs = Spec.totalHit (fun u => hit (u + 1)) t xs := by
  intro xs
  induction xs with
  | nil => intro t; rfl
  | cons y xs ih => intro t; simp only [Spec.totalHit, ih]

theorem hit_reverse {X : Type} (hit : Int → X → ECost) : ∀ (xs : List X) (t : Int),
    Spec.totalHit (fun u => hit (2 * t + xs.length - 1 - u)) t xs.reverse = Spec.totalHit hit t xs := by
  intro xs
  induction xs with
  | nil => intro t; rfl
  | cons x xs ih =>
    intro t
    have h := ih (t + 1)
    rw [hit_shift] at h
    rw [List.reverse_cons, hit_snoc, Spec.totalHit, ← h, List.length_reverse, add_comm]
    congr 1
    · congr 1
      simp only [List.length_cons]; push_cast; ring
    · congr 1
      funext u
      congr 1
      simp only [List.length_cons]; push_cast; ring

theorem telescope {X : Type} (mv : X → X → ℚ) (w : X → ℚ) (S : X → Prop)
    (h : ∀ x y, S x → S y → mv x y = mv y x + (w y - w x)) : ∀ (xs : List X) (a : X), S a → (∀ x ∈ xs, S x) →
    Spec.totalMove mv a xs = Spec.totalMove (fun y x => mv x y) a xs + (w (xs.getLastD a) - w a) := by
  intro xs
  induction xs with
  | nil => intro a _ _; simp [Spec.totalMove]
  | cons x xs ih =>
    intro a ha hx
    have hxs := hx x (by simp)
    rw [Spec.totalMove, Spec.totalMove, ih x hxs (fun y hy => hx y (by simp [hy])), List.getLastD_cons, h a x ha hxs]
    ring

/-- Going through a sequence from `a` and back to `a` costs the same in both directions, and going back to `a` costs nothing. -/
theorem move_backwards {X : Type} (mv : X → X → ℚ) (w : X → ℚ) (S : X → Prop)
    (h : ∀ x y, S x → S y → mv x y = mv y x + (w y - w x)) (a : X) (ha : S a) (h0 : ∀ x, S x → mv x a = 0)
    (xs : List X) (hx : ∀ x ∈ xs, S x) : Spec.totalMove mv a xs.reverse = Spec.totalMove mv a xs := by
  have e : ∀ ys : List X, (∀ x ∈ ys, S x) → Spec.totalMove mv a (ys ++ [a]) = Spec.totalMove mv a ys := by
    intro ys hy
    rw [move_append, Spec.totalMove, Spec.totalMove, h0 _ ?_]
    · ring
    · rcases List.eq_nil_or_concat ys with rfl | ⟨zs, z, rfl⟩
      · exact ha
      · simp at hy ⊢; exact hy z (Or.inr rfl)
  have hr : ∀ x ∈ xs.reverse, S x := fun x hx' => hx x (List.mem_reverse.1 hx')
  rw [← e xs hx, ← e _ hr, move_reverse mv xs, telescope mv w S h _ a ha ?_]
  · simp
  · intro x hx'
    rcases List.mem_append.1 hx' with hx' | hx'
    · exact hr x hx'
    · rw [List.mem_singleton.1 hx']; exact ha

theorem cost_backwards {X : Type} {hit hit' : Int → X → ECost} (mv : X → X → ℚ) (w : X → ℚ) (S : X → Prop)
    (h : ∀ x y, S x → S y → mv x y = mv y x + (w y - w x)) (a : X) (ha : S a) (h0 : ∀ x, S x → mv x a = 0)
    (α : ℚ) (xs : List X) (hx : ∀ x ∈ xs, S x)
    (hh : ∀ t : Int, 1 ≤ t → t ≤ xs.length → ∀ x, S x → hit' t x = hit (xs.length + 1 - t) x) :
    Spec.totalCost hit' mv α 1 a xs.reverse = Spec.totalCost hit mv α 1 a xs := by
  have e : Spec.totalCost hit' mv α 1 a xs.reverse
      = Spec.totalCost (fun u => hit (2 * 1 + xs.length - 1 - u)) mv α 1 a xs.reverse := by
    apply Uni.totalCost_congr
    intro s s1 s2 x hx'
    rw [List.length_reverse] at s2
    rw [hh s s1 (by omega) x (hx x (List.mem_reverse.1 hx'))]
    congr 1
    ring
  rw [e, totalCost_eq, totalCost_eq, hit_reverse, move_backwards mv w S h a ha h0 xs hx]

theorem up_to_zero (β : List ℚ) : ∀ (n : Nat) (b x : List T), Spec.InBox b x → Spec.upCost β x (List.replicate n (0 : T)) = 0 := by
  induction β with
  | nil => intro n b x _; simp [Spec.upCost, List.zipWith3]
  | cons c β ih =>
    intro n b x hx
    cases hx with
    | nil => simp [Spec.upCost, List.zipWith3]
    | @cons u j b x hj hx =>
      cases n with
      | zero => simp [Spec.upCost, List.zipWith3]
      | succ n =>
        have := ih n b x hx
        have h1 : 0 ≤ toQ j := by exact toQ_nonneg.2 hj.1
        simp only [Spec.upCost, List.replicate_succ, List.zipWith3, List.sum_cons] at this ⊢
        rw [this, toQ_zero, max_eq_left (by linarith)]
        ring

theorem back_one (β : ℚ) (i j : ℤ) : Uni.mv1 β false i j = Uni.mv1 β false j i + (β * j - β * i) := by
  unfold Uni.mv1
  simp only [Bool.false_eq_true, if_false]
  rcases le_total i j with h | h
  · rw [max_eq_right (by omega : (0 : ℤ) ≤ j - i), max_eq_left (by omega : i - j ≤ (0 : ℤ))]; push_cast; ring
  · rw [max_eq_left (by omega : j - i ≤ (0 : ℤ)), max_eq_right (by omega : (0 : ℤ) ≤ i - j)]; push_cast; ring

theorem cost_one {g g' : Int → ℤ → ECost} {β α : ℚ} {m : ℤ} (hm : 0 ≤ m) (js : List ℤ) (hj : ∀ j ∈ js, 0 ≤ j ∧ j ≤ m)
    (hh : ∀ t : Int, 1 ≤ t → t ≤ js.length → ∀ j, 0 ≤ j → j ≤ m → g' t j = g (js.length + 1 - t) j) :
    Spec.totalCost g' (Uni.mv1 β false) α 1 0 js.reverse = Spec.totalCost g (Uni.mv1 β false) α 1 0 js :=
  cost_backwards _ (fun j : ℤ => β * j) (fun j : ℤ => 0 ≤ j ∧ j ≤ m) (fun i j _ _ => back_one β i j) 0 ⟨le_rfl, hm⟩
    (fun j hj => by
      unfold Uni.mv1
      rw [if_neg (by simp), max_eq_left (by omega)]
      simp)
    α js hj (fun t t1 t2 j hj => hh t t1 t2 j hj.1 hj.2)

open Window in
theorem low_backwards {g g' : Int → ℤ → ECost} {β : ℚ} {m : ℤ} {n : Nat} (hm : 0 ≤ m)
    (hh : ∀ t : Int, 1 ≤ t → t ≤ n → ∀ j, 0 ≤ j → j ≤ m → g' t j = g (n + 1 - t) j) {js : List ℤ}
    (h : IsLow g β false m n 1 0 js) : IsLow g' β false m n 1 0 js.reverse := by
  have e : ∀ ks : List ℤ, ks.length = n → (∀ k ∈ ks, 0 ≤ k ∧ k ≤ m) →
      Spec.totalCost g' (Uni.mv1 β false) 1 1 0 ks.reverse = Spec.totalCost g (Uni.mv1 β false) 1 1 0 ks := by
    intro ks hl hk
    exact cost_one hm ks hk (by rw [hl]; exact hh)
  have rb : ∀ ks : List ℤ, (∀ k ∈ ks, 0 ≤ k ∧ k ≤ m) → ∀ k ∈ ks.reverse, 0 ≤ k ∧ k ≤ m :=
    fun ks hk k hk' => hk k (List.mem_reverse.1 hk')
  have e' : ∀ ks : List ℤ, ks.length = n → (∀ k ∈ ks, 0 ≤ k ∧ k ≤ m) →
      Spec.totalCost g' (Uni.mv1 β false) 1 1 0 ks = Spec.totalCost g (Uni.mv1 β false) 1 1 0 ks.reverse := by
    intro ks hl hk
    rw [← e ks.reverse (by simpa using hl) (rb ks hk), List.reverse_reverse]
  refine ⟨by rw [List.length_reverse, h.len], rb js h.box, by rw [e js h.len h.box]; exact h.fin, fun ks hl hk => ?_,
    fun ks hl hk hc => ?_⟩
  · rw [e js h.len h.box, e' ks hl hk]
    exact h.opt _ (by simpa using hl) (rb ks hk)
  · rw [e js h.len h.box, e' ks hl hk] at hc
    have := h.low _ (by simpa using hl) (rb ks hk) hc
    have := List.rel_reverse this
    rwa [List.reverse_reverse] at this

end Reverse

open Reverse Robust

/-- **C111** (objective). The schedule read backwards costs on the reversed instance exactly what the schedule costs on the
instance, for any weight of the switching costs. -/
theorem C111_objective (p p' : SSCO T C D) (h : Spec.Reversed p p') (hv : p.verify = .ok ()) (α : ℚ) (xs : Schedule T)
    (hl : (xs.length : Int) = p.tEnd) (hx : ∀ x ∈ xs, Spec.InBox p.bounds x) :
    ∃ c c', p.toProb.alphaUnfairObjective xs α = .ok c ∧ p'.toProb.alphaUnfairObjective xs.reverse α = .ok c' ∧
      c'.cost = c.cost := by
  have hv' : Spec.ValidSSCO p := by
    by_contra hc
    have := (C10_ssco_verify_exact p).2 hc
    rw [hv] at this; simp at this
  have n1 : p.bounds.length = p.d.toNat := by have := hv'.2.2.1; omega
  have n2 : p.switchingCost.length = p.d.toNat := by have := hv'.2.2.2.1; omega
  have hd : p.toProb.defaultConfig = List.replicate p.d.toNat 0 := rfl
  have hd' : p'.toProb.defaultConfig = List.replicate p.d.toNat 0 := by rw [← h.d]; rfl
  obtain ⟨o, ho⟩ := objective_hitOr p p.d.toNat n1 n2.ge (fun t t1 t2 x hx => by
    obtain ⟨c, _, h1, _⟩ := h.hit (p.tEnd + 1 - t) (by omega) (by omega) x hx
    exact ⟨c, by rw [← h1]; congr 1; ring⟩) xs hl hx (List.replicate p.d.toNat 0) (by simp) α false
  obtain ⟨o', ho'⟩ := objective_hitOr p' p.d.toNat (by rw [h.bounds, n1]) (by rw [h.switching, n2]) (fun t t1 t2 x hx => by
    obtain ⟨_, c, _, h1, _⟩ := h.hit t t1 (by rw [← h.tEnd]; exact t2) x (by rw [← h.bounds]; exact hx)
    exact ⟨c, h1⟩) xs.reverse (by rw [List.length_reverse, hl, h.tEnd])
    (fun x hx' => by rw [h.bounds]; exact hx x (List.mem_reverse.1 hx')) (List.replicate p.d.toNat 0) (by simp) α false
  refine ⟨_, _, by rw [← ho, ← hd]; rfl, by rw [← ho', ← hd']; rfl, ?_⟩
  dsimp only
  rw [h.switching]
  have hz : Spec.InBox p.bounds (List.replicate p.d.toNat (0 : T)) := by
    have h0 : ∀ b ∈ p.bounds, 0 ≤ b := fun b hb => (hv'.2.2.2.2.1 b hb).le
    rw [← n1]
    generalize p.bounds = bs at h0
    induction bs with
    | nil => exact .nil
    | cons b bs ih =>
      refine .cons ⟨le_rfl, h0 b (by simp)⟩ (ih fun c hc => h0 c (by simp [hc]))
  refine cost_backwards _ (Spec.weighted p.switchingCost) (Spec.InBox p.bounds) (fun x y hx hy => ?_) _ hz (fun x hx => ?_) α xs hx
    (fun t t1 t2 x hx => ?_)
  · exact upCost_sub_downCost p.switchingCost x y (by rw [← hx.length_eq, ← hy.length_eq])
  · exact up_to_zero _ _ _ _ hx
  · obtain ⟨c, c', h1, h2, h3⟩ := h.hit t t1 (by omega) x hx
    rw [hitOr, hitOr, hl, h1, h2]
    exact h3

/-- **C111** (one dimension). For convex costs the graph search plans for the reversed instance exactly the plan of the instance
read backwards, at the same cost. -/
theorem C111_one_dimension {p p' : SSCO ℤ C D} {m : ℤ} {β : ℚ} {g g' : Int → ℤ → ECost} {n : Nat} (I : Spec.Inst p m β g n)
    (I' : Spec.Inst p' m β g' n) (K : Spec.Costs m β g n)
    (hh : ∀ t : Int, 1 ≤ t → t ≤ n → ∀ j, 0 ≤ j → j ≤ m → g' t j = g (n + 1 - t) j)
    (o : OfflineOptions) (hl : o.l = none) (hi : o.inverted = false) (hα : 0 ≤ o.alpha) :
    ∃ P P', Uni.optimalGraphSearch p 0 o = .ok P ∧ Uni.optimalGraphSearch p' 0 o = .ok P' ∧
      P'.xs = P.xs.reverse ∧ P'.cost = P.cost := by
  have K' : Spec.Costs m β g' n := by
    refine ⟨K.hm, K.hβ, fun t t1 t2 => ?_, fun t t1 t2 j h0 hj => ?_, fun t t1 t2 => ?_⟩
    · rw [hh t t1 t2 m K.hm.le le_rfl]; exact K.fin _ (by omega) (by omega)
    · rw [hh t t1 t2 j h0 hj]; exact K.nonneg _ (by omega) (by omega) j h0 hj
    · have := K.conv (n + 1 - t) (by omega) (by omega)
      intro x y z h0 h1 h2 h3 a c ha hc
      rw [hh t t1 t2 _ (by omega) (by omega)] at ha hc ⊢
      exact this x y z h0 h1 h2 h3 a c ha hc
  obtain ⟨P, js, a1, a2, a3, a4⟩ := Replan.search_low I K (x := 0) K.hm.le o hl hα
  obtain ⟨P', ks, b1, b2, b3, b4⟩ := Replan.search_low I' K' (x := 0) K.hm.le o hl hα
  rw [hi] at a3 a4 b3 b4
  have e : ks = js.reverse := b4.unique (low_backwards K.hm.le hh a4)
  refine ⟨P, P', a1, b1, by rw [a2, b2, e, List.map_reverse], ?_⟩
  rw [a3, b3, e]
  exact cost_one K.hm.le js a4.box (by rw [a4.len]; exact hh)

/-- **C111** (several dimensions). The optimal search in several dimensions reports the same cost for both instances, with
arbitrary hitting costs, and either plan read backwards is optimal for the other instance. -/
theorem C111_several_dimensions (p p' : SSCO ℤ C D) (h : Spec.Reversed p p') (hv : p.verify = .ok ()) (hT : 1 ≤ p.tEnd)
    (o : OfflineOptions) (hl : o.l = none) (hα : 0 ≤ o.alpha)
    (hfin : ∀ t : Int, 1 ≤ t → t ≤ p.tEnd → ∀ c, p.toProb.hitCost t p.bounds = .ok c → c.cost ≠ ⊤) :
    ∃ r r', Multi.optimalGraphSearch p none o = .ok r ∧ Multi.optimalGraphSearch p' none o = .ok r' ∧
      r'.path.cost = r.path.cost ∧
      (∃ out, p'.toProb.alphaUnfairObjective r.path.xs.reverse o.alpha = .ok ⟨r'.path.cost, out⟩) ∧
      (∃ out, p.toProb.alphaUnfairObjective r'.path.xs.reverse o.alpha = .ok ⟨r.path.cost, out⟩) := by
  have hv' : Spec.ValidSSCO p := by
    by_contra hc
    have := (C10_ssco_verify_exact p).2 hc
    rw [hv] at this; simp at this
  have hvp : p'.verify = .ok () := by
    rw [← hv]
    simp only [SSCO.verify, h.d, h.tEnd, h.bounds, h.switching]
  have hb : Spec.InBox p.bounds p.bounds := by
    have h0 : ∀ b ∈ p.bounds, 0 ≤ b := fun b hb => (hv'.2.2.2.2.1 b hb).le
    generalize p.bounds = bs at h0
    induction bs with
    | nil => exact .nil
    | cons b bs ih =>
      refine .cons ⟨h0 b (by simp), le_rfl⟩ (ih fun c hc => h0 c (by simp [hc]))
  obtain ⟨r, a1, a2, a3, a4, ⟨out, a5⟩, a6⟩ := C19_graph_search_optimal p hv hT o hl hα (hitOr p)
    (fun t t1 t2 x hx => by
      obtain ⟨c, _, h1, _⟩ := h.hit (p.tEnd + 1 - t) (by omega) (by omega) x hx
      rw [show p.tEnd + 1 - (p.tEnd + 1 - t) = t by ring] at h1
      exact ⟨c.output, by rw [hitOr, h1]⟩)
    (fun t t1 t2 => by
      obtain ⟨c, _, h1, _⟩ := h.hit (p.tEnd + 1 - t) (by omega) (by omega) p.bounds hb
      rw [show p.tEnd + 1 - (p.tEnd + 1 - t) = t by ring] at h1
      rw [hitOr, h1]
      exact hfin t t1 t2 c h1)
  obtain ⟨r', b1, b2, b3, b4, ⟨out', b5⟩, b6⟩ := C19_graph_search_optimal p' hvp (by rw [h.tEnd]; exact hT) o hl hα (hitOr p')
    (fun t t1 t2 x hx => by
      obtain ⟨_, c, _, h1, _⟩ := h.hit t t1 (by rw [← h.tEnd]; exact t2) x (by rw [← h.bounds]; exact hx)
      exact ⟨c.output, by rw [hitOr, h1]⟩)
    (fun t t1 t2 => by
      rw [h.bounds]
      rw [h.tEnd] at t2
      obtain ⟨c, c', h1, h2, h3⟩ := h.hit t t1 t2 p.bounds hb
      rw [hitOr, h2]
      show c'.cost ≠ ⊤
      rw [h3]
      exact hfin _ (by omega) (by omega) c h1)
  rw [h.tEnd] at b2 b6
  rw [h.bounds] at b3 b6
  have rb : ∀ xs : Schedule ℤ, (∀ x ∈ xs, Spec.InBox p.bounds x) → ∀ x ∈ xs.reverse, Spec.InBox p.bounds x :=
    fun xs hx x hx' => hx x (List.mem_reverse.1 hx')
  obtain ⟨c, c', d1, d2, d3⟩ := C111_objective p p' h hv o.alpha r.path.xs a2 a3
  obtain ⟨e, e', f1, f2, f3⟩ := C111_objective p p' h hv o.alpha r'.path.xs.reverse (by simpa using b2) (rb _ b3)
  rw [List.reverse_reverse] at f2
  rw [a5] at d1
  rw [b5] at f2
  obtain rfl := Except.ok.inj d1
  obtain rfl := Except.ok.inj f2
  dsimp only at d3 f3
  obtain ⟨u, u1, u2⟩ := b6 r.path.xs.reverse (by simpa using a2) (rb _ a3)
  rw [d2] at u1
  obtain rfl := Except.ok.inj u1
  obtain ⟨v, v1, v2⟩ := a6 r'.path.xs.reverse (by simpa using b2) (rb _ b3)
  rw [f1] at v1
  obtain rfl := Except.ok.inj v1
  have hc : r'.path.cost = r.path.cost := le_antisymm (by rw [← d3]; exact u2) (by rw [f3]; exact v2)
  refine ⟨r, r', a1, b1, hc, ⟨c'.output, ?_⟩, ⟨e.output, ?_⟩⟩
  · rw [d2, hc, ← d3]
  · rw [f1, ← hc, f3]

/-! ## The claims are not empty -/

/-- `Ex.sscoAt n` with time running backwards: the load shrinks from `n` to `1`. -/
def Ex.sscoBack (n : Nat) : SSCO ℤ Unit Unit where
  d := 1
  tEnd := n
  bounds := [5]
  switchingCost := [2]
  hittingCost := CostFn.new 1 (SingleCostFn.certain fun t x =>
    .ok (Cost.raw ((((|x.getD 0 0 - (n + 1 - t)| : ℤ) : ℚ)) : ECost)))

theorem Ex.sscoBack_hit (n : Nat) (t : Int) (ht : 1 ≤ t) (j : ℤ) (h0 : 0 ≤ j) (hj : j ≤ 5) :
    ∃ out, (Ex.sscoBack n).toProb.hitCost t [j] = .ok ⟨(((|j - (n + 1 - t)| : ℤ) : ℚ) : ECost), out⟩ := by
  rw [Uni.hit_within (p := Ex.sscoBack n) rfl h0 hj, Ex.sscoBack, CostFn.callMean_certain _ _ ht]
  exact ⟨_, rfl⟩

theorem Ex.sscoBack_inst (n : Nat) :
    Spec.Inst (Ex.sscoBack n) 5 2 (fun t j => (((|j - (n + 1 - t)| : ℤ) : ℚ) : ECost)) n where
  d := rfl
  bounds := rfl
  switching := rfl
  tEnd := rfl
  hit t t1 _ j h0 hj := Ex.sscoBack_hit n t t1 j h0 hj
  certain t t1 _ x r hr := by
    rw [Ex.sscoBack, CostFn.callPredictive_certain _ _ t1] at hr
    simp only [Except.map, Except.ok.injEq] at hr
    rw [← hr]; rfl

theorem Ex.sscoBack_reversed (n : Nat) : Spec.Reversed (Ex.sscoAt n) (Ex.sscoBack n) where
  d := rfl
  tEnd := rfl
  bounds := rfl
  switching := rfl
  hit t t1 t2 x hx := by
    have hx' : List.Forall₂ (fun (b j : ℤ) => 0 ≤ j ∧ j ≤ b) [5] x := hx
    cases hx' with
    | @cons _ j _ _ h h2 =>
      cases h2
      obtain ⟨o, ho⟩ := Ex.ssco1_hit ((Ex.sscoAt n).tEnd + 1 - t) (by omega) j h.1 h.2
      obtain ⟨o', ho'⟩ := Ex.sscoBack_hit n t t1 j h.1 h.2
      exact ⟨_, _, ho, ho', rfl⟩

example (α : ℚ) := C111_objective (Ex.sscoAt 4) (Ex.sscoBack 4) (Ex.sscoBack_reversed 4) (by decide +kernel) α
  [[1], [3], [3], [5]] rfl (by
    intro x hx
    simp only [List.mem_cons, List.not_mem_nil, or_false] at hx
    rcases hx with rfl | rfl | rfl | rfl <;> exact .cons (by decide) .nil)

example (n : Nat) (α : ℚ) (hα : 0 ≤ α) := C111_one_dimension (Ex.sscoAt_inst n) (Ex.sscoBack_inst n) (Ex.abs_costs n)
  (fun _ _ _ _ _ _ => rfl) ⟨false, α, none⟩ rfl rfl hα

example := C111_several_dimensions (Ex.sscoAt 4) (Ex.sscoBack 4) (Ex.sscoBack_reversed 4) (by decide +kernel) (by decide)
  ⟨false, 3, none⟩ rfl (by norm_num) (fun t t1 _ c hc => by
    obtain ⟨o, ho⟩ := Ex.ssco1_hit t t1 5 (by omega) le_rfl
    have : Except.ok _ = Except.ok c := ho.symm.trans hc
    rw [← Except.ok.inj this]
    exact WithTop.coe_ne_top)

end Soco
