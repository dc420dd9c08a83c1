import Verif.Props.Joint

/-!
# C115: the order in which the types of servers are listed does not matter
-/

namespace Soco

variable {C D : Type} [OutSuccess C] [OutFailure D]

namespace Spec

/-- The entries of `xs` in the order `σ`: first entry number `σ₀`, then entry number `σ₁`, and so on. -/
def reorder {X : Type} [Zero X] (σ : List Nat) (xs : List X) : List X := σ.map fun k => xs.getD k 0

/-- `p'` is `p` with its types of servers listed in the order `σ`. -/
structure Reordered (σ : List Nat) (p p' : SSCO ℤ C D) : Prop where
  order : σ.Perm (List.range p.d.toNat)
  d : p'.d = p.d
  tEnd : p'.tEnd = p.tEnd
  bounds : p'.bounds = reorder σ p.bounds
  switching : p'.switchingCost = reorder σ p.switchingCost
  hit : ∀ t : Int, 1 ≤ t → t ≤ p.tEnd → ∀ x, InBox p.bounds x →
    ∃ c c', p.toProb.hitCost t x = .ok c ∧ p'.toProb.hitCost t (reorder σ x) = .ok c' ∧ c'.cost = c.cost

end Spec

namespace TypeOrder
open Spec Periods Robust

theorem getD_of {X : Type} [Zero X] {xs : List X} {k : Nat} (h : k < xs.length) : xs.getD k 0 = xs[k] := by
  rw [List.getD_eq_getElem?_getD, List.getElem?_eq_getElem h]; rfl

theorem sum_range {X : Type} [Zero X] (f : ℚ → X → X → ℚ) : ∀ (β : List ℚ) (y x : List X), y.length = β.length → x.length = β.length →
    (List.zipWith3 f β y x).sum = ((List.range β.length).map fun k => f (β.getD k 0) (y.getD k 0) (x.getD k 0)).sum := by
  intro β
  induction β with
  | nil => intro y x _ _; simp [List.zipWith3]
  | cons b β ih =>
    intro y x hy hx
    cases y with
    | nil => simp at hy
    | cons j y =>
      cases x with
      | nil => simp at hx
      | cons i x =>
        simp only [List.length_cons, Nat.add_right_cancel_iff] at hy hx
        rw [List.length_cons, List.range_succ_eq_map, List.map_cons, List.map_map, List.zipWith3, List.sum_cons, List.sum_cons,
          ih y x hy hx]
        rfl

theorem up_reorder {σ : List Nat} {β : List ℚ} (h : σ.Perm (List.range β.length)) (y x : List ℤ) (hy : y.length = β.length)
    (hx : x.length = β.length) : Spec.upCost (reorder σ β) (reorder σ y) (reorder σ x) = Spec.upCost β y x := by
  have hl : σ.length = β.length := by rw [h.length_eq, List.length_range]
  have h1 : Spec.upCost (reorder σ β) (reorder σ y) (reorder σ x)
      = (σ.map fun k => β.getD k 0 * max 0 (toQ (x.getD k 0) - toQ (y.getD k 0))).sum := by
    clear h hl
    unfold Spec.upCost reorder
    induction σ with
    | nil => simp
    | cons k σ ih => rw [List.map_cons, List.map_cons, List.map_cons, List.map_cons, List.zipWith3, List.sum_cons, List.sum_cons, ih]
  rw [h1, Spec.upCost, sum_range _ β y x hy hx]
  exact (h.map _).sum_eq

theorem box_get {b x : List ℤ} : InBox b x ↔ x.length = b.length ∧ ∀ k, k < b.length → 0 ≤ x.getD k 0 ∧ x.getD k 0 ≤ b.getD k 0 := by
  constructor
  · intro h
    refine ⟨h.length_eq.symm, fun k hk => ?_⟩
    have hx : k < x.length := by rw [← h.length_eq]; exact hk
    have := List.Forall₂.get h hk hx
    rw [getD_of hk, getD_of hx]
    simpa using this
  · rintro ⟨hl, h⟩
    refine List.forall₂_iff_get.2 ⟨hl.symm, fun k hk hx => ?_⟩
    have := h k hk
    rw [getD_of hk, getD_of hx] at this
    simpa using this

theorem getD_reorder {X : Type} [Zero X] {σ : List Nat} {xs : List X} {k : Nat} (h : k < σ.length) :
    (reorder σ xs).getD k 0 = xs.getD σ[k] 0 := by
  unfold reorder
  rw [getD_of (by rw [List.length_map]; exact h), List.getElem_map]

theorem box_reorder {σ : List Nat} {b x : List ℤ} (h : σ.Perm (List.range b.length)) (hx : InBox b x) :
    InBox (reorder σ b) (reorder σ x) := by
  obtain ⟨_, h2⟩ := box_get.1 hx
  refine box_get.2 ⟨by simp [reorder], fun k hk => ?_⟩
  have hk : k < σ.length := by simpa [reorder] using hk
  rw [getD_reorder hk, getD_reorder hk]
  have : σ[k] ∈ List.range b.length := h.mem_iff.1 (List.getElem_mem hk)
  exact h2 _ (List.mem_range.1 this)

/-- The order which undoes `σ`. -/
def back (σ : List Nat) : List Nat := (List.range σ.length).map fun k => σ.idxOf k

theorem back_perm {σ : List Nat} {n : Nat} (h : σ.Perm (List.range n)) : (back σ).Perm (List.range n) := by
  have hl : σ.length = n := by rw [h.length_eq, List.length_range]
  have hnd : σ.Nodup := h.nodup_iff.2 List.nodup_range
  have hmem : ∀ k, k < n → k ∈ σ := fun k hk => h.mem_iff.2 (List.mem_range.2 hk)
  have nd : (back σ).Nodup := by
    unfold back
    rw [List.nodup_map_iff_inj_on List.nodup_range]
    intro a ha b hb e
    have ha := hmem a (by rw [← hl]; exact List.mem_range.1 ha)
    exact (List.idxOf_inj ha).1 e
  have sub : back σ ⊆ List.range n := by
    intro k hk
    unfold back at hk
    obtain ⟨a, ha, rfl⟩ := List.mem_map.1 hk
    have := List.idxOf_lt_length_iff.2 (hmem a (by rw [← hl]; exact List.mem_range.1 ha))
    rw [hl] at this
    exact List.mem_range.2 this
  exact (List.subperm_of_subset nd sub).perm_of_length_le (by simp [back, hl])

theorem reorder_back {X : Type} [Zero X] {σ : List Nat} {n : Nat} (h : σ.Perm (List.range n)) {xs : List X} (hl : xs.length = n) :
    reorder (back σ) (reorder σ xs) = xs := by
  have hs : σ.length = n := by rw [h.length_eq, List.length_range]
  apply List.ext_getElem
  · simp [reorder, back, hs, hl]
  · intro k h1 h2
    have hk : k < σ.length := by rw [hs, ← hl]; exact h2
    have hm : k ∈ σ := h.mem_iff.2 (List.mem_range.2 (by rw [← hs]; exact hk))
    have hi := List.idxOf_lt_length_iff.2 hm
    rw [← getD_of h1, getD_reorder (by simpa [back] using hk)]
    have e : (back σ)[k]'(by simpa [back] using hk) = σ.idxOf k := by simp [back]
    rw [e, getD_reorder hi, List.getElem_idxOf hi, getD_of h2]

theorem back_reorder {X : Type} [Zero X] {σ : List Nat} {n : Nat} (h : σ.Perm (List.range n)) {xs : List X} (hl : xs.length = n) :
    reorder σ (reorder (back σ) xs) = xs := by
  have hs : σ.length = n := by rw [h.length_eq, List.length_range]
  have hnd : σ.Nodup := h.nodup_iff.2 List.nodup_range
  apply List.ext_getElem
  · simp [reorder, hs, hl]
  · intro k h1 h2
    have hk : k < σ.length := by rw [hs, ← hl]; exact h2
    have hv : σ[k] < n := List.mem_range.1 (h.mem_iff.1 (List.getElem_mem hk))
    rw [← getD_of h1, getD_reorder hk, getD_reorder (by simpa [back, hs] using hv)]
    have e : (back σ)[σ[k]]'(by simpa [back, hs] using hv) = k := by
      simp only [back, List.getElem_map, List.getElem_range]
      exact hnd.idxOf_getElem k hk
    rw [e, getD_of h2]

theorem cost_reorder {σ : List Nat} {β : List ℚ} (h : σ.Perm (List.range β.length)) {f f' : Int → Config ℤ → ECost} {α : ℚ} :
    ∀ (xs : Schedule ℤ) (t : Int) (x : List ℤ), x.length = β.length → (∀ y ∈ xs, y.length = β.length) →
    (∀ s : Int, t ≤ s → s < t + xs.length → ∀ y ∈ xs, f' s (reorder σ y) = f s y) →
    Spec.totalCost f' (Spec.upCost (reorder σ β)) α t (reorder σ x) (xs.map (reorder σ)) = Spec.totalCost f (Spec.upCost β) α t x xs := by
  intro xs
  induction xs with
  | nil => intros; rfl
  | cons y xs ih =>
    intro t x hx hy hf
    rw [List.map_cons, Spec.totalCost, Spec.totalCost, ih (t + 1) y (hy y (by simp)) (fun z hz => hy z (by simp [hz]))
      (fun s s1 s2 z hz => hf s (by omega) (by simp; omega) z (by simp [hz])), up_reorder h x y hx (hy y (by simp)),
      hf t le_rfl (by simp) y (by simp)]

theorem reorder_zero (σ : List Nat) (n : Nat) : reorder σ (List.replicate n (0 : ℤ)) = List.replicate σ.length 0 := by
  unfold reorder
  apply List.ext_getElem
  · simp
  · intro k h1 h2
    simp only [List.getElem_map, List.getElem_replicate, List.getD_eq_getElem?_getD, List.getElem?_replicate]
    split_ifs <;> rfl

/-- The facts about the two instances which the claims need. -/
theorem setup {σ : List Nat} {p p' : SSCO ℤ C D} (h : Reordered σ p p') (hv : p.verify = .ok ()) :
    σ.Perm (List.range p.bounds.length) ∧ σ.Perm (List.range p.switchingCost.length) ∧ p'.verify = .ok () ∧
      p.bounds.length = p.d.toNat ∧ p.switchingCost.length = p.d.toNat ∧ σ.length = p.d.toNat := by
  have v := valid_of hv
  have n1 : p.bounds.length = p.d.toNat := by have := v.2.2.1; omega
  have n2 : p.switchingCost.length = p.d.toNat := by have := v.2.2.2.1; omega
  have hs : σ.length = p.d.toNat := by rw [h.order.length_eq, List.length_range]
  have mem : ∀ {X : Type} [Zero X] (xs : List X), xs.length = p.d.toNat → ∀ x ∈ reorder σ xs, x ∈ xs := by
    intro X _ xs hl x hx
    obtain ⟨k, hk, rfl⟩ := List.mem_map.1 hx
    have : k < xs.length := by rw [hl]; exact List.mem_range.1 (h.order.mem_iff.1 hk)
    rw [getD_of this]
    exact List.getElem_mem this
  refine ⟨by rw [n1]; exact h.order, by rw [n2]; exact h.order, (C10_ssco_verify_exact _).1 ⟨by rw [h.d]; exact v.1, by rw [h.tEnd]; exact v.2.1, ?_, ?_, ?_, ?_⟩, n1, n2, hs⟩
  · rw [h.bounds, h.d, reorder, List.length_map, hs]; have := v.1; omega
  · rw [h.switching, h.d, reorder, List.length_map, hs]; have := v.1; omega
  · rw [h.bounds]; exact fun b hb => v.2.2.2.2.1 b (mem _ n1 b hb)
  · rw [h.switching]; exact fun b hb => v.2.2.2.2.2 b (mem _ n2 b hb)

theorem hits_both {σ : List Nat} {p p' : SSCO ℤ C D} (h : Reordered σ p p') (hv : p.verify = .ok ())
    (hfin : ∀ t : Int, 1 ≤ t → t ≤ p.tEnd → ∀ c, p.toProb.hitCost t p.bounds = .ok c → c.cost ≠ ⊤) :
    Spec.Hits p (hitOr p) ∧ Spec.Hits p' (hitOr p') := by
  obtain ⟨o1, o2, hv', n1, n2, hs⟩ := setup h hv
  have v := valid_of hv
  have top : InBox p.bounds p.bounds := List.forall₂_same.2 fun b hb => ⟨(v.2.2.2.2.1 b hb).le, le_rfl⟩
  refine ⟨Joint.hits hv (fun t t1 t2 x hx => by obtain ⟨c, _, a, _⟩ := h.hit t t1 t2 x hx; exact ⟨c, a⟩) hfin,
    Joint.hits hv' (fun t t1 t2 x hx => ?_) (fun t t1 t2 c hc => ?_)⟩
  · rw [h.bounds] at hx
    have hx' := box_reorder (σ := back σ) (b := reorder σ p.bounds) (x := x) (by
      rw [reorder, List.length_map, hs]; exact back_perm h.order) hx
    rw [reorder_back h.order n1] at hx'
    obtain ⟨_, c, _, a, _⟩ := h.hit t t1 (by rw [← h.tEnd]; exact t2) _ hx'
    rw [back_reorder h.order (by rw [← hx.length_eq, reorder, List.length_map, hs])] at a
    exact ⟨c, a⟩
  · obtain ⟨c₁, c₂, a1, a2, a3⟩ := h.hit t t1 (by rw [← h.tEnd]; exact t2) _ top
    rw [← h.bounds, hc] at a2
    obtain rfl := Except.ok.inj a2
    rw [a3]
    exact hfin t t1 (by rw [← h.tEnd]; exact t2) _ a1

end TypeOrder

open TypeOrder Periods Robust

/-- **C115** (objective). Listing the types of servers in another order changes the cost of no schedule. -/
theorem C115_objective (σ : List Nat) (p p' : SSCO ℤ C D) (h : Spec.Reordered σ p p') (hv : p.verify = .ok ())
    (hfin : ∀ t : Int, 1 ≤ t → t ≤ p.tEnd → ∀ c, p.toProb.hitCost t p.bounds = .ok c → c.cost ≠ ⊤)
    (α : ℚ) (xs : Schedule ℤ) (hl : (xs.length : Int) = p.tEnd) (hx : ∀ x ∈ xs, Spec.InBox p.bounds x) :
    (∀ x ∈ xs.map (Spec.reorder σ), Spec.InBox p'.bounds x) ∧
    ∃ c c', p.toProb.alphaUnfairObjective xs α = .ok c ∧ p'.toProb.alphaUnfairObjective (xs.map (Spec.reorder σ)) α = .ok c' ∧
      c'.cost = c.cost := by
  obtain ⟨o1, o2, hv', n1, n2, hs⟩ := setup h hv
  obtain ⟨H, H'⟩ := hits_both h hv hfin
  have hx' : ∀ x ∈ xs.map (Spec.reorder σ), Spec.InBox p'.bounds x := by
    intro x hx'
    obtain ⟨y, hy, rfl⟩ := List.mem_map.1 hx'
    rw [h.bounds]
    exact box_reorder o1 (hx y hy)
  obtain ⟨u, hu⟩ := objective_total hv H α xs hl hx
  obtain ⟨u', hu'⟩ := objective_total hv' H' α (xs.map (Spec.reorder σ)) (by rw [List.length_map, hl, h.tEnd]) hx'
  refine ⟨hx', _, _, hu, hu', ?_⟩
  dsimp only
  have hz : List.replicate p'.d.toNat (0 : ℤ) = Spec.reorder σ (List.replicate p.d.toNat 0) := by
    rw [reorder_zero, hs, h.d]
  rw [hz, h.switching]
  refine cost_reorder o2 xs 1 _ (by rw [n2, List.length_replicate]) (fun y hy => by rw [← (hx y hy).length_eq, n1, n2])
    (fun s s1 s2 y hy => ?_)
  obtain ⟨c, c', a1, a2, a3⟩ := h.hit s s1 (by omega) y (hx y hy)
  rw [hitOr, hitOr, a1, a2]
  exact a3

/-- **C115** (plans). The optimal search in several dimensions reports the same cost for every order of the types of servers, and its
plan for one order, listed in the other order, is an optimal plan for the other order. -/
theorem C115_plan (σ : List Nat) (p p' : SSCO ℤ C D) (h : Spec.Reordered σ p p') (hv : p.verify = .ok ()) (hT : 1 ≤ p.tEnd)
    (hfin : ∀ t : Int, 1 ≤ t → t ≤ p.tEnd → ∀ c, p.toProb.hitCost t p.bounds = .ok c → c.cost ≠ ⊤)
    (o : OfflineOptions) (hl : o.l = none) (hα : 0 ≤ o.alpha) :
    ∃ r r', Multi.optimalGraphSearch p none o = .ok r ∧ Multi.optimalGraphSearch p' none o = .ok r' ∧
      r'.path.cost = r.path.cost ∧
      ∃ out, p'.toProb.alphaUnfairObjective (r.path.xs.map (Spec.reorder σ)) o.alpha = .ok ⟨r'.path.cost, out⟩ := by
  obtain ⟨o1, o2, hv', n1, n2, hs⟩ := setup h hv
  obtain ⟨H, H'⟩ := hits_both h hv hfin
  obtain ⟨r, a1, a2, a3, a4, a5, a6⟩ := best hv hT H o hl hα
  obtain ⟨r', b1, b2, b3, b4, b5, b6⟩ := best hv' (by rw [h.tEnd]; exact hT) H' o hl hα
  obtain ⟨k1, c, c', k2, k3, k4⟩ := C115_objective σ p p' h hv hfin o.alpha r.path.xs a2 a3
  have lb : ∀ x ∈ r'.path.xs, x.length = p.d.toNat := by
    intro x hx
    rw [← (b3 x hx).length_eq, h.bounds, Spec.reorder, List.length_map, hs]
  have bb : ∀ x ∈ r'.path.xs.map (Spec.reorder (back σ)), Spec.InBox p.bounds x := by
    intro x hx
    obtain ⟨y, hy, rfl⟩ := List.mem_map.1 hx
    have := b3 y hy
    rw [h.bounds] at this
    have := box_reorder (σ := back σ) (by rw [Spec.reorder, List.length_map, hs]; exact back_perm h.order) this
    rwa [reorder_back h.order n1] at this
  have bl : ((r'.path.xs.map (Spec.reorder (back σ))).length : Int) = p.tEnd := by rw [List.length_map, b2, h.tEnd]
  obtain ⟨_, e, e', f1, f2, f3⟩ := C115_objective σ p p' h hv hfin o.alpha _ bl bb
  have id' : (r'.path.xs.map (Spec.reorder (back σ))).map (Spec.reorder σ) = r'.path.xs := by
    rw [List.map_map]
    conv_rhs => rw [← List.map_id r'.path.xs]
    exact List.map_congr_left fun x hx => back_reorder h.order (lb x hx)
  rw [id'] at f2
  obtain ⟨u, hu⟩ := objective_total hv H o.alpha _ a2 a3
  obtain ⟨u', hu'⟩ := objective_total hv' H' o.alpha _ b2 b3
  obtain ⟨w, hw⟩ := objective_total hv H o.alpha _ bl bb
  obtain ⟨w', hw'⟩ := objective_total hv' H' o.alpha _ (by rw [List.length_map, a2, h.tEnd]) k1
  have i1 := a6 _ bl bb
  have i2 := b6 _ (by rw [List.length_map, a2, h.tEnd]) k1
  rw [hw] at f1; rw [hu'] at f2; rw [hu] at k2; rw [hw'] at k3
  obtain rfl := Except.ok.inj f1
  obtain rfl := Except.ok.inj f2
  obtain rfl := Except.ok.inj k2
  obtain rfl := Except.ok.inj k3
  dsimp only at k4 f3
  rw [← b5] at f3
  rw [← a5] at k4
  have hc : r'.path.cost = r.path.cost := le_antisymm (by rw [← k4]; exact i2) (by rw [f3]; exact i1)
  exact ⟨r, r', a1, b1, hc, w', by rw [hw', k4, hc]⟩

/-! ## The claims are not empty -/

/-- `Ex.ssco2` with its second type listed first. -/
def Ex.ssco2Swap : SSCO ℤ Unit Unit where
  d := 2
  tEnd := 3
  bounds := [3, 2]
  switchingCost := [1/2, 3]
  hittingCost := CostFn.new 1 (SingleCostFn.certain fun t x => .ok (Cost.raw (Ex.hit2 t [x.getD 1 0, x.getD 0 0])))

theorem Ex.ssco2_swap : Spec.Reordered [1, 0] Ex.ssco2 Ex.ssco2Swap where
  order := by decide
  d := rfl
  tEnd := rfl
  bounds := rfl
  switching := rfl
  hit t t1 _ x hx := by
    have hx' : List.Forall₂ (fun (b j : ℤ) => 0 ≤ j ∧ j ≤ b) [2, 3] x := hx
    cases hx' with
    | @cons _ a _ _ ha hx' =>
      cases hx' with
      | @cons _ b _ _ hb h2 =>
        cases h2
        have w1 : withinVec Ex.ssco2Swap.bounds [b, a] = .ok true := by
          simp [withinVec, Ex.ssco2Swap]; omega
        have w2 : withinVec Ex.ssco2.bounds [a, b] = .ok true := by
          simp [withinVec, Ex.ssco2]; omega
        refine ⟨Cost.raw (Ex.hit2 t [a, b]), Cost.raw (Ex.hit2 t [a, b]), ?_, ?_, rfl⟩
        · simp only [SSCO.toProb, CostFn.callMeanWithinBounds, w2, bind, Except.bind, if_true]
          simp only [Ex.ssco2, CostFn.callMean_certain _ t t1]
        · rw [show Spec.reorder [1, 0] [a, b] = [b, a] from rfl]
          simp only [SSCO.toProb, CostFn.callMeanWithinBounds, w1, bind, Except.bind, if_true]
          simp only [Ex.ssco2Swap, CostFn.callMean_certain _ t t1]
          rfl

theorem Ex.ssco2_fin (t : Int) (t1 : 1 ≤ t) (t2 : t ≤ Ex.ssco2.tEnd) (c : Cost Unit Unit)
    (hc : Ex.ssco2.toProb.hitCost t Ex.ssco2.bounds = .ok c) : c.cost ≠ ⊤ := by
  obtain ⟨o, ho⟩ := Ex.ssco2_hitBox t t1 Ex.ssco2.bounds (.cons (by decide) (.cons (by decide) .nil))
  rw [ho] at hc
  rw [← Except.ok.inj hc]
  exact Ex.ssco2_top t t1 t2

example (α : ℚ) := C115_objective [1, 0] Ex.ssco2 Ex.ssco2Swap Ex.ssco2_swap (by decide +kernel) Ex.ssco2_fin α Ex.xs2 rfl (by
  intro x hx
  simp only [Ex.xs2, List.mem_cons, List.not_mem_nil, or_false] at hx
  rcases hx with rfl | rfl | rfl <;> exact .cons (by decide) (.cons (by decide) .nil))

example (α : ℚ) (hα : 0 ≤ α) := C115_plan [1, 0] Ex.ssco2 Ex.ssco2Swap Ex.ssco2_swap (by decide +kernel) (by decide) Ex.ssco2_fin
  ⟨false, α, none⟩ rfl hα

end Soco
