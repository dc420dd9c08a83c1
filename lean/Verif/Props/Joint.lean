import Verif.Props.Periods

/-!
# C114: independent fleets are planned independently
-/

namespace Soco

variable {C D : Type} [OutSuccess C] [OutFailure D]

namespace Spec

/-- `p` joins two fleets which have nothing to do with each other: the server types of `p₁` followed by the server types of `p₂`, and
a configuration costs in every slot what its two parts cost. -/
structure Joint (p₁ p₂ p : SSCO ℤ C D) : Prop where
  d : p.d = p₁.d + p₂.d
  tEnd₁ : p₁.tEnd = p.tEnd
  tEnd₂ : p₂.tEnd = p.tEnd
  bounds : p.bounds = p₁.bounds ++ p₂.bounds
  switching : p.switchingCost = p₁.switchingCost ++ p₂.switchingCost
  hit : ∀ t : Int, 1 ≤ t → t ≤ p.tEnd → ∀ x y, InBox p₁.bounds x → InBox p₂.bounds y →
    ∃ c₁ c₂ c, p₁.toProb.hitCost t x = .ok c₁ ∧ p₂.toProb.hitCost t y = .ok c₂ ∧ p.toProb.hitCost t (x ++ y) = .ok c ∧
      c.cost = c₁.cost + c₂.cost

/-- `p` joins the fleets `ps`. -/
inductive JointAll : List (SSCO ℤ C D) → SSCO ℤ C D → Prop
  | one (p : SSCO ℤ C D) : JointAll [p] p
  | more (p₁ q p : SSCO ℤ C D) (ps : List (SSCO ℤ C D)) : Joint p₁ q p → JointAll ps q → JointAll (p₁ :: ps) p

end Spec

namespace Joint
open Robust Periods

theorem box_append {a b x y : List ℤ} (hx : Spec.InBox a x) (hy : Spec.InBox b y) : Spec.InBox (a ++ b) (x ++ y) :=
  List.rel_append hx hy

theorem box_split {a b z : List ℤ} (h : Spec.InBox (a ++ b) z) :
    Spec.InBox a (z.take a.length) ∧ Spec.InBox b (z.drop a.length) := by
  have h1 := List.forall₂_take a.length h
  have h2 := List.forall₂_drop a.length h
  rw [List.take_left] at h1
  rw [List.drop_left] at h2
  exact ⟨h1, h2⟩

theorem up_append (β₁ β₂ : List ℚ) : ∀ (x y : List ℤ) (x' y' : List ℤ), x.length = β₁.length → y.length = β₁.length →
    Spec.upCost (β₁ ++ β₂) (x ++ x') (y ++ y') = Spec.upCost β₁ x y + Spec.upCost β₂ x' y' := by
  induction β₁ with
  | nil =>
    intro x y x' y' hx hy
    obtain rfl := List.length_eq_zero_iff.1 hx
    obtain rfl := List.length_eq_zero_iff.1 hy
    simp [Spec.upCost, List.zipWith3]
  | cons c β ih =>
    intro x y x' y' hx hy
    cases x with
    | nil => simp at hx
    | cons i x =>
      cases y with
      | nil => simp at hy
      | cons j y =>
        simp only [List.length_cons, Nat.add_right_cancel_iff] at hx hy
        rw [List.cons_append, List.cons_append, List.cons_append, upCost_cons, upCost_cons, ih x y x' y' hx hy]
        ring

theorem cost_zip {h₁ h₂ h : Int → Config ℤ → ECost} {β₁ β₂ : List ℚ} {b₁ b₂ : List ℤ} (hb : b₁.length = β₁.length) {α : ℚ} :
    ∀ (xs ys : Schedule ℤ) (t : Int) (x y : List ℤ), xs.length = ys.length → x.length = β₁.length →
    (∀ x ∈ xs, Spec.InBox b₁ x) → (∀ y ∈ ys, Spec.InBox b₂ y) →
    (∀ s : Int, t ≤ s → s < t + xs.length → ∀ x y, Spec.InBox b₁ x → Spec.InBox b₂ y → h s (x ++ y) = h₁ s x + h₂ s y) →
    Spec.totalCost h (Spec.upCost (β₁ ++ β₂)) α t (x ++ y) (List.zipWith (· ++ ·) xs ys)
      = Spec.totalCost h₁ (Spec.upCost β₁) α t x xs + Spec.totalCost h₂ (Spec.upCost β₂) α t y ys := by
  intro xs
  induction xs with
  | nil =>
    intro ys t x y hl _ _ _ _
    obtain rfl := List.length_eq_zero_iff.1 hl.symm
    simp [Spec.totalCost]
  | cons u xs ih =>
    intro ys t x y hl hx h1 h2 hh
    cases ys with
    | nil => simp at hl
    | cons v ys =>
      have hu := h1 u (by simp)
      have hv := h2 v (by simp)
      have lu : u.length = β₁.length := by rw [← hu.length_eq, hb]
      rw [List.zipWith_cons_cons, Spec.totalCost, Spec.totalCost, Spec.totalCost,
        ih ys (t + 1) u v (by simpa using hl) lu (fun z hz => h1 z (by simp [hz])) (fun z hz => h2 z (by simp [hz]))
          (fun s s1 s2 => hh s (by omega) (by simp; omega)),
        hh t le_rfl (by simp) u v hu hv, up_append β₁ β₂ x u y v hx lu, mul_add, WithTop.coe_add]
      ac_rfl

/-- Puts schedules of two fleets side by side. -/
theorem zip_box {b₁ b₂ : List ℤ} : ∀ {xs ys : Schedule ℤ}, (∀ x ∈ xs, Spec.InBox b₁ x) → (∀ y ∈ ys, Spec.InBox b₂ y) →
    ∀ z ∈ List.zipWith (· ++ ·) xs ys, Spec.InBox (b₁ ++ b₂) z := by
  intro xs ys h1 h2 z hz
  rw [← List.map_uncurry_zip_eq_zipWith] at hz
  obtain ⟨⟨x, y⟩, hm, rfl⟩ := List.mem_map.1 hz
  have := List.of_mem_zip hm
  exact box_append (h1 x this.1) (h2 y this.2)

theorem zip_split (n : Nat) (zs : Schedule ℤ) :
    List.zipWith (· ++ ·) (zs.map (List.take n)) (zs.map (List.drop n)) = zs := by
  induction zs with
  | nil => rfl
  | cons z zs ih => simp only [List.map_cons, List.zipWith_cons_cons, ih, List.take_append_drop]

theorem hits {p : SSCO ℤ C D} (hv : p.verify = .ok ())
    (hh : ∀ t : Int, 1 ≤ t → t ≤ p.tEnd → ∀ x, Spec.InBox p.bounds x → ∃ c, p.toProb.hitCost t x = .ok c)
    (hf : ∀ t : Int, 1 ≤ t → t ≤ p.tEnd → ∀ c, p.toProb.hitCost t p.bounds = .ok c → c.cost ≠ ⊤) :
    Spec.Hits p (hitOr p) where
  slot t t1 t2 x hx := by
    obtain ⟨c, hc⟩ := hh t t1 t2 x hx
    exact ⟨c.output, by rw [hitOr, hc]⟩
  fin t t1 t2 := by
    have hv' := valid_of hv
    obtain ⟨c, hc⟩ := hh t t1 t2 p.bounds (List.forall₂_same.2 fun b hb => ⟨(hv'.2.2.2.2.1 b hb).le, le_rfl⟩)
    rw [hitOr, hc]
    exact hf t t1 t2 c hc

theorem valid {p₁ p₂ p : SSCO ℤ C D} (J : Spec.Joint p₁ p₂ p) (h₁ : p₁.verify = .ok ()) (h₂ : p₂.verify = .ok ()) :
    p.verify = .ok () := by
  have a := valid_of h₁
  have b := valid_of h₂
  refine (C10_ssco_verify_exact p).1 ⟨?_, ?_, ?_, ?_, ?_, ?_⟩
  · rw [J.d]; have := a.1; have := b.1; omega
  · rw [← J.tEnd₁]; exact a.2.1
  · rw [J.bounds, J.d, List.length_append, Nat.cast_add, a.2.2.1, b.2.2.1]
  · rw [J.switching, J.d, List.length_append, Nat.cast_add, a.2.2.2.1, b.2.2.2.1]
  · rw [J.bounds]
    intro c hc
    rcases List.mem_append.1 hc with hc | hc
    · exact a.2.2.2.2.1 c hc
    · exact b.2.2.2.2.1 c hc
  · rw [J.switching]
    intro c hc
    rcases List.mem_append.1 hc with hc | hc
    · exact a.2.2.2.2.2 c hc
    · exact b.2.2.2.2.2 c hc

theorem valid_all {ps : List (SSCO ℤ C D)} {p : SSCO ℤ C D} (J : Spec.JointAll ps p) (hv : ∀ q ∈ ps, q.verify = .ok ()) :
    p.verify = .ok () := by
  induction J with
  | one p => exact hv p (by simp)
  | more p₁ q p ps J _ ih => exact valid J (hv p₁ (by simp)) (ih fun s hs => hv s (by simp [hs]))

theorem parts {a a' b b' : ECost} (h : a + b = a' + b') (ha : a ≤ a') (hb : b ≤ b') (hf : a ≠ ⊤) (hf' : b ≠ ⊤) : a' = a ∧ b' = b := by
  lift a to ℚ using hf
  lift b to ℚ using hf'
  cases a' using WithTop.recTopCoe with
  | top => simp at h
  | coe a' =>
    cases b' using WithTop.recTopCoe with
    | top => simp at h
    | coe b' =>
      rw [← WithTop.coe_add, ← WithTop.coe_add, WithTop.coe_inj] at h
      rw [WithTop.coe_le_coe] at ha hb
      exact ⟨by rw [WithTop.coe_inj]; linarith, by rw [WithTop.coe_inj]; linarith⟩

end Joint

open Joint Periods Robust

/-- **C114** (two fleets). If the costs of two fleets do not depend on each other, then the plan for both together costs exactly
what the two plans cost, the two plans side by side are an optimal plan for both, and both parts of the plan for both are optimal
plans. -/
theorem C114_joint (p₁ p₂ p : SSCO ℤ C D) (J : Spec.Joint p₁ p₂ p) (hv₁ : p₁.verify = .ok ()) (hv₂ : p₂.verify = .ok ())
    (hT : 1 ≤ p.tEnd) (hf : ∀ t : Int, 1 ≤ t → t ≤ p.tEnd → ∀ c, p.toProb.hitCost t p.bounds = .ok c → c.cost ≠ ⊤)
    (o : OfflineOptions) (hl : o.l = none) (hα : 0 ≤ o.alpha) :
    ∃ r₁ r₂ r, Multi.optimalGraphSearch p₁ none o = .ok r₁ ∧ Multi.optimalGraphSearch p₂ none o = .ok r₂ ∧
      Multi.optimalGraphSearch p none o = .ok r ∧ r.path.cost = r₁.path.cost + r₂.path.cost ∧
      (∃ out, p.toProb.alphaUnfairObjective (List.zipWith (· ++ ·) r₁.path.xs r₂.path.xs) o.alpha = .ok ⟨r.path.cost, out⟩) ∧
      (∃ out, p₁.toProb.alphaUnfairObjective (r.path.xs.map (List.take p₁.d.toNat)) o.alpha = .ok ⟨r₁.path.cost, out⟩) ∧
      (∃ out, p₂.toProb.alphaUnfairObjective (r.path.xs.map (List.drop p₁.d.toNat)) o.alpha = .ok ⟨r₂.path.cost, out⟩) := by
  have hv := valid J hv₁ hv₂
  have v₁ := valid_of hv₁
  have v₂ := valid_of hv₂
  have top₁ : Spec.InBox p₁.bounds p₁.bounds := List.forall₂_same.2 fun b hb => ⟨(v₁.2.2.2.2.1 b hb).le, le_rfl⟩
  have top₂ : Spec.InBox p₂.bounds p₂.bounds := List.forall₂_same.2 fun b hb => ⟨(v₂.2.2.2.2.1 b hb).le, le_rfl⟩
  have H₁ : Spec.Hits p₁ (hitOr p₁) := hits hv₁ (fun t t1 t2 x hx => by
      obtain ⟨c, _, _, h, _⟩ := J.hit t t1 (by rw [← J.tEnd₁]; exact t2) x _ hx top₂; exact ⟨c, h⟩)
    (fun t t1 t2 c hc => by
      rw [J.tEnd₁] at t2
      obtain ⟨c₁, c₂, c', h1, h2, h3, h4⟩ := J.hit t t1 t2 _ _ top₁ top₂
      rw [hc] at h1
      obtain rfl := Except.ok.inj h1
      have := hf t t1 t2 c' (by rw [J.bounds]; exact h3)
      rw [h4] at this
      exact fun h => this (by rw [h]; simp))
  have H₂ : Spec.Hits p₂ (hitOr p₂) := hits hv₂ (fun t t1 t2 x hx => by
      obtain ⟨_, c, _, _, h, _⟩ := J.hit t t1 (by rw [← J.tEnd₂]; exact t2) _ x top₁ hx; exact ⟨c, h⟩)
    (fun t t1 t2 c hc => by
      rw [J.tEnd₂] at t2
      obtain ⟨c₁, c₂, c', h1, h2, h3, h4⟩ := J.hit t t1 t2 _ _ top₁ top₂
      rw [hc] at h2
      obtain rfl := Except.ok.inj h2
      have := hf t t1 t2 c' (by rw [J.bounds]; exact h3)
      rw [h4] at this
      exact fun h => this (by rw [h]; simp))
  have H : Spec.Hits p (hitOr p) := hits hv (fun t t1 t2 z hz => by
      rw [J.bounds] at hz
      obtain ⟨z1, z2⟩ := box_split hz
      obtain ⟨_, _, c, _, _, h, _⟩ := J.hit t t1 t2 _ _ z1 z2
      rw [List.take_append_drop] at h
      exact ⟨c, h⟩) hf
  have n₁ : p₁.bounds.length = p₁.d.toNat := by have := v₁.2.2.1; omega
  have n₂ : p₂.bounds.length = p₂.d.toNat := by have := v₂.2.2.1; omega
  have s₁ : p₁.switchingCost.length = p₁.d.toNat := by have := v₁.2.2.2.1; omega
  have hz : List.replicate p.d.toNat (0 : ℤ) = List.replicate p₁.d.toNat 0 ++ List.replicate p₂.d.toNat 0 := by
    rw [← List.replicate_add, J.d]
    congr 1
    have := v₁.1; have := v₂.1; omega
  have key : ∀ xs ys : Schedule ℤ, (xs.length : Int) = p.tEnd → (ys.length : Int) = p.tEnd → (∀ x ∈ xs, Spec.InBox p₁.bounds x) →
      (∀ y ∈ ys, Spec.InBox p₂.bounds y) →
      Spec.totalCost (hitOr p) (Spec.upCost p.switchingCost) o.alpha 1 (List.replicate p.d.toNat 0) (List.zipWith (· ++ ·) xs ys)
        = Spec.totalCost (hitOr p₁) (Spec.upCost p₁.switchingCost) o.alpha 1 (List.replicate p₁.d.toNat 0) xs
          + Spec.totalCost (hitOr p₂) (Spec.upCost p₂.switchingCost) o.alpha 1 (List.replicate p₂.d.toNat 0) ys := by
    intro xs ys hx hy bx bY
    rw [hz, J.switching]
    refine cost_zip (b₁ := p₁.bounds) (b₂ := p₂.bounds) (by rw [n₁, s₁]) xs ys 1 _ _ (by omega) (by rw [s₁, List.length_replicate]) bx bY
      (fun s s1 s2 x y hx' hy' => ?_)
    obtain ⟨c₁, c₂, c', h1, h2, h3, h4⟩ := J.hit s s1 (by omega) x y hx' hy'
    rw [hitOr, hitOr, hitOr, h1, h2, h3]
    exact h4
  obtain ⟨r₁, a1, a2, a3, a4, a5, a6⟩ := best hv₁ (by rw [J.tEnd₁]; exact hT) H₁ o hl hα
  obtain ⟨r₂, b1, b2, b3, b4, b5, b6⟩ := best hv₂ (by rw [J.tEnd₂]; exact hT) H₂ o hl hα
  obtain ⟨r, c1, c2, c3, c4, c5, c6⟩ := best hv hT H o hl hα
  have lz : ((List.zipWith (· ++ ·) r₁.path.xs r₂.path.xs).length : Int) = p.tEnd := by
    rw [List.length_zipWith]
    rw [J.tEnd₁] at a2; rw [J.tEnd₂] at b2
    omega
  have bz : ∀ z ∈ List.zipWith (· ++ ·) r₁.path.xs r₂.path.xs, Spec.InBox p.bounds z := by
    rw [J.bounds]; exact zip_box a3 b3
  have k1 := key _ _ (by rw [a2, J.tEnd₁]) (by rw [b2, J.tEnd₂]) a3 b3
  rw [← a5, ← b5] at k1
  have k2 := c6 _ lz bz
  rw [k1] at k2
  have t1 : ∀ x ∈ r.path.xs.map (List.take p₁.d.toNat), Spec.InBox p₁.bounds x := by
    intro x hx
    obtain ⟨z, hz, rfl⟩ := List.mem_map.1 hx
    have := c3 z hz
    rw [J.bounds] at this
    rw [← n₁]; exact (box_split this).1
  have t2 : ∀ x ∈ r.path.xs.map (List.drop p₁.d.toNat), Spec.InBox p₂.bounds x := by
    intro x hx
    obtain ⟨z, hz, rfl⟩ := List.mem_map.1 hx
    have := c3 z hz
    rw [J.bounds] at this
    rw [← n₁]; exact (box_split this).2
  have l1 : ((r.path.xs.map (List.take p₁.d.toNat)).length : Int) = p.tEnd := by rw [List.length_map, c2]
  have l2 : ((r.path.xs.map (List.drop p₁.d.toNat)).length : Int) = p.tEnd := by rw [List.length_map, c2]
  have k3 := key _ _ l1 l2 t1 t2
  rw [zip_split, ← c5] at k3
  have k4 := a6 _ (by rw [J.tEnd₁]; exact l1) t1
  have k5 := b6 _ (by rw [J.tEnd₂]; exact l2) t2
  have hc : r.path.cost = r₁.path.cost + r₂.path.cost := le_antisymm k2 (by rw [k3]; exact add_le_add k4 k5)
  obtain ⟨e1, e2⟩ := parts (hc.symm.trans k3) k4 k5 a4 b4
  obtain ⟨u, hu⟩ := objective_total hv H o.alpha _ lz bz
  obtain ⟨u₁, hu₁⟩ := objective_total hv₁ H₁ o.alpha _ (by rw [J.tEnd₁]; exact l1) t1
  obtain ⟨u₂, hu₂⟩ := objective_total hv₂ H₂ o.alpha _ (by rw [J.tEnd₂]; exact l2) t2
  exact ⟨r₁, r₂, r, a1, b1, c1, hc, ⟨u, by rw [hu, k1, hc]⟩, ⟨u₁, by rw [hu₁, e1]⟩, ⟨u₂, by rw [hu₂, e2]⟩⟩

/-- **C114** (any number of fleets). The plan for any number of fleets whose costs do not depend on each other costs exactly what
the plans for the single fleets cost together. -/
theorem C114_fleets (ps : List (SSCO ℤ C D)) (p : SSCO ℤ C D) (J : Spec.JointAll ps p) (hv : ∀ q ∈ ps, q.verify = .ok ())
    (hh : ∀ q ∈ ps, ∀ t : Int, 1 ≤ t → t ≤ p.tEnd → ∀ x, Spec.InBox q.bounds x → ∃ c, q.toProb.hitCost t x = .ok c)
    (hT : 1 ≤ p.tEnd) (hf : ∀ t : Int, 1 ≤ t → t ≤ p.tEnd → ∀ c, p.toProb.hitCost t p.bounds = .ok c → c.cost ≠ ⊤)
    (o : OfflineOptions) (hl : o.l = none) (hα : 0 ≤ o.alpha) :
    p.verify = .ok () ∧ ∃ rs r, List.Forall₂ (fun q r => Multi.optimalGraphSearch q none o = .ok r) ps rs ∧
      Multi.optimalGraphSearch p none o = .ok r ∧ r.path.cost = (rs.map fun r => r.path.cost).sum := by
  induction J with
  | one p =>
    have hv := hv p (by simp)
    obtain ⟨r, a1, _⟩ := best hv hT (hits hv (hh p (by simp)) hf) o hl hα
    exact ⟨hv, [r], r, .cons a1 .nil, a1, by simp⟩
  | more p₁ q p ps J J' ih =>
    have hv₁ := hv p₁ (by simp)
    have v₁ := valid_of hv₁
    have v₂ := valid_of (valid_all J' fun s hs => hv s (by simp [hs]))
    have hb : Spec.InBox q.bounds q.bounds := List.forall₂_same.2 fun b hb => ⟨(v₂.2.2.2.2.1 b hb).le, le_rfl⟩
    have top₁ : Spec.InBox p₁.bounds p₁.bounds := List.forall₂_same.2 fun b hb => ⟨(v₁.2.2.2.2.1 b hb).le, le_rfl⟩
    obtain ⟨hvq, rs, r₂, i1, i2, i3⟩ := ih (fun s hs => hv s (by simp [hs]))
      (fun s hs t t1 t2 => hh s (by simp [hs]) t t1 (by rw [← J.tEnd₂]; exact t2)) (by rw [J.tEnd₂]; exact hT)
      (fun t t1 t2 c hc => by
        rw [J.tEnd₂] at t2
        obtain ⟨c₁, c₂, c', h1, h2, h3, h4⟩ := J.hit t t1 t2 _ _ top₁ hb
        rw [hc] at h2
        obtain rfl := Except.ok.inj h2
        have := hf t t1 t2 c' (by rw [J.bounds]; exact h3)
        rw [h4] at this
        exact fun h => this (by rw [h]; simp))
    obtain ⟨r₁, r₂', r, c1, c2, c3, c4, _⟩ := C114_joint p₁ q p J hv₁ hvq hT hf o hl hα
    rw [i2] at c2
    obtain rfl := Except.ok.inj c2
    exact ⟨valid J hv₁ hvq, r₁ :: rs, r, .cons c1 i1, c3, by rw [List.map_cons, List.sum_cons, c4, i3]⟩

namespace Joint

theorem uni_multi {p : SSCO ℤ C D} {m : ℤ} {β : ℚ} {g : Int → ℤ → ECost} {n : Nat} (I : Spec.Inst p m β g n)
    (K : Spec.Costs m β g n) (hv : p.verify = .ok ()) (hT : 1 ≤ p.tEnd) (o : OfflineOptions) (hl : o.l = none)
    (hi : o.inverted = false) (hα : 0 ≤ o.alpha) {r : CachedPath Multi.Vertex} (hr : Multi.optimalGraphSearch p none o = .ok r) :
    ∃ P, Uni.optimalGraphSearch p 0 o = .ok P ∧ P.cost = r.path.cost := by
  have hn := I.tEnd
  obtain ⟨P, a1, a2, a3, ⟨out, a4⟩, a5⟩ := C17_optimal p hv I.d m I.bounds 0 K.hm.le o hl hα g
    (fun t t1 t2 => I.hit t t1 (by omega)) (fun t t1 t2 => K.fin t t1 (by omega)) (fun t t1 t2 => K.nonneg t t1 (by omega))
    (fun t t1 t2 => K.conv t t1 (by omega))
  have hh : ∀ t : Int, 1 ≤ t → t ≤ p.tEnd → ∀ x, Spec.InBox p.bounds x → ∃ c, p.toProb.hitCost t x = .ok c := by
    intro t t1 t2 x hx
    rw [I.bounds] at hx
    cases hx with
    | @cons _ j _ _ h h2 =>
      cases h2
      obtain ⟨o, ho⟩ := I.hit t t1 (by omega) j h.1 h.2
      exact ⟨_, ho⟩
  have hf : ∀ t : Int, 1 ≤ t → t ≤ p.tEnd → ∀ c, p.toProb.hitCost t p.bounds = .ok c → c.cost ≠ ⊤ := by
    intro t t1 t2 c hc
    rw [I.bounds] at hc
    obtain ⟨o, ho⟩ := I.hit t t1 (by omega) m K.hm.le le_rfl
    rw [ho] at hc
    rw [← Except.ok.inj hc]
    exact K.fin t t1 (by omega)
  obtain ⟨r', b1, b2, b3, b4, b5, b6⟩ := best hv hT (hits hv hh hf) o hl hα
  rw [hr] at b1
  obtain rfl := Except.ok.inj b1
  have hd : p.toProb.defaultConfig = [0] := by
    show List.replicate p.d.toNat (0 : ℤ) = [0]
    rw [I.d]; rfl
  have e : ∀ ys : Schedule ℤ, p.toProb.objectiveWithDefault' ys [0] o.alpha o.inverted p.tEnd = p.toProb.alphaUnfairObjective ys o.alpha := by
    intro ys
    rw [hi, ← hd]; rfl
  refine ⟨P, a1, le_antisymm ?_ ?_⟩
  · obtain ⟨c, c1, c2⟩ := a5 r.path.xs b2 b3
    obtain ⟨u, hu⟩ := objective_total hv (hits hv hh hf) o.alpha r.path.xs b2 b3
    rw [e, hu] at c1
    rw [← Except.ok.inj c1] at c2
    rw [b5]; exact c2
  · obtain ⟨u, hu⟩ := objective_total hv (hits hv hh hf) o.alpha P.xs a2 a3
    rw [e, hu] at a4
    have := congrArg Cost.cost (Except.ok.inj a4)
    dsimp only at this
    rw [← this]
    exact b6 _ a2 a3

end Joint

/-- **C114** (types of servers). If the convex costs of the types of servers do not depend on each other, then the plan for
all types costs exactly what the plans of the one-dimensional search for the single types cost together. -/
theorem C114_types (ps : List (SSCO ℤ C D)) (p : SSCO ℤ C D) (J : Spec.JointAll ps p) (n : Nat) (hn : p.tEnd = n)
    (hT : 1 ≤ p.tEnd) (hv : ∀ q ∈ ps, q.verify = .ok ()) (hq : ∀ q ∈ ps, ∃ m β g, Spec.Inst q m β g n ∧ Spec.Costs m β g n)
    (o : OfflineOptions) (hl : o.l = none) (hi : o.inverted = false) (hα : 0 ≤ o.alpha) :
    ∃ Ps r, List.Forall₂ (fun q P => Uni.optimalGraphSearch q 0 o = .ok P) ps Ps ∧
      Multi.optimalGraphSearch p none o = .ok r ∧ r.path.cost = (Ps.map Path.cost).sum := by
  have hh : ∀ q ∈ ps, ∀ t : Int, 1 ≤ t → t ≤ p.tEnd → ∀ x, Spec.InBox q.bounds x → ∃ c, q.toProb.hitCost t x = .ok c := by
    intro q hq' t t1 t2 x hx
    obtain ⟨m, β, g, I, K⟩ := hq q hq'
    rw [I.bounds] at hx
    cases hx with
    | @cons _ j _ _ h h2 =>
      cases h2
      obtain ⟨o, ho⟩ := I.hit t t1 (by omega) j h.1 h.2
      exact ⟨_, ho⟩
  have hf : ∀ t : Int, 1 ≤ t → t ≤ p.tEnd → ∀ c, p.toProb.hitCost t p.bounds = .ok c → c.cost ≠ ⊤ := by
    clear hT
    induction J with
    | one p =>
      intro t t1 t2 c hc
      obtain ⟨m, β, g, I, K⟩ := hq p (by simp)
      rw [I.bounds] at hc
      obtain ⟨o, ho⟩ := I.hit t t1 (by omega) m K.hm.le le_rfl
      rw [ho] at hc
      rw [← Except.ok.inj hc]
      exact K.fin t t1 (by omega)
    | more p₁ q p ps J J' ih =>
      intro t t1 t2 c hc
      obtain ⟨m, β, g, I, K⟩ := hq p₁ (by simp)
      have v₁ := valid_of (hv p₁ (by simp))
      have v₂ := valid_of (valid_all J' fun s hs => hv s (by simp [hs]))
      have top₁ : Spec.InBox p₁.bounds p₁.bounds := List.forall₂_same.2 fun b hb => ⟨(v₁.2.2.2.2.1 b hb).le, le_rfl⟩
      have top₂ : Spec.InBox q.bounds q.bounds := List.forall₂_same.2 fun b hb => ⟨(v₂.2.2.2.2.1 b hb).le, le_rfl⟩
      obtain ⟨c₁, c₂, c', h1, h2, h3, h4⟩ := J.hit t t1 t2 _ _ top₁ top₂
      rw [← J.bounds, hc] at h3
      obtain rfl := Except.ok.inj h3
      have f2 := ih (by rw [J.tEnd₂, hn]) (fun s hs => hv s (by simp [hs])) (fun s hs => hq s (by simp [hs]))
        (fun s hs t t1 t2 => hh s (by simp [hs]) t t1 (by rw [← J.tEnd₂]; exact t2)) t t1 (by rw [J.tEnd₂]; exact t2) c₂ h2
      obtain ⟨o, ho⟩ := I.hit t t1 (by omega) m K.hm.le le_rfl
      rw [I.bounds, ho] at h1
      have f1 := K.fin t t1 (by omega)
      rw [h4, ← Except.ok.inj h1]
      exact WithTop.add_ne_top.2 ⟨f1, f2⟩
  obtain ⟨_, rs, r, h1, h2, h3⟩ := C114_fleets ps p J hv hh hT hf o hl hα
  have : ∃ Ps, List.Forall₂ (fun q P => Uni.optimalGraphSearch q 0 o = .ok P) ps Ps ∧ Ps.map Path.cost = rs.map fun r => r.path.cost := by
    clear h2 h3 hf hh J
    induction h1 with
    | nil => exact ⟨[], .nil, rfl⟩
    | @cons q r ps rs a b ih =>
      obtain ⟨Ps, i1, i2⟩ := ih (fun s hs => hv s (by simp [hs])) (fun s hs => hq s (by simp [hs]))
      obtain ⟨m, β, g, I, K⟩ := hq q (by simp)
      obtain ⟨P, k1, k2⟩ := uni_multi I K (hv q (by simp)) (by rw [I.tEnd, ← hn]; exact hT) o hl hi hα a
      exact ⟨P :: Ps, .cons k1 i1, by rw [List.map_cons, List.map_cons, k2, i2]⟩
  obtain ⟨Ps, i1, i2⟩ := this
  exact ⟨Ps, r, i1, h2, by rw [h3, i2]⟩

/-! ## The claims are not empty -/

/-- Two fleets with the costs of `Ex.sscoAt`, joined. -/
def Ex.twin (n : Nat) : SSCO ℤ Unit Unit where
  d := 2
  tEnd := n
  bounds := [5, 5]
  switchingCost := [2, 2]
  hittingCost := CostFn.new 1 (SingleCostFn.certain fun t x =>
    .ok (Cost.raw ((((|x.getD 0 0 - t| : ℤ) : ℚ) + ((|x.getD 1 0 - t| : ℤ) : ℚ) : ℚ) : ECost)))

theorem Ex.twin_joint (n : Nat) : Spec.Joint (Ex.sscoAt n) (Ex.sscoAt n) (Ex.twin n) where
  d := rfl
  tEnd₁ := rfl
  tEnd₂ := rfl
  bounds := rfl
  switching := rfl
  hit t t1 _ x y hx hy := by
    have hx' : List.Forall₂ (fun (b j : ℤ) => 0 ≤ j ∧ j ≤ b) [5] x := hx
    have hy' : List.Forall₂ (fun (b j : ℤ) => 0 ≤ j ∧ j ≤ b) [5] y := hy
    cases hx' with
    | @cons _ i _ _ h h2 =>
      cases h2
      cases hy' with
      | @cons _ j _ _ h' h2 =>
        cases h2
        obtain ⟨o, ho⟩ := Ex.ssco1_hit t t1 i h.1 h.2
        obtain ⟨o', ho'⟩ := Ex.ssco1_hit t t1 j h'.1 h'.2
        have w : withinVec (Ex.twin n).bounds [i, j] = .ok true := by
          simp [withinVec, Ex.twin]; omega
        refine ⟨_, _, Cost.raw ((((|i - t| : ℤ) : ℚ) + ((|j - t| : ℤ) : ℚ) : ℚ) : ECost), ho, ho', ?_, rfl⟩
        simp only [List.singleton_append, SSCO.toProb, CostFn.callMeanWithinBounds, w, bind, Except.bind, if_true]
        simp only [Ex.twin, CostFn.callMean_certain _ t t1]
        rfl

theorem Ex.twin_fin (n : Nat) (t : Int) (t1 : 1 ≤ t) (t2 : t ≤ (Ex.twin n).tEnd) (c : Cost Unit Unit)
    (hc : (Ex.twin n).toProb.hitCost t (Ex.twin n).bounds = .ok c) : c.cost ≠ ⊤ := by
  have h5 : Spec.InBox (Ex.sscoAt n).bounds [5] := .cons (by decide) .nil
  obtain ⟨c₁, c₂, c', h1, h2, h3, h4⟩ := (Ex.twin_joint n).hit t t1 t2 [5] [5] h5 h5
  have h3 : (Ex.twin n).toProb.hitCost t (Ex.twin n).bounds = .ok c' := h3
  rw [hc] at h3
  obtain rfl := Except.ok.inj h3
  obtain ⟨o, ho⟩ := Ex.ssco1_hit t t1 5 (by omega) le_rfl
  have e1 : Except.ok _ = Except.ok c₁ := ho.symm.trans h1
  have e2 : Except.ok _ = Except.ok c₂ := ho.symm.trans h2
  rw [h4, ← Except.ok.inj e1, ← Except.ok.inj e2]
  exact WithTop.add_ne_top.2 ⟨WithTop.coe_ne_top, WithTop.coe_ne_top⟩

theorem Ex.sscoAt_verify (n : Nat) : (Ex.sscoAt n).verify = .ok () :=
  (C10_ssco_verify_exact _).1 ⟨by show (0 : ℤ) < 1; decide, by show (0 : ℤ) ≤ n; omega, rfl, rfl, by
    intro b hb
    obtain rfl := List.mem_singleton.1 hb
    norm_num, by
    intro b hb
    obtain rfl := List.mem_singleton.1 hb
    norm_num⟩

example (n : Nat) (hn : 1 ≤ n) (α : ℚ) (hα : 0 ≤ α) := C114_joint (Ex.sscoAt n) (Ex.sscoAt n) (Ex.twin n) (Ex.twin_joint n)
  (Ex.sscoAt_verify n) (Ex.sscoAt_verify n) (by show (1 : ℤ) ≤ n; omega) (Ex.twin_fin n) ⟨false, α, none⟩ rfl hα

example (n : Nat) (hn : 1 ≤ n) (α : ℚ) (hα : 0 ≤ α) := C114_types [Ex.sscoAt n, Ex.sscoAt n] (Ex.twin n)
  (.more _ _ _ _ (Ex.twin_joint n) (.one _)) n rfl (by show (1 : ℤ) ≤ n; omega)
  (fun q hq => by
    obtain rfl : q = Ex.sscoAt n := by simpa using hq
    exact Ex.sscoAt_verify n)
  (fun q hq => by
    obtain rfl : q = Ex.sscoAt n := by simpa using hq
    exact ⟨5, 2, _, Ex.sscoAt_inst n, Ex.abs_costs n⟩) ⟨false, α, none⟩ rfl rfl hα

example (n : Nat) (hn : 1 ≤ n) (α : ℚ) (hα : 0 ≤ α) := C114_fleets [Ex.sscoAt n, Ex.sscoAt n] (Ex.twin n)
  (.more _ _ _ _ (Ex.twin_joint n) (.one _))
  (fun q hq => by
    obtain rfl : q = Ex.sscoAt n := by simpa using hq
    exact Ex.sscoAt_verify n)
  (fun q hq t t1 _ x hx => by
    obtain rfl : q = Ex.sscoAt n := by simpa using hq
    have hx' : List.Forall₂ (fun (b j : ℤ) => 0 ≤ j ∧ j ≤ b) [5] x := hx
    cases hx' with
    | @cons _ i _ _ h h2 =>
      cases h2
      obtain ⟨o, ho⟩ := Ex.ssco1_hit t t1 i h.1 h.2
      exact ⟨_, ho⟩) (by show (1 : ℤ) ≤ n; omega) (Ex.twin_fin n) ⟨false, α, none⟩ rfl hα

end Soco
