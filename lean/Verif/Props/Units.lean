import Verif.Props.Ties
import Verif.Props.LcpWindow
import Verif.Props.ApproxGraph
import Verif.Props.Queries

/-!
# C106: only relative costs matter
-/

namespace Soco

variable {C D : Type} [OutSuccess C] [OutFailure D]

namespace Spec

/-- `k t + k (t + 1) + …`, `n` terms. -/
def slotSum (k : Int → ℚ) : Int → Nat → ℚ
  | _, 0 => 0
  | t, n + 1 => k t + slotSum k (t + 1) n

/-- `p'` is `p` with costs given in another currency: hitting and switching costs are multiplied by `c`. -/
structure InCurrency (c : ℚ) (p p' : SSCO ℤ C D) : Prop where
  d : p'.d = p.d
  tEnd : p'.tEnd = p.tEnd
  bounds : p'.bounds = p.bounds
  switching : p'.switchingCost = p.switchingCost.map (c * ·)
  hit : ∀ t : Int, 1 ≤ t → t ≤ p.tEnd → ∀ x, InBox p.bounds x →
    (p'.toProb.hitCost t x).map (fun h => h.cost) = (p.toProb.hitCost t x).map fun h => ECost.mulQ c h.cost

end Spec

namespace Currency

theorem mulQ_add (c : ℚ) (a b : ECost) : ECost.mulQ c (a + b) = ECost.mulQ c a + ECost.mulQ c b := by
  induction a using WithTop.recTopCoe <;> induction b using WithTop.recTopCoe <;> simp [ECost.mulQ, ← WithTop.coe_add, mul_add]

theorem mulQ_lt {c : ℚ} (hc : 0 < c) (a b : ECost) : ECost.mulQ c a < ECost.mulQ c b ↔ a < b := by
  induction a using WithTop.recTopCoe <;> induction b using WithTop.recTopCoe <;> simp [ECost.mulQ, hc]

theorem mulQ_le {c : ℚ} (hc : 0 < c) (a b : ECost) : ECost.mulQ c a ≤ ECost.mulQ c b ↔ a ≤ b := by
  rw [← not_lt, mulQ_lt hc, not_lt]

theorem affine_le {c : ℚ} (hc : 0 < c) (s : ℚ) (a b : ECost) :
    ECost.mulQ c a + (s : ECost) ≤ ECost.mulQ c b + (s : ECost) ↔ a ≤ b := by
  rw [WithTop.add_le_add_iff_right WithTop.coe_ne_top, mulQ_le hc]

theorem affine_ne_top {c s : ℚ} {a : ECost} : ECost.mulQ c a + (s : ECost) ≠ ⊤ ↔ a ≠ ⊤ := by
  induction a using WithTop.recTopCoe <;> simp [ECost.mulQ, ← WithTop.coe_add]

theorem totalCost_affine {X : Type} {g g' : Int → X → ECost} {mv mv' : X → X → ℚ} {c : ℚ} {k : Int → ℚ} {α : ℚ}
    {Q : X → Prop} (hm : ∀ x y, mv' x y = c * mv x y) :
    ∀ (xs : List X) (t : Int) (x : X), (∀ s : Int, t ≤ s → s < t + xs.length → ∀ y, Q y →
        g' s y = ECost.mulQ c (g s y) + (k s : ECost)) → (∀ y ∈ xs, Q y) →
      Spec.totalCost g' mv' α t x xs =
        ECost.mulQ c (Spec.totalCost g mv α t x xs) + (Spec.slotSum k t xs.length : ECost) := by
  intro xs
  induction xs with
  | nil => intro t x _ _; simp [Spec.totalCost, Spec.slotSum, ECost.mulQ]
  | cons y xs ih =>
    intro t x hg hq
    have hl : ((y :: xs).length : Int) = xs.length + 1 := by simp
    rw [Spec.totalCost, Spec.totalCost, ih (t + 1) y (fun s s1 s2 => hg s (by omega) (by omega))
      (fun z hz => hq z (by simp [hz])), hg t le_rfl (by omega) y (hq y (by simp)), hm, mulQ_add, mulQ_add,
      List.length_cons, Spec.slotSum]
    have e : ECost.mulQ c ((α * mv x y : ℚ) : ECost) = ((α * (c * mv x y) : ℚ) : ECost) := by
      show ((c * (α * mv x y) : ℚ) : ECost) = _
      congr 1; ring
    rw [e, WithTop.coe_add]
    abel

end Currency

open Uni Currency

theorem Currency.mv1_scale (c β : ℚ) (inv : Bool) (i j : ℤ) : mv1 (c * β) inv i j = c * mv1 β inv i j := by
  unfold mv1; ring

/-- The costs of a convex function, multiplied and shifted, stay convex. -/
theorem Currency.conv_affine {m : ℤ} {f f' : ℤ → ECost} {c k : ℚ} (hc : 0 < c)
    (h : ∀ j, 0 ≤ j → j ≤ m → f' j = ECost.mulQ c (f j) + (k : ECost)) (hf : Spec.ConvexOnE m f) :
    Spec.ConvexOnE m f' := by
  intro x y z h0 hxy hyz hz a b ha hb
  rw [h x h0 (by omega)] at ha
  rw [h z (by omega) hz] at hb
  obtain ⟨a', ea⟩ : ∃ a' : ℚ, f x = (a' : ECost) := by
    cases e : f x using WithTop.recTopCoe with
    | top => rw [e] at ha; simp [ECost.mulQ] at ha
    | coe a' => exact ⟨a', rfl⟩
  obtain ⟨b', eb⟩ : ∃ b' : ℚ, f z = (b' : ECost) := by
    cases e : f z using WithTop.recTopCoe with
    | top => rw [e] at hb; simp [ECost.mulQ] at hb
    | coe a' => exact ⟨a', rfl⟩
  obtain ⟨q, hq, hle⟩ := hf x y z h0 hxy hyz hz a' b' ea eb
  refine ⟨c * q + k, ?_, ?_⟩
  · rw [h y (by omega) (by omega), hq]; rfl
  · rw [ea] at ha; rw [eb] at hb
    have e1 : c * a' + k = a := by
      have : ((c * a' + k : ℚ) : ECost) = (a : ECost) := ha
      exact WithTop.coe_injective this
    have e2 : c * b' + k = b := by
      have : ((c * b' + k : ℚ) : ECost) = (b : ECost) := hb
      exact WithTop.coe_injective this
    rw [← e1, ← e2]
    have := mul_le_mul_of_nonneg_left hle hc.le
    nlinarith

/-- **C106** (one dimension). Take a problem with convex costs, give all costs in another currency (all hitting and
switching costs times `c > 0`) and charge in every slot a fee `k t` that does not depend on the configuration: the
graph search returns the same schedule, and its cost is the cost in the other currency plus the fees. -/
theorem C106_one_dimension (p p' : SSCO ℤ C D) (hv : p.verify = .ok ()) (hd : p.d = 1) (m : ℤ)
    (hb : p.bounds = [m]) (xStart : ℤ) (hx : xStart ≤ m) (o : OfflineOptions) (hl : o.l = none) (hα : 0 ≤ o.alpha)
    (g : Int → ℤ → ECost)
    (hhit : ∀ t : Int, 1 ≤ t → t ≤ p.tEnd → ∀ j, 0 ≤ j → j ≤ m →
      ∃ out, p.toProb.hitCost t [j] = .ok ⟨g t j, out⟩)
    (hfin : ∀ t : Int, 1 ≤ t → t ≤ p.tEnd → g t m ≠ ⊤)
    (hnn : ∀ t : Int, 1 ≤ t → t ≤ p.tEnd → ∀ j, 0 ≤ j → j ≤ m → 0 ≤ g t j)
    (hconv : ∀ t : Int, 1 ≤ t → t ≤ p.tEnd → Spec.ConvexOnE m (g t))
    (c : ℚ) (hc : 0 < c) (k : Int → ℚ) (hd' : p'.d = p.d) (hT' : p'.tEnd = p.tEnd) (hb' : p'.bounds = p.bounds)
    (hs' : p'.switchingCost = p.switchingCost.map (c * ·))
    (hhit' : ∀ t : Int, 1 ≤ t → t ≤ p.tEnd → ∀ j, 0 ≤ j → j ≤ m →
      ∃ out, p'.toProb.hitCost t [j] = .ok ⟨ECost.mulQ c (g t j) + (k t : ECost), out⟩)
    (hnn' : ∀ t : Int, 1 ≤ t → t ≤ p.tEnd → ∀ j, 0 ≤ j → j ≤ m → 0 ≤ ECost.mulQ c (g t j) + (k t : ECost)) :
    ∃ P P', Uni.optimalGraphSearch p xStart o = .ok P ∧ Uni.optimalGraphSearch p' xStart o = .ok P' ∧ P'.xs = P.xs ∧
      P'.cost = ECost.mulQ c P.cost + (Spec.slotSum k 1 p.tEnd.toNat : ECost) := by
  obtain ⟨m', β, hbb, hs, hm, hβ, hT⟩ := valid_one hv hd
  have : m' = m := by rw [hb] at hbb; simpa using hbb.symm
  subst this
  obtain ⟨P, js, h1, h2, h3, h4, h5, h6, h7⟩ := graphSearch_main hd hb hs hm hβ hT xStart hx o hl hα hhit
    hfin (fun t h1 h2 => hnn t h1 h2 m' hm.le le_rfl)
  obtain ⟨P', js', a1, a2, a3, a4, a5, a6, a7⟩ := graphSearch_main (p := p') (m := m') (β := c * β) (by omega) (by rw [hb', hb])
    (by rw [hs', hs]; rfl) hm (mul_pos hc hβ) (by omega) xStart hx o hl hα (g := fun t j => ECost.mulQ c (g t j) + (k t : ECost))
    (fun t t1 t2 => hhit' t t1 (by omega)) (fun t t1 t2 => affine_ne_top.2 (hfin t t1 (by omega)))
    (fun t t1 t2 => hnn' t t1 (by omega) m' hm.le le_rfl)
  have A := h7 hnn hconv
  have B := a7 (fun t t1 t2 => hnn' t t1 (by omega))
    (fun t t1 t2 => conv_affine hc (fun _ _ _ => rfl) (hconv t t1 (by omega)))
  have E : ∀ ks : List ℤ, (ks.length : Int) = p.tEnd → (∀ j ∈ ks, 0 ≤ j ∧ j ≤ m') →
      Spec.totalCost (fun t j => ECost.mulQ c (g t j) + (k t : ECost)) (mv1 (c * β) o.inverted) o.alpha 1 xStart ks =
        ECost.mulQ c (Spec.totalCost g (mv1 β o.inverted) o.alpha 1 xStart ks) + (Spec.slotSum k 1 p.tEnd.toNat : ECost) := by
    intro ks k1 k2
    rw [totalCost_affine (g := g) (k := k) (mv1_scale c β o.inverted) ks 1 xStart (fun s _ _ y _ => rfl) k2, ← k1]
    rfl
  rw [a5] at B
  rw [h5] at A
  rw [hT'] at a3
  have hjs : js = js' := by
    refine Low.below_antisymm ((A js' a3 a4).2 ?_) ((B js (by omega) h4).2 ?_)
    · have := (B js (by omega) h4).1
      rw [E js h3 h4, E js' a3 a4, affine_le hc] at this
      exact this
    · rw [E js h3 h4, E js' a3 a4, affine_le hc]
      exact (A js' a3 a4).1
  refine ⟨P, P', h1, a1, by rw [h2, a2, hjs], ?_⟩
  rw [a5, h5, ← hjs, E js h3 h4]

open Lcp Window in
/-- The lowest optimal sequence does not depend on the currency and on fees. -/
theorem Currency.low_affine {g g' : Int → ℤ → ECost} {β c : ℚ} {k : Int → ℚ} {inv : Bool} {m : ℤ} {N : Nat} {X : List ℤ}
    (hc : 0 < c) (hg : ∀ t : Int, 1 ≤ t → t ≤ N → ∀ j, 0 ≤ j → j ≤ m → g' t j = ECost.mulQ c (g t j) + (k t : ECost))
    (h : IsLow g β inv m N 1 0 X) : IsLow g' (c * β) inv m N 1 0 X := by
  have E : ∀ ks : List ℤ, ks.length = N → (∀ j ∈ ks, 0 ≤ j ∧ j ≤ m) →
      Spec.totalCost g' (mv1 (c * β) inv) 1 1 0 ks =
        ECost.mulQ c (Spec.totalCost g (mv1 β inv) 1 1 0 ks) + (Spec.slotSum k 1 N : ECost) := by
    intro ks k1 k2
    rw [totalCost_affine (g := g) (k := k) (Q := fun j => 0 ≤ j ∧ j ≤ m) (mv1_scale c β inv) ks 1 0
      (fun s s1 s2 y hy => hg s s1 (by omega) y hy.1 hy.2) k2, ← k1]
  refine ⟨h.len, h.box, ?_, fun ks k1 k2 => ?_, fun ks k1 k2 hle => ?_⟩
  · rw [E X h.len h.box]; exact affine_ne_top.2 h.fin
  · rw [E X h.len h.box, E ks k1 k2, affine_le hc]; exact h.opt ks k1 k2
  · rw [E X h.len h.box, E ks k1 k2, affine_le hc] at hle; exact h.low ks k1 k2 hle

open Lcp Window in
/-- **C106** (lazy capacity provisioning). Played on two problems which are revealed slot by slot and differ only in the
currency and in fees that do not depend on the configuration, lazy capacity provisioning decides the same in every
slot and memorises the same bounds. Holds with and without a prediction window. -/
theorem C106_lazy {m : ℤ} {β : ℚ} {g g' : Int → ℤ → ECost} (w : Nat) (ps ps' : List (SSCO ℤ C D))
    (hlen : ps'.length = ps.length) (c : ℚ) (hc : 0 < c) (k : Int → ℚ)
    (hg : ∀ t : Int, 1 ≤ t → t ≤ (ps.length + w : Nat) → ∀ j, 0 ≤ j → j ≤ m →
      g' t j = ECost.mulQ c (g t j) + (k t : ECost))
    (K : Spec.Costs m β g (ps.length + w)) (I : ∀ i (h : i < ps.length), Spec.Foresight ps[i] m β g (i + 1) w)
    (hnn : ∀ t : Int, 1 ≤ t → t ≤ (ps.length + w : Nat) → ∀ j, 0 ≤ j → j ≤ m → 0 ≤ g' t j)
    (I' : ∀ i (h : i < ps'.length), Spec.Foresight ps'[i] m (c * β) g' (i + 1) w) :
    ∃ xs mem, Spec.play SSCO.tEnd (lcpAlg boundedInt) [] none (ps.map fun p => ⟨p, w⟩) = .ok (xs, mem) ∧
      Spec.play SSCO.tEnd (lcpAlg boundedInt) [] none (ps'.map fun p => ⟨p, w⟩) = .ok (xs, mem) ∧
      xs.length = ps.length := by
  obtain ⟨js, bs, h1, h2, h3, M, h5⟩ := run_window w ps K I
  have K' : Spec.Costs m (c * β) g' (ps'.length + w) := by
    rw [hlen]
    exact ⟨K.hm, mul_pos hc K.hβ, fun t t1 t2 => by
        rw [hg t t1 t2 m K.hm.le le_rfl]; exact affine_ne_top.2 (K.fin t t1 t2), hnn,
      fun t t1 t2 => conv_affine hc (hg t t1 t2) (K.conv t t1 t2)⟩
  obtain ⟨js', bs', a1, a2, a3, M', a5⟩ := run_window w ps' K' I'
  have hbs : bs' = bs := by
    apply List.ext_getElem (by omega)
    intro i hi' hi
    obtain ⟨X, Y, hX, hY, eX, eY⟩ := M i bs[i] (List.getElem?_eq_getElem hi)
    obtain ⟨X', Y', hX', hY', eX', eY'⟩ := M' i bs'[i] (List.getElem?_eq_getElem hi')
    have e1 := (low_affine hc (fun t t1 t2 => hg t t1 (by omega)) hX).unique hX'
    have e2 := (low_affine hc (fun t t1 t2 => hg t t1 (by omega)) hY).unique hY'
    have l1 : bs'[i].lower = bs[i].lower := by rw [← eX', ← eX, e1]
    have l2 : bs'[i].upper = bs[i].upper := by rw [← eY', ← eY, e2]
    cases hA : bs'[i]; cases hB : bs[i]
    rw [hA, hB] at l1 l2
    simp only at l1 l2
    rw [l1, l2]
  subst hbs
  have hjs : js' = js := by
    apply List.ext_getElem (by omega)
    intro i hi' hi
    have u1 := h5 i (by omega)
    have u2 := a5 i (by omega)
    rw [← u1] at u2
    have := Int.cast_injective (α := ℚ) u2
    simpa [List.getD_eq_getElem?_getD, hi, hi'] using this
  subst hjs
  have hnil : (ps' = []) ↔ (ps = []) := by
    rw [← List.length_eq_zero_iff, ← List.length_eq_zero_iff, hlen]
  refine ⟨_, _, h1, ?_, by simpa using h2⟩
  rw [a1]
  simp only [hnil]


/-! ## Several dimensions -/

/-- The same path, its cost in another currency. -/
def Path.inCurrency (c : ℚ) (P : Path) : Path := { P with cost := ECost.mulQ c P.cost }

/-- The same cached paths, their costs in another currency. -/
def Cache.inCurrency {V : Type} (c : ℚ) (K : Cache V) : Cache V :=
  { K with paths := fun v => (K.paths v).map (Path.inCurrency c) }

/-- The same result, all costs in another currency. -/
def CachedPath.inCurrency {V : Type} (c : ℚ) (r : CachedPath V) : CachedPath V :=
  { path := r.path.inCurrency c, cache := r.cache.inCurrency c }

namespace Multi
open Currency

variable {p p' : SSCO ℤ C D} {v : Values} {c : ℚ}

private def sp (c : ℚ) (m : Paths Vertex) : Paths Vertex := fun v => (m v).map (Path.inCurrency c)

private def se (c : ℚ) (e : Edge) : Edge := { e with cost := ECost.mulQ c e.cost }

private def sb (c : ℚ) (e : Edge × Path) : Edge × Path := (se c e.1, e.2.inCurrency c)

private theorem foldlM_sim {α β γ : Type} (S : β → γ) {f : β → α → Res β} {f' : γ → α → Res γ} {l : List α}
    (h : ∀ a ∈ l, ∀ b, f' (S b) a = (f b a).map S) (b : β) : l.foldlM f' (S b) = (l.foldlM f b).map S := by
  induction l generalizing b with
  | nil => rfl
  | cons a l ih =>
    simp only [foldlM_cons', bind, Except.bind]
    rw [h a (by simp) b]
    cases f b a with
    | error e => rfl
    | ok b' =>
      exact ih (fun a ha => h a (List.mem_cons_of_mem _ ha)) b'

private theorem mapM_sim {α β γ : Type} (S : β → γ) {f : α → Res β} {f' : α → Res γ} (h : ∀ a, f' a = (f a).map S)
    (l : List α) : l.mapM f' = (l.mapM f).map (List.map S) := by
  induction l with
  | nil => rfl
  | cons a l ih =>
    simp only [List.mapM_cons, h a, ih, bind, Except.bind, pure, Except.pure]
    cases f a with
    | error e => rfl
    | ok b =>
      cases l.mapM f with
      | error e => rfl
      | ok bs => rfl

private theorem at_sp (m : Paths Vertex) (w : Vertex) : (sp c m).at w = (m.at w).map (Path.inCurrency c) := by
  unfold Paths.at sp
  cases m w <;> rfl

private theorem idx_map (f : ℚ → ℚ) (l : List ℚ) (i : Nat) : idx (l.map f) i = (idx l i).map f := by
  unfold idx
  rw [List.getElem?_map]
  cases l[i]? <;> rfl

omit [OutSuccess C] [OutFailure D] in
private theorem predEdge_sim (hs : p'.switchingCost = p.switchingCost.map (c * ·)) (alpha : ℚ) (inverted up : Bool)
    (x : IConf) (l : Nat) :
    predEdge p' alpha inverted up x v l = (predEdge p alpha inverted up x v l).map (Option.map (se c)) := by
  have e : ∀ pc, edgeCost p' alpha inverted up x pc l = (edgeCost p alpha inverted up x pc l).map (ECost.mulQ c) := by
    intro pc
    unfold edgeCost
    rw [hs, idx_map]
    split
    · cases idx p.switchingCost l with
      | error e => rfl
      | ok b =>
        cases idx x.config l with
        | error e => rfl
        | ok j =>
          cases idx pc.config l with
          | error e => rfl
          | ok pj =>
            show Except.ok (((alpha * (c * b) * _ : ℚ)) : ECost) = Except.ok ((c * (alpha * b * _) : ℚ) : ECost)
            congr 2
            ring
    · show Except.ok (0 : ECost) = Except.ok (ECost.mulQ c ((0 : ℚ) : ECost))
      show _ = Except.ok ((c * 0 : ℚ) : ECost)
      rw [mul_zero]; rfl
  unfold predEdge
  cases buildConfig (!up) v x l with
  | error e => rfl
  | ok b =>
    cases b with
    | none => rfl
    | some pc =>
      simp only [bind, Except.bind, e]
      cases edgeCost p alpha inverted up x pc l <;> rfl

private theorem inaction_sim {t : Int} {x : IConf}
    (h : (p'.toProb.hitCost t x.config).map (fun h => h.cost) = (p.toProb.hitCost t x.config).map fun h => ECost.mulQ c h.cost)
    (up : Bool) : inactionEdges p' t up x = (inactionEdges p t up x).map (List.map (se c)) := by
  have e : inactionCost p' t up x = (inactionCost p t up x).map (ECost.mulQ c) := by
    unfold inactionCost
    split
    · show Except.ok (0 : ECost) = Except.ok ((c * 0 : ℚ) : ECost)
      rw [mul_zero]; rfl
    · cases h1 : p'.toProb.hitCost t x.config with
      | error e =>
        cases h2 : p.toProb.hitCost t x.config with
        | error e' => rw [h1, h2] at h; simpa [Except.map, bind, Except.bind] using h
        | ok b => rw [h1, h2] at h; simp [Except.map] at h
      | ok a =>
        cases h2 : p.toProb.hitCost t x.config with
        | error e' => rw [h1, h2] at h; simp [Except.map] at h
        | ok b => rw [h1, h2] at h; simpa [Except.map, bind, Except.bind] using h
  unfold inactionEdges
  split
  · rw [e]
    cases inactionCost p t up x <;> rfl
  · rfl

private theorem preds_sim (hd : p'.d = p.d) (hs : p'.switchingCost = p.switchingCost.map (c * ·)) {t : Int} {x : IConf}
    (h : (p'.toProb.hitCost t x.config).map (fun h => h.cost) = (p.toProb.hitCost t x.config).map fun h => ECost.mulQ c h.cost)
    (alpha : ℚ) (inverted up : Bool) (k : Nat) :
    findPredecessors p' alpha inverted t up k x v = (findPredecessors p alpha inverted t up k x v).map (List.map (se c)) := by
  unfold findPredecessors
  rw [mapM_sim (Option.map (se c)) (predEdge_sim hs alpha inverted up x), inaction_sim h, hd]
  cases (List.range k).mapM (predEdge p alpha inverted up x v) with
  | error e => rfl
  | ok es =>
    cases inactionEdges p t up x with
    | error e => rfl
    | ok is =>
      have e1 : (es.map (Option.map (se c))).filterMap id ++ is.map (se c) = (es.filterMap id ++ is).map (se c) := by
        rw [List.map_append, List.map_filterMap, List.filterMap_map]
        rfl
      simp only [Except.map, bind, Except.bind]
      rw [e1, List.isEmpty_map]
      unfold assertP
      split <;> rfl

private theorem pick_sim (hc : 0 < c) (m : Paths Vertex) (b : Option (Edge × Path)) (e : Edge) :
    pick (sp c m) (b.map (sb c)) (se c e) = (pick m b e).map (Option.map (sb c)) := by
  unfold pick
  have h : (se c e).src = e.src := rfl
  rw [h, at_sp]
  cases m.at e.src with
  | error e => rfl
  | ok path =>
    have h1 : (path.inCurrency c).cost + (se c e).cost = ECost.mulQ c (path.cost + e.cost) := (mulQ_add _ _ _).symm
    have h2 : pickedCost (b.map (sb c)) = ECost.mulQ c (pickedCost b) := by
      cases b with
      | none => rfl
      | some b => exact (mulQ_add _ _ _).symm
    simp only [Except.map, bind, Except.bind, h1, h2, mulQ_lt hc]
    split <;> rfl

private theorem foldlM_map_sim {α β γ δ : Type} (S : β → γ) (G : α → δ) {f : β → α → Res β} {f' : γ → δ → Res γ}
    (h : ∀ b a, f' (S b) (G a) = (f b a).map S) (l : List α) (b : β) :
    (l.map G).foldlM f' (S b) = (l.foldlM f b).map S := by
  induction l generalizing b with
  | nil => rfl
  | cons a l ih =>
    simp only [List.map_cons, foldlM_cons', bind, Except.bind, h]
    cases f b a with
    | error e => rfl
    | ok b' => exact ih b'

private theorem optimal_sim (hc : 0 < c) (m : Paths Vertex) (es : List Edge) :
    findOptimal (es.map (se c)) (sp c m) = (findOptimal es m).map (Option.map (sb c)) := by
  unfold findOptimal
  have h1 : ((es.map (se c)).any fun e => decide (e.cost ≠ ⊤)) = es.any fun e => decide (e.cost ≠ ⊤) := by
    rw [List.any_map]
    congr 1
    funext e
    simp only [Function.comp, se]
    have : ECost.mulQ c e.cost ≠ ⊤ ↔ e.cost ≠ ⊤ := by
      have := affine_ne_top (c := c) (s := 0) (a := e.cost)
      rwa [WithTop.coe_zero, add_zero] at this
    simp only [this]
  have h2 := foldlM_map_sim (Option.map (sb c)) (se c) (f := pick m) (f' := pick (sp c m)) (pick_sim hc m) es none
  rw [h1, List.isEmpty_map]
  unfold assertP
  split
  · exact h2
  · rfl

private theorem update_sim (m : Paths Vertex) (b : Option (Edge × Path)) (dst : Vertex) :
    updatePaths (sp c m) (b.map (sb c)) dst = sp c (updatePaths m b dst) := by
  funext w
  unfold updatePaths Paths.insert sp
  by_cases hw : w = dst
  · simp only [hw, if_true]
    cases b with
    | none =>
      simp only [Option.map_none, Option.map_some, Path.inCurrency]
      congr 2
      show _ = ((c * 0 : ℚ) : ECost)
      rw [mul_zero]; rfl
    | some b =>
      simp only [Option.map_some, Path.inCurrency, sb, se, mulQ_add]
  · simp only [hw, if_false]

private theorem config_sim (hc : 0 < c) (hd : p'.d = p.d) (hs : p'.switchingCost = p.switchingCost.map (c * ·)) {t : Int}
    {x : IConf}
    (h : (p'.toProb.hitCost t x.config).map (fun h => h.cost) = (p.toProb.hitCost t x.config).map fun h => ECost.mulQ c h.cost)
    (alpha : ℚ) (inverted up : Bool) (k : Nat) (m : Paths Vertex) :
    handleConfig p' alpha inverted t k up v (sp c m) x = (handleConfig p alpha inverted t k up v m x).map (sp c) := by
  unfold handleConfig
  rw [preds_sim hd hs h]
  cases findPredecessors p alpha inverted t up k x v with
  | error e => rfl
  | ok es =>
    simp only [Except.map, bind, Except.bind]
    rw [optimal_sim hc]
    cases findOptimal es m with
    | error e => rfl
    | ok b =>
      simp only [Except.map, update_sim]

/-- The search through any grid gives the same schedule in every currency. -/
theorem graphSearch_currency (hc : 0 < c) (hv : Spec.InCurrency c p p') (g : Grid p v) (hpos : 0 < v.boundIndices.length)
    (cache : Option (Cache Vertex)) (hcache : ∀ K, cache = some K → 0 ≤ K.t) (o : OfflineOptions) :
    graphSearch p' v (cache.map (Cache.inCurrency c)) o = (graphSearch p v cache o).map (CachedPath.inCurrency c) := by
  have g' : Grid p' v := ⟨by rw [hv.d, hv.bounds, g.dim], by rw [hv.switching, hv.bounds, List.length_map, g.sc],
    by rw [hv.bounds, g.bi], g.bpos, g.blt, g.zero, g.mono, by rw [hv.bounds]; exact g.bounds⟩
  have hlayer : ∀ t : Int, 1 ≤ t → t ≤ p.tEnd → ∀ up paths,
      handleLayer p' o.alpha o.inverted t up v (sp c paths) =
      (handleLayer p o.alpha o.inverted t up v paths).map (sp c) := by
    intro t t1 t2 up paths
    rw [handleLayer_eq _ _ _ _ g' hpos, handleLayer_eq _ _ _ _ g hpos]
    apply foldlM_sim
    intro x hx s
    obtain ⟨i, hi, rfl⟩ := List.mem_map.1 hx
    exact config_sim hc hv.d hv.switching (hv.hit t t1 t2 _ (onGrid_cfg g (mem_ord_iff.1 hi)).1) _ _ _ _ _
  have hr : 1 ≤ (readCache cache (1, Paths.empty)).1 := by
    unfold readCache
    cases cache with
    | none => simp
    | some K => have := hcache K rfl; simp; omega
  have hr' : readCache (cache.map (Cache.inCurrency c)) (1, Paths.empty) =
      ((readCache cache (1, Paths.empty)).1, sp c (readCache cache (1, Paths.empty)).2) := by
    cases cache with
    | none => rfl
    | some K => rfl
  unfold graphSearch
  rw [hr', hv.d, hv.tEnd, hv.bounds]
  have : (timeRange (readCache cache (1, Paths.empty)).1 p.tEnd).foldlM (handleSlot p' o.alpha o.inverted v)
      (sp c (readCache cache (1, Paths.empty)).2) =
    ((timeRange (readCache cache (1, Paths.empty)).1 p.tEnd).foldlM (handleSlot p o.alpha o.inverted v)
      (readCache cache (1, Paths.empty)).2).map (sp c) := by
    apply foldlM_sim
    intro t ht s
    obtain ⟨t1, t2⟩ := mem_timeRange ht
    unfold handleSlot
    rw [hlayer t (by omega) t2]
    cases handleLayer p o.alpha o.inverted t true v s with
    | error e => rfl
    | ok s' => exact hlayer t (by omega) t2 _ _
  unfold assertR
  split
  · simp only [bind, Except.bind, this]
    cases (timeRange (readCache cache (1, Paths.empty)).1 p.tEnd).foldlM (handleSlot p o.alpha o.inverted v)
      (readCache cache (1, Paths.empty)).2 with
    | error e => rfl
    | ok s =>
      simp only [Except.map, at_sp]
      cases s.at { config := buildBaseConfig p.d.toNat p.bounds v true, up := false } with
      | error e => rfl
      | ok P => rfl
  · rfl

end Multi

/-- **C106** (several dimensions). In another currency, the optimal search in several dimensions returns the same
schedule, all costs (that of the schedule, and those in its cache) being converted, or it fails in the same way. Also
if it continues from a cache. Costs need not be convex, non-negative or finite. -/
theorem C106_several_dimensions (p p' : SSCO ℤ C D) (hv : p.verify = .ok ()) (c : ℚ) (hc : 0 < c)
    (E : Spec.InCurrency c p p') (cache : Option (Cache Multi.Vertex)) (hcache : ∀ K, cache = some K → 0 ≤ K.t)
    (o : OfflineOptions) :
    Multi.optimalGraphSearch p' (cache.map (Cache.inCurrency c)) o =
      (Multi.optimalGraphSearch p cache o).map (CachedPath.inCurrency c) := by
  have hv' : Spec.ValidSSCO p := by
    by_contra hc
    have := (C10_ssco_verify_exact p).2 hc
    rw [hv] at this; simp at this
  obtain ⟨v, h1, g, -⟩ := Multi.allValues_grid p hv'
  have hpos : 0 < v.boundIndices.length := by
    obtain ⟨a1, a2, a3, _⟩ := hv'
    rw [g.bi]
    have := g.dim
    omega
  unfold Multi.optimalGraphSearch
  rw [E.bounds, h1]
  exact Multi.graphSearch_currency hc E g hpos cache hcache o

/-- **C106** (approximation). The same for the approximate search, for every `γ > 1`. -/
theorem C106_approximation (p p' : SSCO ℤ C D) (hv : p.verify = .ok ()) (γ : ℚ) (hγ : 1 < γ) (c : ℚ) (hc : 0 < c)
    (E : Spec.InCurrency c p p') (cache : Option (Cache Multi.Vertex)) (hcache : ∀ K, cache = some K → 0 ≤ K.t)
    (o : OfflineOptions) :
    ∃ r N, ∀ fuel, N ≤ fuel → Multi.approxGraphSearch fuel p cache γ o = some r ∧
      Multi.approxGraphSearch fuel p' (cache.map (Cache.inCurrency c)) γ o = some (r.map (CachedPath.inCurrency c)) := by
  have hv' : Spec.ValidSSCO p := by
    by_contra hc
    have := (C10_ssco_verify_exact p).2 hc
    rw [hv] at this; simp at this
  obtain ⟨v, N, hN, g, -⟩ := Multi.approx_grid p hv' γ hγ
  have hpos : 0 < v.boundIndices.length := by
    obtain ⟨a1, a2, a3, _⟩ := hv'
    rw [g.bi]
    have := g.dim
    omega
  refine ⟨Multi.graphSearch p v cache o, N, fun fuel hf => ⟨?_, ?_⟩⟩
  · unfold Multi.approxGraphSearch
    rw [hN fuel hf]
    rfl
  · unfold Multi.approxGraphSearch
    rw [E.bounds, hN fuel hf]
    simp only [Option.map_some]
    rw [← Multi.graphSearch_currency hc E g hpos cache hcache o]
    rfl


/-! ## The claims are not empty -/

/-- `Ex.ssco1` with `n` slots in cents, and with a fee of `3 t` cents in slot `t`. -/
def Ex.cents (n : Nat) : SSCO ℤ Unit Unit where
  d := 1
  tEnd := n
  bounds := [5]
  switchingCost := [200]
  hittingCost := CostFn.new 1 (SingleCostFn.certain fun t x =>
    .ok (Cost.raw (((100 * ((|x.getD 0 0 - t| : ℤ) : ℚ) + 3 * t : ℚ)) : ECost)))

theorem Ex.cents_hit (n : Nat) (t : Int) (ht : 1 ≤ t) (j : ℤ) (h0 : 0 ≤ j) (hj : j ≤ 5) :
    ∃ out, (Ex.cents n).toProb.hitCost t [j]
      = .ok ⟨ECost.mulQ 100 (((|j - t| : ℤ) : ℚ) : ECost) + ((3 * t : ℚ) : ECost), out⟩ := by
  rw [hit_within (p := Ex.cents n) rfl h0 hj, Ex.cents, CostFn.callMean_certain _ _ ht]
  exact ⟨_, rfl⟩

theorem Ex.cents_nonneg (t : Int) (ht : 1 ≤ t) (j : ℤ) :
    (0 : ECost) ≤ ECost.mulQ 100 (((|j - t| : ℤ) : ℚ) : ECost) + ((3 * t : ℚ) : ECost) := by
  have h1 : (0 : ℚ) ≤ ((|j - t| : ℤ) : ℚ) := by exact_mod_cast abs_nonneg _
  have h2 : (1 : ℚ) ≤ t := by exact_mod_cast ht
  have : (0 : ℚ) ≤ 100 * ((|j - t| : ℤ) : ℚ) + 3 * t := by nlinarith
  show ((0 : ℚ) : ECost) ≤ ((100 * ((|j - t| : ℤ) : ℚ) + 3 * t : ℚ) : ECost)
  exact WithTop.coe_le_coe.2 this

example (inverted : Bool) := C106_one_dimension Ex.ssco1 (Ex.cents 4) (by decide +kernel) rfl 5 rfl 2 (by omega)
  ⟨inverted, 3, none⟩ rfl (by norm_num) (fun t j => (((|j - t| : ℤ) : ℚ) : ECost))
  (fun t h1 _ j h0 hj => Ex.ssco1_hit t h1 j h0 hj) (fun _ _ _ => WithTop.coe_ne_top)
  (fun t h1 h2 => (Ex.abs_costs 4).nonneg t h1 h2) (fun t h1 h2 => (Ex.abs_costs 4).conv t h1 h2)
  100 (by norm_num) (fun t => 3 * t) rfl rfl rfl (by decide +kernel)
  (fun t h1 _ j h0 hj => Ex.cents_hit 4 t h1 j h0 hj) (fun t h1 _ j _ _ => Ex.cents_nonneg t h1 j)

theorem Ex.cents_foresight (n w : Nat) : Spec.Foresight (Ex.cents n) 5 (100 * 2)
    (fun t j => ECost.mulQ 100 (((|j - t| : ℤ) : ℚ) : ECost) + ((3 * t : ℚ) : ECost)) n w where
  d := rfl
  bounds := rfl
  switching := by show [(200 : ℚ)] = _; norm_num
  tEnd := rfl
  hit t h1 _ j h0 hj := Ex.cents_hit n t h1 j h0 hj
  certain t h1 _ x r hr := by
    rw [Ex.cents, CostFn.callPredictive_certain _ _ h1] at hr
    simp only [Except.map, Except.ok.injEq] at hr
    rw [← hr]; rfl

theorem Ex.sscoAt_foresight (n w : Nat) : Spec.Foresight (Ex.sscoAt n) 5 2
    (fun t j => (((|j - t| : ℤ) : ℚ) : ECost)) n w where
  d := rfl
  bounds := rfl
  switching := rfl
  tEnd := rfl
  hit t h1 _ j h0 hj := Ex.ssco1_hit t h1 j h0 hj
  certain := (Ex.sscoAt_inst n).certain

example (n w : Nat) := C106_lazy (g := fun t j => (((|j - t| : ℤ) : ℚ) : ECost)) w ((List.range n).map fun k => Ex.sscoAt (k + 1))
  ((List.range n).map fun k => Ex.cents (k + 1)) (by simp) 100 (by norm_num) (fun t => 3 * t) (fun _ _ _ _ _ _ => rfl)
  (Ex.abs_costs _) (fun k hk => by
    simp only [List.getElem_map, List.getElem_range]
    exact Ex.sscoAt_foresight (k + 1) w)
  (fun t h1 _ j _ _ => Ex.cents_nonneg t h1 j) (fun k hk => by
    simp only [List.getElem_map, List.getElem_range]
    exact Ex.cents_foresight (k + 1) w)

/-- `Ex.ssco2` with all costs times `c`. -/
def Ex.ssco2In (c : ℚ) : SSCO ℤ Unit Unit where
  d := 2
  tEnd := 3
  bounds := [2, 3]
  switchingCost := [3, 1/2].map (c * ·)
  hittingCost := CostFn.new 1 (SingleCostFn.certain fun t x => .ok (Cost.raw (ECost.mulQ c (Ex.hit2 t x))))

theorem Ex.ssco2In_currency (c : ℚ) : Spec.InCurrency c Ex.ssco2 (Ex.ssco2In c) where
  d := rfl
  tEnd := rfl
  bounds := rfl
  switching := rfl
  hit t h1 _ x hx := by
    have e1 : Ex.ssco2.toProb.hitCost t x = CostFn.callMeanWithinBounds (CostFn.new 1 (SingleCostFn.certain fun t x => .ok (Cost.raw (Ex.hit2 t x))))
      t x (withinVec [2, 3]) := rfl
    have e2 : (Ex.ssco2In c).toProb.hitCost t x = CostFn.callMeanWithinBounds (CostFn.new 1 (SingleCostFn.certain fun t x =>
      .ok (Cost.raw (ECost.mulQ c (Ex.hit2 t x))))) t x (withinVec [2, 3]) := rfl
    have hb : withinVec [2, 3] x = .ok true := by
      have hx' : List.Forall₂ (fun (b j : ℤ) => 0 ≤ j ∧ j ≤ b) [2, 3] x := hx
      cases hx' with
      | cons h1 h2 =>
        cases h2 with
        | cons h3 h4 =>
          cases h4
          simp [withinVec]; omega
    rw [e1, e2]
    simp only [CostFn.callMeanWithinBounds, hb, bind, Except.bind, if_true, CostFn.callMean_certain _ _ h1]
    rfl

example (o : OfflineOptions) := C106_several_dimensions Ex.ssco2 (Ex.ssco2In 100) (by decide +kernel) 100 (by norm_num)
  (Ex.ssco2In_currency 100) none (by simp) o
example (o : OfflineOptions) := C106_approximation Ex.ssco2 (Ex.ssco2In (1/7)) (by decide +kernel) 2 (by norm_num) (1/7) (by norm_num)
  (Ex.ssco2In_currency (1/7)) none (by simp) o

end Soco
