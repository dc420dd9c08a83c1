import Verif.Props.Replan
import Verif.Props.Monotone
import Verif.Props.Robust

/-!
# C112: plans for fewer servers
-/

namespace Soco

namespace Spec

/-- The schedule with every number of servers above `m` replaced by `m`. -/
def cutAt (m : ℤ) (xs : Schedule ℤ) : Schedule ℤ := xs.map fun x => x.map fun j => min j m

/-- `p'` is `p` with at least as many servers of every type: the configurations of `p` cost the same in both. -/
structure Roomier {C D : Type} [OutSuccess C] [OutFailure D] (p p' : SSCO ℤ C D) : Prop where
  d : p'.d = p.d
  tEnd : p'.tEnd = p.tEnd
  switching : p'.switchingCost = p.switchingCost
  bounds : List.Forall₂ (· ≤ ·) p.bounds p'.bounds
  hit : ∀ t : Int, 1 ≤ t → t ≤ p.tEnd → ∀ x, InBox p.bounds x →
    ∃ c c', p.toProb.hitCost t x = .ok c ∧ p'.toProb.hitCost t x = .ok c' ∧ c'.cost = c.cost

end Spec

variable {C D : Type} [OutSuccess C] [OutFailure D]

namespace Fewer
open Uni Low Window Lcp Work

/-- The part of `j` above `m` put on top of `k`. -/
def glue (m j k : ℤ) : ℤ := k + (j - min j m)

theorem step_cut {β : ℚ} (hβ : 0 ≤ β) (inv : Bool) (m i l j k : ℤ) :
    mv1 β inv (glue m i l) (glue m j k) + mv1 β inv (min i m) (min j m) ≤ mv1 β inv i j + mv1 β inv l k := by
  unfold mv1 glue
  rw [← mul_add, ← mul_add]
  apply mul_le_mul_of_nonneg_left _ hβ
  cases inv <;> simp only [Bool.false_eq_true, if_false, if_true] <;> norm_cast <;> omega

theorem hit_cut {m m' : ℤ} {f : ℤ → ECost} (hf : Spec.ConvexOnE m' f) {j k : ℤ} (h0 : 0 ≤ k) (hk : k ≤ m) (hj : j ≤ m') :
    f (glue m j k) + f (min j m) ≤ f j + f k := by
  unfold glue
  rcases le_or_gt j m with h | h
  · rw [min_eq_left h, sub_self, add_zero, add_comm]
  rw [min_eq_right h.le]
  rcases eq_or_lt_of_le hk with rfl | hlt
  · rw [show k + (j - k) = j by ring]
  cases ej : f j using WithTop.recTopCoe with
  | top => simp
  | coe b =>
    cases ek : f k using WithTop.recTopCoe with
    | top => simp
    | coe a =>
      obtain ⟨u, u1, u2⟩ := hf k m j h0 hlt h hj a b ek ej
      obtain ⟨v, v1, v2⟩ := hf k (k + (j - m)) j h0 (by omega) (by omega) hj a b ek ej
      rw [u1, v1, ← WithTop.coe_add, ← WithTop.coe_add, WithTop.coe_le_coe]
      push_cast at u2 v2
      have hkj : (k : ℚ) < j := by exact_mod_cast hlt.trans h
      have q : (0 : ℚ) < (j : ℚ) - k := by linarith
      have : ((j : ℚ) - k) * (v + u) ≤ ((j : ℚ) - k) * (b + a) := by nlinarith
      exact le_of_mul_le_mul_left this q

theorem cost_cut {g : Int → ℤ → ECost} {β : ℚ} (hβ : 0 ≤ β) (inv : Bool) {m m' : ℤ} : ∀ (js ks : List ℤ) (t : Int) (i l : ℤ),
    js.length = ks.length → (∀ s : Int, t ≤ s → s < t + js.length → Spec.ConvexOnE m' (g s)) →
    (∀ j ∈ js, 0 ≤ j ∧ j ≤ m') → (∀ k ∈ ks, 0 ≤ k ∧ k ≤ m) →
    Spec.totalCost g (mv1 β inv) 1 t (glue m i l) (List.zipWith (glue m) js ks)
      + Spec.totalCost g (mv1 β inv) 1 t (min i m) (js.map fun j => min j m)
      ≤ Spec.totalCost g (mv1 β inv) 1 t i js + Spec.totalCost g (mv1 β inv) 1 t l ks := by
  intro js
  induction js with
  | nil =>
    intro ks t i l hl _ _ _
    obtain rfl := List.length_eq_zero_iff.1 hl.symm
    simp [Spec.totalCost]
  | cons j js ih =>
    intro ks t i l hl hc hj hk
    cases ks with
    | nil => simp at hl
    | cons k ks =>
      have hl' : ((j :: js).length : Int) = js.length + 1 := by simp
      have h1 := ih ks (t + 1) j k (by simpa using hl) (fun s s1 s2 => hc s (by omega) (by omega))
        (fun x hx => hj x (by simp [hx])) (fun x hx => hk x (by simp [hx]))
      have h2 := hit_cut (m := m) (hc t le_rfl (by omega)) (hk k (by simp)).1 (hk k (by simp)).2 (hj j (by simp)).2
      have h3 : ((1 * mv1 β inv (glue m i l) (glue m j k) : ℚ) : ECost) + ((1 * mv1 β inv (min i m) (min j m) : ℚ) : ECost)
          ≤ ((1 * mv1 β inv i j : ℚ) : ECost) + ((1 * mv1 β inv l k : ℚ) : ECost) := by
        rw [← WithTop.coe_add, ← WithTop.coe_add, WithTop.coe_le_coe]
        have := step_cut hβ inv m i l j k
        linarith
      simp only [List.zipWith_cons_cons, List.map_cons, Spec.totalCost]
      have := add_le_add (add_le_add h2 h3) h1
      refine le_trans (le_of_eq ?_) (this.trans (le_of_eq ?_)) <;> abel

theorem top_fin {g : Int → ℤ → ECost} {mv : ℤ → ℤ → ℚ} {m : ℤ} : ∀ (n : Nat) (t : Int) (x : ℤ),
    (∀ s : Int, t ≤ s → s < t + n → g s m ≠ ⊤) → Spec.totalCost g mv 1 t x (List.replicate n m) ≠ ⊤ := by
  intro n
  induction n with
  | zero => intro t x _; simp [Spec.totalCost]
  | succ n ih =>
    intro t x h
    rw [List.replicate_succ, Spec.totalCost]
    exact WithTop.add_ne_top.2 ⟨WithTop.add_ne_top.2 ⟨h t le_rfl (by push_cast; omega), WithTop.coe_ne_top⟩,
      ih (t + 1) m fun s s1 s2 => h s (by omega) (by push_cast; omega)⟩

theorem low_cut {g : Int → ℤ → ECost} {β : ℚ} (hβ : 0 ≤ β) {inv : Bool} {m m' : ℤ} {n : Nat} {x : ℤ} (hx : x ≤ m) (h0 : 0 ≤ m)
    (hm : m ≤ m') (hfin : ∀ t : Int, 1 ≤ t → t ≤ n → g t m ≠ ⊤)
    (hc : ∀ t : Int, 1 ≤ t → t ≤ n → Spec.ConvexOnE m' (g t)) {js : List ℤ}
    (h : IsLow g β inv m' n 1 x js) : IsLow g β inv m n 1 x (js.map fun j => min j m) := by
  have gl : ∀ ks : List ℤ, ks.length = n → (∀ k ∈ ks, 0 ≤ k ∧ k ≤ m) →
      (List.zipWith (glue m) js ks).length = n ∧ ∀ y ∈ List.zipWith (glue m) js ks, 0 ≤ y ∧ y ≤ m' := by
    intro ks hl hk
    refine ⟨by rw [List.length_zipWith, h.len, hl, min_self], fun y hy => ?_⟩
    obtain ⟨i, hi, rfl⟩ := List.getElem_of_mem hy
    rw [List.length_zipWith] at hi
    rw [List.getElem_zipWith]
    have b1 := h.box _ (List.getElem_mem (by omega : i < js.length))
    have b2 := hk _ (List.getElem_mem (by omega : i < ks.length))
    unfold glue
    omega
  have key : ∀ ks : List ℤ, ks.length = n → (∀ k ∈ ks, 0 ≤ k ∧ k ≤ m) →
      Spec.totalCost g (mv1 β inv) 1 1 x (List.zipWith (glue m) js ks)
        + Spec.totalCost g (mv1 β inv) 1 1 x (js.map fun j => min j m)
        ≤ Spec.totalCost g (mv1 β inv) 1 1 x js + Spec.totalCost g (mv1 β inv) 1 1 x ks := by
    intro ks hl hk
    have := cost_cut (m := m) hβ inv js ks 1 x x (by rw [h.len, hl]) (fun s s1 s2 => hc s s1 (by rw [h.len] at s2; omega)) h.box hk
    rwa [show glue m x x = x by unfold glue; omega, min_eq_left hx] at this
  have box : ∀ y ∈ js.map (fun j => min j m), 0 ≤ y ∧ y ≤ m := by
    intro y hy
    obtain ⟨j, hj, rfl⟩ := List.mem_map.1 hy
    have := h.box j hj
    omega
  -- cancelling the finite cost of `js`
  have cancel : ∀ {a b c d : ECost}, c ≠ ⊤ → c ≤ a → a + b ≤ c + d → b ≤ d := by
    intro a b c d hc hca hab
    induction c using WithTop.recTopCoe with
    | top => exact absurd rfl hc
    | coe c =>
      induction d using WithTop.recTopCoe with
      | top => exact le_top
      | coe d =>
        induction a using WithTop.recTopCoe with
        | top => simp [← WithTop.coe_add] at hab
        | coe a =>
          induction b using WithTop.recTopCoe with
          | top => simp [← WithTop.coe_add] at hab
          | coe b =>
            rw [← WithTop.coe_add, ← WithTop.coe_add] at hab
            have h1 := WithTop.coe_le_coe.1 hab
            have h2 := WithTop.coe_le_coe.1 hca
            exact WithTop.coe_le_coe.2 (by linarith)
  have opt : ∀ ks : List ℤ, ks.length = n → (∀ k ∈ ks, 0 ≤ k ∧ k ≤ m) →
      Spec.totalCost g (mv1 β inv) 1 1 x (js.map fun j => min j m) ≤ Spec.totalCost g (mv1 β inv) 1 1 x ks := by
    intro ks hl hk
    exact cancel h.fin (h.opt _ (gl ks hl hk).1 (gl ks hl hk).2) (key ks hl hk)
  have fin : Spec.totalCost g (mv1 β inv) 1 1 x (js.map fun j => min j m) ≠ ⊤ := by
    have := opt (List.replicate n m) (by simp) (fun k hk => by rw [List.eq_of_mem_replicate hk]; exact ⟨h0, le_rfl⟩)
    exact ne_top_of_le_ne_top (top_fin n 1 x fun s s1 s2 => hfin s s1 (by omega)) this
  refine ⟨by rw [List.length_map, h.len], box, fin, opt, fun ks hl hk hle => ?_⟩
  have h1 : Spec.totalCost g (mv1 β inv) 1 1 x (List.zipWith (glue m) js ks) ≤ Spec.totalCost g (mv1 β inv) 1 1 x js := by
    have k1 := key ks hl hk
    rw [add_comm] at k1
    exact cancel (c := Spec.totalCost g (mv1 β inv) 1 1 x (js.map fun j => min j m)) (d := Spec.totalCost g (mv1 β inv) 1 1 x js)
      (a := Spec.totalCost g (mv1 β inv) 1 1 x (js.map fun j => min j m)) fin le_rfl (k1.trans (by rw [add_comm]; exact add_le_add hle le_rfl))
  have h2 := below_iff.1 (h.low _ (gl ks hl hk).1 (gl ks hl hk).2 h1)
  rw [below_iff]
  refine ⟨by rw [List.length_map, h.len, hl], fun i hi hi' => ?_⟩
  rw [List.length_map] at hi
  have h3 := h2.2 i hi (by rw [List.length_zipWith]; omega)
  rw [List.getElem_zipWith] at h3
  rw [List.getElem_map]
  unfold glue at h3
  omega

theorem costs_cut {m m' : ℤ} {β : ℚ} {g : Int → ℤ → ECost} {n : Nat} (K : Spec.Costs m' β g n) (h0 : 0 < m) (hm : m ≤ m')
    (hfin : ∀ t : Int, 1 ≤ t → t ≤ n → g t m ≠ ⊤) : Spec.Costs m β g n where
  hm := h0
  hβ := K.hβ
  fin := hfin
  nonneg t a b j c d := K.nonneg t a b j c (d.trans hm)
  conv t a b x y z h0 h1 h2 h3 := K.conv t a b x y z h0 h1 h2 (h3.trans hm)

theorem lazy_cut {x M : ℚ} {L U L' U' : Nat → ℚ} {n : Nat} (hx : x ≤ M) (hL : ∀ k, 1 ≤ k → k ≤ n → L k = min (L' k) M)
    (hU : ∀ k, 1 ≤ k → k ≤ n → U k = min (U' k) M) : ∀ k, k ≤ n → lazy x L U k = min (lazy x L' U' k) M
  | 0, _ => (min_eq_left hx).symm
  | k + 1, h => by
    have := lazy_cut (x := x) hx hL hU k (by omega)
    show max (L (k + 1)) (min (U (k + 1)) (lazy x L U k)) = min (max (L' (k + 1)) (min (U' (k + 1)) (lazy x L' U' k))) M
    rw [this, hL _ (by omega) h, hU _ (by omega) h]
    rw [min_max_distrib_right]
    congr 1
    rw [min_min_min_comm, min_self]

end Fewer

open Fewer Uni Lcp Window

/-- **C112** (one dimension). A data center with convex costs whose number of servers is reduced from `m'` to `m`, which is still
enough to process the load. The graph search plans exactly the plan for `m'` servers cut at `m`, and its cost is not lower. -/
theorem C112_one_dimension {p p' : SSCO ℤ C D} {m m' : ℤ} {β : ℚ} {g : Int → ℤ → ECost} {n : Nat} (I : Spec.Inst p m β g n)
    (I' : Spec.Inst p' m' β g n) (K : Spec.Costs m' β g n) (h0 : 0 < m) (hm : m ≤ m')
    (hfin : ∀ t : Int, 1 ≤ t → t ≤ n → g t m ≠ ⊤) (x : ℤ) (hx : x ≤ m) (o : OfflineOptions) (hl : o.l = none) (hα : 0 ≤ o.alpha) :
    ∃ P P', Uni.optimalGraphSearch p x o = .ok P ∧ Uni.optimalGraphSearch p' x o = .ok P' ∧
      P.xs = Spec.cutAt m P'.xs ∧ P'.cost ≤ P.cost := by
  obtain ⟨P, js, a1, a2, a3, a4⟩ := Replan.search_low I (costs_cut K h0 hm hfin) hx o hl hα
  obtain ⟨P', ks, b1, b2, b3, b4⟩ := Replan.search_low I' K (hx.trans hm) o hl hα
  have e : js = ks.map fun j => min j m := a4.unique (low_cut (mul_nonneg hα K.hβ.le) hx h0.le hm hfin K.conv b4)
  refine ⟨P, P', a1, b1, ?_, ?_⟩
  · rw [a2, b2, e, Spec.cutAt, List.map_map, List.map_map]; rfl
  · rw [a3, b3, Replan.weight ks, Replan.weight js]
    exact b4.opt js a4.len fun j hj => ⟨(a4.box j hj).1, (a4.box j hj).2.trans hm⟩

/-- **C112** (online). The same for lazy capacity provisioning with any prediction window: with fewer servers it chooses in every
slot what it chooses with more servers, cut at the number of servers. -/
theorem C112_lazy {m m' : ℤ} {β : ℚ} {g : Int → ℤ → ECost} (w : Nat) (ps ps' : List (SSCO ℤ C D))
    (hl : ps'.length = ps.length) (K : Spec.Costs m' β g (ps.length + w)) (h0 : 0 < m) (hm : m ≤ m')
    (hfin : ∀ t : Int, 1 ≤ t → t ≤ (ps.length + w : Nat) → g t m ≠ ⊤)
    (I : ∀ k (h : k < ps.length), Spec.Foresight ps[k] m β g (k + 1) w)
    (I' : ∀ k (h : k < ps'.length), Spec.Foresight ps'[k] m' β g (k + 1) w) :
    ∃ xs mem xs' mem', Spec.play SSCO.tEnd (lcpAlg boundedInt) [] none (ps.map fun p => ⟨p, w⟩) = .ok (xs, mem) ∧
      Spec.play SSCO.tEnd (lcpAlg boundedInt) [] none (ps'.map fun p => ⟨p, w⟩) = .ok (xs', mem') ∧
      xs.length = ps.length ∧ xs = Spec.cutAt m xs' := by
  obtain ⟨js, bs, h1, h2, h3, M, h5⟩ := run_window w ps (costs_cut K h0 hm hfin) I
  obtain ⟨js', bs', h1', h2', h3', M', h5'⟩ := run_window w ps' (by rw [hl]; exact K) I'
  rw [hl] at h2' h3' h5'
  refine ⟨_, _, _, _, h1, h1', by simpa using h2, ?_⟩
  have hn : ∀ i < ps.length, (js.getD i 0) = min (js'.getD i 0) m := by
    intro i hi
    have mark : ∀ k (hk : k < bs.length) (hk' : k < bs'.length), bs[k].lower = min bs'[k].lower m ∧
        bs[k].upper = min bs'[k].upper m := by
      intro k hk hk'
      obtain ⟨X, Y, x1, y1, ex, ey⟩ := M k _ (List.getElem?_eq_getElem hk)
      obtain ⟨X', Y', x1', y1', ex', ey'⟩ := M' k _ (List.getElem?_eq_getElem hk')
      have c1 := x1.unique (low_cut K.hβ.le h0.le h0.le hm (fun t a b => hfin t a (by push_cast at b ⊢; omega))
        (fun t a b => K.conv t a (by push_cast at b ⊢; omega)) x1')
      have c2 := y1.unique (low_cut K.hβ.le h0.le h0.le hm (fun t a b => hfin t a (by push_cast at b ⊢; omega))
        (fun t a b => K.conv t a (by push_cast at b ⊢; omega)) y1')
      have gd : ∀ Z : List ℤ, (Z.map fun j => min j m).getD k 0 = min (Z.getD k 0) m := by
        intro Z
        rcases lt_or_ge k Z.length with hz | hz
        · rw [List.getD_eq_getElem _ _ (by simpa using hz), List.getD_eq_getElem _ _ hz, List.getElem_map]
        · rw [List.getD_eq_default _ _ (by simpa using hz), List.getD_eq_default _ _ hz, min_eq_left h0.le]
      rw [← ex, ← ey, ← ex', ← ey', c1, c2]
      exact ⟨gd X', gd Y'⟩
    have := lazy_cut (x := 0) (M := (m : ℚ)) (L := Lf bs) (U := Uf bs) (L' := Lf bs') (U' := Uf bs') (n := ps.length)
      (by exact_mod_cast h0.le)
      (fun k k1 k2 => by
        unfold Lf
        rw [List.getElem?_eq_getElem (by omega : k - 1 < bs.length), List.getElem?_eq_getElem (by omega : k - 1 < bs'.length)]
        have := (mark (k - 1) (by omega) (by omega)).1
        show ((bs[k - 1].lower : ℤ) : ℚ) = min ((bs'[k - 1].lower : ℤ) : ℚ) m
        rw [this]; push_cast; rfl)
      (fun k k1 k2 => by
        unfold Uf
        rw [List.getElem?_eq_getElem (by omega : k - 1 < bs.length), List.getElem?_eq_getElem (by omega : k - 1 < bs'.length)]
        have := (mark (k - 1) (by omega) (by omega)).2
        show ((bs[k - 1].upper : ℤ) : ℚ) = min ((bs'[k - 1].upper : ℤ) : ℚ) m
        rw [this]; push_cast; rfl) (i + 1) (by omega)
    rw [← h5 i hi, ← h5' i hi] at this
    exact_mod_cast this
  have e : js = js'.map fun j => min j m := by
    apply List.ext_getElem (by rw [List.length_map, h2, h2'])
    intro i hi hi'
    have := hn i (by omega)
    rw [List.length_map] at hi'
    rwa [List.getD_eq_getElem _ _ hi, List.getD_eq_getElem _ _ hi', ← List.getElem_map (fun j => min j m)] at this
  rw [e, Spec.cutAt, List.map_map, List.map_map]; rfl

/-- **C112** (several dimensions). With more servers of some types the optimum is not dearer, with arbitrary hitting costs. -/
theorem C112_several_dimensions (p p' : SSCO ℤ C D) (h : Spec.Roomier p p') (hv : p.verify = .ok ()) (hv' : p'.verify = .ok ())
    (hT : 1 ≤ p.tEnd) (o : OfflineOptions) (hl : o.l = none) (hα : 0 ≤ o.alpha) (hit : Int → Config ℤ → ECost)
    (hhit : ∀ t : Int, 1 ≤ t → t ≤ p.tEnd → ∀ x, Spec.InBox p'.bounds x →
      ∃ out, p'.toProb.hitCost t x = .ok ⟨hit t x, out⟩)
    (hfin : ∀ t : Int, 1 ≤ t → t ≤ p.tEnd → hit t p.bounds ≠ ⊤ ∧ hit t p'.bounds ≠ ⊤) :
    ∃ r r', Multi.optimalGraphSearch p none o = .ok r ∧ Multi.optimalGraphSearch p' none o = .ok r' ∧
      r'.path.cost ≤ r.path.cost := by
  have wide : ∀ x, Spec.InBox p.bounds x → Spec.InBox p'.bounds x := by
    intro x hx
    have hb := h.bounds
    revert hx hb
    generalize p.bounds = b
    generalize p'.bounds = b'
    intro hx hb
    induction hb generalizing x with
    | nil => exact hx
    | cons hab _ ih =>
      cases hx with
      | cons h1 h2 => exact .cons ⟨h1.1, h1.2.trans hab⟩ (ih _ h2)
  have same : ∀ t : Int, 1 ≤ t → t ≤ p.tEnd → ∀ x, Spec.InBox p.bounds x → ∃ out, p.toProb.hitCost t x = .ok ⟨hit t x, out⟩ := by
    intro t t1 t2 x hx
    obtain ⟨c, c', h1, h2, h3⟩ := h.hit t t1 t2 x hx
    obtain ⟨out, ho⟩ := hhit t t1 t2 x (wide x hx)
    rw [ho] at h2
    obtain rfl := Except.ok.inj h2
    exact ⟨c.output, by rw [h1]; dsimp only at h3; rw [h3]⟩
  obtain ⟨r, a1, a2, a3, a4, ⟨out, a5⟩, a6⟩ := C19_graph_search_optimal p hv hT o hl hα hit same (fun t a b => (hfin t a b).1)
  obtain ⟨r', b1, b2, b3, b4, ⟨out', b5⟩, b6⟩ := C19_graph_search_optimal p' hv' (by rw [h.tEnd]; exact hT) o hl hα hit
    (by rw [h.tEnd]; exact hhit) (by rw [h.tEnd]; exact fun t a b => (hfin t a b).2)
  refine ⟨r, r', a1, b1, ?_⟩
  obtain ⟨c, c1, c2⟩ := b6 r.path.xs (by rw [a2, h.tEnd]) (fun x hx => wide x (a3 x hx))
  have hvp : Spec.ValidSSCO p := by
    by_contra hc
    have := (C10_ssco_verify_exact p).2 hc
    rw [hv] at this; simp at this
  have n1 : p.bounds.length = p.d.toNat := by have := hvp.2.2.1; omega
  have n2 : p.switchingCost.length = p.d.toNat := by have := hvp.2.2.2.1; omega
  have e : c.cost = r.path.cost := by
    obtain ⟨o1, u1⟩ := Robust.objective_hitOr p p.d.toNat n1 n2.ge (fun t t1 t2 x hx => by
      obtain ⟨out, ho⟩ := same t t1 t2 x hx; exact ⟨_, ho⟩) r.path.xs a2 a3 (List.replicate p.d.toNat 0) (by simp) o.alpha false
    obtain ⟨o2, u2⟩ := Robust.objective_hitOr p' p.d.toNat (by rw [← h.bounds.length_eq, n1]) (by rw [h.switching, n2])
      (fun t t1 t2 x hx => by
        obtain ⟨out, ho⟩ := hhit t t1 (by rw [← h.tEnd]; exact t2) x hx; exact ⟨_, ho⟩) r.path.xs (by rw [a2, h.tEnd])
      (fun x hx => wide x (a3 x hx)) (List.replicate p.d.toNat 0) (by simp) o.alpha false
    have d1 : p.toProb.alphaUnfairObjective r.path.xs o.alpha
        = p.toProb.objectiveWithDefault' r.path.xs (List.replicate p.d.toNat 0) o.alpha false p.tEnd := rfl
    have d2 : p'.toProb.alphaUnfairObjective r.path.xs o.alpha
        = p'.toProb.objectiveWithDefault' r.path.xs (List.replicate p.d.toNat 0) o.alpha false p'.tEnd := by rw [← h.d]; rfl
    rw [d1, u1] at a5
    rw [d2, u2] at c1
    have a5' := congrArg Cost.cost (Except.ok.inj a5)
    dsimp only at a5'
    rw [← Except.ok.inj c1, ← a5']
    dsimp only
    rw [h.switching]
    apply Uni.totalCost_congr
    intro s s1 s2 x hx
    obtain ⟨c, c', h1, h2, h3⟩ := h.hit s s1 (by omega) x (a3 x hx)
    rw [Robust.hitOr, Robust.hitOr, h1, h2]
    exact h3
  rw [← e]; exact c2

/-- **C112** (data center). A data center with one type of servers and jobs, and the same data center with fewer servers which can
still process all jobs: the optimal schedule of the smaller one is that of the larger one cut at its number of servers. -/
theorem C112_single_type (S : Num.Solver) (hS : Spec.SolvesEmpty S) (m m' : DataCenterModel) (F : Spec.Farm) (s : ℤ)
    (h : Spec.IsFarm m F) (h' : Spec.IsFarm m' { F with servers := s }) (hF : F.Valid) (hs : F.servers ≤ s)
    (loads : List ℚ) (hl : ∀ l ∈ loads, F.Carries l) (o : OfflineOptions) (ho : o.l = none) (hα : 0 ≤ o.alpha) :
    ∃ p p' P P', m.toSSCO (T := ℤ) S (loads.map fun l => [l]) = .ok p ∧ m'.toSSCO (T := ℤ) S (loads.map fun l => [l]) = .ok p' ∧
      Uni.optimalGraphSearch p 0 o = .ok P ∧ Uni.optimalGraphSearch p' 0 o = .ok P' ∧
      P.xs.length = loads.length ∧ P.xs = Spec.cutAt F.servers P'.xs ∧ P'.cost ≤ P.cost := by
  have hF' : Spec.Farm.Valid { F with servers := s } := ⟨hF.servers.trans_le hs, hF.slot, hF.time, hF.price, hF.gamma, hF.switching,
    hF.power, hF.convex⟩
  have hl' : ∀ l ∈ loads, Spec.Farm.Carries { F with servers := s } l := by
    intro l hm
    obtain ⟨h0, h1, h2⟩ := hl l hm
    have hu : Spec.Farm.use { F with servers := s } l s ≤ F.use l F.servers := by
      unfold Spec.Farm.use
      apply div_le_div_of_nonneg_left (mul_nonneg hF.time h0)
      · exact mul_pos (by exact_mod_cast hF.servers) hF.slot
      · exact mul_le_mul_of_nonneg_right (by exact_mod_cast hs) hF.slot.le
    exact ⟨h0, hu.trans_lt h1, hu.trans h2⟩
  obtain ⟨p, hp, I⟩ := C87_problem S hS m F h hF loads fun l hm => (hl l hm).1
  obtain ⟨p', hp', I'⟩ := C87_problem S hS m' _ h' hF' loads fun l hm => (hl l hm).1
  have K := C87_convex F hF loads hl
  have K' := C87_convex _ hF' loads hl'
  obtain ⟨P, P', a1, a2, a3, a4⟩ := C112_one_dimension I I' K' hF.servers hs K.fin 0 hF.servers.le o ho hα
  obtain ⟨P2, js, b1, b2, _, b4⟩ := Replan.search_low I K (x := 0) hF.servers.le o ho hα
  rw [a1] at b1
  obtain rfl := Except.ok.inj b1
  exact ⟨p, p', P, P', hp, hp', a1, a2, by rw [b2, List.length_map, b4.len], a3, a4⟩

/-! ## The claims are not empty -/

/-- `Ex.sscoAt n` with three servers instead of five. -/
def Ex.sscoFew (n : Nat) : SSCO ℤ Unit Unit := { Ex.sscoAt n with bounds := [3] }

theorem Ex.sscoFew_hit (n : Nat) (t : Int) (ht : 1 ≤ t) (j : ℤ) (h0 : 0 ≤ j) (hj : j ≤ 3) :
    ∃ out, (Ex.sscoFew n).toProb.hitCost t [j] = .ok ⟨(((|j - t| : ℤ) : ℚ) : ECost), out⟩ := by
  rw [Uni.hit_within (p := Ex.sscoFew n) rfl h0 hj, Ex.sscoFew, Ex.sscoAt, Ex.ssco1, CostFn.callMean_certain _ _ ht]
  exact ⟨_, rfl⟩

theorem Ex.sscoFew_inst (k : Nat) :
    Spec.Inst (Ex.sscoFew k) 3 2 (fun t j => (((|j - t| : ℤ) : ℚ) : ECost)) k where
  d := rfl
  bounds := rfl
  switching := rfl
  tEnd := rfl
  hit t h1 _ j h0 hj := Ex.sscoFew_hit k t h1 j h0 hj
  certain t h1 h2 x r hr := (Ex.sscoAt_inst k).certain t h1 h2 x r hr

example (n : Nat) (inverted : Bool) (x : ℤ) (hx : x ≤ 3) := C112_one_dimension (Ex.sscoFew_inst n) (Ex.sscoAt_inst n)
  (Ex.abs_costs n) (by omega) (by omega) (fun _ _ _ => WithTop.coe_ne_top) x hx ⟨inverted, 1/2, none⟩ rfl (by norm_num)

/-- The plan which follows the growing load, cut at three servers. -/
example : Spec.cutAt 3 [[1], [2], [3], [4], [5]] = [[1], [2], [3], [3], [3]] := by decide

theorem Ex.sscoFew_sees (k w : Nat) :
    Spec.Foresight (Ex.sscoFew (k + 1)) 3 2 (fun t j => (((|j - t| : ℤ) : ℚ) : ECost)) (k + 1) w :=
  have := Ex.sscoFew_inst (k + 1)
  ⟨this.d, this.bounds, this.switching, this.tEnd, fun t h1 _ j h0 hj => Ex.sscoFew_hit _ t h1 j h0 hj, this.certain⟩

example (n w : Nat) := C112_lazy w ((List.range n).map fun k => Ex.sscoFew (k + 1)) ((List.range n).map fun k => Ex.sscoAt (k + 1))
  (by simp) (Ex.abs_costs _) (m := 3) (by omega) (by omega) (fun _ _ _ => WithTop.coe_ne_top)
  (fun k hk => by
    simp only [List.getElem_map, List.getElem_range]
    exact Ex.sscoFew_sees k w)
  (fun k hk => by
    simp only [List.getElem_map, List.getElem_range]
    have := Ex.sscoAt_inst (k + 1)
    exact ⟨this.d, this.bounds, this.switching, this.tEnd, fun t h1 _ j h0 hj => Ex.ssco1_hit t h1 j h0 hj,
      this.certain⟩)

/-- `Ex.ssco2` with one server of the first type instead of two. -/
def Ex.ssco2Few : SSCO ℤ Unit Unit := { Ex.ssco2 with bounds := [1, 3] }

theorem Ex.ssco2_roomier : Spec.Roomier Ex.ssco2Few Ex.ssco2 where
  d := rfl
  tEnd := rfl
  switching := rfl
  bounds := .cons (by decide) (.cons (by decide) .nil)
  hit t t1 _ x hx := by
    have hx' : List.Forall₂ (fun (b j : ℤ) => 0 ≤ j ∧ j ≤ b) [1, 3] x := hx
    cases hx' with
    | @cons _ a _ _ ha hx' =>
      cases hx' with
      | @cons _ b _ _ hb h2 =>
        cases h2
        have w1 : withinVec Ex.ssco2Few.bounds [a, b] = .ok true := by
          simp [withinVec, Ex.ssco2Few]; omega
        have w2 : withinVec Ex.ssco2.bounds [a, b] = .ok true := by
          simp [withinVec, Ex.ssco2]; omega
        refine ⟨Cost.raw (Ex.hit2 t [a, b]), Cost.raw (Ex.hit2 t [a, b]), ?_, ?_, rfl⟩
        · simp only [SSCO.toProb, CostFn.callMeanWithinBounds, w1, bind, Except.bind, if_true]
          simp only [Ex.ssco2Few, Ex.ssco2, CostFn.callMean_certain _ t t1]
        · simp only [SSCO.toProb, CostFn.callMeanWithinBounds, w2, bind, Except.bind, if_true]
          simp only [Ex.ssco2, CostFn.callMean_certain _ t t1]

example := C112_several_dimensions Ex.ssco2Few Ex.ssco2 Ex.ssco2_roomier (by decide +kernel) (by decide +kernel) (by decide)
  ⟨false, 1, none⟩ rfl (by norm_num) _ (fun t t1 _ x hx => Ex.ssco2_hitBox t t1 x hx) (fun t t1 t2 => ⟨by
    have : ¬ (1 + 3 : ℤ) < t := by have : Ex.ssco2Few.tEnd = 3 := rfl; omega
    have h2 : Ex.hitBox2 t Ex.ssco2Few.bounds = if (1 + 3 : ℤ) < t then ⊤ else (((1 + 2 * 3 : ℤ) : ℚ) : ECost) := by
      simp [Ex.hitBox2, Ex.ssco2Few, Ex.hit2]
    rw [h2, if_neg this]; exact WithTop.coe_ne_top, Ex.ssco2_top t t1 t2⟩)

/-- `Ex.farmModel` with ten servers instead of four. -/
def Ex.largeModel : DataCenterModel := { Ex.farmModel with locations := [⟨"a", fun _ => some 10⟩] }

theorem Ex.large_is : Spec.IsFarm Ex.largeModel { Ex.farm with servers := 10 } :=
  ⟨_, _, _, _, rfl, rfl, rfl, rfl, rfl, rfl, rfl, fun _ _ => rfl, fun u => by
    simp only [Ex.largeModel, Ex.farmModel, ConsumptionModel.consumption, lookup, bind, Except.bind, Ex.farm]
    congr 1
    ring, fun t p _ => rfl, rfl, ⟨_, rfl, by norm_num [SwitchingCost.switchingCost, Ex.farm]⟩, rfl⟩

example (S : Num.Solver) (hS : Spec.SolvesEmpty S) := C112_single_type S hS Ex.farmModel Ex.largeModel Ex.farm 10 Ex.farm_is
  Ex.large_is Ex.farm_valid (by decide) [3, 0, 7, 2] Ex.farm_carries ⟨false, 1, none⟩ rfl (by norm_num)

end Soco
