import Verif.Props.ServiceRuns
import Verif.Props.Finer
import Verif.Props.Gap

/-!
# C141: servers from which no slot profits are never started
-/

namespace Soco
open Lcp Work Uni Window Low SingleType

namespace Spec

/-- At most `ks` servers of the types. -/
def capped (ks x : Config ℤ) : Config ℤ := List.zipWith min x ks

/-- No slot of `q` is cheaper with more than `ks` servers of the types than with as many of them as allowed by `ks`. -/
structure Enough {C D : Type} (ks : Config ℤ) (q : SSCO ℤ C D) (hit : Int → Config ℤ → ECost) : Prop where
  length : ks.length = q.bounds.length
  nonneg : ∀ k ∈ ks, 0 ≤ k
  enough : ∀ t : Int, 1 ≤ t → t ≤ q.tEnd → ∀ x, InBox q.bounds x → hit t (capped ks x) ≤ hit t x

end Spec

variable {C D : Type} [OutSuccess C] [OutFailure D]

namespace Useless
open Spec Periods

/-- The servers beyond `ks`, in addition to `ks`. -/
def over (ks x : Config ℤ) : Config ℤ := List.zipWith max x ks

theorem up_split : ∀ (β : List ℚ) (ks y x : Config ℤ), y.length = ks.length → x.length = ks.length →
    upCost β y x = upCost β (capped ks y) (capped ks x) + upCost β (over ks y) (over ks x) := by
  intro β
  induction β with
  | nil => intro ks y x _ _; simp [upCost, List.zipWith3]
  | cons b β ih =>
    intro ks y x hy hx
    match ks, y, x, hy, hx with
    | [], [], [], _, _ => simp [upCost, List.zipWith3, capped, over]
    | k :: ks, i :: y, j :: x, hy, hx =>
      have := ih ks y x (by simpa using hy) (by simpa using hx)
      simp only [capped, over, List.zipWith_cons_cons, upCost_cons] at this ⊢
      rw [this]
      have e : max 0 ((toQ j : ℚ) - toQ i) = max 0 ((toQ (min j k) : ℚ) - toQ (min i k)) + max 0 ((toQ (max j k) : ℚ) - toQ (max i k)) := by
        show max 0 ((j : ℚ) - (i : ℚ)) = max 0 (((min j k : ℤ) : ℚ) - ((min i k : ℤ) : ℚ)) + max 0 (((max j k : ℤ) : ℚ) - ((max i k : ℤ) : ℚ))
        have : max 0 (j - i) = max 0 (min j k - min i k) + max 0 (max j k - max i k) := by omega
        exact_mod_cast this
      rw [e]
      ring

theorem move_split (β : List ℚ) (ks : Config ℤ) : ∀ (xs : Schedule ℤ) (y : Config ℤ), y.length = ks.length →
    (∀ x ∈ xs, x.length = ks.length) →
    totalMove (upCost β) y xs = totalMove (upCost β) (capped ks y) (xs.map (capped ks)) + totalMove (upCost β) (over ks y) (xs.map (over ks)) := by
  intro xs
  induction xs with
  | nil => intro y _ _; simp [totalMove]
  | cons x xs ih =>
    intro y hy hx
    simp only [List.map_cons, totalMove]
    rw [up_split β ks y x hy (hx x (by simp)), ih x (hx x (by simp)) fun z hz => hx z (List.mem_cons_of_mem _ hz)]
    ring

theorem move_nonneg {β : List ℚ} (hβ : ∀ b ∈ β, 0 ≤ b) : ∀ (xs : Schedule ℤ) (y : Config ℤ), 0 ≤ totalMove (upCost β) y xs := by
  intro xs
  induction xs with
  | nil => intro y; simp [totalMove]
  | cons x xs ih => intro y; exact add_nonneg (Periods.upCost_nonneg β hβ y x) (ih x)

/-- Powering up costs something if a server beyond `ks` is started. -/
theorem up_zero : ∀ (β : List ℚ) (ks x : Config ℤ), (∀ b ∈ β, 0 < b) → β.length = ks.length → x.length = ks.length →
    upCost β ks (over ks x) ≤ 0 → over ks x = ks ∧ capped ks x = x := by
  intro β
  induction β with
  | nil =>
    intro ks x _ h1 h2 _
    match ks, x, h1, h2 with
    | [], [], _, _ => exact ⟨rfl, rfl⟩
  | cons b β ih =>
    intro ks x hb h1 h2 h
    match ks, x, h1, h2 with
    | k :: ks, j :: x, h1, h2 =>
      simp only [over, List.zipWith_cons_cons, upCost_cons] at h
      have hβ : ∀ c ∈ β, 0 < c := fun c hc => hb c (List.mem_cons_of_mem _ hc)
      have n1 := Periods.upCost_nonneg β (fun c hc => (hβ c hc).le) ks (List.zipWith max x ks)
      have b0 := hb b (by simp)
      have n2 : 0 ≤ b * max 0 ((toQ (max j k) : ℚ) - toQ k) := mul_nonneg b0.le (le_max_left _ _)
      obtain ⟨e1, e2⟩ := ih ks x hβ (by simpa using h1) (by simpa using h2) (by unfold over; linarith)
      have hjk : j ≤ k := by
        by_contra hlt
        push Not at hlt
        have : (0 : ℚ) < (toQ (max j k) : ℚ) - toQ k := by
          show (0 : ℚ) < ((max j k : ℤ) : ℚ) - (k : ℚ)
          rw [max_eq_left hlt.le]
          have : (k : ℚ) < j := by exact_mod_cast hlt
          linarith
        have := mul_pos b0 (this.trans_le (le_max_right 0 _))
        linarith
      unfold over at e1 ⊢
      unfold capped at e2 ⊢
      rw [List.zipWith_cons_cons, List.zipWith_cons_cons, e1, e2, max_eq_right hjk, min_eq_left hjk]
      exact ⟨rfl, rfl⟩

theorem move_zero {β : List ℚ} (hβ : ∀ b ∈ β, 0 < b) (ks : Config ℤ) (hl : β.length = ks.length) : ∀ xs : Schedule ℤ,
    (∀ x ∈ xs, x.length = ks.length) → totalMove (upCost β) ks (xs.map (over ks)) ≤ 0 → ∀ x ∈ xs, capped ks x = x := by
  intro xs
  induction xs with
  | nil => intro _ _ x hx; simp at hx
  | cons y xs ih =>
    intro hx h
    simp only [List.map_cons, totalMove] at h
    have hβ' : ∀ b ∈ β, 0 ≤ b := fun b hb => (hβ b hb).le
    have n1 := Periods.upCost_nonneg β hβ' ks (over ks y)
    have n2 := move_nonneg hβ' (xs.map (over ks)) (over ks y)
    obtain ⟨e1, e2⟩ := up_zero β ks y hβ hl (hx y (by simp)) (by linarith)
    rw [e1] at h n1 n2
    intro x hm
    rcases List.mem_cons.1 hm with rfl | hm
    · exact e2
    · exact ih (fun z hz => hx z (List.mem_cons_of_mem _ hz)) (by linarith) x hm

theorem hit_capped {hit : Int → Config ℤ → ECost} {T : Int} {bs ks : List ℤ}
    (h : ∀ t : Int, 1 ≤ t → t ≤ T → ∀ x, InBox bs x → hit t (capped ks x) ≤ hit t x) : ∀ (xs : Schedule ℤ) (t : Int), 1 ≤ t →
    t + xs.length ≤ T + 1 → (∀ x ∈ xs, InBox bs x) → totalHit hit t (xs.map (capped ks)) ≤ totalHit hit t xs := by
  intro xs
  induction xs with
  | nil => intro t _ _ _; exact le_rfl
  | cons x xs ih =>
    intro t t1 t2 hx
    simp only [List.length_cons] at t2
    push_cast at t2
    exact add_le_add (h t t1 (by omega) x (hx x (by simp))) (ih (t + 1) (by omega) (by omega) fun z hz => hx z (List.mem_cons_of_mem _ hz))

theorem in_capped : ∀ {bs ks x : List ℤ}, ks.length = bs.length → (∀ k ∈ ks, 0 ≤ k) → InBox bs x → InBox bs (capped ks x) := by
  intro bs ks x hl hk hx
  unfold InBox at hx ⊢
  induction hx generalizing ks with
  | nil => exact .nil
  | @cons b j bs x hj hx ih =>
    match ks, hl with
    | k :: ks, hl =>
      have := hk k (by simp)
      exact .cons ⟨le_min hj.1 this, (min_le_left _ _).trans hj.2⟩ (ih (by simpa using hl) fun z hz => hk z (List.mem_cons_of_mem _ hz))

theorem capped_zero : ∀ {ks : List ℤ}, (∀ k ∈ ks, 0 ≤ k) → capped ks (List.replicate ks.length 0) = List.replicate ks.length 0 ∧
    over ks (List.replicate ks.length 0) = ks := by
  intro ks
  induction ks with
  | nil => intro _; exact ⟨rfl, rfl⟩
  | cons k ks ih =>
    intro h
    obtain ⟨h1, h2⟩ := ih fun z hz => h z (List.mem_cons_of_mem _ hz)
    unfold capped at h1 ⊢
    unfold over at h2 ⊢
    rw [List.length_cons, List.replicate_succ, List.zipWith_cons_cons, List.zipWith_cons_cons, h1, h2, min_eq_left (h k (by simp)),
      max_eq_right (h k (by simp))]
    exact ⟨rfl, rfl⟩

/-- In one dimension, a lowest cheapest schedule does not exceed `k` if no slot profits from more than `k`. -/
theorem low_le {g : Int → ℤ → ECost} {β : ℚ} (hβ : 0 ≤ β) {m k : ℤ} (hk : 0 ≤ k) {N : Nat} {A : List ℤ} (hA : IsLow g β false m N 1 0 A)
    (h : ∀ t : Int, 1 ≤ t → t ≤ N → ∀ j, k ≤ j → j ≤ m → g t k ≤ g t j) : ∀ i, A.getD i 0 ≤ k := by
  have cost : ∀ (js : List ℤ) (t : Int) (x : ℤ), 1 ≤ t → t + js.length ≤ N + 1 → (∀ j ∈ js, 0 ≤ j ∧ j ≤ m) →
      Spec.totalCost g (mv1 β false) 1 t (min x k) (js.map fun j => min j k) ≤ Spec.totalCost g (mv1 β false) 1 t x js := by
    intro js
    induction js with
    | nil => intro t x _ _ _; exact le_rfl
    | cons j js ih =>
      intro t x t1 t2 hj
      simp only [List.length_cons] at t2
      push_cast at t2
      simp only [List.map_cons, Spec.totalCost]
      refine add_le_add (add_le_add ?_ (WithTop.coe_le_coe.2 ?_)) (ih (t + 1) j (by omega) (by omega) fun z hz => hj z (List.mem_cons_of_mem _ hz))
      · rcases le_total j k with hjk | hjk
        · rw [min_eq_left hjk]
        · rw [min_eq_right hjk]
          exact h t t1 (by omega) j hjk (hj j (by simp)).2
      · rw [one_mul, one_mul]
        refine mul_le_mul_of_nonneg_left ?_ hβ
        have : max 0 (min j k - min x k) ≤ max 0 (j - x) := by omega
        exact_mod_cast this
  intro i
  have hb : ∀ j ∈ A.map (fun j => min j k), 0 ≤ j ∧ j ≤ m := by
    intro j hj
    obtain ⟨a, ha, rfl⟩ := List.mem_map.1 hj
    exact ⟨le_min (hA.box a ha).1 hk, (min_le_left _ _).trans (hA.box a ha).2⟩
  have c := cost A 1 0 le_rfl (by rw [hA.len]; omega) hA.box
  rw [min_eq_left hk] at c
  have := below_getD (hA.low (A.map fun j => min j k) (by rw [List.length_map, hA.len]) hb c) i
  refine this.trans ?_
  rw [List.getD_eq_getElem?_getD, List.getElem?_map]
  cases A[i]? with
  | none => simpa using hk
  | some a => simp

end Useless

open Useless Periods in
/-- **C141** (plans). If no slot profits from more than `ks` servers of the types, the optimal search never has more than that active.
With `k = 0` for a type this means that no server of it is ever started. -/
theorem C141_plans (ks : Config ℤ) (q : SSCO ℤ C D) (hit : Int → Config ℤ → ECost) (W : Spec.Enough ks q hit)
    (hv : q.verify = .ok ()) (hT : 1 ≤ q.tEnd) (H : Spec.Hits q hit) (o : OfflineOptions) (hl : o.l = none) (hα : 0 < o.alpha) :
    ∃ r, Multi.optimalGraphSearch q none o = .ok r ∧ (r.path.xs.length : Int) = q.tEnd ∧
      ∀ x ∈ r.path.xs, List.Forall₂ (· ≤ ·) x ks := by
  have hv' := valid_of hv
  obtain ⟨r, b1, b2, b3, b4, b5, b6⟩ := best hv hT H o hl hα.le
  have hβ : ∀ b ∈ q.switchingCost, 0 < b := hv'.2.2.2.2.2
  have hd : q.d.toNat = ks.length := by
    have := hv'.2.2.1
    have := W.length
    omega
  have hs : q.switchingCost.length = ks.length := by
    have := hv'.2.2.2.1
    omega
  have hlen : ∀ x ∈ r.path.xs, x.length = ks.length := fun x hx => (b3 x hx).length_eq.symm.trans W.length.symm
  refine ⟨r, b1, b2, ?_⟩
  have h := b6 (r.path.xs.map (Spec.capped ks)) (by rw [List.length_map, b2]) fun y hy => by
    obtain ⟨x, hx, rfl⟩ := List.mem_map.1 hy
    exact in_capped W.length W.nonneg (b3 x hx)
  have hh := hit_capped W.enough r.path.xs 1 le_rfl (by omega) b3
  obtain ⟨z1, z2⟩ := capped_zero W.nonneg
  have hm := move_split q.switchingCost ks r.path.xs (List.replicate ks.length 0) (by simp) hlen
  rw [z1, z2] at hm
  rw [b5] at b4 h
  rw [totalCost_eq, totalCost_eq, hd, hm] at h
  rw [totalCost_eq, hd, hm] at b4
  obtain ⟨a, ha⟩ := WithTop.ne_top_iff_exists.1 (WithTop.add_ne_top.1 b4).1
  rw [← ha] at hh h
  obtain ⟨c, hc⟩ := WithTop.ne_top_iff_exists.1 (ne_top_of_le_ne_top WithTop.coe_ne_top hh)
  rw [← hc] at hh h
  rw [← WithTop.coe_add, ← WithTop.coe_add] at h
  have hh := WithTop.coe_le_coe.1 hh
  have h := WithTop.coe_le_coe.1 h
  have h0 : Spec.totalMove (Spec.upCost q.switchingCost) ks (r.path.xs.map (over ks)) ≤ 0 := by
    by_contra hc
    push Not at hc
    have := mul_pos hα hc
    linarith
  intro x hx
  have e := move_zero hβ ks hs r.path.xs hlen h0 x hx
  have : ∀ (ks x : List ℤ), x.length = ks.length → Spec.capped ks x = x → List.Forall₂ (· ≤ ·) x ks := by
    intro ks
    induction ks with
    | nil => intro x h1 _; cases x with
      | nil => exact .nil
      | cons a x => simp at h1
    | cons k ks ih =>
      intro x h1 h2
      cases x with
      | nil => simp at h1
      | cons a x =>
        simp only [Spec.capped, List.zipWith_cons_cons, List.cons.injEq] at h2
        exact .cons (min_eq_left_iff.1 h2.1) (ih x (by simpa using h1) h2.2)
  exact this ks x (hlen x hx) e

open Useless in
/-- **C141** (capacity provisioning). If no slot, in the prediction window or before, profits from more than `k` servers, integral lazy
capacity provisioning never has more than `k` active. -/
theorem C141_lazy {m : ℤ} {β : ℚ} {g : Int → ℤ → ECost} (w : Nat) (ps : List (SSCO ℤ C D))
    (K : Spec.Costs m β g (ps.length + w)) (I : ∀ k (h : k < ps.length), Spec.Foresight ps[k] m β g (k + 1) w)
    (k : ℤ) (hk : 0 ≤ k) (hs : ∀ t : Int, 1 ≤ t → t ≤ (ps.length + w : Nat) → ∀ j, k ≤ j → j ≤ m → g t k ≤ g t j) :
    ∃ (js : List ℤ) (mem : Option (List (BoundsMem ℤ))),
      Spec.play SSCO.tEnd (lcpAlg boundedInt) [] none (ps.map fun p => ⟨p, w⟩) = .ok (js.map (fun j => [j]), mem) ∧
      js.length = ps.length ∧ ∀ j ∈ js, 0 ≤ j ∧ j ≤ k := by
  obtain ⟨js, bs, h1, h2, h3, M, h5⟩ := run_window w ps K I
  refine ⟨js, _, h1, h2, ?_⟩
  have low : ∀ i (h : i < bs.length), 0 ≤ bs[i].lower ∧ bs[i].lower ≤ k := by
    intro i hi
    obtain ⟨X, -, hX, -, eX, -⟩ := M i bs[i] (List.getElem?_eq_getElem hi)
    rw [← eX]
    refine ⟨?_, low_le K.hβ.le hk hX (fun t a b j j0 j1 => hs t a (by push_cast at *; omega) j j0 j1) i⟩
    rw [List.getD_eq_getElem?_getD]
    cases e : X[i]? with
    | none => simp
    | some a => exact (hX.box a (List.mem_of_getElem? e)).1
  have eL : ∀ i (h : i < bs.length), Lf bs (i + 1) = (bs[i].lower : ℚ) := fun i h => by
    simp [Lf, h]; rfl
  have main : ∀ i, i ≤ bs.length → 0 ≤ lazy 0 (Lf bs) (Uf bs) i ∧ lazy 0 (Lf bs) (Uf bs) i ≤ (k : ℚ) := by
    intro i
    induction i with
    | zero => intro _; rw [lazy]; exact ⟨le_rfl, by exact_mod_cast hk⟩
    | succ i ih =>
      intro h
      rw [lazy, clampQ, eL i h]
      have := low i h
      exact ⟨le_max_of_le_left (by exact_mod_cast this.1),
        max_le (by exact_mod_cast this.2) ((min_le_right _ _).trans (ih (by omega)).2)⟩
  intro j hj
  obtain ⟨i, hi, rfl⟩ := List.getElem_of_mem hj
  have e := h5 i (by omega)
  have := main (i + 1) (by omega)
  rw [← e, List.getD_eq_getElem?_getD, List.getElem?_eq_getElem hi, Option.getD_some] at this
  exact ⟨by exact_mod_cast this.1, by exact_mod_cast this.2⟩

/-- **C141** (service). If no slot profits from more than `k` servers, a service for a data center with one type of servers never has more
than `k` active. -/
theorem C141_service (S : Num.Solver) (hS : Spec.SolvesEmpty S) (choose : Nat → List ℚ → Nat → List ℚ)
    (hch : ChoosesFrom choose) (m : DataCenterModel) (F : Spec.Farm) (h : Spec.IsFarm m F) (hF : F.Valid)
    (loads : List ℚ) (hl : ∀ l ∈ loads, F.Carries l) (k : ℤ) (hk : 0 ≤ k)
    (hs : ∀ (i : Nat) l, loads[i]? = some l → ∀ j : ℤ, k ≤ j → j ≤ F.servers → F.slotCost (i + 1) l k ≤ F.slotCost (i + 1) l j)
    (a b w r : Nat)
    (hab : a = 0 ∧ b = 0 ∨ w < a ∧ b = max 1 (a - 2 * w)) (ha : a ≤ loads.length) (hr : b + r + w ≤ loads.length) :
    ∃ js : List ℤ, Spec.LazyService S choose m loads a b w r (js.map fun j => [j]) ∧ js.length = b + r ∧ ∀ j ∈ js, 0 ≤ j ∧ j ≤ k := by
  obtain ⟨xs, ps, mem, s1, s2, s3, K, s4⟩ := Service.farm_plays S hS choose hch m F h hF loads hl a b w r hab ha hr
  obtain ⟨js, mem', h1, h2, h3⟩ := C141_lazy w ps (by rw [s2]; exact K) s3 k hk (fun t a b j j0 j1 => by
    rw [s2] at b
    obtain ⟨l, hl'⟩ : ∃ l, loads[(t - 1).toNat]? = some l := ⟨_, List.getElem?_eq_getElem (by omega)⟩
    have := hs _ l hl' j j0 j1
    rw [show (((t - 1).toNat : Nat) : Int) + 1 = t by omega] at this
    rw [List.getD_eq_getElem?_getD, hl']
    exact this)
  rw [s4] at h1
  have e := (Prod.ext_iff.1 (Except.ok.inj h1)).1
  exact ⟨js, by rwa [← show xs = js.map fun j => [j] from e], h2.trans s2, h3⟩

/-- **C141** (idle). A service for a data center at which no jobs arrive never starts a server. -/
theorem C141_idle (S : Num.Solver) (hS : Spec.SolvesEmpty S) (choose : Nat → List ℚ → Nat → List ℚ)
    (hch : ChoosesFrom choose) (m : DataCenterModel) (F : Spec.Farm) (h : Spec.IsFarm m F) (hF : F.Valid) (hu : 0 ≤ F.maxUse)
    (n a b w r : Nat) (hab : a = 0 ∧ b = 0 ∨ w < a ∧ b = max 1 (a - 2 * w)) (ha : a ≤ n) (hr : b + r + w ≤ n) :
    Spec.LazyService S choose m (List.replicate n 0) a b w r (List.replicate (b + r) [0]) := by
  have hc : ∀ l ∈ List.replicate n (0 : ℚ), F.Carries l := by
    intro l hl
    rw [List.eq_of_mem_replicate hl]
    refine ⟨le_rfl, ?_, ?_⟩ <;> simp [Spec.Farm.use, hu]
  obtain ⟨js, h1, h2, h3⟩ := C141_service S hS choose hch m F h hF (List.replicate n 0) hc 0 le_rfl (fun i l hl j j0 j1 => by
    have : l = 0 := List.eq_of_mem_replicate (List.mem_of_getElem? hl)
    subst this
    have e : F.slotCost (i + 1) 0 (0 : ℤ) = 0 := by simp [Spec.Farm.slotCost]
    rw [e]
    unfold Spec.Farm.slotCost
    split
    · simp
    · rename_i hj
      split
      · refine WithTop.coe_le_coe.2 ?_
        rw [mul_zero, add_zero]
        push Not at hj
        have : F.use 0 j = 0 := by simp [Spec.Farm.use]
        rw [this]
        exact mul_nonneg (hF.price _ (by omega)).le (mul_nonneg hj.le (hF.power 0 le_rfl))
      · exact le_top) a b w r hab (by simpa using ha) (by simpa using hr)
  have : js = List.replicate (b + r) 0 := by
    rw [List.eq_replicate_iff]
    exact ⟨h2, fun j hj => le_antisymm (h3 j hj).2 (h3 j hj).1⟩
  rw [this, List.map_replicate] at h1
  exact h1

/-- **C141** (peak). If the energy consumed by a server is affine in its utilisation and delays cost nothing, a service never has more
servers active than are needed for the largest of the loads. -/
theorem C141_peak (S : Num.Solver) (hS : Spec.SolvesEmpty S) (choose : Nat → List ℚ → Nat → List ℚ)
    (hch : ChoosesFrom choose) (m : DataCenterModel) (F : Spec.Farm) (h : Spec.IsFarm m F) (hF : F.Valid) (hγ : F.gamma = 0)
    (p0 p1 : ℚ) (hp0 : 0 ≤ p0) (hpow : ∀ u, 0 ≤ u → F.power u = p0 + p1 * u)
    (loads : List ℚ) (hl : ∀ l ∈ loads, F.Carries l) (k : ℤ) (hk : 0 < k)
    (hpeak : ∀ l ∈ loads, F.use l k < 1 ∧ F.use l k ≤ F.maxUse) (a b w r : Nat)
    (hab : a = 0 ∧ b = 0 ∨ w < a ∧ b = max 1 (a - 2 * w)) (ha : a ≤ loads.length) (hr : b + r + w ≤ loads.length) :
    ∃ js : List ℤ, Spec.LazyService S choose m loads a b w r (js.map fun j => [j]) ∧ js.length = b + r ∧ ∀ j ∈ js, 0 ≤ j ∧ j ≤ k := by
  refine C141_service S hS choose hch m F h hF loads hl k hk.le (fun i l hil j j0 _ => ?_) a b w r hab ha hr
  have hm := List.mem_of_getElem? hil
  have l0 : 0 ≤ F.time * l := mul_nonneg hF.time (hl l hm).1
  have k0 : (0 : ℚ) < k := by exact_mod_cast hk
  have jk : (k : ℚ) ≤ j := by exact_mod_cast j0
  have e : ∀ x : ℚ, 0 < x → x * F.power (F.use l x) = x * p0 + p1 * (F.time * l / F.slot) := by
    intro x hx
    have hu : 0 ≤ F.use l x := div_nonneg l0 (mul_nonneg hx.le hF.slot.le)
    rw [hpow _ hu, Spec.Farm.use]
    have := hF.slot.ne'
    field_simp
  unfold Spec.Farm.slotCost
  rw [if_neg (by simpa using k0), if_pos (hpeak l hm), if_neg (by simpa using k0.trans_le jk)]
  split
  · refine WithTop.coe_le_coe.2 ?_
    rw [hγ, e k k0, e j (k0.trans_le jk)]
    simp only [zero_mul, add_zero]
    refine mul_le_mul_of_nonneg_left ?_ (hF.price _ (by omega)).le
    have := mul_le_mul_of_nonneg_right jk hp0
    linarith
  · exact le_top

/-! ## Examples -/

/-- Two efficient servers and three which are dearer to operate, at most two of which are needed. -/
def Ex.spare : SSCO ℤ Unit Unit where
  d := 2
  tEnd := 2
  bounds := [2, 3]
  switchingCost := [2, 1]
  hittingCost := CostFn.new 1 (SingleCostFn.certain fun t x => .ok (Cost.raw
    (if x.getD 0 0 < 3 - t then ⊤ else (((x.getD 0 0 + 3 * x.getD 1 0 : ℤ) : ℚ) : ECost))))

/-- The costs of its slots. -/
def Ex.spareHit (t : Int) (x : Config ℤ) : ECost :=
  if x.getD 0 0 < 3 - t then ⊤ else (((x.getD 0 0 + 3 * x.getD 1 0 : ℤ) : ℚ) : ECost)

theorem Ex.spare_hits : Spec.Hits Ex.spare Ex.spareHit where
  slot t t1 _ x hx := ⟨_, ((C06_guarded_evaluation _ t Ex.spare.bounds x hx.length_eq.symm).1 hx).1.trans (CostFn.callMean_certain _ t t1 _)⟩
  fin t t1 _ := by
    have : ¬ ((2 : ℤ) < 3 - t) := by omega
    show (if (2 : ℤ) < 3 - t then (⊤ : ECost) else _) ≠ ⊤
    rw [if_neg this]
    exact WithTop.coe_ne_top

/-- Non-vacuity of C141: the second type is never used. -/
theorem Ex.spare_enough : Spec.Enough [2, 0] Ex.spare Ex.spareHit where
  length := rfl
  nonneg := by decide
  enough t t1 t2 x hx := by
    match x, hx with
    | [i, j], .cons hi (.cons hj .nil) =>
      have e : Spec.capped [2, 0] [i, j] = [i, 0] := by
        simp [Spec.capped, hi.2, hj.1]
      rw [e]
      show (if i < 3 - t then (⊤ : ECost) else (((i + 3 * 0 : ℤ) : ℚ) : ECost)) ≤
        if i < 3 - t then (⊤ : ECost) else (((i + 3 * j : ℤ) : ℚ) : ECost)
      split
      · exact le_rfl
      · apply WithTop.coe_le_coe.2
        exact_mod_cast (by have := hj.1; omega : i + 3 * 0 ≤ i + 3 * j)

example := C141_plans [2, 0] Ex.spare _ Ex.spare_enough (by decide +kernel) (by decide) Ex.spare_hits ⟨false, 1, none⟩ rfl (by decide)

/-- Non-vacuity of `C141_idle`. -/
example (S : Num.Solver) (hS : Spec.SolvesEmpty S) (choose : Nat → List ℚ → Nat → List ℚ) (hch : ChoosesFrom choose) :=
  C141_idle S hS choose hch Ex.flatModel Ex.flatFarm Ex.flat_is Ex.flat_valid (by decide +kernel) 8 5 3 1 4 (by decide) (by decide) (by decide)

/-- Non-vacuity of `C141_peak`: two of the four servers are enough for three jobs. -/
example (S : Num.Solver) (hS : Spec.SolvesEmpty S) (choose : Nat → List ℚ → Nat → List ℚ) (hch : ChoosesFrom choose) :=
  C141_peak S hS choose hch Ex.idleModel Ex.idleFarm Ex.idle_is Ex.idle_valid rfl 1 1 (by norm_num)
    (fun u _ => by simp only [Ex.idleFarm]; ring) [1, 3, 2, 3] (by
      intro l hl
      simp only [List.mem_cons, List.not_mem_nil, or_false] at hl
      rcases hl with rfl | rfl | rfl | rfl <;> norm_num [Spec.Farm.Carries, Spec.Farm.use, Ex.idleFarm]) 2 (by norm_num) (by
      intro l hl
      simp only [List.mem_cons, List.not_mem_nil, or_false] at hl
      rcases hl with rfl | rfl | rfl | rfl <;> norm_num [Spec.Farm.use, Ex.idleFarm]) 1 1 0 3 (by decide) (by decide) (by decide)

/-- One server which is free to operate. -/
def Ex.freeServer : SSCO ℤ Unit Unit := ⟨1, 1, [1], [1], CostFn.new 1 (SingleCostFn.certain fun _ _ => .ok (Cost.raw 0))⟩

/-- If switching is not charged, a cheapest plan may run a server from which no slot profits: the hypothesis of `C141_plans` that `alpha` is
positive is needed. -/
theorem C141_alpha_needed : ∃ hit, Ex.freeServer.verify = .ok () ∧ Spec.Hits Ex.freeServer hit ∧ Spec.Enough [0] Ex.freeServer hit ∧
    (∀ t x, 0 ≤ hit t x) ∧ (Ex.freeServer.toProb.alphaUnfairObjective [[1]] 0).map (·.cost) = .ok 0 :=
  ⟨fun _ _ => 0, by decide +kernel,
    ⟨fun t t1 _ x hx => ⟨_, ((C06_guarded_evaluation _ t [1] x hx.length_eq.symm).1 hx).1.trans (CostFn.callMean_certain _ t t1 _)⟩,
      fun _ _ _ => by simp⟩, ⟨rfl, by decide, fun _ _ _ _ _ => le_rfl⟩, fun _ _ => le_rfl, by decide +kernel⟩

end Soco
