import Verif.Lemmas.SkiRental
import Verif.Props.LazyBudgeting
import Verif.Props.Solve
import Verif.Spec.Window

/-!
# C69: lazy budgeting with one server type
-/

namespace Soco
namespace Lb

/-! ## The idle slots of lanes -/

/-- The idle slots of lanes after the given loads. -/
def idleAfter (W : Nat) (ls : List ℤ) (i : Nat → Nat) : Nat → Nat := ls.foldl (fun i l => idleStep W l i) i

theorem idleAfter_lt (W : Nat) (ls : List ℤ) (j n : Nat) (hn : n ≤ W) :
    idleAfter W ls (fun _ => W) j < n ↔ ∃ l ∈ ls.drop (ls.length - n), (j : ℤ) < l := by
  induction ls using List.reverseRecOn generalizing n with
  | nil => simp [idleAfter]; omega
  | append_singleton qs l ih =>
    have e : idleAfter W (qs ++ [l]) (fun _ => W) j = idleStep W l (idleAfter W qs fun _ => W) j := by
      simp [idleAfter]
    rw [e]
    cases n with
    | zero => simp
    | succ n =>
      have hd : (qs ++ [l]).drop ((qs ++ [l]).length - (n + 1)) = qs.drop (qs.length - n) ++ [l] := by
        rw [List.length_append, List.length_singleton, show qs.length + 1 - (n + 1) = qs.length - n by omega,
          List.drop_append_of_le_length (by omega)]
      rw [hd]
      have := ih n (by omega)
      simp only [List.mem_append, List.mem_singleton]
      unfold idleStep
      constructor
      · intro h
        by_cases hl : (j : ℤ) < l
        · exact ⟨l, Or.inr rfl, hl⟩
        · rw [if_neg hl] at h
          obtain ⟨q, h1, h2⟩ := this.1 (by omega)
          exact ⟨q, Or.inl h1, h2⟩
      · rintro ⟨q, h1 | h1, h2⟩
        · have := this.2 ⟨q, h1, h2⟩
          split <;> omega
        · subst h1
          rw [if_pos h2]; omega

theorem foldr_max_nonneg (ls : List ℤ) : 0 ≤ ls.foldr max 0 := by
  induction ls with
  | nil => simp
  | cons l ls ih => simp only [List.foldr_cons]; omega

theorem lt_foldr_max (ls : List ℤ) (j : Nat) : (j : ℤ) < ls.foldr max 0 ↔ ∃ l ∈ ls, (j : ℤ) < l := by
  induction ls with
  | nil => simp
  | cons l ls ih =>
    simp only [List.foldr_cons, List.mem_cons, exists_eq_or_imp, lt_max_iff, ih]

theorem foldr_max_le (ls : List ℤ) (m : ℤ) (h0 : 0 ≤ m) (h : ∀ l ∈ ls, l ≤ m) : ls.foldr max 0 ≤ m := by
  induction ls with
  | nil => simpa using h0
  | cons l ls ih =>
    have h1 := ih fun l hl => h l (by simp [hl])
    have h2 := h l (by simp)
    simp only [List.foldr_cons]; omega

/-- The number of active lanes is the largest of the last loads. -/
theorem act_window (W m : Nat) (ls : List ℤ) (h : ∀ l ∈ ls, l ≤ m) :
    act W m (idleAfter W ls fun _ => W) = Spec.windowMax W ls := by
  unfold act Spec.windowMax
  have h0 := foldr_max_nonneg (ls.drop (ls.length - W))
  have h1 := foldr_max_le (ls.drop (ls.length - W)) m (by omega) fun l hl => h l (List.mem_of_mem_drop hl)
  rw [countP_range_lt m (((ls.drop (ls.length - W)).foldr max 0).toNat)]
  · omega
  · intro j _
    rw [decide_eq_true_eq, idleAfter_lt W ls j W (le_refl _), ← lt_foldr_max]
    omega
  · omega

theorem rentals_get (W m : Nat) (i : Nat → Nat) (ls : List ℤ) (k : Nat) (hk : k < ls.length) :
    (rentals W m i ls)[k]? = some (act W m (idleAfter W (ls.take (k + 1)) i)) := by
  induction ls generalizing i k with
  | nil => simp at hk
  | cons l ls ih =>
    cases k with
    | zero => simp [rentals, idleAfter]
    | succ k => simpa [rentals, idleAfter] using ih (idleStep W l i) k (by simpa using hk)

theorem rentals_length (W m : Nat) (i : Nat → Nat) (ls : List ℤ) : (rentals W m i ls).length = ls.length := by
  induction ls generalizing i with
  | nil => rfl
  | cons l ls ih => simp [rentals, ih]

theorem act_nonneg (W m : Nat) (i : Nat → Nat) : 0 ≤ act W m i := by unfold act; omega

theorem act_le (W m : Nat) (i : Nat → Nat) : act W m i ≤ m := by
  unfold act
  have := List.countP_le_length (p := fun j => decide (i j < W)) (l := List.range m)
  rw [List.length_range] at this
  omega

theorem le_act (W m : Nat) (hW : 1 ≤ W) (l : ℤ) (hl : l ≤ m) (i : Nat → Nat) : l ≤ act W m (idleStep W l i) := by
  unfold act
  by_cases h0 : 0 ≤ l
  · have h := countP_range_lt m l.toNat (fun j : Nat => decide ((j : ℤ) < l)) (by intro j _; rw [decide_eq_true_eq]; omega) (by omega)
    have : (List.range m).countP (fun j : Nat => decide ((j : ℤ) < l)) ≤
        (List.range m).countP fun j => decide (idleStep W l i j < W) := by
      apply List.countP_mono_left
      intro j _ hj
      simp only [decide_eq_true_eq] at hj ⊢
      unfold idleStep
      rw [if_pos hj]; omega
    omega
  · omega

/-! ## The lanes of the algorithm -/

/-- What lane and horizon are after slot `t` if the lane has been idle for `i` slots. -/
def Rel (W : Nat) (N t : ℤ) (i L : Nat) (H : ℤ) : Prop :=
  (i < W ∧ L = 1 ∧ H = t - i + N) ∨ (i = W ∧ L = 0 ∧ H ≤ t)

theorem rel_step (W : Nat) (N : Nat → ℤ) (hN : 0 ≤ N 1) (hN0 : N 0 = 0) (hW : W = max 1 (N 1).toNat) (t : ℤ)
    (i L O : Nat → Nat) (H : Nat → ℤ) (l : ℤ) (hO : ∀ j, O j = if (j : ℤ) < l then 1 else 0) (j : Nat)
    (h : Rel W (N 1) t (i j) (L j) (H j)) :
    Rel W (N 1) (t + 1) (idleStep W l i j) (stepL (t + 1) L O H j) (stepH N (t + 1) L O H j) := by
  unfold Rel stepL stepH idleStep at *
  have hOj := hO j
  by_cases hj : (j : ℤ) < l
  · rw [if_pos hj] at hOj
    rw [if_pos hj, hOj]
    left
    rcases h with ⟨h1, h2, h3⟩ | ⟨h1, h2, h3⟩
    · rw [h2]
      by_cases hc : t + 1 ≥ H j
      · rw [if_pos (Or.inr hc), if_pos (Or.inr hc)]
        refine ⟨by omega, rfl, by push_cast; omega⟩
      · rw [if_neg (by omega), if_neg (by omega)]
        refine ⟨by omega, rfl, ?_⟩
        rw [max_eq_right (by omega)]
        push_cast; omega
    · rw [h2, if_pos (Or.inl (by omega)), if_pos (Or.inl (by omega))]
      refine ⟨by omega, rfl, by push_cast; omega⟩
  · rw [if_neg hj] at hOj
    rw [if_neg hj, hOj, hN0]
    rcases h with ⟨h1, h2, h3⟩ | ⟨h1, h2, h3⟩
    · rw [h2]
      by_cases hc : t + 1 ≥ H j
      · rw [if_pos (Or.inr hc), if_pos (Or.inr hc)]
        right
        refine ⟨by omega, rfl, by omega⟩
      · rw [if_neg (by omega), if_neg (by omega)]
        left
        refine ⟨by omega, rfl, ?_⟩
        rw [max_eq_left (by omega)]
        push_cast
        omega
    · rw [h2, if_pos (Or.inr (by omega)), if_pos (Or.inr (by omega))]
      right
      exact ⟨by omega, rfl, by omega⟩

/-! ## Costs of schedules of a single type -/

theorem lineCost_last (c β : ℚ) (hc : 0 < c) (hβ : 0 ≤ β) (prev : ℤ) (vs : List ℤ) (v w : ℤ) (h : v < w) :
    lineCost c β prev (vs ++ [v]) < lineCost c β prev (vs ++ [w]) := by
  induction vs generalizing prev with
  | nil =>
    have h' : (v : ℚ) < w := by exact_mod_cast h
    have h1 : c * (v : ℚ) < c * w := mul_lt_mul_of_pos_left h' hc
    have h2 : β * max 0 ((v : ℚ) - prev) ≤ β * max 0 ((w : ℚ) - prev) :=
      mul_le_mul_of_nonneg_left (max_le_max (le_refl _) (by linarith)) hβ
    simp only [List.nil_append, lineCost]
    linarith
  | cons u us ih =>
    have := ih u
    simp only [List.cons_append, lineCost]
    linarith

/-- What is fixed of the instances seen. -/
structure OneType (m : ℤ) (c β : ℚ) (p : SLO ℤ) : Prop where
  verified : p.verify = .ok ()
  d : p.d = 1
  bounds : p.bounds = [m]
  hitting : p.hittingCost = [c]
  switching : p.switchingCost = [β]
  loads : ∀ l ∈ p.load, l ≤ m

theorem OneType.valid {m : ℤ} {c β : ℚ} {p : SLO ℤ} (h : OneType m c β p) : Spec.ValidSLO p := by
  by_contra hn
  have := (C10_slo_verify_exact p (by rw [h.hitting, h.d]; rfl)).2 hn
  rw [h.verified] at this; simp at this

theorem loadCost_one {m : ℤ} {c β : ℚ} {p : SLO ℤ} (h : OneType m c β p) (t : Int) (v : ℤ) :
    Spec.loadCost p t [v] = if v < p.load.getD (t - 1).toNat 0 then ⊤ else ((c * v : ℚ) : ECost) := by
  unfold Spec.loadCost
  rw [h.hitting]
  simp only [List.sum_cons, List.sum_nil, add_zero, Spec.weighted, List.zipWith_cons_cons, List.zipWith_nil_left]
  rfl

theorem upCost_one (β : ℚ) (a b : ℤ) : Spec.upCost [β] [a] [b] = β * max 0 ((b : ℚ) - a) := by
  simp only [Spec.upCost, List.zipWith3, List.sum_cons, List.sum_nil, add_zero]
  rfl

theorem total_line {m : ℤ} {c β : ℚ} {p : SLO ℤ} (h : OneType m c β p) (vs : List ℤ) (t : Int) (prev : ℤ)
    (hcov : ∀ (i : Nat) v, vs[i]? = some v → p.load.getD (t + i - 1).toNat 0 ≤ v) :
    Spec.totalCost (Spec.loadCost p) (Spec.upCost p.switchingCost) 1 t [prev] (vs.map fun v => [v]) =
      ((lineCost c β prev vs : ℚ) : ECost) := by
  induction vs generalizing t prev with
  | nil => rfl
  | cons v vs ih =>
    rw [List.map_cons, Spec.totalCost, ih (t + 1) v, loadCost_one h, if_neg, h.switching, upCost_one, lineCost]
    · rw [one_mul, ← WithTop.coe_add, ← WithTop.coe_add]
    · have := hcov 0 v rfl
      simp only [Nat.cast_zero, add_zero] at this
      omega
    · intro i u hu
      have := hcov (i + 1) u (by simpa using hu)
      rwa [show t + 1 + (i : Int) - 1 = t + ((i + 1 : Nat) : Int) - 1 by push_cast; omega]

theorem loadTotal_line {m : ℤ} {c β : ℚ} {p : SLO ℤ} (h : OneType m c β p) (vs : List ℤ)
    (hcov : ∀ (i : Nat) v, vs[i]? = some v → p.load.getD i 0 ≤ v) :
    Spec.loadTotal p (vs.map fun v => [v]) = ((lineCost c β 0 vs : ℚ) : ECost) := by
  unfold Spec.loadTotal
  rw [show List.replicate p.d.toNat (0 : ℤ) = [0] by rw [h.d]; rfl]
  apply total_line h
  intro i v hi
  have := hcov i v hi
  rwa [show ((1 : Int) + i - 1).toNat = i by omega]

theorem loadTotal_cover {m : ℤ} {c β : ℚ} {p : SLO ℤ} (h : OneType m c β p) (vs : List ℤ)
    (hf : Spec.loadTotal p (vs.map fun v => [v]) ≠ ⊤) :
    ∀ (i : Nat) v, vs[i]? = some v → p.load.getD i 0 ≤ v := by
  intro i v hi
  have := totalCost_hit_ne_top _ _ _ _ _ _ hf i [v] (by rw [List.getElem?_map, hi]; rfl)
  rw [loadCost_one h] at this
  by_contra hc
  apply this
  rw [if_pos]
  rw [show ((1 : Int) + i - 1).toNat = i by omega]
  omega

theorem space_line {m : ℤ} {zs : Schedule ℤ} (h : ∀ z ∈ zs, Spec.InBox [m] z) :
    ∃ vs : List ℤ, zs = vs.map (fun v => [v]) ∧ ∀ v ∈ vs, 0 ≤ v ∧ v ≤ m := by
  induction zs with
  | nil => exact ⟨[], rfl, by simp⟩
  | cons z zs ih =>
    obtain ⟨vs, h1, h2⟩ := ih fun z hz => h z (by simp [hz])
    obtain ⟨v, rfl, h3, h4⟩ := Offline.inBox_one (h z (by simp))
    refine ⟨v :: vs, by simp [h1], ?_⟩
    intro w hw
    rcases List.mem_cons.1 hw with rfl | hw
    · exact ⟨h3, h4⟩
    · exact h2 w hw

/-- The objective of the problem whose optimum is followed. -/
theorem target_total (S : Num.Solver) (hE : Spec.SolvesEmpty S) {m : ℤ} {c β : ℚ} {p : SLO ℤ} (h : OneType m c β p)
    (zs : Schedule ℤ) (hl : (zs.length : Int) = p.tEnd) (hz : ∀ z ∈ zs, Spec.InBox p.bounds z) :
    ∃ out, (target S p).toProb.alphaUnfairObjective zs 1 = .ok ⟨Spec.loadTotal p zs, out⟩ := by
  obtain ⟨_, _, v3, v4, _⟩ := h.valid
  exact Offline.objective_simplified (target S p).toProb p.switchingCost (SSCO.simplified _)
    (by show p.d.toNat ≤ _; omega) 1 (Spec.loadCost p) (Spec.InBox p.bounds)
    (fun x hx => by have := List.Forall₂.length_eq hx; show _ = p.d.toNat; omega)
    (fun t a b x hx => by
      rw [target_hit S p t a x hx]
      exact Offline.one_balanced hE p h.valid h.d c h.hitting m h.bounds t a b x hx) zs hl hz

/-- The last configuration of an optimum has as many servers as there are units of load. -/
theorem optimum_last (S : Num.Solver) (hE : Spec.SolvesEmpty S) {m : ℤ} {c β : ℚ} (hc : 0 < c) {p : SLO ℤ}
    (h : OneType m c β p) (hT : 1 ≤ p.tEnd) (ys : Schedule ℤ) (y : Config ℤ) (hl : (ys.length : Int) = p.tEnd)
    (hy : ∀ x ∈ ys, Spec.InBox p.bounds x) (hlast : ys.getLast? = some y)
    (hopt : ∃ e, (target S p).toProb.alphaUnfairObjective ys 1 = .ok e ∧
      ∀ zs : Schedule ℤ, (zs.length : Int) = p.tEnd → (∀ z ∈ zs, Spec.InBox p.bounds z) →
        ∃ e', (target S p).toProb.alphaUnfairObjective zs 1 = .ok e' ∧ e.cost ≤ e'.cost)
    (hfin : ∀ e, (target S p).toProb.alphaUnfairObjective ys 1 = .ok e → e.cost ≠ ⊤) :
    y = [p.load.getD (p.tEnd - 1).toNat 0] := by
  obtain ⟨vs, rfl, hvs⟩ := space_line (h.bounds ▸ hy)
  have hvl : vs ≠ [] := by
    rintro rfl
    simp at hl; omega
  obtain ⟨us, v, rfl⟩ : ∃ us v, vs = us ++ [v] := ⟨vs.dropLast, vs.getLast hvl, (List.dropLast_append_getLast hvl).symm⟩
  have hul : (us.length : Int) + 1 = p.tEnd := by simpa using hl
  have hyv : y = [v] := by simpa using hlast.symm
  subst hyv
  set l := p.load.getD (p.tEnd - 1).toNat 0 with hldef
  obtain ⟨out, ho⟩ := target_total S hE h _ hl hy
  have hf := hfin _ ho
  have hcov := loadTotal_cover h _ hf
  have hlv : l ≤ v := by
    have := hcov us.length v (by simp)
    rwa [hldef, show (p.tEnd - 1).toNat = us.length by omega]
  have hl0 : 0 ≤ l := (Offline.access_getD h.valid p.tEnd hT (le_refl _)).2
  rcases eq_or_lt_of_le hlv with e | hlt
  · rw [e]
  · exfalso
    obtain ⟨e, he, hmin⟩ := hopt
    rw [ho] at he
    injection he with he
    have hz : ∀ z ∈ (us ++ [l]).map (fun v => [v]), Spec.InBox p.bounds z := by
      intro z hz
      obtain ⟨u, hu, rfl⟩ := List.mem_map.1 hz
      rw [h.bounds]
      refine .cons ?_ .nil
      rcases List.mem_append.1 hu with hu | hu
      · exact hvs u (List.mem_append_left _ hu)
      · rw [List.mem_singleton] at hu
        subst hu
        have := (hvs v (by simp)).2
        omega
    have hzl : (((us ++ [l]).map (fun v => [v])).length : Int) = p.tEnd := by simpa using hul
    obtain ⟨e', he', hle⟩ := hmin _ hzl hz
    obtain ⟨out', ho'⟩ := target_total S hE h _ hzl hz
    rw [ho'] at he'
    injection he' with he'
    rw [← he, ← he'] at hle
    simp only at hle
    rw [loadTotal_line h _ hcov, loadTotal_line h] at hle
    · have hβ : 0 ≤ β := (h.valid.2.2.2.2.2.2.1 β (by rw [h.switching]; simp)).le
      have := lineCost_last c β hc hβ 0 us l v hlt
      exact absurd (WithTop.coe_le_coe.1 hle) (not_le.2 this)
    · intro i u hu
      rcases Nat.lt_trichotomy i us.length with hi | hi | hi
      · apply hcov i u
        rw [List.getElem?_append_left hi] at hu ⊢
        exact hu
      · subst hi
        simp at hu
        rw [← hu, hldef, show (p.tEnd - 1).toNat = us.length by omega]
      · rw [List.getElem?_eq_none (by simp; omega)] at hu
        simp at hu

/-! ## Playing the algorithm -/

theorem play_one (S : Num.Solver) (hS : Spec.Shaped S) (hE : Spec.SolvesEmpty S) (r : Bool) (gamma : ℚ) (hg : 0 ≤ gamma)
    (m : ℤ) (c β : ℚ) (hc : 0 < c) (hβ : 0 < β) (W : Nat) (hW : W = Spec.keepSlots (if r then gamma else 1) β c)
    (ps : List (SLO ℤ)) (hu : ∀ p ∈ ps, OneType m c β p) (hl : ps.Pairwise Spec.SeenLater) (xs : Schedule ℤ)
    (hs : ∀ (k : Nat) (p : SLO ℤ), ps[k]? = some p → p.tEnd = (xs.length : Int) + (k : Int) + 1) (mo : Option Memory)
    (i : Nat → Nat)
    (hm : ∀ p ps', ps = p :: ps' → ∃ L H, MemInv S (if r then gamma else 1) p xs.length
      (mo.getD (Memory.dflt gamma ⟨p, 0⟩)) L H ∧ (mo.getD (Memory.dflt gamma ⟨p, 0⟩)).gamma = gamma ∧
      ∀ j, Rel W ⌊(if r then gamma else 1) * β / c⌋ xs.length (i j) (L j) (H j)) :
    ∃ mem, Spec.play SLO.tEnd (alg S gamma r) xs mo (ps.map fun p => ⟨p, 0⟩) =
      .ok (xs ++ (rentals W m.toNat i (ps.map fun p => p.load.getD (p.tEnd - 1).toNat 0)).map fun v => [v], mem) := by
  induction ps generalizing xs mo i with
  | nil => exact ⟨mo, by simp [Spec.play, rentals]⟩
  | cons p ps ih =>
    obtain ⟨L, H, I, hγ, hR⟩ := hm p ps rfl
    have h := hu p (by simp)
    have hT := hs 0 p rfl
    simp only [Nat.cast_zero, Int.add_zero] at hT
    have hus := Offline.one_usable hE p h.verified h.d m h.bounds c h.hitting hc h.loads
    obtain ⟨x, m', L', H', e1, e2, e3, e4, e5, e6, ys, y, g1, g2, g3, g4, g5, g6, g7, O, o1, o2, o3⟩ :=
      step S hS r gamma hg p hus xs.length hT _ hγ L H I xs
    rw [List.pairwise_cons] at hl
    set l := p.load.getD (p.tEnd - 1).toNat 0 with hldef
    have hy : y = [l] := optimum_last S hE hc h (by omega) ys y g1 g2 g3 g4 g7
    have hl0 : 0 ≤ l := (Offline.access_getD h.valid p.tEnd (by omega) (le_refl _)).2
    have hO : ∀ j, O j = if (j : ℤ) < l then 1 else 0 := by
      intro j
      have a1 := o1 j 1 (le_refl _)
      have a2 := o1 j 2 (by omega)
      rw [hy] at a1 a2
      simp only [tailSum, Nat.sub_self, List.drop_zero, List.sum_cons, List.sum_nil, add_zero, Nat.add_one_sub_one,
        List.drop_succ_cons, List.drop_nil] at a1 a2
      split <;> omega
    set N := keep p.hittingCost p.switchingCost (if r then gamma else 1) with hNdef
    have hN1 : N 1 = ⌊(if r then gamma else 1) * β / c⌋ := by
      rw [hNdef, keep, h.hitting, h.switching]
      rfl
    have hg' : (0 : ℚ) ≤ if r then gamma else 1 := by split <;> linarith
    have hNn : 0 ≤ N 1 := by
      rw [hN1]
      exact Int.floor_nonneg.2 (div_nonneg (mul_nonneg hg' hβ.le) hc.le)
    have hWN : W = max 1 (N 1).toNat := by rw [hW, hN1]; rfl
    have hR' : ∀ j, Rel W ⌊(if r then gamma else 1) * β / c⌋ ((xs.length : Int) + 1) (idleStep W l i j) (L' j) (H' j) := by
      intro j
      rw [← hN1, o2, o3]
      exact rel_step W N hNn (by simp [hNdef, keep]) hWN _ i L O H l hO j (hN1 ▸ hR j)
    have hsum : p.bounds.sum.toNat = m.toNat := by rw [h.bounds]; simp
    have hx : x = [act W m.toNat (idleStep W l i)] := by
      have hb := e4
      rw [h.bounds] at hb
      obtain ⟨v, rfl, _, _⟩ := Offline.inBox_one hb
      have hlanes := (e3 p ⟨rfl, rfl, rfl, rfl, le_refl _, fun _ _ _ => rfl⟩).lanes
      rw [hlanes, hsum, List.countP_map] at e6
      simp only [List.sum_cons, List.sum_nil, add_zero] at e6
      rw [← e6]
      unfold act
      congr 2
      apply List.countP_congr
      intro j _
      have := hR' j
      unfold Rel at this
      simp only [Function.comp, decide_eq_true_eq]
      omega
    obtain ⟨mem, f1⟩ := ih (fun q hq => hu q (by simp [hq])) hl.2 (xs ++ [x]) (by
      intro k q hq
      have := hs (k + 1) q (by simpa using hq)
      rw [this, List.length_append]
      push_cast
      simp
      omega) (some m') (idleStep W l i) (by
      intro q qs hq
      subst hq
      refine ⟨L', H', ?_, e2, ?_⟩
      · have := e3 q (hl.1 q (by simp))
        simpa using this
      · simpa using hR')
    refine ⟨mem, ?_⟩
    rw [List.map_cons, Spec.play]
    unfold onlineNext OnlineAlgorithm.next
    simp only [Schedule.tEnd, hT, decide_true, assertR, if_true, bind, Except.bind, alg]
    rw [e1]
    simp only [Schedule.extend]
    rw [show (OnlineAlgorithm.mk (Memory.dflt gamma) (lb S r) : OnlineAlgorithm (SLO ℤ) ℤ Memory) = alg S gamma r from rfl,
      f1]
    rw [List.map_cons, ← hldef, rentals, hx]
    simp

/-- Instances with one server type, shown slot by slot. -/
structure ShownOne (m : ℤ) (c β : ℚ) (ps : List (SLO ℤ)) : Prop where
  one : ∀ p ∈ ps, OneType m c β p
  later : ps.Pairwise Spec.SeenLater
  slot : ∀ (k : Nat) (p : SLO ℤ), ps[k]? = some p → p.tEnd = (k : Int) + 1

theorem play_start (S : Num.Solver) (hS : Spec.Shaped S) (hE : Spec.SolvesEmpty S) (r : Bool) (gamma : ℚ) (hg : 0 ≤ gamma)
    (m : ℤ) (c β : ℚ) (hc : 0 < c) (hβ : 0 < β) (ps : List (SLO ℤ)) (h : ShownOne m c β ps) :
    ∃ mem, Spec.play SLO.tEnd (alg S gamma r) [] none (ps.map fun p => ⟨p, 0⟩) =
      .ok ((rentals (Spec.keepSlots (if r then gamma else 1) β c) m.toNat
        (fun _ => Spec.keepSlots (if r then gamma else 1) β c) (ps.map fun p => p.load.getD (p.tEnd - 1).toNat 0)).map
        fun v => [v], mem) := by
  have := play_one S hS hE r gamma hg m c β hc hβ _ rfl ps h.one h.later []
    (fun k p hp => by simpa using h.slot k p hp) none (fun _ => Spec.keepSlots (if r then gamma else 1) β c) (by
      intro p ps' hps
      refine ⟨fun _ => 0, fun _ => 0, ⟨?_, ?_, ⟨?_, ?_, ?_, ?_, ?_⟩, ?_, ?_⟩, rfl, ?_⟩
      · simp [Memory.dflt]
      · simp [Memory.dflt]
      · intros; rfl
      · intros; rfl
      · intros; omega
      · intros; simp [keep]
      · intro i b hb
        have : ((List.range p.bounds.sum.toNat).map fun _ => 0).count (i + 1) = 0 := by
          rw [List.count_eq_zero]
          simp
        rw [this]
        have := (h.one p (by rw [hps]; simp)).valid.2.2.2.2.2.1 b (List.mem_of_getElem? hb)
        push_cast
        omega
      · intro c hc; simp [Memory.dflt] at hc
      · intros; rfl
      · intro j
        right
        exact ⟨rfl, rfl, by simp⟩)
  simpa using this

theorem loads_take (m : ℤ) (c β : ℚ) (ps : List (SLO ℤ)) (h : ShownOne m c β ps) (k : Nat) (p : SLO ℤ)
    (hp : ps[k]? = some p) :
    (ps.map fun p => p.load.getD (p.tEnd - 1).toNat 0).take (k + 1) = p.load.take (k + 1) := by
  have hk : k < ps.length := (List.getElem?_eq_some_iff.1 hp).1
  have hpT := h.slot k p hp
  have hpm : p ∈ ps := List.mem_of_getElem? hp
  have hlen : k + 1 ≤ p.load.length := by
    have := (h.one p hpm).valid.2.2.2.2.1
    omega
  apply List.ext_getElem?
  intro i
  by_cases hi : i < k + 1
  · rw [List.getElem?_take_of_lt hi, List.getElem?_take_of_lt hi, List.getElem?_map,
      List.getElem?_eq_getElem (by omega : i < ps.length)]
    have hq : ps[i]? = some ps[i] := List.getElem?_eq_getElem (by omega)
    have hqT := h.slot i _ hq
    have hqm : ps[i] ∈ ps := List.mem_of_getElem? hq
    have hqv := (h.one _ hqm).valid
    have a1 := Offline.access_getD hqv ps[i].tEnd (by omega) (le_refl _)
    have a2 := Offline.access_getD (h.one p hpm).valid ((i : Int) + 1) (by omega) (by omega)
    have e : access ps[i].load ps[i].tEnd = access p.load ps[i].tEnd := by
      rcases Nat.lt_or_ge i k with hik | hik
      · have hpk : p = ps[k] := by rw [List.getElem?_eq_getElem hk] at hp; exact (Option.some.inj hp).symm
        have := List.pairwise_iff_getElem.1 h.later i k (by omega) hk hik
        have := this.load _ (by omega) (le_refl _)
        simpa only [← hpk] using this
      · have : i = k := by omega
        subst this
        rw [hq] at hp
        injection hp with hp
        rw [hp]
    rw [hqT] at e a1
    rw [e, a2.1] at a1
    have a3 := Option.some.inj a1.1
    simp only [Option.map_some]
    rw [hqT, ← a3, List.getD_eq_getElem _ _ (by omega), List.getElem?_eq_getElem (by omega)]
    congr 2
    omega
  · rw [List.getElem?_eq_none, List.getElem?_eq_none]
    · rw [List.length_take]; omega
    · rw [List.length_take]; omega

/-- **C69** With one server type, lazy budgeting activates in every slot exactly as many servers as the largest load of
the last slots: a server is kept for as many slots as its operating cost does not exceed (γ times, if randomised) its
switching cost, and at least for one. -/
theorem C69_window (S : Num.Solver) (hS : Spec.Shaped S) (hE : Spec.SolvesEmpty S) (randomized : Bool) (gamma : ℚ)
    (hg : 0 ≤ gamma) (m : ℤ) (c β : ℚ) (hc : 0 < c) (ps : List (SLO ℤ)) (h : ShownOne m c β ps) :
    ∃ xs mem, Spec.play SLO.tEnd (alg S gamma randomized) [] none (ps.map fun p => ⟨p, 0⟩) = .ok (xs, mem) ∧
      xs.length = ps.length ∧ ∀ (k : Nat) (p : SLO ℤ), ps[k]? = some p →
        xs[k]? = some [Spec.windowMax (Spec.keepSlots (if randomized then gamma else 1) β c) (p.load.take (k + 1))] := by
  by_cases hne : ps = []
  · subst hne
    exact ⟨[], none, rfl, rfl, by simp⟩
  obtain ⟨q, hq⟩ := List.exists_mem_of_ne_nil ps hne
  have hβ : 0 < β := (h.one q hq).valid.2.2.2.2.2.2.1 β (by rw [(h.one q hq).switching]; simp)
  obtain ⟨mem, h1⟩ := play_start S hS hE randomized gamma hg m c β hc hβ ps h
  refine ⟨_, mem, h1, by simp [rentals_length], ?_⟩
  intro k p hp
  have hk : k < ps.length := (List.getElem?_eq_some_iff.1 hp).1
  have hpm : p ∈ ps := List.mem_of_getElem? hp
  have hpo := h.one p hpm
  have hm0 : 0 < m := hpo.valid.2.2.2.2.2.1 m (by rw [hpo.bounds]; simp)
  rw [List.getElem?_map, rentals_get _ _ _ _ _ (by simpa using hk), loads_take m c β ps h k p hp, act_window]
  · rfl
  · intro l hl
    have := hpo.loads l (List.mem_of_mem_take hl)
    omega

theorem rentals_cover (W m : Nat) (hW : 1 ≤ W) (i : Nat → Nat) (ls : List ℤ) (h : ∀ l ∈ ls, l ≤ m) (k : Nat) (l v : ℤ)
    (hl : ls[k]? = some l) (hv : (rentals W m i ls)[k]? = some v) : l ≤ v := by
  induction ls generalizing i k with
  | nil => simp at hl
  | cons a ls ih =>
    cases k with
    | zero =>
      simp only [rentals, List.getElem?_cons_zero, Option.some.injEq] at hl hv
      rw [← hv, hl]
      exact le_act W m hW l (h l (by simp [hl])) i
    | succ k =>
      exact ih _ (fun l hl => h l (by simp [hl])) k (by simpa using hl) (by simpa [rentals] using hv)

/-- **C69** (partial) With one server type, the deterministic algorithm is 2-competitive: what it has paid at any time is
at most twice what any schedule pays which handles the loads up to then. For `d` server types the documentation claims
the ratio `2 d`, which fails for two types, see `C69_two_types_counterexample`. -/
theorem C69_two_competitive_partial (S : Num.Solver) (hS : Spec.Shaped S) (hE : Spec.SolvesEmpty S) (gamma : ℚ)
    (hg : 0 ≤ gamma) (m : ℤ) (c β : ℚ) (hc : 0 < c) (ps : List (SLO ℤ)) (h : ShownOne m c β ps) (p : SLO ℤ)
    (hp : ps.getLast? = some p) :
    ∃ xs mem, Spec.play SLO.tEnd (alg S gamma false) [] none (ps.map fun p => ⟨p, 0⟩) = .ok (xs, mem) ∧
      Spec.InSpace p.tEnd p.bounds xs ∧ Spec.loadTotal p xs ≠ ⊤ ∧
      ∀ zs, Spec.InSpace p.tEnd p.bounds zs → Spec.loadTotal p xs ≤ Spec.loadTotal p zs + Spec.loadTotal p zs := by
  have hpm : p ∈ ps := List.mem_of_getLast? hp
  have hpo := h.one p hpm
  have hβ : 0 < β := hpo.valid.2.2.2.2.2.2.1 β (by rw [hpo.switching]; simp)
  have hm0 : 0 < m := hpo.valid.2.2.2.2.2.1 m (by rw [hpo.bounds]; simp)
  have hps : ps.length ≠ 0 := by
    intro e
    rw [List.length_eq_zero_iff] at e
    subst e
    simp at hpm
  have hpk : ps[ps.length - 1]? = some p := by rwa [List.getLast?_eq_getElem?] at hp
  have hpT := h.slot _ p hpk
  have hlen : ps.length ≤ p.load.length := by
    have := hpo.valid.2.2.2.2.1
    omega
  set ls := p.load.take ps.length with hls
  have hlsl : ls.length = ps.length := by rw [hls, List.length_take]; omega
  have hlsD : ∀ i, i < ps.length → p.load.getD i 0 = ls.getD i 0 := by
    intro i hi
    rw [List.getD_eq_getElem _ _ (by omega), List.getD_eq_getElem _ _ (by omega)]
    simp [hls]
  have hld : (ps.map fun p => p.load.getD (p.tEnd - 1).toNat 0) = ls := by
    have := loads_take m c β ps h _ p hpk
    rwa [show ps.length - 1 + 1 = ps.length by omega, List.take_of_length_le (by simp)] at this
  obtain ⟨mem, h1⟩ := play_start S hS hE false gamma hg m c β hc hβ ps h
  rw [hld] at h1
  simp only [Bool.false_eq_true, if_false] at h1
  set W := Spec.keepSlots 1 β c with hW
  have hW1 : 1 ≤ W := by rw [hW]; unfold Spec.keepSlots; omega
  have hfl : (0 : ℤ) ≤ ⌊1 * β / c⌋ := Int.floor_nonneg.2 (div_nonneg (by linarith) hc.le)
  have hloads : ∀ l ∈ ls, l ≤ (m.toNat : ℤ) := fun l hl => by have := hpo.loads l (List.mem_of_mem_take hl); omega
  set vs := rentals W m.toNat (fun _ => W) ls with hvs
  have hcov : ∀ (i : Nat) v, vs[i]? = some v → p.load.getD i 0 ≤ v := by
    intro i v hv
    have hi : i < ls.length := by
      rw [← rentals_length W m.toNat (fun _ => W) ls]
      exact (List.getElem?_eq_some_iff.1 hv).1
    rw [hlsD i (by omega)]
    exact rentals_cover W m.toNat hW1 _ ls hloads i _ v
      (by rw [List.getD_eq_getElem _ _ hi, List.getElem?_eq_getElem hi]) hv
  have hval := loadTotal_line hpo vs hcov
  refine ⟨_, mem, h1, ⟨?_, ?_⟩, ?_, ?_⟩
  · rw [List.length_map, rentals_length]
    omega
  · intro x hx
    obtain ⟨v, hv, rfl⟩ := List.mem_map.1 hx
    obtain ⟨i, hi⟩ := List.getElem?_of_mem hv
    have hil : i < ls.length := by
      rw [← rentals_length W m.toNat (fun _ => W) ls]
      exact (List.getElem?_eq_some_iff.1 hi).1
    rw [hvs, rentals_get _ _ _ _ _ hil] at hi
    injection hi with hi
    rw [hpo.bounds, ← hi]
    refine .cons ⟨act_nonneg _ _ _, ?_⟩ .nil
    have := act_le W m.toNat (idleAfter W (ls.take (i + 1)) fun _ => W)
    omega
  · rw [hval]; exact WithTop.coe_ne_top
  · intro zs hz
    by_cases ht : Spec.loadTotal p zs = ⊤
    · rw [ht]; simp
    obtain ⟨us, rfl, hus⟩ := space_line (hpo.bounds ▸ hz.2)
    have hcu := loadTotal_cover hpo us ht
    rw [hval, loadTotal_line hpo us hcu, ← WithTop.coe_add, WithTop.coe_le_coe]
    have hul : us.length = ls.length := by
      have := hz.1
      rw [List.length_map] at this
      omega
    have hF : List.Forall₂ (fun (l y : ℤ) => l ≤ y ∧ 0 ≤ y ∧ y ≤ (m.toNat : ℤ)) ls us := by
      rw [List.forall₂_iff_get]
      refine ⟨hul.symm, fun i a b => ?_⟩
      simp only [List.get_eq_getElem]
      have h3 := hcu i us[i] (List.getElem?_eq_getElem b)
      rw [hlsD i (by omega), List.getD_eq_getElem _ _ a] at h3
      have h4 := hus us[i] (List.getElem_mem b)
      exact ⟨h3, h4.1, by omega⟩
    have hfloor := Int.floor_le (1 * β / c)
    have hfloor' := Int.lt_floor_add_one (1 * β / c)
    have hcast : ((⌊1 * β / c⌋.toNat : Nat) : ℚ) = ((⌊1 * β / c⌋ : ℤ) : ℚ) := by
      have : ((⌊1 * β / c⌋.toNat : Nat) : ℤ) = ⌊1 * β / c⌋ := Int.toNat_of_nonneg hfl
      exact_mod_cast congrArg (fun z : ℤ => (z : ℚ)) this
    have hWge : ((⌊1 * β / c⌋ : ℤ) : ℚ) ≤ W := by
      rw [← hcast]
      have : ⌊1 * β / c⌋.toNat ≤ W := by rw [hW]; unfold Spec.keepSlots; omega
      exact_mod_cast this
    have key := rental_le W m.toNat hW1 c β hc hβ (by
        by_cases h1 : W = 1
        · exact Or.inr h1
        · left
          have : W = ⌊1 * β / c⌋.toNat := by
            have h2 : W = max 1 ⌊1 * β / c⌋.toNat := hW
            omega
          have e : (W : ℚ) = ((⌊1 * β / c⌋ : ℤ) : ℚ) := by rw [this]; exact hcast
          rw [e, ← le_div_iff₀ hc]
          simpa using hfloor) (by
        rw [← div_le_iff₀ hc]
        have : β / c = 1 * β / c := by rw [one_mul]
        rw [this]
        linarith) ls us hF (fun _ => W) (fun _ => le_refl _) 0 (le_refl _) (by omega)
    have ha : act W m.toNat (fun _ => W) = 0 := by
      unfold act
      simp
    have hphi : ∑ j ∈ Finset.range m.toNat, phi W c W (decide ((j : ℤ) < 0)) = 0 := by
      apply Finset.sum_eq_zero
      intro j _
      unfold phi
      rw [if_neg (by omega), decide_eq_false (by omega)]
      rfl
    rw [ha, hphi, add_zero] at key
    linarith

/-! ## The hypotheses are met -/

/-- One server type in slot `t` of four. -/
def rented (t : Nat) : SLO ℤ where
  d := 1
  tEnd := t
  bounds := [3]
  switchingCost := [2]
  hittingCost := [1]
  load := [3, 0, 1, 0].take t

theorem rented_ok : ShownOne 3 1 2 [rented 1, rented 2, rented 3, rented 4] := by
  refine ⟨?_, ?_, ?_⟩
  · intro p hp
    simp only [List.mem_cons, List.not_mem_nil, or_false] at hp
    rcases hp with rfl | rfl | rfl | rfl <;> exact ⟨by decide +kernel, rfl, rfl, rfl, rfl, by decide⟩
  · have hl : ∀ a b, a ≤ b → b ≤ 4 → Spec.SeenLater (rented a) (rented b) := by
      intro a b hab hb
      refine ⟨rfl, rfl, rfl, rfl, by simpa [rented] using hab, ?_⟩
      intro t h1 h2
      have h2' : t ≤ a := h2
      unfold access
      have e : ∀ n, n ≤ 4 → (rented n).load.length = n := by
        intro n hn
        simp [rented]; omega
      rw [e a (by omega), e b hb, if_pos ⟨h1, h2'⟩, if_pos ⟨h1, by omega⟩]
      simp only [rented]
      rw [List.getElem?_take_of_lt (by omega), List.getElem?_take_of_lt (by omega)]
    simp only [List.pairwise_cons, List.mem_cons, List.not_mem_nil, or_false, false_imp_iff, implies_true, List.Pairwise.nil,
      and_true, forall_eq_or_imp, forall_eq]
    refine ⟨⟨?_, ?_, ?_⟩, ⟨?_, ?_⟩, ?_⟩ <;> exact hl _ _ (by decide) (by decide)
  · intro k p hp
    match k, hp with
    | 0, hp => simp at hp; subst hp; rfl
    | 1, hp => simp at hp; subst hp; rfl
    | 2, hp => simp at hp; subst hp; rfl
    | 3, hp => simp at hp; subst hp; rfl
    | k + 4, hp => simp at hp

theorem lazySolver_ok : Spec.Shaped Offline.lazySolver ∧ Spec.SolvesEmpty Offline.lazySolver :=
  ⟨fun _ _ _ _ _ => by simp [Offline.lazySolver], fun _ _ _ => ⟨by simp [Offline.lazySolver], rfl, rfl⟩⟩

example := C69_window Offline.lazySolver lazySolver_ok.1 lazySolver_ok.2 false 1 (by decide) 3 1 2 (by decide) _ rented_ok

example := C69_two_competitive_partial Offline.lazySolver lazySolver_ok.1 lazySolver_ok.2 1 (by decide) 3 1 2 (by decide) _
  rented_ok (rented 4) rfl

example : (Spec.play SLO.tEnd (alg Offline.lazySolver 1 false) [] none
    ([rented 1, rented 2, rented 3, rented 4].map fun p => ⟨p, 0⟩)).toOption.map (·.1) =
    some [[3], [3], [1], [1]] := by decide +kernel

end Lb
end Soco
