import Verif.Props.RobdRatio
import Mathlib.Algebra.Order.Archimedean.Basic

/-! # C79, C80: competitive ratios of primal and greedy balanced descent -/

namespace Soco
namespace Spec

/-- Movement costs that are a metric on configurations with `d` entries. -/
structure Metric (d : Nat) (mv : Config ℚ → ℚ) : Prop where
  nonneg : ∀ x : Config ℚ, x.length = d → 0 ≤ mv x
  zero : ∀ x : Config ℚ, x.length = d → mv (List.zipWith (· - ·) x x) = 0
  definite : ∀ x y : Config ℚ, x.length = d → y.length = d → mv (List.zipWith (· - ·) x y) = 0 → x = y
  symm : ∀ x y : Config ℚ, x.length = d → y.length = d → mv (List.zipWith (· - ·) x y) = mv (List.zipWith (· - ·) y x)
  triangle : ∀ x y z : Config ℚ, x.length = d → y.length = d → z.length = d →
    mv (List.zipWith (· - ·) x z) ≤ mv (List.zipWith (· - ·) x y) + mv (List.zipWith (· - ·) y z)

/-- Non-negative hitting costs which grow by at least `α` times the movement cost away from their minimiser, that is: they are
`α`-polyhedral if the movement cost is a norm, and `α`-quasiconvex if it is half the squared distance. -/
def GrowsBy (box : List (ℚ × ℚ)) (α : ℚ) (mv : Config ℚ → ℚ) (hit : Config ℚ → ECost) : Prop :=
  ∃ (v : Config ℚ) (a : ℚ), GridPoint box v ∧ hit v = ((a : ℚ) : ECost) ∧ 0 ≤ a ∧
    ∀ y, GridPoint box y → (((a + α * mv (List.zipWith (· - ·) y v) : ℚ)) : ECost) ≤ hit y

/-- Half the squared Euclidean norm. -/
def halfSquare (x : Config ℚ) : ℚ := 1 / 2 * (x.map (· ^ 2)).sum

end Spec

namespace Descent
open Spec Num

section
variable {C D : Type} [OutSuccess C] [OutFailure D]

/-- If the minimiser of the hitting cost is unique and close enough, primal balanced descent moves there. -/
theorem pobd_follows (S : Solver) (hS : Inner S) (hE : Exact S) (B : Brent) (o : Online (SCO ℚ C D)) (hw : o.w = 0)
    (xs : Schedule ℚ) (hxs : ∀ x ∈ xs, x.length = o.p.bounds.length) (hit : Config ℚ → ECost) (mv : Config ℚ → ℚ)
    (hp : Slot o.p (xs.length + 1) hit mv) (ε : ℚ) (h : Config ℚ → Res ℚ) (H : Config ℚ → ℚ)
    (hh : ∀ x : Config ℚ, x.length = o.p.bounds.length → h x = .ok (H x)) (β : ℚ) (hβ : 0 < β) (v : Config ℚ) (a : ℚ)
    (hv : GridPoint o.p.bounds v) (ha : hit v = ((a : ℚ) : ECost)) (ha0 : 0 ≤ a)
    (hu : ∀ y, GridPoint o.p.bounds y → hit y ≤ ((a : ℚ) : ECost) → y = v)
    (hm : mv (List.zipWith (· - ·) v (latest o.p.bounds.length xs)) < 10) :
    (pobd S B ε h β).next o xs none = .ok (v, none) := by
  obtain ⟨v', a', hv', hvg', -, hva, hvb⟩ := hittingMinimizer_ok hS hp
  have : v' = v := hu v' hvg' (by rw [← ha]; exact hvb hE v hv)
  subst this
  have := hva hE.done
  rw [ha] at this
  subst this
  have hprl : (latest o.p.bounds.length xs).length = o.p.bounds.length := latest_length _ _ hxs
  have hsub : ∀ x : Config ℚ, x.length = o.p.bounds.length →
      o.p.switchingCost (Config.sub x (latest o.p.bounds.length xs)) = .ok (mv (Config.sub x (latest o.p.bounds.length xs))) := by
    intro x hx
    apply hp.moves
    simp [Config.sub, hx, hprl]
  have hmv := hsub v' (inBoxQ_length hv.1)
  obtain ⟨b, hb⟩ := hitCost_total hp (latest o.p.bounds.length xs) hprl
  have hobd := fun l : ℚ => C50_obd S hS o hw xs hxs hit mv hp ε h H hh l
  have hobda : (obd S ε h ((a : ℚ) : ECost)).next o xs none = .ok (v', none) := by
    obtain ⟨x, h1, h2, -, h4, -⟩ := hobd a
    have := (h4 hE ⟨v', hv, ha.le⟩).1
    rw [h1, hu x h2 this]
  have e : (pobd S B ε h β).next o xs none = (pobd S B ε h β).call o (xs.length + 1) xs () := rfl
  rw [e]
  simp only [pobd, hw, assertR, decide_true, if_true, bind, Except.bind, hv', hmv, prevX_eq o.p hp.dim]
  change (if mv (Config.sub v' (latest o.p.bounds.length xs)) ≤ β * a then _ else _) = _
  by_cases hle : mv (Config.sub v' (latest o.p.bounds.length xs)) ≤ β * a
  · rw [if_pos hle]
  rw [if_neg hle]
  obtain ⟨x1, hx1, hx1g, -⟩ := hobd (upperLevel a b.cost)
  have hroot : findRoot B a (upperLevel a b.cost) (fun l : ℚ => do
      let x ← (obd S ε h ((l : ℚ) : ECost)).next o xs none
      let m ← o.p.switchingCost (Config.sub x.1 (latest o.p.bounds.length xs))
      .ok (((m - β * l : ℚ) : WithTop ℚ) : Slack)) = .ok a := by
    unfold findRoot
    split
    · rfl
    simp only [hobda, hx1, bind, Except.bind, hmv, hsub x1 (inBoxQ_length hx1g.1)]
    have : Slack.abs (((mv (Config.sub v' (latest o.p.bounds.length xs)) - β * a : ℚ) : WithTop ℚ) : Slack) <
        ((rootPrecision : ℚ) : ECost) := by
      show ((|mv (Config.sub v' (latest o.p.bounds.length xs)) - β * a| : ℚ) : ECost) < _
      rw [WithTop.coe_lt_coe, abs_of_pos (by linarith)]
      have h10 : rootPrecision = 10 := by norm_num [rootPrecision, precision]
      rw [h10]
      have : 0 ≤ β * a := by positivity
      have hm' : mv (Config.sub v' (latest o.p.bounds.length xs)) < 10 := hm
      linarith
    exact if_pos this
  simp only [bind, Except.bind] at hroot
  simp only [hb, hroot, hobda]

/-- The same for greedy balanced descent. -/
theorem gobd_follows (S : Solver) (hS : Inner S) (hE : Exact S) (B : Brent) (o : Online (SCO ℚ C D)) (hw : o.w = 0)
    (xs : Schedule ℚ) (hxs : ∀ x ∈ xs, x.length = o.p.bounds.length) (hit : Config ℚ → ECost) (mv : Config ℚ → ℚ)
    (hp : Slot o.p (xs.length + 1) hit mv) (ε : ℚ) (h : Config ℚ → Res ℚ) (H : Config ℚ → ℚ)
    (hh : ∀ x : Config ℚ, x.length = o.p.bounds.length → h x = .ok (H x)) (c γ : ℚ) (hγ : 0 < γ) (v : Config ℚ) (a : ℚ)
    (hv : GridPoint o.p.bounds v) (ha : hit v = ((a : ℚ) : ECost)) (ha0 : 0 ≤ a)
    (hu : ∀ y, GridPoint o.p.bounds y → hit y ≤ ((a : ℚ) : ECost) → y = v)
    (hm : mv (List.zipWith (· - ·) v (latest o.p.bounds.length xs)) < 10) :
    (gobd S B ε h c γ).next o xs none = .ok (v, none) := by
  have hpo := pobd_follows S hS hE B o hw xs hxs hit mv hp ε h H hh γ hγ v a hv ha ha0 hu hm
  obtain ⟨v', a', hv', hvg', -, hva, hvb⟩ := hittingMinimizer_ok hS hp
  have : v' = v := hu v' hvg' (by rw [← ha]; exact hvb hE v hv)
  subst this
  have e : (gobd S B ε h c γ).next o xs none = (gobd S B ε h c γ).call o (xs.length + 1) xs () := rfl
  rw [e]
  simp only [gobd, hw, assertR, decide_true, if_true, bind, Except.bind, hv', hpo]
  split
  · rfl
  · have : Config.add (Config.smul c v') (Config.smul (1 - c) v') = v' := by
      clear * -
      simp only [Config.add, Config.smul]
      induction v' with
      | nil => rfl
      | cons x v ih =>
        simp only [List.map_cons, List.zipWith_cons_cons, ih]
        congr 1
        ring
    rw [this]

/-- The cost of following the minimisers. -/
theorem follow_run (A : OnlineAlgorithm (SCO ℚ C D) ℚ Unit) (box : List (ℚ × ℚ)) (α κ R : ℚ) (mv : Config ℚ → ℚ)
    (hmv : ∀ x : Config ℚ, x.length = box.length → 0 ≤ mv x) (hα : 0 < α) (hR : 1 ≤ R) (hκR : κ ≤ R) (hR2 : 2 * κ ≤ R * α) (hκ : 0 ≤ κ)
    (hmet : ∀ v y q p : Config ℚ, v.length = box.length → y.length = box.length → q.length = box.length → p.length = box.length →
      mv (List.zipWith (· - ·) v p) ≤
        κ * (mv (List.zipWith (· - ·) y v) + mv (List.zipWith (· - ·) y q) + mv (List.zipWith (· - ·) q p)))
    (hit : Int → Config ℚ → ECost) (hg : ∀ t, GrowsBy box α mv (hit t)) :
    ∀ (os : List (Online (SCO ℚ C D))) (xs : Schedule ℚ) (mem : Option Unit) (ys : Schedule ℚ) (k : Option Unit),
      Run (fun p : SCO ℚ C D => p.tEnd) A xs mem os ys k →
      (∀ (i : Nat) o (xs' : Schedule ℚ), os[i]? = some o → xs'.length = xs.length + i → (∀ x ∈ xs', x.length = box.length) →
        (∀ x, xs'.getLast? = some x → GridPoint box x) →
        ∀ v a, GridPoint box v → hit ((xs.length + i + 1 : Nat) : Int) v = ((a : ℚ) : ECost) → 0 ≤ a →
        (∀ y, GridPoint box y → (((a + α * mv (List.zipWith (· - ·) y v) : ℚ)) : ECost) ≤ hit ((xs.length + i + 1 : Nat) : Int) y) →
        A.call o ((xs.length + i + 1 : Nat) : Int) xs' () = .ok (v, none)) →
      (∀ x ∈ xs, x.length = box.length) → (∀ x, xs.getLast? = some x → GridPoint box x) →
      ∀ (q : Config ℚ) (zs : Schedule ℚ), q.length = box.length → zs.length = os.length → (∀ z ∈ zs, GridPoint box z) →
      ∀ c : ℚ, totalCost hit (fun a b : Config ℚ => mv (List.zipWith (· - ·) b a)) 1 ((xs.length + 1 : Nat) : Int) q zs = (c : ECost) →
      ∃ (ws : Schedule ℚ) (b : ℚ), ys = xs ++ ws ∧
        totalCost hit (fun a b : Config ℚ => mv (List.zipWith (· - ·) b a)) 1 ((xs.length + 1 : Nat) : Int)
          (latest box.length xs) ws = (b : ECost) ∧
        b ≤ R * c + κ * mv (List.zipWith (· - ·) q (latest box.length xs)) := by
  intro os
  induction os with
  | nil =>
    intro xs mem ys k hr _ hxs _ q zs hq hl _ c hc
    cases hr
    rw [List.length_eq_zero_iff.1 hl] at hc
    have : c = 0 := by
      simp only [totalCost] at hc
      exact (WithTop.coe_eq_coe.1 hc).symm
    subst this
    refine ⟨[], 0, by simp, rfl, ?_⟩
    have := hmv (List.zipWith (· - ·) q (latest box.length xs)) (by simp [hq, latest_length _ _ hxs])
    have := mul_nonneg hκ this
    linarith
  | cons o os ih =>
    intro xs mem ys k hr h hxs hlast q zs hq hl hzs c hc
    cases zs with
    | nil => simp at hl
    | cons z zs =>
      cases hr with
      | step _ _ _ _ x mem' _ _ slot dec rest =>
        obtain ⟨v, a, hv, ha, ha0, hgr⟩ := hg ((xs.length + 0 + 1 : Nat) : Int)
        have hcall := h 0 o xs rfl rfl hxs hlast v a hv ha ha0 hgr
        have hc' : ((xs.length + 0 + 1 : Nat) : Int) = (xs.length : Int) + 1 := by push_cast; ring
        rw [hc'] at hcall
        have hd : (mem.getD (A.default o)) = () := rfl
        rw [hd, hcall] at dec
        simp only [Except.ok.injEq, Prod.mk.injEq] at dec
        obtain ⟨d1, d2⟩ := dec
        subst d1 d2
        have hzg := hzs z (by simp)
        have e2 : ((xs.length + 1 : Nat) : Int) = (xs.length : Int) + 1 := by push_cast; ring
        have e1 : (((xs ++ [v]).length + 1 : Nat) : Int) = (xs.length : Int) + 1 + 1 := by simp
        simp only [totalCost] at hc
        rw [e2] at hc
        obtain ⟨f, hf⟩ : ∃ f : ℚ, hit ((xs.length : Int) + 1) z = (f : ECost) := by
          cases hz : hit ((xs.length : Int) + 1) z using WithTop.recTopCoe with
          | top => rw [hz] at hc; simp at hc
          | coe f => exact ⟨f, rfl⟩
        obtain ⟨c', hc''⟩ : ∃ c' : ℚ, totalCost hit (fun a b : Config ℚ => mv (List.zipWith (· - ·) b a)) 1
            ((xs.length : Int) + 1 + 1) z zs = (c' : ECost) := by
          cases hz : totalCost hit (fun a b : Config ℚ => mv (List.zipWith (· - ·) b a)) 1 ((xs.length : Int) + 1 + 1) z zs
            using WithTop.recTopCoe with
          | top => rw [hz] at hc; simp at hc
          | coe f => exact ⟨f, rfl⟩
        rw [hf, hc'', ← WithTop.coe_add, ← WithTop.coe_add, WithTop.coe_eq_coe] at hc
        obtain ⟨ws, b, w1, w2, w3⟩ := ih (xs ++ [v]) none ys k rest (by
            intro i o' xs' ho hl'
            have := h (i + 1) o' xs' ho (by simp at hl'; omega)
            simp only [List.length_append, List.length_singleton]
            rwa [show xs.length + 1 + i + 1 = xs.length + (i + 1) + 1 by ring]) (by
            intro y hy
            rcases List.mem_append.1 hy with hy | hy
            · exact hxs y hy
            · rw [List.mem_singleton.1 hy]; exact inBoxQ_length hv.1) (by
            intro y hy
            simp at hy
            rwa [← hy]) z zs (inBoxQ_length hzg.1) (by simpa using hl) (fun y hy => hzs y (by simp [hy])) c' (by rw [e1]; exact hc'')
        have hlv : latest box.length (xs ++ [v]) = v := by simp [latest]
        rw [hlv] at w2 w3
        rw [e1] at w2
        refine ⟨v :: ws, a + 1 * mv (List.zipWith (· - ·) v (latest box.length xs)) + b, by rw [w1]; simp, ?_, ?_⟩
        · simp only [totalCost]
          rw [e2, w2, WithTop.coe_add, WithTop.coe_add, ← ha, hc']
        · have hzf := hgr z hzg
          rw [hc', hf, WithTop.coe_le_coe] at hzf
          have hlp := latest_length _ _ hxs
          have ht := hmet v z q (latest box.length xs) (inBoxQ_length hv.1) (inBoxQ_length hzg.1) hq hlp
          have n1 := hmv (List.zipWith (· - ·) z v) (by simp [inBoxQ_length hv.1, inBoxQ_length hzg.1])
          have n2 := hmv (List.zipWith (· - ·) z q) (by simp [hq, inBoxQ_length hzg.1])
          have k1 := mul_le_mul_of_nonneg_left hzf (by linarith : (0 : ℚ) ≤ R)
          have k2 := mul_le_mul_of_nonneg_right hR2 n1
          have k3 := mul_le_mul_of_nonneg_right hκR n2
          have k4 := mul_le_mul_of_nonneg_right hR ha0
          rw [← hc]
          linarith

/-- Configurations of the right length are those of the box. -/
theorem grow_unique {box : List (ℚ × ℚ)} {α : ℚ} {mv : Config ℚ → ℚ} (hα : 0 < α)
    (hn : ∀ x : Config ℚ, x.length = box.length → 0 ≤ mv x)
    (hd : ∀ x y : Config ℚ, x.length = box.length → y.length = box.length → mv (List.zipWith (· - ·) x y) = 0 → x = y)
    {hit : Config ℚ → ECost} {v : Config ℚ} {a : ℚ} (hv : GridPoint box v)
    (hg : ∀ y, GridPoint box y → (((a + α * mv (List.zipWith (· - ·) y v) : ℚ)) : ECost) ≤ hit y) (y : Config ℚ)
    (hy : GridPoint box y) (hle : hit y ≤ ((a : ℚ) : ECost)) : y = v := by
  have h1 := (hg y hy).trans hle
  rw [WithTop.coe_le_coe] at h1
  have h2 := hn (List.zipWith (· - ·) y v) (by simp [inBoxQ_length hv.1, inBoxQ_length hy.1])
  apply hd y v (inBoxQ_length hy.1) (inBoxQ_length hv.1)
  have : α * mv (List.zipWith (· - ·) y v) ≤ 0 := by linarith
  have : mv (List.zipWith (· - ·) y v) ≤ 0 := by
    by_contra hh
    push Not at hh
    have := mul_pos hα hh
    linarith
  linarith

/-- **C79** (partial). If no move in the decision space costs 10 or more, then for locally `α`-polyhedral hitting costs primal
balanced descent pays at most `R` times the cost of any other schedule whenever `R ≥ 1` and `R ≥ 2 / α`. Missing: moves that cost
10 or more, where it is false (`C79_distance_counterexample`). -/
theorem C79_polyhedral_partial (S : Solver) (hS : Inner S) (hE : Exact S) (B : Brent) (box : List (ℚ × ℚ)) (ε : ℚ)
    (h : Config ℚ → Res ℚ) (H : Config ℚ → ℚ) (hh : ∀ x : Config ℚ, x.length = box.length → h x = .ok (H x)) (β : ℚ) (hβ : 0 < β)
    (α R : ℚ) (hα : 0 < α) (hR : 1 ≤ R) (hR2 : 2 / α ≤ R) (mv : Config ℚ → ℚ) (hmv : Metric box.length mv)
    (hclose : ∀ x y, GridPoint box y → GridPoint box x ∨ x = List.replicate box.length 0 → mv (List.zipWith (· - ·) y x) < 10)
    (hit : Int → Config ℚ → ECost) (hg : ∀ t, GrowsBy box α mv (hit t)) (os : List (Online (SCO ℚ C D)))
    (ho : ∀ (i : Nat) o, os[i]? = some o → o.w = 0 ∧ o.p.bounds = box ∧
      Slot o.p ((i + 1 : Nat) : Int) (hit ((i + 1 : Nat) : Int)) mv)
    (ys : Schedule ℚ) (k : Option Unit) (hr : Run (fun p : SCO ℚ C D => p.tEnd) (pobd S B ε h β) [] none os ys k)
    (zs : Schedule ℚ) (hzl : zs.length = os.length) (hzs : ∀ z ∈ zs, GridPoint box z) (c : ℚ)
    (hc : totalCost hit (fun a b : Config ℚ => mv (List.zipWith (· - ·) b a)) 1 1 (List.replicate box.length 0) zs = (c : ECost)) :
    ∃ b : ℚ, totalCost hit (fun a b : Config ℚ => mv (List.zipWith (· - ·) b a)) 1 1 (List.replicate box.length 0) ys = (b : ECost) ∧
      b ≤ R * c := by
  obtain ⟨ws, b, w1, w2, w3⟩ := follow_run (pobd S B ε h β) box α 1 R mv hmv.nonneg hα hR hR (by rw [div_le_iff₀ hα] at hR2; linarith)
    zero_le_one (by
      intro v y q p hv hy hq hp
      have t1 := hmv.triangle v y p hv hy hp
      have t2 := hmv.triangle y q p hy hq hp
      have t3 := hmv.symm v y hv hy
      rw [t3] at t1
      linarith) hit hg os [] none ys k hr (by
      intro i o xs' hi hl hlen hlast v a hv ha ha0 hgr
      obtain ⟨o1, o2, o3⟩ := ho i o hi
      simp only [List.length_nil, zero_add] at hl ha hgr ⊢
      subst o2
      have e : ((i + 1 : Nat) : Int) = (xs'.length : Int) + 1 := by rw [hl]; push_cast; ring
      rw [e] at o3 ha hgr ⊢
      have := pobd_follows S hS hE B o o1 xs' hlen (hit ((xs'.length : Int) + 1)) mv o3 ε h H hh β hβ v a hv ha ha0
        (grow_unique hα hmv.nonneg hmv.definite hv hgr) (hclose _ v hv (by
          rcases List.eq_nil_or_concat xs' with e | ⟨l, x, e⟩
          · subst e; exact Or.inr rfl
          · left
            subst e
            have := hlast x (by simp)
            simpa [latest] using this))
      exact this) (by simp) (by simp) (List.replicate box.length 0) zs (by simp) hzl hzs c (by simpa using hc)
  rw [List.nil_append] at w1
  subst w1
  have hlat : latest box.length [] = List.replicate box.length 0 := rfl
  rw [hlat] at w2 w3
  refine ⟨b, by simpa using w2, ?_⟩
  rw [hmv.zero _ (by simp)] at w3
  linarith

theorem halfSquare_nonneg (x : Config ℚ) : 0 ≤ halfSquare x := by
  unfold halfSquare
  have : 0 ≤ (x.map (· ^ 2)).sum := by
    apply List.sum_nonneg
    intro y hy
    obtain ⟨z, -, rfl⟩ := List.mem_map.1 hy
    positivity
  positivity

theorem halfSquare_cons (a b : ℚ) (x y : Config ℚ) :
    halfSquare (List.zipWith (· - ·) (a :: x) (b :: y)) = 1 / 2 * (a - b) ^ 2 + halfSquare (List.zipWith (· - ·) x y) := by
  simp only [halfSquare, List.zipWith_cons_cons, List.map_cons, List.sum_cons]
  ring

theorem halfSquare_definite : ∀ (x y : Config ℚ), x.length = y.length → halfSquare (List.zipWith (· - ·) x y) = 0 → x = y
  | [], [], _, _ => rfl
  | a :: x, b :: y, hl, h => by
    rw [halfSquare_cons] at h
    have h1 := halfSquare_nonneg (List.zipWith (· - ·) x y)
    have h2 : 0 ≤ 1 / 2 * (a - b) ^ 2 := by positivity
    have h3 : (a - b) ^ 2 = 0 := by linarith
    have h4 : a - b = 0 := by simpa using h3
    rw [halfSquare_definite x y (by simpa using hl) (by linarith), show a = b by linarith]

theorem halfSquare_three : ∀ (d : Nat) (v y q p : Config ℚ), v.length = d → y.length = d → q.length = d → p.length = d →
    halfSquare (List.zipWith (· - ·) v p) ≤ 3 * (halfSquare (List.zipWith (· - ·) y v) + halfSquare (List.zipWith (· - ·) y q) +
      halfSquare (List.zipWith (· - ·) q p))
  | 0, [], [], [], [], _, _, _, _ => by simp [halfSquare]
  | d + 1, a :: v, b :: y, c :: q, e :: p, h1, h2, h3, h4 => by
    simp only [halfSquare_cons]
    have := halfSquare_three d v y q p (by simpa using h1) (by simpa using h2) (by simpa using h3) (by simpa using h4)
    nlinarith [sq_nonneg ((a - b) - (b - c)), sq_nonneg ((a - b) - (c - e)), sq_nonneg ((b - c) - (c - e))]

/-- **C80** (partial). Movement costs half the squared distance. If no move in the decision space costs 10 or more, then for
`m`-quasiconvex hitting costs greedy balanced descent pays at most `R` times the cost of any other schedule whenever `R ≥ 3` and
`R ≥ 6 / m`. Missing: the documented ratio of the order of `1 / √m`, which is false (`C80_ratio_counterexample`). -/
theorem C80_quasiconvex_partial (S : Solver) (hS : Inner S) (hE : Exact S) (B : Brent) (box : List (ℚ × ℚ)) (ε : ℚ)
    (h : Config ℚ → Res ℚ) (H : Config ℚ → ℚ) (hh : ∀ x : Config ℚ, x.length = box.length → h x = .ok (H x)) (μ γ : ℚ) (hγ : 0 < γ)
    (m R : ℚ) (hm : 0 < m) (hR : 3 ≤ R) (hR2 : 6 / m ≤ R)
    (hclose : ∀ x y, GridPoint box y → GridPoint box x ∨ x = List.replicate box.length 0 →
      halfSquare (List.zipWith (· - ·) y x) < 10)
    (hit : Int → Config ℚ → ECost) (hg : ∀ t, GrowsBy box m halfSquare (hit t)) (os : List (Online (SCO ℚ C D)))
    (ho : ∀ (i : Nat) o, os[i]? = some o → o.w = 0 ∧ o.p.bounds = box ∧
      Slot o.p ((i + 1 : Nat) : Int) (hit ((i + 1 : Nat) : Int)) halfSquare)
    (ys : Schedule ℚ) (k : Option Unit) (hr : Run (fun p : SCO ℚ C D => p.tEnd) (gobd S B ε h μ γ) [] none os ys k)
    (zs : Schedule ℚ) (hzl : zs.length = os.length) (hzs : ∀ z ∈ zs, GridPoint box z) (c : ℚ)
    (hc : totalCost hit (fun a b : Config ℚ => halfSquare (List.zipWith (· - ·) b a)) 1 1 (List.replicate box.length 0) zs = (c : ECost)) :
    ∃ b : ℚ, totalCost hit (fun a b : Config ℚ => halfSquare (List.zipWith (· - ·) b a)) 1 1 (List.replicate box.length 0) ys =
      (b : ECost) ∧ b ≤ R * c := by
  obtain ⟨ws, b, w1, w2, w3⟩ := follow_run (gobd S B ε h μ γ) box m 3 R halfSquare (fun x _ => halfSquare_nonneg x) hm (by linarith) hR
    (by rw [div_le_iff₀ hm] at hR2; linarith) (by norm_num) (halfSquare_three box.length) hit hg os [] none ys k hr (by
      intro i o xs' hi hl hlen hlast v a hv ha ha0 hgr
      obtain ⟨o1, o2, o3⟩ := ho i o hi
      simp only [List.length_nil, zero_add] at hl ha hgr ⊢
      subst o2
      have e : ((i + 1 : Nat) : Int) = (xs'.length : Int) + 1 := by rw [hl]; push_cast; ring
      rw [e] at o3 ha hgr ⊢
      have := gobd_follows S hS hE B o o1 xs' hlen (hit ((xs'.length : Int) + 1)) halfSquare o3 ε h H hh μ γ hγ v a hv ha ha0
        (grow_unique hm (fun x _ => halfSquare_nonneg x) (fun x y h1 h2 => halfSquare_definite x y (h1.trans h2.symm)) hv hgr)
        (hclose _ v hv (by
          rcases List.eq_nil_or_concat xs' with e | ⟨l, x, e⟩
          · subst e; exact Or.inr rfl
          · left
            subst e
            have := hlast x (by simp)
            simpa [latest] using this))
      exact this) (by simp) (by simp) (List.replicate box.length 0) zs (by simp) hzl hzs c (by simpa using hc)
  rw [List.nil_append] at w1
  subst w1
  have hlat : latest box.length [] = List.replicate box.length 0 := rfl
  rw [hlat] at w2 w3
  refine ⟨b, by simpa using w2, ?_⟩
  have : halfSquare (List.zipWith (· - ·) (List.replicate box.length 0) (List.replicate box.length 0)) = 0 := by
    simp [halfSquare]
  rw [this] at w3
  linarith

end

/-! ## Instances and limits -/

/-- One dimension with decision space `[0, u]`, hitting costs `f` and movement costs `g`. -/
def lineQ (u : ℚ) (f : Int → ℚ → ℚ) (g : ℚ → ℚ) (T : Int) : SCO ℚ Unit Unit where
  d := 1
  tEnd := T
  bounds := [(0, u)]
  switchingCost := fun x => .ok (g (x.headD 0))
  hittingCost := CostFn.new 1 (SingleCostFn.certain fun t x => .ok (Cost.raw ((f t (x.headD 0) : ℚ) : ECost)))

/-- The instances of the first `T` slots. -/
def lineHistory (u : ℚ) (f : Int → ℚ → ℚ) (g : ℚ → ℚ) (T : ℕ) : List (Online (SCO ℚ Unit Unit)) :=
  (List.range T).map fun i : ℕ => ⟨lineQ u f g ((i + 1 : ℕ) : Int), 0⟩

theorem line_slot (u : ℚ) (hu : 0 ≤ u) (hg : OnGrid u) (f : Int → ℚ → ℚ) (g : ℚ → ℚ) (T t : Int) (ht : 1 ≤ t) :
    Slot (lineQ u f g T) t (fun x => ((f t (x.headD 0) : ℚ) : ECost)) (fun x => g (x.headD 0)) where
  box := by
    intro b hb
    simp only [lineQ, List.mem_singleton] at hb
    subst hb
    exact ⟨hu, ⟨0, by norm_num⟩, hg⟩
  dim := rfl
  certain := by
    intro x _
    exact ⟨.success (), by rw [lineQ, CostFn.callCertain_certain _ _ ht]; rfl⟩
  mean := by
    intro x _
    exact ⟨.success (), by rw [lineQ, CostFn.callMean_certain _ _ ht]; rfl⟩
  moves := fun _ _ => rfl

theorem line_get (u : ℚ) (f : Int → ℚ → ℚ) (g : ℚ → ℚ) (T i : ℕ) (o : Online (SCO ℚ Unit Unit))
    (ho : (lineHistory u f g T)[i]? = some o) : o = ⟨lineQ u f g ((i + 1 : ℕ) : Int), 0⟩ := by
  unfold lineHistory at ho
  rw [List.getElem?_map] at ho
  cases hr : (List.range T)[i]? with
  | none => rw [hr] at ho; simp at ho
  | some j =>
    rw [hr] at ho
    obtain ⟨h1, h2⟩ := List.getElem?_eq_some_iff.1 hr
    simp at h2
    subst h2
    simpa using ho.symm

theorem line_run (u : ℚ) (f : Int → ℚ → ℚ) (g : ℚ → ℚ) (A : OnlineAlgorithm (SCO ℚ Unit Unit) ℚ Unit) (w : ℕ → ℚ)
    (hcall : ∀ i : ℕ, A.call ⟨lineQ u f g ((i + 1 : ℕ) : Int), 0⟩ ((i : Int) + 1) ((List.range i).map fun j : ℕ => [w j]) () =
      .ok ([w i], none)) (T : ℕ) :
    Run (fun p : SCO ℚ Unit Unit => p.tEnd) A [] none (lineHistory u f g T) ((List.range T).map fun j : ℕ => [w j]) none := by
  have key : ∀ n k : ℕ, Run (fun p : SCO ℚ Unit Unit => p.tEnd) A ((List.range k).map fun j : ℕ => [w j]) none
      ((List.range' k n).map fun i : ℕ => ⟨lineQ u f g ((i + 1 : ℕ) : Int), 0⟩) ((List.range (k + n)).map fun j : ℕ => [w j]) none := by
    intro n
    induction n with
    | zero => intro k; exact .nil _ _
    | succ n ih =>
      intro k
      rw [List.range'_succ, List.map_cons]
      refine .step _ _ _ _ [w k] none _ _ ?_ ?_ ?_
      · simp [lineQ]
      · have := hcall k
        simpa using this
      · have := ih (k + 1)
        rw [List.range_succ, List.map_append] at this
        rw [show k + (n + 1) = k + 1 + n by ring]
        exact this
  have := key T 0
  rw [← List.range_eq_range', Nat.zero_add] at this
  exact this

/-- Hitting cost `2/5 (20 - x)` in all slots. -/
def farF (_ : Int) (x : ℚ) : ℚ := 2 / 5 * (20 - x)

theorem far_grows (t : Int) :
    GrowsBy [(0, 20)] (2 / 5) (fun x => |x.headD 0|) (fun x => ((farF t (x.headD 0) : ℚ) : ECost)) := by
  refine ⟨[20], 0, gridPoint_one.2 ⟨20, rfl, by norm_num, le_rfl, 2000, by norm_num⟩, by simp [farF], le_rfl, ?_⟩
  intro y hy
  obtain ⟨a, rfl, -, h1, -⟩ := gridPoint_one.1 hy
  simp only [List.zipWith_cons_cons, List.headD_cons, WithTop.coe_le_coe, farF]
  rw [abs_of_nonpos (by linarith)]
  linarith

/-- Primal balanced descent does not move in these instances. -/
theorem far_stays (S : Solver) (hS : Inner S) (hE : Exact S) (B : Brent) (ε : ℚ) (T : Int) (xs : Schedule ℚ)
    (hxs : ∀ x ∈ xs, x.length = 1) (hl : latest 1 xs = [0]) :
    (pobd S B ε sqNorm 1).next ⟨lineQ 20 farF (fun x => |x|) T, 0⟩ xs none = .ok ([0], none) := by
  have hp := line_slot 20 (by norm_num) ⟨2000, by norm_num⟩ farF (fun x => |x|) T (xs.length + 1) (by omega)
  have hone : ∀ x, GridPoint (lineQ 20 farF (fun x => |x|) T).bounds x →
      ((farF (xs.length + 1) (x.headD 0) : ℚ) : ECost) ≤ ((0 : ℚ) : ECost) → x = [20] := by
    intro x hx hle
    obtain ⟨y, rfl, h0, h1, -⟩ := gridPoint_one.1 hx
    simp only [List.headD_cons, WithTop.coe_le_coe, farF] at hle
    congr 1
    linarith
  have h20 : GridPoint (lineQ 20 farF (fun x => |x|) T).bounds [20] :=
    gridPoint_one.2 ⟨20, rfl, by norm_num, le_rfl, 2000, by norm_num⟩
  have h0g : GridPoint (lineQ 20 farF (fun x => |x|) T).bounds [0] :=
    gridPoint_one.2 ⟨0, rfl, by norm_num, by norm_num, 0, by norm_num⟩
  obtain ⟨v, a, hv, hvg, -, hva, hvb⟩ := hittingMinimizer_ok hS hp
  have hv1 : v = [20] := hone v hvg ((hvb hE [20] h20).trans (by simp [farF]))
  subst hv1
  have ha := hva hE.done
  simp [farF] at ha
  subst ha
  have hobd := fun l : ℚ => C50_obd S hS ⟨lineQ 20 farF (fun x => |x|) T, 0⟩ rfl xs hxs _ _ hp ε sqNorm
    (fun x => (x.map (· ^ 2)).sum) (fun _ _ => rfl) l
  have hobd0 : (obd S ε sqNorm ((0 : ℚ) : ECost)).next ⟨lineQ 20 farF (fun x => |x|) T, 0⟩ xs none = .ok ([20], none) := by
    obtain ⟨x, h1, h2, -, h4, -⟩ := hobd 0
    have := (h4 hE ⟨[20], h20, by simp [farF]⟩).1
    rw [h1, hone x h2 this]
  have hlat : latest (lineQ 20 farF (fun x => |x|) T).bounds.length xs = [0] := hl
  have hobd8 : (obd S ε sqNorm ((8 : ℚ) : ECost)).next ⟨lineQ 20 farF (fun x => |x|) T, 0⟩ xs none = .ok ([0], none) := by
    obtain ⟨x, h1, h2, -, h4, -⟩ := hobd 8
    have h5 := (h4 hE ⟨[20], h20, by simp [farF]⟩).2 [0] h0g (by
      simp only [List.headD_cons, WithTop.coe_le_coe, farF]; norm_num)
    obtain ⟨y, rfl, -⟩ := gridPoint_one.1 h2
    rw [h1]
    simp only [hlat] at h5
    simp [divergence, bump] at h5
    simpa using h5
  have e : (pobd S B ε sqNorm 1).next ⟨lineQ 20 farF (fun x => |x|) T, 0⟩ xs none =
      (pobd S B ε sqNorm 1).call ⟨lineQ 20 farF (fun x => |x|) T, 0⟩ (xs.length + 1) xs () := rfl
  rw [e]
  obtain ⟨o', hb⟩ := (hitCost_eq hp [0]).1 h0g.1
  have hprev : prevX (lineQ 20 farF (fun x => |x|) T).d xs = [0] := by
    have := prevX_eq (lineQ 20 farF (fun x => |x|) T) hp.dim (xs := xs)
    rw [this]; exact hl
  have hroot : findRoot B 0 8 (fun l : ℚ => do
      let x ← (obd S ε sqNorm ((l : ℚ) : ECost)).next ⟨lineQ 20 farF (fun x => |x|) T, 0⟩ xs none
      let m ← (lineQ 20 farF (fun x => |x|) T).switchingCost (Config.sub x.1 [0])
      .ok (((m - 1 * l : ℚ) : WithTop ℚ) : Slack)) = .ok 8 := by
    unfold findRoot
    rw [if_neg (by norm_num [precision])]
    simp only [hobd0, hobd8, bind, Except.bind]
    have n1 : ¬ Slack.abs (((((|(Config.sub [20] [0] : List ℚ).headD 0| : ℚ) - 1 * 0 : ℚ)) : WithTop ℚ) : Slack) <
        ((rootPrecision : ℚ) : ECost) := by
      show ¬ ((|(|(20 - 0 : ℚ)| - 1 * 0)| : ℚ) : ECost) < _
      rw [WithTop.coe_lt_coe]
      norm_num [rootPrecision, precision]
    have n2 : Slack.abs (((((|(Config.sub [0] [0] : List ℚ).headD 0| : ℚ) - 1 * 8 : ℚ)) : WithTop ℚ) : Slack) <
        ((rootPrecision : ℚ) : ECost) := by
      show ((|(|(0 - 0 : ℚ)| - 1 * 8)| : ℚ) : ECost) < _
      rw [WithTop.coe_lt_coe]
      norm_num [rootPrecision, precision]
    exact (if_neg n1).trans (if_pos n2)
  simp only [pobd, assertR, decide_true, if_true, bind, Except.bind, hv, hprev, hb]
  have hsw : (lineQ 20 farF (fun x => |x|) T).switchingCost (Config.sub [20] [0]) = .ok 20 := by
    show (Except.ok |(20 - 0 : ℚ)| : Res ℚ) = _
    norm_num
  have hup : upperLevel 0 ((farF (xs.length + 1) (([0] : List ℚ).headD 0) : ℚ) : ECost) = 8 := by
    show farF (xs.length + 1) 0 = 8
    norm_num [farF]
  simp only [bind, Except.bind] at hroot
  rw [hsw]
  simp only [hup, hroot, hobd8]
  norm_num

/-- **C79** is false of the code. Hitting cost `2/5 (20 - x)` on `[0, 20]` in all slots, movement cost `|x|`, `β = 1`: the imbalance
at the level of the latest configuration is below 10, which the root finder accepts, so primal balanced descent never moves.
Against moving to the minimiser once no ratio holds. -/
theorem C79_distance_counterexample (S : Solver) (hS : Inner S) (hE : Exact S) (B : Brent) (ε : ℚ) (R : ℚ) :
    ∃ (T : ℕ) (ys zs : Schedule ℚ) (b c : ℚ),
      Run (fun p : SCO ℚ Unit Unit => p.tEnd) (pobd S B ε sqNorm 1) [] none (lineHistory 20 farF (fun x => |x|) T) ys none ∧
      zs.length = T ∧ (∀ z ∈ zs, GridPoint [(0, 20)] z) ∧
      totalCost (fun t (x : Config ℚ) => ((farF t (x.headD 0) : ℚ) : ECost))
        (fun a b : Config ℚ => |(List.zipWith (· - ·) b a).headD 0|) 1 1 [0] ys = (b : ECost) ∧
      totalCost (fun t (x : Config ℚ) => ((farF t (x.headD 0) : ℚ) : ECost))
        (fun a b : Config ℚ => |(List.zipWith (· - ·) b a).headD 0|) 1 1 [0] zs = (c : ECost) ∧
      0 < c ∧ R * c < b := by
  obtain ⟨n, hn⟩ := exists_nat_gt (R * 20)
  have hrun := line_run 20 farF (fun x => |x|) (pobd S B ε sqNorm 1) (fun _ => 0) (by
    intro i
    have := far_stays S hS hE B ε ((i + 1 : ℕ) : Int) ((List.range i).map fun _ : ℕ => [0]) (by simp) (by
      cases i with
      | zero => rfl
      | succ i => simp [List.range_succ, latest])
    have e : (pobd S B ε sqNorm 1).next ⟨lineQ 20 farF (fun x => |x|) ((i + 1 : ℕ) : Int), 0⟩ ((List.range i).map fun _ : ℕ => [0]) none =
      (pobd S B ε sqNorm 1).call ⟨lineQ 20 farF (fun x => |x|) ((i + 1 : ℕ) : Int), 0⟩
        (((List.range i).map fun _ : ℕ => ([0] : Config ℚ)).length + 1) ((List.range i).map fun _ : ℕ => [0]) () := rfl
    rw [e] at this
    simpa using this) (n + 1)
  have hA : ∀ (n : ℕ) (t : Int), totalCost (fun t (x : Config ℚ) => ((farF t (x.headD 0) : ℚ) : ECost))
        (fun a b : Config ℚ => |(List.zipWith (· - ·) b a).headD 0|) 1 t [0] (List.replicate n [0]) = ((8 * n : ℚ) : ECost) := by
    intro n
    induction n with
    | zero => intro t; simp [totalCost]
    | succ n ih =>
      intro t
      simp only [List.replicate_succ, totalCost]
      rw [ih]
      simp only [← WithTop.coe_add, WithTop.coe_eq_coe, farF, List.headD_cons, List.zipWith_cons_cons]
      push_cast
      norm_num
      ring
  have hB : ∀ (n : ℕ) (t : Int), totalCost (fun t (x : Config ℚ) => ((farF t (x.headD 0) : ℚ) : ECost))
        (fun a b : Config ℚ => |(List.zipWith (· - ·) b a).headD 0|) 1 t [20] (List.replicate n [20]) = ((0 : ℚ) : ECost) := by
    intro n
    induction n with
    | zero => intro t; simp [totalCost]
    | succ n ih =>
      intro t
      simp only [List.replicate_succ, totalCost]
      rw [ih]
      simp only [← WithTop.coe_add, WithTop.coe_eq_coe, farF, List.headD_cons, List.zipWith_cons_cons]
      norm_num
  refine ⟨n + 1, _, List.replicate (n + 1) [20], 8 * (n + 1 : ℕ), 20, hrun, by simp, ?_, ?_, ?_, by norm_num, ?_⟩
  · intro z hz
    rw [List.eq_of_mem_replicate hz]
    exact gridPoint_one.2 ⟨20, rfl, by norm_num, le_rfl, 2000, by norm_num⟩
  · rw [List.map_const', List.length_range]
    exact hA (n + 1) 1
  · simp only [List.replicate_succ, totalCost]
    rw [hB]
    simp only [← WithTop.coe_add, WithTop.coe_eq_coe, farF, List.headD_cons, List.zipWith_cons_cons]
    norm_num
  · push_cast
    linarith

/-- The minimisers 1, 0, 1, 0, … -/
def alt (i : ℕ) : ℚ := if i % 2 = 0 then 1 else 0

/-- Hitting costs `s` times the cost of moving from the minimiser of the slot. -/
def altF (s : ℚ) (g : ℚ → ℚ) (t : Int) (x : ℚ) : ℚ := s * g (x - alt (t.toNat + 1))

theorem alt_two (k : ℕ) : alt (k + 1 + 1) = alt k := by
  unfold alt
  rw [show (k + 1 + 1) % 2 = k % 2 by omega]

theorem alt_follow_cost (s : ℚ) (g : ℚ → ℚ) (g0 : g 0 = 0) (c : ℚ) (g1 : g 1 = c) (g2 : g (-1) = c) : ∀ n k : ℕ,
    totalCost (fun t (x : Config ℚ) => ((altF s g t (x.headD 0) : ℚ) : ECost))
        (fun a b : Config ℚ => g ((List.zipWith (· - ·) b a).headD 0)) 1 ((k : Int) + 1) [alt (k + 1)]
        ((List.range' k n).map fun j : ℕ => [alt j]) = ((c * n : ℚ) : ECost) := by
  intro n
  induction n with
  | zero => intro k; simp [totalCost]
  | succ n ih =>
    intro k
    have h1 := ih (k + 1)
    have h2 := alt_two k
    rw [h2] at h1
    have h0 : (((k + 1 : ℕ) : Int) + 1) = (k : Int) + 1 + 1 := by push_cast; ring
    rw [h0] at h1
    simp only [List.range'_succ, List.map_cons, totalCost]
    rw [h1]
    simp only [← WithTop.coe_add, WithTop.coe_eq_coe, altF, List.headD_cons,
      List.zipWith_cons_cons]
    have h3 : ((k : Int) + 1).toNat = k + 1 := by omega
    have h4 : g (alt k - alt (k + 1)) = c := by
      rcases Nat.mod_two_eq_zero_or_one k with h | h
      · have : (k + 1) % 2 = 1 := by omega
        simp [alt, h, this, g1]
      · have : (k + 1) % 2 = 0 := by omega
        simp [alt, h, this, g2]
    rw [h3, h2, sub_self, g0, h4]
    push_cast
    ring

theorem alt_stay_cost (s : ℚ) (hs : 0 < s) (g : ℚ → ℚ) (g0 : g 0 = 0) (c : ℚ) (hc : 0 < c) (g2 : g (-1) = c) : ∀ (n k : ℕ),
    ∃ b : ℚ, totalCost (fun t (x : Config ℚ) => ((altF s g t (x.headD 0) : ℚ) : ECost))
        (fun a b : Config ℚ => g ((List.zipWith (· - ·) b a).headD 0)) 1 ((k : Int) + 1) [0] (List.replicate n [0]) = (b : ECost) ∧
      0 ≤ b ∧ b ≤ s * c * n ∧ (k % 2 = 0 → 0 < n → 0 < b) := by
  intro n
  induction n with
  | zero => intro k; exact ⟨0, by simp [totalCost], le_rfl, by simp, by simp⟩
  | succ n ih =>
    intro k
    obtain ⟨b, h1, h2, h3, -⟩ := ih (k + 1)
    have e : (((k + 1 : ℕ) : Int) + 1) = (k : Int) + 1 + 1 := by push_cast; ring
    rw [e] at h1
    have h4 : ((k : Int) + 1).toNat = k + 1 := by omega
    have h5 := alt_two k
    refine ⟨altF s g ((k : Int) + 1) 0 + 1 * g (0 - 0) + b, ?_, ?_⟩
    · simp only [List.replicate_succ, totalCost, h1, ← WithTop.coe_add, List.headD_cons, List.zipWith_cons_cons]
    have hsc := mul_pos hs hc
    simp only [altF, h4, h5, sub_self, g0]
    rcases Nat.mod_two_eq_zero_or_one k with h | h
    · have : g (0 - alt k) = c := by simp [alt, h, g2]
      rw [this]
      push_cast
      exact ⟨by linarith, by linarith, fun _ _ => by linarith⟩
    · have : g (0 - alt k) = 0 := by simp [alt, h, g0]
      rw [this]
      push_cast
      exact ⟨by linarith, by linarith, fun h' => by omega⟩

theorem alt_unique (s : ℚ) (hs : 0 < s) (g : ℚ → ℚ) (hg : ∀ x, g x = 0 ↔ x = 0) (hn : ∀ x, 0 ≤ g x) (t : Int) (y : Config ℚ)
    (hy : GridPoint [(0, 1)] y) (hle : ((altF s g t (y.headD 0) : ℚ) : ECost) ≤ ((0 : ℚ) : ECost)) : y = [alt (t.toNat + 1)] := by
  obtain ⟨a, rfl, -⟩ := gridPoint_one.1 hy
  simp only [List.headD_cons, WithTop.coe_le_coe, altF] at hle
  have h1 := hn (a - alt (t.toNat + 1))
  have h2 : g (a - alt (t.toNat + 1)) = 0 := by
    by_contra h
    have := mul_pos hs (lt_of_le_of_ne h1 (Ne.symm h))
    linarith
  have := (hg _).1 h2
  congr 1
  linarith

theorem alt_point (i : ℕ) : GridPoint [(0, 1)] [alt i] := by
  refine gridPoint_one.2 ⟨_, rfl, ?_⟩
  unfold alt
  split
  · exact ⟨by norm_num, le_rfl, 100, by norm_num⟩
  · exact ⟨le_rfl, by norm_num, 0, by norm_num⟩

theorem alt_latest (i : ℕ) : latest 1 ((List.range i).map fun j : ℕ => [alt j]) = [alt (i + 1)] := by
  cases i with
  | zero => simp [latest, alt]
  | succ i => simp [List.range_succ, latest, alt_two]

/-- An algorithm that follows the minimisers pays at least `1 / s` times the cost of not moving. -/
theorem alt_ratio (s : ℚ) (hs : 0 < s) (g : ℚ → ℚ) (g0 : g 0 = 0) (c : ℚ) (hc : 0 < c) (g1 : g 1 = c) (g2 : g (-1) = c) (T : ℕ)
    (hT : 0 < T) : ∃ (zs : Schedule ℚ) (b d : ℚ), zs.length = T ∧ (∀ z ∈ zs, GridPoint [(0, 1)] z) ∧
      totalCost (fun t (x : Config ℚ) => ((altF s g t (x.headD 0) : ℚ) : ECost))
        (fun a b : Config ℚ => g ((List.zipWith (· - ·) b a).headD 0)) 1 1 [0] ((List.range T).map fun j : ℕ => [alt j]) = (b : ECost) ∧
      totalCost (fun t (x : Config ℚ) => ((altF s g t (x.headD 0) : ℚ) : ECost))
        (fun a b : Config ℚ => g ((List.zipWith (· - ·) b a).headD 0)) 1 1 [0] zs = (d : ECost) ∧ 0 < d ∧ d ≤ s * b := by
  have h1 := alt_follow_cost s g g0 c g1 g2 T 0
  obtain ⟨d, h2, h3, h4, h5⟩ := alt_stay_cost s hs g g0 c hc g2 T 0
  refine ⟨List.replicate T [0], _, d, by simp, ?_, ?_, by simpa using h2, h5 rfl hT, by rwa [mul_assoc] at h4⟩
  · intro z hz
    rw [List.eq_of_mem_replicate hz]
    exact gridPoint_one.2 ⟨0, rfl, le_rfl, by norm_num, 0, by norm_num⟩
  · rw [List.range_eq_range']
    simpa [alt] using h1

/-- **C79** is false of the code, for the `ℓ₁` norm. In one dimension the documented ratio is a constant, but for no constant does
it hold: with hitting costs of slope `s` whose minimiser alternates between 1 and 0, primal balanced descent follows the
minimisers, which costs at least `1 / s` times as much as staying at 0. -/
theorem C79_constant_counterexample (S : Solver) (hS : Inner S) (hE : Exact S) (B : Brent) (ε β : ℚ) (hβ : 0 < β) (R : ℚ) :
    ∃ s : ℚ, 0 < s ∧ ∀ T : ℕ, 0 < T → ∃ (ys zs : Schedule ℚ) (b c : ℚ),
      Run (fun p : SCO ℚ Unit Unit => p.tEnd) (pobd S B ε sqNorm β) [] none
        (lineHistory 1 (altF s fun x => |x|) (fun x => |x|) T) ys none ∧
      zs.length = T ∧ (∀ z ∈ zs, GridPoint [(0, 1)] z) ∧
      totalCost (fun t (x : Config ℚ) => ((altF s (fun x => |x|) t (x.headD 0) : ℚ) : ECost))
        (fun a b : Config ℚ => |(List.zipWith (· - ·) b a).headD 0|) 1 1 [0] ys = (b : ECost) ∧
      totalCost (fun t (x : Config ℚ) => ((altF s (fun x => |x|) t (x.headD 0) : ℚ) : ECost))
        (fun a b : Config ℚ => |(List.zipWith (· - ·) b a).headD 0|) 1 1 [0] zs = (c : ECost) ∧
      0 < c ∧ R * c < b := by
  refine ⟨1 / (|R| + 1), by positivity, fun T hT => ?_⟩
  obtain ⟨zs, b, d, k1, k2, k3, k4, k5, k6⟩ := alt_ratio (1 / (|R| + 1)) (by positivity) (fun x => |x|) (by simp) 1 one_pos (by simp) (by simp) T hT
  refine ⟨_, zs, b, d, line_run 1 _ _ _ alt ?_ T, k1, k2, k3, k4, k5, ?_⟩
  · intro i
    obtain ⟨xs, hx⟩ : ∃ xs, xs = ((List.range i).map fun j : ℕ => ([alt j] : Config ℚ)) := ⟨_, rfl⟩
    have hl : xs.length = i := by simp [hx]
    have hlen : ∀ x ∈ xs, x.length = 1 := by
      rw [hx]; simp
    have hv : alt (((xs.length : Int) + 1).toNat + 1) = alt i := by
      rw [hl, show ((i : Int) + 1).toNat = i + 1 by omega, alt_two]
    have := pobd_follows S hS hE B ⟨lineQ 1 (altF (1 / (|R| + 1)) fun x => |x|) (fun x => |x|) ((i + 1 : ℕ) : Int), 0⟩ rfl xs hlen
      (fun x => ((altF (1 / (|R| + 1)) (fun x => |x|) (xs.length + 1) (x.headD 0) : ℚ) : ECost)) (fun x => |x.headD 0|)
      (line_slot 1 zero_le_one ⟨100, by norm_num⟩ _ _ _ (xs.length + 1) (by omega)) ε sqNorm (fun x => (x.map (· ^ 2)).sum) (fun _ _ => rfl) β hβ
      [alt i] 0 (alt_point i) (by simp only [List.headD_cons, altF, hv]; simp) le_rfl
      (fun y hy hle => by
        have := alt_unique (1 / (|R| + 1)) (by positivity) (fun x => |x|) (fun x => abs_eq_zero) (fun x => abs_nonneg x) _ y hy hle
        rw [hv] at this
        exact this)
      (by
        have : latest (lineQ 1 (altF (1 / (|R| + 1)) fun x => |x|) (fun x => |x|) ((i + 1 : ℕ) : Int)).bounds.length xs =
          [alt (i + 1)] := by rw [hx]; exact alt_latest i
        rw [this]
        simp only [List.zipWith_cons_cons, List.headD_cons]
        unfold alt
        split <;> split <;> norm_num)
    have e : (pobd S B ε sqNorm β).next ⟨lineQ 1 (altF (1 / (|R| + 1)) fun x => |x|) (fun x => |x|) ((i + 1 : ℕ) : Int), 0⟩ xs none =
      (pobd S B ε sqNorm β).call ⟨lineQ 1 (altF (1 / (|R| + 1)) fun x => |x|) (fun x => |x|) ((i + 1 : ℕ) : Int), 0⟩
        (xs.length + 1) xs () := rfl
    rw [e, hl] at this
    rw [← hx]
    exact this
  · have h1 : R ≤ |R| := le_abs_self R
    have h0 : 0 < |R| + 1 := by positivity
    have h2 : d * (|R| + 1) ≤ b := by
      rw [one_div, inv_mul_eq_div, le_div_iff₀ h0] at k6
      exact k6
    nlinarith

/-- **C80** is false of the code. Movement costs half the squared distance. For every constant `K` there are `m`-quasiconvex hitting
costs for which greedy balanced descent pays more than `K / √m` times the cost of staying at 0, whatever its parameters: it
follows the minimisers. -/
theorem C80_ratio_counterexample (S : Solver) (hS : Inner S) (hE : Exact S) (B : Brent) (ε μ γ : ℚ) (hγ : 0 < γ) (K : ℚ) :
    ∃ m : ℚ, 0 < m ∧ m ≤ 1 ∧
      (∀ t, GrowsBy [(0, 1)] m halfSquare (fun x => ((altF m (fun x => 1 / 2 * x ^ 2) t (x.headD 0) : ℚ) : ECost))) ∧
      ∀ T : ℕ, 0 < T → ∃ (ys zs : Schedule ℚ) (b c : ℚ),
      Run (fun p : SCO ℚ Unit Unit => p.tEnd) (gobd S B ε sqNorm μ γ) [] none
        (lineHistory 1 (altF m fun x => 1 / 2 * x ^ 2) (fun x => 1 / 2 * x ^ 2) T) ys none ∧
      zs.length = T ∧ (∀ z ∈ zs, GridPoint [(0, 1)] z) ∧
      totalCost (fun t (x : Config ℚ) => ((altF m (fun x => 1 / 2 * x ^ 2) t (x.headD 0) : ℚ) : ECost))
        (fun a b : Config ℚ => 1 / 2 * (List.zipWith (· - ·) b a).headD 0 ^ 2) 1 1 [0] ys = (b : ECost) ∧
      totalCost (fun t (x : Config ℚ) => ((altF m (fun x => 1 / 2 * x ^ 2) t (x.headD 0) : ℚ) : ECost))
        (fun a b : Config ℚ => 1 / 2 * (List.zipWith (· - ·) b a).headD 0 ^ 2) 1 1 [0] zs = (c : ECost) ∧
      0 < c ∧ 0 < b ∧ K ^ 2 / m * c ^ 2 < b ^ 2 := by
  obtain ⟨m, hm⟩ : ∃ m : ℚ, m = 1 / (K ^ 2 + 1) := ⟨_, rfl⟩
  have hm0 : 0 < m := by rw [hm]; positivity
  have hmK : m * (K ^ 2 + 1) = 1 := by
    rw [hm]
    have : K ^ 2 + 1 ≠ 0 := by positivity
    field_simp
  have hm1 : m ≤ 1 := by nlinarith [sq_nonneg K]
  refine ⟨m, hm0, hm1, ?_, fun T hT => ?_⟩
  · intro t
    refine ⟨[alt (t.toNat + 1)], 0, alt_point _, by simp [altF], le_rfl, ?_⟩
    intro y hy
    obtain ⟨a, rfl, -⟩ := gridPoint_one.1 hy
    rw [WithTop.coe_le_coe]
    simp [halfSquare, altF]
  obtain ⟨zs, b, d, k1, k2, k3, k4, k5, k6⟩ := alt_ratio m hm0 (fun x => 1 / 2 * x ^ 2) (by norm_num) (1 / 2) (by norm_num) (by norm_num)
    (by norm_num) T hT
  have hb0 : 0 < b := by
    by_contra h
    push Not at h
    have := mul_nonpos_of_nonneg_of_nonpos hm0.le h
    linarith
  refine ⟨_, zs, b, d, line_run 1 _ _ _ alt ?_ T, k1, k2, k3, k4, k5, hb0, ?_⟩
  · intro i
    obtain ⟨xs, hx⟩ : ∃ xs, xs = ((List.range i).map fun j : ℕ => ([alt j] : Config ℚ)) := ⟨_, rfl⟩
    have hl : xs.length = i := by simp [hx]
    have hlen : ∀ x ∈ xs, x.length = 1 := by
      rw [hx]; simp
    have hv : alt (((xs.length : Int) + 1).toNat + 1) = alt i := by
      rw [hl, show ((i : Int) + 1).toNat = i + 1 by omega, alt_two]
    have := gobd_follows S hS hE B ⟨lineQ 1 (altF m fun x => 1 / 2 * x ^ 2) (fun x => 1 / 2 * x ^ 2) ((i + 1 : ℕ) : Int), 0⟩ rfl xs hlen
      (fun x => ((altF m (fun x => 1 / 2 * x ^ 2) (xs.length + 1) (x.headD 0) : ℚ) : ECost)) (fun x => 1 / 2 * x.headD 0 ^ 2)
      (line_slot 1 zero_le_one ⟨100, by norm_num⟩ (altF m fun x => 1 / 2 * x ^ 2) (fun x => 1 / 2 * x ^ 2) _ (xs.length + 1) (by omega)) ε sqNorm (fun x => (x.map (· ^ 2)).sum) (fun _ _ => rfl) μ γ hγ
      [alt i] 0 (alt_point i) (by simp only [List.headD_cons, altF, hv]; simp) le_rfl
      (fun y hy hle => by
        have := alt_unique m hm0 (fun x => 1 / 2 * x ^ 2) (fun x => by simp) (fun x => by positivity) _ y hy hle
        rw [hv] at this
        exact this)
      (by
        have : latest (lineQ 1 (altF m fun x => 1 / 2 * x ^ 2) (fun x => 1 / 2 * x ^ 2) ((i + 1 : ℕ) : Int)).bounds.length xs =
          [alt (i + 1)] := by rw [hx]; exact alt_latest i
        rw [this]
        simp only [List.zipWith_cons_cons, List.headD_cons]
        unfold alt
        split <;> split <;> norm_num)
    have e : (gobd S B ε sqNorm μ γ).next ⟨lineQ 1 (altF m fun x => 1 / 2 * x ^ 2) (fun x => 1 / 2 * x ^ 2) ((i + 1 : ℕ) : Int), 0⟩ xs none =
      (gobd S B ε sqNorm μ γ).call ⟨lineQ 1 (altF m fun x => 1 / 2 * x ^ 2) (fun x => 1 / 2 * x ^ 2) ((i + 1 : ℕ) : Int), 0⟩
        (xs.length + 1) xs () := rfl
    rw [e, hl] at this
    rw [← hx]
    exact this
  · have h1 : d ^ 2 ≤ m ^ 2 * b ^ 2 := by
      have := mul_le_mul k6 k6 k5.le (by positivity)
      nlinarith
    have h2 : K ^ 2 / m * d ^ 2 ≤ K ^ 2 / m * (m ^ 2 * b ^ 2) := mul_le_mul_of_nonneg_left h1 (by positivity)
    have h3 : K ^ 2 / m * (m ^ 2 * b ^ 2) = K ^ 2 * m * b ^ 2 := by field_simp
    have h4 : K ^ 2 * m = 1 - m := by linarith
    have h5 : 0 < m * b ^ 2 := by positivity
    rw [h3, h4] at h2
    linarith

theorem abs_metric : Metric 1 (fun x => |x.headD 0|) where
  nonneg := fun x _ => abs_nonneg _
  zero := by
    intro x hx
    obtain ⟨a, rfl⟩ := List.length_eq_one_iff.1 hx
    simp
  definite := by
    intro x y hx hy h
    obtain ⟨a, rfl⟩ := List.length_eq_one_iff.1 hx
    obtain ⟨b, rfl⟩ := List.length_eq_one_iff.1 hy
    simp at h
    congr 1
    linarith
  symm := by
    intro x y hx hy
    obtain ⟨a, rfl⟩ := List.length_eq_one_iff.1 hx
    obtain ⟨b, rfl⟩ := List.length_eq_one_iff.1 hy
    simpa using abs_sub_comm a b
  triangle := by
    intro x y z hx hy hz
    obtain ⟨a, rfl⟩ := List.length_eq_one_iff.1 hx
    obtain ⟨b, rfl⟩ := List.length_eq_one_iff.1 hy
    obtain ⟨c, rfl⟩ := List.length_eq_one_iff.1 hz
    simpa using abs_sub_le a b c

/-- Non-vacuity of the hypotheses of `C79_polyhedral_partial` and `C80_quasiconvex_partial`: alternating minimisers, slope 1/2; the
runs are those of the counterexamples. -/
example : Metric ([(0, 1)] : List (ℚ × ℚ)).length (fun x => |x.headD 0|) ∧
    (∀ x y, GridPoint [(0, 1)] y → GridPoint [(0, 1)] x ∨ x = List.replicate 1 0 → |(List.zipWith (· - ·) y x).headD 0| < 10) ∧
    (∀ x y, GridPoint [(0, 1)] y → GridPoint [(0, 1)] x ∨ x = List.replicate 1 0 → halfSquare (List.zipWith (· - ·) y x) < 10) ∧
    (∀ t, GrowsBy [(0, 1)] (1 / 2) (fun x => |x.headD 0|) (fun x => ((altF (1 / 2) (fun x => |x|) t (x.headD 0) : ℚ) : ECost))) ∧
    ∀ (T i : ℕ) o, (lineHistory 1 (altF (1 / 2) fun x => |x|) (fun x => |x|) T)[i]? = some o → o.w = 0 ∧ o.p.bounds = [(0, 1)] ∧
      Slot o.p ((i + 1 : Nat) : Int) (fun x => ((altF (1 / 2) (fun x => |x|) ((i + 1 : Nat) : Int) (x.headD 0) : ℚ) : ECost))
        (fun x => |x.headD 0|) := by
  have hb : ∀ x, GridPoint [(0, 1)] x ∨ x = List.replicate 1 0 → ∃ a, x = [a] ∧ 0 ≤ a ∧ a ≤ 1 := by
    rintro x (h | rfl)
    · obtain ⟨a, rfl, h0, h1, -⟩ := gridPoint_one.1 h
      exact ⟨a, rfl, h0, h1⟩
    · exact ⟨0, rfl, le_rfl, by norm_num⟩
  refine ⟨abs_metric, ?_, ?_, ?_, ?_⟩
  · intro x y hy hx
    obtain ⟨a, rfl, a0, a1⟩ := hb x hx
    obtain ⟨b, rfl, b0, b1⟩ := hb y (Or.inl hy)
    simp only [List.zipWith_cons_cons, List.headD_cons]
    rw [abs_lt]
    constructor <;> linarith
  · intro x y hy hx
    obtain ⟨a, rfl, a0, a1⟩ := hb x hx
    obtain ⟨b, rfl, b0, b1⟩ := hb y (Or.inl hy)
    simp only [halfSquare, List.zipWith_cons_cons, List.zipWith_nil_left, List.map_cons, List.map_nil, List.sum_cons, List.sum_nil]
    nlinarith
  · intro t
    refine ⟨[alt (t.toNat + 1)], 0, alt_point _, by simp [altF], le_rfl, ?_⟩
    intro y hy
    obtain ⟨a, rfl, -⟩ := gridPoint_one.1 hy
    rw [WithTop.coe_le_coe]
    simp [altF]
  · intro T i o ho
    rw [line_get _ _ _ _ _ _ ho]
    exact ⟨rfl, rfl, line_slot 1 zero_le_one ⟨100, by norm_num⟩ _ _ _ _ (by omega)⟩

end Descent
end Soco
