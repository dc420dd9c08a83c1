import Verif.Spec.Optimiser
import Verif.Props.Numerics
import Mathlib.Data.Finset.Max
import Mathlib.Tactic.Linarith

/-! # Facts about `Num.minimize` and existence of exact solvers -/

namespace Soco
open Spec

theorem onGrid_iff (x : ℚ) : OnGrid x ↔ Num.applyPrecision x = x := by
  rw [(Num.C48_apply_precision x x).2.2.2.1]
  rfl

theorem onGrid_applyPrecision (x : ℚ) : OnGrid (Num.applyPrecision x) :=
  (onGrid_iff _).2 (Num.C48_apply_precision x x).1

theorem onGrid_vec (x : List ℚ) : ∀ j ∈ Num.applyPrecisionVec x, OnGrid j := by
  intro j hj
  simp only [Num.applyPrecisionVec, List.mem_map] at hj
  obtain ⟨a, _, rfl⟩ := hj
  exact onGrid_applyPrecision a

theorem applyPrecisionVec_grid {x : List ℚ} (h : ∀ j ∈ x, OnGrid j) : Num.applyPrecisionVec x = x := by
  unfold Num.applyPrecisionVec
  conv_rhs => rw [← List.map_id x]
  exact List.map_congr_left fun j hj => (onGrid_iff j).1 (h j hj)

/-- Rounding does not leave boxes with corners on the grid. -/
theorem inBoxQ_round {box : List (ℚ × ℚ)} (hb : GridBox box) {x : List ℚ} (h : InBoxQ box x) :
    InBoxQ box (Num.applyPrecisionVec x) := by
  unfold InBoxQ at *
  induction h with
  | nil => exact .nil
  | @cons b j box x h1 h2 ih =>
    refine List.Forall₂.cons ?_ (ih fun c hc => hb c (by simp [hc]))
    obtain ⟨_, h3, h4⟩ := hb b (by simp)
    have := (Num.C48_apply_precision b.1 j).2.1 h1.1
    have := (Num.C48_apply_precision j b.2).2.1 h1.2
    rw [(onGrid_iff _).1 h3] at *
    rw [(onGrid_iff _).1 h4] at *
    exact ⟨by assumption, by assumption⟩

theorem inBoxQ_length {box : List (ℚ × ℚ)} {x : List ℚ} (h : InBoxQ box x) : x.length = box.length :=
  (List.Forall₂.length_eq h).symm

theorem visit_ok (f : List ℚ → Res ECost) (cs : List (List ℚ → Res Num.Slack)) (Q : List ℚ → Prop)
    (hf : ∀ x : List ℚ, Q x → ∃ c, f x = .ok c)
    (hc : ∀ c ∈ cs, ∀ x : List ℚ, Q x → ∃ v, c x = .ok v) :
    ∀ ps : List (List ℚ), (∀ q ∈ ps, Q (Num.applyPrecisionVec q)) → Num.visit f cs ps = .ok () := by
  intro ps
  induction ps with
  | nil => intro _; rfl
  | cons q ps ih =>
    intro h
    have hq := h q (by simp)
    obtain ⟨c, h1⟩ := hf _ hq
    have h2 : ∀ cs' : List (List ℚ → Res Num.Slack), (∀ c ∈ cs', c ∈ cs) →
        ∃ vs, cs'.mapM (fun c => c (Num.applyPrecisionVec q)) = .ok vs := by
      intro cs'
      induction cs' with
      | nil => intro _; exact ⟨[], rfl⟩
      | cons c' cs' ih' =>
        intro hs
        obtain ⟨v, hv⟩ := hc c' (hs c' (by simp)) _ hq
        obtain ⟨vs, hvs⟩ := ih' fun c hc => hs c (by simp [hc])
        exact ⟨v :: vs, by rw [List.mapM_cons, hv, hvs]; rfl⟩
    obtain ⟨vs, hvs⟩ := h2 cs fun _ h => h
    simp only [Num.visit, h1, hvs, bind, Except.bind]
    exact ih fun q hq => h q (by simp [hq])

/-- A sound solver makes `minimize` return a point of the box on the grid. -/
theorem minimize_of {S : Num.Solver} (hS : Sound S) {f : List ℚ → Res ECost} {box : List (ℚ × ℚ)}
    (hb : GridBox box) (init : Option (List ℚ)) (hi : ∀ x ∈ init, x.length = box.length)
    (cs : List (List ℚ → Res Num.Slack)) (Q : List ℚ → Prop) (hQ : ∀ x, InBoxQ box x → (∀ j ∈ x, OnGrid j) → Q x)
    (hf : ∀ x : List ℚ, Q x → ∃ c, f x = .ok c)
    (hc : ∀ c ∈ cs, ∀ x : List ℚ, Q x → ∃ v, c x = .ok v)
    (hP : ∀ q ∈ (S box f (init.getD (box.map Prod.snd)) cs).probes, Q (Num.applyPrecisionVec q)) :
    ∃ x v, Num.minimize S f box init cs = .ok (x, v) ∧ InBoxQ box x ∧ (∀ j ∈ x, OnGrid j) ∧
      x = Num.applyPrecisionVec (S box f (init.getD (box.map Prod.snd)) cs).x ∧
      ((S box f (init.getD (box.map Prod.snd)) cs).status = .done → f x = .ok v) ∧ (f x = .ok v ∨ v = ⊤) := by
  have hin := hS.inside box f (init.getD (box.map Prod.snd)) cs fun b h => (hb b h).1
  have hx := inBoxQ_round hb hin
  obtain ⟨c, h1⟩ := hf _ (hQ _ hx (onGrid_vec _))
  have hl : (init.getD (box.map Prod.snd)).length = box.length := by
    cases init with
    | none => simp
    | some x => simpa using hi x rfl
  have he := hS.ends box f (init.getD (box.map Prod.snd)) cs
  refine ⟨_, if (S box f (init.getD (box.map Prod.snd)) cs).status = .timedOut then ⊤ else c, ?_, hx, onGrid_vec _,
    rfl, ?_, ?_⟩
  · have hv := visit_ok f cs Q hf hc _ hP
    simp only [Num.minimize, hl, beq_self_eq_true, assertP, if_true, bind, Except.bind, hv, h1]
    rw [if_pos (by simpa using he)]
  · intro h
    rw [h, h1]
    simp
  · split
    · exact Or.inr rfl
    · exact Or.inl h1

/-- For objectives which are defined at all points of the right dimension. -/
theorem minimize_sound {S : Num.Solver} (hS : Sound S) {f : List ℚ → Res ECost} {box : List (ℚ × ℚ)}
    (hb : GridBox box) (init : Option (List ℚ)) (hi : ∀ x ∈ init, x.length = box.length)
    (cs : List (List ℚ → Res Num.Slack)) (hf : ∀ x : List ℚ, x.length = box.length → ∃ c, f x = .ok c)
    (hc : ∀ c ∈ cs, ∀ x : List ℚ, x.length = box.length → ∃ v, c x = .ok v) :
    ∃ x v, Num.minimize S f box init cs = .ok (x, v) ∧ InBoxQ box x ∧ (∀ j ∈ x, OnGrid j) ∧
      x = Num.applyPrecisionVec (S box f (init.getD (box.map Prod.snd)) cs).x ∧
      ((S box f (init.getD (box.map Prod.snd)) cs).status = .done → f x = .ok v) ∧ (f x = .ok v ∨ v = ⊤) :=
  minimize_of hS hb init hi cs (fun x => x.length = box.length) (fun _ h _ => inBoxQ_length h) hf hc (by
    intro q hq
    rw [← hS.probes _ _ _ _ q hq]; simp [Num.applyPrecisionVec])

/-- For objectives which are defined within the box, and solvers that do not leave it. -/
theorem minimize_inner {S : Num.Solver} (hS : Inner S) {f : List ℚ → Res ECost} {box : List (ℚ × ℚ)}
    (hb : GridBox box) (init : Option (List ℚ)) (hi : ∀ x ∈ init, x.length = box.length)
    (cs : List (List ℚ → Res Num.Slack)) (hf : ∀ x : List ℚ, InBoxQ box x → ∃ c, f x = .ok c)
    (hc : ∀ c ∈ cs, ∀ x : List ℚ, InBoxQ box x → ∃ v, c x = .ok v) :
    ∃ x v, Num.minimize S f box init cs = .ok (x, v) ∧ InBoxQ box x ∧ (∀ j ∈ x, OnGrid j) ∧
      x = Num.applyPrecisionVec (S box f (init.getD (box.map Prod.snd)) cs).x ∧
      ((S box f (init.getD (box.map Prod.snd)) cs).status = .done → f x = .ok v) ∧ (f x = .ok v ∨ v = ⊤) :=
  minimize_of hS.toSound hb init hi cs (InBoxQ box) (fun _ h _ => h) hf hc
    (fun q hq => inBoxQ_round hb (hS.probed _ _ _ _ (fun b h => (hb b h).1) q hq))

/-! ## Exact solvers exist -/

/-- The grid points of a box. -/
def gridPoints : List (ℚ × ℚ) → List (List ℚ)
  | [] => [[]]
  | b :: box =>
    ((List.range (⌈b.2 * 100⌉ - ⌊b.1 * 100⌋ + 1).toNat).map fun i : Nat => ((⌊b.1 * 100⌋ + (i : Int) : Int) : ℚ) * (1 / 100)).flatMap
      fun j => (gridPoints box).map (j :: ·)

theorem mem_gridPoints {box : List (ℚ × ℚ)} {x : List ℚ} (h : InBoxQ box x) (hx : ∀ j ∈ x, OnGrid j) :
    x ∈ gridPoints box := by
  unfold InBoxQ at h
  induction h with
  | nil => simp [gridPoints]
  | @cons b j box x h1 h2 ih =>
    simp only [gridPoints, List.mem_flatMap, List.mem_map, List.mem_range]
    obtain ⟨z, hz⟩ := hx j (by simp)
    have hf : ⌊b.1 * 100⌋ ≤ z := by
      have : (⌊b.1 * 100⌋ : ℚ) ≤ z := (Int.floor_le _).trans (by rw [hz] at h1; linarith [h1.1])
      exact_mod_cast this
    have hc : z ≤ ⌈b.2 * 100⌉ := by
      have : (z : ℚ) ≤ ⌈b.2 * 100⌉ := le_trans (by rw [hz] at h1; linarith [h1.2]) (Int.le_ceil _)
      exact_mod_cast this
    refine ⟨j, ⟨(z - ⌊b.1 * 100⌋).toNat, by omega, ?_⟩, x, ih fun j hj => hx j (by simp [hj]), rfl⟩
    rw [hz, Int.toNat_of_nonneg (by omega)]
    congr 2
    ring

theorem corner_inBox (box : List (ℚ × ℚ)) (h : ∀ b ∈ box, b.1 ≤ b.2) : InBoxQ box (box.map Prod.fst) := by
  unfold InBoxQ
  induction box with
  | nil => exact .nil
  | cons b box ih => exact .cons ⟨le_refl _, h b (by simp)⟩ (ih fun c hc => h c (by simp [hc]))

theorem exists_best (box : List (ℚ × ℚ)) (f : List ℚ → Res ECost) (cs : List (List ℚ → Res Num.Slack)) :
    ∃ x, (∀ b ∈ box, b.1 ≤ b.2) → InBoxQ box x ∧ (GridBox box → (∀ j ∈ x, OnGrid j) ∧
      ((∃ y, InBoxQ box y ∧ (∀ j ∈ y, OnGrid j) ∧ Meets cs y) → Meets cs x) ∧
      ∀ y c c', InBoxQ box y → (∀ j ∈ y, OnGrid j) → Meets cs y → f x = .ok c → f y = .ok c' → c ≤ c') := by
  classical
  by_cases hne : ∃ y, InBoxQ box y ∧ (∀ j ∈ y, OnGrid j) ∧ Meets cs y
  · let A := (gridPoints box).toFinset.filter fun y => InBoxQ box y ∧ (∀ j ∈ y, OnGrid j) ∧ Meets cs y
    have hA : A.Nonempty := by
      obtain ⟨y, h1, h2, h3⟩ := hne
      exact ⟨y, by simp only [A, Finset.mem_filter, List.mem_toFinset]; exact ⟨mem_gridPoints h1 h2, h1, h2, h3⟩⟩
    let val : List ℚ → ECost := fun y => match f y with
      | .ok c => c
      | .error _ => ⊤
    obtain ⟨x, hx, hmin⟩ := A.exists_min_image val hA
    simp only [A, Finset.mem_filter, List.mem_toFinset] at hx
    refine ⟨x, fun _ => ⟨hx.2.1, fun _ => ⟨hx.2.2.1, fun _ => hx.2.2.2, ?_⟩⟩⟩
    intro y c c' h1 h2 h3 h4 h5
    have := hmin y (by simp only [A, Finset.mem_filter, List.mem_toFinset]; exact ⟨mem_gridPoints h1 h2, h1, h2, h3⟩)
    simpa [val, h4, h5] using this
  · refine ⟨box.map Prod.fst, fun h => ⟨corner_inBox box h, fun hg => ⟨?_, fun h => absurd h hne, ?_⟩⟩⟩
    · intro j hj
      simp only [List.mem_map] at hj
      obtain ⟨b, hb, rfl⟩ := hj
      exact (hg b hb).2.1
    · intro y c c' h1 h2 h3
      exact absurd ⟨y, h1, h2, h3⟩ hne

/-- Exact solvers exist, so hypotheses about them are not vacuous. -/
theorem exists_exact : ∃ S : Num.Solver, Exact S ∧ Inner S := by
  choose X hX using exists_best
  refine ⟨fun box f _ cs => ⟨[], X box f cs, .done⟩, ?_⟩
  have hr : ∀ box f cs, GridBox box → Num.applyPrecisionVec (X box f cs) = X box f cs := fun box f cs hg =>
    applyPrecisionVec_grid ((hX box f cs fun b hb => (hg b hb).1).2 hg).1
  have hs : Sound fun box f _ cs => ⟨[], X box f cs, .done⟩ :=
    ⟨fun box f _ cs h => (hX box f cs h).1, by simp, by simp⟩
  refine ⟨⟨hs, by simp, ?_, ?_⟩, ⟨hs, by simp⟩⟩
  · intro box f _ cs hg h
    rw [hr box f cs hg]
    exact ((hX box f cs fun b hb => (hg b hb).1).2 hg).2.1 h
  · intro box f _ cs hg y c c' h1 h2 h3
    simp only [hr box f cs hg]
    exact ((hX box f cs fun b hb => (hg b hb).1).2 hg).2.2 y c c' h1 h2 h3

end Soco
