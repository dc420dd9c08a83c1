import Verif.Model.Problem
import Verif.Spec.Schedule
import Mathlib.Tactic.Ring
import Mathlib.Tactic.Linarith
import Mathlib.Tactic.Abel

/-! # Lemmas about the objective functions -/

namespace Soco

section mapM
variable {α β γ : Type}

theorem mapM_nil' (f : α → Res β) : ([] : List α).mapM f = .ok [] := by
  simp [List.mapM_nil]; rfl

theorem mapM_cons' (f : α → Res β) (a : α) (l : List α) :
    (a :: l).mapM f = (do let b ← f a; let bs ← l.mapM f; .ok (b :: bs)) := by
  simp [List.mapM_cons]; rfl

theorem mapM_map' (g : γ → α) (f : α → Res β) (l : List γ) :
    (l.map g).mapM f = l.mapM (f ∘ g) := by
  induction l with
  | nil => rfl
  | cons a l ih => simp only [List.map_cons, mapM_cons', ih]; rfl

theorem mapM_congr' {f g : α → Res β} {l : List α} (h : ∀ a ∈ l, f a = g a) :
    l.mapM f = l.mapM g := by
  induction l with
  | nil => rfl
  | cons a l ih =>
    rw [mapM_cons', mapM_cons', h a (by simp), ih fun b hb => h b (by simp [hb])]

end mapM

theorem timeRange_one (n : Nat) :
    timeRange 1 (n : Int) = (List.range n).map fun i : Nat => 1 + (i : Int) := by
  simp [timeRange]

/-- The per-slot results of a function of slot, previous and current configuration. -/
def slotTerms {X β : Type} (f : Int → X → X → Res β) (dflt : X) :
    Nat → Int → X → List X → Res (List β)
  | 0, _, _, _ => .ok []
  | n + 1, t, prev, xs => do
    let c ← f t prev (xs.headD dflt)
    let r ← slotTerms f dflt n (t + 1) (xs.headD dflt) xs.tail
    .ok (c :: r)

theorem mapM_range_slotTerms {X β : Type} (f : Int → X → X → Res β) (dflt : X) (n : Nat) :
    ∀ (t : Int) (prev : X) (xs : List X),
    (List.range n).mapM (fun i : Nat => f (t + (i : Int)) (((prev :: xs)[i]?).getD dflt)
        ((xs[i]?).getD dflt))
      = slotTerms f dflt n t prev xs := by
  induction n with
  | zero => intro t prev xs; rfl
  | succ n ih =>
    intro t prev xs
    rw [List.range_succ_eq_map, mapM_cons', mapM_map', slotTerms]
    have h0 : (xs[0]?).getD dflt = xs.headD dflt := by cases xs <;> rfl
    simp only [Nat.cast_zero, add_zero, List.getElem?_cons_zero, Option.getD_some, h0]
    congr 1
    funext c
    have key : (List.range n).mapM ((fun i : Nat => f (t + (i : Int))
          (((prev :: xs)[i]?).getD dflt) ((xs[i]?).getD dflt)) ∘ Nat.succ)
        = slotTerms f dflt n (t + 1) (xs.headD dflt) xs.tail := by
      rw [← ih]
      apply mapM_congr'
      intro i _
      simp only [Function.comp]
      cases xs with
      | nil =>
        cases i with
        | zero => simp
        | succ i => simp; congr 1; ring
      | cons y ys =>
        simp only [List.headD_cons, List.tail_cons, Nat.succ_eq_add_one,
          List.getElem?_cons_succ]
        congr 1; push_cast; ring
    rw [key]

theorem access_natCast_succ {α : Type} (xs : List α) (i : Nat) :
    access xs ((i : Int) + 1) = xs[i]? := by
  unfold access
  split_ifs with h
  · congr 1; omega
  · have : xs.length ≤ i := by omega
    simp [this]

theorem sumOverSchedule_eq {T C D : Type} [Value T] [OutSuccess C] (n : Nat) (xs : Schedule T)
    (dflt : Config T) (f : Int → Config T → Config T → Res (Cost C D)) :
    sumOverSchedule (n : Int) xs dflt f
      = (slotTerms f dflt n 1 dflt xs).map Cost.sum := by
  unfold sumOverSchedule
  have : (timeRange 1 (n : Int)).mapM (fun t =>
      f t ((xs.get (t - 1)).getD dflt) ((xs.get t).getD dflt))
      = slotTerms f dflt n 1 dflt xs := by
    rw [timeRange_one, mapM_map', ← mapM_range_slotTerms]
    apply mapM_congr'
    intro i _
    simp only [Function.comp, Schedule.get]
    have e1 : access xs (1 + (i : Int)) = xs[i]? := by rw [add_comm, access_natCast_succ]
    have e2 : (access xs (1 + (i : Int) - 1)).getD dflt = ((dflt :: xs)[i]?).getD dflt := by
      cases i with
      | zero => simp [access]
      | succ i =>
        have : (1 + ((i + 1 : Nat) : Int) - 1) = (i : Int) + 1 := by push_cast; ring
        rw [this, access_natCast_succ]; simp
    rw [e1, e2]
  rw [this]
  rfl

section CostSum
variable {C D : Type} [OutSuccess C]

theorem foldl_add_cost (c : Cost C D) (cs : List (Cost C D)) :
    (cs.foldl Cost.add c).cost = c.cost + (cs.map (·.cost)).sum := by
  induction cs generalizing c with
  | nil => simp
  | cons b cs ih => simp [ih, Cost.add, add_assoc]

theorem foldl_add_output (c : Cost C D) (cs : List (Cost C D)) :
    (cs.foldl Cost.add c).output = (cs.map (·.output)).foldl ModelOutput.hstep c.output := by
  induction cs generalizing c with
  | nil => simp
  | cons b cs ih => simp [ih, Cost.add]

theorem Cost.sum_cost (cs : List (Cost C D)) : (Cost.sum cs).cost = (cs.map (·.cost)).sum := by
  cases cs with
  | nil => simp [Cost.sum, Cost.dflt]
  | cons c cs => simp [Cost.sum, foldl_add_cost]

theorem Cost.sum_output (cs : List (Cost C D)) :
    (Cost.sum cs).output = (cs.map (·.output)).foldl ModelOutput.hstep .none := by
  cases cs with
  | nil => simp [Cost.sum, Cost.dflt]
  | cons c cs => simp [Cost.sum, foldl_add_output, ModelOutput.hstep]

end CostSum

section Objective
variable {T C D : Type} [Value T] [OutSuccess C]

/-- The hitting costs of the slots `1..n`, in order. -/
def hitTerms (p : Prob T C D) (dflt : Config T) (n : Nat) (t : Int) (xs : Schedule T) :
    Res (List (Cost C D)) :=
  slotTerms (fun t _ x => p.hitOrNone t x) dflt n t dflt xs

theorem hitTerms_succ (p : Prob T C D) (dflt : Config T) (n : Nat) (t : Int) (xs : Schedule T) :
    hitTerms p dflt (n + 1) t xs = (do
      let c ← p.hitOrNone t (xs.headD dflt)
      let r ← hitTerms p dflt n (t + 1) xs.tail
      .ok (c :: r)) := by
  have aux : ∀ (n : Nat) (t : Int) (prev prev' : Config T) (xs : Schedule T),
      slotTerms (fun t _ x => p.hitOrNone t x) dflt n t prev xs
      = slotTerms (fun t _ x => p.hitOrNone t x)
          dflt n t prev' xs := by
    intro n
    induction n with
    | zero => intros; rfl
    | succ n ih => intro t prev prev' xs; simp only [slotTerms]
  unfold hitTerms
  rw [slotTerms]
  rw [aux n (t + 1) (xs.headD dflt) dflt xs.tail]

/-- The configurations of slots `t, t+1, …` with padding: how the code reads a schedule. -/
theorem padTo_zero {X : Type} (d : X) (xs : List X) : Spec.padTo 0 d xs = [] := by
  simp [Spec.padTo]

theorem padTo_succ {X : Type} (n : Nat) (d : X) (xs : List X) :
    Spec.padTo (n + 1) d xs = xs.headD d :: Spec.padTo n d xs.tail := by
  cases xs with
  | nil => simp [Spec.padTo, List.replicate_succ]
  | cons x xs => simp [Spec.padTo]

theorem padTo_self {X : Type} (d : X) (xs : List X) : Spec.padTo xs.length d xs = xs := by
  simp [Spec.padTo]

theorem slotCost_terms (p : Prob T C D) (dflt : Config T) (α : ℚ) (inv : Bool)
    (mv : Config T → Config T → ℚ) (n : Nat) :
    ∀ (t : Int) (prev : Config T) (xs : Schedule T),
    (∀ y ∈ prev :: Spec.padTo n dflt xs, ∀ x ∈ Spec.padTo n dflt xs,
      p.movement y x inv = .ok (mv y x)) →
    (slotTerms (p.slotCost α inv) dflt n t prev xs).map
        (fun cs => ((cs.map (·.cost)).sum, cs.map (·.output)))
      = (hitTerms p dflt n t xs).map fun hs =>
        ((hs.map (·.cost)).sum + ((α * Spec.totalMove mv prev (Spec.padTo n dflt xs) : ℚ) : ECost),
          hs.map (·.output)) := by
  induction n with
  | zero => intro t prev xs _; simp [slotTerms, hitTerms, Except.map, padTo_zero, Spec.totalMove]
  | succ n ih =>
    intro t prev xs hm
    rw [hitTerms_succ, slotTerms]
    simp only [padTo_succ] at hm ⊢
    have hmv := hm prev (by simp) (xs.headD dflt) (by simp)
    have ih' := ih (t + 1) (xs.headD dflt) xs.tail (by
      intro y hy x hx
      exact hm y (List.mem_cons_of_mem _ hy) x (List.mem_cons_of_mem _ hx))
    simp only [Prob.slotCost, hmv]
    cases hc : p.hitOrNone t (xs.headD dflt) with
    | error e => rfl
    | ok c =>
      simp only [bind, Except.bind]
      cases h1 : slotTerms (p.slotCost α inv) dflt n (t + 1) (xs.headD dflt) xs.tail with
      | error e =>
        rw [h1] at ih'
        cases h2 : hitTerms p dflt n (t + 1) xs.tail with
        | error e' => rw [h2] at ih'; simpa [Except.map] using ih'
        | ok hs => rw [h2] at ih'; simp [Except.map] at ih'
      | ok cs =>
        rw [h1] at ih'
        cases h2 : hitTerms p dflt n (t + 1) xs.tail with
        | error e' => rw [h2] at ih'; simp [Except.map] at ih'
        | ok hs =>
          rw [h2] at ih'
          simp only [Except.map, Except.ok.injEq, Prod.mk.injEq] at ih' ⊢
          obtain ⟨i1, i2⟩ := ih'
          simp only [List.map_cons, List.sum_cons, i1, i2, Spec.totalMove, true_and, and_true,
            mul_add, WithTop.coe_add]
          abel

/-- The objective is the sum of the hitting costs plus `α` times the sum of the movements. -/
theorem objective_decomp (p : Prob T C D) (xs : Schedule T) (dflt : Config T) (α : ℚ) (inv : Bool)
    (n : Nat) (mv : Config T → Config T → ℚ)
    (hm : ∀ y ∈ dflt :: Spec.padTo n dflt xs, ∀ x ∈ Spec.padTo n dflt xs,
      p.movement y x inv = .ok (mv y x)) :
    p.objectiveWithDefault' xs dflt α inv n
      = (hitTerms p dflt n 1 xs).map fun hs =>
        ⟨(hs.map (·.cost)).sum + ((α * Spec.totalMove mv dflt (Spec.padTo n dflt xs) : ℚ) : ECost),
          (Cost.sum hs).output⟩ := by
  have key := slotCost_terms p dflt α inv mv n 1 dflt xs hm
  unfold Prob.objectiveWithDefault'
  rw [sumOverSchedule_eq]
  cases h1 : slotTerms (p.slotCost α inv) dflt n 1 dflt xs with
  | error e =>
    rw [h1] at key
    cases h2 : hitTerms p dflt n 1 xs with
    | error e' => rw [h2] at key; simpa [Except.map] using key
    | ok hs => rw [h2] at key; simp [Except.map] at key
  | ok cs =>
    rw [h1] at key
    cases h2 : hitTerms p dflt n 1 xs with
    | error e' => rw [h2] at key; simp [Except.map] at key
    | ok hs =>
      rw [h2] at key
      simp only [Except.map, Except.ok.injEq, Prod.mk.injEq] at key ⊢
      obtain ⟨i1, i2⟩ := key
      have e1 : (Cost.sum cs).cost = _ := Cost.sum_cost cs
      have e2 : (Cost.sum cs).output = _ := Cost.sum_output cs
      rw [i1] at e1
      rw [i2, ← Cost.sum_output hs] at e2
      cases hcs : Cost.sum cs with
      | mk a b => rw [hcs] at e1 e2; simp only at e1 e2; rw [e1, e2]

theorem hitTerms_ok (p : Prob T C D) (dflt : Config T) (hit : Int → Config T → ECost)
    (n : Nat) : ∀ (t : Int) (xs : Schedule T),
    (∀ s, t ≤ s → s < t + n → ∀ x ∈ Spec.padTo n dflt xs, s ≤ p.tEnd →
      ∃ o, p.hitCost s x = .ok ⟨hit s x, o⟩) →
    ∃ hs, hitTerms p dflt n t xs = .ok hs ∧
      (hs.map (·.cost)).sum
        = Spec.totalHit (fun s x => if s > p.tEnd then 0 else hit s x) t (Spec.padTo n dflt xs) := by
  induction n with
  | zero => intro t xs _; exact ⟨[], rfl, by simp [padTo_zero, Spec.totalHit]⟩
  | succ n ih =>
    intro t xs h
    rw [hitTerms_succ]
    simp only [padTo_succ] at h ⊢
    obtain ⟨hs, h1, h2⟩ := ih (t + 1) xs.tail (by
      intro s hs1 hs2 x hx hT
      exact h s (by omega) (by push_cast; omega) x (List.mem_cons_of_mem _ hx) hT)
    by_cases ht : t > p.tEnd
    · refine ⟨Cost.dflt :: hs, ?_, ?_⟩
      · simp [Prob.hitOrNone, ht, h1, bind, Except.bind]
      · simp [ht, h2, Cost.dflt, Spec.totalHit]
    · obtain ⟨o, ho⟩ := h t (by omega) (by push_cast; omega) (xs.headD dflt) (by simp) (by omega)
      refine ⟨⟨hit t (xs.headD dflt), o⟩ :: hs, ?_, ?_⟩
      · simp only [Prob.hitOrNone, ht, h1, ho, bind, Except.bind, if_false]
      · simp [ht, h2, Spec.totalHit]

theorem totalCost_eq {X : Type} (hit : Int → X → ECost) (mv : X → X → ℚ) (α : ℚ) (t : Int)
    (prev : X) (xs : List X) :
    Spec.totalCost hit mv α t prev xs
      = Spec.totalHit hit t xs + ((α * Spec.totalMove mv prev xs : ℚ) : ECost) := by
  induction xs generalizing t prev with
  | nil => simp [Spec.totalCost, Spec.totalHit, Spec.totalMove]
  | cons x xs ih =>
    simp only [Spec.totalCost, Spec.totalHit, Spec.totalMove, ih, mul_add, WithTop.coe_add]
    abel

end Objective

section Movement
variable {T : Type} [Value T]

theorem toQ_sub (x y : T) : toQ (x - y) = toQ x - toQ y := by simp [toQ]
theorem toQ_zero : toQ (0 : T) = 0 := by simp [toQ]
theorem toQ_lt {x y : T} : toQ x < toQ y ↔ x < y := Value.toQ_mono.lt_iff_lt
theorem toQ_le {x y : T} : toQ x ≤ toQ y ↔ x ≤ y := Value.toQ_mono.le_iff_le
theorem toQ_nonneg {x : T} : 0 ≤ toQ x ↔ 0 ≤ x := by rw [← toQ_zero (T := T)]; exact toQ_le
theorem toQ_max (x y : T) : toQ (max x y) = max (toQ x) (toQ y) := by
  rcases le_total x y with h | h
  · rw [max_eq_right h, max_eq_right (toQ_le.2 h)]
  · rw [max_eq_left h, max_eq_left (toQ_le.2 h)]

theorem umax_eq (x y : T) : umax x y = max x y := by
  unfold umax; split_ifs with h
  · rw [max_eq_left h.le]
  · rw [max_eq_right (not_lt.1 h)]

theorem umin_eq (x y : T) : umin x y = min x y := by
  unfold umin; split_ifs with h
  · rw [min_eq_right h.le]
  · rw [min_eq_left (not_lt.1 h)]

theorem pos_eq (x : T) : pos x = max 0 x := umax_eq 0 x

theorem toQ_pos (x : T) : toQ (pos x) = max 0 (toQ x) := by rw [pos_eq, toQ_max, toQ_zero]

/-- `scaled_movement` computes the switching cost when the vectors are long enough. -/
theorem scaledMovement_ok (β : List ℚ) (x y : Config T) (inv : Bool)
    (h1 : x.length ≤ y.length) (h2 : x.length ≤ β.length) :
    scaledMovement β x y inv = .ok (Spec.moveCost inv β (y.take x.length) x) := by
  induction x generalizing y β with
  | nil =>
    have : Spec.moveCost inv β ([] : List T) [] = 0 := by
      cases inv <;> cases β <;> simp [Spec.moveCost, Spec.upCost, Spec.downCost, List.zipWith3]
    simp [scaledMovement, movementVec, weightedSum, bind, Except.bind, this]
  | cons j x ih =>
    cases y with
    | nil => simp at h1
    | cons pj y =>
      cases β with
      | nil => simp at h2
      | cons b β =>
        have ih' := ih β y (by simpa using h1) (by simpa using h2)
        simp only [scaledMovement, movementVec, bind, Except.bind] at ih' ⊢
        cases hm : movementVec x y inv with
        | error e => rw [hm] at ih'; simp at ih'
        | ok m =>
          rw [hm] at ih'
          simp only at ih' ⊢
          simp only [weightedSum, ih', bind, Except.bind, List.length_cons, List.take_succ_cons]
          congr 1
          cases inv <;>
            simp [Spec.moveCost, Spec.upCost, Spec.downCost, List.zipWith3, scalarMovement,
              toQ_pos, toQ_sub]

theorem scaledMovement_eq (β : List ℚ) (x y : Config T) (inv : Bool)
    (h1 : x.length = y.length) (h2 : x.length ≤ β.length) :
    scaledMovement β x y inv = .ok (Spec.moveCost inv β y x) := by
  rw [scaledMovement_ok β x y inv h1.le h2, h1, List.take_length]

theorem upCost_sub_downCost (β : List ℚ) (y x : List T) (h1 : x.length = y.length) :
    Spec.upCost β y x = Spec.downCost β y x + (Spec.weighted β x - Spec.weighted β y) := by
  induction x generalizing y β with
  | nil =>
    cases y with
    | nil => cases β <;> simp [Spec.upCost, Spec.downCost, Spec.weighted, List.zipWith3]
    | cons _ _ => simp at h1
  | cons j x ih =>
    cases y with
    | nil => simp at h1
    | cons pj y =>
      cases β with
      | nil => simp [Spec.upCost, Spec.downCost, Spec.weighted, List.zipWith3]
      | cons b β =>
        have ih' := ih β y (by simpa using h1)
        simp only [Spec.upCost, Spec.downCost, Spec.weighted, List.zipWith3, List.zipWith_cons_cons,
          List.sum_cons] at ih' ⊢
        have : max 0 (toQ j - toQ pj) = max 0 (toQ pj - toQ j) + (toQ j - toQ pj) := by
          rcases le_total (toQ j) (toQ pj) with h | h
          · rw [max_eq_left (by linarith), max_eq_right (by linarith)]; ring
          · rw [max_eq_right (by linarith), max_eq_left (by linarith)]; ring
        rw [this]
        linarith

theorem weighted_zero (β : List ℚ) (n : Nat) :
    Spec.weighted β (List.replicate n (0 : T)) = 0 := by
  induction n generalizing β with
  | zero => cases β <;> simp [Spec.weighted]
  | succ n ih =>
    cases β with
    | nil => simp [Spec.weighted]
    | cons b β =>
      have := ih β
      unfold Spec.weighted at this ⊢
      simp [List.replicate_succ, toQ_zero, this]

end Movement

end Soco
