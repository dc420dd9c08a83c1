import Verif.Props.Rbg2
import Verif.Model.RbgThreads
import Mathlib.Logic.Hydra

/-! # C93: several runs of randomly biased greedy in one process -/

namespace Soco
namespace Rbg
open Spec Num Descent

/-! ## Programs -/

theorem Prog.andThen_assoc {α β γ : Type} (p : Prog α) (f : α → Prog β) (g : β → Prog γ) :
    (p.andThen f).andThen g = p.andThen fun a => (f a).andThen g := by
  induction p with
  | done r => cases r <;> rfl
  | clear k ih => simp only [Prog.andThen, ih]
  | look t x k ih => simp only [Prog.andThen, ih]
  | store t x v k ih => simp only [Prog.andThen, ih]

/-- A program which has the result `g` whenever the values it finds in the cache are those of `W`, and which only stores
values of `W`. -/
inductive Follows (W : Nat → List ℚ → Res ECost) {α : Type} : Prog α → Res α → Prop where
  | done (g : Res α) : Follows W (.done g) g
  | clear (k : Prog α) (g : Res α) (h : Follows W k g) : Follows W (.clear k) g
  | look (t : Nat) (x : List ℚ) (k : Option ECost → Prog α) (g : Res α) (h : ∀ v, W t x = .ok v → Follows W (k (some v)) g)
      (h0 : Follows W (k none) g) : Follows W (.look t x k) g
  | store (t : Nat) (x : List ℚ) (v : ECost) (k : Prog α) (g : Res α) (hv : W t x = .ok v) (h : Follows W k g) :
      Follows W (.store t x v k) g

theorem Follows.andThen {W : Nat → List ℚ → Res ECost} {α β : Type} {p : Prog α} {g : Res α} (h : Follows W p g)
    {f : α → Prog β} {f' : α → Res β} (hf : ∀ a, g = .ok a → Follows W (f a) (f' a)) : Follows W (p.andThen f) (g >>= f') := by
  induction h with
  | done g =>
    cases g with
    | error e => exact .done _
    | ok a => exact hf a rfl
  | clear k g h ih => exact .clear _ _ (ih hf)
  | look t x k g h h0 ih ih0 => exact .look _ _ _ _ (fun v hv => ih v hv hf) (ih0 hf)
  | store t x v k g hv h ih => exact .store _ _ _ _ _ hv (ih hf)

/-- The invariant of a process: all entries of the cache are values of `W`. -/
def Holds (W : Nat → List ℚ → Res ECost) (c : Cache) : Prop := ∀ t x v, c t x = some v → W t x = .ok v

theorem Access.keeps {W : Nat → List ℚ → Res ECost} {α : Type} {p p' : Prog α} {c c' : Cache} (h : Access p c p' c') {g : Res α}
    (hp : Follows W p g) (hc : Holds W c) : Follows W p' g ∧ Holds W c' := by
  cases h with
  | clear k c =>
    cases hp with
    | clear _ _ h => exact ⟨h, fun t x v hv => by simp [Cache.clear, Cache.empty] at hv⟩
  | look t x k c =>
    cases hp with
    | look _ _ _ _ h h0 =>
      refine ⟨?_, hc⟩
      cases hl : c t x with
      | none => exact h0
      | some v => exact h v (hc t x v hl)
  | store t x v k c c' hc' =>
    cases hp with
    | store _ _ _ _ _ hv h =>
      refine ⟨h, fun s y u hu => ?_⟩
      have := hc' s y u hu
      unfold Cache.set at this
      split at this
      · rename_i e
        cases this
        rw [e.1, e.2, hv]
      · exact hc s y u this

theorem steps_keep {W : Nat → List ℚ → Res ECost} {α : Type} {w w' : Process α} (h : Relation.ReflTransGen Process.Step w w')
    (gs : List (Res α)) (hw : List.Forall₂ (Follows W) w.threads gs) (hc : Holds W w.cache) :
    List.Forall₂ (Follows W) w'.threads gs ∧ Holds W w'.cache := by
  induction h with
  | refl => exact ⟨hw, hc⟩
  | tail _ hs ih =>
    obtain ⟨i1, i2⟩ := ih
    cases hs with
    | mk i p p' c' hp ha =>
      rw [List.forall₂_iff_get] at i1 ⊢
      obtain ⟨hl, i1⟩ := i1
      rw [List.getElem?_eq_some_iff] at hp
      obtain ⟨hi, hp⟩ := hp
      have hk := ha.keeps (by simpa [hp] using i1 i hi (hl ▸ hi)) i2
      refine ⟨⟨by simpa using hl, ?_⟩, hk.2⟩
      intro j h1 h2
      by_cases hj : i = j
      · subst hj
        simpa using hk.1
      · have := i1 j (by simpa using h1) h2
        simpa [hj] using this

/-! ## Every schedule ends -/

theorem access_wf {α : Type} : WellFounded fun p' p : Prog α => ∃ c c', Access p c p' c' := by
  refine ⟨fun p => ?_⟩
  induction p with
  | done r => exact ⟨_, fun q hq => by obtain ⟨c, c', h⟩ := hq; cases h⟩
  | clear k ih => exact ⟨_, fun q hq => by obtain ⟨c, c', h⟩ := hq; cases h; exact ih⟩
  | look t x k ih => exact ⟨_, fun q hq => by obtain ⟨c, c', h⟩ := hq; cases h; exact ih _⟩
  | store t x v k ih => exact ⟨_, fun q hq => by obtain ⟨c, c', h⟩ := hq; cases h; exact ih⟩

theorem step_wf {α : Type} : WellFounded fun w' w : Process α => Process.Step w w' := by
  refine Subrelation.wf (r := InvImage (Relation.CutExpand fun p' p : Prog α => ∃ c c', Access p c p' c')
    fun w => (w.threads : Multiset (Prog α))) ?_ (InvImage.wf _ access_wf.cutExpand)
  intro w' w h
  cases h with
  | mk i p p' c' hp ha =>
    refine ⟨{p'}, p, by simpa using ⟨_, _, ha⟩, ?_⟩
    rw [List.getElem?_eq_some_iff] at hp
    obtain ⟨hi, hp⟩ := hp
    have e1 : w.threads = w.threads.take i ++ p :: w.threads.drop (i + 1) := by
      rw [← hp]; simp
    have e2 : w.threads.set i p' = w.threads.take i ++ p' :: w.threads.drop (i + 1) := by
      rw [List.set_eq_take_append_cons_drop, if_pos hi]
    show ((w.threads.set i p' : List _) : Multiset (Prog α)) + {p} = (w.threads : Multiset _) + {p'}
    rw [e2]
    conv_rhs => rw [e1]
    rw [← Multiset.coe_singleton, ← Multiset.coe_singleton, Multiset.coe_add, Multiset.coe_add, Multiset.coe_eq_coe]
    simp only [List.append_assoc, List.cons_append]
    refine (List.Perm.append_left _ ?_)
    exact (List.perm_append_singleton p _).cons p' |>.trans (List.Perm.swap _ _ _) |>.trans
      ((List.perm_append_singleton p' _).symm.cons p)

/-- A thread which is not done can go on, whatever the other threads did. -/
theorem not_stuck {α : Type} (w : Process α) (p : Prog α) (hp : p ∈ w.threads) (hd : ∀ r, p ≠ .done r) : ∃ w', Process.Step w w' := by
  obtain ⟨i, hi⟩ := List.mem_iff_getElem?.1 hp
  cases p with
  | done r => exact absurd rfl (hd r)
  | clear k => exact ⟨_, .mk w i _ _ _ hi (.clear k w.cache)⟩
  | look t x k => exact ⟨_, .mk w i _ _ _ hi (.look t x k w.cache)⟩
  | store t x v k => exact ⟨_, .mk w i _ _ _ hi (.store t x v k w.cache _ fun _ _ _ h => h)⟩

/-! ## The algorithm as a program -/

theorem prog_follows {W : Nat → List ℚ → Res ECost} (f : List ℚ → Prog ECost) (g : List ℚ → Res ECost) (a0 : Answer)
    (h : ∀ y, Follows W (f y) (g y)) (s : Strategy) :
    Follows W (s.prog f) (visit g [] (answer a0 g s).probes >>= fun _ => .ok ((answer a0 g s).x, (answer a0 g s).status)) := by
  induction s with
  | stop x s => exact .done _
  | ask y k ih =>
    have := (h (applyPrecisionVec y)).andThen (f := fun v => (k v).prog f)
      (f' := fun v => visit g [] (answer a0 g (k v)).probes >>= fun _ => .ok ((answer a0 g (k v)).x, (answer a0 g (k v)).status))
      fun v _ => ih v
    simp only [Strategy.prog]
    convert this using 1
    cases hg : g (applyPrecisionVec y) with
    | error e => simp [answer, hg, visit, bind, Except.bind]
    | ok v => simp [answer, hg, visit, bind, Except.bind, pure, Except.pure]

theorem minimizeT_follows {W : Nat → List ℚ → Res ECost} (P : Player) (S0 : Solver) (f : List ℚ → Prog ECost) (g : List ℚ → Res ECost)
    (h : ∀ y, Follows W (f y) (g y)) (bounds : List (ℚ × ℚ)) :
    Follows W (minimizeT P f bounds) (minimize (solverOf P S0) g bounds none []) := by
  have h1 := prog_follows f g (S0 bounds g (bounds.map Prod.snd) []) h (P bounds (bounds.map Prod.snd))
  have := h1.andThen (f := fun r =>
    if r.2 = .failed then .done (.error .panic)
    else (f (applyPrecisionVec r.1)).andThen fun v =>
      .done (.ok (applyPrecisionVec r.1, if r.2 = .timedOut then ⊤ else v)))
    (f' := fun r => if r.2 = .failed then .error .panic else g (applyPrecisionVec r.1) >>= fun v =>
      .ok (applyPrecisionVec r.1, if r.2 = .timedOut then ⊤ else v)) (by
    intro r _
    split
    · exact .done _
    · exact (h _).andThen fun v _ => .done _)
  unfold minimizeT
  convert this using 1
  have e : ∀ x0, solverOf P S0 bounds g x0 [] = answer (S0 bounds g x0 []) g (P bounds x0) := fun _ => rfl
  unfold minimize
  simp only [Option.getD_none, List.length_map, beq_self_eq_true, assertP, if_true, bind, Except.bind, e]
  cases visit g [] (answer (S0 bounds g (bounds.map Prod.snd) []) g (P bounds (bounds.map Prod.snd))).probes with
  | error e => rfl
  | ok u =>
    generalize answer (S0 bounds g (bounds.map Prod.snd) []) g (P bounds (bounds.map Prod.snd)) = a
    by_cases hs : a.status = .failed
    · simp [hs]
    · have : (a.status != Status.failed) = true := by simpa using hs
      simp only [this, if_true, hs, if_false]

theorem memoT_follows {W : Nat → List ℚ → Res ECost} (t : Nat) (x : List ℚ) (p : Prog ECost) (h : Follows W p (W t x)) :
    Follows W (memoT t x p) (W t x) := by
  refine .look _ _ _ _ (fun v hv => by rw [hv]; exact .done _) ?_
  have := h.andThen (f := fun v => .store t x v (.done (.ok v))) (f' := fun v => .ok v)
    fun v hv => .store _ _ _ _ _ hv (.done _)
  convert this using 1
  cases W t x <;> rfl

theorem workT_follows (P : Player) (S0 : Solver) (bounds : List (ℚ × ℚ)) (hit hit' : Int → List ℚ → Res ECost)
    (sw : List ℚ → Res ℚ) (θ : ℚ) (t : Nat) (hh : ∀ s : Nat, 1 ≤ s → s ≤ t → hit' s = hit s) :
    ∀ x, Follows (workP (solverOf P S0) bounds hit sw θ) (workT P bounds hit' sw θ t x) (workP (solverOf P S0) bounds hit sw θ t x) := by
  induction t with
  | zero =>
    intro x
    exact memoT_follows _ _ _ (.done _)
  | succ t ih =>
    intro x
    refine memoT_follows _ _ _ ?_
    refine (minimizeT_follows P S0 _ (fun y => do
        let a ← workP (solverOf P S0) bounds hit sw θ t y
        let b ← hit ((t + 1 : Nat) : Int) y
        let m ← sw (Config.sub x y)
        .ok (a + b + ((θ * m : ℚ) : ECost))) ?_ bounds).andThen (f' := fun r => .ok r.2) fun r _ => .done _
    intro y
    refine (ih (fun s h1 h2 => hh s h1 (by omega)) y).andThen fun a _ => ?_
    rw [hh (t + 1) (by omega) le_rfl]
    exact .done _

section
variable {C D : Type} [OutSuccess C] [OutFailure D]

theorem rbgT_follows (P : Player) (S0 : Solver) (hit : Int → List ℚ → Res ECost) (bounds : List (ℚ × ℚ)) (sw : List ℚ → Res ℚ) (θ : ℚ)
    (o : Online (SCO ℚ C D)) (t : Nat) (r : ℚ) (hb : o.p.bounds = bounds) (hs : o.p.switchingCost = sw)
    (hh : ∀ s : Nat, 1 ≤ s → s ≤ t → hitOf o.p s = hit s) (evict : Cache → Cache)
    (hev : ∀ c t x v, evict c t x = some v → c t x = some v) (draw : Online (SCO ℚ C D) → ℚ) (world : Cache) (xs : Schedule ℚ) :
    Follows (workP (solverOf P S0) bounds hit sw θ) (rbgT P θ o t r) (((rbg P evict θ draw world).call o t xs r).map Prod.fst) := by
  by_cases hw : o.w = 0
  swap
  · have : (rbg P evict θ draw world).call o t xs r = .error (.fail (.unsupportedPredictionWindow o.w)) := by
      simp [rbg, assertR, hw, bind, Except.bind]
    rw [this, rbgT, if_neg hw]
    exact .done _
  by_cases hd : o.p.d = 1
  swap
  · have : (rbg P evict θ draw world).call o t xs r = .error (.fail (.unsupportedProblemDimension o.p.d)) := by
      simp [rbg, assertR, hw, hd, bind, Except.bind]
    rw [this, rbgT, if_pos hw, if_neg hd]
    exact .done _
  rw [C51_step_without_cache P S0 evict hev θ draw world o hw hd, rbgT, if_pos hw, if_pos hd]
  refine .clear _ _ ?_
  have := (minimizeT_follows (W := workP (solverOf P S0) bounds hit sw θ) P S0 (fun x =>
        (workT P o.p.bounds (hitOf o.p) o.p.switchingCost θ ((t : Int) + 1 - 1).toNat x).andThen fun a => .done (do
          let m ← o.p.switchingCost x
          .ok (a + ((r * θ * m : ℚ) : ECost)))) (fun x => do
        let a ← workP (solverOf P S0) o.p.bounds (hitOf o.p) o.p.switchingCost θ t x
        let m ← o.p.switchingCost x
        .ok (a + ((r * θ * m : ℚ) : ECost))) (by
      intro y
      rw [add_sub_cancel_right, Int.toNat_natCast, hb, hs]
      refine Follows.andThen (g := workP (solverOf P S0) bounds (hitOf o.p) sw θ t y) ?_ fun a _ => .done _
      have h1 := workT_follows P S0 bounds hit (hitOf o.p) sw θ t hh y
      have h2 : ∀ (t : Nat), (∀ s : Nat, 1 ≤ s → s ≤ t → hitOf o.p s = hit s) → ∀ y,
          workP (solverOf P S0) bounds (hitOf o.p) sw θ t y = workP (solverOf P S0) bounds hit sw θ t y := by
        intro t
        induction t with
        | zero => intro _ y; rfl
        | succ t ih =>
          intro hh y
          unfold workP
          rw [hh (t + 1) (by omega) le_rfl]
          simp only [ih fun s h1 h2 => hh s h1 (by omega)]
      rw [h2 t hh y]
      exact h1) o.p.bounds).andThen (f := fun res => .done (do
            let x ← idx res.1 0
            .ok [x])) (f' := fun res => do
            let x ← idx res.1 0
            .ok [x]) fun res _ => .done _
  convert this using 1
  simp only [rbgP]
  generalize minimize _ _ _ _ _ = M
  cases M with
  | error e => rfl
  | ok res =>
    show Except.map Prod.fst (Except.map _ (idx res.1 0)) = (idx res.1 0 >>= fun x => .ok [x])
    cases idx res.1 0 <;> rfl

/-- What is run in a thread: a step of the algorithm for an instance, in a slot, with a bias. -/
structure Job (C D : Type) where
  o : Online (SCO ℚ C D)
  t : Nat
  r : ℚ

/-- **C93** (partial). Any number of steps run at the same time, for the same problem, in the same or in different slots, with
the same or with different biases. Whatever order the threads access the global cache in, whatever is in the cache in the
beginning, and whatever the cache forgets, every schedule comes to an end, no thread gets stuck, and a thread which is done has
the result it has alone. Missing: runs for different problems, see `C93_counterexample`. -/
theorem C93_same_problem_partial (P : Player) (S0 : Solver) (θ : ℚ) (bounds : List (ℚ × ℚ)) (hit : Int → List ℚ → Res ECost)
    (sw : List ℚ → Res ℚ) (jobs : List (Job C D)) (hjobs : ∀ j ∈ jobs, j.o.p.bounds = bounds ∧ j.o.p.switchingCost = sw ∧
      ∀ s : Nat, 1 ≤ s → s ≤ j.t → hitOf j.o.p s = hit s) (c : Cache) :
    (∀ w, Relation.ReflTransGen Process.Step ⟨jobs.map fun j => rbgT P θ j.o j.t j.r, c⟩ w →
      (∀ (i : Nat) j res, jobs[i]? = some j → w.threads[i]? = some (.done res) →
        ∀ (evict : Cache → Cache) (_ : ∀ c t x v, evict c t x = some v → c t x = some v) draw world xs,
          res = ((rbg P evict θ draw world).call j.o j.t xs j.r).map Prod.fst) ∧
      ((∃ p ∈ w.threads, ∀ r, p ≠ .done r) → ∃ w', Process.Step w w')) ∧
    ¬ ∃ ws : Nat → Process (Config ℚ), ∀ n, Process.Step (ws n) (ws (n + 1)) := by
  refine ⟨fun w hw => ⟨?_, fun ⟨p, hp, hd⟩ => not_stuck w p hp hd⟩, ?_⟩
  · intro i j res hj hi evict hev draw world xs
    have hall : List.Forall₂ (Follows (workP (solverOf P S0) bounds hit sw θ)) (jobs.map fun j => rbgT P θ j.o j.t j.r)
        (jobs.map fun j => ((rbg P evict θ draw world).call j.o j.t xs j.r).map Prod.fst) := by
      rw [List.forall₂_map_left_iff, List.forall₂_map_right_iff, List.forall₂_same]
      intro j hj
      obtain ⟨h1, h2, h3⟩ := hjobs j hj
      exact rbgT_follows P S0 hit bounds sw θ j.o j.t j.r h1 h2 h3 evict hev draw world xs
    have hres : List.Forall₂ (Follows (workP (solverOf P S0) bounds hit sw θ)) w.threads
        (jobs.map fun j => ((rbg P evict θ draw world).call j.o j.t xs j.r).map Prod.fst) := by
      rcases hw.cases_head with rfl | ⟨w1, hs, hw1⟩
      · exact hall
      · have h0 : Holds (workP (solverOf P S0) bounds hit sw θ) Cache.empty := fun t x v hv => by simp [Cache.empty] at hv
        have hs' : Process.Step ⟨jobs.map fun j => rbgT P θ j.o j.t j.r, Cache.empty⟩ w1 := by
          cases hs with
          | mk i p p' c' hp ha =>
            have : c' = Cache.empty ∧ Access p Cache.empty p' Cache.empty := by
              simp only [List.getElem?_map, Option.map_eq_some_iff] at hp
              obtain ⟨j, -, rfl⟩ := hp
              revert ha
              unfold rbgT
              split
              · split
                · intro ha
                  cases ha
                  exact ⟨rfl, .clear _ _⟩
                · intro ha; cases ha
              · intro ha; cases ha
            obtain ⟨rfl, ha'⟩ := this
            exact .mk _ i p p' _ hp ha'
        exact (steps_keep (.head hs' hw1) _ hall h0).1
    rw [List.forall₂_iff_get] at hres
    obtain ⟨hl, hres⟩ := hres
    rw [List.getElem?_eq_some_iff] at hi hj
    obtain ⟨hi, ei⟩ := hi
    obtain ⟨hj, ej⟩ := hj
    have := hres i hi (by simpa using hj)
    simp only [List.get_eq_getElem, ei, List.getElem_map, ej] at this
    cases this
    rfl
  · rintro ⟨ws, h⟩
    exact (wellFounded_iff_isEmpty_descending_chain.1 step_wf).elim ⟨ws, h⟩

end

/-! ## A thread which is not interrupted -/

/-- A thread runs to its end without interruption; nothing is forgotten. -/
inductive Exec {α : Type} : Prog α → Cache → Res α → Cache → Prop where
  | done (r : Res α) (c : Cache) : Exec (.done r) c r c
  | clear (k : Prog α) (c : Cache) (r : Res α) (c' : Cache) (h : Exec k c.clear r c') : Exec (.clear k) c r c'
  | look (t : Nat) (x : List ℚ) (k : Option ECost → Prog α) (c : Cache) (r : Res α) (c' : Cache) (h : Exec (k (c t x)) c r c') :
      Exec (.look t x k) c r c'
  | store (t : Nat) (x : List ℚ) (v : ECost) (k : Prog α) (c : Cache) (r : Res α) (c' : Cache) (h : Exec k (c.set t x v) r c') :
      Exec (.store t x v k) c r c'

theorem exec_total {α : Type} (p : Prog α) : ∀ c, ∃ r c', Exec p c r c' := by
  induction p with
  | done r => exact fun c => ⟨r, c, .done r c⟩
  | clear k ih => exact fun c => let ⟨r, c', h⟩ := ih c.clear; ⟨r, c', .clear _ _ _ _ h⟩
  | look t x k ih => exact fun c => let ⟨r, c', h⟩ := ih (c t x) c; ⟨r, c', .look _ _ _ _ _ _ h⟩
  | store t x v k ih => exact fun c => let ⟨r, c', h⟩ := ih (c.set t x v); ⟨r, c', .store _ _ _ _ _ _ _ h⟩

theorem Exec.andThen {α β : Type} {p : Prog α} {c : Cache} {g : Res α} {c1 : Cache} (h : Exec p c g c1) {f : α → Prog β}
    {f' : α → Res β} (hf : ∀ a, g = .ok a → Exec (f a) c1 (f' a) c1) : Exec (p.andThen f) c (g >>= f') c1 := by
  induction h with
  | done r c =>
    cases r with
    | error e => exact .done _ _
    | ok a => exact hf a rfl
  | clear k c r c' h ih => exact .clear _ _ _ _ (ih hf)
  | look t x k c r c' h ih => exact .look _ _ _ _ _ _ (ih hf)
  | store t x v k c r c' h ih => exact .store _ _ _ _ _ _ _ (ih hf)

theorem Exec.of_andThen {α β : Type} {p : Prog α} {f : α → Prog β} : ∀ {c : Cache} {r : Res β} {c' : Cache},
    Exec (p.andThen f) c r c' → (∃ a c1, Exec p c (.ok a) c1 ∧ Exec (f a) c1 r c') ∨ ∃ e, r = .error e ∧ Exec p c (.error e) c' := by
  induction p with
  | done g =>
    intro c r c' h
    cases g with
    | ok a => exact Or.inl ⟨a, c, .done _ _, h⟩
    | error e => cases h; exact Or.inr ⟨e, rfl, .done _ _⟩
  | clear k ih =>
    intro c r c' h
    cases h with
    | clear _ _ _ _ h =>
      rcases ih h with ⟨a, c1, h1, h2⟩ | ⟨e, h1, h2⟩
      · exact Or.inl ⟨a, c1, .clear _ _ _ _ h1, h2⟩
      · exact Or.inr ⟨e, h1, .clear _ _ _ _ h2⟩
  | look t x k ih =>
    intro c r c' h
    cases h with
    | look _ _ _ _ _ _ h =>
      rcases ih _ h with ⟨a, c1, h1, h2⟩ | ⟨e, h1, h2⟩
      · exact Or.inl ⟨a, c1, .look _ _ _ _ _ _ h1, h2⟩
      · exact Or.inr ⟨e, h1, .look _ _ _ _ _ _ h2⟩
  | store t x v k ih =>
    intro c r c' h
    cases h with
    | store _ _ _ _ _ _ _ h =>
      rcases ih h with ⟨a, c1, h1, h2⟩ | ⟨e, h1, h2⟩
      · exact Or.inl ⟨a, c1, .store _ _ _ _ _ _ _ h1, h2⟩
      · exact Or.inr ⟨e, h1, .store _ _ _ _ _ _ _ h2⟩

theorem exec_follows {W : Nat → List ℚ → Res ECost} {α : Type} {p : Prog α} {c : Cache} {r : Res α} {c' : Cache} (h : Exec p c r c')
    {g : Res α} (hp : Follows W p g) (hc : Holds W c) : r = g ∧ Holds W c' := by
  induction h with
  | done r c => cases hp; exact ⟨rfl, hc⟩
  | clear k c r c' h ih =>
    have := (Access.clear k c).keeps hp hc
    exact ih this.1 this.2
  | look t x k c r c' h ih =>
    have := (Access.look t x k c).keeps hp hc
    exact ih this.1 this.2
  | store t x v k c r c' h ih =>
    have := (Access.store t x v k c _ fun _ _ _ h => h).keeps hp hc
    exact ih this.1 this.2

/-- A run without interruption is a schedule. -/
theorem exec_steps {α : Type} {p : Prog α} {c : Cache} {r : Res α} {c' : Cache} (h : Exec p c r c') :
    ∀ (ts : List (Prog α)) (i : Nat), ts[i]? = some p →
      Relation.ReflTransGen Process.Step (⟨ts, c⟩ : Process α) ⟨ts.set i (.done r), c'⟩ := by
  have next : ∀ (ts : List (Prog α)) (i : Nat) (p q : Prog α), ts[i]? = some p → (ts.set i q)[i]? = some q := by
    intro ts i p q h
    rw [List.getElem?_eq_some_iff] at h
    simp [h.1]
  induction h with
  | done r c =>
    intro ts i hi
    have : ts.set i (.done r) = ts := by
      rw [List.getElem?_eq_some_iff] at hi
      obtain ⟨h1, h2⟩ := hi
      rw [← h2]
      exact List.set_getElem_self h1
    rw [this]
  | clear k c r c' h ih =>
    intro ts i hi
    have := ih (ts.set i k) i (next _ _ _ _ hi)
    rw [List.set_set] at this
    exact .head (.mk ⟨ts, c⟩ i _ _ _ hi (.clear k c)) this
  | look t x k c r c' h ih =>
    intro ts i hi
    have := ih (ts.set i _) i (next _ _ _ _ hi)
    rw [List.set_set] at this
    exact .head (.mk ⟨ts, c⟩ i _ _ _ hi (.look t x k c)) this
  | store t x v k c r c' h ih =>
    intro ts i hi
    have := ih (ts.set i k) i (next _ _ _ _ hi)
    rw [List.set_set] at this
    exact .head (.mk ⟨ts, c⟩ i _ _ _ hi (.store t x v k c _ fun _ _ _ h => h)) this

/-- The program forgets nothing. -/
def Grows {α : Type} (p : Prog α) : Prop := ∀ c r c', Exec p c r c' → ∀ t x, (c t x).isSome → (c' t x).isSome

theorem Grows.andThen {α β : Type} {p : Prog α} {f : α → Prog β} (hp : Grows p) (hf : ∀ a, Grows (f a)) : Grows (p.andThen f) := by
  intro c r c' h t x hx
  rcases h.of_andThen with ⟨a, c1, h1, h2⟩ | ⟨e, -, h1⟩
  · exact hf a _ _ _ h2 t x (hp _ _ _ h1 t x hx)
  · exact hp _ _ _ h1 t x hx

theorem grows_done {α : Type} (r : Res α) : Grows (.done r) := by
  intro c r c' h t x hx
  cases h
  exact hx

theorem set_isSome (c : Cache) (t : Nat) (x : List ℚ) (v : ECost) (s : Nat) (y : List ℚ) (h : (c s y).isSome) :
    (c.set t x v s y).isSome := by
  unfold Cache.set
  split
  · rfl
  · exact h

theorem memoT_grows (t : Nat) (x : List ℚ) (p : Prog ECost) (hp : Grows p) : Grows (memoT t x p) ∧
    ∀ c v c', Exec (memoT t x p) c (.ok v) c' → (c' t x).isSome := by
  refine ⟨?_, ?_⟩
  · intro c r c' h s y hy
    cases h with
    | look _ _ _ _ _ _ h =>
      cases hl : c t x with
      | some v =>
        rw [hl] at h
        cases h
        exact hy
      | none =>
        rw [hl] at h
        refine hp.andThen (f := fun v => .store t x v (.done (.ok v))) ?_ _ _ _ h s y hy
        intro v c r c' h s y hy
        cases h with
        | store _ _ _ _ _ _ _ h => cases h; exact set_isSome _ _ _ _ _ _ hy
  · intro c v c' h
    cases h with
    | look _ _ _ _ _ _ h =>
      cases hl : c t x with
      | some v =>
        rw [hl] at h
        cases h
        rw [hl]
        rfl
      | none =>
        rw [hl] at h
        rcases h.of_andThen with ⟨a, c1, -, h2⟩ | ⟨e, h1, -⟩
        · cases h2 with
          | store _ _ _ _ _ _ _ h => cases h; simp [Cache.set]
        · cases h1

theorem prog_grows (f : List ℚ → Prog ECost) (h : ∀ y, Grows (f y)) (s : Strategy) : Grows (s.prog f) := by
  induction s with
  | stop x s => exact grows_done _
  | ask y k ih => exact (h _).andThen ih

theorem minimizeT_grows (P : Player) (f : List ℚ → Prog ECost) (h : ∀ y, Grows (f y)) (bounds : List (ℚ × ℚ)) :
    Grows (minimizeT P f bounds) := by
  refine (prog_grows f h _).andThen fun r => ?_
  split
  · exact grows_done _
  · exact (h _).andThen fun v => grows_done _

theorem workT_grows (P : Player) (bounds : List (ℚ × ℚ)) (hit : Int → List ℚ → Res ECost) (sw : List ℚ → Res ℚ) (θ : ℚ) (t : Nat) :
    ∀ x, Grows (workT P bounds hit sw θ t x) ∧
      ∀ c v c', Exec (workT P bounds hit sw θ t x) c (.ok v) c' → (c' t x).isSome := by
  induction t with
  | zero => exact fun x => memoT_grows _ _ _ (grows_done _)
  | succ t ih =>
    intro x
    exact memoT_grows _ _ _ ((minimizeT_grows P _ (fun y => (ih y).1.andThen fun a => grows_done _) bounds).andThen fun r => grows_done _)

/-- A strategy which only asks for values at points of `Q`. -/
inductive OnlyAsks (Q : List ℚ → Prop) : Strategy → Prop where
  | stop (x : List ℚ) (s : Status) : OnlyAsks Q (.stop x s)
  | ask (y : List ℚ) (k : ECost → Strategy) (hy : Q (applyPrecisionVec y)) (hk : ∀ v, OnlyAsks Q (k v)) : OnlyAsks Q (.ask y k)

theorem scan_asks (Q : List ℚ → Prop) (ys : List (List ℚ)) (h : ∀ y ∈ ys, Q (applyPrecisionVec y)) :
    ∀ b v, OnlyAsks Q (scan b v ys) := by
  induction ys with
  | nil => exact fun b v => .stop _ _
  | cons y ys ih =>
    intro b v
    refine .ask _ _ (h y (by simp)) fun c => ?_
    split
    · exact ih (fun y hy => h y (by simp [hy])) _ _
    · exact ih (fun y hy => h y (by simp [hy])) _ _

theorem scan_covers (f : List ℚ → Prog ECost) (t : Nat) (hf : ∀ y, Grows (f y))
    (hl : ∀ y c v c', Exec (f y) c (.ok v) c' → (c' t y).isSome) (ys : List (List ℚ)) :
    ∀ b v c a c', Exec ((scan b v ys).prog f) c (.ok a) c' → ∀ y ∈ ys, (c' t (applyPrecisionVec y)).isSome := by
  induction ys with
  | nil => simp
  | cons y ys ih =>
    intro b v c a c' h z hz
    rw [scan, Strategy.prog] at h
    rcases h.of_andThen with ⟨w, c1, h1, h2⟩ | ⟨e, h1, -⟩
    · rcases List.mem_cons.1 hz with rfl | hz
      · exact prog_grows f hf _ _ _ _ h2 t _ (hl _ _ _ _ h1)
      · revert h2
        split
        · exact fun h2 => ih _ _ _ _ _ h2 z hz
        · exact fun h2 => ih _ _ _ _ _ h2 z hz
    · cases h1

open Classical in
theorem scanner_asks (box : List (ℚ × ℚ)) (init : List ℚ) : OnlyAsks (GridPoint box) (scanner box init) := by
  have hmem : ∀ y ∈ (gridPoints box).filter (fun y => InBoxQ box y ∧ ∀ j ∈ y, OnGrid j), GridPoint box (applyPrecisionVec y) := by
    intro y hy
    rw [List.mem_filter] at hy
    have : GridPoint box y := by simp only [decide_eq_true_eq] at hy; exact hy.2
    rwa [applyPrecisionVec_grid this.2]
  unfold scanner
  revert hmem
  cases (gridPoints box).filter (fun y => InBoxQ box y ∧ ∀ j ∈ y, OnGrid j) with
  | nil => exact fun _ => .stop _ _
  | cons y ys => exact fun h => .ask _ _ (h y (by simp)) fun c => scan_asks _ _ (fun y hy => h y (by simp [hy])) _ _

open Classical in
theorem scanner_covers (f : List ℚ → Prog ECost) (t : Nat) (hf : ∀ y, Grows (f y))
    (hl : ∀ y c v c', Exec (f y) c (.ok v) c' → (c' t y).isSome) (box : List (ℚ × ℚ)) (init : List ℚ) (c : Cache)
    (a : List ℚ × Status) (c' : Cache) (h : Exec ((scanner box init).prog f) c (.ok a) c') (y : List ℚ) (hy : GridPoint box y) :
    (c' t y).isSome := by
  have hmem : y ∈ (gridPoints box).filter (fun y => InBoxQ box y ∧ ∀ j ∈ y, OnGrid j) := by
    rw [List.mem_filter]
    simp only [decide_eq_true_eq]
    exact ⟨mem_gridPoints hy.1 hy.2, hy⟩
  have hr := applyPrecisionVec_grid hy.2
  revert h hmem
  unfold scanner
  cases (gridPoints box).filter (fun y => InBoxQ box y ∧ ∀ j ∈ y, OnGrid j) with
  | nil => simp
  | cons z zs =>
    intro h hm
    simp only [Strategy.prog] at h
    rcases h.of_andThen with ⟨w, c1, h1, h2⟩ | ⟨e, h1, -⟩
    · rcases List.mem_cons.1 hm with rfl | hm
      · have := prog_grows f hf _ _ _ _ h2 t _ (hl _ _ _ _ h1)
        rwa [hr] at this
      · have := scan_covers f t hf hl zs _ _ _ _ _ h2 y hm
        rwa [hr] at this
    · cases h1

theorem prog_exec (Q : List ℚ → Prop) (f : List ℚ → Prog ECost) (g : List ℚ → Res ECost) (a0 : Answer) (c : Cache)
    (h : ∀ y, Q y → Exec (f y) c (g y) c) (s : Strategy) (hs : OnlyAsks Q s) :
    Exec (s.prog f) c (visit g [] (answer a0 g s).probes >>= fun _ => .ok ((answer a0 g s).x, (answer a0 g s).status)) c := by
  induction hs with
  | stop x s => exact .done _ _
  | ask y k hy hk ih =>
    have := (h (applyPrecisionVec y) hy).andThen (f := fun v => (k v).prog f)
      (f' := fun v => visit g [] (answer a0 g (k v)).probes >>= fun _ => .ok ((answer a0 g (k v)).x, (answer a0 g (k v)).status))
      fun v _ => ih v
    simp only [Strategy.prog]
    convert this using 1
    cases hg : g (applyPrecisionVec y) with
    | error e => simp [answer, hg, visit, bind, Except.bind]
    | ok v => simp [answer, hg, visit, bind, Except.bind, pure, Except.pure]

theorem minimizeT_exec (Q : List ℚ → Prop) (P : Player) (S0 : Solver) (f : List ℚ → Prog ECost) (g : List ℚ → Res ECost) (c : Cache)
    (h : ∀ y, Q y → Exec (f y) c (g y) c) (bounds : List (ℚ × ℚ)) (hP : OnlyAsks Q (P bounds (bounds.map Prod.snd)))
    (hx : Q (applyPrecisionVec (solverOf P S0 bounds g (bounds.map Prod.snd) []).x)) :
    Exec (minimizeT P f bounds) c (minimize (solverOf P S0) g bounds none []) c := by
  have h1 := prog_exec Q f g (S0 bounds g (bounds.map Prod.snd) []) c h (P bounds (bounds.map Prod.snd)) hP
  have e : ∀ x0, solverOf P S0 bounds g x0 [] = answer (S0 bounds g x0 []) g (P bounds x0) := fun _ => rfl
  rw [e] at hx
  have := h1.andThen (f := fun r =>
    if r.2 = .failed then .done (.error .panic)
    else (f (applyPrecisionVec r.1)).andThen fun v =>
      .done (.ok (applyPrecisionVec r.1, if r.2 = .timedOut then ⊤ else v)))
    (f' := fun r => if r.2 = .failed then .error .panic else g (applyPrecisionVec r.1) >>= fun v =>
      .ok (applyPrecisionVec r.1, if r.2 = .timedOut then ⊤ else v)) (by
    intro r hr
    have : r.1 = (answer (S0 bounds g (bounds.map Prod.snd) []) g (P bounds (bounds.map Prod.snd))).x := by
      revert hr
      cases visit g [] (answer (S0 bounds g (bounds.map Prod.snd) []) g (P bounds (bounds.map Prod.snd))).probes with
      | error e => intro hr; cases hr
      | ok u => intro hr; cases hr; rfl
    split
    · exact .done _ _
    · rw [this]
      exact (h _ hx).andThen fun v _ => .done _ _)
  unfold minimizeT
  convert this using 1
  unfold minimize
  simp only [Option.getD_none, List.length_map, beq_self_eq_true, assertP, if_true, bind, Except.bind, e]
  cases visit g [] (answer (S0 bounds g (bounds.map Prod.snd) []) g (P bounds (bounds.map Prod.snd))).probes with
  | error e => rfl
  | ok u =>
    generalize answer (S0 bounds g (bounds.map Prod.snd) []) g (P bounds (bounds.map Prod.snd)) = a
    by_cases hs : a.status = .failed
    · simp [hs]
    · have : (a.status != Status.failed) = true := by simpa using hs
      simp only [this, if_true, hs, if_false]

/-- Non-vacuity of `C93_same_problem_partial`: two servers for one problem, in slots `1` and `2` and with different biases; both
can finish, whatever the optimiser does. -/
example (P : Player) (c : Cache) : ∃ jobs : List (Job Unit Unit), jobs = [⟨⟨exQ 1, 0⟩, 1, 0⟩, ⟨⟨exQ 2, 0⟩, 2, 1 / 2⟩] ∧
    (∀ j ∈ jobs, j.o.p.bounds = [(0, 1)] ∧ j.o.p.switchingCost = (exQ 1).switchingCost ∧
      ∀ s : Nat, 1 ≤ s → s ≤ j.t → hitOf j.o.p s = hitOf (exQ 1) s) ∧
    ∃ a b c', Relation.ReflTransGen Process.Step ⟨jobs.map fun j => rbgT P 1 j.o j.t j.r, c⟩ ⟨[.done a, .done b], c'⟩ := by
  refine ⟨_, rfl, ?_, ?_⟩
  · intro j hj
    simp only [List.mem_cons, List.not_mem_nil, or_false] at hj
    rcases hj with rfl | rfl <;> exact ⟨rfl, rfl, fun _ _ _ => rfl⟩
  · obtain ⟨a, c1, h1⟩ := exec_total (rbgT P 1 (⟨exQ 1, 0⟩ : Online (SCO ℚ Unit Unit)) ((1 : Nat) : Int) 0) c
    obtain ⟨b, c2, h2⟩ := exec_total (rbgT P 1 (⟨exQ 2, 0⟩ : Online (SCO ℚ Unit Unit)) ((2 : Nat) : Int) (1 / 2)) c1
    exact ⟨a, b, c2, (exec_steps h1 [_, _] 0 rfl).trans (exec_steps h2 [_, _] 1 rfl)⟩

/-! ## Runs for different problems -/

/-- A problem like `exQ`, but without hitting costs. -/
def exZ (T : Int) : SCO ℚ Unit Unit where
  d := 1
  tEnd := T
  bounds := [(0, 1)]
  switchingCost := fun x => .ok |x.headD 0|
  hittingCost := CostFn.new 1 (SingleCostFn.certain fun _ _ => .ok (Cost.raw ((0 : ℚ) : ECost)))

theorem exZ_slot (T t : Int) (ht : 1 ≤ t) : Slot (exZ T) t (fun _ => ((0 : ℚ) : ECost)) exMv where
  box := by
    intro b hb
    simp only [exZ, List.mem_singleton] at hb
    subst hb
    exact ⟨by norm_num, ⟨0, by norm_num⟩, ⟨100, by norm_num⟩⟩
  dim := rfl
  certain := by
    intro x _
    exact ⟨.success (), by rw [exZ, CostFn.callCertain_certain _ _ ht]; rfl⟩
  mean := by
    intro x _
    exact ⟨.success (), by rw [exZ, CostFn.callMean_certain _ _ ht]; rfl⟩
  moves := fun _ _ => rfl

theorem exZ_work (x : ℚ) (hx : GridPoint [(0, 1)] [x]) :
    IsWork [(0, 1)] (fun _ _ => ((0 : ℚ) : ECost)) exMv 1 1 [x] ((x : ℚ) : ECost) := by
  have val : ∀ a : ℚ, prefixCost (fun _ _ => ((0 : ℚ) : ECost)) exMv 1 1 (List.replicate 1 0) [[a]] [x] = ((|a| + 0 + |x - a| : ℚ) : ECost) := by
    intro a
    simp only [prefixCost, exMv, List.replicate, List.zipWith, List.headD_cons, one_mul, sub_zero, ← WithTop.coe_add]
  obtain ⟨_, e, h0, h1⟩ := grid01 hx
  cases e
  refine ⟨⟨[[x]], rfl, by simpa using hx, ?_⟩, ?_⟩
  · refine (val x).trans ?_
    rw [abs_of_nonneg h0, sub_self, abs_zero]
    congr 1
    ring
  · intro ys hl hg
    obtain ⟨y, rfl⟩ := List.length_eq_one_iff.1 hl
    obtain ⟨a, rfl, g0, g1⟩ := grid01 (hg y (by simp))
    refine le_of_le_of_eq ?_ (val a).symm
    rw [WithTop.coe_le_coe, abs_of_nonneg g0]
    cases abs_cases (x - a) <;> linarith

/-- **C93** (refuted). Two servers in one process, for problems which differ in their hitting costs. One thread clears the
cache, the other then runs its whole step, and the first goes on: it finds the values of the other problem and decides for `1`,
where it decides for `0` alone, and where the greedy rule decides for `0` only. -/
theorem C93_counterexample : ∃ (P : Player) (S0 : Solver), Inner (solverOf P S0) ∧ Exact (solverOf P S0) ∧
    (∀ world, (rbg P id 1 (fun _ => 0) world).call ⟨exZ 1, 0⟩ 1 [] 0 = .ok ([0], none)) ∧
    ¬ Greedy [(0, 1)] (fun _ _ => ((0 : ℚ) : ECost)) exMv 1 1 0 [1] ∧
    ∀ c, ∃ w, Relation.ReflTransGen Process.Step ⟨[rbgT P 1 ⟨exZ 1, 0⟩ 1 0, rbgT P 1 ⟨exQ 1, 0⟩ 1 0], c⟩ w ∧
      w.threads = [.done (.ok [1]), .done (.ok [1])] := by
  obtain ⟨S0, hS, hE⟩ := scanner_exact
  refine ⟨scanner, S0, hS, hE, ?_, ?_, ?_⟩
  · intro world
    obtain ⟨x, h1, h2, c, h3, h4⟩ := C51_decision (solverOf scanner S0) hS hE (⟨exZ 1, 0⟩ : Online (SCO ℚ Unit Unit)) rfl
      (fun _ _ => ((0 : ℚ) : ECost)) exMv 1 1 le_rfl (fun t ht _ => exZ_slot 1 t (by exact_mod_cast ht)) 0
    have := C51_step_without_cache scanner S0 id (fun _ _ _ _ h => h) 1 (fun _ => 0) world (⟨exZ 1, 0⟩ : Online (SCO ℚ Unit Unit))
      rfl rfl 1 [] 0
    rw [h1] at this
    obtain ⟨_, e, x0, x1⟩ := grid01 h2
    cases e
    have e1 := h4 [0] _ grid_zero (exZ_work 0 grid_zero)
    rw [h3.unique (exZ_work x h2)] at e1
    simp only [zero_mul, ← WithTop.coe_add, WithTop.coe_le_coe] at e1
    have : x = 0 := by linarith
    subst this
    exact_mod_cast this
  · rintro ⟨-, c, h3, h4⟩
    have e1 := h4 [0] _ grid_zero (exZ_work 0 grid_zero)
    rw [h3.unique (exZ_work 1 grid_one)] at e1
    simp only [zero_mul, ← WithTop.coe_add, WithTop.coe_le_coe] at e1
    norm_num at e1
  · intro c
    -- the first thread clears the cache, then the second thread runs
    obtain ⟨kB, hkB⟩ : ∃ k, rbgT scanner 1 (⟨exZ 1, 0⟩ : Online (SCO ℚ Unit Unit)) 1 0 = .clear k := ⟨_, rfl⟩
    obtain ⟨r, cA, hA⟩ := exec_total (rbgT scanner 1 (⟨exQ 1, 0⟩ : Online (SCO ℚ Unit Unit)) 1 0) Cache.empty
    have s1 : Process.Step ⟨[rbgT scanner 1 (⟨exZ 1, 0⟩ : Online (SCO ℚ Unit Unit)) 1 0, rbgT scanner 1 ⟨exQ 1, 0⟩ 1 0], c⟩
        ⟨[kB, rbgT scanner 1 (⟨exQ 1, 0⟩ : Online (SCO ℚ Unit Unit)) 1 0], Cache.empty⟩ := by
      rw [hkB]
      exact .mk _ 0 _ _ _ rfl (.clear kB c)
    have s2 := exec_steps hA [kB, rbgT scanner 1 (⟨exQ 1, 0⟩ : Online (SCO ℚ Unit Unit)) 1 0] 1 rfl
    -- it decides for `1`, and all its values are in the cache
    have hF := rbgT_follows scanner S0 (hitOf (exQ 1)) (exQ 1).bounds (exQ 1).switchingCost 1 (⟨exQ 1, 0⟩ : Online (SCO ℚ Unit Unit)) 1 0
      rfl rfl (fun _ _ _ => rfl) id (fun _ _ _ _ h => h) (fun _ => 0) Cache.empty []
    obtain ⟨hr, hcA⟩ := exec_follows hA hF (fun t x v hv => by simp [Cache.empty] at hv)
    have hdec : (rbg scanner id 1 (fun _ => 0) Cache.empty).call (⟨exQ 1, 0⟩ : Online (SCO ℚ Unit Unit)) ((1 : Nat) : Int) [] 0 = .ok ([1], none) := by
      obtain ⟨x, h1, h2, c, h3, h4⟩ := C51_decision (solverOf scanner S0) hS hE (⟨exQ 1, 0⟩ : Online (SCO ℚ Unit Unit)) rfl
        exHit exMv 1 1 le_rfl (fun t ht _ => exQ_slot 1 t (by exact_mod_cast ht)) 0
      rw [C51_step_without_cache scanner S0 id (fun _ _ _ _ h => h) 1 (fun _ => 0) _ (⟨exQ 1, 0⟩ : Online (SCO ℚ Unit Unit))
        rfl rfl 1 [] 0, h1]
      obtain ⟨_, e, x0, x1⟩ := grid01 h2
      cases e
      have e1 := h4 [1] _ grid_one (ex_work1 1 grid_one)
      rw [h3.unique (ex_work1 x h2)] at e1
      simp only [zero_mul, ← WithTop.coe_add, WithTop.coe_le_coe] at e1
      have : x = 1 := by linarith
      subst this
      rfl
    rw [hdec] at hr
    subst hr
    have hval : ∀ x : ℚ, GridPoint [(0, 1)] [x] → cA 1 [x] = some ((3 / 2 - x / 2 : ℚ) : ECost) := by
      intro x hx
      have hcov : (cA 1 [x]).isSome := by
        have hw := workT_grows scanner (exQ 1).bounds (hitOf (exQ 1)) (exQ 1).switchingCost 1 1
        cases hA with
        | clear _ _ _ _ h =>
          rcases h.of_andThen with ⟨a, c1, h1, h2⟩ | ⟨e, h1, -⟩
          · refine grows_done _ _ _ _ h2 _ _ ?_
            rcases h1.of_andThen with ⟨b, c2, h3, h4⟩ | ⟨e, h3, -⟩
            · have hg : ∀ y, Grows ((workT scanner (exQ 1).bounds (hitOf (exQ 1)) (exQ 1).switchingCost 1 1 y).andThen fun a => .done (do
                  let m ← (exQ 1).switchingCost y
                  .ok (a + ((0 * 1 * m : ℚ) : ECost)))) := fun y => (hw y).1.andThen fun a => grows_done _
              have := scanner_covers _ 1 hg (by
                intro y c v c' h
                rcases h.of_andThen with ⟨a, c1, h1, h2⟩ | ⟨e, h1, -⟩
                · exact grows_done _ _ _ _ h2 _ _ ((hw y).2 _ _ _ h1)
                · cases h1) _ _ _ _ _ h3 [x] hx
              revert h4
              split
              · exact fun h4 => grows_done _ _ _ _ h4 1 [x] this
              · exact fun h4 => ((hg _).andThen fun v => grows_done _) _ _ _ h4 1 [x] this
            · cases h3
          · cases h1
      obtain ⟨v, hv⟩ := Option.isSome_iff_exists.1 hcov
      have h1 := hcA 1 [x] v hv
      obtain ⟨u, h2, h3⟩ := C51_work_function (solverOf scanner S0) hS hE (exQ 1) exHit exMv 1 1
        (fun t ht _ => exQ_slot 1 t (by exact_mod_cast ht)) (fun _ _ => rfl) 1 le_rfl [x] rfl
      rw [h1] at h2
      cases h2
      rw [hv, h3.unique (ex_work1 x hx)]
    -- the first thread goes on
    have hB : Exec kB cA (.ok [1]) cA := by
      obtain ⟨g, hg⟩ : ∃ g : List ℚ → Res ECost, g = fun y => .ok ((3 / 2 - y.headD 0 / 2 : ℚ) : ECost) := ⟨_, rfl⟩
      obtain ⟨y, v, h1, h2, h3, h4, -, -⟩ := minimize_inner hS (exQ_slot 1 1 le_rfl).box none (by simp) [] (f := g)
        (fun x hx => ⟨_, by rw [hg]⟩) (by simp)
      have hone := hE.best (exQ 1).bounds g _ [] (exQ_slot 1 1 le_rfl).box [1] _ _ grid_one.1 grid_one.2 (by simp [Meets])
        (by rw [← h4, hg]) (by rw [hg])
      obtain ⟨x, rfl, x0, x1⟩ := grid01 ⟨h2, h3⟩
      have : x = 1 := by
        simp only [List.headD_cons, WithTop.coe_le_coe] at hone
        linarith
      subst this
      cases hkB
      have := minimizeT_exec (GridPoint [(0, 1)]) scanner S0 (fun x =>
        (workT scanner (exZ 1).bounds (hitOf (exZ 1)) (exZ 1).switchingCost 1 1 x).andThen fun a => .done (do
          let m ← (exZ 1).switchingCost x
          .ok (a + ((0 * 1 * m : ℚ) : ECost)))) g cA (by
        intro y hy
        obtain ⟨x, rfl, -, -⟩ := grid01 hy
        refine .look _ _ _ _ _ _ ?_
        rw [hval x hy]
        have : g [x] = (do
          let m ← (exZ 1).switchingCost [x]
          .ok (((3 / 2 - x / 2 : ℚ) : ECost) + ((0 * 1 * m : ℚ) : ECost))) := by
          simp [hg, exZ, bind, Except.bind]
        rw [this]
        exact .done _ _) (exZ 1).bounds (scanner_asks _ _) (by
          have e := h4 ▸ (⟨h2, h3⟩ : GridPoint (exQ 1).bounds [1])
          exact e)
      have h1' : minimize (solverOf scanner S0) g (exZ 1).bounds none [] = .ok ([1], v) := h1
      rw [h1'] at this
      exact this.andThen (f' := fun res => do
            let x ← idx res.1 0
            .ok [x]) fun a _ => .done _ _
    have s3 := exec_steps hB ([kB, rbgT scanner 1 (⟨exQ 1, 0⟩ : Online (SCO ℚ Unit Unit)) 1 0].set 1 (.done (.ok [1]))) 0 rfl
    exact ⟨_, .head s1 (s2.trans s3), rfl⟩

end Rbg
end Soco
