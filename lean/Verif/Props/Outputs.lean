import Verif.Props.Objective
import Verif.Model.Parallel

/-!
# C14 (outputs over time) and C15 (aggregation of predictions)
-/

namespace Soco
variable {C D : Type} [OutSuccess C]

/-! ## C14 -/

/-- `horizontal_merge` is associative. -/
class AssocMerge (C : Type) [OutSuccess C] : Prop where
  assoc : ∀ a b c : C, OutSuccess.hmerge (OutSuccess.hmerge a b) c
    = OutSuccess.hmerge a (OutSuccess.hmerge b c)

instance : AssocMerge Unit := ⟨fun _ _ _ => rfl⟩
instance : AssocMerge DCSuccess := ⟨fun a b c => by
  simp [OutSuccess.hmerge, DCSuccess.hmerge, add_assoc]⟩

theorem hstep_none_right (o : ModelOutput C D) : ModelOutput.hstep o .none = o := by
  cases o <;> rfl

theorem hstep_none_left (o : ModelOutput C D) : ModelOutput.hstep .none o = o := rfl

theorem hstep_assoc [AssocMerge C] (a b c : ModelOutput C D) :
    ModelOutput.hstep (ModelOutput.hstep a b) c = ModelOutput.hstep a (ModelOutput.hstep b c) := by
  cases a <;> cases b <;> cases c <;> simp [ModelOutput.hstep, AssocMerge.assoc]

theorem Cost.add_assoc' [AssocMerge C] (a b c : Cost C D) :
    (a.add b).add c = a.add (b.add c) := by
  simp [Cost.add, add_assoc, hstep_assoc]

theorem Cost.dflt_add (a : Cost C D) : Cost.dflt.add a = a := by
  simp [Cost.add, Cost.dflt, hstep_none_left]

theorem Cost.add_dflt (a : Cost C D) : a.add Cost.dflt = a := by
  simp [Cost.add, Cost.dflt, hstep_none_right]

theorem Cost.foldl_add [AssocMerge C] (a b : Cost C D) (cs : List (Cost C D)) :
    cs.foldl Cost.add (a.add b) = a.add (cs.foldl Cost.add b) := by
  induction cs generalizing b with
  | nil => rfl
  | cons c cs ih => simp only [List.foldl_cons, Cost.add_assoc', ih]

theorem Cost.sum_cons [AssocMerge C] (c : Cost C D) (cs : List (Cost C D)) :
    Cost.sum (c :: cs) = c.add (Cost.sum cs) := by
  cases cs with
  | nil => simp [Cost.sum, Cost.add_dflt]
  | cons b cs => simp only [Cost.sum, List.foldl_cons]; exact Cost.foldl_add c b cs

theorem Cost.sum_append [AssocMerge C] (as bs : List (Cost C D)) :
    Cost.sum (as ++ bs) = (Cost.sum as).add (Cost.sum bs) := by
  induction as with
  | nil => simp [Cost.sum, Cost.dflt_add]
  | cons a as ih => rw [List.cons_append, Cost.sum_cons, ih, Cost.sum_cons, Cost.add_assoc']

/-- **C14** (splitting). However the parallel sum splits the slots, cost and output are those of the
sequential sum. -/
theorem C14_split_independent [AssocMerge C] (s : Split (Cost C D)) : s.sum = Cost.sum s.toList := by
  induction s with
  | chunk xs =>
    simp only [Split.sum, Split.toList, Cost.sum_cons, Cost.dflt_add]
    simp [Cost.sum, Cost.add_dflt]
  | node l r ihl ihr =>
    rw [Split.sum, Split.toList, Cost.sum_append, ihl, ihr]
    simp [Cost.sum]

/-- The outcome of a sequence of slot outputs. -/
theorem foldl_hstep_failure (os : List (ModelOutput C D)) (f : D) :
    os.foldl ModelOutput.hstep (.failure f) = .failure f := by
  induction os with
  | nil => rfl
  | cons o os ih => simp [ModelOutput.hstep, ih]

theorem foldl_hstep_eq_failure_iff (os : List (ModelOutput C D)) (a : ModelOutput C D)
    (ha : ∀ f, a ≠ .failure f) (f : D) :
    os.foldl ModelOutput.hstep a = .failure f ↔
      ∃ pre post, os = pre ++ .failure f :: post ∧ ∀ o ∈ pre, ∀ g, o ≠ .failure g := by
  induction os generalizing a with
  | nil => simp [ha]
  | cons o os ih =>
    rw [List.foldl_cons]
    cases o with
    | failure g =>
      have e : ModelOutput.hstep a (.failure g) = .failure g := by
        cases a with
        | failure f' => exact absurd rfl (ha f')
        | success c => rfl
        | none => rfl
      rw [e, foldl_hstep_failure]
      constructor
      · intro h; exact ⟨[], os, by rw [h]; rfl, by simp⟩
      · rintro ⟨pre, post, h1, h2⟩
        cases pre with
        | nil => simp at h1; rw [h1.1]
        | cons b pre =>
          simp only [List.cons_append, List.cons.injEq] at h1
          exact absurd h1.1.symm (h2 b (by simp) g)
    | success c =>
      rw [ih]
      · constructor
        · rintro ⟨pre, post, h1, h2⟩
          exact ⟨.success c :: pre, post, by rw [h1]; rfl, by
            intro o ho g
            rcases List.mem_cons.1 ho with rfl | ho
            · simp
            · exact h2 o ho g⟩
        · rintro ⟨pre, post, h1, h2⟩
          cases pre with
          | nil => simp at h1
          | cons b pre =>
            simp only [List.cons_append, List.cons.injEq] at h1
            exact ⟨pre, post, h1.2, fun o ho => h2 o (by simp [ho])⟩
      · intro g
        cases a with
        | failure f' => exact absurd rfl (ha f')
        | success c' => simp [ModelOutput.hstep]
        | none => simp [ModelOutput.hstep]
    | none =>
      rw [ih]
      · constructor
        · rintro ⟨pre, post, h1, h2⟩
          exact ⟨.none :: pre, post, by rw [h1]; rfl, by
            intro o ho g
            rcases List.mem_cons.1 ho with rfl | ho
            · simp
            · exact h2 o ho g⟩
        · rintro ⟨pre, post, h1, h2⟩
          cases pre with
          | nil => simp at h1
          | cons b pre =>
            simp only [List.cons_append, List.cons.injEq] at h1
            exact ⟨pre, post, h1.2, fun o ho => h2 o (by simp [ho])⟩
      · intro g; rw [hstep_none_right]; exact ha g

/-- **C14** (failures). The output of a sum of slots is a failure exactly if some slot failed, and
then it is the first failure. -/
theorem C14_failure_iff_first (cs : List (Cost C D)) (f : D) :
    (Cost.sum cs).output = .failure f ↔
      ∃ pre c post, cs = pre ++ c :: post ∧ c.output = .failure f ∧
        ∀ b ∈ pre, ∀ g, b.output ≠ .failure g := by
  rw [Cost.sum_output, foldl_hstep_eq_failure_iff _ _ (by simp)]
  constructor
  · rintro ⟨pre, post, h1, h2⟩
    obtain ⟨l1, l2, rfl, h3, h4⟩ := List.map_eq_append_iff.1 h1
    obtain ⟨c, l3, rfl, h5, h6⟩ := List.map_eq_cons_iff.1 h4
    refine ⟨l1, c, l3, rfl, h5, ?_⟩
    intro b hb g
    exact h2 b.output (by rw [← h3]; exact List.mem_map_of_mem hb) g
  · rintro ⟨pre, c, post, rfl, h1, h2⟩
    refine ⟨pre.map (·.output), post.map (·.output), by simp [h1], ?_⟩
    intro o ho g
    obtain ⟨b, hb, rfl⟩ := List.mem_map.1 ho
    exact h2 b hb g

/-- **C14** (successes). If every slot of a data center run succeeded, the reported energy cost and
revenue loss are the sums over the slots, the assignments their concatenation in time order. -/
theorem C14_success_sums (c : Cost DCSuccess D) (cs : List (Cost DCSuccess D))
    (out : Cost DCSuccess D → DCSuccess) (h : ∀ b ∈ c :: cs, b.output = .success (out b)) :
    (Cost.sum (c :: cs)).output = .success
      { energyCost := ((c :: cs).map fun b => (out b).energyCost).sum
        revenueLoss := ((c :: cs).map fun b => (out b).revenueLoss).sum
        assignments := ((c :: cs).map fun b => (out b).assignments).flatten } := by
  induction cs generalizing c with
  | nil => simp [Cost.sum, h c (by simp)]
  | cons b cs ih =>
    rw [Cost.sum_cons]
    have := ih b fun e he => h e (by simp [List.mem_cons.1 he])
    simp only [Cost.add, this, h c (by simp), ModelOutput.hstep, OutSuccess.hmerge,
      DCSuccess.hmerge, List.map_cons, List.sum_cons, List.flatten_cons]

/-- **C14** (schedules). The output of an objective is the combination of the outputs of the slots
inside the horizon, in time order, whatever the movement costs are. -/
theorem C14_objective_output {T : Type} [Value T] (p : Prob T C D) (xs : Schedule T)
    (dflt : Config T) (α : ℚ) (inv : Bool) (hs : List (Cost C D)) (hl : hs.length = xs.length)
    (hT : (xs.length : Int) ≤ p.tEnd)
    (hh : ∀ (i : Nat) (h : i < xs.length), p.hitCost (i + 1) xs[i] = .ok (hs[i]'(by omega)))
    (mv : Config T → Config T → ℚ)
    (hm : ∀ y ∈ dflt :: xs, ∀ x ∈ xs, p.movement y x inv = .ok (mv y x)) :
    ∃ c, p.objectiveWithDefault' xs dflt α inv xs.length = .ok c ∧
      c.output = (Cost.sum hs).output := by
  have hterms : ∀ (n : Nat) (t : Int) (xs : Schedule T) (hs : List (Cost C D)),
      xs.length = n → hs.length = n → t + n ≤ p.tEnd + 1 →
      (∀ (i : Nat) (h : i < xs.length) (h' : i < hs.length), p.hitCost (t + i) xs[i] = .ok hs[i]) →
      hitTerms p dflt n t xs = .ok hs := by
    intro n
    induction n with
    | zero =>
      intro t xs hs h1 h2 _ _
      have e1 : xs = [] := by simpa using h1
      have e2 : hs = [] := by simpa using h2
      subst e1; subst e2; rfl
    | succ n ih =>
      intro t xs hs h1 h2 h3 h4
      match xs, hs, h1, h2 with
      | x :: xs, c :: hs, h1, h2 =>
        rw [hitTerms_succ]
        have a1 := h4 0 (by simp) (by simp)
        simp only [Nat.cast_zero, add_zero, List.getElem_cons_zero] at a1
        have a2 : p.hitOrNone t x = .ok c := by
          unfold Prob.hitOrNone
          push_cast at h3
          rw [if_neg (by omega), a1]
        have a3 := ih (t + 1) xs hs (by simpa using h1) (by simpa using h2)
          (by push_cast at h3; omega) (by
            intro i h h'
            have := h4 (i + 1) (by simpa using h) (by simpa using h')
            simp only [List.getElem_cons_succ] at this
            rw [← this]; congr 1; push_cast; ring)
        simp only [List.headD_cons, List.tail_cons, a2, a3, bind, Except.bind]
  have h1 := hterms xs.length 1 xs hs rfl hl (by omega) (by
    intro i h h'; rw [add_comm]; exact hh i h)
  rw [objective_decomp p xs dflt α inv xs.length mv (by rw [padTo_self]; exact hm), h1]
  exact ⟨_, rfl, rfl⟩

/-- A sum with two failing slots, split in two different ways. -/
example : let f (d : DCFailure) : Cost DCSuccess DCFailure := ⟨⊤, .failure d⟩
    let s : Cost DCSuccess DCFailure := ⟨1, .success ⟨1, 0, []⟩⟩
    (Split.node (.chunk [s, f .infiniteDelay]) (.chunk [f .outsideDecisionSpace])).sum.output
      = .failure .infiniteDelay ∧
    (Split.node (.chunk []) (.node (.chunk [s]) (.chunk [f .infiniteDelay, s]))).sum.output
      = .failure .infiniteDelay := by
  exact ⟨rfl, rfl⟩

/-! ## C15 -/

/-- **C15** (cost). The cost of an uncertain slot is the arithmetic mean of the sampled costs; it is
infinite exactly if one sample is. -/
theorem C15_cost_is_mean_partial (cs : List (Cost C D)) (c : Cost C D) (h : Cost.mean cs = .ok c) :
    cs ≠ [] ∧
    (∀ v : List ℚ, cs.map (·.cost) = v.map (fun q : ℚ => (q : ECost)) →
      c.cost = ((v.sum / v.length : ℚ) : ECost)) ∧
    (c.cost = ⊤ ↔ ∃ b ∈ cs, b.cost = ⊤) := by
  unfold Cost.mean meanE at h
  cases cs with
  | nil => simp [bind, Except.bind] at h
  | cons a cs =>
    simp only [List.map_cons, List.isEmpty_cons, Bool.false_eq_true, if_false, bind,
      Except.bind] at h
    cases hv : ModelOutput.verticalReduce (a.output :: cs.map (·.output)) with
    | error e => rw [hv] at h; simp at h
    | ok o =>
      rw [hv] at h
      simp only [Except.ok.injEq] at h
      subst h
      refine ⟨by simp, ?_, ?_⟩
      · intro v hv
        have e1 : (a.cost :: cs.map (·.cost)) = v.map (fun q : ℚ => (q : ECost)) := by
          rw [← hv]; rfl
        have e2 : ∀ v : List ℚ, (v.map (fun q : ℚ => (q : ECost))).sum = ((v.sum : ℚ) : ECost) := by
          intro v
          induction v with
          | nil => rfl
          | cons q v ih => simp [ih]
        simp only [e1, e2, ECost.divQ, WithTop.map_coe, List.length_map]
      · have e3 : ∀ l : List ECost, l.sum = ⊤ ↔ ⊤ ∈ l := by
          intro l
          induction l with
          | nil => simp
          | cons b l ih => simp [ih, eq_comm]
        have e4 : ∀ (x : ECost) (q : ℚ), ECost.divQ x q = ⊤ ↔ x = ⊤ := by
          intro x q
          cases x using WithTop.recTopCoe <;> simp [ECost.divQ]
        rw [e4, e3]
        simp [eq_comm]

/-- Merging two data center samples of one slot gives the means of energy cost and revenue loss. -/
theorem C15_two_samples_partial (a b : DCSuccess) (e₁ e₂ r₁ r₂ : ℚ) (as bs : List (List ℚ))
    (ha : a = ⟨e₁, r₁, [as]⟩) (hb : b = ⟨e₂, r₂, [bs]⟩) :
    ModelOutput.verticalReduce [(.success a : ModelOutput DCSuccess D), .success b]
      = .ok (.success ⟨(((e₁ + e₂) / 2 : ℚ) : ECost), (((r₁ + r₂) / 2 : ℚ) : ECost), [as ++ bs]⟩) := by
  subst ha hb
  simp only [ModelOutput.verticalReduce, List.foldlM_cons, List.foldlM_nil, ModelOutput.vstep,
    OutSuccess.vmerge, DCSuccess.vmerge, Except.map, ← WithTop.coe_add, ECost.divQ, WithTop.map_coe]
  rfl

/-- For three or more samples the property is false: samples with energy costs 0, 0 and 3 have mean 1,
but the reported energy cost is 3/2, different from the reported total cost 1. -/
theorem C15_three_samples_counterexample :
    let s (e : ℚ) : Cost DCSuccess DCFailure := ⟨(e : ECost), .success ⟨(e : ECost), 0, [[]]⟩⟩
    Cost.mean [s 0, s 0, s 3]
      = .ok ⟨((1 : ℚ) : ECost), .success ⟨((3/2 : ℚ) : ECost), ((0 : ℚ) : ECost), [[]]⟩⟩ := by
  intro s
  have h1 : meanE [(((0 : ℚ) : ECost)), ((0 : ℚ) : ECost), ((3 : ℚ) : ECost)]
      = .ok ((1 : ℚ) : ECost) := by decide +kernel
  simp only [Cost.mean, s, List.map_cons, List.map_nil, h1, bind, Except.bind,
    ModelOutput.verticalReduce, List.foldlM_cons, List.foldlM_nil, ModelOutput.vstep,
    OutSuccess.vmerge, DCSuccess.vmerge, Except.map, ECost.divQ, pure, Except.pure]
  refine congrArg Except.ok ?_
  refine congrArg (Cost.mk _) ?_
  refine congrArg ModelOutput.success ?_
  rw [DCSuccess.mk.injEq]
  refine ⟨?_, ?_, rfl⟩ <;> decide +kernel

/-- What remains true for any number of samples: the reported energy cost lies between the smallest
and the largest sampled value. -/
theorem C15_energy_between_partial (lo hi : ℚ) (as : List DCSuccess) (a : DCSuccess) (o : DCSuccess)
    (h : ModelOutput.verticalReduce ((a :: as).map fun s => (.success s : ModelOutput DCSuccess D))
      = .ok (.success o))
    (hb : ∀ s ∈ a :: as, ((lo : ℚ) : ECost) ≤ s.energyCost ∧ s.energyCost ≤ ((hi : ℚ) : ECost)) :
    ((lo : ℚ) : ECost) ≤ o.energyCost ∧ o.energyCost ≤ ((hi : ℚ) : ECost) := by
  induction as generalizing a with
  | nil =>
    simp only [List.map_cons, List.map_nil, ModelOutput.verticalReduce, List.foldlM_nil, pure,
      Except.pure, Except.ok.injEq, ModelOutput.success.injEq] at h
    rw [← h]; exact hb a (by simp)
  | cons b as ih =>
    simp only [List.map_cons, ModelOutput.verticalReduce, List.foldlM_cons, ModelOutput.vstep,
      OutSuccess.vmerge] at h
    cases hm : DCSuccess.vmerge a b with
    | error e => rw [hm] at h; simp [Except.map, bind, Except.bind] at h
    | ok m =>
      rw [hm] at h
      refine ih m (by simpa [ModelOutput.verticalReduce, Except.map, bind, Except.bind] using h) ?_
      intro s hs
      rcases List.mem_cons.1 hs with rfl | hs
      · obtain ⟨a1, a2⟩ := hb a (by simp)
        obtain ⟨b1, b2⟩ := hb b (by simp)
        unfold DCSuccess.vmerge at hm
        split at hm
        · simp only [Except.ok.injEq] at hm
          rw [← hm]
          simp only
          obtain ⟨x, hx⟩ := WithTop.ne_top_iff_exists.1 (ne_top_of_le_ne_top (WithTop.coe_ne_top) a2)
          obtain ⟨y, hy⟩ := WithTop.ne_top_iff_exists.1 (ne_top_of_le_ne_top (WithTop.coe_ne_top) b2)
          rw [← hx, WithTop.coe_le_coe] at a1 a2
          rw [← hy, WithTop.coe_le_coe] at b1 b2
          rw [← hx, ← hy, ← WithTop.coe_add, ECost.divQ, WithTop.map_coe, WithTop.coe_le_coe,
            WithTop.coe_le_coe]
          constructor <;> linarith
        · simp at hm
      · exact hb s (by simp [hs])

end Soco
