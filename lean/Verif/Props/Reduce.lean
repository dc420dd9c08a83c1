import Verif.Props.Outputs
import Verif.Props.Quadrature

/-! # C14, C46: reducing outputs, given breakpoints -/

namespace Soco
section
variable {C D : Type} [OutSuccess C]

/-- **C14** (reduction over time). Reducing outputs panics exactly if there are none; otherwise the result is the first failure if
there is one, nothing if all slots report nothing, and else the merged successes in their order. -/
theorem C14_horizontal_reduce (os : List (ModelOutput C D)) :
    (ModelOutput.horizontalReduce os = .error .panic ↔ os = []) ∧
    (∀ f, ModelOutput.horizontalReduce os = .ok (.failure f) ↔
      ∃ pre post, os = pre ++ .failure f :: post ∧ ∀ o ∈ pre, ∀ g, o ≠ .failure g) ∧
    (ModelOutput.horizontalReduce os = .ok .none ↔ os ≠ [] ∧ ∀ o ∈ os, o = .none) ∧
    ∀ (s : C) (ss : List C), (∀ o ∈ os, ∀ f, o ≠ .failure f) →
      (os.filterMap fun o => match o with | .success s => some s | _ => none) = s :: ss →
      ModelOutput.horizontalReduce os = .ok (.success (ss.foldl OutSuccess.hmerge s)) := by
  have hred : os ≠ [] → ModelOutput.horizontalReduce os = .ok (os.foldl ModelOutput.hstep .none) := by
    intro h
    obtain ⟨o, os, rfl⟩ := List.exists_cons_of_ne_nil h
    rfl
  refine ⟨?_, ?_, ?_, ?_⟩
  · cases os <;> simp [ModelOutput.horizontalReduce]
  · intro f
    by_cases h : os = []
    · subst h; simp [ModelOutput.horizontalReduce]
    · rw [hred h, Except.ok.injEq, foldl_hstep_eq_failure_iff _ _ (by simp)]
  · by_cases h : os = []
    · subst h; simp [ModelOutput.horizontalReduce]
    · rw [hred h, Except.ok.injEq]
      simp only [ne_eq, h, not_false_eq_true, true_and]
      clear h hred
      constructor
      · intro h
        have key : ∀ (os : List (ModelOutput C D)) a, os.foldl ModelOutput.hstep a = .none → a = .none ∧ ∀ o ∈ os, o = .none := by
          intro os
          induction os with
          | nil => intro a h; exact ⟨h, by simp⟩
          | cons o os ih =>
            intro a h
            obtain ⟨h1, h2⟩ := ih _ h
            cases a <;> cases o <;> simp_all [ModelOutput.hstep]
        exact (key os _ h).2
      · intro h
        induction os with
        | nil => rfl
        | cons o os ih =>
          rw [List.foldl_cons, h o (by simp)]
          exact ih fun o ho => h o (by simp [ho])
  · intro s ss hf hs
    rw [hred (by rintro rfl; simp at hs)]
    congr 1
    clear hred
    have key : ∀ (os : List (ModelOutput C D)) (a : C), (∀ o ∈ os, ∀ f, o ≠ .failure f) →
        os.foldl ModelOutput.hstep (.success a) = .success
          ((os.filterMap fun o => match o with | .success s => some s | _ => none).foldl OutSuccess.hmerge a) := by
      intro os
      induction os with
      | nil => intro a _; rfl
      | cons o os ih =>
        intro a hf
        cases o with
        | failure g => exact absurd rfl (hf _ (by simp) g)
        | success b => exact ih _ fun o ho => hf o (by simp [ho])
        | none => exact ih _ fun o ho => hf o (by simp [ho])
    induction os with
    | nil => simp at hs
    | cons o os ih =>
      cases o with
      | failure g => exact absurd rfl (hf _ (by simp) g)
      | success b =>
        simp only [List.filterMap_cons, List.cons.injEq] at hs
        obtain ⟨rfl, rfl⟩ := hs
        exact key os b fun o ho => hf o (by simp [ho])
      | none => exact ih (fun o ho => hf o (by simp [ho])) (by simpa using hs)

example : ModelOutput.horizontalReduce [(.none : ModelOutput Unit Unit), .success (), .failure (), .none] = .ok (.failure ()) :=
  rfl
end

/-- **C46** (given points). Breakpoints given as a list are kept with their multiplicities, in ascending order, and nothing
else is a breakpoint. -/
theorem C46_from (bs : List ℚ) : (Breakpoints.from bs).bs.Pairwise (· ≤ ·) ∧ (Breakpoints.from bs).bs.Perm bs ∧
    (Breakpoints.from bs).next = none :=
  ⟨List.pairwise_insertionSort _ _, by
    have h : List.Perm (Breakpoints.from bs).bs ([] ++ bs.filter fun x => !([] : List ℚ).contains x) := List.perm_insertionSort _ _
    simpa using h, rfl⟩
end Soco
