import Verif.Spec.CostFn
import Verif.Lemmas.CostFn
import Verif.Lemmas.Objective
import Verif.Props.Examples
import Mathlib.Data.List.Induction

/-!
# C05–C07: cost functions that arrive over time
-/

namespace Soco
variable {X C D : Type} [OutSuccess C] [OutFailure D]

/-- The cost function obtained from `CostFn::empty()` by a history of `add`s. -/
def CostFn.build (history : List (Int × SingleCostFn X C D)) : CostFn X C D :=
  history.foldl (fun fs e => fs.add e.1 e.2) CostFn.empty

/-- Keys are strictly ascending. -/
def CostFn.Sorted (fs : CostFn X C D) : Prop := fs.Pairwise fun a b => a.1 < b.1

theorem CostFn.mem_add_key (fs : CostFn X C D) (t : Int) (f : SingleCostFn X C D)
    (e : Int × SingleCostFn X C D) (he : e ∈ fs.add t f) : e.1 = t ∨ e ∈ fs := by
  induction fs with
  | nil => simp [CostFn.add] at he; left; rw [he]
  | cons a fs ih =>
    obtain ⟨s, g⟩ := a
    simp only [CostFn.add] at he
    split_ifs at he with h1 h2
    · rcases List.mem_cons.1 he with rfl | he
      · left; rfl
      · right; exact he
    · rcases List.mem_cons.1 he with rfl | he
      · left; rfl
      · right; exact List.mem_cons_of_mem _ he
    · rcases List.mem_cons.1 he with rfl | he
      · right; simp
      · rcases ih he with h | h
        · left; exact h
        · right; exact List.mem_cons_of_mem _ h

theorem CostFn.sorted_add (fs : CostFn X C D) (t : Int) (f : SingleCostFn X C D)
    (h : CostFn.Sorted fs) : CostFn.Sorted (fs.add t f) := by
  induction fs with
  | nil => simp [CostFn.add, CostFn.Sorted]
  | cons a fs ih =>
    obtain ⟨s, g⟩ := a
    unfold CostFn.Sorted at *
    rw [List.pairwise_cons] at h
    simp only [CostFn.add]
    split_ifs with h1 h2
    · rw [List.pairwise_cons, List.pairwise_cons]
      refine ⟨?_, h⟩
      intro b hb
      rcases List.mem_cons.1 hb with rfl | hb
      · exact h1
      · exact lt_trans h1 (h.1 b hb)
    · subst h2; rw [List.pairwise_cons]; exact h
    · rw [List.pairwise_cons]
      refine ⟨?_, ih h.2⟩
      intro b hb
      rcases CostFn.mem_add_key fs t f b hb with h3 | h3
      · simp only [h3]; omega
      · exact h.1 b h3

theorem CostFn.mem_add (fs : CostFn X C D) (t : Int) (f : SingleCostFn X C D)
    (h : CostFn.Sorted fs) (e : Int × SingleCostFn X C D) :
    e ∈ fs.add t f ↔ e = (t, f) ∨ (e ∈ fs ∧ e.1 ≠ t) := by
  induction fs with
  | nil => simp [CostFn.add]
  | cons a fs ih =>
    obtain ⟨s, g⟩ := a
    unfold CostFn.Sorted at *
    rw [List.pairwise_cons] at h
    have hgt : ∀ b ∈ fs, s < b.1 := h.1
    simp only [CostFn.add]
    split_ifs with h1 h2
    · simp only [List.mem_cons]
      constructor
      · rintro (h3 | h3 | h3)
        · left; exact h3
        · right; refine ⟨Or.inl h3, ?_⟩; rw [h3]; simp; omega
        · right; refine ⟨Or.inr h3, ?_⟩; have := hgt e h3; omega
      · rintro (h3 | ⟨h3, _⟩)
        · left; exact h3
        · right; exact h3
    · subst h2
      simp only [List.mem_cons]
      constructor
      · rintro (h3 | h3)
        · left; exact h3
        · right; refine ⟨Or.inr h3, ?_⟩; have := hgt e h3; omega
      · rintro (h3 | ⟨h3 | h3, h4⟩)
        · left; exact h3
        · exact absurd (by rw [h3]) h4
        · right; exact h3
    · simp only [List.mem_cons, ih h.2]
      constructor
      · rintro (h3 | h3 | ⟨h3, h4⟩)
        · right; refine ⟨Or.inl h3, ?_⟩; rw [h3]; simp; omega
        · left; exact h3
        · right; exact ⟨Or.inr h3, h4⟩
      · rintro (h3 | ⟨h3 | h3, h4⟩)
        · right; left; exact h3
        · left; exact h3
        · right; right; exact ⟨h3, h4⟩

theorem CostFn.build_append (l : List (Int × SingleCostFn X C D)) (e : Int × SingleCostFn X C D) :
    CostFn.build (l ++ [e]) = (CostFn.build l).add e.1 e.2 := by
  simp [CostFn.build]

theorem CostFn.sorted_build (l : List (Int × SingleCostFn X C D)) :
    CostFn.Sorted (CostFn.build l) := by
  induction l using List.reverseRecOn with
  | nil => simp [CostFn.build, CostFn.Sorted, CostFn.empty]
  | append_singleton l e ih => rw [CostFn.build_append]; exact CostFn.sorted_add _ _ _ ih

theorem CostFn.mem_build (l : List (Int × SingleCostFn X C D)) (e : Int × SingleCostFn X C D) :
    e ∈ CostFn.build l ↔ ∃ b a, l = b ++ e :: a ∧ ∀ e' ∈ a, e'.1 ≠ e.1 := by
  induction l using List.reverseRecOn with
  | nil => simp [CostFn.build, CostFn.empty]
  | append_singleton l g ih =>
    rw [CostFn.build_append, CostFn.mem_add _ _ _ (CostFn.sorted_build l), ih]
    constructor
    · rintro (h | ⟨⟨b, a, h1, h2⟩, h3⟩)
      · exact ⟨l, [], by rw [h], by simp⟩
      · refine ⟨b, a ++ [g], by rw [h1]; simp, ?_⟩
        intro e' he'
        rcases List.mem_append.1 he' with h | h
        · exact h2 e' h
        · rw [List.mem_singleton.1 h]; exact fun h => h3 h.symm
    · rintro ⟨b, a, h1, h2⟩
      rcases List.eq_nil_or_concat a with rfl | ⟨a', z, rfl⟩
      · left
        have := List.append_inj_right' h1 rfl
        simpa using this.symm
      · right
        have h4 : l ++ [g] = (b ++ e :: a') ++ [z] := by rw [h1]; simp
        have h5 := List.append_inj' h4 rfl
        have h6 : g = z := by simpa using h5.2
        refine ⟨⟨b, a', h5.1, fun e' he' => h2 e' (by simp [he'])⟩, ?_⟩
        rw [h6]; exact fun h => h2 z (by simp) h.symm

theorem exists_mem_build_key (l : List (Int × SingleCostFn X C D)) (e : Int × SingleCostFn X C D)
    (he : e ∈ l) : ∃ e' ∈ CostFn.build l, e'.1 = e.1 := by
  induction l using List.reverseRecOn with
  | nil => simp at he
  | append_singleton l g ih =>
    rw [CostFn.build_append]
    by_cases h : e.1 = g.1
    · exact ⟨g, (CostFn.mem_add _ _ _ (CostFn.sorted_build l) _).2 (Or.inl rfl), h.symm⟩
    · rcases List.mem_append.1 he with h1 | h1
      · obtain ⟨e', h2, h3⟩ := ih h1
        exact ⟨e', (CostFn.mem_add _ _ _ (CostFn.sorted_build l) _).2 (Or.inr ⟨h2, by rw [h3]; exact h⟩),
          h3⟩
      · exact absurd (by rw [List.mem_singleton.1 h1]) h

theorem getLast?_sorted {fs : CostFn X C D} (h : CostFn.Sorted fs) (e : Int × SingleCostFn X C D) :
    fs.getLast? = some e ↔ e ∈ fs ∧ ∀ e' ∈ fs, e'.1 ≤ e.1 := by
  constructor
  · intro hl
    obtain ⟨l, rfl⟩ := List.getLast?_eq_some_iff.1 hl
    refine ⟨by simp, ?_⟩
    intro e' he'
    rcases List.mem_append.1 he' with h1 | h1
    · unfold CostFn.Sorted at h
      rw [List.pairwise_append] at h
      exact (h.2.2 e' h1 e (by simp)).le
    · rw [List.mem_singleton.1 h1]
  · rintro ⟨h1, h2⟩
    cases hfs : fs.getLast? with
    | none => rw [List.getLast?_eq_none_iff] at hfs; subst hfs; simp at h1
    | some g =>
      obtain ⟨l, rfl⟩ := List.getLast?_eq_some_iff.1 hfs
      rcases List.mem_append.1 h1 with h3 | h3
      · unfold CostFn.Sorted at h
        rw [List.pairwise_append] at h
        have h4 := h.2.2 e h3 g (by simp)
        have h5 := h2 g (by simp)
        omega
      · rw [List.mem_singleton.1 h3]

/-- The last step of `get`. -/
def CostFn.lastOr (o : Option (Int × SingleCostFn X C D)) : Res (Int × SingleCostFn X C D) :=
  match o with
  | some e => .ok e
  | none => .error .panic

/-- **C05** (which version is used). Whatever the history of registrations, slot `t` is evaluated with
the last registration under the largest stamp in `1..t`. -/
theorem C05_version_used (history : List (Int × SingleCostFn X C D)) (t : Int)
    (e : Int × SingleCostFn X C D) :
    (CostFn.build history).get t = .ok e ↔ Spec.IsVersion history t e := by
  unfold CostFn.get Spec.IsVersion
  by_cases ht : 1 ≤ t
  · simp only [assertP, ge_iff_le, ht, decide_true, if_true, bind, Except.bind]
    have hs : CostFn.Sorted ((CostFn.build history).filter
        fun e => decide (1 ≤ e.1) && decide (e.1 ≤ t)) :=
      List.Pairwise.filter _ (CostFn.sorted_build history)
    have key := getLast?_sorted hs e
    have l : ∀ o : Option (Int × SingleCostFn X C D), (CostFn.lastOr o = .ok e) ↔ o = some e := by
      intro o; cases o <;> simp [CostFn.lastOr]
    change CostFn.lastOr _ = _ ↔ _
    rw [l, key, List.mem_filter, CostFn.mem_build]
    simp only [Bool.and_eq_true, decide_eq_true_eq]
    constructor
    · rintro ⟨⟨h1, h2, h3⟩, h4⟩
      refine ⟨h2, h3, h1, ?_⟩
      intro e' he' h5 h6
      obtain ⟨g, hg, hge⟩ := exists_mem_build_key history e' he'
      rw [← hge]
      refine h4 g ?_
      rw [List.mem_filter]
      simp [hg, hge, h5, h6]
    · rintro ⟨h2, h3, h1, h4⟩
      refine ⟨⟨h1, h2, h3⟩, ?_⟩
      intro e' he'
      rw [List.mem_filter] at he'
      simp only [Bool.and_eq_true, decide_eq_true_eq] at he'
      obtain ⟨b, a, h5, _⟩ := (CostFn.mem_build history e').1 he'.1
      exact h4 e' (by rw [h5]; simp) he'.2.1 he'.2.2
  · simp only [assertP, ge_iff_le, ht, decide_false, bind, Except.bind]
    constructor
    · intro h; simp at h
    · rintro ⟨h1, h2, _⟩; omega

/-- `get` panics in all other cases. -/
theorem get_error (fs : CostFn X C D) (t : Int) (e : Fault) (h : fs.get t = .error e) :
    e = .panic := by
  unfold CostFn.get at h
  by_cases ht : 1 ≤ t
  · simp only [assertP, ge_iff_le, ht, decide_true, if_true, bind, Except.bind] at h
    split at h <;> simp at h; exact h.symm
  · simp [assertP, ht, bind, Except.bind] at h; exact h.symm

theorem exists_version (history : List (Int × SingleCostFn X C D)) (t : Int)
    (h : Spec.Covered history t) : ∃ e, Spec.IsVersion history t e := by
  by_contra hne
  have h1 : ∀ e, (CostFn.build history).get t ≠ .ok e := fun e he =>
    hne ⟨e, (C05_version_used history t e).1 he⟩
  obtain ⟨e, he, h2, h3⟩ := h
  obtain ⟨g, hg, hge⟩ := exists_mem_build_key history e he
  have ht : 1 ≤ t := by omega
  have hmem : g ∈ (CostFn.build history).filter
      fun e => decide (1 ≤ e.1) && decide (e.1 ≤ t) := by
    rw [List.mem_filter]; simp [hg, hge, h2, h3]
  cases hl : ((CostFn.build history).filter
      fun e => decide (1 ≤ e.1) && decide (e.1 ≤ t)).getLast? with
  | none => rw [List.getLast?_eq_none_iff] at hl; rw [hl] at hmem; simp at hmem
  | some v =>
    apply h1 v
    simp only [CostFn.get, assertP, ge_iff_le, ht, decide_true, if_true, bind, Except.bind, hl]

theorem IsVersion.covered {history : List (Int × SingleCostFn X C D)} {t : Int}
    {e : Int × SingleCostFn X C D} (h : Spec.IsVersion history t e) : Spec.Covered history t := by
  obtain ⟨h1, h2, ⟨b, a, h3, _⟩, _⟩ := h
  exact ⟨e, by rw [h3]; simp, h1, h2⟩

/-- Two histories that agree on which registration decides slot `t` are evaluated alike in `t`. -/
theorem get_congr {h₁ h₂ : List (Int × SingleCostFn X C D)} {t : Int}
    (h : ∀ e, Spec.IsVersion h₁ t e ↔ Spec.IsVersion h₂ t e) :
    (CostFn.build h₁).get t = (CostFn.build h₂).get t := by
  cases h1 : (CostFn.build h₁).get t with
  | ok e =>
    rw [(C05_version_used h₂ t e).2 ((h e).1 ((C05_version_used h₁ t e).1 h1))]
  | error e =>
    cases h2 : (CostFn.build h₂).get t with
    | ok e' =>
      rw [(C05_version_used h₁ t e').2 ((h e').2 ((C05_version_used h₂ t e').1 h2))] at h1
      simp at h1
    | error e' => rw [get_error _ _ _ h1, get_error _ _ _ h2]

/-- **C05** (the past is not rewritten). Registering a function for a slot `u` leaves the cost of every
earlier slot, for every argument, unchanged (all three ways of evaluating it). -/
theorem C05_past_unchanged (history : List (Int × SingleCostFn X C D)) (u t : Int) (htu : t < u)
    (f : SingleCostFn X C D) (x : X) :
    ((CostFn.build history).add u f).callMean t x = (CostFn.build history).callMean t x ∧
    ((CostFn.build history).add u f).callCertain t x = (CostFn.build history).callCertain t x ∧
    ((CostFn.build history).add u f).callPredictive t x
      = (CostFn.build history).callPredictive t x := by
  have h : ((CostFn.build history).add u f).get t = (CostFn.build history).get t := by
    rw [← CostFn.build_append history (u, f)]
    apply get_congr
    intro e
    unfold Spec.IsVersion
    constructor
    · rintro ⟨h1, h2, ⟨b, a, h3, h4⟩, h5⟩
      refine ⟨h1, h2, ?_, fun e' he' => h5 e' (by simp [he'])⟩
      rcases List.eq_nil_or_concat a with rfl | ⟨a', z, rfl⟩
      · have := List.append_inj_right' h3 rfl
        have h6 : (u, f) = e := by simpa using this
        rw [← h6] at h2; simp at h2; omega
      · have h6 : history ++ [(u, f)] = (b ++ e :: a') ++ [z] := by rw [h3]; simp
        have h7 := List.append_inj' h6 rfl
        exact ⟨b, a', h7.1, fun e' he' => h4 e' (by simp [he'])⟩
    · rintro ⟨h1, h2, ⟨b, a, h3, h4⟩, h5⟩
      refine ⟨h1, h2, ⟨b, a ++ [(u, f)], by rw [h3]; simp, ?_⟩, ?_⟩
      · intro e' he'
        rcases List.mem_append.1 he' with h | h
        · exact h4 e' h
        · rw [List.mem_singleton.1 h]; simp; omega
      · intro e' he' h6 h7
        rcases List.mem_append.1 he' with h | h
        · exact h5 e' h h6 h7
        · rw [List.mem_singleton.1 h] at h7; simp at h7; omega
  simp [CostFn.callMean, CostFn.callCertain, CostFn.callPredictive, h]

/-- **C05** (replacement). A later registration under the same stamp replaces the earlier one. -/
theorem C05_replacement (history : List (Int × SingleCostFn X C D)) (u : Int)
    (f g : SingleCostFn X C D) (t : Int) :
    (((CostFn.build history).add u f).add u g).get t = ((CostFn.build history).add u g).get t := by
  have h1 : ((CostFn.build history).add u f).add u g
      = CostFn.build (history ++ [(u, f)] ++ [(u, g)]) := by
    rw [CostFn.build_append, CostFn.build_append]
  rw [h1, ← CostFn.build_append history (u, g)]
  apply get_congr
  intro e
  unfold Spec.IsVersion
  simp only [← CostFn.mem_build, CostFn.build_append,
    CostFn.mem_add _ _ _ (CostFn.sorted_add _ _ _ (CostFn.sorted_build history)),
    CostFn.mem_add _ _ _ (CostFn.sorted_build history)]
  constructor
  · rintro ⟨h1, h2, h3, h4⟩
    refine ⟨h1, h2, ?_, fun e' he' => h4 e' ?_⟩
    · rcases h3 with h | ⟨h | h, h'⟩
      · exact Or.inl h
      · rw [h] at h'; simp at h'
      · exact Or.inr h
    · rcases List.mem_append.1 he' with h | h
      · simp [h]
      · simp [List.mem_singleton.1 h]
  · rintro ⟨h1, h2, h3, h4⟩
    refine ⟨h1, h2, ?_, ?_⟩
    · rcases h3 with h | h
      · exact Or.inl h
      · exact Or.inr ⟨Or.inr h, h.2⟩
    · intro e' he' h5 h6
      rcases List.mem_append.1 he' with h | h
      · rcases List.mem_append.1 h with h | h
        · exact h4 e' (by simp [h]) h5 h6
        · rw [List.mem_singleton.1 h] at h5 h6 ⊢
          exact h4 (u, g) (by simp) h5 h6
      · exact h4 e' (by simp [List.mem_singleton.1 h]) h5 h6

/-- **C05** (order). Histories that register the same functions under pairwise different stamps in
different orders give the same costs. -/
theorem C05_order_irrelevant (h₁ h₂ : List (Int × SingleCostFn X C D)) (hp : h₁.Perm h₂)
    (hd : (h₁.map Prod.fst).Nodup) (t : Int) (x : X) :
    (CostFn.build h₁).callMean t x = (CostFn.build h₂).callMean t x ∧
    (CostFn.build h₁).callPredictive t x = (CostFn.build h₂).callPredictive t x := by
  have aux : ∀ (h : List (Int × SingleCostFn X C D)), (h.map Prod.fst).Nodup → ∀ e,
      (∃ b a, h = b ++ e :: a ∧ ∀ e' ∈ a, e'.1 ≠ e.1) ↔ e ∈ h := by
    intro h hd e
    constructor
    · rintro ⟨b, a, rfl, _⟩; simp
    · intro he
      obtain ⟨b, a, rfl⟩ := List.append_of_mem he
      refine ⟨b, a, rfl, ?_⟩
      intro e' he' heq
      simp only [List.map_append, List.map_cons] at hd
      have := (List.nodup_cons.1 (List.nodup_append.1 hd).2.1).1
      exact this (by rw [← heq]; exact List.mem_map_of_mem he')
  have h : (CostFn.build h₁).get t = (CostFn.build h₂).get t := by
    apply get_congr
    intro e
    unfold Spec.IsVersion
    rw [aux h₁ hd, aux h₂ ((hp.map Prod.fst).nodup_iff.1 hd), hp.mem_iff]
    simp only [hp.mem_iff]
  simp [CostFn.callMean, CostFn.callPredictive, h]

/-- A history with a replacement, an out-of-order registration and an uncovered slot. -/
example (f g h : SingleCostFn X C D) :
    Spec.IsVersion [(3, f), (1, g), (3, h)] 4 (3, h) ∧ Spec.IsVersion [(3, f), (1, g), (3, h)] 2 (1, g)
      ∧ ¬ Spec.Covered [(3, f), (3, h)] 2 := by
  refine ⟨⟨by simp, by simp, ⟨[(3, f), (1, g)], [], rfl, by simp⟩, ?_⟩,
    ⟨by simp, by simp, ⟨[(3, f)], [(3, h)], rfl, by simp⟩, ?_⟩, ?_⟩
  · simp
  · simp
  · rintro ⟨e, he, h1, h2⟩; simp at he; rcases he with rfl | rfl <;> simp at h2

/-! ## C07 -/

theorem callPredictive_eq (fs : CostFn X C D) (t : Int) (x : X) (s : Int) (f : SingleCostFn X C D)
    (hg : fs.get t = .ok (s, f)) (hs : s ≤ t) (r : List (Cost C D)) (hf : f t x = .ok r) :
    fs.callPredictive t x
      = if (t = s → r.length = 1) ∧ r ≠ [] then .ok r else .error .panic := by
  simp only [CostFn.callPredictive, hg, SingleCostFn.callPredictive, assertP, ge_iff_le, hs,
    decide_true, if_true, bind, Except.bind, hf]
  by_cases hts : t = s
  · by_cases hl : r.length = 1
    · have : r ≠ [] := by rintro rfl; simp at hl
      have h2 : r.isEmpty = false := by cases r <;> simp at this ⊢
      simp [hts, hl, this, h2]
    · simp [hts, hl]
  · cases r with
    | nil => simp [hts]
    | cons a r => simp [hts]

/-- **C07** (predictive). With a user function that returns samples, predictive evaluation panics
exactly if no registration covers the slot (in particular if the slot is < 1), the deciding
function returns no sample, or it returns several samples for its own current slot; otherwise it
returns the samples unchanged. -/
theorem C07_predictive_exact (history : List (Int × SingleCostFn X C D)) (t : Int) (x : X)
    (samples : (Int × SingleCostFn X C D) → List (Cost C D))
    (hf : ∀ e ∈ history, e.2 t x = .ok (samples e)) :
    ((CostFn.build history).callPredictive t x = .error .panic ↔
      ¬ Spec.Covered history t ∨
      ∃ e, Spec.IsVersion history t e ∧
        (samples e = [] ∨ (e.1 = t ∧ 1 < (samples e).length))) ∧
    (∀ r, (CostFn.build history).callPredictive t x = .ok r ↔
      ∃ e, Spec.IsVersion history t e ∧ r = samples e ∧ r ≠ [] ∧ (e.1 = t → r.length = 1)) := by
  by_cases hc : Spec.Covered history t
  · obtain ⟨⟨s, f⟩, hv⟩ := exists_version history t hc
    have hg := (C05_version_used history t (s, f)).2 hv
    have hmem : (s, f) ∈ history := by obtain ⟨_, _, ⟨b, a, h, _⟩, _⟩ := hv; rw [h]; simp
    have huniq : ∀ e, Spec.IsVersion history t e → e = (s, f) := by
      intro e he
      have := (C05_version_used history t e).2 he
      rw [hg] at this; simpa using this.symm
    have hcall := callPredictive_eq _ t x s f hg hv.2.1 _ (hf _ hmem)
    rw [hcall]
    constructor
    · constructor
      · intro h
        right
        refine ⟨(s, f), hv, ?_⟩
        split_ifs at h with h1
        by_cases h2 : samples (s, f) = []
        · exact Or.inl h2
        · right
          by_contra h3
          apply h1
          refine ⟨fun hts => ?_, h2⟩
          have : 0 < (samples (s, f)).length := List.length_pos_iff.2 h2
          simp only [not_and, not_lt] at h3
          have := h3 hts.symm
          omega
      · rintro (h | ⟨e, he, h⟩)
        · exact absurd hc h
        · rw [huniq e he] at h
          rw [if_neg]
          rintro ⟨h1, h2⟩
          rcases h with h | ⟨h3, h4⟩
          · exact h2 h
          · have := h1 h3.symm; omega
    · intro r
      constructor
      · intro h
        split_ifs at h with h1
        simp only [Except.ok.injEq] at h
        exact ⟨(s, f), hv, h.symm, by rw [← h]; exact h1.2, fun hts => by rw [← h]; exact h1.1 hts.symm⟩
      · rintro ⟨e, he, h1, h2, h3⟩
        rw [huniq e he] at h1 h3
        rw [if_pos ⟨fun hts => h1 ▸ h3 hts.symm, h1 ▸ h2⟩, h1]
  · have hg : (CostFn.build history).get t = .error .panic := by
      cases h : (CostFn.build history).get t with
      | ok e => exact absurd (IsVersion.covered ((C05_version_used history t e).1 h)) hc
      | error e => rw [get_error _ _ _ h]
    have hcall : (CostFn.build history).callPredictive t x = .error .panic := by
      simp [CostFn.callPredictive, hg, bind, Except.bind]
    rw [hcall]
    refine ⟨⟨fun _ => Or.inl hc, fun _ => rfl⟩, fun r => ⟨fun h => by simp at h, ?_⟩⟩
    rintro ⟨e, he, _⟩
    exact absurd (IsVersion.covered he) hc

/-- **C07** (certain). Certain evaluation additionally panics exactly if several samples are
returned. -/
theorem C07_certain_exact (fs : CostFn X C D) (t : Int) (x : X) :
    (∀ c, fs.callCertain t x = .ok c ↔ fs.callPredictive t x = .ok [c]) ∧
    (∀ r, fs.callPredictive t x = .ok r → r.length ≠ 1 → fs.callCertain t x = .error .panic) ∧
    (∀ e, fs.callPredictive t x = .error e → fs.callCertain t x = .error e) := by
  rw [CostFn.callCertain_eq]
  refine ⟨?_, ?_, ?_⟩
  · intro c
    cases h : fs.callPredictive t x with
    | error e => simp [Except.bind]
    | ok r =>
      rcases r with _ | ⟨a, _ | ⟨b, r⟩⟩ <;> simp [Except.bind]
  · intro r h hl
    rw [h]
    rcases r with _ | ⟨a, _ | ⟨b, r⟩⟩ <;> simp [Except.bind] at hl ⊢
  · intro e h; rw [h]; rfl

/-- **C07** (agreement). If the slot's cost is certain, all three evaluations agree. -/
theorem C07_certain_agree (fs : CostFn X C D) (t : Int) (x : X) (c : Cost C D)
    (h : fs.callPredictive t x = .ok [c]) :
    fs.callMean t x = .ok c ∧ fs.callCertain t x = .ok c := by
  rw [CostFn.callMean_eq, CostFn.callCertain_eq, h]
  exact ⟨Cost.mean_singleton c, rfl⟩

/-- **C07** (mean). Mean evaluation succeeds whenever predictive evaluation does and the samples'
outputs can be merged; the cost of the empty sample list never arises. -/
theorem C07_mean_exact (fs : CostFn X C D) (t : Int) (x : X) :
    (∀ e, fs.callPredictive t x = .error e → fs.callMean t x = .error e) ∧
    (∀ r, fs.callPredictive t x = .ok r → fs.callMean t x = Cost.mean r) := by
  rw [CostFn.callMean_eq]
  exact ⟨fun e h => by rw [h]; rfl, fun r h => by rw [h]; rfl⟩

/-- Certain, several-sample and empty-sample functions all occur. -/
example (c : Cost C D) : ∀ e ∈ [((1 : Int), (fun _ _ => .ok [c, c] : SingleCostFn X C D)),
    (2, fun _ _ => .ok [])], ∀ x, e.2 3 x = .ok (if e.1 = 1 then [c, c] else []) := by
  simp

/-! ## C06 -/

section
variable {T : Type} [Value T]

theorem withinVec_eq (bounds : List T) (x : Config T) :
    (withinVec bounds x = .ok true ↔ Spec.InBox bounds x) ∧
    (withinVec bounds x = .error .panic ↔ x.length ≠ bounds.length) ∧
    (withinVec bounds x = .ok false ↔ x.length = bounds.length ∧ ¬ Spec.InBox bounds x) := by
  have key : ∀ (bounds : List T) (x : Config T), x.length = bounds.length →
      ((List.zipWith (fun u j => decide (j ≥ (0 : T)) && decide (j ≤ u)) bounds x).all id = true
        ↔ Spec.InBox bounds x) := by
    intro bounds
    induction bounds with
    | nil => intro x h; have : x = [] := by simpa using h
             subst this; simp [Spec.InBox]
    | cons u us ih =>
      intro x h
      cases x with
      | nil => simp at h
      | cons j x =>
        have := ih x (by simpa using h)
        simp only [List.zipWith_cons_cons, List.all_cons, Bool.and_eq_true, id, this, Spec.InBox,
          List.forall₂_cons, decide_eq_true_eq, ge_iff_le]
  unfold withinVec
  by_cases h : x.length = bounds.length
  · have k := key bounds x h
    simp only [h, if_true, Except.ok.injEq, k, ne_eq, not_true_eq_false, true_and, reduceCtorEq]
    rw [← k, Bool.not_eq_true]
  · simp only [h, if_false, ne_eq, not_false_eq_true, false_and, reduceCtorEq, true_and, false_iff,
      and_true]
    exact fun hb => h (List.Forall₂.length_eq hb).symm

theorem withinPairs_eq (bounds : List (T × T)) (x : Config T) :
    (withinPairs bounds x = .ok true ↔ Spec.InBoxes bounds x) ∧
    (withinPairs bounds x = .error .panic ↔ x.length ≠ bounds.length) ∧
    (withinPairs bounds x = .ok false ↔ x.length = bounds.length ∧ ¬ Spec.InBoxes bounds x) := by
  have key : ∀ (bounds : List (T × T)) (x : Config T), x.length = bounds.length →
      ((List.zipWith (fun (b : T × T) j => decide (j ≥ b.1) && decide (j ≤ b.2)) bounds x).all id
        = true ↔ Spec.InBoxes bounds x) := by
    intro bounds
    induction bounds with
    | nil => intro x h; have : x = [] := by simpa using h
             subst this; simp [Spec.InBoxes]
    | cons u us ih =>
      intro x h
      cases x with
      | nil => simp at h
      | cons j x =>
        have := ih x (by simpa using h)
        simp only [List.zipWith_cons_cons, List.all_cons, Bool.and_eq_true, id, this, Spec.InBoxes,
          List.forall₂_cons, decide_eq_true_eq, ge_iff_le]
  unfold withinPairs
  by_cases h : x.length = bounds.length
  · have k := key bounds x h
    simp only [h, if_true, Except.ok.injEq, k, ne_eq, not_true_eq_false, true_and, reduceCtorEq]
    rw [← k, Bool.not_eq_true]
  · simp only [h, if_false, ne_eq, not_false_eq_true, false_and, reduceCtorEq, true_and, false_iff,
      and_true]
    exact fun hb => h (List.Forall₂.length_eq hb).symm

/-- **C06** (evaluation). For a point of the right dimension: inside the box the guarded evaluations
are the unguarded ones; outside they return an infinite cost labelled as outside the decision
space, whatever the user's cost function is (so it is not consulted). -/
theorem C06_guarded_evaluation (fs : CostFn (Config T) C D) (t : Int) (bounds : List T)
    (x : Config T) (hx : x.length = bounds.length) :
    (Spec.InBox bounds x →
      fs.callMeanWithinBounds t x (withinVec bounds) = fs.callMean t x ∧
      fs.callCertainWithinBounds t x (withinVec bounds) = fs.callCertain t x ∧
      fs.callPredictiveWithinBounds t x (withinVec bounds) = fs.callPredictive t x) ∧
    (¬ Spec.InBox bounds x →
      fs.callMeanWithinBounds t x (withinVec bounds) = .ok ⟨⊤, .failure OutFailure.outside⟩ ∧
      fs.callCertainWithinBounds t x (withinVec bounds) = .ok ⟨⊤, .failure OutFailure.outside⟩ ∧
      fs.callPredictiveWithinBounds t x (withinVec bounds)
        = .ok [⟨⊤, .failure OutFailure.outside⟩]) := by
  constructor
  · intro h
    have := (withinVec_eq bounds x).1.2 h
    simp [CostFn.callMeanWithinBounds, CostFn.callCertainWithinBounds,
      CostFn.callPredictiveWithinBounds, this, bind, Except.bind]
  · intro h
    have := (withinVec_eq bounds x).2.2.2 ⟨hx, h⟩
    simp [CostFn.callMeanWithinBounds, CostFn.callCertainWithinBounds,
      CostFn.callPredictiveWithinBounds, this, bind, Except.bind, CostFn.outsideCost]

/-- **C06** for decision spaces with lower bounds. -/
theorem C06_guarded_evaluation_pairs (fs : CostFn (Config T) C D) (t : Int) (bounds : List (T × T))
    (x : Config T) (hx : x.length = bounds.length) :
    (Spec.InBoxes bounds x →
      fs.callMeanWithinBounds t x (withinPairs bounds) = fs.callMean t x ∧
      fs.callCertainWithinBounds t x (withinPairs bounds) = fs.callCertain t x ∧
      fs.callPredictiveWithinBounds t x (withinPairs bounds) = fs.callPredictive t x) ∧
    (¬ Spec.InBoxes bounds x →
      fs.callMeanWithinBounds t x (withinPairs bounds) = .ok ⟨⊤, .failure OutFailure.outside⟩ ∧
      fs.callCertainWithinBounds t x (withinPairs bounds) = .ok ⟨⊤, .failure OutFailure.outside⟩ ∧
      fs.callPredictiveWithinBounds t x (withinPairs bounds)
        = .ok [⟨⊤, .failure OutFailure.outside⟩]) := by
  constructor
  · intro h
    have := (withinPairs_eq bounds x).1.2 h
    simp [CostFn.callMeanWithinBounds, CostFn.callCertainWithinBounds,
      CostFn.callPredictiveWithinBounds, this, bind, Except.bind]
  · intro h
    have := (withinPairs_eq bounds x).2.2.2 ⟨hx, h⟩
    simp [CostFn.callMeanWithinBounds, CostFn.callCertainWithinBounds,
      CostFn.callPredictiveWithinBounds, this, bind, Except.bind, CostFn.outsideCost]

/-- **C06** for scalar decision spaces. -/
theorem C06_guarded_evaluation_scalar (fs : CostFn T C D) (t : Int) (bound x : T) :
    (0 ≤ x ∧ x ≤ bound → fs.callMeanWithinBounds t x (withinScalar bound) = fs.callMean t x) ∧
    (¬ (0 ≤ x ∧ x ≤ bound) → fs.callMeanWithinBounds t x (withinScalar bound)
      = .ok ⟨⊤, .failure OutFailure.outside⟩) := by
  constructor
  · rintro ⟨h1, h2⟩
    simp [CostFn.callMeanWithinBounds, withinScalar, bind, Except.bind, not_lt.2 h1, not_lt.2 h2]
  · intro h
    have : x < 0 ∨ bound < x := by
      by_contra h'; push Not at h'; exact h h'
    rcases this with h1 | h1 <;>
    simp [CostFn.callMeanWithinBounds, withinScalar, bind, Except.bind, h1, CostFn.outsideCost]

theorem hitTerms_finite_inBox (p : SSCO T C D) (dflt : Config T) (n : Nat) :
    ∀ (t : Int) (xs : Schedule T) (hs : List (Cost C D)), xs.length = n → t + n ≤ p.tEnd + 1 →
    hitTerms p.toProb dflt n t xs = .ok hs → (hs.map (·.cost)).sum ≠ ⊤ →
    ∀ x ∈ xs, Spec.InBox p.bounds x := by
  have hend' : p.toProb.tEnd = p.tEnd := rfl
  induction n with
  | zero => intro t xs hs h; have : xs = [] := by simpa using h
            subst this; simp
  | succ n ih =>
    intro t xs hs hl hT h hfin
    cases xs with
    | nil => simp at hl
    | cons x xs =>
      rw [hitTerms_succ] at h
      have e2 : p.toProb.hitOrNone t x = p.toProb.hitCost t x := by
        simp [Prob.hitOrNone, hend', not_lt.2 (show t ≤ p.tEnd by push_cast at hT; omega)]
      simp only [List.headD_cons, List.tail_cons, e2, bind, Except.bind] at h
      cases hc : p.toProb.hitCost t x with
      | error e => rw [hc] at h; simp at h
      | ok c =>
        rw [hc] at h
        cases h4 : hitTerms p.toProb dflt n (t + 1) xs with
        | error e => rw [h4] at h; simp at h
        | ok r =>
          rw [h4] at h
          simp only [Except.ok.injEq] at h
          subst h
          simp only [List.map_cons, List.sum_cons, ne_eq, WithTop.add_eq_top, not_or] at hfin
          intro y hy
          rcases List.mem_cons.1 hy with rfl | hy
          · simp only [SSCO.toProb, CostFn.callMeanWithinBounds] at hc
            cases hw : withinVec p.bounds y with
            | error e => rw [hw] at hc; simp [bind, Except.bind] at hc
            | ok b =>
              cases b with
              | true => exact (withinVec_eq _ _).1.1 hw
              | false =>
                rw [hw] at hc
                simp [bind, Except.bind, CostFn.outsideCost] at hc
                subst hc
                exact absurd rfl hfin.1
          · exact ih (t + 1) xs r (by simpa using hl) (by push_cast at hT; omega) h4 hfin.2 y hy

/-- **C06** (schedules). A schedule of finite objective stays in the decision space in every slot. -/
theorem C06_finite_objective_feasible (p : SSCO T C D) (xs : Schedule T) (dflt : Config T) (α : ℚ)
    (inv : Bool) (hT : p.tEnd = xs.length) (hd : ∀ x ∈ dflt :: xs, (x.length : Int) = p.d)
    (hβ : (p.switchingCost.length : Int) = p.d) (c : Cost C D)
    (h : p.toProb.objectiveWithDefault' xs dflt α inv xs.length = .ok c) (hfin : c.cost ≠ ⊤) :
    ∀ x ∈ xs, Spec.InBox p.bounds x := by
  have hm : ∀ y ∈ dflt :: Spec.padTo xs.length dflt xs, ∀ x ∈ Spec.padTo xs.length dflt xs,
      p.toProb.movement y x inv = .ok (Spec.moveCost inv p.switchingCost y x) := by
    rw [padTo_self]
    intro y hy x hx
    have h1 := hd y hy
    have h2 := hd x (by simp [hx])
    exact scaledMovement_eq _ _ _ _ (by omega) (by omega)
  rw [objective_decomp _ _ _ _ _ _ _ hm] at h
  cases hh : hitTerms p.toProb dflt xs.length 1 xs with
  | error e => rw [hh] at h; simp [Except.map] at h
  | ok hs =>
    rw [hh] at h
    simp only [Except.map, Except.ok.injEq] at h
    subst h
    simp only [ne_eq, WithTop.add_eq_top, not_or] at hfin
    exact hitTerms_finite_inBox p dflt xs.length 1 xs hs rfl (by omega) hh hfin.1

/-- The box is neither everything nor nothing: `ssco2` has points inside and outside. -/
example : Spec.InBox Ex.ssco2.bounds [1, 3] ∧ ¬ Spec.InBox Ex.ssco2.bounds [3, 1] ∧
    ¬ Spec.InBox Ex.ssco2.bounds [1] := by
  simp [Spec.InBox, Ex.ssco2]

/-- The restriction to SSCO (and SCO) is needed: the hitting cost of SLO does not consult the bounds,
so a schedule outside the decision space can have a finite objective there. -/
theorem C06_slo_ignores_bounds_counterexample :
    ¬ Spec.InBox Ex.slo2.bounds [9, 0] ∧
    ∃ c : Cost Unit DCFailure, Ex.slo2.toProb.objective [[9, 0], [9, 0], [9, 0]] = .ok c
      ∧ c.cost = ((63 : ℚ) : ECost) := by
  refine ⟨by simp [Spec.InBox, Ex.slo2], ?_⟩
  have h : ∃ c : Cost Unit DCFailure, Ex.slo2.toProb.objective [[9, 0], [9, 0], [9, 0]] = .ok c := by
    exact ⟨_, rfl⟩
  obtain ⟨c, hc⟩ := h
  refine ⟨c, hc, ?_⟩
  have : (Ex.slo2.toProb.objective [[9, 0], [9, 0], [9, 0]]).map (·.cost)
      = .ok ((63 : ℚ) : ECost) := by decide +kernel
  rw [hc] at this
  simpa [Except.map] using this

end

end Soco
