import Verif.Model.MultiGraph
import Mathlib.Data.Set.Insert

/-! # The order in which a layer of the multi-dimensional graph is visited -/

namespace Soco.Multi

/-- `L` can be visited from left to right such that all `R`-predecessors of an element are in `S` or
were visited before. -/
def ClosedFrom {α : Type} (R : α → α → Prop) : Set α → List α → Prop
  | _, [] => True
  | S, c :: L => (∀ c', R c' c → c' ∈ S) ∧ ClosedFrom R (insert c S) L

theorem ClosedFrom.mono {α : Type} {R : α → α → Prop} {L : List α} :
    ∀ {S S' : Set α}, S ⊆ S' → ClosedFrom R S L → ClosedFrom R S' L := by
  induction L with
  | nil => intros; trivial
  | cons c L ih =>
    intro S S' h hc
    exact ⟨fun c' hr => h (hc.1 c' hr), ih (Set.insert_subset_insert h) hc.2⟩

theorem ClosedFrom.append {α : Type} {R : α → α → Prop} {L M : List α} :
    ∀ {S : Set α}, ClosedFrom R S L → ClosedFrom R (S ∪ {x | x ∈ L}) M →
      ClosedFrom R S (L ++ M) := by
  induction L with
  | nil => intro S _ h; exact h.mono (by intro x; simp)
  | cons c L ih =>
    intro S h1 h2
    refine ⟨h1.1, ih h1.2 (h2.mono ?_)⟩
    intro x; simp only [Set.mem_union, Set.mem_insert_iff, Set.mem_setOf_eq, List.mem_cons]; tauto

/-- Next value in the direction of a layer. -/
def step (up : Bool) (j b : Nat) : Option Nat :=
  if up then (if j = b then none else some (j + 1)) else (if j = 0 then none else some (j - 1))

/-- The values after `j` in the direction of a layer. -/
def rest (up : Bool) (j b : Nat) : List Nat :=
  if up then (List.range (b - j)).map (j + 1 + ·) else (List.range j).reverse

theorem rest_of_none {up : Bool} {j b : Nat} (h : step up j b = none) : rest up j b = [] := by
  cases up <;> simp [step, rest] at h ⊢ <;> omega

theorem rest_of_some {up : Bool} {j b j' : Nat} (hj : j ≤ b) (h : step up j b = some j') :
    rest up j b = j' :: rest up j' b := by
  cases up
  · simp only [step, Bool.false_eq_true, if_false] at h
    split at h
    · simp at h
    · obtain ⟨n, rfl⟩ : ∃ n, j = n + 1 := ⟨j - 1, by omega⟩
      simp at h; subst h
      simp [rest, List.range_succ]
  · simp only [step, if_true] at h
    split at h
    · simp at h
    · simp at h; subst h
      obtain ⟨n, hn⟩ : ∃ n, b - j = n + 1 := ⟨b - j - 1, by omega⟩
      have : b - (j + 1) = n := by omega
      simp [rest, hn, this, List.range_succ_eq_map]
      intro a _; omega

theorem step_le {up : Bool} {j b j' : Nat} (hj : j ≤ b) (h : step up j b = some j') : j' ≤ b := by
  cases up <;> simp only [step, Bool.false_eq_true, if_false, if_true] at h <;> split at h <;>
    simp at h <;> omega

theorem step_back {up : Bool} {j b j' : Nat} (hj : j ≤ b) (h : step up j b = some j') :
    step (!up) j' b = some j := by
  cases up <;> simp only [step, Bool.false_eq_true, if_false, if_true] at h <;> split at h <;>
    simp at h <;> subst h <;> simp [step] <;> omega

theorem rest_length (up : Bool) (j b : Nat) (hj : j ≤ b) : (rest up j b).length ≤ b := by
  cases up <;> simp [rest]; omega

theorem mem_rest_le {up : Bool} {j b x : Nat} (hj : j ≤ b) (h : x ∈ rest up j b) : x ≤ b := by
  cases up <;> simp [rest] at h <;> omega

/-- Valid index vectors. -/
def Ok (b i : List Nat) : Prop := i.length = b.length ∧ ∀ k, i.getD k 0 ≤ b.getD k 0

/-- First index vector of a layer. -/
def base (up : Bool) (b : List Nat) : List Nat := if up then List.replicate b.length 0 else b

/-- Visiting order of a layer, considering the first `n` dimensions. -/
def ord (up : Bool) (b : List Nat) : Nat → List (List Nat)
  | 0 => [base up b]
  | n + 1 => ord up b n ++ (ord up b n).flatMap fun i =>
      (rest up (i.getD n 0) (b.getD n 0)).map fun j => i.set n j

/-- `i'` differs from `i` by one step backwards in one dimension. -/
def Pred (up : Bool) (b : List Nat) (i' i : List Nat) : Prop :=
  ∃ l j, l < b.length ∧ step (!up) (i.getD l 0) (b.getD l 0) = some j ∧ i' = i.set l j

theorem getD_set_self {i : List Nat} {n : Nat} (h : n < i.length) (j : Nat) :
    (i.set n j).getD n 0 = j := by simp [List.getD, h]

theorem getD_set_ne {i : List Nat} {n l : Nat} (h : n ≠ l) (j : Nat) :
    (i.set n j).getD l 0 = i.getD l 0 := by simp [List.getD, h]

theorem set_getD_self {i : List Nat} {n : Nat} : i.set n (i.getD n 0) = i := by
  apply List.ext_getElem?
  intro m
  by_cases hm : n = m
  · subst hm
    by_cases h : n < i.length
    · simp [h, List.getD]
    · simp [h]
  · simp [hm]

theorem Ok.set {b i : List Nat} (h : Ok b i) {n j : Nat} (hj : j ≤ b.getD n 0) : Ok b (i.set n j) := by
  refine ⟨by simpa using h.1, fun k => ?_⟩
  by_cases hk : n = k
  · subst hk
    by_cases hn : n < i.length
    · rw [getD_set_self hn]; exact hj
    · rw [List.set_eq_of_length_le (by omega)]; exact h.2 n
  · rw [getD_set_ne hk]; exact h.2 k

theorem Ok.base (up : Bool) (b : List Nat) : Ok b (base up b) := by
  cases up
  · exact ⟨rfl, fun _ => le_rfl⟩
  · refine ⟨by simp [Multi.base], fun k => ?_⟩
    simp only [Multi.base, if_true, List.getD, List.getElem?_replicate]
    split <;> simp

theorem mem_ord {up : Bool} {b : List Nat} : ∀ {n : Nat} {i : List Nat}, i ∈ ord up b n →
    Ok b i ∧ ∀ l, n ≤ l → i.getD l 0 = (base up b).getD l 0 := by
  intro n
  induction n with
  | zero => intro i hi; simp only [ord, List.mem_singleton] at hi; subst hi; exact ⟨Ok.base up b, fun _ _ => rfl⟩
  | succ n ih =>
    intro i hi
    simp only [ord, List.mem_append, List.mem_flatMap, List.mem_map] at hi
    rcases hi with hi | ⟨i', hi', j, hj, rfl⟩
    · obtain ⟨h1, h2⟩ := ih hi
      exact ⟨h1, fun l hl => h2 l (by omega)⟩
    · obtain ⟨h1, h2⟩ := ih hi'
      refine ⟨h1.set (mem_rest_le (h1.2 n) hj), fun l hl => ?_⟩
      rw [getD_set_ne (by omega)]; exact h2 l (by omega)

theorem mem_rest_base {up : Bool} {b : List Nat} {n j : Nat} (hn : n < b.length)
    (hj : j ≤ b.getD n 0) :
    j = (base up b).getD n 0 ∨ j ∈ rest up ((base up b).getD n 0) (b.getD n 0) := by
  cases up
  · simp only [base, Bool.false_eq_true, if_false, rest, List.mem_reverse, List.mem_range]; omega
  · have : (base true b).getD n 0 = 0 := by
      simp only [base, if_true, List.getD, List.getElem?_replicate]; split <;> rfl
    rw [this]
    simp only [rest, if_true, List.mem_map, List.mem_range]
    rcases Nat.eq_zero_or_pos j with h | h
    · exact Or.inl h
    · exact Or.inr ⟨j - 1, by omega, by omega⟩

theorem ord_complete {up : Bool} {b : List Nat} : ∀ {n : Nat}, n ≤ b.length → ∀ {i : List Nat},
    Ok b i → (∀ l, n ≤ l → i.getD l 0 = (base up b).getD l 0) → i ∈ ord up b n := by
  intro n
  induction n with
  | zero =>
    intro _ i hi h
    simp only [ord, List.mem_singleton]
    apply List.ext_getElem
    · rw [hi.1, (Ok.base up b).1]
    · intro k h1 h2
      have := h k (Nat.zero_le _)
      simpa [List.getD, h1, h2] using this
  | succ n ih =>
    intro hn i hi h
    have hin : n < i.length := by rw [hi.1]; omega
    set i0 := i.set n ((base up b).getD n 0) with hi0
    have h0 : i0 ∈ ord up b n := by
      refine ih (by omega) (hi.set ((Ok.base up b).2 n)) fun l hl => ?_
      by_cases hl' : n = l
      · subst hl'; rw [hi0, getD_set_self hin]
      · rw [hi0, getD_set_ne hl']; exact h l (by omega)
    simp only [ord, List.mem_append, List.mem_flatMap, List.mem_map]
    rcases mem_rest_base (up := up) (by omega : n < b.length) (hi.2 n) with he | he
    · left
      rw [hi0, ← he, set_getD_self] at h0; exact h0
    · right
      refine ⟨i0, h0, i.getD n 0, ?_, ?_⟩
      · rw [hi0, getD_set_self hin]; exact he
      · rw [hi0, List.set_set, set_getD_self]

/-- All valid index vectors are visited. -/
theorem mem_ord_iff {up : Bool} {b i : List Nat} : i ∈ ord up b b.length ↔ Ok b i := by
  refine ⟨fun h => (mem_ord h).1, fun h => ord_complete le_rfl h fun l hl => ?_⟩
  simp [List.getD, h.1, (Ok.base up b).1, hl]

theorem closedFrom_rest {up : Bool} {b i : List Nat} {n : Nat} (hn : n < b.length) (hi : Ok b i) :
    ∀ (m : Nat) (j0 : Nat), j0 ≤ b.getD n 0 → (rest up j0 (b.getD n 0)).length = m →
    ∀ {S : Set (List Nat)}, i.set n j0 ∈ S →
    (∀ j ∈ rest up j0 (b.getD n 0), ∀ l j', l ≠ n → l < b.length →
      step (!up) (i.getD l 0) (b.getD l 0) = some j' → (i.set l j').set n j ∈ S) →
    ClosedFrom (Pred up b) S ((rest up j0 (b.getD n 0)).map fun j => i.set n j) := by
  intro m
  have hin : n < i.length := by rw [hi.1]; omega
  induction m with
  | zero =>
    intro j0 _ hm S _ _
    rw [List.length_eq_zero_iff.1 hm]; trivial
  | succ m ih =>
    intro j0 hj0 hm S h0 hS
    cases hs : step up j0 (b.getD n 0) with
    | none => rw [rest_of_none hs] at hm; simp at hm
    | some j1 =>
      rw [rest_of_some hj0 hs] at hm hS ⊢
      simp only [List.map_cons]
      refine ⟨?_, ih j1 (step_le hj0 hs) (by simpa using hm) (by simp) ?_⟩
      · rintro c' ⟨l, j', hl, hstep, rfl⟩
        by_cases hln : l = n
        · subst hln
          rw [getD_set_self hin, step_back hj0 hs] at hstep
          cases hstep
          rw [List.set_set]; exact h0
        · rw [getD_set_ne (Ne.symm hln)] at hstep
          rw [List.set_comm _ _ (Ne.symm hln)]
          exact hS j1 (by simp) l j' hln hl hstep
      · intro j hj l j' hln hl hstep
        exact Set.mem_insert_of_mem _ (hS j (List.mem_cons_of_mem _ hj) l j' hln hl hstep)

theorem closedFrom_flatMap {up : Bool} {b : List Nat} {n : Nat} (hn : n < b.length) :
    ∀ (L : List (List Nat)), (∀ i ∈ L, Ok b i ∧ i.getD n 0 = (base up b).getD n 0) →
    ∀ {T S : Set (List Nat)}, ClosedFrom (Pred up b) T L → (∀ i ∈ L, i ∈ S) →
    (∀ i ∈ T, ∀ j ∈ rest up ((base up b).getD n 0) (b.getD n 0), i.set n j ∈ S) →
    ClosedFrom (Pred up b) S (L.flatMap fun i =>
      (rest up (i.getD n 0) (b.getD n 0)).map fun j => i.set n j) := by
  intro L
  induction L with
  | nil => intros; trivial
  | cons i L ih =>
    intro hL T S hT hS hTS
    obtain ⟨hi, hib⟩ := hL i (by simp)
    rw [List.flatMap_cons]
    apply ClosedFrom.append
    · refine closedFrom_rest hn hi _ _ (hi.2 n) rfl ?_ ?_
      · rw [set_getD_self]; exact hS i (by simp)
      · intro j hj l j' hln hl hstep
        rw [hib] at hj
        exact hTS _ (hT.1 _ ⟨l, j', hl, hstep, rfl⟩) j hj
    · refine ih (fun x hx => hL x (by simp [hx])) hT.2 ?_ ?_
      · intro x hx; exact Or.inl (hS x (by simp [hx]))
      · intro x hx j hj
        rcases hx with rfl | hx
        · right
          simp only [Set.mem_setOf_eq, List.mem_map]
          exact ⟨j, by rw [hib]; exact hj, rfl⟩
        · exact Or.inl (hTS x hx j hj)

/-- Every vertex is visited after its predecessors. -/
theorem closedFrom_ord {up : Bool} {b : List Nat} : ∀ {n : Nat}, n ≤ b.length →
    ClosedFrom (Pred up b) ∅ (ord up b n) := by
  intro n
  induction n with
  | zero =>
    intro _
    refine ⟨?_, trivial⟩
    rintro c' ⟨l, j, hl, hstep, _⟩
    exfalso
    cases up
    · simp [base, step] at hstep
    · have : (base true b).getD l 0 = 0 := by
        simp only [base, if_true, List.getD, List.getElem?_replicate]; split <;> rfl
      rw [this] at hstep
      simp [step] at hstep
  | succ n ih =>
    intro hn
    apply ClosedFrom.append (ih (by omega))
    refine closedFrom_flatMap (by omega) _ ?_ (ih (by omega)) ?_ ?_
    · intro i hi; exact ⟨(mem_ord hi).1, (mem_ord hi).2 n le_rfl⟩
    · intro i hi; exact Or.inr hi
    · intro i hi; exact absurd hi (by simp)

end Soco.Multi
