import Verif.Spec.Quadrature
import Verif.Props.Numerics
import Mathlib.Tactic.Linarith
import Mathlib.Tactic.CongrExclamation

/-! # Walks over breakpoints, in both directions at once -/

namespace Soco
namespace Num
open Spec

/-- The next point among fixed points `fs`, in travelling order, and a dynamic one. -/
def pick (lt : ℚ → ℚ → Bool) : List ℚ → Option ℚ → Option (ℚ × List ℚ)
  | [], none => none
  | [], some r => some (r, [])
  | f :: fs, none => some (f, fs)
  | f :: fs, some r => if lt r f then some (r, f :: fs) else some (f, fs)

/-- Piecewise integration over points in travelling order. -/
def walk (lt : ℚ → ℚ → Bool) (reached : ℚ → Bool) (P : ℚ → ℚ → ℚ) (R : ℚ → ℚ) (dyn : ℚ → Option ℚ) :
    Nat → List ℚ → ℚ → Nat → Option ℚ
  | 0, _, _, _ => none
  | fuel + 1, fs, b, n =>
    if reached b then some 0
    else match pick lt fs (dyn b) with
      | none => some (applyPrecision (R b))
      | some (c, fs') =>
        if reached c then some (applyPrecision (R b))
        else
          let result := applyPrecision (P b c)
          let n' := if result < precision then n + 1 else n
          if result < precision ∧ n' ≥ convergenceThreshold then some result
          else (walk lt reached P R dyn fuel fs' c n').map (result + ·)

theorem round_err (x : ℚ) : |applyPrecision x - x| ≤ precision / 2 := (C48_apply_precision x x).2.2.1

theorem pick_spec {lt : ℚ → ℚ → Bool} (htr : ∀ a b c, lt a b = true → lt b c = true → lt a c = true) {fs : List ℚ} {dy : Option ℚ} {b c : ℚ} {fs' : List ℚ}
    (h : pick lt fs dy = some (c, fs')) (hs : fs.Pairwise fun x y => lt x y = true) (hb : ∀ f ∈ fs, lt b f = true)
    (hd : ∀ r, dy = some r → lt b r = true) :
    lt b c = true ∧ (c ∈ fs ∨ dy = some c) ∧ (fs'.Pairwise fun x y => lt x y = true) ∧ (∀ f ∈ fs', lt c f = true) ∧
      (∀ f ∈ fs, f = c ∨ f ∈ fs') ∧ (∀ f ∈ fs', f ∈ fs) := by
  cases fs with
  | nil =>
    cases dy with
    | none => simp [pick] at h
    | some r =>
      simp only [pick, Option.some.injEq, Prod.mk.injEq] at h
      obtain ⟨rfl, rfl⟩ := h
      exact ⟨hd _ rfl, .inr rfl, by simp, by simp, by simp, by simp⟩
  | cons f fs =>
    rw [List.pairwise_cons] at hs
    cases dy with
    | none =>
      simp only [pick, Option.some.injEq, Prod.mk.injEq] at h
      obtain ⟨rfl, rfl⟩ := h
      exact ⟨hb _ (by simp), .inl (by simp), hs.2, hs.1, by simp, fun x hx => by simp [hx]⟩
    | some r =>
      simp only [pick] at h
      by_cases hlt : lt r f = true
      · rw [if_pos hlt] at h
        simp only [Option.some.injEq, Prod.mk.injEq] at h
        obtain ⟨rfl, rfl⟩ := h
        refine ⟨hd _ rfl, .inr rfl, by rw [List.pairwise_cons]; exact hs, ?_, fun x hx => .inr hx, fun x hx => hx⟩
        intro x hx
        rcases List.mem_cons.1 hx with rfl | hx
        · exact hlt
        · exact htr _ _ _ hlt (hs.1 x hx)
      · rw [if_neg hlt] at h
        simp only [Option.some.injEq, Prod.mk.injEq] at h
        obtain ⟨rfl, rfl⟩ := h
        exact ⟨hb _ (by simp), .inl (by simp), hs.2, hs.1, by simp, fun x hx => by simp [hx]⟩

theorem walk_spec {lt : ℚ → ℚ → Bool} (htr : ∀ a b c, lt a b = true → lt b c = true → lt a c = true)
    (hir : ∀ a, lt a a = false) {reached : ℚ → Bool}
    (hre : ∀ a b, lt a b = true → reached a = true → reached b = true) {P : ℚ → ℚ → ℚ} {R : ℚ → ℚ} {dyn : ℚ → Option ℚ}
    (hdyn : ∀ b c, dyn b = some c → lt b c = true)
    (hadd : ∀ a b, lt a b = true → reached b = false → P a b + R b = R a) (fuel : Nat) (fs : List ℚ) (b : ℚ) (n : Nat)
    (v : ℚ) (hs : fs.Pairwise fun x y => lt x y = true) (hb : ∀ f ∈ fs, lt b f = true) (hn : n < 10) (hrb : reached b = false)
    (h : walk lt reached P R dyn fuel fs b n = some v) :
    ∃ cs : List ℚ, (b :: cs).IsChain (fun a c => lt a c = true ∧ (c ∈ fs ∨ dyn a = some c)) ∧
      (∀ c ∈ cs, reached c = false) ∧
      ((n + smallPieces (fun a c => applyPrecision (P a c)) b cs < 10 ∧ (∀ f ∈ fs, reached f = false → f ∈ cs) ∧
          |v - R b| ≤ (cs.length + 1) * (precision / 2)) ∨
       (n + smallPieces (fun a c => applyPrecision (P a c)) b cs = 10 ∧ ∃ e, cs.getLast? = some e ∧ lt b e = true ∧
          (∀ f ∈ fs, lt f e = true → f ∈ cs) ∧ |v - (R b - R e)| ≤ cs.length * (precision / 2))) := by
  induction fuel generalizing fs b n v with
  | zero => simp [walk] at h
  | succ fuel ih =>
    rw [walk, if_neg (by simp [hrb])] at h
    cases hp : pick lt fs (dyn b) with
    | none =>
      rw [hp] at h
      simp only [Option.some.injEq] at h
      refine ⟨[], by simp, by simp, .inl ⟨by simpa [smallPieces] using hn, ?_, ?_⟩⟩
      · cases fs with
        | nil => simp
        | cons f fs =>
          cases hd : dyn b with
          | none => rw [hd] at hp; simp [pick] at hp
          | some r => rw [hd] at hp; simp only [pick] at hp; split at hp <;> simp at hp
      · rw [← h]
        simpa using round_err (R b)
    | some q =>
      obtain ⟨c, fs'⟩ := q
      rw [hp] at h
      obtain ⟨p1, p2, p3, p4, p5, p6⟩ := pick_spec htr hp hs hb (fun r hr => hdyn b r hr)
      simp only at h
      by_cases hrc : reached c = true
      · rw [if_pos hrc] at h
        simp only [Option.some.injEq] at h
        refine ⟨[], by simp, by simp, .inl ⟨by simpa [smallPieces] using hn, ?_, ?_⟩⟩
        · intro f hf hrf
          rcases p5 f hf with rfl | hf'
          · rw [hrf] at hrc; cases hrc
          · have := hre _ _ (p4 f hf') hrc
            rw [hrf] at this; cases this
        · rw [← h]
          simpa using round_err (R b)
      · rw [if_neg hrc] at h
        have hrc' : reached c = false := by simpa using hrc
        have hsplit := hadd b c p1 hrc'
        have hround := round_err (P b c)
        by_cases hsm : applyPrecision (P b c) < precision
        · by_cases hlast : n + 1 ≥ convergenceThreshold
          · rw [if_pos (by rw [if_pos hsm]; exact ⟨hsm, hlast⟩)] at h
            simp only [Option.some.injEq] at h
            have hn9 : n + 1 = 10 := by unfold convergenceThreshold at hlast; omega
            refine ⟨[c], by simp [p1, p2], by simpa using hrc', .inr ⟨by simp [smallPieces, hsm, hn9], c, by simp, p1, ?_, ?_⟩⟩
            · intro f hf hlt
              rcases p5 f hf with rfl | hf'
              · simp
              · exfalso
                have := htr _ _ _ hlt (p4 f hf')
                rw [hir] at this
                cases this
            · rw [← h, ← hsplit]
              simpa using hround
          · rw [if_neg (by rw [if_pos hsm]; exact fun h => hlast h.2), if_pos hsm, Option.map_eq_some_iff] at h
            obtain ⟨w, hw, rfl⟩ := h
            have hn1 : n + 1 < 10 := by unfold convergenceThreshold at hlast; omega
            obtain ⟨cs, c1, c2, c3⟩ := ih fs' c (n + 1) w p3 p4 hn1 hrc' hw
            refine ⟨c :: cs, ?_, ?_, ?_⟩
            · rw [List.isChain_cons_cons]
              refine ⟨⟨p1, p2⟩, c1.imp fun a e ⟨h1, h2⟩ => ⟨h1, h2.imp (p6 e) id⟩⟩
            · simpa [hrc'] using c2
            · rcases c3 with ⟨d1, d2, d3⟩ | ⟨d1, e, d2, d0, d3, d4⟩
              · refine .inl ⟨?_, ?_, ?_⟩
                · simp only [smallPieces, if_pos hsm]; omega
                · intro f hf hrf
                  rcases p5 f hf with rfl | hf'
                  · simp
                  · simp [d2 f hf' hrf]
                · rw [← hsplit, List.length_cons]
                  push_cast
                  rw [abs_le] at hround d3 ⊢
                  constructor <;> linarith [hround.1, hround.2, d3.1, d3.2]
              · refine .inr ⟨?_, e, ?_, htr _ _ _ p1 d0, ?_, ?_⟩
                · simp only [smallPieces, if_pos hsm]; omega
                · rw [List.getLast?_cons, d2]; rfl
                · intro f hf hlt
                  rcases p5 f hf with rfl | hf'
                  · simp
                  · simp [d3 f hf' hlt]
                · rw [← hsplit, List.length_cons]
                  push_cast
                  rw [abs_le] at hround d4 ⊢
                  constructor <;> linarith [hround.1, hround.2, d4.1, d4.2]
        · rw [if_neg (fun h => hsm h.1), if_neg hsm, Option.map_eq_some_iff] at h
          obtain ⟨w, hw, rfl⟩ := h
          obtain ⟨cs, c1, c2, c3⟩ := ih fs' c n w p3 p4 hn hrc' hw
          refine ⟨c :: cs, ?_, ?_, ?_⟩
          · rw [List.isChain_cons_cons]
            refine ⟨⟨p1, p2⟩, c1.imp fun a e ⟨h1, h2⟩ => ⟨h1, h2.imp (p6 e) id⟩⟩
          · simpa [hrc'] using c2
          · rcases c3 with ⟨d1, d2, d3⟩ | ⟨d1, e, d2, d0, d3, d4⟩
            · refine .inl ⟨?_, ?_, ?_⟩
              · simp only [smallPieces, if_neg hsm]; omega
              · intro f hf hrf
                rcases p5 f hf with rfl | hf'
                · simp
                · simp [d2 f hf' hrf]
              · rw [← hsplit, List.length_cons]
                push_cast
                rw [abs_le] at hround d3 ⊢
                constructor <;> linarith [hround.1, hround.2, d3.1, d3.2]
            · refine .inr ⟨?_, e, ?_, htr _ _ _ p1 d0, ?_, ?_⟩
              · simp only [smallPieces, if_neg hsm]; omega
              · rw [List.getLast?_cons, d2]; rfl
              · intro f hf hlt
                rcases p5 f hf with rfl | hf'
                · simp
                · simp [d3 f hf' hlt]
              · rw [← hsplit, List.length_cons]
                push_cast
                rw [abs_le] at hround d4 ⊢
                constructor <;> linarith [hround.1, hround.2, d4.1, d4.2]

/-- A walk ends if the dynamic points lower a measure. -/
theorem walk_ends {lt : ℚ → ℚ → Bool} {reached : ℚ → Bool} {P : ℚ → ℚ → ℚ} {R : ℚ → ℚ} {dyn : ℚ → Option ℚ}
    (htr : ∀ a b c, lt a b = true → lt b c = true → lt a c = true)
    (hdyn : ∀ b c, dyn b = some c → lt b c = true) (μ : ℚ → Nat)
    (hμ : ∀ a b, lt a b = true → μ b ≤ μ a) (hμ' : ∀ b c, reached c = false → dyn b = some c → μ c < μ b) (fuel : Nat)
    (fs : List ℚ) (b : ℚ) (n : Nat) (hs : fs.Pairwise fun x y => lt x y = true) (hb : ∀ f ∈ fs, lt b f = true)
    (hf : fs.length + μ b < fuel) : (walk lt reached P R dyn fuel fs b n).isSome = true := by
  induction fuel generalizing fs b n with
  | zero => omega
  | succ fuel ih =>
    rw [walk]
    split
    · rfl
    · cases hp : pick lt fs (dyn b) with
      | none => rfl
      | some q =>
        obtain ⟨c, fs'⟩ := q
        obtain ⟨p1, p2, p3, p4, p5, p6⟩ := pick_spec htr hp hs hb (fun r hr => hdyn b r hr)
        simp only
        by_cases hrc : reached c = true
        · rw [if_pos hrc]; rfl
        · rw [if_neg hrc]
          have hlen : fs'.length + μ c < fs.length + μ b := by
            have hμc := hμ _ _ p1
            cases fs with
            | nil =>
              cases hd : dyn b with
              | none => rw [hd] at hp; simp [pick] at hp
              | some r =>
                rw [hd] at hp
                simp only [pick, Option.some.injEq, Prod.mk.injEq] at hp
                obtain ⟨rfl, rfl⟩ := hp
                have := hμ' b r (by simpa using hrc) hd
                simpa using this
            | cons f fs =>
              cases hd : dyn b with
              | none =>
                rw [hd] at hp
                simp only [pick, Option.some.injEq, Prod.mk.injEq] at hp
                obtain ⟨rfl, rfl⟩ := hp
                simp only [List.length_cons]; omega
              | some r =>
                rw [hd] at hp
                simp only [pick] at hp
                split at hp
                · simp only [Option.some.injEq, Prod.mk.injEq] at hp
                  obtain ⟨rfl, rfl⟩ := hp
                  have := hμ' b r (by simpa using hrc) hd
                  omega
                · simp only [Option.some.injEq, Prod.mk.injEq] at hp
                  obtain ⟨rfl, rfl⟩ := hp
                  simp only [List.length_cons]; omega
          split_ifs
          all_goals first
            | rfl
            | (rw [Option.isSome_map]; exact ih fs' c _ p3 p4 (by omega))


/-! ### The two directions of piecewise integration are walks -/

theorem right_walk (J : Endpoint → Endpoint → ℚ) (bp : Breakpoints) (to' : Endpoint) (fuel : Nat) (b : ℚ) (i n : Nat) :
    piecewiseFrom J .right bp to' fuel b i n =
      walk (fun x y => decide (x < y)) (Direction.right.reached to') (fun x y => J (.of x) (.of y)) (fun x => J (.of x) to')
        (fun x => (dynamic bp x).2) fuel (bp.bs.drop i) b n := by
  induction fuel generalizing b i n with
  | zero => rfl
  | succ fuel ih =>
    rw [piecewiseFrom, walk]
    split
    · rfl
    · have key : (∃ c fs' i', pick (fun x y => decide (x < y)) (bp.bs.drop i) ((dynamic bp b).2) = some (c, fs') ∧
            nextBreakpoint .right bp b i = (some c, ((i' : Nat) : Int)) ∧ fs' = bp.bs.drop i') ∨
          (pick (fun x y => decide (x < y)) (bp.bs.drop i) ((dynamic bp b).2) = none ∧
            nextBreakpoint .right bp b i = (none, (i : Int))) := by
        unfold nextBreakpoint
        simp only [Int.natCast_nonneg, if_true, Int.toNat_natCast]
        by_cases hi : i < bp.bs.length
        · rw [List.getElem?_eq_getElem hi, List.drop_eq_getElem_cons hi]
          simp only
          cases (dynamic bp b).2 with
          | none => exact .inl ⟨_, _, i + 1, rfl, by simp, rfl⟩
          | some r =>
            simp only [pick, decide_eq_true_eq, gt_iff_lt]
            split
            · exact .inl ⟨_, _, i, rfl, rfl, by rw [List.drop_eq_getElem_cons hi]⟩
            · exact .inl ⟨_, _, i + 1, rfl, by simp, rfl⟩
        · push Not at hi
          rw [List.getElem?_eq_none hi, List.drop_eq_nil_of_le hi]
          simp only
          cases (dynamic bp b).2 with
          | none => exact .inr ⟨rfl, rfl⟩
          | some r => exact .inl ⟨_, _, i, rfl, rfl, by rw [List.drop_eq_nil_of_le hi]⟩
      rcases key with ⟨c, fs', i', h1, h2, h3⟩ | ⟨h1, h2⟩
      · rw [h1, h2, h3]
        simp only [integral, ih]
        congr!
      · rw [h1, h2]
        rfl

theorem left_walk (J : Endpoint → Endpoint → ℚ) (bp : Breakpoints) (to' : Endpoint) (fuel : Nat) (b : ℚ) (k n : Nat)
    (hk : k ≤ bp.bs.length) :
    piecewiseFrom J .left bp to' fuel b ((k : Int) - 1) n =
      walk (fun x y => decide (y < x)) (Direction.left.reached to') (fun x y => J (.of y) (.of x)) (fun x => J to' (.of x))
        (fun x => (dynamic bp x).1) fuel (bp.bs.take k).reverse b n := by
  induction fuel generalizing b k n with
  | zero => rfl
  | succ fuel ih =>
    rw [piecewiseFrom, walk]
    split
    · rfl
    · have key : (∃ c fs' k', pick (fun x y => decide (y < x)) (bp.bs.take k).reverse ((dynamic bp b).1) = some (c, fs') ∧
            nextBreakpoint .left bp b ((k : Int) - 1) = (some c, ((k' : Nat) : Int) - 1) ∧ fs' = (bp.bs.take k').reverse ∧
            k' ≤ bp.bs.length) ∨
          (pick (fun x y => decide (y < x)) (bp.bs.take k).reverse ((dynamic bp b).1) = none ∧
            nextBreakpoint .left bp b ((k : Int) - 1) = (none, (k : Int) - 1)) := by
        unfold nextBreakpoint
        simp only
        cases k with
        | zero =>
          simp only [List.take_zero, List.reverse_nil]
          rw [if_neg (by simp)]
          cases (dynamic bp b).1 with
          | none => exact .inr ⟨rfl, rfl⟩
          | some r => exact .inl ⟨_, _, 0, rfl, rfl, by simp, by simp⟩
        | succ k =>
          have hi : k < bp.bs.length := by omega
          rw [if_pos (by push_cast; omega), show (((k + 1 : Nat) : Int) - 1).toNat = k by push_cast; omega,
            List.getElem?_eq_getElem hi, List.take_succ_eq_append_getElem hi, List.reverse_append]
          simp only [List.reverse_singleton, List.singleton_append]
          cases (dynamic bp b).1 with
          | none => exact .inl ⟨_, _, k, rfl, by simp, rfl, by omega⟩
          | some r =>
            simp only [pick, decide_eq_true_eq]
            split
            · exact .inl ⟨_, _, k + 1, rfl, rfl,
                by rw [List.take_succ_eq_append_getElem hi, List.reverse_append]; rfl, by omega⟩
            · exact .inl ⟨_, _, k, rfl, by simp, rfl, by omega⟩
      rcases key with ⟨c, fs', i', h1, h2, h3, h4⟩ | ⟨h1, h2⟩
      · rw [h1, h2, h3]
        simp only [integral, ih _ _ _ h4]
        congr!
      · rw [h1, h2]
        rfl

end Num
end Soco
