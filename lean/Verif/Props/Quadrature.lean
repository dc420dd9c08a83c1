import Verif.Spec.Quadrature
import Verif.Lemmas.Walk
import Mathlib.Data.List.Sort
import Mathlib.Tactic.Linarith
import Mathlib.Tactic.IntervalCases

/-! # C46, C47: breakpoints and piecewise integration -/

namespace Soco

/-! ## C46 -/

/-- **C46** (lists). Adding breakpoints without duplicates to breakpoints without duplicates yields a strictly sorted
list of exactly the old and the new points, and keeps the dynamic breakpoints. -/
theorem C46_add (b : Breakpoints) (bs : List ℚ) (hb : b.bs.Nodup) (hn : bs.Nodup) :
    (b.add bs).bs.Pairwise (· < ·) ∧ (∀ x, x ∈ (b.add bs).bs ↔ x ∈ b.bs ∨ x ∈ bs) ∧ (b.add bs).next = b.next := by
  have hnd : (b.bs ++ bs.filter fun x => !b.bs.contains x).Nodup := by
    rw [List.nodup_append]
    refine ⟨hb, hn.filter _, ?_⟩
    rintro x hx y hy rfl
    simp [hx] at hy
  have hs : (b.add bs).bs.Pairwise (fun x y => x ≤ y) := by
    exact List.pairwise_insertionSort _ _
  have hp : List.Perm (b.add bs).bs (b.bs ++ bs.filter fun x => !b.bs.contains x) := List.perm_insertionSort _ _
  refine ⟨?_, ?_, rfl⟩
  · have h1 : (b.add bs).bs.Pairwise (· ≠ ·) := hp.nodup_iff.2 hnd
    exact (hs.and h1).imp fun h => lt_of_le_of_ne h.1 h.2
  · intro x
    rw [hp.mem_iff]
    simp only [List.mem_append, List.mem_filter, Bool.not_eq_eq_eq_not, Bool.not_true, List.contains_eq_mem,
      decide_eq_false_iff_not]
    constructor
    · rintro (h | h)
      · exact .inl h
      · exact .inr h.1
    · rintro (h | h)
      · exact .inl h
      · by_cases hx : x ∈ b.bs
        · exact .inl hx
        · exact .inr ⟨h, hx⟩

/-- Duplicates among the new points are kept, as documented. -/
example : (Breakpoints.from [2, 1, 2]).bs = [1, 2, 2] := by decide +kernel
example : ((Breakpoints.from [3, 1]).add [2, 3, 0]).bs = [0, 1, 2, 3] := by decide +kernel

/-- **C46** (grids). The grid makes progress in both directions from every point exactly if its width is at least 1. -/
theorem C46_grid_progress_partial (d : ℚ) :
    (∀ (next : ℚ → Option ℚ × Option ℚ), (Breakpoints.grid d).next = some next →
      ∀ b, ∃ l r, next b = (some l, some r) ∧ l < b ∧ b < r) ↔ 1 ≤ d := by
  constructor
  · intro h
    by_contra hd
    push Not at hd
    by_cases h0 : 0 ≤ d
    · obtain ⟨l, r, h1, _, h2⟩ := h _ rfl d
      injection h1 with _ h1
      injection h1 with h1
      have : ⌊d⌋ = 0 := by rw [Int.floor_eq_iff]; push_cast; constructor <;> linarith
      rw [this] at h1
      push_cast at h1
      linarith
    · obtain ⟨l, r, h1, _, h2⟩ := h _ rfl 0
      injection h1 with _ h1
      injection h1 with h1
      rw [Int.floor_zero] at h1
      push_cast at h1
      linarith
  · intro hd next hn b
    injection hn with hn
    subst hn
    refine ⟨_, _, rfl, ?_, ?_⟩
    · have := Int.ceil_lt_add_one b
      linarith
    · have := Int.lt_floor_add_one b
      linarith

/-- **C46** (grid of width 1). From any point the neighbours are the greatest integer below and the least above. -/
theorem C46_unit_grid (next : ℚ → Option ℚ × Option ℚ) (h : (Breakpoints.grid 1).next = some next) (b : ℚ) :
    ∃ l r : ℤ, next b = (some (l : ℚ), some (r : ℚ)) ∧ (l : ℚ) < b ∧ b < r ∧
      (∀ z : ℤ, (z : ℚ) < b → z ≤ l) ∧ ∀ z : ℤ, b < z → r ≤ z := by
  injection h with h
  subst h
  refine ⟨⌈b⌉ - 1, ⌊b⌋ + 1, by push_cast; rfl, ?_, ?_, ?_, ?_⟩
  · have := Int.ceil_lt_add_one b
    push_cast
    linarith
  · have := Int.lt_floor_add_one b
    push_cast
    linarith
  · intro z hz
    have := Int.lt_ceil.2 hz
    omega
  · intro z hz
    have := Int.floor_lt.2 hz
    omega

/-- A grid of width 1/2 stays at the point 1/2, and a grid of width 2 leaves the multiples of 2. -/
theorem C46_grid_counterexample :
    ((Breakpoints.grid (1 / 2)).next.map fun next => (next (1 / 2)).2) = some (some (1 / 2)) ∧
    ((Breakpoints.grid 2).next.map fun next => (next (3 / 2)).2) = some (some 3) := by decide +kernel

/-! ## C47 -/

namespace Num
open Spec

theorem of_le {x y : ℚ} : Endpoint.of x ≤ Endpoint.of y ↔ x ≤ y :=
  WithBot.coe_le_coe.trans WithTop.coe_le_coe

theorem of_lt {x y : ℚ} : Endpoint.of x < Endpoint.of y ↔ x < y :=
  WithBot.coe_lt_coe.trans WithTop.coe_lt_coe

theorem dynamic_some {bp : Breakpoints} {y z : ℚ} : (dynamic bp y).2 = some z ↔ ∃ next, bp.next = some next ∧ (next y).2 = some z := by
  unfold dynamic
  cases bp.next <;> simp

theorem dynamic_some' {bp : Breakpoints} {y z : ℚ} : (dynamic bp y).1 = some z ↔ ∃ next, bp.next = some next ∧ (next y).1 = some z := by
  unfold dynamic
  cases bp.next <;> simp

theorem nextIndex_spec {bs : List ℚ} (hs : bs.Pairwise (· < ·)) (x : ℚ) :
    (∀ f ∈ bs.drop (nextIndex bs x), x < f) ∧ (∀ f ∈ bs, x < f → f ∈ bs.drop (nextIndex bs x)) ∧
      nextIndex bs x ≤ bs.length ∧ ∀ f ∈ bs.take (nextIndex bs x), f ≤ x := by
  induction bs with
  | nil => simp [nextIndex]
  | cons a bs ih =>
    rw [List.pairwise_cons] at hs
    by_cases h : x < a
    · have : nextIndex (a :: bs) x = 0 := by simp [nextIndex, List.findIdx_cons, h]
      rw [this]
      simp only [List.drop_zero, List.mem_cons, forall_eq_or_imp, List.take_zero]
      refine ⟨⟨h, fun f hf => h.trans (hs.1 f hf)⟩, ⟨fun _ => .inl trivial, fun f hf _ => .inr hf⟩, by simp, by simp⟩
    · have : nextIndex (a :: bs) x = nextIndex bs x + 1 := by simp [nextIndex, List.findIdx_cons, h]
      rw [this]
      obtain ⟨h1, h2, h3, h4⟩ := ih hs.2
      simp only [List.drop_succ_cons, List.mem_cons, forall_eq_or_imp, List.take_succ_cons, List.length_cons]
      exact ⟨h1, ⟨fun h' => absurd h' h, h2⟩, by omega, ⟨not_lt.1 h, h4⟩⟩

/-- The fixed breakpoints to the left. -/
theorem prevIndex_spec {bs : List ℚ} (hs : bs.Pairwise (· < ·)) (x : ℚ) :
    ∃ k : Nat, prevIndex bs x = (k : Int) - 1 ∧ k ≤ bs.length ∧ (∀ f ∈ bs.take k, f < x) ∧ ∀ f ∈ bs, f < x → f ∈ bs.take k := by
  obtain ⟨h1, h2, h3, h4⟩ := nextIndex_spec hs x
  have hcover : ∀ f ∈ bs, f < x → f ∈ bs.take (nextIndex bs x) := by
    intro f hf hfx
    rw [← List.take_append_drop (nextIndex bs x) bs, List.mem_append] at hf
    rcases hf with hf | hf
    · exact hf
    · exact absurd (h1 f hf) (by linarith [hfx] : ¬ x < f)
  unfold prevIndex
  simp only
  generalize nextIndex bs x = i at *
  by_cases hc : i > 0 ∧ bs[i - 1]? = some x
  · rw [if_pos hc]
    obtain ⟨j, rfl⟩ : ∃ j, i = j + 1 := ⟨i - 1, by omega⟩
    have hj : j < bs.length := by omega
    have hx : bs[j] = x := by
      have := hc.2
      rw [Nat.add_sub_cancel, List.getElem?_eq_getElem hj] at this
      simpa using this
    have hsplit : bs.take (j + 1) = bs.take j ++ [x] := by rw [List.take_succ_eq_append_getElem hj, hx]
    refine ⟨j, by push_cast; omega, by omega, ?_, ?_⟩
    · have hp : (bs.take (j + 1)).Pairwise (· < ·) := hs.sublist (List.take_sublist _ _)
      rw [hsplit, List.pairwise_append] at hp
      exact fun f hf => hp.2.2 f hf x (by simp)
    · intro f hf hfx
      have := hcover f hf hfx
      rw [hsplit, List.mem_append] at this
      rcases this with h | h
      · exact h
      · simp only [List.mem_singleton] at h
        exact absurd hfx (by rw [h]; exact lt_irrefl _)
  · rw [if_neg hc]
    refine ⟨i, rfl, h3, ?_, hcover⟩
    intro f hf
    refine lt_of_le_of_ne (h4 f hf) ?_
    rintro rfl
    apply hc
    rw [List.mem_take_iff_getElem] at hf
    obtain ⟨j, hj, hfj⟩ := hf
    have hji : j < i := by omega
    refine ⟨by omega, ?_⟩
    have hil : i - 1 < bs.length := by omega
    rw [List.getElem?_eq_getElem hil]
    by_cases hji' : j = i - 1
    · subst hji'; rw [hfj]
    · have h5 : bs[j] < bs[i - 1] := List.pairwise_iff_getElem.1 hs j (i - 1) _ _ (by omega)
      have h6 : bs[i - 1] ≤ f := h4 _ (by rw [List.mem_take_iff_getElem]; exact ⟨i - 1, by omega, rfl⟩)
      rw [hfj] at h5
      exact absurd h5 (not_lt.2 h6)

theorem Additive.diag {J : Endpoint → Endpoint → ℚ} (hJ : Additive J) (a : Endpoint) : J a a = 0 := by
  have := hJ a a a le_rfl le_rfl
  linarith

/-- The right half. -/
theorem right_ok {J : Endpoint → Endpoint → ℚ} {bp : Breakpoints} {b : Endpoint} {fuel : Nat} {x v : ℚ}
    (hs : bp.bs.Pairwise (· < ·)) (hJ : Additive J) (hp : Progress bp) (hx : Endpoint.of x ≤ b)
    (h : piecewiseFrom J .right bp b fuel x (nextIndex bp.bs x) 0 = some v) :
    ∃ (rs : List ℚ) (e : Endpoint), (x :: rs).IsChain (StepRight bp) ∧ (∀ c ∈ rs, Endpoint.of c < b) ∧
      StopsAt (fun y z => integral J (.of y) (.of z)) b x rs e ∧ Endpoint.of x ≤ e ∧ e ≤ b ∧
      (∀ f ∈ bp.bs, x < f → Endpoint.of f < e → f ∈ rs) ∧ |v - J (.of x) e| ≤ (rs.length + 1) * (precision / 2) := by
  rw [right_walk] at h
  have hpp : 0 < precision := by norm_num [precision]
  by_cases hr : Direction.right.reached b x = true
  · cases fuel with
    | zero => simp [walk] at h
    | succ fuel =>
      rw [walk, if_pos hr] at h
      have hbx : b = Endpoint.of x := le_antisymm (by simpa [Direction.reached] using hr) hx
      subst hbx
      injection h with h
      refine ⟨[], Endpoint.of x, by simp, by simp, .inl ⟨rfl, by simp [smallPieces]⟩, le_rfl, le_rfl, ?_, ?_⟩
      · intro f _ h1 h2
        exact absurd h1 (not_lt.2 (of_lt.1 h2).le)
      · rw [Additive.diag hJ, ← h]
        simpa using by linarith
  · obtain ⟨n1, n2, _, _⟩ := nextIndex_spec hs x
    obtain ⟨cs, c1, c2, c3⟩ := walk_spec (fun a b c h1 h2 => by simp only [decide_eq_true_eq] at *; exact h1.trans h2)
      (fun a => by simp)
      (fun y z h1 h2 => by
        simp only [Direction.reached, decide_eq_true_eq] at *
        exact h2.trans (of_le.2 h1.le))
      (fun y z hyz => by
        obtain ⟨next, h1, h2⟩ := dynamic_some.1 hyz
        simpa using (hp next h1 y).2 z h2)
      (fun y z h1 h2 => by
        simp only [Direction.reached, decide_eq_true_eq, decide_eq_false_iff_not] at *
        exact hJ _ _ _ (of_le.2 h1.le) (not_le.1 h2).le)
      fuel _ x 0 v (by simpa using hs.sublist (List.drop_sublist _ _)) (by simpa using n1) (by norm_num) (by simpa using hr) h
    have hlt : ∀ c ∈ cs, Endpoint.of c < b := fun c hc => by simpa [Direction.reached] using c2 c hc
    have hchain : (x :: cs).IsChain (StepRight bp) := c1.imp fun y z ⟨h1, h2⟩ => by
      refine ⟨by simpa using h1, h2.imp (fun h => List.mem_of_mem_drop h) (fun h => dynamic_some.1 h)⟩
    rcases c3 with ⟨d1, d2, d3⟩ | ⟨d1, e, d2, d0, d3, d4⟩
    · refine ⟨cs, b, hchain, hlt, .inl ⟨rfl, by simpa [integral] using d1⟩, hx, le_rfl, ?_, d3⟩
      intro f hf hxf hfb
      exact d2 f (n2 f hf hxf) (by simpa [Direction.reached] using hfb)
    · have hxe : x < e := by simpa using d0
      refine ⟨cs, Endpoint.of e, hchain, hlt, .inr ⟨e, d2, rfl, by simpa [integral] using d1⟩, of_le.2 hxe.le,
        (hlt e (List.mem_of_getLast? d2)).le, ?_, ?_⟩
      · intro f hf hxf hfe
        exact d3 f (n2 f hf hxf) (by simpa using of_lt.1 hfe)
      · have hadd := hJ (.of x) (.of e) b (of_le.2 hxe.le) (hlt e (List.mem_of_getLast? d2)).le
        rw [← hadd] at d4
        have : J (.of x) (.of e) + J (.of e) b - J (.of e) b = J (.of x) (.of e) := by ring
        rw [this] at d4
        refine d4.trans ?_
        linarith

/-- The left half. -/
theorem left_ok {J : Endpoint → Endpoint → ℚ} {bp : Breakpoints} {a : Endpoint} {fuel : Nat} {x v : ℚ}
    (hs : bp.bs.Pairwise (· < ·)) (hJ : Additive J) (hp : Progress bp) (hx : a ≤ Endpoint.of x)
    (h : piecewiseFrom J .left bp a fuel x (prevIndex bp.bs x) 0 = some v) :
    ∃ (ls : List ℚ) (e : Endpoint), (x :: ls).IsChain (StepLeft bp) ∧ (∀ c ∈ ls, a < Endpoint.of c) ∧
      StopsAt (fun y z => integral J (.of z) (.of y)) a x ls e ∧ e ≤ Endpoint.of x ∧ a ≤ e ∧
      (∀ f ∈ bp.bs, f < x → e < Endpoint.of f → f ∈ ls) ∧ |v - J e (.of x)| ≤ (ls.length + 1) * (precision / 2) := by
  obtain ⟨k, hk, hk1, n1, n2⟩ := prevIndex_spec hs x
  rw [hk, left_walk _ _ _ _ _ _ _ hk1] at h
  have hpp : 0 < precision := by norm_num [precision]
  by_cases hr : Direction.left.reached a x = true
  · cases fuel with
    | zero => simp [walk] at h
    | succ fuel =>
      rw [walk, if_pos hr] at h
      have hbx : a = Endpoint.of x := le_antisymm hx (by simpa [Direction.reached] using hr)
      subst hbx
      injection h with h
      refine ⟨[], Endpoint.of x, by simp, by simp, .inl ⟨rfl, by simp [smallPieces]⟩, le_rfl, le_rfl, ?_, ?_⟩
      · intro f _ h1 h2
        exact absurd h1 (not_lt.2 (of_lt.1 h2).le)
      · rw [Additive.diag hJ, ← h]
        simpa using by linarith
  · obtain ⟨cs, c1, c2, c3⟩ := walk_spec (fun a b c h1 h2 => by simp only [decide_eq_true_eq] at *; exact h2.trans h1)
      (fun a => by simp)
      (fun y z h1 h2 => by
        simp only [Direction.reached, decide_eq_true_eq] at *
        exact (of_le.2 h1.le).trans h2)
      (fun y z hyz => by
        obtain ⟨next, h1, h2⟩ := dynamic_some'.1 hyz
        simpa using (hp next h1 y).1 z h2)
      (fun y z h1 h2 => by
        simp only [Direction.reached, decide_eq_true_eq, decide_eq_false_iff_not] at *
        rw [add_comm]
        exact hJ _ _ _ (not_le.1 h2).le (of_le.2 h1.le))
      fuel _ x 0 v (by simpa [List.pairwise_reverse] using hs.sublist (List.take_sublist _ _))
      (by simpa using n1) (by norm_num) (by simpa using hr) h
    have hlt : ∀ c ∈ cs, a < Endpoint.of c := fun c hc => by simpa [Direction.reached] using c2 c hc
    have hchain : (x :: cs).IsChain (StepLeft bp) := c1.imp fun y z ⟨h1, h2⟩ => by
      refine ⟨by simpa using h1, h2.imp (fun h => List.mem_of_mem_take (List.mem_reverse.1 h)) (fun h => dynamic_some'.1 h)⟩
    rcases c3 with ⟨d1, d2, d3⟩ | ⟨d1, e, d2, d0, d3, d4⟩
    · refine ⟨cs, a, hchain, hlt, .inl ⟨rfl, by simpa [integral] using d1⟩, hx, le_rfl, ?_, d3⟩
      intro f hf hxf hfb
      exact d2 f (List.mem_reverse.2 (n2 f hf hxf)) (by simpa [Direction.reached] using hfb)
    · have hex : e < x := by simpa using d0
      refine ⟨cs, Endpoint.of e, hchain, hlt, .inr ⟨e, d2, rfl, by simpa [integral] using d1⟩, of_le.2 hex.le,
        (hlt e (List.mem_of_getLast? d2)).le, ?_, ?_⟩
      · intro f hf hxf hfe
        exact d3 f (List.mem_reverse.2 (n2 f hf hxf)) (by simpa using of_lt.1 hfe)
      · have hadd := hJ a (.of e) (.of x) (hlt e (List.mem_of_getLast? d2)).le (of_le.2 hex.le)
        rw [← hadd] at d4
        have : J a (.of e) + J (.of e) (.of x) - J a (.of e) = J (.of e) (.of x) := by ring
        rw [this] at d4
        refine d4.trans ?_
        linarith

/-- The initial breakpoint lies in the interval. -/
theorem initial_mem {a b : Endpoint} (hab : a < b) : a ≤ Endpoint.of (initial a b) ∧ Endpoint.of (initial a b) ≤ b := by
  cases a using WithBot.recBotCoe with
  | bot =>
    cases b using WithBot.recBotCoe with
    | bot => exact absurd hab (lt_irrefl _)
    | coe b =>
      cases b using WithTop.recTopCoe with
      | top => exact ⟨bot_le, le_top⟩
      | coe q => exact ⟨bot_le, le_rfl⟩
  | coe a =>
    cases a using WithTop.recTopCoe with
    | top => exact absurd hab (not_lt.2 le_top)
    | coe p =>
      cases b using WithBot.recBotCoe with
      | bot => exact absurd hab (not_lt.2 bot_le)
      | coe b =>
        cases b using WithTop.recTopCoe with
        | top => exact ⟨le_rfl, le_top⟩
        | coe q =>
          have hpq : p < q := of_lt.1 hab
          constructor
          · exact of_le.2 (show p ≤ (q - p) / 2 + p by linarith)
          · exact of_le.2 (show (q - p) / 2 + p ≤ q by linarith)

/-- **C47** (whenever it returns). Piecewise integration from `a` to `b` returns, up to half the precision per piece, the
integral between two points `e₁` and `e₂`, reached along breakpoints from a point in between, passing every fixed
breakpoint on the way. Each of them is the limit of integration unless ten pieces on its side are small, in which
case the rest of that side is missing.

The full property claims that the pieces sum to the integral of the whole. -/
theorem C47_piecewise_partial {J : Endpoint → Endpoint → ℚ} {bp : Breakpoints} {a b : Endpoint} {fuel : Nat} {v : ℚ}
    (hs : bp.bs.Pairwise (· < ·)) (hJ : Additive J) (hp : Progress bp) (hab : a < b)
    (h : piecewiseIntegral J bp a b fuel = some v) :
    ∃ (x : ℚ) (ls rs : List ℚ) (e₁ e₂ : Endpoint),
      (x :: ls).IsChain (StepLeft bp) ∧ (x :: rs).IsChain (StepRight bp) ∧
      (∀ c ∈ ls, a < Endpoint.of c) ∧ (∀ c ∈ rs, Endpoint.of c < b) ∧
      StopsAt (fun y z => integral J (.of z) (.of y)) a x ls e₁ ∧
      StopsAt (fun y z => integral J (.of y) (.of z)) b x rs e₂ ∧
      a ≤ e₁ ∧ e₁ ≤ Endpoint.of x ∧ Endpoint.of x ≤ e₂ ∧ e₂ ≤ b ∧
      (∀ f ∈ bp.bs, e₁ < Endpoint.of f → Endpoint.of f < e₂ → f ∈ ls ∨ f = x ∨ f ∈ rs) ∧
      |v - J e₁ e₂| ≤ (ls.length + rs.length + 2) * (precision / 2) := by
  obtain ⟨hi1, hi2⟩ := initial_mem hab
  unfold piecewiseIntegral at h
  simp only [Option.bind_eq_bind, Option.bind_eq_some_iff, Option.some.injEq] at h
  obtain ⟨l, hl, r, hr, rfl⟩ := h
  obtain ⟨ls, e₁, l1, l2, l3, l4, l5, l6, l7⟩ := left_ok hs hJ hp hi1 hl
  obtain ⟨rs, e₂, r1, r2, r3, r4, r5, r6, r7⟩ := right_ok hs hJ hp hi2 hr
  refine ⟨initial a b, ls, rs, e₁, e₂, l1, r1, l2, r2, l3, r3, l5, l4, r4, r5, ?_, ?_⟩
  · intro f hf h1 h2
    rcases lt_trichotomy f (initial a b) with hlt | heq | hgt
    · exact .inl (l6 f hf hlt h1)
    · exact .inr (.inl heq)
    · exact .inr (.inr (r6 f hf hgt h2))
  · rw [← hJ e₁ (.of (initial a b)) e₂ l4 r4]
    rw [abs_le] at l7 r7 ⊢
    constructor <;> linarith [l7.1, l7.2, r7.1, r7.2]

theorem smallPieces_le (I : ℚ → ℚ → ℚ) (b : ℚ) (cs : List ℚ) : smallPieces I b cs ≤ cs.length := by
  induction cs generalizing b with
  | nil => simp [smallPieces]
  | cons c cs ih =>
    have := ih c
    simp only [smallPieces, List.length_cons]
    split <;> omega

theorem chain_nodup {lt : ℚ → ℚ → Prop} [IsTrans ℚ lt] [Std.Irrefl lt] {x : ℚ} {cs : List ℚ} (h : (x :: cs).IsChain lt) : cs.Nodup := by
  have := List.isChain_iff_pairwise.1 h
  rw [List.pairwise_cons] at this
  exact this.2.imp fun {a b} hab he => by subst he; exact Std.Irrefl.irrefl _ hab

/-- **C47** (few fixed breakpoints). With fewer than ten breakpoints, all of them fixed, piecewise integration ends and
returns the integral up to half the precision per piece. -/
theorem C47_few_breakpoints_partial {J : Endpoint → Endpoint → ℚ} {bs : List ℚ} {a b : Endpoint}
    (hs : bs.Pairwise (· < ·)) (hJ : Additive J) (hab : a < b) (hlen : bs.length < 10) :
    ∃ v, piecewiseIntegral J ⟨bs, none⟩ a b (bs.length + 1) = some v ∧ |v - J a b| ≤ (bs.length + 2) * (precision / 2) := by
  have hex : ∃ v, piecewiseIntegral J ⟨bs, none⟩ a b (bs.length + 1) = some v := by
    obtain ⟨k, hk, hk1, n1, n2⟩ := prevIndex_spec hs (initial a b)
    obtain ⟨m1, m2, m3, m4⟩ := nextIndex_spec hs (initial a b)
    have hl := walk_ends (lt := fun x y => decide (y < x)) (reached := Direction.left.reached a)
      (P := fun x y => J (.of y) (.of x)) (R := fun x => J a (.of x)) (dyn := fun x => (dynamic ⟨bs, none⟩ x).1)
      (fun a b c h1 h2 => by simp only [decide_eq_true_eq] at *; exact h2.trans h1) (fun x y h => by simp [dynamic] at h)
      (fun _ => 0) (fun _ _ _ => le_rfl) (fun x y _ h => by simp [dynamic] at h) (bs.length + 1) (bs.take k).reverse
      (initial a b) 0 (by simpa [List.pairwise_reverse] using hs.sublist (List.take_sublist _ _)) (by simpa using n1)
      (by simp)
    have hr := walk_ends (lt := fun x y => decide (x < y)) (reached := Direction.right.reached b)
      (P := fun x y => J (.of x) (.of y)) (R := fun x => J (.of x) b) (dyn := fun x => (dynamic ⟨bs, none⟩ x).2)
      (fun a b c h1 h2 => by simp only [decide_eq_true_eq] at *; exact h1.trans h2) (fun x y h => by simp [dynamic] at h)
      (fun _ => 0) (fun _ _ _ => le_rfl) (fun x y _ h => by simp [dynamic] at h) (bs.length + 1)
      (bs.drop (nextIndex bs (initial a b)))
      (initial a b) 0 (by simpa using hs.sublist (List.drop_sublist _ _)) (by simpa using m1)
      (by simp; omega)
    obtain ⟨l, hl⟩ := Option.isSome_iff_exists.1 hl
    obtain ⟨r, hr⟩ := Option.isSome_iff_exists.1 hr
    refine ⟨l + r, ?_⟩
    unfold piecewiseIntegral
    simp only [Option.bind_eq_bind, Option.bind_eq_some_iff, Option.some.injEq]
    refine ⟨l, ?_, r, ?_, rfl⟩
    · rw [hk, left_walk _ _ _ _ _ _ _ hk1]; exact hl
    · rw [right_walk]; exact hr
  obtain ⟨v, hv⟩ := hex
  refine ⟨v, hv, ?_⟩
  obtain ⟨x, ls, rs, e₁, e₂, p1, p2, p3, p4, p5, p6, p7, p8, p9, p10, p11, p12⟩ :=
    C47_piecewise_partial (bp := ⟨bs, none⟩) hs hJ (fun next h => by simp at h) hab hv
  have q1 : (x :: ls).IsChain (fun y z => z < y) := p1.imp fun _ _ h => h.1
  have q2 : (x :: rs).IsChain (fun y z => y < z) := p2.imp fun _ _ h => h.1
  have w1 := List.isChain_iff_pairwise.1 q1
  have w2 := List.isChain_iff_pairwise.1 q2
  rw [List.pairwise_cons] at w1 w2
  have mem : ∀ {R : ℚ → ℚ → Prop} (cs : List ℚ) (y : ℚ), (y :: cs).IsChain (fun y z => R y z ∧ (z ∈ bs ∨ ∃ next,
      (none : Option (ℚ → Option ℚ × Option ℚ)) = some next ∧ R y z)) → ∀ c ∈ cs, c ∈ bs := by
    intro R cs
    induction cs with
    | nil => simp
    | cons d cs ih =>
      intro y h c hc
      rw [List.isChain_cons_cons] at h
      rcases List.mem_cons.1 hc with rfl | hc
      · rcases h.1.2 with h | ⟨_, h, _⟩
        · exact h
        · cases h
      · exact ih d h.2 c hc
  have m1 := mem (R := fun y z => z < y) ls x (p1.imp fun y z ⟨h1, h2⟩ => ⟨h1, h2.imp id fun ⟨n, h, _⟩ => ⟨n, h, h1⟩⟩)
  have m2 := mem (R := fun y z => y < z) rs x (p2.imp fun y z ⟨h1, h2⟩ => ⟨h1, h2.imp id fun ⟨n, h, _⟩ => ⟨n, h, h1⟩⟩)
  have hnd : (ls ++ rs).Nodup := by
    rw [List.nodup_append]
    refine ⟨w1.2.imp fun h he => by rw [he] at h; exact lt_irrefl _ h,
      w2.2.imp fun h he => by rw [he] at h; exact lt_irrefl _ h, ?_⟩
    rintro c hc d hd rfl
    exact lt_irrefl _ ((w1.1 c hc).trans (w2.1 c hd))
  have hle : ls.length + rs.length ≤ bs.length := by
    rw [← List.length_append]
    exact (List.subperm_of_subset hnd fun c hc => (List.mem_append.1 hc).elim (m1 c) (m2 c)).length_le
  have stop : ∀ {I to' cs e}, StopsAt I to' x cs e → cs.length < 10 → e = to' := by
    rintro I to' cs e (⟨h, _⟩ | ⟨_, _, _, h⟩) hc
    · exact h
    · have := smallPieces_le I x cs
      omega
  rw [stop p5 (by omega), stop p6 (by omega)] at p12
  refine p12.trans ?_
  have hpp : 0 < precision := by norm_num [precision]
  have : ((ls.length : ℚ) + rs.length) ≤ bs.length := by exact_mod_cast hle
  nlinarith

theorem unit_grid_progress : Progress (Breakpoints.grid 1) := by
  intro next h y
  obtain ⟨l, r, h1, h2, h3, _⟩ := C46_unit_grid next h y
  rw [h1]
  refine ⟨?_, ?_⟩
  · rintro l' h'; injection h' with h'; rw [← h']; exact h2
  · rintro l' h'; injection h' with h'; rw [← h']; exact h3

/-- **C47** (grid of width 1). Piecewise integration over the integers ends on every bounded interval. -/
theorem C47_unit_grid_ends (J : Endpoint → Endpoint → ℚ) {a b : ℚ} (hab : a < b) {fuel : Nat} (hf : (⌈b⌉ - ⌊a⌋).toNat < fuel) :
    ∃ v, piecewiseIntegral J (Breakpoints.grid 1) (.of a) (.of b) fuel = some v := by
  obtain ⟨hi1, hi2⟩ := initial_mem (of_lt.2 hab)
  rw [of_le] at hi1 hi2
  have hd : ∀ y, ∃ l r : ℤ, dynamic (Breakpoints.grid 1) y = (some (l : ℚ), some (r : ℚ)) ∧ (l : ℚ) < y ∧ y < r ∧
      (∀ z : ℤ, (z : ℚ) < y → z ≤ l) ∧ ∀ z : ℤ, y < z → r ≤ z := fun y => C46_unit_grid _ rfl y
  have hl := walk_ends (lt := fun x y => decide (y < x)) (reached := Direction.left.reached (.of a))
    (P := fun x y => J (.of y) (.of x)) (R := fun x => J (.of a) (.of x)) (dyn := fun x => (dynamic (Breakpoints.grid 1) x).1)
    (fun a b c h1 h2 => by simp only [decide_eq_true_eq] at *; exact h2.trans h1)
    (fun x y h => by
      obtain ⟨l, r, h1, h2, _⟩ := hd x
      simp only [h1, Option.some.injEq] at h
      simpa [← h] using h2)
    (fun x => (⌈x⌉ - ⌊a⌋).toNat)
    (fun x y h => by
      have := Int.ceil_le_ceil (le_of_lt (by simpa using h : y < x))
      omega)
    (fun x y hr h => by
      obtain ⟨l, r, h1, h2, _⟩ := hd x
      simp only [h1, Option.some.injEq] at h
      subst h
      have h3 : a < l := by simpa [Direction.reached, of_lt] using hr
      have h4 : l < ⌈x⌉ := Int.lt_ceil.2 h2
      have h5 : ⌊a⌋ < l := Int.floor_lt.2 h3
      rw [Int.ceil_intCast]
      omega)
    fuel [] (initial (.of a) (.of b)) 0 (by simp) (by simp)
    (by
      have := Int.ceil_le_ceil hi2
      simp only [List.length_nil]
      omega)
  have hr := walk_ends (lt := fun x y => decide (x < y)) (reached := Direction.right.reached (.of b))
    (P := fun x y => J (.of x) (.of y)) (R := fun x => J (.of x) (.of b)) (dyn := fun x => (dynamic (Breakpoints.grid 1) x).2)
    (fun a b c h1 h2 => by simp only [decide_eq_true_eq] at *; exact h1.trans h2)
    (fun x y h => by
      obtain ⟨l, r, h1, _, h2, _⟩ := hd x
      simp only [h1, Option.some.injEq] at h
      simpa [← h] using h2)
    (fun x => (⌈b⌉ - ⌊x⌋).toNat)
    (fun x y h => by
      have := Int.floor_le_floor (le_of_lt (by simpa using h : x < y))
      omega)
    (fun x y hr h => by
      obtain ⟨l, r, h1, _, h2, _⟩ := hd x
      simp only [h1, Option.some.injEq] at h
      subst h
      have h3 : (r : ℚ) < b := by simpa [Direction.reached, of_lt] using hr
      have h4 : r < ⌈b⌉ := Int.lt_ceil.2 h3
      have h5 : ⌊x⌋ < r := Int.floor_lt.2 h2
      rw [Int.floor_intCast]
      omega)
    fuel [] (initial (.of a) (.of b)) 0 (by simp) (by simp)
    (by
      have := Int.floor_le_floor hi1
      simp only [List.length_nil]
      omega)
  obtain ⟨l, hl⟩ := Option.isSome_iff_exists.1 hl
  obtain ⟨r, hr⟩ := Option.isSome_iff_exists.1 hr
  refine ⟨l + r, ?_⟩
  unfold piecewiseIntegral
  simp only [Option.bind_eq_bind, Option.bind_eq_some_iff, Option.some.injEq]
  refine ⟨l, ?_, r, ?_, rfl⟩
  · have := left_walk J (Breakpoints.grid 1) (.of a) fuel (initial (.of a) (.of b)) 0 0 (by simp)
    refine Eq.trans ?_ (this.trans hl)
    rfl
  · have := right_walk J (Breakpoints.grid 1) (.of b) fuel (initial (.of a) (.of b)) 0 0
    refine Eq.trans ?_ (this.trans hr)
    rfl

/-- The length of an interval of rational numbers between -100 and 100. -/
def lengthIn : Endpoint → Endpoint → ℚ := fun a b =>
  let clip : Endpoint → ℚ := fun e => match e with
    | none => -100
    | some none => 100
    | some (some q) => max (-100) (min 100 q)
  clip b - clip a

theorem lengthIn_additive : Additive lengthIn := by
  intro a b c _ _
  unfold lengthIn
  ring

example : (piecewiseIntegral lengthIn ⟨[-2, -1, 3, 5], none⟩ (.of (-3)) (.of 10) 5) = some 13 := by decide +kernel
example : (piecewiseIntegral lengthIn (Breakpoints.grid 1) (.of (-3)) (.of 10) 20) = some 13 := by decide +kernel

/-- The hypotheses of `C47_few_breakpoints_partial` hold, for an unbounded interval too. -/
example : ([-2, -1, 3, 5] : List ℚ).Pairwise (· < ·) ∧ (⊥ : Endpoint) < ⊤ ∧
    piecewiseIntegral lengthIn ⟨[-2, -1, 3, 5], none⟩ ⊥ ⊤ 5 = some 200 := by decide +kernel

/-- Two pieces of 0.004 each are rounded to zero, although the whole is rounded to 0.01. -/
theorem C47_rounding_counterexample :
    piecewiseIntegral (fun a b => lengthIn a b * (4 / 1000)) Breakpoints.empty (.of 0) (.of 2) 1 = some 0 ∧
    integral (fun a b => lengthIn a b * (4 / 1000)) (.of 0) (.of 2) = 1 / 100 := by decide +kernel

/-- Ten pieces without mass end the integration over the integers from 0, and the mass 80 after them is lost. -/
theorem C47_truncation_counterexample :
    piecewiseIntegral (fun a b => lengthIn (max a (.of 20)) (max b (.of 20))) (Breakpoints.grid 1) (.of 0) ⊤ 11 = some 0 ∧
    integral (fun a b => lengthIn (max a (.of 20)) (max b (.of 20))) (.of 0) ⊤ = 80 ∧
    Additive (fun a b => lengthIn (max a (.of 20)) (max b (.of 20))) := by
  refine ⟨by decide +kernel, by decide +kernel, ?_⟩
  intro a b c h1 h2
  exact lengthIn_additive _ _ _ (max_le_max_right _ h1) (max_le_max_right _ h2)

/-- The small pieces need not be consecutive: an almost unit piece follows every small one. -/
theorem C47_nonconsecutive_counterexample :
    piecewiseIntegral (fun a b => lengthIn a b)
      ⟨(List.range 22).map fun k : Nat => (k : ℚ) / 2 - if k % 2 = 1 then 499 / 1000 else 0, none⟩ (.of 0) ⊤ 30 = some 9 ∧
    integral (fun a b => lengthIn a b) (.of 0) ⊤ = 100 := by decide +kernel

end Num
end Soco
