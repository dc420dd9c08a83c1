import Mathlib.Algebra.Order.Archimedean.Basic
import Verif.Props.LcpWindow

/-!
# C116: three is the best factor

An adversary who always asks for the state in which the algorithm is not makes every online algorithm pay about three
times as much as one of three schedules: no server, one server, and the states asked for.
-/

namespace Soco

namespace Spec

/-- An online algorithm which, given exact predictions of the next `w` slots, is guaranteed to stay within `c` times
the cost of any schedule, plus `K`: for every one-dimensional integral problem with convex costs, revealed slot by
slot by valid instances, the algorithm decides in every slot, all decisions are feasible, and its cost `a` and the
cost `b` of any feasible schedule for all slots seen, those of the last window included, satisfy `a ≤ c * b + K`. -/
def Competitive {M : Type} (A : OnlineAlgorithm (SSCO ℤ Unit Unit) ℤ M) (w : Nat) (c K : ℚ) : Prop :=
  ∀ (m : ℤ) (β : ℚ) (g : Int → ℤ → ECost) (ps : List (SSCO ℤ Unit Unit)) (q : SSCO ℤ Unit Unit),
    Costs m β g (ps.length + w) → (∀ k (h : k < ps.length), Foresight ps[k] m β g (k + 1) w) →
    Inst q m β g (ps.length + w) → (∀ p ∈ ps, p.verify = .ok ()) → q.verify = .ok () →
    ∃ xs mem, play SSCO.tEnd A [] none (ps.map fun p => ⟨p, w⟩) = .ok (xs, mem) ∧ xs.length = ps.length ∧
      (∀ x ∈ xs, InBox [m] x) ∧
      ∀ p, ps.getLast? = some p → ∃ r, p.toProb.objective xs = .ok r ∧ ∃ a : ℚ, r.cost = (a : ECost) ∧
        ∀ ys : Schedule ℤ, ys.length = ps.length + w → (∀ y ∈ ys, InBox [m] y) →
          ∀ r' (b : ℚ), q.toProb.objective ys = .ok r' → r'.cost = (b : ECost) → a ≤ c * b + K

end Spec

namespace Best
open Spec Lcp Uni

/-- A problem with one server and switching cost one. -/
def lineAt (f : Int → ℤ → ℚ) (n : Nat) : SSCO ℤ Unit Unit where
  d := 1
  tEnd := n
  bounds := [1]
  switchingCost := [1]
  hittingCost := CostFn.new 1 (SingleCostFn.certain fun t x => .ok (Cost.raw ((f t (x.getD 0 0) : ℚ) : ECost)))

theorem lineAt_hit (f : Int → ℤ → ℚ) (n : Nat) (t : Int) (ht : 1 ≤ t) (j : ℤ) (h0 : 0 ≤ j) (h1 : j ≤ 1) :
    ∃ out, (lineAt f n).toProb.hitCost t [j] = .ok ⟨((f t j : ℚ) : ECost), out⟩ := by
  rw [hit_within (p := lineAt f n) rfl h0 h1, lineAt, CostFn.callMean_certain _ _ ht]
  exact ⟨_, rfl⟩

theorem lineAt_verify (f : Int → ℤ → ℚ) (n : Nat) : (lineAt f n).verify = .ok () :=
  (C10_ssco_verify_exact _).1 ⟨by show (0 : ℤ) < 1; decide, by show (0 : ℤ) ≤ n; omega, rfl, rfl, by
    intro b hb
    obtain rfl := List.mem_singleton.1 hb
    norm_num, by
    intro b hb
    obtain rfl := List.mem_singleton.1 hb
    norm_num⟩

theorem lineAt_inst (f g : Int → ℤ → ℚ) (n : Nat) (h : ∀ t : Int, 1 ≤ t → t ≤ n → f t = g t) :
    Inst (lineAt f n) 1 1 (fun t j => ((g t j : ℚ) : ECost)) n where
  d := rfl
  bounds := rfl
  switching := rfl
  tEnd := rfl
  hit t a b j h0 h1 := by
    obtain ⟨out, ho⟩ := lineAt_hit f n t a j h0 h1
    rw [h t a b] at ho
    exact ⟨out, ho⟩
  certain t h1 _ x r hr := by
    rw [lineAt, CostFn.callPredictive_certain _ _ h1] at hr
    simp only [Except.map, Except.ok.injEq] at hr
    rw [← hr]; rfl

theorem costs (g : Int → ℤ → ℚ) (n : Nat) (h : ∀ t : Int, 1 ≤ t → t ≤ n → ∀ j, 0 ≤ j → j ≤ 1 → 0 ≤ g t j) :
    Costs 1 1 (fun t j => ((g t j : ℚ) : ECost)) n where
  hm := by norm_num
  hβ := by norm_num
  fin _ _ _ := WithTop.coe_ne_top
  nonneg t a b j h0 h1 := WithTop.coe_le_coe.2 (h t a b j h0 h1)
  conv := by
    intro t _ _ x y z h0 h1 h2 h3
    omega

/-- The adversary's costs: `e` for being away from the wanted state. -/
def want (e : ℚ) (b : Bool) (j : ℤ) : ℚ := e * ((if b then 1 - j else j : ℤ) : ℚ)

/-- The costs of the slots. -/
def costAt (e : ℚ) (bits : List Bool) (t : Int) (j : ℤ) : ℚ := want e (bits.getD (t - 1).toNat false) j

/-- What is paid. -/
def paid (e : ℚ) : List Bool → ℤ → List ℤ → ℚ
  | b :: bs, x, y :: ys => want e b y + ((max 0 (y - x) : ℤ) : ℚ) + paid e bs y ys
  | _, _, _ => 0

/-- Servers powered up. -/
def ups : ℤ → List ℤ → ℚ
  | x, y :: ys => ((max 0 (y - x) : ℤ) : ℚ) + ups y ys
  | _, [] => 0

/-- The adversary asks for the state in which the algorithm was not. -/
def opp : ℤ → List ℤ → List Bool
  | x, y :: ys => decide (x = 0) :: opp y ys
  | _, [] => []

/-- The wanted states. -/
def states (bits : List Bool) : List ℤ := bits.map fun b => if b then 1 else 0

theorem opp_length : ∀ (js : List ℤ) (x : ℤ), (opp x js).length = js.length
  | [], _ => rfl
  | _ :: ys, _ => by simp [opp, opp_length ys]

theorem opp_snoc : ∀ (js : List ℤ) (x y : ℤ), opp x (js ++ [y]) = opp x js ++ [decide (js.getLastD x = 0)]
  | [], _, _ => rfl
  | z :: ys, x, y => by
    rw [List.cons_append, opp, opp_snoc ys z y, opp, List.getLastD_cons, List.cons_append]

theorem total (e : ℚ) : ∀ (bits : List Bool) (js : List ℤ) (x : ℤ) (pre : List Bool), js.length ≤ bits.length →
    Spec.totalCost (fun t j => ((costAt e (pre ++ bits) t j : ℚ) : ECost)) (mv1 1 false) 1 ((pre.length : Int) + 1) x js
      = ((paid e bits x js : ℚ) : ECost) := by
  intro bits
  induction bits with
  | nil =>
    intro js x pre h
    obtain rfl := List.length_eq_zero_iff.1 (Nat.le_zero.1 h)
    rfl
  | cons b bs ih =>
    intro js x pre h
    cases js with
    | nil => rfl
    | cons y ys =>
      have := ih ys y (pre ++ [b]) (by simpa using h)
      rw [List.append_assoc, List.singleton_append, List.length_append, List.length_singleton] at this
      push_cast at this
      rw [Spec.totalCost, this, paid]
      have e1 : costAt e (pre ++ b :: bs) ((pre.length : Int) + 1) y = want e b y := by
        simp [costAt]
      rw [e1, mv1]
      simp only [Bool.false_eq_true, if_false, one_mul]
      norm_cast

theorem paid_const (e : ℚ) : ∀ (js : List ℤ) (x : ℤ),
    paid e (opp x js) 0 (List.replicate js.length 0) + paid e (opp x js) 1 (List.replicate js.length 1) = e * js.length
  | [], _ => by simp [opp, paid]
  | y :: ys, x => by
    have := paid_const e ys y
    simp only [opp, List.length_cons, List.replicate_succ, paid, want, sub_self, max_self]
    by_cases hx : x = 0
    · simp [hx]; linarith
    · simp [hx]; linarith

theorem paid_first (e : ℚ) (bits : List Bool) (n : Nat) :
    paid e bits 0 (List.replicate n 1) ≤ 1 + paid e bits 1 (List.replicate n 1) := by
  cases n with
  | zero => cases bits <;> simp [paid]
  | succ n =>
    cases bits with
    | nil => simp [paid]
    | cons b bs =>
      simp only [List.replicate_succ, paid]
      norm_num
      linarith

theorem paid_alg (e : ℚ) (he : 0 ≤ e) : ∀ (js : List ℤ) (x : ℤ), (x = 0 ∨ x = 1) → (∀ j ∈ js, j = 0 ∨ j = 1) →
    e * js.length + (1 - 2 * e) * ups x js - e * x ≤ paid e (opp x js) x js
  | [], x, hx, _ => by
    rcases hx with rfl | rfl <;> simp [ups, opp, paid]
    exact he
  | y :: ys, x, hx, h => by
    have hy := h y (by simp)
    have := paid_alg e he ys y hy fun j hj => h j (by simp [hj])
    simp only [opp, ups, paid, want, List.length_cons]
    push_cast at this ⊢
    rcases hx with rfl | rfl <;> rcases hy with rfl | rfl <;> norm_num at this ⊢ <;> linarith

theorem paid_opp (e : ℚ) : ∀ (js : List ℤ) (x z : ℤ), (x = 0 ∨ x = 1) → (z = 0 ∨ z = 1) → (∀ j ∈ js, j = 0 ∨ j = 1) →
    paid e (opp x js) z (states (opp x js)) ≤ ups x js + (if z = 1 ∧ x = 0 then 0 else 1)
  | [], x, z, _, _, _ => by
    simp only [ups, opp, paid, states, List.map_nil]
    split_ifs <;> norm_num
  | y :: ys, x, z, hx, hz, h => by
    have hy := h y (by simp)
    have h0 := paid_opp e ys y 0 hy (.inl rfl) fun j hj => h j (by simp [hj])
    have h1 := paid_opp e ys y 1 hy (.inr rfl) fun j hj => h j (by simp [hj])
    simp only [states] at h0 h1
    simp only [opp, ups, states, List.map_cons, paid, want]
    rcases hx with rfl | rfl <;> rcases hy with rfl | rfl <;> rcases hz with rfl | rfl <;> norm_num at h0 h1 ⊢ <;> linarith

/-- The instances shown to the algorithm in `n` slots: each reveals one more slot and the window after it. -/
def shown (e : ℚ) (w : Nat) (bits : List Bool) (n : Nat) : List (SSCO ℤ Unit Unit) :=
  (List.range n).map fun k => lineAt (costAt e (bits.take (k + 1 + w))) (k + 1)

theorem shown_length (e : ℚ) (w : Nat) (bits : List Bool) (n : Nat) : (shown e w bits n).length = n := by simp [shown]

theorem shown_append (e : ℚ) (w : Nat) (bits more : List Bool) {n : Nat} (k : Nat) (h : n + w ≤ bits.length ∨ n = 0) :
    ∃ rest, shown e w (bits ++ more) (n + k) = shown e w bits n ++ rest := by
  refine ⟨((List.range k).map (n + ·)).map fun k => lineAt (costAt e ((bits ++ more).take (k + 1 + w))) (k + 1), ?_⟩
  rw [shown, List.range_add, List.map_append, shown]
  congr 1
  apply List.map_congr_left
  intro i hi
  have := List.mem_range.1 hi
  rw [List.take_append_of_le_length (by omega)]

theorem costAt_take (e : ℚ) (bits : List Bool) {n : Nat} {t : Int} (h1 : 1 ≤ t) (h2 : t ≤ n) :
    costAt e (bits.take n) t = costAt e bits t := by
  funext j
  rw [costAt, costAt, List.getD_eq_getElem?_getD, List.getElem?_take_of_lt (by omega), List.getD_eq_getElem?_getD]

theorem shown_inst (e : ℚ) (w : Nat) (bits : List Bool) (n k : Nat) (h : k < (shown e w bits n).length) :
    Foresight (shown e w bits n)[k] 1 1 (fun t j => ((costAt e bits t j : ℚ) : ECost)) (k + 1) w := by
  simp only [shown, List.getElem_map, List.getElem_range]
  have := lineAt_inst (costAt e (bits.take (k + 1 + w))) (costAt e bits) (k + 1) fun t a b =>
    costAt_take e bits a (by push_cast at b ⊢; omega)
  refine ⟨this.d, this.bounds, this.switching, this.tEnd, fun t a b j h0 h1 => ?_, this.certain⟩
  obtain ⟨out, ho⟩ := lineAt_hit (costAt e (bits.take (k + 1 + w))) (k + 1) t a j h0 h1
  rw [costAt_take e bits a (by push_cast at b ⊢; omega)] at ho
  exact ⟨out, ho⟩

theorem want_nonneg {e : ℚ} (he : 0 ≤ e) (b : Bool) {j : ℤ} (h0 : 0 ≤ j) (h1 : j ≤ 1) : 0 ≤ want e b j := by
  refine mul_nonneg he ?_
  have : (0 : ℤ) ≤ if b then 1 - j else j := by split_ifs <;> omega
  exact_mod_cast this

theorem shown_verify (e : ℚ) (w : Nat) (bits : List Bool) (n : Nat) : ∀ p ∈ shown e w bits n, p.verify = .ok () := by
  intro p hp
  obtain ⟨k, _, rfl⟩ := List.mem_map.1 hp
  exact lineAt_verify _ _

theorem paid_nonneg {e : ℚ} (he : 0 ≤ e) : ∀ (bits : List Bool) (x : ℤ) (js : List ℤ), (∀ j ∈ js, 0 ≤ j ∧ j ≤ 1) →
    0 ≤ paid e bits x js
  | [], _, _, _ => by simp [paid]
  | _ :: _, _, [], _ => by simp [paid]
  | b :: bs, x, y :: ys, h => by
    have h1 := paid_nonneg he bs y ys fun j hj => h j (by simp [hj])
    have h2 := want_nonneg he b (h y (by simp)).1 (h y (by simp)).2
    have h3 : (0 : ℚ) ≤ ((max 0 (y - x) : ℤ) : ℚ) := by exact_mod_cast le_max_left _ _
    rw [paid]; linarith

theorem ups_nonneg : ∀ (x : ℤ) (js : List ℤ), 0 ≤ ups x js
  | _, [] => le_rfl
  | x, y :: ys => by
    have h1 := ups_nonneg y ys
    have h3 : (0 : ℚ) ≤ ((max 0 (y - x) : ℤ) : ℚ) := by exact_mod_cast le_max_left _ _
    rw [ups]; linarith

theorem replicate_paid (e : ℚ) (b : Bool) (j : ℤ) (r : List Bool) (ks : List ℤ) : ∀ (a : Nat) (x : ℤ),
    paid e (List.replicate (a + 1) b ++ r) x (List.replicate (a + 1) j ++ ks)
      = (a + 1) * want e b j + ((max 0 (j - x) : ℤ) : ℚ) + paid e r j ks
  | 0, x => by simp [paid]
  | a + 1, x => by
    have := replicate_paid e b j r ks a j
    rw [List.replicate_succ, List.cons_append, List.replicate_succ (n := a + 1) (a := j), List.cons_append, paid, this]
    simp only [sub_self, max_self]
    push_cast
    ring

theorem replicate_stay (e : ℚ) (b : Bool) (j : ℤ) (r : List Bool) (ks : List ℤ) : ∀ (a : Nat),
    paid e (List.replicate a b ++ r) j (List.replicate a j ++ ks) = a * want e b j + paid e r j ks
  | 0 => by simp
  | a + 1 => by rw [replicate_paid]; simp

/-- Playing more instances extends the schedule. -/
theorem play_append {P T M : Type} [Value T] (tEnd : P → Int) (A : OnlineAlgorithm P T M) (os' : List (Online P)) :
    ∀ (os : List (Online P)) (xs : Schedule T) (m : Option M),
    Spec.play tEnd A xs m (os ++ os') = (match Spec.play tEnd A xs m os with
      | .error e => .error e
      | .ok (xs', m') => Spec.play tEnd A xs' m' os') := by
  intro os
  induction os with
  | nil => intro xs m; rfl
  | cons o os ih =>
    intro xs m
    simp only [List.cons_append, Spec.play]
    cases onlineNext tEnd A o xs m with
    | error e => rfl
    | ok r => exact ih _ _

theorem play_extends {P T M : Type} [Value T] (tEnd : P → Int) (A : OnlineAlgorithm P T M) :
    ∀ (os : List (Online P)) (xs : Schedule T) (m : Option M) (ys : Schedule T) (m' : Option M),
    Spec.play tEnd A xs m os = .ok (ys, m') → ∃ zs, ys = xs ++ zs := by
  intro os
  induction os with
  | nil =>
    intro xs m ys m' h
    exact ⟨[], by rw [List.append_nil]; exact ((Prod.mk.inj (Except.ok.inj h)).1).symm⟩
  | cons o os ih =>
    intro xs m ys m' h
    simp only [Spec.play] at h
    cases hn : onlineNext tEnd A o xs m with
    | error e => rw [hn] at h; simp at h
    | ok r =>
      rw [hn] at h
      obtain ⟨zs, rfl⟩ := ih _ _ _ _ h
      unfold onlineNext at hn
      simp only [assertR, bind, Except.bind] at hn
      split_ifs at hn with q
      simp only at hn
      cases hA : A.next o xs m with
      | error e => rw [hA] at hn; simp at hn
      | ok st =>
        rw [hA] at hn
        simp only [Except.ok.injEq] at hn
        rw [← hn]
        exact ⟨[st.1] ++ zs, by simp [Schedule.extend]⟩

theorem paid_append (e : ℚ) : ∀ (bits : List Bool) (js ks : List ℤ) (x : ℤ), js.length ≤ bits.length →
    paid e bits x (js ++ ks) = paid e bits x js + paid e (bits.drop js.length) (js.getLastD x) ks
  | bits, [], ks, x, _ => by
    have : paid e bits x [] = 0 := by cases bits <;> rfl
    simp [this]
  | [], _ :: _, _, _, h => by simp at h
  | b :: bs, y :: ys, ks, x, h => by
    rw [List.cons_append, paid, paid, paid_append e bs ys ks y (by simpa using h), List.getLastD_cons,
      List.length_cons, List.drop_succ_cons]
    ring

theorem paid_more (e : ℚ) (more : List Bool) : ∀ (bits : List Bool) (js : List ℤ) (x : ℤ), js.length ≤ bits.length →
    paid e (bits ++ more) x js = paid e bits x js
  | bits, [], x, _ => by
    have : ∀ l, paid e l x [] = 0 := fun l => by cases l <;> rfl
    rw [this, this]
  | [], _ :: _, _, h => by simp at h
  | b :: bs, y :: ys, x, h => by
    rw [List.cons_append, paid, paid, paid_more e more bs ys y (by simpa using h)]

theorem last_append : ∀ (js ks : List ℤ) (x : ℤ), (js ++ ks).getLastD x = ks.getLastD (js.getLastD x)
  | [], _, _ => rfl
  | y :: ys, ks, x => by rw [List.cons_append, List.getLastD_cons, List.getLastD_cons, last_append ys ks y]

theorem ups_append : ∀ (js ks : List ℤ) (x : ℤ), ups x (js ++ ks) = ups x js + ups (js.getLastD x) ks
  | [], ks, x => by simp [ups]
  | y :: ys, ks, x => by rw [List.cons_append, ups, ups, ups_append ys ks y, List.getLastD_cons]; ring

theorem ups_last : ∀ (js : List ℤ) (x : ℤ), ((js.getLastD x - x : ℤ) : ℚ) ≤ ups x js
  | [], x => by simp [ups]
  | y :: ys, x => by
    have := ups_last ys y
    rw [List.getLastD_cons, ups]
    have h : ((y - x : ℤ) : ℚ) ≤ ((max 0 (y - x) : ℤ) : ℚ) := by exact_mod_cast le_max_right _ _
    push_cast at this h ⊢
    linarith

theorem ups_paid {e : ℚ} (he : 0 ≤ e) : ∀ (bits : List Bool) (js : List ℤ) (x : ℤ), js.length ≤ bits.length →
    (∀ j ∈ js, j = 0 ∨ j = 1) → ups x js ≤ paid e bits x js
  | bits, [], x, _, _ => by
    have : paid e bits x [] = 0 := by cases bits <;> rfl
    rw [this]; exact le_rfl
  | [], _ :: _, _, h, _ => by simp at h
  | b :: bs, y :: ys, x, h, hj => by
    have := ups_paid he bs ys y (by simpa using h) fun j m => hj j (by simp [m])
    have hy := hj y (by simp)
    have := want_nonneg he b (j := y) (by omega) (by omega)
    rw [ups, paid]; linarith

/-- A sequence which returns to its start but does not stay there powers up. -/
theorem ups_return {js : List ℤ} {x : ℤ} (hx : x = 0 ∨ x = 1) (h : ∀ j ∈ js, j = 0 ∨ j = 1) (hl : js.getLastD x = x)
    (hs : ∃ j ∈ js, j ≠ x) : 1 ≤ ups x js := by
  obtain ⟨j, hj, hne⟩ := hs
  obtain ⟨l1, l2, rfl⟩ := List.append_of_mem hj
  rw [ups_append, ups]
  have h1 := ups_last l1 x
  have h2 := ups_last l2 j
  have h4 := ups_nonneg x l1
  have h5 := ups_nonneg j l2
  have hl2 : l2.getLastD j = x := by
    rw [last_append, List.getLastD_cons] at hl
    exact hl
  rw [hl2] at h2
  rcases h j hj with rfl | rfl <;> rcases hx with rfl | rfl
  · exact absurd rfl hne
  · have : (0 : ℚ) ≤ ((max 0 (0 - l1.getLastD 1) : ℤ) : ℚ) := by exact_mod_cast le_max_left _ _
    push_cast at h2
    linarith
  · have : ((1 - l1.getLastD 0 : ℤ) : ℚ) ≤ ((max 0 (1 - l1.getLastD 0) : ℤ) : ℚ) := by exact_mod_cast le_max_right _ _
    push_cast at this h1 ⊢
    linarith
  · exact absurd rfl hne

theorem paid_stay {e : ℚ} (he : 0 ≤ e) (b : Bool) (r : List Bool) {x : ℤ} (hx : x = 0 ∨ x = 1) : ∀ (v : List Bool)
    (js : List ℤ) (n : Nat), js.length = v.length + n → (∀ j ∈ js, j = x) →
    n * want e b x ≤ paid e (v ++ (List.replicate n b ++ r)) x js
  | [], js, n, hl, h => by
    have e1 : js = List.replicate n x ++ [] := by
      rw [List.append_nil]
      simp at hl
      rw [← hl]
      exact List.eq_replicate_of_mem h
    rw [e1, List.nil_append]
    have := replicate_stay e b x r [] n
    rw [this]
    have : paid e r x [] = 0 := by cases r <;> rfl
    rw [this]; linarith
  | c :: v, [], n, hl, h => by simp at hl; omega
  | c :: v, y :: ys, n, hl, h => by
    obtain rfl := h y (by simp)
    have := paid_stay he b r hx v ys n (by simp at hl; omega) fun j hj => h j (by simp [hj])
    have h2 := want_nonneg he c (j := y) (by omega) (by omega)
    rw [List.cons_append, paid, sub_self, max_self]
    push_cast
    linarith

/-- What a block costs: moving, or staying where the adversary does not want the server to be. -/
theorem chunk {e : ℚ} (he : 0 ≤ e) (v r : List Bool) (n : Nat) (hen : e * n ≤ 1) (x : ℤ) (hx : x = 0 ∨ x = 1)
    (js : List ℤ) (hl : js.length = v.length + n) (h : ∀ j ∈ js, j = 0 ∨ j = 1) :
    want (e * n) (decide (x = 0)) (js.getLastD x) + ((max 0 (js.getLastD x - x) : ℤ) : ℚ)
      ≤ paid e (v ++ (List.replicate n (decide (x = 0)) ++ r)) x js := by
  have hy : js.getLastD x = 0 ∨ js.getLastD x = 1 := by
    rcases List.eq_nil_or_concat' js with rfl | ⟨l, y, rfl⟩
    · simpa using hx
    · rw [List.getLastD_concat]; exact h y (by simp)
  have hu := ups_paid he (v ++ (List.replicate n (decide (x = 0)) ++ r)) js x (by simp; omega) h
  have h0 := ups_nonneg x js
  by_cases hs : js.getLastD x = x
  · rw [hs, sub_self, max_self]
    have hw : want (e * n) (decide (x = 0)) x = e * n := by
      rcases hx with rfl | rfl <;> simp [want]
    rw [hw]
    by_cases ha : ∀ j ∈ js, j = x
    · have := paid_stay he (decide (x = 0)) r hx v js n hl ha
      have hw' : want e (decide (x = 0)) x = e := by rcases hx with rfl | rfl <;> simp [want]
      rw [hw'] at this
      push_cast
      linarith
    · push Not at ha
      have := ups_return hx h hs ha
      push_cast
      linarith
  · have := ups_last js x
    rcases hx with rfl | rfl <;> rcases hy with hy | hy <;> rw [hy] at hs this ⊢
    · exact absurd rfl hs
    · simp [want] at this hu ⊢; linarith
    · simp [want] at this hu ⊢; linarith
    · exact absurd rfl hs

/-- Every wanted state lasts `B` slots. -/
def blocks {X : Type} (B : Nat) : List X → List X
  | [] => []
  | b :: bs => List.replicate B b ++ blocks B bs

theorem blocks_length {X : Type} (B : Nat) : ∀ bs : List X, (blocks B bs).length = bs.length * B
  | [] => by simp [blocks]
  | b :: bs => by rw [blocks, List.length_append, blocks_length B bs, List.length_replicate, List.length_cons]; ring

theorem blocks_snoc {X : Type} (B : Nat) (b : X) : ∀ bs : List X, blocks B (bs ++ [b]) = blocks B bs ++ List.replicate B b
  | [] => by simp [blocks]
  | c :: bs => by rw [List.cons_append, blocks, blocks, blocks_snoc B b bs, List.append_assoc]

theorem mem_blocks {X : Type} (B : Nat) {y : X} : ∀ {bs : List X}, y ∈ blocks B bs → y ∈ bs
  | [], h => by simp [blocks] at h
  | b :: bs, h => by
    rcases List.mem_append.1 h with h | h
    · rw [List.eq_of_mem_replicate h]; simp
    · exact List.mem_cons_of_mem _ (mem_blocks B h)

theorem paid_blocks (e : ℚ) {B : Nat} (hB : 1 ≤ B) : ∀ (bs : List Bool) (ks : List ℤ) (x : ℤ), ks.length = bs.length →
    paid e (blocks B bs) x (blocks B ks) = paid (e * B) bs x ks
  | [], [], _, _ => rfl
  | [], _ :: _, _, h => by simp at h
  | _ :: _, [], _, h => by simp at h
  | b :: bs, k :: ks, x, h => by
    have := paid_blocks e hB bs ks k (by simpa using h)
    obtain ⟨a, rfl⟩ : ∃ a, B = a + 1 := ⟨B - 1, by omega⟩
    rw [blocks, blocks, replicate_paid, this, paid]
    simp only [want]
    push_cast
    ring

/-- The adversary forces its costs upon any algorithm that always decides: the states of the algorithm at the ends of
the blocks, shifted by the window, are `s`. -/
theorem force {M : Type} (A : OnlineAlgorithm (SSCO ℤ Unit Unit) ℤ M) (w : Nat) (c K : ℚ) (h : Competitive A w c K)
    (e : ℚ) (he : 0 ≤ e) (B : Nat) (hB : w ≤ B) (heB : e * (B - w : ℕ) ≤ 1) :
    ∀ n : Nat, ∃ (s js : List ℤ) (mem : Option M), s.length = n ∧ js.length = n * B - w ∧ (∀ j ∈ s, j = 0 ∨ j = 1) ∧
      (∀ j ∈ js, j = 0 ∨ j = 1) ∧ js.getLastD 0 = s.getLastD 0 ∧
      paid (e * (B - w : ℕ)) (opp 0 s) 0 s ≤ paid e (blocks B (opp 0 s)) 0 js ∧
      Spec.play SSCO.tEnd A [] none ((shown e w (blocks B (opp 0 s)) (n * B - w)).map fun p => ⟨p, w⟩)
        = .ok (js.map fun j => [j], mem) := by
  intro n
  induction n with
  | zero => exact ⟨[], [], none, rfl, by simp, by simp, by simp, rfl, by simp [opp, paid, blocks], by simp [shown]; rfl⟩
  | succ n ih =>
    obtain ⟨s, js, mem, h1, h2, h3, h4, h5, h6, h7⟩ := ih
    set x := s.getLastD 0 with hx
    have hx01 : x = 0 ∨ x = 1 := by
      rcases List.eq_nil_or_concat' s with rfl | ⟨l, y, rfl⟩
      · left; rfl
      · rw [hx, List.getLastD_concat]; exact h3 y (by simp)
    set bs := opp 0 s ++ [decide (x = 0)] with hbs
    have hbits : blocks B bs = blocks B (opp 0 s) ++ List.replicate B (decide (x = 0)) := blocks_snoc _ _ _
    have hbl : (blocks B (opp 0 s)).length = n * B := by rw [blocks_length, opp_length, h1]
    have hbl' : (blocks B bs).length = (n + 1) * B := by
      rw [hbits, List.length_append, hbl, List.length_replicate]; ring
    have hmul : (n + 1) * B = n * B + B := by ring
    have hlen : (shown e w (blocks B bs) ((n + 1) * B - w)).length = (n + 1) * B - w := shown_length _ _ _ _
    obtain ⟨xs, mem', p1, p2, p3, _⟩ := h 1 1 (fun t j => ((costAt e (blocks B bs) t j : ℚ) : ECost))
      (shown e w (blocks B bs) ((n + 1) * B - w)) (lineAt (costAt e (blocks B bs)) ((n + 1) * B - w + w))
      (costs _ _ fun t _ _ j => want_nonneg he _) (shown_inst e w _ _) (by
        rw [hlen]; exact lineAt_inst _ _ _ fun _ _ _ => rfl) (shown_verify e w _ _) (lineAt_verify _ _)
    obtain ⟨ks, rfl, hk⟩ := exists_seq xs p3
    have hkl : ks.length = (n + 1) * B - w := by rw [List.length_map, hlen] at p2; exact p2
    have p1' := p1
    obtain ⟨rest, hr⟩ := shown_append e w (blocks B (opp 0 s)) (List.replicate B (decide (x = 0)))
      (n := n * B - w) ((n + 1) * B - w - (n * B - w)) (by rw [hbl]; omega)
    rw [show n * B - w + ((n + 1) * B - w - (n * B - w)) = (n + 1) * B - w by omega, ← hbits] at hr
    rw [hr, List.map_append, play_append, h7] at p1'
    obtain ⟨zs, hz⟩ := play_extends _ _ _ _ _ _ _ p1'
    obtain ⟨cs, rfl⟩ : ∃ cs, ks = js ++ cs := by
      refine ⟨ks.drop js.length, ?_⟩
      have e1 := congrArg (List.take js.length) hz
      rw [List.take_append_of_le_length (by simp), ← List.map_take, ← List.map_take, List.take_of_length_le le_rfl] at e1
      have inj : Function.Injective fun j : ℤ => [j] := fun a b hab => by simpa using hab
      have e2 : ks.take js.length = js := List.map_injective_iff.2 inj e1
      conv_lhs => rw [← List.take_append_drop js.length ks, e2]
    have hc01 : ∀ j ∈ cs, j = 0 ∨ j = 1 := fun j hj => by
      have := hk j (by simp [hj]); omega
    rw [List.length_append, h2] at hkl
    have hlast : (js ++ cs).getLastD 0 = cs.getLastD x := by
      rw [last_append, h5]
    refine ⟨s ++ [cs.getLastD x], js ++ cs, mem', by simp [h1], by rw [List.length_append, h2]; omega, ?_, ?_, ?_, ?_, ?_⟩
    · intro j hj
      rcases List.mem_append.1 hj with hj | hj
      · exact h3 j hj
      · rw [List.mem_singleton.1 hj]
        rcases List.eq_nil_or_concat' cs with rfl | ⟨l, y, rfl⟩
        · exact hx01
        · rw [List.getLastD_concat]; exact hc01 y (by simp)
    · intro j hj
      have := hk j hj; omega
    · rw [hlast, List.getLastD_concat]
    · rw [opp_snoc, ← hbs, hbits, paid_append _ _ js cs 0 (by simp [hbl, h2]; omega), h5,
        paid_more _ _ (blocks B (opp 0 s)) js _ (by rw [hbl, h2]; omega), hbs,
        paid_append _ _ s _ 0 (by simp [opp_length]), paid_more _ _ (opp 0 s) s _ (by rw [opp_length])]
      have hd : (opp 0 s ++ [decide (x = 0)]).drop s.length = [decide (x = 0)] := by
        rw [← opp_length s 0, List.drop_left]
      have hd' : (blocks B (opp 0 s) ++ List.replicate B (decide (x = 0))).drop js.length
          = (blocks B (opp 0 s)).drop js.length
            ++ (List.replicate (B - w) (decide (x = 0)) ++ List.replicate w (decide (x = 0))) := by
        rw [List.drop_append_of_le_length (by rw [hbl, h2]; omega), ← List.replicate_add, Nat.sub_add_cancel hB]
      rw [hd, hd']
      have := chunk he ((blocks B (opp 0 s)).drop js.length) (List.replicate w (decide (x = 0))) (B - w) heB x hx01 cs (by
        rw [List.length_drop, hbl, h2]
        rcases Nat.eq_zero_or_pos n with rfl | hn
        · simp at hkl ⊢; omega
        · have : B ≤ n * B := Nat.le_mul_of_pos_left B hn
          omega) hc01
      have z : paid (e * (B - w : ℕ)) [decide (x = 0)] x [cs.getLastD x]
          = want (e * (B - w : ℕ)) (decide (x = 0)) (cs.getLastD x) + ((max 0 (cs.getLastD x - x) : ℤ) : ℚ) := by
        simp [paid]
      rw [← hx, z]
      linarith
    · rw [opp_snoc, ← hbs]; exact p1

end Best

open Best Spec Lcp Uni in
/-- **C116**. No online algorithm for the integral problem is guaranteed to stay within less than three times the
optimum, not even up to an additive constant, and not even if it is given exact predictions of any number of slots. -/
theorem C116_best {M : Type} (A : OnlineAlgorithm (SSCO ℤ Unit Unit) ℤ M) (w : Nat) (c K : ℚ)
    (h : Spec.Competitive A w c K) : 3 ≤ c := by
  by_contra hc
  push Not at hc
  set c' := max c 0 with hc'
  have c0 : 0 ≤ c' := le_max_right _ _
  have c3 : c' < 3 := max_lt hc (by norm_num)
  -- the cost of a block, and the length of a block
  set E : ℚ := (3 - c') / 12 with hE
  have E0 : 0 < E := by rw [hE]; linarith
  obtain ⟨B, hBn⟩ := exists_nat_gt ((w : ℚ) / (2 * E) + w)
  have hw0 : (0 : ℚ) ≤ w := by positivity
  have hwE : (0 : ℚ) ≤ (w : ℚ) / (2 * E) := div_nonneg hw0 (by linarith)
  have hB : w < B := by
    have : (w : ℚ) < B := by linarith
    exact_mod_cast this
  have hB0 : (0 : ℚ) < B := by exact_mod_cast (by omega : 0 < B)
  have hwB : (w : ℚ) ≤ 2 * E * B := by
    have : (w : ℚ) / (2 * E) < B := by linarith
    rw [div_lt_iff₀ (by linarith)] at this
    linarith
  set e : ℚ := E / B with hee
  have e0 : 0 < e := by rw [hee]; positivity
  have eB : e * B = E := by rw [hee]; field_simp
  have E1 : E ≤ 1 / 4 := by rw [hE]; linarith
  set F : ℚ := e * (B - w : ℕ) with hF
  have F0 : 0 ≤ F := by rw [hF]; positivity
  have F1 : F ≤ E := by
    rw [hF, ← eB]
    exact mul_le_mul_of_nonneg_left (by exact_mod_cast Nat.sub_le _ _) e0.le
  have F2 : E * (1 - 2 * E) ≤ F := by
    rw [hF, Nat.cast_sub hB.le, mul_sub e, eB]
    have : e * w ≤ e * (2 * E * B) := mul_le_mul_of_nonneg_left hwB e0.le
    have : e * (2 * E * B) = 2 * E * E := by rw [← eB]; ring
    nlinarith
  have d0 : 0 < (3 - c') * E := mul_pos (by linarith) E0
  obtain ⟨n, hn⟩ := exists_nat_gt ((2 + |K|) * 6 / ((3 - c') * E))
  rw [div_lt_iff₀ d0] at hn
  have K0 := abs_nonneg K
  have n0 : 0 < n := by
    rcases Nat.eq_zero_or_pos n with rfl | h0
    · exfalso; simp at hn; linarith
    · exact h0
  obtain ⟨s, js, mem, h1, h2, h3, h4, _, h6, h7⟩ := force A w c K h e e0.le B hB.le (by linarith) n
  have box : ∀ {ks : List ℤ}, (∀ j ∈ ks, j = 0 ∨ j = 1) → ∀ k ∈ ks, 0 ≤ k ∧ k ≤ 1 := fun hk k m => by
    have := hk k m; omega
  have hnB : B ≤ n * B := Nat.le_mul_of_pos_left B n0
  set bits := blocks B (opp 0 s) with hbits
  have hbl : bits.length = n * B := by rw [hbits, blocks_length, opp_length, h1]
  set N := n * B - w with hN
  have hlen : (shown e w bits N).length = N := shown_length _ _ _ _
  obtain ⟨xs, mem', p1, _, _, p4⟩ := h 1 1 (fun t j => ((costAt e bits t j : ℚ) : ECost)) (shown e w bits N)
    (lineAt (costAt e bits) (N + w)) (costs _ _ fun t _ _ j => want_nonneg e0.le _) (shown_inst e w _ _) (by
      rw [hlen]; exact lineAt_inst _ _ _ fun _ _ _ => rfl) (shown_verify e w _ _) (lineAt_verify _ _)
  rw [h7] at p1
  have hx := (Prod.mk.inj (Except.ok.inj p1)).1
  subst hx
  have hne : shown e w bits N ≠ [] := by
    intro h0; rw [h0] at hlen; simp at hlen; omega
  have last : Inst ((shown e w bits N).getLast hne) 1 1 (fun t j => ((costAt e bits t j : ℚ) : ECost)) N := by
    have := Window.toInst (shown_inst e w bits N (N - 1) (by omega))
    rw [List.getLast_eq_getElem]
    simp only [hlen]
    rwa [Nat.sub_add_cancel (by omega)] at this
  have val : ∀ ks : List ℤ, ks.length ≤ n * B →
      Spec.totalCost (fun t j => ((costAt e bits t j : ℚ) : ECost)) (mv1 1 false) 1 1 0 ks
        = ((paid e bits 0 ks : ℚ) : ECost) := fun ks hk => by
    have := total e bits ks 0 [] (by rw [hbl]; exact hk)
    simpa using this
  obtain ⟨r, r1, a, r2, r3⟩ := p4 _ (List.getLast?_eq_getLast_of_ne_nil hne)
  obtain ⟨out, ho⟩ := objective_last last js h2 (box h4)
  rw [val js (by omega)] at ho
  rw [ho] at r1
  obtain rfl := Except.ok.inj r1
  have ha : a = paid e bits 0 js := (WithTop.coe_injective r2).symm
  have cmp : ∀ ks : List ℤ, ks.length = n → (∀ j ∈ ks, j = 0 ∨ j = 1) →
      paid F (opp 0 s) 0 s ≤ c' * paid E (opp 0 s) 0 ks + |K| := fun ks k1 k2 => by
    have kb : ∀ j ∈ blocks B ks, j = 0 ∨ j = 1 := fun j hj => k2 j (mem_blocks B hj)
    have kl : (blocks B ks).length = N + w := by rw [blocks_length, k1]; omega
    obtain ⟨out', ho'⟩ := objective_last (lineAt_inst (costAt e bits) (costAt e bits) (N + w) fun _ _ _ => rfl)
      (blocks B ks) kl (box kb)
    rw [val _ (by omega), hbits, paid_blocks e (by omega) _ _ _ (by rw [k1, opp_length, h1]), eB] at ho'
    have := r3 ((blocks B ks).map fun j => [j]) (by rw [List.length_map, kl, hlen]) (by
      intro y hy
      obtain ⟨j, hj, rfl⟩ := List.mem_map.1 hy
      exact List.Forall₂.cons (box kb j hj) List.Forall₂.nil) _ _ ho' rfl
    rw [ha] at this
    have q1 := mul_le_mul_of_nonneg_right (le_max_left c 0) (paid_nonneg E0.le (opp 0 s) 0 ks (box k2))
    have q2 := le_abs_self K
    rw [hc']
    linarith
  have q0 := cmp (List.replicate n 0) (by simp) fun j hj => .inl (List.eq_of_mem_replicate hj)
  have q1 := cmp (List.replicate n 1) (by simp) fun j hj => .inr (List.eq_of_mem_replicate hj)
  have q2 := cmp (states (opp 0 s)) (by rw [states, List.length_map, opp_length, h1]) fun j hj => by
    obtain ⟨b, _, rfl⟩ := List.mem_map.1 hj
    cases b <;> simp
  have s1 := paid_const E s 0
  have s2 := paid_first E (opp 0 s) n
  have s3 := paid_opp E s 0 0 (.inl rfl) (.inl rfl) h3
  have s4 := paid_alg F F0 s 0 (.inl rfl) h3
  have s5 := ups_nonneg 0 s
  rw [h1] at s1 s4
  simp only [zero_ne_one, false_and, if_false, Int.cast_zero, mul_zero, sub_zero] at s3 s4
  set P := paid F (opp 0 s) 0 s
  set U := ups 0 s
  have t1 : 3 * P ≤ c' * (E * n + U + 2) + 3 * |K| := by
    have : c' * (paid E (opp 0 s) 0 (List.replicate n 0) + paid E (opp 0 s) 0 (List.replicate n 1)
        + paid E (opp 0 s) 0 (states (opp 0 s))) ≤ c' * (E * n + U + 2) :=
      mul_le_mul_of_nonneg_left (by linarith) c0
    linarith
  have t2 : (1 - 2 * E) * (E * n + U) ≤ P := by
    have u1 : E * (1 - 2 * E) * n ≤ F * n := mul_le_mul_of_nonneg_right F2 (by positivity)
    have u2 : (1 - 2 * E) * U ≤ (1 - 2 * F) * U := mul_le_mul_of_nonneg_right (by linarith) s5
    linarith
  have e2 : c' = 3 - 12 * E := by rw [hE]; ring
  rw [e2] at t1 hn
  have : 0 ≤ E * n := by positivity
  nlinarith [mul_nonneg E0.le s5, mul_nonneg E0.le this]

open Spec Lcp in
/-- **C116**. Lazy capacity provisioning has the factor three, with every prediction window. -/
theorem C116_lcp (w : Nat) : Spec.Competitive (lcpAlg (boundedInt (C := Unit) (D := Unit))) w 3 0 := by
  intro m β g ps q K I Q _ _
  obtain ⟨xs, mem, h1, h2, h3, h4⟩ := C101_window_three_competitive w ps K I q Q
  refine ⟨xs, mem, h1, h2, h3, fun p hp => ?_⟩
  obtain ⟨r, r1, r2, r3⟩ := h4 p hp
  obtain ⟨a, ha⟩ := WithTop.ne_top_iff_exists.1 r2
  refine ⟨r, r1, a, ha.symm, fun ys y1 y2 r' b o1 o2 => ?_⟩
  obtain ⟨r'', q1, q2⟩ := r3 ys y1 y2
  rw [o1] at q1
  obtain rfl := Except.ok.inj q1
  rw [← ha, o2] at q2
  have : a ≤ b + b + b := by exact_mod_cast q2
  linarith

namespace Best
open Spec Lcp Uni Window Work

/-- What is paid if powering down is charged. -/
def paidI (e : ℚ) : List Bool → ℤ → List ℤ → ℚ
  | b :: bs, x, y :: ys => want e b y + ((max 0 (x - y) : ℤ) : ℚ) + paidI e bs y ys
  | _, _, _ => 0

theorem totalI (e : ℚ) : ∀ (bits : List Bool) (js : List ℤ) (x : ℤ) (pre : List Bool), js.length ≤ bits.length →
    Spec.totalCost (fun t j => ((costAt e (pre ++ bits) t j : ℚ) : ECost)) (mv1 1 true) 1 ((pre.length : Int) + 1) x js
      = ((paidI e bits x js : ℚ) : ECost) := by
  intro bits
  induction bits with
  | nil =>
    intro js x pre h
    obtain rfl := List.length_eq_zero_iff.1 (Nat.le_zero.1 h)
    rfl
  | cons b bs ih =>
    intro js x pre h
    cases js with
    | nil => rfl
    | cons y ys =>
      have := ih ys y (pre ++ [b]) (by simpa using h)
      rw [List.append_assoc, List.singleton_append, List.length_append, List.length_singleton] at this
      push_cast at this
      rw [Spec.totalCost, this, paidI]
      have e1 : costAt e (pre ++ b :: bs) ((pre.length : Int) + 1) y = want e b y := by
        simp [costAt]
      rw [e1, mv1]
      simp only [if_true, one_mul]
      norm_cast

theorem paidI_nonneg {e : ℚ} (he : 0 ≤ e) : ∀ (bits : List Bool) (x : ℤ) (js : List ℤ), (∀ j ∈ js, 0 ≤ j ∧ j ≤ 1) →
    0 ≤ paidI e bits x js
  | [], _, _, _ => by simp [paidI]
  | _ :: _, _, [], _ => by simp [paidI]
  | b :: bs, x, y :: ys, h => by
    have h1 := paidI_nonneg he bs y ys fun j hj => h j (by simp [hj])
    have h2 := want_nonneg he b (h y (by simp)).1 (h y (by simp)).2
    have h3 : (0 : ℚ) ≤ ((max 0 (x - y) : ℤ) : ℚ) := by exact_mod_cast le_max_left _ _
    rw [paidI]; linarith

/-- While one server is wanted, the lowest cost of a sequence. -/
theorem phase_zero {e : ℚ} (he : 0 ≤ e) (r : List Bool) : ∀ (js : List ℤ), (∀ j ∈ js, 0 ≤ j ∧ j ≤ 1) →
    min 1 (e * js.length) ≤ paid e (List.replicate js.length true ++ r) 0 js
  | [], _ => by
    refine (min_le_right _ _).trans ?_
    cases r <;> simp [paid]
  | y :: ys, h => by
    have h1 := phase_zero he r ys fun j hj => h j (by simp [hj])
    have h2 := paid_nonneg he (List.replicate ys.length true ++ r) y ys fun j hj => h j (by simp [hj])
    have hy := h y (by simp)
    rw [List.length_cons, List.replicate_succ, List.cons_append, paid]
    obtain rfl | rfl : y = 0 ∨ y = 1 := by omega
    · simp only [want, if_true, sub_self, max_self, Int.cast_zero, sub_zero, Int.cast_one, mul_one, add_zero]
      push_cast
      rcases le_total 1 (e * ys.length) with q | q
      · rw [min_eq_left q] at h1
        exact (min_le_left _ _).trans (by linarith)
      · rw [min_eq_right q] at h1
        exact (min_le_right _ _).trans (by linarith)
    · refine (min_le_left _ _).trans ?_
      simp [want]
      exact h2

/-- In the long run a sequence not powered up at once is dearer. -/
theorem phase_one {e : ℚ} (he : 0 < e) (r : List Bool) : ∀ (js : List ℤ) (x : ℤ), (x = 0 ∨ x = 1) →
    (∀ j ∈ js, 0 ≤ j ∧ j ≤ 1) → (x = 0 → 1 < e * js.length) →
    paid e (List.replicate js.length true ++ r) x js ≤ 1 - x → ∀ j ∈ js, j = 1
  | [], _, _, _, _, _ => by simp
  | y :: ys, x, hx, h, hl, hp => by
    have box : ∀ j ∈ ys, 0 ≤ j ∧ j ≤ 1 := fun j hj => h j (by simp [hj])
    have hy := h y (by simp)
    have hn := paid_nonneg he.le (List.replicate ys.length true ++ r) y ys box
    have hz := phase_zero he.le r ys box
    rw [List.length_cons, List.replicate_succ, List.cons_append, paid] at hp
    obtain rfl | rfl : y = 0 ∨ y = 1 := by omega
    · exfalso
      simp only [want, if_true, sub_zero, Int.cast_one, mul_one] at hp
      rcases hx with rfl | rfl
      · have := hl rfl
        simp only [sub_self, max_self, Int.cast_zero, add_zero, sub_zero] at hp
        rw [List.length_cons] at this
        push_cast at this
        rcases le_total 1 (e * ys.length) with q | q
        · rw [min_eq_left q] at hz; linarith
        · rw [min_eq_right q] at hz; linarith
      · norm_num at hp; linarith
    · have := phase_one he r ys 1 (.inr rfl) box (by simp) (by
        rcases hx with rfl | rfl <;> simp [want] at hp ⊢ <;> linarith)
      intro j hj
      rcases List.mem_cons.1 hj with rfl | hj
      · rfl
      · exact this j hj

/-- From one server, powering down is dearer than staying if the second phase is short. -/
theorem inv_one {e : ℚ} (he : 0 ≤ e) (r : List Bool) (b : Nat) (hb : e * b < 1) : ∀ (a : Nat) (js : List ℤ),
    js.length = a + b → (∀ j ∈ js, 0 ≤ j ∧ j ≤ 1) →
    (∀ j ∈ js, j = 1) ∨ e * b < paidI e (List.replicate a true ++ (List.replicate b false ++ r)) 1 js := by
  have drop : ∀ (bits : List Bool) (w : Bool) (js : List ℤ), (∀ j ∈ js, 0 ≤ j ∧ j ≤ 1) →
      1 ≤ paidI e (w :: bits) 1 (0 :: js) := fun bits w js h => by
    have h1 := paidI_nonneg he bits 0 js h
    have h2 := want_nonneg he w (j := 0) le_rfl (by norm_num)
    rw [paidI]; norm_num; linarith
  have second : ∀ (b : Nat) (js : List ℤ), e * b < 1 → js.length = b → (∀ j ∈ js, 0 ≤ j ∧ j ≤ 1) →
      (∀ j ∈ js, j = 1) ∨ e * b < paidI e (List.replicate b false ++ r) 1 js := by
    intro b
    induction b with
    | zero => intro js _ hl _; left; rw [List.length_eq_zero_iff.1 hl]; simp
    | succ b ih =>
      intro js hb hl h
      cases js with
      | nil => simp at hl
      | cons y ys =>
        have box : ∀ j ∈ ys, 0 ≤ j ∧ j ≤ 1 := fun j hj => h j (by simp [hj])
        have hy := h y (by simp)
        push_cast at hb ⊢
        obtain rfl | rfl : y = 0 ∨ y = 1 := by omega
        · right
          exact lt_of_lt_of_le hb (drop _ _ ys box)
        · rcases ih ys (by linarith) (by simpa using hl) box with q | q
          · left
            intro j hj
            rcases List.mem_cons.1 hj with rfl | hj
            · rfl
            · exact q j hj
          · right
            rw [List.replicate_succ, List.cons_append, paidI]
            simp [want]
            linarith
  intro a
  induction a with
  | zero => intro js hl h; simpa using second b js hb (by simpa using hl) h
  | succ a ih =>
    intro js hl h
    cases js with
    | nil => simp at hl; omega
    | cons y ys =>
      have box : ∀ j ∈ ys, 0 ≤ j ∧ j ≤ 1 := fun j hj => h j (by simp [hj])
      have hy := h y (by simp)
      obtain rfl | rfl : y = 0 ∨ y = 1 := by omega
      · right
        exact lt_of_lt_of_le hb (drop _ _ ys box)
      · rcases ih ys (by simp at hl; omega) box with q | q
        · left
          intro j hj
          rcases List.mem_cons.1 hj with rfl | hj
          · rfl
          · exact q j hj
        · right
          rw [List.replicate_succ, List.cons_append, paidI]
          simpa [want] using q

theorem stayI (e : ℚ) (b : Bool) (r : List Bool) (ks : List ℤ) : ∀ (a : Nat),
    paidI e (List.replicate a b ++ r) 1 (List.replicate a 1 ++ ks) = a * want e b 1 + paidI e r 1 ks
  | 0 => by simp
  | a + 1 => by
    have := stayI e b r ks a
    rw [List.replicate_succ, List.cons_append, List.replicate_succ, List.cons_append, paidI, this]
    push_cast
    norm_num
    ring

theorem ones_inv (e : ℚ) (r : List Bool) (a b : Nat) :
    paidI e (List.replicate a true ++ (List.replicate b false ++ r)) 1 (List.replicate a 1 ++ (List.replicate b 1 ++ []))
      = e * b := by
  rw [stayI, stayI]
  have : paidI e r 1 [] = 0 := by cases r <;> rfl
  rw [this]
  simp [want]
  ring

/-- From no server: at least the shorter phase is paid. -/
theorem inv_zero {e : ℚ} (he : 0 ≤ e) (r : List Bool) (b : Nat) (hb : e * b < 1) : ∀ (a : Nat) (js : List ℤ),
    js.length = a + b → (∀ j ∈ js, 0 ≤ j ∧ j ≤ 1) →
    min (e * a) (e * b) ≤ paidI e (List.replicate a true ++ (List.replicate b false ++ r)) 0 js := by
  intro a
  induction a with
  | zero =>
    intro js _ h
    exact (min_le_left _ _).trans (by simpa using paidI_nonneg he _ 0 js h)
  | succ a ih =>
    intro js hl h
    cases js with
    | nil => simp at hl; omega
    | cons y ys =>
      have box : ∀ j ∈ ys, 0 ≤ j ∧ j ≤ 1 := fun j hj => h j (by simp [hj])
      have hy := h y (by simp)
      have hl' : ys.length = a + b := by simp at hl; omega
      rw [List.replicate_succ, List.cons_append, paidI]
      obtain rfl | rfl : y = 0 ∨ y = 1 := by omega
      · have := ih ys hl' box
        simp only [want, if_true, sub_self, max_self, Int.cast_zero, sub_zero, Int.cast_one, mul_one, add_zero]
        push_cast
        rcases le_total (e * a) (e * b) with q | q
        · rw [min_eq_left q] at this
          exact (min_le_left _ _).trans (by linarith)
        · rw [min_eq_right q] at this
          exact (min_le_right _ _).trans (by linarith)
      · refine (min_le_right _ _).trans ?_
        have : e * b ≤ paidI e (List.replicate a true ++ (List.replicate b false ++ r)) 1 ys := by
          rcases inv_one he r b hb a ys hl' box with q | q
          · have e1 : ys = List.replicate a 1 ++ (List.replicate b 1 ++ []) := by
              rw [List.append_nil, ← List.replicate_add, ← hl']
              exact List.eq_replicate_of_mem q
            rw [e1]
            exact (ones_inv e r a b).ge
          · exact q.le
        simpa [want] using this


/-- Charged for powering down, the only cheapest sequence keeps the server. -/
theorem inv_all {e : ℚ} (he : 0 < e) (r : List Bool) (a b : Nat) (hb : e * b < 1) (hab : b ≤ a) (js : List ℤ)
    (hl : js.length = (a + 1) + b) (h : ∀ j ∈ js, 0 ≤ j ∧ j ≤ 1)
    (hp : paidI e (List.replicate (a + 1) true ++ (List.replicate b false ++ r)) 0 js ≤ e * b) : ∀ j ∈ js, j = 1 := by
  cases js with
  | nil => simp
  | cons y ys =>
    have box : ∀ j ∈ ys, 0 ≤ j ∧ j ≤ 1 := fun j hj => h j (by simp [hj])
    have hy := h y (by simp)
    have hl' : ys.length = a + b := by simp at hl; omega
    rw [List.replicate_succ, List.cons_append, paidI] at hp
    obtain rfl | rfl : y = 0 ∨ y = 1 := by omega
    · exfalso
      have := inv_zero he.le r b hb a ys hl' box
      have q : e * (b : ℚ) ≤ e * a := mul_le_mul_of_nonneg_left (by exact_mod_cast hab) he.le
      rw [min_eq_right q] at this
      simp [want] at hp
      linarith
    · rcases inv_one he.le r b hb a ys hl' box with q | q
      · intro j hj
        rcases List.mem_cons.1 hj with rfl | hj
        · rfl
        · exact q j hj
      · exfalso
        simp [want] at hp
        linarith

/-- The wanted states: one server for `n + 1` slots, then none. -/
def full (n : Nat) : List Bool := List.replicate (n + 1) true ++ List.replicate (n - 1) false

theorem full_short {n N : Nat} (h : N ≤ n + 1) : ∃ r, full n = List.replicate N true ++ r :=
  ⟨List.replicate (n + 1 - N) true ++ List.replicate (n - 1) false, by
    rw [← List.append_assoc, ← List.replicate_add, full]; rw [show N + (n + 1 - N) = n + 1 by omega]⟩

theorem full_long {n b : Nat} (h : b ≤ n - 1) :
    ∃ r, full n = List.replicate (n + 1) true ++ (List.replicate b false ++ r) :=
  ⟨List.replicate (n - 1 - b) false, by
    rw [← List.replicate_add, full]; congr 2; omega⟩

theorem full_length {n : Nat} (h : 1 ≤ n) : (full n).length = 2 * n := by
  simp [full]; omega

theorem getD_all {js : List ℤ} {v : ℤ} (h : ∀ j ∈ js, j = v) {k : Nat} (hk : k < js.length) : js.getD k 0 = v := by
  rw [List.getD_eq_getElem?_getD, List.getElem?_eq_getElem hk]
  exact h _ (List.getElem_mem hk)

section
variable {n : Nat} {e : ℚ}

theorem plain (hn : 1 ≤ n) (js : List ℤ) (h : js.length ≤ 2 * n) :
    Spec.totalCost (fun t j => ((costAt e (full n) t j : ℚ) : ECost)) (mv1 1 false) 1 1 0 js
      = ((paid e (full n) 0 js : ℚ) : ECost) := by
  have := total e (full n) js 0 [] (by rw [full_length hn]; exact h)
  simpa using this

theorem inverted (hn : 1 ≤ n) (js : List ℤ) (h : js.length ≤ 2 * n) :
    Spec.totalCost (fun t j => ((costAt e (full n) t j : ℚ) : ECost)) (mv1 1 true) 1 1 0 js
      = ((paidI e (full n) 0 js : ℚ) : ECost) := by
  have := totalI e (full n) js 0 [] (by rw [full_length hn]; exact h)
  simpa using this

theorem low_zero (hn : 1 ≤ n) (he : 0 ≤ e) (hen : e * n ≤ 1) {N : Nat} (hN : N ≤ n) {X : List ℤ}
    (hX : IsLow (fun t j => ((costAt e (full n) t j : ℚ) : ECost)) 1 false 1 N 1 0 X) (k : Nat) : X.getD k 0 = 0 := by
  have hr : ∀ j ∈ List.replicate N (0 : ℤ), 0 ≤ j ∧ j ≤ 1 := fun j hj => by
    rw [List.eq_of_mem_replicate hj]; omega
  have := hX.low (List.replicate N 0) (by simp) hr (by
    rw [plain hn _ (by simp; omega), plain hn _ (by rw [hX.len]; omega), WithTop.coe_le_coe]
    obtain ⟨r, hf⟩ := full_short (n := n) (N := N) (by omega)
    have q := phase_zero he r X hX.box
    rw [hX.len, ← hf] at q
    have q2 : e * (N : ℚ) ≤ 1 := le_trans (mul_le_mul_of_nonneg_left (by exact_mod_cast hN) he) hen
    rw [min_eq_right q2] at q
    refine le_trans (le_of_eq ?_) q
    have := replicate_stay e true 0 r [] N
    rw [List.append_nil] at this
    rw [hf, this]
    have : paid e r 0 [] = 0 := by cases r <;> rfl
    rw [this]; simp [want]; ring)
  have q := below_getD this k
  have z : (List.replicate N (0 : ℤ)).getD k 0 = 0 := by
    rw [List.getD_eq_getElem?_getD, List.getElem?_replicate]; split_ifs <;> rfl
  rw [z] at q
  have : 0 ≤ X.getD k 0 := by
    rcases lt_or_ge k X.length with h | h
    · rw [List.getD_eq_getElem?_getD, List.getElem?_eq_getElem h]
      exact (hX.box _ (List.getElem_mem h)).1
    · rw [List.getD_eq_getElem?_getD, List.getElem?_eq_none h]; exact le_rfl
  omega

theorem low_one (hn : 1 ≤ n) (he : 0 < e) (hen : 1 < e * (n + 1)) {X : List ℤ}
    (hX : IsLow (fun t j => ((costAt e (full n) t j : ℚ) : ECost)) 1 false 1 (n + 1) 1 0 X) {k : Nat} (hk : k < n + 1) :
    X.getD k 0 = 1 := by
  obtain ⟨r, hf⟩ := full_short (n := n) (N := n + 1) le_rfl
  have := hX.opt (List.replicate (n + 1) 1) (by simp) (fun j hj => by rw [List.eq_of_mem_replicate hj]; omega)
  rw [plain hn _ (by rw [hX.len]; omega), plain hn _ (by simp; omega), WithTop.coe_le_coe] at this
  have q := replicate_paid e true 1 r [] n 0
  rw [List.append_nil, ← hf] at q
  rw [q] at this
  have z : paid e r 1 [] = 0 := by cases r <;> rfl
  rw [z] at this
  refine getD_all (phase_one he r X 0 (.inl rfl) hX.box (fun _ => by rw [hX.len]; exact_mod_cast hen) ?_) (by
    rw [hX.len]; exact hk)
  rw [hX.len, ← hf]
  simpa [want] using this

theorem high_one (hn : 1 ≤ n) (he : 0 < e) (hen : e * (n - 1 : ℕ) < 1) {N : Nat} (hN : N ≤ 2 * n) {Y : List ℤ}
    (hY : IsLow (fun t j => ((costAt e (full n) t j : ℚ) : ECost)) 1 true 1 N 1 0 Y) {k : Nat} (hk : k < N) :
    Y.getD k 0 = 1 := by
  obtain ⟨a, b, r, hf, hab, hb, hN'⟩ : ∃ (a b : Nat) (r : List Bool),
      full n = List.replicate (a + 1) true ++ (List.replicate b false ++ r) ∧ b ≤ a ∧ b ≤ n - 1 ∧ N = a + 1 + b := by
    rcases Nat.le_total N (n + 1) with h | h
    · obtain ⟨r, hf⟩ := full_short h
      obtain ⟨a, rfl⟩ : ∃ a, N = a + 1 := ⟨N - 1, by omega⟩
      exact ⟨a, 0, r, by simpa using hf, by omega, by omega, by omega⟩
    · obtain ⟨r, hf⟩ := full_long (n := n) (b := N - (n + 1)) (by omega)
      exact ⟨n, N - (n + 1), r, hf, by omega, by omega, by omega⟩
  have hb1 : e * (b : ℚ) < 1 := lt_of_le_of_lt (mul_le_mul_of_nonneg_left (by exact_mod_cast hb) he.le) hen
  have := hY.opt (List.replicate (a + 1) 1 ++ (List.replicate b 1 ++ [])) (by simp; omega) (fun j hj => by
    have : j = 1 := by
      rw [List.append_nil, ← List.replicate_add] at hj
      exact List.eq_of_mem_replicate hj
    omega)
  rw [inverted hn _ (by rw [hY.len]; omega), inverted hn _ (by simp; omega), WithTop.coe_le_coe] at this
  refine getD_all (inv_all he r a b hb1 hab Y (by rw [hY.len, hN']) hY.box ?_) (by rw [hY.len]; exact hk)
  rw [hf] at this
  refine this.trans (le_of_eq ?_)
  rw [← ones_inv e r (a + 1) b, List.replicate_succ, List.cons_append, List.replicate_succ, List.cons_append, paidI, paidI]
  simp

end

end Best

open Best Spec Lcp Uni Window Work in
/-- **C116**. Predictions do not improve the factor of lazy capacity provisioning: with any prediction window, even
if all predictions are exact, there are problems on which its cost exceeds any multiple below three of that of
another schedule. -/
theorem C116_window (w : Nat) (c : ℚ) (hc : c < 3) :
    ∃ (g : Int → ℤ → ECost) (ps : List (SSCO ℤ Unit Unit)) (p : SSCO ℤ Unit Unit) (xs ys : Schedule ℤ)
      (mem : Option (List (BoundsMem ℤ))) (r r' : Cost Unit Unit) (a b : ℚ),
      Spec.Costs 1 1 g (ps.length + w) ∧ (∀ k (h : k < ps.length), Spec.Foresight ps[k] 1 1 g (k + 1) w) ∧
      (∀ p ∈ ps, p.verify = .ok ()) ∧ ps.getLast? = some p ∧
      Spec.play SSCO.tEnd (lcpAlg boundedInt) [] none (ps.map fun p => ⟨p, w⟩) = .ok (xs, mem) ∧
      p.toProb.objective xs = .ok r ∧ r.cost = (a : ECost) ∧
      ys.length = ps.length ∧ (∀ y ∈ ys, Spec.InBox [1] y) ∧ p.toProb.objective ys = .ok r' ∧ r'.cost = (b : ECost) ∧
      0 < b ∧ c * b < a := by
  obtain ⟨n, hn⟩ := exists_nat_gt ((2 * w + 1) / (3 - c) + w + 1)
  have hd : 0 < 3 - c := by linarith
  have hw0 : (0 : ℚ) ≤ w := by positivity
  have hq : (0 : ℚ) ≤ (2 * w + 1) / (3 - c) := div_nonneg (by linarith) hd.le
  have hnw : w + 1 < n := by
    have : ((w + 1 : ℕ) : ℚ) < n := by push_cast; linarith
    exact_mod_cast this
  have hn1 : 1 ≤ n := by omega
  have hnq : (0 : ℚ) < n := by exact_mod_cast hn1
  have hkey : (2 * w + 1 : ℚ) < n * (3 - c) := by
    have : (2 * w + 1) / (3 - c) < n := by linarith
    rwa [div_lt_iff₀ hd] at this
  set e : ℚ := 1 / n with he
  have e0 : 0 < e := by rw [he]; positivity
  have en : e * n = 1 := by rw [he]; field_simp
  set g : Int → ℤ → ECost := fun t j => ((costAt e (full n) t j : ℚ) : ECost) with hg
  set T := 2 * n - w with hT
  set ps : List (SSCO ℤ Unit Unit) := (List.range T).map fun k => lineAt (costAt e (full n)) (k + 1) with hps
  have hpl : ps.length = T := by simp [hps]
  have K : Costs 1 1 g (ps.length + w) := costs _ _ fun t _ _ j => want_nonneg e0.le _
  have inst : ∀ k : Nat, Inst (lineAt (costAt e (full n)) k) 1 1 g k := fun k =>
    lineAt_inst _ _ k fun _ _ _ => rfl
  have I : ∀ k (h : k < ps.length), Foresight ps[k] 1 1 g (k + 1) w := fun k h => by
    simp only [hps, List.getElem_map, List.getElem_range]
    have := inst (k + 1)
    exact ⟨this.d, this.bounds, this.switching, this.tEnd, fun t a _ j h0 h1 => lineAt_hit _ _ t a j h0 h1, this.certain⟩
  obtain ⟨js, bs, h1, h2, h3, M, h5⟩ := run_window w ps K I
  have hne : ps ≠ [] := by
    intro h; rw [h] at hpl; simp at hpl; omega
  rw [if_neg hne] at h1
  -- the bounds
  have U1 : ∀ k, k < T → Uf bs (k + 1) = 1 := fun k hk => by
    have hb : bs[k]? = some bs[k] := List.getElem?_eq_getElem (by omega)
    obtain ⟨X, Y, _, hY, _, eY⟩ := M k _ hb
    have := high_one hn1 e0 (by rw [Nat.cast_sub hn1]; push_cast; nlinarith) (by omega) hY (k := k) (by omega)
    rw [this] at eY
    simp only [Uf, Nat.add_sub_cancel, hb, ← eY]; rfl
  have L0 : ∀ k, k < T → k + 1 + w ≤ n → Lf bs (k + 1) = 0 := fun k hk hkn => by
    have hb : bs[k]? = some bs[k] := List.getElem?_eq_getElem (by omega)
    obtain ⟨X, Y, hX, _, eX, _⟩ := M k _ hb
    have := low_zero hn1 e0.le en.le hkn hX k
    rw [this] at eX
    simp only [Lf, Nat.add_sub_cancel, hb, ← eX]; rfl
  have L1 : Lf bs (n - w + 1) = 1 := by
    have hb : bs[n - w]? = some bs[n - w] := List.getElem?_eq_getElem (by omega)
    obtain ⟨X, Y, hX, _, eX, _⟩ := M (n - w) _ hb
    have e1 : n - w + 1 + w = n + 1 := by omega
    rw [e1] at hX
    have := low_one hn1 e0 (by rw [mul_add, en]; linarith) hX (k := n - w) (by omega)
    rw [this] at eX
    simp only [Lf, Nat.add_sub_cancel, hb, ← eX]; rfl
  have LU : ∀ k, k < T → Lf bs (k + 1) ≤ 1 := fun k hk => by
    have hb : bs[k]? = some bs[k] := List.getElem?_eq_getElem (by omega)
    obtain ⟨X, Y, hX, _, eX, _⟩ := M k _ hb
    have : X.getD k 0 ≤ 1 := by
      rw [List.getD_eq_getElem?_getD, List.getElem?_eq_getElem (by rw [hX.len]; omega)]
      exact (hX.box _ (List.getElem_mem _)).2
    rw [eX] at this
    simp only [Lf, Nat.add_sub_cancel, hb]
    show ((bs[k].lower : ℤ) : ℚ) ≤ 1
    exact_mod_cast this
  have z0 : ∀ k, k ≤ n - w → lazy 0 (Lf bs) (Uf bs) k = 0 := fun k => by
    induction k with
    | zero => intro _; rfl
    | succ k ih =>
      intro hk
      rw [lazy, ih (by omega), L0 k (by omega) (by omega), U1 k (by omega)]
      simp [clampQ]
  have z1 : ∀ k, n - w + 1 + k ≤ T → lazy 0 (Lf bs) (Uf bs) (n - w + 1 + k) = 1 := fun k => by
    induction k with
    | zero =>
      intro _
      rw [Nat.add_zero, lazy, z0 _ le_rfl, L1, U1 _ (by omega)]
      simp [clampQ]
    | succ k ih =>
      intro hk
      rw [← Nat.add_assoc, lazy, ih (by omega), U1 _ (by omega)]
      have := LU (n - w + 1 + k) (by omega)
      simp only [clampQ, min_self]
      exact max_eq_right this
  have hjs : js = List.replicate (n - w) 0 ++ (List.replicate n 1) := by
    apply List.ext_getElem (by simp [h2, hpl]; omega)
    intro i hi hi'
    have := h5 i (by omega)
    rw [List.getD_eq_getElem?_getD, List.getElem?_eq_getElem hi, Option.getD_some] at this
    rcases Nat.lt_or_ge i (n - w) with h | h
    · rw [z0 (i + 1) (by omega)] at this
      rw [List.getElem_append_left (by simpa using h), List.getElem_replicate]
      exact_mod_cast this
    · have := z1 (i - (n - w)) (by omega)
      have e1 : n - w + 1 + (i - (n - w)) = i + 1 := by omega
      rw [e1] at this
      rw [List.getElem_append_right (by simpa using h), List.getElem_replicate]
      have h7 := h5 i (by omega)
      rw [List.getD_eq_getElem?_getD, List.getElem?_eq_getElem hi, Option.getD_some, this] at h7
      exact_mod_cast h7
  have last : ps.getLast? = some (lineAt (costAt e (full n)) T) := by
    rw [hps, List.getLast?_map, List.getLast?_range, if_neg (by omega)]
    simp only [Option.map_some]
    congr 2
    omega
  have obj : ∀ ks : List ℤ, ks.length = T → (∀ k ∈ ks, 0 ≤ k ∧ k ≤ 1) → ∃ out,
      (lineAt (costAt e (full n)) T).toProb.objective (ks.map fun j => [j])
        = .ok ⟨((paid e (full n) 0 ks : ℚ) : ECost), out⟩ := fun ks k1 k2 => by
    obtain ⟨out, ho⟩ := objective_last (inst T) ks k1 k2
    rw [hg, plain hn1 ks (by omega)] at ho
    exact ⟨out, ho⟩
  have zero_end : ∀ (r : List Bool) (x : ℤ), paid e r x [] = 0 := fun r x => by cases r <;> rfl
  have boxr : ∀ (i j : Nat) (u v : ℤ), (u = 0 ∨ u = 1) → (v = 0 ∨ v = 1) →
      ∀ k ∈ List.replicate i u ++ List.replicate j v, 0 ≤ k ∧ k ≤ 1 := fun i j u v hu hv k hk => by
    rcases List.mem_append.1 hk with h | h <;> rw [List.eq_of_mem_replicate h] <;> omega
  obtain ⟨o1, ho1⟩ := obj js (by rw [h2, hpl]) (by rw [hjs]; exact boxr _ _ _ _ (.inl rfl) (.inr rfl))
  obtain ⟨o2, ho2⟩ := obj (List.replicate (n + 1) 1 ++ List.replicate (n - 1 - w) 0) (by simp; omega)
    (boxr _ _ _ _ (.inr rfl) (.inl rfl))
  have c1 : paid e (full n) 0 js = e * (n - w : ℕ) + 1 + e * (n - 1 - w : ℕ) := by
    have f1 : full n = List.replicate (n - w) true ++ (List.replicate (w + 1) true
        ++ (List.replicate (n - 1 - w) false ++ List.replicate w false)) := by
      rw [← List.append_assoc, ← List.replicate_add, ← List.replicate_add, full]
      congr 2 <;> omega
    have f2 : js = List.replicate (n - w) 0 ++ (List.replicate (w + 1) 1 ++ (List.replicate (n - 1 - w) 1 ++ [])) := by
      rw [hjs, List.append_nil, ← List.replicate_add]
      congr 2; omega
    rw [f1, f2, replicate_stay, replicate_paid, replicate_stay, zero_end]
    simp [want]
    ring
  have c2 : paid e (full n) 0 (List.replicate (n + 1) 1 ++ List.replicate (n - 1 - w) 0) = 1 := by
    have f1 : full n = List.replicate (n + 1) true ++ (List.replicate (n - 1 - w) false ++ List.replicate w false) := by
      rw [← List.replicate_add, full]
      congr 2; omega
    rw [f1, ← List.append_nil (List.replicate (n - 1 - w) (0 : ℤ)), replicate_paid]
    cases hk : n - 1 - w with
    | zero => simp [want, zero_end]
    | succ k => rw [replicate_paid, zero_end]; simp [want]
  refine ⟨g, ps, _, _, _, _, _, _, _, _, K, I, ?_, last, h1, ho1, rfl, ?_, ?_, ho2, rfl, ?_, ?_⟩
  · intro p hp
    obtain ⟨k, _, rfl⟩ := List.mem_map.1 hp
    exact lineAt_verify _ _
  · simp [hpl]; omega
  · intro y hy
    obtain ⟨j, hj, rfl⟩ := List.mem_map.1 hy
    exact List.Forall₂.cons (boxr _ _ _ _ (.inr rfl) (.inl rfl) j hj) List.Forall₂.nil
  · rw [c2]; norm_num
  · rw [c1, c2, Nat.cast_sub (by omega : w ≤ n), Nat.cast_sub (by omega : w ≤ n - 1), Nat.cast_sub hn1]
    push_cast
    have : e * (2 * w + 1) < 3 - c := by
      have := mul_lt_mul_of_pos_left hkey e0
      rw [← mul_assoc, en, one_mul] at this
      exact this
    nlinarith

/-- The hypothesis of `C116_best` is met by lazy capacity provisioning, with the factor three. -/
example (w : Nat) : (3 : ℚ) ≤ 3 := C116_best _ w 3 0 (C116_lcp w)

/-- `C116_window` for a window of two slots and the factor 2.99. -/
example := C116_window 2 (299 / 100) (by norm_num)

end Soco
