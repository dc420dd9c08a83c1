import Verif.Model.Lcp
import Verif.Spec.Capacity
import Verif.Spec.Online
import Verif.Lemmas.Work
import Verif.Props.UniGraph
import Verif.Props.Convert

/-! # Integral capacity provisioning: from the model to the work functions -/

namespace Soco.Lcp
open Soco Work Uni Spec

/-- Integers of the decision space, as rationals. -/
def DomZ (m : ℤ) (y : ℚ) : Prop := ∃ j : ℤ, 0 ≤ j ∧ j ≤ m ∧ y = j

/-- Hitting costs on the rationals. -/
def hitQ (g : Int → ℤ → ECost) (t : Int) (y : ℚ) : ECost := g t ⌊y⌋

theorem hitQ_cast (g : Int → ℤ → ECost) (t : Int) (j : ℤ) : hitQ g t (j : ℚ) = g t j := by
  simp [hitQ]

theorem up_cast (β : ℚ) (i j : ℤ) : up β (i : ℚ) (j : ℚ) = mv1 β false i j := by
  simp [up, mv1]

theorem down_cast (β : ℚ) (i j : ℤ) : up β (j : ℚ) (i : ℚ) = mv1 β true i j := by
  simp [up, mv1]

theorem cost_cast (g : Int → ℤ → ECost) (β : ℚ) (t : Int) (x : ℤ) (js : List ℤ) :
    Spec.totalCost (hitQ g) (up β) 1 t (x : ℚ) (js.map fun j : ℤ => (j : ℚ))
      = Spec.totalCost g (mv1 β false) 1 t x js := by
  rw [totalCost_map (fun j : ℤ => (j : ℚ))]
  simp only [hitQ_cast, up_cast]

theorem cost_cast_inv (g : Int → ℤ → ECost) (β : ℚ) (t : Int) (x : ℤ) (js : List ℤ) :
    Spec.totalCost (hitQ g) (fun y x => up β x y) 1 t (x : ℚ) (js.map fun j : ℤ => (j : ℚ))
      = Spec.totalCost g (mv1 β true) 1 t x js := by
  rw [totalCost_map (fun j : ℤ => (j : ℚ))]
  simp only [hitQ_cast, down_cast]

theorem domZ_list {m : ℤ} (ys : List ℚ) (h : ∀ y ∈ ys, DomZ m y) :
    ∃ js : List ℤ, ys = js.map (fun j : ℤ => (j : ℚ)) ∧ ∀ j ∈ js, 0 ≤ j ∧ j ≤ m := by
  induction ys with
  | nil => exact ⟨[], rfl, by simp⟩
  | cons y ys ih =>
    obtain ⟨js, rfl, hj⟩ := ih fun z hz => h z (by simp [hz])
    obtain ⟨j, h1, h2, rfl⟩ := h y (by simp)
    exact ⟨j :: js, rfl, by
      intro k hk
      rcases List.mem_cons.1 hk with rfl | hk
      · exact ⟨h1, h2⟩
      · exact hj k hk⟩

theorem mem_domZ {m : ℤ} {js : List ℤ} (h : ∀ j ∈ js, 0 ≤ j ∧ j ≤ m) :
    ∀ y ∈ js.map (fun j : ℤ => (j : ℚ)), DomZ m y := by
  intro y hy
  obtain ⟨j, hj, rfl⟩ := List.mem_map.1 hy
  exact ⟨j, (h j hj).1, (h j hj).2, rfl⟩

theorem getLastD_cast (js : List ℤ) (x : ℤ) :
    (js.map fun j : ℤ => (j : ℚ)).getLastD (x : ℚ) = ((js.getLastD x : ℤ) : ℚ) := by
  induction js using List.reverseRecOn with
  | nil => rfl
  | append_singleton js j _ =>
    rw [List.map_append, List.map_singleton, List.getLastD_concat, List.getLastD_concat]

theorem conv_hitQ {g : Int → ℤ → ECost} {m : ℤ} {t : Int} (h : Spec.ConvexOnE m (g t)) :
    ConvD (DomZ m) (hitQ g t) := by
  rintro x y z ⟨i, i0, im, rfl⟩ ⟨j, j0, jm, rfl⟩ ⟨k, k0, km, rfl⟩ hxy hyz a c ha hc
  rw [hitQ_cast] at ha hc
  simp only [hitQ_cast]
  exact h i j k i0 (by exact_mod_cast hxy) (by exact_mod_cast hyz) km a c ha hc

theorem totalCost_shift {X : Type} (hit : Int → X → ECost) (mv : X → X → ℚ) (α : ℚ) (s : Int) :
    ∀ (xs : List X) (t : Int) (x : X),
    Spec.totalCost (fun t => hit (t + s)) mv α t x xs = Spec.totalCost hit mv α (s + t) x xs := by
  intro xs
  induction xs with
  | nil => intros; rfl
  | cons y ys ih =>
    intro t x
    simp only [Spec.totalCost, ih, add_comm t s, add_assoc]

/-! ## Bounds as functions of the slot -/

section
variable {T : Type} [Value T]

/-- Lower bounds by slot. -/
def Lf (bs : List (BoundsMem T)) (i : Nat) : ℚ := match bs[i - 1]? with | some b => toQ b.lower | none => 0
/-- Upper bounds by slot. -/
def Uf (bs : List (BoundsMem T)) (i : Nat) : ℚ := match bs[i - 1]? with | some b => toQ b.upper | none => 0

theorem Lf_append (bs cs : List (BoundsMem T)) {i : Nat} (h1 : 1 ≤ i) (h2 : i ≤ bs.length) :
    Lf (bs ++ cs) i = Lf bs i := by
  unfold Lf; rw [List.getElem?_append_left (by omega)]

theorem Uf_append (bs cs : List (BoundsMem T)) {i : Nat} (h1 : 1 ≤ i) (h2 : i ≤ bs.length) :
    Uf (bs ++ cs) i = Uf bs i := by
  unfold Uf; rw [List.getElem?_append_left (by omega)]

theorem Lf_last (bs : List (BoundsMem T)) (b : BoundsMem T) : Lf (bs ++ [b]) (bs.length + 1) = toQ b.lower := by
  simp [Lf]

theorem Uf_last (bs : List (BoundsMem T)) (b : BoundsMem T) : Uf (bs ++ [b]) (bs.length + 1) = toQ b.upper := by
  simp [Uf]

theorem toQ_project (i lo up : T) : toQ (project i lo up) = clampQ (toQ lo) (toQ up) (toQ i) := by
  unfold project clampQ toQ
  rw [umax_eq, umin_eq, Value.toQ_mono.monotone.map_max, Value.toQ_mono.monotone.map_min]

end

section
variable {D : ℚ → Prop} {β x0 : ℚ} {f : Int → ℚ → ECost} {L U L' U' : Nat → ℚ}

theorem H_congr {n : Nat} (hL : ∀ i, 1 ≤ i → i ≤ n → L i = L' i) (hU : ∀ i, 1 ≤ i → i ≤ n → U i = U' i) :
    ∀ t ≤ n, H β x0 f L U t = H β x0 f L' U' t := by
  intro t
  induction t with
  | zero => intro _; funext y; rfl
  | succ t ih =>
    intro ht
    have e : J β x0 f L U t = J β x0 f L' U' t := by
      funext y; rw [J, J, ih (by omega)]
    rw [H_succ, H_succ, e, hL _ (by omega) ht, hU _ (by omega) ht]

theorem AllB_congr {n : Nat} (hL : ∀ i, 1 ≤ i → i ≤ n → L i = L' i) (hU : ∀ i, 1 ≤ i → i ≤ n → U i = U' i)
    (B : AllB D β x0 f L U n) : AllB D β x0 f L' U' n := by
  intro t ht
  have e : J β x0 f L U t = J β x0 f L' U' t := by
    funext y; rw [J, J, H_congr hL hU t ht.le]
  have := B t ht
  rwa [e, hL _ (by omega) ht, hU _ (by omega) ht] at this

theorem lazy_congr {n : Nat} (hL : ∀ i, 1 ≤ i → i ≤ n → L i = L' i) (hU : ∀ i, 1 ≤ i → i ≤ n → U i = U' i) :
    ∀ t ≤ n, lazy x0 L U t = lazy x0 L' U' t
  | 0, _ => rfl
  | t + 1, ht => by
    rw [lazy, lazy, lazy_congr hL hU t (by omega), hL _ (by omega) ht, hU _ (by omega) ht]

end

/-! ## The reference time -/

theorem findInitialTime_spec (bs : List (BoundsMem ℤ)) :
    findInitialTime bs = (0, 0) ∨ ∃ s : Nat, ∃ x : ℤ, findInitialTime bs = ((s : Int), x) ∧ 1 ≤ s ∧
      s + 1 ≤ bs.length ∧ bs[s - 1]? = some ⟨x, x⟩ := by
  unfold findInitialTime
  cases h : (timeRange 2 bs.length).reverse.findSome? (initialTimeAt bs) with
  | none => left; rfl
  | some r =>
    right
    obtain ⟨t, ht, hr⟩ := List.exists_of_findSome?_eq_some h
    have ht' : 2 ≤ t ∧ t ≤ bs.length := by
      rw [List.mem_reverse, timeRange, List.mem_map] at ht
      obtain ⟨i, hi, rfl⟩ := ht
      rw [List.mem_range] at hi
      omega
    obtain ⟨n, rfl⟩ : ∃ n : Nat, t = n := ⟨t.toNat, by omega⟩
    unfold initialTimeAt at hr
    split at hr
    · rename_i prev cur h1 h2
      split_ifs at hr with hv hp
      cases hr
      have e : prev.lower = prev.upper := by
        have : |((prev.lower - prev.upper : ℤ) : ℚ)| < 1 := by
          have hp' : |((prev.lower - prev.upper : ℤ) : ℚ)| < precision * 10 := hp
          have : precision * 10 ≤ 1 := by norm_num [precision]
          linarith
        have : |prev.lower - prev.upper| < 1 := by exact_mod_cast this
        rw [Int.abs_lt_one_iff] at this
        omega
      refine ⟨n - 1, prev.upper, ?_, by omega, by omega, ?_⟩
      · show (((n : Int) - 1), prev.upper) = _
        rw [Nat.cast_sub (by omega)]; rfl
      · have : n - 1 - 1 = (n : Int).toNat - 2 := by omega
        rw [this, h1, ← e]
        cases prev; simp_all
    · cases hr

/-! ## The bounds found -/

variable {C D : Type} [OutSuccess C] [OutFailure D]

theorem reset_hit {p : SSCO ℤ C D} {s t : Int} (hs : 0 ≤ s) (ht : 1 ≤ t) (hc : p.hittingCost.CertainAt (1 + s))
    (x : Config ℤ) : (p.reset s).toProb.hitCost t x = p.toProb.hitCost (t + s) x := by
  have := (C08_reset_slot p.hittingCost s t hs ht hc x).2.1
  show (p.hittingCost.reset s).callMeanWithinBounds t x (withinVec p.bounds)
    = p.hittingCost.callMeanWithinBounds (t + s) x (withinVec p.bounds)
  unfold CostFn.callMeanWithinBounds
  rw [this]

/-- The bound found by a search from slot `s` in `x` is the last state of a sequence that is optimal for the
requested movement direction. -/
theorem findBound_ok {p : SSCO ℤ C D} {m : ℤ} {β : ℚ} {g : Int → ℤ → ECost} {n s : Nat} (I : Inst p m β g n)
    (K : Costs m β g n) (hs : s < n) {x : ℤ} (hx : x ≤ m) (inverted : Bool) :
    ∃ js : List ℤ, js.length = n - s ∧ (∀ j ∈ js, 0 ≤ j ∧ j ≤ m) ∧
      findBoundInt p 1 inverted 0 n s x = .ok (js.getLastD x) ∧
      ∀ ks : List ℤ, ks.length = n - s → (∀ k ∈ ks, 0 ≤ k ∧ k ≤ m) →
        Spec.totalCost g (mv1 β inverted) 1 ((s : Int) + 1) x js
          ≤ Spec.totalCost g (mv1 β inverted) 1 ((s : Int) + 1) x ks := by
  have hcert := I.certain (1 + s) (by omega) (by omega)
  let q : SSCO ℤ C D := { p.reset s with tEnd := (p.reset s).tEnd + 0 }
  have hT : q.tEnd = ((n - s : Nat) : Int) := by
    show p.tEnd - s + 0 = _
    rw [I.tEnd]; omega
  have hhit : ∀ t : Int, 1 ≤ t → t ≤ q.tEnd → ∀ j, 0 ≤ j → j ≤ m →
      ∃ out, q.toProb.hitCost t [j] = .ok ⟨g (t + s) j, out⟩ := by
    intro t h1 h2 j h3 h4
    have : q.toProb.hitCost t [j] = (p.reset s).toProb.hitCost t [j] := rfl
    rw [this, reset_hit (by omega) h1 hcert]
    exact I.hit _ (by omega) (by omega) j h3 h4
  obtain ⟨P, js, h1, h2, h3, h4, h5, h6, h7⟩ := graphSearch_main (p := q) (m := m) (β := β) I.d I.bounds I.switching
    K.hm K.hβ (by omega) x hx { inverted := inverted, alpha := 1, l := none } rfl zero_le_one
    (g := fun t => g (t + s)) hhit (fun t a b => K.fin _ (by omega) (by omega))
    (fun t a b => K.nonneg _ (by omega) (by omega) m K.hm.le le_rfl)
  have h8 := h7 (fun t a b => K.nonneg _ (by omega) (by omega)) (fun t a b => K.conv _ (by omega) (by omega))
  have hlen : js.length = n - s := by rw [hT] at h3; exact_mod_cast h3
  refine ⟨js, hlen, h4, ?_, ?_⟩
  · have hl : P.xs[((n : Int) - s).toNat - 1]? = some [js.getLastD x] := by
      rw [h2, List.getElem?_map]
      obtain rfl | ⟨js', j, rfl⟩ := List.eq_nil_or_concat' js
      · simp at hlen; omega
      · have : ((n : Int) - s).toNat - 1 = js'.length := by simp at hlen; omega
        rw [this, List.getLastD_concat]; simp
    have hnpos : ¬ ((n : Int) ≤ 0) := by omega
    have h1' : optimalGraphSearch { p.reset s with tEnd := (p.reset s).tEnd + 0 } x
        { inverted := inverted, alpha := 1, l := none } = .ok P := h1
    have hle : (1 : Int) ≤ n - s := by omega
    simp only [findBoundInt, assertP, assertR, I.tEnd, I.d, le_refl, decide_true, if_true, bind, Except.bind,
      if_neg hnpos]
    rw [h1']
    simp only [hle, decide_true, if_true, idx, hl, List.getElem?_cons_zero]
  · intro ks k1 k2
    have := (h8 ks (by rw [hT, k1]) k2).1
    rw [h5] at this
    rw [← totalCost_shift g _ 1 s, ← totalCost_shift g _ 1 s]
    exact this


/-! ## Playing the algorithm -/

theorem play_snoc {P T M : Type} [Value T] (tEnd : P → Int) (A : OnlineAlgorithm P T M) (o : Online P) :
    ∀ (os : List (Online P)) (xs : Schedule T) (m : Option M),
    Spec.play tEnd A xs m (os ++ [o]) = (match Spec.play tEnd A xs m os with
      | .error e => .error e
      | .ok (xs', m') => match onlineNext tEnd A o xs' m' with
        | .error e => .error e
        | .ok (_, xs'', m'') => .ok (xs'', m'')) := by
  intro os
  induction os with
  | nil =>
    intro xs m
    simp only [List.nil_append, Spec.play]
    cases onlineNext tEnd A o xs m <;> rfl
  | cons o' os ih =>
    intro xs m
    simp only [List.cons_append, Spec.play]
    cases onlineNext tEnd A o' xs m with
    | error e => rfl
    | ok r => exact ih _ _

section
variable {P T : Type} [Value T]

/-- The run of lazy capacity provisioning, whatever finds the bounds, with an invariant of the memory. -/
theorem run_inv (bounded : P → Bounded T) (Q : List (BoundsMem T) → Prop) (q0 : Q []) (os : List (Online P))
    (hd : ∀ o ∈ os, (bounded o.p).d = 1)
    (ht : ∀ k (h : k < os.length), (bounded (os[k]).p).tEnd = (k : Int) + 1)
    (hfind : ∀ k (h : k < os.length), ∀ bs : List (BoundsMem T), bs.length = k → Q bs →
      ∃ lo up : T,
        (bounded (os[k]).p).find 1 false (os[k]).w ((k : Int) + 1) (findInitialTime bs).1 (findInitialTime bs).2 = .ok lo ∧
        (bounded (os[k]).p).find 1 true (os[k]).w ((k : Int) + 1) (findInitialTime bs).1 (findInitialTime bs).2 = .ok up ∧
        Q (bs ++ [⟨lo, up⟩])) :
    ∃ (js : List T) (bs : List (BoundsMem T)),
      Spec.play (fun p => (bounded p).tEnd) (lcpAlg bounded) [] none os
        = .ok (js.map (fun j => [j]), if os = [] then none else some bs) ∧
      js.length = os.length ∧ bs.length = os.length ∧ Q bs ∧
      ∀ i < os.length, toQ (js.getD i 0) = lazy 0 (Lf bs) (Uf bs) (i + 1) := by
  induction os using List.reverseRecOn with
  | nil => exact ⟨[], [], rfl, rfl, rfl, q0, by simp⟩
  | append_singleton os o ih =>
    simp only [List.length_append, List.length_singleton] at hfind ht
    obtain ⟨js, bs, h1, h2, h3, h4, h5⟩ := ih (fun o ho => hd o (by simp [ho]))
      (fun k hk => by
        have := ht k (by omega)
        rwa [List.getElem_append_left hk] at this)
      (fun k hk => by
        have := hfind k (by omega)
        rwa [List.getElem_append_left hk] at this)
    have hto := ht os.length (by omega)
    rw [List.getElem_append_right (by omega)] at hto
    simp only [Nat.sub_self, List.getElem_cons_zero] at hto
    obtain ⟨lo, up, f1, f2, F⟩ := hfind os.length (by omega) bs h3 h4
    rw [List.getElem_append_right (by omega)] at f1 f2
    simp only [Nat.sub_self, List.getElem_cons_zero] at f1 f2
    have hd' := hd o (by simp)
    have cL : ∀ i, 1 ≤ i → i ≤ os.length → Lf bs i = Lf (bs ++ [⟨lo, up⟩]) i := fun i a b =>
      (Lf_append _ _ a (by omega)).symm
    have cU : ∀ i, 1 ≤ i → i ≤ os.length → Uf bs i = Uf (bs ++ [⟨lo, up⟩]) i := fun i a b =>
      (Uf_append _ _ a (by omega)).symm
    have hi : toQ (js.getLastD 0) = lazy 0 (Lf bs) (Uf bs) os.length := by
      obtain rfl | ⟨js', j, rfl⟩ := List.eq_nil_or_concat' js
      · have : os.length = 0 := by simpa using h2.symm
        rw [this]; simp [lazy, toQ]
      · have hl : os.length = js'.length + 1 := by simpa using h2.symm
        have := h5 js'.length (by omega)
        rw [hl, ← this, List.getLastD_concat]
        congr 1; simp
    refine ⟨js ++ [project (js.getLastD 0) lo up], bs ++ [⟨lo, up⟩], ?_, by simp [h2], by simp [h3], F, ?_⟩
    · rw [play_snoc, h1]
      have hm : ((if os = [] then none else some bs : Option (List (BoundsMem T))).getD []) = bs := by
        split_ifs with h
        · subst h
          rw [List.length_eq_zero_iff.1 (by simpa using h3 : bs.length = 0)]; rfl
        · rfl
      have hnow : idx (Schedule.nowWithDefault (js.map fun j => [j]) [0]) 0 = .ok (js.getLastD 0) := by
        obtain rfl | ⟨js', j, rfl⟩ := List.eq_nil_or_concat' js
        · rfl
        · simp [Schedule.nowWithDefault, idx]
      have ht1 : Schedule.tEnd (js.map fun j => [j]) + 1 = (bounded o.p).tEnd := by
        rw [hto]; simp [Schedule.tEnd, h2]
      have ht2 : (bounded o.p).tEnd - 1 = bs.length := by rw [hto, h3]; omega
      have hcall : lcp (bounded o.p) o.w (bounded o.p).tEnd (js.map fun j => [j]) bs
          = .ok ([project (js.getLastD 0) lo up], some (bs ++ [⟨lo, up⟩])) := by
        simp only [lcp, assertR, hd', ht2, decide_true, if_true, bind, Except.bind, hnow]
        rw [hto, f1]
        simp only
        rw [f2]
      simp only [onlineNext, assertR, ht1, decide_true, if_true, bind, Except.bind, OnlineAlgorithm.next, lcpAlg,
        hm, hcall]
      simp [Schedule.extend]
    · intro i hi'
      rw [List.length_append, List.length_singleton] at hi'
      rcases Nat.lt_succ_iff_lt_or_eq.1 hi' with h | rfl
      · rw [← lazy_congr cL cU (i + 1) h, ← h5 i h]
        congr 1
        rw [List.getD_eq_getElem?_getD, List.getElem?_append_left (by omega), List.getD_eq_getElem?_getD]
      · rw [lazy, ← lazy_congr cL cU os.length le_rfl, ← hi, ← h3, Lf_last, Uf_last, ← toQ_project]
        congr 1
        simp [List.getD_eq_getElem?_getD, h2, h3]

/-- The run of lazy capacity provisioning, whatever finds the bounds. -/
theorem run_ok (bounded : P → Bounded T) {D : ℚ → Prop} {β : ℚ} {f : Int → ℚ → ECost} (hβ : 0 < β)
    {μ : ℚ} (hμ : D μ) (os : List (Online P))
    (hconv : ∀ k < os.length, ConvD D (f ((k : Int) + 1)))
    (hfin : ∀ k < os.length, f ((k : Int) + 1) μ ≠ ⊤)
    (hd : ∀ o ∈ os, (bounded o.p).d = 1)
    (ht : ∀ k (h : k < os.length), (bounded (os[k]).p).tEnd = (k : Int) + 1)
    (hfind : ∀ k (h : k < os.length), ∀ bs : List (BoundsMem T), bs.length = k →
      AllB D β 0 f (Lf bs) (Uf bs) k →
      ∃ lo up : T, ∃ s : Nat, ∃ x : ℚ,
        (bounded (os[k]).p).find 1 false (os[k]).w ((k : Int) + 1) (findInitialTime bs).1 (findInitialTime bs).2 = .ok lo ∧
        (bounded (os[k]).p).find 1 true (os[k]).w ((k : Int) + 1) (findInitialTime bs).1 (findInitialTime bs).2 = .ok up ∧
        Found D β 0 f (Lf (bs ++ [⟨lo, up⟩])) (Uf (bs ++ [⟨lo, up⟩])) k s x) :
    ∃ (js : List T) (bs : List (BoundsMem T)),
      Spec.play (fun p => (bounded p).tEnd) (lcpAlg bounded) [] none os
        = .ok (js.map (fun j => [j]), if os = [] then none else some bs) ∧
      js.length = os.length ∧ bs.length = os.length ∧ AllB D β 0 f (Lf bs) (Uf bs) os.length ∧
      ∀ i < os.length, toQ (js.getD i 0) = lazy 0 (Lf bs) (Uf bs) (i + 1) := by
  obtain ⟨js, bs, h1, h2, h3, h4, h5⟩ := run_inv bounded
    (fun bs => AllB D β 0 f (Lf bs) (Uf bs) bs.length) (fun t ht => absurd ht (by simp)) os hd ht (by
      rintro k hk bs rfl h4
      obtain ⟨lo, up, s, x, f1, f2, F⟩ := hfind _ hk bs rfl h4
      refine ⟨lo, up, f1, f2, ?_⟩
      have h4' := AllB_congr (fun i a b => (Lf_append bs [⟨lo, up⟩] a b).symm)
        (fun i a b => (Uf_append bs [⟨lo, up⟩] a b).symm) h4
      have Bn := F.bds hβ h4' (hconv _ hk) hμ (hfin _ hk)
      intro t ht
      rw [List.length_append, List.length_singleton] at ht
      rcases Nat.lt_succ_iff_lt_or_eq.1 ht with h | rfl
      · exact h4' t h
      · exact Bn)
  exact ⟨js, bs, h1, h2, h3, h3 ▸ h4, h5⟩

end

end Soco.Lcp
