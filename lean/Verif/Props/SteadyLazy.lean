import Verif.Props.LcpWindow
import Verif.Props.Expected

/-!
# C140: capacity provisioning under steady demand
-/

namespace Soco
open Lcp Work Uni Window Low

variable {C D : Type} [OutSuccess C] [OutFailure D]

/-- The cost of starting `x` servers and keeping them for `n` slots. -/
def Spec.keeping (g : ℤ → ECost) (β : ℚ) (n : Nat) (x : ℤ) : ECost := n • g x + ((β * x : ℚ) : ECost)

/-- `a` is the least of the numbers from `0` to `m` for which `F` is least. -/
structure Spec.LeastBest (m : ℤ) (F : ℤ → ECost) (a : ℤ) : Prop where
  lower : 0 ≤ a
  upper : a ≤ m
  best : ∀ x, 0 ≤ x → x ≤ m → F a ≤ F x
  least : ∀ x, 0 ≤ x → x ≤ m → F x ≤ F a → a ≤ x

namespace SteadyLazy

theorem mv_const (β : ℚ) (x : ℤ) : mv1 β false x x = 0 := by simp [mv1]

theorem cost_const {g : Int → ℤ → ECost} {β : ℚ} {x : ℤ} : ∀ (n : Nat) (t : Int),
    (∀ s : Int, t ≤ s → s < t + n → g s x = g 1 x) →
    Spec.totalCost g (mv1 β false) 1 t x (List.replicate n x) = n • g 1 x := by
  intro n
  induction n with
  | zero => intro t _; simp [Spec.totalCost]
  | succ n ih =>
    intro t h
    rw [List.replicate_succ, Spec.totalCost, ih (t + 1) (fun s a b => h s (by omega) (by push_cast at b ⊢; omega)), mv_const,
      h t le_rfl (by push_cast; omega)]
    simp [succ_nsmul']

theorem cost_keep {g : Int → ℤ → ECost} {β : ℚ} {x : ℤ} (hx : 0 ≤ x) {n : Nat} (hn : 1 ≤ n)
    (h : ∀ s : Int, 1 ≤ s → s ≤ n → g s x = g 1 x) :
    Spec.totalCost g (mv1 β false) 1 1 0 (List.replicate n x) = Spec.keeping (g 1) β n x := by
  obtain ⟨k, rfl⟩ : ∃ k, n = k + 1 := ⟨n - 1, by omega⟩
  rw [List.replicate_succ, Spec.totalCost, cost_const k (1 + 1) fun s a b => h s (by omega) (by push_cast at *; omega)]
  have : (1 * mv1 β false 0 x : ℚ) = β * x := by
    simp [mv1, max_eq_right hx]
  rw [this, Spec.keeping, succ_nsmul]
  abel

theorem move_ge {β : ℚ} (hβ : 0 ≤ β) : ∀ (js : List ℤ) (x c : ℤ), c ∈ js → β * ((c - x : ℤ) : ℚ) ≤ Spec.totalMove (mv1 β false) x js ∧
    0 ≤ Spec.totalMove (mv1 β false) x js := by
  have nn : ∀ (js : List ℤ) (x : ℤ), 0 ≤ Spec.totalMove (mv1 β false) x js := by
    intro js
    induction js with
    | nil => intro x; simp [Spec.totalMove]
    | cons j js ih =>
      intro x
      have : 0 ≤ mv1 β false x j := mul_nonneg hβ (by exact_mod_cast le_max_left _ _)
      exact add_nonneg this (ih j)
  intro js
  induction js with
  | nil => intro x c h; simp at h
  | cons j js ih =>
    intro x c h
    refine ⟨?_, nn _ _⟩
    have e : β * ((j - x : ℤ) : ℚ) ≤ mv1 β false x j := by
      refine mul_le_mul_of_nonneg_left ?_ hβ
      exact_mod_cast le_max_right (0 : ℤ) (j - x)
    rcases List.mem_cons.1 h with rfl | h
    · exact e.trans (le_add_of_nonneg_right (nn _ _))
    · have := (ih j c h).1
      simp only [Spec.totalMove]
      push_cast at *
      linarith

theorem hit_ge {g : Int → ℤ → ECost} {h : ECost} : ∀ (js : List ℤ) (t : Int) (d : ℤ), d ∈ js →
    (∀ s : Int, t ≤ s → s < t + js.length → ∀ j ∈ js, g s j = g 1 j) → (∀ j ∈ js, h ≤ g 1 j) →
    (js.length - 1) • h + g 1 d ≤ Spec.totalHit g t js := by
  have all : ∀ (js : List ℤ) (t : Int), (∀ s : Int, t ≤ s → s < t + js.length → ∀ j ∈ js, g s j = g 1 j) → (∀ j ∈ js, h ≤ g 1 j) →
      js.length • h ≤ Spec.totalHit g t js := by
    intro js
    induction js with
    | nil => intro t _ _; simp [Spec.totalHit]
    | cons j js ih =>
      intro t hs hh
      have e := ih (t + 1) (fun s a b i hi => hs s (by omega) (by simp only [List.length_cons]; push_cast at *; omega) i (List.mem_cons_of_mem _ hi))
        fun i hi => hh i (List.mem_cons_of_mem _ hi)
      rw [List.length_cons, succ_nsmul', Spec.totalHit, hs t le_rfl (by simp only [List.length_cons]; push_cast; omega) j (by simp)]
      exact add_le_add (hh j (by simp)) e
  intro js
  induction js with
  | nil => intro t d h; simp at h
  | cons j js ih =>
    intro t d hd hs hh
    have hs' : ∀ s : Int, t + 1 ≤ s → s < t + 1 + js.length → ∀ i ∈ js, g s i = g 1 i :=
      fun s a b i hi => hs s (by omega) (by simp only [List.length_cons]; push_cast at *; omega) i (List.mem_cons_of_mem _ hi)
    have hh' : ∀ i ∈ js, h ≤ g 1 i := fun i hi => hh i (List.mem_cons_of_mem _ hi)
    rw [Spec.totalHit, hs t le_rfl (by simp only [List.length_cons]; push_cast; omega) j (by simp), List.length_cons, Nat.add_sub_cancel]
    rcases List.mem_cons.1 hd with rfl | hd
    · rw [add_comm]
      exact add_le_add le_rfl (all js (t + 1) hs' hh')
    · have e := ih (t + 1) d hd hs' hh'
      obtain ⟨k, hk⟩ : ∃ k, js.length = k + 1 := ⟨js.length - 1, by have := List.length_pos_of_mem hd; omega⟩
      rw [hk, Nat.add_sub_cancel] at e
      rw [hk, succ_nsmul', add_assoc]
      exact add_le_add (hh j (by simp)) e

/-- The lowest cheapest plan is constant. -/
theorem low_const {g : Int → ℤ → ECost} {β : ℚ} {m : ℤ} {N : Nat} (hβ : 0 < β) (hN : 1 ≤ N)
    (hs : ∀ t : Int, 1 ≤ t → t ≤ N → ∀ j, 0 ≤ j → j ≤ m → g t j = g 1 j) {A : List ℤ} (hA : IsLow g β false m N 1 0 A) :
    ∃ a, A = List.replicate N a ∧ Spec.LeastBest m (Spec.keeping (g 1) β N) a := by
  have hne : A ≠ [] := by
    intro h
    have := hA.len
    rw [h] at this
    simp at this
    omega
  have hsA : ∀ s : Int, 1 ≤ s → s < 1 + A.length → ∀ j ∈ A, g s j = g 1 j := fun s a b j hj =>
    hs s a (by rw [hA.len] at b; omega) j (hA.box j hj).1 (hA.box j hj).2
  have keep : ∀ x, 0 ≤ x → x ≤ m → Spec.totalCost g (mv1 β false) 1 1 0 (List.replicate N x) = Spec.keeping (g 1) β N x :=
    fun x x0 x1 => cost_keep x0 hN fun s a b => hs s a b x x0 x1
  have boxc : ∀ x, 0 ≤ x → x ≤ m → ∀ k ∈ List.replicate N x, 0 ≤ k ∧ k ≤ m := fun x x0 x1 k hk => by
    rw [List.eq_of_mem_replicate hk]; exact ⟨x0, x1⟩
  -- the entry of least cost
  obtain ⟨c, hc, hmin⟩ : ∃ c ∈ A, ∀ j ∈ A, g 1 c ≤ g 1 j := by
    obtain ⟨c, hc⟩ : ∃ c, A.argmin (g 1) = some c := Option.ne_none_iff_exists'.1 fun h => hne (List.argmin_eq_none.1 h)
    exact ⟨c, List.argmin_mem hc, fun j hj => List.le_of_mem_argmin hj hc⟩
  have c0 := (hA.box c hc).1
  have c1 := (hA.box c hc).2
  have lower : ∀ d ∈ A, ∀ e ∈ A, (N - 1) • g 1 c + g 1 d + ((β * e : ℚ) : ECost) ≤ Spec.totalCost g (mv1 β false) 1 1 0 A := by
    intro d hd e he
    rw [totalCost_eq, ← hA.len]
    refine add_le_add (hit_ge A 1 d hd hsA hmin) ?_
    have := (move_ge hβ.le A 0 e he).1
    rw [one_mul]
    exact_mod_cast (by simpa using this : β * (e : ℚ) ≤ _)
  have fin : g 1 c ≠ ⊤ := by
    intro h
    have := lower c hc c hc
    rw [h, WithTop.add_top, WithTop.top_add, top_le_iff] at this
    exact hA.fin this
  obtain ⟨q, hq⟩ := WithTop.ne_top_iff_exists.1 fin
  have key : ∀ e, Spec.keeping (g 1) β N e = (N - 1) • g 1 e + g 1 e + ((β * e : ℚ) : ECost) := by
    intro e
    rw [Spec.keeping, ← succ_nsmul, Nat.sub_add_cancel hN]
  have lc : ∀ j ∈ A, j ≤ c := by
    have h := hA.low (List.replicate N c) (by simp) (boxc c c0 c1) (by
      rw [keep c c0 c1, key]
      exact lower c hc c hc)
    intro j hj
    obtain ⟨i, hi, rfl⟩ := List.getElem_of_mem hj
    have := below_getD h i
    rw [List.getD_eq_getElem?_getD, List.getD_eq_getElem?_getD, List.getElem?_eq_getElem hi, List.getElem?_replicate,
      if_pos (hA.len ▸ hi)] at this
    simpa using this
  have same : ∀ d ∈ A, g 1 d = g 1 c := by
    intro d hd
    refine le_antisymm ?_ (hmin d hd)
    have h1 := (lower d hd c hc).trans (hA.opt (List.replicate N c) (by simp) (boxc c c0 c1))
    rw [keep c c0 c1, key] at h1
    have hd' : g 1 d ≠ ⊤ := by
      intro h
      rw [h, WithTop.add_top, WithTop.top_add, top_le_iff, ← hq, ← WithTop.coe_nsmul, ← WithTop.coe_add, ← WithTop.coe_add] at h1
      exact WithTop.coe_ne_top h1
    obtain ⟨r, hr⟩ := WithTop.ne_top_iff_exists.1 hd'
    rw [← hq, ← hr, ← WithTop.coe_nsmul, ← WithTop.coe_add, ← WithTop.coe_add, ← WithTop.coe_add, ← WithTop.coe_add] at h1
    have h1 := WithTop.coe_le_coe.1 h1
    rw [← hq, ← hr]
    exact WithTop.coe_le_coe.2 (by linarith)
  have const : ∀ d ∈ A, ∀ j ∈ A, j ≤ d := by
    intro d hd
    have d0 := (hA.box d hd).1
    have d1 := (hA.box d hd).2
    have h := hA.low (List.replicate N d) (by simp) (boxc d d0 d1) (by
      rw [keep d d0 d1, key, same d hd]
      have := lower d hd d hd
      rwa [same d hd] at this)
    intro j hj
    obtain ⟨i, hi, rfl⟩ := List.getElem_of_mem hj
    have := below_getD h i
    rw [List.getD_eq_getElem?_getD, List.getD_eq_getElem?_getD, List.getElem?_eq_getElem hi, List.getElem?_replicate,
      if_pos (hA.len ▸ hi)] at this
    simpa using this
  have eA : A = List.replicate N c := by
    rw [List.eq_replicate_iff]
    exact ⟨hA.len, fun b hb => le_antisymm (lc b hb) (const b hb c hc)⟩
  refine ⟨c, eA, c0, c1, fun x x0 x1 => ?_, fun x x0 x1 h => ?_⟩
  · have := hA.opt (List.replicate N x) (by simp) (boxc x x0 x1)
    rwa [eA, keep c c0 c1, keep x x0 x1] at this
  · have := hA.low (List.replicate N x) (by simp) (boxc x x0 x1) (by rw [eA, keep c c0 c1, keep x x0 x1]; exact h)
    have := below_getD this 0
    rw [eA] at this
    simpa [List.getD_eq_getElem?_getD, List.getElem?_replicate, show 0 < N by omega] using this

theorem fin_of {g : ℤ → ECost} {β : ℚ} {m a : ℤ} {n : Nat} (hn : 1 ≤ n) (hm : 0 ≤ m) (hf : g m ≠ ⊤) (h : Spec.LeastBest m (Spec.keeping g β n) a) :
    g a ≠ ⊤ := by
  intro ht
  have := h.best m hm le_rfl
  obtain ⟨q, hq⟩ := WithTop.ne_top_iff_exists.1 hf
  rw [Spec.keeping, ht, Expect.nsmul_top' _ (by omega), WithTop.top_add, top_le_iff, Spec.keeping, ← hq, ← WithTop.coe_nsmul,
    ← WithTop.coe_add] at this
  exact WithTop.coe_ne_top this

/-- The longer servers are kept, the more are worth starting. -/
theorem mono {g : ℤ → ECost} {β : ℚ} (hβ : 0 < β) {m a b : ℤ} {n : Nat} (hn : 1 ≤ n) (hm : 0 ≤ m) (hf : g m ≠ ⊤)
    (ha : Spec.LeastBest m (Spec.keeping g β n) a) (hb : Spec.LeastBest m (Spec.keeping g β (n + 1)) b) : a ≤ b := by
  by_contra hlt
  push Not at hlt
  obtain ⟨u, hu⟩ := WithTop.ne_top_iff_exists.1 (fin_of hn hm hf ha)
  obtain ⟨v, hv⟩ := WithTop.ne_top_iff_exists.1 (fin_of (by omega) hm hf hb)
  have h1 : Spec.keeping g β n a < Spec.keeping g β n b := lt_of_not_ge fun h => absurd (ha.least b hb.lower hb.upper h) (by omega)
  have h2 := hb.best a ha.lower ha.upper
  simp only [Spec.keeping, ← hu, ← hv, ← WithTop.coe_nsmul, ← WithTop.coe_add] at h1 h2
  have h1 := WithTop.coe_lt_coe.1 h1
  have h2 := WithTop.coe_le_coe.1 h2
  simp only [nsmul_eq_mul] at h1 h2
  push_cast at h2
  have hab : (b : ℚ) < a := by exact_mod_cast hlt
  have h3 : v ≤ u := by linarith
  have h4 : (n : ℚ) * v ≤ n * u := mul_le_mul_of_nonneg_left h3 (by positivity)
  nlinarith

theorem run {m : ℤ} {β : ℚ} {g : Int → ℤ → ECost} (w : Nat) (ps : List (SSCO ℤ C D))
    (K : Spec.Costs m β g (ps.length + w)) (I : ∀ k (h : k < ps.length), Spec.Foresight ps[k] m β g (k + 1) w)
    (hs : ∀ t : Int, 1 ≤ t → t ≤ (ps.length + w : Nat) → ∀ j, 0 ≤ j → j ≤ m → g t j = g 1 j) :
    ∃ (js : List ℤ) (mem : Option (List (BoundsMem ℤ))),
      Spec.play SSCO.tEnd (lcpAlg boundedInt) [] none (ps.map fun p => ⟨p, w⟩) = .ok (js.map (fun j => [j]), mem) ∧
      js.length = ps.length ∧ ∀ i (h : i < js.length), Spec.LeastBest m (Spec.keeping (g 1) β (i + 1 + w)) js[i] := by
  obtain ⟨js, bs, h1, h2, h3, M, h5⟩ := run_window w ps K I
  refine ⟨js, _, h1, h2, ?_⟩
  have low : ∀ i (h : i < bs.length), Spec.LeastBest m (Spec.keeping (g 1) β (i + 1 + w)) bs[i].lower := by
    intro i hi
    obtain ⟨X, -, hX, -, eX, -⟩ := M i bs[i] (List.getElem?_eq_getElem hi)
    obtain ⟨a, ha, hb⟩ := low_const K.hβ (by omega)
      (fun t a b j j0 j1 => hs t a (by push_cast at *; omega) j j0 j1) hX
    rw [ha, List.getD_eq_getElem?_getD, List.getElem?_replicate, if_pos (by omega), Option.getD_some] at eX
    rwa [← eX]
  have eL : ∀ i (h : i < bs.length), Lf bs (i + 1) = (bs[i].lower : ℚ) := fun i h => by
    simp [Lf, h]; rfl
  have main : ∀ i (h : i < bs.length), lazy 0 (Lf bs) (Uf bs) (i + 1) = (bs[i].lower : ℚ) := by
    intro i
    induction i with
    | zero =>
      intro h
      have : (0 : ℚ) ≤ (bs[0].lower : ℚ) := by exact_mod_cast (low 0 h).lower
      rw [lazy, lazy, clampQ, eL 0 h]
      exact max_eq_left ((min_le_right _ _).trans this)
    | succ i ih =>
      intro h
      have hle : (bs[i].lower : ℚ) ≤ (bs[i + 1].lower : ℚ) := by
        have := mono K.hβ (by omega) K.hm.le (K.fin 1 le_rfl (by push_cast; omega)) (low i (by omega))
          (by have := low (i + 1) h; rwa [show i + 1 + 1 + w = i + 1 + w + 1 by omega] at this)
        exact_mod_cast this
      rw [lazy, ih (by omega), clampQ, eL (i + 1) h]
      exact max_eq_left ((min_le_right _ _).trans hle)
  intro i hi
  have e := h5 i (by omega)
  rw [main i (by omega), List.getD_eq_getElem?_getD, List.getElem?_eq_getElem hi, Option.getD_some] at e
  have : js[i] = bs[i].lower := by exact_mod_cast e
  rw [this]
  exact low i (by omega)

end SteadyLazy

open SteadyLazy

/-- **C140** (decisions). If all slots have the same costs, integral lazy capacity provisioning with a prediction window of `w` slots runs
in every slot the least number of servers which it would be cheapest to have kept from the beginning up to the end of the window. It
never powers down a server. -/
theorem C140_decisions {m : ℤ} {β : ℚ} {g : Int → ℤ → ECost} (w : Nat) (ps : List (SSCO ℤ C D))
    (K : Spec.Costs m β g (ps.length + w)) (I : ∀ k (h : k < ps.length), Spec.Foresight ps[k] m β g (k + 1) w)
    (hs : ∀ t : Int, 1 ≤ t → t ≤ (ps.length + w : Nat) → ∀ j, 0 ≤ j → j ≤ m → g t j = g 1 j) :
    ∃ (js : List ℤ) (mem : Option (List (BoundsMem ℤ))),
      Spec.play SSCO.tEnd (lcpAlg boundedInt) [] none (ps.map fun p => ⟨p, w⟩) = .ok (js.map (fun j => [j]), mem) ∧
      js.length = ps.length ∧ (∀ i (h : i < js.length), Spec.LeastBest m (Spec.keeping (g 1) β (i + 1 + w)) js[i]) ∧
      ∀ i (h : i + 1 < js.length), js[i] ≤ js[i + 1] := by
  obtain ⟨js, mem, h1, h2, h3⟩ := run w ps K I hs
  refine ⟨js, mem, h1, h2, h3, fun i h => ?_⟩
  exact mono K.hβ (by omega) K.hm.le (K.fin 1 le_rfl (by push_cast; omega)) (h3 i (by omega))
    (by have := h3 (i + 1) h; rwa [show i + 1 + 1 + w = i + 1 + w + 1 by omega] at this)

/-- **C140** (cost). If all slots have the same costs, integral lazy capacity provisioning costs at most twice as much as any schedule
over the slots played and the last window. -/
theorem C140_cost {m : ℤ} {β : ℚ} {g : Int → ℤ → ECost} (w : Nat) (ps : List (SSCO ℤ C D))
    (K : Spec.Costs m β g (ps.length + w)) (I : ∀ k (h : k < ps.length), Spec.Foresight ps[k] m β g (k + 1) w)
    (hs : ∀ t : Int, 1 ≤ t → t ≤ (ps.length + w : Nat) → ∀ j, 0 ≤ j → j ≤ m → g t j = g 1 j)
    (q : SSCO ℤ C D) (Q : Spec.Inst q m β g (ps.length + w)) :
    ∃ xs mem, Spec.play SSCO.tEnd (lcpAlg boundedInt) [] none (ps.map fun p => ⟨p, w⟩) = .ok (xs, mem) ∧
      ∀ p, ps.getLast? = some p → ∃ c, p.toProb.objective xs = .ok c ∧
        ∀ ys : Schedule ℤ, ys.length = ps.length + w → (∀ y ∈ ys, Spec.InBox [m] y) →
          ∃ c', q.toProb.objective ys = .ok c' ∧ c.cost ≤ c'.cost + c'.cost := by
  obtain ⟨js, mem, h1, h2, h3⟩ := run w ps K I hs
  obtain ⟨js', bs', k1, k2, k3, M, k5⟩ := run_window w ps K I
  refine ⟨_, mem, h1, fun p hp => ?_⟩
  have hpos : 0 < ps.length := by
    rcases ps with _ | ⟨a, ps⟩
    · simp at hp
    · simp
  have hlast : Spec.Inst p m β g ps.length := by
    rw [List.getLast?_eq_getElem?] at hp
    have hk : ps.length - 1 < ps.length := by omega
    rw [List.getElem?_eq_getElem hk] at hp
    have := I (ps.length - 1) hk
    rw [Option.some.inj hp, Nat.sub_add_cancel hpos] at this
    exact toInst this
  have hj : ∀ j ∈ js, 0 ≤ j ∧ j ≤ m := by
    intro j hj
    obtain ⟨i, hi, rfl⟩ := List.getElem_of_mem hj
    exact ⟨(h3 i hi).lower, (h3 i hi).upper⟩
  obtain ⟨out, ho⟩ := objective_last hlast js h2 hj
  refine ⟨_, ho, fun ys y1 y2 => ?_⟩
  obtain ⟨ks, rfl, hk⟩ := exists_seq ys y2
  obtain ⟨out', ho'⟩ := objective_last Q ks (by simpa using y1) hk
  refine ⟨_, ho', ?_⟩
  obtain ⟨X, -, hX, -⟩ := M (ps.length - 1) bs'[ps.length - 1] (List.getElem?_eq_getElem (by omega))
  rw [Nat.sub_add_cancel hpos] at hX
  have hnn : ∀ j, 0 ≤ j → j ≤ m → 0 ≤ g 1 j := fun j j0 j1 => K.nonneg 1 le_rfl (by push_cast; omega) j j0 j1
  have hβ0 : ∀ j : ℤ, 0 ≤ j → (0 : ℚ) ≤ β * j := fun j j0 => mul_nonneg K.hβ.le (by exact_mod_cast j0)
  have step : ∀ i (h : i < js.length), Spec.totalCost g (mv1 β false) 1 1 0 (js.take (i + 1)) ≤
      Spec.keeping (g 1) β (i + 1 + w) js[i] + ((β * js[i] : ℚ) : ECost) := by
    intro i
    induction i with
    | zero =>
      intro h
      have e : js.take 1 = [js[0]] := by
        rw [List.take_succ_eq_append_getElem h]; simp
      have b := h3 0 h
      rw [e, show 0 + 1 + w = w + 1 by omega]
      simp only [Spec.totalCost, Spec.keeping, add_zero, succ_nsmul']
      have e2 : (1 : ℚ) * mv1 β false 0 js[0] = β * js[0] := by simp [mv1, max_eq_right b.lower]
      rw [e2]
      refine add_le_add ?_ le_rfl
      rw [add_assoc]
      refine le_add_of_nonneg_right (add_nonneg (nsmul_nonneg (hnn _ b.lower b.upper) _) ?_)
      exact_mod_cast hβ0 _ b.lower
    | succ i ih =>
      intro h
      have b := h3 i (by omega)
      have b' := h3 (i + 1) h
      have le : js[i] ≤ js[i + 1] := mono K.hβ (by omega) K.hm.le (K.fin 1 le_rfl (by push_cast; omega)) b
        (by rwa [show i + 1 + 1 + w = i + 1 + w + 1 by omega] at b')
      have e : js.take (i + 1 + 1) = js.take (i + 1) ++ [js[i + 1]] := List.take_succ_eq_append_getElem h
      have l : (js.take (i + 1)).length = i + 1 := by simp; omega
      have e3 : (js.take (i + 1)).getLastD 0 = js[i] := by
        rw [List.take_succ_eq_append_getElem (by omega), List.getLastD_concat]
      rw [e, cost_append, l, e3]
      simp only [Spec.totalCost, add_zero]
      rw [hs (1 + (i + 1 : Nat)) (by push_cast; omega) (by push_cast; omega) _ b'.lower b'.upper]
      have e4 : (1 : ℚ) * mv1 β false js[i] js[i + 1] = β * js[i + 1] - β * js[i] := by
        have : max 0 (js[i + 1] - js[i]) = js[i + 1] - js[i] := max_eq_right (by omega)
        simp only [mv1, this, Bool.false_eq_true, if_false]
        push_cast
        ring
      have e5 := b.best _ b'.lower b'.upper
      refine (add_le_add ((ih (by omega)).trans (add_le_add e5 le_rfl)) le_rfl).trans (le_of_eq ?_)
      have e6 : Spec.keeping (g 1) β (i + 1 + 1 + w) js[i + 1] = Spec.keeping (g 1) β (i + 1 + w) js[i + 1] + g 1 js[i + 1] := by
        rw [show i + 1 + 1 + w = i + 1 + w + 1 by omega, Spec.keeping, Spec.keeping, succ_nsmul]
        abel
      have e7 : ((β * js[i + 1] : ℚ) : ECost) = ((β * js[i] : ℚ) : ECost) + ((β * js[i + 1] - β * js[i] : ℚ) : ECost) := by
        rw [← WithTop.coe_add]
        congr 1
        ring
      rw [e4, e6, e7]
      abel
  have b := h3 (ps.length - 1) (by omega)
  have fin := step (ps.length - 1) (by omega)
  rw [Nat.sub_add_cancel hpos, List.take_of_length_le (by omega)] at fin
  rw [Nat.sub_add_cancel hpos] at b
  have o1 : Spec.keeping (g 1) β (ps.length + w) js[ps.length - 1] ≤ Spec.totalCost g (mv1 β false) 1 1 0 ks := by
    refine le_trans ?_ (hX.opt ks (by simpa using y1) hk)
    obtain ⟨a, ha, hb⟩ := low_const K.hβ (by omega) (fun t a b j j0 j1 => hs t a b j j0 j1) hX
    rw [ha, cost_keep hb.lower (by omega) fun s a b => hs s a b _ hb.lower hb.upper]
    exact b.best a hb.lower hb.upper
  refine fin.trans (add_le_add o1 (le_trans ?_ o1))
  exact le_add_of_nonneg_left (nsmul_nonneg (hnn _ b.lower b.upper) _)

/-! ## Examples -/

/-- The first `k` slots of steady demand for three servers. -/
def Ex.flatAt (k : Nat) : SSCO ℤ Unit Unit where
  d := 1
  tEnd := k
  bounds := [5]
  switchingCost := [2]
  hittingCost := CostFn.new 1 (SingleCostFn.certain fun _ x => .ok (Cost.raw (((|x.getD 0 0 - 3| : ℤ) : ℚ) : ECost)))

theorem Ex.flatAt_knows (k w : Nat) : Spec.Foresight (Ex.flatAt k) 5 2 (fun _ j => (((|j - 3| : ℤ) : ℚ) : ECost)) k w where
  d := rfl
  bounds := rfl
  switching := rfl
  tEnd := rfl
  hit t h1 _ j h0 hj := ⟨_, ((C06_guarded_evaluation _ t (Ex.flatAt k).bounds [j] rfl).1 (.cons ⟨h0, hj⟩ .nil)).1.trans
    (CostFn.callMean_certain _ t h1 _)⟩
  certain t h1 _ x r hr := by
    rw [Ex.flatAt, CostFn.callPredictive_certain _ _ h1] at hr
    simp only [Except.map, Except.ok.injEq] at hr
    rw [← hr]; rfl

theorem Ex.flatAt_costs (n : Nat) : Spec.Costs 5 2 (fun _ j => (((|j - 3| : ℤ) : ℚ) : ECost)) n :=
  ⟨by norm_num, by norm_num, fun _ _ _ => WithTop.coe_ne_top, fun t _ _ => (Ex.abs_costs 3).nonneg 3 (by norm_num) (by norm_num),
    fun t _ _ => (Ex.abs_costs 3).conv 3 (by norm_num) (by norm_num)⟩

/-- Non-vacuity of C140, for any number of slots and any window. -/
example (n w : Nat) := C140_decisions w ((List.range n).map fun k => Ex.flatAt (k + 1)) (Ex.flatAt_costs _) (fun k hk => by
    simp only [List.getElem_map, List.getElem_range]
    exact Ex.flatAt_knows (k + 1) w) (fun _ _ _ _ _ _ => rfl)

example (n w : Nat) := C140_cost w ((List.range n).map fun k => Ex.flatAt (k + 1)) (Ex.flatAt_costs _) (fun k hk => by
    simp only [List.getElem_map, List.getElem_range]
    exact Ex.flatAt_knows (k + 1) w) (fun _ _ _ _ _ _ => rfl) (Ex.flatAt (n + w))
  (by simpa using toInst (Ex.flatAt_knows (n + w) w))

/-- Three servers are started in the third slot, when keeping them since the first slot would have been worth it. -/
example : (Spec.play SSCO.tEnd (lcpAlg boundedInt) [] none ((List.range 4).map fun k => ⟨Ex.flatAt (k + 1), 0⟩)).toOption.map (·.1)
    = some [[0], [0], [3], [3]] := by decide +kernel

/-! ## The factor two is attained -/

/-- The first `k` slots of steady demand for one server which costs `n` to start; without it every slot costs 1. -/
def Ex.skiAt (n k : Nat) : SSCO ℤ Unit Unit where
  d := 1
  tEnd := k
  bounds := [1]
  switchingCost := [n]
  hittingCost := CostFn.new 1 (SingleCostFn.certain fun _ x => .ok (Cost.raw (((1 - x.getD 0 0 : ℤ) : ℚ) : ECost)))

/-- Its hitting costs. -/
def Ex.skiHit : Int → ℤ → ECost := fun _ j => (((1 - j : ℤ) : ℚ) : ECost)

theorem Ex.skiAt_knows (n k w : Nat) : Spec.Foresight (Ex.skiAt n k) 1 n Ex.skiHit k w where
  d := rfl
  bounds := rfl
  switching := rfl
  tEnd := rfl
  hit t h1 _ j h0 hj := ⟨_, ((C06_guarded_evaluation _ t (Ex.skiAt n k).bounds [j] rfl).1 (.cons ⟨h0, hj⟩ .nil)).1.trans
    (CostFn.callMean_certain _ t h1 _)⟩
  certain t h1 _ x r hr := by
    rw [Ex.skiAt, CostFn.callPredictive_certain _ _ h1] at hr
    simp only [Except.map, Except.ok.injEq] at hr
    rw [← hr]; rfl

theorem Ex.skiAt_costs (n k : Nat) (hn : 1 ≤ n) : Spec.Costs 1 n Ex.skiHit k where
  hm := by norm_num
  hβ := by exact_mod_cast hn
  fin _ _ _ := WithTop.coe_ne_top
  nonneg t _ _ j _ hj := by
    have : (0 : ℚ) ≤ ((1 - j : ℤ) : ℚ) := by exact_mod_cast (by omega : (0 : ℤ) ≤ 1 - j)
    exact WithTop.coe_le_coe.2 this
  conv t _ _ := by
    intro x y z
    omega

/-- **C140** (tight). For every `n ≥ 1` there is steady demand for which lazy capacity provisioning pays exactly twice the optimum `n`. -/
theorem C140_tight (n : Nat) (hn : 1 ≤ n) : ∃ xs mem c c',
    Spec.play SSCO.tEnd (lcpAlg boundedInt) [] none ((List.range (n + 1)).map fun k => ⟨Ex.skiAt n (k + 1), 0⟩) = .ok (xs, mem) ∧
      (Ex.skiAt n (n + 1)).toProb.objective xs = .ok c ∧ c.cost = ((2 * n : ℚ) : ECost) ∧
      (Ex.skiAt n (n + 1)).toProb.objective (List.replicate (n + 1) [1]) = .ok c' ∧ c'.cost = ((n : ℚ) : ECost) := by
  obtain ⟨js, mem, h1, h2, h3, -⟩ := C140_decisions 0 ((List.range (n + 1)).map fun k => Ex.skiAt n (k + 1))
    (Ex.skiAt_costs n _ hn) (fun k hk => by
      simp only [List.getElem_map, List.getElem_range]
      exact Ex.skiAt_knows n (k + 1) 0) (fun _ _ _ _ _ _ => rfl)
  have h2 : js.length = n + 1 := by simpa using h2
  have early : ∀ i (h : i < js.length), i < n → js[i] = 0 := by
    intro i h hi
    have b := h3 i h
    have := b.lower
    have h4 := b.least 0 le_rfl (by norm_num)
    by_contra hne
    have e : js[i] = 1 := by have := b.upper; omega
    rw [e] at h4
    refine absurd (h4 ?_) (by norm_num)
    simp only [Spec.keeping, Ex.skiHit, ← WithTop.coe_nsmul, ← WithTop.coe_add]
    refine WithTop.coe_le_coe.2 ?_
    simp only [nsmul_eq_mul]
    have : ((i : ℚ) + 1) ≤ n := by exact_mod_cast hi
    push_cast
    linarith
  have late : ∀ h : n < js.length, js[n] = 1 := by
    intro h
    have b := h3 n h
    by_contra hne
    have e : js[n] = 0 := by have := b.upper; have := b.lower; omega
    have h4 := b.best 1 (by norm_num) le_rfl
    rw [e] at h4
    simp only [Spec.keeping, Ex.skiHit, ← WithTop.coe_nsmul, ← WithTop.coe_add] at h4
    have h4 := WithTop.coe_le_coe.1 h4
    simp only [nsmul_eq_mul] at h4
    push_cast at h4
    linarith
  have ejs : js = List.replicate n 0 ++ [1] := by
    apply List.ext_getElem (by simp [h2])
    intro i hi hi'
    rcases Nat.lt_or_ge i n with h | h
    · rw [early i hi h, List.getElem_append_left (by simpa using h)]
      simp
    · obtain rfl : i = n := by omega
      rw [late hi, List.getElem_append_right (by simp)]
      simp
  have Q : Spec.Inst (Ex.skiAt n (n + 1)) 1 n Ex.skiHit (n + 1) := toInst (Ex.skiAt_knows n (n + 1) 0)
  obtain ⟨o1, e1⟩ := objective_last Q js h2 (by
    rw [ejs]
    intro j hj
    rcases List.mem_append.1 hj with hj | hj
    · rw [List.eq_of_mem_replicate hj]; norm_num
    · rw [List.mem_singleton.1 hj]; norm_num)
  obtain ⟨o2, e2⟩ := objective_last Q (List.replicate (n + 1) 1) (by simp) (by
    intro j hj
    rw [List.eq_of_mem_replicate hj]; norm_num)
  rw [List.map_replicate] at e2
  refine ⟨_, mem, _, _, by simpa [List.map_map, Function.comp_def] using h1, e1, ?_, e2, ?_⟩
  · simp only
    rw [ejs, cost_append]
    have z : Spec.totalCost Ex.skiHit (mv1 n false) 1 1 0 (List.replicate n 0) = n • Ex.skiHit 1 0 := cost_const n 1 fun _ _ _ => rfl
    have l : (List.replicate n (0 : ℤ)).getLastD 0 = 0 := by
      rw [List.getLastD_eq_getLast?, List.getLast?_replicate]
      split_ifs <;> rfl
    rw [z, l]
    simp only [Spec.totalCost, Ex.skiHit, mv1, ← WithTop.coe_nsmul, add_zero, ← WithTop.coe_add]
    congr 1
    simp only [nsmul_eq_mul]
    norm_num
    ring
  · simp only
    rw [cost_keep (by norm_num) (by omega) fun _ _ _ => rfl, Spec.keeping]
    simp [Ex.skiHit]

end Soco
