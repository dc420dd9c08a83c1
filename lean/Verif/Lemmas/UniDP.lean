import Verif.Model.UniGraph
import Verif.Lemmas.MultiDP
import Verif.Lemmas.MultiGraph
import Verif.Lemmas.Low

/-! # Uni-dimensional graph search: the dynamic program over given rows -/

namespace Soco
namespace Uni
open Low

variable {C D : Type} [OutSuccess C] [OutFailure D]
variable {p : SSCO ℤ C D} {rows : Int → Res (List ℤ)} {alpha : ℚ} {inverted : Bool} {xStart : ℤ}
  {R : Int → List ℤ} {g : Int → ℤ → ECost} {mv : ℤ → ℤ → ℚ}

/-- A sequence that uses only the rows `R`. -/
def RowSeq (R : Int → List ℤ) (js : List ℤ) : Prop :=
  ∀ i, (h : i < js.length) → js[i] ∈ R ((i : Int) + 1)

theorem rowSeq_nil : RowSeq R [] := fun i h => by simp at h

theorem rowSeq_snoc {js : List ℤ} {j : ℤ} :
    RowSeq R (js ++ [j]) ↔ RowSeq R js ∧ j ∈ R ((js.length : Int) + 1) := by
  constructor
  · intro h
    refine ⟨fun i hi => ?_, ?_⟩
    · have := h i (by simp; omega)
      rwa [List.getElem_append_left hi] at this
    · have := h js.length (by simp)
      simpa using this
  · rintro ⟨h1, h2⟩ i hi
    rcases Nat.lt_or_ge i js.length with h | h
    · rw [List.getElem_append_left h]; exact h1 i h
    · have : i = js.length := by simp at hi; omega
      subst this
      simpa using h2

/-- What the code evaluates, as mathematical functions. -/
structure Evals (p : SSCO ℤ C D) (inverted : Bool) (R : Int → List ℤ) (g : Int → ℤ → ECost)
    (mv : ℤ → ℤ → ℚ) : Prop where
  hit : ∀ t : Int, 1 ≤ t → t ≤ p.tEnd → ∀ j ∈ R t, ∃ o, p.toProb.hitCost t [j] = .ok ⟨g t j, o⟩
  mov : ∀ i j, p.toProb.movement [i] [j] inverted = .ok (mv i j)

/-- No sequence to the same vertex that is as cheap is lower in some slot. -/
def Lowest (R : Int → List ℤ) (g : Int → ℤ → ECost) (mv : ℤ → ℤ → ℚ) (alpha : ℚ) (xStart : ℤ)
    (n : Nat) (j : ℤ) (js : List ℤ) : Prop :=
  Spec.totalCost g mv alpha 1 xStart js ≠ ⊤ → ∀ ks : List ℤ, ks.length = n → RowSeq R ks →
    ks.getLastD xStart = j → Spec.totalCost g mv alpha 1 xStart ks ≤ Spec.totalCost g mv alpha 1 xStart js →
    Below js ks

theorem rowSeq_meet {xs ys : List ℤ} (h : xs.length = ys.length) (hx : RowSeq R xs) (hy : RowSeq R ys) :
    RowSeq R (meet xs ys) := by
  intro i hi
  have h1 : i < xs.length := by rwa [meet_length h] at hi
  rw [meet_get hi h1 (h ▸ h1)]
  rcases min_choice xs[i] (ys[i]'(h ▸ h1)) with e | e <;> rw [e]
  · exact hx i h1
  · exact hy i _

theorem rowSeq_join {xs ys : List ℤ} (h : xs.length = ys.length) (hx : RowSeq R xs) (hy : RowSeq R ys) :
    RowSeq R (join xs ys) := by
  intro i hi
  have h1 : i < xs.length := by rwa [join_length h] at hi
  rw [join_get hi h1 (h ▸ h1)]
  rcases max_choice xs[i] (ys[i]'(h ▸ h1)) with e | e <;> rw [e]
  · exact hx i h1
  · exact hy i _

/-- Lowest sequences to lower vertices are lower than cheapest sequences to higher vertices. -/
theorem lowest_mono (hP : Par mv alpha) {n : Nat} {i j : ℤ} (hij : i ≤ j) {as bs : List ℤ} (a1 : as.length = n)
    (a2 : RowSeq R as) (a3 : as.getLastD xStart = i) (la : Lowest R g mv alpha xStart n i as)
    (fa : Spec.totalCost g mv alpha 1 xStart as ≠ ⊤) (b1 : bs.length = n) (b2 : RowSeq R bs)
    (b3 : bs.getLastD xStart = j) (fb : Spec.totalCost g mv alpha 1 xStart bs ≠ ⊤)
    (hb : ∀ ks : List ℤ, ks.length = n → RowSeq R ks → ks.getLastD xStart = j →
      Spec.totalCost g mv alpha 1 xStart bs ≤ Spec.totalCost g mv alpha 1 xStart ks) : Below as bs := by
  have h : as.length = bs.length := a1.trans b1.symm
  have h1 := totalCost_meet_join (g := g) hP h 1 xStart
  have h2 := hb (join as bs) ((join_length h).trans a1) (rowSeq_join h a2 b2) (by
    have := join_last (x := xStart) (y := xStart) h
    rw [max_self] at this
    rw [this, a3, b3, max_eq_right hij])
  have h3 : Spec.totalCost g mv alpha 1 xStart (meet as bs) ≤ Spec.totalCost g mv alpha 1 xStart as := by
    have := (add_le_add le_rfl h2).trans h1
    exact WithTop.le_of_add_le_add_right fb this
  have h4 := la fa (meet as bs) ((meet_length h).trans a1) (rowSeq_meet h a2 b2) (by
    have := meet_last (x := xStart) (y := xStart) h
    rw [min_self] at this
    rw [this, a3, b3, min_eq_left hij]) h3
  exact below_trans h4 (meet_below_right h)

/-- The entry of a vertex: an optimal path to it. -/
structure Entry (R : Int → List ℤ) (g : Int → ℤ → ECost) (mv : ℤ → ℤ → ℚ) (alpha : ℚ) (xStart : ℤ)
    (n : Nat) (j : ℤ) (P : Path) : Prop where
  sound : ∃ js : List ℤ, js.length = n ∧ RowSeq R js ∧ js.getLastD xStart = j ∧
    P.xs = js.map (fun j => [j]) ∧ P.cost = Spec.totalCost g mv alpha 1 xStart js ∧
    ((∀ t, (R t).Pairwise (· ≤ ·)) → Par mv alpha → Lowest R g mv alpha xStart n j js)
  complete : ∀ js : List ℤ, js.length = n → RowSeq R js → js.getLastD xStart = j →
    P.cost ≤ Spec.totalCost g mv alpha 1 xStart js

theorem buildCost_ok (ev : Evals p inverted R g mv) {t : Int} (h1 : 1 ≤ t) (h2 : t ≤ p.tEnd) {i j : ℤ}
    (hj : j ∈ R t) :
    buildCost p t i j alpha inverted = .ok (g t j + ((alpha * mv i j : ℚ) : ECost)) := by
  obtain ⟨o, ho⟩ := ev.hit t h1 h2 j hj
  simp only [buildCost, ho, ev.mov, bind, Except.bind]

theorem foldlM_pickSource {paths : Paths Vertex} {t : Int} {dst : ℤ} {C' : ℤ → ECost} :
    ∀ (src : List ℤ) (s0 : ℤ) (c0 : ECost),
    (∀ s ∈ src, ∃ P, paths (t - 1, s) = some P ∧ ∃ c, buildCost p t s dst alpha inverted = .ok c ∧
      C' s = P.cost + c) →
    ∃ s c, src.foldlM (pickSource p paths t dst alpha inverted) (s0, c0) = .ok (s, c) ∧
      ((s = s0 ∧ c = c0) ∨ (s ∈ src ∧ c = C' s ∧ c < c0)) ∧ c ≤ c0 ∧ (∀ s' ∈ src, c ≤ C' s') ∧
      (src.Pairwise (· ≤ ·) → c < c0 → ∀ s' ∈ src, C' s' = c → s ≤ s') := by
  intro src
  induction src with
  | nil => intro s0 c0 _; exact ⟨s0, c0, rfl, .inl ⟨rfl, rfl⟩, le_rfl, by simp, by simp⟩
  | cons a src ih =>
    intro s0 c0 h
    obtain ⟨P, hP, c, hc, hC⟩ := h a (by simp)
    have hstep : pickSource p paths t dst alpha inverted (s0, c0) a
        = .ok (if C' a < c0 then (a, C' a) else (s0, c0)) := by
      simp only [pickSource, Paths.at, hP, hc, bind, Except.bind, hC]
    by_cases hlt : C' a < c0
    · obtain ⟨s, c', h1, h2, h3, h4, h5⟩ := ih a (C' a) fun s hs => h s (by simp [hs])
      refine ⟨s, c', ?_, ?_, h3.trans hlt.le, ?_, ?_⟩
      · rw [Multi.foldlM_cons', hstep, if_pos hlt]; exact h1
      · rcases h2 with ⟨rfl, rfl⟩ | ⟨h5, h6, h7⟩
        · exact .inr ⟨by simp, rfl, hlt⟩
        · exact .inr ⟨by simp [h5], h6, h7.trans hlt⟩
      · intro s' hs'
        rcases List.mem_cons.1 hs' with rfl | hs'
        · exact h3
        · exact h4 s' hs'
      · intro hp _ s' hs' e
        obtain ⟨hp1, hp2⟩ := List.pairwise_cons.1 hp
        rcases h2 with ⟨rfl, rfl⟩ | ⟨_, _, h7⟩
        · rcases List.mem_cons.1 hs' with rfl | hs'
          · exact le_rfl
          · exact hp1 s' hs'
        · rcases List.mem_cons.1 hs' with rfl | hs'
          · exact absurd e.symm h7.ne
          · exact h5 hp2 h7 s' hs' e
    · obtain ⟨s, c', h1, h2, h3, h4, h5⟩ := ih s0 c0 fun s hs => h s (by simp [hs])
      refine ⟨s, c', ?_, ?_, h3, ?_, ?_⟩
      · rw [Multi.foldlM_cons', hstep, if_neg hlt]; exact h1
      · rcases h2 with h | ⟨h5, h6, h7⟩
        · exact .inl h
        · exact .inr ⟨by simp [h5], h6, h7⟩
      · intro s' hs'
        rcases List.mem_cons.1 hs' with rfl | hs'
        · exact h3.trans (le_of_not_gt hlt)
        · exact h4 s' hs'
      · intro hp hc' s' hs' e
        rcases List.mem_cons.1 hs' with rfl | hs'
        · exact absurd (e ▸ hc') hlt
        · exact h5 (List.pairwise_cons.1 hp).2 hc' s' hs' e

theorem findShortestSubpath_ok (ev : Evals p inverted R g mv) {n : Nat} (hn : (n : Int) + 1 ≤ p.tEnd)
    {src : List ℤ} (hsrc : src ≠ []) {paths : Paths Vertex}
    (hin : ∀ s ∈ src, ∃ P, paths ((n : Int), s) = some P ∧ Entry R g mv alpha xStart n s P)
    (hall : ∀ js : List ℤ, js.length = n → RowSeq R js → js.getLastD xStart ∈ src)
    (hsort : (∀ t, (R t).Pairwise (· ≤ ·)) → src.Pairwise (· ≤ ·))
    {dst : ℤ} (hdst : dst ∈ R ((n : Int) + 1)) :
    ∃ P, findShortestSubpath p ((n : Int) + 1) src alpha inverted paths dst
        = .ok (paths.insert ((n : Int) + 1, dst) P) ∧
      Entry R g mv alpha xStart (n + 1) dst P := by
  obtain ⟨first, rest, rfl⟩ : ∃ a l, src = a :: l := by
    rcases src with _ | ⟨a, l⟩
    · exact absurd rfl hsrc
    · exact ⟨a, l, rfl⟩
  classical
  let cost : ℤ → ECost := fun s => match paths ((n : Int), s) with
    | some P => P.cost + (g ((n : Int) + 1) dst + ((alpha * mv s dst : ℚ) : ECost))
    | none => ⊤
  have hcost : ∀ s P, paths ((n : Int), s) = some P →
      cost s = P.cost + (g ((n : Int) + 1) dst + ((alpha * mv s dst : ℚ) : ECost)) := by
    intro s P h; simp only [cost, h]
  have e1 : (n : Int) + 1 - 1 = n := by ring
  obtain ⟨s, c, h1, h2, _, h4, hfst⟩ := foldlM_pickSource (p := p) (paths := paths) (t := (n : Int) + 1)
    (dst := dst) (alpha := alpha) (inverted := inverted) (C' := cost) (first :: rest) first ⊤ (by
      intro s hs
      obtain ⟨P, hP, _⟩ := hin s hs
      exact ⟨P, by rw [e1]; exact hP, _, buildCost_ok ev (by omega) hn hdst, hcost s P hP⟩)
  have hs : s ∈ first :: rest ∧ c = cost s := by
    rcases h2 with ⟨rfl, rfl⟩ | h
    · exact ⟨by simp, le_antisymm (h4 s (by simp)) le_top⟩
    · exact ⟨h.1, h.2.1⟩
  obtain ⟨P, hP, hE⟩ := hin s hs.1
  refine ⟨⟨P.xs.extend [dst], c⟩, ?_, ?_, ?_⟩
  · have h1' := h1
    simp only [findShortestSubpath, idx, List.getElem?_cons_zero, bind, Except.bind] at h1' ⊢
    rw [h1']
    simp only [updatePaths, e1, Paths.at, hP, bind, Except.bind]
  · obtain ⟨js, j1, j2, j3, j4, j5, j6⟩ := hE.sound
    have ec : c = Spec.totalCost g mv alpha 1 xStart (js ++ [dst]) := by
      rw [totalCost_snoc, j1, j3, hs.2, hcost s P hP, j5, add_comm (1 : Int)]
    refine ⟨js ++ [dst], by simp [j1], rowSeq_snoc.2 ⟨j2, by rw [j1]; exact hdst⟩, by simp, ?_, ec, ?_⟩
    · simp [Schedule.extend, j4]
    · intro hR hP' hfin ks k1 k2 k3 k4
      obtain rfl | ⟨ls, k, rfl⟩ := List.eq_nil_or_concat' ks
      · simp at k1
      have hk : k = dst := by simpa using k3
      subst hk
      have hlen : ls.length = n := by simpa using k1
      obtain ⟨hr, _⟩ := rowSeq_snoc.1 k2
      have hmem := hall ls hlen hr
      obtain ⟨Q, hQ, hEQ⟩ := hin _ hmem
      obtain ⟨qs, q1, q2, q3, q4, q5, q6⟩ := hEQ.sound
      have hq := hEQ.complete ls hlen hr rfl
      rw [← ec] at hfin k4
      have e2 : Spec.totalCost g mv alpha 1 xStart (ls ++ [k]) = Spec.totalCost g mv alpha 1 xStart ls
          + (g ((n : Int) + 1) k + ((alpha * mv (ls.getLastD xStart) k : ℚ) : ECost)) := by
        rw [totalCost_snoc, hlen, add_comm (1 : Int)]
      have e3 : cost (ls.getLastD xStart) ≤ Spec.totalCost g mv alpha 1 xStart (ls ++ [k]) := by
        rw [hcost _ Q hQ, e2]
        exact add_le_add_left hq _
      have e4 : cost (ls.getLastD xStart) = c := le_antisymm (e3.trans k4) (h4 _ hmem)
      have hle : s ≤ ls.getLastD xStart := hfst (hsort hR) (lt_top_iff_ne_top.2 hfin) _ hmem e4
      have hQf : Q.cost ≠ ⊤ := by
        intro h
        rw [hcost _ Q hQ, h, top_add] at e4
        exact hfin e4.symm
      have hlf : Spec.totalCost g mv alpha 1 xStart ls ≤ Q.cost := by
        have : g ((n : Int) + 1) k + ((alpha * mv (ls.getLastD xStart) k : ℚ) : ECost) ≠ ⊤ := by
          intro h
          rw [hcost _ Q hQ, h, add_top] at e4
          exact hfin e4.symm
        rw [e2, ← e4, hcost _ Q hQ] at k4
        exact WithTop.le_of_add_le_add_right this k4
      have hjf : Spec.totalCost g mv alpha 1 xStart js ≠ ⊤ := by
        intro h
        have := hs.2
        rw [hcost s P hP, j5, h, top_add] at this
        exact hfin this
      have hbelow := lowest_mono hP' hle j1 j2 j3 (j6 hR hP') hjf q1 q2 q3 (q5 ▸ hQf)
        (fun ks a b c => q5 ▸ hEQ.complete ks a b c)
      have h2' := q6 hR hP' (q5 ▸ hQf) ls hlen hr rfl (q5 ▸ hlf)
      exact below_snoc (below_trans hbelow h2') le_rfl
  · intro js j1 j2 j3
    obtain ⟨ks, k, rfl⟩ : ∃ ks k, js = ks ++ [k] := by
      rcases List.eq_nil_or_concat' js with h | ⟨ks, k, h⟩
      · subst h; simp at j1
      · exact ⟨ks, k, h⟩
    have hk : k = dst := by simpa using j3
    subst hk
    have hlen : ks.length = n := by simpa using j1
    obtain ⟨hr, _⟩ := rowSeq_snoc.1 j2
    have hmem := hall ks hlen hr
    obtain ⟨Q, hQ, hEQ⟩ := hin _ hmem
    have := hEQ.complete ks hlen hr rfl
    simp only
    rw [totalCost_snoc, hlen, add_comm (1 : Int)]
    refine (h4 _ hmem).trans ?_
    rw [hcost _ Q hQ]
    exact add_le_add_left this _

/-- The rows before slot `n + 1`. -/
def before (R : Int → List ℤ) (xStart : ℤ) (n : Nat) : List ℤ := if n = 0 then [xStart] else R n

theorem last_mem_before {js : List ℤ} (h : RowSeq R js) :
    js.getLastD xStart ∈ before R xStart js.length := by
  rcases List.eq_nil_or_concat' js with h' | ⟨ks, k, h'⟩
  · subst h'; simp [before]
  · subst h'
    have := (rowSeq_snoc.1 h).2
    simp only [before, List.length_append, List.length_singleton, Nat.add_eq_zero_iff, one_ne_zero,
      and_false, if_false]
    push_cast
    simpa using this

theorem slot_ok (ev : Evals p inverted R g mv) (hrows : ∀ t : Int, 1 ≤ t → t ≤ p.tEnd → rows t = .ok (R t))
    {n : Nat} (hn : (n : Int) + 1 ≤ p.tEnd) (hne : before R xStart n ≠ []) {paths : Paths Vertex}
    (hin : ∀ s ∈ before R xStart n, ∃ P, paths ((n : Int), s) = some P ∧
      Entry R g mv alpha xStart n s P) :
    ∃ paths', slot p rows alpha inverted (paths, before R xStart n) ((n : Int) + 1)
        = .ok (paths', before R xStart (n + 1)) ∧
      ∀ s ∈ before R xStart (n + 1), ∃ P, paths' (((n + 1 : Nat) : Int), s) = some P ∧
        Entry R g mv alpha xStart (n + 1) s P := by
  have hb : before R xStart (n + 1) = R ((n : Int) + 1) := by simp [before]
  suffices h : ∀ (l : List ℤ), (∀ j ∈ l, j ∈ R ((n : Int) + 1)) → ∀ paths : Paths Vertex,
      (∀ s ∈ before R xStart n, ∃ P, paths ((n : Int), s) = some P ∧
        Entry R g mv alpha xStart n s P) →
      ∃ paths', l.foldlM (findShortestSubpath p ((n : Int) + 1) (before R xStart n) alpha inverted) paths
          = .ok paths' ∧
        (∀ s ∈ l, ∃ P, paths' ((n : Int) + 1, s) = some P ∧ Entry R g mv alpha xStart (n + 1) s P) ∧
        ∀ s, (∃ P, paths ((n : Int) + 1, s) = some P ∧ Entry R g mv alpha xStart (n + 1) s P) →
          ∃ P, paths' ((n : Int) + 1, s) = some P ∧ Entry R g mv alpha xStart (n + 1) s P by
    obtain ⟨paths', h1, h2, _⟩ := h (R ((n : Int) + 1)) (fun _ h => h) paths hin
    refine ⟨paths', ?_, ?_⟩
    · simp only [slot, hrows _ (by omega) hn, bind, Except.bind, h1, hb]
    · rw [hb]; push_cast; exact h2
  intro l
  induction l with
  | nil => intro _ paths _; exact ⟨paths, rfl, by simp, fun _ h => h⟩
  | cons j l ih =>
    intro hl paths hin
    obtain ⟨P, h1, h2⟩ := findShortestSubpath_ok (alpha := alpha) (xStart := xStart) ev hn hne hin
      (fun js h1 h2 => by have := last_mem_before (xStart := xStart) h2; rwa [h1] at this)
      (fun hR => by unfold before; split_ifs <;> simp [hR])
      (hl j (by simp))
    obtain ⟨paths', h3, h4, h5⟩ := ih (fun k hk => hl k (by simp [hk]))
      (paths.insert ((n : Int) + 1, j) P) (by
        intro s hs
        obtain ⟨Q, hQ, hE⟩ := hin s hs
        refine ⟨Q, ?_, hE⟩
        unfold Paths.insert
        rw [if_neg (by simp), hQ])
    have hj : ∃ P', paths.insert ((n : Int) + 1, j) P ((n : Int) + 1, j) = some P' ∧
        Entry R g mv alpha xStart (n + 1) j P' := ⟨P, by simp [Paths.insert], h2⟩
    refine ⟨paths', ?_, ?_, ?_⟩
    · rw [Multi.foldlM_cons', h1]; exact h3
    · intro s hs
      rcases List.mem_cons.1 hs with rfl | hs
      · exact h5 _ hj
      · exact h4 s hs
    · intro s ⟨Q, hQ, hE⟩
      apply h5
      by_cases hsj : s = j
      · subst hsj; exact hj
      · exact ⟨Q, by unfold Paths.insert; rw [if_neg (by simp [hsj]), hQ], hE⟩

theorem timeRange_succ' (n : Nat) : timeRange 1 ((n : Int) + 1) = timeRange 1 n ++ [(n : Int) + 1] := by
  have := timeRange_one (n + 1)
  rw [show ((n + 1 : Nat) : Int) = (n : Int) + 1 by push_cast; rfl] at this
  rw [this, timeRange_one, List.range_succ]
  simp [add_comm]

theorem slots_ok (ev : Evals p inverted R g mv) (hrows : ∀ t : Int, 1 ≤ t → t ≤ p.tEnd → rows t = .ok (R t))
    (hne : ∀ t : Int, 1 ≤ t → t ≤ p.tEnd → R t ≠ []) : ∀ n : Nat, (n : Int) ≤ p.tEnd →
    ∃ paths, (timeRange 1 (n : Int)).foldlM (slot p rows alpha inverted)
        ((Paths.empty (V := Vertex)).insert (0, xStart) ⟨[], 0⟩, [xStart])
        = .ok (paths, before R xStart n) ∧
      ∀ s ∈ before R xStart n, ∃ P, paths ((n : Int), s) = some P ∧ Entry R g mv alpha xStart n s P := by
  intro n
  induction n with
  | zero =>
    intro _
    refine ⟨_, rfl, ?_⟩
    intro s hs
    have : s = xStart := by simpa [before] using hs
    subst this
    refine ⟨⟨[], 0⟩, by simp [Paths.insert], ⟨[], rfl, rowSeq_nil, rfl, rfl, rfl, fun _ _ _ ks hk _ _ _ => by
      rw [List.length_eq_zero_iff.1 hk]; exact below_refl _⟩, ?_⟩
    intro js h _ _
    rw [List.length_eq_zero_iff.1 h]
    simp [Spec.totalCost]
  | succ n ih =>
    intro hn
    push_cast at hn
    obtain ⟨paths, h1, h2⟩ := ih (by omega)
    have hne' : before R xStart n ≠ [] := by
      unfold before
      split_ifs with h
      · simp
      · exact hne _ (by omega) (by omega)
    obtain ⟨paths', h3, h4⟩ := slot_ok ev hrows hn hne' h2
    refine ⟨paths', ?_, h4⟩
    push_cast
    rw [timeRange_succ', Multi.foldlM_append', h1]
    simp only [bind, Except.bind, List.foldlM_cons, List.foldlM_nil, h3, pure, Except.pure]

theorem foldlM_pickEnd {tEnd : Int} {paths : Paths Vertex} : ∀ (l : List ℤ) (P0 : Path),
    (∀ s ∈ l, ∃ P, paths (tEnd, s) = some P) →
    ∃ P, l.foldlM (pickEnd tEnd paths) P0 = .ok P ∧
      (P = P0 ∨ ∃ s ∈ l, paths (tEnd, s) = some P ∧ P.cost < P0.cost ∧ (l.Pairwise (· ≤ ·) →
        ∀ s' ∈ l, ∀ Q, paths (tEnd, s') = some Q → Q.cost = P.cost → s ≤ s')) ∧ P.cost ≤ P0.cost ∧
      ∀ s ∈ l, ∀ Q, paths (tEnd, s) = some Q → P.cost ≤ Q.cost := by
  intro l
  induction l with
  | nil => intro P0 _; exact ⟨P0, rfl, .inl rfl, le_rfl, by simp⟩
  | cons a l ih =>
    intro P0 h
    obtain ⟨Q, hQ⟩ := h a (by simp)
    have hstep : pickEnd tEnd paths P0 a = .ok (if Q.cost < P0.cost then Q else P0) := by
      simp only [pickEnd, Paths.at, hQ, bind, Except.bind]
    by_cases hlt : Q.cost < P0.cost
    · obtain ⟨P, h1, h2, h3, h4⟩ := ih Q fun s hs => h s (by simp [hs])
      refine ⟨P, by rw [Multi.foldlM_cons', hstep, if_pos hlt]; exact h1, .inr ?_, h3.trans hlt.le, ?_⟩
      · rcases h2 with rfl | ⟨s, hs, h5, h6, h7⟩
        · refine ⟨a, by simp, hQ, hlt, fun hp s' hs' _ _ _ => ?_⟩
          rcases List.mem_cons.1 hs' with rfl | hs'
          · exact le_rfl
          · exact (List.pairwise_cons.1 hp).1 s' hs'
        · refine ⟨s, by simp [hs], h5, h6.trans hlt, fun hp s' hs' Q' hQ' e => ?_⟩
          rcases List.mem_cons.1 hs' with rfl | hs'
          · rw [hQ] at hQ'; cases hQ'
            exact absurd e.symm h6.ne
          · exact h7 (List.pairwise_cons.1 hp).2 s' hs' Q' hQ' e
      · intro s hs Q' hQ'
        rcases List.mem_cons.1 hs with rfl | hs
        · rw [hQ] at hQ'; cases hQ'; exact h3
        · exact h4 s hs Q' hQ'
    · obtain ⟨P, h1, h2, h3, h4⟩ := ih P0 fun s hs => h s (by simp [hs])
      refine ⟨P, by rw [Multi.foldlM_cons', hstep, if_neg hlt]; exact h1, ?_, h3, ?_⟩
      · rcases h2 with rfl | ⟨s, hs, h5, h6, h7⟩
        · exact .inl rfl
        · refine .inr ⟨s, by simp [hs], h5, h6, fun hp s' hs' Q' hQ' e => ?_⟩
          rcases List.mem_cons.1 hs' with rfl | hs'
          · rw [hQ] at hQ'; cases hQ'
            exact absurd (e ▸ h6) hlt
          · exact h7 (List.pairwise_cons.1 hp).2 s' hs' Q' hQ' e
      · intro s hs Q' hQ'
        rcases List.mem_cons.1 hs with rfl | hs
        · rw [hQ] at hQ'; cases hQ'; exact h3.trans (le_of_not_gt hlt)
        · exact h4 s hs Q' hQ'

/-- `find_schedule` returns a cheapest schedule on the rows (if there is one of finite cost). -/
theorem findSchedule_ok (ev : Evals p inverted R g mv) (hT : 0 ≤ p.tEnd)
    (hrows : ∀ t : Int, 1 ≤ t → t ≤ p.tEnd → rows t = .ok (R t))
    (hne : ∀ t : Int, 1 ≤ t → t ≤ p.tEnd → R t ≠ []) :
    ∃ P, findSchedule p rows alpha inverted xStart = .ok P ∧
      ((P.cost = ⊤ ∧ P.xs = []) ∨ ∃ js : List ℤ, (js.length : Int) = p.tEnd ∧ RowSeq R js ∧
        P.xs = js.map (fun j => [j]) ∧ P.cost = Spec.totalCost g mv alpha 1 xStart js ∧ P.cost ≠ ⊤ ∧
        ((∀ t, (R t).Pairwise (· ≤ ·)) → Par mv alpha → ∀ ks : List ℤ, (ks.length : Int) = p.tEnd →
          RowSeq R ks → Spec.totalCost g mv alpha 1 xStart ks ≤ P.cost → Below js ks)) ∧
      ∀ js : List ℤ, (js.length : Int) = p.tEnd → RowSeq R js →
        P.cost ≤ Spec.totalCost g mv alpha 1 xStart js := by
  obtain ⟨n, hn⟩ : ∃ n : Nat, p.tEnd = n := ⟨p.tEnd.toNat, by omega⟩
  obtain ⟨paths, h1, h2⟩ := slots_ok (alpha := alpha) (xStart := xStart) ev hrows hne n (by omega)
  obtain ⟨P, h3, h4, _, h5⟩ := foldlM_pickEnd (tEnd := (n : Int)) (paths := paths)
    (before R xStart n) ⟨[], ⊤⟩ fun s hs => by obtain ⟨Q, hQ, _⟩ := h2 s hs; exact ⟨Q, hQ⟩
  refine ⟨P, ?_, ?_, ?_⟩
  · simp only [findSchedule, hn, h1, bind, Except.bind]
    exact h3
  · rcases h4 with rfl | ⟨s, hs, h6, h7, h8⟩
    · exact .inl ⟨rfl, rfl⟩
    · obtain ⟨Q, hQ, hE⟩ := h2 s hs
      rw [h6] at hQ; cases hQ
      obtain ⟨js, j1, j2, j3, j4, j5, j6⟩ := hE.sound
      refine .inr ⟨js, by omega, j2, j4, j5, ne_of_lt h7, fun hR hP ks k1 k2 k3 => ?_⟩
      have hl : ks.length = n := by omega
      have hmem := last_mem_before (xStart := xStart) k2
      rw [hl] at hmem
      obtain ⟨Q, hQ, hEQ⟩ := h2 _ hmem
      obtain ⟨qs, q1, q2, q3, q4, q5, q6⟩ := hEQ.sound
      have hq := hEQ.complete ks hl k2 rfl
      have e1 : Q.cost = P.cost := le_antisymm (hq.trans k3) (h5 _ hmem Q hQ)
      have hle := h8 (by unfold before; split_ifs <;> simp [hR]) _ hmem Q hQ e1
      have hPf : P.cost ≠ ⊤ := ne_of_lt h7
      have hQf : Q.cost ≠ ⊤ := e1 ▸ hPf
      have hb := lowest_mono hP hle j1 j2 j3 (j6 hR hP) (j5 ▸ hPf) q1 q2 q3 (q5 ▸ hQf)
        (fun ks a b c => q5 ▸ hEQ.complete ks a b c)
      exact below_trans hb (q6 hR hP (q5 ▸ hQf) ks hl k2 rfl (by rw [← q5, e1]; exact k3))
  · intro js j1 j2
    have hmem := last_mem_before (xStart := xStart) j2
    have hl : js.length = n := by omega
    rw [hl] at hmem
    obtain ⟨Q, hQ, hE⟩ := h2 _ hmem
    exact (h5 _ hmem Q hQ).trans (hE.complete js hl j2 rfl)

end Uni
end Soco
