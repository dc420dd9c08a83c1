import Verif.Lemmas.RoundedWhole
import Verif.Props.RoundedApprox

/-! # Rounding of multiples of a unit in the multi-dimensional search -/

namespace Soco
open Multi Spec

namespace Multi.Rounded

variable {C D : Type} [OutSuccess C] [OutFailure D] {fl : ℚ → ℚ} {e : ℚ} {N : Nat}

/-- The costs of a problem are multiples of a unit: hitting costs of at most `h` units, and steps of at most `K` units, where neighbouring
values differ by at most `G`. -/
structure Units (p : SSCO ℤ C D) (v : Values) (a : Nat) (e : ℚ) (h K : Nat) : Prop where
  grid : Grid p v
  dpos : 0 < v.boundIndices.length
  switching : ∃ G : Nat, 1 ≤ G ∧ (∀ b ∈ v.boundIndices, ∀ i, i + 1 ≤ b → v.val (i + 1) - v.val i ≤ G) ∧
    ∀ c ∈ p.switchingCost, ∃ n : Nat, c = n * e ∧ a * n * G ≤ K
  hit : ∀ t : Int, 1 ≤ t → t ≤ p.tEnd → ∀ i, Ok v.boundIndices i → ∀ c, p.toProb.hitCost t (v.cfg i) = .ok c → Multiple e h c.cost

variable {p : SSCO ℤ C D} {v : Values} {a h K : Nat} {inverted up : Bool}

theorem step_near {up : Bool} {i b j : Nat} (h : step up i b = some j) : j = i + 1 ∨ i = j + 1 := by
  cases up <;> simp only [step] at h <;> split_ifs at h <;> simp at h <;> omega

theorem step_le {up : Bool} {i b j : Nat} (hi : i ≤ b) (h : step up i b = some j) : j ≤ b := by
  cases up <;> simp only [step] at h <;> split_ifs at h <;> simp at h <;> omega

theorem getD_mem {l : List Nat} {k : Nat} (hk : k < l.length) : l.getD k 0 ∈ l := by
  simp only [List.getD, List.getElem?_eq_getElem hk, Option.getD_some]
  exact List.getElem_mem hk

theorem stepCost_whole (E : ExactTo fl e N) (U : Units p v a e h K) (hN : K ≤ N) {i : List Nat} (hi : Ok v.boundIndices i)
    {l j : Nat} (hl : l < v.boundIndices.length) (hs : step (!up) (i.getD l 0) (v.boundIndices.getD l 0) = some j) :
    stepCost fl p v a inverted up l (i.getD l 0) j = Multi.stepCost p v a inverted up l (i.getD l 0) j ∧
      Multiple e K (Multi.stepCost p v a inverted up l (i.getD l 0) j) := by
  unfold stepCost Multi.stepCost
  split
  · obtain ⟨G, hG, hgap, hsw⟩ := U.switching
    have hmem : p.switchingCost.getD l 0 ∈ p.switchingCost := by
      have : l < p.switchingCost.length := by rw [U.grid.sc, ← U.grid.bi]; exact hl
      simp only [List.getD, List.getElem?_eq_getElem this, Option.getD_some]
      exact List.getElem_mem this
    obtain ⟨n, hn, hK⟩ := hsw _ hmem
    have hbm := getD_mem hl
    have hb := U.grid.blt _ hbm
    have hj := step_le (hi.2 l) hs
    have hil := hi.2 l
    have hmv : 0 ≤ scalarMovement (v.val (i.getD l 0)) (v.val j) inverted ∧
        scalarMovement (v.val (i.getD l 0)) (v.val j) inverted ≤ (G : ℤ) := by
      have hd : |v.val (i.getD l 0) - v.val j| ≤ (G : ℤ) := by
        rcases step_near hs with e1 | e1
        · have := hgap _ hbm (i.getD l 0) (by omega)
          have := U.grid.val_lt (i := i.getD l 0) (j := j) (by omega) (by omega)
          rw [e1] at *
          rw [abs_le]; constructor <;> omega
        · have := hgap _ hbm j (by omega)
          have := U.grid.val_lt (i := j) (j := i.getD l 0) (by omega) (by omega)
          rw [e1] at *
          rw [abs_le]; constructor <;> omega
      rw [abs_le] at hd
      unfold scalarMovement pos umax
      split_ifs <;> omega
    obtain ⟨w, hw⟩ := Int.eq_ofNat_of_zero_le hmv.1
    rw [hw] at hmv ⊢
    have hw' : w ≤ G := by omega
    have h1 : a * n * w ≤ K := (Nat.mul_le_mul_left _ hw').trans hK
    have h2 : a * n ≤ K := (Nat.le_mul_of_pos_right _ hG).trans hK
    have e1 : fl ((a : ℚ) * p.switchingCost.getD l 0) = (a : ℚ) * p.switchingCost.getD l 0 := by
      have := E.exact (a * n) (by omega)
      rw [hn]
      push_cast at this
      rw [mul_assoc] at this
      exact this
    have e2 : (a : ℚ) * p.switchingCost.getD l 0 * ((w : ℤ) : ℚ) = ((a * n * w : ℕ) : ℚ) * e := by
      rw [hn]; push_cast; ring
    refine ⟨?_, Or.inr ⟨a * n * w, h1, ?_⟩⟩
    · rw [e1]
      rw [e2, E.exact _ (by omega)]
    · rw [e2]
  · exact ⟨rfl, Multiple.zero _⟩

theorem predEdge_exact (g : Grid p v) (alpha : ℚ) {i : List Nat} (hi : Ok v.boundIndices i) {l : Nat}
    (hl : l < v.boundIndices.length) :
    Multi.predEdge p alpha inverted up (v.conf i) v l
      = .ok ((step (!up) (i.getD l 0) (v.boundIndices.getD l 0)).map fun j =>
        { src := { config := v.conf (i.set l j), up := up }
          cost := Multi.stepCost p v alpha inverted up l (i.getD l 0) j }) := by
  have hil : l < i.length := by rw [hi.1]; exact hl
  simp only [Multi.predEdge, buildConfig_eq g (!up) hi hl, bind, Except.bind]
  cases hs : step (!up) (i.getD l 0) (v.boundIndices.getD l 0) with
  | none => rfl
  | some j =>
    have hec : Multi.edgeCost p alpha inverted up (v.conf i) (v.conf (i.set l j)) l
        = .ok (Multi.stepCost p v alpha inverted up l (i.getD l 0) j) := by
      unfold Multi.edgeCost Multi.stepCost
      split
      · have e1 : idx p.switchingCost l = .ok (p.switchingCost.getD l 0) :=
          idx_getD _ _ (by rw [g.sc, ← g.bi]; exact hl) 0
        have e2 : idx (v.conf i).config l = .ok (v.val (i.getD l 0)) := by
          rw [← cfg_getD v hil]
          exact idx_getD _ _ (by simpa [Values.conf, Values.cfg] using hil) 0
        have e3 : idx (v.conf (i.set l j)).config l = .ok (v.val j) := by
          have : v.val j = (v.cfg (i.set l j)).getD l 0 := by
            rw [cfg_getD v (by simpa using hil), getD_set_self hil]
          rw [this]
          exact idx_getD _ _ (by simpa [Values.conf, Values.cfg] using hil) 0
        simp only [e1, e2, e3, bind, Except.bind]
      · rfl
    simp only [Option.map_some, hec]

theorem predEdge_rounded (g : Grid p v) (alpha : ℚ) {i : List Nat} (hi : Ok v.boundIndices i) {l : Nat}
    (hl : l < v.boundIndices.length) :
    predEdge fl p alpha inverted up (v.conf i) v l
      = .ok ((step (!up) (i.getD l 0) (v.boundIndices.getD l 0)).map fun j =>
        { src := { config := v.conf (i.set l j), up := up }
          cost := stepCost fl p v alpha inverted up l (i.getD l 0) j }) := by
  have hil : l < i.length := by rw [hi.1]; exact hl
  simp only [predEdge, buildConfig_eq g (!up) hi hl, bind, Except.bind]
  cases hs : step (!up) (i.getD l 0) (v.boundIndices.getD l 0) with
  | none => rfl
  | some j =>
    have hec : edgeCost fl p alpha inverted up (v.conf i) (v.conf (i.set l j)) l
        = .ok (stepCost fl p v alpha inverted up l (i.getD l 0) j) := by
      unfold edgeCost stepCost
      split
      · have e1 : idx p.switchingCost l = .ok (p.switchingCost.getD l 0) :=
          idx_getD _ _ (by rw [g.sc, ← g.bi]; exact hl) 0
        have e2 : idx (v.conf i).config l = .ok (v.val (i.getD l 0)) := by
          rw [← cfg_getD v hil]
          exact idx_getD _ _ (by simpa [Values.conf, Values.cfg] using hil) 0
        have e3 : idx (v.conf (i.set l j)).config l = .ok (v.val j) := by
          have : v.val j = (v.cfg (i.set l j)).getD l 0 := by
            rw [cfg_getD v (by simpa using hil), getD_set_self hil]
          rw [this]
          exact idx_getD _ _ (by simpa [Values.conf, Values.cfg] using hil) 0
        simp only [e1, e2, e3, bind, Except.bind]
      · rfl
    simp only [Option.map_some, hec]

/-- What is stored: the cost of the path to a vertex is at most `bd` units. -/
def Stored (v : Values) (e : ℚ) (bd : List Nat → Bool → Nat) (paths : Paths Vertex) : Prop :=
  ∀ i, Ok v.boundIndices i → ∀ up P, paths { config := v.conf i, up := up } = some P → Multiple e (bd i up) P.cost

theorem at_some {paths : Paths Vertex} {w : Vertex} {P : Path} (h : paths.at w = .ok P) : paths w = some P := by
  unfold Paths.at at h
  split at h
  · cases h; assumption
  · cases h

theorem Stored.insert {bd : List Nat → Bool → Nat} {paths : Paths Vertex} (H : Stored v e bd paths) {i : List Nat} {P : Path}
    (h1 : Multiple e (bd i up) P.cost) : Stored v e bd (paths.insert { config := v.conf i, up := up } P) := by
  intro i' hi' up' P' h
  unfold Paths.insert at h
  split_ifs at h with hc
  · obtain ⟨c1, rfl⟩ := Vertex.mk.inj hc
    rw [conf_inj.1 c1]
    cases h
    exact h1
  · exact H _ hi' _ _ h

/-- The edges of an index vector. -/
theorem findPredecessors_whole (E : ExactTo fl e N) (U : Units p v a e h K) (hN : K ≤ N) {t : Int} (h1 : 1 ≤ t) (h2 : t ≤ p.tEnd)
    {i : List Nat} (hi : Ok v.boundIndices i) :
    findPredecessors fl p a inverted t up v.boundIndices.length (v.conf i) v
      = Multi.findPredecessors p a inverted t up v.boundIndices.length (v.conf i) v ∧
    ∀ es, Multi.findPredecessors p a inverted t up v.boundIndices.length (v.conf i) v = .ok es → ∀ x ∈ es,
      (∃ l j, l < v.boundIndices.length ∧ step (!up) (i.getD l 0) (v.boundIndices.getD l 0) = some j ∧
        x.src = { config := v.conf (i.set l j), up := up } ∧ Multiple e K x.cost) ∨
      (x.src = { config := v.conf i, up := !up } ∧ Multiple e (if up then 0 else h) x.cost) := by
  have m1 : (List.range v.boundIndices.length).mapM (predEdge fl p a inverted up (v.conf i) v)
      = (List.range v.boundIndices.length).mapM (Multi.predEdge p a inverted up (v.conf i) v) := by
    refine mapM_congr' fun l hl => ?_
    have hl := List.mem_range.1 hl
    rw [predEdge_rounded U.grid a hi hl, predEdge_exact U.grid a hi hl]
    cases hs : step (!up) (i.getD l 0) (v.boundIndices.getD l 0) with
    | none => rfl
    | some j => simp only [Option.map_some, (stepCost_whole (inverted := inverted) E U hN hi hl hs).1]
  obtain ⟨r, r1, r2⟩ := mapM_filterMap_ok _ _ _ fun l (hl : l ∈ List.range v.boundIndices.length) =>
    predEdge_exact (inverted := inverted) (up := up) U.grid a hi (List.mem_range.1 hl)
  unfold findPredecessors Multi.findPredecessors
  refine ⟨by rw [m1], ?_⟩
  intro es hes x hx
  rw [r1] at hes
  simp only [bind, Except.bind] at hes
  cases ha : inactionEdges p t up (v.conf i) with
  | error y => rw [ha] at hes; cases hes
  | ok ia =>
    rw [ha, r2] at hes
    simp only at hes
    unfold assertP at hes
    split_ifs at hes
    rw [← Except.ok.inj hes] at hx
    have hx1 := List.mem_append.1 hx
    clear hx
    rcases hx1 with hx | hx
    · obtain ⟨l, j, hl, hs, rfl⟩ := Multi.mem_moves.1 hx
      exact Or.inl ⟨l, j, hl, hs, rfl, (stepCost_whole (inverted := inverted) E U hN hi hl hs).2⟩
    · refine Or.inr ?_
      unfold inactionEdges at ha
      split_ifs at ha with hc
      · cases up with
        | true =>
          simp only [inactionCost, if_true, bind, Except.bind, Except.ok.injEq] at ha
          rw [← ha, List.mem_singleton] at hx
          subst hx
          exact ⟨rfl, Multiple.zero _⟩
        | false =>
          simp only [inactionCost, bind, Except.bind] at ha
          cases hh : p.toProb.hitCost t (v.conf i).config with
          | error y => rw [hh] at ha; cases ha
          | ok c =>
            rw [hh] at ha
            simp only [Bool.false_eq_true, if_false, Except.ok.injEq] at ha
            rw [← ha, List.mem_singleton] at hx
            subst hx
            exact ⟨rfl, U.hit t h1 h2 i hi c hh⟩
      · rw [← Except.ok.inj ha] at hx
        simp at hx

theorem handleConfig_whole (E : ExactTo fl e N) (U : Units p v a e h K) (hN : K ≤ N) {t : Int} (h1 : 1 ≤ t) (h2 : t ≤ p.tEnd)
    {i : List Nat} (hi : Ok v.boundIndices i) {bd : List Nat → Bool → Nat} {paths : Paths Vertex} (H : Stored v e bd paths)
    (b1 : ∀ l j, l < v.boundIndices.length → step (!up) (i.getD l 0) (v.boundIndices.getD l 0) = some j →
      bd (i.set l j) up + K ≤ bd i up)
    (b2 : bd i (!up) + (if up then 0 else h) ≤ bd i up) (b3 : bd i up ≤ N) :
    handleConfig fl p a inverted t v.boundIndices.length up v paths (v.conf i)
      = Multi.handleConfig p a inverted t v.boundIndices.length up v paths (v.conf i) ∧
    ∀ paths', Multi.handleConfig p a inverted t v.boundIndices.length up v paths (v.conf i) = .ok paths' → Stored v e bd paths' := by
  obtain ⟨f1, f2⟩ := findPredecessors_whole (inverted := inverted) (up := up) E U hN h1 h2 hi
  unfold handleConfig Multi.handleConfig
  rw [f1]
  cases hp : Multi.findPredecessors p a inverted t up v.boundIndices.length (v.conf i) v with
  | error x => exact ⟨rfl, fun _ r => by cases r⟩
  | ok es =>
    have hes := f2 es hp
    have hsum : ∀ x ∈ es, ∀ P, paths x.src = some P → Multiple e (bd i up) (P.cost + x.cost) := by
      intro x hx P hP
      rcases hes x hx with ⟨l, j, hl, hs, hsrc, hc⟩ | ⟨hsrc, hc⟩
      · rw [hsrc] at hP
        exact ((H _ (hi.set (step_le (hi.2 l) hs)) _ _ hP).add hc).mono (b1 l j hl hs)
      · rw [hsrc] at hP
        exact ((H _ hi _ _ hP).add hc).mono b2
    have hpick : ∀ q : Option (Edge × Path), (∀ y, q = some y → Multiple e (bd i up) (y.2.cost + y.1.cost)) → ∀ x ∈ es,
        pick fl paths q x = Multi.pick paths q x ∧
        ∀ q', Multi.pick paths q x = .ok q' → ∀ y, q' = some y → Multiple e (bd i up) (y.2.cost + y.1.cost) := by
      intro q hq x hx
      unfold pick Multi.pick
      cases ha : paths.at x.src with
      | error z => exact ⟨rfl, fun _ r => by cases r⟩
      | ok P =>
        have hm := hsum x hx P (at_some ha)
        have e1 : addFl fl P.cost x.cost = P.cost + x.cost := E.cost (hm.mono b3)
        have e2 : pickedCost fl q = Multi.pickedCost q := by
          cases q with
          | none => rfl
          | some y => exact E.cost ((hq y rfl).mono b3)
        simp only [bind, Except.bind, e1, e2, Except.ok.injEq]
        refine ⟨by first | rfl | trivial, fun q' hq' y hy => ?_⟩
        rw [← hq'] at hy
        split_ifs at hy
        · cases hy; exact hm
        · exact hq y hy
    obtain ⟨g1, g2⟩ := foldlM_agree (fun q : Option (Edge × Path) => ∀ y, q = some y → Multiple e (bd i up) (y.2.cost + y.1.cost))
      es none (by simp) (fun q hq x hx => (hpick q hq x hx).1) (fun q hq x hx => (hpick q hq x hx).2)
    have hfind : findOptimal fl es paths = Multi.findOptimal es paths := by
      unfold findOptimal Multi.findOptimal
      simp only [g1]
    simp only [bind, Except.bind, hfind]
    cases ho : Multi.findOptimal es paths with
    | error z => exact ⟨rfl, fun _ r => by cases r⟩
    | ok q =>
      have hq : ∀ y, q = some y → Multiple e (bd i up) (y.2.cost + y.1.cost) := by
        unfold Multi.findOptimal assertP at ho
        split_ifs at ho
        · exact g2 q ho
        · cases ho
      have hu : updatePaths fl paths q { config := v.conf i, up := up } = Multi.updatePaths paths q { config := v.conf i, up := up } := by
        cases q with
        | none => rfl
        | some y =>
          have e1 : addFl fl y.2.cost y.1.cost = y.2.cost + y.1.cost := E.cost ((hq y rfl).mono b3)
          simp only [updatePaths, Multi.updatePaths, e1]
      refine ⟨by simp only [hu], fun paths' hp' => ?_⟩
      rw [← Except.ok.inj hp']
      unfold Multi.updatePaths
      refine H.insert ?_
      cases q with
      | none => exact Multiple.zero _
      | some y => exact hq y rfl

theorem layer_whole (E : ExactTo fl e N) (U : Units p v a e h K) (hN : K ≤ N) {t : Int} (h1 : 1 ≤ t) (h2 : t ≤ p.tEnd)
    {bd : List Nat → Bool → Nat} {paths : Paths Vertex} (H : Stored v e bd paths)
    (b1 : ∀ i, Ok v.boundIndices i → ∀ l j, l < v.boundIndices.length →
      step (!up) (i.getD l 0) (v.boundIndices.getD l 0) = some j → bd (i.set l j) up + K ≤ bd i up)
    (b2 : ∀ i, Ok v.boundIndices i → bd i (!up) + (if up then 0 else h) ≤ bd i up)
    (b3 : ∀ i, Ok v.boundIndices i → bd i up ≤ N) :
    handleLayer fl p a inverted t up v paths = Multi.handleLayer p a inverted t up v paths ∧
    ∀ paths', Multi.handleLayer p a inverted t up v paths = .ok paths' → Stored v e bd paths' := by
  rw [handleLayer_eq fl a inverted t up U.grid U.dpos, Multi.handleLayer_eq a inverted t up U.grid U.dpos]
  refine foldlM_agree (Stored v e bd) _ paths H ?_ ?_
  · intro q hq c hc
    obtain ⟨i, hi, rfl⟩ := List.mem_map.1 hc
    have hi := mem_ord_iff.1 hi
    exact (handleConfig_whole E U hN h1 h2 hi hq (b1 i hi) (b2 i hi) (b3 i hi)).1
  · intro q hq c hc
    obtain ⟨i, hi, rfl⟩ := List.mem_map.1 hc
    have hi := mem_ord_iff.1 hi
    exact (handleConfig_whole E U hN h1 h2 hi hq (b1 i hi) (b2 i hi) (b3 i hi)).2

theorem slot_whole (E : ExactTo fl e N) (U : Units p v a e h K) {t : Int} (h1 : 1 ≤ t) (h2 : t ≤ p.tEnd)
    (hN : t.toNat * (2 * K * v.boundIndices.sum + h) ≤ N) {paths : Paths Vertex}
    (H : Stored v e (fun _ _ => (t - 1).toNat * (2 * K * v.boundIndices.sum + h)) paths) :
    handleSlot fl p a inverted v paths t = Multi.handleSlot p a inverted v paths t ∧
    ∀ paths', Multi.handleSlot p a inverted v paths t = .ok paths' →
      Stored v e (fun _ _ => t.toNat * (2 * K * v.boundIndices.sum + h)) paths' := by
  set B := (t - 1).toNat * (2 * K * v.boundIndices.sum + h) with hB
  have ht : t.toNat * (2 * K * v.boundIndices.sum + h) = B + (2 * (K * v.boundIndices.sum) + h) := by
    rw [hB, show t.toNat = (t - 1).toNat + 1 by omega]; ring
  rw [ht] at hN ⊢
  have hS : 1 ≤ v.boundIndices.sum := by
    cases hv : v.boundIndices with
    | nil => have := U.dpos; rw [hv] at this; simp at this
    | cons x l =>
      have := U.grid.bpos x (by rw [hv]; simp)
      simp only [List.sum_cons]; omega
  have hK : K ≤ K * v.boundIndices.sum := Nat.le_mul_of_pos_right _ hS
  have hsum : ∀ i, Ok v.boundIndices i → K * i.sum ≤ K * v.boundIndices.sum := fun i hi => Nat.mul_le_mul_left _ (sum_le hi)
  have hKN : K ≤ N := by omega
  obtain ⟨u1, u2⟩ := layer_whole (inverted := inverted) (up := true) E U hKN h1 h2
    (bd := fun i up => if up then B + K * i.sum else B) (paths := paths)
    (fun i hi up P hP => (H i hi up P hP).mono (by show B ≤ _; dsimp only; split <;> omega))
    (by
      intro i hi l j hl hs
      have hil : l < i.length := by rw [hi.1]; exact hl
      have h3 := sum_set i l j hil
      have h4 : i.getD l 0 = j + 1 := by
        simp only [step, Bool.not_true, Bool.false_eq_true, if_false] at hs
        split_ifs at hs
        have := Option.some.inj hs; omega
      have h5 : i.sum = (i.set l j).sum + 1 := by omega
      simp only [if_true]
      rw [h5]
      ring_nf
      omega)
    (by intro i hi; simp)
    (by intro i hi; have := hsum i hi; simp only [if_true]; omega)
  unfold handleSlot Multi.handleSlot
  rw [u1]
  cases hu : Multi.handleLayer p a inverted t true v paths with
  | error x => exact ⟨rfl, fun _ r => by cases r⟩
  | ok paths1 =>
    have H1 := u2 paths1 hu
    obtain ⟨d1, d2⟩ := layer_whole (inverted := inverted) (up := false) E U hKN h1 h2
      (bd := fun i up => if up then B + K * i.sum else B + K * v.boundIndices.sum + h + K * (v.boundIndices.sum - i.sum))
      (paths := paths1)
      (fun i hi up P hP => (H1 i hi up P hP).mono (by dsimp only; split <;> omega))
      (by
        intro i hi l j hl hs
        have hil : l < i.length := by rw [hi.1]; exact hl
        have h3 := sum_set i l j hil
        have h4 : j = i.getD l 0 + 1 ∧ j ≤ v.boundIndices.getD l 0 := by
          have := step_le (hi.2 l) hs
          simp only [step, Bool.not_false, if_true] at hs
          split_ifs at hs
          have := Option.some.inj hs; omega
        have h6 := sum_le (hi.set h4.2)
        have h5 : v.boundIndices.sum - i.sum = (v.boundIndices.sum - (i.set l j).sum) + 1 := by omega
        simp only [Bool.false_eq_true, if_false]
        rw [h5, Nat.mul_add]
        omega)
      (by intro i hi; have := hsum i hi; simp only [Bool.not_false, if_true, Bool.false_eq_true, if_false]; omega)
      (by
        intro i hi
        have : K * (v.boundIndices.sum - i.sum) ≤ K * v.boundIndices.sum := Nat.mul_le_mul_left _ (Nat.sub_le _ _)
        simp only [Bool.false_eq_true, if_false]; omega)
    simp only [bind, Except.bind]
    refine ⟨d1, fun paths' hp => ?_⟩
    intro i hi up P hP
    refine (d2 paths' hp i hi up P hP).mono ?_
    have := hsum i hi
    have : K * (v.boundIndices.sum - i.sum) ≤ K * v.boundIndices.sum := Nat.mul_le_mul_left _ (Nat.sub_le _ _)
    dsimp only
    split <;> omega

theorem slots_whole (E : ExactTo fl e N) (U : Units p v a e h K) : ∀ (n : Nat), (n : Int) ≤ p.tEnd →
    n * (2 * K * v.boundIndices.sum + h) ≤ N →
    (timeRange 1 n).foldlM (handleSlot fl p a inverted v) Paths.empty
      = (timeRange 1 n).foldlM (Multi.handleSlot p a inverted v) Paths.empty ∧
    ∀ paths, (timeRange 1 n).foldlM (Multi.handleSlot p a inverted v) Paths.empty = .ok paths →
      Stored v e (fun _ _ => n * (2 * K * v.boundIndices.sum + h)) paths := by
  intro n
  induction n with
  | zero =>
    intro _ _
    refine ⟨rfl, fun paths hp i hi up P hP => ?_⟩
    rw [← Except.ok.inj hp] at hP
    cases hP
  | succ n ih =>
    intro hn hN
    obtain ⟨i1, i2⟩ := ih (by push_cast at hn; omega) (le_trans (Nat.mul_le_mul_right _ (by omega)) hN)
    push_cast
    rw [timeRange_succ, foldlM_append', foldlM_append', i1]
    cases hr : (timeRange 1 n).foldlM (Multi.handleSlot p a inverted v) Paths.empty with
    | error x => exact ⟨rfl, fun _ r => by cases r⟩
    | ok paths =>
      have H := i2 paths hr
      have ht : ((n : Int) + 1).toNat = n + 1 := by omega
      have ht' : ((n : Int) + 1 - 1).toNat = n := by omega
      obtain ⟨s1, s2⟩ := slot_whole (inverted := inverted) E U (t := (n : Int) + 1) (by omega) (by push_cast at hn; omega)
        (by rw [ht]; exact hN) (paths := paths) (by rw [ht']; exact H)
      rw [ht] at s2
      simp only [bind, Except.bind, List.foldlM_cons, List.foldlM_nil, s1]
      refine ⟨by first | rfl | trivial, fun paths' hp => ?_⟩
      cases hs : Multi.handleSlot p a inverted v paths ((n : Int) + 1) with
      | error x => rw [hs] at hp; cases hp
      | ok q =>
        rw [hs] at hp
        rw [← Except.ok.inj hp]
        exact s2 q hs

theorem graphSearch_whole (E : ExactTo fl e N) (U : Units p v a e h K) (hT : 0 ≤ p.tEnd) (o : OfflineOptions) (hα : o.alpha = a)
    (hN : p.tEnd.toNat * (2 * K * v.boundIndices.sum + h) ≤ N) :
    graphSearch fl p v none o = Multi.graphSearch p v none o := by
  obtain ⟨n, hn⟩ : ∃ n : Nat, p.tEnd = n := ⟨p.tEnd.toNat, by omega⟩
  have := (slots_whole (inverted := o.inverted) E U n (by omega) (by rw [hn] at hN; simpa using hN)).1
  unfold graphSearch Multi.graphSearch
  simp only [readCache, hα, hn, this]

end Multi.Rounded
end Soco
