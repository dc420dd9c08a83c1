import Verif.Lemmas.RoundedLoops

/-! # The graph search with rounded arithmetic: choosing a predecessor -/

namespace Soco.Multi.Rounded

variable {C D : Type} [OutSuccess C] [OutFailure D] (fl : ℚ → ℚ)

theorem foldlM_pick (paths : Paths Vertex) : ∀ (es : List Edge) (acc : Option (Edge × Path)),
    (∀ e ∈ es, ∃ P, paths e.src = some P) →
    ∃ r, es.foldlM (pick fl paths) acc = .ok r ∧ pickedCost fl r ≤ pickedCost fl acc ∧
      (∀ e ∈ es, ∀ P, paths e.src = some P → pickedCost fl r ≤ addFl fl P.cost e.cost) ∧
      (r = acc ∨ ∃ e ∈ es, ∃ P, paths e.src = some P ∧ r = some (e, P)) := by
  intro es
  induction es with
  | nil => intro acc _; exact ⟨acc, rfl, le_rfl, by simp, Or.inl rfl⟩
  | cons e es ih =>
    intro acc h
    obtain ⟨P, hP⟩ := h e (by simp)
    have hpick : pick fl paths acc e
        = .ok (if addFl fl P.cost e.cost < pickedCost fl acc then some (e, P) else acc) := by
      simp [pick, Paths.at, hP, bind, Except.bind]
    obtain ⟨r, hr, h1, h2, h3⟩ := ih (if addFl fl P.cost e.cost < pickedCost fl acc then some (e, P) else acc)
      (fun e' he' => h e' (by simp [he']))
    refine ⟨r, ?_, ?_, ?_, ?_⟩
    · rw [foldlM_cons', hpick]; exact hr
    · refine h1.trans ?_
      split
      · rename_i hlt; exact le_of_lt hlt
      · exact le_rfl
    · intro e' he' P' hP'
      rcases List.mem_cons.1 he' with rfl | he'
      · rw [hP] at hP'; cases hP'
        refine h1.trans ?_
        split
        · exact le_rfl
        · rename_i hlt; exact not_lt.1 hlt
      · exact h2 e' he' P' hP'
    · rcases h3 with h3 | ⟨e', he', P', hP', h3⟩
      · by_cases hlt : addFl fl P.cost e.cost < pickedCost fl acc
        · rw [if_pos hlt] at h3
          exact Or.inr ⟨e, by simp, P, hP, h3⟩
        · rw [if_neg hlt] at h3; exact Or.inl h3
      · exact Or.inr ⟨e', by simp [he'], P', hP', h3⟩

theorem findOptimal_ok (paths : Paths Vertex) (es : List Edge)
    (h : ∀ e ∈ es, ∃ P, paths e.src = some P)
    (hf : ∃ e ∈ es, ∃ P, paths e.src = some P ∧ addFl fl P.cost e.cost ≠ ⊤) :
    ∃ e ∈ es, ∃ P, paths e.src = some P ∧ findOptimal fl es paths = .ok (some (e, P)) ∧
      addFl fl P.cost e.cost ≠ ⊤ ∧
      ∀ e' ∈ es, ∀ P', paths e'.src = some P' → addFl fl P.cost e.cost ≤ addFl fl P'.cost e'.cost := by
  obtain ⟨e0, he0, P0, hP0, hfin⟩ := hf
  have hassert : (es.isEmpty || es.any fun e => decide (e.cost ≠ ⊤)) = true := by
    rw [Bool.or_eq_true]
    right
    rw [List.any_eq_true]
    exact ⟨e0, he0, by simp only [decide_eq_true_eq]; intro hc; rw [hc] at hfin; simp [addFl] at hfin⟩
  obtain ⟨r, hr, _, h2, h3⟩ := foldlM_pick fl paths es none h
  have hne := h2 e0 he0 P0 hP0
  rcases h3 with rfl | ⟨e, he, P, hP, rfl⟩
  · simp only [pickedCost, top_le_iff] at hne; exact absurd hne hfin
  · refine ⟨e, he, P, hP, ?_, ?_, h2⟩
    · simp only [findOptimal, assertP, hassert, if_true, bind, Except.bind, hr]
    · intro hc
      simp only [pickedCost, hc, top_le_iff] at hne
      exact hfin hne

variable {p : SSCO ℤ C D} {v : Values}

/-- Cost of a step from index `j` to index `i` in dimension `l`. -/
def stepCost (fl : ℚ → ℚ) (p : SSCO ℤ C D) (v : Values) (alpha : ℚ) (inverted up : Bool) (l i j : Nat) : ECost :=
  if (up && !inverted) || (!up && inverted) then
    ((fl (fl (alpha * p.switchingCost.getD l 0) * ((scalarMovement (v.val i) (v.val j) inverted : ℤ) : ℚ)) : ℚ)
      : ECost)
  else 0

/-- The predecessors within the layer. -/
def moves (fl : ℚ → ℚ) (p : SSCO ℤ C D) (v : Values) (alpha : ℚ) (inverted up : Bool) (i : List Nat) : List Edge :=
  (List.range v.boundIndices.length).filterMap fun l =>
    (step (!up) (i.getD l 0) (v.boundIndices.getD l 0)).map fun j =>
      { src := { config := v.conf (i.set l j), up := up }
        cost := stepCost fl p v alpha inverted up l (i.getD l 0) j }

theorem mem_moves {fl : ℚ → ℚ} {alpha : ℚ} {inverted up : Bool} {i : List Nat} {e : Edge} :
    e ∈ moves fl p v alpha inverted up i ↔ ∃ l j, l < v.boundIndices.length ∧
      step (!up) (i.getD l 0) (v.boundIndices.getD l 0) = some j ∧
      e = { src := { config := v.conf (i.set l j), up := up }
            cost := stepCost fl p v alpha inverted up l (i.getD l 0) j } := by
  simp only [moves, List.mem_filterMap, List.mem_range, Option.map_eq_some_iff]
  constructor
  · rintro ⟨l, hl, j, hj, rfl⟩; exact ⟨l, j, hl, hj, rfl⟩
  · rintro ⟨l, j, hl, hj, rfl⟩; exact ⟨l, hl, j, hj, rfl⟩

theorem findPredecessors_ok (g : Grid p v) (alpha : ℚ) (inverted up : Bool) (t : Int)
    {i : List Nat} (hi : Ok v.boundIndices i) (hc : ECost)
    (hhit : up = false → ∃ o, p.toProb.hitCost t (v.cfg i) = .ok ⟨hc, o⟩)
    (hne : i = base true v.boundIndices ∧ t = 1 ∧ up = true ∨
      moves fl p v alpha inverted up i ++ stay v t up hc i ≠ []) :
    findPredecessors fl p alpha inverted t up v.boundIndices.length (v.conf i) v
      = .ok (moves fl p v alpha inverted up i ++ stay v t up hc i) := by
  have h1 : ∀ l ∈ List.range v.boundIndices.length, predEdge fl p alpha inverted up (v.conf i) v l
      = .ok ((step (!up) (i.getD l 0) (v.boundIndices.getD l 0)).map fun j =>
        { src := { config := v.conf (i.set l j), up := up }
          cost := stepCost fl p v alpha inverted up l (i.getD l 0) j }) := by
    intro l hl
    have hl := List.mem_range.1 hl
    have hil : l < i.length := by rw [hi.1]; exact hl
    simp only [predEdge, buildConfig_eq g (!up) hi hl, bind, Except.bind]
    cases hs : step (!up) (i.getD l 0) (v.boundIndices.getD l 0) with
    | none => rfl
    | some j =>
      have hec : edgeCost fl p alpha inverted up (v.conf i) (v.conf (i.set l j)) l
          = .ok (stepCost fl p v alpha inverted up l (i.getD l 0) j) := by
        unfold edgeCost stepCost
        split
        · have e1 : idx p.switchingCost l = .ok (p.switchingCost.getD l 0) :=
            idx_getD _ _ (by rw [g.sc, ← g.bi]; exact hl) 0
          have e2 : idx (v.conf i).config l = .ok (v.val (i.getD l 0)) := by
            rw [← cfg_getD v hil]
            exact idx_getD _ _ (by simpa [Values.conf, Values.cfg] using hil) 0
          have e3 : idx (v.conf (i.set l j)).config l = .ok (v.val j) := by
            have : v.val j = (v.cfg (i.set l j)).getD l 0 := by
              rw [cfg_getD v (by simpa using hil), getD_set_self hil]
            rw [this]
            exact idx_getD _ _ (by simpa [Values.conf, Values.cfg] using hil) 0
          simp only [e1, e2, e3, bind, Except.bind]
        · rfl
      simp only [Option.map_some, hec]
  obtain ⟨r, hr1, hr2⟩ := mapM_filterMap_ok _ _ _ h1
  have h2 : inactionEdges p t up (v.conf i) = .ok (stay v t up hc i) := by
    unfold inactionEdges stay
    split
    · cases up
      · obtain ⟨o, ho⟩ := hhit rfl
        have : p.toProb.hitCost t (v.conf i).config = .ok ⟨hc, o⟩ := ho
        simp [inactionCost, this, bind, Except.bind]
      · simp [inactionCost, bind, Except.bind]
    · rfl
  simp only [findPredecessors, hr1, h2, hr2, bind, Except.bind]
  have h3 : ((t == 1 && up && (v.conf i).config == List.replicate p.d.toNat 0) ||
      !(List.filterMap (fun l => (step (!up) (i.getD l 0) (v.boundIndices.getD l 0)).map fun j =>
        ({ src := { config := v.conf (i.set l j), up := up }
           cost := stepCost fl p v alpha inverted up l (i.getD l 0) j } : Edge))
        (List.range v.boundIndices.length) ++ stay v t up hc i).isEmpty) = true := by
    rcases hne with ⟨rfl, rfl, rfl⟩ | hne
    · rw [Bool.or_eq_true]; left
      have hb := g.base_conf true
      have : (v.conf (base true v.boundIndices)).config = List.replicate p.d.toNat 0 := by
        rw [← hb]; rfl
      simp [this]
    · rw [Bool.or_eq_true]; right
      have : moves fl p v alpha inverted up i ++ stay v t up hc i ≠ [] := hne
      unfold moves at this
      simpa using this
  simp only [assertP, h3, if_true]
  rfl

/-- The path stored for a vertex reached by `e`. -/
def extendPath (fl : ℚ → ℚ) (v : Values) (up : Bool) (i : List Nat) (e : Edge) (P : Path) : Path :=
  { xs := if e.src.up && !up then P.xs ++ [v.cfg i] else P.xs, cost := addFl fl P.cost e.cost }

theorem handleConfig_ok (g : Grid p v) (alpha : ℚ) (inverted up : Bool) (t : Int)
    {i : List Nat} (hi : Ok v.boundIndices i) (hc : ECost)
    (hhit : up = false → ∃ o, p.toProb.hitCost t (v.cfg i) = .ok ⟨hc, o⟩) (paths : Paths Vertex)
    (h : ∀ e ∈ moves fl p v alpha inverted up i ++ stay v t up hc i, ∃ P, paths e.src = some P)
    (hf : ∃ e ∈ moves fl p v alpha inverted up i ++ stay v t up hc i, ∃ P, paths e.src = some P ∧
      addFl fl P.cost e.cost ≠ ⊤) :
    ∃ e ∈ moves fl p v alpha inverted up i ++ stay v t up hc i, ∃ P, paths e.src = some P ∧
      handleConfig fl p alpha inverted t v.boundIndices.length up v paths (v.conf i)
        = .ok (paths.insert { config := v.conf i, up := up } (extendPath fl v up i e P)) ∧
      addFl fl P.cost e.cost ≠ ⊤ ∧
      ∀ e' ∈ moves fl p v alpha inverted up i ++ stay v t up hc i, ∀ P', paths e'.src = some P' →
        addFl fl P.cost e.cost ≤ addFl fl P'.cost e'.cost := by
  obtain ⟨e, he, P, hP, h1, h2, h3⟩ := findOptimal_ok fl paths _ h hf
  refine ⟨e, he, P, hP, ?_, h2, h3⟩
  have hne : moves fl p v alpha inverted up i ++ stay v t up hc i ≠ [] := by
    intro h0; rw [h0] at he; simp at he
  simp only [handleConfig, findPredecessors_ok fl g alpha inverted up t hi hc hhit (Or.inr hne), h1, bind,
    Except.bind]
  rfl

theorem handleConfig_first (g : Grid p v) (alpha : ℚ) (inverted : Bool) (paths : Paths Vertex) :
    handleConfig fl p alpha inverted 1 v.boundIndices.length true v paths
        (v.conf (base true v.boundIndices))
      = .ok (paths.insert { config := v.conf (base true v.boundIndices), up := true }
          { xs := [], cost := 0 }) := by
  have h := findPredecessors_ok fl g alpha inverted true 1 (Ok.base true v.boundIndices) 0 (by simp)
    (Or.inl ⟨rfl, rfl, rfl⟩)
  have h0 : moves fl p v alpha inverted true (base true v.boundIndices)
      ++ stay v 1 true 0 (base true v.boundIndices) = [] := by
    have hm : moves fl p v alpha inverted true (base true v.boundIndices) = [] := by
      rw [List.eq_nil_iff_forall_not_mem]
      intro e he
      obtain ⟨l, j, hl, hs, _⟩ := mem_moves.1 he
      have : (base true v.boundIndices).getD l 0 = 0 := by
        simp only [base, if_true, List.getD, List.getElem?_replicate]; split <;> rfl
      rw [this] at hs
      simp [step] at hs
    rw [hm]; simp [stay]
  rw [h0] at h
  simp only [handleConfig, h, bind, Except.bind, findOptimal, assertP, List.isEmpty_nil, Bool.true_or,
    if_true]
  rfl

end Soco.Multi.Rounded
