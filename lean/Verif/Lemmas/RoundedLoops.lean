import Verif.Model.Rounded
import Verif.Lemmas.MultiPick

/-! # The graph search with rounded arithmetic: what the loops compute

The loops are those of the exact search, see `Lemmas/MultiGraph`. -/

namespace Soco.Multi.Rounded

variable {C D : Type} [OutSuccess C] [OutFailure D] {p : SSCO ℤ C D} {v : Values}
variable (fl : ℚ → ℚ) (alpha : ℚ) (inverted : Bool) (t : Int) (up : Bool)

theorem handleLoop_eq (g : Grid p v) {k : Nat} (hk : k < v.boundIndices.length) :
    ∀ (fuel : Nat) {i : List Nat}, Ok v.boundIndices i →
    (rest up (i.getD k 0) (v.boundIndices.getD k 0)).length < fuel →
    ∀ (paths : Paths Vertex) (added : List IConf),
    handleLoop fl p alpha inverted t (k + 1) up v fuel (v.conf i) (paths, added)
      = (do
        let paths' ← (v.conf i :: (rest up (i.getD k 0) (v.boundIndices.getD k 0)).map fun j =>
          v.conf (i.set k j)).foldlM (handleConfig fl p alpha inverted t (k + 1) up v) paths
        .ok (paths', added ++ (rest up (i.getD k 0) (v.boundIndices.getD k 0)).map fun j =>
          v.conf (i.set k j))) := by
  intro fuel
  induction fuel with
  | zero => intro i _ h; omega
  | succ fuel ih =>
    intro i hi hf paths added
    have hik : k < i.length := by rw [hi.1]; exact hk
    rw [handleLoop, foldlM_cons']
    cases h1 : handleConfig fl p alpha inverted t (k + 1) up v paths (v.conf i) with
    | error e => rfl
    | ok paths1 =>
      simp only [bind, Except.bind, Nat.add_sub_cancel, buildConfig_eq g up hi hk]
      cases hs : step up (i.getD k 0) (v.boundIndices.getD k 0) with
      | none => rw [rest_of_none hs]; simp [pure, Except.pure]
      | some j =>
        rw [rest_of_some (hi.2 k) hs] at hf ⊢
        simp only [Option.map_some]
        have hgd : (i.set k j).getD k 0 = j := getD_set_self hik j
        rw [ih (hi.set (step_le (hi.2 k) hs)) (by rw [hgd]; simp at hf ⊢; omega)]
        rw [hgd]
        simp only [List.set_set, List.map_cons, bind, Except.bind]
        cases List.foldlM (handleConfig fl p alpha inverted t (k + 1) up v) paths1
          (v.conf (i.set k j) :: List.map (fun j_1 => v.conf (i.set k j_1))
            (rest up j (v.boundIndices.getD k 0))) with
        | error e => rfl
        | ok x => simp

theorem handleBase_eq (g : Grid p v) {k : Nat} (hk0 : 0 < k) (hk : k < v.boundIndices.length)
    {i : List Nat} (hi : Ok v.boundIndices i)
    (hb : i.getD k 0 = (base up v.boundIndices).getD k 0) (s : Paths Vertex × List IConf) :
    handleBase fl p alpha inverted t (k + 1) up v s (v.conf i)
      = (do
        let paths' ← ((branch up v.boundIndices k i).map v.conf).foldlM
          (handleConfig fl p alpha inverted t (k + 1) up v) s.1
        .ok (paths', s.2 ++ (branch up v.boundIndices k i).map v.conf)) := by
  have hik : k < i.length := by rw [hi.1]; exact hk
  have hbp : 0 < v.boundIndices.getD k 0 := g.bpos _ (by simp [List.getD, hk])
  have hstep : ∃ j, step up (i.getD k 0) (v.boundIndices.getD k 0) = some j := by
    rw [hb]
    cases up
    · simp only [base, step, Bool.false_eq_true, if_false]
      exact ⟨_, if_neg (by omega)⟩
    · have : (base true v.boundIndices).getD k 0 = 0 := by
        simp only [base, if_true, List.getD, List.getElem?_replicate]; split <;> rfl
      rw [this]
      simp only [step, if_true]
      exact ⟨_, if_neg (by omega)⟩
  obtain ⟨j, hs⟩ := hstep
  have hgd : (i.set k j).getD k 0 = j := getD_set_self hik j
  have hle := step_le (hi.2 k) hs
  have hf : firstConfig (k + 1) up v (v.conf i) = .ok (v.conf (i.set k j), [v.conf (i.set k j)]) := by
    simp only [firstConfig, Nat.add_eq_right, if_neg (by omega : ¬ k = 0), Nat.add_sub_cancel,
      buildConfig_eq g up hi hk, hs, bind, Except.bind, Option.map_some]
  simp only [handleBase, hf, bind, Except.bind]
  rw [handleLoop_eq fl alpha inverted t up g hk _ (hi.set hle) (by
    rw [hgd]
    have h1 := rest_length up j _ hle
    have h2 := g.blt' k
    omega)]
  simp only [branch, rest_of_some (hi.2 k) hs, hgd, List.set_set, List.map_cons, bind, Except.bind,
    List.map_map, Function.comp_def]
  cases List.foldlM (handleConfig fl p alpha inverted t (k + 1) up v) s.1
      (v.conf (i.set k j) :: List.map (fun x => v.conf (i.set k x))
        (rest up j (v.boundIndices.getD k 0))) with
  | error e => rfl
  | ok x => simp

theorem handleBases_eq (g : Grid p v) {k : Nat} (hk0 : 0 < k) (hk : k < v.boundIndices.length) :
    ∀ (L : List (List Nat)), (∀ i ∈ L, Ok v.boundIndices i ∧
      i.getD k 0 = (base up v.boundIndices).getD k 0) → ∀ (s : Paths Vertex × List IConf),
    (L.map v.conf).foldlM (handleBase fl p alpha inverted t (k + 1) up v) s
      = (do
        let paths' ← ((L.flatMap (branch up v.boundIndices k)).map v.conf).foldlM
          (handleConfig fl p alpha inverted t (k + 1) up v) s.1
        .ok (paths', s.2 ++ (L.flatMap (branch up v.boundIndices k)).map v.conf)) := by
  intro L
  induction L with
  | nil => intro _ s; simp [bind, Except.bind, pure, Except.pure]
  | cons i L ih =>
    intro hL s
    obtain ⟨hi, hb⟩ := hL i (by simp)
    rw [List.map_cons, foldlM_cons', handleBase_eq fl alpha inverted t up g hk0 hk hi hb]
    rw [List.flatMap_cons, List.map_append, foldlM_append']
    cases h1 : ((branch up v.boundIndices k i).map v.conf).foldlM
        (handleConfig fl p alpha inverted t (k + 1) up v) s.1 with
    | error e => rfl
    | ok x =>
      simp only [bind, Except.bind]
      rw [ih (fun y hy => hL y (by simp [hy]))]
      simp only [bind, Except.bind, List.append_assoc]

/-- In dimensions where the configuration is at its starting value there are no predecessors. -/
theorem findPredecessors_eq (g : Grid p v) {k n : Nat} (hk : k ≤ v.boundIndices.length) (hn : n ≤ k)
    {i : List Nat} (hi : Ok v.boundIndices i)
    (hb : ∀ l, n ≤ l → i.getD l 0 = (base up v.boundIndices).getD l 0) :
    findPredecessors fl p alpha inverted t up n (v.conf i) v
      = findPredecessors fl p alpha inverted t up k (v.conf i) v := by
  induction k, hn using Nat.le_induction with
  | base => rfl
  | succ k hnk ih =>
    rw [ih (by omega)]
    have h1 : predEdge fl p alpha inverted up (v.conf i) v k = .ok none := by
      have : step (!up) (i.getD k 0) (v.boundIndices.getD k 0) = none := by
        rw [hb k hnk]
        cases up
        · simp [base, step]
        · have : (base true v.boundIndices).getD k 0 = 0 := by
            simp only [base, if_true, List.getD, List.getElem?_replicate]; split <;> rfl
          rw [this]; simp [step]
      simp only [predEdge, buildConfig_eq g (!up) hi (by omega : k < _), this, bind, Except.bind,
        Option.map_none]
    simp only [findPredecessors, List.range_succ, List.mapM_append, bind, Except.bind]
    cases (List.range k).mapM (predEdge fl p alpha inverted up (v.conf i) v) with
    | error e => rfl
    | ok es => simp [mapM_cons', mapM_nil', h1, bind, Except.bind, pure, Except.pure]

theorem handleConfig_congr (g : Grid p v) {n : Nat} (hn : n ≤ v.boundIndices.length)
    {i : List Nat} (hi : Ok v.boundIndices i)
    (hb : ∀ l, n ≤ l → i.getD l 0 = (base up v.boundIndices).getD l 0) (paths : Paths Vertex) :
    handleConfig fl p alpha inverted t n up v paths (v.conf i)
      = handleConfig fl p alpha inverted t v.boundIndices.length up v paths (v.conf i) := by
  unfold handleConfig
  rw [findPredecessors_eq fl alpha inverted t up g le_rfl hn hi hb]

theorem stage_eq (g : Grid p v) {k : Nat} (hk : k < v.boundIndices.length) (paths : Paths Vertex) :
    ((ord up v.boundIndices k).map v.conf).foldlM (handleBase fl p alpha inverted t (k + 1) up v)
        (paths, [])
      = (do
        let paths' ← ((visited up v.boundIndices k).map v.conf).foldlM
          (handleConfig fl p alpha inverted t v.boundIndices.length up v) paths
        .ok (paths', ((ord up v.boundIndices k).flatMap (branch up v.boundIndices k)).map v.conf)) := by
  have hcongr : ∀ c ∈ (visited up v.boundIndices k).map v.conf, ∀ paths,
      handleConfig fl p alpha inverted t (k + 1) up v paths c
        = handleConfig fl p alpha inverted t v.boundIndices.length up v paths c := by
    intro c hc paths
    obtain ⟨i, hi, rfl⟩ := List.mem_map.1 hc
    obtain ⟨h1, h2⟩ := mem_ord (mem_visited hi)
    exact handleConfig_congr fl alpha inverted t up g (by omega) h1 h2 paths
  rw [← foldlM_congr' hcongr]
  cases k with
  | zero =>
    have hB := Ok.base up v.boundIndices
    have e1 : ord up v.boundIndices 0 = [base up v.boundIndices] := rfl
    have e2 : visited up v.boundIndices 0
        = base up v.boundIndices :: branch up v.boundIndices 0 (base up v.boundIndices) := by
      simp [visited, ord, branch]
    rw [e1, e2]
    simp only [List.map_cons, List.map_nil, foldlM_cons', handleBase, firstConfig, Nat.zero_add,
      if_true, bind, Except.bind, List.append_nil]
    rw [handleLoop_eq fl alpha inverted t up g hk _ hB (by
      have h1 := rest_length up _ _ (hB.2 0)
      have h2 := g.blt' 0
      omega)]
    simp only [branch, List.map_map, Function.comp_def, bind, Except.bind, foldlM_cons', Nat.zero_add,
      List.flatMap_cons, List.flatMap_nil, List.append_nil, List.nil_append]
    cases handleConfig fl p alpha inverted t 1 up v paths (v.conf (base up v.boundIndices)) with
    | error e => rfl
    | ok x =>
      simp only
      cases List.foldlM (handleConfig fl p alpha inverted t 1 up v) x
        (List.map (fun j => v.conf ((base up v.boundIndices).set 0 j))
          (rest up ((base up v.boundIndices).getD 0 0) (v.boundIndices.getD 0 0))) <;> rfl
  | succ k =>
    rw [handleBases_eq fl alpha inverted t up g (by omega) hk _ (by
      intro i hi; obtain ⟨h1, h2⟩ := mem_ord hi; exact ⟨h1, h2 _ le_rfl⟩)]
    simp [visited]

theorem handleDims_eq (g : Grid p v) : ∀ (n k : Nat), n + k = v.boundIndices.length →
    ∀ (paths : Paths Vertex),
    handleDims fl p alpha inverted t up v n (k + 1) ((ord up v.boundIndices k).map v.conf) paths
      = (((List.range n).flatMap fun m => visited up v.boundIndices (k + m)).map v.conf).foldlM
          (handleConfig fl p alpha inverted t v.boundIndices.length up v) paths := by
  intro n
  induction n with
  | zero => intro k _ paths; simp [handleDims, pure, Except.pure]
  | succ n ih =>
    intro k hk paths
    rw [handleDims, stage_eq fl alpha inverted t up g (by omega), List.range_succ_eq_map,
      List.flatMap_cons, List.map_append, foldlM_append', Nat.add_zero]
    simp only [bind, Except.bind]
    cases ((visited up v.boundIndices k).map v.conf).foldlM
        (handleConfig fl p alpha inverted t v.boundIndices.length up v) paths with
    | error e => rfl
    | ok x =>
      simp only
      have e1 : (ord up v.boundIndices k).map v.conf ++ List.map v.conf
          ((ord up v.boundIndices k).flatMap (branch up v.boundIndices k))
          = (ord up v.boundIndices (k + 1)).map v.conf := by
        simp only [ord, List.map_append]; rfl
      rw [e1, ih (k + 1) (by omega)]
      congr 2
      rw [List.flatMap_map]
      congr 1
      funext m
      rw [show k + 1 + m = k + (m + 1) by omega]

/-- A layer handles all its configurations in the order `ord`. -/
theorem handleLayer_eq (g : Grid p v) (hd : 0 < v.boundIndices.length) (paths : Paths Vertex) :
    handleLayer fl p alpha inverted t up v paths
      = ((ord up v.boundIndices v.boundIndices.length).map v.conf).foldlM
          (handleConfig fl p alpha inverted t v.boundIndices.length up v) paths := by
  unfold handleLayer
  have := handleDims_eq fl alpha inverted t up g v.boundIndices.length 0 (by omega) paths
  rw [g.base_conf, g.toNat]
  simp only [Nat.zero_add] at this
  rw [show [v.conf (base up v.boundIndices)] = (ord up v.boundIndices 0).map v.conf from rfl, this]
  obtain ⟨n, hn⟩ : ∃ n, v.boundIndices.length = n + 1 := ⟨v.boundIndices.length - 1, by omega⟩
  congr 2
  rw [hn]
  exact visited_flatMap up v.boundIndices n


end Soco.Multi.Rounded
