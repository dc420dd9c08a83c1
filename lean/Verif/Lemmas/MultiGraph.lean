import Verif.Lemmas.GridOrder
import Verif.Lemmas.Objective

/-! # Multi-dimensional graph search: what the loops compute -/

namespace Soco.Multi

variable {C D : Type} [OutSuccess C] [OutFailure D]

/-- The problem and the list of values fit together. -/
structure Grid (p : SSCO ℤ C D) (v : Values) : Prop where
  dim : p.d = p.bounds.length
  sc : p.switchingCost.length = p.bounds.length
  bi : v.boundIndices.length = p.bounds.length
  bpos : ∀ b ∈ v.boundIndices, 0 < b
  blt : ∀ b ∈ v.boundIndices, b < v.values.length
  zero : v.values[0]? = some 0
  mono : v.values.Pairwise (· < ·)
  bounds : p.bounds = v.boundIndices.map fun b => v.values.getD b 0

/-- The value with a given index. -/
def Values.val (v : Values) (i : Nat) : ℤ := v.values.getD i 0

/-- The configuration with given indices. -/
def Values.cfg (v : Values) (i : List Nat) : Config ℤ := i.map v.val

/-- The internal configuration with given indices. -/
def Values.conf (v : Values) (i : List Nat) : IConf := { config := v.cfg i, indices := i }

theorem conf_inj {v : Values} {i j : List Nat} : v.conf i = v.conf j ↔ i = j := by
  constructor
  · intro h; exact congrArg IConf.indices h
  · rintro rfl; rfl

theorem idx_getD {α : Type} (xs : List α) (k : Nat) (hk : k < xs.length) (a : α) :
    idx xs k = .ok (xs.getD k a) := by
  simp [idx, List.getD, hk]

variable {p : SSCO ℤ C D} {v : Values}

theorem Grid.toNat (g : Grid p v) : p.d.toNat = v.boundIndices.length := by
  have := g.dim; have := g.bi; omega

theorem Grid.blt' (g : Grid p v) (k : Nat) : v.boundIndices.getD k 0 < v.values.length := by
  by_cases hk : k < v.boundIndices.length
  · have := g.blt (v.boundIndices.getD k 0) (by simp [List.getD, hk])
    exact this
  · have h0 : 0 < v.values.length := by
      have := g.zero
      rcases hv : v.values with _ | ⟨a, l⟩
      · simp [hv] at this
      · simp
    simp only [List.getD, List.getElem?_eq_none (not_lt.1 hk), Option.getD_none]; exact h0

theorem Grid.base_conf (g : Grid p v) (up : Bool) :
    buildBaseConfig p.d.toNat p.bounds v up = v.conf (base up v.boundIndices) := by
  cases up
  · simp only [buildBaseConfig, Bool.false_eq_true, if_false, Values.conf, base, Values.cfg]
    rw [g.bounds]; rfl
  · simp only [buildBaseConfig, if_true, Values.conf, base, Values.cfg, g.toNat]
    have h0 : v.val 0 = 0 := by simp [Values.val, List.getD, g.zero]
    simp [h0]

theorem cfg_set (v : Values) (i : List Nat) (k j : Nat) :
    (v.cfg i).set k (v.val j) = v.cfg (i.set k j) := by
  simp [Values.cfg, List.map_set]

theorem buildConfig_eq (g : Grid p v) (up : Bool) {i : List Nat} (hi : Ok v.boundIndices i) {k : Nat}
    (hk : k < v.boundIndices.length) :
    buildConfig up v (v.conf i) k
      = .ok ((step up (i.getD k 0) (v.boundIndices.getD k 0)).map fun j => v.conf (i.set k j)) := by
  have hik : k < i.length := by rw [hi.1]; exact hk
  have hn : nextIndex up v (v.conf i) k
      = .ok (step up (i.getD k 0) (v.boundIndices.getD k 0)) := by
    cases up
    · simp only [nextIndex, Bool.false_eq_true, if_false, Values.conf, idx_getD i k hik 0, step]; rfl
    · simp only [nextIndex, if_true, Values.conf, idx_getD i k hik 0,
        idx_getD v.boundIndices k hk 0, step]; rfl
  simp only [buildConfig, hn, bind, Except.bind]
  cases hs : step up (i.getD k 0) (v.boundIndices.getD k 0) with
  | none => rfl
  | some j =>
    have hj : j < v.values.length := lt_of_le_of_lt (step_le (hi.2 k) hs) (g.blt' k)
    have e1 : idx v.values j = .ok (v.val j) := idx_getD _ _ hj 0
    have e2 : idx (v.cfg i) k = .ok ((v.cfg i).getD k 0) :=
      idx_getD _ _ (by simpa [Values.cfg] using hik) 0
    simp only [e1, Option.map_some, Values.conf, e2]
    rw [← cfg_set]

/-! ## Loops -/

section Loops
variable (alpha : ℚ) (inverted : Bool) (t : Int) (up : Bool)

theorem foldlM_append' {α β : Type} (f : β → α → Res β) (b : β) (l m : List α) :
    (l ++ m).foldlM f b = l.foldlM f b >>= fun b' => m.foldlM f b' := by
  simp [List.foldlM_append]

theorem foldlM_cons' {α β : Type} (f : β → α → Res β) (b : β) (a : α) (m : List α) :
    (a :: m).foldlM f b = f b a >>= fun b' => m.foldlM f b' := by
  simp

theorem handleLoop_eq (g : Grid p v) {k : Nat} (hk : k < v.boundIndices.length) :
    ∀ (fuel : Nat) {i : List Nat}, Ok v.boundIndices i →
    (rest up (i.getD k 0) (v.boundIndices.getD k 0)).length < fuel →
    ∀ (paths : Paths Vertex) (added : List IConf),
    handleLoop p alpha inverted t (k + 1) up v fuel (v.conf i) (paths, added)
      = (do
        let paths' ← (v.conf i :: (rest up (i.getD k 0) (v.boundIndices.getD k 0)).map fun j =>
          v.conf (i.set k j)).foldlM (handleConfig p alpha inverted t (k + 1) up v) paths
        .ok (paths', added ++ (rest up (i.getD k 0) (v.boundIndices.getD k 0)).map fun j =>
          v.conf (i.set k j))) := by
  intro fuel
  induction fuel with
  | zero => intro i _ h; omega
  | succ fuel ih =>
    intro i hi hf paths added
    have hik : k < i.length := by rw [hi.1]; exact hk
    rw [handleLoop, foldlM_cons']
    cases h1 : handleConfig p alpha inverted t (k + 1) up v paths (v.conf i) with
    | error e => rfl
    | ok paths1 =>
      simp only [bind, Except.bind, Nat.add_sub_cancel, buildConfig_eq g up hi hk]
      cases hs : step up (i.getD k 0) (v.boundIndices.getD k 0) with
      | none => rw [rest_of_none hs]; simp [pure, Except.pure]
      | some j =>
        rw [rest_of_some (hi.2 k) hs] at hf ⊢
        simp only [Option.map_some]
        have hgd : (i.set k j).getD k 0 = j := getD_set_self hik j
        rw [ih (hi.set (step_le (hi.2 k) hs)) (by rw [hgd]; simp at hf ⊢; omega)]
        rw [hgd]
        simp only [List.set_set, List.map_cons, bind, Except.bind]
        cases List.foldlM (handleConfig p alpha inverted t (k + 1) up v) paths1
          (v.conf (i.set k j) :: List.map (fun j_1 => v.conf (i.set k j_1))
            (rest up j (v.boundIndices.getD k 0))) with
        | error e => rfl
        | ok x => simp

/-- The configurations visited from `i` in dimension `k > 0`. -/
def branch (up : Bool) (b : List Nat) (k : Nat) (i : List Nat) : List (List Nat) :=
  (rest up (i.getD k 0) (b.getD k 0)).map fun j => i.set k j

theorem handleBase_eq (g : Grid p v) {k : Nat} (hk0 : 0 < k) (hk : k < v.boundIndices.length)
    {i : List Nat} (hi : Ok v.boundIndices i)
    (hb : i.getD k 0 = (base up v.boundIndices).getD k 0) (s : Paths Vertex × List IConf) :
    handleBase p alpha inverted t (k + 1) up v s (v.conf i)
      = (do
        let paths' ← ((branch up v.boundIndices k i).map v.conf).foldlM
          (handleConfig p alpha inverted t (k + 1) up v) s.1
        .ok (paths', s.2 ++ (branch up v.boundIndices k i).map v.conf)) := by
  have hik : k < i.length := by rw [hi.1]; exact hk
  have hbp : 0 < v.boundIndices.getD k 0 := g.bpos _ (by simp [List.getD, hk])
  have hstep : ∃ j, step up (i.getD k 0) (v.boundIndices.getD k 0) = some j := by
    rw [hb]
    cases up
    · simp only [base, step, Bool.false_eq_true, if_false]
      exact ⟨_, if_neg (by omega)⟩
    · have : (base true v.boundIndices).getD k 0 = 0 := by
        simp only [base, if_true, List.getD, List.getElem?_replicate]; split <;> rfl
      rw [this]
      simp only [step, if_true]
      exact ⟨_, if_neg (by omega)⟩
  obtain ⟨j, hs⟩ := hstep
  have hgd : (i.set k j).getD k 0 = j := getD_set_self hik j
  have hle := step_le (hi.2 k) hs
  have hf : firstConfig (k + 1) up v (v.conf i) = .ok (v.conf (i.set k j), [v.conf (i.set k j)]) := by
    simp only [firstConfig, Nat.add_eq_right, if_neg (by omega : ¬ k = 0), Nat.add_sub_cancel,
      buildConfig_eq g up hi hk, hs, bind, Except.bind, Option.map_some]
  simp only [handleBase, hf, bind, Except.bind]
  rw [handleLoop_eq alpha inverted t up g hk _ (hi.set hle) (by
    rw [hgd]
    have h1 := rest_length up j _ hle
    have h2 := g.blt' k
    omega)]
  simp only [branch, rest_of_some (hi.2 k) hs, hgd, List.set_set, List.map_cons, bind, Except.bind,
    List.map_map, Function.comp_def]
  cases List.foldlM (handleConfig p alpha inverted t (k + 1) up v) s.1
      (v.conf (i.set k j) :: List.map (fun x => v.conf (i.set k x))
        (rest up j (v.boundIndices.getD k 0))) with
  | error e => rfl
  | ok x => simp

theorem handleBases_eq (g : Grid p v) {k : Nat} (hk0 : 0 < k) (hk : k < v.boundIndices.length) :
    ∀ (L : List (List Nat)), (∀ i ∈ L, Ok v.boundIndices i ∧
      i.getD k 0 = (base up v.boundIndices).getD k 0) → ∀ (s : Paths Vertex × List IConf),
    (L.map v.conf).foldlM (handleBase p alpha inverted t (k + 1) up v) s
      = (do
        let paths' ← ((L.flatMap (branch up v.boundIndices k)).map v.conf).foldlM
          (handleConfig p alpha inverted t (k + 1) up v) s.1
        .ok (paths', s.2 ++ (L.flatMap (branch up v.boundIndices k)).map v.conf)) := by
  intro L
  induction L with
  | nil => intro _ s; simp [bind, Except.bind, pure, Except.pure]
  | cons i L ih =>
    intro hL s
    obtain ⟨hi, hb⟩ := hL i (by simp)
    rw [List.map_cons, foldlM_cons', handleBase_eq alpha inverted t up g hk0 hk hi hb]
    rw [List.flatMap_cons, List.map_append, foldlM_append']
    cases h1 : ((branch up v.boundIndices k i).map v.conf).foldlM
        (handleConfig p alpha inverted t (k + 1) up v) s.1 with
    | error e => rfl
    | ok x =>
      simp only [bind, Except.bind]
      rw [ih (fun y hy => hL y (by simp [hy]))]
      simp only [bind, Except.bind, List.append_assoc]

/-- In dimensions where the configuration is at its starting value there are no predecessors. -/
theorem findPredecessors_eq (g : Grid p v) {k n : Nat} (hk : k ≤ v.boundIndices.length) (hn : n ≤ k)
    {i : List Nat} (hi : Ok v.boundIndices i)
    (hb : ∀ l, n ≤ l → i.getD l 0 = (base up v.boundIndices).getD l 0) :
    findPredecessors p alpha inverted t up n (v.conf i) v
      = findPredecessors p alpha inverted t up k (v.conf i) v := by
  induction k, hn using Nat.le_induction with
  | base => rfl
  | succ k hnk ih =>
    rw [ih (by omega)]
    have h1 : predEdge p alpha inverted up (v.conf i) v k = .ok none := by
      have : step (!up) (i.getD k 0) (v.boundIndices.getD k 0) = none := by
        rw [hb k hnk]
        cases up
        · simp [base, step]
        · have : (base true v.boundIndices).getD k 0 = 0 := by
            simp only [base, if_true, List.getD, List.getElem?_replicate]; split <;> rfl
          rw [this]; simp [step]
      simp only [predEdge, buildConfig_eq g (!up) hi (by omega : k < _), this, bind, Except.bind,
        Option.map_none]
    simp only [findPredecessors, List.range_succ, List.mapM_append, bind, Except.bind]
    cases (List.range k).mapM (predEdge p alpha inverted up (v.conf i) v) with
    | error e => rfl
    | ok es => simp [mapM_cons', mapM_nil', h1, bind, Except.bind, pure, Except.pure]

theorem handleConfig_congr (g : Grid p v) {n : Nat} (hn : n ≤ v.boundIndices.length)
    {i : List Nat} (hi : Ok v.boundIndices i)
    (hb : ∀ l, n ≤ l → i.getD l 0 = (base up v.boundIndices).getD l 0) (paths : Paths Vertex) :
    handleConfig p alpha inverted t n up v paths (v.conf i)
      = handleConfig p alpha inverted t v.boundIndices.length up v paths (v.conf i) := by
  unfold handleConfig
  rw [findPredecessors_eq alpha inverted t up g le_rfl hn hi hb]

theorem foldlM_congr' {α β : Type} {f h : β → α → Res β} {l : List α}
    (hfh : ∀ a ∈ l, ∀ b, f b a = h b a) (b : β) : l.foldlM f b = l.foldlM h b := by
  induction l generalizing b with
  | nil => rfl
  | cons a l ih =>
    rw [foldlM_cons', foldlM_cons', hfh a (by simp) b]
    congr 1
    funext b'
    exact ih (fun a' ha' => hfh a' (by simp [ha'])) b'

/-- What is handled in the recursion for dimension `k + 1`. -/
def visited (up : Bool) (b : List Nat) : Nat → List (List Nat)
  | 0 => ord up b 1
  | k + 1 => (ord up b (k + 1)).flatMap (branch up b (k + 1))

theorem mem_visited {up : Bool} {b i : List Nat} {k : Nat} (h : i ∈ visited up b k) :
    i ∈ ord up b (k + 1) := by
  cases k with
  | zero => exact h
  | succ k =>
    simp only [ord, List.mem_append]
    right; exact h

theorem stage_eq (g : Grid p v) {k : Nat} (hk : k < v.boundIndices.length) (paths : Paths Vertex) :
    ((ord up v.boundIndices k).map v.conf).foldlM (handleBase p alpha inverted t (k + 1) up v)
        (paths, [])
      = (do
        let paths' ← ((visited up v.boundIndices k).map v.conf).foldlM
          (handleConfig p alpha inverted t v.boundIndices.length up v) paths
        .ok (paths', ((ord up v.boundIndices k).flatMap (branch up v.boundIndices k)).map v.conf)) := by
  have hcongr : ∀ c ∈ (visited up v.boundIndices k).map v.conf, ∀ paths,
      handleConfig p alpha inverted t (k + 1) up v paths c
        = handleConfig p alpha inverted t v.boundIndices.length up v paths c := by
    intro c hc paths
    obtain ⟨i, hi, rfl⟩ := List.mem_map.1 hc
    obtain ⟨h1, h2⟩ := mem_ord (mem_visited hi)
    exact handleConfig_congr alpha inverted t up g (by omega) h1 h2 paths
  rw [← foldlM_congr' hcongr]
  cases k with
  | zero =>
    have hB := Ok.base up v.boundIndices
    have e1 : ord up v.boundIndices 0 = [base up v.boundIndices] := rfl
    have e2 : visited up v.boundIndices 0
        = base up v.boundIndices :: branch up v.boundIndices 0 (base up v.boundIndices) := by
      simp [visited, ord, branch]
    rw [e1, e2]
    simp only [List.map_cons, List.map_nil, foldlM_cons', handleBase, firstConfig, Nat.zero_add,
      if_true, bind, Except.bind, List.append_nil]
    rw [handleLoop_eq alpha inverted t up g hk _ hB (by
      have h1 := rest_length up _ _ (hB.2 0)
      have h2 := g.blt' 0
      omega)]
    simp only [branch, List.map_map, Function.comp_def, bind, Except.bind, foldlM_cons', Nat.zero_add,
      List.flatMap_cons, List.flatMap_nil, List.append_nil, List.nil_append]
    cases handleConfig p alpha inverted t 1 up v paths (v.conf (base up v.boundIndices)) with
    | error e => rfl
    | ok x =>
      simp only
      cases List.foldlM (handleConfig p alpha inverted t 1 up v) x
        (List.map (fun j => v.conf ((base up v.boundIndices).set 0 j))
          (rest up ((base up v.boundIndices).getD 0 0) (v.boundIndices.getD 0 0))) <;> rfl
  | succ k =>
    rw [handleBases_eq alpha inverted t up g (by omega) hk _ (by
      intro i hi; obtain ⟨h1, h2⟩ := mem_ord hi; exact ⟨h1, h2 _ le_rfl⟩)]
    simp [visited]

theorem handleDims_eq (g : Grid p v) : ∀ (n k : Nat), n + k = v.boundIndices.length →
    ∀ (paths : Paths Vertex),
    handleDims p alpha inverted t up v n (k + 1) ((ord up v.boundIndices k).map v.conf) paths
      = (((List.range n).flatMap fun m => visited up v.boundIndices (k + m)).map v.conf).foldlM
          (handleConfig p alpha inverted t v.boundIndices.length up v) paths := by
  intro n
  induction n with
  | zero => intro k _ paths; simp [handleDims, pure, Except.pure]
  | succ n ih =>
    intro k hk paths
    rw [handleDims, stage_eq alpha inverted t up g (by omega), List.range_succ_eq_map,
      List.flatMap_cons, List.map_append, foldlM_append', Nat.add_zero]
    simp only [bind, Except.bind]
    cases ((visited up v.boundIndices k).map v.conf).foldlM
        (handleConfig p alpha inverted t v.boundIndices.length up v) paths with
    | error e => rfl
    | ok x =>
      simp only
      have e1 : (ord up v.boundIndices k).map v.conf ++ List.map v.conf
          ((ord up v.boundIndices k).flatMap (branch up v.boundIndices k))
          = (ord up v.boundIndices (k + 1)).map v.conf := by
        simp only [ord, List.map_append]; rfl
      rw [e1, ih (k + 1) (by omega)]
      congr 2
      rw [List.flatMap_map]
      congr 1
      funext m
      rw [show k + 1 + m = k + (m + 1) by omega]

theorem visited_flatMap (up : Bool) (b : List Nat) (n : Nat) :
    (List.range (n + 1)).flatMap (visited up b) = ord up b (n + 1) := by
  induction n with
  | zero => simp [visited]
  | succ n ih =>
    rw [List.range_succ, List.flatMap_append, ih]
    simp only [List.flatMap_cons, List.flatMap_nil, List.append_nil]
    rfl

/-- A layer handles all its configurations in the order `ord`. -/
theorem handleLayer_eq (g : Grid p v) (hd : 0 < v.boundIndices.length) (paths : Paths Vertex) :
    handleLayer p alpha inverted t up v paths
      = ((ord up v.boundIndices v.boundIndices.length).map v.conf).foldlM
          (handleConfig p alpha inverted t v.boundIndices.length up v) paths := by
  unfold handleLayer
  have := handleDims_eq alpha inverted t up g v.boundIndices.length 0 (by omega) paths
  rw [g.base_conf, g.toNat]
  simp only [Nat.zero_add] at this
  rw [show [v.conf (base up v.boundIndices)] = (ord up v.boundIndices 0).map v.conf from rfl, this]
  obtain ⟨n, hn⟩ : ∃ n, v.boundIndices.length = n + 1 := ⟨v.boundIndices.length - 1, by omega⟩
  congr 2
  rw [hn]
  exact visited_flatMap up v.boundIndices n

end Loops

end Soco.Multi
