import Verif.Model.RoundedApprox
import Verif.Props.ApproxRatio
import Verif.Props.Rounding

/-!
# C124: rounding errors of the approximate graph search
-/

namespace Soco
open Multi

variable {C D : Type} [OutSuccess C] [OutFailure D]

/-- The first `K` powers of `γ`, up to a relative error of at most `δ`. -/
structure Spec.Powers (δ γ : ℚ) (K : Nat) (pw : Nat → ℚ) : Prop where
  nonneg : 0 ≤ δ
  lt_one : δ < 1
  below : ∀ i, 1 ≤ i → i ≤ K → (1 - δ) * γ ^ i ≤ pw i
  above : ∀ i, 1 ≤ i → i ≤ K → pw i ≤ (1 + δ) * γ ^ i

namespace Multi.Rounded

variable {pw : Nat → ℚ} {m : ℤ}

theorem powerLoop_keep : ∀ n i vs out, powerLoop pw m n i vs = some out → ∀ x ∈ vs, x ∈ out := by
  intro n
  induction n with
  | zero => intro i vs out h; simp [powerLoop] at h
  | succ n ih =>
    intro i vs out h x hx
    simp only [powerLoop] at h
    split_ifs at h with h1 h2
    · cases h; exact hx
    · cases h; exact mem_pushNew.2 (.inl hx)
    · exact ih _ _ _ h x (mem_pushNew.2 (.inl (mem_pushNew.2 (.inl hx))))

theorem powerLoop_nodup : ∀ n i vs out, powerLoop pw m n i vs = some out → vs.Nodup → out.Nodup := by
  intro n
  induction n with
  | zero => intro i vs out h; simp [powerLoop] at h
  | succ n ih =>
    intro i vs out h hn
    simp only [powerLoop] at h
    split_ifs at h with h1 h2
    · cases h; exact hn
    · cases h; exact nodup_pushNew hn
    · exact ih _ _ _ h (nodup_pushNew (nodup_pushNew hn))

theorem powerLoop_mono : ∀ n i vs out, powerLoop pw m n i vs = some out → ∀ n', n ≤ n' → powerLoop pw m n' i vs = some out := by
  intro n
  induction n with
  | zero => intro i vs out h; simp [powerLoop] at h
  | succ n ih =>
    intro i vs out h n' hn
    obtain ⟨k, rfl⟩ : ∃ k, n' = k + 1 := ⟨n' - 1, by omega⟩
    simp only [powerLoop] at h ⊢
    split_ifs at h ⊢ with h1 h2
    · exact h
    · exact h
    · exact ih _ _ _ h k (by omega)

theorem powerLoop_stops {K : Nat} (hK : (m : ℚ) + 1 ≤ pw K) :
    ∀ n i vs, i ≤ K → K < n + i → ∃ out, powerLoop pw m n i vs = some out := by
  intro n
  induction n with
  | zero => intro i vs h h'; omega
  | succ n ih =>
    intro i vs h h'
    simp only [powerLoop]
    split_ifs with h1 h2
    · exact ⟨_, rfl⟩
    · exact ⟨_, rfl⟩
    · refine ih _ _ ?_ (by omega)
      rcases Nat.lt_or_ge i K with hi | hi
      · omega
      · have : i = K := by omega
        subst this
        exact absurd (Int.le_floor.2 (by push_cast; exact hK) : m + 1 ≤ ⌊pw i⌋) (by omega)

/-- All values come from powers with an index up to `K`. -/
theorem powerLoop_nonneg {K : Nat} (hK : (m : ℚ) + 1 ≤ pw K) (hp : ∀ i, 1 ≤ i → i ≤ K → 0 ≤ pw i) :
    ∀ n i vs out, 1 ≤ i → i ≤ K → powerLoop pw m n i vs = some out → (∀ x ∈ vs, 0 ≤ x) → ∀ x ∈ out, 0 ≤ x := by
  intro n
  induction n with
  | zero => intro i vs out _ _ h; simp [powerLoop] at h
  | succ n ih =>
    intro i vs out h0 hi h hv
    have hpi := hp i h0 hi
    have hf : 0 ≤ ⌊pw i⌋ := Int.floor_nonneg.2 hpi
    have hc : 0 ≤ ⌈pw i⌉ := Int.ceil_nonneg hpi
    have push : ∀ (vs : List ℤ) (y : ℤ), (∀ x ∈ vs, 0 ≤ x) → 0 ≤ y → ∀ x ∈ pushNew vs y, 0 ≤ x := by
      intro vs y h1 h2 x hx
      rcases mem_pushNew.1 hx with hx | rfl
      · exact h1 x hx
      · exact h2
    simp only [powerLoop] at h
    split_ifs at h with h1 h2
    · cases h; exact hv
    · cases h; exact push _ _ hv hf
    · refine ih _ _ _ (by omega) ?_ h (push _ _ (push _ _ hv hf) hc)
      rcases Nat.lt_or_ge i K with h3 | h3
      · omega
      · have : i = K := by omega
        subst this
        exact absurd (Int.le_floor.2 (by push_cast; exact hK) : m + 1 ≤ ⌊pw i⌋) (by omega)

theorem powerLoop_complete : ∀ n i vs out, powerLoop pw m n i vs = some out →
    ∀ j, i ≤ j → (∀ k, i ≤ k → k < j → ⌈pw k⌉ ≤ m) →
      (⌊pw j⌋ ≤ m → ⌊pw j⌋ ∈ out) ∧ (⌈pw j⌉ ≤ m → ⌈pw j⌉ ∈ out) := by
  intro n
  induction n with
  | zero => intro i vs out h; simp [powerLoop] at h
  | succ n ih =>
    intro i vs out h j hj hk
    have hfc : ∀ k, ⌊pw k⌋ ≤ ⌈pw k⌉ := fun k => Int.floor_le_ceil _
    simp only [powerLoop] at h
    rcases Nat.eq_or_lt_of_le hj with rfl | hlt
    · split_ifs at h with h1 h2
      · have := hfc i
        exact ⟨fun h' => by omega, fun h' => by omega⟩
      · cases h
        exact ⟨fun _ => mem_pushNew.2 (.inr rfl), fun h' => by omega⟩
      · exact ⟨fun _ => powerLoop_keep _ _ _ _ h _ (mem_pushNew.2 (.inl (mem_pushNew.2 (.inr rfl)))),
          fun _ => powerLoop_keep _ _ _ _ h _ (mem_pushNew.2 (.inr rfl))⟩
    · have hi := hk i le_rfl hlt
      have := hfc i
      rw [if_neg (by omega), if_neg (by omega)] at h
      exact ih _ _ _ h j hlt fun k h1 h2 => hk k (by omega) h2

/-- The distance between the computed powers. -/
theorem powers_gap {δ γ : ℚ} {K : Nat} (P : Spec.Powers δ γ K pw) (hγ : 1 < γ) {i : Nat} (h1 : 1 ≤ i) (h2 : i + 1 ≤ K) :
    pw (i + 1) ≤ γ * (1 + δ) / (1 - δ) * pw i := by
  have hδ : 0 < 1 - δ := by linarith [P.lt_one]
  have h3 := P.below i h1 (by omega)
  have h4 := P.above (i + 1) (by omega) h2
  have hγ' : 0 ≤ γ * (1 + δ) / (1 - δ) := div_nonneg (mul_nonneg (by linarith) (by linarith [P.nonneg])) hδ.le
  calc pw (i + 1) ≤ (1 + δ) * γ ^ (i + 1) := h4
    _ = γ * (1 + δ) / (1 - δ) * ((1 - δ) * γ ^ i) := by field_simp; ring
    _ ≤ _ := mul_le_mul_of_nonneg_left h3 hγ'

/-- The grid the search works on. -/
theorem approx_grid (p : SSCO ℤ C D) (hv : Spec.ValidSSCO p) {δ γ : ℚ} {K : Nat} (P : Spec.Powers δ γ K pw) (hγ : 1 < γ)
    (hK : ∀ b ∈ p.bounds, (b : ℚ) + 1 ≤ (1 - δ) * γ ^ K) :
    ∃ v, (∀ fuel, K ≤ fuel → cacheBoundIndices fuel p.bounds pw = some (.ok v)) ∧ Multi.Grid p v ∧
      ∀ b ∈ p.bounds, Ratio.Grid (γ * (1 + δ) / (1 - δ)) b (· ∈ v.values) := by
  obtain ⟨h1, h2, h3, h4, h5, h6⟩ := hv
  have hδ : 0 < 1 - δ := by linarith [P.lt_one]
  have hδ0 := P.nonneg
  have hne : p.bounds ≠ [] := by intro h; rw [h] at h3; simp at h3; omega
  obtain ⟨m, hm⟩ : ∃ m, p.bounds.max? = some m := by
    rcases hb : p.bounds with _ | ⟨a, l⟩
    · exact absurd hb hne
    · exact ⟨_, rfl⟩
  have hmax := List.max?_eq_some_iff.1 hm
  have hm0 := h5 m hmax.1
  have hK1 : 1 ≤ K := by
    rcases Nat.eq_zero_or_pos K with rfl | h
    · have h7 := hK m hmax.1
      have : (0 : ℚ) < m := by exact_mod_cast hm0
      simp at h7
      linarith
    · exact h
  have hKm : (m : ℚ) + 1 ≤ pw K := (hK m hmax.1).trans (P.below K hK1 le_rfl)
  obtain ⟨out, hout⟩ := powerLoop_stops hKm K 1 [0] hK1 (by omega)
  have hf := foldl_pushNew p.bounds out
  set vs := (p.bounds.foldl pushNew out).insertionSort (· ≤ ·) with hvs
  have hmem : ∀ x, x ∈ vs ↔ x ∈ out ∨ x ∈ p.bounds := fun x => by rw [hvs, List.mem_insertionSort, hf.1]
  have hs : vs.Pairwise (· < ·) := by
    have hnd := hf.2 (powerLoop_nodup _ _ _ _ hout (by simp))
    have h1 := List.pairwise_insertionSort (fun a b : ℤ => a ≤ b) (p.bounds.foldl pushNew out)
    have h2 : ((p.bounds.foldl pushNew out).insertionSort (fun a b : ℤ => a ≤ b)).Nodup :=
      (List.perm_insertionSort _ _).nodup_iff.2 hnd
    exact (h1.and h2).imp fun {a b} h => lt_of_le_of_ne h.1 h.2
  have hbuild : ∀ fuel, K ≤ fuel → buildValues fuel p.bounds pw = some (.ok vs) := by
    intro fuel hfuel
    unfold buildValues
    rw [hm]
    simp only [powerLoop_mono _ _ _ _ hout fuel hfuel, hvs]
  have hpos : ∀ i, 1 ≤ i → i ≤ K → 0 ≤ pw i := fun i hi hi' =>
    le_trans (mul_nonneg hδ.le (pow_nonneg (by linarith) _)) (P.below i hi hi')
  have h0 : (0 : ℤ) ∈ vs := (hmem 0).2 (.inl (powerLoop_keep _ _ _ _ hout 0 (by simp)))
  have hnn : ∀ x ∈ vs, 0 ≤ x := by
    intro x hx
    rcases (hmem x).1 hx with hx | hx
    · exact powerLoop_nonneg hKm hpos _ _ _ _ le_rfl hK1 hout (by simp) x hx
    · exact (h5 x hx).le
  have hzero : vs[0]? = some 0 := by
    generalize vs = vs at h0 hs hnn
    rcases vs with _ | ⟨a, l⟩
    · simp at h0
    · rcases List.mem_cons.1 h0 with rfl | h
      · rfl
      · have ha := (List.pairwise_cons.1 hs).1 0 h
        have := hnn a (by simp)
        omega
  obtain ⟨is, hi1, hi2, hi3, hi4⟩ := mapM_positionOf vs p.bounds fun b hb => (hmem b).2 (.inr hb)
  have hγ1 : 1 < γ * (1 + δ) / (1 - δ) := by rw [lt_div_iff₀ hδ]; nlinarith
  refine ⟨⟨vs, is⟩, ?_, ?_, ?_⟩
  · intro fuel hf
    unfold cacheBoundIndices
    rw [hbuild fuel hf]
    simp only [Option.map_some, bind, Except.bind, hi1]
  · exact
    { dim := h3.symm
      sc := by omega
      bi := hi2
      bpos := by
        intro b hb
        rcases Nat.eq_zero_or_pos b with rfl | h
        · have : (0 : ℤ) ∈ p.bounds := by
            rw [hi4]; exact List.mem_map.2 ⟨0, hb, by simp [List.getD, hzero]⟩
          have := h5 0 this; omega
        · exact h
      blt := hi3
      zero := hzero
      mono := hs
      bounds := hi4 }
  · intro b hb
    have hbm : b ≤ m := hmax.2 b hb
    have hb0 := h5 b hb
    have hin : ∀ j, 1 ≤ j → (∀ k, 1 ≤ k → k < j → ⌈pw k⌉ ≤ m) → (⌊pw j⌋ ≤ m → ⌊pw j⌋ ∈ vs) ∧ (⌈pw j⌉ ≤ m → ⌈pw j⌉ ∈ vs) := by
      intro j hj hk
      have := powerLoop_complete _ _ _ _ hout j hj hk
      exact ⟨fun h => (hmem _).2 (.inl (this.1 h)), fun h => (hmem _).2 (.inl (this.2 h))⟩
    refine ⟨hγ1, hb0, h0, (hmem b).2 (.inr hb), fun a ha hab => ?_, ?_⟩
    · classical
      have hex : ∃ n : Nat, 1 ≤ n ∧ (a : ℚ) < pw n := ⟨K, hK1, by
        have : (a : ℚ) ≤ m := by exact_mod_cast (by omega : a ≤ m)
        linarith⟩
      obtain ⟨hi1, hi2⟩ := Nat.find_spec hex
      have hmin : ∀ k, 1 ≤ k → k < Nat.find hex → pw k ≤ a := fun k h1 h2 => by
        have := Nat.find_min hex h2
        push Not at this
        exact this h1
      have hiK : Nat.find hex ≤ K := Nat.find_min' hex ⟨hK1, by
        have : (a : ℚ) ≤ m := by exact_mod_cast (by omega : a ≤ m)
        linarith⟩
      generalize Nat.find hex = i at hi1 hi2 hmin hiK
      have hw := hin i hi1 fun k h1 h2 => (Int.ceil_le.2 (hmin k h1 h2)).trans (by omega)
      have hle : pw i ≤ γ * (1 + δ) / (1 - δ) * a := by
        rcases Nat.lt_or_ge 1 i with h | h
        · obtain ⟨k, rfl⟩ : ∃ k, i = k + 1 := ⟨i - 1, by omega⟩
          refine (powers_gap P hγ (by omega) hiK).trans ?_
          exact mul_le_mul_of_nonneg_left (hmin k (by omega) (by omega)) (by linarith)
        · have : i = 1 := by omega
          subst this
          have h1 := P.above 1 le_rfl hK1
          have ha1 : (1 : ℚ) ≤ a := by exact_mod_cast ha
          have h2 : (1 + δ) * γ ^ 1 ≤ γ * (1 + δ) / (1 - δ) := by
            rw [le_div_iff₀ hδ]
            have : 0 ≤ (1 + δ) * γ := mul_nonneg (by linarith) (by linarith)
            nlinarith
          nlinarith
      rcases lt_or_ge a ⌊pw i⌋ with h4 | h4
      · have h5 : ((⌊pw i⌋ : ℤ) : ℚ) ≤ γ * (1 + δ) / (1 - δ) * a := (Int.floor_le _).trans hle
        by_cases h6 : ⌊pw i⌋ ≤ b
        · exact ⟨_, hw.1 (by omega), h4, h6, .inl h5⟩
        · refine ⟨b, (hmem b).2 (.inr hb), hab, le_rfl, .inl (le_trans ?_ h5)⟩
          exact_mod_cast (by omega : b ≤ ⌊pw i⌋)
      · have h5 : ⌊pw i⌋ = a := le_antisymm h4 (Int.le_floor.2 hi2.le)
        have h6 : a < ⌈pw i⌉ := Int.lt_ceil.2 hi2
        have h7 : ⌈pw i⌉ ≤ ⌊pw i⌋ + 1 := Int.ceil_le_floor_add_one _
        have h8 : ⌈pw i⌉ = a + 1 := by omega
        exact ⟨⌈pw i⌉, hw.2 (by omega), by omega, by omega, .inr h8⟩
    · have hw := hin 1 le_rfl fun k h1 h2 => by omega
      have hle : pw 1 ≤ γ * (1 + δ) / (1 - δ) := by
        refine (P.above 1 le_rfl hK1).trans ?_
        rw [le_div_iff₀ hδ, pow_one]
        have : 0 ≤ (1 + δ) * γ := mul_nonneg (by linarith) (by linarith)
        nlinarith
      have hp1 : 0 < pw 1 := lt_of_lt_of_le (mul_pos hδ (pow_pos (by linarith) _)) (P.below 1 le_rfl hK1)
      have hfl : ((⌊pw 1⌋ : ℤ) : ℚ) ≤ pw 1 := Int.floor_le _
      have hc1 : 0 < ⌈pw 1⌉ := Int.ceil_pos.2 hp1
      have h7 : ⌈pw 1⌉ ≤ ⌊pw 1⌋ + 1 := Int.ceil_le_floor_add_one _
      by_cases hf0 : 0 < ⌊pw 1⌋
      · by_cases h : ⌊pw 1⌋ ≤ b
        · exact ⟨⌊pw 1⌋, hw.1 (by omega), hf0, h, hfl.trans hle⟩
        · exact ⟨b, (hmem b).2 (.inr hb), hb0, le_rfl, by
            have : (b : ℚ) ≤ ⌊pw 1⌋ := by exact_mod_cast (by omega : b ≤ ⌊pw 1⌋)
            linarith⟩
      · exact ⟨⌈pw 1⌉, hw.2 (by omega), hc1, by omega, by
          have : (⌈pw 1⌉ : ℚ) ≤ 1 := by exact_mod_cast (by omega : ⌈pw 1⌉ ≤ 1)
          linarith⟩

theorem strict_index {vs : List ℤ} (hs : vs.Pairwise (· < ·)) (hnn : ∀ x ∈ vs, 0 ≤ x) :
    ∀ i (h : i < vs.length), (i : ℤ) ≤ vs[i] := by
  intro i
  induction i with
  | zero => intro h; exact_mod_cast hnn _ (List.getElem_mem h)
  | succ i ih =>
    intro h
    have h1 := ih (by omega)
    have h2 := List.pairwise_iff_getElem.1 hs i (i + 1) (by omega) h (by omega)
    push_cast
    omega

/-- There are at most as many grid values below a bound as numbers. -/
theorem indices_le {p : SSCO ℤ C D} {v : Values} (g : Multi.Grid p v) : v.boundIndices.sum ≤ (p.bounds.map Int.toNat).sum := by
  have h0 : ∀ x ∈ v.values, 0 ≤ x := by
    have hz := g.zero
    have hm := g.mono
    generalize v.values = vs at hz hm
    rcases vs with _ | ⟨a, l⟩
    · simp
    · simp at hz
      subst hz
      intro x hx
      rcases List.mem_cons.1 hx with rfl | hx
      · exact le_rfl
      · exact ((List.pairwise_cons.1 hm).1 x hx).le
  rw [g.bounds, List.map_map]
  have : ∀ bi : List Nat, (∀ b ∈ bi, b < v.values.length) →
      bi.sum ≤ (bi.map (Int.toNat ∘ fun b => v.values.getD b 0)).sum := by
    intro bi
    induction bi with
    | nil => intro _; simp
    | cons b bi ih =>
      intro h
      have h1 := ih fun x hx => h x (by simp [hx])
      have hb := h b (by simp)
      have h2 := strict_index g.mono h0 b hb
      have h3 : v.values.getD b 0 = v.values[b] := by simp [List.getD, hb]
      simp only [List.map_cons, List.sum_cons, Function.comp_apply, h3]
      omega
  exact this _ g.blt

end Multi.Rounded

/-- **C124** The approximate graph search, with sums and products of costs rounded with relative error at most `u` and powers of `γ`
computed with relative error at most `δ`. It terminates and returns a schedule of horizon length inside the bounds. The reported cost
is the exact cost `k` of this schedule up to factors `(1 - u)^N` and `(1 + u)^N`. For hitting costs that grow at most proportionally with
the servers, `(1 - u)^N * k` is at most `(1 + u)^N * (2 γ' - 1)` times the exact cost of any other schedule, where
`γ' = γ (1 + δ) / (1 - δ)`. -/
theorem C124_approx_search {fl : ℚ → ℚ} {u : ℚ} (R : Spec.Rounds u fl) {δ γ : ℚ} {K : Nat} {pw : Nat → ℚ} (P : Spec.Powers δ γ K pw)
    (hγ : 1 < γ) (p : SSCO ℤ C D) (hv : p.verify = .ok ()) (hT : 1 ≤ p.tEnd)
    (hK : ∀ b ∈ p.bounds, (b : ℚ) + 1 ≤ (1 - δ) * γ ^ K)
    (o : OfflineOptions) (hl : o.l = none) (hα : 0 ≤ o.alpha) (hit : Int → Config ℤ → ECost)
    (hhit : ∀ t : Int, 1 ≤ t → t ≤ p.tEnd → ∀ x, Spec.InBox p.bounds x →
      0 ≤ hit t x ∧ ∃ out, p.toProb.hitCost t x = .ok ⟨hit t x, out⟩)
    (hfin : ∀ t : Int, 1 ≤ t → t ≤ p.tEnd → hit t p.bounds ≠ ⊤)
    (hgrow : ∀ t : Int, 1 ≤ t → t ≤ p.tEnd →
      Spec.GrowsAtMostBy (2 * (γ * (1 + δ) / (1 - δ)) - 1) (Spec.InBox p.bounds) (hit t)) :
    ∃ (r : CachedPath Vertex) (c k : ℚ), (∀ fuel, K ≤ fuel → Rounded.approxGraphSearch fl pw fuel p none o = some (.ok r)) ∧
      (r.path.xs.length : Int) = p.tEnd ∧ (∀ x ∈ r.path.xs, Spec.InBox p.bounds x) ∧ r.path.cost = (c : ECost) ∧ 0 ≤ k ∧
      (∃ out, p.toProb.alphaUnfairObjective r.path.xs o.alpha = .ok ⟨(k : ECost), out⟩) ∧
      (1 - u) ^ Spec.roundings p.tEnd.toNat p.bounds * k ≤ c ∧ c ≤ (1 + u) ^ Spec.roundings p.tEnd.toNat p.bounds * k ∧
      ∀ ys : Schedule ℤ, (ys.length : Int) = p.tEnd → (∀ y ∈ ys, Spec.InBox p.bounds y) →
        ∃ c', p.toProb.alphaUnfairObjective ys o.alpha = .ok c' ∧
          ∀ q : ℚ, c'.cost = (q : ECost) →
            (1 - u) ^ Spec.roundings p.tEnd.toNat p.bounds * k
              ≤ (1 + u) ^ Spec.roundings p.tEnd.toNat p.bounds * ((2 * (γ * (1 + δ) / (1 - δ)) - 1) * q) := by
  have hv' : Spec.ValidSSCO p := by
    by_contra hc
    have := (C10_ssco_verify_exact p).2 hc
    rw [hv] at this; simp at this
  obtain ⟨v, h1, g, h2⟩ := Rounded.approx_grid p hv' P hγ hK
  have hsum := Rounded.indices_le g
  obtain ⟨r, c, k, h3, h4, h5, h6, h6', h7, h8, h9⟩ := Rounded.graphSearch_grid R p v hv' g hT o hl hα hit
    (fun t ht ht' x hx => hhit t ht ht' x hx.1) hfin
  have hu := R.nonneg
  have hu1 := R.lt_one
  have hexp : p.tEnd.toNat * (2 * v.boundIndices.sum + 2) + 1 ≤ Spec.roundings p.tEnd.toNat p.bounds := by
    unfold Spec.roundings
    have := Nat.mul_le_mul_left p.tEnd.toNat (show 2 * v.boundIndices.sum + 2 ≤ 2 * (p.bounds.map Int.toNat).sum + 2 by omega)
    omega
  generalize p.tEnd.toNat * (2 * v.boundIndices.sum + 2) + 1 = n at h8 h9 hexp
  generalize Spec.roundings p.tEnd.toNat p.bounds = N at hexp ⊢
  have hup : ∀ a : ℚ, c ≤ (1 + u) ^ n * a → 0 ≤ a := by
    intro a ha
    by_contra hc
    push Not at hc
    have := mul_neg_of_pos_of_neg (pow_pos (show 0 < 1 + u by linarith) n) hc
    linarith
  have h10 : c ≤ (1 + u) ^ n * k := by
    obtain ⟨c', c1, c2⟩ := h9 r.path.xs h4 h5
    obtain ⟨out, h7⟩ := h7
    rw [h7] at c1
    cases c1
    exact c2 k rfl
  have hk := hup k h10
  have hlow : ∀ a : ℚ, 0 ≤ a → (1 - u) ^ N * a ≤ (1 - u) ^ n * a := fun a ha =>
    mul_le_mul_of_nonneg_right (pow_le_pow_of_le_one (by linarith) (by linarith) hexp) ha
  have hhigh : ∀ a : ℚ, 0 ≤ a → (1 + u) ^ n * a ≤ (1 + u) ^ N * a := fun a ha =>
    mul_le_mul_of_nonneg_right (pow_le_pow_right₀ (by linarith) hexp) ha
  refine ⟨r, c, k, ?_, h4, fun x hx => (h5 x hx).1, h6, hk, h7, (hlow k hk).trans h8, h10.trans (hhigh k hk), ?_⟩
  · intro fuel hf
    simp only [Rounded.approxGraphSearch, h1 fuel hf, Option.map_some, bind, Except.bind, h3]
  · intro ys hy hbox
    have hobj : ∀ zs : Schedule ℤ, (zs.length : Int) = p.tEnd → (∀ z ∈ zs, Spec.InBox p.bounds z) →
        ∃ out, p.toProb.alphaUnfairObjective zs o.alpha
          = .ok ⟨Spec.totalCost hit (Spec.upCost p.switchingCost) o.alpha 1
            (List.replicate p.d.toNat 0) zs, out⟩ := fun zs hz hzb =>
      objective_total p hv' o.alpha hit (fun _ => True) (fun t ht ht' x hx _ => (hhit t ht ht' x hx).2) zs hz
        fun z hz' => ⟨hzb z hz', trivial⟩
    obtain ⟨out, ho⟩ := hobj ys hy hbox
    refine ⟨_, ho, fun q hq => ?_⟩
    have hd : p.d.toNat = p.bounds.length := by have := hv'.2.2.1; omega
    have hI := Ratio.invL_zero (γ := γ * (1 + δ) / (1 - δ)) (G := (· ∈ v.values)) p.bounds h2
    simp only at hq
    rw [hd] at hq
    obtain ⟨zs, z1, z2, z3⟩ := Ratio.follow p.switchingCost (fun b hb => (hv'.2.2.2.2.2 b hb).le) o.alpha hα hit p.tEnd
      hgrow ys 1 _ _ _ hI le_rfl (by omega) hbox q hq
    have hw : Ratio.wsum p.switchingCost (List.replicate p.bounds.length 0) = 0 := by
      unfold Ratio.wsum
      apply List.sum_eq_zero
      intro e he
      obtain ⟨i, hi, rfl⟩ := List.getElem_of_mem he
      simp
    rw [hw, mul_zero, add_zero] at z3
    obtain ⟨c', hc, hle⟩ := h9 zs (by omega) z2
    obtain ⟨out', ho'⟩ := hobj zs (by omega) fun z hz => (z2 z hz).1
    rw [ho', hd] at hc
    cases hc
    obtain ⟨z, hz⟩ := WithTop.ne_top_iff_exists.1 (ne_top_of_le_ne_top WithTop.coe_ne_top z3)
    rw [← hz, WithTop.coe_le_coe] at z3
    have h11 := hle z hz.symm
    have hz0 := hup z h11
    calc (1 - u) ^ N * k ≤ c := (hlow k hk).trans h8
      _ ≤ (1 + u) ^ N * z := h11.trans (hhigh z hz0)
      _ ≤ _ := mul_le_mul_of_nonneg_left z3 (pow_nonneg (by linarith) _)

/-- **C124** With 53 binary digits, as in `f64`, and at most a billion roundings on a path, the schedule returned costs at most
`(2 γ' - 1)` times as much as any other one and a millionth more, and the reported cost is its cost up to a millionth. -/
theorem C124_double {δ γ : ℚ} {K : Nat} {pw : Nat → ℚ} (P : Spec.Powers δ γ K pw)
    (hγ : 1 < γ) (p : SSCO ℤ C D) (hv : p.verify = .ok ()) (hT : 1 ≤ p.tEnd)
    (hK : ∀ b ∈ p.bounds, (b : ℚ) + 1 ≤ (1 - δ) * γ ^ K)
    (o : OfflineOptions) (hl : o.l = none) (hα : 0 ≤ o.alpha) (hit : Int → Config ℤ → ECost)
    (hhit : ∀ t : Int, 1 ≤ t → t ≤ p.tEnd → ∀ x, Spec.InBox p.bounds x →
      0 ≤ hit t x ∧ ∃ out, p.toProb.hitCost t x = .ok ⟨hit t x, out⟩)
    (hfin : ∀ t : Int, 1 ≤ t → t ≤ p.tEnd → hit t p.bounds ≠ ⊤)
    (hgrow : ∀ t : Int, 1 ≤ t → t ≤ p.tEnd →
      Spec.GrowsAtMostBy (2 * (γ * (1 + δ) / (1 - δ)) - 1) (Spec.InBox p.bounds) (hit t))
    (hN : Spec.roundings p.tEnd.toNat p.bounds ≤ 10 ^ 9) :
    ∃ (r : CachedPath Vertex) (c k : ℚ),
      (∀ fuel, K ≤ fuel → Rounded.approxGraphSearch Spec.double pw fuel p none o = some (.ok r)) ∧
      (r.path.xs.length : Int) = p.tEnd ∧ (∀ x ∈ r.path.xs, Spec.InBox p.bounds x) ∧ r.path.cost = (c : ECost) ∧
      (∃ out, p.toProb.alphaUnfairObjective r.path.xs o.alpha = .ok ⟨(k : ECost), out⟩) ∧
      |c - k| ≤ 1 / 10 ^ 6 * k ∧
      ∀ ys : Schedule ℤ, (ys.length : Int) = p.tEnd → (∀ y ∈ ys, Spec.InBox p.bounds y) →
        ∃ c', p.toProb.alphaUnfairObjective ys o.alpha = .ok c' ∧
          ∀ q : ℚ, c'.cost = (q : ECost) → k ≤ (1 + 1 / 10 ^ 6) * ((2 * (γ * (1 + δ) / (1 - δ)) - 1) * q) := by
  obtain ⟨r, c, k, h1, h2, h3, h4, hk, h5, h6, h7, h8⟩ :=
    C124_approx_search C120_double_rounds P hγ p hv hT hK o hl hα hit hhit hfin hgrow
  generalize Spec.roundings p.tEnd.toNat p.bounds = N at hN h6 h7 h8
  have hN' : (N : ℚ) * (1 / 2 ^ 53) ≤ 1 / (5 * 10 ^ 6) := by
    have : (N : ℚ) ≤ 10 ^ 9 := by exact_mod_cast hN
    calc (N : ℚ) * (1 / 2 ^ 53) ≤ 10 ^ 9 * (1 / 2 ^ 53) := mul_le_mul_of_nonneg_right this (by norm_num)
      _ ≤ 1 / (5 * 10 ^ 6) := by norm_num
  refine ⟨r, c, k, h1, h2, h3, h4, h5, Rounded.billion hN hk h6 h7, ?_⟩
  intro ys hy hys
  obtain ⟨c', c1, c2⟩ := h8 ys hy hys
  refine ⟨c', c1, fun q hq => ?_⟩
  have h9 := c2 q hq
  generalize (2 * (γ * (1 + δ) / (1 - δ)) - 1) * q = z at h9
  have hz0 : 0 ≤ z := by
    by_contra hc
    push Not at hc
    have h10 := mul_neg_of_pos_of_neg (pow_pos (show (0 : ℚ) < 1 + 1 / 2 ^ 53 by norm_num) N) hc
    have h11 := mul_nonneg (pow_nonneg (show (0 : ℚ) ≤ 1 - 1 / 2 ^ 53 by norm_num) N) hk
    linarith
  have := Rounded.few (N := N) (u := 1 / 2 ^ 53) (by norm_num) (by norm_num) (by norm_num) hN' hz0 h9 (by norm_num)
  exact this.trans (mul_le_mul_of_nonneg_right (by norm_num) hz0)

theorem Multi.Rounded.graphSearch_id (p : SSCO ℤ C D) (v : Values) (cache : Option (Cache Vertex)) (o : OfflineOptions) :
    Rounded.graphSearch (fun x => x) p v cache o = Multi.graphSearch p v cache o := by
  have h : ∀ alpha inverted v, Rounded.handleSlot (fun x => x) p alpha inverted v = Multi.handleSlot p alpha inverted v := by
    intro alpha inverted v
    funext paths t
    unfold Rounded.handleSlot Multi.handleSlot Rounded.handleLayer Multi.handleLayer
    simp only [Rounded.handleDims_id]
  unfold Rounded.graphSearch Multi.graphSearch
  simp only [h]

/-- Without rounding this is the search of C25 and C64. -/
theorem C124_exact (fuel : Nat) (p : SSCO ℤ C D) (cache : Option (Cache Vertex)) (γ : ℚ) (o : OfflineOptions) :
    Rounded.approxGraphSearch (fun x => x) (fun i => γ ^ i) fuel p cache o = Multi.approxGraphSearch fuel p cache γ o := by
  have h : ∀ m n i vs, Rounded.powerLoop (fun i => γ ^ i) m n i vs = Multi.powerLoop γ m n i vs := by
    intro m n
    induction n with
    | zero => intro i vs; rfl
    | succ n ih => intro i vs; simp only [Rounded.powerLoop, Multi.powerLoop, ih]
  have h2 : ∀ bounds, Rounded.buildValues fuel bounds (fun i => γ ^ i) = Multi.buildValues fuel bounds γ := by
    intro bounds
    unfold Rounded.buildValues Multi.buildValues
    simp only [h]
    rfl
  simp only [Rounded.approxGraphSearch, Multi.approxGraphSearch, Rounded.cacheBoundIndices, Multi.cacheBoundIndices, h2,
    Rounded.graphSearch_id]

/-- Correctly rounded powers have a relative error of at most `2⁻⁵³`. -/
theorem C124_powers (γ : ℚ) (hγ : 0 ≤ γ) (K : Nat) : Spec.Powers (1 / 2 ^ 53) γ K fun i => Spec.double (γ ^ i) where
  nonneg := by norm_num
  lt_one := by norm_num
  below i _ _ := C120_double_rounds.below _ (pow_nonneg hγ i)
  above i _ _ := C120_double_rounds.above _ (pow_nonneg hγ i)

/-- Two slots, at most ten servers; idle costs of one per server. -/
def Ex.growing : SSCO ℤ Unit Unit where
  d := 1
  tEnd := 2
  bounds := [10]
  switchingCost := [2]
  hittingCost := CostFn.new 1 (SingleCostFn.certain fun _ x => .ok (Cost.raw ((3 + (x.getD 0 0 : ℚ) : ℚ) : ECost)))

/-- C124 applies to this instance with `γ = 3/2`, where the fifteenth power exceeds the bound. -/
example (inverted : Bool) := C124_double (C124_powers (3 / 2) (by norm_num) 15) (by norm_num) Ex.growing (by decide +kernel) (by decide)
  (by simp [Ex.growing]; norm_num) ⟨inverted, 2, none⟩ rfl (by norm_num) (fun _ x => ((3 + (x.getD 0 0 : ℚ) : ℚ) : ECost))
  (fun t h1 h2 x hx => by
    have hlen : x.length = Ex.growing.bounds.length := (List.Forall₂.length_eq hx).symm
    constructor
    · cases hx with
      | @cons _ j _ tl h0 htl =>
        have : (0 : ℚ) ≤ j := by exact_mod_cast h0.1
        simp only [List.getD_cons_zero]
        exact_mod_cast (by linarith : (0 : ℚ) ≤ 3 + j)
    · show ∃ out, Ex.growing.hittingCost.callMeanWithinBounds t x _ = _
      rw [((C06_guarded_evaluation Ex.growing.hittingCost t Ex.growing.bounds x hlen).1 hx).1]
      exact ⟨_, CostFn.callMean_certain _ t h1 x⟩)
  (fun t h1 h2 => WithTop.coe_ne_top)
  (fun t h1 h2 x y hx hy hxy q hq => by
    have hq' := WithTop.coe_injective hq
    rw [WithTop.coe_le_coe, ← hq']
    cases hxy with
    | nil => cases hx
    | @cons j k _ _ h0 _ =>
      simp only [List.getD_cons_zero]
      have h3 := h0.2
      rw [mul_add]
      refine add_le_add ?_ h3
      norm_num)
  (by decide)

end Soco
