import Verif.Spec.ExactRounding
import Verif.Props.RoundedUni

/-! # Rounding of multiples of a unit -/

namespace Soco
open Uni Spec

theorem foldlM_agree {α β : Type} {f h : β → α → Res β} (P : β → Prop) : ∀ (l : List α) (b : β), P b →
    (∀ b, P b → ∀ a ∈ l, f b a = h b a) → (∀ b, P b → ∀ a ∈ l, ∀ b', h b a = .ok b' → P b') →
    l.foldlM f b = l.foldlM h b ∧ ∀ b', l.foldlM h b = .ok b' → P b'
  | [], b, hb, _, _ => ⟨rfl, fun b' e => by
      simp only [List.foldlM_nil, pure, Except.pure, Except.ok.injEq] at e; exact e ▸ hb⟩
  | a :: l, b, hb, h1, h2 => by
    rw [Multi.foldlM_cons', Multi.foldlM_cons', h1 b hb a (by simp)]
    cases e : h b a with
    | error x => exact ⟨rfl, fun b' e' => by cases e'⟩
    | ok c =>
      exact foldlM_agree P l c (h2 b hb a (by simp) c e) (fun b hb a ha => h1 b hb a (by simp [ha]))
        (fun b hb a ha => h2 b hb a (by simp [ha]))

namespace Spec

variable {fl : ℚ → ℚ} {e : ℚ} {N : Nat}

theorem Multiple.mono {a b : Nat} {x : ECost} (h : a ≤ b) : Multiple e a x → Multiple e b x := by
  rintro (rfl | ⟨k, hk, rfl⟩)
  · exact Or.inl rfl
  · exact Or.inr ⟨k, hk.trans h, rfl⟩

theorem Multiple.zero (a : Nat) : Multiple e a 0 := Or.inr ⟨0, Nat.zero_le _, by simp⟩

theorem Multiple.add {a b : Nat} {x y : ECost} (hx : Multiple e a x) (hy : Multiple e b y) : Multiple e (a + b) (x + y) := by
  rcases hx with rfl | ⟨k, hk, rfl⟩
  · exact Or.inl (top_add _)
  rcases hy with rfl | ⟨l, hl, rfl⟩
  · exact Or.inl (add_top _)
  refine Or.inr ⟨k + l, by omega, ?_⟩
  rw [← WithTop.coe_add, ← add_mul, ← Nat.cast_add]

theorem ExactTo.cost (E : ExactTo fl e N) {x : ECost} (h : Multiple e N x) : x.map fl = x := by
  rcases h with rfl | ⟨k, hk, rfl⟩
  · rfl
  · show ((fl (k * e) : ℚ) : ECost) = _
    rw [E.exact k hk]

theorem ExactTo.addFl (E : ExactTo fl e N) {a b : Nat} {x y : ECost} (hx : Multiple e a x) (hy : Multiple e b y) (h : a + b ≤ N) :
    addFl fl x y = x + y := E.cost ((hx.add hy).mono h)

end Spec

namespace Uni.Rounded

variable {C D : Type} [OutSuccess C] [OutFailure D] {fl : ℚ → ℚ} {e : ℚ} {N : Nat}

/-- The costs of a one-dimensional problem are multiples of a unit. -/
structure Units (p : SSCO ℤ C D) (m : ℤ) (e : ℚ) (h b : Nat) : Prop where
  switching : p.switchingCost = [(b * e : ℚ)]
  hit : ∀ t : Int, 1 ≤ t → t ≤ p.tEnd → ∀ j, 0 ≤ j → j ≤ m → ∀ c, p.toProb.hitCost t [j] = .ok c → Multiple e h c.cost

variable {p : SSCO ℤ C D} {m : ℤ} {h a b : Nat} {inverted : Bool}

theorem mv1_multiple (inverted : Bool) {i j : ℤ} (hi : 0 ≤ i ∧ i ≤ m) (hj : 0 ≤ j ∧ j ≤ m) :
    ∃ k : Nat, k ≤ b * m.toNat ∧ mv1 (b * e) inverted i j = k * e := by
  obtain ⟨n, hn⟩ : ∃ n : Nat, max 0 (if inverted then i - j else j - i) = (n : ℤ) := Int.eq_ofNat_of_zero_le (le_max_left _ _)
  refine ⟨b * n, Nat.mul_le_mul_left b ?_, ?_⟩
  · have : (n : ℤ) ≤ m := by
      rw [← hn]
      refine max_le (by omega) ?_
      split <;> omega
    omega
  · rw [mv1, hn]
    push_cast
    ring

theorem buildCost_whole (E : ExactTo fl e N) (U : Units p m e h b) (hN : h + a * (b * m.toNat) ≤ N) {t : Int} (h1 : 1 ≤ t)
    (h2 : t ≤ p.tEnd) {i j : ℤ} (hi : 0 ≤ i ∧ i ≤ m) (hj : 0 ≤ j ∧ j ≤ m) (ha : 1 ≤ a) :
    buildCost fl p t i j a inverted = Uni.buildCost p t i j a inverted ∧
      ∀ c, Uni.buildCost p t i j a inverted = .ok c → Multiple e (h + a * (b * m.toNat)) c := by
  obtain ⟨k, hk, ek⟩ := mv1_multiple (e := e) (b := b) inverted hi hj
  have hka : a * k ≤ a * (b * m.toNat) := Nat.mul_le_mul_left a hk
  have hk' : b * m.toNat ≤ a * (b * m.toNat) := Nat.le_mul_of_pos_left _ ha
  have e1 : fl (0 + fl (mv1 (b * e) inverted i j)) = k * e := by
    rw [ek, E.exact k (by omega), zero_add, E.exact k (by omega)]
  have e2 : fl ((a : ℚ) * (k * e)) = (a * (k * e) : ℚ) := by
    have := E.exact (a * k) (by omega)
    rw [Nat.cast_mul, mul_assoc] at this
    exact this
  have hm : Multiple e (a * (b * m.toNat)) (((a : ℚ) * (k * e) : ℚ) : ECost) := Or.inr ⟨a * k, hka, by push_cast; rw [mul_assoc]⟩
  unfold buildCost Uni.buildCost
  rw [U.switching, movement_rounded, movement_one U.switching, e1, ek]
  cases hc : p.toProb.hitCost t [j] with
  | error x => exact ⟨rfl, fun c hc => by cases hc⟩
  | ok c =>
    have hcm := U.hit t h1 h2 j hj.1 hj.2 c hc
    simp only [bind, Except.bind, e2, E.addFl hcm hm hN, Except.ok.injEq]
    refine ⟨by first | rfl | trivial, fun c' hc' => hc' ▸ hcm.add hm⟩

/-- What is stored during a search. -/
def Stored (m : ℤ) (e : ℚ) (s : Nat) (paths : Paths Vertex) : Prop :=
  ∀ t j P, paths (t, j) = some P → Multiple e (t.toNat * s) P.cost ∧ ∀ x ∈ P.xs, ∃ k, x = [k] ∧ 0 ≤ k ∧ k ≤ m

theorem Stored.insert {s : Nat} {paths : Paths Vertex} (H : Stored m e s paths) {t : Int} {j : ℤ} {P : Path}
    (h1 : Multiple e (t.toNat * s) P.cost) (h2 : ∀ x ∈ P.xs, ∃ k, x = [k] ∧ 0 ≤ k ∧ k ≤ m) : Stored m e s (paths.insert (t, j) P) := by
  intro t' j' P' h
  unfold Paths.insert at h
  split_ifs at h with hc
  · obtain ⟨rfl, rfl⟩ := Prod.mk.inj hc
    cases h
    exact ⟨h1, h2⟩
  · exact H _ _ _ h

theorem at_some {paths : Paths Vertex} {v : Vertex} {P : Path} (h : paths.at v = .ok P) : paths v = some P := by
  unfold Paths.at at h
  split at h
  · cases h; assumption
  · cases h

theorem pickSource_whole (E : ExactTo fl e N) (U : Units p m e h b) (ha : 1 ≤ a)
    {paths : Paths Vertex} (H : Stored m e (h + a * (b * m.toNat)) paths) {t : Int} (h1 : 1 ≤ t) (h2 : t ≤ p.tEnd)
    (hN : t.toNat * (h + a * (b * m.toNat)) ≤ N) {dst : ℤ} (hd : 0 ≤ dst ∧ dst ≤ m) (picked : ℤ × ECost) {source : ℤ}
    (hs : 0 ≤ source ∧ source ≤ m) :
    pickSource fl p paths t dst a inverted picked source = Uni.pickSource p paths t dst a inverted picked source ∧
    (Multiple e (t.toNat * (h + a * (b * m.toNat))) picked.2 →
      ∀ r, Uni.pickSource p paths t dst a inverted picked source = .ok r → Multiple e (t.toNat * (h + a * (b * m.toNat))) r.2) := by
  have ht : t.toNat = (t - 1).toNat + 1 := by omega
  have hN1 : h + a * (b * m.toNat) ≤ N := by
    refine le_trans ?_ hN
    rw [ht, Nat.add_mul, one_mul]
    omega
  obtain ⟨b1, b2⟩ := buildCost_whole (inverted := inverted) E U hN1 h1 h2 hs hd ha
  unfold pickSource Uni.pickSource
  cases hp : paths.at (t - 1, source) with
  | error x => exact ⟨rfl, fun _ r hr => by cases hr⟩
  | ok P =>
    obtain ⟨c1, _⟩ := H _ _ _ (at_some hp)
    simp only [bind, Except.bind, b1]
    cases hb : Uni.buildCost p t source dst a inverted with
    | error x => exact ⟨rfl, fun _ r hr => by cases hr⟩
    | ok c =>
      have hc := b2 c hb
      have hsum : (t - 1).toNat * (h + a * (b * m.toNat)) + (h + a * (b * m.toNat)) = t.toNat * (h + a * (b * m.toNat)) := by
        rw [ht]; ring
      have e1 := E.addFl c1 hc (by omega)
      have e2 := c1.add hc
      rw [hsum] at e2
      simp only [e1, Except.ok.injEq]
      refine ⟨by first | rfl | trivial, fun hq r hr => ?_⟩
      rw [← hr]
      split_ifs
      · exact e2
      · exact hq

theorem findShortestSubpath_whole (E : ExactTo fl e N) (U : Units p m e h b) (ha : 1 ≤ a)
    {paths : Paths Vertex} (H : Stored m e (h + a * (b * m.toNat)) paths) {t : Int} (h1 : 1 ≤ t) (h2 : t ≤ p.tEnd)
    (hN : t.toNat * (h + a * (b * m.toNat)) ≤ N) {src : List ℤ} (hs : ∀ i ∈ src, 0 ≤ i ∧ i ≤ m) {dst : ℤ} (hd : 0 ≤ dst ∧ dst ≤ m) :
    findShortestSubpath fl p t src a inverted paths dst = Uni.findShortestSubpath p t src a inverted paths dst ∧
    ∀ paths', Uni.findShortestSubpath p t src a inverted paths dst = .ok paths' → Stored m e (h + a * (b * m.toNat)) paths' := by
  unfold findShortestSubpath Uni.findShortestSubpath
  cases hi : idx src 0 with
  | error x => exact ⟨rfl, fun _ r => by cases r⟩
  | ok first =>
    obtain ⟨f1, f2⟩ := foldlM_agree (fun q : ℤ × ECost => Multiple e (t.toNat * (h + a * (b * m.toNat))) q.2) src (first, ⊤)
      (Or.inl rfl)
      (fun q _ i hi => (pickSource_whole (inverted := inverted) E U ha H h1 h2 hN hd q (hs i hi)).1)
      (fun q hq i hi => (pickSource_whole (inverted := inverted) E U ha H h1 h2 hN hd q (hs i hi)).2 hq)
    simp only [bind, Except.bind, f1]
    cases hf : src.foldlM (Uni.pickSource p paths t dst a inverted) (first, ⊤) with
    | error x => exact ⟨by first | rfl | trivial, fun _ r => by cases r⟩
    | ok q =>
      refine ⟨by first | rfl | trivial, fun paths' hp => ?_⟩
      simp only [updatePaths, bind, Except.bind] at hp
      cases ha' : paths.at (t - 1, q.1) with
      | error x => rw [ha'] at hp; cases hp
      | ok P =>
        rw [ha'] at hp
        rw [← Except.ok.inj hp]
        refine H.insert (f2 q hf) ?_
        intro x hx
        simp only [Schedule.extend, List.mem_append, List.mem_singleton] at hx
        rcases hx with hx | rfl
        · exact (H _ _ _ (at_some ha')).2 x hx
        · exact ⟨dst, rfl, hd⟩

theorem findSchedule_whole (E : ExactTo fl e N) (U : Units p m e h b) (ha : 1 ≤ a)
    (hN : p.tEnd.toNat * (h + a * (b * m.toNat)) ≤ N) {rows : Int → Res (List ℤ)}
    (hr : ∀ t r, rows t = .ok r → ∀ j ∈ r, 0 ≤ j ∧ j ≤ m) {x : ℤ} (hx : 0 ≤ x ∧ x ≤ m) :
    findSchedule fl p rows a inverted x = Uni.findSchedule p rows a inverted x ∧
    ∀ P, Uni.findSchedule p rows a inverted x = .ok P → ∀ y ∈ P.xs, ∃ k, y = [k] ∧ 0 ≤ k ∧ k ≤ m := by
  have h0 : Stored m e (h + a * (b * m.toNat)) ((Paths.empty (V := Vertex)).insert (0, x) { xs := [], cost := 0 }) := by
    refine Stored.insert (fun t j P hP => by cases hP) (Multiple.zero _) (by simp)
  have hslot : ∀ s : Paths Vertex × List ℤ, (Stored m e (h + a * (b * m.toNat)) s.1 ∧ ∀ j ∈ s.2, 0 ≤ j ∧ j ≤ m) →
      ∀ t ∈ timeRange 1 p.tEnd, slot fl p rows a inverted s t = Uni.slot p rows a inverted s t ∧
      ∀ s', Uni.slot p rows a inverted s t = .ok s' → Stored m e (h + a * (b * m.toNat)) s'.1 ∧ ∀ j ∈ s'.2, 0 ≤ j ∧ j ≤ m := by
    rintro ⟨paths, src⟩ ⟨H, hs⟩ t ht
    obtain ⟨h1, h2⟩ : 1 ≤ t ∧ t ≤ p.tEnd := by
      simp only [timeRange, List.mem_map, List.mem_range] at ht
      obtain ⟨i, hi, rfl⟩ := ht
      omega
    have hNt : t.toNat * (h + a * (b * m.toNat)) ≤ N := le_trans (Nat.mul_le_mul_right _ (by omega)) hN
    unfold slot Uni.slot
    cases hrt : rows t with
    | error x => exact ⟨rfl, fun _ r => by cases r⟩
    | ok r =>
      obtain ⟨f1, f2⟩ := foldlM_agree (Stored m e (h + a * (b * m.toNat))) r paths H
        (fun q hq j hj => (findShortestSubpath_whole (inverted := inverted) E U ha hq h1 h2 hNt hs (hr t r hrt j hj)).1)
        (fun q hq j hj => (findShortestSubpath_whole (inverted := inverted) E U ha hq h1 h2 hNt hs (hr t r hrt j hj)).2)
      simp only [bind, Except.bind, f1]
      cases hf : r.foldlM (Uni.findShortestSubpath p t src a inverted) paths with
      | error x => exact ⟨by first | rfl | trivial, fun _ r => by cases r⟩
      | ok q =>
        refine ⟨by first | rfl | trivial, fun s' hs' => ?_⟩
        rw [← Except.ok.inj hs']
        exact ⟨f2 q hf, hr t r hrt⟩
  obtain ⟨f1, f2⟩ := foldlM_agree (fun s : Paths Vertex × List ℤ => Stored m e (h + a * (b * m.toNat)) s.1 ∧ ∀ j ∈ s.2, 0 ≤ j ∧ j ≤ m)
    (timeRange 1 p.tEnd)
    ((Paths.empty (V := Vertex)).insert (0, x) { xs := [], cost := 0 }, [x]) ⟨h0, by simpa using hx⟩ (fun s hs t ht => (hslot s hs t ht).1) (fun s hs t ht => (hslot s hs t ht).2)
  unfold findSchedule Uni.findSchedule
  simp only [bind, Except.bind, f1]
  cases hf : (timeRange 1 p.tEnd).foldlM (Uni.slot p rows a inverted)
      ((Paths.empty (V := Vertex)).insert (0, x) { xs := [], cost := 0 }, [x]) with
  | error x => exact ⟨by first | rfl | trivial, fun _ r => by cases r⟩
  | ok s =>
    refine ⟨by first | rfl | trivial, ?_⟩
    obtain ⟨H, _⟩ := f2 s hf
    refine (foldlM_agree (f := pickEnd p.tEnd s.1) (fun P : Path => ∀ y ∈ P.xs, ∃ k, y = [k] ∧ 0 ≤ k ∧ k ≤ m) s.2 _ (by simp)
      (fun _ _ _ _ => rfl) (fun P hP j _ P' hp => ?_)).2
    simp only [pickEnd, bind, Except.bind] at hp
    cases ha' : s.1.at (p.tEnd, j) with
    | error x => rw [ha'] at hp; cases hp
    | ok Q =>
      rw [ha'] at hp
      rw [← Except.ok.inj hp]
      split_ifs
      · exact (H _ _ _ (at_some ha')).2
      · exact hP

theorem initialRows_box (hm : 0 ≤ m) : ∀ j ∈ initialRows m, 0 ≤ j ∧ j ≤ m := by
  intro j hj
  simp only [initialRows, List.map_cons, List.map_nil, List.mem_cons, List.not_mem_nil, or_false] at hj
  omega

theorem nextRows_box (xs : Schedule ℤ) (k : Nat) (t : Int) (r : List ℤ) (h : nextRows m xs k t = .ok r) : ∀ j ∈ r, 0 ≤ j ∧ j ≤ m := by
  simp only [nextRows, bind, Except.bind] at h
  cases h1 : idx xs (t.toNat - 1) with
  | error x => rw [h1] at h; cases h
  | ok y =>
    rw [h1] at h
    simp only at h
    cases h2 : idx y 0 with
    | error x => rw [h2] at h; cases h
    | ok j =>
      rw [h2] at h
      intro i hi
      rw [← Except.ok.inj h] at hi
      have := (List.mem_filter.1 hi).2
      simpa using this

theorem search_whole (E : ExactTo fl e N) (U : Units p m e h b) (ha : 1 ≤ a) (hm : 0 ≤ m)
    (hN : p.tEnd.toNat * (h + a * (b * m.toNat)) ≤ N) {x : ℤ} (hx : 0 ≤ x ∧ x ≤ m) :
    search fl p m a inverted x = Uni.search p m a inverted x ∧
    ∀ P, Uni.search p m a inverted x = .ok P → ∀ y ∈ P.xs, ∃ k, y = [k] ∧ 0 ≤ k ∧ k ≤ m := by
  obtain ⟨f1, f2⟩ := findSchedule_whole (inverted := inverted) E U ha hN (rows := fun _ => .ok (initialRows m))
    (fun t r hr => by rw [← Except.ok.inj hr]; exact initialRows_box hm) hx
  unfold search Uni.search
  simp only [bind, Except.bind, f1]
  cases hf : Uni.findSchedule p (fun _ => .ok (initialRows m)) a inverted x with
  | error x => exact ⟨rfl, fun _ r => by cases r⟩
  | ok P =>
    exact foldlM_agree (fun P : Path => ∀ y ∈ P.xs, ∃ k, y = [k] ∧ 0 ≤ k ∧ k ≤ m) _ P (f2 P hf)
      (fun Q _ k _ => (findSchedule_whole E U ha hN (nextRows_box Q.xs k) hx).1)
      (fun Q _ k _ => (findSchedule_whole E U ha hN (nextRows_box Q.xs k) hx).2)

/-- With a bound that is a power of two. -/
theorem optimalGraphSearch_whole (E : ExactTo fl e N) (U : Units p m e h b) (hb : p.bounds = [m]) (h2 : isPowOf2 m.toNat = true)
    (hm : 0 ≤ m) (o : OfflineOptions) (ha : 1 ≤ a) (hα : o.alpha = a)
    (hN : p.tEnd.toNat * (h + a * (b * m.toNat)) ≤ N) {x : ℤ} (hx : 0 ≤ x ∧ x ≤ m) :
    optimalGraphSearch fl p x o = Uni.optimalGraphSearch p x o ∧
    ∀ P, Uni.optimalGraphSearch p x o = .ok P → ∀ y ∈ P.xs, ∃ k, y = [k] ∧ 0 ≤ k ∧ k ≤ m := by
  obtain ⟨f1, f2⟩ := search_whole (inverted := o.inverted) E U ha hm hN hx
  have hi : idx p.bounds 0 = .ok m := by rw [hb]; rfl
  unfold optimalGraphSearch Uni.optimalGraphSearch roundBound Uni.roundBound
  simp only [bind, Except.bind, hi, h2, if_true, hα, f1, true_and]
  intro P hP
  cases h1 : assertR o.l.isNone .unsupportedLConstrainedMovement with
  | error x => rw [h1] at hP; cases hP
  | ok _ =>
    rw [h1] at hP
    simp only at hP
    cases h3 : assertR (decide (p.d = 1)) (.unsupportedProblemDimension p.d) with
    | error x => rw [h3] at hP; cases hP
    | ok _ =>
      rw [h3] at hP
      exact f2 P hP

end Uni.Rounded
end Soco
