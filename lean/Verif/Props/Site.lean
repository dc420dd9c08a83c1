import Verif.Spec.Site
import Verif.Props.DataCenter
import Verif.Props.Loads
import Mathlib.Data.List.GetD

/-!
# C70, C71: what a data center costs
-/

namespace Soco
namespace DataCenterModel
open Spec

/-! ## Sums -/

theorem sumTo_congr {α : Type} [Zero α] [Add α] (n : Nat) (f g : Nat → α) (h : ∀ i, i < n → f i = g i) :
    sumTo n f = sumTo n g := by
  unfold sumTo
  congr 1
  apply List.map_congr_left
  intro i hi
  exact h i (List.mem_range.1 hi)

/-- Sums over pairs of indices. -/
theorem sumTo_encode (S I : Nat) (g : Nat → ℚ) :
    sumTo (S * I) g = sumTo S fun s => sumTo I fun i => g (encode I s i) := by
  induction S with
  | zero => simp [sumTo]
  | succ S ih =>
    unfold sumTo at *
    rw [Nat.add_mul, Nat.one_mul, List.range_add, List.map_append, List.sum_append, ih, List.range_succ, List.map_append,
      List.sum_append]
    simp only [List.map_map, List.map_cons, List.map_nil, List.sum_cons, List.sum_nil, add_zero]
    rfl

theorem list_sum_getD (L : List ℚ) : L.sum = sumTo L.length fun i => L.getD i 0 := by
  unfold sumTo
  congr 1
  apply List.ext_getElem
  · simp
  · intro i h1 h2
    simp only [List.getElem_map, List.getElem_range]
    rw [List.getD_eq_getElem _ _ h1]

theorem sumTo_nonneg (n : Nat) (g : Nat → ℚ) (h : ∀ i, i < n → 0 ≤ g i) : 0 ≤ sumTo n g := by
  apply List.sum_nonneg
  intro x hx
  obtain ⟨i, hi, rfl⟩ := List.mem_map.1 hx
  exact h i (List.mem_range.1 hi)

theorem sumTo_eq_zero (n : Nat) (g : Nat → ℚ) (h : ∀ i, i < n → 0 ≤ g i) (h0 : sumTo n g = 0) : ∀ i, i < n → g i = 0 := by
  induction n with
  | zero => intro i hi; omega
  | succ n ih =>
    have e : sumTo (n + 1) g = sumTo n g + g n := by
      unfold sumTo
      rw [List.range_succ]
      simp
    have h1 := sumTo_nonneg n g fun i hi => h i (by omega)
    have h2 := h n (by omega)
    rw [e] at h0
    intro i hi
    rcases Nat.lt_or_ge i n with hlt | hge
    · exact ih (fun i hi => h i (by omega)) (by linarith) i hlt
    · have : i = n := by omega
      subst this
      linarith

theorem sumTo_zero (n : Nat) (g : Nat → ℚ) (h : ∀ i, i < n → g i = 0) : sumTo n g = 0 := by
  rw [sumTo_congr n g (fun _ => 0) h]
  unfold sumTo
  simp

/-- An answer or a failure, but no panic. -/
def Settled {α : Type} (r : IRes α) : Prop := (∃ v, r = .ok v) ∨ ∃ f, r = .error (.failure f)

theorem settled_sumM {α ι : Type} [Zero α] [Add α] (f : ι → IRes α) (xs : List ι) (h : ∀ x ∈ xs, Settled (f x)) :
    Settled (sumM (xs.map f)) := by
  induction xs with
  | nil => exact Or.inl ⟨0, rfl⟩
  | cons x xs ih =>
    have ih' := ih fun y hy => h y (by simp [hy])
    rw [List.map_cons, sumM]
    rcases h x (by simp) with ⟨v, hv⟩ | ⟨e, he⟩
    · rcases ih' with ⟨w, hw⟩ | ⟨e, he⟩
      · exact Or.inl ⟨v + w, by simp [hv, hw, bind, Except.bind]⟩
      · exact Or.inr ⟨e, by simp [hv, he, bind, Except.bind]⟩
    · exact Or.inr ⟨e, by simp [he, bind, Except.bind]⟩

theorem settled_ne {α ι : Type} [Zero α] [Add α] (f : ι → IRes α) (xs : List ι) (h : ∀ x ∈ xs, Settled (f x)) (x : ι)
    (hx : x ∈ xs) (e : DCFailure) (he : f x = .error (.failure e)) : ∃ e', sumM (xs.map f) = .error (.failure e') := by
  rcases settled_sumM f xs h with ⟨v, hv⟩ | h
  · obtain ⟨g, h1, _⟩ := sumM_map_ok hv
    exfalso
    have : ∀ (xs : List ι) (g : List α), List.Forall₂ (fun x v => f x = .ok v) xs g → x ∈ xs → False := by
      intro xs g h1
      induction h1 with
      | nil => intro h; simp at h
      | cons a _ ih =>
        intro h
        rcases List.mem_cons.1 h with rfl | h
        · rw [he] at a; cases a
        · exact ih h
    exact this xs g h1 hx
  · exact h

/-! ## The parts -/

section
variable {T : Type} [Value T] {m : DataCenterModel} {t : Int} {D : Site} (hD : Describes m t D)
include hD

theorem totalSubJobs_eq (k : Nat) (st : ServerType) (hst : m.serverTypes[k]? = some st) (L : LoadProfile)
    (hL : L.length = D.sources * D.jobTypes) :
    m.totalSubJobs st L =
      .ok (sumTo D.sources fun s => sumTo D.jobTypes fun i => D.time i k * L.getD (encode D.jobTypes s i) 0) := by
  have hpar := C42_encode_bijective D.sources D.jobTypes
  unfold totalSubJobs
  rw [sumM_ok_of (fun q : Nat × ℚ => D.time (parse D.jobTypes q.1).2 k * q.2)]
  · congr 1
    rw [show ((List.range L.length).zip L).map (fun q : Nat × ℚ => D.time (parse D.jobTypes q.1).2 k * q.2) =
      (List.range (D.sources * D.jobTypes)).map fun q => D.time (parse D.jobTypes q).2 k * L.getD q 0 from ?_]
    · have := sumTo_encode D.sources D.jobTypes fun q => D.time (parse D.jobTypes q).2 k * L.getD q 0
      refine this.trans ?_
      apply sumTo_congr
      intro s hs
      apply sumTo_congr
      intro i hi
      rw [(hpar.1 s i hs hi).2]
    · apply List.ext_getElem
      · simp [hL]
      · intro i h1 h2
        have hi : i < L.length := by simpa using h1
        simp [hi]
  · intro q hq
    obtain ⟨i, hi⟩ := List.getElem?_of_mem hq
    have hlt := (List.getElem?_eq_some_iff.1 hi).1
    simp only [List.length_zip, List.length_range, Nat.min_self] at hlt
    have hq1 : q.1 < D.sources * D.jobTypes := by
      have := (List.of_mem_zip (a := q.1) (b := q.2) hq).1
      rw [List.mem_range] at this
      omega
    have h2 := (hpar.2 q.1 hq1).2.1
    rw [hD.jobTypes]
    have hjl : (parse D.jobTypes q.1).2 < m.jobTypes.length := by rw [hD.jobTypes]; exact h2
    have e1 : m.jobTypes[(parse D.jobTypes q.1).2]? = some m.jobTypes[(parse D.jobTypes q.1).2] :=
      List.getElem?_eq_getElem hjl
    rw [(idx_ok_iff _ _ _).2 e1]
    simp only [bind, Except.bind]
    rw [hD.time _ _ _ _ e1 hst]

variable {x : Config T} {n : Nat → Nat → ℚ} {lambda : LoadProfile} {zs : LoadFractions} {ls : Nat → Nat → LoadProfile}
  {a : Nat → Nat → Nat → Nat → ℚ}

/-- The consumption of the servers of one type at one location. -/
theorem typeConsumption_eq (hslot : 0 < D.slot) (j k : Nat) (hk : k < D.types)
    (hls : zs.selectLoads lambda (encode D.types j k) = .ok (ls j k))
    (hlen : (ls j k).length = D.sources * D.jobTypes)
    (ha : ∀ s i, a j k s i = (ls j k).getD (encode D.jobTypes s i) 0) (v : T)
    (hx : x[encode D.types j k]? = some v) (hn : n j k = toQ v)
    (hwork : 0 ≤ D.work a j k) :
    m.typeConsumption j x lambda zs k =
      if n j k ≤ 0 ∧ 0 < D.work a j k then .error (.failure .loadToInactiveServer) else .ok (D.energyOf n a j k) := by
  have hkl : k < m.serverTypes.length := by rw [hD.types]; exact hk
  have hst := List.getElem?_eq_getElem hkl
  have hw : m.totalSubJobs m.serverTypes[k] (ls j k) = .ok (D.work a j k) := by
    rw [totalSubJobs_eq hD k _ hst _ hlen]
    unfold Site.work
    simp only [ha]
  unfold typeConsumption
  simp only [hD.types]
  rw [hls, (idx_ok_iff _ _ _).2 hst, (idx_ok_iff _ _ _).2 hx]
  simp only [IRes.ofRes, bind, Except.bind, hw, ← hn, safeBalancing]
  by_cases h0 : 0 < n j k
  · rw [if_pos h0, if_neg (show ¬ (n j k ≤ 0 ∧ 0 < D.work a j k) from fun h => absurd h0 (not_lt.2 h.1))]
    have hE : D.energyOf n a j k = if D.utilisation n a j k ≤ D.maxUse k then
        ((n j k * D.power k (D.utilisation n a j k) : ℚ) : ECost) else ⊤ := by
      unfold Site.energyOf
      rw [if_neg (not_le.2 h0)]
    have hU : D.work a j k / (n j k * m.delta) = D.utilisation n a j k := by rw [hD.slot]; rfl
    rw [hE, hU]
    unfold ServerType.limitUtilization
    rw [hD.maxUse k _ hst, hD.power k _ _ hst]
    by_cases h1 : D.utilisation n a j k ≤ D.maxUse k
    · simp only [if_pos h1]
    · simp only [if_neg h1]
  · rw [if_neg (show ¬ n j k > 0 from h0)]
    have hE : D.energyOf n a j k = 0 := by
      unfold Site.energyOf
      rw [if_pos (not_lt.1 h0)]
    by_cases h1 : 0 < D.work a j k
    · rw [if_pos h1, if_pos (show n j k ≤ 0 ∧ 0 < D.work a j k from ⟨not_lt.1 h0, h1⟩)]
    · rw [if_neg (show ¬ D.work a j k > 0 from h1), if_neg (show ¬ (n j k ≤ 0 ∧ 0 < D.work a j k) from fun h => h1 h.2),
        if_pos (show D.work a j k = 0 from le_antisymm (not_lt.1 h1) hwork), hE]

/-- The average delay at a server. -/
theorem averageDelay_eq (hslot : 0 < D.slot) (j k : Nat) (hn : 0 < n j k) (hw : 0 ≤ D.work a j k)
    (hj : 0 ≤ D.jobs a j k) (hj0 : D.jobs a j k = 0 → D.work a j k = 0) :
    averageDelay D.slot (D.jobs a j k / n j k) (meanJobDuration (D.work a j k) (D.jobs a j k)) =
      if D.utilisation n a j k < 1 then ((D.sojourn n a j k : ℚ) : ECost) else ⊤ := by
  unfold averageDelay meanJobDuration Site.sojourn
  rcases hj.eq_or_lt with h0 | h0
  · rw [← h0]
    have := hj0 h0.symm
    simp [Site.utilisation, this]
  · rw [if_neg h0.ne']
    rcases hw.eq_or_lt with h1 | h1
    · rw [← h1]
      simp [Site.utilisation, ← h1]
    · have hq : 0 < D.jobs a j k / n j k := div_pos h0 hn
      have hm : 0 < D.work a j k / D.jobs a j k := div_pos h1 h0
      rw [if_pos ⟨hq, hm⟩]
      simp only
      have hu : D.jobs a j k / n j k / D.slot = D.utilisation n a j k * (1 / (D.work a j k / D.jobs a j k)) := by
        unfold Site.utilisation
        field_simp
      rw [hu]
      have hm' : 0 < 1 / (D.work a j k / D.jobs a j k) := by positivity
      by_cases h : D.utilisation n a j k < 1
      · rw [if_pos h, if_pos (by nlinarith)]
        congr 1
        have : 1 / (D.work a j k / D.jobs a j k) - D.utilisation n a j k * (1 / (D.work a j k / D.jobs a j k)) =
            (1 - D.utilisation n a j k) / (D.work a j k / D.jobs a j k) := by ring
        rw [this, one_div, inv_div]
      · rw [if_neg h, if_neg (by nlinarith)]

/-- The revenue lost at the servers of one type at one location. -/
theorem typeLoss_eq (hslot : 0 < D.slot) (j k : Nat) (hj : j < D.locations) (hk : k < D.types)
    (hls : zs.selectLoads lambda (encode D.types j k) = .ok (ls j k))
    (hlen : (ls j k).length = D.sources * D.jobTypes)
    (ha : ∀ s i, a j k s i = (ls j k).getD (encode D.jobTypes s i) 0) (v : T)
    (hx : x[encode D.types j k]? = some v) (hn : n j k = toQ v)
    (hwork : 0 ≤ D.work a j k) (hjobs : 0 ≤ D.jobs a j k) (hj0 : D.jobs a j k = 0 → D.work a j k = 0) :
    (((n j k ≤ 0 → D.jobs a j k = 0) ∧ (0 < n j k → D.utilisation n a j k < 1)) →
      m.typeLoss t j x lambda zs k = .ok (((if n j k ≤ 0 then 0 else
        sumTo D.sources fun s => sumTo D.jobTypes fun i => D.lossOf n a j k s i : ℚ)) : ECost)) ∧
    (¬ ((n j k ≤ 0 → D.jobs a j k = 0) ∧ (0 < n j k → D.utilisation n a j k < 1)) →
      ∃ e, m.typeLoss t j x lambda zs k = .error (.failure e)) := by
  have hkl : k < m.serverTypes.length := by rw [hD.types]; exact hk
  have hst := List.getElem?_eq_getElem hkl
  have hjl : j < m.locations.length := by rw [hD.locations]; exact hj
  have hloc := List.getElem?_eq_getElem hjl
  have hw : m.totalSubJobs m.serverTypes[k] (ls j k) = .ok (D.work a j k) := by
    rw [totalSubJobs_eq hD k _ hst _ hlen]
    unfold Site.work
    simp only [ha]
  have hsum : (ls j k).sum = D.jobs a j k := by
    rw [list_sum_getD, hlen, sumTo_encode]
    unfold Site.jobs
    simp only [ha]
  have hterm : ∀ s i, s < D.sources → i < D.jobTypes → 0 < n j k →
      m.lossTerm t m.locations[j] m.serverTypes[k] (D.jobs a j k / n j k) (meanJobDuration (D.work a j k) (D.jobs a j k))
        (ls j k) s i =
      if D.utilisation n a j k < 1 then .ok ((D.lossOf n a j k s i : ℚ) : ECost) else .error (.failure .infiniteDelay) := by
    intro s i hs hi h0
    have hsl : s < m.sources.length := by rw [hD.sources]; exact hs
    have hil : i < m.jobTypes.length := by rw [hD.jobTypes]; exact hi
    have hs' := List.getElem?_eq_getElem hsl
    have hi' := List.getElem?_eq_getElem hil
    unfold lossTerm
    rw [(idx_ok_iff _ _ _).2 hs', (idx_ok_iff _ _ _).2 hi', hD.jobTypes,
      idx_getD (ls j k) (encode D.jobTypes s i) (by
        rw [hlen]; exact ((C42_encode_bijective D.sources D.jobTypes).1 s i hs hi).1) 0, ← ha]
    simp only [IRes.ofRes, bind, Except.bind]
    unfold revenueLoss
    rw [hD.route _ _ _ _ hs' hloc, hD.time _ _ _ _ hi' hst]
    simp only [IRes.ofRes, bind, Except.bind]
    rw [hD.slot, averageDelay_eq hD hslot j k h0 hwork hjobs hj0]
    by_cases hu : D.utilisation n a j k < 1
    · simp only [if_pos hu]
      rw [hD.loss i _ _ hi']
      rfl
    · simp only [if_neg hu]
  have hrest : m.typeLoss t j x lambda zs k = m.overallRevenueLoss t m.locations[j] m.serverTypes[k] (n j k) (ls j k) := by
    unfold typeLoss
    simp only [hD.types]
    rw [hls, (idx_ok_iff _ _ _).2 hst, (idx_ok_iff _ _ _).2 hx, (idx_ok_iff _ _ _).2 hloc]
    simp only [IRes.ofRes, bind, Except.bind, hn]
  rw [hrest]
  unfold overallRevenueLoss
  rw [hw]
  simp only [IRes.ofRes, bind, Except.bind, hsum, safeBalancing, hD.sources, hD.jobTypes]
  by_cases h0 : 0 < n j k
  · rw [if_pos h0]
    by_cases hu : D.utilisation n a j k < 1
    · refine ⟨fun _ => ?_, fun h => absurd ⟨fun h' => absurd h0 (not_lt.2 h'), fun _ => hu⟩ h⟩
      rw [if_neg (not_le.2 h0)]
      have hcoe : ∀ (N : Nat) (g : Nat → ℚ), ((List.range N).map fun s => ((g s : ℚ) : ECost)).sum =
          ((sumTo N g : ℚ) : ECost) := by
        intro N g
        induction N with
        | zero => rfl
        | succ N ih =>
          unfold sumTo at *
          rw [List.range_succ, List.map_append, List.sum_append, ih, List.map_append, List.sum_append]
          simp
      rw [sumM_ok_of (fun s => ((sumTo D.jobTypes fun i => D.lossOf n a j k s i : ℚ) : ECost)), hcoe]
      intro s hs
      rw [List.mem_range] at hs
      rw [sumM_ok_of (fun i => ((D.lossOf n a j k s i : ℚ) : ECost)), hcoe]
      intro i hi
      rw [List.mem_range] at hi
      rw [hterm s i hs hi h0, if_pos hu]
    · refine ⟨fun h => absurd (h.2 h0) hu, fun _ => ?_⟩
      have hpos : 0 < D.work a j k := by
        rcases hwork.eq_or_lt with h | h
        · exfalso
          apply hu
          unfold Site.utilisation
          rw [← h]; simp
        · exact h
      have hS : 0 < D.sources := by
        by_contra hc
        have e : D.sources = 0 := by omega
        unfold Site.work at hpos
        rw [e] at hpos
        simp [sumTo] at hpos
      have hI : 0 < D.jobTypes := by
        by_contra hc
        have e : D.jobTypes = 0 := by omega
        unfold Site.work at hpos
        rw [e] at hpos
        have : (sumTo D.sources fun s => sumTo 0 fun i => D.time i k * a j k s i) = 0 :=
          sumTo_zero _ _ fun s _ => by simp [sumTo]
        linarith
      have hset : ∀ s, s < D.sources → ∃ e, sumM ((List.range D.jobTypes).map fun i =>
          m.lossTerm t m.locations[j] m.serverTypes[k] (D.jobs a j k / n j k)
            (meanJobDuration (D.work a j k) (D.jobs a j k)) (ls j k) s i) = .error (.failure e) := by
        intro s hs
        refine settled_ne _ _ ?_ 0 (List.mem_range.2 hI) .infiniteDelay ?_
        · intro i hi
          rw [List.mem_range] at hi
          rw [hterm s i hs hi h0, if_neg hu]
          exact Or.inr ⟨_, rfl⟩
        · rw [hterm s 0 hs hI h0, if_neg hu]
      obtain ⟨e, he⟩ := hset 0 hS
      exact settled_ne _ _ (fun s hs => Or.inr (hset s (List.mem_range.1 hs))) 0 (List.mem_range.2 hS) e he
  · rw [if_neg (by simpa using h0)]
    rcases hjobs.eq_or_lt with h1 | h1
    · refine ⟨fun _ => ?_, fun h => absurd ⟨fun _ => h1.symm, fun h' => absurd h' h0⟩ h⟩
      rw [if_neg (by simp [← h1]), if_pos h1.symm, if_pos (not_lt.1 h0)]
      rfl
    · refine ⟨fun h => absurd (h.1 (not_lt.1 h0)) h1.ne', fun _ => ⟨.loadToInactiveServer, ?_⟩⟩
      rw [if_pos h1]

/-- The jobs of a slot: `a j k s i` jobs of type `i` from source `s` are sent to servers of type `k` at location `j`. -/
structure Assigned (D : Site) (x : Config T) (lambda : LoadProfile) (zs : LoadFractions) (n : Nat → Nat → ℚ)
    (a : Nat → Nat → Nat → Nat → ℚ) : Prop where
  servers : ∀ j k, j < D.locations → k < D.types → ∃ v, x[encode D.types j k]? = some v ∧ n j k = toQ v
  jobs : ∀ j k, j < D.locations → k < D.types → ∃ l, zs.selectLoads lambda (encode D.types j k) = .ok l ∧
    l.length = D.sources * D.jobTypes ∧ ∀ s i, a j k s i = l.getD (encode D.jobTypes s i) 0
  nonneg : ∀ j k s i, j < D.locations → k < D.types → s < D.sources → i < D.jobTypes → 0 ≤ a j k s i

end

theorem sum_objectives (N : Nat) (f : Nat → ECost) (g : Nat → ℚ) :
    ((List.range N).map fun j => (⟨f j, ((g j : ℚ) : ECost)⟩ : DCObjective)).sum =
      ⟨sumTo N f, ((sumTo N g : ℚ) : ECost)⟩ := by
  have h : ∀ js : List Nat, (js.map fun j => (⟨f j, ((g j : ℚ) : ECost)⟩ : DCObjective)).sum =
      ⟨(js.map f).sum, (((js.map g).sum : ℚ) : ECost)⟩ := by
    intro js
    induction js with
    | nil => rfl
    | cons j js ih =>
      simp only [List.map_cons, List.sum_cons, ih]
      show DCObjective.mk _ _ = _
      rw [WithTop.coe_add]
  exact h _

section
variable {T : Type} [Value T] {m : DataCenterModel} {t : Int} {D : Site}

/-- **C70** The cost of an assignment of jobs to the servers of a network of data centers. If no jobs are sent to
inactive servers and all servers can keep up with their jobs, the energy cost is the price of the energy consumed by all
servers, summed over locations, and the revenue loss is the loss of every job due to the sum of sojourn time, routing
delay and processing time. Otherwise a failure of the model is reported, but never a panic. -/
theorem C70_objective (hD : Describes m t D) (hslot : 0 < D.slot)
    (htime : ∀ i k, i < D.jobTypes → k < D.types → 0 ≤ D.time i k) (x : Config T) (lambda : LoadProfile)
    (zs : LoadFractions) (n : Nat → Nat → ℚ) (a : Nat → Nat → Nat → Nat → ℚ) (hA : Assigned D x lambda zs n a) :
    (D.Feasible n a → m.objective t x lambda zs =
      .ok ⟨sumTo D.locations (D.energyCost n a), ((sumTo D.locations (D.lossAt n a) : ℚ) : ECost)⟩) ∧
    (¬ D.Feasible n a → ∃ e, m.objective t x lambda zs = .error (.failure e)) := by
  have hwork : ∀ j k, j < D.locations → k < D.types → 0 ≤ D.work a j k := fun j k hj hk =>
    sumTo_nonneg _ _ fun s hs => sumTo_nonneg _ _ fun i hi => mul_nonneg (htime i k hi hk) (hA.nonneg j k s i hj hk hs hi)
  have hjobs : ∀ j k, j < D.locations → k < D.types → 0 ≤ D.jobs a j k := fun j k hj hk =>
    sumTo_nonneg _ _ fun s hs => sumTo_nonneg _ _ fun i hi => hA.nonneg j k s i hj hk hs hi
  have hj0 : ∀ j k, j < D.locations → k < D.types → D.jobs a j k = 0 → D.work a j k = 0 := by
    intro j k hj hk h
    have h1 := sumTo_eq_zero _ _ (fun s hs => sumTo_nonneg _ _ fun i hi => hA.nonneg j k s i hj hk hs hi) h
    apply sumTo_zero
    intro s hs
    have h2 := sumTo_eq_zero _ _ (fun i hi => hA.nonneg j k s i hj hk hs hi) (h1 s hs)
    apply sumTo_zero
    intro i hi
    rw [h2 i hi, mul_zero]
  have hcons : ∀ j k, j < D.locations → k < D.types → m.typeConsumption j x lambda zs k =
      if n j k ≤ 0 ∧ 0 < D.work a j k then .error (.failure .loadToInactiveServer) else .ok (D.energyOf n a j k) := by
    intro j k hj hk
    obtain ⟨v, h1, h2⟩ := hA.servers j k hj hk
    obtain ⟨l, h3, h4, h5⟩ := hA.jobs j k hj hk
    exact typeConsumption_eq hD (ls := fun _ _ => l) hslot j k hk h3 h4 h5 v h1 h2 (hwork j k hj hk)
  have hloss : ∀ j k, j < D.locations → k < D.types →
      (((n j k ≤ 0 → D.jobs a j k = 0) ∧ (0 < n j k → D.utilisation n a j k < 1)) →
        m.typeLoss t j x lambda zs k = .ok (((if n j k ≤ 0 then 0 else
          sumTo D.sources fun s => sumTo D.jobTypes fun i => D.lossOf n a j k s i : ℚ)) : ECost)) ∧
      (¬ ((n j k ≤ 0 → D.jobs a j k = 0) ∧ (0 < n j k → D.utilisation n a j k < 1)) →
        ∃ e, m.typeLoss t j x lambda zs k = .error (.failure e)) := fun j k hj hk => by
    obtain ⟨v, h1, h2⟩ := hA.servers j k hj hk
    obtain ⟨l, h3, h4, h5⟩ := hA.jobs j k hj hk
    exact typeLoss_eq hD (ls := fun _ _ => l) hslot j k hj hk h3 h4 h5 v h1 h2 (hwork j k hj hk) (hjobs j k hj hk)
      (hj0 j k hj hk)
  have hloc : ∀ j, j < D.locations → ∃ loc, m.locations[j]? = some loc := fun j hj =>
    ⟨_, List.getElem?_eq_getElem (by rw [hD.locations]; exact hj)⟩
  -- one location
  have hat : ∀ j, j < D.locations → (∀ k, k < D.types →
        (n j k ≤ 0 → D.jobs a j k = 0) ∧ (0 < n j k → D.utilisation n a j k < 1)) →
      m.locationObjective t x lambda zs j = .ok ⟨D.energyCost n a j, ((D.lossAt n a j : ℚ) : ECost)⟩ := by
    intro j hj hf
    obtain ⟨loc, hl⟩ := hloc j hj
    unfold locationObjective energyCost energyConsumption
    rw [hD.types, sumM_ok_of (D.energyOf n a j), sumM_ok_of (fun k => ((if n j k ≤ 0 then 0 else
        sumTo D.sources fun s => sumTo D.jobTypes fun i => D.lossOf n a j k s i : ℚ) : ECost))]
    · simp only [bind, Except.bind, (idx_ok_iff _ _ _).2 hl, IRes.ofRes, hD.price j _ _ hl]
      have := sum_objectives D.types (fun _ => 0) fun k => if n j k ≤ 0 then 0 else
        sumTo D.sources fun s => sumTo D.jobTypes fun i => D.lossOf n a j k s i
      have h2 : ∀ (N : Nat) (g : Nat → ℚ), ((List.range N).map fun s => ((g s : ℚ) : ECost)).sum =
          ((sumTo N g : ℚ) : ECost) := by
        intro N g
        induction N with
        | zero => rfl
        | succ N ih =>
          unfold sumTo at *
          rw [List.range_succ, List.map_append, List.sum_append, ih, List.map_append, List.sum_append]
          simp
      rw [h2]
      rfl
    · intro k hk
      rw [List.mem_range] at hk
      exact (hloss j k hj hk).1 (hf k hk)
    · intro k hk
      rw [List.mem_range] at hk
      rw [hcons j k hj hk, if_neg]
      rintro ⟨h1, h2⟩
      have := hj0 j k hj hk ((hf k hk).1 h1)
      linarith
  have hbad : ∀ j, j < D.locations → ¬ (∀ k, k < D.types →
        (n j k ≤ 0 → D.jobs a j k = 0) ∧ (0 < n j k → D.utilisation n a j k < 1)) →
      ∃ e, m.locationObjective t x lambda zs j = .error (.failure e) := by
    intro j hj hf
    obtain ⟨loc, hl⟩ := hloc j hj
    push Not at hf
    obtain ⟨k, hk, hf⟩ := hf
    have hfk : ¬ ((n j k ≤ 0 → D.jobs a j k = 0) ∧ (0 < n j k → D.utilisation n a j k < 1)) := by
      rintro ⟨h1, h2⟩
      obtain ⟨h3, h4⟩ := hf h1
      exact absurd (h2 h3) (not_lt.2 h4)
    have hset : ∀ k ∈ List.range D.types, Settled (m.typeLoss t j x lambda zs k) := by
      intro k hk
      rw [List.mem_range] at hk
      by_cases h : (n j k ≤ 0 → D.jobs a j k = 0) ∧ (0 < n j k → D.utilisation n a j k < 1)
      · exact Or.inl ⟨_, (hloss j k hj hk).1 h⟩
      · exact Or.inr ((hloss j k hj hk).2 h)
    have hset' : ∀ k ∈ List.range D.types, Settled (m.typeConsumption j x lambda zs k) := by
      intro k hk
      rw [List.mem_range] at hk
      rw [hcons j k hj hk]
      split
      · exact Or.inr ⟨_, rfl⟩
      · exact Or.inl ⟨_, rfl⟩
    obtain ⟨e, he⟩ := (hloss j k hj hk).2 hfk
    obtain ⟨e', he'⟩ := settled_ne _ _ hset k (List.mem_range.2 hk) e he
    unfold locationObjective energyCost energyConsumption
    rw [hD.types, he']
    rcases settled_sumM _ _ hset' with ⟨p, hp⟩ | ⟨e'', hp⟩
    · rw [hp]
      simp only [bind, Except.bind, (idx_ok_iff _ _ _).2 hl, IRes.ofRes, hD.price j _ _ hl]
      exact ⟨e', rfl⟩
    · rw [hp]
      exact ⟨e'', rfl⟩
  constructor
  · intro hf
    unfold objective
    rw [hD.locations, sumM_ok_of (fun j => (⟨D.energyCost n a j, ((D.lossAt n a j : ℚ) : ECost)⟩ : DCObjective)),
      sum_objectives]
    intro j hj
    rw [List.mem_range] at hj
    exact hat j hj fun k hk => hf j k hj hk
  · intro hf
    unfold Site.Feasible at hf
    push Not at hf
    obtain ⟨j, k, hj, hk, hf⟩ := hf
    have hfk : ¬ (∀ k, k < D.types →
        (n j k ≤ 0 → D.jobs a j k = 0) ∧ (0 < n j k → D.utilisation n a j k < 1)) := by
      intro h
      obtain ⟨h1, h2⟩ := h k hk
      obtain ⟨h3, h4⟩ := hf h1
      exact absurd (h2 h3) (not_lt.2 h4)
    obtain ⟨e, he⟩ := hbad j hj hfk
    unfold objective
    rw [hD.locations]
    refine settled_ne _ _ ?_ j (List.mem_range.2 hj) e he
    intro j hj
    rw [List.mem_range] at hj
    by_cases h : ∀ k, k < D.types → (n j k ≤ 0 → D.jobs a j k = 0) ∧ (0 < n j k → D.utilisation n a j k < 1)
    · exact Or.inl ⟨_, hat j hj h⟩
    · exact Or.inr (hbad j hj h)

theorem sum_ne_top (N : Nat) (f : Nat → ECost) : sumTo N f ≠ ⊤ ↔ ∀ i, i < N → f i ≠ ⊤ := by
  induction N with
  | zero => simp [sumTo]
  | succ N ih =>
    have e : sumTo (N + 1) f = sumTo N f + f N := by
      unfold sumTo
      rw [List.range_succ]
      simp
    rw [e, WithTop.add_ne_top, ih]
    constructor
    · rintro ⟨h1, h2⟩ i hi
      rcases Nat.lt_or_ge i N with h | h
      · exact h1 i h
      · rwa [show i = N by omega]
    · intro h
      exact ⟨fun i hi => h i (by omega), h N (by omega)⟩

/-- **C71** (partial) With linear energy costs the utilisation limits are enforced: the cost of an assignment is finite if
and only if no active server is utilised beyond the limit of its type. With quotas this fails, see
`C71_quotas_counterexample`. -/
theorem C71_utilisation_partial (hD : Describes m t D) (hslot : 0 < D.slot)
    (htime : ∀ i k, i < D.jobTypes → k < D.types → 0 ≤ D.time i k) (x : Config T) (lambda : LoadProfile)
    (zs : LoadFractions) (n : Nat → Nat → ℚ) (a : Nat → Nat → Nat → Nat → ℚ) (hA : Assigned D x lambda zs n a)
    (cost : String → Option (Int → ℚ)) (hlin : m.energyModel = .linear cost)
    (_ : ∀ key c, cost key = some c → 0 < c t) (o : DCObjective)
    (ho : m.objective t x lambda zs = .ok o) :
    o.energyCost + o.revenueLoss ≠ ⊤ ↔ ∀ j k, j < D.locations → k < D.types → 0 < n j k →
      D.utilisation n a j k ≤ D.maxUse k := by
  have hf : D.Feasible n a := by
    by_contra hc
    obtain ⟨e, he⟩ := (C70_objective hD hslot htime x lambda zs n a hA).2 hc
    rw [ho] at he
    cases he
  have hv := (C70_objective hD hslot htime x lambda zs n a hA).1 hf
  rw [ho] at hv
  injection hv with hv
  rw [hv]
  simp only
  rw [WithTop.add_ne_top, sum_ne_top]
  have hprice : ∀ j p, j < D.locations → (D.price j p = ⊤ ↔ p = ⊤) := by
    intro j p hj
    have hjl : j < m.locations.length := by rw [hD.locations]; exact hj
    have hl := List.getElem?_eq_getElem hjl
    have := hD.price j _ p hl
    rw [hlin] at this
    unfold EnergyModel.cost at this
    simp only [lookup] at this
    cases hc : cost m.locations[j].key with
    | none => rw [hc] at this; simp [bind, Except.bind] at this
    | some c =>
      rw [hc] at this
      simp only [bind, Except.bind] at this
      injection this with this
      rw [← this]
      unfold ECost.mulQ
      exact WithTop.map_eq_top_iff
  constructor
  · rintro ⟨h, -⟩ j k hj hk h0
    have h1 := h j hj
    unfold Site.energyCost at h1
    rw [Ne, hprice j _ hj, ← Ne, sum_ne_top] at h1
    have h2 := h1 k hk
    unfold Site.energyOf at h2
    rw [if_neg (not_le.2 h0)] at h2
    by_contra hc
    rw [if_neg hc] at h2
    exact h2 rfl
  · intro h
    refine ⟨fun j hj => ?_, WithTop.coe_ne_top⟩
    unfold Site.energyCost
    rw [Ne, hprice j _ hj, ← Ne, sum_ne_top]
    intro k hk
    unfold Site.energyOf
    by_cases h0 : n j k ≤ 0
    · rw [if_pos h0]; exact WithTop.coe_ne_top
    · rw [if_neg h0, if_pos (h j k hj hk (not_le.1 h0))]
      exact WithTop.coe_ne_top

end

/-- **C71** The servers of balanced-load problems generated for a data center: with linear energy costs, a server
utilised by `l` costs the price of the energy it consumes, and infinitely much beyond the utilisation limit. -/
theorem C71_server_cost (m : DataCenterModel) (loc : Location) (st : ServerType) (t : Int) (ht : 1 ≤ t) (l power : ℚ)
    (cost : String → Option (Int → ℚ)) (c : Int → ℚ) (hlin : m.energyModel = .linear cost)
    (hc : cost loc.key = some c) (hp : m.consumptionModel.consumption m.delta st l = .ok power) :
    (l ≤ st.maxUtilization →
      (m.serverCost loc st).callMean t l = .ok (Cost.raw ((c t * power : ℚ) : ECost))) ∧
    (st.maxUtilization < l → (m.serverCost loc st).callMean t l = .ok (Cost.raw ⊤)) := by
  unfold serverCost
  rw [CostFn.callMean_certain _ t ht]
  constructor
  · intro h
    simp [ServerType.limitUtilization, h, hp, hlin, EnergyModel.cost, lookup, hc, bind, Except.bind, ECost.mulQ]
  · intro h
    simp [ServerType.limitUtilization, not_le.2 h, hlin, EnergyModel.cost, lookup, hc, bind, Except.bind, ECost.mulQ]

/-- One location, one type of server (at most 9/10 utilised), one source and two types of jobs. -/
def smallModel (e : EnergyModel) : DataCenterModel where
  delta := 2
  locations := [⟨"a", fun _ => some 4⟩]
  serverTypes := [⟨"s", 9 / 10⟩]
  sources := [⟨"", fun _ _ => .ok 3⟩]
  jobTypes := [⟨"short", fun _ => .ok 1⟩, ⟨"long", fun _ => .ok 2⟩]
  consumptionModel := .linear fun _ => some ⟨1, 2⟩
  energyModel := e
  lossModel := fun _ => some ⟨1, 4⟩
  switchingModel := fun _ => some ⟨1, 1, 2, 0, 1, 0, 0⟩

/-- What this model describes. -/
def smallSite (price : ECost → ECost) : Site where
  locations := 1
  types := 1
  sources := 1
  jobTypes := 2
  slot := 2
  maxUse := fun _ => 9 / 10
  time := fun i _ => if i = 0 then 1 else 2
  route := fun _ _ => 3
  power := fun _ u => 2 * ((2 - 1) * u + 1)
  price := fun _ p => price p
  loss := fun _ q => 1 * pos (q - 4)

theorem small_describes (e : EnergyModel) (price : ECost → ECost) (t : Int)
    (h : ∀ p, e.cost t ⟨"a", fun _ => some 4⟩ p = .ok (price p)) : Describes (smallModel e) t (smallSite price) where
  locations := rfl
  types := rfl
  sources := rfl
  jobTypes := rfl
  slot := rfl
  maxUse := by
    intro k st h
    match k, h with
    | 0, h => cases h; rfl
  time := by
    intro i jt k st h h2
    match i, h with
    | 0, h => cases h; rfl
    | 1, h => cases h; rfl
  route := by
    intro s src j loc h h2
    match s, h with
    | 0, h => cases h; rfl
  power := by
    intro k st u h
    rfl
  price := by
    intro j loc p h1
    match j, h1 with
    | 0, h1 => cases h1; exact h p
  loss := by
    intro i jt q h
    rfl

/-- One server which is sent `u` short and `v` long jobs. -/
theorem small_assigned (price : ECost → ECost) (lambda : LoadProfile) (u v : ℚ) (hu : 0 ≤ u) (hv : 0 ≤ v)
    (h : (⟨[], 1, 2⟩ : LoadFractions).selectLoads lambda 0 = .ok [u, v]) :
    Assigned (T := ℤ) (smallSite price) [1] lambda ⟨[], 1, 2⟩ (fun _ _ => 1)
      (fun _ _ s i => [u, v].getD (encode 2 s i) 0) where
  servers := by
    intro j k hj hk
    change j < 1 at hj
    change k < 1 at hk
    obtain rfl : j = 0 := by omega
    obtain rfl : k = 0 := by omega
    exact ⟨1, rfl, by simp [toQ]⟩
  jobs := by
    intro j k hj hk
    change j < 1 at hj
    change k < 1 at hk
    obtain rfl : j = 0 := by omega
    obtain rfl : k = 0 := by omega
    exact ⟨[u, v], h, rfl, fun s i => rfl⟩
  nonneg := by
    intro j k s i hj hk hs hi
    change s < 1 at hs
    change i < 2 at hi
    obtain rfl : s = 0 := by omega
    match i, hi with
    | 0, _ => exact hu
    | 1, _ => exact hv

/-- The energy of the utilisation 3/4 at price 5, and the loss of both half jobs, due to the sojourn time 6. -/
example : (smallModel (.linear fun _ => some fun _ => 5)).objective (T := ℤ) 1 [1] [1, 1] ⟨[], 1, 2⟩ =
    .ok ⟨((35 / 2 : ℚ) : ECost), ((13 / 2 : ℚ) : ECost)⟩ := by
  have h := (C70_objective (small_describes (.linear fun _ => some fun _ => 5) (ECost.mulQ 5) 1 fun p => rfl)
    (by norm_num [smallSite]) (by intro i k _ _; simp only [smallSite]; split <;> norm_num) [1] [1, 1] ⟨[], 1, 2⟩ _ _
    (small_assigned (ECost.mulQ 5) [1, 1] (1 / 2) (1 / 2) (by norm_num) (by norm_num) (by decide +kernel))).1
  rw [h]
  · congr 2
    · norm_num [sumTo, smallSite, Site.energyCost, Site.energyOf, Site.utilisation, Site.work, encode, List.range_succ,
        ECost.mulQ]
    · norm_num [sumTo, smallSite, Site.lossAt, Site.lossOf, Site.sojourn, Site.utilisation, Site.work, Site.jobs, encode,
        List.range_succ, pos, umax]
  · intro j k hj hk
    norm_num [sumTo, smallSite, Site.utilisation, Site.work, encode, List.range_succ]

/-- With quotas the utilisation limits are not enforced: a server utilised by 19/20, beyond its limit of 9/10, has finite
costs. -/
theorem C71_quotas_counterexample :
    ∃ o, (smallModel (.quotas fun _ => some [oneSource])).objective (T := ℤ) 1 [1] [19 / 10, 0] ⟨[], 1, 2⟩ = .ok o ∧
      o.energyCost + o.revenueLoss ≠ ⊤ ∧
      (smallSite id).utilisation (fun _ _ => 1) (fun _ _ s i => [19 / 10, 0].getD (encode 2 s i) 0) 0 0 = 19 / 20 ∧
      (smallSite id).maxUse 0 = 9 / 10 := by
  have h := (C70_objective (small_describes (.quotas fun _ => some [oneSource])
      (fun p => ((quotasCost 1 ⟨"a", fun _ => some 4⟩ p (sortSources 1 [oneSource]) 0 : ℚ) : ECost)) 1 fun p => rfl)
    (by norm_num [smallSite]) (by intro i k _ _; simp only [smallSite]; split <;> norm_num) [1] [19 / 10, 0]
    ⟨[], 1, 2⟩ _ _ (small_assigned _ [19 / 10, 0] (19 / 10) 0 (by norm_num) (by norm_num) (by decide +kernel))).1 (by
      intro j k hj hk
      norm_num [sumTo, smallSite, Site.utilisation, Site.work, encode, List.range_succ])
  refine ⟨_, h, ?_, ?_, rfl⟩
  · exact WithTop.add_ne_top.2 ⟨(sum_ne_top _ _).2 fun j _ => WithTop.coe_ne_top, WithTop.coe_ne_top⟩
  · norm_num [sumTo, smallSite, Site.utilisation, Site.work, encode, List.range_succ]

/-- A half utilised server of this model. -/
example : ((smallModel (.linear fun _ => some fun _ => 5)).serverCost ⟨"a", fun _ => some 4⟩ ⟨"s", 9 / 10⟩).callMean 1
    (1 / 2) = .ok (Cost.raw ((15 : ℚ) : ECost)) := by
  have := (C71_server_cost (smallModel (.linear fun _ => some fun _ => 5)) ⟨"a", fun _ => some 4⟩ ⟨"s", 9 / 10⟩ 1
    (by norm_num) (1 / 2) 3 _ _ rfl rfl (by decide +kernel)).1 (by norm_num)
  rw [this]
  norm_num

/-- With linear prices the same assignment has infinite costs. -/
example : ∃ o, (smallModel (.linear fun _ => some fun _ => 5)).objective (T := ℤ) 1 [1] [19 / 10, 0] ⟨[], 1, 2⟩ = .ok o ∧
    o.energyCost + o.revenueLoss = ⊤ := by
  have hd := small_describes (.linear fun _ => some fun _ => 5) (ECost.mulQ 5) 1 fun p => rfl
  have ht : ∀ i k, i < (smallSite (ECost.mulQ 5)).jobTypes → k < (smallSite (ECost.mulQ 5)).types →
      0 ≤ (smallSite (ECost.mulQ 5)).time i k := by
    intro i k _ _; simp only [smallSite]; split <;> norm_num
  have ha := small_assigned (ECost.mulQ 5) [19 / 10, 0] (19 / 10) 0 (by norm_num) (by norm_num) (by decide +kernel)
  have h := (C70_objective hd (by norm_num [smallSite]) ht [1] [19 / 10, 0] ⟨[], 1, 2⟩ _ _ ha).1 (by
    intro j k hj hk
    norm_num [sumTo, smallSite, Site.utilisation, Site.work, encode, List.range_succ])
  refine ⟨_, h, ?_⟩
  by_contra hc
  have := (C71_utilisation_partial hd (by norm_num [smallSite]) ht [1] [19 / 10, 0] ⟨[], 1, 2⟩ _ _ ha _ rfl
    (by intro key c hc; cases hc; norm_num) _ h).1 hc 0 0 (by norm_num [smallSite]) (by norm_num [smallSite]) (by norm_num)
  norm_num [sumTo, smallSite, Site.utilisation, Site.work, encode, List.range_succ] at this

end DataCenterModel
end Soco
