import Verif.Model.Build
import Verif.Props.Network

/-!
# C136: data centers made of default parts
-/

namespace Soco
namespace Spec

/-- Jobs of type `jt` take the time `w` on default servers: the default, a constant, or an entry of a table. -/
def JobTime (jt : JobType) (w : ℚ) : Prop :=
  (jt = .dflt ∧ w = 1) ∨ (∃ key, jt = .fromConst key w) ∨ (∃ key table, jt = .fromCached key table ∧ table "" = some w) ∨
    ∃ table, jt = .fromMap table ∧ table "" = some w

/-- Jobs of the source `s` take the time `r` to the location with key `loc`: the default, a constant, or an entry of a table. -/
def RouteTime (s : Source) (loc : String) (r : ℚ) : Prop :=
  (s = .dflt ∧ r = 0) ∨ (∃ key, s = .fromConst key r) ∨ ∃ key table, s = .fromCached key table ∧ table loc = some r

/-- A data center with default servers at one location, which consume between `low` and `high` units of energy, for which a
constant price is paid, with the default loss of revenue. -/
def plainCenter (delta : ℚ) (loc : Location) (s : Source) (jt : JobType) (low high price : ℚ) (sw : String → Option SwitchingCost) :
    DataCenterModel where
  delta := delta
  locations := [loc]
  serverTypes := [.dflt]
  sources := [s]
  jobTypes := [jt]
  consumptionModel := .linear fun _ => some ⟨low, high⟩
  energyModel := .linear fun _ => some (linearFromConst price)
  lossModel := fun _ => some .dflt
  switchingModel := sw

/-- What a slot of length `delta` costs with `n` servers and `l` jobs that take the time `w` and come from a distance of `r`. The
servers are busy for the part `u` of the slot. Every job loses as much as its delay. -/
def plainCost (delta w r low high price n l : ℚ) : ECost :=
  if n ≤ 0 then (if l = 0 then 0 else ⊤)
  else
    let u := l * w / (n * delta)
    if 1 ≤ u then ⊤
    else ((price * (n * (delta * (low + (high - low) * u))) + l * max 0 (w / (1 - u) + r + w) : ℚ) : ECost)

end Spec

namespace Parts
open Spec

/-- What the data center describes. -/
def site (delta w r low high price : ℚ) : Site where
  locations := 1
  types := 1
  sources := 1
  jobTypes := 1
  slot := delta
  maxUse := fun _ => 1
  time := fun _ _ => w
  route := fun _ _ => r
  power := fun _ u => delta * ((high - low) * u + low)
  price := fun _ p => ECost.mulQ price p
  loss := fun _ q => 1 * pos (q - 0)

theorem describes {delta w r low high price : ℚ} {loc : Location} {s : Source} {jt : JobType} (sw : String → Option SwitchingCost)
    (hj : JobTime jt w) (hs : RouteTime s loc.key r) (t : Int) :
    Describes (plainCenter delta loc s jt low high price sw) t (site delta w r low high price) where
  locations := rfl
  types := rfl
  sources := rfl
  jobTypes := rfl
  slot := rfl
  maxUse := by
    intro k st h
    match k, h with
    | 0, h => cases h; rfl
  time := by
    intro i jt' k st h h2
    match i, h, k, h2 with
    | 0, h, 0, h2 =>
      cases h; cases h2
      rcases hj with ⟨rfl, rfl⟩ | ⟨key, rfl⟩ | ⟨key, table, rfl, e⟩ | ⟨table, rfl, e⟩
      · rfl
      · rfl
      · show lookup table "" = _
        unfold lookup; rw [e]; rfl
      · show lookup table "" = _
        unfold lookup; rw [e]; rfl
  route := by
    intro s' src j loc' h h2
    match s', h, j, h2 with
    | 0, h, 0, h2 =>
      cases h; cases h2
      rcases hs with ⟨rfl, rfl⟩ | ⟨key, rfl⟩ | ⟨key, table, rfl, e⟩
      · rfl
      · rfl
      · show lookup table loc.key = _
        unfold lookup; rw [e]; rfl
  power := by intro k st u h; rfl
  price := by intro j loc p h1; rfl
  loss := by intro i jt q h; rfl

theorem cost (delta w r low high price n l : ℚ) (a : Nat → Nat → Nat → Nat → ℚ) (m : Nat → Nat → ℚ)
    (hm : m 0 0 = n) (ha : a 0 0 0 0 = l) :
    (site delta w r low high price).slotCost m a = plainCost delta w r low high price n l := by
  have hjobs : (site delta w r low high price).jobs a 0 0 = l := by
    simp [Site.jobs, site, sumTo, ha]
  have hwork : (site delta w r low high price).work a 0 0 = w * l := by
    simp [Site.work, site, sumTo, ha]
  have hu : (site delta w r low high price).utilisation m a 0 0 = l * w / (n * delta) := by
    simp only [Site.utilisation, hwork, hm]
    show w * l / (n * delta) = _
    rw [mul_comm w l]
  have hF : (site delta w r low high price).Feasible m a ↔ (n ≤ 0 → l = 0) ∧ (0 < n → l * w / (n * delta) < 1) := by
    constructor
    · intro h
      have := h 0 0 (by simp [site]) (by simp [site])
      rwa [hjobs, hu, hm] at this
    · intro h j k hj hk
      obtain rfl : j = 0 := by simpa [site] using hj
      obtain rfl : k = 0 := by simpa [site] using hk
      rw [hjobs, hu, hm]
      exact h
  unfold Site.slotCost
  have he : sumTo (site delta w r low high price).locations ((site delta w r low high price).energyCost m a) =
      ECost.mulQ price ((site delta w r low high price).energyOf m a 0 0) := by
    simp [Site.energyCost, site, sumTo]
  have hl : sumTo (site delta w r low high price).locations ((site delta w r low high price).lossAt m a) =
      if n ≤ 0 then 0 else (site delta w r low high price).lossOf m a 0 0 0 0 := by
    simp [Site.lossAt, site, sumTo, hm]
  rw [he, hl]
  unfold plainCost Site.energyOf
  rw [hm, hu]
  by_cases hn : n ≤ 0
  · by_cases h0 : l = 0
    · rw [if_pos (hF.2 ⟨fun _ => h0, fun h => absurd h (not_lt.2 hn)⟩), if_pos hn, if_pos hn, if_pos hn, if_pos h0]
      show ((price * 0 + 0 : ℚ) : ECost) = ((0 : ℚ) : ECost)
      rw [mul_zero, add_zero]
    · rw [if_neg fun h => h0 ((hF.1 h).1 hn), if_pos hn, if_neg h0]
  · rw [if_neg hn, if_neg hn, if_neg hn]
    push Not at hn
    by_cases h1 : 1 ≤ l * w / (n * delta)
    · rw [if_neg fun h => absurd ((hF.1 h).2 hn) (not_lt.2 h1), if_pos h1]
    · push Not at h1
      rw [if_pos (hF.2 ⟨fun h => absurd hn (not_lt.2 h), fun _ => h1⟩), if_neg (not_le.2 h1),
        if_pos (show l * w / (n * delta) ≤ (site delta w r low high price).maxUse 0 from h1.le)]
      have e : (site delta w r low high price).lossOf m a 0 0 0 0 = l * max 0 (w / (1 - l * w / (n * delta)) + r + w) := by
        unfold Site.lossOf Site.sojourn
        rw [hjobs, hwork, hu, ha]
        show 1 * pos (w * l / l / (1 - l * w / (n * delta)) + r + w - 0) * l = _
        rcases eq_or_ne l 0 with rfl | h
        · ring
        · rw [mul_div_cancel_right₀ _ h, sub_zero, one_mul, mul_comm, pos_eq]
      rw [e]
      show ((price * (n * (delta * ((high - low) * (l * w / (n * delta)) + low))) + _ : ℚ) : ECost) = _
      rw [add_comm ((high - low) * _) low]

end Parts

open Spec Parts in
/-- **C136** The hitting cost of a data center made of default parts, or parts built from constants or tables, has a closed form:
`n` servers process less than `n · delta / w` jobs in a slot, and each job costs its delay. -/
theorem C136_cost {T : Type} [Value T] (S : Num.Solver) (hS : Exact S) (hS' : StaysFeasible S) (delta : ℚ) (hδ : 0 < delta)
    (loc : Location) (s : Source) (jt : JobType) (low high price w r : ℚ) (sw : String → Option SwitchingCost) (hw : 0 ≤ w)
    (hj : JobTime jt w) (hs : RouteTime s loc.key r) (t : Int) (n : T) (l : ℚ) (hl : 0 ≤ l) :
    ∃ c, applyLoads S 1 1 (plainCenter delta loc s jt low high price sw).objective [l] t [n] = .ok c ∧
      c.cost = plainCost delta w r low high price (toQ n) l := by
  obtain ⟨c, h1, ⟨z, h2, h3⟩, -⟩ := C92_slot_cost S hS hS' (plainCenter delta loc s jt low high price sw) t
    (site delta w r low high price) (describes sw hj hs t) le_rfl hδ (fun _ _ _ _ => hw) [n] rfl [l] rfl (by simpa using hl)
  refine ⟨c, h1, h3.trans (cost _ _ _ _ _ _ _ _ _ _ ?_ ?_)⟩
  · rfl
  · show l * z 0 0 = l
    rcases hl.eq_or_lt with h | h
    · rw [← h, zero_mul]
    · have := h2.total 0 (by simp) (by simpa using h)
      have e : z 0 0 = 1 := by
        have h' : sumTo 1 (fun k => z k 0) = l / (l + 0) := this
        simp only [sumTo, List.range_one, List.map_cons, List.map_nil, List.sum_cons, List.sum_nil, add_zero, div_self h.ne'] at h'
        exact h'
      rw [e, mul_one]

open Spec Parts in
/-- **C136** With default servers and default jobs, `n` servers can process exactly the loads below `n` jobs per unit of time. -/
theorem C136_capacity (S : Num.Solver) (hS : Exact S) (hS' : StaysFeasible S) (delta : ℚ) (hδ : 0 < delta)
    (loc : Location) (low high price : ℚ) (sw : String → Option SwitchingCost) (t : Int) (n : ℤ) (hn : 0 ≤ n) (l : ℚ) (hl : 0 < l) :
    ∃ c, applyLoads S 1 1 (plainCenter delta loc .dflt .dflt low high price sw).objective [l] t [n] = .ok c ∧
      (c.cost ≠ ⊤ ↔ l < n * delta) := by
  obtain ⟨c, h1, h2⟩ := C136_cost S hS hS' delta hδ loc .dflt .dflt low high price 1 0 sw zero_le_one (.inl ⟨rfl, rfl⟩)
    (.inl ⟨rfl, rfl⟩) t n l hl.le
  refine ⟨c, h1, ?_⟩
  rw [h2]
  have e : (toQ n : ℚ) = (n : ℚ) := rfl
  rw [e]
  unfold plainCost
  rcases hn.eq_or_lt with h | h
  · subst h
    simp [hl.ne', hl.le]
  · have h' : (0 : ℚ) < n := by exact_mod_cast h
    have hp : 0 < (n : ℚ) * delta := mul_pos h' hδ
    rw [if_neg (not_le.2 h')]
    simp only [mul_one]
    rcases lt_or_ge l (n * delta) with h3 | h3
    · rw [if_neg (by rw [not_le, div_lt_one hp]; exact h3)]
      exact ⟨fun _ => h3, fun _ => WithTop.coe_ne_top⟩
    · rw [if_pos (by rw [le_div_iff₀ hp, one_mul]; exact h3)]
      exact ⟨fun h => absurd rfl h, fun h => absurd h (not_lt.2 h3)⟩

/-! ## Examples -/

namespace Ex
open Spec

/-- Non-vacuity of `C136_cost`: jobs that take half a unit of time, found in a table, from a source three units away. -/
example (S : Num.Solver) (hS : Exact S) (hS' : StaysFeasible S) := C136_cost (T := ℤ) S hS hS' 1 one_pos ⟨"a", fun _ => some 2⟩
  (.fromConst "s" 3) (.fromMap fun k => if k = "" then some (1 / 2) else none) 1 2 5 (1 / 2) 3 (fun _ => none) (by norm_num)
  (.inr (.inr (.inr ⟨_, rfl, rfl⟩))) (.inr (.inl ⟨_, rfl⟩)) 1 2 2 (by norm_num)

/-- Two servers and two such jobs: the servers are busy half of the time and consume 3 units of energy at a price of 5, and each job
is delayed by 1 + 3 + 1/2. -/
example : plainCost 1 (1 / 2) 3 1 2 5 2 2 = ((5 * 3 + 2 * (9 / 2) : ℚ) : ECost) := by decide +kernel

end Ex
end Soco
