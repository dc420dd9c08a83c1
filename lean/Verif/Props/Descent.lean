import Verif.Spec.Descent
import Verif.Spec.Online
import Verif.Model.Descent
import Verif.Lemmas.Optimiser
import Verif.Lemmas.CostFn
import Verif.Props.CostFn
import Verif.Props.Results

/-! # C50: descent algorithms -/

namespace Soco
namespace Descent
open Spec Num

section
variable {C D : Type} [OutSuccess C] [OutFailure D]

theorem prevX_eq (p : SCO ℚ C D) (hd : p.d = p.bounds.length) (xs : Schedule ℚ) :
    prevX p.d xs = latest p.bounds.length xs := by
  simp [prevX, latest, Schedule.nowWithDefault, Config.repeat, hd, List.getLastD_eq_getLast?]

theorem latest_length (d : Nat) (xs : Schedule ℚ) (h : ∀ x ∈ xs, x.length = d) : (latest d xs).length = d := by
  unfold latest
  cases e : xs.getLast? with
  | none => simp
  | some x => exact h x (List.mem_of_getLast? e)

theorem hitCost_eq {p : SCO ℚ C D} {t : Int} {hit : Config ℚ → ECost} {mv : Config ℚ → ℚ} (h : Slot p t hit mv) (x : Config ℚ) :
    (InBoxQ p.bounds x → ∃ o, p.toProb.hitCost t x = .ok ⟨hit x, o⟩) ∧
    (x.length = p.bounds.length → ¬ InBoxQ p.bounds x → ∃ o, p.toProb.hitCost t x = .ok ⟨⊤, o⟩) := by
  have e : p.toProb.hitCost t x = p.hittingCost.callMeanWithinBounds t x (withinPairs p.bounds) := rfl
  rw [e]
  unfold CostFn.callMeanWithinBounds
  constructor
  · intro hx
    obtain ⟨o, ho⟩ := h.mean x hx
    rw [(withinPairs_eq p.bounds x).1.2 hx]
    exact ⟨o, ho⟩
  · intro hl hx
    rw [(withinPairs_eq p.bounds x).2.2.2 ⟨hl, hx⟩]
    exact ⟨_, rfl⟩

theorem hitCost_total {p : SCO ℚ C D} {t : Int} {hit : Config ℚ → ECost} {mv : Config ℚ → ℚ} (h : Slot p t hit mv) (x : Config ℚ)
    (hx : x.length = p.bounds.length) : ∃ c, p.toProb.hitCost t x = .ok c := by
  by_cases hb : InBoxQ p.bounds x
  · obtain ⟨o, ho⟩ := (hitCost_eq h x).1 hb
    exact ⟨_, ho⟩
  · obtain ⟨o, ho⟩ := (hitCost_eq h x).2 hx hb
    exact ⟨_, ho⟩

/-- The point `hittingMinimizer` computes. -/
theorem hittingMinimizer_ok {S : Solver} (hS : Inner S) {p : SCO ℚ C D} {t : Int} {hit : Config ℚ → ECost} {mv : Config ℚ → ℚ}
    (h : Slot p t hit mv) :
    ∃ v a, hittingMinimizer S t p.hittingCost p.bounds = .ok (v, a) ∧ GridPoint p.bounds v ∧ (a = hit v ∨ a = ⊤) ∧
      ((∀ box f init cs, (S box f init cs).status = .done) → a = hit v) ∧
      (Exact S → ∀ y, GridPoint p.bounds y → hit v ≤ hit y) := by
  obtain ⟨f, hf⟩ : ∃ f : List ℚ → Res ECost, f = (fun x => do
    let c ← p.hittingCost.callCertain t x
    .ok c.cost) := ⟨_, rfl⟩
  have hv : ∀ x : List ℚ, InBoxQ p.bounds x → f x = .ok (hit x) := by
    intro x hx
    obtain ⟨o, ho⟩ := h.certain x hx
    simp [hf, ho, bind, Except.bind]
  obtain ⟨x, v, h1, h2, h3, h4, h5, h6⟩ := minimize_inner hS h.box none (by simp) [] (f := f)
    (fun x hx => ⟨_, hv x hx⟩) (by simp)
  refine ⟨x, v, ?_, ⟨h2, h3⟩, ?_, ?_, ?_⟩
  · unfold hittingMinimizer findMinimizer
    rw [← hf, h1]
  · rcases h6 with h6 | h6
    · rw [hv x h2] at h6
      exact Or.inl (Except.ok.inj h6).symm
    · exact Or.inr h6
  · intro hd
    have := h5 (hd _ _ _ _)
    rw [hv x h2] at this
    exact (Except.ok.inj this).symm
  · intro hE y hy
    exact hE.best p.bounds f _ [] h.box y _ _ hy.1 hy.2 (by simp [Meets]) (by rw [← h4, hv x h2]) (hv y hy.1)

theorem centralDiff_ok {E G : Type} (quot : E → E → G) (ε : ℚ) (f : List ℚ → Res E) (F : List ℚ → E) (x : List ℚ)
    (hf : ∀ y : List ℚ, y.length = x.length → f y = .ok (F y)) :
    centralDiff quot ε f x = .ok ((List.range x.length).map fun k : Nat => quot (F (bump x k ε)) (F (bump x k (-ε)))) := by
  unfold centralDiff
  apply mapM_ok_of
  intro k _
  rw [hf _ (by simp), hf _ (by simp)]
  simp only [bind, Except.bind, bump, sub_eq_add_neg]

theorem bregmanDivergence_ok (ε : ℚ) (h : Config ℚ → Res ℚ) (H : Config ℚ → ℚ) (n : Nat)
    (hh : ∀ x : Config ℚ, x.length = n → h x = .ok (H x)) (x y : Config ℚ) (hx : x.length = n) (hy : y.length = n) :
    bregmanDivergence ε h x y = .ok (divergence ε H x y) := by
  unfold bregmanDivergence gradientQ
  rw [hh x hx, hh y hy, centralDiff_ok _ ε h H y fun z hz => hh z (by rw [hz, hy])]
  rfl

/-- **C50** (balanced descent). Given an optimiser which stays within the bounds, the step of online balanced descent at
level `l` succeeds and stays in the decision space; the hitting cost of the result is at most `l`, or the result is the
point the optimiser took to minimise the hitting cost. If the optimiser is exact and the sublevel set of `l` is not empty,
then the result is a Bregman projection of the latest configuration onto it; if it is empty, the result minimises the
hitting cost. -/
theorem C50_obd (S : Solver) (hS : Inner S) (o : Online (SCO ℚ C D)) (hw : o.w = 0) (xs : Schedule ℚ)
    (hxs : ∀ x ∈ xs, x.length = o.p.bounds.length) (hit : Config ℚ → ECost) (mv : Config ℚ → ℚ)
    (hp : Slot o.p (xs.length + 1) hit mv) (ε : ℚ) (h : Config ℚ → Res ℚ) (H : Config ℚ → ℚ)
    (hh : ∀ x : Config ℚ, x.length = o.p.bounds.length → h x = .ok (H x)) (l : ℚ) :
    ∃ x, (obd S ε h ((l : ℚ) : ECost)).next o xs none = .ok (x, none) ∧ GridPoint o.p.bounds x ∧
      (hit x ≤ ((l : ℚ) : ECost) ∨
        ∃ a, hittingMinimizer S (xs.length + 1) o.p.hittingCost o.p.bounds = .ok (x, a)) ∧
      (Exact S → (∃ y, GridPoint o.p.bounds y ∧ hit y ≤ ((l : ℚ) : ECost)) → hit x ≤ ((l : ℚ) : ECost) ∧
        ∀ y, GridPoint o.p.bounds y → hit y ≤ ((l : ℚ) : ECost) →
          divergence ε H x (latest o.p.bounds.length xs) ≤ divergence ε H y (latest o.p.bounds.length xs)) ∧
      (Exact S → (¬ ∃ y, GridPoint o.p.bounds y ∧ hit y ≤ ((l : ℚ) : ECost)) →
        ∀ y, GridPoint o.p.bounds y → hit x ≤ hit y) := by
  obtain ⟨v, a, hv, hvg, -, -, hvb⟩ := hittingMinimizer_ok hS hp
  obtain ⟨pr, hpr⟩ : ∃ pr, pr = latest o.p.bounds.length xs := ⟨_, rfl⟩
  have hprl : pr.length = o.p.bounds.length := by rw [hpr]; exact latest_length _ _ hxs
  obtain ⟨f, hf⟩ : ∃ f : List ℚ → Res ECost, f = (fun y => do
    let b ← bregmanDivergence ε h y pr
    .ok ((b : ℚ) : ECost)) := ⟨_, rfl⟩
  obtain ⟨c, hc⟩ : ∃ c : List ℚ → Res Slack, c = (fun y => do
    let c ← o.p.hittingCost.callCertain (xs.length + 1) y
    .ok ((c.cost.map (· - l) : ECost) : Slack)) := ⟨_, rfl⟩
  have fv : ∀ y : List ℚ, InBoxQ o.p.bounds y → f y = .ok ((divergence ε H y pr : ℚ) : ECost) := by
    intro y hy
    simp only [hf, bregmanDivergence_ok ε h H _ hh y pr (inBoxQ_length hy) hprl, bind, Except.bind]
  have cv : ∀ y : List ℚ, InBoxQ o.p.bounds y → c y = .ok (((hit y).map (· - l) : ECost) : Slack) := by
    intro y hy
    obtain ⟨o', ho⟩ := hp.certain y hy
    simp only [hc, ho, bind, Except.bind]
  have cle : ∀ y, (((hit y).map (· - l) : ECost) : Slack) ≤ 0 ↔ hit y ≤ ((l : ℚ) : ECost) := by
    intro y
    cases hit y using WithTop.recTopCoe with
    | top => simp [WithTop.map_top, ← WithBot.coe_zero]
    | coe q =>
      rw [WithTop.map_coe, ← WithBot.coe_zero, WithBot.coe_le_coe, ← WithTop.coe_zero, WithTop.coe_le_coe,
        WithTop.coe_le_coe]
      exact sub_nonpos
  have meets : ∀ y : List ℚ, InBoxQ o.p.bounds y → (Meets [c] y ↔ hit y ≤ ((l : ℚ) : ECost)) := by
    intro y hy
    rw [← cle]
    simp [Meets, cv y hy]
  obtain ⟨y, b, h1, h2, h3, h4, -, -⟩ := minimize_inner hS hp.box (some v) (by simpa using inBoxQ_length hvg.1) [c] (f := f)
    (fun x hx => ⟨_, fv x hx⟩) (by simpa using fun x hx => ⟨_, cv x hx⟩)
  obtain ⟨o', ho⟩ := hp.certain y h2
  have key : (obd S ε h ((l : ℚ) : ECost)).next o xs none =
      .ok (if hit y > ((l : ℚ) : ECost) then v else y, none) := by
    simp only [OnlineAlgorithm.next, obd, hw, assertR, decide_true, if_true, bregmanProjection, bind, Except.bind,
      Schedule.tEnd, hv, prevX_eq o.p hp.dim]
    have h1' := h1
    rw [hf, hc, hpr] at h1'
    simp only [bind, Except.bind] at h1'
    rw [h1']
    simp only [ho]
    by_cases hgt : hit y > ((l : ℚ) : ECost) <;> simp [hgt]
  refine ⟨_, key, ?_, ?_, ?_, ?_⟩
  · split
    · exact hvg
    · exact ⟨h2, h3⟩
  · split
    · exact Or.inr ⟨a, hv⟩
    · exact Or.inl (not_lt.1 (by assumption))
  · rintro hE hex
    have hm : Meets [c] y := by
      rw [h4]
      refine hE.feasible _ _ _ _ hp.box ?_
      obtain ⟨z, hz, hz'⟩ := hex
      exact ⟨z, hz.1, hz.2, (meets z hz.1).2 hz'⟩
    have hy := (meets y h2).1 hm
    rw [if_neg (not_lt.2 hy)]
    refine ⟨hy, ?_⟩
    intro z hz hz'
    have := hE.best o.p.bounds f (Option.getD (some v) (o.p.bounds.map Prod.snd)) [c] hp.box z _ _ hz.1 hz.2 ((meets z hz.1).2 hz')
      (by rw [← h4, fv y h2]) (fv z hz.1)
    rw [← hpr]
    exact WithTop.coe_le_coe.1 this
  · rintro hE hex z hz
    have hy : ¬ hit y ≤ ((l : ℚ) : ECost) := fun hle => hex ⟨y, ⟨h2, h3⟩, hle⟩
    rw [if_pos (not_le.1 hy)]
    exact hvb hE z hz

/-- The root finder returns an answer whenever the values at the ends of the interval do not have the same sign. -/
def Answers (B : Brent) : Prop := ∀ a b (f : ℚ → Res Slack) l r, f a = .ok l → f b = .ok r → (l ≤ 0 ∧ 0 ≤ r ∨ r ≤ 0 ∧ 0 ≤ l) →
  (B (a, b) f).2 ≠ none

theorem visit1_ok (f : ℚ → Res Slack) (hf : ∀ x, ∃ v, f x = .ok v) (ps : List ℚ) : visit1 f ps = .ok () := by
  induction ps with
  | nil => rfl
  | cons x ps ih =>
    obtain ⟨v, hv⟩ := hf x
    simp only [visit1, hv, bind, Except.bind, ih]

theorem findRoot_ok {B : Brent} (hB : Answers B) (a b : ℚ) (f : ℚ → Res Slack) (hf : ∀ x, ∃ v, f x = .ok v) :
    ∃ l, findRoot B a b f = .ok l := by
  unfold findRoot
  split
  · exact ⟨_, rfl⟩
  · obtain ⟨l, hl⟩ := hf a
    obtain ⟨r, hr⟩ := hf b
    simp only [hl, hr, bind, Except.bind]
    split
    · exact ⟨_, rfl⟩
    · split
      · exact ⟨_, rfl⟩
      · split
        · exact ⟨_, rfl⟩
        · rename_i h
          rw [visit1_ok f hf]
          have := hB a b f l r hl hr (by
            push Not at h
            rcases le_total l 0 with h1 | h1
            · rcases le_total 0 r with h2 | h2
              · exact Or.inl ⟨h1, h2⟩
              · rcases h1.lt_or_eq with h3 | h3
                · exact Or.inl ⟨h1, h.2 h3⟩
                · exact Or.inr ⟨h2, h3.ge⟩
            · rcases le_total r 0 with h2 | h2
              · exact Or.inr ⟨h2, h1⟩
              · rcases h1.lt_or_eq with h3 | h3
                · exact Or.inr ⟨h.1 h3, h1⟩
                · exact Or.inl ⟨h3.ge, h2⟩)
          cases e : (B (a, b) f).2 with
          | none => exact absurd e this
          | some x => exact ⟨_, rfl⟩

/-- **C50** (primal balanced descent). The step succeeds and stays in the decision space: it goes to the point the
optimiser took to minimise the hitting cost if the movement there costs at most `β` times the hitting cost, and to the
point of balanced descent for some level otherwise. -/
theorem C50_pobd (S : Solver) (hS : Inner S) (B : Brent) (hB : Answers B) (o : Online (SCO ℚ C D)) (hw : o.w = 0)
    (xs : Schedule ℚ) (hxs : ∀ x ∈ xs, x.length = o.p.bounds.length) (hit : Config ℚ → ECost) (mv : Config ℚ → ℚ)
    (hp : Slot o.p (xs.length + 1) hit mv) (ε : ℚ) (h : Config ℚ → Res ℚ) (H : Config ℚ → ℚ)
    (hh : ∀ x : Config ℚ, x.length = o.p.bounds.length → h x = .ok (H x)) (β : ℚ) (hβ : 0 < β) :
    ∃ x, (pobd S B ε h β).next o xs none = .ok (x, none) ∧ GridPoint o.p.bounds x ∧
      ((∃ a, hittingMinimizer S (xs.length + 1) o.p.hittingCost o.p.bounds = .ok (x, a) ∧
          ((mv (Config.sub x (latest o.p.bounds.length xs)) : ℚ) : ECost) ≤ ECost.mulQ β a) ∨
        ∃ l : ℚ, (obd S ε h ((l : ℚ) : ECost)).next o xs none = .ok (x, none)) := by
  obtain ⟨v, a, hv, hvg, -, -, -⟩ := hittingMinimizer_ok hS hp
  have hprl : (latest o.p.bounds.length xs).length = o.p.bounds.length := latest_length _ _ hxs
  have hsub : ∀ x : Config ℚ, x.length = o.p.bounds.length →
      o.p.switchingCost (Config.sub x (latest o.p.bounds.length xs)) = .ok (mv (Config.sub x (latest o.p.bounds.length xs))) := by
    intro x hx
    apply hp.moves
    simp [Config.sub, hx, hprl]
  have hm := hsub v (inBoxQ_length hvg.1)
  obtain ⟨b, hb⟩ := hitCost_total hp (latest o.p.bounds.length xs) hprl
  have hobd := fun l : ℚ => C50_obd S hS o hw xs hxs hit mv hp ε h H hh l
  have e : (pobd S B ε h β).next o xs none = (pobd S B ε h β).call o (xs.length + 1) xs () := rfl
  rw [e]
  simp only [pobd, hw, assertR, decide_true, if_true, bind, Except.bind, hv, hm, prevX_eq o.p hp.dim]
  cases a using WithTop.recTopCoe with
  | top =>
    refine ⟨v, ?_, hvg, Or.inl ⟨⊤, rfl, ?_⟩⟩
    · show (if 0 < β then _ else _) = _
      rw [if_pos hβ]
    · simp [ECost.mulQ]
  | coe a =>
    show ∃ x, (if mv (Config.sub v (latest o.p.bounds.length xs)) ≤ β * a then _ else _) = _ ∧ _
    by_cases hle : mv (Config.sub v (latest o.p.bounds.length xs)) ≤ β * a
    · refine ⟨v, by rw [if_pos hle], hvg, Or.inl ⟨_, rfl, ?_⟩⟩
      simp only [ECost.mulQ, WithTop.map_coe, WithTop.coe_le_coe]
      exact hle
    · simp only [if_neg hle, hb]
      obtain ⟨l, hl⟩ := findRoot_ok hB a (upperLevel a b.cost) (fun l : ℚ => do
          let x ← (obd S ε h ((l : ℚ) : ECost)).next o xs none
          let m ← o.p.switchingCost (Config.sub x.1 (latest o.p.bounds.length xs))
          .ok (((m - β * l : ℚ) : WithTop ℚ) : Slack)) (by
        intro l
        obtain ⟨x, h1, h2, -⟩ := hobd l
        simp only [h1, bind, Except.bind, hsub x (inBoxQ_length h2.1)]
        exact ⟨_, rfl⟩)
      simp only [bind, Except.bind] at hl
      rw [hl]
      obtain ⟨x, h1, h2, -⟩ := hobd l
      exact ⟨x, h1, h2, Or.inr ⟨l, h1⟩⟩

theorem option_mapM_length {α β : Type} (f : α → Option β) (g : List α) (q : List β) (h : g.mapM f = some q) :
    q.length = g.length := by
  induction g generalizing q with
  | nil => simp at h; simp [h]
  | cons x g ih =>
    simp only [List.mapM_cons, bind, Option.bind_eq_some_iff] at h
    obtain ⟨a, -, r, h2, h3⟩ := h
    cases h3
    simp [ih r h2]

theorem allFinite_of (g : List Slack) : (∃ q, allFinite g = some q ∧ q.length = g.length) ∨ allFinite g = none := by
  cases h : allFinite g with
  | none => exact Or.inr rfl
  | some q => exact Or.inl ⟨q, rfl, option_mapM_length _ _ _ h⟩

/-- **C50** (dual balanced descent). If the optimiser does not time out and some hitting cost is finite, the step succeeds,
stays in the decision space and is a step of balanced descent for some level. -/
theorem C50_dobd (S : Solver) (hS : Inner S) (hS' : Exact S) (B : Brent) (hB : Answers B)
    (o : Online (SCO ℚ C D)) (hw : o.w = 0)
    (xs : Schedule ℚ) (hxs : ∀ x ∈ xs, x.length = o.p.bounds.length) (hit : Config ℚ → ECost) (mv : Config ℚ → ℚ)
    (hp : Slot o.p (xs.length + 1) hit mv) (hfin : ∃ y, GridPoint o.p.bounds y ∧ hit y ≠ ⊤)
    (ε : ℚ) (h : Config ℚ → Res ℚ) (H : Config ℚ → ℚ)
    (hh : ∀ x : Config ℚ, x.length = o.p.bounds.length → h x = .ok (H x))
    (dual : Config ℚ → Res ℚ) (hdual : ∀ x : Config ℚ, x.length = o.p.bounds.length → ∃ n, dual x = .ok n)
    (η : ℚ) (hη : 0 < η) :
    ∃ x, (dobd S B ε h dual η).next o xs none = .ok (x, none) ∧ GridPoint o.p.bounds x ∧
      ∃ l : ℚ, (obd S ε h ((l : ℚ) : ECost)).next o xs none = .ok (x, none) := by
  obtain ⟨v, a, hv, hvg, -, hva, hvb⟩ := hittingMinimizer_ok hS hp
  have hprl : (latest o.p.bounds.length xs).length = o.p.bounds.length := latest_length _ _ hxs
  obtain ⟨b, hb⟩ := hitCost_total hp (latest o.p.bounds.length xs) hprl
  have hobd := fun l : ℚ => C50_obd S hS o hw xs hxs hit mv hp ε h H hh l
  have e : (dobd S B ε h dual η).next o xs none = (dobd S B ε h dual η).call o (xs.length + 1) xs () := rfl
  rw [e]
  simp only [dobd, hw, assertR, decide_true, if_true, bind, Except.bind, hv, hb, prevX_eq o.p hp.dim]
  have hat : a ≠ ⊤ := by
    rw [hva hS'.done]
    obtain ⟨y, h1, h2⟩ := hfin
    exact ne_top_of_le_ne_top h2 (hvb hS' y h1)
  obtain ⟨a, rfl⟩ := WithTop.ne_top_iff_exists.1 hat
  obtain ⟨Hc, hHc⟩ : ∃ Hc : List ℚ → ECost, ∀ x : List ℚ, x.length = o.p.bounds.length →
      ∃ c, o.p.toProb.hitCost (xs.length + 1) x = .ok c ∧ c.cost = Hc x := by
    have : ∀ x : List ℚ, ∃ q : ECost, x.length = o.p.bounds.length →
        ∃ c, o.p.toProb.hitCost (xs.length + 1) x = .ok c ∧ c.cost = q := by
      intro x
      by_cases hx : x.length = o.p.bounds.length
      · obtain ⟨c, hc⟩ := hitCost_total hp x hx
        exact ⟨c.cost, fun _ => ⟨c, hc, rfl⟩⟩
      · exact ⟨0, fun h => absurd h hx⟩
    choose q hq using this
    exact ⟨q, hq⟩
  obtain ⟨l, hl⟩ := findRoot_ok hB a (upperLevel a b.cost) (gap S ε h dual η o (xs.length + 1) xs (latest o.p.bounds.length xs)) (by
    intro l
    obtain ⟨x, h1, h2, -⟩ := hobd l
    have hxl := inBoxQ_length h2.1
    simp only [gap, h1, bind, Except.bind]
    rw [gradientQ, centralDiff_ok _ ε h H x fun z hz => hh z (by rw [hz, hxl]), 
      centralDiff_ok _ ε h H _ fun z hz => hh z (by rw [hz, hprl])]
    obtain ⟨n, hn⟩ := hdual (Config.sub ((List.range x.length).map fun k : Nat =>
      (H (bump x k ε) - H (bump x k (-ε))) / (2 * ε)) ((List.range (latest o.p.bounds.length xs).length).map fun k : Nat =>
      (H (bump (latest o.p.bounds.length xs) k ε) - H (bump (latest o.p.bounds.length xs) k (-ε))) / (2 * ε))) (by
        simp [Config.sub, hxl, hprl])
    simp only [hn]
    rw [gradient, centralDiff_ok _ ε _ Hc x fun z hz => by
      obtain ⟨c, h1, h2⟩ := hHc z (by rw [hz, hxl])
      simp only [h1, h2]]
    simp only
    rcases allFinite_of ((List.range x.length).map fun k : Nat => diffQuot ε (Hc (bump x k ε)) (Hc (bump x k (-ε)))) with
      ⟨q, h3, h4⟩ | h3
    · obtain ⟨m, hm⟩ := hdual q (by rw [h4]; simp [hxl])
      simp only [h3, hm]
      exact ⟨_, rfl⟩
    · simp only [h3, if_pos hη]
      exact ⟨_, rfl⟩)
  obtain ⟨x, h1, h2, -⟩ := hobd l
  refine ⟨x, ?_, h2, l, h1⟩
  split
  · rename_i heq
    exact absurd heq WithTop.coe_ne_top
  · rename_i heq
    cases WithTop.coe_injective heq
    rw [hl]
    exact h1

theorem inBoxQ_segment {box : List (ℚ × ℚ)} {v y : List ℚ} (hv : InBoxQ box v) (hy : InBoxQ box y) (c : ℚ) (h0 : 0 ≤ c)
    (h1 : c ≤ 1) : InBoxQ box (List.zipWith (fun a b => c * a + (1 - c) * b) v y) := by
  unfold InBoxQ at *
  induction hv generalizing y with
  | nil => simp
  | cons a1 _ ih =>
    cases hy with
    | cons b1 b2 =>
      refine .cons ⟨?_, ?_⟩ (ih b2)
      · nlinarith [mul_le_mul_of_nonneg_left a1.1 h0, mul_le_mul_of_nonneg_left b1.1 (sub_nonneg.2 h1)]
      · nlinarith [mul_le_mul_of_nonneg_left a1.2 h0, mul_le_mul_of_nonneg_left b1.2 (sub_nonneg.2 h1)]

/-- **C50** (greedy balanced descent). The step succeeds and lies in the decision space, on the segment between the point
the optimiser took to minimise the hitting cost and the point of primal balanced descent, at the former if the step size
is at least one. -/
theorem C50_gobd (S : Solver) (hS : Inner S) (B : Brent) (hB : Answers B) (o : Online (SCO ℚ C D)) (hw : o.w = 0)
    (xs : Schedule ℚ) (hxs : ∀ x ∈ xs, x.length = o.p.bounds.length) (hit : Config ℚ → ECost) (mv : Config ℚ → ℚ)
    (hp : Slot o.p (xs.length + 1) hit mv) (ε : ℚ) (h : Config ℚ → Res ℚ) (H : Config ℚ → ℚ)
    (hh : ∀ x : Config ℚ, x.length = o.p.bounds.length → h x = .ok (H x)) (c γ : ℚ) (hc : 0 ≤ c) (hγ : 0 < γ) :
    ∃ x v a y, (gobd S B ε h c γ).next o xs none = .ok (x, none) ∧
      hittingMinimizer S (xs.length + 1) o.p.hittingCost o.p.bounds = .ok (v, a) ∧
      (pobd S B ε h γ).next o xs none = .ok (y, none) ∧ InBoxQ o.p.bounds x ∧ OnSegment v y x ∧ (1 ≤ c → x = v) ∧
      (c < 1 → x = List.zipWith (fun a b => c * a + (1 - c) * b) v y) := by
  obtain ⟨v, a, hv, hvg, -, -, -⟩ := hittingMinimizer_ok hS hp
  obtain ⟨y, h1, h2, -⟩ := C50_pobd S hS B hB o hw xs hxs hit mv hp ε h H hh γ hγ
  have e : (gobd S B ε h c γ).next o xs none = (gobd S B ε h c γ).call o (xs.length + 1) xs () := rfl
  have hl : v.length = y.length := by rw [inBoxQ_length hvg.1, inBoxQ_length h2.1]
  have hcomb : Config.add (Config.smul c v) (Config.smul (1 - c) y) = List.zipWith (fun a b => c * a + (1 - c) * b) v y := by
    simp [Config.add, Config.smul, List.zipWith_map_left, List.zipWith_map_right]
  by_cases hc1 : 1 ≤ c
  · refine ⟨v, v, a, y, ?_, hv, h1, hvg.1, ⟨1, by norm_num, le_rfl, ?_⟩, fun _ => rfl, fun h => absurd hc1 (not_le.2 h)⟩
    · rw [e]
      simp only [gobd, hw, assertR, decide_true, if_true, bind, Except.bind, hv, h1, ge_iff_le, hc1]
    · clear * - hl
      induction v generalizing y with
      | nil => simp
      | cons b v ih =>
        cases y with
        | nil => simp at hl
        | cons j y => simpa using ih y (by simpa using hl)
  · refine ⟨_, v, a, y, ?_, hv, h1, inBoxQ_segment hvg.1 h2.1 c hc (le_of_not_ge hc1), ⟨c, hc, le_of_not_ge hc1, rfl⟩,
      fun h => absurd h hc1, fun _ => rfl⟩
    rw [e]
    simp only [gobd, hw, assertR, decide_true, if_true, bind, Except.bind, hv, h1, ge_iff_le, hc1, if_false, hcomb]

/-- **C50** (regularised balanced descent). The step succeeds and stays in the decision space; with an exact optimiser it
minimises the sum of hitting cost, weighted movement and weighted distance to the minimiser of the hitting cost. -/
theorem C50_robd (S : Solver) (hS : Inner S) (o : Online (SCO ℚ C D)) (hw : o.w = 0)
    (xs : Schedule ℚ) (hxs : ∀ x ∈ xs, x.length = o.p.bounds.length) (hit : Config ℚ → ECost) (mv : Config ℚ → ℚ)
    (hp : Slot o.p (xs.length + 1) hit mv) (lambda1 lambda2 : ℚ) :
    ∃ x v a, (robd S lambda1 lambda2).next o xs none = .ok (x, none) ∧
      hittingMinimizer S (xs.length + 1) o.p.hittingCost o.p.bounds = .ok (v, a) ∧ GridPoint o.p.bounds x ∧
      (Exact S → ∀ y, GridPoint o.p.bounds y →
        hit x + ((lambda1 * mv (Config.sub x (latest o.p.bounds.length xs)) : ℚ) : ECost) +
            ((lambda2 * mv (Config.sub x v) : ℚ) : ECost) ≤
          hit y + ((lambda1 * mv (Config.sub y (latest o.p.bounds.length xs)) : ℚ) : ECost) +
            ((lambda2 * mv (Config.sub y v) : ℚ) : ECost)) := by
  obtain ⟨v, a, hv, hvg, -, -, -⟩ := hittingMinimizer_ok hS hp
  have hprl : (latest o.p.bounds.length xs).length = o.p.bounds.length := latest_length _ _ hxs
  obtain ⟨f, hf⟩ : ∃ f : List ℚ → Res ECost, f = (fun x => do
      let hit ← o.p.toProb.hitCost (xs.length + 1) x
      let a ← o.p.switchingCost (Config.sub x (latest o.p.bounds.length xs))
      let b ← o.p.switchingCost (Config.sub x v)
      .ok (hit.cost + ((lambda1 * a : ℚ) : ECost) + ((lambda2 * b : ℚ) : ECost))) := ⟨_, rfl⟩
  have fv : ∀ x : List ℚ, InBoxQ o.p.bounds x → f x = .ok (hit x +
      ((lambda1 * mv (Config.sub x (latest o.p.bounds.length xs)) : ℚ) : ECost) +
      ((lambda2 * mv (Config.sub x v) : ℚ) : ECost)) := by
    intro x hx
    obtain ⟨c, hc⟩ := (hitCost_eq hp x).1 hx
    have h1 := hp.moves (Config.sub x (latest o.p.bounds.length xs)) (by simp [Config.sub, hprl, inBoxQ_length hx])
    have h2 := hp.moves (Config.sub x v) (by simp [Config.sub, inBoxQ_length hvg.1, inBoxQ_length hx])
    simp only [hf, hc, h1, h2, bind, Except.bind]
  obtain ⟨x, b, h1, h2, h3, h4, -, -⟩ := minimize_inner hS hp.box none (by simp) [] (f := f)
    (fun x hx => ⟨_, fv x hx⟩) (by simp)
  refine ⟨x, v, a, ?_, hv, ⟨h2, h3⟩, ?_⟩
  · have e : (robd S lambda1 lambda2).next o xs none = (robd S lambda1 lambda2).call o (xs.length + 1) xs () := rfl
    rw [e]
    simp only [robd, hw, assertR, decide_true, if_true, bind, Except.bind, hv, prevX_eq o.p hp.dim, findMinimizer]
    rw [hf] at h1
    simp only [bind, Except.bind] at h1
    rw [h1]
  · intro hE y hy
    exact hE.best o.p.bounds f _ [] hp.box y _ _ hy.1 hy.2 (by simp [Meets]) (by rw [← h4, fv x h2]) (fv y hy.1)

end
end Descent
end Soco
