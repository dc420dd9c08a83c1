import Verif.Spec.Online
import Verif.Lemmas.Lcp
import Verif.Props.Examples

/-!
# C35, C36, C37, C38: streaming and the online server
-/

namespace Soco

section
variable {P T M : Type} [Value T]

/-- **C35.** Advancing an online problem decides exactly if the schedule is one slot shorter than the current
slot; then the algorithm is asked about that slot and its decision appended. Otherwise the call fails with the
documented failure and no decision is made. -/
theorem C35_next_exact (tEnd : P → Int) (A : OnlineAlgorithm P T M) (o : Online P) (xs : Schedule T)
    (m : Option M) :
    (tEnd o.p = (xs.length : Int) + 1 →
      onlineNext tEnd A o xs m = (A.call o ((xs.length : Int) + 1) xs (m.getD (A.default o))).map
        fun s => (s.1, xs ++ [s.1], s.2)) ∧
    (tEnd o.p ≠ (xs.length : Int) + 1 →
      onlineNext tEnd A o xs m = .error (.fail (.onlineInconsistentCurrentTimeSlot xs.length (tEnd o.p)))) := by
  constructor
  · intro h
    simp only [onlineNext, assertR, Schedule.tEnd, h, decide_true, if_true, bind, Except.bind,
      OnlineAlgorithm.next, Schedule.extend]
    cases A.call o ((xs.length : Int) + 1) xs (m.getD (A.default o)) <;> rfl
  · intro h
    have h' : ¬ (Schedule.tEnd xs + 1 = tEnd o.p) := fun e => h e.symm
    simp only [onlineNext, assertR, decide_eq_true_eq, if_neg h', bind, Except.bind]
    rfl

/-- `play` computes runs. -/
theorem play_iff_run (tEnd : P → Int) (A : OnlineAlgorithm P T M) : ∀ (os : List (Online P)) (xs : Schedule T)
    (m : Option M) (ys : Schedule T) (k : Option M),
    Spec.play tEnd A xs m os = .ok (ys, k) ↔ Spec.Run tEnd A xs m os ys k := by
  intro os
  induction os with
  | nil =>
    intro xs m ys k
    constructor
    · intro h; cases h; exact .nil _ _
    · intro h; cases h; rfl
  | cons o os ih =>
    intro xs m ys k
    by_cases h : tEnd o.p = (xs.length : Int) + 1
    · simp only [Spec.play, (C35_next_exact tEnd A o xs m).1 h]
      cases hc : A.call o ((xs.length : Int) + 1) xs (m.getD (A.default o)) with
      | error e =>
        constructor
        · intro h'; cases h'
        · intro h'; cases h' with
          | step _ _ _ _ x m' _ _ _ hd _ => rw [hc] at hd; cases hd
      | ok s =>
        obtain ⟨x, m'⟩ := s
        simp only [Except.map]
        rw [ih]
        constructor
        · intro h'; exact .step _ _ _ _ _ _ _ _ h hc h'
        · intro h'; cases h' with
          | step _ _ _ _ x m' _ _ _ hd hr => rw [hc] at hd; cases hd; exact hr
    · simp only [Spec.play, (C35_next_exact tEnd A o xs m).2 h]
      constructor
      · intro h'; cases h'
      · intro h'; cases h' with
        | step _ _ _ _ x m' _ _ hs _ _ => exact absurd hs h

theorem Spec.Run.split {tEnd : P → Int} {A : OnlineAlgorithm P T M} : ∀ {os os' : List (Online P)} {xs : Schedule T}
    {m : Option M} {zs : Schedule T} {k : Option M},
    Spec.Run tEnd A xs m (os ++ os') zs k ↔
      ∃ ys m', Spec.Run tEnd A xs m os ys m' ∧ Spec.Run tEnd A ys m' os' zs k := by
  intro os
  induction os with
  | nil =>
    intro os' xs m zs k
    constructor
    · intro h; exact ⟨xs, m, .nil _ _, h⟩
    · rintro ⟨ys, m', h1, h2⟩; cases h1; exact h2
  | cons o os ih =>
    intro os' xs m zs k
    constructor
    · intro h
      cases h with
      | step _ _ _ _ x m1 _ _ hs hd hr =>
        obtain ⟨ys, m', h1, h2⟩ := ih.1 hr
        exact ⟨ys, m', .step _ _ _ _ _ _ _ _ hs hd h1, h2⟩
    · rintro ⟨ys, m', h1, h2⟩
      cases h1 with
      | step _ _ _ _ x m1 _ _ hs hd hr =>
        exact .step _ _ _ _ _ _ _ _ hs hd (ih.2 ⟨ys, m', hr, h2⟩)

theorem Spec.Run.prefix {tEnd : P → Int} {A : OnlineAlgorithm P T M} {os : List (Online P)} {xs : Schedule T}
    {m : Option M} {ys : Schedule T} {k : Option M} (h : Spec.Run tEnd A xs m os ys k) :
    ∃ zs, ys = xs ++ zs ∧ zs.length = os.length := by
  induction h with
  | nil xs m => exact ⟨[], by simp, rfl⟩
  | step xs m o os x m' ys k _ _ _ ih =>
    obtain ⟨zs, rfl, hl⟩ := ih
    exact ⟨x :: zs, by simp, by simp [hl]⟩

theorem Spec.Run.det {tEnd : P → Int} {A : OnlineAlgorithm P T M} {os : List (Online P)} {xs : Schedule T}
    {m : Option M} {ys : Schedule T} {k : Option M} (h : Spec.Run tEnd A xs m os ys k) {ys' : Schedule T}
    {k' : Option M} (h' : Spec.Run tEnd A xs m os ys' k') : ys = ys' ∧ k = k' := by
  have h1 := (play_iff_run tEnd A os xs m ys k).2 h
  have h2 := (play_iff_run tEnd A os xs m ys' k').2 h'
  rw [h1] at h2
  cases h2; exact ⟨rfl, rfl⟩

/-- **C35.** A run appends exactly one configuration per instance and never alters earlier ones; and its first
decisions depend only on the first instances: after any number `n` of instances the run has the schedule which is
the beginning of the final schedule, whatever the later instances are. -/
theorem C35_one_decision_per_slot (tEnd : P → Int) (A : OnlineAlgorithm P T M) (os : List (Online P))
    (xs : Schedule T) (m : Option M) (ys : Schedule T) (k : Option M) (h : Spec.Run tEnd A xs m os ys k) :
    ys.length = xs.length + os.length ∧ xs <+: ys ∧
    ∀ n ≤ os.length, ∃ k', Spec.Run tEnd A xs m (os.take n) (ys.take (xs.length + n)) k' ∧
      ∀ os' ys' k'', os'.take n = os.take n → n ≤ os'.length → Spec.Run tEnd A xs m os' ys' k'' →
        ys'.take (xs.length + n) = ys.take (xs.length + n) := by
  obtain ⟨zs, rfl, hl⟩ := h.prefix
  refine ⟨by simp [hl], ⟨zs, rfl⟩, ?_⟩
  have key : ∀ (os : List (Online P)) (ys : Schedule T) (k : Option M), Spec.Run tEnd A xs m os ys k → ∀ n ≤ os.length,
      ∃ k', Spec.Run tEnd A xs m (os.take n) (ys.take (xs.length + n)) k' := by
    intro os ys k h n hn
    rw [← List.take_append_drop n os] at h
    obtain ⟨us, m', h1, h2⟩ := Spec.Run.split.1 h
    obtain ⟨z1, rfl, l1⟩ := h1.prefix
    obtain ⟨z2, rfl, l2⟩ := h2.prefix
    have : xs.length + n = (xs ++ z1).length := by
      rw [List.length_append, l1, List.length_take]; omega
    rw [this, List.take_left]
    exact ⟨m', h1⟩
  intro n hn
  obtain ⟨k', hk'⟩ := key os _ k h n hn
  refine ⟨k', hk', ?_⟩
  intro os' ys' k'' ho hn' h'
  obtain ⟨k3, hk3⟩ := key os' _ _ h' n hn'
  rw [ho] at hk3
  exact (hk3.det hk').1

theorem streamFrom_mono {tEnd : P → Int} {verify : Online P → Res Unit} {A : OnlineAlgorithm P T M}
    {update : Online P → Schedule T → Online P × Bool} : ∀ {fuel : Nat} {o : Online P} {xs : Schedule T}
    {m : Option M} {r}, streamFrom tEnd verify A update fuel o xs m = some r → ∀ {fuel'}, fuel ≤ fuel' →
    streamFrom tEnd verify A update fuel' o xs m = some r := by
  intro fuel
  induction fuel with
  | zero => intro o xs m r h; cases h
  | succ fuel ih =>
    intro o xs m r h fuel' hf
    obtain ⟨f', rfl⟩ : ∃ f', fuel' = f' + 1 := ⟨fuel' - 1, by omega⟩
    simp only [streamFrom] at h ⊢
    cases hn : onlineNext tEnd A o xs m with
    | error e => simp only [hn] at h ⊢; exact h
    | ok s =>
      obtain ⟨x, xs', m'⟩ := s
      simp only [hn] at h ⊢
      rcases hu : update o xs' with ⟨o', b⟩
      simp only [hu] at h ⊢
      cases b with
      | false => exact h
      | true =>
        simp only at h ⊢
        cases hv : verify o' with
        | error e => simp only [hv] at h ⊢; exact h
        | ok u => simp only [hv] at h ⊢; exact ih h (by omega)

theorem run_one {tEnd : P → Int} {A : OnlineAlgorithm P T M} {o : Online P} {xs : Schedule T} {m : Option M}
    {ys : Schedule T} {k : Option M} :
    Spec.Run tEnd A xs m [o] ys k ↔ ∃ x, onlineNext tEnd A o xs m = .ok (x, ys, k) := by
  rw [← play_iff_run]
  simp only [Spec.play]
  constructor
  · intro h
    cases hn : onlineNext tEnd A o xs m with
    | error e => rw [hn] at h; cases h
    | ok s =>
      obtain ⟨x, xs', m'⟩ := s
      rw [hn] at h; cases h; exact ⟨x, rfl⟩
  · rintro ⟨x, hx⟩; rw [hx]

/-- **C36.** Streaming ends well exactly if there is a streamed run, and then returns its instance, schedule and
memory. -/
theorem C36_stream_exact (tEnd : P → Int) (verify : Online P → Res Unit) (A : OnlineAlgorithm P T M)
    (update : Online P → Schedule T → Online P × Bool) (o : Online P) (xs : Schedule T) (m : Option M)
    (o' : Online P) (ys : Schedule T) (k : Option M) :
    (∃ fuel, streamFrom tEnd verify A update fuel o xs m = some (.ok (o', ys, k))) ↔
      ∃ os, Spec.Streamed tEnd verify A update o xs m os o' ys k := by
  constructor
  · rintro ⟨fuel, h⟩
    induction fuel generalizing o xs m with
    | zero => cases h
    | succ fuel ih =>
      simp only [streamFrom] at h
      cases hn : onlineNext tEnd A o xs m with
      | error e => rw [hn] at h; cases h
      | ok s =>
        obtain ⟨x, xs', m'⟩ := s
        simp only [hn] at h
        have h1 := run_one.2 ⟨x, hn⟩
        rcases hu : update o xs' with ⟨o1, b⟩
        simp only [hu] at h
        cases b with
        | false => cases h; exact ⟨_, .stop _ _ _ _ _ _ h1 hu⟩
        | true =>
          simp only at h
          cases hv : verify o1 with
          | error e => rw [hv] at h; cases h
          | ok u =>
            simp only [hv] at h
            obtain ⟨os, hos⟩ := ih _ _ _ h
            exact ⟨_, .next _ _ _ _ _ _ _ _ _ _ h1 hu hv hos⟩
  · rintro ⟨os, h⟩
    induction h with
    | stop o xs m ys k o' one stopped =>
      obtain ⟨x, hx⟩ := run_one.1 one
      exact ⟨1, by simp only [streamFrom, hx, stopped]⟩
    | next o xs m ys k o' os o'' zs k' one continued verified _ ih =>
      obtain ⟨x, hx⟩ := run_one.1 one
      obtain ⟨f, hf⟩ := ih
      exact ⟨f + 1, by simp only [streamFrom, hx, continued, verified, hf]⟩

/-- A streamed run is a run over its instances. -/
theorem Spec.Streamed.run {tEnd : P → Int} {verify : Online P → Res Unit} {A : OnlineAlgorithm P T M}
    {update : Online P → Schedule T → Online P × Bool} {o : Online P} {xs : Schedule T} {m : Option M}
    {os : List (Online P)} {o' : Online P} {ys : Schedule T} {k : Option M}
    (h : Spec.Streamed tEnd verify A update o xs m os o' ys k) : Spec.Run tEnd A xs m os ys k := by
  induction h with
  | stop o xs m ys k o' one _ => exact one
  | next o xs m ys k o' os o'' zs k' one _ _ _ ih => exact Spec.Run.split.2 ⟨ys, k, one, ih⟩

/-- **C36.** The first error, of the algorithm or of the verification of the updated instance, ends the stream and
is returned. -/
theorem C36_first_error (tEnd : P → Int) (verify : Online P → Res Unit) (A : OnlineAlgorithm P T M)
    (update : Online P → Schedule T → Online P × Bool) (fuel : Nat) (o : Online P) (xs : Schedule T) (m : Option M)
    (e : Fault) :
    (onlineNext tEnd A o xs m = .error e → streamFrom tEnd verify A update (fuel + 1) o xs m = some (.error e)) ∧
    (∀ ys k o', Spec.Run tEnd A xs m [o] ys k → update o ys = (o', true) → verify o' = .error e →
      streamFrom tEnd verify A update (fuel + 1) o xs m = some (.error e)) ∧
    (∀ ys k o', Spec.Run tEnd A xs m [o] ys k → update o ys = (o', true) → verify o' = .ok () →
      streamFrom tEnd verify A update (fuel + 1) o xs m = streamFrom tEnd verify A update fuel o' ys k) := by
  refine ⟨?_, ?_, ?_⟩
  · intro h; simp only [streamFrom, h]
  · intro ys k o' h1 h2 h3
    obtain ⟨x, hx⟩ := run_one.1 h1
    simp only [streamFrom, hx, h2, h3]
  · intro ys k o' h1 h2 h3
    obtain ⟨x, hx⟩ := run_one.1 h1
    simp only [streamFrom, hx, h2, h3]

/-- **C36.** A streamed run can be split and resumed at every slot: a run over the instances `os ++ os'` is a run
over `os` followed by a run over `os'` from the schedule and memory reached. -/
theorem C36_split_resume (tEnd : P → Int) (A : OnlineAlgorithm P T M) (os os' : List (Online P)) (xs : Schedule T)
    (m : Option M) :
    Spec.play tEnd A xs m (os ++ os') = (match Spec.play tEnd A xs m os with
      | .error e => .error e
      | .ok (ys, k) => Spec.play tEnd A ys k os') := by
  induction os generalizing xs m with
  | nil => rfl
  | cons o os ih =>
    simp only [List.cons_append, Spec.play]
    cases onlineNext tEnd A o xs m with
    | error e => rfl
    | ok s => exact ih _ _

/-- **C36.** Streaming up to a horizon, then showing the next slot and streaming on to a later horizon, gives what
streaming to the later horizon in one call gives. -/
theorem C36_offline_resume (tEnd : P → Int) (setTEnd : P → Int → P) (verify : Online P → Res Unit)
    (A : OnlineAlgorithm P T M) (h1 h2 : Int) (hle : h1 ≤ h2) (f1 f2 : Nat) (o o1 : Online P) (xs xs1 : Schedule T)
    (m m1 : Option M)
    (s1 : offlineStreamFrom tEnd setTEnd verify A h1 f1 o xs m = some (.ok (o1, xs1, m1)))
    (hlt : tEnd o1.p < h2 - o1.w)
    (hv : verify { o1 with p := setTEnd o1.p (tEnd o1.p + 1) } = .ok ()) :
    (∀ r, offlineStreamFrom tEnd setTEnd verify A h2 f2 { o1 with p := setTEnd o1.p (tEnd o1.p + 1) } xs1 m1 = some r →
      offlineStreamFrom tEnd setTEnd verify A h2 (f1 + f2) o xs m = some r) := by
  intro r hr
  unfold offlineStreamFrom at *
  induction f1 generalizing o xs m with
  | zero => cases s1
  | succ f1 ih =>
    simp only [streamFrom] at s1
    rw [show f1 + 1 + f2 = (f1 + f2) + 1 by omega]
    simp only [streamFrom]
    cases hn : onlineNext tEnd A o xs m with
    | error e => rw [hn] at s1; cases s1
    | ok s =>
      obtain ⟨x, xs', m'⟩ := s
      simp only [hn] at s1 ⊢
      by_cases ht : tEnd o.p < h1 - o.w
      · have ht' : tEnd o.p < h2 - o.w := by omega
        simp only [offlineUpdate, if_pos ht] at s1
        simp only [offlineUpdate, if_pos ht']
        cases hv' : verify { o with p := setTEnd o.p (tEnd o.p + 1) } with
        | error e => rw [hv'] at s1; cases s1
        | ok u => simp only [hv'] at s1 ⊢; exact ih _ _ _ s1
      · simp only [offlineUpdate, if_neg ht] at s1
        cases s1
        simp only [offlineUpdate, if_pos hlt, hv]
        exact streamFrom_mono hr (by omega)

/-- **C37.** `offline_stream` over a horizon `T` with a prediction window `w`, started in slot 1: it ends, and if it
ends well the schedule has exactly `max 1 (T - w)` configurations, the instance stands at that slot, and the
prediction window is unchanged. -/
theorem C37_offline_stream_length (tEnd : P → Int) (setTEnd : P → Int → P)
    (hset : ∀ p t, tEnd (setTEnd p t) = t) (verify : Online P → Res Unit) (A : OnlineAlgorithm P T M)
    (horizon : Int) (o : Online P) (h1 : tEnd o.p = 1) (fuel : Nat) (hf : (max 1 (horizon - o.w)).toNat ≤ fuel) :
    ∃ r, offlineStream tEnd setTEnd verify A horizon fuel o = some r ∧
      ∀ o' xs m, r = .ok (o', xs, m) →
        (xs.length : Int) = max 1 (horizon - o.w) ∧ tEnd o'.p = max 1 (horizon - o.w) ∧ o'.w = o.w := by
  have key : ∀ (fuel : Nat) (o : Online P) (xs : Schedule T) (m : Option M), tEnd o.p = (xs.length : Int) + 1 →
      ((max (tEnd o.p) (horizon - o.w)) - xs.length).toNat ≤ fuel →
      ∃ r, streamFrom tEnd verify A (offlineUpdate tEnd setTEnd horizon) fuel o xs m = some r ∧
        ∀ o' ys k, r = .ok (o', ys, k) → (ys.length : Int) = max (tEnd o.p) (horizon - o.w) ∧
          tEnd o'.p = max (tEnd o.p) (horizon - o.w) ∧ o'.w = o.w := by
    intro fuel
    induction fuel with
    | zero => intro o xs m h hf; exfalso; omega
    | succ fuel ih =>
      intro o xs m h hf
      simp only [streamFrom, (C35_next_exact tEnd A o xs m).1 h]
      cases hc : A.call o ((xs.length : Int) + 1) xs (m.getD (A.default o)) with
      | error e => exact ⟨_, rfl, fun _ _ _ h => by cases h⟩
      | ok s =>
        obtain ⟨x, m'⟩ := s
        simp only [Except.map]
        by_cases ht : tEnd o.p < horizon - o.w
        · simp only [offlineUpdate, if_pos ht]
          cases hv : verify { o with p := setTEnd o.p (tEnd o.p + 1) } with
          | error e => exact ⟨_, rfl, fun _ _ _ h => by cases h⟩
          | ok u =>
            obtain ⟨r, hr, hr'⟩ := ih { o with p := setTEnd o.p (tEnd o.p + 1) } (xs ++ [x]) m'
              (by simp [hset, h]) (by simp only [hset, List.length_append, List.length_singleton]; omega)
            refine ⟨r, hr, fun o' ys k e => ?_⟩
            obtain ⟨a, b, c⟩ := hr' o' ys k e
            simp only [hset] at a b c
            refine ⟨by omega, by omega, c⟩
        · simp only [offlineUpdate, if_neg ht]
          refine ⟨_, rfl, ?_⟩
          intro o' ys k e
          cases e
          refine ⟨?_, ?_, rfl⟩
          · simp only [List.length_append, List.length_singleton]; omega
          · omega
  obtain ⟨r, hr, hr'⟩ := key fuel o [] none (by simp [h1]) (by simpa [h1] using hf)
  exact ⟨r, hr, by simpa [h1] using hr'⟩

/-! ### Preparing the server -/

/-- **C37, second half, as far as it is true.** Preparing the server for an instance with `T ≥ 1` slots and
prediction window `w`: if `T - w ≥ 1` the initial schedule has `max 1 (T - 2 w)` configurations (the window is
subtracted twice), otherwise none; without prediction window it has all `T` configurations. -/
theorem C37_prepare_partial {K : Type} (S : Server P T K) (hset : ∀ p t, S.tEnd (S.setTEnd p t) = t)
    (A : OnlineAlgorithm P T M) (w : Int) (fuel : Nat) (p : P) (hT : 1 ≤ S.tEnd p)
    (hf : (max 1 (S.tEnd p - w - w)).toNat ≤ fuel) :
    ∃ r, prepare S A w fuel p = some r ∧ ∀ o resp, r = .ok (o, resp) →
      (S.tEnd p - w ≥ 1 → (resp.xs.length : Int) = max 1 (S.tEnd p - 2 * w) ∧ S.tEnd o.p = resp.xs.length) ∧
      (S.tEnd p - w < 1 → resp.xs = [] ∧ S.tEnd o.p = 1) ∧
      (w = 0 → (resp.xs.length : Int) = S.tEnd p) ∧ o.w = w := by
  set q : P := if S.tEnd p > 1 then S.setTEnd p 1 else p with hq
  have hq1 : S.tEnd q = 1 := by
    rw [hq]; split_ifs with h
    · exact hset _ _
    · omega
  simp only [prepare, ← hq]
  cases hv : S.verify ⟨q, w⟩ with
  | error e => exact ⟨_, rfl, fun _ _ h => by cases h⟩
  | ok u =>
    simp only
    by_cases hw : S.tEnd p - w ≥ 1
    · obtain ⟨r, hr, hr'⟩ := C37_offline_stream_length S.tEnd S.setTEnd hset S.verify A (S.tEnd p - w)
        ⟨q, w⟩ hq1 fuel hf
      simp only [if_pos hw, hr]
      cases r with
      | error e => exact ⟨_, rfl, fun _ _ h => by cases h⟩
      | ok r =>
        obtain ⟨o', xs, m⟩ := r
        obtain ⟨a, b, c⟩ := hr' o' xs m rfl
        refine ⟨_, rfl, ?_⟩
        intro o resp h
        simp only [bind, Except.bind] at h
        cases h1 : S.objective o'.p xs with
        | error e => rw [h1] at h; cases h
        | ok c1 =>
          simp only [h1] at h
          cases h2 : S.objective o'.p (S.toI xs) with
          | error e => rw [h2] at h; cases h
          | ok c2 =>
            simp only [h2] at h
            cases h
            simp only at a b c ⊢
            refine ⟨fun _ => ⟨by omega, by omega⟩, fun h => by omega, fun h => by omega, c⟩
    · simp only [if_neg hw]
      refine ⟨_, rfl, ?_⟩
      intro o resp h
      simp only [bind, Except.bind] at h
      cases h1 : S.objective q [] with
      | error e => rw [h1] at h; cases h
      | ok c1 =>
        simp only [h1] at h
        cases h2 : S.objective q (S.toI []) with
        | error e => rw [h2] at h; cases h
        | ok c2 =>
          simp only [h2] at h
          cases h
          refine ⟨fun h => absurd h hw, fun _ => ⟨rfl, hq1⟩, fun h => by omega, rfl⟩

/-! ### The server -/

variable {K B : Type}

theorem handle_ok {S : Server P T K} {A : OnlineAlgorithm P T M} {update : Online P → B → Res (Online P)}
    {s s' : ServerState P T M} {b : B} {r : OnlineResponse T M K} :
    handle S A update s b = .ok (r, s') ↔ update s.o b = .ok s'.o ∧
      onlineNext S.tEnd A s'.o s.xs s.m = .ok (r.x, s'.xs, s'.m) ∧ S.objective s'.o.p s'.xs = .ok r.cost ∧
      S.objective s'.o.p (S.toI s'.xs) = .ok r.intCost ∧ Schedule.now (S.toI s'.xs) = .ok r.intX ∧ r.m = s'.m := by
  unfold handle
  simp only [bind, Except.bind]
  constructor
  · intro h
    cases h1 : update s.o b with
    | error e => rw [h1] at h; cases h
    | ok o =>
      simp only [h1] at h
      cases h2 : onlineNext S.tEnd A o s.xs s.m with
      | error e => rw [h2] at h; cases h
      | ok n =>
        obtain ⟨x, xs, m⟩ := n
        simp only [h2] at h
        cases h3 : S.objective o.p xs with
        | error e => rw [h3] at h; cases h
        | ok c =>
          simp only [h3] at h
          cases h4 : S.objective o.p (S.toI xs) with
          | error e => rw [h4] at h; cases h
          | ok c' =>
            simp only [h4] at h
            cases h5 : Schedule.now (S.toI xs) with
            | error e => rw [h5] at h; cases h
            | ok y =>
              simp only [h5] at h
              cases h
              exact ⟨rfl, h2, h3, h4, h5, rfl⟩
  · rintro ⟨h1, h2, h3, h4, h5, h6⟩
    simp only [h1, h2, h3, h4, h5]
    rw [← h6]; cases s'; cases h6; rfl

theorem now_getLast {xs : Schedule T} {x : Config T} : Schedule.now xs = .ok x ↔ xs.getLast? = some x := by
  unfold Schedule.now idx
  rw [List.getLast?_eq_getElem?]
  cases h : xs[xs.length - 1]? with
  | none => simp
  | some y => simp

theorem onlineNext_ext {tEnd : P → Int} {A : OnlineAlgorithm P T M} {o : Online P} {xs ys : Schedule T}
    {m k : Option M} {x : Config T} (h : onlineNext tEnd A o xs m = .ok (x, ys, k)) : ys = xs ++ [x] := by
  by_cases ht : tEnd o.p = (xs.length : Int) + 1
  · rw [(C35_next_exact tEnd A o xs m).1 ht] at h
    cases hc : A.call o ((xs.length : Int) + 1) xs (m.getD (A.default o)) with
    | error e => rw [hc] at h; cases h
    | ok s => rw [hc] at h; cases h; rfl
  · rw [(C35_next_exact tEnd A o xs m).2 ht] at h; cases h

/-- **C38.** Completeness: if the sequential run over the inputs succeeds and the costs of its schedules are
defined, the server answers every input with the decision and costs of that run and afterwards behaves like a server
started with the final instance, schedule and memory of the sequential run. -/
theorem C38_server_follows_run (S : Server P T K) (A : OnlineAlgorithm P T M)
    (update : Online P → B → Res (Online P)) (bs : List B) (o : Online P) (xs : Schedule T) (m : Option M)
    (os : List (Online P)) (ys : Schedule T) (k : Option M) (rest : List (Option B))
    (hu : Spec.Updates update o bs os) (hr : Spec.Run S.tEnd A xs m os ys k)
    (hc : ∀ i o', os[i]? = some o' → ∃ c c' x, S.objective o'.p (ys.take (xs.length + i + 1)) = .ok c ∧
      S.objective o'.p (S.toI (ys.take (xs.length + i + 1))) = .ok c' ∧
      (S.toI (ys.take (xs.length + i + 1))).getLast? = some x) :
    ∃ rs : List (OnlineResponse T M K), rs.length = bs.length ∧
      (∀ i r, rs[i]? = some r → Spec.Answer S A xs m os ys i r) ∧
      serve S A update ⟨o, xs, m⟩ (bs.map some ++ rest)
        = rs.map .ok ++ serve S A update ⟨os.getLastD o, ys, k⟩ rest := by
  induction hu generalizing xs m with
  | nil o =>
    cases hr
    exact ⟨[], rfl, by simp, rfl⟩
  | step o o' b bs os one _ ih =>
    obtain ⟨us, m', h1, h2⟩ := Spec.Run.split (os := [o']).1 hr
    obtain ⟨x, hx⟩ := run_one.1 h1
    have eu := onlineNext_ext hx
    subst eu
    obtain ⟨zs, rfl, hl⟩ := h2.prefix
    obtain ⟨c, c', y, hc1, hc2, hc3⟩ := hc 0 o' rfl
    have et : ((xs ++ [x]) ++ zs).take (xs.length + 0 + 1) = xs ++ [x] := by
      rw [List.take_append_of_le_length (by simp), List.take_of_length_le (by simp)]
    rw [et] at hc1 hc2 hc3
    obtain ⟨rs, r1, r2, r3⟩ := ih (xs ++ [x]) m' h2 (by
      intro i o'' ho
      have := hc (i + 1) o'' (by simpa using ho)
      rw [show xs.length + (i + 1) + 1 = (xs ++ [x]).length + i + 1 by simp; omega] at this
      exact this)
    have hh : handle S A update ⟨o, xs, m⟩ b = .ok (⟨x, c, y, c', m'⟩, ⟨o', xs ++ [x], m'⟩) :=
      handle_ok.2 ⟨one, hx, hc1, hc2, now_getLast.2 hc3, rfl⟩
    refine ⟨⟨x, c, y, c', m'⟩ :: rs, by simp [r1], ?_, ?_⟩
    · intro i r hi
      cases i with
      | zero =>
        simp only [List.getElem?_cons_zero, Option.some.injEq] at hi
        subst hi
        refine ⟨?_, by simp, ⟨o', rfl, ?_, ?_⟩, ?_⟩ <;> rw [et]
        · exact h1
        · exact hc1
        · exact hc2
        · exact hc3
      | succ i =>
        rw [List.getElem?_cons_succ] at hi
        obtain ⟨a0, a1, ⟨o2, a2, a3, a4⟩, a5⟩ := r2 i r hi
        have e : (xs ++ [x]).length + i = xs.length + (i + 1) := by simp; omega
        rw [e] at a0 a1 a3 a4 a5
        exact ⟨Spec.Run.split (os := [o']).2 ⟨_, _, h1, a0⟩, a1, ⟨o2, by simpa using a2, a3, a4⟩, a5⟩
    · simp only [List.map_cons, List.cons_append, serve, hh]
      rw [r3]
      rw [List.getLastD_cons]

/-- **C38.** Soundness: whatever the requests, the responses are good answers to some number of well-formed inputs
— exactly those of the sequential run over these inputs — followed by nothing, or by one error, which ends the
service. If it ends without an error and without answering all requests, the next request was malformed (or the stop
request). -/
theorem C38_server_sound (S : Server P T K) (A : OnlineAlgorithm P T M)
    (update : Online P → B → Res (Online P)) (requests : List (Option B)) (o : Online P) (xs : Schedule T)
    (m : Option M) :
    ∃ (bs : List B) (rest : List (Option B)) (os : List (Online P)) (ys : Schedule T) (k : Option M)
      (rs : List (OnlineResponse T M K)),
      requests = bs.map some ++ rest ∧ Spec.Updates update o bs os ∧ Spec.Run S.tEnd A xs m os ys k ∧
      rs.length = bs.length ∧ (∀ i r, rs[i]? = some r → Spec.Answer S A xs m os ys i r) ∧
      ((serve S A update ⟨o, xs, m⟩ requests = rs.map .ok ∧ (rest = [] ∨ rest.head? = some none)) ∨
       (∃ e b rest', rest = some b :: rest' ∧ handle S A update ⟨os.getLastD o, ys, k⟩ b = .error e ∧
        serve S A update ⟨o, xs, m⟩ requests = rs.map .ok ++ [.error e])) := by
  induction requests generalizing o xs m with
  | nil => exact ⟨[], [], [], xs, m, [], rfl, .nil _, .nil _ _, rfl, by simp, Or.inl ⟨rfl, Or.inl rfl⟩⟩
  | cons q requests ih =>
    cases q with
    | none =>
      exact ⟨[], none :: requests, [], xs, m, [], rfl, .nil _, .nil _ _, rfl, by simp, Or.inl ⟨rfl, Or.inr rfl⟩⟩
    | some b =>
      cases hh : handle S A update ⟨o, xs, m⟩ b with
      | error e =>
        refine ⟨[], some b :: requests, [], xs, m, [], rfl, .nil _, .nil _ _, rfl, by simp,
          Or.inr ⟨e, b, requests, rfl, hh, ?_⟩⟩
        simp only [serve, hh]; rfl
      | ok rs =>
        obtain ⟨r, s'⟩ := rs
        obtain ⟨h1, h2, h3, h4, h5, h6⟩ := handle_ok.1 hh
        obtain ⟨bs, rest, os, ys, k, rs, e1, e2, e3, e4, e5, e6⟩ := ih s'.o s'.xs s'.m
        have eu : s'.xs = xs ++ [r.x] := onlineNext_ext h2
        obtain ⟨zs, hz, hl⟩ := e3.prefix
        have et : ys.take (xs.length + 0 + 1) = s'.xs := by
          rw [hz, eu, List.take_append_of_le_length (by simp), List.take_of_length_le (by simp)]
        refine ⟨b :: bs, rest, s'.o :: os, ys, k, r :: rs, by rw [e1]; rfl, .step _ _ _ _ _ h1 e2,
          Spec.Run.split (os := [s'.o]).2 ⟨_, _, run_one.2 ⟨_, h2⟩, e3⟩, by simp [e4], ?_, ?_⟩
        · intro i r' hi
          cases i with
          | zero =>
            simp only [List.getElem?_cons_zero, Option.some.injEq] at hi
            subst hi
            refine ⟨?_, by rw [hz, eu]; simp, ⟨s'.o, rfl, ?_, ?_⟩, ?_⟩ <;> rw [et]
            · exact h6 ▸ run_one.2 ⟨_, h2⟩
            · exact h3
            · exact h4
            · exact now_getLast.1 h5
          | succ i =>
            rw [List.getElem?_cons_succ] at hi
            obtain ⟨a0, a1, ⟨o2, a2, a3, a4⟩, a5⟩ := e5 i r' hi
            have e : List.length s'.xs + i = xs.length + (i + 1) := by rw [eu]; simp; omega
            rw [e] at a0 a1 a3 a4 a5
            exact ⟨Spec.Run.split (os := [s'.o]).2 ⟨_, _, run_one.2 ⟨_, h2⟩, a0⟩, a1, ⟨o2, by simpa using a2, a3, a4⟩, a5⟩
        · have es : serve S A update ⟨o, xs, m⟩ (some b :: requests) = .ok r :: serve S A update s' requests := by
            simp only [serve, hh]
          have el : (s'.o :: os).getLastD o = os.getLastD s'.o := List.getLastD_cons ..
          rw [es, el]
          rcases e6 with ⟨g1, g2⟩ | ⟨e, b', rest', g1, g2, g3⟩
          · exact Or.inl ⟨by rw [g1]; rfl, g2⟩
          · exact Or.inr ⟨e, b', rest', g1, g2, by rw [g3]; rfl⟩

/-- **C38.** After the stop request, a malformed request or a failed request no further decision is made. -/
theorem C38_stops (S : Server P T K) (A : OnlineAlgorithm P T M) (update : Online P → B → Res (Online P))
    (s : ServerState P T M) (rest rest' : List (Option B)) :
    serve S A update s (none :: rest) = [] ∧
    ∀ b e, handle S A update s b = .error e →
      serve S A update s (some b :: rest) = [.error e] ∧
      serve S A update s (some b :: rest) = serve S A update s (some b :: rest') := by
  refine ⟨rfl, fun b e h => ?_⟩
  simp only [serve, h, and_self]

end

/-! ### Concrete cases -/

/-- An instance that is just its horizon. -/
def Ex.toyServer : Server Int ℤ Int where
  tEnd := id
  setTEnd _ t := t
  verify _ := .ok ()
  objective p xs := .ok (p + xs.length)
  toI := id

/-- Answers with the current slot and counts its decisions. -/
def Ex.toyAlg : OnlineAlgorithm Int ℤ Int where
  default _ := 0
  call _ t _ m := .ok ([t], some (m + 1))

/-- A run over three slots. -/
example : Spec.Run (P := Int) id Ex.toyAlg [] none [⟨1, 0⟩, ⟨2, 0⟩, ⟨3, 0⟩] [[1], [2], [3]] (some 3) :=
  (play_iff_run _ _ _ _ _ _ _).1 (by rfl)

/-- The updates of `Ex.toyServer` add a slot. -/
example : Spec.Updates (B := Unit) (fun (o : Online Int) _ => .ok ⟨o.p + 1, o.w⟩) ⟨0, 0⟩ [(), ()] [⟨1, 0⟩, ⟨2, 0⟩] :=
  .step _ _ _ _ _ rfl (.step _ _ _ _ _ rfl (.nil _))

/-- The server answers two requests and stops. -/
example : serve Ex.toyServer Ex.toyAlg (B := Unit) (fun o _ => .ok ⟨o.p + 1, o.w⟩) ⟨⟨0, 0⟩, [], none⟩
    [some (), some (), none, some ()]
    = [.ok ⟨[1], 2, [1], 2, some 1⟩, .ok ⟨[2], 4, [2], 4, some 2⟩] := rfl

/-- **C37 fails for the server.** With five slots and a prediction window of one slot the server prepares three
instead of four configurations: the window is subtracted twice. -/
theorem C37_window_twice_counterexample :
    ∃ o resp, prepare Ex.toyServer Ex.toyAlg 1 10 5 = some (.ok (o, resp)) ∧ resp.xs.length = 3 ∧ o.p = 3 ∧ o.w = 1 :=
  ⟨_, _, rfl, rfl, rfl, rfl⟩

/-- **C37 fails for the server.** If the horizon does not exceed the prediction window the initial schedule is empty
but the instance already stands at slot 1; the first request moves it to slot 2 and is answered by the failure about
inconsistent time slots, which ends the service. -/
theorem C37_short_horizon_counterexample :
    ∃ o resp, prepare Ex.toyServer Ex.toyAlg 1 10 1 = some (.ok (o, resp)) ∧ resp.xs = [] ∧
      serve Ex.toyServer Ex.toyAlg (B := Unit) (fun o _ => .ok ⟨o.p + 1, o.w⟩) ⟨o, resp.xs, resp.m⟩ [some (), some ()]
        = [.error (.fail (.onlineInconsistentCurrentTimeSlot 0 2))] :=
  ⟨_, _, rfl, rfl, rfl⟩

end Soco
