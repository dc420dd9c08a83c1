import Verif.Props.Clients

/-!
# C94: first come, first served
-/

namespace Soco
namespace Clients
open Spec

section
variable {n : Nat} {P T M K B : Type} [Value T] [Wire B] [Wire T] [Wire M] [Wire K]

/-- Client `i` has been answered, or it comes before client `j`, who has not been answered. -/
def Before (i j : Fin n) (w : Net n P T M) : Prop :=
  (w.conns i).answer ≠ none ∨ ((w.conns j).answer = none ∧ (w.mode = .stopped ∨ (w.mode = .reading i ∧ i ≠ j) ∨
    ∃ a b, w.queue = a ++ i :: b ∧ j ∉ a ∧ i ≠ j ∧ w.mode ≠ .reading j))

variable {S : Server P T K} {A : OnlineAlgorithm P T M} {update : Online P → B → Res (Online P)} {message : Fault → String}
  {s : ServerState P T M} {inputs : Fin n → B} {messages : Fin n → List Tok}

theorem answer_same (conns : Fin n → Conn) (k i : Fin n) (c : Conn) (h : c.answer = (conns k).answer) :
    (Function.update conns k c i).answer = (conns i).answer := by
  by_cases e : i = k
  · subst e; rw [Function.update_self, h]
  · rw [Function.update_of_ne e]

theorem answer_some {conns : Fin n → Conn} (k i : Fin n) (c : Conn) (h : c.answer ≠ none) (hi : (conns i).answer ≠ none) :
    (Function.update conns k c i).answer ≠ none := by
  by_cases e : i = k
  · subst e; rwa [Function.update_self]
  · rwa [Function.update_of_ne e]

omit [Value T] in
theorem before_step {b : Bool} {w w' : Net n P T M} (h : Net.Step S A update message b w w') {i j : Fin n} (hB : Before i j w) :
    Before i j w' := by
  cases h with
  | connect _ k h ho =>
    unfold Before at hB ⊢
    dsimp only
    rw [answer_same w.conns k i, answer_same w.conns k j]
    rotate_left
    · rfl
    · rfl
    rcases hB with h | ⟨h, h' | h' | ⟨a, c, h1, h2⟩⟩
    · exact .inl h
    · exact .inr ⟨h, .inl h'⟩
    · exact .inr ⟨h, .inr (.inl h')⟩
    · exact .inr ⟨h, .inr (.inr ⟨a, c ++ [k], by rw [h1]; simp, h2⟩)⟩
  | send _ k t ts h ho hl =>
    unfold Before at hB ⊢
    dsimp only
    rw [answer_same w.conns k i, answer_same w.conns k j]
    rotate_left
    · rfl
    · rfl
    exact hB
  | close _ k h ho ha =>
    unfold Before at hB ⊢
    dsimp only
    rw [answer_same w.conns k i, answer_same w.conns k j]
    rotate_left
    · rfl
    · rfl
    exact hB
  | giveUp _ k h ho ha =>
    unfold Before at hB ⊢
    dsimp only
    rw [answer_same w.conns k i, answer_same w.conns k j]
    rotate_left
    · rfl
    · rfl
    exact hB
  | accept _ k q hm hq =>
    unfold Before at hB ⊢
    dsimp only
    rcases hB with h | ⟨h, h' | ⟨h', -⟩ | ⟨a, c, h1, h2, h3, h4⟩⟩
    · exact .inl h
    · rw [hm] at h'; cases h'
    · rw [hm] at h'; cases h'
    · rw [hq] at h1
      match a, h1, h2 with
      | [], h1, _ =>
        cases h1
        exact .inr ⟨h, .inr (.inl ⟨rfl, h3⟩)⟩
      | a0 :: a, h1, h2 =>
        cases h1
        refine .inr ⟨h, .inr (.inr ⟨a, c, rfl, fun h => h2 (List.mem_cons_of_mem _ h), h3, ?_⟩)⟩
        intro e
        cases e
        exact h2 (by simp)
  | answer _ k b r s ts hm hb hr hts =>
    unfold Before at hB ⊢
    dsimp only
    rcases hB with h | ⟨h, h' | ⟨h', -⟩ | ⟨a, c, h1, h2, h3, h4⟩⟩
    · exact .inl (answer_some k i _ (by simp) h)
    · rw [hm] at h'; cases h'
    · rw [hm] at h'; cases h'
      exact .inl (by rw [Function.update_self]; simp)
    · have : j ≠ k := fun e => h4 (by rw [hm, e])
      rw [Function.update_of_ne this]
      exact .inr ⟨h, .inr (.inr ⟨a, c, h1, h2, h3, by simp⟩)⟩
  | fail _ k b e ts hm hb hr hts =>
    unfold Before at hB ⊢
    dsimp only
    rcases hB with h | ⟨h, h' | ⟨h', -⟩ | ⟨a, c, h1, h2, h3, h4⟩⟩
    · exact .inl (answer_some k i _ (by simp) h)
    · rw [hm] at h'; cases h'
    · rw [hm] at h'; cases h'
      exact .inl (by rw [Function.update_self]; simp)
    · have : j ≠ k := fun e => h4 (by rw [hm, e])
      rw [Function.update_of_ne this]
      exact .inr ⟨h, .inl rfl⟩
  | broken _ k b hm hb hc =>
    rcases hB with h | ⟨h, -⟩
    · exact .inl h
    · exact .inr ⟨h, .inl rfl⟩
  | stop _ k hm hb hc =>
    rcases hB with h | ⟨h, -⟩
    · exact .inl h
    · exact .inr ⟨h, .inl rfl⟩

/-- **C94** (first come, first served). A client that has connected is never overtaken by a client that connects later: if the later
one is answered, so is the earlier one. This holds for all interleavings, also if clients give up or keep silent. -/
theorem C94_first_come (hF : Faithful B) (hL : Local B) (hm : ∀ i, Wire.Enc (inputs i) (messages i)) (w w' : Net n P T M)
    (h : Net.Steps S A update message (Net.start messages s) w) (h' : Net.Steps S A update message w w') (i j : Fin n)
    (hi : (w.conns i).connected = true) (hj : (w.conns j).connected = false) (ha : (w'.conns j).answer ≠ none) :
    (w'.conns i).answer ≠ none := by
  obtain ⟨log, rs, I⟩ := inv_steps hF hL hm h (inv_start s inputs messages)
  have hne : i ≠ j := by rintro rfl; rw [hi] at hj; cases hj
  have hj' := (I.connected j).not.1 (by simp [hj])
  simp only [not_or] at hj'
  obtain ⟨j1, j2, j3, -⟩ := hj'
  have hB : Before i j w := by
    rcases (I.connected i).1 hi with h1 | h1 | h1 | ⟨-, h1⟩
    · exact .inl ((I.inOrder.answered i).1 h1)
    · obtain ⟨a, b, e⟩ := List.append_of_mem h1
      exact .inr ⟨I.unanswered j1, .inr (.inr ⟨a, b, e, fun h => j2 (e ▸ List.mem_append_left _ h), hne, j3⟩)⟩
    · exact .inr ⟨I.unanswered j1, .inr (.inl ⟨h1, hne⟩)⟩
    · exact .inr ⟨I.unanswered j1, .inl h1⟩
  have hB' : Before i j w' := by
    clear ha
    induction h' with
    | refl => exact hB
    | tail _ hs ih =>
      obtain ⟨b, hs⟩ := hs
      exact before_step hs ih
  rcases hB' with h | ⟨h, -⟩
  · exact h
  · exact absurd h ha

/-- **C94** (partial, as `C94_everyone_partial`). At any time, if the clients stay patient, a state in which everyone is answered can be
reached (and by `C94_everyone_partial` every run that goes on as long as possible ends in one). -/
theorem C94_reaches_partial (hF : Faithful B) (hL : Local B) (hm : ∀ i, Wire.Enc (inputs i) (messages i))
    (hh : ∀ log : List (Fin n), log.Nodup → ∀ r ∈ serve S A update s (log.map fun i => some (inputs i)),
      ∃ v ts, r = .ok v ∧ Wire.Enc (outcome message r) ts) (w : Net n P T M)
    (h : Net.PatientSteps S A update message (Net.start messages s) w) :
    ∃ w', Net.PatientSteps S A update message w w' ∧ ∀ i, (w'.conns i).answer ≠ none := by
  have key : ∀ (k : Nat) (w : Net n P T M), left w ≤ k → Net.PatientSteps S A update message (Net.start messages s) w →
      ∃ w', Net.PatientSteps S A update message w w' ∧ ∀ i, (w'.conns i).answer ≠ none := by
    intro k
    induction k with
    | zero =>
      intro w hk h
      rcases ((C94_everyone_partial hF hL hm hh).1 w h).2 with ⟨w', hs⟩ | ha
      · have := step_left hs
        omega
      · exact ⟨w, .refl, ha⟩
    | succ k ih =>
      intro w hk h
      rcases ((C94_everyone_partial hF hL hm hh).1 w h).2 with ⟨w', hs⟩ | ha
      · have := step_left hs
        obtain ⟨w'', h1, h2⟩ := ih w' (by omega) (h.tail hs)
        exact ⟨w'', h1.head hs, h2⟩
      · exact ⟨w, .refl, ha⟩
  exact key _ w le_rfl h

/-- Non-vacuity of `C94_first_come`: the first of two clients connects, later both are answered. -/
example (hF : Faithful B) (hL : Local B) (inputs : Fin 2 → B) (messages : Fin 2 → List Tok) (hm : ∀ i, Wire.Enc (inputs i) (messages i))
    (hh : ∀ log : List (Fin 2), log.Nodup → ∀ r ∈ serve S A update s (log.map fun i => some (inputs i)),
      ∃ v ts, r = .ok v ∧ Wire.Enc (outcome message r) ts) :
    ∃ w w' : Net 2 P T M, Net.Steps S A update message (Net.start messages s) w ∧ Net.Steps S A update message w w' ∧
      (w.conns 0).connected = true ∧ (w.conns 1).connected = false ∧ (w'.conns 1).answer ≠ none := by
  have h1 := Net.Step.connect (S := S) (A := A) (update := update) (message := message) (Net.start messages s) 0 rfl rfl
  obtain ⟨w', h2, h3⟩ := C94_reaches_partial hF hL hm hh _ (.single h1)
  exact ⟨_, w', .single ⟨_, h1⟩, Relation.ReflTransGen.mono (fun _ _ h => ⟨_, h⟩) _ _ h2, rfl, rfl, h3 1⟩

end
end Clients
end Soco
