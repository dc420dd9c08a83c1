import Verif.Spec.Clients
import Verif.Props.Wire
import Mathlib.Algebra.BigOperators.Fin
import Mathlib.Tactic.FinCases

/-! # C94: several clients of one server -/

namespace Soco
namespace Clients
open Spec

section
variable {n : Nat} {P T M K B : Type} [Value T] [Wire B] [Wire T] [Wire M] [Wire K]

/-- The invariant of the clients and the server; `log` are the clients that were answered, `rs` their outcomes. -/
structure Inv (S : Server P T K) (A : OnlineAlgorithm P T M) (update : Online P → B → Res (Online P)) (message : Fault → String)
    (s : ServerState P T M) (inputs : Fin n → B) (messages : Fin n → List Tok) (log : List (Fin n))
    (rs : List (Res (OnlineResponse T M K))) (w : Net n P T M) : Prop where
  sent : ∀ i, (w.conns i).sent ++ (w.conns i).left = messages i
  once : (log ++ w.queue).Nodup
  served : serve S A update s (log.map fun i => some (inputs i)) = rs
  len : rs.length = log.length
  own : ∀ (k : Nat) (i : Fin n) r, log[k]? = some i → rs[k]? = some r →
    ∃ ts, (w.conns i).answer = some ts ∧ Wire.Enc (outcome message r) ts
  answered : ∀ i, (w.conns i).answer ≠ none → i ∈ log
  connected : ∀ i, (w.conns i).connected = true ↔ (i ∈ log ∨ i ∈ w.queue ∨ w.mode = .reading i ∨
    ((w.conns i).connected = true ∧ w.mode = .stopped))
  reading : ∀ i, w.mode = .reading i → i ∉ log ∧ i ∉ w.queue
  goesOn : w.mode ≠ .stopped → (∃ vs : List (OnlineResponse T M K), rs = vs.map .ok) ∧
    ∀ rest, serve S A update s ((log.map fun i => some (inputs i)) ++ rest) = rs ++ serve S A update w.state rest

theorem receive_part (hF : Faithful B) (hL : Local B) {b b' : B} {m sent left : List Tok} (hm : Wire.Enc b m) (h : sent ++ left = m)
    (hr : receive sent = some b') : b' = b := by
  unfold receive at hr
  cases hg : Wire.get (α := B) sent with
  | none => rw [hg] at hr; cases hr
  | some p =>
    obtain ⟨c, us⟩ := p
    rw [hg] at hr
    cases hr
    have h1 := hL c sent us left hg
    have h2 := hF b m [] hm
    rw [List.append_nil, ← h, h1] at h2
    injection h2 with h2
    injection h2

theorem serve_snoc (S : Server P T K) (A : OnlineAlgorithm P T M) (update : Online P → B → Res (Online P)) (s : ServerState P T M)
    (l : List (Option B)) (rs : List (Res (OnlineResponse T M K))) (s1 : ServerState P T M)
    (h : ∀ rest, serve S A update s (l ++ rest) = rs ++ serve S A update s1 rest) (b : B) :
    (∀ r s2, handle S A update s1 b = .ok (r, s2) →
      ∀ rest, serve S A update s ((l ++ [some b]) ++ rest) = (rs ++ [.ok r]) ++ serve S A update s2 rest) ∧
    (∀ e, handle S A update s1 b = .error e → serve S A update s (l ++ [some b]) = rs ++ [.error e]) := by
  constructor
  · intro r s2 hr rest
    rw [List.append_assoc, h, List.singleton_append, serve, hr]
    simp
  · intro e he
    rw [h, serve, he]

variable {S : Server P T K} {A : OnlineAlgorithm P T M} {update : Online P → B → Res (Online P)} {message : Fault → String}
  {s : ServerState P T M} {inputs : Fin n → B} {messages : Fin n → List Tok}

theorem inv_start (s : ServerState P T M) (inputs : Fin n → B) (messages : Fin n → List Tok) :
    Inv S A update message s inputs messages [] [] (Net.start messages s) where
  sent := by simp [Net.start, Conn.new]
  once := by simp [Net.start]
  served := rfl
  len := rfl
  own := by simp
  answered := by simp [Net.start, Conn.new]
  connected := by simp [Net.start, Conn.new]
  reading := by simp [Net.start]
  goesOn := by
    intro _
    exact ⟨⟨[], rfl⟩, fun rest => rfl⟩

/-- A client that was answered keeps its answer, and the answers of others do not change. -/
theorem own_update {rs : List (Res (OnlineResponse T M K))} {log : List (Fin n)} {w : Net n P T M}
    (h : ∀ (k : Nat) (i : Fin n) r, log[k]? = some i → rs[k]? = some r →
      ∃ ts, (w.conns i).answer = some ts ∧ Wire.Enc (outcome message r) ts) (i : Fin n) (c : Conn)
    (hc : i ∈ log → c.answer = (w.conns i).answer) : ∀ (k : Nat) (j : Fin n) r, log[k]? = some j → rs[k]? = some r →
      ∃ ts, (Function.update w.conns i c j).answer = some ts ∧ Wire.Enc (outcome message r) ts := by
  intro k j r hj hr
  by_cases e : j = i
  · subst e
    rw [Function.update_self, hc (List.mem_of_getElem? hj)]
    exact h k j r hj hr
  · rw [Function.update_of_ne e]
    exact h k j r hj hr

theorem own_snoc {rs : List (Res (OnlineResponse T M K))} {log : List (Fin n)} {w : Net n P T M} (hl : rs.length = log.length)
    (h : ∀ (k : Nat) (i : Fin n) r, log[k]? = some i → rs[k]? = some r →
      ∃ ts, (w.conns i).answer = some ts ∧ Wire.Enc (outcome message r) ts) (i : Fin n) (hi : i ∉ log) (o : Res (OnlineResponse T M K))
    (ts : List Tok) (ho : Wire.Enc (outcome message o) ts) : ∀ (k : Nat) (j : Fin n) r, (log ++ [i])[k]? = some j →
      (rs ++ [o])[k]? = some r →
      ∃ us, (Function.update w.conns i { w.conns i with answer := some ts } j).answer = some us ∧ Wire.Enc (outcome message r) us := by
  intro k j r hj hr
  by_cases hk : k < log.length
  · rw [List.getElem?_append_left hk] at hj
    rw [List.getElem?_append_left (by omega)] at hr
    exact own_update h i _ (fun h => absurd h hi) k j r hj hr
  · rw [List.getElem?_append_right (by omega)] at hj
    rw [List.getElem?_append_right (by omega), hl] at hr
    cases hd : k - log.length with
    | zero =>
      rw [hd] at hj hr
      cases hj
      cases hr
      exact ⟨ts, by rw [Function.update_self], ho⟩
    | succ d => rw [hd] at hj; simp at hj

theorem inv_step (hF : Faithful B) (hL : Local B) (hm : ∀ i, Wire.Enc (inputs i) (messages i)) {b : Bool} {w w' : Net n P T M}
    (h : Net.Step S A update message b w w') {log : List (Fin n)} {rs : List (Res (OnlineResponse T M K))}
    (I : Inv S A update message s inputs messages log rs w) :
    ∃ more rs', Inv S A update message s inputs messages (log ++ more) rs' w' := by
  have hnodup := List.nodup_append.1 I.once
  cases h with
  | connect _ i h ho =>
    have hi : i ∉ log ∧ i ∉ w.queue ∧ w.mode ≠ .reading i := by
      have := (I.connected i).not.1 (by simp [h])
      simp only [not_or] at this
      exact ⟨this.1, this.2.1, this.2.2.1⟩
    refine ⟨[], rs, ?_⟩
    rw [List.append_nil]
    refine ⟨?_, ?_, I.served, I.len, own_update I.own i _ fun _ => rfl, ?_, ?_, ?_, I.goesOn⟩
    · intro j
      by_cases e : j = i
      · subst e; simpa using I.sent j
      · simpa [Function.update_of_ne e] using I.sent j
    · rw [← List.append_assoc]
      refine List.nodup_append.2 ⟨I.once, by simp, ?_⟩
      rintro a ha b hb rfl
      simp only [List.mem_singleton] at hb
      subst hb
      rcases List.mem_append.1 ha with ha | ha
      · exact hi.1 ha
      · exact hi.2.1 ha
    · intro j hj
      by_cases e : j = i
      · subst e; exact I.answered j (by simpa using hj)
      · exact I.answered j (by simpa [Function.update_of_ne e] using hj)
    · intro j
      by_cases e : j = i
      · subst e; simp
      · simp only [Function.update_of_ne e, List.mem_append, List.mem_singleton, e, or_false]
        exact I.connected j
    · intro j hj
      have := I.reading j hj
      refine ⟨this.1, ?_⟩
      simp only [List.mem_append, List.mem_singleton, not_or]
      exact ⟨this.2, by rintro rfl; exact hi.2.2 hj⟩
  | send _ i t ts h ho hl =>
    refine ⟨[], rs, ?_⟩
    rw [List.append_nil]
    refine ⟨?_, I.once, I.served, I.len, own_update I.own i _ fun _ => rfl, ?_, ?_, I.reading, I.goesOn⟩
    · intro j
      by_cases e : j = i
      · subst e
        have := I.sent j
        rw [hl] at this
        simpa using this
      · simpa [Function.update_of_ne e] using I.sent j
    · intro j hj
      by_cases e : j = i
      · subst e; exact I.answered j (by simpa using hj)
      · exact I.answered j (by simpa [Function.update_of_ne e] using hj)
    · intro j
      by_cases e : j = i
      · subst e; simpa using I.connected j
      · simpa [Function.update_of_ne e] using I.connected j
  | close _ i h ho ha =>
    refine ⟨[], rs, ?_⟩
    rw [List.append_nil]
    refine ⟨?_, I.once, I.served, I.len, own_update I.own i _ fun _ => rfl, ?_, ?_, I.reading, I.goesOn⟩
    · intro j
      by_cases e : j = i
      · subst e; simpa using I.sent j
      · simpa [Function.update_of_ne e] using I.sent j
    · intro j hj
      by_cases e : j = i
      · subst e; exact I.answered j (by simpa using hj)
      · exact I.answered j (by simpa [Function.update_of_ne e] using hj)
    · intro j
      by_cases e : j = i
      · subst e; simpa using I.connected j
      · simpa [Function.update_of_ne e] using I.connected j
  | giveUp _ i h ho ha =>
    refine ⟨[], rs, ?_⟩
    rw [List.append_nil]
    refine ⟨?_, I.once, I.served, I.len, own_update I.own i _ fun _ => rfl, ?_, ?_, I.reading, I.goesOn⟩
    · intro j
      by_cases e : j = i
      · subst e; simpa using I.sent j
      · simpa [Function.update_of_ne e] using I.sent j
    · intro j hj
      by_cases e : j = i
      · subst e; exact I.answered j (by simpa using hj)
      · exact I.answered j (by simpa [Function.update_of_ne e] using hj)
    · intro j
      by_cases e : j = i
      · subst e; simpa using I.connected j
      · simpa [Function.update_of_ne e] using I.connected j
  | accept _ i q hmode hq =>
    rw [hq] at hnodup
    refine ⟨[], rs, ?_⟩
    rw [List.append_nil]
    refine ⟨I.sent, ?_, I.served, I.len, I.own, I.answered, ?_, ?_, fun _ => I.goesOn (by simp [hmode])⟩
    · exact List.nodup_append.2 ⟨hnodup.1, (List.nodup_cons.1 hnodup.2.1).2, fun a ha b hb => hnodup.2.2 a ha b (by simp [hb])⟩
    · intro j
      rw [I.connected j, hmode, hq]
      simp only [List.mem_cons, reduceCtorEq, and_false, or_false, false_or, Mode.reading.injEq]
      constructor
      · rintro (h | rfl | h)
        · exact Or.inl h
        · exact Or.inr (Or.inr rfl)
        · exact Or.inr (Or.inl h)
      · rintro (h | h | rfl)
        · exact Or.inl h
        · exact Or.inr (Or.inr h)
        · exact Or.inr (Or.inl rfl)
    · intro j hj
      simp only [Mode.reading.injEq] at hj
      subst hj
      exact ⟨fun h => hnodup.2.2 _ h _ (by simp) rfl, (List.nodup_cons.1 hnodup.2.1).1⟩
  | answer _ i c r s2 ts hmode hb hr hts =>
    obtain rfl := receive_part hF hL (hm i) (I.sent i) hb
    obtain ⟨hi, hiq⟩ := I.reading i hmode
    obtain ⟨⟨vs, rfl⟩, hgo⟩ := I.goesOn (by simp [hmode])
    have hgo' := (serve_snoc S A update s _ _ _ hgo (inputs i)).1 r s2 hr
    refine ⟨[i], vs.map .ok ++ [.ok r], ?_⟩
    refine ⟨?_, ?_, ?_, by simpa using I.len, own_snoc I.len I.own i hi (.ok r) ts hts, ?_, ?_, by simp, ?_⟩
    · intro j
      by_cases e : j = i
      · subst e; simpa using I.sent j
      · simpa [Function.update_of_ne e] using I.sent j
    · rw [List.append_assoc]
      refine List.nodup_append.2 ⟨hnodup.1, by simpa using ⟨hiq, hnodup.2.1⟩, ?_⟩
      intro a ha b hb
      rcases List.mem_append.1 hb with hb | hb
      · rintro rfl
        rw [List.mem_singleton.1 hb] at ha
        exact hi ha
      · exact hnodup.2.2 a ha b hb
    · have := hgo' []
      simpa [serve] using this
    · intro j hj
      by_cases e : j = i
      · simp [e]
      · exact List.mem_append_left _ (I.answered j (by simpa [Function.update_of_ne e] using hj))
    · intro j
      by_cases e : j = i
      · subst e
        simp only [Function.update_self, List.mem_append, List.mem_singleton, or_true, true_or, iff_true]
        exact (I.connected j).2 (Or.inr (Or.inr (Or.inl hmode)))
      · simp only [Function.update_of_ne e, List.mem_append, List.mem_singleton, e, or_false, reduceCtorEq, and_false]
        rw [I.connected j, hmode]
        simp [Ne.symm e]
    · intro _
      exact ⟨⟨vs ++ [r], by simp⟩, fun rest => by simpa using hgo' rest⟩
  | fail _ i c e' ts hmode hb hr hts =>
    obtain rfl := receive_part hF hL (hm i) (I.sent i) hb
    obtain ⟨hi, hiq⟩ := I.reading i hmode
    obtain ⟨⟨vs, rfl⟩, hgo⟩ := I.goesOn (by simp [hmode])
    have hgo' := (serve_snoc S A update s _ _ _ hgo (inputs i)).2 e' hr
    refine ⟨[i], vs.map .ok ++ [.error e'], ?_⟩
    refine ⟨?_, ?_, ?_, by simpa using I.len, own_snoc I.len I.own i hi (.error e') ts hts, ?_, ?_, by simp, by simp⟩
    · intro j
      by_cases e : j = i
      · subst e; simpa using I.sent j
      · simpa [Function.update_of_ne e] using I.sent j
    · rw [List.append_assoc]
      refine List.nodup_append.2 ⟨hnodup.1, by simpa using ⟨hiq, hnodup.2.1⟩, ?_⟩
      intro a ha b hb
      rcases List.mem_append.1 hb with hb | hb
      · rintro rfl
        rw [List.mem_singleton.1 hb] at ha
        exact hi ha
      · exact hnodup.2.2 a ha b hb
    · simpa using hgo'
    · intro j hj
      by_cases e : j = i
      · simp [e]
      · exact List.mem_append_left _ (I.answered j (by simpa [Function.update_of_ne e] using hj))
    · intro j
      by_cases e : j = i
      · subst e
        simp only [Function.update_self, List.mem_append, List.mem_singleton, or_true, true_or, iff_true]
        exact (I.connected j).2 (Or.inr (Or.inr (Or.inl hmode)))
      · simp only [Function.update_of_ne e, List.mem_append, List.mem_singleton, e, or_false, reduceCtorEq, and_true, false_or]
        have := I.connected j
        rw [hmode] at this
        simp only [Mode.reading.injEq, Ne.symm e, false_or, reduceCtorEq, and_false, or_false] at this
        constructor
        · intro h; exact Or.inr (Or.inr h)
        · rintro (h | h | h)
          · exact this.2 (Or.inl h)
          · exact this.2 (Or.inr h)
          · exact h
  | broken _ i c hmode hb hc =>
    refine ⟨[], rs, ?_⟩
    rw [List.append_nil]
    refine ⟨I.sent, I.once, I.served, I.len, I.own, I.answered, ?_, by simp, by simp⟩
    intro j
    constructor
    · intro h; exact Or.inr (Or.inr (Or.inr ⟨h, rfl⟩))
    · rintro (h | h | h | h)
      · exact (I.connected j).2 (Or.inl h)
      · exact (I.connected j).2 (Or.inr (Or.inl h))
      · simp at h
      · exact h.1
  | stop _ i hmode hb hc =>
    refine ⟨[], rs, ?_⟩
    rw [List.append_nil]
    refine ⟨I.sent, I.once, I.served, I.len, I.own, I.answered, ?_, by simp, by simp⟩
    intro j
    constructor
    · intro h; exact Or.inr (Or.inr (Or.inr ⟨h, rfl⟩))
    · rintro (h | h | h | h)
      · exact (I.connected j).2 (Or.inl h)
      · exact (I.connected j).2 (Or.inr (Or.inl h))
      · simp at h
      · exact h.1

theorem inv_steps (hF : Faithful B) (hL : Local B) (hm : ∀ i, Wire.Enc (inputs i) (messages i)) {w w' : Net n P T M}
    (h : Net.Steps S A update message w w') {log : List (Fin n)} {rs : List (Res (OnlineResponse T M K))}
    (I : Inv S A update message s inputs messages log rs w) :
    ∃ more rs', Inv S A update message s inputs messages (log ++ more) rs' w' := by
  induction h with
  | refl => exact ⟨[], rs, by rwa [List.append_nil]⟩
  | tail _ hs ih =>
    obtain ⟨more, rs', I'⟩ := ih
    obtain ⟨b, hs⟩ := hs
    obtain ⟨more', rs'', I''⟩ := inv_step hF hL hm hs I'
    exact ⟨more ++ more', rs'', by rwa [← List.append_assoc]⟩

theorem Inv.inOrder {log : List (Fin n)} {rs : List (Res (OnlineResponse T M K))} {w : Net n P T M}
    (I : Inv S A update message s inputs messages log rs w) : InOrder S A update message s inputs log w where
  once := (List.nodup_append.1 I.once).1
  answered i := by
    refine ⟨fun h => ?_, I.answered i⟩
    obtain ⟨k, hk⟩ := List.mem_iff_getElem?.1 h
    have hlt : k < rs.length := by rw [I.len]; exact (List.getElem?_eq_some_iff.1 hk).1
    obtain ⟨ts, hts, -⟩ := I.own k i rs[k] hk (List.getElem?_eq_getElem hlt)
    rw [hts]
    simp
  all := by rw [I.served, I.len]
  own := by rw [I.served]; exact I.own

/-- **C94** (order). Whatever clients connect, send and close in whatever order: at any time, the clients that were answered are in
an order such that everyone has the answer to its own input which a service gives that handles the inputs in this order, one
after the other. Clients that are answered later come later in this order, so that no client is overtaken by one that connects
after the client was answered. -/
theorem C94_in_order (hF : Faithful B) (hL : Local B) (hm : ∀ i, Wire.Enc (inputs i) (messages i)) (w w' : Net n P T M)
    (h : Net.Steps S A update message (Net.start messages s) w) (h' : Net.Steps S A update message w w') :
    ∃ log more, InOrder S A update message s inputs log w ∧ InOrder S A update message s inputs (log ++ more) w' := by
  obtain ⟨log, rs, I⟩ := inv_steps hF hL hm h (inv_start s inputs messages)
  obtain ⟨more, rs', I'⟩ := inv_steps hF hL hm h' I
  exact ⟨_, more, I.inOrder, I'.inOrder⟩

/-! ### Everyone is answered -/

/-- How much is left to do. -/
def left (w : Net n P T M) : Nat :=
  (∑ i, ((w.conns i).left.length + (if (w.conns i).connected then 0 else 3) + (if (w.conns i).closed then 0 else 1))) +
    2 * w.queue.length + (match w.mode with | .reading _ => 1 | _ => 0)

theorem sum_update_lt (conns : Fin n → Conn) (f : Conn → Nat) (i : Fin n) (c : Conn) (k : Nat) (h : f c + k ≤ f (conns i)) :
    (∑ j, f (Function.update conns i c j)) + k ≤ ∑ j, f (conns j) := by
  rw [← Finset.add_sum_erase _ _ (Finset.mem_univ i), ← Finset.add_sum_erase (a := i) _ (fun j => f (conns j)) (Finset.mem_univ i)]
  have : ∑ j ∈ Finset.univ.erase i, f (Function.update conns i c j) = ∑ j ∈ Finset.univ.erase i, f (conns j) := by
    refine Finset.sum_congr rfl fun j hj => ?_
    rw [Function.update_of_ne (Finset.ne_of_mem_erase hj)]
  rw [this, Function.update_self]
  omega

theorem step_left {b : Bool} {w w' : Net n P T M} (h : Net.Step S A update message b w w') : left w' < left w := by
  let f : Conn → Nat := fun c => c.left.length + (if c.connected then 0 else 3) + (if c.closed then 0 else 1)
  cases h with
  | connect _ i h ho =>
    have := sum_update_lt w.conns f i { w.conns i with connected := true } 3 (by simp [f, h]; omega)
    simp only [left, List.length_append, List.length_singleton]
    dsimp only [f] at this
    omega
  | send _ i t ts h ho hl =>
    have := sum_update_lt w.conns f i { w.conns i with sent := (w.conns i).sent ++ [t], left := ts } 1 (by simp [f, hl]; omega)
    simp only [left]
    dsimp only [f] at this
    omega
  | close _ i h ho ha =>
    have := sum_update_lt w.conns f i { w.conns i with closed := true } 1 (by simp [f, ho])
    simp only [left]
    dsimp only [f] at this
    omega
  | giveUp _ i h ho ha =>
    have := sum_update_lt w.conns f i { w.conns i with closed := true } 1 (by simp [f, ho])
    simp only [left]
    dsimp only [f] at this
    omega
  | accept _ i q hm hq =>
    simp only [left, hm, hq, List.length_cons]
    omega
  | answer _ i c r s ts hm hb hr hts =>
    have := sum_update_lt w.conns f i { w.conns i with answer := some ts } 0 (by simp [f])
    simp only [left, hm]
    dsimp only [f] at this
    omega
  | fail _ i c e ts hm hb hr hts =>
    have := sum_update_lt w.conns f i { w.conns i with answer := some ts } 0 (by simp [f])
    simp only [left, hm]
    dsimp only [f] at this
    omega
  | broken _ i c hm hb hc =>
    simp only [left, hm]
    omega
  | stop _ i hm hb hc =>
    simp only [left, hm]
    omega

/-- If nobody gives up: whoever has closed the connection was answered, and the server runs. -/
structure Runs (w : Net n P T M) : Prop where
  closed : ∀ i, (w.conns i).closed = true → (w.conns i).answer ≠ none
  runs : w.mode ≠ .stopped

theorem Inv.unanswered {log : List (Fin n)} {rs : List (Res (OnlineResponse T M K))} {w : Net n P T M}
    (I : Inv S A update message s inputs messages log rs w) {i : Fin n} (hi : i ∉ log) : (w.conns i).answer = none := by
  by_contra h
  exact hi (I.answered i h)

/-- The service can handle the inputs of the clients in every order. -/
def Handles (S : Server P T K) (A : OnlineAlgorithm P T M) (update : Online P → B → Res (Online P)) (message : Fault → String)
    (s : ServerState P T M) (inputs : Fin n → B) : Prop :=
  ∀ log : List (Fin n), log.Nodup → ∀ r ∈ serve S A update s (log.map fun i => some (inputs i)),
    ∃ v ts, r = .ok v ∧ Wire.Enc (outcome message r) ts

theorem Inv.handle_ok {log : List (Fin n)} {rs : List (Res (OnlineResponse T M K))} {w : Net n P T M}
    (I : Inv S A update message s inputs messages log rs w) (hs : w.mode ≠ .stopped) (hh : Handles S A update message s inputs)
    {i : Fin n} (hi : i ∉ log) : ∃ r s2 ts, handle S A update w.state (inputs i) = .ok (r, s2) ∧
      Wire.Enc (outcome message (.ok r)) ts := by
  have hnd : (log ++ [i]).Nodup := by
    refine List.nodup_append.2 ⟨(List.nodup_append.1 I.once).1, by simp, ?_⟩
    rintro a ha b hb rfl
    rw [List.mem_singleton.1 hb] at ha
    exact hi ha
  have h := hh _ hnd
  obtain ⟨-, hgo⟩ := I.goesOn hs
  have hsn := serve_snoc S A update s _ _ _ hgo (inputs i)
  cases hr : handle S A update w.state (inputs i) with
  | error e =>
    have := hsn.2 e hr
    obtain ⟨v, ts, hv, -⟩ := h (.error e) (by rw [List.map_append, List.map_singleton, this]; simp)
    cases hv
  | ok p =>
    obtain ⟨r, s2⟩ := p
    have := hsn.1 r s2 hr []
    obtain ⟨v, ts, hv, hts⟩ := h (.ok r) (by rw [List.append_nil] at this; rw [List.map_append, List.map_singleton, this]; simp)
    exact ⟨r, s2, ts, rfl, hts⟩

theorem Inv.connected_of_closed {log : List (Fin n)} {rs : List (Res (OnlineResponse T M K))} {w : Net n P T M}
    (I : Inv S A update message s inputs messages log rs w) (R : Runs w) {i : Fin n} (h : (w.conns i).closed = true) : i ∈ log :=
  I.answered i (R.closed i h)

theorem Inv.runs (hF : Faithful B) (hL : Local B) (hm : ∀ i, Wire.Enc (inputs i) (messages i))
    (hh : Handles S A update message s inputs) {w w' : Net n P T M} (h : Net.Step S A update message false w w')
    {log : List (Fin n)} {rs : List (Res (OnlineResponse T M K))} (I : Inv S A update message s inputs messages log rs w) (R : Runs w) :
    Runs w' := by
  generalize hb : false = b at h
  cases h with
  | connect _ i h ho =>
    refine ⟨fun j => ?_, R.runs⟩
    by_cases e : j = i
    · subst e; simp [ho]
    · simpa [Function.update_of_ne e] using R.closed j
  | send _ i t ts h ho hl =>
    refine ⟨fun j => ?_, R.runs⟩
    by_cases e : j = i
    · subst e; simp [ho]
    · simpa [Function.update_of_ne e] using R.closed j
  | close _ i h ho ha =>
    refine ⟨fun j => ?_, R.runs⟩
    by_cases e : j = i
    · subst e; simpa using ha
    · simpa [Function.update_of_ne e] using R.closed j
  | giveUp _ i h ho ha => cases hb
  | accept _ i q hmode hq => exact ⟨R.closed, by simp⟩
  | answer _ i c r s ts hmode hb hr hts =>
    refine ⟨fun j => ?_, by simp⟩
    by_cases e : j = i
    · subst e; simp
    · simpa [Function.update_of_ne e] using R.closed j
  | fail _ i c e ts hmode hb hr hts =>
    obtain rfl := receive_part hF hL (hm i) (I.sent i) hb
    obtain ⟨r, s2, ts, h1, -⟩ := I.handle_ok R.runs hh (I.reading i hmode).1
    rw [h1] at hr
    cases hr
  | broken _ i c hmode hb hc => exact absurd (I.connected_of_closed R hc) (I.reading i hmode).1
  | stop _ i hmode hb hc =>
    rcases hc with hc | hc
    · exact absurd (I.connected_of_closed R hc) (I.reading i hmode).1
    · have := hc (w.conns i).left
      rw [I.sent i, receive_of hF (hm i)] at this
      cases this

theorem runs_steps (hF : Faithful B) (hL : Local B) (hm : ∀ i, Wire.Enc (inputs i) (messages i))
    (hh : Handles S A update message s inputs) {w : Net n P T M}
    (h : Net.PatientSteps S A update message (Net.start messages s) w) :
    ∃ log rs, Inv S A update message s inputs messages log rs w ∧ Runs w := by
  induction h with
  | refl => exact ⟨[], [], inv_start s inputs messages, by simp [Net.start, Conn.new], by simp [Net.start]⟩
  | tail _ hs ih =>
    obtain ⟨log, rs, I, R⟩ := ih
    obtain ⟨more, rs', I'⟩ := inv_step hF hL hm hs I
    exact ⟨_, _, I', I.runs hF hL hm hh hs R⟩

/-- **C94** (partial: only if no client gives up before it is answered or keeps silent; see the counterexamples). If the service
can handle the inputs of the clients in every order, then, whatever the order in which clients connect and their messages
arrive, piece by piece: the server never stops, and as long as someone has no answer, something can happen. No run is infinite.
So everyone is answered in the end. -/
theorem C94_everyone_partial (hF : Faithful B) (hL : Local B) (hm : ∀ i, Wire.Enc (inputs i) (messages i))
    (hh : ∀ log : List (Fin n), log.Nodup → ∀ r ∈ serve S A update s (log.map fun i => some (inputs i)),
      ∃ v ts, r = .ok v ∧ Wire.Enc (outcome message r) ts) :
    (∀ w, Net.PatientSteps S A update message (Net.start messages s) w →
      w.mode ≠ .stopped ∧ ((∃ w', Net.Step S A update message false w w') ∨ ∀ i, (w.conns i).answer ≠ none)) ∧
    ¬∃ ws : ℕ → Net n P T M, ∀ k, Net.Step S A update message false (ws k) (ws (k + 1)) := by
  constructor
  · intro w h
    obtain ⟨log, rs, I, R⟩ := runs_steps hF hL hm hh h
    refine ⟨R.runs, ?_⟩
    cases hmode : w.mode with
    | stopped => exact absurd hmode R.runs
    | listening =>
      cases hq : w.queue with
      | cons i q => exact Or.inl ⟨_, .accept w i q hmode hq⟩
      | nil =>
        by_cases hc : ∀ i, (w.conns i).connected = true
        · right
          intro i
          have := (I.connected i).1 (hc i)
          rw [hmode, hq] at this
          simp only [List.not_mem_nil, reduceCtorEq, and_false, or_false] at this
          exact (I.inOrder.answered i).1 this
        · left
          obtain ⟨i, hi⟩ := not_forall.1 hc
          have hi' : (w.conns i).connected = false := by simpa using hi
          refine ⟨_, .connect w i hi' ?_⟩
          by_contra hcl
          exact hi ((I.connected i).2 (Or.inl (I.connected_of_closed R (by simpa using hcl))))
    | reading i =>
      left
      obtain ⟨hi, -⟩ := I.reading i hmode
      have hcl : (w.conns i).closed = false := by
        by_contra hcl
        exact hi (I.connected_of_closed R (by simpa using hcl))
      cases hl : (w.conns i).left with
      | cons t ts => exact ⟨_, .send w i t ts ((I.connected i).2 (Or.inr (Or.inr (Or.inl hmode)))) hcl hl⟩
      | nil =>
        have hsent := I.sent i
        rw [hl, List.append_nil] at hsent
        obtain ⟨r, s2, ts, h1, h2⟩ := I.handle_ok R.runs hh hi
        exact ⟨_, .answer w i (inputs i) r s2 ts hmode (by rw [hsent]; exact receive_of hF (hm i)) h1 h2⟩
  · rintro ⟨ws, hws⟩
    have : ∀ k, left (ws k) + k ≤ left (ws 0) := by
      intro k
      induction k with
      | zero => simp
      | succ k ih => have := step_left (hws k); omega
    have := this (left (ws 0) + 1)
    omega

/-! ### Counterexamples -/

/-- Nothing happens to the answers once the server has stopped. -/
theorem stopped_steps {w w' : Net n P T M} (h : Net.Steps S A update message w w') (hs : w.mode = .stopped) :
    w'.mode = .stopped ∧ ∀ i, (w'.conns i).answer = (w.conns i).answer := by
  induction h with
  | refl => exact ⟨hs, fun _ => rfl⟩
  | @tail w1 w2 _ hst ih =>
    obtain ⟨h1, h2⟩ := ih
    obtain ⟨b, hst⟩ := hst
    cases hst with
    | connect _ i h ho =>
      refine ⟨h1, fun j => ?_⟩
      rw [← h2 j]
      by_cases e : j = i
      · subst e; simp
      · simp [Function.update_of_ne e]
    | send _ i t ts h ho hl =>
      refine ⟨h1, fun j => ?_⟩
      rw [← h2 j]
      by_cases e : j = i
      · subst e; simp
      · simp [Function.update_of_ne e]
    | close _ i h ho ha =>
      refine ⟨h1, fun j => ?_⟩
      rw [← h2 j]
      by_cases e : j = i
      · subst e; simp
      · simp [Function.update_of_ne e]
    | giveUp _ i h ho ha =>
      refine ⟨h1, fun j => ?_⟩
      rw [← h2 j]
      by_cases e : j = i
      · subst e; simp
      · simp [Function.update_of_ne e]
    | accept _ i q hm hq => rw [h1] at hm; cases hm
    | answer _ i c r s ts hm hb hr hts => rw [h1] at hm; cases hm
    | fail _ i c e ts hm hb hr hts => rw [h1] at hm; cases hm
    | broken _ i c hm hb hc => rw [h1] at hm; cases hm
    | stop _ i hm hb hc => rw [h1] at hm; cases hm

/-- The whole message of a client arrives. -/
theorem send_all (w : Net n P T M) (i : Fin n) (h : (w.conns i).connected = true) (ho : (w.conns i).closed = false) :
    Net.Steps S A update message w { w with conns :=
      (Function.update w.conns i { w.conns i with sent := (w.conns i).sent ++ (w.conns i).left, left := [] }) } := by
  generalize hl : (w.conns i).left = ts
  induction ts generalizing w with
  | nil =>
    have : Function.update w.conns i { w.conns i with sent := (w.conns i).sent ++ [], left := [] } = w.conns := by
      funext j
      by_cases e : j = i
      · subst e
        rw [Function.update_self, List.append_nil, ← hl]
      · rw [Function.update_of_ne e]
    rw [this]
    exact .refl
  | cons t ts ih =>
    have h1 := Net.Step.send (S := S) (A := A) (update := update) (message := message) w i t ts h ho hl
    refine Relation.ReflTransGen.head ⟨_, h1⟩ ?_
    have h2 := ih { w with conns := Function.update w.conns i { w.conns i with sent := (w.conns i).sent ++ [t], left := ts } }
      (by simpa using h) (by simpa using ho) (by simp)
    change Net.Steps S A update message _ _
    simpa using h2

theorem up_fst (a b c : Conn) : Function.update ![a, b] 0 c = ![c, b] := by
  funext j
  fin_cases j <;> rfl

theorem up_snd (a b c : Conn) : Function.update ![a, b] 1 c = ![a, c] := by
  funext j
  fin_cases j <;> rfl

/-- Two clients connect, and the whole message of the second one arrives. -/
theorem second_sent (S : Server P T K) (A : OnlineAlgorithm P T M) (update : Online P → B → Res (Online P))
    (message : Fault → String) (s : ServerState P T M) (messages : Fin 2 → List Tok) :
    Net.Steps S A update message (Net.start messages s)
      ⟨![⟨true, [], messages 0, false, none⟩, ⟨true, messages 1, [], false, none⟩], [0, 1], .listening, s⟩ := by
  have h0 : Net.start messages s = ⟨![.new (messages 0), .new (messages 1)], [], .listening, s⟩ := by
    unfold Net.start
    congr 1
    funext j
    fin_cases j <;> rfl
  rw [h0]
  have a1 := Net.Step.connect (S := S) (A := A) (update := update) (message := message)
    ⟨![.new (messages 0), .new (messages 1)], [], .listening, s⟩ 0 rfl rfl
  dsimp only at a1
  rw [up_fst] at a1
  have a2 := Net.Step.connect (S := S) (A := A) (update := update) (message := message)
    ⟨![⟨true, [], messages 0, false, none⟩, .new (messages 1)], [0], .listening, s⟩ 1 rfl rfl
  dsimp only at a2
  rw [up_snd] at a2
  have a3 := send_all (S := S) (A := A) (update := update) (message := message)
    ⟨![⟨true, [], messages 0, false, none⟩, ⟨true, [], messages 1, false, none⟩], [0, 1], .listening, s⟩ 1 rfl rfl
  dsimp only at a3
  rw [up_snd] at a3
  exact .head ⟨_, a1⟩ (.head ⟨_, a2⟩ a3)

/-- **C94** (giving up). A client that closes its connection before it has sent its input, by crashing for example, stops the
server: there is a run in which another client, whose whole message has arrived, is never answered. -/
theorem C94_give_up_counterexample (S : Server P T K) (A : OnlineAlgorithm P T M) (update : Online P → B → Res (Online P))
    (message : Fault → String) (s : ServerState P T M) (messages : Fin 2 → List Tok) (h0 : receive (α := B) [] = none) :
    ∃ w : Net 2 P T M, Net.Steps S A update message (Net.start messages s) w ∧ (w.conns 1).sent = messages 1 ∧
      (w.conns 1).closed = false ∧ ∀ w', Net.Steps S A update message w w' → (w'.conns 1).answer = none := by
  have a := second_sent S A update message s messages
  have a1 := Net.Step.giveUp (S := S) (A := A) (update := update) (message := message)
    ⟨![⟨true, [], messages 0, false, none⟩, ⟨true, messages 1, [], false, none⟩], [0, 1], .listening, s⟩ 0 rfl rfl rfl
  dsimp only at a1
  rw [up_fst] at a1
  have a2 := Net.Step.accept (S := S) (A := A) (update := update) (message := message)
    ⟨![⟨true, [], messages 0, true, none⟩, ⟨true, messages 1, [], false, none⟩], [0, 1], .listening, s⟩ 0 [1] rfl rfl
  have a3 := Net.Step.stop (S := S) (A := A) (update := update) (message := message)
    ⟨![⟨true, [], messages 0, true, none⟩, ⟨true, messages 1, [], false, none⟩], [1], .reading 0, s⟩ 0 rfl h0 (Or.inl rfl)
  refine ⟨_, ((a.tail ⟨_, a1⟩).tail ⟨_, a2⟩).tail ⟨_, a3⟩, rfl, rfl, ?_⟩
  intro w' h'
  rw [(stopped_steps h' rfl).2 1]
  rfl

/-- **C94** (silence). A client that connects and sends nothing keeps everyone else waiting: there is a run in which another
client, whose whole message has arrived, is not answered whatever happens next, as long as nothing happens to the connection
of the first client. -/
theorem C94_silent_counterexample (S : Server P T K) (A : OnlineAlgorithm P T M) (update : Online P → B → Res (Online P))
    (message : Fault → String) (s : ServerState P T M) (messages : Fin 2 → List Tok) (b : B) (h0 : receive (α := B) [] = none)
    (hF : Faithful B) (hm : Wire.Enc b (messages 0)) :
    ∃ w : Net 2 P T M, Net.Steps S A update message (Net.start messages s) w ∧ (w.conns 1).sent = messages 1 ∧
      (∀ i, (w.conns i).connected = true ∧ (w.conns i).closed = false) ∧
      ∀ w', Relation.ReflTransGen (fun u v => (∃ b, Net.Step S A update message b u v) ∧ v.conns 0 = u.conns 0) w w' →
        (w'.conns 1).answer = none := by
  have a := second_sent S A update message s messages
  have a2 := Net.Step.accept (S := S) (A := A) (update := update) (message := message)
    ⟨![⟨true, [], messages 0, false, none⟩, ⟨true, messages 1, [], false, none⟩], [0, 1], .listening, s⟩ 0 [1] rfl rfl
  refine ⟨_, a.tail ⟨_, a2⟩, rfl, ?_, ?_⟩
  · intro i
    fin_cases i <;> exact ⟨rfl, rfl⟩
  · intro w' h'
    suffices h : w'.mode = .reading 0 ∧ w'.conns 0 = ⟨true, [], messages 0, false, none⟩ ∧ (w'.conns 1).answer = none from h.2.2
    induction h' with
    | refl => exact ⟨rfl, rfl, rfl⟩
    | tail _ hst ih =>
      obtain ⟨⟨_, hst⟩, same⟩ := hst
      obtain ⟨h1, h2, h3⟩ := ih
      rw [same]
      cases hst with
      | connect _ i h ho =>
        refine ⟨h1, h2, ?_⟩
        by_cases e : 1 = i
        · subst e; simpa using h3
        · simpa [Function.update_of_ne e] using h3
      | send _ i t ts h ho hl =>
        refine ⟨h1, h2, ?_⟩
        by_cases e : 1 = i
        · subst e; simpa using h3
        · simpa [Function.update_of_ne e] using h3
      | close _ i h ho ha =>
        refine ⟨h1, h2, ?_⟩
        by_cases e : 1 = i
        · subst e; simpa using h3
        · simpa [Function.update_of_ne e] using h3
      | giveUp _ i h ho ha =>
        refine ⟨h1, h2, ?_⟩
        by_cases e : 1 = i
        · subst e; simpa using h3
        · simpa [Function.update_of_ne e] using h3
      | accept _ i q hm hq => rw [h1] at hm; cases hm
      | answer _ i c r s ts hm hb hr hts =>
        rw [h1] at hm
        cases hm
        rw [h2, h0] at hb
        cases hb
      | fail _ i c e ts hm hb hr hts =>
        rw [h1] at hm
        cases hm
        rw [h2, h0] at hb
        cases hb
      | broken _ i c hm hb hc =>
        rw [h1] at hm
        cases hm
        rw [h2, h0] at hb
        cases hb
      | stop _ i hm' hb hc =>
        rw [h1] at hm'
        cases hm'
        rw [h2] at hc
        rcases hc with hc | hc
        · cases hc
        · have := hc (messages 0)
          rw [List.nil_append, receive_of hF hm] at this
          cases this

end
end Clients
end Soco
