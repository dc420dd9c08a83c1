import Verif.Props.Streaming

/-!
# A service, started with past inputs, plays its algorithm

Used for C96.
-/

namespace Soco
namespace Service

section
variable {P T K M B : Type} [Value T]

/-- The past is streamed. -/
theorem streamed (sv : Server P T K) (A : OnlineAlgorithm P T M) (p0 : P) (a : Nat)
    (ht : ∀ k, sv.tEnd (sv.setTEnd p0 k) = k) (hset : ∀ k l, sv.setTEnd (sv.setTEnd p0 k) l = sv.setTEnd p0 l)
    (hv : ∀ k : Nat, 1 ≤ k → k ≤ a → sv.verify ⟨sv.setTEnd p0 k, 0⟩ = .ok ()) :
    ∀ (j k : Nat) (xs : Schedule T) (mem : Option M) (ys : Schedule T) (mem' : Option M), k + j = a →
      Spec.Run sv.tEnd A xs mem
        ((List.range (j + 1)).map fun i => ⟨sv.setTEnd p0 ((k + i : Nat) : Int), 0⟩) ys mem' →
      Spec.Streamed sv.tEnd sv.verify A (offlineUpdate sv.tEnd sv.setTEnd a) ⟨sv.setTEnd p0 k, 0⟩ xs mem
        ((List.range (j + 1)).map fun i => ⟨sv.setTEnd p0 ((k + i : Nat) : Int), 0⟩) ⟨sv.setTEnd p0 a, 0⟩ ys mem' := by
  intro j
  induction j with
  | zero =>
    intro k xs mem ys mem' hk hr
    have e : k = a := by omega
    subst e
    refine .stop _ _ _ _ _ _ hr ?_
    simp [offlineUpdate, ht]
  | succ j ih =>
    intro k xs mem ys mem' hk hr
    rw [List.range_succ_eq_map, List.map_cons, List.map_map] at hr ⊢
    have e : ((List.range (j + 1)).map ((fun i => (⟨sv.setTEnd p0 ((k + i : Nat) : Int), 0⟩ : Online P)) ∘ Nat.succ)) =
        (List.range (j + 1)).map fun i => ⟨sv.setTEnd p0 (((k + 1) + i : Nat) : Int), 0⟩ := by
      apply List.map_congr_left
      intro i _
      simp only [Function.comp, Nat.succ_eq_add_one]
      have : k + (i + 1) = k + 1 + i := by omega
      rw [this]
    rw [e] at hr ⊢
    obtain ⟨us, m1, r1, r2⟩ := Spec.Run.split (os := [_]).1 hr
    have hlt : sv.tEnd (sv.setTEnd p0 k) < (a : Int) - 0 := by rw [ht]; omega
    refine .next _ _ _ _ _ ⟨sv.setTEnd p0 ((k + 1 : Nat) : Int), 0⟩ _ _ _ _ r1 ?_ (hv (k + 1) (by omega) (by omega))
      (ih (k + 1) _ _ _ _ (by omega) r2)
    refine (if_pos hlt).trans ?_
    simp only [ht, hset]
    push_cast
    rfl

/-- A service which is started with an instance of `a` slots and then receives inputs, none of them with a prediction window:
if the algorithm, played on the instances of the first `1, …, a` slots and on the updated instances, decides `xs`, then
the service starts with the first `a` of these decisions and answers every input with the next one and the cost so far. -/
theorem follows (sv : Server P T K) (A : OnlineAlgorithm P T M) (update : Online P → B → Res (Online P)) (p0 : P) (a : Nat)
    (ht : ∀ k, sv.tEnd (sv.setTEnd p0 k) = k) (hset : ∀ k l, sv.setTEnd (sv.setTEnd p0 k) l = sv.setTEnd p0 l)
    (h0 : sv.setTEnd p0 a = p0) (hv : ∀ k : Nat, k ≤ a → sv.verify ⟨sv.setTEnd p0 k, 0⟩ = .ok ())
    (inputs : List B) (fs : List P) (hu : Spec.Updates update ⟨p0, 0⟩ inputs (fs.map fun p => ⟨p, 0⟩))
    (xs : Schedule T) (mem : Option M)
    (hrun : Spec.Run sv.tEnd A [] none (((List.range a).map fun i => ⟨sv.setTEnd p0 ((1 + i : Nat) : Int), 0⟩) ++
      fs.map fun p => ⟨p, 0⟩) xs mem)
    (hpast : ∃ c c', sv.objective p0 (xs.take a) = .ok c ∧ sv.objective p0 (sv.toI (xs.take a)) = .ok c')
    (hcost : ∀ i p, fs[i]? = some p → ∃ c c' x, sv.objective p (xs.take (a + i + 1)) = .ok c ∧
      sv.objective p (sv.toI (xs.take (a + i + 1))) = .ok c' ∧ (sv.toI (xs.take (a + i + 1))).getLast? = some x) :
    ∃ (fuel : Nat) (resp : OfflineResponse T M K) (rs : List (OnlineResponse T M K)), prepare sv A 0 fuel p0 = some (.ok (⟨p0, 0⟩, resp)) ∧
      serve sv A update ⟨⟨p0, 0⟩, resp.xs, resp.m⟩ (inputs.map some) = rs.map .ok ∧
      rs.length = inputs.length ∧ xs = resp.xs ++ rs.map (·.x) ∧ resp.xs.length = a ∧
      ∀ i r, rs[i]? = some r → ∃ p, fs[i]? = some p ∧ sv.objective p (xs.take (a + i + 1)) = .ok r.cost ∧
        sv.objective p (sv.toI (xs.take (a + i + 1))) = .ok r.intCost ∧
        (sv.toI (xs.take (a + i + 1))).getLast? = some r.intX := by
  have htE : sv.tEnd p0 = a := by
    have := ht a
    rwa [h0] at this
  obtain ⟨us, m1, r1, r2⟩ := Spec.Run.split.1 hrun
  obtain ⟨z1, e1, l1⟩ := r1.prefix
  obtain ⟨z2, e2, l2⟩ := r2.prefix
  rw [List.nil_append] at e1
  subst e1
  have lus : us.length = a := by simpa using l1
  have etake : xs.take a = us := by rw [e2, ← lus, List.take_left']; rfl
  obtain ⟨c, c', hc, hc'⟩ := hpast
  rw [etake] at hc hc'
  have hv0 : sv.verify ⟨p0, 0⟩ = .ok () := by
    have := hv a le_rfl
    rwa [h0] at this
  have hprep : ∃ fuel, prepare sv A 0 fuel p0 = some (.ok (⟨p0, 0⟩, ⟨us, c, sv.toI us, c', m1⟩)) := by
    by_cases ha : a = 0
    · have eus : us = [] := List.length_eq_zero_iff.1 (by omega)
      have em : m1 = none := by
        rw [ha] at r1
        cases r1; rfl
      subst eus em
      refine ⟨0, ?_⟩
      have t1 : ¬ (sv.tEnd p0 > 1) := by rw [htE]; omega
      have t2 : ¬ (sv.tEnd p0 - 0 ≥ 1) := by rw [htE]; omega
      simp only [prepare, if_neg t1, if_neg t2, hv0, hc, hc', bind, Except.bind]
    · obtain ⟨b, hb⟩ : ∃ b, a = b + 1 := ⟨a - 1, by omega⟩
      have hstream := streamed sv A p0 a ht hset (fun k _ => hv k) b 1 [] none us m1 (by omega) (by
        rw [← hb]
        exact r1)
      obtain ⟨fuel, hfuel⟩ := (C36_stream_exact _ _ _ _ _ _ _ _ _ _).2 ⟨_, hstream⟩
      rw [h0] at hfuel
      have t1 : (if sv.tEnd p0 > 1 then sv.setTEnd p0 1 else p0) = sv.setTEnd p0 ((1 : Nat) : Int) := by
        split_ifs with h
        · rfl
        · rw [htE] at h
          have : a = 1 := by omega
          rw [← this, h0]
      have t2 : (a : Int) ≥ 1 := by omega
      have t3 : sv.tEnd p0 - 0 = (a : Int) := by rw [htE]; omega
      have t4 : offlineStream sv.tEnd sv.setTEnd sv.verify A a fuel ⟨sv.setTEnd p0 ((1 : Nat) : Int), 0⟩ =
        some (.ok (⟨p0, 0⟩, us, m1)) := hfuel
      refine ⟨fuel, ?_⟩
      simp only [prepare, t1, t3, if_pos t2, hv 1 (by omega), t4, hc, hc', bind, Except.bind]
  obtain ⟨fuel, q1⟩ := hprep
  obtain ⟨rs, s1, s2, s3⟩ := C38_server_follows_run sv A update inputs ⟨p0, 0⟩ us m1 (fs.map fun p => ⟨p, 0⟩) xs mem [] hu r2 (by
    intro i o' ho
    rw [List.getElem?_map, Option.map_eq_some_iff] at ho
    obtain ⟨p', hp', rfl⟩ := ho
    rw [lus]
    exact hcost i p' hp')
  have lf : inputs.length = fs.length := by
    have : ∀ {o : Online P} {bs : List B} {os : List (Online P)}, Spec.Updates update o bs os → bs.length = os.length := by
      intro o bs os h
      induction h with
      | nil => rfl
      | step _ _ _ _ _ _ _ ih => simp [ih]
    simpa using this hu
  refine ⟨fuel, _, rs, q1, ?_, s1, ?_, lus, ?_⟩
  · simpa [serve] using s3
  · rw [e2]
    congr 1
    apply List.ext_getElem
    · rw [List.length_map, s1, lf]
      simpa using l2
    · intro n h1 h2
      have hn : n < rs.length := by simpa using h2
      have := (s2 n rs[n] (List.getElem?_eq_getElem hn)).x
      rw [e2, List.getElem?_append_right (by omega), Nat.add_sub_cancel_left, List.getElem?_eq_getElem h1] at this
      rw [List.getElem_map]
      exact Option.some.inj this
  · intro i r hr
    have A := s2 i r hr
    obtain ⟨o, ho, c1, c2⟩ := A.cost
    have h3 := A.intX
    rw [lus] at c1 c2 h3
    rw [List.getElem?_map, Option.map_eq_some_iff] at ho
    obtain ⟨p', hp', rfl⟩ := ho
    exact ⟨p', hp', c1, c2, h3⟩

end

end Service
end Soco
