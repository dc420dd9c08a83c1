import Verif.Spec.Wire
import Verif.Props.ProbRatio

/-! # C88: what is sent over the wire is received, and interrupted runs can be resumed -/

namespace Soco
open Spec

namespace Wire

theorem faithful_int : Faithful ℤ := by rintro a ts rest rfl; rfl
theorem faithful_nat : Faithful ℕ := by
  rintro a ts rest rfl
  show (if (0 : ℤ) ≤ (a : ℤ) then some ((a : ℤ).toNat, rest) else none) = _
  rw [if_pos (by positivity)]
  rfl
theorem faithful_bool : Faithful Bool := by rintro (_ | _) ts rest rfl <;> rfl
theorem faithful_rat : Faithful ℚ := by rintro a ts rest rfl; rfl
theorem faithful_ecost : Faithful ECost := by rintro a ts rest rfl; rfl
theorem faithful_string : Faithful String := by rintro a ts rest rfl; rfl
theorem faithful_unit : Faithful Unit := by rintro a ts rest rfl; rfl

variable {α β : Type} [Wire α] [Wire β]

theorem faithful_prod (ha : Faithful α) (hb : Faithful β) : Faithful (α × β) := by
  rintro ⟨a, b⟩ ts rest ⟨us, vs, h1, h2, rfl⟩
  show (do
    let (a, ts) ← get (us ++ vs ++ rest)
    let (b, ts) ← get ts
    some ((a, b), ts) : Option ((α × β) × List Tok)) = _
  rw [List.append_assoc, ha a us _ h1]
  show (do
    let (b, ts) ← get (vs ++ rest)
    some ((a, b), ts) : Option ((α × β) × List Tok)) = _
  rw [hb b vs _ h2]
  rfl

theorem faithful_option (ha : Faithful α) : Faithful (Option α) := by
  rintro (_ | a) ts rest h
  · subst h; rfl
  · obtain ⟨us, h, rfl⟩ := h
    show (do
      let (a, r) ← get (us ++ rest)
      some (some a, r) : Option (Option α × List Tok)) = _
    rw [ha a us _ h]
    rfl

theorem faithful_except (ha : Faithful α) (hb : Faithful β) : Faithful (Except β α) := by
  rintro (b | a) ts rest ⟨us, h, rfl⟩
  · show (do
      let (b, r) ← get (us ++ rest)
      some (.error b, r) : Option (Except β α × List Tok)) = _
    rw [hb b us _ h]
    rfl
  · show (do
      let (a, r) ← get (us ++ rest)
      some (.ok a, r) : Option (Except β α × List Tok)) = _
    rw [ha a us _ h]
    rfl

theorem getN_all (ha : Faithful α) : ∀ (as : List α) (ts rest : List Tok), EncAll as ts →
    getN as.length (ts ++ rest) = some (as, rest)
  | [], ts, rest, h => by cases h; rfl
  | a :: as, ts, rest, ⟨us, vs, h1, h2, h3⟩ => by
    subst h3
    show (do
      let (a, ts) ← get (us ++ vs ++ rest)
      let (as, ts) ← getN as.length ts
      some (a :: as, ts) : Option (List α × List Tok)) = _
    rw [List.append_assoc, ha a us _ h1]
    show (do
      let (as, ts) ← getN as.length (vs ++ rest)
      some (a :: as, ts) : Option (List α × List Tok)) = _
    rw [getN_all ha as vs rest h2]
    rfl

theorem faithful_list (ha : Faithful α) : Faithful (List α) := by
  rintro as ts rest ⟨us, h, rfl⟩
  exact getN_all ha as us rest h

/-- Structures that are sent as a tuple. -/
theorem faithful_of_iso {γ δ : Type} [Wire γ] [Wire δ] (hd : Faithful δ) (f : γ → δ) (g : δ → γ) (hg : ∀ c, g (f c) = c)
    (henc : ∀ c ts, Enc c ts → Enc (f c) ts) (hget : ∀ ts, get ts = (get ts).map fun p : δ × List Tok => (g p.1, p.2)) :
    Faithful γ := by
  intro c ts rest h
  rw [hget, hd _ _ rest (henc c ts h)]
  simp [hg]

theorem faithful_success : Faithful DCSuccess := by
  refine faithful_of_iso (δ := ECost × ECost × List (List (List ℚ)))
    (faithful_prod faithful_ecost (faithful_prod faithful_ecost (faithful_list (faithful_list (faithful_list faithful_rat)))))
    (fun s => (s.energyCost, s.revenueLoss, s.assignments)) (fun p => ⟨p.1, p.2.1, p.2.2⟩) (fun _ => rfl) (fun _ _ h => h) ?_
  intro ts
  show (do
    let ((e, r, a), ts) ← get ts
    some (⟨e, r, a⟩, ts) : Option (DCSuccess × List Tok)) = _
  cases get (α := ECost × ECost × List (List (List ℚ))) ts <;> rfl

theorem faithful_failure : Faithful DCFailure := by rintro (_ | _ | _ | _ | _) ts rest rfl <;> rfl

theorem faithful_output (ha : Faithful α) (hb : Faithful β) : Faithful (ModelOutput α β) := by
  rintro (a | b | _) ts rest h
  · obtain ⟨us, h, rfl⟩ := h
    show (do
      let (a, r) ← get (us ++ rest)
      some (.success a, r) : Option (ModelOutput α β × List Tok)) = _
    rw [ha a us _ h]
    rfl
  · obtain ⟨us, h, rfl⟩ := h
    show (do
      let (b, r) ← get (us ++ rest)
      some (.failure b, r) : Option (ModelOutput α β × List Tok)) = _
    rw [hb b us _ h]
    rfl
  · subst h; rfl

theorem faithful_cost (ha : Faithful α) (hb : Faithful β) : Faithful (Cost α β) := by
  refine faithful_of_iso (faithful_prod faithful_ecost (faithful_output ha hb))
    (fun s => (s.cost, s.output)) (fun p => ⟨p.1, p.2⟩) (fun _ => rfl) (fun _ _ h => h) ?_
  intro ts
  show (do
    let ((e, r), ts) ← get ts
    some (⟨e, r⟩, ts) : Option (Cost α β × List Tok)) = _
  cases get (α := ECost × ModelOutput α β) ts <;> rfl

theorem faithful_response {T M K : Type} [Wire T] [Wire M] [Wire K] (ht : Faithful T) (hm : Faithful M) (hk : Faithful K) :
    Faithful (OnlineResponse T M K) := by
  refine faithful_of_iso (δ := (List T × K) × (List T × K) × Option M)
    (faithful_prod (faithful_prod (faithful_list ht) hk) (faithful_prod (faithful_prod (faithful_list ht) hk) (faithful_option hm)))
    (fun r => ((r.x, r.cost), (r.intX, r.intCost), r.m)) (fun p => ⟨p.1.1, p.1.2, p.2.1.1, p.2.1.2, p.2.2⟩)
    (fun _ => rfl) (fun _ _ h => h) ?_
  intro ts
  show (do
    let (((x, c), (y, d), m), ts) ← get (α := (List T × K) × (List T × K) × Option M) ts
    some (⟨x, c, y, d, m⟩, ts) : Option (OnlineResponse T M K × List Tok)) = _
  cases get (α := (List T × K) × (List T × K) × Option M) ts <;> rfl

theorem faithful_bounds (ha : Faithful α) : Faithful (Lcp.BoundsMem α) := by
  refine faithful_of_iso (faithful_prod ha ha) (fun s => (s.lower, s.upper)) (fun p => ⟨p.1, p.2⟩) (fun _ => rfl)
    (fun _ _ h => h) ?_
  intro ts
  show (do
    let ((e, r), ts) ← get ts
    some (⟨e, r⟩, ts) : Option (Lcp.BoundsMem α × List Tok)) = _
  cases get (α := α × α) ts <;> rfl

theorem faithful_path : Faithful Path := by
  refine faithful_of_iso (δ := List (List ℤ) × ECost) (faithful_prod (faithful_list (faithful_list faithful_int)) faithful_ecost)
    (fun s => (s.xs, s.cost)) (fun p => ⟨p.1, p.2⟩) (fun _ => rfl) (fun _ _ h => h) ?_
  intro ts
  show (do
    let ((e, r), ts) ← get (α := List (List ℤ) × ECost) ts
    some (⟨e, r⟩, ts) : Option (Path × List Tok)) = _
  cases get (α := List (List ℤ) × ECost) ts <;> rfl

theorem faithful_vertex : Faithful Multi.Vertex := by
  refine faithful_of_iso (δ := (List ℤ × List ℕ) × Bool)
    (faithful_prod (faithful_prod (faithful_list faithful_int) (faithful_list faithful_nat)) faithful_bool)
    (fun v => ((v.config.config, v.config.indices), v.up)) (fun p => ⟨⟨p.1.1, p.1.2⟩, p.2⟩) (fun _ => rfl) (fun _ _ h => h) ?_
  intro ts
  show (do
    let (((c, i), u), ts) ← get (α := (List ℤ × List ℕ) × Bool) ts
    some (⟨⟨c, i⟩, u⟩, ts) : Option (Multi.Vertex × List Tok)) = _
  cases get (α := (List ℤ × List ℕ) × Bool) ts <;> rfl

section
variable {V : Type} [DecidableEq V]

theorem insert_all : ∀ (es : List (V × Path)) (m0 : Paths V), (es.map Prod.fst).Nodup → ∀ v,
    (es.foldl (fun m e => Paths.insert m e.1 e.2) m0) v =
      match es.find? (fun e => e.1 = v) with
      | some e => some e.2
      | none => m0 v
  | [], _, _, _ => rfl
  | e :: es, m0, h, v => by
    rw [List.map_cons, List.nodup_cons] at h
    rw [List.foldl_cons, insert_all es _ h.2 v]
    by_cases hv : e.1 = v
    · have : es.find? (fun e => e.1 = v) = none := by
        rw [List.find?_eq_none]
        intro x hx hxv
        exact h.1 (List.mem_map.2 ⟨x, hx, by simp at hxv; rw [hxv, hv]⟩)
      rw [this, List.find?_cons_of_pos (by simpa using hv)]
      simp [Paths.insert, hv]
    · rw [List.find?_cons_of_neg (by simpa using hv)]
      cases es.find? (fun e => e.1 = v) with
      | some e => rfl
      | none => simp only [Paths.insert, if_neg (fun h : v = e.1 => hv h.symm)]

theorem faithful_paths [Wire V] (hv : Faithful V) : Faithful (Paths V) := by
  rintro m ts rest ⟨es, nd, hes, h⟩
  show (do
    let (es, ts) ← get (α := List (V × Path)) (ts ++ rest)
    some (es.foldl (fun m e => Paths.insert m e.1 e.2) Paths.empty, ts) : Option (Paths V × List Tok)) = _
  rw [faithful_list (faithful_prod hv faithful_path) es ts rest h]
  show some (es.foldl (fun m e => Paths.insert m e.1 e.2) Paths.empty, rest) = some (m, rest)
  congr 2
  funext v
  rw [insert_all es _ nd]
  cases hf : es.find? (fun e => e.1 = v) with
  | some e =>
    have h1 := List.mem_of_find?_eq_some hf
    have h2 : e.1 = v := by simpa using List.find?_some hf
    exact ((hes v e.2).2 (by rw [← h2]; exact h1)).symm
  | none =>
    cases hm : m v with
    | none => rfl
    | some p =>
      have h1 := (hes v p).1 hm
      rw [List.find?_eq_none] at hf
      exact absurd (decide_eq_true rfl) (hf (v, p) h1)

theorem faithful_cache [Wire V] (hv : Faithful V) : Faithful (Cache V) := by
  refine faithful_of_iso (δ := ℤ × Paths V) (faithful_prod faithful_int (faithful_paths hv)) (fun s => (s.t, s.paths))
    (fun p => ⟨p.1, p.2⟩) (fun _ => rfl) (fun _ _ h => h) ?_
  intro ts
  show (do
    let ((e, r), ts) ← get (α := ℤ × Paths V) ts
    some (⟨e, r⟩, ts) : Option (Cache V × List Tok)) = _
  cases get (α := ℤ × Paths V) ts <;> rfl

end

theorem faithful_budgeting : Faithful Lb.Memory := by
  refine faithful_of_iso (δ := List ℕ × List ℤ × ℚ × Option (Cache Multi.Vertex))
    (faithful_prod (faithful_list faithful_nat) (faithful_prod (faithful_list faithful_int)
      (faithful_prod faithful_rat (faithful_option (faithful_cache faithful_vertex)))))
    (fun m => (m.lanes, m.horizons, m.gamma, m.cache)) (fun p => ⟨p.1, p.2.1, p.2.2.1, p.2.2.2⟩) (fun _ => rfl) (fun _ _ h => h) ?_
  intro ts
  show (do
    let ((l, h, g, c), ts) ← get (α := List ℕ × List ℤ × ℚ × Option (Cache Multi.Vertex)) ts
    some (⟨l, h, g, c⟩, ts) : Option (Lb.Memory × List Tok)) = _
  cases get (α := List ℕ × List ℤ × ℚ × Option (Cache Multi.Vertex)) ts <;> rfl

theorem faithful_inner : Faithful Bb.AlgBMemory := by
  refine faithful_of_iso (δ := List (List ℤ) × Option (Cache Multi.Vertex))
    (faithful_prod (faithful_list (faithful_list faithful_int)) (faithful_option (faithful_cache faithful_vertex)))
    (fun m => (m.initTimes, m.cache)) (fun p => ⟨p.1, p.2⟩) (fun _ => rfl) (fun _ _ h => h) ?_
  intro ts
  show (do
    let ((l, h), ts) ← get (α := List (List ℤ) × Option (Cache Multi.Vertex)) ts
    some (⟨l, h⟩, ts) : Option (Bb.AlgBMemory × List Tok)) = _
  cases get (α := List (List ℤ) × Option (Cache Multi.Vertex)) ts <;> rfl

theorem faithful_rounding {M : Type} [Wire M] (hm : Faithful M) : Faithful (Rand.Memory M) := by
  refine faithful_of_iso (δ := List ℚ × Option M) (faithful_prod (faithful_list faithful_rat) (faithful_option hm))
    (fun m => (m.y, m.relaxation)) (fun p => ⟨p.1, p.2⟩) (fun _ => rfl) (fun _ _ h => h) ?_
  intro ts
  show (do
    let ((l, h), ts) ← get (α := List ℚ × Option M) ts
    some (⟨l, h⟩, ts) : Option (Rand.Memory M × List Tok)) = _
  cases get (α := List ℚ × Option M) ts <;> rfl

end Wire

open Wire

/-- **C88, requests and memories.** Predicted loads, and the memories of lazy capacity provisioning, averaging fixed horizon control,
randomly biased greedy, lazy budgeting for load optimisation (with its hash map of paths, whatever the order of the entries), and of
randomised rounding over a relaxation whose memory survives, are received as they were sent. -/
theorem C88_memories : Faithful (List (List (List ℚ))) ∧ Faithful (List (Lcp.BoundsMem ℤ)) ∧ Faithful (List (Lcp.BoundsMem ℚ)) ∧
    Faithful (List (Config ℚ)) ∧ Faithful ℚ ∧ Faithful Lb.Memory ∧
    (∀ (M : Type) [Wire M], Faithful M → Faithful (Rand.Memory M)) :=
  ⟨faithful_list (faithful_list (faithful_list faithful_rat)), faithful_list (faithful_bounds faithful_int),
    faithful_list (faithful_bounds faithful_rat), faithful_list (faithful_list faithful_rat), faithful_rat, faithful_budgeting,
    fun _ _ h => faithful_rounding h⟩

/-- **C88, responses.** With a memory that survives, a response (or the message of a panic) is received as it was sent: decision,
cost, output of the model, integral decision, its cost and output, and memory. -/
theorem C88_responses (M : Type) [Wire M] (hm : Faithful M) :
    Faithful (Except String (OnlineResponse ℤ M (Cost DCSuccess DCFailure))) ∧
    Faithful (Except String (OnlineResponse ℚ M (Cost DCSuccess DCFailure))) :=
  ⟨faithful_except (faithful_response faithful_int hm (faithful_cost faithful_success faithful_failure)) faithful_string,
    faithful_except (faithful_response faithful_rat hm (faithful_cost faithful_success faithful_failure)) faithful_string⟩

theorem receive_of {α : Type} [Wire α] (h : Faithful α) {a : α} {ts : List Tok} (he : Enc a ts) : receive ts = some a := by
  have := h a ts [] he
  rw [List.append_nil] at this
  simp [receive, this]

/-- **C88, sessions.** A client that sends its inputs one after another, and then the empty message, receives for every input exactly
what the service answered, or the text of the panic that ended it: what follows the empty message is not answered. -/
theorem C88_session {P T M K B : Type} [Value T] [Wire T] [Wire M] [Wire K] [Wire B] (S : Server P T K) (A : OnlineAlgorithm P T M)
    (update : Online P → List B → Res (Online P)) (message : Fault → String) (hb : Faithful B)
    (hr : Faithful (Except String (OnlineResponse T M K))) (s : ServerState P T M) (inputs : List (List B))
    (requests more answers : List (List Tok)) (sent : List.Forall₂ Enc inputs requests)
    (h : Serves S A update message s (requests ++ [] :: more) answers) :
    answers.map receive = (serve S A update s (inputs.map some)).map fun r => some (match r with
      | .ok v => (Except.ok v : Except String _)
      | .error e => Except.error (message e)) := by
  have h1 : requests.map receive = inputs.map some := by
    clear h
    induction sent with
    | nil => rfl
    | cons h _ ih => rw [List.map_cons, List.map_cons, ih, receive_of (faithful_list hb) h]
  have h2 : ∀ (l : List (Option (List B))) (r : List (Option (List B))) (s : ServerState P T M),
      serve S A update s (l ++ none :: r) = serve S A update s l := by
    intro l
    induction l with
    | nil => intros; rfl
    | cons x l ih =>
      intro r s
      cases x with
      | none => rfl
      | some i =>
        simp only [List.cons_append, serve]
        cases handle S A update s i with
        | error e => rfl
        | ok q => simp only [ih]
  unfold Serves at h
  rw [List.map_append, List.map_cons, h1] at h
  have h3 : (receive [] : Option (List B)) = none := rfl
  rw [h3, h2] at h
  generalize serve S A update s (inputs.map some) = rs at h
  induction h with
  | nil => rfl
  | @cons r _ _ _ h _ ih =>
    rw [List.map_cons, List.map_cons, ih, receive_of hr h]
    cases r <;> rfl

/-- **C88, crashes.** A run that is interrupted before any of the slots and goes on with the received schedule and memory, any
number of times, is a run without interruption, if the memory survives the wire. -/
theorem C88_resume {P T M : Type} [Wire T] [Wire M] (hT : Faithful T) (hM : Faithful M) (tEnd : P → Int)
    (A : OnlineAlgorithm P T M) (xs : Schedule T) (m : Option M) (os : List (Online P)) (ys : Schedule T) (k : Option M)
    (h : Interrupted tEnd A xs m os ys k) : Run tEnd A xs m os ys k := by
  induction h with
  | nil xs m => exact .nil xs m
  | step xs m o os x m' ys k slot decide _ ih => exact .step xs m o os x m' ys k slot decide ih
  | restart xs xs' m m' os ys k ts us sent received sentM receivedM _ ih =>
    rw [receive_of (faithful_list (faithful_list hT)) sent] at received
    rw [receive_of (faithful_option hM) sentM] at receivedM
    cases received
    cases receivedM
    exact ih

/-- **C88 is false of lazy budgeting for balanced load.** The cost functions of the modified problem are not sent; every call with a
received memory fails in a problem with at least one dimension. -/
theorem C88_balanced_counterexample (S : Num.Solver) (epsilon : ℚ) (m m' : Bb.Memory) (ts : List Tok) (_sent : Enc m ts)
    (received : receive ts = some m') (o : Online (SBLO ℤ)) (hd : 1 ≤ o.p.d) (t : Int) (xs : Schedule ℤ) :
    ∃ e, (Bb.alg S epsilon).call o t xs m' = .error e := by
  have hm : m'.hittingCost = [] := by
    unfold receive at received
    have hg : get (α := Bb.Memory) ts = (do
      let ((l, m), ts) ← get (α := List ℤ × (List (List ℤ) × Option Bb.AlgBMemory)) ts
      some (⟨l, [], m⟩, ts)) := rfl
    rw [hg] at received
    cases hx : get (α := List ℤ × (List (List ℤ) × Option Bb.AlgBMemory)) ts with
    | none => rw [hx] at received; cases received
    | some q => rw [hx] at received; cases received; rfl
  show ∃ e, Bb.lb S epsilon o t xs m' = .error e
  unfold Bb.lb
  cases assertR (decide (o.w = 0)) (.unsupportedPredictionWindow o.w) with
  | error e => exact ⟨e, rfl⟩
  | ok _ =>
    cases hn : Bb.determineSubTimeSlots o.p t epsilon with
    | error e => exact ⟨e, by simp only [bind, Except.bind]⟩
    | ok n =>
      have : ∃ e, Bb.modifyProblem o.p m'.load m'.hittingCost t n ((m'.load.length : Int) + 1)
          ((m'.load.length : Int) + 1 + n - 1) = .error e := by
        unfold Bb.modifyProblem
        cases assertP (decide ((m'.load.length : Int) + 1 + n - 1 - ((m'.load.length : Int) + 1) + 1 = n)) with
        | error e => exact ⟨e, rfl⟩
        | ok _ =>
          obtain ⟨d, hd'⟩ : ∃ d : ℕ, o.p.d.toNat = d + 1 := ⟨o.p.d.toNat - 1, by omega⟩
          rw [hd', List.range_succ_eq_map, List.mapM_cons, hm]
          cases idx o.p.hittingCost 0 with
          | error e => exact ⟨e, rfl⟩
          | ok _ => exact ⟨_, rfl⟩
      obtain ⟨e, he⟩ := this
      exact ⟨e, by simp only [bind, Except.bind, he]⟩

namespace Wire

theorem sendable_list {α : Type} [Wire α] (h : Sendable α) : Sendable (List α) := by
  intro as
  obtain ⟨us, hu⟩ : ∃ us, EncAll as us := by
    induction as with
    | nil => exact ⟨[], rfl⟩
    | cons a as ih =>
      obtain ⟨us, h1⟩ := h a
      obtain ⟨vs, h2⟩ := ih
      exact ⟨us ++ vs, us, vs, h1, h2, rfl⟩
  exact ⟨_, us, hu, rfl⟩

theorem sendable_rat : Sendable ℚ := fun a => ⟨[.float ((a : ℚ) : ECost)], rfl⟩
theorem sendable_int : Sendable ℤ := fun a => ⟨[.int a], rfl⟩
theorem sendable_nat : Sendable ℕ := fun a => ⟨[.int a], rfl⟩

theorem sendable_prod {α β : Type} [Wire α] [Wire β] (ha : Sendable α) (hb : Sendable β) : Sendable (α × β) := by
  rintro ⟨a, b⟩
  obtain ⟨us, h1⟩ := ha a
  obtain ⟨vs, h2⟩ := hb b
  exact ⟨us ++ vs, us, vs, h1, h2, rfl⟩

theorem sendable_option {α : Type} [Wire α] (ha : Sendable α) : Sendable (Option α) := by
  rintro (_ | a)
  · exact ⟨_, rfl⟩
  · obtain ⟨us, h⟩ := ha a
    exact ⟨_, us, h, rfl⟩

theorem sendable_vertex : Sendable Multi.Vertex := by
  intro v
  exact sendable_prod (sendable_prod (sendable_list sendable_int) (sendable_list sendable_nat))
    (fun _ : Bool => ⟨_, rfl⟩) ((v.config.config, v.config.indices), v.up)

theorem sendable_path : Sendable Path := fun p =>
  sendable_prod (sendable_list (sendable_list sendable_int)) (fun _ : ECost => ⟨_, rfl⟩) (p.xs, p.cost)

/-- A map with finitely many entries can be sent. -/
theorem sendable_paths {V : Type} [DecidableEq V] [Wire V] (hv : Sendable V) (m : Paths V)
    (hm : ∃ vs : List V, ∀ v, m v ≠ none → v ∈ vs) : ∃ ts, Enc m ts := by
  obtain ⟨vs, hvs⟩ := hm
  obtain ⟨es, he⟩ : ∃ es : List (V × Path), es = vs.dedup.filterMap fun v => (m v).map fun p => (v, p) := ⟨_, rfl⟩
  obtain ⟨ts, ht⟩ := sendable_list (sendable_prod hv sendable_path) es
  refine ⟨ts, es, ?_, ?_, ht⟩
  · have : es.map Prod.fst = vs.dedup.filter fun v => (m v).isSome := by
      rw [he]
      generalize vs.dedup = l
      clear he hvs
      induction l with
      | nil => rfl
      | cons a l ih =>
        cases h : m a with
        | none =>
          rw [List.filterMap_cons_none (by simp [h]), List.filter_cons_of_neg (by simp [h])]
          exact ih
        | some p =>
          rw [List.filterMap_cons_some (b := (a, p)) (by simp [h]), List.filter_cons_of_pos (by simp [h]), List.map_cons, ih]
    rw [this]
    exact (List.nodup_dedup vs).filter _
  · intro v p
    rw [he, List.mem_filterMap]
    constructor
    · intro h
      exact ⟨v, List.mem_dedup.2 (hvs v (by simp [h])), by simp [h]⟩
    · rintro ⟨w, _, hw⟩
      cases h : m w with
      | none => simp [h] at hw
      | some q =>
        rw [h] at hw
        cases hw
        exact h

end Wire

/-- Every memory of lazy capacity provisioning can be sent, and every memory of lazy budgeting whose map of paths has finitely
many entries; so the theorems above are about messages that exist. -/
theorem C88_sendable : Sendable (List (Lcp.BoundsMem ℤ)) ∧ Sendable (List (Lcp.BoundsMem ℚ)) ∧
    ∀ m : Lb.Memory, (∀ c ∈ m.cache, ∃ vs : List Multi.Vertex, ∀ v, c.paths v ≠ none → v ∈ vs) → ∃ ts, Enc m ts := by
  refine ⟨sendable_list fun m => sendable_prod sendable_int sendable_int (m.lower, m.upper),
    sendable_list fun m => sendable_prod sendable_rat sendable_rat (m.lower, m.upper), fun m h => ?_⟩
  obtain ⟨a, ha⟩ := sendable_list sendable_nat m.lanes
  obtain ⟨b, hb⟩ := sendable_list sendable_int m.horizons
  obtain ⟨c, hc⟩ : ∃ ts, Enc m.cache ts := by
    cases hm : m.cache with
    | none => exact ⟨_, rfl⟩
    | some c =>
      obtain ⟨ts, ht⟩ := sendable_paths sendable_vertex c.paths (h c (by rw [hm]; rfl))
      exact ⟨_, _, ⟨_, ts, rfl, ht, rfl⟩, rfl⟩
  exact ⟨_, a, _, ha, ⟨b, _, hb, ⟨_, c, rfl, hc, rfl⟩, rfl⟩, rfl⟩

section Probabilistic
open Probabilistic Num Descent

theorem received_dummy {m m' : Probabilistic.Memory} {ts : List Tok} (_ : Enc m ts) (h : receive ts = some m') :
    m'.p = fun _ => .error .panic := by
  unfold receive at h
  have hg : get (α := Probabilistic.Memory) ts = (do
    let (bs, ts) ← get (α := List ℚ) ts
    some (⟨fun _ => .error .panic, bs⟩, ts)) := rfl
  rw [hg] at h
  cases hx : get (α := List ℚ) ts with
  | none => rw [hx] at h; cases h
  | some q => rw [hx] at h; cases h; rfl

/-- Integrating a function that panics everywhere panics. -/
def Probabilistic.Tools.Evaluates (T : Tools) : Prop := ∀ bp a, (∃ e, T.integrate bp (.of a) ⊤ (fun _ => .error .panic) = .error e) ∧
  ∃ e, T.integrate bp ⊥ (.of a) (fun _ => .error .panic) = .error e

theorem gaps_fail {C D : Type} [OutSuccess C] [OutFailure D] {T : Tools} (hT : T.Evaluates) (p : SSCO ℚ C D) (t : Int)
    (bp : Breakpoints) (x : ℚ) : (∃ e, rightGap T p t bp (fun _ => .error .panic) x = .error e) ∧
      ∃ e, leftGap T p t bp (fun _ => .error .panic) x = .error e := by
  obtain ⟨⟨e1, h1⟩, ⟨e2, h2⟩⟩ := hT bp x
  constructor
  · unfold rightGap
    cases derivative T (cost p t) x with
    | error e => exact ⟨e, rfl⟩
    | ok _ =>
      cases idx p.switchingCost 0 with
      | error e => exact ⟨e, rfl⟩
      | ok _ => exact ⟨e1, by simp only [bind, Except.bind, h1]⟩
  · unfold leftGap
    cases idx p.switchingCost 0 with
    | error e => exact ⟨e, rfl⟩
    | ok _ => exact ⟨e2, by simp only [bind, Except.bind, h2]⟩

/-- **C88 is false of the probabilistic algorithm.** The density is not sent; every call with a received memory fails if the upper
bound is at least 0.02 (twice the precision). -/
theorem C88_probabilistic_counterexample {C D : Type} [OutSuccess C] [OutFailure D] (S : Solver) (B : Brent) (T : Tools)
    (hT : T.Evaluates) (options : Breakpoints) (m m' : Probabilistic.Memory) (ts : List Tok) (sent : Enc m ts)
    (received : receive ts = some m') (o : Online (SSCO ℚ C D)) (u : ℚ) (us : List ℚ) (hb : o.p.bounds = u :: us)
    (hu : 1 / 50 ≤ u) (t : Int) (xs : Schedule ℚ) :
    ∃ e, (probabilistic S B T options).call o t xs m' = .error e := by
  have hm := received_dummy sent received
  have root : ∀ (a b : ℚ) (f : ℚ → Res Slack), (∃ e, f a = .error e) → (findRoot B a b f = .ok a ∧ |a - b| < precision) ∨
      ∃ e, findRoot B a b f = .error e := by
    rintro a b f ⟨e, he⟩
    unfold findRoot
    by_cases h : |a - b| < precision
    · rw [if_pos h]; exact .inl ⟨rfl, h⟩
    · rw [if_neg h]; exact .inr ⟨e, by simp only [bind, Except.bind, he]⟩
  simp only [probabilistic]
  cases assertR (decide (o.w = 0)) (.unsupportedPredictionWindow o.w) with
  | error e => exact ⟨e, rfl⟩
  | ok _ =>
  cases assertR (decide (o.p.d = 1)) (.unsupportedProblemDimension o.p.d) with
  | error e => exact ⟨e, rfl⟩
  | ok _ =>
  simp only [hb, idx, List.getElem?_cons_zero, bind, Except.bind, hm]
  cases hittingMinimizer S t o.p.hittingCost [(0, u)] with
  | error e => exact ⟨e, rfl⟩
  | ok r =>
  simp only
  cases r.1[0]? with
  | none => exact ⟨_, rfl⟩
  | some xm =>
  simp only
  rcases root xm u _ (gaps_fail hT o.p t (options.add m'.breakpoints) xm).1 with ⟨h1, h2⟩ | ⟨e, h⟩
  · rcases root 0 xm _ (gaps_fail hT o.p t (options.add m'.breakpoints) 0).2 with ⟨h3, h4⟩ | ⟨e, h⟩
    · exfalso
      rw [abs_lt] at h2 h4
      norm_num [precision] at h2 h4
      linarith
    · exact ⟨e, by simp only [h1, h]⟩
  · exact ⟨e, by simp only [h]⟩

/-- With exact routines the probabilistic algorithm runs over every number of slots of the instance of C83, but no run that is
interrupted before its last slot is left to finish: the interrupted run has no next step. -/
theorem C88_probabilistic_stuck (S : Solver) (hS : Exact S) (B : Brent) (T : Tools) (hT : ExactOnSlope T) (hE : T.Evaluates)
    (options : Breakpoints) (n : Nat) :
    (∃ m, Run (fun p : SSCO ℚ Unit Unit => p.tEnd) (probabilistic S B T options) [] none (slopeHistory (n + 1))
      (List.replicate (n + 1) [1 / 200000]) m) ∧
    ∀ (xs : Schedule ℚ) (m m' : Probabilistic.Memory) (ts : List Tok), Enc m ts → receive ts = some m' →
      ∀ o ∈ slopeHistory (n + 1), ∀ ys k, ¬ Run (fun p : SSCO ℚ Unit Unit => p.tEnd) (probabilistic S B T options) xs (some m') [o] ys k := by
  refine ⟨(C83_ratio_counterexample S hS B T hT options n).1, fun xs m m' ts sent received o ho ys k hrun => ?_⟩
  obtain ⟨i, _, rfl⟩ := List.mem_map.1 ho
  cases hrun with
  | step _ _ _ _ x m'' _ _ slot decide rest =>
    obtain ⟨e, he⟩ := C88_probabilistic_counterexample S B T hE options m m' ts sent received
      (⟨slope (i + 1), 0⟩ : Online (SSCO ℚ Unit Unit)) 1 [] rfl (by norm_num) ((xs.length : Int) + 1) xs
    rw [Option.getD_some, he] at decide
    cases decide

end Probabilistic

/-! ### Concrete cases -/

/-- A memory of lazy budgeting with two paths, sent in either order. -/
def wireMemory : Lb.Memory where
  lanes := [1, 0]
  horizons := [4, -1]
  gamma := 1 / 3
  cache := some ⟨2, ((Paths.empty.insert ⟨⟨[0], [0]⟩, true⟩ ⟨[[0]], 0⟩).insert ⟨⟨[1], [1]⟩, false⟩ ⟨[[1]], ⊤⟩)⟩

example : ∃ ts, Enc wireMemory ts := by
  refine C88_sendable.2.2 wireMemory fun c hc => ?_
  cases hc
  refine ⟨[⟨⟨[0], [0]⟩, true⟩, ⟨⟨[1], [1]⟩, false⟩], fun v hv => ?_⟩
  by_cases h1 : v = ⟨⟨[1], [1]⟩, false⟩
  · simp [h1]
  · by_cases h0 : v = ⟨⟨[0], [0]⟩, true⟩
    · simp [h0]
    · simp [Paths.insert, Paths.empty, h0, h1] at hv

/-- A request for a slot with one sample of load 3. -/
example : receive (α := List PredictedLoadProfile) [.len 1, .len 1, .len 1, .float ((3 : ℚ) : ECost)] = some [[[3]]] := rfl

/-- Truncated messages end the service. -/
example : receive (α := List PredictedLoadProfile) [.len 1, .len 1, .len 1] = none := rfl

/-- A run over two slots that is interrupted between them. -/
example : ∃ k, Interrupted (T := ℤ) (M := ℤ) id ⟨fun _ => 0, fun _ t _ m => .ok ([m + t], some (m + t))⟩ [] none
    [⟨1, 0⟩, ⟨2, 0⟩] [[1], [3]] k :=
  ⟨some 3, .step _ _ _ _ [1] (some 1) _ _ rfl rfl (.restart _ [[1]] _ (some 1) _ _ _ [.len 1, .len 1, .int 1] [.tag 1, .int 1]
    ⟨_, ⟨_, [], ⟨_, ⟨_, [], rfl, rfl, rfl⟩, rfl⟩, rfl, rfl⟩, rfl⟩ rfl ⟨_, rfl, rfl⟩ rfl
    (.step _ _ _ _ [3] (some 3) _ _ rfl rfl (.nil _ _)))⟩

/-- An instance to which the failure of reloaded memories of lazy budgeting for balanced load applies, with the memory before
the first slot. -/
example (S : Num.Solver) : ∃ e, (Bb.alg S 1).call ⟨⟨1, 1, [2], [1], [], [1]⟩, 0⟩ 1 [] ⟨[], [], ([], none)⟩ = .error e :=
  C88_balanced_counterexample S 1 ⟨[], [CostFn.empty], ([], none)⟩ _ [.len 0, .len 0, .tag 0]
    ⟨[.len 0], _, ⟨[], rfl, rfl⟩, ⟨[.len 0], [.tag 0], ⟨[], rfl, rfl⟩, rfl, rfl⟩, rfl⟩ rfl _ (by norm_num) _ _

end Soco
