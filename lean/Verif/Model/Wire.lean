import Verif.Model.BalancedBudgeting
import Verif.Model.Lcp
import Verif.Model.Probabilistic
import Verif.Model.Rand

/-!
# What is sent over the wire

Models the derived and hand-written implementations of `Serialize` and `Deserialize` for the inputs, responses and memories
that the online server of `implementation/src/streaming/online.rs` exchanges with its clients by `bincode`.

Simplifications: a message is a list of the primitive values `bincode` writes one after the other (lengths of vectors and maps,
numbers, tags of enums, strings), not of their bytes. Integers are unbounded and numbers rational or infinite. Structures are
written field by field without names. The serialisation is a relation because the order of the entries of a hash map is not
specified.
-/

namespace Soco

/-- A primitive value of a message. -/
inductive Tok where
  | len (n : Nat)
  | int (i : Int)
  | float (q : ECost)
  | tag (n : Nat)
  | text (s : String)
deriving DecidableEq

/-- `Serialize` (`Enc a ts`: `ts` is a serialisation of `a`) and `Deserialize` (`get ts`: the value at the beginning of `ts`
and what follows). -/
class Wire (α : Type) where
  Enc : α → List Tok → Prop
  get : List Tok → Option (α × List Tok)

namespace Wire

/-- `i32`. -/
instance : Wire ℤ where
  Enc i ts := ts = [.int i]
  get | .int i :: r => some (i, r)
      | _ => none

/-- `usize`. -/
instance : Wire ℕ where
  Enc n ts := ts = [.int n]
  get | .int i :: r => if 0 ≤ i then some (i.toNat, r) else none
      | _ => none

/-- `bool`, one byte. -/
instance : Wire Bool where
  Enc b ts := ts = [.tag (if b then 1 else 0)]
  get | .tag 0 :: r => some (false, r)
      | .tag 1 :: r => some (true, r)
      | _ => none

/-- `f64` where it is finite. -/
instance : Wire ℚ where
  Enc q ts := ts = [.float ((q : ℚ) : ECost)]
  get | .float (some q) :: r => some (q, r)
      | _ => none

/-- `f64` where it may be infinite. -/
instance : Wire ECost where
  Enc q ts := ts = [.float q]
  get | .float q :: r => some (q, r)
      | _ => none

instance : Wire String where
  Enc s ts := ts = [.text s]
  get | .text s :: r => some (s, r)
      | _ => none

/-- `()` takes no space. -/
instance : Wire Unit where
  Enc _ ts := ts = []
  get ts := some ((), ts)

variable {α β : Type} [Wire α] [Wire β]

/-- Fields are written one after the other. -/
instance : Wire (α × β) where
  Enc p ts := ∃ us vs, Enc p.1 us ∧ Enc p.2 vs ∧ ts = us ++ vs
  get ts := do
    let (a, ts) ← get ts
    let (b, ts) ← get ts
    some ((a, b), ts)

/-- `Option`. -/
instance : Wire (Option α) where
  Enc
    | none, ts => ts = [.tag 0]
    | some a, ts => ∃ us, Enc a us ∧ ts = .tag 1 :: us
  get | .tag 0 :: r => some (none, r)
      | .tag 1 :: r => do
        let (a, r) ← get r
        some (some a, r)
      | _ => none

/-- `Result`. -/
instance : Wire (Except β α) where
  Enc
    | .ok a, ts => ∃ us, Enc a us ∧ ts = .tag 0 :: us
    | .error b, ts => ∃ us, Enc b us ∧ ts = .tag 1 :: us
  get | .tag 0 :: r => do
        let (a, r) ← get r
        some (.ok a, r)
      | .tag 1 :: r => do
        let (b, r) ← get r
        some (.error b, r)
      | _ => none

/-- The elements of a vector, one after the other. -/
def EncAll : List α → List Tok → Prop
  | [], ts => ts = []
  | a :: as, ts => ∃ us vs, Enc a us ∧ EncAll as vs ∧ ts = us ++ vs

/-- Reads `n` elements. -/
def getN : Nat → List Tok → Option (List α × List Tok)
  | 0, ts => some ([], ts)
  | n + 1, ts => do
    let (a, ts) ← get ts
    let (as, ts) ← getN n ts
    some (a :: as, ts)

/-- `Vec`: length and elements. Configurations (`config.rs:21-22`), schedules (`schedule.rs:17-18`) and load profiles
(`model/data_center/loads.rs:94-107, 272-285`) are vectors. -/
instance : Wire (List α) where
  Enc as ts := ∃ us, EncAll as us ∧ ts = .len as.length :: us
  get | .len n :: r => getN n r
      | _ => none

/-- `model/data_center/mod.rs:17-28` `DataCenterModelOutputSuccess`. -/
instance : Wire DCSuccess where
  Enc s := Enc (s.energyCost, s.revenueLoss, s.assignments)
  get ts := do
    let ((e, r, a), ts) ← get ts
    some (⟨e, r, a⟩, ts)

/-- `model/data_center/mod.rs:67-83` `DataCenterModelOutputFailure`; the details of an infinite delay are left out, as in the
model. -/
instance : Wire DCFailure where
  Enc f ts := ts = [.tag (match f with
    | .demandExceedingSupply => 0
    | .infiniteDelay => 1
    | .loadToInactiveServer => 2
    | .outsideDecisionSpace => 3
    | .sloMaxUtilizationExceeded => 4)]
  get | .tag 0 :: r => some (.demandExceedingSupply, r)
      | .tag 1 :: r => some (.infiniteDelay, r)
      | .tag 2 :: r => some (.loadToInactiveServer, r)
      | .tag 3 :: r => some (.outsideDecisionSpace, r)
      | .tag 4 :: r => some (.sloMaxUtilizationExceeded, r)
      | _ => none

/-- `model/mod.rs:48-53` `ModelOutput`. -/
instance : Wire (ModelOutput α β) where
  Enc
    | .success a, ts => ∃ us, Enc a us ∧ ts = .tag 0 :: us
    | .failure b, ts => ∃ us, Enc b us ∧ ts = .tag 1 :: us
    | .none, ts => ts = [.tag 2]
  get | .tag 0 :: r => do
        let (a, r) ← get r
        some (.success a, r)
      | .tag 1 :: r => do
        let (b, r) ← get r
        some (.failure b, r)
      | .tag 2 :: r => some (.none, r)
      | _ => none

/-- `cost.rs:52-54` `to_raw`, `cost.rs:84-109`: cost and output. -/
instance : Wire (Cost α β) where
  Enc c := Enc (c.cost, c.output)
  get ts := do
    let ((c, o), ts) ← get ts
    some (⟨c, o⟩, ts)

/-- `streaming/online.rs:42-50` `OnlineResponse` in the good case, without the runtime; the integral configuration is written
as the numbers it consists of. -/
instance {T M K : Type} [Wire T] [Wire M] [Wire K] : Wire (OnlineResponse T M K) where
  Enc r := Enc ((r.x, r.cost), (r.intX, r.intCost), r.m)
  get ts := do
    let (((x, c), (y, d), m), ts) ← get ts
    some (⟨x, c, y, d, m⟩, ts)

/-! ### Memories -/

/-- `capacity_provisioning.rs:21-25` `BoundsMemory`; the memory of lazy capacity provisioning
(`lazy_capacity_provisioning.rs:15-19`) is a vector of them. -/
instance : Wire (Lcp.BoundsMem α) where
  Enc b := Enc (b.lower, b.upper)
  get ts := do
    let ((l, u), ts) ← get ts
    some (⟨l, u⟩, ts)

/-- `offline/graph_search.rs:20-27` `Path`. -/
instance : Wire Path where
  Enc p := Enc (p.xs, p.cost)
  get ts := do
    let ((xs, c), ts) ← get ts
    some (⟨xs, c⟩, ts)

/-- `multi_dimensional/graph_search.rs:20-34` `Vertice` and `InternalConfig`. -/
instance : Wire Multi.Vertex where
  Enc v := Enc ((v.config.config, v.config.indices), v.up)
  get ts := do
    let (((c, i), u), ts) ← get ts
    some (⟨⟨c, i⟩, u⟩, ts)

/-- A hash map is written as the number of its entries and the entries, in any order, each key once. It is read by inserting the
entries into an empty map. -/
instance [DecidableEq α] : Wire (Paths α) where
  Enc m ts := ∃ es : List (α × Path), (es.map Prod.fst).Nodup ∧ (∀ v p, m v = some p ↔ (v, p) ∈ es) ∧ Enc es ts
  get ts := do
    let (es, ts) ← get (α := List (α × Path)) ts
    some (es.foldl (fun m e => Paths.insert m e.1 e.2) Paths.empty, ts)

/-- `offline/graph_search.rs:34-44` `Cache`. -/
instance [DecidableEq α] : Wire (Cache α) where
  Enc c := Enc (c.t, c.paths)
  get ts := do
    let ((t, ps), ts) ← get ts
    some (⟨t, ps⟩, ts)

/-- `smoothed_load_optimization.rs:25-35` `Memory` of lazy budgeting; lanes and horizons are `i32`. -/
instance : Wire Lb.Memory where
  Enc m := Enc (m.lanes, m.horizons, m.gamma, m.cache)
  get ts := do
    let ((l, h, g, c), ts) ← get ts
    some (⟨l, h, g, c⟩, ts)

/-- `smoothed_balanced_load_optimization.rs:248-254` `AlgBMemory`. -/
instance : Wire Bb.AlgBMemory where
  Enc m := Enc (m.initTimes, m.cache)
  get ts := do
    let ((i, c), ts) ← get ts
    some (⟨i, c⟩, ts)

/-- `smoothed_balanced_load_optimization.rs:26-42` `Memory`: the cost functions are skipped and read as an empty vector. -/
instance : Wire Bb.Memory where
  Enc m := Enc (m.load, m.modM)
  get ts := do
    let ((l, m), ts) ← get ts
    some (⟨l, [], m⟩, ts)

/-- `probabilistic.rs:23-37` `Memory`: the distribution is skipped and read as a function that panics. -/
instance : Wire Probabilistic.Memory where
  Enc m := Enc m.breakpoints
  get ts := do
    let (bs, ts) ← get ts
    some (⟨fun _ => .error .panic, bs⟩, ts)

/-- `randomized.rs:33-40` `Memory`. -/
instance {M : Type} [Wire M] : Wire (Rand.Memory M) where
  Enc m := Enc (m.y, m.relaxation)
  get ts := do
    let ((y, r), ts) ← get ts
    some (⟨y, r⟩, ts)

end Wire

/-! ### Client and server -/

/-- `bincode::deserialize_from`: what follows the value is not read. -/
def receive {α : Type} [Wire α] (ts : List Tok) : Option α := (Wire.get ts).map Prod.fst

section
variable {P T M : Type} [Value T]

/-- The message for an outcome, `streaming/online.rs:211-217, 230-236`; `message` is the text of a panic. -/
def outcome {K : Type} (message : Fault → String) : Res (OnlineResponse T M K) → Except String (OnlineResponse T M K)
  | .ok r => .ok r
  | .error e => .error (message e)

/-- `streaming/online.rs:143-248` `run` with messages: the answers to the messages of successive connections. -/
def Serves {K B : Type} [Wire B] [Wire T] [Wire M] [Wire K] (S : Server P T K) (A : OnlineAlgorithm P T M)
    (update : Online P → B → Res (Online P)) (message : Fault → String) (s : ServerState P T M)
    (requests answers : List (List Tok)) : Prop :=
  List.Forall₂ (fun r ts => Wire.Enc (outcome message r) ts) (serve S A update s (requests.map receive)) answers

end

end Soco
