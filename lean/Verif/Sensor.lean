/-!
# `Sensor`

Model of `/repo/brec/src/storage/observer/sensor/mod.rs`: a transition system of the file, the shared atomics, the channel and any number of threads inside
`emit` or `processed`. Every access to the file or to an atomic is one step, and the steps of all threads interleave in any order. Simplifications: atomics are
sequentially consistent, the receiver is never dropped, and the calls of the watcher made with an error (`mod.rs:54-56`) do not occur (they do nothing).
-/

namespace Brec.Sensor

/-- Where a thread is. -/
inductive Pc where
  /-- outside `emit` and `processed` -/
  | idle
  /-- at `fs::metadata(target)?` (`mod.rs:96`) -/
  | start
  /-- at `processed_len.load` (`:98`), having found this file length -/
  | sized (s : Nat)
  /-- at `locked.compare_exchange` (`:102-107`) -/
  | checked (s : Nat)
  /-- at `tx.try_send` (`:109`) -/
  | won (s : Nat)
  /-- at the `load` of `fetch_max_u64` (`:122`), called by `processed(until)` (`:83`) -/
  | ackLoad (until_ : Nat)
  /-- at the loop condition of `fetch_max_u64` (`:123`), with this `current` -/
  | ackTest (until_ current : Nat)
  /-- at `locked.store(false)` (`:85`) -/
  | ackUnlock (until_ : Nat)
  deriving DecidableEq, Repr

/-- The state. `noted` and `handling` are not in the program: the largest file length there was when the watcher called, and the number of wakes received whose
`processed` call has not yet stored `locked = false`. -/
structure St where
  size : Nat
  processed : Nat
  locked : Bool
  chan : Option Nat
  pcs : List Pc
  noted : Nat
  handling : Nat
  deriving DecidableEq, Repr

/-- `Sensor::new` (`mod.rs:37-78`) on a file of this length: an empty channel of capacity one (`:43`). -/
def St.init (size : Nat) : St := ⟨size, 0, false, none, [], 0, 0⟩

/-- A step of the thread at `x`, given as the new program counter and the other effects. -/
inductive Local : St → Pc → St → Pc → Prop where
  /-- `let size = fs::metadata(target)?.len()` -/
  | metadata (s : St) : Local s .start s (.sized s.size)
  /-- `if size <= processed_len.load(..) { return Ok(()) }` -/
  | stop (s : St) (n : Nat) (h : n ≤ s.processed) : Local s (.sized n) s .idle
  | goOn (s : St) (n : Nat) (h : s.processed < n) : Local s (.sized n) s (.checked n)
  /-- `if locked.compare_exchange(false, true, ..).is_err() { return Ok(()) }` -/
  | lost (s : St) (n : Nat) (h : s.locked = true) : Local s (.checked n) s .idle
  | win (s : St) (n : Nat) (h : s.locked = false) : Local s (.checked n) { s with locked := true } (.won n)
  /-- `tx.try_send(Wake::new(size))`, sent -/
  | send (s : St) (n : Nat) (h : s.chan = none) : Local s (.won n) { s with chan := some n } .idle
  /-- `tx.try_send(Wake::new(size))`, full -/
  | full (s : St) (n : Nat) (h : s.chan ≠ none) : Local s (.won n) s .idle
  /-- `let mut current = store.load(..)` -/
  | load (s : St) (u : Nat) : Local s (.ackLoad u) s (.ackTest u s.processed)
  /-- `while checked > current` ends -/
  | noNeed (s : St) (u c : Nat) (h : u ≤ c) : Local s (.ackTest u c) s (.ackUnlock u)
  /-- `compare_exchange_weak` succeeds -/
  | swap (s : St) (u c : Nat) (h : c < u) (hc : s.processed = c) : Local s (.ackTest u c) { s with processed := u } (.ackUnlock u)
  /-- `compare_exchange_weak` fails, possibly without reason -/
  | again (s : St) (u c : Nat) (h : c < u) : Local s (.ackTest u c) s (.ackTest u s.processed)
  /-- `self.locked.store(false, ..)`, then `emit` is called -/
  | unlock (s : St) (u : Nat) : Local s (.ackUnlock u) { s with locked := false, handling := s.handling - 1 } .start

/-- In `processed`, before the lock is given up. -/
def isAck : Pc → Bool
  | .ackLoad _ => true
  | .ackTest _ _ => true
  | .ackUnlock _ => true
  | _ => false

/-- The number of threads in `processed` that have not yet unlocked. -/
def acking (pcs : List Pc) : Nat := pcs.countP isAck

/-- A step of the system. `strict` demands that `processed` is called once per wake received; `failing` lets `fs::metadata` fail. -/
inductive Step (strict failing : Bool) : St → St → Prop where
  /-- somebody appends to the file -/
  | grow (s : St) (n : Nat) (h : s.size ≤ n) : Step strict failing s { s with size := n }
  /-- the watcher calls (`mod.rs:53-64`) -/
  | notify (s : St) : Step strict failing s { s with pcs := s.pcs ++ [.start], noted := s.size }
  /-- the owner takes a wake from the channel -/
  | recv (s : St) (n : Nat) (h : s.chan = some n) : Step strict failing s { s with chan := none, handling := s.handling + 1 }
  /-- the owner calls `processed(until)` (`mod.rs:82-88`) -/
  | ack (s : St) (u : Nat) (h : strict = true → acking s.pcs < s.handling) : Step strict failing s { s with pcs := s.pcs ++ [.ackLoad u] }
  /-- a thread inside `emit` or `processed` goes on -/
  | go (s s' : St) (a b : List Pc) (x y : Pc) (hp : s.pcs = a ++ x :: b) (h : Local s x s' y) : Step strict failing s { s' with pcs := a ++ y :: b }
  /-- `fs::metadata(target)?` fails -/
  | fail (s : St) (a b : List Pc) (hf : failing = true) (hp : s.pcs = a ++ .start :: b) : Step strict failing s { s with pcs := a ++ .idle :: b }

/-- The states that can be reached, starting with a file of any length. -/
inductive Reach (strict failing : Bool) : St → Prop where
  | init (size : Nat) : Reach strict failing (.init size)
  | step {s s' : St} (h : Reach strict failing s) (hs : Step strict failing s s') : Reach strict failing s'

end Brec.Sensor
