/-!
# The lock of `FileWriterDef`

Model of `/repo/brec/src/storage/writer/locker.rs`: the name of the lock file, the loop that waits for the lock, and a system of any number of writers.
Assumed of the operating system: `try_lock_exclusive` succeeds exactly if no other open file holds a lock on the same lock file, and the lock is
given up when the file is closed.
-/

namespace Brec.Lock

/-- The part of a file name before its last dot, the whole name if there is no dot or only one at the beginning (`Path::file_stem`). -/
def stem (name : List Char) : List Char :=
  match name.reverse.dropWhile (· ≠ '.') with
  | [] => name
  | [_] => name
  | _ :: r => r.reverse

/-- `filename.with_extension(LOCK_EXT)` (`locker.rs:198`, `:15`), on the file name; the directory stays. -/
def lockName (name : List Char) : List Char := stem name ++ ".lock".toList

/-! ## The loop -/

/-- What one turn of the loop meets (`locker.rs:212-235`): when the lock is tried, with which outcome, and when `started.elapsed()` is read after a failure
(`:203`). Times are counted from `started` (`:199`). `try_lock_exclusive` reports a lock held by somebody else as `Ok(false)` or as `WouldBlock`, which are
treated alike (`:223-229`); other errors end the loop (`:231`), as does failing to open the lock file (`:213-218`). -/
inductive Outcome where
  | got
  | busy
  | failed
  deriving DecidableEq, Repr

structure Turn where
  tried : Nat
  outcome : Outcome
  checked : Nat
  deriving DecidableEq, Repr

/-- How `FileWriterDef::new` comes out of the loop. -/
inductive Res where
  | locked
  /-- `Error::TimeoutToWaitLockedFile` -/
  | timeout
  /-- `Error::FileIsLocked` -/
  | isLocked
  /-- `Error::FailToLockFile` -/
  | failed
  deriving DecidableEq, Repr

/-- `wait_or_fail` (`locker.rs:201-211`): `none` is `Ok(())`, after a sleep. -/
def waitOrFail (timeout : Option Nat) (elapsed : Nat) : Option Res :=
  match timeout with
  | some t => if elapsed ≥ t then some .timeout else none
  | none => some .isLocked

/-- The loop (`locker.rs:212-235`): the result and the turn in which it is reached; `none` if it is still waiting after these turns. -/
def loop (timeout : Option Nat) : List Turn → Option (Res × Turn)
  | [] => none
  | t :: ts =>
    match t.outcome with
    | .got => some (.locked, t)
    | .failed => some (.failed, t)
    | .busy =>
      match waitOrFail timeout t.checked with
      | some r => some (r, t)
      | none => loop timeout ts

/-- The turns fit together: time does not go backwards, and between two turns lies a sleep of at least `interval` (`locker.rs:206`; `sleep` may take longer). -/
def Timed (interval : Nat) : List Turn → Prop
  | [] => True
  | [t] => t.tried ≤ t.checked
  | t :: u :: ts => t.tried ≤ t.checked ∧ t.checked + interval ≤ u.tried ∧ Timed interval (u :: ts)

/-- The turns fit a world in which the lock is held by somebody else at the times `held`. -/
def Fits (held : Nat → Bool) (ts : List Turn) : Prop :=
  ∀ t ∈ ts, (t.outcome = .got → held t.tried = false) ∧ (t.outcome = .busy → held t.tried = true)

/-! ## Many writers -/

/-- A program that wants to write: the directory and name of its file, and how far it has got. -/
inductive Phase where
  /-- outside `FileWriterDef::new` and without a `FileWriterDef` -/
  | out
  /-- in the loop of `new`, without the lock -/
  | trying
  /-- in `new`, behind the loop (`locker.rs:236-245`), with the lock -/
  | opening
  /-- with a `FileWriterDef` -/
  | live
  deriving DecidableEq, Repr

structure Prog where
  dir : List Char
  name : List Char
  phase : Phase
  deriving DecidableEq, Repr

/-- The lock file of a program. -/
def Prog.lock (p : Prog) : List Char × List Char := (p.dir, lockName p.name)

/-- The program has the lock file open and locked. -/
def Prog.holds (p : Prog) : Bool := p.phase == .opening || p.phase == .live

/-- A step of one of the programs `a ++ p :: b`. -/
inductive Step : List Prog → List Prog → Prop where
  /-- `new` is called on any file -/
  | call (a b : List Prog) (p : Prog) (dir name : List Char) (h : p.phase = .out) : Step (a ++ p :: b) (a ++ ⟨dir, name, .trying⟩ :: b)
  /-- `try_lock_exclusive` succeeds -/
  | lock (a b : List Prog) (p : Prog) (h : p.phase = .trying) (hf : ∀ q ∈ a ++ b, q.holds = true → q.lock ≠ p.lock) :
      Step (a ++ p :: b) (a ++ { p with phase := .opening } :: b)
  /-- `new` fails in the loop -/
  | giveUp (a b : List Prog) (p : Prog) (h : p.phase = .trying) : Step (a ++ p :: b) (a ++ { p with phase := .out } :: b)
  /-- the storage is opened and loaded -/
  | opened (a b : List Prog) (p : Prog) (h : p.phase = .opening) : Step (a ++ p :: b) (a ++ { p with phase := .live } :: b)
  /-- opening or loading the storage fails: the lock file is closed -/
  | failed (a b : List Prog) (p : Prog) (h : p.phase = .opening) : Step (a ++ p :: b) (a ++ { p with phase := .out } :: b)
  /-- the `FileWriterDef` is dropped -/
  | dropped (a b : List Prog) (p : Prog) (h : p.phase = .live) : Step (a ++ p :: b) (a ++ { p with phase := .out } :: b)
  /-- the process dies; the operating system closes its files -/
  | dies (a b : List Prog) (p : Prog) : Step (a ++ p :: b) (a ++ { p with phase := .out } :: b)

/-- States that can be reached from programs that have not started. -/
inductive Reach : List Prog → Prop where
  | init (ps : List Prog) (h : ∀ p ∈ ps, p.phase = .out) : Reach ps
  | step {ps ps' : List Prog} (h : Reach ps) (hs : Step ps ps') : Reach ps'

end Brec.Lock
