import Verif.Locker
import Verif.Props.SharedStorage
/-!
# Many writers at work

`Verif.Locker` says who has a `FileWriterDef` at which moment. Here the writers also write: the files are shared, everything else a writer knows (its slots and its
locator) is its own. The writes of an `insert` reach the file piece by piece, and any other program may do something in between.
-/

namespace Brec.Writers

open Brec Lock Props

/-- Directory and name. A file is taken to have one path only (`C41_alias` shows what happens otherwise). -/
abbrev Path := List Char × List Char

/-- Bytes to be written from a position on. -/
abbrev Pending := List (Nat × Bytes)

variable {O : BlockOps} {Q : PayloadOps}

/-- `insert` (`writer/mod.rs:83-114`) up to the first write, and the writes that follow: the table of the slot (`:104-107`), then the packet (`:108-112`). The same steps as in
`Writer.insert`, which does not tell the writes apart from the rest. -/
def plan (cap : Nat) (w : Writer) (p : Packet O Q) : Option (Writer × Pending) :=
  match w.place cap with
  | (none, _) => none
  | (some offset, w1) =>
    match p.serialize with
    | .ok buffer =>
      match w1.slots[w1.loc.next]? with
      | some slot =>
        match slot.insert buffer.length with
        | .ok slot' =>
          match slot'.bytes with
          | .ok sb => some ({ w1 with slots := w1.slots.set w1.loc.next slot' }, [(w1.loc.slotOffset, sb), (offset, buffer)])
          | _ => none
        | _ => none
      | none => none
    | _ => none

/-- How far a program has got. The file in a `Writer` (`Writer.data`) is not used here: it is the shared one. -/
inductive Stage where
  /-- without a writer -/
  | out
  /-- in the loop of `FileWriterDef::new`, without the lock -/
  | trying
  /-- behind the loop, with the lock (`locker.rs:236-245`) -/
  | opening
  /-- with a writer, outside `insert` -/
  | live (w : Writer)
  /-- in `insert`, with these bytes left to be written -/
  | inserting (w : Writer) (e : Entry) (todo : Pending)

structure Proc where
  path : Path
  stage : Stage

/-- The lock file (`locker.rs:198`). -/
def Proc.lock (p : Proc) : Path := (p.path.1, lockName p.path.2)

/-- The program has the lock file open and locked (`_filelock`, `locker.rs:144`). -/
def Proc.holds (p : Proc) : Bool :=
  match p.stage with
  | .out | .trying => false
  | _ => true

/-- The programs and the files. -/
structure World where
  procs : List Proc
  files : Path → Bytes
  /-- The inserts that have returned `Ok(())`, in this order. Nobody reads this. -/
  log : List (Path × Entry)
  /-- The files in which a program has died during an insert. Nobody reads this. -/
  hurt : List Path

def put (files : Path → Bytes) (q : Path) (x : Bytes) : Path → Bytes := fun r => if r = q then x else files r

/-- A step of one of the programs. `lk = true`: they use `FileWriterDef`; `lk = false`: they do not look at the lock, as if they had made a `WriterDef` of the file
themselves. -/
inductive Step (lk : Bool) (cap : Nat) (chk : Bool) : World → World → Prop where
  /-- `new` is called, on any file -/
  | call (w : World) (a b : List Proc) (p : Proc) (q : Path) (hw : w.procs = a ++ p :: b) (h : p.stage = .out) :
      Step lk cap chk w { w with procs := a ++ ⟨q, .trying⟩ :: b }
  /-- `try_lock_exclusive` succeeds (`locker.rs:219-222`) -/
  | lock (w : World) (a b : List Proc) (p : Proc) (hw : w.procs = a ++ p :: b) (h : p.stage = .trying)
      (hf : lk = true → ∀ q ∈ a ++ b, q.holds = true → q.lock ≠ p.lock) :
      Step lk cap chk w { w with procs := a ++ ⟨p.path, .opening⟩ :: b }
  /-- `new` fails in the loop, or behind it, or the writer is dropped: the lock file is closed -/
  | leave (w : World) (a b : List Proc) (p : Proc) (hw : w.procs = a ++ p :: b) (h : ∀ x e t, p.stage ≠ .inserting x e t) :
      Step lk cap chk w { w with procs := a ++ ⟨p.path, .out⟩ :: b }
  /-- the storage is opened and loaded (`locker.rs:236-245`, `writer/mod.rs:35-73`) -/
  | opened (w : World) (a b : List Proc) (p : Proc) (x : Writer) (hw : w.procs = a ++ p :: b) (h : p.stage = .opening)
      (ho : openWriter chk (w.files p.path) = some (.ok x)) :
      Step lk cap chk w { w with procs := a ++ ⟨p.path, .live x⟩ :: b }
  /-- `insert` is called (`locker.rs:257-259`). Beyond 2^63 bytes the operating system would refuse the writes. -/
  | insert (w : World) (a b : List Proc) (p : Proc) (x x' : Writer) (e : Entry) (todo : Pending) (hw : w.procs = a ++ p :: b) (h : p.stage = .live x)
      (hp : plan cap x e.packet = some (x', todo)) (hd : Declared e.packet) (hs : (w.files p.path).length + (20 + 8 * cap) + e.bytes.length < 2 ^ 63) :
      Step lk cap chk w { w with procs := a ++ ⟨p.path, .inserting x' e todo⟩ :: b }
  /-- `k` more bytes reach the file -/
  | write (w : World) (a b : List Proc) (p : Proc) (x : Writer) (e : Entry) (pos : Nat) (c d : Bytes) (todo : Pending) (hw : w.procs = a ++ p :: b)
      (h : p.stage = .inserting x e ((pos, c ++ d) :: todo)) :
      Step lk cap chk w { w with procs := a ++ ⟨p.path, .inserting x e (if d = [] then todo else (pos + c.length, d) :: todo)⟩ :: b,
                                 files := put w.files p.path (overwrite (w.files p.path) pos c) }
  /-- `insert` returns `Ok(())` -/
  | done (w : World) (a b : List Proc) (p : Proc) (x : Writer) (e : Entry) (hw : w.procs = a ++ p :: b) (h : p.stage = .inserting x e []) :
      Step lk cap chk w { w with procs := a ++ ⟨p.path, .live x⟩ :: b, log := w.log ++ [(p.path, e)] }
  /-- the process dies during an insert; the operating system closes its files -/
  | dies (w : World) (a b : List Proc) (p : Proc) (x : Writer) (e : Entry) (todo : Pending) (hw : w.procs = a ++ p :: b) (h : p.stage = .inserting x e todo) :
      Step lk cap chk w { w with procs := a ++ ⟨p.path, .out⟩ :: b, hurt := p.path :: w.hurt }

/-- Any number of programs that have not started, and no files. -/
inductive Reach (lk : Bool) (cap : Nat) (chk : Bool) : World → Prop where
  | init (ps : List Proc) (h : ∀ p ∈ ps, p.stage = .out) : Reach lk cap chk ⟨ps, fun _ => [], [], []⟩
  | step {w w' : World} (h : Reach lk cap chk w) (hs : Step lk cap chk w w') : Reach lk cap chk w'

end Brec.Writers
