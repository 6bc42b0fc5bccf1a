import Verif.Macro
import Verif.Storage
/-!
# Compilers at work

Model of how the code of `generate!` gets into a crate (`/repo/brec_macros/src/collector/mod.rs`, `generate/mod.rs`). `#[block]` and `#[payload]` put what they see into a
collector, `generate!` writes the code to `OUT_DIR/brec.rs` and leaves an `include!` of this file behind. The collector belongs to one run of the compiler; the file belongs to the
package, as cargo gives all targets of a package (library, binaries, tests) the same `OUT_DIR`, and cargo runs the compilers of several targets at the same time.
-/

namespace Brec.Build

open Brec

/-- What one run of the compiler does. -/
inductive Act where
  /-- `#[block]` -/
  | block (d : BlockDecl)
  /-- `#[payload]` -/
  | payload (d : PayloadDecl)
  /-- `generate!` up to `File::create` (`collector/mod.rs:55-95`). The lists are the values of the two maps, in the order the maps give them. -/
  | generate (bs : List BlockDecl) (ps : List PayloadDecl)
  /-- one `write` of `n` bytes inside `write_all` (`:96`) -/
  | write (n : Nat)
  /-- the compiler reads the file for `include!` (`generate/mod.rs:17-19`) -/
  | incl

/-- One run of the compiler: `Collector` (`collector/mod.rs:28-31`; the maps are kept as lists, and only the package being compiled has entries) and, inside `write_all`, what
is left to be written and from which position on. `owed` counts the `include!`s that are not carried out yet. -/
structure Rustc where
  blocks : List (Bytes × BlockDecl) := []
  payloads : List (Bytes × PayloadDecl) := []
  todo : Bytes := []
  pos : Nat := 0
  owed : Nat := 0

/-- Everything: the runs of the compiler, the file, and who has included what so far. Before the first `generate!` the file does not exist; this is not told apart from an empty one. -/
structure World where
  procs : Nat → Rustc := fun _ => {}
  file : Bytes := []
  got : List (Nat × Bytes) := []

/-- The runs with the one of `p` replaced. -/
def setRun (f : Nat → Rustc) (p : Nat) (r : Rustc) : Nat → Rustc := fun q => if q = p then r else f q

/-- One step of the run `p`. `render` is the code for these blocks and payloads (`collector/mod.rs:57-92`); its configuration is fixed. The collector is locked until all is written
(`generate/mod.rs:10-16`, `collector/mod.rs:34-36`), so that within one run nothing comes between the writes, and `include!` comes after them. Only what succeeds is modelled: any
error of `generate!` ends the compilation. -/
inductive Step (render : List BlockDecl → List PayloadDecl → Bytes) : World → Nat → Act → World → Prop where
  /-- `add_block` (`collector/mod.rs:37-42`) -/
  | block {w p d} : (w.procs p).todo = [] →
      Step render w p (.block d) { w with procs := setRun w.procs p { w.procs p with blocks := orInsert (w.procs p).blocks d.fullname d } }
  /-- `add_payload` (`collector/mod.rs:43-48`) -/
  | payload {w p d} : (w.procs p).todo = [] →
      Step render w p (.payload d) { w with procs := setRun w.procs p { w.procs p with payloads := orInsert (w.procs p).payloads d.fullname d } }
  /-- `Collector::write` (`collector/mod.rs:55-95`): `File::create` empties the file -/
  | generate {w p bs ps} : (w.procs p).todo = [] → bs.Perm ((w.procs p).blocks.map (·.2)) → ps.Perm ((w.procs p).payloads.map (·.2)) →
      Step render w p (.generate bs ps) { w with procs := setRun w.procs p { w.procs p with todo := render bs ps, pos := 0, owed := (w.procs p).owed + 1 }, file := [] }
  /-- `write_all` (`collector/mod.rs:96`): every open file has its own position -/
  | write {w p n} : 0 < n → n ≤ (w.procs p).todo.length →
      Step render w p (.write n)
        { w with procs := setRun w.procs p { w.procs p with todo := (w.procs p).todo.drop n, pos := (w.procs p).pos + n }
                 file := overwrite w.file (w.procs p).pos ((w.procs p).todo.take n) }
  /-- `include!` -/
  | incl {w p n} : (w.procs p).todo = [] → (w.procs p).owed = n + 1 →
      Step render w p .incl { w with procs := setRun w.procs p { w.procs p with owed := n }, got := w.got ++ [(p, w.file)] }

/-- What can happen from `w` on: the steps in their order, with the run that makes them. -/
inductive Runs (render : List BlockDecl → List PayloadDecl → Bytes) : World → List (Nat × Act) → World → Prop where
  | nil {w} : Runs render w [] w
  | cons {w w' w'' p a tr} : Step render w p a w' → Runs render w' tr w'' → Runs render w ((p, a) :: tr) w''

end Brec.Build
