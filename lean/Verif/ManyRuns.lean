/-
Model of several runs of parfu 0.6 that are started at the same time and create the same archive: each is
the system of Verif/Protocol.lean, but there is only one file.
-/
import Verif.Protocol
set_option autoImplicit false

namespace Parfu

/-- The states of all runs, and the one archive file (the `file` of each run's own state is not used). -/
structure Many (ι : Type) where
  run : ι → Sys
  file : Option Bytes

/-- One step of one of the runs: it finds the file as it is now, and leaves it as it made it
(parfu_main_0_6_test.cc:218-222 opens it with `MPI_MODE_EXCL`).
Simplification: the archive is not in any of the trees that are archived. -/
inductive ManyStep {ι : Type} [DecidableEq ι] (c : ι → Cfg) (eager : ι → Bool) : Many ι → ι → Ev → Many ι → Prop
  | one (x : Many ι) (i : ι) (e : Ev) (s' : Sys) (st : Step (c i) (eager i) { x.run i with file := x.file } e s') :
      ManyStep c eager x i e ⟨Function.update x.run i s', s'.file⟩

/-- The events of all runs together up to some moment, each with the run it belongs to, and the state then. -/
inductive ManyRun {ι : Type} [DecidableEq ι] (c : ι → Cfg) (eager : ι → Bool) (x0 : Many ι) : List (ι × Ev) → Many ι → Prop
  | nil : ManyRun c eager x0 [] x0
  | snoc {tr : List (ι × Ev)} {x x' : Many ι} {i : ι} {e : Ev} (h : ManyRun c eager x0 tr x)
      (st : ManyStep c eager x i e x') : ManyRun c eager x0 (tr ++ [(i, e)]) x'

/-- What run `i` did. -/
def eventsOf {ι : Type} [DecidableEq ι] (i : ι) (tr : List (ι × Ev)) : List Ev :=
  tr.filterMap fun y => if y.1 = i then some y.2 else none

end Parfu
