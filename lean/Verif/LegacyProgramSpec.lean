/-
Specification for several ranks that proceed together: do they come to an end?
-/
import Verif.LegacyProgram
set_option autoImplicit false

namespace Parfu.RanksSpec
open Parfu

/-- All of the `n` ranks come to an end, whatever the schedule: no run is endless, and a run that
cannot go on has ended on all ranks. -/
structure AllEnd (P : Nat → RankProg) (n : Nat) : Prop where
  finite : ∃ N, ∀ eager old (run : Nat → LSys) k, run 0 = .start P old →
    (∀ i < k, LStep n eager (run i) (run (i + 1))) → k ≤ N
  complete : ∀ eager old s, LReach P n eager old s → (¬ ∃ t, LStep n eager s t) → ∀ r < n, s.ended r

/-- Rank `r` never comes to its end, whatever the schedule. -/
def NeverEnds (P : Nat → RankProg) (n r : Nat) : Prop := ∀ eager old s, LReach P n eager old s → ¬ s.ended r

/-- The arguments of a call `parfu_0_5_1 C <arc> <top>`: the program's name, the mode (of which only the
first letter counts), the archive, the directory; anything after that is ignored. -/
def CreateCall (args : List Bytes) (arc top : Bytes) : Prop := ∃ prog mode, args.take 4 = [prog, 67 :: mode, arc, top]

end Parfu.RanksSpec
