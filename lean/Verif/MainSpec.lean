/-
Specification vocabulary for the command line.
-/
import Verif.Main
set_option autoImplicit false

namespace Parfu.MainSpec
open Parfu

/-- An argument is an option with this name and value: `name=value`, where the name has no '='. -/
def IsOption (a name value : Bytes) : Prop := a = name ++ [61] ++ value ∧ (61 : UInt8) ∉ name

/-- An argument without '=' is a target. -/
def IsTarget (a : Bytes) : Prop := (61 : UInt8) ∉ a

/-- `maxorders`, `bucketsize`, `archivefile`. -/
def maxorders : Bytes := "maxorders".toList.map (fun c => UInt8.ofNat c.toNat)
def bucketsize : Bytes := "bucketsize".toList.map (fun c => UInt8.ofNat c.toNat)
def archivefile : Bytes := "archivefile".toList.map (fun c => UInt8.ofNat c.toNat)

/-- `value` is what the last `name=...` of the arguments says. -/
def LastSet (args : List Bytes) (name value : Bytes) : Prop :=
  ∃ pre post, args = pre ++ (name ++ [61] ++ value) :: post ∧ ∀ a ∈ post, ∀ v, ¬ IsOption a name v

/-- No argument sets `name`. -/
def Unset (args : List Bytes) (name : Bytes) : Prop := ∀ a ∈ args, ∀ v, ¬ IsOption a name v

/-- A known argument: a target, an archive name, or one of the numeric options with a value that is
a number in the range of an `int`. -/
def Acceptable (a : Bytes) : Prop :=
  IsTarget a ∨ (∃ v, IsOption a archivefile v) ∨
  (∃ v n, (IsOption a maxorders v ∨ IsOption a bucketsize v) ∧ stoi v = .ok n)

/-- Arguments are far shorter than 4 GiB. -/
def ShortArgs (args : List Bytes) : Prop := ∀ a ∈ args, a.length < 2 ^ 32 - 1

end Parfu.MainSpec
