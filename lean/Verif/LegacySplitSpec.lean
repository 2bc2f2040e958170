/-
Specification of a good 0.5.1 layout.  Only the data type of fragments is taken from the model.
-/
import Verif.LegacyList
set_option autoImplicit false

namespace Parfu.SplitSpec
open Parfu

/-- The number of data bytes of an entry (directories and links, whose size is negative, have
none). -/
def dataLen (e : Frag) : Int := max e.size 0

/-- The room an entry takes: header and data, rounded up to whole blocks. -/
def room (bl : Int) (e : Frag) : Int := (e.hdr + dataLen e + bl - 1) / bl * bl

/-- A small entry fits a bucket, a large one does not. -/
def Small (bl acc : Int) (e : Frag) : Prop := room bl e ≤ acc

/-- Large entries come after all small ones. -/
def SmallFirst (bl acc : Int) (es : List Frag) : Prop :=
  es.Pairwise (fun a b => Small bl acc b → Small bl acc a)

/-- The last bucket of a large entry is full, or has room for another header of the entry's size. -/
def LeavesRoom (bl acc : Int) (e : Frag) : Prop := room bl e % acc = 0 ∨ room bl e % acc + e.hdr ≤ acc

/-- The same file: names, type, link target and header size. -/
def SameFile (a b : Frag) : Prop :=
  a.rel = b.rel ∧ a.arc = b.arc ∧ a.kind = b.kind ∧ a.target = b.target ∧ a.hdr = b.hdr

/-- The bytes of a fragment (its header excluded) lie in its bucket. -/
def InBucket (acc : Int) (f : Frag) : Prop :=
  f.bucket * acc ≤ f.locA ∧ f.locA + f.size ≤ (f.bucket + 1) * acc

/-- An entry placed at `e.locA` (where its header starts) with fragments `fs`. -/
structure Good (bl acc : Int) (e : Frag) (fs : List Frag) : Prop where
  same : ∀ f ∈ fs, SameFile f e
  /-- A small entry is one fragment, header and data and padding inside one bucket. -/
  small : Small bl acc e → ∃ f, fs = [f] ∧ f.locA = e.locA + e.hdr ∧ f.size = e.size ∧ f.locO = 0 ∧
    f.bucket * acc ≤ e.locA ∧ e.locA + room bl e ≤ (f.bucket + 1) * acc
  /-- A large one starts a bucket; its fragments are laid out one after the other, each in its own
  bucket. -/
  large : ¬ Small bl acc e → acc ∣ e.locA ∧ fs ≠ [] ∧
    ∀ f ∈ fs, f.locA = e.locA + e.hdr + f.locO ∧ InBucket acc f

/-- The fragments are consecutive non-empty pieces of a file, from byte `a` up to byte `z`. -/
def Covers (a : Int) : List Frag → Int → Prop
  | [], z => a = z
  | f :: fs, z => f.locO = a ∧ 0 < f.size ∧ Covers (a + f.size) fs z

end Parfu.SplitSpec
