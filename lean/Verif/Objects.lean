/-
Model of the small object helpers of parfu 0.6: the hand-written copy constructors and assignment
operators of the collection classes (parfu_file_system_classes.hh), opening a container file, the
query functions of an order set (parfu_rank_move_data.cc) and the two block rounding functions in the
64-bit arithmetic of the source.
-/
import Verif.Move
set_option autoImplicit false

namespace Parfu

/-! ### copies -/

/-- parfu_file_system_classes.hh:348-350, 354-356, 404-409, 416-421, 515-520, 524-529, 642-644,
648-650: the loop `for(i..) v[i] = in.v[i]`: `i` is the index, the list what remains of `in.v`.
`operator[]` beyond the end of a `std::vector` is undefined. -/
def assignElems {α : Type} (v : List α) : Nat → List α → Res (List α)
  | _, [] => .ok v
  | i, x :: xs => if i < v.length then assignElems (v.set i x) (i + 1) xs else .error .ub

/-- parfu_file_system_classes.hh:340-367 `Parfu_slice_collection`; the elements are pointers. -/
structure SliceColl where
  slices : List Nat
  deriving DecidableEq, Repr

/-- parfu_file_system_classes.hh:347-351: the copy constructor starts with an empty vector. -/
def SliceColl.copy (src : SliceColl) : Res SliceColl :=
  match assignElems [] 0 src.slices with
  | .error e => .error e
  | .ok v => .ok ⟨v⟩

/-- parfu_file_system_classes.hh:353-358: assignment to an existing collection. -/
def SliceColl.assign (dst src : SliceColl) : Res SliceColl :=
  match assignElems dst.slices 0 src.slices with
  | .error e => .error e
  | .ok v => .ok ⟨v⟩

/-- parfu_file_system_classes.hh:376-451 `Parfu_directory` with what it inherits (98-178).
`kind` is `entry_type_value`, `none` for PARFU_FILE_TYPE_INVALID. -/
structure DirObj where
  base : Bytes
  rel : Bytes
  kind : Option Kind
  spidered : Bool
  subdirs : List Nat
  subfiles : List Nat
  deriving DecidableEq, Repr

/-- parfu_file_system_classes.hh:388-393: a new directory object. -/
def DirObj.new (base rel : Bytes) : DirObj :=
  { base := base, rel := rel, kind := some .dir, spidered := false, subdirs := [], subfiles := [] }

/-- parfu_file_system_classes.hh:400-410: the copy constructor.  `entry_type_value` keeps its default,
"invalid". -/
def DirObj.copy (src : DirObj) : Res DirObj :=
  match assignElems [] 0 src.subdirs with
  | .error e => .error e
  | .ok d =>
    match assignElems [] 0 src.subfiles with
    | .error e => .error e
    | .ok f => .ok { base := src.base, rel := src.rel, kind := none, spidered := src.spidered,
                     subdirs := d, subfiles := f }

/-- parfu_file_system_classes.hh:412-424: assignment; `entry_type_value` is not assigned. -/
def DirObj.assign (dst src : DirObj) : Res DirObj :=
  match assignElems dst.subdirs 0 src.subdirs with
  | .error e => .error e
  | .ok d =>
    match assignElems dst.subfiles 0 src.subfiles with
    | .error e => .error e
    | .ok f => .ok { base := src.base, rel := src.rel, kind := dst.kind, spidered := src.spidered,
                     subdirs := d, subfiles := f }

/-- parfu_file_system_classes.hh:502-549 `Parfu_target_collection` (vectors of references). -/
structure TargetColl where
  dirs : List Ref
  files : List Ref
  deriving DecidableEq, Repr

/-- parfu_file_system_classes.hh:514-521. -/
def TargetColl.copy (src : TargetColl) : Res TargetColl :=
  match assignElems [] 0 src.dirs with
  | .error e => .error e
  | .ok d =>
    match assignElems [] 0 src.files with
    | .error e => .error e
    | .ok f => .ok ⟨d, f⟩

/-- parfu_file_system_classes.hh:523-531. -/
def TargetColl.assign (dst src : TargetColl) : Res TargetColl :=
  match assignElems dst.dirs 0 src.dirs with
  | .error e => .error e
  | .ok d =>
    match assignElems dst.files 0 src.files with
    | .error e => .error e
    | .ok f => .ok ⟨d, f⟩

/-- parfu_file_system_classes.hh:634-661 `Parfu_container_file_collection`. -/
structure ContainerColl where
  containers : List Nat
  deriving DecidableEq, Repr

/-- parfu_file_system_classes.hh:641-645. -/
def ContainerColl.copy (src : ContainerColl) : Res ContainerColl :=
  match assignElems [] 0 src.containers with
  | .error e => .error e
  | .ok v => .ok ⟨v⟩

/-- parfu_file_system_classes.hh:647-652. -/
def ContainerColl.assign (dst src : ContainerColl) : Res ContainerColl :=
  match assignElems dst.containers 0 src.containers with
  | .error e => .error e
  | .ok v => .ok ⟨v⟩

/-- parfu_file_system_classes.hh:193-260 `Parfu_target_file` with what it inherits (98-178).
`container` is `parent_container`, `located` is `are_locations_filled_out`. -/
structure FileObj where
  base : Bytes
  rel : Bytes
  kind : Option Kind
  size : Int
  hdr : Int
  target : Bytes
  container : Option Nat
  located : Bool
  deriving DecidableEq, Repr

/-- parfu_file_system_classes.hh:211-220: the copy constructor; `are_locations_filled_out` keeps its
default. -/
def FileObj.copy (src : FileObj) : FileObj :=
  { base := src.base, rel := src.rel, kind := src.kind, size := src.size, hdr := src.hdr,
    target := src.target, container := src.container, located := false }

/-- parfu_file_system_classes.hh:222-232: assignment. -/
def FileObj.assign (dst src : FileObj) : FileObj :=
  { base := src.base, rel := src.rel, kind := src.kind, size := src.size, hdr := src.hdr,
    target := src.target, container := src.container, located := dst.located }

/-! ### container files -/

/-- parfu_file_system_classes.hh:566-624 `Parfu_container_file`: `handle` is `*container_file_ptr`, a
pointer (NULL is `none`); the object `container_file_ptr` itself points to is always its own. -/
structure ContainerFile where
  path : Bytes
  isOpen : Bool
  handle : Option Nat
  deriving DecidableEq, Repr

/-- parfu_file_system_classes.hh:570-574, 616-622: the constructor. -/
def ContainerFile.new (path : Bytes) : ContainerFile := ⟨path, false, none⟩

/-- parfu_file_system_classes.hh:576-582: the copy constructor (the pointer is copied). -/
def ContainerFile.copy (src : ContainerFile) : ContainerFile := ⟨src.path, src.isOpen, src.handle⟩

/-- parfu_file_system_classes.hh:584-591: assignment. -/
def ContainerFile.assign (_dst src : ContainerFile) : ContainerFile :=
  ⟨src.path, src.isOpen, src.handle⟩

/-- parfu_file_system_classes.hh:600-607 `MPI_File_open_write_new`: `MPI_File_open` stores the new
handle through the pointer it is given; through NULL that is undefined. -/
def ContainerFile.openNew (f : ContainerFile) : Res ContainerFile :=
  match f.handle with
  | none => .error .ub
  | some h => .ok ⟨f.path, true, some h⟩

/-! ### queries of an order set -/

/-- parfu_rank_move_data.cc:244-246 `n_orders`. -/
def nOrders (ws : List WOrder) : Nat := ws.length

/-- parfu_rank_move_data.cc:264-271 `order_n_filename` with its `int` argument, which the comparison
converts to `size_t`. -/
def orderNameInt (ws : List WOrder) (i : Int) : Res Bytes := orderNFilename ws (u64 i)

/-! ### rounding in 64 bits -/

/-- tarentry.hh:114-116 `round_to_block`: `(sz + BLOCKSIZE-1) & ~(BLOCKSIZE-1)` on `size_t`; the mask
is the `int` -512, converted. -/
def roundToBlock64 (sz : BitVec 64) : BitVec 64 := (sz + 512#64 - 1#64) &&& ~~~(511#64)

/-- parfu_file_system_classes.cc:604-615 `parfu_next_block_boundary` on `unsigned long`. -/
def nextBlock64 (n : BitVec 64) : BitVec 64 :=
  if n % 512#64 ≠ 0#64 then (n / 512#64 + 1#64) * 512#64 else n

end Parfu
