/-
Model of the 0.6 planner: Parfu_target_collection::order_files, set_offsets and
create_transfer_orders (parfu_file_system_classes.cc).
Arithmetic on archive positions (`unsigned long`) is in `Nat`: an archive is shorter than 2^64
bytes.  Only `bucket_size - header_size`, which can wrap, is done modulo 2^64.
-/
import Verif.Scan
set_option autoImplicit false

namespace Parfu

/-- parfu_file_system_classes.cc:595-597 `sort_by_size`. -/
def sortBySize (a b : Ref) : Bool := a.orderSize < b.orderSize

/-- What the C++ standard demands of a comparator given to `std::sort` ([alg.sorting]: a strict weak
ordering); anything else is undefined behaviour. -/
structure StrictWeak {α : Type} (lt : α → α → Bool) : Prop where
  irrefl : ∀ a, lt a a = false
  trans : ∀ a b c, lt a b = true → lt b c = true → lt a c = true
  incomp : ∀ a b c, lt a b = false → lt b a = false → lt b c = false → lt c b = false →
    lt a c = false ∧ lt c a = false

/-- A conforming `std::sort` (not necessarily stable): what it returns is a rearrangement of its
input in which nothing is less than something before it, provided the comparator is a strict weak
ordering. -/
structure StdSort (α : Type) where
  run : (α → α → Bool) → List α → List α
  perm : ∀ lt l, StrictWeak lt → (run lt l).Perm l
  sorted : ∀ lt l, StrictWeak lt → (run lt l).Pairwise (fun a b => lt b a = false)

/-- parfu_file_system_classes.cc:599-602 `order_files`. -/
def orderFiles (S : StdSort Ref) (c : Coll) : Coll := { c with files := S.run sortBySize c.files }

/-- parfu_file_system_classes.cc:604-615 `parfu_next_block_boundary`. -/
def nextBlock (n : Nat) : Nat := if n % blk ≠ 0 then (n / blk + 1) * blk else n

/-- parfu_file_system_classes.hh:267-336 `Parfu_file_slice`. -/
structure Slice where
  hdr : Nat
  size : Nat
  offFile : Nat
  offArch : Nat
  deriving DecidableEq, Repr

/-- A reference with the one slice `set_offsets` gives it. -/
structure Placed where
  ref : Ref
  slice : Slice
  deriving DecidableEq, Repr

/-- parfu_file_system_classes.cc:645-662 and 665-680: one loop of `set_offsets` from
`working_offset = w`; gives the placed references and the new `working_offset`. -/
def placeFrom (w : Nat) : List Ref → List Placed × Nat
  | [] => ([], w)
  | r :: rs =>
    let next := placeFrom (nextBlock (w + (r.hdr + r.ent.size))) rs
    (⟨r, ⟨r.hdr, r.ent.size, 0, w⟩⟩ :: next.1, next.2)

/-- The collection after `set_offsets`. -/
structure PColl where
  dirs : List Placed
  files : List Placed
  deriving DecidableEq, Repr

/-- parfu_file_system_classes.cc:619-681 `set_offsets`: directories, then files. -/
def setOffsets (c : Coll) : PColl :=
  let d := placeFrom 0 c.dirs
  { dirs := d.1, files := (placeFrom d.2 c.files).1 }

/-- One move order: the fields of the line printed by `print_marching_order_raw`
(parfu_file_system_classes.cc:945-973), which are those of `parfu_move_order_t`
(parfu_rank_move_data.hh:38-47). -/
structure Order where
  idx : Int
  rel : Bytes
  kind : Kind
  target : Bytes
  size : Nat
  hdr : Nat
  pos : Nat
  off : Nat
  deriving DecidableEq, Repr

/-- parfu_file_system_classes.cc:945-950 `print_marching_order_raw`, before printing. -/
def orderRaw (idx : Int) (e : Ent) (size hdr pos off : Nat) : Order :=
  { idx := idx, rel := e.rel, kind := e.kind, target := e.target, size := size, hdr := hdr,
    pos := pos, off := off }

/-- parfu_file_system_classes.cc:934-943 `print_marching_order`, before printing. -/
def orderOf (idx : Int) (p : Placed) : Order :=
  orderRaw idx p.ref.ent p.slice.size p.slice.hdr p.slice.offArch p.slice.offFile

/-- The local variables of `create_transfer_orders`: `trans_orders` is `done ++ [cur]` (as
structured orders; the code keeps them printed), `posArch` is `position_in_archive`, `posBucket` is
`position_in_bucket`, `nOrders` is `orders_in_bundle`. -/
structure PState where
  done : List (List Order)
  cur : List Order
  posArch : Nat
  posBucket : Nat
  nOrders : Nat
  deriving DecidableEq, Repr

/-- parfu_file_system_classes.cc:755-788 (directories) and 803-847 (files): an entry of total extent
`ext <= bucket_size`. -/
def smallStep (idx : Int) (b mx ext : Nat) (st : PState) (p : Placed) : PState :=
  let jump := nextBlock ext
  if st.posBucket + jump > b ∨ (mx > 0 ∧ st.nOrders ≥ mx) then
    { done := st.done ++ [st.cur], cur := [orderOf idx p], posArch := st.posArch + jump,
      posBucket := jump, nOrders := 1 }
  else
    { st with cur := st.cur ++ [orderOf idx p], posArch := st.posArch + jump,
              posBucket := st.posBucket + jump, nOrders := st.nOrders + 1 }

/-- parfu_file_system_classes.cc:751-797: one directory.  A directory whose header exceeds the bucket
falls through without an order. -/
def dirStep (idx : Int) (b mx : Nat) (st : PState) (p : Placed) : PState :=
  if p.ref.hdr ≤ b then smallStep idx b mx p.ref.hdr st p else st

/-- parfu_file_system_classes.cc:885-925: the `while(extent_remaining > bucket_size)` loop and the
final fragment.  `pos` is `position_in_archive`, `off` is `position_in_file`. -/
def bigLoop (idx : Int) (b : Nat) (e : Ent) (rem off : Nat) (st : PState) : PState :=
  if _h : b < rem ∧ 0 < b then
    bigLoop idx b e (rem - b) (off + b)
      { st with done := st.done ++ [st.cur], cur := [orderRaw idx e b 0 st.posArch off],
                posArch := st.posArch + b, nOrders := 1 }
  else if 0 < rem then
    { st with done := st.done ++ [st.cur], cur := [orderRaw idx e rem 0 st.posArch off],
              posArch := nextBlock (st.posArch + rem), nOrders := 1 }
  else st
termination_by rem
decreasing_by omega

/-- parfu_file_system_classes.cc:850-927: a file that does not fit in a bucket.
`position_in_bucket` is left as it was. -/
def bigStep (idx : Int) (b : Nat) (st : PState) (p : Placed) : PState :=
  let st1 := if st.cur ≠ [] then { st with done := st.done ++ [st.cur], cur := [], nOrders := 0 } else st
  let frag := orderRaw idx p.ref.ent (usub64 b p.ref.hdr) p.ref.hdr st1.posArch 0
  let st2 := { st1 with cur := st1.cur ++ [frag], nOrders := st1.nOrders + 1,
                        posArch := st1.posArch + b }
  bigLoop idx b p.ref.ent (p.ref.hdr + p.ref.ent.size - b) (usub64 b p.ref.hdr) st2

/-- parfu_file_system_classes.cc:800-929: one file. -/
def fileStep (idx : Int) (b mx : Nat) (st : PState) (p : Placed) : PState :=
  if p.ref.hdr + p.ref.ent.size ≤ b then smallStep idx b mx (p.ref.hdr + p.ref.ent.size) st p
  else bigStep idx b st p

/-- The state in which the loops start (lines 722-730). -/
def planInit : PState := { done := [], cur := [], posArch := 0, posBucket := 0, nOrders := 0 }

/-- parfu_file_system_classes.cc:683-931 `create_transfer_orders`: the bundles, as structured orders;
`none` is `nullptr`. -/
def createOrders (idx : Int) (b mx : Nat) (c : PColl) : Option (List (List Order)) :=
  if b < 100000 then none
  else if c.dirs = [] ∧ c.files = [] then none
  else
    let st := c.files.foldl (fileStep idx b mx) (c.dirs.foldl (dirStep idx b mx) planInit)
    some (st.done ++ [st.cur])

end Parfu
