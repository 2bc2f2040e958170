/-
Model of parfu 0.5.1's list of file fragments (parfu_primary.h, parfu_file_list_utils.cc): the
container, its growth, its release, the sort comparator and the rank call list.
-/
import Verif.Tar
set_option autoImplicit false

namespace Parfu

/-- parfu_primary.h:77 `parfu_file_t`. -/
inductive LKind where
  | reg | dir | lnk | invalid
  deriving DecidableEq, Repr

/-- parfu_primary.h:131-170 `parfu_file_fragment_entry_t`.  The pointers `relative_filename`,
`archive_filename` and `target` of a stored entry always point to strings of its own
(parfu_add_entry_to_ffel_raw makes an empty one for NULL), so they are the strings; the pointer
`pad_file_archive_filename` may be NULL and is copied as a pointer.
Simplification: `long int`/`int` fields are unbounded. -/
structure Frag where
  rel : Bytes
  arc : Bytes
  kind : LKind
  target : Bytes
  size : Int
  hdr : Int
  locA : Int
  locO : Int
  padLoc : Int
  padName : Option Bytes
  padHdr : Int
  padSize : Int
  nFrag : Int
  fp : Int
  bucket : Int
  deriving DecidableEq, Repr

/-- A slot of the array: initialised with NULL pointers, filled, or memory that `realloc` added and
nothing has written yet. -/
inductive Slot where
  | blank
  | full (f : Frag)
  | garbage
  deriving DecidableEq, Repr

/-- parfu_primary.h:172-176 `parfu_file_fragment_entry_list_t`; `slots` is all memory the allocation
has room for (`n_entries_total` of it is `total`, `n_entries_full` is `nfull`). -/
structure FList where
  total : Nat
  nfull : Nat
  slots : List Slot
  deriving DecidableEq, Repr

/-- The fragments in a list, `list[0 .. n_entries_full-1]`. -/
def FList.frags (l : FList) : List Frag :=
  (l.slots.take l.nfull).filterMap fun s => match s with | .full f => some f | _ => none

/-- parfu_file_list_utils.cc:27-76 `create_parfu_file_fragment_entry_list`: `none` is a NULL return.
Line 62 writes to `list[1]` whatever `i` is, which for one entry is outside the allocation. -/
def createList (n : Int) : Res (Option FList) :=
  if n < 1 then .ok none
  else if n = 1 then .error .ub
  else .ok (some ⟨n.toNat, 0, List.replicate n.toNat .blank⟩)

/-- parfu_file_list_utils.cc:235-246: a full list gets room for `2 * n_entries_total` entries
besides the one in the struct; the new memory is not initialised.
Simplification: memory is never exhausted. -/
def growList (l : FList) : FList :=
  if l.nfull ≥ l.total then
    { l with total := l.total * 2,
             slots := l.slots ++ List.replicate (l.total * 2 + 1 - l.slots.length) .garbage }
  else l

/-- parfu_file_list_utils.cc:247-322: fill the next slot. -/
def putEntry (l : FList) (f : Frag) : Res FList :=
  if l.nfull < l.slots.length then
    .ok { l with slots := l.slots.set l.nfull (.full f), nfull := l.nfull + 1 }
  else .error .ub

/-- parfu_file_list_utils.cc:191-327 `parfu_add_entry_to_ffel_raw` (the strings given are the copies
it makes).  Symlinks without target (line 230) are not modelled: no caller gives a link a NULL
target. -/
def addRaw (l : FList) (f : Frag) : Res FList := putEntry (growList l) f

/-- parfu_file_list_utils.cc:129-159 `parfu_add_entry_to_ffel_mod`. -/
def addMod (l : FList) (e : Frag) (size locA locO nFrag fp bucket : Int) : Res FList :=
  addRaw l { e with size := size, locA := locA, locO := locO, nFrag := nFrag, fp := fp, bucket := bucket }

/-- parfu_file_list_utils.cc:96-122 `parfu_add_name_to_ffel`; the target is empty for NULL. -/
def addName (l : FList) (kind : LKind) (rel arc target : Bytes) (size : Int) : Res FList :=
  match computeHdrSize rel target size with
  | .error e => .error e
  | .ok h => addRaw l ⟨rel, arc, kind, target, size, h, -1, -1, -1, none, -1, -1, -1, -1, -1⟩

/-- parfu_file_list_utils.cc:163-188 `parfu_add_entry_to_ffel`. -/
def addEntry (l : FList) (e : Frag) : Res FList := addRaw l e

/-- Is this slot uninitialised memory? -/
def isGarbage : Slot → Bool
  | .garbage => true
  | _ => false

/-- parfu_file_list_utils.cc:78-92 `parfu_free_ffel`: reads the pointers of all `n_entries_total`
slots; those of a slot nothing has written are garbage, and freeing them is undefined.
Simplification: only whether unwritten slots are read; the memory released, and pad names that several
entries share, are modelled by `freeP` (LegacyFree). -/
def freeList (l : FList) : Res Unit :=
  if (l.slots.take l.total).any isGarbage = true ∨ l.slots.length < l.total
  then .error .ub else .ok ()

/-- `strcmp`: the difference of the first bytes that differ, comparing no further than a NUL byte (the
end counts as one); its sign is what callers use. -/
def strcmp : Bytes → Bytes → Int
  | [], [] => 0
  | [], b :: _ => - (b.toNat : Int)
  | a :: _, [] => (a.toNat : Int)
  | a :: s, b :: t => if a = b then (if a = 0 then 0 else strcmp s t) else (a.toNat : Int) - b.toNat

/-- parfu_file_list_utils.cc:1526-1541 `parfu_compare_fragment_entry_by_size`. -/
def cmpFrag (a b : Frag) : Int :=
  if a.size > b.size then 1
  else if b.size > a.size then -1
  else strcmp a.arc b.arc

/-- What the C standard demands of a comparison function given to `qsort` (C17 7.22.5p4): it defines
a total ordering on the elements. -/
structure TotalCmp {α : Type} (cmp : α → α → Int) : Prop where
  refl : ∀ a, cmp a a = 0
  anti : ∀ a b, cmp a b < 0 ↔ 0 < cmp b a
  trans : ∀ a b c, cmp a b ≤ 0 → cmp b c ≤ 0 → cmp a c ≤ 0

/-- A conforming `qsort` (not necessarily stable): given a consistent comparison its result is a
rearrangement of the input in ascending order. -/
structure QSort (α : Type) where
  run : (α → α → Int) → List α → List α
  perm : ∀ cmp l, TotalCmp cmp → (run cmp l).Perm l
  sorted : ∀ cmp l, TotalCmp cmp → (run cmp l).Pairwise (fun a b => cmp a b ≤ 0)

/-- parfu_file_list_utils.cc:1543-1549 `parfu_qsort_entry_list`, on the fragments of the list. -/
def qsortEntries (Q : QSort Frag) (l : List Frag) : List Frag := Q.run cmpFrag l

/-- parfu_file_list_utils.cc:1877-1887, the loop of `parfu_rank_call_list_from_ffel`: `i` is the
current index, `last` the last bucket index seen; the list of the indices stored. -/
def rankCallLoop (i : Nat) (last : Int) : List Frag → List Nat
  | [] => []
  | f :: fs => if f.bucket ≠ last then i :: rankCallLoop (i + 1) f.bucket fs else rankCallLoop (i + 1) last fs

/-- parfu_file_list_utils.cc:1845-1899 `parfu_rank_call_list_from_ffel`: `none` is a NULL return;
`list[0]` is read (and `prelim_list[0]`, of an allocation of no bytes, written) even if there are no
entries. -/
def rankCallList (fs : List Frag) : Res (Option (List Nat)) :=
  match fs with
  | [] => .error .ub
  | f :: _ => if f.bucket ≠ 0 then .ok none else .ok (some (rankCallLoop 0 (-1) fs))

/-- parfu_data_transfer.cc:506-552, the loop of `parfu_wtar_archive_allbuckets_singFP` of one rank:
the values `rank_iter` takes, from `start` in steps of `n` (none for `n = 0` past the first, which
would not end; `n_ranks` is at least 1). -/
def rankBuckets (n total start : Nat) : List Nat :=
  if h : start < total ∧ 0 < n then start :: rankBuckets n total (start + n) else []
termination_by total - start

end Parfu
