/-
Model of the memory behind parfu 0.5.1's lists (parfu_file_list_utils.cc): which strings the entries
of a list point to, what the layout makes two lists share, and what `parfu_free_ffel` releases.
-/
import Verif.LegacySplit
set_option autoImplicit false

namespace Parfu

/-- The memory allocated: the addresses `malloc` returned that have not been freed, and an address not
used so far.
Simplification: memory is never exhausted and addresses are never reused (using an address after it has
been freed is undefined whether or not it has been handed out again). -/
structure Mem where
  live : List Nat
  next : Nat
  deriving DecidableEq, Repr

/-- C library `malloc`. -/
def Mem.malloc (m : Mem) : Nat × Mem := (m.next, ⟨m.next :: m.live, m.next + 1⟩)

/-- C library `free` of a pointer that is not NULL: undefined unless it is allocated. -/
def Mem.free (m : Mem) (a : Nat) : Res Mem :=
  if a ∈ m.live then .ok { m with live := m.live.erase a } else .error .ub

/-- Free some pointers one after the other. -/
def Mem.freeAll (m : Mem) : List Nat → Res Mem
  | [] => .ok m
  | a :: as => match m.free a with
    | .error x => .error x
    | .ok m' => m'.freeAll as

/-- The pointers of a filled entry: `relative_filename`, `archive_filename`, `target` (never NULL) and
`pad_file_archive_filename` (`none` is NULL). -/
structure Ptrs where
  rel : Nat
  arc : Nat
  target : Nat
  pad : Option Nat
  deriving DecidableEq, Repr

/-- A list in memory: its own address, its contents, and the pointers in its filled entries. -/
structure PList where
  self : Nat
  list : FList
  ptrs : List Ptrs
  deriving DecidableEq, Repr

/-- parfu_file_list_utils.cc:27-76 `create_parfu_file_fragment_entry_list` with its memory. -/
def createP (m : Mem) (n : Int) : Res (Option (Mem × PList)) :=
  match createList n with
  | .error x => .error x
  | .ok none => .ok none
  | .ok (some l) => .ok (some (m.malloc.2, ⟨m.malloc.1, l, []⟩))

/-- parfu_file_list_utils.cc:235-246: a full list is moved by `realloc`.
Simplification: `realloc` always moves. -/
def growP (m : Mem) (l : PList) : Res (Mem × Nat) :=
  if l.list.nfull ≥ l.list.total then
    match m.free l.self with
    | .error x => .error x
    | .ok m' => .ok (m'.malloc.2, m'.malloc.1)
  else .ok (m, l.self)

/-- parfu_file_list_utils.cc:247-318: the new entry's first three strings are copies in memory of their
own; the pad's name is the pointer given. -/
def putP (m : Mem) (self : Nat) (l : FList) (ps : List Ptrs) (pad : Option Nat) : Mem × PList :=
  let a := m.malloc
  let b := a.2.malloc
  let c := b.2.malloc
  (c.2, ⟨self, l, ps ++ [⟨a.1, b.1, c.1, pad⟩]⟩)

/-- parfu_file_list_utils.cc:191-327 `parfu_add_entry_to_ffel_raw` with its memory; `pad` is
`my_pad_file_archive_filename`. -/
def addP (m : Mem) (l : PList) (f : Frag) (pad : Option Nat) : Res (Mem × PList) :=
  match growP m l with
  | .error x => .error x
  | .ok (m', self) =>
    match addRaw l.list f with
    | .error x => .error x
    | .ok l' => .ok (putP m' self l' l.ptrs pad)

/-- The pointers `parfu_free_ffel` frees for one entry, in order (lines 81-88). -/
def Ptrs.all (p : Ptrs) : List Nat := [p.rel, p.arc, p.target] ++ p.pad.toList

/-- All pointers `parfu_free_ffel` frees: the entries' and the list's own. -/
def PList.all (l : PList) : List Nat := l.ptrs.flatMap Ptrs.all ++ [l.self]

/-- parfu_file_list_utils.cc:78-92 `parfu_free_ffel` with the memory it releases: undefined where
slots are read that nothing has written (`freeList`), or a pointer is freed that is not allocated. -/
def freeP (m : Mem) (l : PList) : Res Mem :=
  match freeList l.list with
  | .error x => .error x
  | .ok () => m.freeAll l.all

/-- Add the fragments of one file to the list the layout returns (parfu_file_list_utils.cc:748-765,
894-910, 1077-1166): each is a modified copy of the same entry, and so has the same pointer to the
pad's name. -/
def addFragsP (m : Mem) (out : PList) (pad : Option Nat) : List Frag → Res (Mem × PList)
  | [] => .ok (m, out)
  | f :: fs =>
    match addP m out f pad with
    | .error x => .error x
    | .ok (m', out') => addFragsP m' out' pad fs

/-- parfu_file_list_utils.cc:872-883, 1063-1071: memory for the name of the pad before an entry, if it
has one. -/
def padP (m : Mem) (e : Frag) : Mem × Option Nat :=
  match e.padName with
  | none => (m, none)
  | some _ => (m.malloc.2, some m.malloc.1)

/-- parfu_file_list_utils.cc:687-1168: the memory the loop allocates, for the entries as updated and
their fragments; also the pointers it stores in the entries of the incoming list. -/
def layoutP (m : Mem) (out : PList) : List (Frag × List Frag) → Res (Mem × PList × List (Option Nat))
  | [] => .ok (m, out, [])
  | g :: gs =>
    match addFragsP (padP m g.1).1 out (padP m g.1).2 g.2 with
    | .error x => .error x
    | .ok (m', out') =>
      match layoutP m' out' gs with
      | .error x => .error x
      | .ok (m'', out'', ps) => .ok (m'', out'', (padP m g.1).2 :: ps)

/-- parfu_file_list_utils.cc:872, 1063: the pointer put into an entry of the incoming list. -/
def Ptrs.setPad (p : Ptrs) (q : Option Nat) : Ptrs := match q with | none => p | some a => { p with pad := some a }

/-- parfu_file_list_utils.cc:632-1172 `parfu_set_offsets_and_split_ffel` with its memory: the incoming
list (its entries now hold pointers to the pads' names) and the list returned.
Simplifications: of the incoming list's contents only the pointers are updated; what a NULL return
leaves allocated is not modelled. -/
def splitP (bl acc : Int) (pad : Bytes) (m : Mem) (l : PList) : Res (Option (Mem × PList × PList)) :=
  match createP m l.list.frags.length with
  | .error x => .error x
  | .ok none => .ok none
  | .ok (some (m1, out)) =>
    match splitLoop bl acc pad ⟨0, 0, 0⟩ l.list.frags with
    | .error x => .error x
    | .ok none => .ok none
    | .ok (some (gs, _)) =>
      match layoutP m1 out gs with
      | .error x => .error x
      | .ok (m2, out', ps) => .ok (some (m2, { l with ptrs := List.zipWith Ptrs.setPad l.ptrs ps }, out'))

end Parfu
