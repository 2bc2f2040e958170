/-
Specification: an independent reader of POSIX ustar/pax archives, written from the format
description (POSIX.1 pax "ustar Interchange Format" and "pax Extended Header"), not from parfu.
Nothing here refers to the model of tarentry.cc.
-/
import Verif.Num
set_option autoImplicit false

namespace Parfu.TarSpec
open Parfu

/-- Bytes `[off, off+len)`. -/
def slice (off len : Nat) (b : Bytes) : Bytes := (b.drop off).take len

/-- A NUL-terminated (or completely filled) text field. -/
def text (f : Bytes) : Bytes := f.takeWhile (· ≠ 0)

/-- An octal number field: optional blanks, octal digits, then blank, NUL or end of field. -/
def octal (f : Bytes) : Option Nat :=
  match readNum 8 (f.dropWhile (· = 32)) with
  | none => none
  | some (n, rest) =>
    match rest.head? with
    | none => some n
    | some c => if c = 0 ∨ c = 32 then some n else none

/-- The sum of the bytes of a block with the checksum field counted as blanks. -/
def blockSum (b : Bytes) : Nat :=
  ((slice 0 148 b ++ List.replicate 8 32 ++ slice 156 356 b).map UInt8.toNat).sum

/-- The checksum field of a 512-byte block is right. -/
def checksumOk (b : Bytes) : Prop := b.length = 512 ∧ octal (slice 148 8 b) = some (blockSum b)

instance (b : Bytes) : Decidable (checksumOk b) := inferInstanceAs (Decidable (_ ∧ _))

/-- What one ustar block says. -/
structure Raw where
  name : Bytes
  mode : Nat
  uid : Nat
  gid : Nat
  size : Nat
  mtime : Nat
  flag : UInt8
  linkname : Bytes
  uname : Bytes
  gname : Bytes
  deriving DecidableEq, Repr

/-- Parse one 512-byte ustar block. -/
def parseBlock (b : Bytes) : Option Raw :=
  if checksumOk b ∧ slice 257 6 b = [117, 115, 116, 97, 114, 0] ∧ slice 263 2 b = [48, 48] ∧
      text (slice 345 155 b) = [] then do
    let mode ← octal (slice 100 8 b)
    let uid ← octal (slice 108 8 b)
    let gid ← octal (slice 116 8 b)
    let size ← octal (slice 124 12 b)
    let mtime ← octal (slice 136 12 b)
    let flag ← (slice 156 1 b).head?
    return { name := text (slice 0 100 b), mode, uid, gid, size, mtime, flag,
             linkname := text (slice 157 100 b), uname := text (slice 265 32 b),
             gname := text (slice 297 32 b) }
  else none

/-- Parse pax records `"%d key=value\n"`: the number counts the whole record. -/
def parsePax (b : Bytes) : Option (List (Bytes × Bytes)) :=
  if _hb : b = [] then some []
  else
    match readNum 10 b with
    | none => none
    | some (n, _) =>
      if _h : 0 < n ∧ n ≤ b.length then
        let r := b.take n
        let body := (r.dropWhile (isDigit 10))
        if body.head? = some 32 ∧ r.getLast? = some 10 ∧ 61 ∈ body then
          let kv := (body.drop 1).dropLast
          let key := kv.takeWhile (· ≠ 61)
          let val := (kv.dropWhile (· ≠ 61)).drop 1
          match parsePax (b.drop n) with
          | none => none
          | some l => some ((key, val) :: l)
        else none
      else none
termination_by b.length
decreasing_by
  have : 0 < b.length := List.length_pos_iff.2 _hb
  simp; omega

/-- An archive member. -/
structure Member where
  path : Bytes
  flag : UInt8
  linkpath : Bytes
  mode : Nat
  uid : Nat
  gid : Nat
  mtime : Nat
  uname : Bytes
  gname : Bytes
  size : Nat
  data : Bytes
  deriving DecidableEq, Repr

/-- Round up to whole 512-byte blocks. -/
def pad512 (n : Nat) : Nat := (n + 511) / 512 * 512

/-- The keywords path, linkpath, size. -/
def kPath : Bytes := [112, 97, 116, 104]
def kLinkpath : Bytes := [108, 105, 110, 107, 112, 97, 116, 104]
def kSize : Bytes := [115, 105, 122, 101]

/-- The size a list of pax records gives, if any (`some none` : malformed). -/
def paxSizeVal (recs : List (Bytes × Bytes)) (dflt : Nat) : Option Nat :=
  match recs.lookup kSize with
  | none => some dflt
  | some v => match readNum 10 v with
    | some (n, []) => some n
    | _ => none

/-- Build the member described by a block and its extended records, taking its data. -/
def takeData (r : Raw) (recs : List (Bytes × Bytes)) (rest : Bytes) : Option (Member × Bytes) :=
  match paxSizeVal recs r.size with
  | none => none
  | some size =>
    if rest.length < size then none
    else some
      ({ path := (recs.lookup kPath).getD r.name, flag := r.flag,
         linkpath := (recs.lookup kLinkpath).getD r.linkname, mode := r.mode, uid := r.uid,
         gid := r.gid, mtime := r.mtime, uname := r.uname, gname := r.gname, size := size,
         data := rest.take size }, rest.drop (pad512 size))

/-- Read one member (with its extended header, flag 'x', if there is one) off the front of an
archive. -/
def readMember (b : Bytes) : Option (Member × Bytes) :=
  match parseBlock (b.take 512) with
  | none => none
  | some r =>
    if r.flag = 120 then
      if (b.drop 512).length < r.size then none
      else match parsePax ((b.drop 512).take r.size) with
        | none => none
        | some recs =>
          match parseBlock (((b.drop 512).drop (pad512 r.size)).take 512) with
          | none => none
          | some r' =>
            if r'.flag = 120 then none
            else takeData r' recs (((b.drop 512).drop (pad512 r.size)).drop 512)
    else takeData r [] (b.drop 512)

/-- Read a whole archive: members until the file ends or two zero blocks are met. -/
def readArchive (b : Bytes) : Option (List Member) :=
  if b = [] ∨ b.take 1024 = zeros 1024 then some []
  else match readMember b with
    | none => none
    | some (m, rest) =>
      if _h : rest.length < b.length then
        match readArchive rest with
        | none => none
        | some ms => some (m :: ms)
      else none
termination_by b.length

/-- The archive is properly terminated: the members are followed by two zero blocks. -/
def terminated (b : Bytes) : Bool :=
  if b.take 1024 = zeros 1024 then true
  else match readMember b with
    | none => false
    | some (_, rest) => if _h : rest.length < b.length then terminated rest else false
termination_by b.length

/-- The lengths of directory paths (given without a slash at the end) for which the header written is
larger than the one planned (see `C05_planned_iff`, which shows these are the only ones). -/
def badDirLengths : List Nat := [100, 502, 1013, 1525, 2037, 2549, 3061, 3573, 4085]

end Parfu.TarSpec
