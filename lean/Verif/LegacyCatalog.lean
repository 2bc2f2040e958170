/-
Model of parfu 0.5.1's catalog: parfu_buffer_utils.c (writing a list of fragments to a buffer and
reading it back).
-/
import Verif.LegacyList
import Verif.March
import Verif.Tar
set_option autoImplicit false

namespace Parfu

/-- Sequencing of C calls that return NULL (`none`) on failure; the caller returns NULL too. -/
def bindRO {α β : Type} (r : Res (Option α)) (f : α → Res (Option β)) : Res (Option β) :=
  match r with
  | .error e => .error e
  | .ok none => .ok none
  | .ok (some a) => f a

@[inherit_doc] infixl:55 " >>? " => bindRO

/-- A value stored in an `int`. -/
def wrap32 (x : Int) : Int := (x + 2 ^ 31) % 2 ^ 32 - 2 ^ 31

/-- `%010d` / `%010ld`. -/
def pad10 : Int → Bytes
  | .ofNat n => zpad 10 (digits 10 n)
  | .negSucc n => 45 :: zpad 9 (digits 10 (n + 1))

/-- parfu_file_list_utils.cc:1451-1462 `parfu_return_type_char` (parfu_primary.h:79-82). -/
def lTypeChar : LKind → UInt8
  | .reg => 70
  | .dir => 100
  | .lnk => 76
  | .invalid => 88

/-- parfu_buffer_utils.c:176-180 "parfu_v04 ". -/
def versionText : Bytes := [112, 97, 114, 102, 117, 95, 118, 48, 52, 32]

/-- parfu_buffer_utils.c:183-195 "archive   " or "full      ". -/
def typeText (arch : Bool) : Bytes :=
  if arch then [97, 114, 99, 104, 105, 118, 101, 32, 32, 32] else [102, 117, 108, 108, 32, 32, 32, 32, 32, 32]

/-- parfu_buffer_utils.c:387-409 `snprintf_to_full_buffer`, the whole text.  `nul` is what `%s` prints
for the NULL pointer `pad_file_archive_filename` of an entry without padding ("(null)" in glibc; not
defined by the C standard). -/
def lineFull (nul : Bytes) (e : Frag) : Bytes :=
  e.rel ++ [9] ++ (e.arc ++ [9]) ++ ([lTypeChar e.kind] ++ [9]) ++ (e.target ++ [9]) ++
  (decInt e.size ++ [9]) ++ (decInt e.hdr ++ [9]) ++ (decInt e.locA ++ [9]) ++ (decInt e.locO ++ [9]) ++
  (decInt e.padLoc ++ [9]) ++ (e.padName.getD nul ++ [9]) ++ (decInt e.padHdr ++ [9]) ++
  (decInt e.padSize ++ [9]) ++ (decInt e.nFrag ++ [9]) ++ (decInt e.fp ++ [9]) ++ (decInt e.bucket ++ [10])

/-- parfu_buffer_utils.c:411-423 `snprintf_to_archive_buffer`, the whole text. -/
def lineArc (e : Frag) : Bytes :=
  e.arc ++ [9] ++ ([lTypeChar e.kind] ++ [9]) ++ (e.target ++ [9]) ++
  (decInt e.size ++ [9]) ++ (decInt e.hdr ++ [9]) ++ (decInt e.locA ++ [10])

/-- parfu_buffer_utils.c:228-245: the size of the line buffer after it has been doubled until
the line and its NUL fit.
Simplification: `int` is unbounded here (a line is shorter than 2^30). -/
def growLine (size need : Nat) : Nat :=
  if h : need + 1 > size ∧ 0 < size then growLine (size * 2) need else size
termination_by need + 1 - size
decreasing_by omega

/-- parfu_buffer_utils.c:247-266: the capacity of the output buffer after it has been doubled until the
line fits; `none`: above `PARFU_MAXIMUM_BUFFER_SIZE`, NULL is returned (capacity 0, which would never
end, does not occur).  `remaining_bytes` is an
`int`. -/
def growOut (cap used need : Nat) : Option Nat :=
  if (need : Int) + 1 > wrap32 ((cap : Int) - used) then
    if cap * 2 > 1000000000 ∨ cap = 0 then none else growOut (cap * 2) used need
  else some cap
termination_by 1000000001 - cap

/-- parfu_buffer_utils.c:170-211, the five header lines; the first is a place holder.
parfu_primary.h:86: the terminator is a newline. -/
def catHeader (arch : Bool) (bucket : Int) (n : Nat) : Bytes :=
  (pad10 0 ++ [10]) ++ (versionText ++ [10]) ++ (typeText arch ++ [10]) ++ (pad10 bucket ++ [10]) ++
  (pad10 n ++ [10])

/-- parfu_buffer_utils.c:217-283, the loop over entries: `ls` is the size of the line buffer, `cap`
that of the output buffer, `out` what is in it.  A line that is cut off in the line buffer or written
past the end of the output buffer is undefined behaviour. -/
def writeLines (ls cap : Nat) (out : Bytes) : List Bytes → Res (Option Bytes)
  | [] => .ok (some out)
  | l :: lines =>
    let ls' := growLine ls l.length
    match growOut cap out.length l.length with
    | none => .ok none
    | some cap' =>
      if l.length + 1 > ls' ∨ out.length + l.length + 1 > cap' then .error .ub
      else writeLines ls' cap' (out ++ l) lines

/-- parfu_buffer_utils.c:148-149: the initial size of the output buffer (parfu_primary.h:94). -/
def catCap (arch : Bool) (n : Nat) : Nat := (if arch then 512 else 0) + 200 * n

/-- parfu_buffer_utils.c:219-224: the line of an entry. -/
def catLine (nul : Bytes) (arch : Bool) : Frag → Bytes := if arch then lineArc else lineFull nul

/-- parfu_buffer_utils.c:116-293 `parfu_fragment_list_to_buffer`: NULL, or the `*buffer_length` bytes
of the buffer.  Initial line buffer from parfu_primary.h:93; `PARFU_DEFAULT_SIZE_PER_LINE *
n_entries_full` is `int` arithmetic.
Simplification: memory is never exhausted. -/
def listToBuffer (nul : Bytes) (arch : Bool) (bucket : Int) (es : List Frag) : Res (Option Bytes) :=
  if 200 * es.length ≥ 2 ^ 31 ∨ catCap arch es.length < (catHeader arch bucket es.length).length + 1 then .error .ub
  else
    writeLines 1000 (catCap arch es.length) (catHeader arch bucket es.length) (es.map (catLine nul arch)) >>? fun out =>
    if (pad10 out.length).length ≠ 10 then .ok none
    else .ok (some (pad10 out.length ++ [10] ++ out.drop 11))

/-- `strtol(p, &end, 10)`: `none` if there is no number (`end == p`), otherwise the value (that of the
nearest `long` if too large) and the text from `end` on.  A buffer that ends within the white space or
the number is read past its end. -/
def strtol (s : Bytes) : Res (Option (Int × Bytes)) :=
  let t := s.dropWhile isSpace
  let u := if t.head? = some 45 ∨ t.head? = some 43 then t.drop 1 else t
  if u = [] then .error .ub
  else match readNum 10 u with
  | none => .ok none
  | some (n, r) =>
    if r = [] then .error .ub
    else
      let v : Int := if t.head? = some 45 then -(n : Int) else n
      .ok (some (max (-(2 ^ 63)) (min v (2 ^ 63 - 1)), r))

/-- `!strncmp(p, lit, strlen(lit))` for a text `lit` without NUL. -/
def startsWith : Bytes → Bytes → Res Bool
  | [], _ => .ok true
  | _ :: _, [] => .error .ub
  | c :: lit, d :: s => if c = d then startsWith lit s else .ok false

/-- parfu_buffer_utils.c:777-804 `parfu_get_next_filename` with a TAB: the text up to it and what
follows it; `none` (NULL) if a NUL comes first. -/
def nextName : Bytes → Res (Option (Bytes × Bytes))
  | [] => .error .ub
  | c :: s =>
    if c = 9 then .ok (some ([], s))
    else if c = 0 then .ok none
    else nextName s >>? fun (n, r) => .ok (some (c :: n, r))

/-- parfu_buffer_utils.c:666-673 (and 674-765), one numerical value: NULL if there is none; the position is put one
past the end of it. -/
def nextNum (s : Bytes) : Res (Option (Int × Bytes)) :=
  strtol s >>? fun (v, r) => .ok (some (v, r.drop 1))

/-- parfu_buffer_utils.c:636-651: the type character; the position moves by two. -/
def nextType : Bytes → Res (Option (LKind × Bytes))
  | [] => .error .ub
  | c :: s =>
    if c = 70 then .ok (some (.reg, s.drop 1))
    else if c = 100 then .ok (some (.dir, s.drop 1))
    else if c = 76 then .ok (some (.lnk, s.drop 1))
    else .ok none

/-- parfu_buffer_utils.c:598-767, one entry of a full catalog. -/
def readFull (s : Bytes) : Res (Option (Frag × Bytes)) :=
  nextName s >>? fun (rel, s) => nextName s >>? fun (arc, s) => nextType s >>? fun (kind, s) =>
  nextName s >>? fun (target, s) => nextNum s >>? fun (size, s) => nextNum s >>? fun (hdr, s) =>
  nextNum s >>? fun (locA, s) => nextNum s >>? fun (locO, s) => nextNum s >>? fun (padLoc, s) =>
  nextName s >>? fun (padName, s) => nextNum s >>? fun (padHdr, s) => nextNum s >>? fun (padSize, s) =>
  nextNum s >>? fun (nFrag, s) => nextNum s >>? fun (fp, s) => nextNum s >>? fun (bucket, s) =>
  .ok (some (⟨rel, arc, kind, target, size, hdr, locA, locO, padLoc, some padName, padHdr, padSize,
    wrap32 nFrag, wrap32 fp, wrap32 bucket⟩, s))

/-- What an archive catalog has of an entry. -/
structure ArcRec where
  arc : Bytes
  kind : LKind
  target : Bytes
  size : Int
  hdr : Int
  locA : Int
  deriving DecidableEq, Repr

/-- parfu_buffer_utils.c:598-767, one entry of an archive catalog.
Simplification: the fields that are not read (`relative_filename` becomes NULL, the rest keeps what the
new list had) are left out. -/
def readArc (s : Bytes) : Res (Option (ArcRec × Bytes)) :=
  nextName s >>? fun (arc, s) => nextType s >>? fun (kind, s) =>
  nextName s >>? fun (target, s) => nextNum s >>? fun (size, s) => nextNum s >>? fun (hdr, s) =>
  nextNum s >>? fun (locA, s) => .ok (some (⟨arc, kind, target, size, hdr, locA⟩, s))

/-- parfu_buffer_utils.c:598-767, the loop over `n` entries: `len` is the length of the buffer, `total`
the length written in it. -/
def readEntries {α : Type} (one : Bytes → Res (Option (α × Bytes))) (len : Nat) (total : Int) :
    Nat → Bytes → Res (Option (List α))
  | 0, _ => .ok (some [])
  | n + 1, s =>
    if (len : Int) - s.length > total then .ok none
    else one s >>? fun (e, r) => readEntries one len total n r >>? fun es => .ok (some (e :: es))

/-- parfu_buffer_utils.c:514-593: the header: total length, bucket size, number of entries, and the
rest; NULL if it is not accepted.  (Limits: parfu_primary.h:67-68.) -/
def readHeader (arch : Bool) (buf : Bytes) : Res (Option (Int × Int × Int × Bytes)) :=
  nextNum buf >>? fun (total, s) =>
  match startsWith versionText s with
  | .error e => .error e
  | .ok false => .ok none
  | .ok true =>
    match startsWith (typeText arch) (s.drop 11) with
    | .error e => .error e
    | .ok false => .ok none
    | .ok true =>
      nextNum ((s.drop 11).drop 11) >>? fun (b, s) =>
      if wrap32 b < 100000 then .ok none
      else if wrap32 b > 500000000 then .ok none
      else nextNum s >>? fun (n, s) =>
        if wrap32 n < 1 then .ok none
        else .ok (some (total, wrap32 b, wrap32 n, s))

/-- parfu_buffer_utils.c:463-775 `parfu_buffer_to_file_fragment_list`: NULL, or the bucket size and the
entries.  Line 589 creates a list of the given length. -/
def bufferToList {α : Type} (one : Bytes → Res (Option (α × Bytes))) (arch : Bool) (buf : Bytes) :
    Res (Option (Int × List α)) :=
  readHeader arch buf >>? fun (total, b, n, s) =>
  createList n >>? fun _ =>
  readEntries one buf.length total n.toNat s >>? fun es => .ok (some (b, es))

/-- `parfu_buffer_to_file_fragment_list(buf, &bucket_size, 0)`. -/
def readFullCatalog (buf : Bytes) : Res (Option (Int × List Frag)) := bufferToList readFull false buf

/-- `parfu_buffer_to_file_fragment_list(buf, &bucket_size, 1)`. -/
def readArcCatalog (buf : Bytes) : Res (Option (Int × List ArcRec)) := bufferToList readArc true buf

/-- parfu_primary.h:65, parfu_buffer_utils.c:303 ".parfu_catalog". -/
def catalogName : Bytes := [46, 112, 97, 114, 102, 117, 95, 99, 97, 116, 97, 108, 111, 103]

/-- parfu_buffer_utils.c:348 ".parfu_spacer ". -/
def spacerName : Bytes := [46, 112, 97, 114, 102, 117, 95, 115, 112, 97, 99, 101, 114, 32]

/-- parfu_buffer_utils.c:302-316, 347-361: the fields of the header structure (28-46), with the size
(327-328), the time and a checksum field. -/
def legacyFields (name : Bytes) (size : Int) (mtime : Nat) (chk : Bytes) : List Bytes :=
  [ fieldStr 100 name,
    [48, 48, 48, 48, 54, 48, 48, 0],
    [48, 48, 48, 48, 48, 48, 48, 0],
    [48, 48, 48, 48, 48, 48, 48, 0],
    fieldOct 12 (u64 size),
    fieldOct 12 mtime,
    chk,
    [48],
    zeros 100,
    [117, 115, 116, 97, 114, 0],
    [48, 48],
    fieldStr 32 [114, 111, 111, 116],
    fieldStr 32 [114, 111, 111, 116],
    [48, 48, 48, 48, 48, 48, 48, 0],
    [48, 48, 48, 48, 48, 48, 48, 0],
    zeros 155,
    zeros 12 ]

/-- parfu_buffer_utils.c:297-385 `parfu_construct_tar_header_for_catalog` (name ".parfu_catalog") and
`parfu_construct_tar_header_for_space` (name ".parfu_spacer "); `mtime` is `time(NULL)`. -/
def legacyHeader (name : Bytes) (size : Int) (mtime : Nat) : Bytes :=
  (legacyFields name size mtime (chksumField (byteSum (legacyFields name size mtime (List.replicate 8 32)).flatten))).flatten

/-- parfu_buffer_utils.c:806-809, 843-844: where the length is read. -/
def lengthAt (skip : Bool) (file : Bytes) : Bytes := if skip then file.drop 512 else file

/-- parfu_buffer_utils.c:811-902 `parfu_ffel_from_file`: the file's contents are `file`; NULL, or
bucket size and entries, and the catalog length.  The length is read after the tar header if
`skip` is set, but the catalog is then parsed from the beginning of the file (a negative `int` length
makes `malloc` fail).
Simplification: the file exists. -/
def fromFile (skip : Bool) (file : Bytes) : Res (Option (Int × List ArcRec × Int)) :=
  if (lengthAt skip file).length < 11 then .ok none
  else strtol ((lengthAt skip file).take 11) >>? fun (v, _) =>
    if wrap32 (v + 512) < 0 ∨ file.length < wrap32 (v + 512) then .ok none
    else readArcCatalog (file.take (wrap32 (v + 512)).toNat) >>? fun (b, es) => .ok (some (b, es, wrap32 (v + 512)))

end Parfu
