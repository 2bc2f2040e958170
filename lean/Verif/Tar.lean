/-
Model of tarentry.cc / tarentry.hh: the tar header writer shared by both parfu programs.
-/
import Verif.Base
set_option autoImplicit false

namespace Parfu

/-- The file type part of `st_mode` (`S_ISREG`, `S_ISDIR`, `S_ISLNK`, anything else). -/
inductive Kind where
  | reg | dir | lnk | other
  deriving DecidableEq, Repr

/-- The members of `struct stat` that tarentry.cc uses.
Simplification: `st_mode` is split into its file-type part `kind` and its other bits `perm`. -/
structure Stat where
  kind : Kind
  perm : Nat
  uid : Nat
  gid : Nat
  /-- `st_size` (`off_t`, signed) -/
  size : Int
  /-- `st_mtime` (`time_t`, signed) -/
  mtime : Int
  deriving DecidableEq, Repr

/-- The user and group data base: `getpwuid(uid)->pw_name`, `getgrgid(gid)->gr_name`. -/
structure Env where
  pwName : Nat → Option Bytes
  grName : Nat → Option Bytes

/-- tarentry.hh:104-107, the data members of class `tarentry`.
Simplification: `filename.c_str()` and `linkname.c_str()` are the whole strings (POSIX paths
contain no NUL; the theorems that need it say so). -/
structure TarEntry where
  offset : Nat
  stat : Stat
  filename : Bytes
  linkname : Bytes
  deriving DecidableEq, Repr

/-- tarentry.hh:74 `MAX_FILE_SIZE 077777777777`. -/
def maxFileSize : Int := 0o77777777777

/-- tarentry.hh:66-69 type flags. -/
def REGTYPE : UInt8 := 48
def SYMTYPE : UInt8 := 50
def DIRTYPE : UInt8 := 53
def XHDTYPE : UInt8 := 120

/-- The keywords `"path"`, `"linkpath"`, `"size"` of tarentry.cc:154-170. -/
def kwPath : Bytes := [112, 97, 116, 104]
def kwLinkpath : Bytes := [108, 105, 110, 107, 112, 97, 116, 104]
def kwSize : Bytes := [115, 105, 122, 101]

/-- tarentry.cc:317 `snprintf(NULL,0,"%d %s=%s\n",oldlen,keyword,value)`. -/
def recordLenWith (old : Nat) (kw val : Bytes) : Nat :=
  (digits 10 old).length + 1 + kw.length + 1 + val.length + 1

/-- tarentry.cc:315-319, the do-while loop of `record_length`; `count` is the variable of that
name and the assertion `count++ < 3` comes before the loop test.
Simplification: `int` is unbounded (names are shorter than 2^31). -/
def recordLengthLoop (kw val : Bytes) (count old : Nat) : Res Nat :=
  if h : count < 3 then
    if old = recordLenWith old kw val then .ok (recordLenWith old kw val)
    else recordLengthLoop kw val (count + 1) (recordLenWith old kw val)
  else .error .assertFail
termination_by 3 - count

/-- tarentry.cc:311-322 `record_length`. -/
def recordLength (kw val : Bytes) : Res Nat :=
  recordLengthLoop kw val 0 (kw.length + val.length + 5)

/-- tarentry.cc:154-171 and 199-209: the (keyword, value) pairs that need an extended record,
in the order in which they are written. -/
def paxPairs (e : TarEntry) : List (Bytes × Bytes) :=
  (if e.filename.length > 100 then [(kwPath, e.filename)] else []) ++
  (if e.linkname.length > 100 then [(kwLinkpath, e.linkname)] else []) ++
  (if e.stat.kind = .reg ∧ e.stat.size > maxFileSize then [(kwSize, digits 10 (u64 e.stat.size))]
   else [])

/-- Sum of the record lengths of a list of pairs, failing if one fails. -/
def paxSizeOf : List (Bytes × Bytes) → Res Nat
  | [] => .ok 0
  | (k, v) :: ps => do
    let n ← recordLength k v
    let m ← paxSizeOf ps
    return n + m

/-- tarentry.cc:191-212 `get_paxsize`. -/
def getPaxSize (e : TarEntry) : Res Nat := paxSizeOf (paxPairs e)

/-- tarentry.cc:130, 186: `pax_hdr_sz`. -/
def paxHdrSz (paxSz : Nat) : Nat := if paxSz > 0 then roundToBlock (blk + paxSz) else 0

/-- tarentry.cc:183-189 `hdr_size`. -/
def hdrSize (e : TarEntry) : Res Nat := do
  let p ← getPaxSize e
  return blk + paxHdrSz p

/-- tarentry.hh:95 `get_filesize`. -/
def getFilesize (e : TarEntry) : Nat := if e.stat.kind = .reg then u64 e.stat.size else 0

/-- tarentry.cc:178-181 `size`. -/
def entrySize (e : TarEntry) : Res Nat := do
  let h ← hdrSize e
  return h + roundToBlock (getFilesize e)

/-- `strncpy(dst, s, n)` into a zeroed field, or `memcpy` of the first `n` bytes of a longer
string (tarentry.cc:248-252, 298-302). -/
def fieldStr (n : Nat) (s : Bytes) : Bytes := s.take n ++ zeros (n - s.length)

/-- `snprintf(dst, n, "%s", s)` into a zeroed field of `n` bytes: at most `n-1` bytes and NUL. -/
def fieldSnprintf (n : Nat) (s : Bytes) : Bytes := fieldStr n (s.take (n - 1))

/-- `snprintf(dst, n, "%0*o", n-1, v)`. -/
def fieldOct (n v : Nat) : Bytes := fieldSnprintf n (zpad (n - 1) (digits 8 v))

/-- tarentry.cc:304-306: sum of the bytes of the block. -/
def byteSum (b : Bytes) : Nat := (b.map UInt8.toNat).sum

/-- tarentry.cc:271, 307: the checksum field: eight blanks over which
`snprintf(hdr.chksum, 8, "0%-lo", checksum)` is written (its last bytes stay blank). -/
def chksumField (sum : Nat) : Bytes :=
  let s := (48 :: digits 8 sum).take 7 ++ [0]
  s ++ List.replicate (8 - s.length) 32

/-- tarentry.cc:272-281: the type flag. -/
def typeFlag (xtype : UInt8) (k : Kind) : UInt8 :=
  if xtype ≠ 0 then xtype
  else match k with
    | .lnk => SYMTYPE
    | .dir => DIRTYPE
    | _ => REGTYPE

/-- The fields of tarentry.hh:45-63 in order, given a checksum field; values from
tarentry.cc:241-302. -/
def ustarFields (xtype : UInt8) (st : Stat) (fn ln uname gname chk : Bytes) : List Bytes :=
  [ fieldStr 100 fn,
    fieldOct 8 (st.perm % 4096),
    fieldOct 8 (if xtype ≠ 0 then 0 else st.uid),
    fieldOct 8 (if xtype ≠ 0 then 0 else st.gid),
    fieldOct 12 (let size : Int := if st.kind = .reg then st.size else 0
                 if size < maxFileSize then u64 size else 0),
    fieldOct 12 (u64 st.mtime),
    chk,
    [typeFlag xtype st.kind],
    fieldStr 100 (if st.kind = .lnk then ln else []),
    [117, 115, 116, 97, 114, 0],
    [48, 48],
    if xtype ≠ 0 then zeros 32 else fieldSnprintf 32 uname,
    if xtype ≠ 0 then zeros 32 else fieldSnprintf 32 gname,
    if xtype ≠ 0 then zeros 8 else fieldOct 8 0,
    if xtype ≠ 0 then zeros 8 else fieldOct 8 0,
    zeros 155,
    zeros 12 ]

/-- tarentry.cc:214-308 `make_ustar_header_block`. -/
def ustarBlock (env : Env) (xtype : UInt8) (st : Stat) (fn ln : Bytes) : Res Bytes :=
  if st.kind = .other then .error (.exit 1)
  else match env.grName st.gid with
    | none => .error (.exit 1)
    | some g =>
      match env.pwName st.uid with
      | none => .error (.exit 1)
      | some u =>
        let sum := byteSum (ustarFields xtype st fn ln u g (List.replicate 8 32)).flatten
        .ok (ustarFields xtype st fn ln u g (chksumField sum)).flatten

/-- Drop trailing `/`. -/
def stripSlashes (s : Bytes) : Bytes := (s.reverse.dropWhile (· == 47)).reverse

/-- libgen `basename` as used in tarentry.cc:142 (its result is only used in the name of the
extended-header block). -/
def basenameC (s : Bytes) : Bytes :=
  if s = [] then [46]
  else if stripSlashes s = [] then [47]
  else ((stripSlashes s).reverse.takeWhile (· != 47)).reverse

/-- libgen `dirname` as used in tarentry.cc:141. -/
def dirnameC (s : Bytes) : Bytes :=
  if stripSlashes s = [] then (if s = [] then [46] else [47])
  else
    let d := ((stripSlashes s).reverse.dropWhile (· != 47)).reverse
    if d = [] then [46] else if stripSlashes d = [] then [47] else stripSlashes d

/-- tarentry.cc:138-142: `dirname(fn) + "/" + basename(fn) + ".paxhdr"`. -/
def paxName (fn : Bytes) : Bytes :=
  dirnameC fn ++ [47] ++ basenameC fn ++ [46, 112, 97, 120, 104, 100, 114]

/-- tarentry.cc:156 etc. `"%d path=%s\n"` with `record_length` as number. -/
def paxRecord (kw val : Bytes) : Res Bytes := do
  let n ← recordLength kw val
  return digits 10 n ++ [32] ++ kw ++ [61] ++ val ++ [10]

/-- tarentry.cc:149-171: records are laid one after the other from `&full_hdr[512]`; `cap` is the
number of bytes up to the real header (`q - p - 1` at the start), `buf` what has been laid so far.
`snprintf` truncates a record that does not fit, and then the following `assert(p < q)` fails. -/
def layRecords (cap : Nat) : List (Bytes × Bytes) → Bytes → Res Bytes
  | [], buf => .ok (buf ++ zeros (cap - buf.length))
  | (k, v) :: ps, buf => do
    let r ← paxRecord k v
    if buf.length + r.length < cap + 1 then layRecords cap ps (buf ++ r)
    else .error .assertFail

/-- tarentry.cc:127-176 `make_tar_header`. -/
def makeTarHeader (env : Env) (e : TarEntry) : Res Bytes := do
  let paxSz ← getPaxSize e
  let pre ← (if paxSz > 0 then do
      let b ← ustarBlock env XHDTYPE { e.stat with kind := .reg, perm := 0o644, size := (paxSz : Int) }
        (paxName e.filename) []
      let body ← layRecords (paxHdrSz paxSz - blk) (paxPairs e) []
      return b ++ body
    else return [])
  let h ← ustarBlock env 0 e.stat e.filename e.linkname
  return pre ++ h

/-- tarentry.cc:324-333 `compute_hdr_size`: a dummy entry that is always a regular file. -/
def computeHdrSize (name linkname : Bytes) (size : Int) : Res Nat :=
  hdrSize { offset := 0
            stat := { kind := .reg, perm := 0, uid := 0, gid := 0, size := size, mtime := 0 }
            filename := name, linkname := linkname }

/-- `PATH_MAX` of `limits.h` on Linux. -/
def pathMax : Nat := 4096

/-- tarentry.cc:48-84, the constructor from a path.  `lstat` is the file system: stat buffer and
link target of a path.  `buf[st_size] = '\0'` makes the link name the first `st_size` bytes of the
target; a larger `st_size` reads uninitialised memory, one of `PATH_MAX` or more writes out of
bounds. `*filename.rbegin()` of an empty name is undefined. -/
def tarentryCtor (lstat : Bytes → Option (Stat × Bytes)) (fn : Bytes) (off : Nat) : Res TarEntry :=
  match lstat fn with
  | none => .error (.exit 1)
  | some (st, tgt) =>
    if st.kind = .lnk then
      if st.size < 0 ∨ (pathMax : Int) ≤ st.size ∨ (tgt.length : Int) < st.size then .error .ub
      else .ok { offset := off, stat := st, filename := fn, linkname := tgt.take st.size.toNat }
    else if st.kind = .dir then
      match fn.getLast? with
      | none => .error .ub
      | some c => .ok { offset := off, stat := st, filename := if c = 47 then fn else fn ++ [47],
                        linkname := [] }
    else .ok { offset := off, stat := st, filename := fn, linkname := [] }

end Parfu
