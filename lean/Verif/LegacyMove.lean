/-
Model of parfu 0.5.1's archive writer: parfu_wtar_archive_list_to_singeFP,
parfu_wtar_archive_allbuckets_singFP, parfu_wtar_archive_one_bucket_singFP (parfu_data_transfer.cc),
parfu_ffel_fill_rel_filenames (parfu_buffer_utils.c) and the 'C' mode of the program
(parfu_0_5_1_main_versA.c).
-/
import Verif.LegacyCatalog
import Verif.LegacySplit
import Verif.LegacyScan
import Verif.Move
set_option autoImplicit false

namespace Parfu

/-- parfu_buffer_utils.c:904-964 `parfu_ffel_fill_rel_filenames`: every entry's `relative_filename`
becomes the leading path, a slash if that has none at its end, and the archive name.  For an empty
leading path `leading_path[-1]` is read. -/
def fillRel (lead : Bytes) (es : List Frag) : Res (List Frag) :=
  if lead = [] then .error .ub
  else .ok (es.map fun e =>
    { e with rel := if lead.getLast? = some 47 then lead ++ e.arc else lead ++ [47] ++ e.arc })

/-- What a run of the writer needs to know about its surroundings.  `now k` is `time(NULL)` when
the header of bucket `k`'s filler is made, `nowCat` and `nowGap` when those of the catalog and of the
filler after it are.  `strict`: closing a handle that was never set is undefined (as the MPI standard
has it); otherwise it is an error return that the code ignores. -/
structure LegEnv where
  env : Env
  fs : FS
  strict : Bool
  now : Nat → Nat
  nowCat : Nat
  nowGap : Nat

/-- parfu_data_transfer.cc:572-630: the transfer buffer, `current_write_loc_in_bucket`, and whether
`*target_file_ptr_ptr` has been set. -/
structure BState where
  buf : Bytes
  cur : Int
  set : Bool

/-- parfu_data_transfer.cc:645-788: open the file and read the fragment into the buffer; `none` is an
error return (138, 149, 159).  The count is an `int`; `bloc` is `current_bucket_loc`.
Simplification: of the errors of `MPI_File_read_at`, those for a negative offset and a negative count
are modelled. -/
def putData (L : LegEnv) (acc bloc : Int) (buf : Bytes) (f : Frag) : Res (Option Bytes) :=
  match L.fs.read f.rel with
  | none => .ok none
  | some c =>
    if f.locA - bloc < 0 ∨ f.locA - bloc ≥ acc then .ok none
    else if f.locO < 0 ∨ wrap32 f.size < 0 then .ok none
    else match blit buf (f.locA - bloc).toNat ((c.drop f.locO.toNat).take (wrap32 f.size).toNat) with
      | .error e => .error e
      | .ok b => .ok (some b)

/-- parfu_data_transfer.cc:791-800: the tar header before the data of the first fragment of a file;
a position before the buffer is undefined behaviour. -/
def putHeader (L : LegEnv) (bloc : Int) (buf : Bytes) (f : Frag) : Res Bytes :=
  match tarentryCtor L.fs.lstat f.rel 0 with
  | .error e => .error e
  | .ok t =>
    match makeTarHeader L.env t with
    | .error e => .error e
    | .ok h =>
      if f.locA - bloc - f.hdr < 0 then .error .ub else blit buf (f.locA - bloc - f.hdr).toNat h

/-- parfu_data_transfer.cc:803-811 `blocked_data_written`. -/
def blockedWritten (bl : Int) (f : Frag) : Int :=
  let d := (if f.size ≥ 0 then f.size else 0) + (if f.locO = 0 then f.hdr else 0)
  if d % bl = 0 then d else (d / bl + 1) * bl

/-- parfu_data_transfer.cc:634-817, one iteration of the loop. -/
def moveFrag (L : LegEnv) (bl acc bloc : Int) (s : BState) (f : Frag) : Res (Option BState) :=
  (if f.kind = .reg ∧ f.size > 0 then putData L acc bloc s.buf f >>? fun b => .ok (some (b, true))
   else .ok (some (s.buf, s.set))) >>? fun (buf1, set1) =>
  match (if f.locO = 0 then putHeader L bloc buf1 f else .ok buf1) with
  | .error e => .error e
  | .ok buf2 =>
    if L.strict = true ∧ set1 = false then .error .ub
    else .ok (some ⟨buf2, s.cur + blockedWritten bl f, set1⟩)

/-- parfu_data_transfer.cc:628-817, the loop over the fragments from the first one of bucket `idx` on;
also gives the fragments that are left. -/
def bucketLoop (L : LegEnv) (bl acc : Int) (idx : Nat) : BState → List Frag → Res (Option (BState × List Frag))
  | s, [] => .ok (some (s, []))
  | s, f :: rest =>
    if f.bucket ≠ idx then .ok (some (s, f :: rest))
    else moveFrag L bl acc (acc * idx) s f >>? fun s' => bucketLoop L bl acc idx s' rest

/-- parfu_data_transfer.cc:824-839: the header of the filler up to the end of the bucket.
Simplification: `pad_space` and `local_pad_file_size` are unbounded. -/
def putFiller (L : LegEnv) (bl acc : Int) (idx : Nat) (s : BState) : Res BState :=
  if acc - s.cur - bl ≥ 0 then
    if s.cur < 0 then .error .ub
    else match blit s.buf s.cur.toNat (legacyHeader spacerName (acc - s.cur - bl) (L.now idx)) with
      | .error e => .error e
      | .ok b => .ok { s with buf := b, cur := s.cur + bl }
  else .ok s

/-- parfu_data_transfer.cc:903-928: bucket `idx` was the last one: zero the beginning of the buffer
(`sprintf` adds a NUL to each) and write 1024 bytes of it where the next bucket would be. -/
def terminate (acc : Int) (dstart : Nat) (idx : Nat) (buf : Bytes) : Res (Bytes × WriteReq) :=
  match blit buf 0 (zeros 1025) with
  | .error e => .error e
  | .ok b => .ok (b, (dstart + (idx + 1) * acc.toNat, b.take 1024))

/-- parfu_data_transfer.cc:559-935 `parfu_wtar_archive_one_bucket_singFP`: `none` is an error return,
otherwise the buffer and the writes made to the archive.  Reading past the list or the buffer is
undefined.
Simplification: writing to the archive does not fail. -/
def oneBucket (L : LegEnv) (bl acc : Int) (dstart : Nat) (fr : List Frag) (call : List Nat) (idx : Nat) (buf : Bytes) :
    Res (Option (Bytes × List WriteReq)) :=
  if acc < 10000 then .ok none
  else match call[idx]? with
  | none => .error .ub
  | some c =>
    match fr[c]? with
    | none => .error .ub
    | some f0 =>
      if f0.bucket ≠ idx then .ok none
      else bucketLoop L bl acc idx ⟨buf, 0, false⟩ (fr.drop c) >>? fun (s, rest) =>
        match putFiller L bl acc idx s with
        | .error e => .error e
        | .ok s' =>
          if s'.cur < 0 ∨ s'.cur > s'.buf.length then .error .ub
          else
            let w : WriteReq := (dstart + idx * acc.toNat, s'.buf.take s'.cur.toNat)
            if rest = [] then
              match terminate acc dstart idx s'.buf with
              | .error e => .error e
              | .ok (b, t) => .ok (some (b, [w, t]))
            else .ok (some (s'.buf, [w]))

/-- parfu_data_transfer.cc:506-552: the buckets of one rank, with one buffer for all of them.
(The check of lines 508-516 is made again by `oneBucket`.) -/
def bucketsLoop (L : LegEnv) (bl acc : Int) (dstart : Nat) (fr : List Frag) (call : List Nat) :
    List Nat → Bytes → Res (Option (List WriteReq))
  | [], _ => .ok (some [])
  | i :: is, buf =>
    oneBucket L bl acc dstart fr call i buf >>? fun (buf', ws) =>
    bucketsLoop L bl acc dstart fr call is buf' >>? fun ws' => .ok (some (ws ++ ws'))

/-- parfu_data_transfer.cc:446-556 `parfu_wtar_archive_allbuckets_singFP` of rank `rank` of `n`. -/
def allBuckets (L : LegEnv) (bl acc : Int) (dstart : Nat) (fr : List Frag) (call : List Nat) (n rank : Nat) :
    Res (Option (List WriteReq)) :=
  bucketsLoop L bl acc dstart fr call (rankBuckets n call.length rank) (zeros acc.toNat)

/-- parfu_data_transfer.cc:243-248 `data_offset`: the catalog and its header, `len` bytes, take whole
buckets. -/
def dataOffset (acc len : Nat) : Nat := if len % acc = 0 then len / acc * acc else (len / acc + 1) * acc

/-- parfu_data_transfer.cc:250-265: the filler between the catalog, which ends at `len`, and the data:
where its header goes and its size (`h` is `catalog_tar_entry_size`). -/
def catalogGap (bl acc h len : Nat) : Option (Nat × Int) :=
  if dataOffset acc len - len > bl then
    let loc := if len % bl = 0 then len else len + (bl - len % bl)
    some (loc, (dataOffset acc len : Int) - loc - h)
  else none

/-- parfu_data_transfer.cc:193-283: what rank 0 writes before the data: the catalog's header (of
which `h` bytes are written, `compute_hdr_size` of it; more than the 512 that are made would be
undefined), the catalog, the filler's header. -/
def frontWrites (L : LegEnv) (bl acc : Nat) (cat : Bytes) : Res (List WriteReq) :=
  match computeHdrSize catalogName [] cat.length with
  | .error e => .error e
  | .ok h =>
    if h ≠ 512 then .error .ub
    else .ok ([(0, legacyHeader catalogName cat.length L.nowCat), (h, cat)] ++
      match catalogGap bl acc h (h + cat.length) with
      | none => []
      | some (loc, size) => [(loc, legacyHeader spacerName size L.nowGap)])

/-- parfu_data_transfer.cc:341-348, 412-420: the check of the rank call list. -/
def checkCalls (fr : List Frag) (call : List Nat) : Bool :=
  (List.range call.length).all fun i =>
    match call[i]? with
    | none => false
    | some c => match fr[c]? with
      | none => false
      | some f => f.bucket == (i : Int)

/-- parfu_data_transfer.cc:366-442: what rank `rank` of `n` does once it has the catalog `text` of the
fragments, the rank call list and the start of the data: read the catalog, check the list, write.
`none` is an error return (78, 666, 88). -/
def rankPart (L : LegEnv) (bl acc : Int) (dstart : Nat) (text : Bytes) (call : List Nat) (n rank : Nat) :
    Res (Option (List WriteReq)) :=
  readFullCatalog text >>? fun (_, fr) =>
  if checkCalls fr call = false then .ok none
  else allBuckets L bl acc dstart fr call n rank

/-- All ranks: none may fail. -/
def allRanks (one : Nat → Res (Option (List WriteReq))) : List Nat → Res (Option (List (List WriteReq)))
  | [] => .ok (some [])
  | r :: rs => one r >>? fun ws => allRanks one rs >>? fun wss => .ok (some (ws :: wss))

/-- parfu_data_transfer.cc:65-443 `parfu_wtar_archive_list_to_singeFP`, on all `n` ranks: `none` if one
of them returns an error, otherwise the writes rank 0 makes before the data and the writes each rank
makes to the data region.  `es` is rank 0's list; `nul` is what `%s` prints for NULL.  The archive
catalog is made before the offsets are known.  The archive is opened without truncating an existing
file (lines 159-161).
Simplification: the broadcasts deliver what rank 0 sent (they name MPI_LONG_INT, a pair type, for a
`long`; what that does to the variable behind it is in Verif/LegacyBcast.lean). -/
def legacyRun (L : LegEnv) (nul : Bytes) (bl acc : Int) (pad : Bytes) (es : List Frag) (n : Nat) :
    Res (Option (List WriteReq × List (List WriteReq))) :=
  listToBuffer nul true acc es >>? fun cat =>
  match frontWrites L bl.toNat acc.toNat cat with
  | .error e => .error e
  | .ok front =>
    splitList bl acc pad es >>? fun (gs, _) =>
    listToBuffer nul false acc (outFrags gs) >>? fun text =>
    rankCallList (outFrags gs) >>? fun call =>
    if checkCalls (outFrags gs) call = false then .ok none
    else
      allRanks (rankPart L bl acc (dataOffset acc.toNat (512 + cat.length)) text call n) (List.range n) >>? fun wss =>
      .ok (some (front, wss))

/-- parfu_primary.h:64 ".parfu_space", the name of fillers in the layout. -/
def blockingName : Bytes := [46, 112, 97, 114, 102, 117, 95, 115, 112, 97, 99, 101]

/-- parfu_primary.h:52, 60: block and bucket size. -/
def legBlock : Int := 512
def legBucket : Int := 4194304

/-- parfu_0_5_1_main_versA.c:131-278, mode 'C': scan, fill in the names, sort, write.  `seen` and
`opened` are what `lstat` and `opendir` find at the target.  `none`: a message and a non-zero exit
status. -/
def legacyMain (L : LegEnv) (Q : QSort Frag) (nul top : Bytes) (seen : Option FNode) (opened : FNode) (n : Nat) :
    Res (Option (List WriteReq × List (List WriteReq))) :=
  legacyScan top seen opened >>? fun l =>
  match fillRel top l.frags with
  | .error e => .error e
  | .ok es => legacyRun L nul legBlock legBucket blockingName (qsortEntries Q es) n

end Parfu
