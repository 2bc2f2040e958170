/-
Property theorems C01-C05: the tar header writer (tarentry.cc).
Specification: `TarSpec` (independent pax reader).
-/
import Verif.TarRecover
set_option autoImplicit false

namespace Parfu.Props
open Parfu TarSpec

/-- A concrete user data base for the examples. -/
def demoEnv : Env := { pwName := fun _ => some [114, 111, 111, 116], grName := fun _ => some [97] }

/-- A concrete regular file with a name of `n` bytes. -/
def demoReg (n : Nat) (size : Int) : TarEntry :=
  { offset := 0
    stat := { kind := .reg, perm := 0o644, uid := 1000, gid := 100, size := size, mtime := 1700000000 }
    filename := List.replicate n 97, linkname := [] }

/-! ### C01 -/

/-- **C01** A header that is made is exactly as long as the reported header size, and that is a
positive multiple of 512. -/
theorem C01_header_length (env : Env) (e : TarEntry) (b : Bytes)
    (h : makeTarHeader env e = .ok b) :
    hdrSize e = .ok b.length ∧ b.length % 512 = 0 ∧ 512 ≤ b.length := by
  rw [hdrSize_eq, makeTarHeader_length h]
  refine ⟨rfl, ?_, ?_⟩
  · unfold paxHdrSz roundToBlock blk; split <;> omega
  · unfold blk; omega

/-- **C01** The header is a single block exactly when name and link target fit in 100 bytes and the
size fits in the octal field. -/
theorem C01_single_block_iff (env : Env) (e : TarEntry) (b : Bytes)
    (h : makeTarHeader env e = .ok b) :
    b.length = 512 ↔ e.filename.length ≤ 100 ∧ e.linkname.length ≤ 100 ∧
      ¬(e.stat.kind = .reg ∧ e.stat.size > 8 ^ 11 - 1) := by
  rw [makeTarHeader_length h]
  have hpos : ∀ k v : Bytes, 0 < (recText k v).length := by
    intro k v; obtain ⟨n, _, _, _, hl, hn⟩ := recText_spec k v; omega
  have a := hpos kwPath e.filename
  have c := hpos kwLinkpath e.linkname
  have d := hpos kwSize (digits 10 (u64 e.stat.size))
  have hm : maxFileSize = (8:Int) ^ 11 - 1 := by decide
  unfold paxPairs
  rw [hm]
  by_cases h1 : e.filename.length > 100 <;> by_cases h2 : e.linkname.length > 100 <;>
    by_cases h3 : e.stat.kind = .reg ∧ e.stat.size > 8 ^ 11 - 1 <;>
    simp only [h1, h2, h3, if_true, if_false] <;>
    simp [recTexts, paxHdrSz, roundToBlock, blk] <;> omega

/-- **C01** A header is always made for the three supported kinds when user and group are known:
no assertion in the header writer can fail. -/
theorem C01_header_made (env : Env) (e : TarEntry) (u g : Bytes) (hk : e.stat.kind ≠ .other)
    (hu : env.pwName e.stat.uid = some u) (hg : env.grName e.stat.gid = some g) :
    ∃ b, makeTarHeader env e = .ok b := makeTarHeader_ok hk hu hg

/-- **C01** The size of a member in the archive is its header plus its data rounded up to 512. -/
theorem C01_member_size (env : Env) (e : TarEntry) (b : Bytes) (h : makeTarHeader env e = .ok b)
    (h0 : 0 ≤ e.stat.size) (h1 : e.stat.size < 2 ^ 63) :
    entrySize e = .ok (b.length + pad512 (if e.stat.kind = .reg then e.stat.size.toNat else 0)) := by
  unfold entrySize
  rw [(C01_header_length env e b h).1]
  simp only [bind, Except.bind, pure, Except.pure, getFilesize]
  rw [u64_of_nonneg h0 (by omega)]
  unfold roundToBlock blk pad512
  rfl

example : ∃ b, makeTarHeader demoEnv (demoReg 300 5) = .ok b ∧ b.length = 1536 := by
  obtain ⟨b, hb⟩ := C01_header_made demoEnv (demoReg 300 5) _ _ (by decide) rfl rfl
  refine ⟨b, hb, ?_⟩
  have := (C01_header_length _ _ _ hb).1
  have h2 : hdrSize (demoReg 300 5) = .ok 1536 := by rw [hdrSize_eq]; decide +kernel
  rw [h2] at this
  exact (Except.ok.inj this).symm

/-! ### C02 -/

/-- **C02** Computing the length of a pax record always succeeds (the iteration limit is never
hit) and the result is the length of the record that starts with it. -/
theorem C02_record_length (kw val : Bytes) :
    ∃ n, recordLength kw val = .ok n ∧
      (digits 10 n ++ [32] ++ kw ++ [61] ++ val ++ [10]).length = n := by
  obtain ⟨n, h1, _, h3, h4, _⟩ := recText_spec kw val
  exact ⟨n, h1, by rw [← h3]; exact h4⟩

/-- **C02** the decimal text in front of a record reads back as that number. -/
theorem C02_prefix_reads_back (n : Nat) (rest : Bytes) :
    readNum 10 (digits 10 n ++ (32 :: rest)) = some (n, 32 :: rest) :=
  readNum_digits (by omega) (by omega) n _ (by intro c hc; simp at hc; subst hc; decide)

/-- non-vacuity / corner: between 90 and 91 bytes of path the record length jumps from 99 to 101. -/
example : recordLength kwPath (List.replicate 91 97) = .ok 101 := by decide +kernel
example : recordLength kwPath (List.replicate 90 97) = .ok 99 := by decide +kernel

/-! ### C03 -/

/-- **C03** Every block of a header carries a valid checksum: the last block always, and the first
block when there is an extended header. -/
theorem C03_checksums (env : Env) (e : TarEntry) (b : Bytes) (h : makeTarHeader env e = .ok b) :
    checksumOk (b.drop (b.length - 512)) ∧ checksumOk (b.take 512) := by
  obtain ⟨pre, hd, hb, hhd, hcase⟩ := makeTarHeader_shape h
  have hc := ustarBlock_checksum hhd
  have hl := ustarBlock_length hhd
  subst hb
  refine ⟨?_, ?_⟩
  · rw [List.drop_left' (by simp [hl])]; exact hc
  · rcases hcase with ⟨_, hpre⟩ | ⟨_, xb, hxb, hpre⟩
    · subst hpre; rw [List.nil_append, List.take_of_length_le (by omega)]; exact hc
    · subst hpre
      rw [List.append_assoc, List.take_left' (ustarBlock_length hxb)]
      exact ustarBlock_checksum hxb

/-! ### C04 -/

/-- The type flag POSIX prescribes for the three kinds. -/
def posixFlag : Kind → UInt8
  | .reg => 48   -- '0'
  | .lnk => 50   -- '2'
  | .dir => 53   -- '5'
  | .other => 0

/-- **C04 (partial)** A pax reader applied to header, contents and padding recovers path, type,
link target, permission bits, ids, time, names, size and contents.  Missing from the full claim:
ids of 2^21 or more, times outside [0, 2^33), size exactly 8 GiB - 1, user names over 31 bytes
(see the negations below). -/
theorem C04_header_readable_partial (env : Env) (e : TarEntry) (u g b content padding rest : Bytes)
    (h : makeTarHeader env e = .ok b)
    (hu : env.pwName e.stat.uid = some u) (hg : env.grName e.stat.gid = some g)
    (hfn : (0:UInt8) ∉ e.filename) (hln : (0:UInt8) ∉ e.linkname)
    (hfl : e.filename.length < 2 ^ 30) (hll : e.linkname.length < 2 ^ 30)
    (hlk : e.stat.kind ≠ .lnk → e.linkname = [])
    (hun : (0:UInt8) ∉ u ∧ u.length ≤ 31) (hgn : (0:UInt8) ∉ g ∧ g.length ≤ 31)
    (huid : e.stat.uid < 2 ^ 21) (hgid : e.stat.gid < 2 ^ 21)
    (hmt : 0 ≤ e.stat.mtime ∧ e.stat.mtime < 2 ^ 33)
    (hsz : 0 ≤ e.stat.size ∧ e.stat.size < 2 ^ 63)
    (hne : e.stat.kind = .reg → e.stat.size ≠ 2 ^ 33 - 1)
    (hc : content.length = if e.stat.kind = .reg then e.stat.size.toNat else 0)
    (hp : content.length + padding.length = pad512 content.length) :
    readMember (b ++ (content ++ (padding ++ rest))) =
      some ({ path := e.filename, flag := posixFlag e.stat.kind, linkpath := e.linkname,
              mode := e.stat.perm % 4096, uid := e.stat.uid, gid := e.stat.gid,
              mtime := e.stat.mtime.toNat, uname := u, gname := g, size := content.length,
              data := content }, rest) := by
  have hm : maxFileSize = (2:Int) ^ 33 - 1 := by decide
  rw [readMember_header h hu hg (recTexts_length_lt e hfl hll)]
  have hk : e.stat.kind ≠ .other := by
    obtain ⟨pre, hd, hb, hhd, hcase⟩ := makeTarHeader_shape h
    intro hk; unfold ustarBlock at hhd; rw [if_pos hk] at hhd; cases hhd
  unfold takeData
  rw [paxSize_recovered e u g hsz.1 hsz.2 (by rw [hm]; exact hne), lookup_path, lookup_link, ← hc]
  simp only []
  rw [if_neg (by simp)]
  have e1 : ((if e.filename.length > 100 then some e.filename else none).getD
      (rawOf 0 e.stat e.filename e.linkname u g).name) = e.filename := by
    split
    · rfl
    · simp only [rawOf, Option.getD_none]; exact text_fieldStr hfn (by omega)
  have e2 : ((if e.linkname.length > 100 then some e.linkname else none).getD
      (rawOf 0 e.stat e.filename e.linkname u g).linkname) = e.linkname := by
    split
    · rfl
    · simp only [rawOf, Option.getD_none]
      split
      · exact text_fieldStr hln (by omega)
      · rename_i hkl
        rw [hlk hkl]; exact text_fieldStr (by simp) (by simp)
  have e3 : (rawOf 0 e.stat e.filename e.linkname u g).flag = posixFlag e.stat.kind := by
    simp only [rawOf, typeFlag]
    cases hkk : e.stat.kind <;> simp [posixFlag, SYMTYPE, DIRTYPE, REGTYPE] <;> exact absurd hkk hk
  have e4 : (rawOf 0 e.stat e.filename e.linkname u g).mode = e.stat.perm % 4096 := by
    simp only [rawOf]; exact octStored_of_lt (by simp; omega)
  have e5 : (rawOf 0 e.stat e.filename e.linkname u g).uid = e.stat.uid := by
    simp only [rawOf]; exact octStored_of_lt (by simp; omega)
  have e6 : (rawOf 0 e.stat e.filename e.linkname u g).gid = e.stat.gid := by
    simp only [rawOf]; exact octStored_of_lt (by simp; omega)
  have e7 : (rawOf 0 e.stat e.filename e.linkname u g).mtime = e.stat.mtime.toNat := by
    simp only [rawOf]; rw [u64_of_nonneg hmt.1 (by omega)]
    exact octStored_of_lt (by simp; omega)
  have e8 : (rawOf 0 e.stat e.filename e.linkname u g).uname = u := by
    simp only [rawOf]; simpa using text_fieldSnprintf hun.1 hun.2
  have e9 : (rawOf 0 e.stat e.filename e.linkname u g).gname = g := by
    simp only [rawOf]; simpa using text_fieldSnprintf hgn.1 hgn.2
  have t1 : (content ++ (padding ++ rest)).take content.length = content := List.take_left' rfl
  have t2 : (content ++ (padding ++ rest)).drop (pad512 content.length) = rest := by
    rw [← List.append_assoc]; exact List.drop_left' (by simp; omega)
  rw [e1, e2, e3, e4, e5, e6, e7, e8, e9, t1, t2]

/-- **C04, violated by the code**: a regular file of exactly 8 GiB - 1 bytes (any name and link
that fit in 100 bytes) is recorded with size 0. -/
theorem C04_size_8GiB_minus_1_lost (env : Env) (e : TarEntry) (u g b tail : Bytes)
    (h : makeTarHeader env e = .ok b)
    (hu : env.pwName e.stat.uid = some u) (hg : env.grName e.stat.gid = some g)
    (hk : e.stat.kind = .reg) (hs : e.stat.size = 2 ^ 33 - 1)
    (hfl : e.filename.length < 2 ^ 30) (hll : e.linkname.length < 2 ^ 30) :
    ∃ m rest, readMember (b ++ tail) = some (m, rest) ∧ m.size = 0 ∧ m.data = [] := by
  rw [readMember_header h hu hg (recTexts_length_lt e hfl hll)]
  have hm : maxFileSize = (2:Int) ^ 33 - 1 := by decide
  have hp : paxSizeVal (paxPairs e) (rawOf 0 e.stat e.filename e.linkname u g).size = some 0 := by
    unfold paxSizeVal
    rw [lookup_size, if_neg (by rw [hm, hs]; simp)]
    simp only [rawOf, if_pos hk]
    rw [if_neg (by omega), octStored_of_lt (by simp)]
  unfold takeData
  rw [hp]
  simp

/-- **C04, violated by the code**: a user id of 2^21 or more is never recorded correctly. -/
theorem C04_large_uid_lost (env : Env) (e : TarEntry) (u g b tail : Bytes)
    (h : makeTarHeader env e = .ok b)
    (hu : env.pwName e.stat.uid = some u) (hg : env.grName e.stat.gid = some g)
    (hfl : e.filename.length < 2 ^ 30) (hll : e.linkname.length < 2 ^ 30)
    (hbig : 2 ^ 21 ≤ e.stat.uid) (m : Member) (rest : Bytes)
    (hr : readMember (b ++ tail) = some (m, rest)) : m.uid ≠ e.stat.uid := by
  rw [readMember_header h hu hg (recTexts_length_lt e hfl hll)] at hr
  unfold takeData at hr
  split at hr
  · cases hr
  split at hr
  · cases hr
  have := congrArg (Member.uid ∘ Prod.fst) (Option.some.inj hr)
  simp [rawOf] at this
  have hlt := @octStored_lt 8 e.stat.uid (by omega)
  intro heq
  rw [← heq, ← this] at hbig
  simp at hlt
  omega

/-- **C04, violated by the code**: a modification time before 1970 or from 2^33 on is never
recorded correctly. -/
theorem C04_odd_mtime_lost (env : Env) (e : TarEntry) (u g b tail : Bytes)
    (h : makeTarHeader env e = .ok b)
    (hu : env.pwName e.stat.uid = some u) (hg : env.grName e.stat.gid = some g)
    (hfl : e.filename.length < 2 ^ 30) (hll : e.linkname.length < 2 ^ 30)
    (hbad : e.stat.mtime < 0 ∨ 2 ^ 33 ≤ e.stat.mtime)
    (m : Member) (rest : Bytes)
    (hr : readMember (b ++ tail) = some (m, rest)) : (m.mtime : Int) ≠ e.stat.mtime := by
  rw [readMember_header h hu hg (recTexts_length_lt e hfl hll)] at hr
  unfold takeData at hr
  split at hr
  · cases hr
  split at hr
  · cases hr
  have := congrArg (Member.mtime ∘ Prod.fst) (Option.some.inj hr)
  simp [rawOf] at this
  have hlt := @octStored_lt 12 (u64 e.stat.mtime) (by omega)
  rw [this] at hlt
  simp at hlt
  omega

/-- The hypotheses of C04 are met by a 300-byte name with 5 bytes of data. -/
example : ∃ b, makeTarHeader demoEnv (demoReg 300 5) = .ok b ∧
    readMember (b ++ ([1, 2, 3, 4, 5] ++ (List.replicate 507 9 ++ [77]))) =
      some ({ path := List.replicate 300 97, flag := 48, linkpath := [], mode := 0o644, uid := 1000,
              gid := 100, mtime := 1700000000, uname := [114, 111, 111, 116], gname := [97],
              size := 5, data := [1, 2, 3, 4, 5] }, [77]) := by
  obtain ⟨b, hb⟩ := C01_header_made demoEnv (demoReg 300 5) _ _ (by decide) rfl rfl
  refine ⟨b, hb, ?_⟩
  exact C04_header_readable_partial demoEnv (demoReg 300 5) [114, 111, 111, 116] [97] b
    [1, 2, 3, 4, 5] (List.replicate 507 9) [77] hb rfl rfl (by decide +kernel) (by decide)
    (by decide +kernel) (by decide) (by intro _; rfl) (by decide) (by decide) (by decide) (by decide)
    (by decide) (by decide) (by intro _; decide) (by decide) (by decide +kernel)

/-- The hypotheses of the 8 GiB - 1 negation are met. -/
example : ∃ b, makeTarHeader demoEnv (demoReg 3 (2 ^ 33 - 1)) = .ok b ∧
    ∃ m rest, readMember (b ++ [1, 2, 3]) = some (m, rest) ∧ m.size = 0 ∧ m.data = [] := by
  obtain ⟨b, hb⟩ := C01_header_made demoEnv (demoReg 3 (2 ^ 33 - 1)) _ _ (by decide) rfl rfl
  exact ⟨b, hb, C04_size_8GiB_minus_1_lost demoEnv _ _ _ b _ hb rfl rfl rfl rfl (by decide) (by decide)⟩

/-! ### C05 -/

/-- **C05 (partial)** For a regular file or symbolic link the planned header size (from path,
link target and size) is the length of the header that is made from the file itself. -/
theorem C05_planned_size_partial (env : Env) (lstat : Bytes → Option (Stat × Bytes)) (fn : Bytes)
    (st : Stat) (tgt : Bytes) (off : Nat) (e : TarEntry) (b : Bytes)
    (hl : lstat fn = some (st, tgt)) (hk : st.kind = .reg ∨ st.kind = .lnk)
    (hlen : st.kind = .lnk → st.size = tgt.length)
    (he : tarentryCtor lstat fn off = .ok e) (hb : makeTarHeader env e = .ok b) :
    computeHdrSize fn (if st.kind = .lnk then tgt else []) (if st.kind = .reg then st.size else 0)
      = .ok b.length := by
  rw [← (C01_header_length env e b hb).1]
  unfold tarentryCtor at he
  rw [hl] at he
  simp only [] at he
  unfold computeHdrSize
  rcases hk with hk | hk
  · rw [hk] at he
    simp at he
    subst he
    rw [hdrSize_eq, hdrSize_eq]
    simp [paxPairs, hk]
  · have := hlen hk
    rw [hk] at he
    simp only [if_true] at he
    split at he
    · cases he
    · simp at he
      subst he
      rw [hdrSize_eq, hdrSize_eq]
      simp [paxPairs, hk, this, maxFileSize]

/-- **C05 (partial)** For a directory the same holds when its path already ends in `/` or, without
it, is shorter than 100 bytes. -/
theorem C05_planned_dir_partial (env : Env) (lstat : Bytes → Option (Stat × Bytes)) (fn : Bytes)
    (st : Stat) (tgt : Bytes) (off : Nat) (e : TarEntry) (b : Bytes)
    (hl : lstat fn = some (st, tgt)) (hk : st.kind = .dir)
    (hlen : fn.getLast? = some 47 ∨ fn.length < 100)
    (he : tarentryCtor lstat fn off = .ok e) (hb : makeTarHeader env e = .ok b) :
    computeHdrSize fn [] 0 = .ok b.length := by
  rw [← (C01_header_length env e b hb).1]
  unfold tarentryCtor at he
  rw [hl] at he
  simp only [hk] at he
  simp at he
  split at he
  · cases he
  rename_i c hc
  simp at he
  subst he
  unfold computeHdrSize
  rw [hdrSize_eq, hdrSize_eq]
  by_cases hc47 : c = 47
  · simp [paxPairs, hk, hc47, maxFileSize]
  · rcases hlen with h | h
    · rw [hc] at h; exact absurd (Option.some.inj h) hc47
    · have h1 : ¬ (100 < fn.length) := by omega
      have h2 : ¬ (100 < fn.length + 1) := by omega
      simp [paxPairs, hk, hc47, maxFileSize, h1, h2]

/-- **C05, exactly when it holds for long directory paths**: for a path over 100 bytes that does not
end in `/`, plan and header agree exactly when the extended records of the path without and with
the slash fill the same number of blocks. -/
theorem C05_planned_long_dir_iff (env : Env) (lstat : Bytes → Option (Stat × Bytes)) (fn : Bytes)
    (st : Stat) (tgt : Bytes) (off : Nat) (e : TarEntry) (b : Bytes) (n m : Nat)
    (hl : lstat fn = some (st, tgt)) (hk : st.kind = .dir)
    (hlen : 100 < fn.length) (hlast : fn.getLast? ≠ some 47)
    (hn : recordLength kPath fn = .ok n) (hm : recordLength kPath (fn ++ [47]) = .ok m)
    (he : tarentryCtor lstat fn off = .ok e) (hb : makeTarHeader env e = .ok b) :
    computeHdrSize fn [] 0 = .ok b.length ↔ pad512 n = pad512 m := by
  rw [← (C01_header_length env e b hb).1]
  unfold tarentryCtor at he
  rw [hl] at he
  simp only [hk] at he
  simp at he
  split at he
  · cases he
  rename_i c hc
  simp at he
  subst he
  have hc47 : c ≠ 47 := by intro h; exact hlast (h ▸ hc)
  unfold computeHdrSize
  rw [hdrSize_eq, hdrSize_eq]
  obtain ⟨n', h1, _, _, h2, h2'⟩ := recText_spec kwPath fn
  obtain ⟨m', h3, _, _, h4, h4'⟩ := recText_spec kwPath (fn ++ [47])
  have hkk : kPath = kwPath := rfl
  rw [hkk, h1] at hn; rw [hkk, h3] at hm
  have hn' := Except.ok.inj hn
  have hm' := Except.ok.inj hm
  have g1 : fn.length + 1 > 100 := by omega
  simp [paxPairs, hk, hc47, maxFileSize, hlen, recTexts, h2, h4, hn', hm', g1,
    paxHdrSz_pos (n := n) (by omega), paxHdrSz_pos (n := m) (by omega)]

/-- **C05, violated by the code**: for every directory whose path is exactly 100 bytes and does not
end in `/`, 512 bytes are planned and 1536 are written. -/
theorem C05_dir_100_mismatch (env : Env) (lstat : Bytes → Option (Stat × Bytes)) (fn : Bytes)
    (st : Stat) (tgt : Bytes) (off : Nat) (e : TarEntry) (b : Bytes)
    (hl : lstat fn = some (st, tgt)) (hk : st.kind = .dir)
    (hlen : fn.length = 100) (hlast : fn.getLast? ≠ some 47)
    (he : tarentryCtor lstat fn off = .ok e) (hb : makeTarHeader env e = .ok b) :
    computeHdrSize fn [] 0 = .ok 512 ∧ b.length = 1536 := by
  have hbl := (C01_header_length env e b hb).1
  unfold tarentryCtor at he
  rw [hl] at he
  simp only [hk] at he
  simp at he
  split at he
  · cases he
  rename_i c hc
  simp at he
  subst he
  have hc47 : c ≠ 47 := by intro h; exact hlast (h ▸ hc)
  constructor
  · unfold computeHdrSize
    rw [hdrSize_eq]
    simp [paxPairs, hlen, maxFileSize, recTexts, paxHdrSz, blk]
  · rw [hdrSize_eq] at hbl
    have hr : (recText kwPath (fn ++ [47])).length ≤ 512 ∧ 0 < (recText kwPath (fn ++ [47])).length := by
      have := recText_length_le kwPath (fn ++ [47])
      obtain ⟨n, _, _, _, hl, hn⟩ := recText_spec kwPath (fn ++ [47])
      have k : kwPath.length = 4 := rfl
      simp at this; omega
    have := Except.ok.inj hbl
    rw [← this]
    simp [paxPairs, hk, hc47, hlen, recTexts]
    rw [paxHdrSz_pos hr.2]
    unfold pad512 blk; omega

/-- The hypotheses of the mismatch are met by a concrete directory. -/
example : ∃ e b, tarentryCtor (fun _ => some (⟨.dir, 0o755, 0, 0, 4096, 5⟩, [])) (List.replicate 100 97) 0
      = .ok e ∧ makeTarHeader demoEnv e = .ok b ∧ b.length = 1536 ∧
      computeHdrSize (List.replicate 100 97) [] 0 = .ok 512 := by
  have he : tarentryCtor (fun _ => some (⟨.dir, 0o755, 0, 0, 4096, 5⟩, [])) (List.replicate 100 97) 0 =
    .ok ⟨0, ⟨.dir, 0o755, 0, 0, 4096, 5⟩, List.replicate 100 97 ++ [47], []⟩ := by decide +kernel
  obtain ⟨b, hb⟩ := C01_header_made demoEnv
    ⟨0, ⟨.dir, 0o755, 0, 0, 4096, 5⟩, List.replicate 100 97 ++ [47], []⟩ _ _ (by decide) rfl rfl
  have := C05_dir_100_mismatch demoEnv _ _ ⟨.dir, 0o755, 0, 0, 4096, 5⟩ [] 0 _ b rfl rfl
    (by simp) (by decide +kernel) he hb
  exact ⟨_, b, he, hb, this.2, this.1⟩

/-- Non-vacuity of `C05_planned_size_partial`: a symbolic link. -/
example : ∃ e b, tarentryCtor (fun _ => some (⟨.lnk, 0o777, 0, 0, 3, 5⟩, [98, 98, 98])) [97] 0 = .ok e ∧
      makeTarHeader demoEnv e = .ok b ∧ computeHdrSize [97] [98, 98, 98] 0 = .ok b.length := by
  have he : tarentryCtor (fun _ => some (⟨.lnk, 0o777, 0, 0, 3, 5⟩, [98, 98, 98])) [97] 0 =
    .ok ⟨0, ⟨.lnk, 0o777, 0, 0, 3, 5⟩, [97], [98, 98, 98]⟩ := by decide +kernel
  obtain ⟨b, hb⟩ := C01_header_made demoEnv
    ⟨0, ⟨.lnk, 0o777, 0, 0, 3, 5⟩, [97], [98, 98, 98]⟩ _ _ (by decide) rfl rfl
  exact ⟨_, b, he, hb, C05_planned_size_partial demoEnv _ [97] ⟨.lnk, 0o777, 0, 0, 3, 5⟩
    [98, 98, 98] 0 _ b rfl (Or.inr rfl) (by intro _; rfl) he hb⟩

end Parfu.Props
