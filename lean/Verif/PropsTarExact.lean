/-
Property theorems C04 and C05, exactly: for which objects the header says what was archived, and for
which the header that is written has the size that was planned.
-/
import Verif.PropsTar
set_option autoImplicit false

namespace Parfu.Props
open Parfu Parfu.TarSpec

/-! ### C04 -/

/-- The member `m` says everything about the entry: path, type, link target, permissions, owner, group,
time, the owner's names, size and contents. -/
structure SaysAll (e : TarEntry) (u g content : Bytes) (m : Member) : Prop where
  path : m.path = e.filename
  flag : m.flag = posixFlag e.stat.kind
  link : m.linkpath = e.linkname
  mode : m.mode = e.stat.perm % 4096
  uid : m.uid = e.stat.uid
  gid : m.gid = e.stat.gid
  mtime : (m.mtime : Int) = e.stat.mtime
  uname : m.uname = u
  gname : m.gname = g
  size : m.size = content.length
  data : m.data = content

/-- An entry as the operating system can give it: no NUL in names, only links have a target, sizes are
`off_t`, and the contents of a regular file have its size. -/
structure RealEntry (e : TarEntry) (u g content : Bytes) : Prop where
  name : (0 : UInt8) ∉ e.filename ∧ e.filename.length < 2 ^ 30
  link : (0 : UInt8) ∉ e.linkname ∧ e.linkname.length < 2 ^ 30
  onlyLinks : e.stat.kind ≠ .lnk → e.linkname = []
  users : (0 : UInt8) ∉ u ∧ (0 : UInt8) ∉ g
  size : 0 ≤ e.stat.size ∧ e.stat.size < 2 ^ 63
  contents : content.length = if e.stat.kind = .reg then e.stat.size.toNat else 0

theorem snprintf_short (s : Bytes) : (text (fieldSnprintf 32 s)).length ≤ 31 := by
  unfold text fieldSnprintf fieldStr zeros
  have hl : (s.take 31).length ≤ 31 := by simp; omega
  generalize s.take 31 = t at hl
  have : ((t.take 32 ++ List.replicate (32 - t.length) (0 : UInt8)).takeWhile (· ≠ 0)).length ≤ t.length := by
    rw [List.take_of_length_le (by omega)]
    induction t with
    | nil => simp
    | cons c t ih =>
      by_cases hc : c = 0
      · simp [hc]
      · have h2 : (t ++ List.replicate (32 - (c :: t).length) (0 : UInt8)).takeWhile (· ≠ 0) =
            (t ++ List.replicate (32 - t.length) (0 : UInt8)).takeWhile (· ≠ 0) := by
          have h3 : ∀ (t : Bytes) (a b : Nat), (t ++ List.replicate a (0 : UInt8)).takeWhile (· ≠ 0) =
              (t ++ List.replicate b (0 : UInt8)).takeWhile (· ≠ 0) := by
            intro t a b
            induction t with
            | nil => cases a <;> cases b <;> simp [List.replicate_succ]
            | cons d t ih => simp only [List.cons_append, List.takeWhile_cons]; rw [ih]
          exact h3 _ _ _
        have := ih (by simp at hl; omega)
        simp only [List.cons_append, List.takeWhile_cons]
        rw [if_pos (by simpa using hc), List.length_cons]
        rw [List.length_cons] at h2 ⊢
        rw [h2]
        omega
  exact Nat.le_trans this hl

/-- **C04, exactly**: from header, contents and padding of an object a pax reader recovers everything if
and only if owner and group are below 2^21, the time is in [0, 2^33), the names of owner and group have
at most 31 bytes and the object is not a file of exactly 8 GiB - 1 bytes. -/
theorem C04_readable_iff (env : Env) (e : TarEntry) (u g b content padding rest : Bytes)
    (h : makeTarHeader env e = .ok b)
    (hu : env.pwName e.stat.uid = some u) (hg : env.grName e.stat.gid = some g)
    (hreal : RealEntry e u g content)
    (hp : content.length + padding.length = pad512 content.length) :
    (∃ m, readMember (b ++ (content ++ (padding ++ rest))) = some (m, rest) ∧ SaysAll e u g content m) ↔
      (e.stat.uid < 2 ^ 21 ∧ e.stat.gid < 2 ^ 21 ∧ (0 ≤ e.stat.mtime ∧ e.stat.mtime < 2 ^ 33) ∧
        u.length ≤ 31 ∧ g.length ≤ 31 ∧ ¬ (e.stat.kind = .reg ∧ e.stat.size = 2 ^ 33 - 1)) := by
  constructor
  · rintro ⟨m, hr, hs⟩
    refine ⟨?_, ?_, ?_, ?_, ?_, ?_⟩
    · refine Classical.byContradiction fun hc => ?_
      exact C04_large_uid_lost env e u g b _ h hu hg hreal.name.2 hreal.link.2 (by omega) m rest hr hs.uid
    · rw [readMember_header h hu hg (recTexts_length_lt e hreal.name.2 hreal.link.2)] at hr
      unfold takeData at hr
      split at hr
      · cases hr
      split at hr
      · cases hr
      have := congrArg (Member.gid ∘ Prod.fst) (Option.some.inj hr)
      simp [rawOf] at this
      have hlt := @octStored_lt 8 e.stat.gid (by omega)
      rw [this, hs.gid] at hlt
      simpa using hlt
    · refine Classical.byContradiction fun hc => ?_
      exact C04_odd_mtime_lost env e u g b _ h hu hg hreal.name.2 hreal.link.2 (by omega) m rest hr hs.mtime
    · rw [readMember_header h hu hg (recTexts_length_lt e hreal.name.2 hreal.link.2)] at hr
      unfold takeData at hr
      split at hr
      · cases hr
      split at hr
      · cases hr
      have := congrArg (Member.uname ∘ Prod.fst) (Option.some.inj hr)
      simp [rawOf] at this
      have hlt := snprintf_short u
      rw [this, hs.uname] at hlt
      exact hlt
    · rw [readMember_header h hu hg (recTexts_length_lt e hreal.name.2 hreal.link.2)] at hr
      unfold takeData at hr
      split at hr
      · cases hr
      split at hr
      · cases hr
      have := congrArg (Member.gname ∘ Prod.fst) (Option.some.inj hr)
      simp [rawOf] at this
      have hlt := snprintf_short g
      rw [this, hs.gname] at hlt
      exact hlt
    · rintro ⟨hk, hsz⟩
      obtain ⟨m', rest', hr', h0, -⟩ := C04_size_8GiB_minus_1_lost env e u g b
        (content ++ (padding ++ rest)) h hu hg hk hsz hreal.name.2 hreal.link.2
      rw [hr] at hr'
      have hm : m = m' := congrArg Prod.fst (Option.some.inj hr')
      have := hs.size
      rw [hm, h0, hreal.contents, if_pos hk, hsz] at this
      exact absurd this (by decide)
  · rintro ⟨h1, h2, h3, h4, h5, h6⟩
    refine ⟨_, C04_header_readable_partial env e u g b content padding rest h hu hg hreal.name.1 hreal.link.1
      hreal.name.2 hreal.link.2 hreal.onlyLinks ⟨hreal.users.1, h4⟩ ⟨hreal.users.2, h5⟩ h1 h2 h3 hreal.size
      (fun hk hs => h6 ⟨hk, hs⟩) hreal.contents hp, ?_⟩
    exact ⟨rfl, rfl, rfl, rfl, rfl, rfl, by simp; omega, rfl, rfl, rfl, rfl⟩

/-- Both sides occur: a file owned by user 1000 and one owned by user 2^21. -/
example : RealEntry (demoReg 3 5) [114, 111, 111, 116] [97] [1, 2, 3, 4, 5] ∧
    (demoReg 3 5).stat.uid < 2 ^ 21 ∧
    RealEntry ⟨0, ⟨.reg, 0, 2 ^ 21, 0, 1, 0⟩, [97], []⟩ [97] [97] [7] := by
  refine ⟨⟨by decide, by decide, fun _ => rfl, by decide, by decide, by decide⟩, by decide,
    ⟨by decide, by decide, fun _ => rfl, by decide, by decide, by decide⟩⟩

/-! ### C05 -/

/-- The room the extended record of a path takes, for paths the system allows. -/
theorem path_record (fn : Bytes) (h : fn.length ≤ 4097) (h0 : 100 < fn.length) (n : Nat)
    (hn : recordLength kwPath fn = .ok n) :
    pad512 n = pad512 (if fn.length ≤ 989 then fn.length + 10 else fn.length + 11) := by
  obtain ⟨n', h1, -, h3, h4, -⟩ := recText_spec kwPath fn
  rw [hn] at h1
  obtain rfl := Except.ok.inj h1
  have hl := congrArg List.length h3
  rw [h4] at hl
  have hk : kwPath.length = 4 := rfl
  simp only [List.length_append, List.length_cons, List.length_nil, hk] at hl
  have hpos := digits_length_pos 10 n
  have d4 : n < 10000 → (digits 10 n).length ≤ 4 := fun h => digits_length_le (by omega) 4 n (by omega) h
  have d3 : n < 1000 → (digits 10 n).length ≤ 3 := fun h => digits_length_le (by omega) 3 n (by omega) h
  have ge3 : 100 ≤ n → 3 ≤ (digits 10 n).length := by
    intro h
    rw [digits_ge (by omega) (by omega), digits_ge (by omega) (by omega)]
    have := digits_length_pos 10 (n / 10 / 10)
    simp; omega
  have ge4 : 1000 ≤ n → 4 ≤ (digits 10 n).length := by
    intro h
    rw [digits_ge (by omega) (by omega), digits_ge (by omega) (by omega), digits_ge (by omega) (by omega)]
    have := digits_length_pos 10 (n / 10 / 10 / 10)
    simp; omega
  have d5 : n < 100000 → (digits 10 n).length ≤ 5 := fun h => digits_length_le (by omega) 5 n (by omega) h
  have big : n < 10000 := by
    refine Classical.byContradiction fun hc => ?_
    obtain ⟨r, hr, -⟩ := recText_spec kwPath fn
    have := recText_length_le kwPath fn
    rw [h4, hk] at this
    omega
  unfold pad512
  split <;> by_cases h9 : n < 1000
  · have := d3 h9; have := ge3 (by omega); omega
  · have := d4 big; have := ge4 (by omega); omega
  · have := d3 h9; have := ge3 (by omega); omega
  · have := d4 big; have := ge4 (by omega); omega

/-- A directory path of another length: the slash that is added needs no further block. -/
theorem dir_room (s : Bytes) (h : s.length ≤ 4096) (hb : s.length ∉ badDirLengths) :
    s.length < 100 ∨ (100 < s.length ∧ ∃ n n', recordLength kPath s = .ok n ∧
      recordLength kPath (s ++ [47]) = .ok n' ∧ pad512 n = pad512 n') := by
  simp only [badDirLengths, List.mem_cons, List.not_mem_nil, or_false, not_or] at hb
  by_cases h1 : s.length < 100
  · exact .inl h1
  refine .inr ⟨by omega, ?_⟩
  obtain ⟨n, hn, -⟩ := recText_spec kwPath s
  obtain ⟨m, hm, -⟩ := recText_spec kwPath (s ++ [47])
  refine ⟨n, m, hn, hm, ?_⟩
  rw [path_record s (by omega) (by omega) n hn,
    path_record (s ++ [47]) (by simp; omega) (by simp; omega) m hm]
  simp only [List.length_append, List.length_cons, List.length_nil]
  unfold pad512
  split <;> split <;> omega

/-- Then a header for the path is as long as one for the path with the slash. -/
theorem hdr_slash (s : Bytes) (h : s.length ≤ 4096) (hb : s.length ∉ badDirLengths) :
    computeHdrSize s [] 0 = computeHdrSize (s ++ [47]) [] 0 := by
  unfold computeHdrSize
  rw [hdrSize_eq, hdrSize_eq]
  rcases dir_room s h hb with h1 | ⟨h1, n, m, hn, hm, hnm⟩
  · have e1 : ¬ (s.length > 100) := by omega
    have e2 : ¬ (s.length + 1 > 100) := by omega
    simp [paxPairs, maxFileSize, recTexts, e1, e2]
  · obtain ⟨n', k1, _, _, k2, k2'⟩ := recText_spec kwPath s
    obtain ⟨m', k3, _, _, k4, k4'⟩ := recText_spec kwPath (s ++ [47])
    have hkk : kPath = kwPath := rfl
    rw [hkk, k1] at hn; rw [hkk, k3] at hm
    have hn' := Except.ok.inj hn
    have hm' := Except.ok.inj hm
    have g1 : s.length + 1 > 100 := by omega
    simp [paxPairs, maxFileSize, h1, recTexts, k2, k4, hn', hm', g1,
      paxHdrSz_pos (n := n) (by omega), paxHdrSz_pos (n := m) (by omega), hnm]

/-- **C05, exactly**: for every object whose path has at most 4096 bytes (the system allows 4095) the header that is
written has the planned size, except directories, given without a slash at the end, whose path has
exactly 100, 502, 1013, 1525, 2037, 2549, 3061, 3573 or 4085 bytes. -/
theorem C05_planned_iff (env : Env) (lstat : Bytes → Option (Stat × Bytes)) (fn : Bytes)
    (st : Stat) (tgt : Bytes) (off : Nat) (e : TarEntry) (b : Bytes)
    (hl : lstat fn = some (st, tgt)) (hpath : fn.length ≤ 4096)
    (hlen : st.kind = .lnk → st.size = tgt.length)
    (he : tarentryCtor lstat fn off = .ok e) (hb : makeTarHeader env e = .ok b) :
    computeHdrSize fn (if st.kind = .lnk then tgt else []) (if st.kind = .reg then st.size else 0)
        = .ok b.length ↔
      ¬ (st.kind = .dir ∧ fn.getLast? ≠ some 47 ∧ fn.length ∈ badDirLengths) := by
  have hother : st.kind ≠ .other := by
    intro hk
    unfold tarentryCtor at he
    rw [hl] at he
    simp [hk] at he
    subst he
    obtain ⟨pre, hd, -, hhd, -⟩ := makeTarHeader_shape hb
    unfold ustarBlock at hhd; rw [if_pos hk] at hhd; cases hhd
  by_cases hk : st.kind = .dir
  · have e1 : (if st.kind = .lnk then tgt else []) = [] := by rw [if_neg (by rw [hk]; decide)]
    have e2 : (if st.kind = .reg then st.size else 0) = 0 := by rw [if_neg (by rw [hk]; decide)]
    rw [e1, e2]
    by_cases hs : fn.getLast? = some 47
    · refine iff_of_true (C05_planned_dir_partial env lstat fn st tgt off e b hl hk (.inl hs) he hb) ?_
      exact fun h => h.2.1 hs
    by_cases h1 : fn.length < 100
    · refine iff_of_true (C05_planned_dir_partial env lstat fn st tgt off e b hl hk (.inr h1) he hb) ?_
      rintro ⟨-, -, hm⟩
      simp [badDirLengths] at hm
      omega
    by_cases h2 : fn.length = 100
    · have := C05_dir_100_mismatch env lstat fn st tgt off e b hl hk h2 hs he hb
      refine iff_of_false ?_ ?_
      · rw [this.1, this.2]; intro h; exact absurd (Except.ok.inj h) (by decide)
      · exact fun h => h ⟨hk, hs, by rw [h2]; simp [badDirLengths]⟩
    · obtain ⟨n, hn, -⟩ := recText_spec kwPath fn
      obtain ⟨m, hm, -⟩ := recText_spec kwPath (fn ++ [47])
      rw [C05_planned_long_dir_iff env lstat fn st tgt off e b n m hl hk (by omega) hs hn hm he hb,
        path_record fn (by omega) (by omega) n hn,
        path_record (fn ++ [47]) (by simp; omega) (by simp; omega) m hm]
      simp only [List.length_append, List.length_cons, List.length_nil]
      have hb' : (st.kind = .dir ∧ fn.getLast? ≠ some 47 ∧ fn.length ∈ badDirLengths) ↔
          fn.length ∈ badDirLengths := ⟨fun h => h.2.2, fun h => ⟨hk, hs, h⟩⟩
      rw [hb']
      simp only [badDirLengths, List.mem_cons, List.not_mem_nil, or_false]
      unfold pad512
      split <;> split <;> omega
  · refine iff_of_true (C05_planned_size_partial env lstat fn st tgt off e b hl ?_ hlen he hb) ?_
    · cases hkk : st.kind
      · exact .inl rfl
      · exact absurd hkk hk
      · exact .inr rfl
      · exact absurd hkk hother
    · exact fun h => hk h.1

/-- A directory with a path of 502 bytes: planned and written sizes differ. -/
example : ∃ e b, tarentryCtor (fun _ => some (⟨.dir, 0o755, 0, 0, 4096, 5⟩, [])) (List.replicate 502 97) 0
      = .ok e ∧ makeTarHeader demoEnv e = .ok b ∧
      computeHdrSize (List.replicate 502 97) [] 0 ≠ .ok b.length := by
  have he : tarentryCtor (fun _ => some (⟨.dir, 0o755, 0, 0, 4096, 5⟩, [])) (List.replicate 502 97) 0 =
    .ok ⟨0, ⟨.dir, 0o755, 0, 0, 4096, 5⟩, List.replicate 502 97 ++ [47], []⟩ := by decide +kernel
  obtain ⟨b, hb⟩ := C01_header_made demoEnv
    ⟨0, ⟨.dir, 0o755, 0, 0, 4096, 5⟩, List.replicate 502 97 ++ [47], []⟩ _ _ (by decide) rfl rfl
  have := C05_planned_iff demoEnv _ (List.replicate 502 97) ⟨.dir, 0o755, 0, 0, 4096, 5⟩ [] 0 _ b rfl
    (by rw [List.length_replicate]; decide) (by decide) he hb
  refine ⟨_, b, he, hb, fun h => this.1 h ⟨rfl, by decide +kernel, by rw [List.length_replicate]; decide⟩⟩

end Parfu.Props
