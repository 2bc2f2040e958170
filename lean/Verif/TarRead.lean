/-
Helper lemmas: the independent reader applied to what the header writer produces.
-/
import Verif.TarLemmas
set_option autoImplicit false

namespace Parfu
open TarSpec

theorem ustarFields_lengths (xtype : UInt8) (st : Stat) (fn ln u g chk : Bytes)
    (hc : chk.length = 8) :
    (ustarFields xtype st fn ln u g chk).map List.length =
      [100, 8, 8, 8, 12, 12, 8, 1, 100, 6, 2, 32, 32, 8, 8, 155, 12] := by
  simp only [ustarFields, List.map_cons, List.map_nil, fieldStr_length, fieldOct_length, hc,
    List.length_cons, List.length_nil, zeros_length]
  by_cases hx : xtype = 0 <;>
    simp [hx, fieldSnprintf_length, fieldOct_length, zeros_length]

theorem flatten_length_of {fs : List Bytes} {lens : List Nat} (h : fs.map List.length = lens) :
    fs.flatten.length = lens.sum := by
  rw [List.length_flatten, h]

theorem slice_fields {fs : List Bytes} {lens : List Nat} (hl : fs.map List.length = lens)
    {i off n : Nat} {f : Bytes} (hf : fs[i]? = some f) (hoff : (lens.take i).sum = off)
    (hn : lens[i]? = some n) : slice off n fs.flatten = f := by
  have hi : i < fs.length := by
    rcases Nat.lt_or_ge i fs.length with h | h
    · exact h
    · rw [List.getElem?_eq_none h] at hf; simp at hf
  have hfi : fs[i] = f := by rw [List.getElem?_eq_getElem hi] at hf; exact Option.some.inj hf
  have hsplit : fs = fs.take i ++ (f :: fs.drop (i + 1)) := by
    rw [← hfi, ← List.drop_eq_getElem_cons hi, List.take_append_drop]
  have h2 : f.length = n := by
    have : (fs.map List.length)[i]? = some f.length := by simp [hf]
    rw [hl, hn] at this; exact (Option.some.inj this).symm
  have h1 : (fs.take i).flatten.length = off := by
    rw [List.length_flatten, List.map_take, hl, hoff]
  conv => lhs; rw [hsplit]
  rw [List.flatten_append, List.flatten_cons]
  exact slice_mid _ _ _ _ _ h1 h2

/-- What the reader finds in a block (helper). -/
def rawOf (xtype : UInt8) (st : Stat) (fn ln u g : Bytes) : Raw :=
  { name := text (fieldStr 100 fn)
    mode := octStored 8 (st.perm % 4096)
    uid := octStored 8 (if xtype ≠ 0 then 0 else st.uid)
    gid := octStored 8 (if xtype ≠ 0 then 0 else st.gid)
    size := octStored 12 (let size : Int := if st.kind = .reg then st.size else 0
                          if size < maxFileSize then u64 size else 0)
    mtime := octStored 12 (u64 st.mtime)
    flag := typeFlag xtype st.kind
    linkname := text (fieldStr 100 (if st.kind = .lnk then ln else []))
    uname := text (if xtype ≠ 0 then zeros 32 else fieldSnprintf 32 u)
    gname := text (if xtype ≠ 0 then zeros 32 else fieldSnprintf 32 g) }

theorem u64_of_nonneg {x : Int} (h0 : 0 ≤ x) (h : x < 2 ^ 64) : u64 x = x.toNat := by
  unfold u64; rw [Int.emod_eq_of_lt h0 h]

theorem u64_lt {x : Int} {n : Nat} (h0 : 0 ≤ x) (h : x < (n : Int)) (hn : n ≤ 2 ^ 64) : u64 x < n := by
  rw [u64_of_nonneg h0 (by have : ((2:Int)^64) = ((2^64 : Nat) : Int) := by norm_cast
                           rw [this]; omega)]
  omega

theorem byteSum_eq_sum (b : Bytes) : byteSum b = (b.map UInt8.toNat).sum := rfl

theorem ustarFields_split (xtype : UInt8) (st : Stat) (fn ln u g : Bytes) :
    ∃ a b : Bytes, a.length = 148 ∧ b.length = 356 ∧
      ∀ chk, (ustarFields xtype st fn ln u g chk).flatten = a ++ (chk ++ b) := by
  have hl := ustarFields_lengths xtype st fn ln u g (List.replicate 8 32) (by simp)
  refine ⟨((ustarFields xtype st fn ln u g []).take 6).flatten,
    ((ustarFields xtype st fn ln u g []).drop 7).flatten, ?_, ?_, ?_⟩
  · have : (ustarFields xtype st fn ln u g []).take 6 =
      (ustarFields xtype st fn ln u g (List.replicate 8 32)).take 6 := rfl
    rw [this, List.length_flatten, List.map_take, hl]; rfl
  · have : (ustarFields xtype st fn ln u g []).drop 7 =
      (ustarFields xtype st fn ln u g (List.replicate 8 32)).drop 7 := rfl
    rw [this, List.length_flatten, List.map_drop, hl]; rfl
  · intro chk
    simp [ustarFields]

theorem ustarBlock_checksum {env : Env} {xtype : UInt8} {st : Stat} {fn ln b : Bytes}
    (h : ustarBlock env xtype st fn ln = .ok b) : checksumOk b := by
  unfold ustarBlock at h
  split at h
  · cases h
  split at h
  · cases h
  rename_i g hg
  split at h
  · cases h
  rename_i u hu
  simp only [Except.ok.injEq] at h
  obtain ⟨a, c, ha, hc, hs⟩ := ustarFields_split xtype st fn ln u g
  rw [hs, hs] at h
  subst h
  have hbs : byteSum (a ++ (List.replicate 8 32 ++ c)) < 8 ^ 6 := by
    have := byteSum_le (a ++ (List.replicate 8 32 ++ c))
    simp only [List.length_append, List.length_replicate, ha, hc] at this
    omega
  generalize hsum : byteSum (a ++ (List.replicate 8 32 ++ c)) = s at hbs
  refine ⟨by simp [ha, hc, chksumField_length], ?_⟩
  rw [slice_mid _ _ _ 148 8 ha (chksumField_length _), octal_chksumField hbs]
  congr 1
  unfold blockSum
  have s1 : slice 0 148 (a ++ (chksumField s ++ c)) = a := by
    have := slice_mid [] a (chksumField s ++ c) 0 148 rfl ha
    simpa using this
  have s2 : slice 156 356 (a ++ (chksumField s ++ c)) = c := by
    have := slice_mid (a ++ chksumField s) c [] 156 356 (by simp [ha, chksumField_length]) hc
    simpa using this
  rw [s1, s2, ← hsum]
  simp [byteSum, List.append_assoc]

theorem text_zeros (n : Nat) : text (zeros n) = [] := by
  unfold text zeros; cases n <;> simp [List.replicate_succ]

theorem parseBlock_ustarBlock {env : Env} {xtype : UInt8} {st : Stat} {fn ln u g b : Bytes}
    (hk : st.kind ≠ .other) (hu : env.pwName st.uid = some u) (hg : env.grName st.gid = some g)
    (h : ustarBlock env xtype st fn ln = .ok b) :
    parseBlock b = some (rawOf xtype st fn ln u g) := by
  have hchk := ustarBlock_checksum h
  unfold ustarBlock at h
  rw [if_neg hk, hg, hu] at h
  simp only [Except.ok.injEq] at h
  generalize byteSum (ustarFields xtype st fn ln u g (List.replicate 8 32)).flatten = s at h
  have hl := ustarFields_lengths xtype st fn ln u g (chksumField s) (chksumField_length s)
  have F := @slice_fields _ _ hl
  rw [h] at F
  unfold parseBlock
  rw [if_pos ⟨hchk, F (i := 9) (off := 257) (n := 6) rfl rfl rfl,
    F (i := 10) (off := 263) (n := 2) rfl rfl rfl, by
      rw [F (i := 15) (off := 345) (n := 155) rfl rfl rfl]; exact text_zeros _⟩]
  rw [F (i := 1) (off := 100) (n := 8) rfl rfl rfl, F (i := 2) (off := 108) (n := 8) rfl rfl rfl,
    F (i := 3) (off := 116) (n := 8) rfl rfl rfl, F (i := 4) (off := 124) (n := 12) rfl rfl rfl,
    F (i := 5) (off := 136) (n := 12) rfl rfl rfl, F (i := 7) (off := 156) (n := 1) rfl rfl rfl,
    F (i := 0) (off := 0) (n := 100) rfl rfl rfl, F (i := 8) (off := 157) (n := 100) rfl rfl rfl,
    F (i := 11) (off := 265) (n := 32) rfl rfl rfl, F (i := 12) (off := 297) (n := 32) rfl rfl rfl,
    octal_fieldOct_gen _ (by omega), octal_fieldOct_gen _ (by omega),
    octal_fieldOct_gen _ (by omega), octal_fieldOct_gen _ (by omega),
    octal_fieldOct_gen _ (by omega)]
  rfl

theorem ustarBlock_ok {env : Env} {xtype : UInt8} {st : Stat} (fn ln : Bytes) {u g : Bytes}
    (hk : st.kind ≠ .other) (hu : env.pwName st.uid = some u) (hg : env.grName st.gid = some g) :
    ∃ b, ustarBlock env xtype st fn ln = .ok b := by
  unfold ustarBlock; rw [if_neg hk, hg, hu]; exact ⟨_, rfl⟩

theorem ustarBlock_length {env : Env} {xtype : UInt8} {st : Stat} {fn ln b : Bytes}
    (h : ustarBlock env xtype st fn ln = .ok b) : b.length = 512 := (ustarBlock_checksum h).1

/-! ### pax records -/

theorem mem_sep_free {k : Bytes} (hk : (61:UInt8) ∉ k) (v : Bytes) :
    (k ++ [61] ++ v).takeWhile (· ≠ 61) = k ∧ ((k ++ [61] ++ v).dropWhile (· ≠ 61)).drop 1 = v := by
  have h1 : ∀ c ∈ k, (decide (c ≠ 61)) = true := by
    intro c hc; simp; intro h; exact hk (h ▸ hc)
  have h2 : ∀ c, ([61] ++ v : Bytes).head? = some c → decide (c ≠ 61) = false := by
    intro c hc; simp at hc; subst hc; decide
  constructor
  · rw [List.append_assoc]; exact takeWhile_append_of_all _ _ h1 h2
  · rw [List.append_assoc, dropWhile_append_of_all _ _ h1 h2]; rfl

theorem parsePax_recTexts (ps : List (Bytes × Bytes)) (hk : ∀ p ∈ ps, (61:UInt8) ∉ p.1) :
    parsePax (recTexts ps) = some ps := by
  induction ps with
  | nil => rw [parsePax]; simp [recTexts]
  | cons p ps ih =>
    obtain ⟨k, v⟩ := p
    obtain ⟨n, _, _, htxt, hlen, hpos⟩ := recText_spec k v
    have hk1 : (61:UInt8) ∉ k := hk (k, v) (by simp)
    rw [recTexts_cons, parsePax]
    have hne : recText k v ++ recTexts ps ≠ [] := by
      intro h
      have := congrArg List.length h
      rw [List.length_append, hlen] at this; simp at this; omega
    rw [dif_neg hne]
    have hread : readNum 10 (recText k v ++ recTexts ps) =
        some (n, [32] ++ k ++ [61] ++ v ++ [10] ++ recTexts ps) := by
      rw [htxt]
      have := readNum_digits (b := 10) (by omega) (by omega) n
        ([32] ++ k ++ [61] ++ v ++ [10] ++ recTexts ps) (by
          intro c hc; simp at hc; subst hc; decide)
      simpa [List.append_assoc] using this
    rw [hread]
    dsimp only
    rw [dif_pos ⟨hpos, by simp; omega⟩]
    have htake : (recText k v ++ recTexts ps).take n = recText k v := by
      rw [← hlen]; simp
    have hdrop : (recText k v ++ recTexts ps).drop n = recTexts ps := by
      rw [← hlen]; simp
    rw [htake, hdrop, ih (fun p hp => hk p (by simp [hp]))]
    have hbody : (recText k v).dropWhile (isDigit 10) = [32] ++ k ++ [61] ++ v ++ [10] := by
      rw [htxt]
      have := dropWhile_append_of_all (p := isDigit 10) (digits 10 n) ([32] ++ k ++ [61] ++ v ++ [10])
        (digits_isDigit (by omega) (by omega) n) (by intro c hc; simp at hc; subst hc; decide)
      simpa [List.append_assoc] using this
    rw [hbody]
    have hlast : (recText k v).getLast? = some 10 := by rw [htxt, List.getLast?_concat]
    rw [if_pos ⟨by simp, hlast, by simp⟩]
    have hkv : (([32] ++ k ++ [61] ++ v ++ [10] : Bytes).drop 1).dropLast = k ++ [61] ++ v := by
      have : ([32] ++ k ++ [61] ++ v ++ [10] : Bytes).drop 1 = (k ++ [61] ++ v) ++ [10] := by simp
      rw [this, List.dropLast_concat]
    rw [hkv]
    obtain ⟨e1, e2⟩ := mem_sep_free hk1 v
    rw [e1, e2]

theorem paxPairs_keys (e : TarEntry) : ∀ p ∈ paxPairs e, (61:UInt8) ∉ p.1 := by
  intro p hp
  unfold paxPairs at hp
  simp only [List.mem_append] at hp
  rcases hp with (hp | hp) | hp <;> split at hp <;> simp at hp <;> subst hp <;> (dsimp only; decide)

/-! ### the whole header -/

theorem paxHdrSz_pos {n : Nat} (h : 0 < n) : paxHdrSz n = 512 + pad512 n := by
  unfold paxHdrSz pad512 roundToBlock blk; rw [if_pos h]; omega

/-- Shape of a successfully made header. -/
theorem makeTarHeader_shape {env : Env} {e : TarEntry} {b : Bytes} (h : makeTarHeader env e = .ok b) :
    ∃ pre hd, b = pre ++ hd ∧ ustarBlock env 0 e.stat e.filename e.linkname = .ok hd ∧
      ((paxPairs e = [] ∧ pre = []) ∨
       (paxPairs e ≠ [] ∧ ∃ xb, ustarBlock env XHDTYPE
          { e.stat with kind := .reg, perm := 0o644, size := ((recTexts (paxPairs e)).length : Int) }
          (paxName e.filename) [] = .ok xb ∧
        pre = xb ++ (recTexts (paxPairs e) ++
          zeros (pad512 (recTexts (paxPairs e)).length - (recTexts (paxPairs e)).length)))) := by
  unfold makeTarHeader at h
  rw [getPaxSize_eq] at h
  simp only [bind, Except.bind] at h
  by_cases hp : paxPairs e = []
  · rw [hp] at h
    simp only [recTexts, List.map_nil, List.flatten_nil, List.length_nil, Nat.lt_irrefl, if_false,
      gt_iff_lt, pure, Except.pure] at h
    split at h
    · cases h
    · rename_i hd hhd
      refine ⟨[], hd, ?_, hhd, Or.inl ⟨hp, rfl⟩⟩
      simpa using (Except.ok.inj h).symm
  · have hpos : 0 < (recTexts (paxPairs e)).length := by
      cases hps : paxPairs e with
      | nil => exact absurd hps hp
      | cons p ps =>
        obtain ⟨k, v⟩ := p
        obtain ⟨n, _, _, _, hl, hn⟩ := recText_spec k v
        rw [recTexts_cons]; simp; omega
    generalize htx : recTexts (paxPairs e) = tx at *
    have hcap : paxHdrSz tx.length - blk = pad512 tx.length := by
      rw [paxHdrSz_pos hpos]; unfold blk; omega
    have hle : tx.length ≤ pad512 tx.length := by unfold pad512; omega
    simp only [gt_iff_lt, hpos, if_true] at h
    cases hxb : ustarBlock env XHDTYPE
          { e.stat with kind := .reg, perm := 0o644, size := (tx.length : Int) }
          (paxName e.filename) [] with
    | error er => rw [hxb] at h; simp at h
    | ok xb =>
      rw [hxb] at h
      simp only [] at h
      rw [hcap, layRecords_eq _ _ _ (by rw [htx]; simpa using hle), htx] at h
      simp only [pure, Except.pure, List.nil_append] at h
      split at h
      · cases h
      · rename_i hd hhd
        refine ⟨_, hd, ?_, hhd, Or.inr ⟨hp, xb, rfl, rfl⟩⟩
        simpa [List.append_assoc] using (Except.ok.inj h).symm

/-- Everything the reader sees of a header, for any entry at all. -/
theorem readMember_header {env : Env} {e : TarEntry} {b : Bytes} {u g : Bytes}
    (h : makeTarHeader env e = .ok b) (hu : env.pwName e.stat.uid = some u)
    (hg : env.grName e.stat.gid = some g) (hlen : (recTexts (paxPairs e)).length < 8 ^ 11 - 1)
    (tail : Bytes) :
    readMember (b ++ tail) =
      takeData (rawOf 0 e.stat e.filename e.linkname u g) (paxPairs e) tail := by
  obtain ⟨pre, hd, hb, hhd, hcase⟩ := makeTarHeader_shape h
  have hk : e.stat.kind ≠ .other := by
    intro hk; unfold ustarBlock at hhd; rw [if_pos hk] at hhd; cases hhd
  have hp0 := parseBlock_ustarBlock hk hu hg hhd
  have hdl := ustarBlock_length hhd
  have hfl : (rawOf 0 e.stat e.filename e.linkname u g).flag ≠ 120 := by
    simp only [rawOf, typeFlag]
    cases e.stat.kind <;> simp [SYMTYPE, DIRTYPE, REGTYPE]
  rcases hcase with ⟨hpp, hpre⟩ | ⟨hpp, xb, hxb, hpre⟩
  · subst hpre hb
    unfold readMember
    rw [List.take_left' hdl, List.drop_left' hdl, hp0]
    simp only [if_neg hfl, hpp]
  · have hpx := parseBlock_ustarBlock (u := u) (g := g) (st := { e.stat with kind := .reg, perm := 0o644, size := ((recTexts (paxPairs e)).length : Int) }) (by simp) hu hg hxb
    have hxl := ustarBlock_length hxb
    generalize htx : recTexts (paxPairs e) = tx at *
    have hle : tx.length ≤ pad512 tx.length := by unfold pad512; omega
    have hsz : ∀ s : Raw, s = rawOf XHDTYPE
        { e.stat with kind := .reg, perm := 0o644, size := (tx.length : Int) }
        (paxName e.filename) [] u g → s.size = tx.length := by
      intro s hs
      subst hs
      simp only [rawOf, if_true]
      have : (tx.length : Int) < maxFileSize := by unfold maxFileSize; omega
      rw [if_pos this, u64_of_nonneg (by omega) (by omega)]
      unfold octStored
      rw [if_pos (by simp; omega)]
      simp
    have hflx : (rawOf XHDTYPE
        { e.stat with kind := .reg, perm := 0o644, size := (tx.length : Int) }
        (paxName e.filename) [] u g).flag = 120 := by
      simp [rawOf, typeFlag, XHDTYPE]
    subst hb hpre
    unfold readMember
    rw [show xb ++ (tx ++ zeros (pad512 tx.length - tx.length)) ++ hd ++ tail =
      xb ++ (tx ++ (zeros (pad512 tx.length - tx.length) ++ (hd ++ tail))) by
        simp [List.append_assoc]]
    rw [List.take_left' hxl, List.drop_left' hxl, hpx]
    simp only [hflx, if_true, hsz _ rfl]
    rw [if_neg (by simp), List.take_left' rfl, ← htx, parsePax_recTexts _ (paxPairs_keys e), htx]
    have hdr : (tx ++ (zeros (pad512 tx.length - tx.length) ++ (hd ++ tail))).drop (pad512 tx.length)
        = hd ++ tail := by
      rw [← List.append_assoc]
      apply List.drop_left'
      simp [zeros]; omega
    simp only [hdr, List.take_left' hdl, List.drop_left' hdl, hp0, if_neg hfl]

theorem makeTarHeader_length {env : Env} {e : TarEntry} {b : Bytes}
    (h : makeTarHeader env e = .ok b) :
    b.length = blk + paxHdrSz (recTexts (paxPairs e)).length := by
  obtain ⟨pre, hd, hb, hhd, hcase⟩ := makeTarHeader_shape h
  have hdl := ustarBlock_length hhd
  rcases hcase with ⟨hpp, hpre⟩ | ⟨hpp, xb, hxb, hpre⟩
  · subst hb hpre; simp [hpp, recTexts, paxHdrSz, hdl, blk]
  · have hxl := ustarBlock_length hxb
    have hpos : 0 < (recTexts (paxPairs e)).length := by
      cases hps : paxPairs e with
      | nil => exact absurd hps hpp
      | cons p ps =>
        obtain ⟨k, v⟩ := p
        obtain ⟨n, _, _, _, hl, hn⟩ := recText_spec k v
        rw [recTexts_cons]; simp; omega
    have hle : (recTexts (paxPairs e)).length ≤ pad512 (recTexts (paxPairs e)).length := by
      unfold pad512; omega
    subst hb hpre
    rw [paxHdrSz_pos hpos]
    simp [hdl, hxl, zeros, blk]; omega

theorem makeTarHeader_ok {env : Env} {e : TarEntry} {u g : Bytes} (hk : e.stat.kind ≠ .other)
    (hu : env.pwName e.stat.uid = some u) (hg : env.grName e.stat.gid = some g) :
    ∃ b, makeTarHeader env e = .ok b := by
  obtain ⟨hd, hhd⟩ := ustarBlock_ok (env := env) (xtype := 0) e.filename e.linkname hk hu hg
  unfold makeTarHeader
  rw [getPaxSize_eq]
  simp only [bind, Except.bind]
  split
  · rename_i er her
    exfalso
    split at her
    · rename_i hpos
      obtain ⟨xb, hxb⟩ := ustarBlock_ok (env := env) (xtype := XHDTYPE)
        (st := { e.stat with kind := .reg, perm := 0o644,
                             size := ((recTexts (paxPairs e)).length : Int) })
        (paxName e.filename) [] (by simp) hu hg
      rw [hxb] at her
      have hle : (recTexts (paxPairs e)).length ≤ pad512 (recTexts (paxPairs e)).length := by
        unfold pad512; omega
      have hcap : paxHdrSz (recTexts (paxPairs e)).length - blk
          = pad512 (recTexts (paxPairs e)).length := by
        rw [paxHdrSz_pos hpos]; unfold blk; omega
      simp only [hcap] at her
      rw [layRecords_eq _ _ _ (by simpa using hle)] at her
      simp [pure, Except.pure] at her
    · simp [pure, Except.pure] at her
  · rw [hhd]; exact ⟨_, rfl⟩

end Parfu
