/-
Property theorems C01: when no header can be made, and what the block in front of an extended header says.
-/
import Verif.PropsTar
import Verif.PropsText
set_option autoImplicit false

namespace Parfu.Props
open Parfu Parfu.TarSpec

theorem ustarBlock_error {env : Env} {xtype : UInt8} {st : Stat} {fn ln : Bytes} {er : Err}
    (h : ustarBlock env xtype st fn ln = .error er) : er = .exit 1 := by
  unfold ustarBlock at h
  split at h
  · exact (Except.error.inj h).symm
  split at h
  · exact (Except.error.inj h).symm
  split at h
  · exact (Except.error.inj h).symm
  · cases h

theorem makeTarHeader_error {env : Env} {e : TarEntry} {er : Err}
    (h : makeTarHeader env e = .error er) : er = .exit 1 := by
  unfold makeTarHeader at h
  rw [getPaxSize_eq] at h
  simp only [bind, Except.bind] at h
  split at h
  · rename_i er' her
    cases h
    split at her
    · rename_i hpos
      cases hxb : ustarBlock env XHDTYPE
          { e.stat with kind := .reg, perm := 0o644, size := ((recTexts (paxPairs e)).length : Int) }
          (paxName e.filename) [] with
      | error er => rw [hxb] at her; cases her; exact ustarBlock_error hxb
      | ok xb =>
        rw [hxb] at her
        have hle : (recTexts (paxPairs e)).length ≤ pad512 (recTexts (paxPairs e)).length := by
          unfold pad512; omega
        have hcap : paxHdrSz (recTexts (paxPairs e)).length - blk
            = pad512 (recTexts (paxPairs e)).length := by
          rw [paxHdrSz_pos hpos]; unfold blk; omega
        simp only [hcap] at her
        rw [layRecords_eq _ _ _ (by simpa using hle)] at her
        simp [pure, Except.pure] at her
    · simp [pure, Except.pure] at her
  · split at h
    · rename_i er' her
      cases h
      exact ustarBlock_error her
    · cases h

/-- **C01** A header is made exactly for the three supported kinds with an owner and a group that have
names; otherwise the process ends with status 1. -/
theorem C01_refused_iff (env : Env) (e : TarEntry) :
    ((∃ b, makeTarHeader env e = .ok b) ↔
      e.stat.kind ≠ .other ∧ (∃ u, env.pwName e.stat.uid = some u) ∧ ∃ g, env.grName e.stat.gid = some g) ∧
    ((¬ ∃ b, makeTarHeader env e = .ok b) → makeTarHeader env e = .error (.exit 1)) := by
  refine ⟨⟨?_, ?_⟩, ?_⟩
  · rintro ⟨b, hb⟩
    obtain ⟨pre, hd, _, hhd, _⟩ := makeTarHeader_shape hb
    unfold ustarBlock at hhd
    split at hhd
    · cases hhd
    rename_i hk
    split at hhd
    · cases hhd
    rename_i g hg
    split at hhd
    · cases hhd
    rename_i u hu
    exact ⟨hk, ⟨u, hu⟩, ⟨g, hg⟩⟩
  · rintro ⟨hk, ⟨u, hu⟩, ⟨g, hg⟩⟩
    exact C01_header_made env e u g hk hu hg
  · intro h
    cases hm : makeTarHeader env e with
    | ok b => exact absurd ⟨b, hm⟩ h
    | error er => rw [makeTarHeader_error hm]

/-- An owner without a name. -/
example : makeTarHeader ⟨fun _ => none, fun _ => some [97]⟩ (demoReg 300 5) = .error (.exit 1) :=
  (C01_refused_iff _ _).2 (by
    rintro ⟨b, hb⟩
    obtain ⟨_, ⟨u, hu⟩, _⟩ := (C01_refused_iff _ _).1.1 ⟨b, hb⟩
    cases hu)

/-- **C01** Looking at an object before archiving it: for a path that exists, undefined behaviour exactly
for a symbolic link whose reported length is negative, 4096 or more, or more than the target has bytes,
and for a directory with an empty path; the process ends with status 1 exactly when there is no such path. -/
theorem C01_look (lstat : Bytes → Option (Stat × Bytes)) (fn : Bytes) (off : Nat) :
    (lstat fn = none → tarentryCtor lstat fn off = .error (.exit 1)) ∧
    ∀ st tgt, lstat fn = some (st, tgt) →
      (tarentryCtor lstat fn off = .error .ub ↔
        (st.kind = .lnk ∧ (st.size < 0 ∨ 4096 ≤ st.size ∨ (tgt.length : Int) < st.size)) ∨
        (st.kind = .dir ∧ fn = [])) ∧
      ((∃ e, tarentryCtor lstat fn off = .ok e) ∨ tarentryCtor lstat fn off = .error .ub) := by
  refine ⟨?_, ?_⟩
  · intro h; unfold tarentryCtor; rw [h]
  · intro st tgt h
    have hp : (pathMax : Int) = 4096 := rfl
    unfold tarentryCtor
    rw [h]
    simp only []
    rw [hp]
    by_cases hk : st.kind = .lnk
    · rw [if_pos hk]
      have hd : ¬ (st.kind = .dir ∧ fn = []) := by rw [hk]; rintro ⟨h, _⟩; cases h
      by_cases hb : st.size < 0 ∨ (4096 : Int) ≤ st.size ∨ (tgt.length : Int) < st.size
      · rw [if_pos hb]
        exact ⟨⟨fun _ => Or.inl ⟨hk, hb⟩, fun _ => rfl⟩, Or.inr rfl⟩
      · rw [if_neg hb]
        refine ⟨⟨(fun g => by cases g), ?_⟩, Or.inl ⟨_, rfl⟩⟩
        rintro (⟨_, g⟩ | g)
        · exact absurd g hb
        · exact absurd g hd
    · rw [if_neg hk]
      by_cases hdir : st.kind = .dir
      · rw [if_pos hdir]
        cases hl : fn.getLast? with
        | none =>
          have : fn = [] := by simpa using hl
          exact ⟨⟨fun _ => Or.inr ⟨hdir, this⟩, fun _ => rfl⟩, Or.inr rfl⟩
        | some c =>
          refine ⟨⟨(fun g => by cases g), ?_⟩, Or.inl ⟨_, rfl⟩⟩
          rintro (⟨g, _⟩ | ⟨_, g⟩)
          · exact absurd g hk
          · rw [g] at hl; cases hl
      · rw [if_neg hdir]
        refine ⟨⟨(fun g => by cases g), ?_⟩, Or.inl ⟨_, rfl⟩⟩
        rintro (⟨g, _⟩ | ⟨g, _⟩)
        · exact absurd g hk
        · exact absurd g hdir

/-- **C01** The entry that is made when it is: the path (with a `/` at the end for a directory), what `lstat`
says and the target of a link. -/
theorem C01_entry (lstat : Bytes → Option (Stat × Bytes)) (fn : Bytes) (off : Nat) (st : Stat) (tgt : Bytes)
    (e : TarEntry) (hl : lstat fn = some (st, tgt)) (h : tarentryCtor lstat fn off = .ok e) :
    e.offset = off ∧ e.stat = st ∧
    (st.kind = .dir → ∃ pre c, fn = pre ++ [c] ∧ e.filename = if c = 47 then fn else fn ++ [47]) ∧
    (st.kind ≠ .dir → e.filename = fn) ∧
    (st.kind = .lnk → e.linkname = tgt.take st.size.toNat) ∧ (st.kind ≠ .lnk → e.linkname = []) := by
  unfold tarentryCtor at h
  rw [hl] at h
  simp only [] at h
  by_cases hk : st.kind = .lnk
  · rw [if_pos hk] at h
    split at h
    · cases h
    · cases h
      refine ⟨rfl, rfl, ?_, fun _ => rfl, fun _ => rfl, fun g => absurd hk g⟩
      intro g; rw [hk] at g; cases g
  · rw [if_neg hk] at h
    by_cases hdir : st.kind = .dir
    · rw [if_pos hdir] at h
      split at h
      · cases h
      · rename_i c hc
        cases h
        refine ⟨rfl, rfl, ?_, fun g => absurd hdir g, fun g => absurd g hk, fun _ => rfl⟩
        intro _
        obtain ⟨pre, hpre⟩ := List.getLast?_eq_some_iff.1 hc
        exact ⟨pre, c, hpre, rfl⟩
    · rw [if_neg hdir] at h
      cases h
      exact ⟨rfl, rfl, fun g => absurd g hdir, fun _ => rfl, fun g => absurd g hk, fun _ => rfl⟩

/-- A link target of 4095 bytes is read, one of 4096 is not; a directory gets its slash. -/
example : (∃ e, tarentryCtor (fun _ => some (⟨.lnk, 0o777, 0, 0, 4095, 5⟩, List.replicate 4095 98)) [97] 7 = .ok e) ∧
    tarentryCtor (fun _ => some (⟨.lnk, 0o777, 0, 0, 4096, 5⟩, List.replicate 4096 98)) [97] 7 = .error .ub ∧
    tarentryCtor (fun _ => some (⟨.dir, 0o755, 0, 0, 4096, 5⟩, [])) [97] 7 =
      .ok ⟨7, ⟨.dir, 0o755, 0, 0, 4096, 5⟩, [97, 47], []⟩ := by
  refine ⟨?_, ?_, by decide⟩
  · rcases ((C01_look (fun _ => some (⟨.lnk, 0o777, 0, 0, 4095, 5⟩, List.replicate 4095 98)) [97] 7).2 _ _ rfl) with ⟨h, h1 | h1⟩
    · exact h1
    · have := h.1 h1
      rw [List.length_replicate] at this
      simp at this
  · refine ((C01_look _ [97] 7).2 _ _ rfl).1.2 (Or.inl ⟨rfl, ?_⟩)
    right; left; decide

/-! ### The block in front of an extended header -/

theorem stripSlashes_of {s : Bytes} {c : UInt8} (hc : c ≠ 47) : stripSlashes (s ++ [c]) = s ++ [c] := by
  unfold stripSlashes
  simp [hc]

theorem takeWhile_stop {b r : Bytes} (hb : (47 : UInt8) ∉ b) :
    (b ++ 47 :: r).takeWhile (· != 47) = b ∧ (b ++ 47 :: r).dropWhile (· != 47) = 47 :: r := by
  induction b with
  | nil => simp
  | cons c b ih =>
    have h1 : c ≠ 47 := fun h => hb (by simp [h])
    have h2 := ih (fun h => hb (by simp [h]))
    simp [h1, h2]

theorem paxName_slash {d b : Bytes} (hd : d ≠ []) (hdl : d.getLast? ≠ some 47) (hb : b ≠ [])
    (hbs : (47 : UInt8) ∉ b) : paxName (d ++ asc "/" ++ b) = d ++ asc "/" ++ b ++ asc ".paxhdr" := by
  obtain ⟨b', c, rfl⟩ : ∃ b' c, b = b' ++ [c] := ⟨b.dropLast, b.getLast hb, (List.dropLast_concat_getLast hb).symm⟩
  have hc : c ≠ 47 := fun h => hbs (by simp [h])
  obtain ⟨d', x, rfl⟩ : ∃ d' x, d = d' ++ [x] := ⟨d.dropLast, d.getLast hd, (List.dropLast_concat_getLast hd).symm⟩
  have hx : x ≠ 47 := by intro h; subst h; simp at hdl
  have hs : stripSlashes (d' ++ [x] ++ asc "/" ++ (b' ++ [c])) = d' ++ [x] ++ asc "/" ++ (b' ++ [c]) := by
    rw [← List.append_assoc _ b']; exact stripSlashes_of hc
  have hrev : (d' ++ [x] ++ asc "/" ++ (b' ++ [c])).reverse = (b' ++ [c]).reverse ++ 47 :: (d' ++ [x]).reverse := by
    simp [asc]
  have hbs' : (47 : UInt8) ∉ (b' ++ [c]).reverse := by rw [List.mem_reverse]; exact hbs
  obtain ⟨t1, t2⟩ := takeWhile_stop (r := (d' ++ [x]).reverse) hbs'
  have hne : d' ++ [x] ++ asc "/" ++ (b' ++ [c]) ≠ [] := by simp
  unfold paxName
  have h1 : basenameC (d' ++ [x] ++ asc "/" ++ (b' ++ [c])) = b' ++ [c] := by
    unfold basenameC
    rw [if_neg hne, hs, if_neg hne, hrev, t1, List.reverse_reverse]
  have h2 : dirnameC (d' ++ [x] ++ asc "/" ++ (b' ++ [c])) = d' ++ [x] := by
    unfold dirnameC
    rw [hs, if_neg hne, hrev, t2]
    have h3 : stripSlashes ((47 :: (d' ++ [x]).reverse).reverse) = d' ++ [x] := by
      unfold stripSlashes
      simp [hx]
    simp only []
    rw [if_neg (by simp), h3, if_neg (by simp)]
  rw [h1, h2]
  rfl

theorem paxName_plain {b : Bytes} (hb : b ≠ []) (hbs : (47 : UInt8) ∉ b) :
    paxName b = asc "./" ++ b ++ asc ".paxhdr" := by
  obtain ⟨b', c, rfl⟩ : ∃ b' c, b = b' ++ [c] := ⟨b.dropLast, b.getLast hb, (List.dropLast_concat_getLast hb).symm⟩
  have hc : c ≠ 47 := fun h => hbs (by simp [h])
  have hs : stripSlashes (b' ++ [c]) = b' ++ [c] := stripSlashes_of hc
  have hbs' : (47 : UInt8) ∉ (b' ++ [c]).reverse := by rw [List.mem_reverse]; exact hbs
  have t1 : (b' ++ [c]).reverse.takeWhile (· != 47) = (b' ++ [c]).reverse := by
    generalize (b' ++ [c]).reverse = l at hbs'
    induction l with
    | nil => rfl
    | cons y l ih =>
      have h1 : y ≠ 47 := fun h => hbs' (by simp [h])
      have h2 := ih (fun h => hbs' (by simp [h]))
      simp [h1, h2]
  have t2 : (b' ++ [c]).reverse.dropWhile (· != 47) = [] := by
    have h := List.takeWhile_append_dropWhile (p := (· != (47 : UInt8))) (l := (b' ++ [c]).reverse)
    rw [t1] at h
    simpa using h
  have hne : b' ++ [c] ≠ [] := by simp
  unfold paxName
  have h1 : basenameC (b' ++ [c]) = b' ++ [c] := by
    unfold basenameC
    rw [if_neg hne, hs, if_neg hne, t1, List.reverse_reverse]
  have h2 : dirnameC (b' ++ [c]) = asc "." := by
    unfold dirnameC
    rw [hs, if_neg hne, t2]
    simp only []
    rw [if_pos (by simp)]
    rfl
  rw [h1, h2]
  rfl

theorem paxName_root {b : Bytes} (hb : b ≠ []) (hbs : (47 : UInt8) ∉ b) :
    paxName (asc "/" ++ b) = asc "/" ++ asc "/" ++ b ++ asc ".paxhdr" := by
  obtain ⟨b', c, rfl⟩ : ∃ b' c, b = b' ++ [c] := ⟨b.dropLast, b.getLast hb, (List.dropLast_concat_getLast hb).symm⟩
  have hc : c ≠ 47 := fun h => hbs (by simp [h])
  have hs : stripSlashes (asc "/" ++ (b' ++ [c])) = asc "/" ++ (b' ++ [c]) := by
    rw [← List.append_assoc _ b']; exact stripSlashes_of hc
  have hrev : (asc "/" ++ (b' ++ [c])).reverse = (b' ++ [c]).reverse ++ 47 :: [] := by
    simp [asc]
  have hbs' : (47 : UInt8) ∉ (b' ++ [c]).reverse := by rw [List.mem_reverse]; exact hbs
  obtain ⟨t1, t2⟩ := takeWhile_stop (r := []) hbs'
  have hne : asc "/" ++ (b' ++ [c]) ≠ [] := by simp
  unfold paxName
  have h1 : basenameC (asc "/" ++ (b' ++ [c])) = b' ++ [c] := by
    unfold basenameC
    rw [if_neg hne, hs, if_neg hne, hrev, t1, List.reverse_reverse]
  have h2 : dirnameC (asc "/" ++ (b' ++ [c])) = asc "/" := by
    unfold dirnameC
    rw [hs, if_neg hne, hrev, t2]
    decide
  rw [h1, h2]
  rfl

theorem paxName_trailing {s : Bytes} (hs : s ≠ []) : paxName (s ++ asc "/") = paxName s := by
  have h1 : stripSlashes (s ++ asc "/") = stripSlashes s := by
    unfold stripSlashes
    simp [asc]
  have h2 : s ++ asc "/" ≠ [] := by simp [asc]
  unfold paxName basenameC dirnameC
  rw [h1]
  simp only [h2, hs, if_false]

theorem paxName_slashes {s : Bytes} (hs : s ≠ []) (h : ∀ c ∈ s, c = 47) : paxName s = asc "///.paxhdr" := by
  have h1 : stripSlashes s = [] := by
    unfold stripSlashes
    rw [List.reverse_eq_nil_iff]
    have h' : ∀ c ∈ s.reverse, c = 47 := fun c hc => h c (by simpa using hc)
    generalize s.reverse = l at h'
    induction l with
    | nil => rfl
    | cons x l ih =>
      have hx : x = 47 := h' x (by simp)
      have := ih (fun c hc => h' c (by simp [hc]))
      simp [hx, this]
  unfold paxName basenameC dirnameC
  rw [h1]
  simp only [hs, if_false, if_true]
  rfl

theorem text_fieldStr_take {n : Nat} {s : Bytes} (h0 : (0:UInt8) ∉ s) : text (fieldStr n s) = s.take n := by
  have h : fieldStr n s = fieldStr n (s.take n) := by
    unfold fieldStr
    rw [List.take_take, Nat.min_self, List.length_take]
    congr 2
    omega
  rw [h]
  exact text_fieldStr (fun hm => h0 (List.mem_of_mem_take hm)) (by simp; omega)

/-- **C01** The block in front of an extended header, as a tar reader sees it: a member of type `x` called
`<directory>/<name>.paxhdr` (cut after 100 bytes; for a path of slashes only both are `/`), readable by everyone, without owner and link target,
with the object's time, whose size leaves room for exactly the records. -/
theorem C01_extended_block (env : Env) (e : TarEntry) (b d name : Bytes) (h : makeTarHeader env e = .ok b)
    (hlong : b.length ≠ 512) (hfl : e.filename.length < 2 ^ 30) (hll : e.linkname.length < 2 ^ 30)
    (hn0 : (0 : UInt8) ∉ e.filename)
    (hpath : ((name ≠ [] ∧ (47 : UInt8) ∉ name) ∧
        ((d ≠ [] ∧ d.getLast? ≠ some 47 ∧ (e.filename = d ++ asc "/" ++ name ∨ e.filename = d ++ asc "/" ++ name ++ asc "/"))
        ∨ (d = asc "." ∧ (e.filename = name ∨ e.filename = name ++ asc "/"))
        ∨ (d = asc "/" ∧ (e.filename = asc "/" ++ name ∨ e.filename = asc "/" ++ name ++ asc "/"))))
      ∨ (d = asc "/" ∧ name = asc "/" ∧ e.filename ≠ [] ∧ ∀ c ∈ e.filename, c = 47)) :
    ∃ r, parseBlock (b.take 512) = some r ∧ r.flag = 120 ∧
      r.name = (d ++ asc "/" ++ name ++ asc ".paxhdr").take 100 ∧ r.mode = 0o644 ∧ r.uid = 0 ∧ r.gid = 0 ∧
      r.linkname = [] ∧ r.uname = [] ∧ r.gname = [] ∧
      (0 ≤ e.stat.mtime → e.stat.mtime < 2 ^ 33 → r.mtime = e.stat.mtime.toNat) ∧
      b.length = 512 + pad512 r.size + 512 ∧ 0 < r.size := by
  have hlen := makeTarHeader_length h
  obtain ⟨hk, ⟨u, hu⟩, ⟨g, hg⟩⟩ := (C01_refused_iff env e).1.1 ⟨b, h⟩
  obtain ⟨pre, hd, hb, hhd, hcase⟩ := makeTarHeader_shape h
  have hsm := recTexts_length_lt e hfl hll
  rcases hcase with ⟨hp, hpre⟩ | ⟨hp, xb, hxb, hpre⟩
  · exfalso
    rw [hp] at hlen
    exact hlong hlen
  · have hpos : 0 < (recTexts (paxPairs e)).length := by
      cases hps : paxPairs e with
      | nil => exact absurd hps hp
      | cons p ps =>
        obtain ⟨k, v⟩ := p
        obtain ⟨n, _, _, _, hl, hn⟩ := recText_spec k v
        rw [recTexts_cons]; simp; omega
    refine ⟨rawOf XHDTYPE { e.stat with kind := .reg, perm := 0o644, size := ((recTexts (paxPairs e)).length : Int) }
      (paxName e.filename) [] u g, ?_, ?_, ?_, ?_, ?_, ?_, ?_, ?_, ?_, ?_, ?_⟩
    · rw [hb, hpre, List.append_assoc, List.take_left' (ustarBlock_length hxb)]
      exact parseBlock_ustarBlock (by simp) hu hg hxb
    · rfl
    · have hpn : paxName e.filename = d ++ asc "/" ++ name ++ asc ".paxhdr" := by
        rcases hpath with ⟨hname, ⟨hd1, hd2, hf | hf⟩ | ⟨hd1, hf | hf⟩ | ⟨hd1, hf | hf⟩⟩ | ⟨hd1, hd2, hd3, hd4⟩
        · rw [hf, paxName_slash hd1 hd2 hname.1 hname.2]
        · rw [hf, paxName_trailing (by simp [hd1]), paxName_slash hd1 hd2 hname.1 hname.2]
        · rw [hf, hd1, paxName_plain hname.1 hname.2]; rfl
        · rw [hf, hd1, paxName_trailing hname.1, paxName_plain hname.1 hname.2]; rfl
        · rw [hf, hd1, paxName_root hname.1 hname.2]
        · rw [hf, hd1, paxName_trailing (by simp [asc]), paxName_root hname.1 hname.2]
        · rw [hd1, hd2, paxName_slashes hd3 hd4]; rfl
      have h0 : (0 : UInt8) ∉ d ++ asc "/" ++ name ++ asc ".paxhdr" := by
        have hz : (0 : UInt8) ∉ asc "/" := by decide
        have hz2 : (0 : UInt8) ∉ asc ".paxhdr" := by decide
        have hz3 : (0 : UInt8) ∉ asc "." := by decide
        simp only [List.mem_append, not_or]
        rcases hpath with ⟨hname, ⟨_, _, hf | hf⟩ | ⟨hd1, hf | hf⟩ | ⟨hd1, hf | hf⟩⟩ | ⟨hd1, hd2, _⟩
        · rw [hf] at hn0; simp only [List.mem_append, not_or] at hn0
          exact ⟨⟨⟨hn0.1.1, hz⟩, hn0.2⟩, hz2⟩
        · rw [hf] at hn0; simp only [List.mem_append, not_or] at hn0
          exact ⟨⟨⟨hn0.1.1.1, hz⟩, hn0.1.2⟩, hz2⟩
        · rw [hf] at hn0
          exact ⟨⟨⟨hd1 ▸ hz3, hz⟩, hn0⟩, hz2⟩
        · rw [hf] at hn0; simp only [List.mem_append, not_or] at hn0
          exact ⟨⟨⟨hd1 ▸ hz3, hz⟩, hn0.1⟩, hz2⟩
        · rw [hf] at hn0; simp only [List.mem_append, not_or] at hn0
          exact ⟨⟨⟨hd1 ▸ hz, hz⟩, hn0.2⟩, hz2⟩
        · rw [hf] at hn0; simp only [List.mem_append, not_or] at hn0
          exact ⟨⟨⟨hd1 ▸ hz, hz⟩, hn0.1.2⟩, hz2⟩
        · exact ⟨⟨⟨hd1 ▸ hz, hz⟩, hd2 ▸ hz⟩, hz2⟩
      show text (fieldStr 100 (paxName e.filename)) = _
      rw [hpn]
      exact text_fieldStr_take h0
    · show octStored 8 (0o644 % 4096) = _
      decide +kernel
    · show octStored 8 0 = 0
      decide +kernel
    · show octStored 8 0 = 0
      decide +kernel
    · show text (fieldStr 100 []) = []
      decide +kernel
    · exact text_zeros 32
    · exact text_zeros 32
    · intro h0 h1
      show octStored 12 (u64 e.stat.mtime) = _
      rw [u64_of_nonneg h0 (by omega)]
      exact octStored_of_lt (by simp; omega)
    · have hsz : octStored 12 (u64 ((recTexts (paxPairs e)).length : Int)) = (recTexts (paxPairs e)).length := by
        rw [u64_of_nonneg (by omega) (by omega)]
        exact octStored_of_lt (by simp; omega)
      have hz : (rawOf XHDTYPE { e.stat with kind := .reg, perm := 0o644, size := ((recTexts (paxPairs e)).length : Int) }
          (paxName e.filename) [] u g).size = (recTexts (paxPairs e)).length := by
        have hlt : ((recTexts (paxPairs e)).length : Int) < maxFileSize := by simp only [maxFileSize]; omega
        simp only [rawOf, if_true, hlt]
        exact hsz
      rw [hz, hlen, paxHdrSz_pos hpos]
      unfold blk
      omega

example : ∃ b r, makeTarHeader demoEnv (demoReg 300 5) = .ok b ∧ parseBlock (b.take 512) = some r ∧ r.flag = 120 ∧
    r.name = asc "./" ++ List.replicate 98 97 := by
  obtain ⟨b, hb⟩ := C01_header_made demoEnv (demoReg 300 5) _ _ (by decide) rfl rfl
  obtain ⟨r, h1, h2, h3, _⟩ := C01_extended_block demoEnv (demoReg 300 5) b (asc ".") (List.replicate 300 97) hb
    (by
      have h := (C01_single_block_iff _ _ _ hb).1
      intro hl
      have := (h hl).1
      revert this
      decide +kernel)
    (by decide +kernel) (by decide) (by decide +kernel) (Or.inl ⟨by decide +kernel, Or.inr (Or.inl ⟨rfl, Or.inl rfl⟩)⟩)
  exact ⟨b, r, hb, h1, h2, by rw [h3]; decide +kernel⟩

end Parfu.Props
