/-
Lemmas: reading an archive written by parfu 0.5.1 member by member.
-/
import Verif.LegacyMoveRun
import Verif.MoveObjects
import Verif.LegacyRunSpec
set_option autoImplicit false

namespace Parfu
open SplitSpec Props MoveSpec TarSpec LegacyRunSpec

/-- A properly terminated archive with these members. -/
def ReadsAs (b : Bytes) (ms : List Member) : Prop := readArchive b = some ms ∧ terminated b = true

/-- Reading from `w` gives `ms` and goes on at `z`. -/
def ReadsTo (A : Bytes) (w z : Nat) (ms : List Member) : Prop :=
  ∀ tail, ReadsAs (A.drop z) tail → ReadsAs (A.drop w) (ms ++ tail)

theorem ReadsTo.refl (A : Bytes) (w : Nat) : ReadsTo A w w [] := fun _ h => h

theorem ReadsTo.trans {A : Bytes} {a b c : Nat} {xs ys : List Member} (h1 : ReadsTo A a b xs) (h2 : ReadsTo A b c ys) :
    ReadsTo A a c (xs ++ ys) := by
  intro tail h
  rw [List.append_assoc]
  exact h1 _ (h2 _ h)

/-- One member. -/
theorem readsTo_member {A H D : Bytes} {w : Nat} {m : Member} (hh : Holds A w (H ++ D)) (hl : 512 ≤ H.length)
    (hz : ∀ rest, (H ++ rest).take 1024 ≠ zeros 1024) (hA : w + H.length + pad512 D.length ≤ A.length)
    (hr : ∀ padding rest : Bytes, D.length + padding.length = pad512 D.length →
      readMember (H ++ (D ++ (padding ++ rest))) = some (m, rest)) :
    ReadsTo A w (w + H.length + pad512 D.length) [m] := by
  intro tail ht
  have hpd : D.length ≤ pad512 D.length := by unfold pad512; omega
  let nxt := w + H.length + pad512 D.length
  let pad := (A.drop (w + (H ++ D).length)).take (nxt - (w + (H ++ D).length))
  have hpadl : D.length + pad.length = pad512 D.length := by
    simp only [pad, nxt, List.length_take, List.length_drop, List.length_append]; omega
  have hsplit : A.drop w = H ++ (D ++ (pad ++ A.drop nxt)) := by
    have a1 : A.drop w = (H ++ D) ++ A.drop (w + (H ++ D).length) := by
      unfold Holds at hh
      conv => lhs; rw [← List.take_append_drop (H ++ D).length (A.drop w)]
      rw [hh, List.drop_drop]
    have a2 : A.drop (w + (H ++ D).length) = pad ++ A.drop nxt := by
      conv => lhs; rw [← List.take_append_drop (nxt - (w + (H ++ D).length)) (A.drop (w + (H ++ D).length))]
      rw [List.drop_drop]
      congr 2
      simp only [nxt, List.length_append]; omega
    rw [a1, a2]; simp
  have hread := hr pad (A.drop nxt) hpadl
  have hlt : (A.drop nxt).length < (H ++ (D ++ (pad ++ A.drop nxt))).length := by
    rw [← List.append_assoc]
    simp only [List.length_append]
    omega
  refine ⟨?_, ?_⟩
  · rw [hsplit, readArchive, if_neg]
    · rw [hread]
      simp only [nxt, ht.1]
      rw [dif_pos]
      · rfl
      · exact hlt
    · intro h
      rcases h with h | h
      · have := congrArg List.length h
        simp only [List.length_append, List.length_nil] at this
        omega
      · exact hz _ h
  · rw [hsplit, terminated, if_neg (hz _), hread]
    simp only []
    rw [dif_pos hlt]
    exact ht.2

/-! ### parfu's own members -/

theorem legacyHeader_read {name : Bytes} {size : Nat} {mtime : Nat} (hn : name.length ≤ 99) (h0 : (0:UInt8) ∉ name)
    (hs : size < 8589934591) (hm : mtime < 2 ^ 64) (D : Bytes) (hD : D.length = size) :
    ∃ m : Member, m.path = name ∧ m.flag = 48 ∧ m.size = size ∧ m.data = D ∧
      ∀ padding rest : Bytes, D.length + padding.length = pad512 D.length →
      readMember (legacyHeader name size mtime ++ (D ++ (padding ++ rest))) = some (m, rest) := by
  have hu := legacyHeader_ustar name (size := size) (mtime := mtime) (by omega) hm
  have hp := parseBlock_ustarBlock (u := [114, 111, 111, 116]) (g := [114, 111, 111, 116]) (by simp [rootStat]) rfl rfl hu
  have hl := ustarBlock_length hu
  have hsz : (rawOf 0 (rootStat size mtime) name [] [114, 111, 111, 116] [114, 111, 111, 116]).size = size := by
    simp only [rawOf, rootStat]
    have : (size : Int) < maxFileSize := by unfold maxFileSize; omega
    simp only [if_true, this]
    rw [u64_of_nonneg (by omega) (by omega), octStored_of_lt (by simp; omega)]
    simp
  have hfl : (rawOf 0 (rootStat size mtime) name [] [114, 111, 111, 116] [114, 111, 111, 116]).flag = 48 := by
    simp [rawOf, rootStat, typeFlag, REGTYPE]
  have hnm : (rawOf 0 (rootStat size mtime) name [] [114, 111, 111, 116] [114, 111, 111, 116]).name = name := by
    simp only [rawOf]
    exact text_fieldStr h0 (by omega)
  generalize rawOf 0 (rootStat size mtime) name [] [114, 111, 111, 116] [114, 111, 111, 116] = r at hp hsz hfl hnm
  refine ⟨⟨r.name, r.flag, r.linkname, r.mode, r.uid, r.gid, r.mtime, r.uname, r.gname, size, D⟩, hnm, hfl, rfl, rfl, ?_⟩
  intro padding rest hpad
  unfold readMember
  rw [List.take_left' hl, List.drop_left' hl, hp]
  simp only [hfl]
  rw [if_neg (by decide)]
  unfold takeData
  simp only [paxSizeVal, List.lookup_nil, hsz]
  rw [if_neg (by simp; omega), List.take_left' hD, ← hD, ← List.append_assoc,
    List.drop_left' (by simp; omega)]
  simp [hfl]

theorem legacyHeader_not_zero {name : Bytes} {size : Int} {mtime : Nat} (h : size < 8589934591) (hm : mtime < 2 ^ 64)
    (rest : Bytes) : (legacyHeader name size mtime ++ rest).take 1024 ≠ zeros 1024 := by
  have hu := legacyHeader_ustar name h hm
  have hl := ustarBlock_length hu
  have hc := ustarBlock_checksum hu
  intro h
  have h2 : legacyHeader name size mtime = zeros 512 := by
    have := congrArg (List.take 512) h
    rw [List.take_take, show min 512 1024 = 512 by rfl, List.take_left' hl] at this
    rw [this]; unfold zeros; rw [List.take_replicate]; rfl
  rw [h2] at hc
  revert hc
  decide +kernel

/-- A filler, whose data is whatever is in the archive. -/
theorem readsTo_filler {A name : Bytes} {w size mtime : Nat} (hn : name.length ≤ 99) (h0 : (0:UInt8) ∉ name)
    (hs : size < 8589934591) (hm : mtime < 2 ^ 64) (hd : 512 ∣ size)
    (hh : Holds A w (legacyHeader name size mtime)) (hA : w + 512 + size ≤ A.length) :
    ∃ m : Member, (m.path = name ∧ m.flag = 48) ∧ ReadsTo A w (w + 512 + size) [m] := by
  have hl := legacyHeader_length name (size := size) (mtime := mtime) (by omega) hm
  have hDl : ((A.drop (w + 512)).take size).length = size := by
    rw [List.length_take, List.length_drop]; omega
  obtain ⟨m, m1, mf, _, _, m2⟩ := legacyHeader_read hn h0 hs hm ((A.drop (w + 512)).take size) hDl
  refine ⟨m, ⟨m1, mf⟩, ?_⟩
  have hp : pad512 ((A.drop (w + 512)).take size).length = size := by
    rw [hDl]; unfold pad512; omega
  have := readsTo_member (A := A) (w := w) (H := legacyHeader name size mtime) (D := (A.drop (w + 512)).take size)
    (by rw [holds_append]; refine ⟨hh, ?_⟩; rw [hl]; unfold Holds; rw [hDl]) (by omega)
    (legacyHeader_not_zero (by omega) hm) (by rw [hp, hl]; exact hA) m2
  rw [hp, hl] at this
  exact this

/-! ### the entries -/

/-- The data of an entry. -/
def bodyOf (L : LegEnv) (e : Frag) : Bytes := if e.kind = .reg then contOf L e.rel else []

/-- Everything about an entry the writer relies on, and the member a reader finds. -/
structure EntOk (L : LegEnv) (e : Frag) (m : Member) : Prop where
  hdr : ∃ t, tarentryCtor L.fs.lstat e.rel 0 = .ok t ∧ makeTarHeader L.env t = .ok (hdrOf L e.rel)
  len : ((hdrOf L e.rel).length : Int) = e.hdr
  reg : e.kind = .reg → L.fs.read e.rel = some (contOf L e.rel) ∧ ((contOf L e.rel).length : Int) = e.size
  other : e.kind ≠ .reg → e.size < 0
  read : ∀ padding rest : Bytes, (bodyOf L e).length + padding.length = pad512 (bodyOf L e).length →
    readMember (hdrOf L e.rel ++ (bodyOf L e ++ (padding ++ rest))) = some (m, rest)

theorem EntOk.body_length {L : LegEnv} {e : Frag} {m : Member} (h : EntOk L e m) :
    ((bodyOf L e).length : Int) = dataLen e := by
  unfold bodyOf dataLen
  split
  · rename_i hk; rw [(h.reg hk).2]; have := (h.reg hk).2; omega
  · rename_i hk; have := h.other hk; simp; omega

theorem EntOk.same {L : LegEnv} {e e' : Frag} {m : Member} (h : EntOk L e m) (hs : SameFile e' e) (hz : e'.size = e.size) :
    EntOk L e' m := by
  obtain ⟨s1, s2, s3, s4, s5⟩ := hs
  have hb : bodyOf L e' = bodyOf L e := by unfold bodyOf; rw [s1, s3]
  refine ⟨by rw [s1]; exact h.hdr, by rw [s1, s5]; exact h.len, ?_, ?_, by rw [hb, s1]; exact h.read⟩
  · rw [s1, s3, hz]; exact h.reg
  · rw [s3, hz]; exact h.other

/-- The pieces of a file, joined. -/
theorem covers_holds {L : LegEnv} {A : Bytes} {dstart : Nat} {loc hdr : Int} {rel : Bytes} (hl : 0 ≤ loc + hdr) :
    ∀ (fs : List Frag) (a z : Int), Covers a fs z → 0 ≤ a →
    (∀ f ∈ fs, f.rel = rel ∧ f.kind = .reg ∧ f.locA = loc + hdr + f.locO) →
    (∀ f ∈ fs, Holds A (dstart + f.locA.toNat) (dataOf L f)) →
    Holds A (dstart + (loc + hdr + a).toNat) (((contOf L rel).drop a.toNat).take (z - a).toNat) := by
  intro fs
  induction fs with
  | nil =>
    intro a z hc _ _ _
    simp only [Covers] at hc
    subst hc
    simp [holds_nil]
  | cons f fs ih =>
    intro a z hc ha hf hh
    obtain ⟨c1, c2, c3⟩ := hc
    obtain ⟨f1, f2, f3⟩ := hf f (by simp)
    have hz : ∀ (fs : List Frag) (a z : Int), Covers a fs z → a ≤ z := by
      intro fs
      induction fs with
      | nil => intro a z h; simp only [Covers] at h; omega
      | cons g gs ih => intro a z h; obtain ⟨_, h2, h3⟩ := h; have := ih _ _ h3; omega
    have hz' := hz _ _ _ c3
    have i := ih (a + f.size) z c3 (by omega) (fun g hg => hf g (by simp [hg])) (fun g hg => hh g (by simp [hg]))
    have hd := hh f (by simp)
    have e1 : dataOf L f = ((contOf L rel).drop a.toNat).take f.size.toNat := by
      unfold dataOf; rw [if_pos ⟨f2, c2⟩, c1, f1]
    rw [e1, f3, c1] at hd
    have e2 : (z - a).toNat = f.size.toNat + (z - (a + f.size)).toNat := by omega
    rw [e2, List.take_add, holds_append, List.drop_drop]
    refine ⟨hd, ?_⟩
    by_cases hsh : a.toNat + f.size.toNat ≤ (contOf L rel).length
    · have e3 : (((contOf L rel).drop a.toNat).take f.size.toNat).length = f.size.toNat := by
        rw [List.length_take, List.length_drop]; omega
      rw [e3]
      have e4 : dstart + (loc + hdr + a).toNat + f.size.toNat = dstart + (loc + hdr + (a + f.size)).toNat := by omega
      have e5 : a.toNat + f.size.toNat = (a + f.size).toNat := by omega
      rw [e4, e5]
      exact i
    · rw [show (contOf L rel).drop (a.toNat + f.size.toNat) = [] from List.drop_of_length_le (by omega)]
      simp [holds_nil]

theorem covers_locO {a z : Int} {fs : List Frag} (h : Covers a fs z) : ∀ f ∈ fs, a ≤ f.locO := by
  induction fs generalizing a with
  | nil => simp
  | cons g gs ih =>
    obtain ⟨h1, h2, h3⟩ := h
    intro f hf
    rcases List.mem_cons.1 hf with rfl | hf
    · omega
    · have := ih h3 f hf; omega

/-- What the layout says of an entry and its fragments. -/
structure Laid (acc : Int) (g : Frag × List Frag) : Prop where
  pos : 0 < g.1.hdr
  short : g.1.hdr < acc
  loc : 0 ≤ g.1.locA
  good : SplitSpec.Good 512 acc g.1 g.2
  cov : ¬ Small 512 acc g.1 → Covers 0 g.2 (if room 512 g.1 % acc = 0 then room 512 g.1 - g.1.hdr else g.1.size)
  large : ¬ Small 512 acc g.1 → 0 < g.1.size

/-- Header and data of an entry are in one piece. -/
theorem entry_holds {L : LegEnv} {A : Bytes} {dstart : Nat} {acc : Int} {g : Frag × List Frag} {m : Member}
    (hg : Laid acc g) (he : EntOk L g.1 m)
    (hp : ∀ f ∈ g.2, Holds A (dstart + (fragStart f).toNat) (pieceOf L f)) :
    Holds A (dstart + g.1.locA.toNat) (hdrOf L g.1.rel ++ bodyOf L g.1) := by
  have hlen := he.len
  have hpos := hg.pos
  have hloc := hg.loc
  by_cases hs : Small 512 acc g.1
  · obtain ⟨f, h1, h2, h3, h4, _⟩ := hg.good.small hs
    obtain ⟨s1, s2, s3, s4, s5⟩ := hg.good.same f (by rw [h1]; simp)
    have hst : fragStart f = g.1.locA := by unfold fragStart; rw [if_pos h4, h2, s5]; omega
    have := hp f (by rw [h1]; simp)
    rw [hst] at this
    have hd : pieceOf L f = hdrOf L g.1.rel ++ bodyOf L g.1 := by
      unfold pieceOf
      rw [if_pos h4, s1]
      congr 1
      unfold dataOf bodyOf
      rw [s3, h3, h4, s1]
      by_cases hk : g.1.kind = .reg
      · have hl := (he.reg hk).2
        by_cases hz : 0 < g.1.size
        · rw [if_pos ⟨hk, hz⟩, if_pos hk, List.take_of_length_le (by simp; omega)]; simp
        · rw [if_neg (by omega), if_pos hk]
          exact (List.eq_nil_of_length_eq_zero (by omega)).symm
      · rw [if_neg (fun h => hk h.1), if_neg hk]
    rw [← hd]; exact this
  · have hc := hg.cov hs
    have hsz := hg.large hs
    obtain ⟨l1, l2, l3⟩ := hg.good.large hs
    have hk : g.1.kind = .reg := by
      by_contra hk
      have := he.other hk; omega
    have hl := (he.reg hk).2
    have hroom := room_ge (bl := 512) (by omega) g.1
    have hdl : dataLen g.1 = g.1.size := by unfold dataLen; omega
    have hz : g.1.size ≤ (if room 512 g.1 % acc = 0 then room 512 g.1 - g.1.hdr else g.1.size) := by
      split <;> omega
    have hdata : ∀ f ∈ g.2, Holds A (dstart + f.locA.toNat) (dataOf L f) := by
      intro f hf
      have := hp f hf
      obtain ⟨s1, s2, s3, s4, s5⟩ := hg.good.same f hf
      have f1 := (l3 f hf).1
      have f2 := covers_locO hc f hf
      unfold pieceOf at this
      unfold fragStart at this
      by_cases h0 : f.locO = 0
      · rw [if_pos h0, if_pos h0, holds_append, s1] at this
        have h2 := this.2
        have : dstart + (f.locA - f.hdr).toNat + (hdrOf L g.1.rel).length = dstart + f.locA.toNat := by omega
        rw [this] at h2
        exact h2
      · rw [if_neg h0, if_neg h0] at this
        simpa using this
    have hc2 := covers_holds (L := L) (A := A) (dstart := dstart) (loc := g.1.locA) (hdr := g.1.hdr) (rel := g.1.rel)
      (by omega) g.2 0 _ hc (le_refl _) (fun f hf => ⟨(hg.good.same f hf).1, by rw [(hg.good.same f hf).2.2.1, hk], (l3 f hf).1⟩) hdata
    have hb : bodyOf L g.1 = contOf L g.1.rel := by unfold bodyOf; rw [if_pos hk]
    rw [holds_append, hb]
    constructor
    · obtain ⟨f0, fs, hf⟩ := List.exists_cons_of_ne_nil l2
      have h0 : f0.locO = 0 := by rw [hf] at hc; exact hc.1
      have := hp f0 (by rw [hf]; simp)
      obtain ⟨s1, s2, s3, s4, s5⟩ := hg.good.same f0 (by rw [hf]; simp)
      have f1 := (l3 f0 (by rw [hf]; simp)).1
      unfold pieceOf fragStart at this
      rw [if_pos h0, if_pos h0, holds_append, s1] at this
      have e : f0.locA - f0.hdr = g.1.locA := by omega
      rw [e] at this
      exact this.1
    · have e : dstart + g.1.locA.toNat + (hdrOf L g.1.rel).length = dstart + (g.1.locA + g.1.hdr + 0).toNat := by omega
      rw [e]
      simp only [Int.toNat_zero, List.drop_zero] at hc2
      rw [List.take_of_length_le (by omega)] at hc2
      exact hc2

end Parfu
