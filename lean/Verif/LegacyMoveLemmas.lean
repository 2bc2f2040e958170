/-
Lemmas: what parfu 0.5.1's writer puts in a bucket.
-/
import Verif.LegacyMoveLayout
import Verif.MoveLemmas
import Verif.PropsLegacyCatalog
set_option autoImplicit false

namespace Parfu
open SplitSpec Props MoveSpec

/-- The tar header parfu makes for a path. -/
def hdrOf (L : LegEnv) (rel : Bytes) : Bytes :=
  match tarentryCtor L.fs.lstat rel 0 with
  | .error _ => []
  | .ok t => match makeTarHeader L.env t with
    | .error _ => []
    | .ok h => h

/-- The contents of a file. -/
def contOf (L : LegEnv) (rel : Bytes) : Bytes := (L.fs.read rel).getD []

/-- Header and data can be got for a fragment. -/
structure FragOk (L : LegEnv) (f : Frag) : Prop where
  hdr : ∃ t, tarentryCtor L.fs.lstat f.rel 0 = .ok t ∧ makeTarHeader L.env t = .ok (hdrOf L f.rel)
  len : ((hdrOf L f.rel).length : Int) = f.hdr
  dat : f.kind = .reg → 0 < f.size → L.fs.read f.rel = some (contOf L f.rel)
  off : 0 ≤ f.locO
  size : f.size < 2 ^ 31

/-- The data of a fragment. -/
def dataOf (L : LegEnv) (f : Frag) : Bytes :=
  if f.kind = .reg ∧ f.size > 0 then ((contOf L f.rel).drop f.locO.toNat).take f.size.toNat else []

/-- Header, if it is the first, and data of a fragment. -/
def pieceOf (L : LegEnv) (f : Frag) : Bytes := (if f.locO = 0 then hdrOf L f.rel else []) ++ dataOf L f

theorem dataOf_length (L : LegEnv) (f : Frag) : ((dataOf L f).length : Int) ≤ if f.size ≥ 0 then f.size else 0 := by
  unfold dataOf
  split
  · simp; split <;> omega
  · simp; split <;> omega

theorem pieceOf_length {L : LegEnv} {f : Frag} (h : FragOk L f) : ((pieceOf L f).length : Int) ≤ fragLen f := by
  unfold pieceOf fragLen
  have := dataOf_length L f
  have := h.len
  rw [List.length_append]
  split
  · push_cast; omega
  · simp; omega

/-- One iteration of the loop puts the fragment where it belongs and touches nothing else. -/
theorem moveFrag_ok {L : LegEnv} (hst : L.strict = false) {bl acc bloc : Int} {s : BState} {f : Frag}
    (hf : FragOk L f) (h0 : bloc ≤ fragStart f) (h1 : fragStart f - bloc + fragLen f ≤ acc)
    (hlen : (s.buf.length : Int) = acc) :
    ∃ s', moveFrag L bl acc bloc s f = .ok (some s') ∧ (s'.buf.length : Int) = acc ∧
      s'.cur = s.cur + blockedWritten bl f ∧ Holds s'.buf (fragStart f - bloc).toNat (pieceOf L f) ∧
      ∀ i : Nat, (i : Int) < fragStart f - bloc ∨ fragStart f - bloc + fragLen f ≤ i → s'.buf[i]? = s.buf[i]? := by
  obtain ⟨t, ht1, ht2⟩ := hf.hdr
  have hlen' := hf.len
  -- the data
  obtain ⟨b1, set1, hb1, hb1l, hb1h, hb1u⟩ : ∃ b1 set1,
      (if f.kind = .reg ∧ f.size > 0 then putData L acc bloc s.buf f >>? fun b => .ok (some (b, true))
        else .ok (some (s.buf, s.set))) = (.ok (some (b1, set1)) : Res (Option (Bytes × Bool))) ∧
      b1.length = s.buf.length ∧ Holds b1 (f.locA - bloc).toNat (dataOf L f) ∧
      ∀ i : Nat, (i : Int) < f.locA - bloc ∨ fragStart f - bloc + fragLen f ≤ i → b1[i]? = s.buf[i]? := by
    by_cases hd : f.kind = .reg ∧ f.size > 0
    · rw [if_pos hd]
      have hfs : fragStart f + fragLen f = f.locA + f.size := by
        unfold fragStart fragLen; split <;> split <;> omega
      have hge : bloc ≤ f.locA := by
        unfold fragStart at h0; split at h0 <;> omega
      have hw : wrap32 f.size = f.size := wrap32_of_fits ⟨by have := hd.2; omega, hf.size⟩
      unfold putData
      rw [hf.dat hd.1 hd.2]
      simp only []
      rw [if_neg (by have := hd.2; omega), if_neg (by have := hd.2; have := hf.off; omega), hw]
      have hdl : dataOf L f = ((contOf L f.rel).drop f.locO.toNat).take f.size.toNat := by
        unfold dataOf; rw [if_pos hd]
      rw [← hdl]
      have hll := dataOf_length L f
      rw [if_pos (by have := hd.2; omega)] at hll
      obtain ⟨b, hb⟩ := blit_ok (buf := s.buf) (off := (f.locA - bloc).toNat) (data := dataOf L f) (by omega)
      rw [hb]
      obtain ⟨_, g2, g3⟩ := blit_get hb
      refine ⟨b, true, rfl, g2, blit_holds hb, ?_⟩
      intro i hi
      rw [g3, if_neg (by omega)]
    · rw [if_neg hd]
      refine ⟨_, _, rfl, rfl, ?_, fun _ _ => rfl⟩
      have : dataOf L f = [] := by unfold dataOf; rw [if_neg hd]
      rw [this]; exact holds_nil _ _
  obtain ⟨b2, hb2, hb2l, hb2h, hb2u⟩ : ∃ b2,
      (if f.locO = 0 then putHeader L bloc b1 f else .ok b1) = (.ok b2 : Res Bytes) ∧
      (b2.length : Int) = acc ∧ Holds b2 (fragStart f - bloc).toNat (pieceOf L f) ∧
      ∀ i : Nat, (i : Int) < fragStart f - bloc ∨ fragStart f - bloc + fragLen f ≤ i → b2[i]? = s.buf[i]? := by
    by_cases hd : f.locO = 0
    · rw [if_pos hd]
      have hfs : fragStart f = f.locA - f.hdr := by unfold fragStart; rw [if_pos hd]
      have hfl : f.hdr ≤ fragLen f := by unfold fragLen; rw [if_pos hd]; split <;> omega
      unfold putHeader
      rw [ht1]
      simp only []
      rw [ht2]
      simp only []
      rw [if_neg (by omega)]
      have e : (f.locA - bloc - f.hdr).toNat = (fragStart f - bloc).toNat := by congr 1; omega
      rw [e]
      obtain ⟨b, hb⟩ := blit_ok (buf := b1) (off := (fragStart f - bloc).toNat) (data := hdrOf L f.rel) (by omega)
      obtain ⟨g1, g2, g3⟩ := blit_get hb
      refine ⟨b, hb, by omega, ?_, ?_⟩
      · unfold pieceOf
        rw [if_pos hd, holds_append]
        refine ⟨blit_holds hb, ?_⟩
        have e2 : (fragStart f - bloc).toNat + (hdrOf L f.rel).length = (f.locA - bloc).toNat := by omega
        rw [e2]
        refine holds_of_get hb1h ?_
        intro i hi
        rw [g3, if_neg (by omega)]
      · intro i hi
        rw [g3, if_neg (by omega)]
        exact hb1u i (by omega)
    · rw [if_neg hd]
      have hfs : fragStart f = f.locA := by unfold fragStart; rw [if_neg hd]; omega
      refine ⟨b1, rfl, by omega, ?_, ?_⟩
      · unfold pieceOf
        rw [if_neg hd, hfs]
        exact hb1h
      · intro i hi
        exact hb1u i (by omega)
  refine ⟨⟨b2, s.cur + blockedWritten bl f, set1⟩, ?_, hb2l, rfl, hb2h, hb2u⟩
  unfold moveFrag
  rw [hb1]
  simp only [bindRO_some]
  rw [hb2]
  simp only []
  rw [if_neg (by rw [hst]; simp)]

/-- Fragments directly one after the other, from `w` up to `z`. -/
def Cont (bl : Int) : Int → List Frag → Int → Prop
  | w, [], z => w = z
  | w, f :: fs, z => fragStart f = w ∧ 0 < blockedWritten bl f ∧ Cont bl (w + blockedWritten bl f) fs z

theorem Cont.bounds {bl : Int} {w z : Int} {fs : List Frag} (h : Cont bl w fs z) :
    w ≤ z ∧ ∀ f ∈ fs, w ≤ fragStart f ∧ fragStart f + blockedWritten bl f ≤ z := by
  induction fs generalizing w with
  | nil => simp [Cont] at h; simp [h]
  | cons f fs ih =>
    obtain ⟨h1, h2, h3⟩ := h
    obtain ⟨i1, i2⟩ := ih h3
    refine ⟨by omega, ?_⟩
    intro g hg
    rcases List.mem_cons.1 hg with rfl | hg
    · omega
    · have := i2 g hg; omega

/-- The loop over the fragments of one bucket. -/
theorem bucketLoop_ok {L : LegEnv} (hst : L.strict = false) {bl acc : Int} (hbl : 0 < bl) {idx : Nat} :
    ∀ (F rest : List Frag) (s : BState) (z : Int), (∀ f ∈ F, f.bucket = idx ∧ FragOk L f) →
    (∀ f ∈ rest.head?, f.bucket ≠ idx) → 0 ≤ s.cur →
    Cont bl (acc * idx + s.cur) F z → z ≤ acc * idx + acc → (s.buf.length : Int) = acc →
    ∃ s', bucketLoop L bl acc idx s (F ++ rest) = .ok (some (s', rest)) ∧ (s'.buf.length : Int) = acc ∧
      s'.cur = z - acc * idx ∧
      (∀ f ∈ F, Holds s'.buf (fragStart f - acc * idx).toNat (pieceOf L f)) ∧
      (∀ i : Nat, (i : Int) < s.cur → s'.buf[i]? = s.buf[i]?) := by
  intro F
  induction F with
  | nil =>
    intro rest s z _ hr _ hc hz hl
    simp only [Cont] at hc
    refine ⟨s, ?_, hl, by omega, by simp, fun _ _ => rfl⟩
    cases rest with
    | nil => rfl
    | cons f rest =>
      simp only [List.nil_append, bucketLoop]
      rw [if_pos (hr f (by simp))]
  | cons f F ih =>
    intro rest s z hF hr hcur hc hz hl
    obtain ⟨hb, hok⟩ := hF f (by simp)
    obtain ⟨c1, c2, c3⟩ := hc
    obtain ⟨d1, d2⟩ := c3.bounds
    obtain ⟨w1, w2, w3⟩ := blockedWritten_bounds hbl f
    obtain ⟨s1, e1, l1, u1, h1, k1⟩ := moveFrag_ok hst (bl := bl) (acc := acc) (bloc := acc * idx) (s := s) hok (by omega) (by omega) hl
    obtain ⟨s2, e2, l2, u2, h2, k2⟩ := ih rest s1 z (fun g hg => hF g (by simp [hg])) hr (by omega)
      (by rw [u1, ← Int.add_assoc]; exact c3) hz l1
    refine ⟨s2, ?_, l2, u2, ?_, ?_⟩
    · simp only [List.cons_append, bucketLoop]
      rw [if_neg (by rw [hb]; simp), e1, bindRO_some]
      exact e2
    · intro g hg
      rcases List.mem_cons.1 hg with rfl | hg
      · refine holds_of_get h1 ?_
        intro i hi
        have := pieceOf_length hok
        exact k2 _ (by rw [u1]; omega)
      · exact h2 g hg
    · intro i hi
      rw [k2 i (by omega), k1 i (by omega)]

/-- What a bucket of the archive must hold: `F` are its fragments, which end at `z`. -/
structure BucketData (L : LegEnv) (acc : Int) (idx : Nat) (F : List Frag) (z : Int) (D : Bytes) : Prop where
  pieces : ∀ f ∈ F, Holds D (fragStart f - acc * idx).toNat (pieceOf L f)
  full : z = acc * idx + acc → (D.length : Int) = acc
  filler : z < acc * idx + acc → (D.length : Int) = z - acc * idx + 512 ∧
    Holds D (z - acc * idx).toNat (legacyHeader spacerName (acc * idx + acc - z - 512) (L.now idx))

theorem holds_take {f : Bytes} {pos n : Nat} {s : Bytes} (h : Holds f pos s) (hn : pos + s.length ≤ n) :
    Holds (f.take n) pos s := by
  refine holds_of_get h ?_
  intro i hi
  rw [List.getElem?_take, if_pos (by omega)]

/-- The writes made for bucket `idx`: its data, and if it is the last one the terminator. -/
def bucketWrites (acc : Int) (dstart : Nat) (last : Bool) (idx : Nat) (D : Bytes) : List WriteReq :=
  (dstart + idx * acc.toNat, D) :: if last then [(dstart + (idx + 1) * acc.toNat, zeros 1024)] else []

theorem oneBucket_ok {L : LegEnv} (hst : L.strict = false) (hnow : ∀ i, L.now i < 2 ^ 64) {acc : Int}
    (hacc : 10000 ≤ acc) (hmax : acc ≤ 2 ^ 31) (hd : (512 : Int) ∣ acc)
    {dstart : Nat} {fr : List Frag} {call : List Nat} {idx c : Nat} (hc : call[idx]? = some c)
    {F rest : List Frag} (hfr : fr.drop c = F ++ rest) (hne : F ≠ []) (hF : ∀ f ∈ F, f.bucket = idx ∧ FragOk L f)
    (hrest : ∀ f ∈ rest.head?, f.bucket ≠ idx) {z : Int} (hcont : Cont 512 (acc * idx) F z) (hz : z ≤ acc * idx + acc)
    (hdz : (512 : Int) ∣ z) {buf : Bytes} (hbuf : (buf.length : Int) = acc) :
    ∃ buf' D, oneBucket L 512 acc dstart fr call idx buf =
        .ok (some (buf', bucketWrites acc dstart (decide (rest = [])) idx D)) ∧
      (buf'.length : Int) = acc ∧ BucketData L acc idx F z D := by
  obtain ⟨f0, F', rfl⟩ := List.exists_cons_of_ne_nil hne
  have hf0 : fr[c]? = some f0 := by
    have := List.head?_drop (l := fr) (i := c)
    rw [hfr] at this
    simpa using this.symm
  obtain ⟨s, e1, l1, u1, h1, _⟩ := bucketLoop_ok hst (bl := 512) (by omega) (F := f0 :: F') (rest := rest) (s := ⟨buf, 0, false⟩)
    (z := z) hF hrest (le_refl _) (by rw [Int.add_zero]; exact hcont) hz hbuf
  obtain ⟨d1, d2⟩ := hcont.bounds
  have hz0 : 0 ≤ z - acc * idx := by omega
  have hgap : z < acc * idx + acc → 512 ≤ acc * idx + acc - z := by
    intro h
    obtain ⟨a, ha⟩ : (512 : Int) ∣ acc * idx + acc - z := by
      refine Int.dvd_sub (Int.dvd_add (Dvd.dvd.mul_right hd _) hd) hdz
    omega
  obtain ⟨s', hp, ls', hcur, hD, hD', hpre⟩ : ∃ s', putFiller L 512 acc idx s = .ok s' ∧ (s'.buf.length : Int) = acc ∧
      (s'.cur = if z < acc * idx + acc then z - acc * idx + 512 else z - acc * idx) ∧
      (z < acc * idx + acc → Holds s'.buf (z - acc * idx).toNat
        (legacyHeader spacerName (acc * idx + acc - z - 512) (L.now idx))) ∧ True ∧
      (∀ i : Nat, (i : Int) < z - acc * idx → s'.buf[i]? = s.buf[i]?) := by
    unfold putFiller
    by_cases hlt : z < acc * idx + acc
    · have := hgap hlt
      rw [if_pos (by omega), if_neg (by omega)]
      have hsz : acc - s.cur - 512 = acc * idx + acc - z - 512 := by omega
      have hl := legacyHeader_length spacerName (size := acc * idx + acc - z - 512) (mtime := L.now idx) (by omega) (hnow idx)
      rw [hsz, u1]
      obtain ⟨b, hb⟩ := blit_ok (buf := s.buf) (off := (z - acc * idx).toNat)
        (data := legacyHeader spacerName (acc * idx + acc - z - 512) (L.now idx)) (by rw [hl]; omega)
      rw [hb]
      obtain ⟨_, g2, g3⟩ := blit_get hb
      refine ⟨_, rfl, by simp only []; omega, by rw [if_pos hlt], fun _ => blit_holds hb, trivial, ?_⟩
      intro i hi
      simp only []
      rw [g3, if_neg (by omega)]
    · rw [if_neg (by omega)]
      exact ⟨s, rfl, l1, by rw [if_neg hlt]; exact u1, fun h => absurd h hlt, trivial, fun _ _ => rfl⟩
  have hcur' : 0 ≤ s'.cur ∧ s'.cur ≤ acc := by
    rw [hcur]; split
    · rename_i h; have := hgap h; omega
    · omega
  have hdata : BucketData L acc idx (f0 :: F') z (s'.buf.take s'.cur.toNat) := by
    have hlen : ((s'.buf.take s'.cur.toNat).length : Int) = s'.cur := by
      rw [List.length_take]; omega
    refine ⟨?_, ?_, ?_⟩
    · intro f hf
      have hpl := pieceOf_length (hF f hf).2
      obtain ⟨_, w2, _⟩ := blockedWritten_bounds (bl := 512) (by omega) f
      obtain ⟨v1, v2⟩ := d2 f hf
      refine holds_take (holds_of_get (h1 f hf) ?_) ?_
      · intro i hi
        exact hpre _ (by omega)
      · rw [hcur]; split <;> omega
    · intro h
      rw [hlen, hcur, if_neg (by omega)]; omega
    · intro h
      refine ⟨by rw [hlen, hcur, if_pos h], ?_⟩
      have hl := legacyHeader_length spacerName (size := acc * idx + acc - z - 512) (mtime := L.now idx) (by have := hgap h; omega) (hnow idx)
      refine holds_take (hD h) ?_
      rw [hl, hcur, if_pos h]; omega
  have hmain : oneBucket L 512 acc dstart fr call idx buf =
      (if rest = [] then
        match terminate acc dstart idx s'.buf with
        | .error e => .error e
        | .ok (b, t) => .ok (some (b, [(dstart + idx * acc.toNat, s'.buf.take s'.cur.toNat), t]))
       else .ok (some (s'.buf, [(dstart + idx * acc.toNat, s'.buf.take s'.cur.toNat)]))) := by
    unfold oneBucket
    rw [if_neg (by omega), hc]
    simp only []
    rw [hf0]
    simp only []
    rw [if_neg (by rw [(hF f0 (by simp)).1]; simp), hfr, e1, bindRO_some]
    simp only []
    rw [hp]
    simp only []
    rw [if_neg (by omega)]
    split
    · cases terminate acc dstart idx s'.buf <;> rfl
    · rfl
  rw [hmain]
  by_cases hr : rest = []
  · rw [if_pos hr]
    unfold terminate
    obtain ⟨b, hb⟩ := blit_ok (buf := s'.buf) (off := 0) (data := zeros 1025) (by unfold zeros; rw [List.length_replicate]; omega)
    rw [hb]
    obtain ⟨g1, g2, g3⟩ := blit_get hb
    have hz : b.take 1024 = zeros 1024 := by
      have := blit_holds hb
      unfold Holds at this
      have h2 := congrArg (List.take 1024) this
      rw [List.take_take, List.drop_zero] at h2
      simp only [zeros, List.length_replicate, List.take_replicate] at h2 ⊢
      exact h2
    refine ⟨b, _, ?_, by omega, hdata⟩
    simp only [bucketWrites, hr, decide_true, if_true, hz]
  · rw [if_neg hr]
    refine ⟨_, _, ?_, ls', hdata⟩
    simp [bucketWrites, hr]

end Parfu
