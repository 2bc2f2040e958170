/-
Lemmas: two directories in one bucket (parfu 0.5.1), where the header of the second one is larger than
planned.
-/
import Verif.PropsLegacyOverrun
set_option autoImplicit false

namespace Parfu
open SplitSpec Props MoveSpec TarSpec LegacyRunSpec

/-- If what comes after a member cannot be read, neither can what starts with it. -/
theorem unread_member {A H D : Bytes} {w : Nat} {m : Member} (hh : Holds A w (H ++ D)) (hl : 512 ≤ H.length)
    (hz : ∀ rest, (H ++ rest).take 1024 ≠ zeros 1024) (hA : w + H.length + pad512 D.length ≤ A.length)
    (hr : ∀ padding rest : Bytes, D.length + padding.length = pad512 D.length →
      readMember (H ++ (D ++ (padding ++ rest))) = some (m, rest))
    (hn : readArchive (A.drop (w + H.length + pad512 D.length)) = none) : readArchive (A.drop w) = none := by
  have hpd : D.length ≤ pad512 D.length := by unfold pad512; omega
  let nxt := w + H.length + pad512 D.length
  let pad := (A.drop (w + (H ++ D).length)).take (nxt - (w + (H ++ D).length))
  have hpadl : D.length + pad.length = pad512 D.length := by
    simp only [pad, nxt, List.length_take, List.length_drop, List.length_append]; omega
  have hsplit : A.drop w = H ++ (D ++ (pad ++ A.drop nxt)) := by
    have a1 : A.drop w = (H ++ D) ++ A.drop (w + (H ++ D).length) := by
      unfold Holds at hh
      conv => lhs; rw [← List.take_append_drop (H ++ D).length (A.drop w)]
      rw [hh, List.drop_drop]
    have a2 : A.drop (w + (H ++ D).length) = pad ++ A.drop nxt := by
      conv => lhs; rw [← List.take_append_drop (nxt - (w + (H ++ D).length)) (A.drop (w + (H ++ D).length))]
      rw [List.drop_drop]
      congr 2
      simp only [nxt, List.length_append]; omega
    rw [a1, a2]; simp
  have hread := hr pad (A.drop nxt) hpadl
  have hlt : (A.drop nxt).length < (H ++ (D ++ (pad ++ A.drop nxt))).length := by
    rw [← List.append_assoc]
    simp only [List.length_append]
    omega
  rw [hsplit, readArchive, if_neg]
  · rw [hread]
    simp only [nxt, hn]
    rw [dif_pos]
    exact hlt
  · intro h
    rcases h with h | h
    · have := congrArg List.length h
      simp only [List.length_append, List.length_nil] at this
      omega
    · exact hz _ h

/-- A filler. -/
theorem unread_filler {A name : Bytes} {w size mtime : Nat} (hn : name.length ≤ 99) (h0 : (0:UInt8) ∉ name)
    (hs : size < 8589934591) (hm : mtime < 2 ^ 64) (hd : 512 ∣ size)
    (hh : Holds A w (legacyHeader name size mtime)) (hA : w + 512 + size ≤ A.length)
    (hr : readArchive (A.drop (w + 512 + size)) = none) : readArchive (A.drop w) = none := by
  have hl := legacyHeader_length name (size := size) (mtime := mtime) (by omega) hm
  have hDl : ((A.drop (w + 512)).take size).length = size := by
    rw [List.length_take, List.length_drop]; omega
  obtain ⟨m, m1, mf, _, _, m2⟩ := legacyHeader_read hn h0 hs hm ((A.drop (w + 512)).take size) hDl
  have hp : pad512 ((A.drop (w + 512)).take size).length = size := by
    rw [hDl]; unfold pad512; omega
  refine unread_member (A := A) (w := w) (H := legacyHeader name size mtime) (D := (A.drop (w + 512)).take size)
    (by rw [holds_append]; refine ⟨hh, ?_⟩; rw [hl]; unfold Holds; rw [hDl]) (by omega)
    (legacyHeader_not_zero (by omega) hm) (by rw [hp, hl]; exact hA) m2 ?_
  rw [hp, hl]; exact hr

/-- The front. -/
theorem unread_front {L : LegEnv} {acc : Nat} (hmax : acc ≤ 2 ^ 31) {cat : Bytes} (hcat : cat.length < 2 ^ 32)
    (h1 : L.nowCat < 2 ^ 64) (h2 : L.nowGap < 2 ^ 64) {front : List WriteReq} {ds : Nat} (hf : Front L acc cat front ds)
    (hgap : 512 + cat.length + 512 ≠ ds) {A : Bytes} (hA : ds ≤ A.length) (hw : ∀ w ∈ front, Holds A w.1 w.2)
    (hn : readArchive (A.drop ds) = none) : readArchive A = none := by
  have hl1 := legacyHeader_length catalogName (size := cat.length) (mtime := L.nowCat) (by omega) h1
  obtain ⟨m, m1, m2, m3, m4, m5⟩ := legacyHeader_read (name := catalogName) (size := cat.length) (mtime := L.nowCat)
    (by decide) (by decide) (by omega) h1 cat rfl
  have hfit := hf.fit
  have hr := unread_member (A := A) (w := 0) (H := legacyHeader catalogName cat.length L.nowCat) (D := cat) (m := m)
    (by rw [holds_append]; refine ⟨hw _ hf.hdr, ?_⟩; rw [hl1]; exact hw _ hf.text) (by omega)
    (legacyHeader_not_zero (by omega) h1) (by rw [hl1]; omega) m5
  rw [hl1, Nat.zero_add, List.drop_zero] at hr
  refine hr ?_
  have hd := hf.dvd
  have hpd : 512 ∣ pad512 cat.length := by unfold pad512; omega
  have hpl : cat.length ≤ pad512 cat.length ∧ pad512 cat.length < cat.length + 512 := by unfold pad512; omega
  by_cases hg : 512 + cat.length + 512 < ds
  · have hg2 := hw _ (hf.gap hg)
    simp only [] at hg2
    have hsz : (ds : Int) - (512 + pad512 cat.length : Nat) - 512 = ((ds - (512 + pad512 cat.length) - 512 : Nat) : Int) := by omega
    rw [hsz] at hg2
    have hnear := hf.near
    refine unread_filler (by decide) (by decide) (by omega) h2 (by omega) hg2 (by omega) ?_
    have e : 512 + pad512 cat.length + 512 + (ds - (512 + pad512 cat.length) - 512) = ds := by omega
    rw [e]; exact hn
  · have e : 512 + pad512 cat.length = ds := by omega
    rw [e]; exact hn

/-- The layout of two entries that fit one bucket. -/
theorem two_small {acc : Int} {pad : Bytes} {a b : Frag} (hA : 0 < a.hdr) (hB : 0 < b.hdr)
    (rA : 0 < room 512 a) (rB : 0 < room 512 b) (hall : room 512 a + room 512 b ≤ acc) :
    ∃ q, splitList 512 acc pad [a, b] = .ok (some ([
      ({ a with locA := 0, bucket := 0, locO := 0 },
        [{ a with locA := 0 + a.hdr, bucket := 0, locO := 0, nFrag := 1, fp := -1 }]),
      ({ b with locA := room 512 a, bucket := 0, locO := 0 },
        [{ b with locA := room 512 a + b.hdr, bucket := 0, locO := 0, nFrag := 1, fp := -1 }])], q)) := by
  have hbl : ∀ e, blockedSum 512 e = room 512 e := blockedSum_eq (by omega)
  have p0 : placeEntry 512 acc pad ⟨0, 0, 0⟩ a = .ok (some (({ a with locA := 0, bucket := 0, locO := 0 },
      [{ a with locA := 0 + a.hdr, bucket := 0, locO := 0, nFrag := 1, fp := -1 }]), ⟨room 512 a, room 512 a, 0⟩)) := by
    unfold placeEntry
    rw [if_neg (by omega)]
    simp only [hbl]
    rw [if_pos (by omega), if_pos (by omega), if_neg (by omega)]
    simp
  have p1 : placeEntry 512 acc pad ⟨room 512 a, room 512 a, 0⟩ b = .ok (some (({ b with locA := room 512 a, bucket := 0, locO := 0 },
      [{ b with locA := room 512 a + b.hdr, bucket := 0, locO := 0, nFrag := 1, fp := -1 }]),
      ⟨room 512 a + room 512 b, room 512 a + room 512 b, 0⟩)) := by
    unfold placeEntry
    rw [if_neg (by omega)]
    simp only [hbl]
    rw [if_pos (by omega), if_pos (by omega), if_neg (by omega)]
  have hsp : splitList 512 acc pad [a, b] = splitLoop 512 acc pad ⟨0, 0, 0⟩ [a, b] := by
    unfold splitList createList
    simp only [List.length_cons, List.length_nil]
    rw [if_neg (by omega), if_neg (by omega)]
  rw [hsp]
  simp only [splitLoop, p0, p1]
  exact ⟨_, rfl⟩

/-- A directory entry as the scan and the name filling leave it, with a planned header of one block. -/
structure DirEnt (L : LegEnv) (e : Frag) : Prop where
  plain : Plain e
  kind : e.kind = .dir
  size : e.size = -3
  hdr : e.hdr = 512
  pad : e.padName = none
  short : e.rel.length ≤ 10000 ∧ e.arc.length ≤ 10000 ∧ e.target.length ≤ 100
  made : ∃ t, tarentryCtor L.fs.lstat e.rel 0 = .ok t ∧ makeTarHeader L.env t = .ok (hdrOf L e.rel)

theorem rankBuckets_one {n : Nat} (hn : 0 < n) (r : Nat) : rankBuckets n 1 r = if r = 0 then [0] else [] := by
  rw [rankBuckets]
  by_cases h : r = 0
  · subst h
    rw [dif_pos ⟨by omega, hn⟩, if_pos rfl, rankBuckets, dif_neg (by omega)]
  · rw [dif_neg (by omega), if_neg h]

/-- The bytes of the bucket of two directories: the second header is cut by the filler's. -/
theorem two_bucket {L : LegEnv} {acc : Int} (hs : LegSetup L acc) {f g : Frag} {ds : Nat}
    (hf : f.kind = .dir ∧ f.size = -3 ∧ f.hdr = 512 ∧ f.locA = 512 ∧ f.locO = 0 ∧ f.bucket = 0)
    (hg : g.kind = .dir ∧ g.size = -3 ∧ g.hdr = 512 ∧ g.locA = 1024 ∧ g.locO = 0 ∧ g.bucket = 0)
    (mf : ∃ t, tarentryCtor L.fs.lstat f.rel 0 = .ok t ∧ makeTarHeader L.env t = .ok (hdrOf L f.rel))
    (mg : ∃ t, tarentryCtor L.fs.lstat g.rel 0 = .ok t ∧ makeTarHeader L.env t = .ok (hdrOf L g.rel))
    (lf : (hdrOf L f.rel).length = 512) (lg : (hdrOf L g.rel).length = 1536) {n : Nat} (hn : 0 < n) :
    allRanks (fun r => allBuckets L 512 acc ds [f, g] [0] n r) (List.range n) =
      .ok (some ([(ds, hdrOf L f.rel ++ ((hdrOf L g.rel).take 512 ++ legacyHeader spacerName (acc - 1536) (L.now 0))),
        (ds + acc.toNat, zeros 1024)] :: List.replicate (n - 1) [])) := by
  obtain ⟨f1, f2, f3, f4, f5, f6⟩ := hf
  obtain ⟨g1, g2, g3, g4, g5, g6⟩ := hg
  obtain ⟨tf, tf1, tf2⟩ := mf
  obtain ⟨tg, tg1, tg2⟩ := mg
  have hmin := hs.accMin
  have hmax := hs.accMax
  have lz : (zeros acc.toNat).length = acc.toNat := by unfold zeros; rw [List.length_replicate]
  have hl1 := legacyHeader_length spacerName (size := acc - 1536) (mtime := L.now 0) (by omega) (hs.clock 0)
  obtain ⟨b1, e1⟩ := blit_ok (buf := zeros acc.toNat) (data := hdrOf L f.rel) (off := 0) (by omega)
  obtain ⟨_, l1, q1⟩ := blit_get e1
  obtain ⟨b2, e2⟩ := blit_ok (buf := b1) (data := hdrOf L g.rel) (off := 512) (by omega)
  obtain ⟨_, l2, q2⟩ := blit_get e2
  obtain ⟨b3, e3⟩ := blit_ok (buf := b2) (data := legacyHeader spacerName (acc - 1536) (L.now 0)) (off := 1024) (by omega)
  obtain ⟨_, l3, q3⟩ := blit_get e3
  obtain ⟨b4, e4⟩ := blit_ok (buf := b3) (data := zeros 1025) (off := 0) (by
    have : (zeros 1025).length = 1025 := List.length_replicate ..
    omega)
  obtain ⟨_, l4, q4⟩ := blit_get e4
  have m1 : moveFrag L 512 acc (acc * (0 : Nat)) ⟨zeros acc.toNat, 0, false⟩ f = .ok (some ⟨b1, 512, false⟩) := by
    unfold moveFrag
    rw [if_neg (by rw [f1]; simp), bindRO_some]
    simp only []
    rw [if_pos f5]
    unfold putHeader
    rw [tf1]
    simp only [tf2]
    rw [if_neg (by rw [f4, f3]; simp), f4, f3]
    have : ((512 : Int) - acc * (0 : Nat) - 512).toNat = 0 := by simp
    rw [this, e1]
    simp only []
    rw [if_neg (by rw [hs.lax]; simp)]
    have : blockedWritten 512 f = 512 := by unfold blockedWritten; rw [f2, f5, f3]; decide
    rw [this]; rfl
  have m2 : moveFrag L 512 acc (acc * (0 : Nat)) ⟨b1, 512, false⟩ g = .ok (some ⟨b2, 1024, false⟩) := by
    unfold moveFrag
    rw [if_neg (by rw [g1]; simp), bindRO_some]
    simp only []
    rw [if_pos g5]
    unfold putHeader
    rw [tg1]
    simp only [tg2]
    rw [if_neg (by rw [g4, g3]; simp), g4, g3]
    have : ((1024 : Int) - acc * (0 : Nat) - 512).toNat = 512 := by simp
    rw [this, e2]
    simp only []
    rw [if_neg (by rw [hs.lax]; simp)]
    have : blockedWritten 512 g = 512 := by unfold blockedWritten; rw [g2, g5, g3]; decide
    rw [this]; rfl
  have hlp : bucketLoop L 512 acc 0 ⟨zeros acc.toNat, 0, false⟩ [f, g] = .ok (some (⟨b2, 1024, false⟩, [])) := by
    unfold bucketLoop
    rw [if_neg (by rw [f6]; simp), m1, bindRO_some]
    unfold bucketLoop
    rw [if_neg (by rw [g6]; simp), m2, bindRO_some]
    rfl
  have hfl : putFiller L 512 acc 0 ⟨b2, 1024, false⟩ = .ok ⟨b3, 1536, false⟩ := by
    unfold putFiller
    simp only []
    rw [if_pos (by omega), if_neg (by omega)]
    have : acc - 1024 - 512 = acc - 1536 := by omega
    have h1024 : (1024 : Int).toNat = 1024 := rfl
    rw [this, h1024, e3]
    rfl
  have himg : b3.take 1536 = hdrOf L f.rel ++ ((hdrOf L g.rel).take 512 ++ legacyHeader spacerName (acc - 1536) (L.now 0)) := by
    apply List.ext_getElem?
    intro i
    rw [List.getElem?_take, List.getElem?_append, List.getElem?_append, List.getElem?_take, List.length_take, q3, q2, q1, lf, lg, hl1]
    have h512 : min 512 1536 = 512 := by decide
    rw [h512]
    by_cases c1 : i < 512
    · rw [if_pos (by omega), if_neg (by omega), if_neg (by omega), if_pos (by omega), if_pos c1]; rfl
    · rw [if_neg c1]
      by_cases c2 : i < 1024
      · rw [if_pos (by omega), if_neg (by omega), if_pos (by omega), if_pos (by omega), if_pos (by omega)]
      · by_cases c3 : i < 1536
        · rw [if_pos c3, if_pos (by omega), if_neg (by omega)]
          rw [show i - 512 - 512 = i - 1024 by omega]
        · rw [if_neg c3, if_neg (by omega)]
          symm
          rw [List.getElem?_eq_none_iff]; omega
  have hz4 : b4.take 1024 = zeros 1024 := by
    apply List.ext_getElem?
    intro i
    have z1 : (zeros 1025).length = 1025 := List.length_replicate ..
    rw [List.getElem?_take, q4, z1]
    unfold zeros
    rw [List.getElem?_replicate, List.getElem?_replicate]
    by_cases c : i < 1024
    · rw [if_pos c, if_pos (by omega), if_pos (by omega), if_pos c]
    · rw [if_neg c, if_neg c]
  have hone : oneBucket L 512 acc ds [f, g] [0] 0 (zeros acc.toNat) = .ok (some (b4,
      [(ds, hdrOf L f.rel ++ ((hdrOf L g.rel).take 512 ++ legacyHeader spacerName (acc - 1536) (L.now 0))), (ds + acc.toNat, zeros 1024)])) := by
    unfold oneBucket
    rw [if_neg (by omega)]
    simp only [List.getElem?_cons_zero, List.drop_zero]
    rw [if_neg (by rw [f6]; simp), hlp, bindRO_some]
    simp only [hfl]
    rw [if_neg (by omega)]
    simp only [if_true]
    unfold terminate
    rw [e4]
    simp only []
    have h1536 : (1536 : Int).toNat = 1536 := rfl
    rw [h1536, himg, hz4]
    simp
  have h0 : allBuckets L 512 acc ds [f, g] [0] n 0 = .ok (some
      [(ds, hdrOf L f.rel ++ ((hdrOf L g.rel).take 512 ++ legacyHeader spacerName (acc - 1536) (L.now 0))), (ds + acc.toNat, zeros 1024)]) := by
    unfold allBuckets
    rw [show [0].length = 1 from rfl, rankBuckets_one hn, if_pos rfl]
    unfold bucketsLoop
    rw [hone, bindRO_some]
    simp [bucketsLoop]
  have hr : ∀ r, 0 < r → allBuckets L 512 acc ds [f, g] [0] n r = .ok (some []) := by
    intro r hr
    unfold allBuckets
    rw [show [0].length = 1 from rfl, rankBuckets_one hn, if_neg (by omega)]
    rfl
  have hrest : ∀ rs : List Nat, (∀ r ∈ rs, 0 < r) → allRanks (fun r => allBuckets L 512 acc ds [f, g] [0] n r) rs =
      .ok (some (List.replicate rs.length [])) := by
    intro rs
    induction rs with
    | nil => intro _; rfl
    | cons r rs ih =>
      intro h
      unfold allRanks
      rw [hr r (h r (by simp)), bindRO_some, ih (fun x hx => h x (by simp [hx])), bindRO_some]
      rfl
  obtain ⟨k, rfl⟩ : ∃ k, n = k + 1 := ⟨n - 1, by omega⟩
  rw [List.range_succ_eq_map]
  unfold allRanks
  rw [h0, bindRO_some, hrest _ (by simp), bindRO_some]
  simp

theorem made_of {L : LegEnv} {rel : Bytes} (h : hdrOf L rel ≠ []) :
    ∃ t, tarentryCtor L.fs.lstat rel 0 = .ok t ∧ makeTarHeader L.env t = .ok (hdrOf L rel) := by
  unfold hdrOf at h ⊢
  cases h1 : tarentryCtor L.fs.lstat rel 0 with
  | error e => rw [h1] at h; simp at h
  | ok t =>
    rw [h1] at h
    simp only [] at h ⊢
    cases h2 : makeTarHeader L.env t with
    | error e => rw [h2] at h; simp at h
    | ok x => exact ⟨t, rfl, by simp only [h2]⟩

/-- Sorting two entries that are in order already. -/
theorem sorted_two (Q : QSort Frag) {a b : Frag} (h : 0 < cmpFrag b a) : qsortEntries Q [a, b] = [a, b] := by
  have hp : (qsortEntries Q [a, b]).Perm [a, b] := Q.perm _ _ C33_total
  have hs := Q.sorted cmpFrag [a, b] C33_total
  change (qsortEntries Q [a, b]).Pairwise _ at hs
  have hne : a ≠ b := by
    intro he
    rw [he, C33_total.refl] at h
    omega
  generalize qsortEntries Q [a, b] = l at hp hs
  obtain ⟨x, y, rfl⟩ : ∃ x y, l = [x, y] := List.length_eq_two.1 hp.length_eq
  · have hx : x ∈ [a, b] := hp.subset (by simp)
    have hy : y ∈ [a, b] := hp.subset (by simp)
    have hnd : [x, y].Nodup := hp.symm.nodup_iff.1 (by simp [hne])
    simp only [List.mem_cons, List.not_mem_nil, or_false] at hx hy
    rw [List.pairwise_cons] at hs
    have h1 := hs.1 y (by simp)
    rcases hx with rfl | rfl
    · rcases hy with rfl | rfl
      · simp at hnd
      · rfl
    · rcases hy with rfl | rfl
      · omega
      · simp at hnd

/-- A run on two directories, the second with a header of three blocks where one was planned. -/
theorem two_run {L : LegEnv} {nul pad : Bytes} {acc : Int} (hs : LegSetup L acc) (hmin : 100000 ≤ acc) (hmax : acc ≤ 500000000)
    (hnul : LegTabFree nul) (hnl : nul.length ≤ 100) {a b : Frag} (ha : DirEnt L a) (hb : DirEnt L b)
    (la : (hdrOf L a.rel).length = 512) (lb : (hdrOf L b.rel).length = 1536) {n : Nat} (hn : 0 < n) :
    ∃ cat front, listToBuffer nul true acc [a, b] = .ok (some cat) ∧ cat.length < 50000 ∧
      Front L acc.toNat cat front (dataOffset acc.toNat (512 + cat.length)) ∧
      legacyRun L nul 512 acc pad [a, b] n = .ok (some (front,
        [(dataOffset acc.toNat (512 + cat.length),
            hdrOf L a.rel ++ ((hdrOf L b.rel).take 512 ++ legacyHeader spacerName (acc - 1536) (L.now 0))),
          (dataOffset acc.toNat (512 + cat.length) + acc.toNat, zeros 1024)] :: List.replicate (n - 1) [])) := by
  have hfits : FitsI32 acc := by unfold FitsI32; omega
  have hab : ∀ e ∈ [a, b], DirEnt L e := by
    intro e he
    simp only [List.mem_cons, List.not_mem_nil, or_false] at he
    rcases he with rfl | rfl
    · exact ha
    · exact hb
  obtain ⟨cat, hcat⟩ := C30_write_succeeds nul true acc hfits [a, b] (by simp) (by simp) (by
    have := sum_le_mul (fun e => (catLine nul true e).length) [a, b] (440 + 2 * 10000) (fun e he =>
      lineArc_le (hab e he).plain (hab e he).short.2.1 (hab e he).short.2.2)
    simp only [List.length_cons, List.length_nil] at this
    omega)
  have hclen : cat.length < 50000 := by
    have hsum := sum_le_mul (fun e => (catLine nul true e).length) [a, b] (440 + 2 * 10000) (fun e he =>
      lineArc_le (hab e he).plain (hab e he).short.2.1 (hab e he).short.2.2)
    simp only [List.length_cons, List.length_nil] at hsum
    obtain ⟨t1, t2, _⟩ := listToBuffer_text hcat
    have hfl : (([a, b].map (catLine nul true)).flatten).length = ([a, b].map (fun e => (catLine nul true e).length)).sum := by
      rw [List.length_flatten, List.map_map]; rfl
    rw [t1]
    have v1 : versionText.length = 10 := rfl
    have v2 : (typeText true).length = 10 := rfl
    simp only [catText, List.length_append, List.length_singleton, hfl, v1, v2]
    rw [pad10_length (by omega), pad10_length (by omega), pad10_length (by simp)]
    omega
  obtain ⟨front, hfw⟩ : ∃ front, frontWrites L 512 acc.toNat cat = .ok front := by
    unfold frontWrites
    rw [hdr512 (by decide) (by decide) (by omega)]
    simp only []
    rw [if_neg (by simp)]
    exact ⟨_, rfl⟩
  have hrm : ∀ e, DirEnt L e → room 512 e = 512 := by
    intro e he
    have : dataLen e = 0 := by unfold dataLen; rw [he.size]; rfl
    unfold room; rw [this, he.hdr]; rfl
  have ra := hrm a ha
  have rb := hrm b hb
  obtain ⟨q, hsp⟩ := two_small (pad := pad) (acc := acc) (a := a) (b := b) (by rw [ha.hdr]; omega) (by rw [hb.hdr]; omega)
    (by omega) (by omega) (by omega)
  generalize hf : ({ a with locA := 0 + a.hdr, bucket := 0, locO := 0, nFrag := 1, fp := -1 } : Frag) = f at hsp
  generalize hg : ({ b with locA := room 512 a + b.hdr, bucket := 0, locO := 0, nFrag := 1, fp := -1 } : Frag) = g at hsp
  have pf : Plain f := by
    have h := ha.plain
    rw [← hf]
    exact { h with locA := by rw [ha.hdr]; unfold FitsLong; simp only []; omega
                   locO := by unfold FitsLong; simp only []; omega
                   nFrag := by unfold FitsI32; simp only []; omega
                   fp := by unfold FitsI32; simp only []; omega
                   bucket := by unfold FitsI32; simp only []; omega }
  have pg : Plain g := by
    have h := hb.plain
    rw [← hg]
    exact { h with locA := by rw [hb.hdr, ra]; unfold FitsLong; simp only []; omega
                   locO := by unfold FitsLong; simp only []; omega
                   nFrag := by unfold FitsI32; simp only []; omega
                   fp := by unfold FitsI32; simp only []; omega
                   bucket := by unfold FitsI32; simp only []; omega }
  have hpl : ∀ x ∈ [f, g], Plain x := by
    intro e he
    simp only [List.mem_cons, List.not_mem_nil, or_false] at he
    rcases he with rfl | rfl
    · exact pf
    · exact pg
  have hline : ∀ x ∈ [f, g], (catLine nul false x).length ≤ 440 + 2 * 10000 := by
    intro x hx
    have hpx := hpl x hx
    simp only [List.mem_cons, List.not_mem_nil, or_false] at hx
    rcases hx with rfl | rfl
    · refine lineFull_le hpx (R := 10000) (T := 100) (by rw [← hf]; exact ha.short.1) (by rw [← hf]; exact ha.short.2.1)
        (by rw [← hf]; exact ha.short.2.2) ?_
      rw [← hf]; show (a.padName.getD nul).length ≤ 100
      rw [ha.pad]; exact hnl
    · refine lineFull_le hpx (R := 10000) (T := 100) (by rw [← hg]; exact hb.short.1) (by rw [← hg]; exact hb.short.2.1)
        (by rw [← hg]; exact hb.short.2.2) ?_
      rw [← hg]; show (b.padName.getD nul).length ≤ 100
      rw [hb.pad]; exact hnl
  obtain ⟨text, htx⟩ := C30_write_succeeds nul false acc hfits [f, g] (by simp) (by simp) (by
    have := sum_le_mul (fun e => (catLine nul false e).length) _ (440 + 2 * 10000) hline
    simp only [List.length_cons, List.length_nil] at this
    omega)
  have hrd := C30_round_trip_partial nul hnul acc [f, g] text htx ⟨hmin, hmax⟩ (by simp) hpl []
  rw [List.append_nil] at hrd
  have bf : f.bucket = 0 := by rw [← hf]
  have bg : g.bucket = 0 := by rw [← hg]
  have hcl : rankCallList [f, g] = .ok (some [0]) := by
    simp [rankCallList, rankCallLoop, bf, bg]
  have hck : checkCalls [f, g] [0] = true := by simp [checkCalls, bf, List.range_succ]
  have hck' : checkCalls ([f, g].map (named nul)) [0] = true := by simp [checkCalls, bf, named, List.range_succ]
  have hwr := two_bucket (f := named nul f) (g := named nul g) (ds := dataOffset acc.toNat (512 + cat.length)) hs
    (by rw [← hf]; exact ⟨ha.kind, ha.size, ha.hdr, by show 0 + a.hdr = 512; rw [ha.hdr]; rfl, rfl, rfl⟩)
    (by rw [← hg]; exact ⟨hb.kind, hb.size, hb.hdr, by show room 512 a + b.hdr = 1024; rw [hb.hdr, ra]; rfl, rfl, rfl⟩)
    (by rw [← hf]; exact ha.made) (by rw [← hg]; exact hb.made) (by rw [← hf]; exact la) (by rw [← hg]; exact lb) hn
  have rf : (named nul f).rel = a.rel := by rw [← hf]; rfl
  have rg : (named nul g).rel = b.rel := by rw [← hg]; rfl
  rw [rf, rg] at hwr
  have hpart : rankPart L 512 acc (dataOffset acc.toNat (512 + cat.length)) text [0] n =
      fun r => allBuckets L 512 acc (dataOffset acc.toNat (512 + cat.length)) [named nul f, named nul g] [0] n r := by
    funext r
    unfold rankPart
    rw [hrd, bindRO_some]
    simp only []
    rw [if_neg (by rw [hck']; simp)]
    rfl
  refine ⟨cat, front, hcat, by omega, ?_, ?_⟩
  · refine frontWrites_ok (by omega) (by have := hs.accMax; omega) (by have := hs.accDvd; omega) (by omega) hs.clockCat hs.clockGap hfw
  · unfold legacyRun
    rw [hcat, bindRO_some]
    have h512 : (512 : Int).toNat = 512 := rfl
    rw [h512, hfw]
    simp only []
    rw [hsp, bindRO_some]
    simp only []
    have hout : ∀ x y, outFrags [(x, [f]), (y, [g])] = [f, g] := fun _ _ => rfl
    rw [hout, htx, bindRO_some, hcl, bindRO_some, if_neg (by rw [hck]; simp), hpart, hwr, bindRO_some]

end Parfu
