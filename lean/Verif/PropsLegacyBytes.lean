/-
Property C49: what of an archive written by parfu 0.5.1 depends on the number of ranks.
-/
import Verif.LegacyPadding
import Verif.PropsLegacyOverrun
set_option autoImplicit false

namespace Parfu.Props
open Parfu ScanSpec LegacyScanSpec MoveSpec TarSpec LegacyRunSpec SplitSpec

theorem rank_buckets_perm {n K : Nat} (hn : 0 < n) : ((List.range n).flatMap (rankBuckets n K)).Perm (List.range K) := by
  have hnd : ((List.range n).flatMap (rankBuckets n K)).Nodup := by
    rw [List.nodup_flatMap]
    refine ⟨fun r _ => (rankBuckets_sorted hn r).imp (fun h => Nat.ne_of_lt h), ?_⟩
    refine List.Pairwise.imp_of_mem ?_ (List.pairwise_lt_range (n := n))
    intro a b ha hb hab k h1 h2
    simp only [List.mem_range] at ha hb
    obtain ⟨r, _, _, hu⟩ := (C36_each_bucket_once n K hn).1 k ((mem_rankBuckets hn _ _).1 h1).2.1
    have := hu a ha h1
    have := hu b hb h2
    omega
  rw [List.perm_ext_iff_of_nodup hnd List.nodup_range]
  intro k
  simp only [List.mem_flatMap, List.mem_range]
  constructor
  · rintro ⟨r, hr, hk⟩; exact ((mem_rankBuckets hn _ _).1 hk).2.1
  · intro hk
    obtain ⟨r, h1, h2, _⟩ := (C36_each_bucket_once n K hn).1 k hk
    exact ⟨r, h1, h2⟩

/-- **C49, exact** The data part of the archive, for a tree that can be archived: its position, the number of
buckets, how much of each is written and the bytes put there for members and fillers do not depend on
the number of ranks; each other byte is what the same rank left there with an earlier bucket (`leftover`),
or zero if it left nothing. -/
theorem C49_bytes (L : LegEnv) (Q : QSort Frag) (nul top : Bytes) (root : FNode) (hp : Platform L nul)
    (ha : LegArchivable L.env L.fs top root) (seen : Option FNode) (hseen : DirOrLink seen) (n : Nat) (hn : 0 < n)
    (front : List WriteReq) (wss : List (List WriteReq))
    (h : legacyMain L Q nul top seen root n = .ok (some (front, wss))) :
    ∃ (start K : Nat) (len : Nat → Nat) (own : Nat → Nat → Option UInt8),
      (∀ w ∈ front, w.1 + w.2.length ≤ start) ∧ (∀ k < K, len k ≤ 4194304) ∧ ∀ n', 0 < n' →
      ∃ wss', legacyMain L Q nul top seen root n' = .ok (some (front, wss')) ∧
        wss'.flatten.Perm ((List.range K).map (fun k => (start + k * 4194304, (List.range (len k)).map (leftover own n' k))) ++
          [(start + K * 4194304, zeros 1024)]) := by
  obtain ⟨es, ms, h1, h3, h4, h5, h8, h9, h6, h7⟩ := main_run hp ha Q
  have hm := h1 seen ((topAllowed_iff seen).2 hseen)
  rw [hm] at h
  obtain ⟨cat, gs, r, call, hcat, hfw, hsp, hcl, hready, hex⟩ := run_exact h3 blocking_free hp.nul hn h
  refine ⟨dataOffset legBucket.toNat (512 + cat.length), call.length,
    (fun k => ownLen legBucket (endOfGroup ((outFrags gs).map (named nul)) k) k),
    (fun k => ownByte L legBucket (groupOf ((outFrags gs).map (named nul)) k) (endOfGroup ((outFrags gs).map (named nul)) k) k),
    ?_, ?_, fun n' hn' => ⟨_, by rw [hm]; exact hex n' hn', ?_⟩⟩
  · have hfr := frontWrites_ok (acc := legBucket.toNat) (by decide) (by decide) (by decide) (listToBuffer_le hcat) h3.clockCat h3.clockGap hfw
    exact hfr.below
  · intro k hk
    obtain ⟨_, _, r2, _, _⟩ := hready.drop hk
    obtain ⟨_, g2, g3⟩ := hready.group h3.accDvd r2
    have hb : legBucket = 4194304 := rfl
    rw [hb] at g3
    simp only [ownLen, hb]
    split <;> omega
  rw [← List.flatMap_def]
  unfold writesFor
  rw [← List.flatMap_assoc]
  refine ((rank_buckets_perm hn').flatMap_right _).trans ?_
  have hK := hready.numbered.2
  have hb : legBucket.toNat = 4194304 := rfl
  rw [hb]
  obtain ⟨K, hK'⟩ : ∃ K, call.length = K + 1 := ⟨call.length - 1, by omega⟩
  rw [hK', List.range_succ, List.flatMap_append, List.map_append]
  refine List.Perm.of_eq ?_
  have e : ∀ (D : Nat → Bytes) (is : List Nat), (∀ i ∈ is, i < K) →
      (is.flatMap fun i => bucketWrites legBucket (dataOffset 4194304 (512 + cat.length)) (decide (i + 1 = K + 1)) i (D i)) =
        is.map fun k => (dataOffset 4194304 (512 + cat.length) + k * 4194304, D k) := by
    intro D is hi
    induction is with
    | nil => rfl
    | cons i is ih =>
      rw [List.flatMap_cons, ih (fun j hj => hi j (by simp [hj])), List.map_cons]
      have := hi i (by simp)
      unfold bucketWrites
      rw [decide_eq_false (by omega)]
      simp [hb]
  rw [e _ _ (by simp)]
  simp only [List.flatMap_cons, List.flatMap_nil, List.append_nil, List.map_cons, List.map_nil, bucketWrites, decide_true, if_true, hb,
    List.append_assoc, List.cons_append, List.nil_append]
  rfl

/-- What is left when the rank had no bucket before. -/
theorem leftover_first {own : Nat → Nat → Option UInt8} {n k : Nat} (h : k < n) (i : Nat) :
    leftover own n k i = (own k i).getD 0 := by
  rw [leftover, dif_neg (by omega)]

theorem foldl_length_ge {ws : List WriteReq} : ∀ (old : Bytes), old.length ≤ (ws.foldl writeAt old).length ∧
    ∀ w ∈ ws, w.1 + w.2.length ≤ (ws.foldl writeAt old).length := by
  induction ws with
  | nil => intro old; simp
  | cons w ws ih =>
    intro old
    obtain ⟨i1, i2⟩ := ih (writeAt old w)
    have hl := writeAt_length old w
    rw [List.foldl_cons]
    refine ⟨by omega, ?_⟩
    intro u hu
    rcases List.mem_cons.1 hu with rfl | hu
    · omega
    · exact i2 u hu

theorem foldl_length_le {ws : List WriteReq} {b : Nat} : ∀ {old : Bytes}, (∀ w ∈ ws, w.1 + w.2.length ≤ b) → old.length ≤ b →
    (ws.foldl writeAt old).length ≤ b := by
  induction ws with
  | nil => intro old _ h; exact h
  | cons w ws ih =>
    intro old h ho
    refine ih (fun u hu => h u (by simp [hu])) ?_
    rw [writeAt_length]
    have := h w (by simp)
    omega

/-- **C49** With enough ranks (as many as the archive has pieces of 4 MiB) the whole archive, every byte of
it, is the same for any number of ranks and any order of the writes. -/
theorem C49_enough_ranks (L : LegEnv) (Q : QSort Frag) (nul top : Bytes) (root : FNode) (hp : Platform L nul)
    (ha : LegArchivable L.env L.fs top root) (seen : Option FNode) (hseen : DirOrLink seen) (n n' : Nat) (hn : 0 < n)
    (front : List WriteReq) (wss : List (List WriteReq))
    (h : legacyMain L Q nul top seen root n = .ok (some (front, wss)))
    (ws : List WriteReq) (hws : ws.Perm (front ++ wss.flatten)) (old : Bytes)
    (hsize : (ws.foldl writeAt old).length ≤ n * 4194304) (hsize' : (ws.foldl writeAt old).length ≤ n' * 4194304) :
    ∃ wss', legacyMain L Q nul top seen root n' = .ok (some (front, wss')) ∧
      ∀ ws' : List WriteReq, ws'.Perm (front ++ wss'.flatten) → ws'.foldl writeAt old = ws.foldl writeAt old := by
  obtain ⟨start, K, len, own, _, _, hall⟩ := C49_bytes L Q nul top root hp ha seen hseen n hn front wss h
  obtain ⟨wss0, e0, p0⟩ := hall n hn
  rw [h] at e0
  simp only [Except.ok.injEq, Option.some.injEq, Prod.mk.injEq, true_and] at e0
  subst e0
  have hK : start + K * 4194304 + 1024 ≤ (ws.foldl writeAt old).length := by
    have := (foldl_length_ge (ws := ws) old).2 (start + K * 4194304, zeros 1024)
      (by rw [hws.mem_iff, List.mem_append, p0.mem_iff]; simp)
    have hz : (zeros 1024).length = 1024 := by unfold zeros; rw [List.length_replicate]
    rw [hz] at this
    exact this
  have hn' : 0 < n' := by omega
  obtain ⟨wss', e1, p1⟩ := hall n' hn'
  refine ⟨wss', e1, ?_⟩
  intro ws' hws'
  have hsame : wss'.flatten.Perm wss.flatten := by
    refine p1.trans (List.Perm.trans (List.Perm.of_eq ?_) p0.symm)
    congr 1
    refine List.map_congr_left fun k hk => ?_
    have hk : k < K := by simpa using hk
    congr 1
    refine List.map_congr_left fun i _ => ?_
    rw [leftover_first (by omega), leftover_first (by omega)]
  obtain ⟨es, ms, h1, h3, _⟩ := main_run hp ha Q
  rw [h1 seen ((topAllowed_iff seen).2 hseen)] at h
  obtain ⟨hap, _⟩ := run_writes h3 blocking_free hp.nul hn h
  have hperm : ws'.Perm ws := hws'.trans ((List.Perm.append_left _ hsame).trans hws.symm)
  exact foldl_perm hperm ((hws'.trans (List.Perm.append_left _ hsame)).pairwise_iff (fun h => WApart.symm h) |>.2 hap) old

/-- The layout of three entries if the first two fit one bucket and the third does not fit behind them. -/
theorem two_bucket_split {acc : Int} {pad : Bytes} (hpl : pad.length ≤ 100) (hacc : 100000 ≤ acc) (hmax : acc ≤ 500000000)
    {e0 eb ec : Frag} (h0 : 0 < e0.hdr) (hb : 0 < eb.hdr) (hc : 0 < ec.hdr) (ht : ec.target.length ≤ 100)
    (r0 : 0 < room 512 e0) (rb : 0 < room 512 eb) (r0b : room 512 e0 + room 512 eb ≤ acc) (rc : room 512 ec ≤ acc)
    (rall : acc < room 512 e0 + room 512 eb + room 512 ec) :
    ∃ g0 gb gc f0 f1 f2 q, splitList 512 acc pad [e0, eb, ec] = .ok (some ([(g0, [f0]), (gb, [f1]), (gc, [f2])], q)) ∧
      (SameFile f0 e0 ∧ f0.size = e0.size ∧ f0.bucket = 0 ∧ f0.locA = e0.hdr ∧ f0.locO = 0) ∧
      (SameFile f1 eb ∧ f1.size = eb.size ∧ f1.bucket = 0 ∧ f1.locA = room 512 e0 + eb.hdr ∧ f1.locO = 0) ∧
      (SameFile f2 ec ∧ f2.size = ec.size ∧ f2.bucket = 1 ∧ f2.locA = acc + ec.hdr ∧ f2.locO = 0) := by
  have hbl : ∀ e, blockedSum 512 e = room 512 e := blockedSum_eq (by omega)
  have p0 : placeEntry 512 acc pad ⟨0, 0, 0⟩ e0 = .ok (some (({ e0 with locA := 0, bucket := 0, locO := 0 },
      [{ e0 with locA := 0 + e0.hdr, bucket := 0, locO := 0, nFrag := 1, fp := -1 }]), ⟨room 512 e0, room 512 e0, 0⟩)) := by
    unfold placeEntry
    rw [if_neg (by omega)]
    simp only [hbl]
    rw [if_pos (by omega), if_pos (by omega), if_neg (by omega)]
    simp
  have p1 : placeEntry 512 acc pad ⟨room 512 e0, room 512 e0, 0⟩ eb = .ok (some (({ eb with locA := room 512 e0, bucket := 0, locO := 0 },
      [{ eb with locA := room 512 e0 + eb.hdr, bucket := 0, locO := 0, nFrag := 1, fp := -1 }]),
      ⟨room 512 e0 + room 512 eb, room 512 e0 + room 512 eb, 0⟩)) := by
    unfold placeEntry
    rw [if_neg (by omega)]
    simp only [hbl]
    rw [if_pos (by omega), if_pos (by omega), if_neg (by omega)]
  have e1 : ((0 : Int) + 1) * acc = acc := by ring
  obtain ⟨ec', hpad⟩ := pad_ok (bl := 512) (acc := acc) (by omega) hpl (e := { ec with locA := acc }) ht (loc := room 512 e0 + room 512 eb)
    (space := acc - (room 512 e0 + room 512 eb)) (by omega) (by omega)
  obtain ⟨s1, s2, s3⟩ := padBefore_some hpad
  simp only [] at s2 s3
  have p2 : ∃ g q, placeEntry 512 acc pad ⟨room 512 e0 + room 512 eb, room 512 e0 + room 512 eb, 0⟩ ec = .ok (some
      ((g, [{ ec' with bucket := 1, locO := 0, locA := acc + ec.hdr, nFrag := 1, fp := -1 }]), q)) := by
    unfold placeEntry
    rw [if_neg (by omega)]
    simp only [hbl]
    rw [if_pos (by omega), if_neg (by omega), e1, hpad]
    simp only [Int.zero_add]
    exact ⟨_, _, rfl⟩
  obtain ⟨gc, q, p2⟩ := p2
  have hsp : splitList 512 acc pad [e0, eb, ec] = splitLoop 512 acc pad ⟨0, 0, 0⟩ [e0, eb, ec] := by
    unfold splitList createList
    simp only [List.length_cons, List.length_nil]
    rw [if_neg (by omega), if_neg (by omega)]
  rw [hsp]
  simp only [splitLoop, p0, p1, p2]
  refine ⟨_, _, _, _, _, _, _, rfl, ?_, ?_, ?_⟩
  · exact ⟨⟨rfl, rfl, rfl, rfl, rfl⟩, rfl, rfl, by simp, rfl⟩
  · exact ⟨⟨rfl, rfl, rfl, rfl, rfl⟩, rfl, rfl, rfl, rfl⟩
  · obtain ⟨t1, t2, t3, t4, t5⟩ := s1
    simp only [] at t1 t2 t3 t4 t5
    exact ⟨⟨t1, t2, t3, t4, t5⟩, s2, rfl, rfl, rfl⟩

/-- The byte behind the third of such entries is left from the second one if one rank does the work, and zero
otherwise. -/
theorem two_bucket_bytes {L : LegEnv} {nul pad : Bytes} {acc : Int} {e0 eb ec : Frag} {ms : List Member} (hr : RunOk L acc [e0, eb, ec] ms)
    (hpad : LegTabFree pad) (hnul : LegTabFree nul) (hpl : pad.length ≤ 100)
    (h0 : e0.hdr = 512) (hb : eb.hdr = 512) (hc : ec.hdr = 512) (hs0 : e0.size < 0) (hsb : 0 < eb.size)
    (hbc : eb.size < ec.size) (hcb : ec.size < eb.size + 512) (hc512 : ec.size % 512 ≠ 0) (hbig : acc < 2 * eb.size)
    (h512 : 512 ≤ ec.size)
    (hfit : ec.size + 1536 ≤ acc) (ht : ec.target.length ≤ 100) {n : Nat} (hn : 2 ≤ n) {front : List WriteReq} {wss : List (List WriteReq)}
    (h : legacyRun L nul 512 acc pad [e0, eb, ec] 1 = .ok (some (front, wss))) :
    ∃ wss', legacyRun L nul 512 acc pad [e0, eb, ec] n = .ok (some (front, wss')) ∧
      ∃ (pos : Nat) (D D' : Bytes), (pos, D) ∈ wss.flatten ∧ (pos, D') ∈ wss'.flatten ∧
        D[ec.size.toNat + 512]? = (contOf L eb.rel)[ec.size.toNat - 512]? ∧ D'[ec.size.toNat + 512]? = some 0 := by
  have hmin := hr.accMin
  have hmax := hr.accMax
  have hdv := hr.accDvd
  obtain ⟨cat, gs, r, call, hcat, hfw, hsp, hcl, hready, hex⟩ := run_exact hr hpad hnul (by omega) h
  have d0 : dataLen e0 = 0 := by unfold dataLen; omega
  have db : dataLen eb = eb.size := by unfold dataLen; omega
  have dc : dataLen ec = ec.size := by unfold dataLen; omega
  have q0 : room 512 e0 = 512 := by unfold room; rw [h0, d0]; rfl
  have qb : eb.size + 512 ≤ room 512 eb ∧ room 512 eb < eb.size + 1024 ∧ room 512 eb % 512 = 0 := by unfold room; rw [hb, db]; omega
  have qc : ec.size + 512 < room 512 ec ∧ room 512 ec < ec.size + 1024 ∧ room 512 ec % 512 = 0 := by unfold room; rw [hc, dc]; omega
  obtain ⟨g0, gb, gc, f0, f1, f2, q, hsp', ⟨a1, a2, a3, a4, a5⟩, ⟨b1, b2, b3, b4, b5⟩, ⟨c1, c2, c3, c4, c5⟩⟩ :=
    two_bucket_split hpl hmin hmax (e0 := e0) (eb := eb) (ec := ec) (by omega) (by omega) (by omega) ht (by omega) (by omega)
      (by omega) (by omega) (by omega)
  rw [hsp] at hsp'
  simp only [Except.ok.injEq, Option.some.injEq, Prod.mk.injEq] at hsp'
  obtain ⟨rfl, rfl⟩ := hsp'
  have hout : outFrags [(g0, [f0]), (gb, [f1]), (gc, [f2])] = [f0, f1, f2] := rfl
  rw [hout] at hcl hready hex
  have hcall : call = [0, 2] := by
    simp [rankCallList, rankCallLoop, a3, b3, c3] at hcl
    exact hcl.symm
  subst hcall
  simp only [List.map_cons, List.map_nil] at hready hex
  -- sizes and places of the fragments
  have g0' : groupOf [named nul f0, named nul f1, named nul f2] 0 = [named nul f0, named nul f1] := by
    simp [groupOf, named, a3, b3, c3]
  have g1' : groupOf [named nul f0, named nul f1, named nul f2] 1 = [named nul f2] := by
    simp [groupOf, named, a3, b3, c3]
  obtain ⟨w0, w1, w2⟩ := hready.group hdv (k := 0) (by rw [g0']; simp)
  obtain ⟨y0, y1, y2⟩ := hready.group hdv (k := 1) (by rw [g1']; simp)
  rw [g0'] at w0
  rw [g1'] at y0
  simp only [Cont] at w0 y0
  have bw1 : blockedWritten 512 (named nul f1) = room 512 eb := by
    unfold blockedWritten room
    have hge : eb.size ≥ 0 := by omega
    simp only [named, b5, b2, b1.2.2.2.2, if_true, db, hge, hb]
    split <;> omega
  have bw2 : blockedWritten 512 (named nul f2) = room 512 ec := by
    unfold blockedWritten room
    have hge : ec.size ≥ 0 := by omega
    simp only [named, c5, c2, c1.2.2.2.2, if_true, dc, hge, hc]
    split <;> omega
  have fs0 : fragStart (named nul f0) = 0 := by
    unfold fragStart; simp only [named, a5, a4, a1.2.2.2.2, if_true]; omega
  have fs1 : fragStart (named nul f1) = 512 := by
    unfold fragStart; simp only [named, b5, b4, b1.2.2.2.2, if_true]; omega
  have fs2 : fragStart (named nul f2) = acc := by
    unfold fragStart; simp only [named, c5, c4, c1.2.2.2.2, if_true]; omega
  generalize hz0 : endOfGroup [named nul f0, named nul f1, named nul f2] 0 = z0 at *
  generalize hz1 : endOfGroup [named nul f0, named nul f1, named nul f2] 1 = z1 at *
  have hz0v : z0 = 512 + room 512 eb := by
    rw [bw1, fs1, fs0] at w0
    omega
  have hz1v : z1 = acc + room 512 ec := by
    rw [bw2, fs2] at y0
    omega
  -- the bytes
  obtain ⟨m0, _, hm0, _⟩ := forall2_mem_left hr.members e0 (by simp)
  obtain ⟨mb, _, hmb, _⟩ := forall2_mem_left hr.members eb (by simp)
  obtain ⟨mc, _, hmc, _⟩ := forall2_mem_left hr.members ec (by simp)
  have kb : eb.kind = .reg := Classical.byContradiction fun h => by have := hmb.other h; omega
  have kc : ec.kind = .reg := Classical.byContradiction fun h => by have := hmc.other h; omega
  have l0 := hm0.len
  have lb' := hmb.len
  have lc := hmc.len
  have cb := (hmb.reg kb).2
  have cc := (hmc.reg kc).2
  have own1 : ownByte L acc [named nul f2] z1 1 (ec.size.toNat + 512) = none := by
    have hfill : fillByte L acc 1 z1 (ec.size.toNat + 512) = none := by
      unfold fillByte
      rw [if_neg (by push_cast; omega)]
    unfold ownByte
    rw [hfill]
    have hpl2 : (pieceOf L (named nul f2)).length = ec.size.toNat + 512 := by
      have hd : dataOf L (named nul f2) = contOf L ec.rel := by
        unfold dataOf
        simp only [named, c1.2.2.1, kc, c2, c1.1, c5]
        rw [if_pos ⟨trivial, by omega⟩]
        simp only [Int.toNat_zero, List.drop_zero]
        exact List.take_of_length_le (by omega)
      unfold pieceOf
      have hl : (named nul f2).locO = 0 := c5
      have hrel : (named nul f2).rel = ec.rel := c1.1
      rw [if_pos hl, hd, hrel, List.length_append]
      omega
    simp only [fragsByte, List.foldl_cons, List.foldl_nil, pieceByte, Option.or_none, Option.none_or]
    split
    · exact List.getElem?_eq_none (by rw [hpl2, fs2]; push_cast; omega)
    · rfl
  have own0 : ownByte L acc [named nul f0, named nul f1] z0 0 (ec.size.toNat + 512) = (contOf L eb.rel)[ec.size.toNat - 512]? := by
    have hfill : fillByte L acc 0 z0 (ec.size.toNat + 512) = none := by
      unfold fillByte
      rw [if_neg (by push_cast; omega)]
    unfold ownByte
    rw [hfill]
    have hd : dataOf L (named nul f1) = contOf L eb.rel := by
      unfold dataOf
      simp only [named, b1.2.2.1, kb, b2, b1.1, b5]
      rw [if_pos ⟨trivial, by omega⟩]
      simp only [Int.toNat_zero, List.drop_zero]
      exact List.take_of_length_le (by omega)
    have hp1 : pieceByte L (acc * ((0 : Nat) : Int)) (named nul f1) (ec.size.toNat + 512) = (contOf L eb.rel)[ec.size.toNat - 512]? := by
      unfold pieceByte pieceOf
      have hl : (named nul f1).locO = 0 := b5
      have hrel : (named nul f1).rel = eb.rel := b1.1
      rw [if_pos (by rw [fs1]; push_cast; omega), if_pos hl, hd, hrel, fs1]
      have hix : ec.size.toNat + 512 - (512 - acc * ((0 : Nat) : Int)).toNat - (hdrOf L eb.rel).length = ec.size.toNat - 512 := by
        push_cast; omega
      rw [List.getElem?_append_right (by push_cast; omega), hix]
    have hsome : ∃ b, (contOf L eb.rel)[ec.size.toNat - 512]? = some b := ⟨_, List.getElem?_eq_getElem (by omega)⟩
    obtain ⟨b, hbv⟩ := hsome
    simp only [fragsByte, List.foldl_cons, List.foldl_nil, hp1, hbv, Option.some_or, Option.none_or]
  have hlen : ec.size.toNat + 512 < ownLen acc z1 1 := by
    unfold ownLen
    split
    · push_cast; omega
    · push_cast; omega
  obtain ⟨own, len, o0, o1, ol, hex⟩ : ∃ (own : Nat → Nat → Option UInt8) (len : Nat → Nat),
      own 0 (ec.size.toNat + 512) = (contOf L eb.rel)[ec.size.toNat - 512]? ∧ own 1 (ec.size.toNat + 512) = none ∧
      ec.size.toNat + 512 < len 1 ∧ ∀ n', 0 < n' → legacyRun L nul 512 acc pad [e0, eb, ec] n' = .ok (some (front, (List.range n').map fun q =>
        writesFor acc (dataOffset acc.toNat (512 + cat.length)) 2 (bucketImage own len n') (rankBuckets n' 2 q))) := by
    refine ⟨_, _, ?_, ?_, ?_, hex⟩
    · simp only [g0', hz0]; exact own0
    · simp only [g1', hz1]; exact own1
    · simp only [hz1]; exact hlen
  have hmem : ∀ n' q, 0 < n' → q < n' → 1 ∈ rankBuckets n' 2 q →
      (dataOffset acc.toNat (512 + cat.length) + 1 * acc.toNat, bucketImage own len n' 1) ∈ ((List.range n').map fun q =>
        writesFor acc (dataOffset acc.toNat (512 + cat.length)) 2 (bucketImage own len n') (rankBuckets n' 2 q)).flatten := by
    intro n' q _ hq h1
    rw [List.mem_flatten]
    refine ⟨_, List.mem_map.2 ⟨q, by simpa using hq, rfl⟩, ?_⟩
    unfold writesFor
    rw [List.mem_flatMap]
    refine ⟨1, h1, ?_⟩
    unfold bucketWrites
    exact List.mem_cons_self
  have hex1 := hex 1 (by omega)
  rw [h] at hex1
  simp only [Except.ok.injEq, Option.some.injEq, Prod.mk.injEq, true_and] at hex1
  refine ⟨_, hex n (by omega), dataOffset acc.toNat (512 + cat.length) + 1 * acc.toNat, bucketImage own len 1 1, bucketImage own len n 1,
    ?_, hmem n 1 (by omega) (by omega) ((mem_rankBuckets (by omega) _ _).2 ⟨by omega, by omega, by simp⟩), ?_, ?_⟩
  · rw [hex1]
    exact hmem 1 0 (by omega) (by omega) ((mem_rankBuckets (by omega) _ _).2 ⟨by omega, by omega, by simp⟩)
  · unfold bucketImage
    rw [List.getElem?_map, List.getElem?_range ol, Option.map_some, leftover, dif_pos ⟨by omega, by omega⟩, leftover_first (by omega), o1]
    simp only [Nat.sub_self, o0, Option.getD_none]
    rw [List.getElem?_eq_getElem (by omega)]
    rfl
  · unfold bucketImage
    rw [List.getElem?_map, List.getElem?_range ol, Option.map_some, leftover_first (by omega), o1]
    rfl

theorem foldl_byte {ws : List WriteReq} (hap : ws.Pairwise WApart) {w : WriteReq} (hw : w ∈ ws) (old : Bytes) {i : Nat} {b : UInt8}
    (hb : w.2[i]? = some b) : (ws.foldl writeAt old)[w.1 + i]? = some b := by
  have hsym : Std.Symm WApart := ⟨fun _ _ => WApart.symm⟩
  have := file_holds (front := []) (rs := ws) (dstart := 0) List.Pairwise.nil hap (by simp) (by simp) (List.Perm.refl _) old w (by simpa using hw)
  rw [holds_iff, List.nil_append] at this
  have hi : i < w.2.length := (List.getElem?_eq_some_iff.1 hb).1
  rw [this i hi, hb]

/-- **C49, violated** A directory with two files of almost 4 MiB each, the second one less than a block longer than the
first: with one rank the archive has, between the second file and the next header, a byte of the first
file; with any other number of ranks this byte is zero.  (The rest of the file is the same and reads the
same: C49_ranks_partial.) -/
theorem C49_two_files (L : LegEnv) (Q : QSort Frag) (nul top : Bytes) (mt mb mc : Meta) (nb cb nc cc : Bytes)
    (hp : Platform L nul) (hnl : nul.length ≤ 100) (ha : LegArchivable L.env L.fs top (twoFiles mt nb mb cb nc mc cc))
    (seen : Option FNode) (hseen : DirOrLink seen) (n : Nat) (hn : 2 ≤ n)
    (hdot : nb.head? ≠ some 46 ∧ nc.head? ≠ some 46) (hbase : (baseOf top).length < 100)
    (hpb : (baseOf top ++ [47] ++ nb).length ≤ 100) (hpc : (baseOf top ++ [47] ++ nc).length ≤ 100)
    (hb : 2097152 < cb.length) (hbc : cb.length < cc.length) (hcb : cc.length < cb.length + 512) (hc : cc.length ≤ 4192768)
    (hodd : cc.length % 512 ≠ 0) :
    ∃ (front : List WriteReq) (one many : List (List WriteReq)),
      legacyMain L Q nul top seen (twoFiles mt nb mb cb nc mc cc) 1 = .ok (some (front, one)) ∧
      legacyMain L Q nul top seen (twoFiles mt nb mb cb nc mc cc) n = .ok (some (front, many)) ∧
      ∃ pos : Nat, ∀ (ws ws' : List WriteReq) (old old' : Bytes), ws.Perm (front ++ one.flatten) → ws'.Perm (front ++ many.flatten) →
        (ws.foldl writeAt old)[pos]? = cb[cc.length - 512]? ∧ (ws'.foldl writeAt old')[pos]? = some 0 := by
  have hshort : ∀ p m, Visible (twoFiles mt nb mb cb nc mc cc) p m → (archivedPath (baseOf top) p m).length ≤ 100 ∧
      ∀ d t, m = .lnk d t → t.length ≤ 100 := by
    intro p m hv
    rcases two_cases hv with ⟨rfl, rfl⟩ | ⟨rfl, rfl⟩ | ⟨rfl, rfl⟩
    · refine ⟨?_, fun d t h => by unfold twoFiles at h; cases h⟩
      simp only [archivedPath, twoFiles, if_true, List.length_append, List.length_singleton]; omega
    · refine ⟨?_, fun d t h => by cases h⟩
      simpa [archivedPath, pathText] using hpb
    · refine ⟨?_, fun d t h => by cases h⟩
      simpa [archivedPath, pathText] using hpc
  obtain ⟨front, one, hone⟩ := C48_run_succeeds L Q nul top _ hp hnl ha seen hseen 1 (by omega) hshort (by
    intro os hnd hv
    have hl := (List.subperm_of_subset hnd (l₂ := [([], twoFiles mt nb mb cb nc mc cc), ([nb], .reg mb cb), ([nc], .reg mc cc)]) (fun o ho => by
      rcases o with ⟨p, m⟩
      rcases two_cases (hv _ ho) with ⟨h1, h2⟩ | ⟨h1, h2⟩ | ⟨h1, h2⟩ <;> simp only [] at h1 h2 <;> rw [h1, h2] <;> simp)).length_le
    simp only [List.length_cons, List.length_nil] at hl
    have : ∀ o ∈ os, fileLength o.2 / 4194304 + 2 ≤ 2 := by
      intro o ho
      rcases o with ⟨p, m⟩
      rcases two_cases (hv _ ho) with ⟨_, h⟩ | ⟨_, h⟩ | ⟨_, h⟩ <;> simp only [] at h <;> rw [h]
      · simp [fileLength, twoFiles]
      · simp only [fileLength]; omega
      · simp only [fileLength]; omega
    have := sum_le_mul (fun o => fileLength o.2 / 4194304 + 2) os 2 this
    omega)
  obtain ⟨es, ms, h1, h3, h4, h5, h8, h9, h6, h7⟩ := main_run hp ha Q
  have hm := h1 seen ((topAllowed_iff seen).2 hseen)
  obtain ⟨x, y, z, rfl, ⟨x1, x2, x3, x4⟩, ⟨y1, y2, y3, y4⟩, ⟨z1, z2, z3, z4⟩⟩ := two_entries ha hdot hbc h5 h8 h9
    (fun e he => by obtain ⟨p, m, k1, _, k3, k4, k5, _⟩ := h7 e he; exact ⟨p, m, k1, k3, k4, k5⟩)
  have hh : ∀ (e : Frag) (p : List Bytes), Headed top p e → e.target = [] → (baseOf top ++ [47] ++ pathText p).length ≤ 100 → e.size ≤ 4194304 → e.hdr = 512 := by
    intro e p he ht hl hz
    have := he.made.2
    rw [hdr512 (by rw [he.rel]; exact hl) (by rw [ht]; simp) (by omega)] at this
    have := Except.ok.inj this
    have := he.min
    omega
  rw [hm] at hone
  have hlb : legBucket = 4194304 := rfl
  obtain ⟨many, hmany, pos, D, D', k1, k2, k3, k4⟩ := two_bucket_bytes h3 blocking_free hp.nul (by decide)
    (hh x [] x4 x3 (by simp [pathText]; omega) (by omega)) (hh y [nb] y4 y3 hpb (by omega)) (hh z [nc] z4 z3 hpc (by omega))
    (by omega) (by omega) (by omega) (by omega) (by omega) (by omega) (by omega) (by omega) (by rw [z3]; simp) hn hone
  obtain ⟨ap1, _⟩ := run_writes h3 blocking_free hp.nul (by omega) hone
  obtain ⟨ap2, _⟩ := run_writes h3 blocking_free hp.nul (by omega) hmany
  have hdots : ∀ x : Bytes, x.head? ≠ some 46 → x ≠ [46] ∧ x ≠ [46, 46] := by
    intro x hx
    constructor <;> (intro h; rw [h] at hx; simp at hx)
  have vb : Visible (twoFiles mt nb mb cb nc mc cc) [nb] (.reg mb cb) :=
    ⟨.step (.here (hdots nb hdot.1).1 (hdots nb hdot.1).2) (.self _), by simpa [NoHidden] using hdot.1⟩
  have hcont : contOf L y.rel = cb := by
    unfold contOf FS.read
    rw [y4.rel, ha.fs [nb] _ vb]
    rfl
  have hidx : z.size.toNat = cc.length := by omega
  rw [hcont, hidx] at k3
  rw [hidx] at k4
  refine ⟨front, one, many, by rw [hm]; exact hone, by rw [hm]; exact hmany, pos + (cc.length + 512), ?_⟩
  intro ws ws' old old' hw hw'
  have hsome : ∃ b, cb[cc.length - 512]? = some b := ⟨_, List.getElem?_eq_getElem (by omega)⟩
  obtain ⟨b, hbv⟩ := hsome
  rw [hbv] at k3 ⊢
  exact ⟨foldl_byte ((hw.pairwise_iff (fun h => WApart.symm h)).2 ap1) (hw.mem_iff.2 (List.mem_append_right _ k1)) old k3,
    foldl_byte ((hw'.pairwise_iff (fun h => WApart.symm h)).2 ap2) (hw'.mem_iff.2 (List.mem_append_right _ k2)) old' k4⟩

/-! ### An example -/

/-- Two files `b` and `c` of 3000000 and 3000100 bytes. -/
def spillB : Bytes := List.replicate 3000000 1
def spillC : Bytes := List.replicate 3000100 2
def spillTree : FNode := twoFiles ⟨0, 0, 0, 0⟩ [98] ⟨0, 0, 0, 0⟩ spillB [99] ⟨0, 0, 0, 0⟩ spillC

def spillFs : FS := fun path => if path = [100, 47] then some spillTree
  else if path = [100, 47, 98] then some (.reg ⟨0, 0, 0, 0⟩ spillB)
  else if path = [100, 47, 99] then some (.reg ⟨0, 0, 0, 0⟩ spillC) else none

def spillEnv : LegEnv := ⟨demoEnv2, spillFs, false, fun _ => 1700000000, 1700000000, 1700000000⟩

theorem spill_platform : Platform spillEnv glibcNull :=
  ⟨rfl, fun _ => by simp [spillEnv], by simp [spillEnv], by simp [spillEnv], by decide⟩

theorem spillB_len : spillB.length = 3000000 := by unfold spillB; rw [List.length_replicate]
theorem spillC_len : spillC.length = 3000100 := by unfold spillC; rw [List.length_replicate]

theorem spill_archivable : LegArchivable demoEnv2 spillFs [100] spillTree := by
  have hb : baseOf [100] = [100] := rfl
  have hz : ([100, 47] : Bytes) ≠ [100, 47, 98] := by decide
  have hz2 : ([100, 47, 99] : Bytes) ≠ [100, 47, 98] := by decide
  have hn1 : NameOk [98] := by unfold NameOk; decide
  have hn2 : NameOk [99] := by unfold NameOk; decide
  constructor
  · trivial
  · unfold spillTree twoFiles
    refine ⟨?_, ?_⟩
    · simp only [names]
      decide
    · exact ⟨fun _ => ⟨hn1, trivial⟩, fun _ => ⟨hn2, trivial⟩, trivial⟩
  · intro p m o k h
    rcases two_cases h with ⟨_, h⟩ | ⟨_, h⟩ | ⟨_, h⟩
    · unfold twoFiles at h
      simp only [FNode.dir.injEq] at h
      exact h.2.1
    · cases h
    · cases h
  · intro p n h
    rcases two_cases h with ⟨rfl, rfl⟩ | ⟨rfl, rfl⟩ | ⟨rfl, rfl⟩
    · show spillFs [100, 47] = some _
      unfold spillFs
      rw [if_pos rfl]; rfl
    · show spillFs ([100, 47, 98]) = some _
      unfold spillFs
      rw [if_neg (fun h => hz h.symm), if_pos rfl]
    · show spillFs [100, 47, 99] = some _
      unfold spillFs
      rw [if_neg (by decide), if_neg hz2, if_pos rfl]
  · decide
  · decide
  · intro p n h
    rw [hb]
    rcases two_cases h with ⟨rfl, rfl⟩ | ⟨rfl, rfl⟩ | ⟨rfl, rfl⟩
    · simp [archivedPath, pathText, twoFiles]
    · simp [archivedPath, pathText]
    · simp [archivedPath, pathText]
  · intro p m o k h _
    rcases two_cases h with ⟨rfl, _⟩ | ⟨_, h⟩ | ⟨_, h⟩
    · decide
    · cases h
    · cases h
  · intro p m t h
    rcases two_cases h with ⟨_, h⟩ | ⟨_, h⟩ | ⟨_, h⟩
    · unfold twoFiles at h; cases h
    · cases h
    · cases h
  · intro p n h
    rcases two_cases h with ⟨rfl, _⟩ | ⟨rfl, _⟩ | ⟨rfl, _⟩ <;> decide
  · intro p n h _
    have hm : metaOf n = ⟨0, 0, 0, 0⟩ := by
      rcases two_cases h with ⟨_, rfl⟩ | ⟨_, rfl⟩ | ⟨_, rfl⟩ <;> rfl
    rw [hm]
    exact ⟨by decide, by decide, by decide, by decide, ⟨[114], rfl, by decide, by decide⟩,
      ⟨[103], rfl, by decide, by decide⟩⟩
  · intro p m c h
    rcases two_cases h with ⟨_, h⟩ | ⟨_, h⟩ | ⟨_, h⟩
    · unfold twoFiles at h; cases h
    · simp only [FNode.reg.injEq] at h
      rw [h.2, spillB_len]; omega
    · simp only [FNode.reg.injEq] at h
      rw [h.2, spillC_len]; omega
  · exact ⟨[[99]], _, by simp, ⟨.step (.there (.here (by decide) (by decide))) (.self _), by simp [NoHidden]⟩, by simp [describe]⟩

/-- **C49, violated** An ordinary tree whose archive is different with one rank and with two, whatever the file
held before. -/
theorem C49_archives_differ (Q : QSort Frag) : ∃ (front : List WriteReq) (one two : List (List WriteReq)),
    legacyMain spillEnv Q glibcNull [100] (some spillTree) spillTree 1 = .ok (some (front, one)) ∧
    legacyMain spillEnv Q glibcNull [100] (some spillTree) spillTree 2 = .ok (some (front, two)) ∧
    ∀ (ws ws' : List WriteReq) (old old' : Bytes), ws.Perm (front ++ one.flatten) → ws'.Perm (front ++ two.flatten) →
      ws.foldl writeAt old ≠ ws'.foldl writeAt old' := by
  have hB := spillB_len
  have hC := spillC_len
  obtain ⟨front, one, two, h1, h2, pos, h⟩ := C49_two_files spillEnv Q glibcNull [100] ⟨0, 0, 0, 0⟩ ⟨0, 0, 0, 0⟩ ⟨0, 0, 0, 0⟩ [98] spillB [99] spillC
    spill_platform (by decide) spill_archivable (some spillTree) trivial 2 (by omega) (by decide) (by decide) (by decide) (by decide)
    (by omega) (by omega) (by omega) (by omega) (by omega)
  refine ⟨front, one, two, h1, h2, ?_⟩
  intro ws ws' old old' hw hw' he
  obtain ⟨k1, k2⟩ := h ws ws' old old' hw hw'
  rw [he, k2, hC] at k1
  unfold spillB at k1
  rw [List.getElem?_replicate, if_pos (by omega)] at k1
  cases k1

theorem bucket_end_le {start k K l : Nat} (h : k < K) (hl : l ≤ 4194304) : start + k * 4194304 + l ≤ start + K * 4194304 + 1024 := by
  omega

/-- The example tree meets the hypotheses of C49_bytes and, with enough ranks, those of C49_enough_ranks. -/
example (Q : QSort Frag) : ∃ n0, ∀ n n', n0 ≤ n → n0 ≤ n' → ∃ (front : List WriteReq) (wss wss' : List (List WriteReq)),
    legacyMain legEnv Q glibcNull [100] (some legDemo) legDemo n = .ok (some (front, wss)) ∧
    legacyMain legEnv Q glibcNull [100] (some legDemo) legDemo n' = .ok (some (front, wss')) ∧
    (front ++ wss'.flatten).foldl writeAt [] = (front ++ wss.flatten).foldl writeAt [] := by
  obtain ⟨front, wss5, h, _⟩ := leg_demo_run Q
  obtain ⟨start, K, len, own, hfr, hlen, hall⟩ := C49_bytes legEnv Q glibcNull [100] legDemo leg_platform leg_archivable (some legDemo) trivial 5 (by omega) front wss5 h
  refine ⟨start + K * 4194304 + 1024, ?_⟩
  intro n n' hn hn'
  obtain ⟨wss, e, hp⟩ := hall n (by omega)
  have hb : ((front ++ wss.flatten).foldl writeAt []).length ≤ start + K * 4194304 + 1024 := by
    refine foldl_length_le ?_ (by simp)
    intro w hw
    rcases List.mem_append.1 hw with hw | hw
    · have := hfr w hw; omega
    · rw [hp.mem_iff, List.mem_append] at hw
      rcases hw with hw | hw
      · obtain ⟨k, hk, rfl⟩ := List.mem_map.1 hw
        have hk : k < K := by simpa using hk
        have hl : ∀ f : Nat → UInt8, ((List.range (len k)).map f).length = len k := fun f => by simp
        simp only []
        rw [hl]
        exact bucket_end_le hk (hlen k hk)
      · rw [List.mem_singleton] at hw
        have hz : (zeros 1024).length = 1024 := by unfold zeros; rw [List.length_replicate]
        have h1 : w.1 = start + K * 4194304 := congrArg Prod.fst hw
        have h2 : w.2.length = 1024 := (congrArg (fun x : WriteReq => x.2.length) hw).trans hz
        rw [h1, h2]
  obtain ⟨wss', e', h'⟩ := C49_enough_ranks legEnv Q glibcNull [100] legDemo leg_platform leg_archivable (some legDemo) trivial n n' (by omega)
    front wss e _ (List.Perm.refl _) [] (by omega) (by omega)
  exact ⟨front, wss, wss', e, e', h' _ (List.Perm.refl _)⟩

end Parfu.Props
