/-
Property C69: parfu 0.5.1 overruns its transfer buffer on ordinary trees.
-/
import Verif.LegacyOverrun
import Verif.PropsLegacyDemo
set_option autoImplicit false

namespace Parfu.Props
open Parfu ScanSpec LegacyScanSpec MoveSpec TarSpec LegacyRunSpec SplitSpec

/-- The room an object takes in the archive: header of `h` bytes and data, in whole blocks. -/
def objectRoom (m : FNode) (h : Nat) : Nat := (h + fileLength m + 511) / 512 * 512

/-- The size of the header that is planned for an object. -/
def Planned (top : Bytes) (p : List Bytes) (m : FNode) (h : Nat) : Prop :=
  computeHdrSize (baseOf top ++ [47] ++ pathText p) (targetOf m) (markOf m) = .ok h

/-- **C69 (partial)** The create mode succeeds, without undefined behaviour, on every archivable tree with link
targets of at most 100 bytes and at most 50000 = buckets filled plus two per object, in which
no file that fits a bucket with its header has at least as much data as one that does not, and every
file that does not fit leaves room for a header behind its end, or fills its last bucket.
Missing: trees without the last two properties (C69_two_files). -/
theorem C69_defined_partial (L : LegEnv) (Q : QSort Frag) (nul top : Bytes) (root : FNode) (hp : Platform L nul)
    (hnl : nul.length ≤ 100) (ha : LegArchivable L.env L.fs top root) (seen : Option FNode) (hseen : DirOrLink seen) (n : Nat) (hn : 0 < n)
    (hlinks : ∀ p d t, Visible root p (.lnk d t) → t.length ≤ 100)
    (horder : ∀ p m h p' m' h', Visible root p m → Visible root p' m' → Planned top p m h → Planned top p' m' h' →
      fileLength m ≤ fileLength m' → objectRoom m' h' ≤ 4194304 → objectRoom m h ≤ 4194304)
    (hleaves : ∀ p m h, Visible root p m → Planned top p m h → 4194304 < objectRoom m h →
      objectRoom m h % 4194304 = 0 ∨ objectRoom m h % 4194304 + h ≤ 4194304)
    (hcount : ∀ os : List (List Bytes × FNode), os.Nodup → (∀ o ∈ os, Visible root o.1 o.2) →
      (os.map fun o => fileLength o.2 / 4194304 + 2).sum ≤ 50000) :
    ∃ front wss, legacyMain L Q nul top seen root n = .ok (some (front, wss)) := by
  obtain ⟨es, ms, h1, h3, h4, h5, h8, h9, h6, h7⟩ := main_run hp ha Q
  rw [h1 seen ((topAllowed_iff seen).2 hseen)]
  have hb : legBucket = 4194304 := rfl
  have hobj : ∀ e ∈ es, ∃ p m h, Visible root p m ∧ Planned top p m h ∧ e.hdr = (h : Int) ∧ room 512 e = (objectRoom m h : Int) ∧
      dataLen e = (fileLength m : Int) := by
    intro e he
    obtain ⟨p, m, k1, _, _, k4, k5, _⟩ := h7 e he
    have hdl : dataLen e = (fileLength m : Int) := by
      unfold dataLen
      rw [k5.1]
      cases m <;> simp [markOf, fileLength]
    have hm := k4.min
    refine ⟨p, m, e.hdr.toNat, k1, ?_, by omega, ?_, hdl⟩
    · unfold Planned
      have := k4.made.2
      rw [k4.rel, k5.1, k5.2.2] at this
      exact this
    · unfold room objectRoom
      rw [hdl]
      omega
  have hsf : SmallFirst 512 legBucket es := by
    refine List.Pairwise.imp_of_mem ?_ h9
    intro a b ha' hb' hab hsm
    obtain ⟨p, m, h, a1, a2, a3, a4, a5⟩ := hobj a ha'
    obtain ⟨p', m', h', b1, b2, b3, b4, b5⟩ := hobj b hb'
    have hle : dataLen a ≤ dataLen b := by unfold dataLen; omega
    unfold Small at hsm ⊢
    rw [a4, hb]
    rw [b4, hb] at hsm
    have := horder p m h p' m' h' a1 b1 a2 b2 (by omega) (by omega)
    omega
  refine run_total_gen h3 blocking_free hp.nul (by decide) hnl hn (R := 4096) (c := 50000) ?_ hsf ?_ (tree_count h5 ?_ hcount)
    (by omega) (by omega)
  · intro e he
    obtain ⟨p, m, k1, _, k3, k4, k5, _⟩ := h7 e he
    have hpl := ha.paths p m k1
    have hl := archivedPath_len (baseOf top) p m
    refine ⟨k4.min, k4.max, ?_, by rw [k3]; omega, ?_, k4.none⟩
    · rw [k4.rel]; simp only [List.length_append, List.length_singleton]; omega
    · rw [k5.2.2]
      cases m with
      | lnk d t => exact hlinks p d t k1
      | _ => simp [targetOf]
  · intro e he hbig
    obtain ⟨p, m, h, a1, a2, a3, a4, a5⟩ := hobj e (List.dropLast_subset _ he)
    unfold Small at hbig
    unfold LeavesRoom
    rw [a4, hb] at hbig
    rw [a4, hb, a3]
    have := hleaves p m h a1 a2 (by omega)
    omega
  · intro e he
    obtain ⟨p, m, k1, _, k3, _, k5, _⟩ := h7 e he
    exact ⟨(p, m), k1, k3, k5.1⟩

example (Q : QSort Frag) : ∃ front wss, legacyMain legEnv Q glibcNull [100] (some legDemo) legDemo 3 = .ok (some (front, wss)) := by
  have hroom : ∀ p m h, Visible legDemo p m → Planned [100] p m h → objectRoom m h ≤ 4194304 := by
    intro p m h hv hpl
    have hl : (baseOf [100] ++ [47] ++ pathText p).length ≤ 100 ∧ (targetOf m).length ≤ 100 ∧ markOf m ≤ 2 ∧ fileLength m ≤ 2 := by
      rcases leg_cases hv with ⟨rfl, rfl⟩ | ⟨rfl, rfl⟩ | ⟨rfl, rfl⟩ | ⟨rfl, rfl⟩ <;> refine ⟨by decide, by decide, by decide, by decide⟩
    unfold Planned at hpl
    rw [hdr512 hl.1 hl.2.1 (by omega)] at hpl
    have := Except.ok.inj hpl
    unfold objectRoom
    omega
  refine C69_defined_partial legEnv Q glibcNull [100] legDemo leg_platform (by decide) leg_archivable (some legDemo) trivial 3
    (by omega) ?_ ?_ ?_ ?_
  · intro p d t h; exact (leg_short p _ h).2 d t rfl
  · intro p m h p' m' h' v _ pl _ _ _
    exact hroom p m h v pl
  · intro p m h v pl hbig
    have := hroom p m h v pl
    omega
  · intro os hnd hv
    have hl := (List.subperm_of_subset hnd (fun o ho => leg_seen (hv o ho))).length_le
    have h4 : legSeen.length = 4 := rfl
    have : ∀ o ∈ os, fileLength o.2 / 4194304 + 2 ≤ 2 := by
      intro o ho
      rcases o with ⟨p, n⟩
      rcases leg_cases (hv _ ho) with ⟨_, h⟩ | ⟨_, h⟩ | ⟨_, h⟩ | ⟨_, h⟩ <;> simp only [] at h <;> rw [h] <;> simp [fileLength, legDemo]
    have := sum_le_mul (fun o => fileLength o.2 / 4194304 + 2) os 2 this
    omega

/-- The layout of a directory, a large file and a small one, in this order, if the directory and the
small file would fit one bucket. -/
theorem three_split {acc : Int} {pad : Bytes} (hpl : pad.length ≤ 100) (hacc : 100000 ≤ acc) (hmax : acc ≤ 500000000)
    {e0 eb ec : Frag} (h0 : 0 < e0.hdr) (hb : 0 < eb.hdr) (hc : 0 < ec.hdr) (ht : eb.target.length ≤ 100)
    (r0 : 0 < room 512 e0) (rb : acc < room 512 eb) (rb2 : room 512 eb < 2 * acc) (rc : room 512 e0 + room 512 ec ≤ acc) (hcp : 0 < room 512 ec) :
    ∃ g0 gb gc f0 f1 f2 f3 q, splitList 512 acc pad [e0, eb, ec] = .ok (some ([(g0, [f0]), (gb, [f1, f2]), (gc, [f3])], q)) ∧
      (SameFile f0 e0 ∧ f0.size = e0.size ∧ f0.bucket = 0 ∧ f0.locA = e0.hdr ∧ f0.locO = 0) ∧
      (SameFile f1 eb ∧ f1.size = acc - eb.hdr ∧ f1.bucket = 1 ∧ f1.locA = acc + eb.hdr ∧ f1.locO = 0) ∧
      (SameFile f2 eb ∧ f2.size = eb.size - (acc - eb.hdr) ∧ f2.bucket = 2 ∧ f2.locA = 2 * acc ∧ f2.locO = acc - eb.hdr) ∧
      (SameFile f3 ec ∧ f3.size = ec.size ∧ f3.bucket = 2 ∧ f3.locA = acc + room 512 eb + eb.hdr + ec.hdr ∧ f3.locO = 0) ∧
      gc.locA = acc + room 512 eb + eb.hdr ∧ SameFile gc ec ∧ gc.size = ec.size := by
  have hbl : ∀ e, blockedSum 512 e = room 512 e := blockedSum_eq (by omega)
  have p0 : placeEntry 512 acc pad ⟨0, 0, 0⟩ e0 = .ok (some (({ e0 with locA := 0, bucket := 0, locO := 0 },
      [{ e0 with locA := 0 + e0.hdr, bucket := 0, locO := 0, nFrag := 1, fp := -1 }]), ⟨room 512 e0, room 512 e0, 0⟩)) := by
    unfold placeEntry
    rw [if_neg (by omega)]
    simp only [hbl]
    rw [if_pos (by omega), if_pos (by omega), if_neg (by omega)]
    simp
  obtain ⟨eb', hpad⟩ := pad_ok (bl := 512) (acc := acc) (by omega) hpl (e := { eb with locA := acc }) ht (loc := room 512 e0)
    (space := acc - room 512 e0) (by omega) (by omega)
  obtain ⟨s1, s2, s3⟩ := padBefore_some hpad
  simp only [] at s2 s3
  have p1 : placeEntry 512 acc pad ⟨room 512 e0, room 512 e0, 0⟩ eb = .ok (some ((eb',
      [wholeFrag acc eb' 2 1 0, lastFrag acc eb' 2 1 1]), ⟨acc + room 512 eb + eb.hdr, room 512 e0, 2⟩)) := by
    have k1 : (room 512 eb / acc).toNat = 1 := by
      have : room 512 eb / acc = 1 := by
        rw [Int.ediv_eq_iff_of_pos (by omega)]; omega
      rw [this]; rfl
    have k2 : room 512 eb % acc ≠ 0 := by
      rw [← Int.sub_emod_right, Int.emod_eq_of_lt (by omega) (by omega)]; omega
    have k3 : room 512 e0 % acc ≠ 0 := by rw [Int.emod_eq_of_lt (by omega) (by omega)]; omega
    have k4 : room 512 e0 / acc = 0 := Int.ediv_eq_zero_of_lt (by omega) (by omega)
    unfold placeEntry
    rw [if_neg (by omega)]
    simp only [hbl]
    rw [if_neg (by omega)]
    simp only [k1, k3, k4, ne_eq, not_false_eq_true, if_true, k2]
    have e1 : ((0 : Int) + 1) * acc = acc := by ring
    rw [e1, hpad]
    simp only [List.range_one, List.map_cons, List.map_nil, List.cons_append, List.nil_append]
    congr 3
    · simp only [LPos.mk.injEq]
      refine ⟨?_, trivial, rfl⟩
      push_cast; ring
  have p2 : placeEntry 512 acc pad ⟨acc + room 512 eb + eb.hdr, room 512 e0, 2⟩ ec = .ok (some
      (({ ec with locA := acc + room 512 eb + eb.hdr, bucket := 2, locO := 0 },
      [{ ec with locA := acc + room 512 eb + eb.hdr + ec.hdr, bucket := 2, locO := 0, nFrag := 1, fp := -1 }]),
      ⟨acc + room 512 eb + eb.hdr + room 512 ec, room 512 e0 + room 512 ec, 2⟩)) := by
    unfold placeEntry
    rw [if_neg (by omega)]
    simp only [hbl]
    rw [if_pos (by omega), if_pos (by omega), if_neg (by omega)]
  have hsp : splitList 512 acc pad [e0, eb, ec] = splitLoop 512 acc pad ⟨0, 0, 0⟩ [e0, eb, ec] := by
    unfold splitList createList
    simp only [List.length_cons, List.length_nil]
    rw [if_neg (by omega), if_neg (by omega)]
  rw [hsp]
  simp only [splitLoop, p0, p1, p2]
  refine ⟨_, _, _, _, _, _, _, _, rfl, ?_, ?_, ?_, ?_, ?_⟩
  · exact ⟨⟨rfl, rfl, rfl, rfl, rfl⟩, rfl, rfl, by simp, rfl⟩
  · obtain ⟨t1, t2, t3, t4, t5⟩ := s1
    simp only [] at t1 t2 t3 t4 t5
    unfold wholeFrag
    refine ⟨⟨t1, t2, t3, t4, t5⟩, by simp [t5], by simp, by simp [t5], by simp⟩
  · obtain ⟨t1, t2, t3, t4, t5⟩ := s1
    simp only [] at t1 t2 t3 t4 t5
    unfold lastFrag
    refine ⟨⟨t1, t2, t3, t4, t5⟩, by simp [t5, s2], by simp, by simp, by simp [t5]⟩
  · exact ⟨⟨rfl, rfl, rfl, rfl, rfl⟩, rfl, rfl, rfl, rfl⟩
  · exact ⟨rfl, ⟨rfl, rfl, rfl, rfl, rfl⟩, rfl⟩

/-- A run on such a list has undefined behaviour if the small file has more data than the large one. -/
theorem three_ub {L : LegEnv} {nul pad : Bytes} {acc : Int} {e0 eb ec : Frag} {ms : List Member} (hr : RunOk L acc [e0, eb, ec] ms)
    (hpad : LegTabFree pad) (hnul : LegTabFree nul) (hpl : pad.length ≤ 100) (hnl : nul.length ≤ 100) {n : Nat} (hn : 0 < n)
    (hs : ∀ e ∈ [e0, eb, ec], 512 ≤ e.hdr ∧ e.hdr ≤ 20000 ∧ e.rel.length ≤ 10000 ∧ e.arc.length ≤ 10000 ∧ e.target.length ≤ 100 ∧ e.padName = none)
    (hdat : 0 ≤ eb.size) (hord : eb.size ≤ ec.size) (rb : ¬ Small 512 acc eb) (rc : room 512 e0 + room 512 ec ≤ acc) :
    legacyRun L nul 512 acc pad [e0, eb, ec] n = .error .ub := by
  have hmin := hr.accMin
  have hmax := hr.accMax
  have hfits : FitsI32 acc := by unfold FitsI32; omega
  obtain ⟨h01, h02, h03, h04, h05, h06⟩ := hs e0 (by simp)
  obtain ⟨hb1, hb2, hb3, hb4, hb5, hb6⟩ := hs eb (by simp)
  obtain ⟨hc1, hc2, hc3, hc4, hc5, hc6⟩ := hs ec (by simp)
  have g0 := room_ge (bl := 512) (by omega) e0
  have gb := room_ge (bl := 512) (by omega) eb
  have gc := room_ge (bl := 512) (by omega) ec
  have d0 : 0 ≤ dataLen e0 := by unfold dataLen; omega
  have db : dataLen eb = eb.size := by unfold dataLen; omega
  have dc : dataLen ec = ec.size := by unfold dataLen; omega
  unfold Small at rb
  have rb2 : room 512 eb < acc + 20512 := by
    unfold room
    rw [db]
    omega
  obtain ⟨g0', gb', gc', f0, f1, f2, f3, q, hsp, q0, q1, q2, q3, ql, qs, qz⟩ := three_split hpl hmin hmax (by omega) (by omega) (by omega) hb5
    (by omega) (by omega) (by omega) rc (by omega)
  have hout : outFrags [(g0', [f0]), (gb', [f1, f2]), (gc', [f3])] = [f0, f1, f2, f3] := rfl
  have hbk : ∀ f ∈ outFrags [(g0', [f0]), (gb', [f1, f2]), (gc', [f3])], 0 ≤ f.bucket ∧ f.bucket < 2 ^ 30 := by
    intro f hf
    rw [hout] at hf
    simp only [List.mem_cons, List.not_mem_nil, or_false] at hf
    rcases hf with rfl | rfl | rfl | rfl
    · rw [q0.2.2.1]; omega
    · rw [q1.2.2.1]; omega
    · rw [q2.2.2.1]; omega
    · rw [q3.2.2.1]; omega
  obtain ⟨cat, hcat⟩ := C30_write_succeeds nul true acc hfits [e0, eb, ec] (by simp) (by simp) (by
    have := sum_le_mul (fun e => (catLine nul true e).length) [e0, eb, ec] (440 + 2 * 10000) (fun e he => by
      obtain ⟨_, _, _, k2, k3, _⟩ := hs e he
      exact lineArc_le (hr.plain e he) k2 k3)
    simp only [List.length_cons, List.length_nil] at this
    omega)
  have hplain := split_plain (by omega) hmax hr.accDvd hpad hr.hdr hr.plain hsp (by rw [hout]; simp) hbk
  have hfl := split_fields (by omega) hr.accDvd hr.hdr hsp
  have hput := split_any (by omega) (by omega) hr.accDvd hr.hdr hsp
  -- the fragments
  have hsame : ∀ f ∈ [f0, f1, f2, f3], ∃ e ∈ [e0, eb, ec], SameFile f e := by
    intro f hf
    simp only [List.mem_cons, List.not_mem_nil, or_false] at hf
    rcases hf with rfl | rfl | rfl | rfl
    · exact ⟨e0, by simp, q0.1⟩
    · exact ⟨eb, by simp, q1.1⟩
    · exact ⟨eb, by simp, q2.1⟩
    · exact ⟨ec, by simp, q3.1⟩
  have hline : ∀ f ∈ outFrags [(g0', [f0]), (gb', [f1, f2]), (gc', [f3])], (catLine nul false f).length ≤ 440 + 2 * 10000 := by
    intro f hf
    have hpf := hplain f hf
    obtain ⟨e, he, s1, s2, s3, s4, s5⟩ := hsame f (by rw [hout] at hf; exact hf)
    rw [List.mem_flatMap] at hf
    obtain ⟨g, hg, hfg⟩ := hf
    obtain ⟨e', he', hput', hfi⟩ := forall2_mem_left hfl g hg
    obtain ⟨⟨p1, _⟩, _⟩ := hfi f hfg
    obtain ⟨_, _, k1, k2, k3, _⟩ := hs e he
    refine lineFull_le hpf (R := 10000) (T := 100) (by rw [s1]; exact k1) (by rw [s2]; exact k2) (by rw [s4]; exact k3) ?_
    rcases p1 with h | h
    · rw [h, (hs e' he').2.2.2.2.2]; exact hnl
    · rw [h]; exact hpl
  obtain ⟨text, htx⟩ := C30_write_succeeds nul false acc hfits (outFrags [(g0', [f0]), (gb', [f1, f2]), (gc', [f3])]) (by rw [hout]; simp) (by rw [hout]; simp) (by
    have := sum_le_mul (fun e => (catLine nul false e).length) _ (440 + 2 * 10000) hline
    rw [hout] at this ⊢
    simp only [List.length_cons, List.length_nil] at this
    omega)
  have hcl : rankCallList (outFrags [(g0', [f0]), (gb', [f1, f2]), (gc', [f3])]) = .ok (some [0, 1, 2]) := by
    rw [hout]
    simp [rankCallList, rankCallLoop, q0.2.2.1, q1.2.2.1, q2.2.2.1, q3.2.2.1]
  have hck : checkCalls [f0, f1, f2, f3] [0, 1, 2] = true := by
    have hr3 : List.range 3 = [0, 1, 2] := rfl
    simp [checkCalls, hr3, q0.2.2.1, q1.2.2.1, q2.2.2.1]
  have hclen := listToBuffer_le hcat
  have hfw : ∃ front, frontWrites L 512 acc.toNat cat = .ok front := by
    unfold frontWrites
    rw [hdr512 (by decide) (by decide) (by omega)]
    simp only []
    rw [if_neg (by simp)]
    exact ⟨_, rfl⟩
  obtain ⟨front, hfw⟩ := hfw
  have hrt := run_text hr hpad hnul hsp htx hcl (by rw [hout]; exact hck)
  have hfrag : ∀ f ∈ (outFrags [(g0', [f0]), (gb', [f1, f2]), (gc', [f3])]).map (named nul),
      FragOk L f ∧ (0 < f.size → acc * f.bucket ≤ f.locA ∧ f.locA - acc * f.bucket < acc) := by
    intro f hf
    rw [List.mem_map] at hf
    obtain ⟨f', hf, rfl⟩ := hf
    rw [hout] at hf
    have hpos : 0 ≤ f'.locO ∧ f'.size < 2 ^ 31 ∧ acc * f'.bucket ≤ f'.locA ∧ f'.locA - acc * f'.bucket < acc := by
      have hz := hr.members
      obtain ⟨m, _, hem, _⟩ := forall2_mem_left hr.members e0 (by simp)
      have he0 : e0.size ≤ eb.size := by
        have := hr.sorted
        simp only [List.pairwise_cons] at this
        exact this.1 eb (by simp)
      simp only [List.mem_cons, List.not_mem_nil, or_false] at hf
      rcases hf with rfl | rfl | rfl | rfl
      · rw [q0.2.2.1, q0.2.1, q0.2.2.2.1, q0.2.2.2.2]; omega
      · rw [q1.2.2.1, q1.2.1, q1.2.2.2.1, q1.2.2.2.2]; omega
      · rw [q2.2.2.1, q2.2.1, q2.2.2.2.1, q2.2.2.2.2]; omega
      · rw [q3.2.2.1, q3.2.1, q3.2.2.2.1, q3.2.2.2.2]; omega
    obtain ⟨e, he, s1, s2, s3, s4, s5⟩ := hsame f' hf
    obtain ⟨m, _, hem, _⟩ := forall2_mem_left hr.members e he
    refine ⟨⟨?_, ?_, ?_, hpos.1, hpos.2.1⟩, fun _ => hpos.2.2⟩
    · show ∃ t, tarentryCtor L.fs.lstat f'.rel 0 = .ok t ∧ makeTarHeader L.env t = .ok (hdrOf L f'.rel)
      rw [s1]; exact hem.hdr
    · show ((hdrOf L f'.rel).length : Int) = f'.hdr
      rw [s1, s5]; exact hem.len
    · intro hk _
      show L.fs.read f'.rel = some (contOf L f'.rel)
      rw [s1]
      exact (hem.reg (by rw [← s3]; exact hk)).1
  have hck' : checkCalls ((outFrags [(g0', [f0]), (gb', [f1, f2]), (gc', [f3])]).map (named nul)) [0, 1, 2] = true := by
    have hr3 : List.range 3 = [0, 1, 2] := rfl
    rw [hout]
    simp [checkCalls, hr3, named, q0.2.2.1, q1.2.2.1, q2.2.2.1]
  have hun := ranks_unchecked hr.lax (by omega) (dstart := dataOffset acc.toNat (512 + cat.length)) hrt hck' hfrag n (List.range n)
  have hub : allRanks (rankPart L 512 acc (dataOffset acc.toNat (512 + cat.length)) text [0, 1, 2] n) (List.range n) = .error .ub := by
    rcases hun with ⟨wss, h⟩ | h
    · exfalso
      have hlay := run_layout hr hpad hnul hn hsp htx hcl (by rw [hout]; exact hck) h
      obtain ⟨hl, _, _⟩ := hlay.laid (gc', [f3]) (by simp)
      have hrm : room 512 gc' = room 512 ec := room_congr qs.2.2.2.2 qz
      obtain ⟨f, hf, _, _, _, _, k⟩ := hl.good.small (by unfold Small; rw [hrm]; omega)
      simp only [List.cons.injEq, and_true] at hf
      subst hf
      simp only [ql, hrm, q3.2.2.1] at k
      have : ((2 : Int) + 1) * acc = 3 * acc := by ring
      rw [this] at k
      omega
    · exact h
  unfold legacyRun
  rw [hcat, bindRO_some]
  have h512 : (512 : Int).toNat = 512 := rfl
  rw [h512, hfw]
  simp only []
  rw [hsp, bindRO_some]
  simp only []
  rw [htx, bindRO_some, hcl, bindRO_some, if_neg (by rw [hout, hck]; simp), hub, bindRO_err]

/-- The header of a file with a path of 101 to 502 bytes has three blocks. -/
theorem hdr1536 {s : Bytes} {z : Int} (h1 : 100 < s.length) (h2 : s.length ≤ 502) (hz : z ≤ 8589934591) :
    computeHdrSize s [] z = .ok 1536 := by
  obtain ⟨n, hn, _, _, hl, hpos⟩ := recText_spec kwPath s
  have hp := path_record s (by omega) (by omega) n hn
  unfold computeHdrSize
  rw [hdrSize_eq]
  have hm : ¬ (maxFileSize < z) := by unfold maxFileSize; omega
  have e1 : paxPairs { offset := 0, stat := { kind := .reg, perm := 0, uid := 0, gid := 0, size := z, mtime := 0 }, filename := s, linkname := [] } =
      [(kwPath, s)] := by
    simp [paxPairs, h1, hm]
  rw [e1, recTexts_cons]
  have e2 : (recText kwPath s ++ recTexts []).length = n := by simp [recTexts, hl]
  rw [e2, paxHdrSz_pos hpos]
  rw [if_pos (by omega)] at hp
  rw [hp]
  unfold blk pad512
  congr 1
  omega

/-- A directory with two files, `b` and `c`. -/
def twoFiles (mt : Meta) (nb : Bytes) (mb : Meta) (cb : Bytes) (nc : Bytes) (mc : Meta) (cc : Bytes) : FNode :=
  .dir mt true (.cons nb (.reg mb cb) (.cons nc (.reg mc cc) .nil))

theorem two_cases {mt mb mc : Meta} {nb cb nc cc : Bytes} {p : List Bytes} {n : FNode}
    (h : Visible (twoFiles mt nb mb cb nc mc cc) p n) : (p = [] ∧ n = twoFiles mt nb mb cb nc mc cc) ∨
    (p = [nb] ∧ n = .reg mb cb) ∨ (p = [nc] ∧ n = .reg mc cc) := by
  obtain ⟨h, hh⟩ := h
  unfold twoFiles at h
  cases h with
  | self => exact .inl ⟨rfl, rfl⟩
  | step hc h' =>
    cases hc with
    | here h1 h2 => cases h'; exact .inr (.inl ⟨rfl, rfl⟩)
    | there hc =>
      cases hc with
      | here h1 h2 => cases h'; exact .inr (.inr ⟨rfl, rfl⟩)
      | there hc => cases hc

/-- The list of a directory with two files, the second one longer. -/
theorem two_entries {env : Env} {fs : FS} {top : Bytes} {mt mb mc : Meta} {nb cb nc cc : Bytes}
    (ha : LegArchivable env fs top (twoFiles mt nb mb cb nc mc cc)) (hdot : nb.head? ≠ some 46 ∧ nc.head? ≠ some 46)
    (hbc : cb.length < cc.length) {es : List Frag} (h5 : (es.map Frag.arc).Nodup)
    (h8 : ∀ p n, Visible (twoFiles mt nb mb cb nc mc cc) p n → describe p n ≠ none → ∃ e ∈ es, e.arc = pathText p)
    (h9 : es.Pairwise (fun a b => a.size ≤ b.size))
    (h7 : ∀ e ∈ es, ∃ p n, Visible (twoFiles mt nb mb cb nc mc cc) p n ∧ e.arc = pathText p ∧ Headed top p e ∧ Marks e n) :
    ∃ x y z, es = [x, y, z] ∧ (x.arc = [] ∧ x.size = -3 ∧ x.target = [] ∧ Headed top [] x) ∧
      (y.arc = nb ∧ y.size = cb.length ∧ y.target = [] ∧ Headed top [nb] y) ∧
      (z.arc = nc ∧ z.size = cc.length ∧ z.target = [] ∧ Headed top [nc] z) := by
  have hok := ha.treeOk
  simp only [twoFiles, TreeOk, KidsOk, names, List.nodup_cons, List.mem_cons, List.not_mem_nil, or_false] at hok
  have hdots : ∀ x : Bytes, x.head? ≠ some 46 → x ≠ [46] ∧ x ≠ [46, 46] := by
    intro x hx
    constructor <;> (intro h; rw [h] at hx; simp at hx)
  have hnb := (hok.2.1 (hdots nb hdot.1)).1
  have hnc := (hok.2.2.1 (hdots nc hdot.2)).1
  have hb0 : nb ≠ [] := by unfold NameOk at hnb; exact hnb.1
  have hc0 : nc ≠ [] := by unfold NameOk at hnc; exact hnc.1
  have hne : nb ≠ nc := by
    have h1 := hok.1
    rw [if_neg (by have := hdots nb hdot.1; exact fun h => h.elim this.1 this.2),
      if_neg (by have := hdots nc hdot.2; exact fun h => h.elim this.1 this.2)] at h1
    have h2 := (List.pairwise_cons.1 h1).1 nc (by simp)
    exact h2
  have vb : Visible (twoFiles mt nb mb cb nc mc cc) [nb] (.reg mb cb) :=
    ⟨.step (.here (hdots nb hdot.1).1 (hdots nb hdot.1).2) (.self _), by simpa [NoHidden] using hdot.1⟩
  have vc : Visible (twoFiles mt nb mb cb nc mc cc) [nc] (.reg mc cc) :=
    ⟨.step (.there (.here (hdots nc hdot.2).1 (hdots nc hdot.2).2)) (.self _), by simpa [NoHidden] using hdot.2⟩
  have v0 : Visible (twoFiles mt nb mb cb nc mc cc) [] (twoFiles mt nb mb cb nc mc cc) := ⟨.self _, by simp [NoHidden]⟩
  -- the entries
  have hall : ∀ e ∈ es, (e.arc = [] ∧ e.size = -3 ∧ e.target = [] ∧ Headed top [] e) ∨
      (e.arc = nb ∧ e.size = cb.length ∧ e.target = [] ∧ Headed top [nb] e) ∨
      (e.arc = nc ∧ e.size = cc.length ∧ e.target = [] ∧ Headed top [nc] e) := by
    intro e he
    obtain ⟨p, m, k1, k3, k4, k5⟩ := h7 e he
    rcases two_cases k1 with ⟨rfl, rfl⟩ | ⟨rfl, rfl⟩ | ⟨rfl, rfl⟩
    · exact .inl ⟨k3, k5.1, k5.2.2, k4⟩
    · exact .inr (.inl ⟨k3, k5.1, k5.2.2, k4⟩)
    · exact .inr (.inr ⟨k3, k5.1, k5.2.2, k4⟩)
  have hperm : (es.map Frag.arc).Perm [[], nb, nc] := by
    rw [List.perm_ext_iff_of_nodup h5 (by
      simp only [List.nodup_cons, List.mem_cons, List.not_mem_nil, or_false, not_or]
      exact ⟨⟨fun h => hb0 h.symm, fun h => hc0 h.symm⟩, hne, not_false, List.nodup_nil⟩)]
    intro a
    simp only [List.mem_cons, List.not_mem_nil, or_false, List.mem_map]
    constructor
    · rintro ⟨e, he, rfl⟩
      rcases hall e he with h | h | h
      · exact .inl h.1
      · exact .inr (.inl h.1)
      · exact .inr (.inr h.1)
    · rintro (rfl | rfl | rfl)
      · exact h8 [] _ v0 (by simp [describe, twoFiles])
      · exact h8 [a] _ vb (by simp [describe])
      · exact h8 [a] _ vc (by simp [describe])
  have hlen := hperm.length_eq
  rw [List.length_map] at hlen
  obtain ⟨x, y, z, rfl⟩ := List.length_eq_three.1 hlen
  refine ⟨x, y, z, rfl, ?_⟩
  simp only [List.map_cons, List.map_nil, List.nodup_cons, List.mem_cons, List.not_mem_nil, or_false, not_or] at h5
  simp only [List.pairwise_cons, List.mem_cons, List.not_mem_nil, or_false, forall_eq_or_imp, forall_eq] at h9
  have hx := hall x (by simp)
  have hy := hall y (by simp)
  have hz := hall z (by simp)
  have hx' : x.arc = [] ∧ x.size = -3 ∧ x.target = [] ∧ Headed top [] x := by
    rcases hx with h | h | h
    · exact h
    · rcases hy with h' | h' | h'
      · omega
      · exact absurd (h.1.trans h'.1.symm) h5.1.1
      · rcases hz with h'' | h'' | h''
        · omega
        · exact absurd (h.1.trans h''.1.symm) h5.1.2
        · exact absurd (h'.1.trans h''.1.symm) h5.2.1
    · rcases hy with h' | h' | h'
      · omega
      · omega
      · exact absurd (h.1.trans h'.1.symm) h5.1.1
  have hy' : y.arc = nb ∧ y.size = cb.length ∧ y.target = [] ∧ Headed top [nb] y := by
    rcases hy with h | h | h
    · exact absurd (hx'.1.trans h.1.symm) h5.1.1
    · exact h
    · rcases hz with h'' | h'' | h''
      · exact absurd (hx'.1.trans h''.1.symm) h5.1.2
      · omega
      · exact absurd (h.1.trans h''.1.symm) h5.2.1
  have hz' : z.arc = nc ∧ z.size = cc.length ∧ z.target = [] ∧ Headed top [nc] z := by
    rcases hz with h | h | h
    · exact absurd (hx'.1.trans h.1.symm) h5.1.2
    · exact absurd (hy'.1.trans h.1.symm) h5.2.1
    · exact h
  exact ⟨hx', hy', hz'⟩

/-- **C69, violated** A directory with two files, one with a path of 101 to 502 bytes, the other with more
data but a path of at most 100 bytes.  If the first does not fit one bucket with its longer header while
the other does (with a block to spare), the run has undefined behaviour: the second file is copied past
the end of the transfer buffer.  Whatever the names and contents, for every number of ranks. -/
theorem C69_two_files (L : LegEnv) (Q : QSort Frag) (nul top : Bytes) (mt mb mc : Meta) (nb cb nc cc : Bytes)
    (hp : Platform L nul) (hnl : nul.length ≤ 100) (ha : LegArchivable L.env L.fs top (twoFiles mt nb mb cb nc mc cc))
    (seen : Option FNode) (hseen : DirOrLink seen) (n : Nat) (hn : 0 < n)
    (hdot : nb.head? ≠ some 46 ∧ nc.head? ≠ some 46) (hbase : (baseOf top).length < 100)
    (hpb : 100 < (baseOf top ++ [47] ++ nb).length ∧ (baseOf top ++ [47] ++ nb).length ≤ 502)
    (hpc : (baseOf top ++ [47] ++ nc).length ≤ 100)
    (hb : 4192768 < cb.length) (hbc : cb.length < cc.length) (hc : cc.length ≤ 4193280) :
    legacyMain L Q nul top seen (twoFiles mt nb mb cb nc mc cc) n = .error .ub := by
  obtain ⟨es, ms, h1, h3, h4, h5, h8, h9, h6, h7⟩ := main_run hp ha Q
  rw [h1 seen ((topAllowed_iff seen).2 hseen)]
  obtain ⟨x, y, z, rfl, ⟨x1, x2, x3, x4⟩, ⟨y1, y2, y3, y4⟩, ⟨z1, z2, z3, z4⟩⟩ := two_entries ha hdot hbc h5 h8 h9
    (fun e he => by obtain ⟨p, m, k1, _, k3, k4, k5, _⟩ := h7 e he; exact ⟨p, m, k1, k3, k4, k5⟩)
  have xh : x.hdr = 512 := by
    have := x4.made.2
    rw [hdr512 (by rw [x4.rel]; simp [pathText]; omega) (by rw [x3]; simp) (by omega)] at this
    have := Except.ok.inj this
    have := x4.min
    omega
  have yh : y.hdr = 1536 := by
    have := y4.made.2
    rw [y3, hdr1536 (by rw [y4.rel]; exact hpb.1) (by rw [y4.rel]; exact hpb.2) (by omega)] at this
    have := Except.ok.inj this
    have := y4.min
    omega
  have zh : z.hdr = 512 := by
    have := z4.made.2
    rw [hdr512 (by rw [z4.rel]; exact hpc) (by rw [z3]; simp) (by omega)] at this
    have := Except.ok.inj this
    have := z4.min
    omega
  have hlb : legBucket = 4194304 := rfl
  simp only [List.length_append, List.length_singleton] at hpb hpc
  refine three_ub h3 blocking_free hp.nul (by decide) hnl hn ?_ (by omega) (by omega) ?_ ?_
  · intro e he
    simp only [List.mem_cons, List.not_mem_nil, or_false] at he
    rcases he with rfl | rfl | rfl
    · refine ⟨by omega, by omega, by rw [x4.rel]; simp [pathText]; omega, by rw [x1]; simp, by rw [x3]; simp, x4.none⟩
    · refine ⟨by omega, by omega, by rw [y4.rel]; simp [pathText]; omega, by rw [y1]; omega, by rw [y3]; simp, y4.none⟩
    · refine ⟨by omega, by omega, by rw [z4.rel]; simp [pathText]; omega, by rw [z1]; omega, by rw [z3]; simp, z4.none⟩
  · unfold Small room dataLen
    rw [yh, y2, hlb]; omega
  · unfold room dataLen
    rw [xh, x2, zh, z2, hlb]; omega

/-! ### An example -/

/-- A long name and a short one; contents of 4192800 and 4193000 bytes. -/
def overLong : Bytes := List.replicate 110 98
def overB : Bytes := List.replicate 4192800 1
def overC : Bytes := List.replicate 4193000 2
def overTree : FNode := twoFiles ⟨0, 0, 0, 0⟩ overLong ⟨0, 0, 0, 0⟩ overB [99] ⟨0, 0, 0, 0⟩ overC

def overFs : FS := fun path => if path = [100, 47] then some overTree
  else if path = [100, 47] ++ overLong then some (.reg ⟨0, 0, 0, 0⟩ overB)
  else if path = [100, 47, 99] then some (.reg ⟨0, 0, 0, 0⟩ overC) else none

def overEnv : LegEnv := ⟨demoEnv2, overFs, false, fun _ => 1700000000, 1700000000, 1700000000⟩

theorem over_platform : Platform overEnv glibcNull :=
  ⟨rfl, fun _ => by simp [overEnv], by simp [overEnv], by simp [overEnv], by decide⟩

theorem overB_len : overB.length = 4192800 := by unfold overB; rw [List.length_replicate]
theorem overC_len : overC.length = 4193000 := by unfold overC; rw [List.length_replicate]
theorem overLong_len : overLong.length = 110 := by unfold overLong; rw [List.length_replicate]

theorem over_archivable : LegArchivable demoEnv2 overFs [100] overTree := by
  have hb : baseOf [100] = [100] := rfl
  have hz : ([100, 47] : Bytes) ≠ [100, 47] ++ overLong := by decide
  have hz2 : ([100, 47, 99] : Bytes) ≠ [100, 47] ++ overLong := by decide
  have hn1 : NameOk overLong := by unfold NameOk; decide
  have hn2 : NameOk [99] := by unfold NameOk; decide
  constructor
  · trivial
  · unfold overTree twoFiles
    refine ⟨?_, ?_⟩
    · simp only [names]
      decide
    · exact ⟨fun _ => ⟨hn1, trivial⟩, fun _ => ⟨hn2, trivial⟩, trivial⟩
  · intro p m o k h
    rcases two_cases h with ⟨_, h⟩ | ⟨_, h⟩ | ⟨_, h⟩
    · unfold twoFiles at h
      simp only [FNode.dir.injEq] at h
      exact h.2.1
    · cases h
    · cases h
  · intro p n h
    rcases two_cases h with ⟨rfl, rfl⟩ | ⟨rfl, rfl⟩ | ⟨rfl, rfl⟩
    · show overFs [100, 47] = some _
      unfold overFs
      rw [if_pos rfl]; rfl
    · show overFs ([100, 47] ++ overLong) = some _
      unfold overFs
      rw [if_neg (fun h => hz h.symm), if_pos rfl]
    · show overFs [100, 47, 99] = some _
      unfold overFs
      rw [if_neg (by decide), if_neg hz2, if_pos rfl]
  · decide
  · decide
  · intro p n h
    rw [hb]
    rcases two_cases h with ⟨rfl, rfl⟩ | ⟨rfl, rfl⟩ | ⟨rfl, rfl⟩
    · simp [archivedPath, pathText, twoFiles]
    · simp [archivedPath, pathText, overLong_len]
    · simp [archivedPath, pathText]
  · intro p m o k h _
    rcases two_cases h with ⟨rfl, _⟩ | ⟨_, h⟩ | ⟨_, h⟩
    · decide
    · cases h
    · cases h
  · intro p m t h
    rcases two_cases h with ⟨_, h⟩ | ⟨_, h⟩ | ⟨_, h⟩
    · unfold twoFiles at h; cases h
    · cases h
    · cases h
  · intro p n h
    rcases two_cases h with ⟨rfl, _⟩ | ⟨rfl, _⟩ | ⟨rfl, _⟩ <;> decide
  · intro p n h _
    have hm : metaOf n = ⟨0, 0, 0, 0⟩ := by
      rcases two_cases h with ⟨_, rfl⟩ | ⟨_, rfl⟩ | ⟨_, rfl⟩ <;> rfl
    rw [hm]
    exact ⟨by decide, by decide, by decide, by decide, ⟨[114], rfl, by decide, by decide⟩,
      ⟨[103], rfl, by decide, by decide⟩⟩
  · intro p m c h
    rcases two_cases h with ⟨_, h⟩ | ⟨_, h⟩ | ⟨_, h⟩
    · unfold twoFiles at h; cases h
    · simp only [FNode.reg.injEq] at h
      rw [h.2, overB_len]; omega
    · simp only [FNode.reg.injEq] at h
      rw [h.2, overC_len]; omega
  · exact ⟨[[99]], _, by simp, ⟨.step (.there (.here (by decide) (by decide))) (.self _), by simp [NoHidden]⟩, by simp [describe]⟩

/-- **C69, violated** An ordinary tree for which the create mode has undefined behaviour, for every number
of ranks and every sorting function. -/
theorem C69_tree_overruns (Q : QSort Frag) (n : Nat) (hn : 0 < n) :
    legacyMain overEnv Q glibcNull [100] (some overTree) overTree n = .error .ub := by
  have hb : baseOf [100] = [100] := rfl
  have hB := overB_len
  have hC := overC_len
  have hL := overLong_len
  exact C69_two_files overEnv Q glibcNull [100] _ _ _ overLong overB [99] overC over_platform (by decide) over_archivable
    (some overTree) trivial n hn (by decide) (by decide)
    (by rw [hb, List.length_append, hL]; decide) (by decide) (by omega) (by omega) (by omega)

end Parfu.Props
