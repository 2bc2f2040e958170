/-
Lemmas: three entries that fit one bucket (parfu 0.5.1).
-/
import Verif.LegacyChange
import Verif.PropsLegacyOverrun
set_option autoImplicit false

namespace Parfu
open SplitSpec Props MoveSpec TarSpec LegacyRunSpec ScanSpec LegacyScanSpec

/-- The layout of three entries that fit one bucket. -/
theorem three_small {acc : Int} {pad : Bytes} (hacc : 0 < acc)
    {e0 eb ec : Frag} (h0 : 0 < e0.hdr) (hb : 0 < eb.hdr) (hc : 0 < ec.hdr)
    (r0 : 0 < room 512 e0) (rb : 0 < room 512 eb) (rc : 0 < room 512 ec) (hall : room 512 e0 + room 512 eb + room 512 ec ≤ acc) :
    ∃ q, splitList 512 acc pad [e0, eb, ec] = .ok (some ([
      ({ e0 with locA := 0, bucket := 0, locO := 0 },
        [{ e0 with locA := 0 + e0.hdr, bucket := 0, locO := 0, nFrag := 1, fp := -1 }]),
      ({ eb with locA := room 512 e0, bucket := 0, locO := 0 },
        [{ eb with locA := room 512 e0 + eb.hdr, bucket := 0, locO := 0, nFrag := 1, fp := -1 }]),
      ({ ec with locA := room 512 e0 + room 512 eb, bucket := 0, locO := 0 },
        [{ ec with locA := room 512 e0 + room 512 eb + ec.hdr, bucket := 0, locO := 0, nFrag := 1, fp := -1 }])], q)) := by
  have hbl : ∀ e, blockedSum 512 e = room 512 e := blockedSum_eq (by omega)
  have p0 : placeEntry 512 acc pad ⟨0, 0, 0⟩ e0 = .ok (some (({ e0 with locA := 0, bucket := 0, locO := 0 },
      [{ e0 with locA := 0 + e0.hdr, bucket := 0, locO := 0, nFrag := 1, fp := -1 }]), ⟨room 512 e0, room 512 e0, 0⟩)) := by
    unfold placeEntry
    rw [if_neg (by omega)]
    simp only [hbl]
    rw [if_pos (by omega), if_pos (by omega), if_neg (by omega)]
    simp
  have p1 : placeEntry 512 acc pad ⟨room 512 e0, room 512 e0, 0⟩ eb = .ok (some (({ eb with locA := room 512 e0, bucket := 0, locO := 0 },
      [{ eb with locA := room 512 e0 + eb.hdr, bucket := 0, locO := 0, nFrag := 1, fp := -1 }]),
      ⟨room 512 e0 + room 512 eb, room 512 e0 + room 512 eb, 0⟩)) := by
    unfold placeEntry
    rw [if_neg (by omega)]
    simp only [hbl]
    rw [if_pos (by omega), if_pos (by omega), if_neg (by omega)]
  have p2 : placeEntry 512 acc pad ⟨room 512 e0 + room 512 eb, room 512 e0 + room 512 eb, 0⟩ ec = .ok (some
      (({ ec with locA := room 512 e0 + room 512 eb, bucket := 0, locO := 0 },
      [{ ec with locA := room 512 e0 + room 512 eb + ec.hdr, bucket := 0, locO := 0, nFrag := 1, fp := -1 }]),
      ⟨room 512 e0 + room 512 eb + room 512 ec, room 512 e0 + room 512 eb + room 512 ec, 0⟩)) := by
    unfold placeEntry
    rw [if_neg (by omega)]
    simp only [hbl]
    rw [if_pos (by omega), if_pos (by omega), if_neg (by omega)]
  have hsp : splitList 512 acc pad [e0, eb, ec] = splitLoop 512 acc pad ⟨0, 0, 0⟩ [e0, eb, ec] := by
    unfold splitList createList
    simp only [List.length_cons, List.length_nil]
    rw [if_neg (by omega), if_neg (by omega)]
  rw [hsp]
  simp only [splitLoop, p0, p1, p2]
  exact ⟨_, rfl⟩

/-- The file after a run over three entries with short names that fit one bucket. -/
structure ThreeFile (L : LegEnv) (acc : Int) (x y z : Frag) (ds : Nat) (A : Bytes) : Prop where
  first : Holds A ds (hdrOf L x.rel)
  second : Holds A (ds + 512) (hdrOf L y.rel ++ (contOf L y.rel).take y.size.toNat)
  third : Holds A (ds + 512 + (room 512 y).toNat) (hdrOf L z.rel ++ (contOf L z.rel).take z.size.toNat)
  fill : ∃ ms : List Member, (∀ m ∈ ms, ownMember m = true) ∧
    ReadsTo A (ds + 512 + (room 512 y).toNat + (room 512 z).toNat) (ds + acc.toNat) ms
  end_ : Holds A (ds + acc.toNat) (zeros 1024)
  gap : ∀ i : Nat, 1024 + min (contOf L y.rel).length y.size.toNat ≤ i → i < 512 + (room 512 y).toNat → A[ds + i]? = some 0

theorem three_file {L : LegEnv} {nul pad : Bytes} {acc : Int} (hs : LegSetup L acc) {x y z : Frag} {n : Nat} (hn : 0 < n)
    {front : List WriteReq} {wss : List (List WriteReq)} {cat : Bytes} {gs : List (Frag × List Frag)} {r : LPos} {call : List Nat}
    (hrun : NowRun L nul pad acc [x, y, z] n front wss cat gs r call)
    (hx : x.hdr = 512 ∧ x.size ≤ 0 ∧ NowOk L x) (hy : y.hdr = 512 ∧ 0 < y.size ∧ y.kind = .reg ∧ NowOk L y)
    (hz : z.hdr = 512 ∧ 0 < z.size ∧ z.kind = .reg ∧ NowOk L z)
    (hall : 512 + room 512 y + room 512 z ≤ acc) {ds : Nat} {A : Bytes}
    (hwr : Written L acc ds ((outFrags gs).map (named nul)) call.length A)
    (him : ∀ k < call.length, Holds A (ds + k * acc.toNat) (imageNow L acc ((outFrags gs).map (named nul)) n k)) :
    ThreeFile L acc x y z ds A := by
  obtain ⟨x1, x2, x3⟩ := hx
  obtain ⟨y1, y2, y3, y4⟩ := hy
  obtain ⟨z1, z2, z3, z4⟩ := hz
  have rx : room 512 x = 512 := by
    have : dataLen x = 0 := by unfold dataLen; omega
    unfold room; rw [this, x1]; rfl
  have ry : y.size + 512 ≤ room 512 y ∧ (512 : Int) ∣ room 512 y := by
    have : dataLen y = y.size := by unfold dataLen; omega
    unfold room; rw [this, y1]; omega
  have rz : z.size + 512 ≤ room 512 z ∧ (512 : Int) ∣ room 512 z ∧ room 512 z = (512 + z.size + 511) / 512 * 512 := by
    have : dataLen z = z.size := by unfold dataLen; omega
    unfold room; rw [this, z1]; omega
  have hmin := hs.accMin
  obtain ⟨q, hsp⟩ := three_small (pad := pad) (acc := acc) (e0 := x) (eb := y) (ec := z) (by omega) (by omega) (by omega) (by omega) (by omega)
    (by omega) (by omega) (by omega)
  rw [hrun.split] at hsp
  simp only [Except.ok.injEq, Option.some.injEq, Prod.mk.injEq] at hsp
  obtain ⟨hgs, _⟩ := hsp
  have hfr : (outFrags gs).map (named nul) = [named nul { x with locA := 0 + x.hdr, bucket := 0, locO := 0, nFrag := 1, fp := -1 },
      named nul { y with locA := room 512 x + y.hdr, bucket := 0, locO := 0, nFrag := 1, fp := -1 },
      named nul { z with locA := room 512 x + room 512 y + z.hdr, bucket := 0, locO := 0, nFrag := 1, fp := -1 }] := by
    rw [hgs]; rfl
  have hcl : call.length = 1 := by
    have := hrun.calls
    rw [hgs] at this
    simp [outFrags, rankCallList, rankCallLoop] at this
    rw [← this]; rfl
  rw [hcl] at hwr him
  rw [hfr] at hwr him
  generalize hfx : named nul { x with locA := 0 + x.hdr, bucket := 0, locO := 0, nFrag := 1, fp := -1 } = fx at hwr him
  generalize hfy : named nul { y with locA := room 512 x + y.hdr, bucket := 0, locO := 0, nFrag := 1, fp := -1 } = fy at hwr him
  generalize hfz : named nul { z with locA := room 512 x + room 512 y + z.hdr, bucket := 0, locO := 0, nFrag := 1, fp := -1 } = fz at hwr him
  have bx : fx.bucket = 0 := by rw [← hfx]; rfl
  have by_ : fy.bucket = 0 := by rw [← hfy]; rfl
  have bz : fz.bucket = 0 := by rw [← hfz]; rfl
  have sx : fragStart fx = 0 := by rw [← hfx]; simp [fragStart, named]
  have sy : fragStart fy = 512 := by rw [← hfy]; simp [fragStart, named, rx]
  have sz : fragStart fz = 512 + room 512 y := by rw [← hfz]; simp [fragStart, named, rx]
  have lx : (hdrOf L x.rel).length = 512 := by have := x3.len; omega
  have ly : (hdrOf L y.rel).length = 512 := by have := y4.len; omega
  have lz : (hdrOf L z.rel).length = 512 := by have := z4.len; omega
  have px : pieceOf L fx = hdrOf L x.rel := by
    rw [← hfx]
    unfold pieceOf dataOf named
    simp only [if_true]
    rw [if_neg (by omega), List.append_nil]
  have py : pieceOf L fy = hdrOf L y.rel ++ (contOf L y.rel).take y.size.toNat := by
    rw [← hfy]
    unfold pieceOf dataOf named
    simp only [if_true]
    rw [if_pos ⟨y3, y2⟩, Int.toNat_zero, List.drop_zero]
  have pz : pieceOf L fz = hdrOf L z.rel ++ (contOf L z.rel).take z.size.toNat := by
    rw [← hfz]
    unfold pieceOf dataOf named
    simp only [if_true]
    rw [if_pos ⟨z3, z2⟩, Int.toNat_zero, List.drop_zero]
  have hgrp : groupOf [fx, fy, fz] 0 = [fx, fy, fz] := by simp [groupOf, bx, by_, bz]
  have hend : endOfGroup [fx, fy, fz] 0 = 512 + room 512 y + room 512 z := by
    unfold endOfGroup
    rw [hgrp]
    simp only [List.getLast?_cons_cons, List.getLast?_singleton, sz]
    have : blockedWritten 512 fz = room 512 z := by
      rw [← hfz]
      unfold blockedWritten named
      simp only [if_true]
      rw [z1, rz.2.2]
      split <;> split <;> omega
    omega
  have h1 := hwr.pieces fx (by simp)
  have h2 := hwr.pieces fy (by simp)
  have h3 := hwr.pieces fz (by simp)
  rw [sx, px] at h1
  rw [sy, py] at h2
  rw [sz, pz] at h3
  obtain ⟨ms, m1, m2⟩ := readsTo_next hs hwr.toFilled (k := 0) (by omega) (by rw [hend]; omega) (by rw [hend]; omega) (by rw [hend]; omega)
  rw [hend] at m2
  have ht := hwr.term
  rw [show 1 * acc.toNat = acc.toNat by omega] at ht
  refine ⟨by simpa using h1, by simpa using h2, ?_, ⟨ms, m1, ?_⟩, ht, ?_⟩
  · have e : ds + 512 + (room 512 y).toNat = ds + (512 + room 512 y).toNat := by omega
    rw [e]; exact h3
  · have e : ds + 512 + (room 512 y).toNat + (room 512 z).toNat = ds + (512 + room 512 y + room 512 z).toNat := by omega
    have e2 : (0 + 1) * acc.toNat = acc.toNat := by omega
    rw [e, ← e2]; exact m2
  · intro i hi1 hi2
    have hh := him 0 (by omega)
    rw [Nat.zero_mul, Nat.add_zero, holds_iff] at hh
    have hlen : (imageNow L acc [fx, fy, fz] n 0).length = ownLen acc (512 + room 512 y + room 512 z) 0 := by
      unfold imageNow bucketImage
      rw [List.length_map, List.length_range]; simp only [hend]
    have hol : i < ownLen acc (512 + room 512 y + room 512 z) 0 := by
      unfold ownLen
      split <;> omega
    rw [hh i (by omega)]
    unfold imageNow bucketImage
    simp only [hend]
    rw [List.getElem?_map, List.getElem?_range hol, Option.map_some, leftover_first (by omega)]
    have hnone : ownByte L acc (groupOf [fx, fy, fz] 0) (endOfGroup [fx, fy, fz] 0) 0 i = none := by
      unfold ownByte fillByte
      rw [hgrp, hend, if_neg (by omega)]
      have b1 : pieceByte L (acc * (0 : Nat)) fx i = none := by
        unfold pieceByte
        rw [px, sx]
        split
        · rw [List.getElem?_eq_none_iff]; omega
        · rfl
      have b2 : pieceByte L (acc * (0 : Nat)) fy i = none := by
        unfold pieceByte
        rw [py, sy]
        split
        · rw [List.getElem?_eq_none_iff, List.length_append, List.length_take]; omega
        · rfl
      have b3 : pieceByte L (acc * (0 : Nat)) fz i = none := by
        unfold pieceByte
        rw [sz, if_neg (by omega)]
      unfold fragsByte
      simp only [List.foldl_cons, List.foldl_nil, b1, b2, b3]
      rfl
    rw [hnone]; rfl

end Parfu
