/-
Lemmas about parfu 0.5.1's layout.
-/
import Verif.LegacySplit
import Verif.LegacySplitSpec
import Mathlib.Tactic.Ring
import Mathlib.Tactic.Linarith
set_option autoImplicit false

namespace Parfu
open SplitSpec

theorem blockedSum_eq {bl : Int} (hbl : 0 < bl) (e : Frag) : blockedSum bl e = room bl e := by
  unfold blockedSum room dataLen
  have hs : sumSize e = e.hdr + max e.size 0 := by unfold sumSize; split <;> omega
  rw [hs]
  generalize e.hdr + max e.size 0 = x
  split
  · rename_i h
    obtain ⟨q, rfl⟩ := Int.dvd_of_emod_eq_zero h
    rw [show bl * q + bl - 1 = bl * q + (bl - 1) by ring, Int.add_comm (bl * q), Int.add_mul_ediv_left _ _ (by omega),
      Int.ediv_eq_zero_of_lt (by omega) (by omega)]
    ring
  · rename_i h
    congr 1
    have h1 := Int.emod_add_mul_ediv x bl
    have h2 := Int.emod_nonneg x (show bl ≠ 0 by omega)
    have h3 := Int.emod_lt_of_pos x hbl
    have : x + bl - 1 = (x % bl - 1) + bl * (x / bl + 1) := by linarith
    have h0 : (x % bl - 1) / bl = 0 := by
      generalize x % bl = r at *
      exact Int.ediv_eq_zero_of_lt (by omega) (by omega)
    rw [this, Int.add_mul_ediv_left _ _ (by omega), h0]
    ring

theorem room_dvd (bl : Int) (e : Frag) : bl ∣ room bl e := ⟨_, Int.mul_comm _ _⟩

theorem room_ge {bl : Int} (hbl : 0 < bl) (e : Frag) :
    e.hdr + dataLen e ≤ room bl e ∧ room bl e < e.hdr + dataLen e + bl := by
  unfold room
  generalize e.hdr + dataLen e = x
  have h1 := Int.emod_add_mul_ediv (x + bl - 1) bl
  have h2 := Int.emod_nonneg (x + bl - 1) (show bl ≠ 0 by omega)
  have h3 := Int.emod_lt_of_pos (x + bl - 1) hbl
  rw [Int.mul_comm] at h1
  constructor <;> linarith

theorem padBefore_some {bl : Int} {pad : Bytes} {e e' : Frag} {loc space : Int}
    (h : padBefore bl pad e loc space = .ok (some e')) :
    SameFile e' e ∧ e'.size = e.size ∧ e'.locA = e.locA := by
  unfold padBefore at h
  split at h
  · split at h
    · cases h
    · split at h
      · cases h
      · split at h
        · cases h
        · split at h
          · cases h
          · simp at h; subst h; exact ⟨⟨rfl, rfl, rfl, rfl, rfl⟩, rfl, rfl⟩
  · simp at h; subst h; exact ⟨⟨rfl, rfl, rfl, rfl, rfl⟩, rfl, rfl⟩

/-- The bucket a large file starts with. -/
theorem ceil_bounds {acc x : Int} (h : 0 < acc) :
    let b := if x % acc ≠ 0 then x / acc + 1 else x / acc
    x ≤ b * acc ∧ b * acc < x + acc := by
  have h1 := Int.emod_add_mul_ediv x acc
  have h2 := Int.emod_nonneg x (show acc ≠ 0 by omega)
  have h3 := Int.emod_lt_of_pos x h
  rw [Int.mul_comm] at h1
  simp only
  split
  · rename_i h4
    rw [Int.add_mul]
    omega
  · rename_i h4
    have : x % acc = 0 := by simpa using h4
    omega

theorem room_congr {bl : Int} {e e' : Frag} (h1 : e'.hdr = e.hdr) (h2 : e'.size = e.size) :
    room bl e' = room bl e := by unfold room dataLen; rw [h1, h2]

/-- Running positions while only small entries have been placed. -/
def SmallPhase (bl acc : Int) (p : LPos) : Prop :=
  p.whole = p.bucket * acc + p.rank ∧ 0 ≤ p.rank ∧ p.rank ≤ acc ∧ 0 ≤ p.bucket ∧ bl ∣ p.rank

/-- What one step does with a small entry. -/
theorem place_small {bl acc : Int} (hbl : 0 < bl) (hacc : 0 < acc) (_hd : bl ∣ acc) {pad : Bytes} {p q : LPos}
    {e : Frag} {g : Frag × List Frag} (hp : SmallPhase bl acc p) (hs : Small bl acc e)
    (h : placeEntry bl acc pad p e = .ok (some (g, q))) :
    0 < e.hdr ∧ SameFile g.1 e ∧ g.1.size = e.size ∧ p.whole ≤ g.1.locA ∧ q.whole = g.1.locA + room bl e ∧ Good bl acc g.1 g.2 ∧
    SmallPhase bl acc q ∧
    (∀ f ∈ g.2, f.bucket = (if 0 < p.rank ∧ p.rank + room bl e ≤ acc then p.bucket else if 0 < p.rank then p.bucket + 1 else p.bucket) ∧
      f.bucket * acc < q.whole ∧ q.whole ≤ (f.bucket + 1) * acc) := by
  obtain ⟨p1, p2, p3, p4, p5⟩ := hp
  unfold placeEntry at h
  split at h
  · cases h
  rename_i hh
  have hr := room_ge hbl e
  have hdl : 0 ≤ dataLen e := by unfold dataLen; omega
  have hrd := room_dvd bl e
  unfold Small at hs
  simp only [blockedSum_eq hbl] at h
  rw [if_pos hs] at h
  split at h
  · rename_i hf
    simp at h
    obtain ⟨rfl, rfl⟩ := h
    have hroom : ∀ x y z u v w, room bl { e with locA := x, bucket := y, locO := z, nFrag := u, fp := v, padSize := w } = room bl e :=
      fun _ _ _ _ _ _ => room_congr rfl rfl
    have hroom' : ∀ x y z, room bl { e with locA := x, bucket := y, locO := z } = room bl e :=
      fun _ _ _ => room_congr rfl rfl
    refine ⟨by omega, ⟨rfl, rfl, rfl, rfl, rfl⟩, rfl, le_refl _, ?_, ?_, ?_, ?_⟩
    · split <;> rfl
    · refine ⟨?_, ?_, ?_⟩
      · intro f hf; simp at hf; subst hf; exact ⟨rfl, rfl, rfl, rfl, rfl⟩
      · intro _
        refine ⟨_, rfl, rfl, rfl, rfl, ?_, ?_⟩
        · simp; omega
        · simp only [hroom']; rw [Int.add_mul]; omega
      · intro hn; exact absurd (by unfold Small; rw [hroom']; exact hs) hn
    · split
      · rename_i hb
        refine ⟨?_, le_refl _, by simp; omega, by simp; omega, by simp⟩
        simp only; rw [Int.add_mul]; omega
      · exact ⟨by simp only; omega, by simp only; omega, by simp only; omega, p4, Int.dvd_add p5 hrd⟩
    · intro f hf'
      simp at hf'; subst hf'
      refine ⟨?_, ?_, ?_⟩
      · simp only; split
        · rfl
        · split
          · omega
          · rfl
      · simp only; split <;> (simp only; omega)
      · simp only; rw [Int.add_mul]; split <;> (simp only; omega)
  · rename_i hf
    split at h
    · cases h
    · cases h
    rename_i e1 he1
    obtain ⟨s1, s2, s3⟩ := padBefore_some he1
    obtain ⟨s11, s12, s13, s14, s15⟩ := s1
    simp at h s11 s12 s13 s14 s15 s2 s3
    obtain ⟨rfl, rfl⟩ := h
    have hroom' : ∀ y z, room bl { e1 with bucket := y, locO := z } = room bl e := fun _ _ => room_congr s15 s2
    have hrk : 0 < p.rank := by omega
    have hm : (p.bucket + 1) * acc = p.bucket * acc + acc := by ring
    have hm' : (p.bucket + 1 + 1) * acc = p.bucket * acc + acc + acc := by ring
    refine ⟨by omega, ⟨s11, s12, s13, s14, s15⟩, s2, by simp only; omega, ?_, ?_, ?_, ?_⟩
    · simp only [s3]; split <;> rfl
    · refine ⟨?_, ?_, ?_⟩
      · intro f hf; simp at hf; subst hf; exact ⟨rfl, rfl, rfl, rfl, rfl⟩
      · intro _
        refine ⟨_, rfl, ?_, rfl, rfl, ?_, ?_⟩
        · simp only [s3, s15]
        · simp [s3]
        · show e1.locA + room bl _ ≤ _
          rw [hroom', s3]; simp only; omega
      · intro hn; exact absurd (by unfold Small; rw [hroom']; exact hs) hn
    · split
      · exact ⟨by simp only; omega, le_refl _, by simp only; omega, by simp only; omega, by simp⟩
      · exact ⟨by simp only, by simp only; omega, by simp only; omega, by simp only; omega, hrd⟩
    · intro f hf'
      simp at hf'; subst hf'
      refine ⟨?_, ?_, ?_⟩
      · simp only; rw [if_neg (by omega), if_pos hrk]
      · simp only; split <;> (simp only; omega)
      · simp only; split <;> (simp only; omega)

theorem covers_append {a z : Int} {xs ys : List Frag} :
    Covers a (xs ++ ys) z ↔ ∃ m, Covers a xs m ∧ Covers m ys z := by
  induction xs generalizing a with
  | nil => simp [Covers]
  | cons x xs ih => simp only [List.cons_append, Covers, ih]; constructor
                    · rintro ⟨h1, h2, m, h3, h4⟩; exact ⟨m, ⟨h1, h2, h3⟩, h4⟩
                    · rintro ⟨m, ⟨h1, h2, h3⟩, h4⟩; exact ⟨h1, h2, m, h3, h4⟩

theorem covers_whole {acc : Int} {e : Frag} {n b : Int} (hh : e.hdr < acc) (hpos : 0 < acc) (k : Nat) :
    Covers 0 ((List.range (k + 1)).map (wholeFrag acc e n b)) (acc * (k + 1) - e.hdr) := by
  induction k with
  | zero => simp [wholeFrag, Covers]; omega
  | succ k ih =>
    rw [List.range_succ, List.map_append, covers_append]
    refine ⟨_, ih, ?_⟩
    simp only [wholeFrag, List.map_cons, List.map_nil, Covers]
    refine ⟨?_, ?_, ?_⟩
    · simp
    · simpa using hpos
    · simp; ring

/-- What one step does with a large entry: `m` fragments in as many consecutive buckets. -/
theorem place_large {bl acc : Int} (hbl : 0 < bl) (hacc : 0 < acc) (hd : bl ∣ acc) {pad : Bytes} {p q : LPos}
    {e : Frag} {g : Frag × List Frag} (hs : ¬ Small bl acc e)
    (h : placeEntry bl acc pad p e = .ok (some (g, q))) :
    0 < e.hdr ∧ SameFile g.1 e ∧ g.1.size = e.size ∧ p.whole ≤ g.1.locA ∧ g.1.locA < p.whole + acc ∧
    g.1.locA + room bl e ≤ q.whole ∧ Good bl acc g.1 g.2 ∧
    (∃ b m, g.1.locA = b * acc ∧ 0 < m ∧ g.2.map Frag.bucket = (List.range m).map (fun j : Nat => b + (j : Int)) ∧
      (b + (m : Int) - 1) * acc < q.whole ∧ (q.whole ≤ (b + (m : Int)) * acc ↔ LeavesRoom bl acc e)) ∧
    (0 ≤ e.size → e.hdr < acc → Covers 0 g.2 (if room bl e % acc = 0 then room bl e - e.hdr else e.size)) := by
  unfold placeEntry at h
  split at h
  · cases h
  rename_i hh
  have hr := room_ge hbl e
  have hdl : e.size ≤ dataLen e := by unfold dataLen; omega
  have hdl' : 0 ≤ e.size → dataLen e = e.size := by intro h; unfold dataLen; omega
  have hrd := room_dvd bl e
  unfold Small at hs
  simp only [blockedSum_eq hbl] at h
  rw [if_neg hs] at h
  obtain ⟨c1, c2⟩ := ceil_bounds (x := p.whole) hacc
  generalize hb : (if p.whole % acc ≠ 0 then p.whole / acc + 1 else p.whole / acc) = b at h c1 c2
  have hdiv := Int.emod_add_mul_ediv (room bl e) acc
  have hm1 := Int.emod_nonneg (room bl e) (show acc ≠ 0 by omega)
  have hm2 := Int.emod_lt_of_pos (room bl e) hacc
  have hq : 1 ≤ room bl e / acc := by
    have : acc * 1 < acc * (room bl e / acc + 1) := by rw [Int.mul_add]; omega
    have := Int.lt_of_mul_lt_mul_left this (by omega)
    omega
  obtain ⟨k, hk⟩ : ∃ k : Nat, room bl e / acc = ((k + 1 : Nat) : Int) := ⟨(room bl e / acc).toNat - 1, by omega⟩
  have hrem : bl ∣ room bl e % acc := by
    have : room bl e % acc = room bl e - acc * (room bl e / acc) := by omega
    rw [this]
    exact Int.dvd_sub hrd (Dvd.dvd.mul_right hd _)
  rw [hk] at h hdiv
  generalize hR : room bl e = R at *
  generalize hrm : R % acc = r at *
  simp only [Int.toNat_natCast] at h
  split at h
  · cases h
  · cases h
  rename_i e' he'
  obtain ⟨⟨s11, s12, s13, s14, s15⟩, s2, s3⟩ := padBefore_some he'
  simp at s11 s12 s13 s14 s15 s2 s3
  have hroom : room bl e' = R := by rw [room_congr s15 s2, hR]
  push_cast at hdiv
  have x1 : (b + (k + 1)) * acc = b * acc + acc * (k + 1) := by ring
  have x2 : (b + (k + 1) + 1) * acc = b * acc + acc * (k + 1) + acc := by ring
  have x3 : (b + (k + 1) - 1) * acc = b * acc + acc * (k + 1) - acc := by ring
  have x4 : (k + 1 : Int) * acc = acc * (k + 1) := by ring
  have x5 : (k : Int) * acc = acc * (k + 1) - acc := by ring
  have bucketWhole : ∀ n (j : Nat), (wholeFrag acc e' n b j).bucket = b + (j : Int) := by
    intro n j; unfold wholeFrag; split
    · rename_i h; subst h; simp
    · rfl
  have goodWhole : ∀ n (j : Nat), SameFile (wholeFrag acc e' n b j) e' ∧
      (wholeFrag acc e' n b j).locA = e'.locA + e'.hdr + (wholeFrag acc e' n b j).locO ∧
      InBucket acc (wholeFrag acc e' n b j) := by
    intro n j
    unfold wholeFrag
    split
    · refine ⟨⟨rfl, rfl, rfl, rfl, rfl⟩, by simp [s3], ?_, ?_⟩
      · simp; omega
      · simp only; rw [Int.add_mul]; omega
    · refine ⟨⟨rfl, rfl, rfl, rfl, rfl⟩, by simp only [s3]; ring, ?_, ?_⟩
      · simp only; rfl
      · simp only; apply le_of_eq; ring
  split at h
  · rename_i hu
    simp at h
    obtain ⟨rfl, rfl⟩ := h
    have hrbl : bl ≤ r := Int.le_of_dvd (by omega) hrem
    refine ⟨by omega, ⟨s11, s12, s13, s14, s15⟩, s2, by simp only; omega, by simp only; omega, ?_, ?_, ?_, ?_⟩
    · simp only; rw [s3, x1]; omega
    · refine ⟨?_, ?_, ?_⟩
      · intro f hf
        simp only [List.mem_append, List.mem_map, List.mem_singleton] at hf
        rcases hf with ⟨j, _, rfl⟩ | rfl
        · exact (goodWhole _ j).1
        · exact ⟨rfl, rfl, rfl, rfl, rfl⟩
      · intro hsm; exfalso; unfold Small at hsm; simp only at hsm; omega
      · intro _
        refine ⟨⟨b, by simp only [s3]; ring⟩, by simp, ?_⟩
        intro f hf
        simp only [List.mem_append, List.mem_map, List.mem_singleton] at hf
        rcases hf with ⟨j, _, rfl⟩ | rfl
        · exact (goodWhole _ j).2
        · unfold lastFrag
          refine ⟨by simp only [s3]; push_cast; ring, ?_, ?_⟩
          · simp only; rfl
          · simp only; push_cast
            rw [x1, x2, s2, s15]
            have : ((k : Int) + 1 - 1) * acc = acc * (k + 1) - acc := by ring
            rw [this]; omega
    · refine ⟨b, k + 2, s3, by omega, ?_, ?_, ?_⟩
      · simp only [List.map_append, List.map_map]
        rw [show k + 2 = (k + 1) + 1 by rfl, List.range_succ (n := k + 1), List.map_append]
        congr 1
        · apply List.map_congr_left
          intro j _
          exact bucketWhole _ j
      · simp only; push_cast
        have : (b + (k + 2) - 1) * acc = b * acc + acc * (k + 1) := by ring
        rw [this, x1]; omega
      · unfold LeavesRoom
        rw [hR, hrm]
        simp only; push_cast
        have : (b + ((k : Int) + 2)) * acc = b * acc + acc * (k + 1) + acc := by ring
        rw [this, x1]
        have : ((k : Int) + 1 - 1) * acc = acc * (k + 1) - acc := by ring
        omega
    · intro h0 h1
      have hdl := hdl' h0
      rw [if_neg hu]
      simp only
      rw [covers_append]
      refine ⟨_, covers_whole (by omega) hacc k, ?_⟩
      simp only [lastFrag, Covers]
      push_cast
      rw [s2, s15]
      have : ((k : Int) + 1 - 1) * acc = acc * (k + 1) - acc := by ring
      rw [this]
      refine ⟨rfl, ?_, ?_⟩ <;> omega
  · rename_i hu
    have hr0 : r = 0 := by simpa using hu
    simp at h
    obtain ⟨rfl, rfl⟩ := h
    refine ⟨by omega, ⟨s11, s12, s13, s14, s15⟩, s2, by simp only; omega, by simp only; omega, ?_, ?_, ?_, ?_⟩
    · simp only; rw [s3, x1]; omega
    · refine ⟨?_, ?_, ?_⟩
      · intro f hf
        simp only [List.mem_map] at hf
        obtain ⟨j, _, rfl⟩ := hf
        exact (goodWhole _ j).1
      · intro hsm; exfalso; unfold Small at hsm; simp only at hsm; omega
      · intro _
        refine ⟨⟨b, by simp only [s3]; ring⟩, by simp, ?_⟩
        intro f hf
        simp only [List.mem_map] at hf
        obtain ⟨j, _, rfl⟩ := hf
        exact (goodWhole _ j).2
    · refine ⟨b, k + 1, s3, by omega, ?_, ?_, ?_⟩
      · simp only [List.map_map]
        apply List.map_congr_left
        intro j _
        exact bucketWhole _ j
      · simp only; push_cast; rw [x3, x1]; omega
      · refine iff_of_true (by simp only; push_cast; rw [x1]) (Or.inl (by rw [hR, hrm]; exact hr0))
    · intro h0 h1
      rw [if_pos hr0]
      simp only
      have hz : R - e.hdr = acc * (k + 1) - e'.hdr := by omega
      rw [hz]
      exact covers_whole (by omega) hacc k

/-- Headers of one block leave room. -/
theorem leavesRoom_of_le {bl acc : Int} (hbl : 0 < bl) (hacc : 0 < acc) (hd : bl ∣ acc) {e : Frag} (h : e.hdr ≤ bl) :
    LeavesRoom bl acc e := by
  refine Or.inr ?_
  have hm2 := Int.emod_lt_of_pos (room bl e) hacc
  have hdiv := Int.emod_add_mul_ediv (room bl e) acc
  have hrem : bl ∣ room bl e % acc := by
    have : room bl e % acc = room bl e - acc * (room bl e / acc) := by omega
    rw [this]
    exact Int.dvd_sub (room_dvd bl e) (Dvd.dvd.mul_right hd _)
  generalize room bl e % acc = r at *
  obtain ⟨u, hu⟩ := hrem
  obtain ⟨v, hv⟩ := hd
  have : u < v := by
    have : bl * u < bl * v := by omega
    exact Int.lt_of_mul_lt_mul_left this (by omega)
  have : bl * (u + 1) ≤ bl * v := Int.mul_le_mul_of_nonneg_left (by omega) (by omega)
  rw [Int.mul_add] at this
  omega

end Parfu
