/-
Property theorem C30, continued: exactly when a legacy catalog is written.
-/
import Verif.PropsLegacyCatalog
set_option autoImplicit false

namespace Parfu.Props
open Parfu

/-- A buffer of `cap` bytes can be brought to hold `n` bytes by doubling it, never growing it beyond
1000000000 bytes. -/
def CanHold (cap n : Nat) : Prop := ∃ k, n ≤ cap * 2 ^ k ∧ (k = 0 ∨ cap * 2 ^ k ≤ 1000000000)

theorem growOut_some {cap used need c : Nat} (hu : used ≤ cap) (hc : cap < 2 ^ 31)
    (h : growOut cap used need = some c) :
    (∃ k, c = cap * 2 ^ k ∧ (k = 0 ∨ c ≤ 1000000000)) ∧ used + need + 1 ≤ c := by
  induction cap using growOut.induct (used := used) (need := need) with
  | case1 c h1 h2 => rw [growOut, if_pos h1, if_pos h2] at h; cases h
  | case2 c' h1 h2 ih =>
    rw [growOut, if_pos h1, if_neg h2] at h
    obtain ⟨⟨k, hk, hk'⟩, h3⟩ := ih (by omega) (by omega) h
    refine ⟨⟨k + 1, by rw [hk, Nat.pow_succ]; rw [Nat.mul_assoc, Nat.mul_comm 2], .inr ?_⟩, h3⟩
    rcases hk' with rfl | hk'
    · omega
    · exact hk'
  | case3 c' h1 =>
    rw [growOut, if_neg h1] at h
    simp only [Option.some.injEq] at h
    subst h
    have : wrap32 ((c' : Int) - used) = (c' : Int) - used := by unfold wrap32; omega
    exact ⟨⟨0, by simp, .inl rfl⟩, by omega⟩

theorem growOut_none {cap used need : Nat} (hu : used ≤ cap) (h0 : 0 < cap) (hc : cap < 2 ^ 31)
    (h : growOut cap used need = none) : ¬ CanHold cap (used + need + 1) := by
  induction cap using growOut.induct (used := used) (need := need) with
  | case1 c h1 h2 =>
    have : wrap32 ((c : Int) - used) = (c : Int) - used := by unfold wrap32; omega
    rintro ⟨k, hk, hk'⟩
    have h4 : ¬ used + need + 1 ≤ c := by omega
    rcases hk' with rfl | hk'
    · simp at hk; omega
    · cases k with
      | zero => simp at hk; omega
      | succ k =>
        have : c * 2 ≤ c * 2 ^ (k + 1) := by
          rw [Nat.pow_succ, ← Nat.mul_assoc]
          exact Nat.mul_le_mul_right 2 (Nat.le_mul_of_pos_right c (Nat.two_pow_pos k))
        omega
  | case2 c h1 h2 ih =>
    rw [growOut, if_pos h1, if_neg h2] at h
    have h3 := ih (by omega) (by omega) (by omega) h
    have : wrap32 ((c : Int) - used) = (c : Int) - used := by unfold wrap32; omega
    rintro ⟨k, hk, hk'⟩
    cases k with
    | zero => simp at hk; omega
    | succ k =>
      have e : c * 2 ^ (k + 1) = c * 2 * 2 ^ k := by rw [Nat.pow_succ, Nat.mul_assoc, Nat.mul_comm 2]
      rw [e] at hk hk'
      exact h3 ⟨k, hk, .inr (by omega)⟩
  | case3 c h1 => rw [growOut, if_neg h1] at h; cases h

theorem CanHold.mono {cap n m : Nat} (h : CanHold cap n) (hm : m ≤ n) : CanHold cap m := by
  obtain ⟨k, hk, hk'⟩ := h
  exact ⟨k, by omega, hk'⟩

theorem canHold_grown {cap n k : Nat} (hk : k = 0 ∨ cap * 2 ^ k ≤ 1000000000) :
    CanHold (cap * 2 ^ k) n ↔ CanHold cap n := by
  have e : ∀ j, cap * 2 ^ k * 2 ^ j = cap * 2 ^ (k + j) := fun j => by rw [Nat.pow_add, Nat.mul_assoc]
  constructor
  · rintro ⟨j, hj, hj'⟩
    rw [e] at hj hj'
    refine ⟨k + j, hj, ?_⟩
    rcases hj' with rfl | hj'
    · simpa using hk
    · exact .inr hj'
  · rintro ⟨j, hj, hj'⟩
    by_cases hjk : j ≤ k
    · refine ⟨0, ?_, .inl rfl⟩
      have := Nat.mul_le_mul_left cap (Nat.pow_le_pow_right (n := 2) (by omega) hjk)
      simp; omega
    · refine ⟨j - k, ?_, .inr ?_⟩ <;> rw [e, show k + (j - k) = j by omega]
      · exact hj
      · rcases hj' with rfl | hj'
        · omega
        · exact hj'

theorem writeLines_iff {ls cap : Nat} {out : Bytes} {lines : List Bytes} (hl : 0 < ls) (hc : out.length + 1 ≤ cap)
    (hcap : cap < 2 ^ 31) :
    (∃ r, writeLines ls cap out lines = .ok (some r)) ↔ CanHold cap (out.length + lines.flatten.length + 1) := by
  induction lines generalizing ls cap out with
  | nil => simp only [writeLines]; exact ⟨fun _ => ⟨0, by simpa using hc, .inl rfl⟩, fun _ => ⟨_, rfl⟩⟩
  | cons l lines ih =>
    simp only [writeLines, List.flatten_cons, List.length_append]
    cases hg : growOut cap out.length l.length with
    | none =>
      have := growOut_none (by omega) (by omega) hcap hg
      simp only []
      constructor
      · rintro ⟨r, hr⟩; cases hr
      · intro h; exact absurd (h.mono (by omega)) this
    | some cap' =>
      obtain ⟨⟨k, hk, hk'⟩, h2⟩ := growOut_some (by omega) hcap hg
      have h1 := growLine_ok ls l.length hl
      simp only []
      rw [if_neg (by omega), ih (by omega) (by simp; omega) (by rcases hk' with rfl | h <;> omega), List.length_append]
      rw [hk, canHold_grown (by rw [← hk]; exact hk')]
      rw [show out.length + (l.length + lines.flatten.length) + 1 = out.length + l.length + lines.flatten.length + 1 by omega]

theorem catHeader_length55 {arch : Bool} {bucket : Int} (hb : 0 ≤ bucket ∧ bucket < 2 ^ 31) {n : Nat} (hn : n ≤ 10737418) :
    (catHeader arch bucket n).length = 55 := by
  have h1 : (pad10 0).length = 10 := pad10_length (by omega)
  have h2 : (pad10 (n : Int)).length = 10 := pad10_length (by omega)
  have h3 : (pad10 bucket).length = 10 := pad10_length (by omega)
  have h4 : (typeText arch).length = 10 := by cases arch <;> rfl
  have h5 : versionText.length = 10 := rfl
  unfold catHeader
  simp only [List.length_append, h1, h2, h3, h4, h5, List.length_singleton]

/-- **C30** Exactly when a catalog is written and not refused with NULL: its text (55 bytes of header
and the lines) and a NUL fit into a buffer of 200 bytes per entry (and 512 more for the catalog that
goes into the archive) doubled any number of times without passing 1000000000 bytes. -/
theorem C30_written_iff (nul : Bytes) (arch : Bool) (bucket : Int) (hb : 0 ≤ bucket ∧ bucket < 2 ^ 31) (es : List Frag)
    (hn : 1 ≤ es.length) (hn' : es.length ≤ 10000000) :
    (∃ buf, listToBuffer nul arch bucket es = .ok (some buf)) ↔
      ∃ k, 55 + (es.map (fun e => ((if arch then lineArc e else lineFull nul e) : Bytes).length)).sum + 1 ≤
          ((if arch then 512 else 0) + 200 * es.length) * 2 ^ k ∧
        (k = 0 ∨ ((if arch then 512 else 0) + 200 * es.length) * 2 ^ k ≤ 1000000000) := by
  have hh := catHeader_length55 (arch := arch) hb (n := es.length) (by omega)
  have hc : catCap arch es.length ≥ 200 ∧ catCap arch es.length ≤ 2000000512 := by unfold catCap; split <;> omega
  have hfl : ((es.map (catLine nul arch)).flatten).length =
      (es.map (fun e => ((if arch then lineArc e else lineFull nul e) : Bytes).length)).sum := by
    rw [List.length_flatten, List.map_map]
    congr 2
    funext e
    simp only [Function.comp, catLine]
    cases arch <;> rfl
  have hw := writeLines_iff (ls := 1000) (cap := catCap arch es.length)
    (out := catHeader arch bucket es.length) (lines := es.map (catLine nul arch)) (by omega) (by omega) (by omega)
  rw [hfl, hh] at hw
  have hR : CanHold (catCap arch es.length)
      (55 + (es.map (fun e => ((if arch then lineArc e else lineFull nul e) : Bytes).length)).sum + 1) ↔
      ∃ k, 55 + (es.map (fun e => ((if arch then lineArc e else lineFull nul e) : Bytes).length)).sum + 1 ≤
          ((if arch then 512 else 0) + 200 * es.length) * 2 ^ k ∧
        (k = 0 ∨ ((if arch then 512 else 0) + 200 * es.length) * 2 ^ k ≤ 1000000000) := Iff.rfl
  rw [← hR, ← hw]
  unfold listToBuffer
  rw [if_neg (by omega)]
  constructor
  · rintro ⟨buf, h⟩
    cases hwl : writeLines 1000 (catCap arch es.length) (catHeader arch bucket es.length) (es.map (catLine nul arch)) with
    | error e => rw [hwl] at h; cases h
    | ok r =>
      cases r with
      | none => rw [hwl] at h; cases h
      | some out => exact ⟨out, rfl⟩
  · rintro ⟨r, hr⟩
    have hlen : r.length < 10 ^ 10 := by
      obtain ⟨k, hk, hk'⟩ := hw.1 ⟨r, hr⟩
      rw [writeLines_eq hr, List.length_append, hfl, hh]
      rcases hk' with rfl | hk' <;> omega
    rw [hr]
    simp only [bindRO_some]
    rw [if_neg (by simp; exact pad10_length (by omega))]
    exact ⟨_, rfl⟩

/-- An entry with an archive name of `n` bytes; its line in the archive's catalog has `n` + 10 bytes. -/
def longEntry (n : Nat) : Frag := ⟨[], List.replicate n 97, .reg, [], 0, 0, 0, 0, 0, none, 0, 0, 0, 0, 0⟩

theorem longEntry_line (n : Nat) : (lineArc (longEntry n)).length = n + 10 := by
  unfold lineArc longEntry
  simp only [List.length_append, List.length_replicate, List.length_cons, List.length_nil]
  rw [show (decInt 0).length = 1 by decide +kernel]

-- one entry: the buffer has 712 bytes and can grow to 712 * 2^20 = 746586112; the boundary is sharp
example : (∃ buf, listToBuffer [] true 1000000 [longEntry 746586046] = .ok (some buf)) ∧
    ¬ ∃ buf, listToBuffer [] true 1000000 [longEntry 746586047] = .ok (some buf) := by
  rw [C30_written_iff [] true 1000000 (by omega) _ (by simp) (by simp),
    C30_written_iff [] true 1000000 (by omega) _ (by simp) (by simp)]
  simp only [if_true, List.map_cons, List.map_nil, longEntry_line, List.sum_cons, List.sum_nil, List.length_cons, List.length_nil]
  refine ⟨⟨20, by omega, .inr (by omega)⟩, ?_⟩
  rintro ⟨k, hk, hk'⟩
  by_cases h : k ≤ 20
  · have := Nat.mul_le_mul_left 712 (Nat.pow_le_pow_right (n := 2) (by omega) h)
    omega
  · have := Nat.mul_le_mul_left 712 (Nat.pow_le_pow_right (n := 2) (by omega) (show 21 ≤ k by omega))
    omega

end Parfu.Props
