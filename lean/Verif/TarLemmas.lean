/-
Helper lemmas about the tar header writer: record lengths, field lengths, slices of a block.
-/
import Verif.Tar
import Verif.TarSpec
set_option autoImplicit false

namespace Parfu

/-! ### record_length -/

/-- Number of decimal digits, abbreviated. -/
private def D (n : Nat) : Nat := (digits 10 n).length

private theorem D_eq_of {n k : Nat} (h1 : 10 ^ k ≤ n) (h2 : n < 10 ^ (k + 1)) : D n = k + 1 := by
  have a := digits_length_le (b := 10) (by omega) (k + 1) n (by omega) h2
  have b := lt_digits_length (b := 10) (by omega) k n h1
  unfold D; omega

private theorem D_one {n : Nat} (h : n < 10) : D n = 1 := by
  unfold D; rw [digits_lt h]; rfl

private theorem succ_lt_pow_ten (k : Nat) : k + 1 < 10 ^ (k + 1) := by
  induction k with
  | zero => decide
  | succ k ih => rw [Nat.pow_succ]; omega

private theorem loop_unfold (kw val : Bytes) (count old : Nat) :
    recordLengthLoop kw val count old =
      if count < 3 then
        if old = recordLenWith old kw val then .ok (recordLenWith old kw val)
        else recordLengthLoop kw val (count + 1) (recordLenWith old kw val)
      else .error .assertFail := by
  rw [recordLengthLoop]; split <;> rfl

theorem recordLength_ok (kw val : Bytes) :
    ∃ n, recordLength kw val = .ok n ∧ n = recordLenWith n kw val := by
  unfold recordLength
  generalize hb : kw.length + val.length + 3 = b
  have hw : ∀ o, recordLenWith o kw val = b + D o := by
    intro o; unfold recordLenWith D; omega
  have h0 : kw.length + val.length + 5 = b + 2 := by omega
  rw [h0]
  simp only [loop_unfold kw val 0, loop_unfold kw val 1, loop_unfold kw val 2, hw,
    show (0:Nat) < 3 by omega, show (1:Nat) < 3 by omega, show (2:Nat) < 3 by omega,
    Nat.zero_add, if_true]
  by_cases c1 : b + 2 = b + D (b + 2)
  · refine ⟨b + D (b + 2), by rw [if_pos c1], ?_⟩
    rw [← c1]; exact c1
  rw [if_neg c1]
  by_cases c2 : b + D (b + 2) = b + D (b + D (b + 2))
  · refine ⟨b + D (b + D (b + 2)), by rw [if_pos c2], ?_⟩
    rw [← c2]; exact c2
  rw [if_neg c2]
  have key : b + D (b + D (b + 2)) = b + D (b + D (b + D (b + 2))) := by
    -- the number of digits of the first guess
    by_cases s : b + 2 < 10
    · have e1 : D (b + 2) = 1 := D_one s
      rw [e1] at c2 ⊢
      have e2 : D (b + 1) = 1 := D_one (by omega)
      omega
    · obtain ⟨k, hk⟩ : ∃ k, D (b + 2) = k + 1 := ⟨D (b + 2) - 1, by
        have := digits_length_pos 10 (b + 2); unfold D; omega⟩
      have lo := pow_pred_digits_length_le (b := 10) (by omega) (b + 2) (by omega)
      have hi := lt_pow_digits_length (b := 10) (by omega) (b + 2)
      have hk' : (digits 10 (b + 2)).length = k + 1 := hk
      rw [hk'] at lo hi
      simp only [Nat.add_sub_cancel] at lo
      have hk1 : 1 ≤ k := by
        rcases Nat.eq_zero_or_pos k with h | h
        · subst h; simp at hi; omega
        · exact h
      have sp := succ_lt_pow_ten k
      have pp : (10:Nat) ^ (k + 1 + 1) = 10 ^ (k + 1) * 10 := Nat.pow_succ ..
      rw [hk] at c1 c2 ⊢
      by_cases t : b + (k + 1) < 10 ^ (k + 1)
      · have := D_eq_of (n := b + (k + 1)) (k := k) (by omega) t
        omega
      · have e2 := D_eq_of (n := b + (k + 1)) (k := k + 1) (by omega) (by omega)
        have e3 := D_eq_of (n := b + (k + 1 + 1)) (k := k + 1) (by omega) (by omega)
        rw [e2, e3]
  refine ⟨b + D (b + D (b + D (b + 2))), by rw [if_pos key], ?_⟩
  rw [← key]; exact key

/-- The text of a record (helper; the value of `paxRecord`). -/
def recText (kw val : Bytes) : Bytes :=
  match paxRecord kw val with
  | .ok r => r
  | .error _ => []

theorem recText_spec (kw val : Bytes) :
    ∃ n, recordLength kw val = .ok n ∧ paxRecord kw val = .ok (recText kw val) ∧
      recText kw val = digits 10 n ++ [32] ++ kw ++ [61] ++ val ++ [10] ∧
      (recText kw val).length = n ∧ 0 < n := by
  obtain ⟨n, h1, h2⟩ := recordLength_ok kw val
  have hp : paxRecord kw val = .ok (digits 10 n ++ [32] ++ kw ++ [61] ++ val ++ [10]) := by
    unfold paxRecord; rw [h1]; rfl
  have hr : recText kw val = digits 10 n ++ [32] ++ kw ++ [61] ++ val ++ [10] := by
    unfold recText; rw [hp]
  have hl : (recText kw val).length = n := by
    rw [hr]; unfold recordLenWith at h2; simp; omega
  refine ⟨n, h1, by rw [hr]; exact hp, hr, hl, ?_⟩
  unfold recordLenWith at h2; omega

/-- All record texts one after the other. -/
def recTexts (ps : List (Bytes × Bytes)) : Bytes := (ps.map (fun p => recText p.1 p.2)).flatten

theorem recTexts_cons (k v : Bytes) (ps) : recTexts ((k, v) :: ps) = recText k v ++ recTexts ps := by
  simp [recTexts]

theorem paxSizeOf_eq (ps : List (Bytes × Bytes)) : paxSizeOf ps = .ok (recTexts ps).length := by
  induction ps with
  | nil => rfl
  | cons p ps ih =>
    obtain ⟨k, v⟩ := p
    obtain ⟨n, h1, _, _, hl, _⟩ := recText_spec k v
    unfold paxSizeOf
    rw [h1, ih, recTexts_cons]
    simp [bind, Except.bind, pure, Except.pure, hl]

theorem getPaxSize_eq (e : TarEntry) : getPaxSize e = .ok (recTexts (paxPairs e)).length :=
  paxSizeOf_eq _

theorem hdrSize_eq (e : TarEntry) :
    hdrSize e = .ok (blk + paxHdrSz (recTexts (paxPairs e)).length) := by
  unfold hdrSize; rw [getPaxSize_eq]; rfl

theorem layRecords_eq (cap : Nat) (ps : List (Bytes × Bytes)) (buf : Bytes)
    (h : (buf ++ recTexts ps).length ≤ cap) :
    layRecords cap ps buf = .ok (buf ++ recTexts ps ++ zeros (cap - (buf ++ recTexts ps).length)) := by
  induction ps generalizing buf with
  | nil => simp [layRecords, recTexts]
  | cons p ps ih =>
    obtain ⟨k, v⟩ := p
    obtain ⟨n, _, h2, _, _, _⟩ := recText_spec k v
    rw [recTexts_cons] at h ⊢
    unfold layRecords
    rw [h2]
    simp only [bind, Except.bind]
    rw [if_pos (by simp at h; omega), ih _ (by simpa [List.append_assoc] using h)]
    simp [List.append_assoc]

/-! ### fields -/

theorem zeros_length (n : Nat) : (zeros n).length = n := by simp [zeros]

theorem fieldStr_length (n : Nat) (s : Bytes) : (fieldStr n s).length = n := by
  simp [fieldStr, zeros]; omega

theorem fieldSnprintf_length (n : Nat) (s : Bytes) : (fieldSnprintf n s).length = n :=
  fieldStr_length _ _

theorem fieldOct_length (n v : Nat) : (fieldOct n v).length = n := fieldStr_length _ _

theorem chksumField_length (s : Nat) : (chksumField s).length = 8 := by
  simp only [chksumField, List.length_append, List.length_replicate, List.length_take,
    List.length_cons, List.length_nil]
  omega

theorem fieldOct_eq {n v : Nat} (hn : 2 ≤ n) (h : v < 8 ^ (n - 1)) :
    fieldOct n v = zpad (n - 1) (digits 8 v) ++ [0] := by
  have hl := digits_length_le (b := 8) (by omega) (n - 1) v (by omega) h
  have hz := zpad_length (n - 1) (digits 8 v) hl
  unfold fieldOct fieldSnprintf fieldStr
  rw [List.take_of_length_le (Nat.le_of_eq hz), List.take_of_length_le (by omega), hz,
    show n - (n - 1) = 1 by omega]
  rfl

theorem byteSum_append (a b : Bytes) : byteSum (a ++ b) = byteSum a + byteSum b := by
  simp [byteSum]

theorem byteSum_le (b : Bytes) : byteSum b ≤ 255 * b.length := by
  induction b with
  | nil => simp [byteSum]
  | cons x xs ih =>
    have : x.toNat < 256 := x.toNat_lt
    simp only [byteSum, List.map_cons, List.sum_cons, List.length_cons] at *
    omega

theorem snocInd {α : Type} {P : List α → Prop} (nil : P [])
    (append : ∀ (xs : List α) (x : α), P xs → P (xs ++ [x])) (l : List α) : P l := by
  have : ∀ l : List α, P l.reverse := by
    intro l
    induction l with
    | nil => exact nil
    | cons x xs ih => rw [List.reverse_cons]; exact append _ _ ih
  have := this l.reverse
  rwa [List.reverse_reverse] at this

namespace TarSpec

theorem slice_mid (pre f post : Bytes) (off len : Nat) (h1 : pre.length = off) (h2 : f.length = len) :
    slice off len (pre ++ (f ++ post)) = f := by
  unfold slice
  subst h1 h2
  simp

theorem text_fieldStr {n : Nat} {s : Bytes} (h0 : (0:UInt8) ∉ s) (hl : s.length ≤ n) :
    text (fieldStr n s) = s := by
  unfold text fieldStr
  rw [List.take_of_length_le hl]
  apply takeWhile_append_of_all
  · intro c hc
    have : c ≠ 0 := fun h => h0 (h ▸ hc)
    simp [this]
  · intro c hc
    unfold zeros at hc
    cases hk : n - s.length with
    | zero => rw [hk] at hc; simp at hc
    | succ m => rw [hk] at hc; simp [List.replicate_succ] at hc; subst hc; simp

theorem octal_fieldOct {n v : Nat} (hn : 2 ≤ n) (h : v < 8 ^ (n - 1)) :
    octal (fieldOct n v) = some v := by
  rw [fieldOct_eq hn h]
  unfold octal
  have hnosp : (zpad (n - 1) (digits 8 v) ++ [0]).dropWhile (· = 32) =
      zpad (n - 1) (digits 8 v) ++ [0] := by
    have hd := zpad_isDigit (b := 8) (by omega) (by omega) (n - 1) v
    cases hz : zpad (n - 1) (digits 8 v) with
    | nil => simp
    | cons c cs =>
      rw [hz] at hd
      have := hd c (by simp)
      have hc : c ≠ 32 := by intro h; subst h; revert this; decide
      simp [hc]
  rw [hnosp, readNum_zpad (by omega) (by omega) _ _ _ (by
    intro c hc; simp at hc; subst hc; decide)]
  simp

/-- What an octal field of `n` bytes holds after printing `v` into it (helper): `v` if it fits,
otherwise its first `n-1` octal digits. -/
def octStored (n v : Nat) : Nat :=
  if v < 8 ^ (n - 1) then v else numVal 8 ((digits 8 v).take (n - 1))

theorem numVal_lt (b : Nat) (s : Bytes) (h : ∀ c ∈ s, isDigit b c = true) :
    numVal b s < b ^ s.length := by
  induction s using snocInd with
  | nil => simp [numVal]
  | append xs c ih =>
    rw [numVal_append, List.length_append, List.length_singleton, Nat.pow_succ]
    have h1 := ih (fun c hc => h c (by simp [hc]))
    have h2 := h c (by simp)
    unfold isDigit at h2
    simp at h2
    have : (numVal b xs + 1) * b ≤ b ^ xs.length * b := Nat.mul_le_mul_right _ h1
    rw [Nat.add_mul] at this
    omega

theorem octStored_lt {n v : Nat} (hn : 2 ≤ n) : octStored n v < 8 ^ (n - 1) := by
  unfold octStored
  split
  · assumption
  · have h := numVal_lt 8 ((digits 8 v).take (n - 1)) (fun c hc =>
      digits_isDigit (by omega) (by omega) v c (List.mem_of_mem_take hc))
    have : (8:Nat) ^ ((digits 8 v).take (n - 1)).length ≤ 8 ^ (n - 1) :=
      Nat.pow_le_pow_right (by omega) (by simp; omega)
    omega

theorem octal_fieldOct_gen {n : Nat} (v : Nat) (hn : 2 ≤ n) :
    octal (fieldOct n v) = some (octStored n v) := by
  by_cases h : v < 8 ^ (n - 1)
  · rw [octal_fieldOct hn h, octStored, if_pos h]
  · have hlen := lt_digits_length (b := 8) (by omega) (n - 1) v (by omega)
    have hz : zpad (n - 1) (digits 8 v) = digits 8 v := by
      unfold zpad; rw [show n - 1 - (digits 8 v).length = 0 by omega]; rfl
    have htl : ((digits 8 v).take (n - 1)).length = n - 1 := by simp; omega
    have hf : fieldOct n v = (digits 8 v).take (n - 1) ++ [0] := by
      unfold fieldOct fieldSnprintf fieldStr
      rw [hz, List.take_of_length_le (l := (digits 8 v).take (n - 1)) (by omega), htl,
        show n - (n - 1) = 1 by omega]
      rfl
    have hd : ∀ c ∈ (digits 8 v).take (n - 1), isDigit 8 c = true := fun c hc =>
      digits_isDigit (by omega) (by omega) v c (List.mem_of_mem_take hc)
    have hne : (digits 8 v).take (n - 1) ≠ [] := by
      intro h; rw [h] at htl; simp at htl; omega
    have hr : ∀ c, ([0] : Bytes).head? = some c → isDigit 8 c = false := by
      intro c hc; simp at hc; subst hc; decide
    rw [hf, octStored, if_neg h]
    unfold octal
    have hnosp : ((digits 8 v).take (n - 1) ++ [0]).dropWhile (· = 32) =
        (digits 8 v).take (n - 1) ++ [0] := by
      cases hq : (digits 8 v).take (n - 1) with
      | nil => simp
      | cons c cs =>
        rw [hq] at hd
        have := hd c (by simp)
        have hc : c ≠ 32 := by intro h; subst h; revert this; decide
        simp [hc]
    rw [hnosp]
    unfold readNum
    rw [takeWhile_append_of_all _ _ hd hr, dropWhile_append_of_all _ _ hd hr, if_neg hne]
    simp

theorem octal_chksumField {s : Nat} (h : s < 8 ^ 6) : octal (chksumField s) = some s := by
  have hl := digits_length_le (b := 8) (by omega) 6 s (by omega) h
  have hz : (48 :: digits 8 s).take 7 = zpad ((digits 8 s).length + 1) (digits 8 s) := by
    rw [List.take_of_length_le (by simp; omega)]
    simp [zpad]
  unfold chksumField
  simp only [hz]
  unfold octal
  generalize hr : ([0] ++ List.replicate (8 - (zpad ((digits 8 s).length + 1) (digits 8 s) ++ [0]).length) 32 : Bytes) = r
  rw [List.append_assoc, hr]
  have hnosp : (zpad ((digits 8 s).length + 1) (digits 8 s) ++ r).dropWhile (· = 32) =
      zpad ((digits 8 s).length + 1) (digits 8 s) ++ r := by
    have hd := zpad_isDigit (b := 8) (by omega) (by omega) ((digits 8 s).length + 1) s
    cases hz : zpad ((digits 8 s).length + 1) (digits 8 s) with
    | nil => simp [zpad] at hz
    | cons c cs =>
      rw [hz] at hd
      have := hd c (by simp)
      have hc : c ≠ 32 := by intro h; subst h; revert this; decide
      simp [hc]
  have hh : r.head? = some 0 := by rw [← hr]; rfl
  rw [hnosp, readNum_zpad (by omega) (by omega) _ _ _ (by
    intro c hc; rw [hh] at hc; simp at hc; subst hc; decide)]
  simp [hh]

end TarSpec
end Parfu
