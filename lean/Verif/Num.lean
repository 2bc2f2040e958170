/-
Reading numbers: the small specification of what a reader of decimal / octal text understands,
and the lemmas connecting it to the printers in `Base`.
-/
import Verif.Base
set_option autoImplicit false

namespace Parfu

/-- Is `c` an ASCII digit of base `b`? (specification) -/
def isDigit (b : Nat) (c : UInt8) : Bool := decide (48 ≤ c.toNat) && decide (c.toNat < 48 + b)

/-- Value of a string of digits (specification). -/
def numVal (b : Nat) (ds : Bytes) : Nat := ds.foldl (fun a c => a * b + (c.toNat - 48)) 0

/-- Read the longest non-empty run of digits; gives its value and what follows (specification). -/
def readNum (b : Nat) (s : Bytes) : Option (Nat × Bytes) :=
  if s.takeWhile (isDigit b) = [] then none
  else some (numVal b (s.takeWhile (isDigit b)), s.dropWhile (isDigit b))

theorem digitChar_toNat {d : Nat} (h : d < 10) : (digitChar d).toNat = 48 + d := by
  unfold digitChar
  simp only [UInt8.toNat_ofNat']
  omega

theorem isDigit_digitChar {b d : Nat} (hb : b ≤ 10) (h : d < b) : isDigit b (digitChar d) = true := by
  unfold isDigit
  rw [digitChar_toNat (by omega)]
  simp; omega

theorem digits_lt {b n : Nat} (h : n < b) : digits b n = [digitChar n] := by
  rw [digits]; simp [h]

theorem digits_ge {b n : Nat} (hb : 2 ≤ b) (h : b ≤ n) :
    digits b n = digits b (n / b) ++ [digitChar (n % b)] := by
  rw [digits, dif_neg]; omega

theorem digits_ne_nil (b n : Nat) : digits b n ≠ [] := by
  rw [digits]; split <;> simp

theorem digits_length_pos (b n : Nat) : 0 < (digits b n).length :=
  List.length_pos_iff.2 (digits_ne_nil b n)

theorem digits_isDigit {b : Nat} (hb2 : 2 ≤ b) (hb : b ≤ 10) (n : Nat) :
    ∀ c ∈ digits b n, isDigit b c = true := by
  induction n using Nat.strongRecOn with
  | ind n ih =>
    intro c hc
    by_cases h : n < b
    · rw [digits_lt h] at hc
      simp at hc; subst hc; exact isDigit_digitChar hb h
    · rw [digits_ge hb2 (by omega)] at hc
      rcases List.mem_append.1 hc with hc | hc
      · exact ih (n / b) (Nat.div_lt_self (by omega) (by omega)) c hc
      · simp at hc; subst hc
        exact isDigit_digitChar hb (Nat.mod_lt _ (by omega))

theorem numVal_append (b : Nat) (xs : Bytes) (c : UInt8) :
    numVal b (xs ++ [c]) = numVal b xs * b + (c.toNat - 48) := by
  simp [numVal, List.foldl_append]

theorem numVal_digits {b : Nat} (hb2 : 2 ≤ b) (hb : b ≤ 10) (n : Nat) :
    numVal b (digits b n) = n := by
  induction n using Nat.strongRecOn with
  | ind n ih =>
    by_cases h : n < b
    · rw [digits_lt h]
      simp only [numVal, List.foldl]
      rw [digitChar_toNat (by omega)]; omega
    · rw [digits_ge hb2 (by omega), numVal_append,
        ih (n / b) (Nat.div_lt_self (by omega) (by omega)),
        digitChar_toNat (by have := Nat.mod_lt n (show 0 < b by omega); omega)]
      have := Nat.div_add_mod n b
      rw [Nat.mul_comm] at this; omega

theorem numVal_zeros_append (b k : Nat) (s : Bytes) :
    numVal b (List.replicate k 48 ++ s) = numVal b s := by
  induction k with
  | zero => simp
  | succ k ih =>
    rw [List.replicate_succ, List.cons_append]
    unfold numVal at *
    simpa using ih

/-- `n < b^k` needs at most `k` digits. -/
theorem digits_length_le {b : Nat} (hb : 2 ≤ b) : ∀ (k n : Nat), 0 < k → n < b ^ k →
    (digits b n).length ≤ k := by
  intro k
  induction k with
  | zero => intro n h; omega
  | succ k ih =>
    intro n _ hn
    by_cases h : n < b
    · rw [digits_lt h]; simp
    · rw [digits_ge hb (by omega)]
      have hk : 0 < k := by
        rcases Nat.eq_zero_or_pos k with h0 | h0
        · subst h0; simp at hn; omega
        · exact h0
      have : n / b < b ^ k := by
        rw [Nat.pow_succ] at hn
        exact (Nat.div_lt_iff_lt_mul (by omega)).2 hn
      have := ih (n / b) hk this
      simp; omega

/-- A number of at least `b^k` needs more than `k` digits. -/
theorem lt_digits_length {b : Nat} (hb : 2 ≤ b) : ∀ (k n : Nat), b ^ k ≤ n →
    k < (digits b n).length := by
  intro k
  induction k with
  | zero => intro n _; exact digits_length_pos b n
  | succ k ih =>
    intro n hn
    have hbn : b ≤ n := by
      rw [Nat.pow_succ] at hn
      have : 1 ≤ b ^ k := Nat.one_le_pow _ _ (by omega)
      have : 1 * b ≤ b ^ k * b := Nat.mul_le_mul_right _ this
      omega
    rw [digits_ge hb hbn]
    have : b ^ k ≤ n / b := by
      rw [Nat.pow_succ] at hn
      exact (Nat.le_div_iff_mul_le (by omega)).2 hn
    have := ih (n / b) this
    simp; omega

theorem lt_pow_digits_length {b : Nat} (hb : 2 ≤ b) (n : Nat) : n < b ^ (digits b n).length := by
  rcases Nat.lt_or_ge n (b ^ (digits b n).length) with h | h
  · exact h
  · have := lt_digits_length hb _ _ h; omega

theorem pow_pred_digits_length_le {b : Nat} (hb : 2 ≤ b) (n : Nat) (hn : 0 < n) :
    b ^ ((digits b n).length - 1) ≤ n := by
  rcases Nat.lt_or_ge n (b ^ ((digits b n).length - 1)) with h | h
  · have hp := digits_length_pos b n
    by_cases h1 : (digits b n).length = 1
    · rw [h1] at h; simp at h; omega
    · have := digits_length_le hb _ _ (by omega) h; omega
  · exact h

theorem takeWhile_append_of_all {p : UInt8 → Bool} (xs ys : Bytes) (hx : ∀ c ∈ xs, p c = true)
    (hy : ∀ c, ys.head? = some c → p c = false) : (xs ++ ys).takeWhile p = xs := by
  induction xs with
  | nil =>
    cases ys with
    | nil => rfl
    | cons y ys => simp [hy y rfl]
  | cons x xs ih =>
    simp only [List.cons_append, List.takeWhile, hx x (by simp)]
    rw [ih (fun c hc => hx c (by simp [hc]))]

theorem dropWhile_append_of_all {p : UInt8 → Bool} (xs ys : Bytes) (hx : ∀ c ∈ xs, p c = true)
    (hy : ∀ c, ys.head? = some c → p c = false) : (xs ++ ys).dropWhile p = ys := by
  induction xs with
  | nil =>
    cases ys with
    | nil => rfl
    | cons y ys => simp [hy y rfl]
  | cons x xs ih =>
    simp only [List.cons_append, List.dropWhile, hx x (by simp)]
    rw [ih (fun c hc => hx c (by simp [hc]))]

theorem readNum_digits {b : Nat} (hb2 : 2 ≤ b) (hb : b ≤ 10) (n : Nat) (rest : Bytes)
    (hr : ∀ c, rest.head? = some c → isDigit b c = false) :
    readNum b (digits b n ++ rest) = some (n, rest) := by
  unfold readNum
  rw [takeWhile_append_of_all _ _ (digits_isDigit hb2 hb n) hr,
    dropWhile_append_of_all _ _ (digits_isDigit hb2 hb n) hr, numVal_digits hb2 hb]
  simp [digits_ne_nil]

theorem zpad_length (w : Nat) (s : Bytes) (h : s.length ≤ w) : (zpad w s).length = w := by
  simp [zpad]; omega

theorem zpad_isDigit {b : Nat} (hb2 : 2 ≤ b) (hb : b ≤ 10) (w n : Nat) :
    ∀ c ∈ zpad w (digits b n), isDigit b c = true := by
  intro c hc
  unfold zpad at hc
  rcases List.mem_append.1 hc with h | h
  · have := List.eq_of_mem_replicate h; subst this
    simp [isDigit]; omega
  · exact digits_isDigit hb2 hb n c h

theorem readNum_zpad {b : Nat} (hb2 : 2 ≤ b) (hb : b ≤ 10) (w n : Nat) (rest : Bytes)
    (hr : ∀ c, rest.head? = some c → isDigit b c = false) :
    readNum b (zpad w (digits b n) ++ rest) = some (n, rest) := by
  unfold readNum
  rw [takeWhile_append_of_all _ _ (zpad_isDigit hb2 hb w n) hr,
    dropWhile_append_of_all _ _ (zpad_isDigit hb2 hb w n) hr]
  rw [show numVal b (zpad w (digits b n)) = n by
    unfold zpad; rw [numVal_zeros_append, numVal_digits hb2 hb]]
  have : zpad w (digits b n) ≠ [] := by
    unfold zpad; simp [digits_ne_nil]
  simp [this]

/-! ### block rounding -/

theorem roundToBlock_mod (n : Nat) : roundToBlock n % 512 = 0 := by
  unfold roundToBlock blk; omega

theorem le_roundToBlock (n : Nat) : n ≤ roundToBlock n := by
  unfold roundToBlock blk; omega

theorem roundToBlock_lt (n : Nat) : roundToBlock n < n + 512 := by
  unfold roundToBlock blk; omega

theorem roundToBlock_of_mod {n : Nat} (h : n % 512 = 0) : roundToBlock n = n := by
  unfold roundToBlock blk; omega

theorem roundToBlock_add_of_mod {a : Nat} (b : Nat) (h : a % 512 = 0) :
    roundToBlock (a + b) = a + roundToBlock b := by
  unfold roundToBlock blk; omega

end Parfu
