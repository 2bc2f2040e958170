/-
Lemmas about printing and parsing transfer orders.
-/
import Verif.March
import Mathlib.Data.Fintype.Pigeonhole
import Mathlib.Data.Fintype.Card
set_option autoImplicit false

namespace Parfu

theorem find32_found (pre f rest : Bytes) (sep : UInt8) (hf : sep ∉ f)
    (hl : (pre ++ f ++ sep :: rest).length < npos32) :
    find32 (pre ++ f ++ sep :: rest) sep pre.length = pre.length + f.length := by
  unfold find32
  have e : (pre ++ f ++ sep :: rest).drop pre.length = f ++ sep :: rest := by
    rw [List.append_assoc, List.drop_left]
  rw [e, if_pos (by simp)]
  rw [List.idxOf_append_of_notMem hf]
  simp only [List.idxOf_cons_self, Nat.add_zero]
  unfold npos32 at hl
  simp at hl
  omega

theorem find32_missing (buf : Bytes) (sep : UInt8) (n : Nat) (h : sep ∉ buf.drop n) :
    find32 buf sep n = npos32 := by
  unfold find32; rw [if_neg h]

theorem nextField_at (pre f rest : Bytes) (sep : UInt8) (hf : sep ∉ f)
    (hl : (pre ++ f ++ sep :: rest).length < npos32) :
    nextField (pre ++ f ++ sep :: rest) sep pre.length = .ok (f, (pre ++ f ++ [sep]).length) := by
  unfold nextField substr32
  rw [find32_found pre f rest sep hf hl]
  have e : (pre ++ f ++ sep :: rest).drop pre.length = f ++ sep :: rest := by
    rw [List.append_assoc, List.drop_left]
  rw [e]
  unfold npos32 at hl
  simp only [List.length_append, List.length_cons] at hl
  rw [if_neg (by simp only [List.length_append, List.length_cons]; omega)]
  have : (2 ^ 32 + (pre.length + f.length) - pre.length) % 2 ^ 32 = f.length := by omega
  rw [this]
  simp only [List.take_left', List.length_append, List.length_cons, List.length_nil]
  congr 2
  omega

/-- Join of eight fields into a line. -/
def lineOf (f0 f1 f2 f3 f4 f5 f6 f7 : Bytes) : Bytes :=
  f0 ++ [9] ++ f1 ++ [9] ++ f2 ++ [9] ++ f3 ++ [9] ++ f4 ++ [9] ++ f5 ++ [9] ++ f6 ++ [9] ++ f7 ++ [10]

/-- What is left of a line's parse once the fields have been cut out. -/
def lineVal (f0 f1 f2 f3 f4 f5 f6 f7 : Bytes) : Res WOrder := do
  let idx ← stoi f0
  let ty ← (match f2.head? with | some c => .ok c | none => .error Err.thrown : Res UInt8)
  let size ← stoi f4
  let hdr ← stoi f5
  let pos ← stoi f6
  let off ← stoi f7
  return { idx := idx, rel := f1, type := ty, target := f3, size := u64 size,
           hdr := (hdr % 2 ^ 32).toNat, pos := u64 pos, off := u64 off }

/-- `find` of a newline from the start of a line finds something inside the buffer. -/
theorem find_newline (pre line rest : Bytes) (h : (10 : UInt8) ∈ line)
    (hl : (pre ++ line ++ rest).length < npos32) :
    find32 (pre ++ line ++ rest) 10 pre.length ≤ (pre ++ line ++ rest).length := by
  unfold find32
  have e : (pre ++ line ++ rest).drop pre.length = line ++ rest := by
    rw [List.append_assoc, List.drop_left]
  rw [e, if_pos (by simp [h])]
  have hi := List.idxOf_lt_length_iff.2 (show (10 : UInt8) ∈ line ++ rest by simp [h])
  refine Nat.le_trans (Nat.mod_le _ _) ?_
  simp only [List.length_append] at hi ⊢
  omega

theorem parseLine_eight (pre rest f0 f1 f2 f3 f4 f5 f6 f7 : Bytes)
    (h0 : (9 : UInt8) ∉ f0) (h1 : (9 : UInt8) ∉ f1) (h2 : (9 : UInt8) ∉ f2) (h3 : (9 : UInt8) ∉ f3)
    (h4 : (9 : UInt8) ∉ f4) (h5 : (9 : UInt8) ∉ f5) (h6 : (9 : UInt8) ∉ f6) (h7 : (10 : UInt8) ∉ f7)
    (hl : (pre ++ lineOf f0 f1 f2 f3 f4 f5 f6 f7 ++ rest).length < npos32) :
    parseLine (pre ++ lineOf f0 f1 f2 f3 f4 f5 f6 f7 ++ rest) pre.length =
      (match lineVal f0 f1 f2 f3 f4 f5 f6 f7 with
       | .error e => .error e
       | .ok w => .ok (w, (pre ++ lineOf f0 f1 f2 f3 f4 f5 f6 f7).length)) := by
  have hn := find_newline pre (lineOf f0 f1 f2 f3 f4 f5 f6 f7) rest (by simp [lineOf]) hl
  generalize hb : pre ++ lineOf f0 f1 f2 f3 f4 f5 f6 f7 ++ rest = buf at *
  have n0 : nextField buf 9 pre.length = .ok (f0, (pre ++ f0 ++ [9]).length) := by
    have e : buf = pre ++ f0 ++ 9 :: (f1 ++ [9] ++ f2 ++ [9] ++ f3 ++ [9] ++ f4 ++ [9] ++ f5 ++ [9] ++ f6 ++ [9] ++ f7 ++ [10] ++ rest) := by
      rw [← hb]; simp [lineOf]
    rw [e]; rw [e] at hl; exact nextField_at _ _ _ _ h0 hl
  have n1 : nextField buf 9 (pre ++ f0 ++ [9]).length = .ok (f1, (pre ++ f0 ++ [9] ++ f1 ++ [9]).length) := by
    have e : buf = (pre ++ f0 ++ [9]) ++ f1 ++ 9 :: (f2 ++ [9] ++ f3 ++ [9] ++ f4 ++ [9] ++ f5 ++ [9] ++ f6 ++ [9] ++ f7 ++ [10] ++ rest) := by
      rw [← hb]; simp [lineOf]
    rw [e]; rw [e] at hl; exact nextField_at _ _ _ _ h1 hl
  have n2 : nextField buf 9 (pre ++ f0 ++ [9] ++ f1 ++ [9]).length =
      .ok (f2, (pre ++ f0 ++ [9] ++ f1 ++ [9] ++ f2 ++ [9]).length) := by
    have e : buf = (pre ++ f0 ++ [9] ++ f1 ++ [9]) ++ f2 ++ 9 :: (f3 ++ [9] ++ f4 ++ [9] ++ f5 ++ [9] ++ f6 ++ [9] ++ f7 ++ [10] ++ rest) := by
      rw [← hb]; simp [lineOf]
    rw [e]; rw [e] at hl; exact nextField_at _ _ _ _ h2 hl
  have n3 : nextField buf 9 (pre ++ f0 ++ [9] ++ f1 ++ [9] ++ f2 ++ [9]).length =
      .ok (f3, (pre ++ f0 ++ [9] ++ f1 ++ [9] ++ f2 ++ [9] ++ f3 ++ [9]).length) := by
    have e : buf = (pre ++ f0 ++ [9] ++ f1 ++ [9] ++ f2 ++ [9]) ++ f3 ++ 9 :: (f4 ++ [9] ++ f5 ++ [9] ++ f6 ++ [9] ++ f7 ++ [10] ++ rest) := by
      rw [← hb]; simp [lineOf]
    rw [e]; rw [e] at hl; exact nextField_at _ _ _ _ h3 hl
  have n4 : nextField buf 9 (pre ++ f0 ++ [9] ++ f1 ++ [9] ++ f2 ++ [9] ++ f3 ++ [9]).length =
      .ok (f4, (pre ++ f0 ++ [9] ++ f1 ++ [9] ++ f2 ++ [9] ++ f3 ++ [9] ++ f4 ++ [9]).length) := by
    have e : buf = (pre ++ f0 ++ [9] ++ f1 ++ [9] ++ f2 ++ [9] ++ f3 ++ [9]) ++ f4 ++ 9 :: (f5 ++ [9] ++ f6 ++ [9] ++ f7 ++ [10] ++ rest) := by
      rw [← hb]; simp [lineOf]
    rw [e]; rw [e] at hl; exact nextField_at _ _ _ _ h4 hl
  have n5 : nextField buf 9 (pre ++ f0 ++ [9] ++ f1 ++ [9] ++ f2 ++ [9] ++ f3 ++ [9] ++ f4 ++ [9]).length =
      .ok (f5, (pre ++ f0 ++ [9] ++ f1 ++ [9] ++ f2 ++ [9] ++ f3 ++ [9] ++ f4 ++ [9] ++ f5 ++ [9]).length) := by
    have e : buf = (pre ++ f0 ++ [9] ++ f1 ++ [9] ++ f2 ++ [9] ++ f3 ++ [9] ++ f4 ++ [9]) ++ f5 ++ 9 :: (f6 ++ [9] ++ f7 ++ [10] ++ rest) := by
      rw [← hb]; simp [lineOf]
    rw [e]; rw [e] at hl; exact nextField_at _ _ _ _ h5 hl
  have n6 : nextField buf 9 (pre ++ f0 ++ [9] ++ f1 ++ [9] ++ f2 ++ [9] ++ f3 ++ [9] ++ f4 ++ [9] ++ f5 ++ [9]).length =
      .ok (f6, (pre ++ f0 ++ [9] ++ f1 ++ [9] ++ f2 ++ [9] ++ f3 ++ [9] ++ f4 ++ [9] ++ f5 ++ [9] ++ f6 ++ [9]).length) := by
    have e : buf = (pre ++ f0 ++ [9] ++ f1 ++ [9] ++ f2 ++ [9] ++ f3 ++ [9] ++ f4 ++ [9] ++ f5 ++ [9]) ++ f6 ++ 9 :: (f7 ++ [10] ++ rest) := by
      rw [← hb]; simp [lineOf]
    rw [e]; rw [e] at hl; exact nextField_at _ _ _ _ h6 hl
  have n7 : nextField buf 10 (pre ++ f0 ++ [9] ++ f1 ++ [9] ++ f2 ++ [9] ++ f3 ++ [9] ++ f4 ++ [9] ++ f5 ++ [9] ++ f6 ++ [9]).length =
      .ok (f7, (pre ++ lineOf f0 f1 f2 f3 f4 f5 f6 f7).length) := by
    have e : buf = (pre ++ f0 ++ [9] ++ f1 ++ [9] ++ f2 ++ [9] ++ f3 ++ [9] ++ f4 ++ [9] ++ f5 ++ [9] ++ f6 ++ [9]) ++ f7 ++ 10 :: rest := by
      rw [← hb]; simp [lineOf]
    have := nextField_at (pre ++ f0 ++ [9] ++ f1 ++ [9] ++ f2 ++ [9] ++ f3 ++ [9] ++ f4 ++ [9] ++ f5 ++ [9] ++ f6 ++ [9]) f7 rest 10 h7 (by rw [← e]; exact hl)
    rw [← e] at this
    rw [this]; simp [lineOf]
  unfold parseLine lineVal
  rw [if_neg (by omega)]
  simp only [pure_bind, n0, n1, n2, n3, n4, n5, n6, n7, bind, Except.bind, pure, Except.pure]
  cases stoi f0 <;> simp only [] 
  cases f2.head? <;> simp only []
  cases stoi f4 <;> simp only []
  cases stoi f5 <;> simp only []
  cases stoi f6 <;> simp only []
  cases stoi f7 <;> simp only []

/-! ### stoi of printed numbers -/

theorem readNum_digits_nil (n : Nat) : readNum 10 (digits 10 n) = some (n, []) := by
  have := readNum_digits (b := 10) (by omega) (by omega) n [] (by simp)
  simpa using this

theorem digits_head (n : Nat) : ∃ c, (digits 10 n).head? = some c ∧ isDigit 10 c = true := by
  have h := digits_isDigit (b := 10) (by omega) (by omega) n
  cases hd : digits 10 n with
  | nil => exact absurd hd (digits_ne_nil 10 n)
  | cons c cs => exact ⟨c, rfl, h c (by simp [hd])⟩

theorem isDigit_not_space {c : UInt8} (h : isDigit 10 c = true) : isSpace c = false := by
  simp only [isDigit, Bool.and_eq_true, decide_eq_true_eq] at h
  simp only [isSpace, Bool.or_eq_false_iff, beq_eq_false_iff_ne, Bool.and_eq_false_iff,
    decide_eq_false_iff_not, Nat.not_le]
  refine ⟨?_, Or.inr (by omega)⟩
  intro e; subst e; revert h; decide

theorem dropWhile_head_false {p : UInt8 → Bool} {s : Bytes} {c : UInt8} (h : s.head? = some c)
    (hp : p c = false) : s.dropWhile p = s := by
  cases s with
  | nil => rfl
  | cons x xs => simp at h; subst h; simp [hp]

theorem isDigit_not_sign {c : UInt8} (h : isDigit 10 c = true) : c ≠ 45 ∧ c ≠ 43 := by
  constructor <;> (intro e; subst e; revert h; decide)

theorem stoi_digits (n : Nat) :
    stoi (digits 10 n) = if n < 2 ^ 31 then .ok (n : Int) else .error .thrown := by
  obtain ⟨c, hc, hd⟩ := digits_head n
  unfold stoi
  have hs := isDigit_not_sign hd
  rw [dropWhile_head_false hc (isDigit_not_space hd)]
  simp only [hc, Option.some.injEq, hs.1, hs.2, or_self, if_false]
  rw [readNum_digits_nil]
  have : (some c == some (45 : UInt8)) = false := by simp [hs.1]
  simp only [this]
  by_cases h : n < 2 ^ 31
  · rw [if_pos h]; rw [if_pos]
    · rfl
    · simp only [Bool.false_eq_true, if_false]; omega
  · rw [if_neg h]; rw [if_neg]
    simp only [Bool.false_eq_true, if_false]; omega

theorem stoi_neg (n : Nat) :
    stoi (45 :: digits 10 n) = if n ≤ 2 ^ 31 then .ok (-(n : Int)) else .error .thrown := by
  unfold stoi
  have e : (45 :: digits 10 n).dropWhile isSpace = 45 :: digits 10 n := by
    apply dropWhile_head_false (c := 45) rfl; decide
  rw [e]
  simp only [List.head?_cons, true_or, if_true, List.drop_succ_cons, List.drop_zero]
  rw [readNum_digits_nil]
  simp only [beq_self_eq_true, if_true]
  by_cases h : n ≤ 2 ^ 31
  · rw [if_pos h]; rw [if_pos]; omega
  · rw [if_neg h]; rw [if_neg]; omega

theorem stoi_decInt (i : Int) (h1 : -(2 ^ 31) ≤ i) (h2 : i < 2 ^ 31) : stoi (decInt i) = .ok i := by
  cases i with
  | ofNat n => simp only [decInt]; rw [stoi_digits, if_pos]; · rfl
               · simp at h2; omega
  | negSucc n => simp only [decInt]; rw [stoi_neg, if_pos]; · rw [Int.negSucc_eq]; rfl
                 · rw [Int.negSucc_eq] at h1; omega

theorem digits_no (c : UInt8) (hc : isDigit 10 c = false) (n : Nat) : c ∉ digits 10 n := by
  intro h
  rw [digits_isDigit (b := 10) (by omega) (by omega) n c h] at hc
  exact absurd hc (by simp)

theorem decInt_no (c : UInt8) (hc : isDigit 10 c = false) (h45 : c ≠ 45) (i : Int) : c ∉ decInt i := by
  cases i with
  | ofNat n => exact digits_no c hc n
  | negSucc n =>
    simp only [decInt, List.mem_cons, not_or]
    exact ⟨h45, digits_no c hc _⟩

theorem typeChar_no (k : Kind) : (9 : UInt8) ∉ [typeChar k] := by cases k <;> decide

/-- An order whose names contain no separator. -/
def CleanNames (o : Order) : Prop :=
  (9 : UInt8) ∉ o.rel ∧ (9 : UInt8) ∉ o.target

theorem printOrder_line (o : Order) :
    printOrder o = lineOf (decInt o.idx) o.rel [typeChar o.kind] o.target (digits 10 o.size)
      (digits 10 o.hdr) (digits 10 o.pos) (digits 10 o.off) := rfl

theorem printOrder_ne_nil (o : Order) : printOrder o ≠ [] := by
  simp [printOrder]

theorem u64_nat {n : Nat} (h : n < 2 ^ 64) : u64 (n : Int) = n := by unfold u64; omega

/-- Value of a printed line: all numbers must be below 2^31. -/
theorem lineVal_print (o : Order) (h1 : -(2 ^ 31) ≤ o.idx) (h2 : o.idx < 2 ^ 31) :
    lineVal (decInt o.idx) o.rel [typeChar o.kind] o.target (digits 10 o.size)
      (digits 10 o.hdr) (digits 10 o.pos) (digits 10 o.off) =
    if o.size < 2 ^ 31 ∧ o.hdr < 2 ^ 31 ∧ o.pos < 2 ^ 31 ∧ o.off < 2 ^ 31 then
      .ok { idx := o.idx, rel := o.rel, type := typeChar o.kind, target := o.target, size := o.size,
            hdr := o.hdr, pos := o.pos, off := o.off }
    else .error .thrown := by
  unfold lineVal
  rw [stoi_decInt _ h1 h2]
  simp only [bind, Except.bind, List.head?_cons, stoi_digits]
  by_cases a : o.size < 2 ^ 31
  · by_cases b : o.hdr < 2 ^ 31
    · by_cases c : o.pos < 2 ^ 31
      · by_cases d : o.off < 2 ^ 31
        · rw [if_pos a, if_pos b, if_pos c, if_pos d, if_pos ⟨a, b, c, d⟩]
          simp only [pure, Except.pure]
          rw [u64_nat (by omega), u64_nat (by omega), u64_nat (by omega)]
          have : ((o.hdr : Int) % 2 ^ 32).toNat = o.hdr := by omega
          rw [this]
        · rw [if_pos a, if_pos b, if_pos c, if_neg d, if_neg (show ¬(o.size < 2 ^ 31 ∧ o.hdr < 2 ^ 31 ∧ o.pos < 2 ^ 31 ∧ o.off < 2 ^ 31) from fun h => d h.2.2.2)]
      · rw [if_pos a, if_pos b, if_neg c, if_neg (show ¬(o.size < 2 ^ 31 ∧ o.hdr < 2 ^ 31 ∧ o.pos < 2 ^ 31 ∧ o.off < 2 ^ 31) from fun h => c h.2.2.1)]
    · rw [if_pos a, if_neg b, if_neg (show ¬(o.size < 2 ^ 31 ∧ o.hdr < 2 ^ 31 ∧ o.pos < 2 ^ 31 ∧ o.off < 2 ^ 31) from fun h => b h.2.1)]
  · rw [if_neg a, if_neg (show ¬(o.size < 2 ^ 31 ∧ o.hdr < 2 ^ 31 ∧ o.pos < 2 ^ 31 ∧ o.off < 2 ^ 31) from fun h => a h.1)]

theorem parseLine_print (pre rest : Bytes) (o : Order) (hc : CleanNames o)
    (h1 : -(2 ^ 31) ≤ o.idx) (h2 : o.idx < 2 ^ 31)
    (hl : (pre ++ printOrder o ++ rest).length < npos32) :
    parseLine (pre ++ printOrder o ++ rest) pre.length =
      if o.size < 2 ^ 31 ∧ o.hdr < 2 ^ 31 ∧ o.pos < 2 ^ 31 ∧ o.off < 2 ^ 31 then
        .ok ({ idx := o.idx, rel := o.rel, type := typeChar o.kind, target := o.target,
               size := o.size, hdr := o.hdr, pos := o.pos, off := o.off },
             (pre ++ printOrder o).length)
      else .error .thrown := by
  rw [printOrder_line] at hl ⊢
  rw [parseLine_eight pre rest _ _ _ _ _ _ _ _ (decInt_no 9 (by decide) (by decide) _) hc.1
    (typeChar_no _) hc.2 (digits_no 9 (by decide) _) (digits_no 9 (by decide) _)
    (digits_no 9 (by decide) _) (digits_no 10 (by decide) _) hl, lineVal_print o h1 h2]
  split <;> rename_i h <;> split at h <;> simp_all

/-! ### running out of fuel is running forever -/

/-- `line_begin` after `n` iterations, if the loop is still running then. -/
def lbAt (buf : Bytes) : Nat → Nat → Option Nat
  | 0, lb => if lb < buf.length then some lb else none
  | n + 1, lb =>
    if lb < buf.length then
      match parseLine buf lb with
      | .error _ => none
      | .ok r => lbAt buf n r.2
    else none

theorem parseLine_no_hang (buf : Bytes) (lb : Nat) : parseLine buf lb ≠ .error .hang := by
  have hs : ∀ s, stoi s ≠ .error .hang := by
    intro s; unfold stoi; simp only []; split
    · simp
    · split <;> split <;> simp
  have hn : ∀ sep e, nextField buf sep e ≠ .error .hang := by
    intro sep e
    unfold nextField substr32
    split
    · rename_i h; split at h <;> simp at h; subst h; simp
    · simp
  have hbind : ∀ {α β : Type} (x : Res α) (f : α → Res β), x ≠ .error .hang →
      (∀ a, f a ≠ .error .hang) → (x >>= f) ≠ .error .hang := by
    intro α β x f hx hf
    cases x with
    | error e => simpa [bind, Except.bind] using hx
    | ok a => simpa [bind, Except.bind] using hf a
  unfold parseLine
  split
  · simp
  apply hbind _ _ (hn _ _); intro _
  apply hbind _ _ (hs _); intro _
  apply hbind _ _ (hn _ _); intro _
  apply hbind _ _ (hn _ _); intro _
  apply hbind
  · split <;> simp
  intro _
  apply hbind _ _ (hn _ _); intro _
  apply hbind _ _ (hn _ _); intro _
  apply hbind _ _ (hs _); intro _
  apply hbind _ _ (hn _ _); intro _
  apply hbind _ _ (hs _); intro _
  apply hbind _ _ (hn _ _); intro _
  apply hbind _ _ (hs _); intro _
  apply hbind _ _ (hn _ _); intro _
  apply hbind _ _ (hs _); intro _
  simp [pure, Except.pure]

theorem hang_iff_lbAt (buf : Bytes) : ∀ n lb,
    parseLoop buf n lb = .error .hang ↔ (lbAt buf n lb).isSome = true := by
  intro n
  induction n with
  | zero => intro lb; unfold parseLoop lbAt; split <;> simp
  | succ n ih =>
    intro lb
    unfold parseLoop lbAt
    split
    · cases h : parseLine buf lb with
      | error e =>
        have := parseLine_no_hang buf lb
        rw [h] at this
        simpa using this
      | ok r =>
        have := ih r.2
        simp only []
        rw [← this]
        cases parseLoop buf n r.2 <;> simp
    · simp

theorem lbAt_add (buf : Bytes) : ∀ m n lb,
    lbAt buf (m + n) lb = match lbAt buf m lb with | none => none | some x => lbAt buf n x := by
  intro m
  induction m with
  | zero =>
    intro n lb
    simp only [Nat.zero_add, lbAt]
    by_cases h : lb < buf.length
    · simp [h]
    · simp only [h, if_false]
      cases n <;> simp [lbAt, h]
  | succ m ih =>
    intro n lb
    rw [Nat.add_right_comm]
    simp only [lbAt]
    by_cases h : lb < buf.length
    · simp only [h, if_true]
      cases parseLine buf lb with
      | error e => rfl
      | ok r => exact ih n r.2
    · simp [h]

theorem lbAt_lt (buf : Bytes) : ∀ n lb x, lbAt buf n lb = some x → x < buf.length := by
  intro n
  induction n with
  | zero => intro lb x h; simp only [lbAt] at h; split at h <;> simp_all
  | succ n ih =>
    intro lb x h
    simp only [lbAt] at h
    split at h
    · cases hp : parseLine buf lb with
      | error e => simp [hp] at h
      | ok r => simp only [hp] at h; exact ih _ _ h
    · simp at h

theorem lbAt_prefix (buf : Bytes) (m n lb : Nat) (hmn : m ≤ n) (h : (lbAt buf n lb).isSome = true) :
    (lbAt buf m lb).isSome = true := by
  obtain ⟨k, rfl⟩ := Nat.exists_eq_add_of_le hmn
  rw [lbAt_add] at h
  cases hx : lbAt buf m lb with
  | none => simp [hx] at h
  | some x => rfl

theorem lbAt_periodic (buf : Bytes) (lb x i p : Nat) (hp : 0 < p) (hi : lbAt buf i lb = some x)
    (hj : lbAt buf p x = some x) : ∀ n, (lbAt buf n lb).isSome = true := by
  have hk : ∀ k, lbAt buf (k * p) x = some x := by
    intro k
    induction k with
    | zero =>
      have := lbAt_lt buf i lb x hi
      simp [lbAt, this]
    | succ k ih => rw [Nat.succ_mul, lbAt_add, ih]; exact hj
  intro n
  have : (lbAt buf (i + n * p) lb).isSome = true := by rw [lbAt_add, hi]; simp [hk]
  exact lbAt_prefix buf n _ lb (by have := Nat.le_mul_of_pos_right n hp; omega) this

/-- If the loop has not stopped after `length` iterations it never stops. -/
theorem hang_forever (buf : Bytes) (lb : Nat) (h : parseLoop buf buf.length lb = .error .hang) :
    ∀ n, parseLoop buf n lb = .error .hang := by
  intro n
  rw [hang_iff_lbAt] at h ⊢
  have hs : ∀ i : Fin (buf.length + 1), ∃ x : Fin buf.length, lbAt buf i lb = some x.1 := by
    intro i
    have := lbAt_prefix buf i buf.length lb (by omega) h
    obtain ⟨x, hx⟩ := Option.isSome_iff_exists.1 this
    exact ⟨⟨x, lbAt_lt buf _ _ _ hx⟩, hx⟩
  choose f hf using hs
  obtain ⟨i, j, hij, e⟩ := Fintype.exists_ne_map_eq_of_card_lt f (by simp)
  have key : ∀ i j : Fin (buf.length + 1), i.1 < j.1 → f i = f j → (lbAt buf n lb).isSome = true := by
    intro i j hlt e
    apply lbAt_periodic buf lb (f i).1 i.1 (j.1 - i.1) (by omega) (hf i)
    have h2 := hf j
    rw [show j.1 = i.1 + (j.1 - i.1) by omega, lbAt_add, hf i] at h2
    simp only [] at h2
    rw [h2, e]
  rcases Nat.lt_or_gt_of_ne (fun h => hij (Fin.ext h)) with h' | h'
  · exact key i j h' e
  · exact key j i h' e.symm

end Parfu
