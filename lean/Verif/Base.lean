/-
Shared vocabulary of the parfu model: byte strings, C outcomes, number formatting
and block rounding.
-/
set_option autoImplicit false

namespace Parfu

/-- A byte string: a C++ `std::string`, a `char` buffer or file contents. -/
abbrev Bytes := List UInt8

/-- How a C/C++ call can fail to return normally.  Undefined behaviour is an outcome of its own. -/
inductive Err where
  /-- `exit(code)` or uncaught exception ends the process. -/
  | exit (code : Nat)
  /-- An `assert` fails (`abort`). -/
  | assertFail
  /-- A C++ exception is thrown. -/
  | thrown
  /-- Undefined behaviour (out-of-bounds access, null dereference, use of an invalid handle). -/
  | ub
  /-- The call never returns (an endless loop). -/
  | hang
  deriving DecidableEq, Repr

/-- Result of a C/C++ call. -/
abbrev Res (α : Type) := Except Err α

/-- Results can be compared (needed only to evaluate concrete examples). -/
instance decEqExcept {ε α : Type} [DecidableEq ε] [DecidableEq α] : DecidableEq (Except ε α)
  | .ok a, .ok b => if h : a = b then isTrue (by rw [h]) else isFalse (by intro g; cases g; exact h rfl)
  | .error a, .error b =>
    if h : a = b then isTrue (by rw [h]) else isFalse (by intro g; cases g; exact h rfl)
  | .ok _, .error _ => isFalse (by intro g; cases g)
  | .error _, .ok _ => isFalse (by intro g; cases g)

/-- ASCII digit `d` (`0..9`). -/
def digitChar (d : Nat) : UInt8 := UInt8.ofNat (48 + d)

/-- Digits of `n` in base `b`, most significant first, no leading zeros: what `%o`/`%d`/`%zu`
and `std::to_string` print for an unsigned number (used for `b = 8` and `b = 10`). -/
def digits (b : Nat) (n : Nat) : Bytes :=
  if _h : n < b ∨ b < 2 then [digitChar n] else digits b (n / b) ++ [digitChar (n % b)]
termination_by n
decreasing_by
  simp only [not_or, Nat.not_lt] at _h
  exact Nat.div_lt_self (by omega) (by omega)

/-- `std::to_string`/`%d` for a signed number. -/
def decInt : Int → Bytes
  | .ofNat n => digits 10 n
  | .negSucc n => 45 :: digits 10 (n + 1)

/-- Left-pad with ASCII zeros to width `w` (`%0*o`). -/
def zpad (w : Nat) (s : Bytes) : Bytes := List.replicate (w - s.length) 48 ++ s

/-- `n` zero bytes. -/
def zeros (n : Nat) : Bytes := List.replicate n 0

/-- A value stored in an unsigned 64-bit variable. -/
def u64 (x : Int) : Nat := (x % (2 ^ 64 : Int)).toNat

/-- `a - b` in `unsigned long` arithmetic. -/
def usub64 (a b : Nat) : Nat := if b ≤ a then a - b else 2 ^ 64 + a - b

/-- tarentry.hh:64 `BLOCKSIZE`. -/
def blk : Nat := 512

/-- tarentry.hh:114-116 `round_to_block` : `(sz + BLOCKSIZE-1) & ~(BLOCKSIZE-1)`, written
arithmetically (BLOCKSIZE is a power of two). -/
def roundToBlock (sz : Nat) : Nat := (sz + (blk - 1)) / blk * blk

end Parfu
