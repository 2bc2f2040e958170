/-
Model of tarentry::serialize / tarentry::deserialize (tarentry.cc:86-125).
-/
import Verif.Base
set_option autoImplicit false

namespace Parfu

/-- `sizeof(struct stat)` on x86-64 Linux. -/
def statSize : Nat := 144

/-- A `tarentry` as these two functions see it: `statbuf` is only copied as `statSize` raw bytes. -/
structure RawEntry where
  statbuf : Bytes
  offset : Nat
  filename : Bytes
  linkname : Bytes
  deriving DecidableEq, Repr

/-- `k` little-endian bytes of `n`. -/
def leBytes : Nat → Nat → Bytes
  | 0, _ => []
  | k + 1, n => UInt8.ofNat (n % 256) :: leBytes k (n / 256)

/-- Value of little-endian bytes. -/
def leVal : Bytes → Nat
  | [] => 0
  | b :: bs => b.toNat + 256 * leVal bs

/-- tarentry.cc:109-125 `serialize` (x86-64: `size_t` is 8 bytes little-endian). -/
def serialize (e : RawEntry) : Bytes :=
  let sz := 8 + statSize + 8 + 8 + e.filename.length + 8 + e.linkname.length
  leBytes 8 sz ++ e.statbuf ++ leBytes 8 e.offset ++ leBytes 8 e.filename.length ++ e.filename ++
    leBytes 8 e.linkname.length ++ e.linkname

/-- Read `n` bytes at the pointer: fails (out of bounds) if the buffer is too short. -/
def readN (n : Nat) (p : Bytes) : Res (Bytes × Bytes) :=
  if p.length < n then .error .ub else .ok (p.take n, p.drop n)

/-- tarentry.cc:86-107 `deserialize` of a buffer into the object `old`; returns the size and the
new object.  `linkname` is left as it was when the stored length is 0 (line 98). -/
def deserialize (old : RawEntry) (buf : Bytes) : Res (Nat × RawEntry) := do
  let (szB, p) ← readN 8 buf
  let (stB, p) ← readN statSize p
  let (offB, p) ← readN 8 p
  let (fnlB, p) ← readN 8 p
  let (fn, p) ← readN (leVal fnlB) p
  let (lnlB, p) ← readN 8 p
  let (ln, p) ← (if leVal lnlB > 0 then readN (leVal lnlB) p else .ok (old.linkname, p))
  if leVal szB = buf.length - p.length then
    return (leVal szB, { statbuf := stB, offset := leVal offB, filename := fn, linkname := ln })
  else .error .assertFail

/-- Reading `n` entries one after the other, advancing by the returned size, each into a fresh
object. -/
def deserializeAll : Nat → Bytes → Res (List RawEntry × Bytes)
  | 0, buf => .ok ([], buf)
  | n + 1, buf => do
    let (sz, e) ← deserialize { statbuf := [], offset := 0, filename := [], linkname := [] } buf
    let (es, rest) ← deserializeAll n (buf.drop sz)
    return (e :: es, rest)

/-! ### lemmas -/

theorem leBytes_length (k n : Nat) : (leBytes k n).length = k := by
  induction k generalizing n with
  | zero => rfl
  | succ k ih => simp [leBytes, ih]

theorem leVal_leBytes (k n : Nat) (h : n < 256 ^ k) : leVal (leBytes k n) = n := by
  induction k generalizing n with
  | zero => simp at h; subst h; rfl
  | succ k ih =>
    simp only [leBytes, leVal]
    rw [ih (n / 256) (by rw [Nat.pow_succ] at h; omega), UInt8.toNat_ofNat']
    omega

theorem readN_append (a b : Bytes) (n : Nat) (h : a.length = n) : readN n (a ++ b) = .ok (a, b) := by
  subst h; simp [readN]

end Parfu
