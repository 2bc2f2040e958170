/-
Property theorems C06: entry serialization.
-/
import Verif.Serialize
set_option autoImplicit false

namespace Parfu.Props
open Parfu

/-- An object that exists in memory: the stat image has its size and the numbers fit. -/
structure RawOk (e : RawEntry) : Prop where
  stat : e.statbuf.length = 144
  off : e.offset < 2 ^ 64
  fn : e.filename.length < 2 ^ 32
  ln : e.linkname.length < 2 ^ 32

/-- **C06** Deserializing the serialized form of `e`, followed by anything, into an object without
a link name gives `e` back and the number of bytes of the serialized form. -/
theorem C06_roundtrip (old e : RawEntry) (rest : Bytes) (h : RawOk e) (hold : old.linkname = []) :
    deserialize old (serialize e ++ rest) = .ok ((serialize e).length, e) := by
  have key : ∀ n, n < 2 ^ 64 → leVal (leBytes 8 n) = n := fun n hn =>
    leVal_leBytes 8 n (by simpa using hn)
  have h1 := h.fn; have h2 := h.ln
  obtain ⟨st, off, fn, ln⟩ := e
  simp only at *
  have hs := h.stat
  simp only at hs
  unfold deserialize serialize
  simp only [List.append_assoc, bind, Except.bind]
  rw [readN_append _ _ 8 (leBytes_length 8 _)]
  simp only []
  rw [readN_append _ _ statSize hs]
  simp only []
  rw [readN_append _ _ 8 (leBytes_length 8 _)]
  simp only []
  rw [readN_append _ _ 8 (leBytes_length 8 _)]
  simp only []
  rw [key fn.length (by omega), readN_append _ _ fn.length rfl]
  simp only []
  rw [readN_append _ _ 8 (leBytes_length 8 _)]
  simp only []
  rw [key ln.length (by omega), key _ (by unfold statSize; omega)]
  by_cases hl : ln.length > 0
  · simp only [hl, if_true]
    rw [readN_append _ _ ln.length rfl]
    simp only []
    rw [if_pos (by simp [leBytes_length, hs, statSize]; omega), key _ h.off]
    simp [leBytes_length, hs, statSize, pure, Except.pure]; omega
  · have : ln = [] := by cases ln with
      | nil => rfl
      | cons a b => simp at hl
    subst this
    simp only [List.length_nil, Nat.lt_irrefl, if_false, gt_iff_lt, hold, List.nil_append]
    rw [if_pos (by simp [leBytes_length, hs, statSize]; omega), key _ h.off]
    simp [leBytes_length, hs, statSize, pure, Except.pure]; omega

/-- **C06** A stream of serialized entries is read back exactly, whatever follows it. -/
theorem C06_stream (es : List RawEntry) (rest : Bytes) (h : ∀ e ∈ es, RawOk e) :
    deserializeAll es.length ((es.map serialize).flatten ++ rest) = .ok (es, rest) := by
  induction es with
  | nil => rfl
  | cons e es ih =>
    simp only [List.length_cons, List.map_cons, List.flatten_cons, List.append_assoc]
    unfold deserializeAll
    rw [C06_roundtrip _ e _ (h e (by simp)) rfl]
    simp only [bind, Except.bind]
    rw [List.drop_left' rfl, ih (fun e he => h e (by simp [he]))]
    rfl

/-- **C06, limit**: into an object that still has a link name, an entry without one keeps the stale
link name (so the round trip needs a fresh object). -/
theorem C06_stale_link (old e : RawEntry) (rest : Bytes) (h : RawOk e) (he : e.linkname = [])
    (ho : old.linkname ≠ []) :
    ∃ r, deserialize old (serialize e ++ rest) = .ok ((serialize e).length, r) ∧
      r.linkname = old.linkname ∧ r ≠ e := by
  have key : ∀ n, n < 2 ^ 64 → leVal (leBytes 8 n) = n := fun n hn =>
    leVal_leBytes 8 n (by simpa using hn)
  have h1 := h.fn
  obtain ⟨st, off, fn, ln⟩ := e
  simp only at *
  subst he
  have hs := h.stat
  simp only at hs
  refine ⟨⟨st, off, fn, old.linkname⟩, ?_, rfl, by intro hh; injection hh; contradiction⟩
  unfold deserialize serialize
  simp only [List.append_assoc, bind, Except.bind]
  rw [readN_append _ _ 8 (leBytes_length 8 _)]
  simp only []
  rw [readN_append _ _ statSize hs]
  simp only []
  rw [readN_append _ _ 8 (leBytes_length 8 _)]
  simp only []
  rw [readN_append _ _ 8 (leBytes_length 8 _)]
  simp only []
  rw [key fn.length (by omega), readN_append _ _ fn.length rfl]
  simp only []
  rw [readN_append _ _ 8 (leBytes_length 8 _)]
  simp only []
  rw [key _ (by simp), key _ (by unfold statSize; simp; omega)]
  simp only [List.length_nil, Nat.lt_irrefl, if_false, gt_iff_lt, List.nil_append]
  rw [if_pos (by simp [leBytes_length, hs, statSize]; omega), key _ h.off]
  simp [leBytes_length, hs, statSize, pure, Except.pure]; omega

/-- Every truncation of a serialized entry is detected as an out-of-bounds read (undefined in the
code), never read as a different entry: the code relies on the whole buffer being there. -/
theorem C06_truncated_is_ub (old e : RawEntry) (h : RawOk e) (k : Nat) (hk : k < (serialize e).length) :
    ∃ er, deserialize old ((serialize e).take k) = .error er := by
  cases hd : deserialize old ((serialize e).take k) with
  | error er => exact ⟨er, rfl⟩
  | ok r =>
    exfalso
    -- the size word read is the full size, but fewer bytes can have been consumed
    have hfull : (serialize e).length = 8 + statSize + 8 + 8 + e.filename.length + 8 + e.linkname.length := by
      simp [serialize, leBytes_length, h.stat, statSize]; omega
    unfold deserialize at hd
    simp only [bind, Except.bind] at hd
    by_cases hk8 : k < 8
    · rw [readN, if_pos (by simp; omega)] at hd; cases hd
    · have hr : readN 8 ((serialize e).take k) =
          .ok (leBytes 8 (serialize e).length, ((serialize e).take k).drop 8) := by
        unfold readN
        rw [if_neg (by simp; omega)]
        congr 2
        rw [List.take_take, Nat.min_eq_left (by omega), hfull]
        unfold serialize
        simp only [List.append_assoc]
        exact List.take_left' (leBytes_length 8 _)
      rw [hr] at hd
      simp only [] at hd
      have hlt : (serialize e).length < 256 ^ 8 := by
        rw [hfull]; unfold statSize; have := h.fn; have := h.ln; omega
      rw [leVal_leBytes 8 _ hlt] at hd
      repeat' split at hd
      all_goals first
        | (cases hd; done)
        | (rename_i heq
           have hle : ((serialize e).take k).length ≤ k := by simp; omega
           omega)

example : RawOk { statbuf := List.replicate 144 7, offset := 5, filename := [97], linkname := [98] } :=
  ⟨by simp, by decide, by decide, by decide⟩

example : deserialize { statbuf := [], offset := 0, filename := [], linkname := [] }
    (serialize { statbuf := List.replicate 144 7, offset := 5, filename := [97, 98], linkname := [99] } ++ [1]) =
    .ok (179, { statbuf := List.replicate 144 7, offset := 5, filename := [97, 98], linkname := [99] }) := by
  decide +kernel

end Parfu.Props
