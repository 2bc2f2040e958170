/-
Helper lemmas for the header round trip: lookups in the extended records and length bounds.
-/
import Verif.TarRead
set_option autoImplicit false

namespace Parfu
open TarSpec

theorem two_mul_le_pow (k : Nat) : 2 * k ≤ 10 ^ k := by
  induction k with
  | zero => simp
  | succ k ih => rw [Nat.pow_succ]; have := Nat.one_le_pow k 10 (by omega); omega

/-- A record is at most about twice as long as its key and value together (crude). -/
theorem recText_length_le (k v : Bytes) :
    (recText k v).length ≤ 2 * (k.length + v.length + 3) + 2 := by
  obtain ⟨n, _, _, ht, hl, hn⟩ := recText_spec k v
  have h := pow_pred_digits_length_le (b := 10) (by omega) n hn
  have h2 := two_mul_le_pow ((digits 10 n).length - 1)
  have h3 := congrArg List.length ht
  simp at h3
  rw [hl] at h3 ⊢
  omega

theorem recTexts_length_lt (e : TarEntry) (h1 : e.filename.length < 2 ^ 30)
    (h2 : e.linkname.length < 2 ^ 30) :
    (recTexts (paxPairs e)).length < 8 ^ 11 - 1 := by
  have a := recText_length_le kwPath e.filename
  have b := recText_length_le kwLinkpath e.linkname
  have c := recText_length_le kwSize (digits 10 (u64 e.stat.size))
  have d : (digits 10 (u64 e.stat.size)).length ≤ 20 := by
    apply digits_length_le (by omega) _ _ (by omega)
    have : u64 e.stat.size < 2 ^ 64 := by unfold u64; omega
    omega
  have k1 : kwPath.length = 4 := rfl
  have k2 : kwLinkpath.length = 8 := rfl
  have k3 : kwSize.length = 4 := rfl
  unfold paxPairs
  split <;> split <;> split <;> simp [recTexts] <;> omega

theorem lookup_path (e : TarEntry) :
    (paxPairs e).lookup kPath = if e.filename.length > 100 then some e.filename else none := by
  unfold paxPairs
  have h1 : (kPath == kwPath) = true := by decide
  have h2 : (kPath == kwLinkpath) = false := by decide
  have h3 : (kPath == kwSize) = false := by decide
  split <;> split <;> split <;> simp only [List.cons_append, List.nil_append, List.append_nil, List.lookup, h1, h2, h3]

theorem lookup_link (e : TarEntry) :
    (paxPairs e).lookup kLinkpath = if e.linkname.length > 100 then some e.linkname else none := by
  unfold paxPairs
  have h1 : (kLinkpath == kwPath) = false := by decide
  have h2 : (kLinkpath == kwLinkpath) = true := by decide
  have h3 : (kLinkpath == kwSize) = false := by decide
  split <;> split <;> split <;> simp only [List.cons_append, List.nil_append, List.append_nil, List.lookup, h1, h2, h3]

theorem lookup_size (e : TarEntry) :
    (paxPairs e).lookup kSize =
      if e.stat.kind = .reg ∧ e.stat.size > maxFileSize then some (digits 10 (u64 e.stat.size))
      else none := by
  unfold paxPairs
  have h1 : (kSize == kwPath) = false := by decide
  have h2 : (kSize == kwLinkpath) = false := by decide
  have h3 : (kSize == kwSize) = true := by decide
  split <;> split <;> split <;> simp only [List.cons_append, List.nil_append, List.append_nil, List.lookup, h1, h2, h3]

theorem text_fieldSnprintf {s : Bytes} (h0 : (0:UInt8) ∉ s) (hl : s.length ≤ 31) :
    text (fieldSnprintf 32 s) = s := by
  unfold fieldSnprintf
  rw [List.take_of_length_le (by omega)]
  exact text_fieldStr h0 (by omega)

theorem octStored_of_lt {n v : Nat} (h : v < 8 ^ (n - 1)) : octStored n v = v := by
  unfold octStored; rw [if_pos h]

/-- The size a reader finds. -/
theorem paxSize_recovered (e : TarEntry) (u g : Bytes) (h0 : 0 ≤ e.stat.size)
    (h1 : e.stat.size < 2 ^ 63) (hne : e.stat.kind = .reg → e.stat.size ≠ maxFileSize) :
    paxSizeVal (paxPairs e) (rawOf 0 e.stat e.filename e.linkname u g).size =
      some (if e.stat.kind = .reg then e.stat.size.toNat else 0) := by
  have hm : maxFileSize = 8589934591 := rfl
  unfold paxSizeVal
  rw [lookup_size]
  by_cases hk : e.stat.kind = .reg
  · by_cases hs : e.stat.size > maxFileSize
    · rw [if_pos ⟨hk, hs⟩]
      have := readNum_digits (b := 10) (by omega) (by omega) (u64 e.stat.size) [] (by simp)
      simp only [List.append_nil] at this
      simp only [this, if_pos hk]
      rw [u64_of_nonneg h0 (by omega)]
    · rw [if_neg (by simp [hs])]
      simp only [rawOf, if_pos hk]
      have := hne hk
      rw [if_pos (by omega), u64_of_nonneg h0 (by omega), octStored_of_lt (by omega)]
  · rw [if_neg (by simp [hk])]
    simp only [rawOf, if_neg hk]
    rw [if_pos (by decide), u64_of_nonneg (by omega) (by omega), octStored_of_lt (by simp)]
    rfl

end Parfu
