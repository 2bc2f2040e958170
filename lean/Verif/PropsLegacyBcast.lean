/-
Property theorems C78: what the broadcasts of parfu 0.5.1 do to the variables of the other ranks.
-/
import Verif.LegacyBcast
import Verif.MoveLemmas
import Verif.PropsLegacyList
set_option autoImplicit false

namespace Parfu.Props
open Parfu MoveSpec

/-- Everything outside the `n` bytes at `p` is as before. -/
def OnlyChanged (old new : Bytes) (p n : Nat) : Prop :=
  new.length = old.length ∧ ∀ i, i < p ∨ p + n ≤ i → new[i]? = old[i]?

/-- The `n` bytes at `p` of one memory are those at `q` of another. -/
def SameBytes (a : Bytes) (p : Nat) (b : Bytes) (q n : Nat) : Prop := ∀ i < n, a[p + i]? = b[q + i]?

/-- **C78** The value arrives: behind the broadcast the variable holds rank 0's eight bytes. -/
theorem C78_value_arrives (root mem : Bytes) (src dst : Nat) (hr : src + 12 ≤ root.length) (hm : dst + 12 ≤ mem.length) :
    ∃ new, bcastLongInt root src mem dst = .ok new ∧ SameBytes new dst root src 12 ∧ OnlyChanged mem new dst 12 := by
  have hl : ((root.drop src).take 12).length = 12 := by rw [List.length_take, List.length_drop]; omega
  obtain ⟨new, h⟩ := blit_ok (buf := mem) (data := (root.drop src).take 12) (off := dst) (by omega)
  obtain ⟨_, h1, h2⟩ := blit_get h
  refine ⟨new, ?_, ?_, h1, ?_⟩
  · unfold bcastLongInt longIntBytes; rw [if_pos hr]; exact h
  · intro i hi
    rw [h2, hl, if_pos (by omega), List.getElem?_take, if_pos (by omega), List.getElem?_drop]
    congr 1; omega
  · intro i hi
    rw [h2, hl, if_neg (by omega)]

/-- **C78** Exactly when nothing but the variable changes: if the four bytes behind it were rank 0's already. -/
theorem C78_only_the_variable_iff (root mem : Bytes) (src dst : Nat) (hr : src + 12 ≤ root.length) (hm : dst + 12 ≤ mem.length)
    (new : Bytes) (h : bcastLongInt root src mem dst = .ok new) :
    OnlyChanged mem new dst 8 ↔ SameBytes mem (dst + 8) root (src + 8) 4 := by
  obtain ⟨new', h', hs, hl, ho⟩ := C78_value_arrives root mem src dst hr hm
  rw [h] at h'
  cases h'
  constructor
  · rintro ⟨_, h1⟩ i hi
    rw [← h1 (dst + 8 + i) (by omega), Nat.add_assoc, hs (8 + i) (by omega), Nat.add_assoc]
  · intro h1
    refine ⟨hl, fun i hi => ?_⟩
    by_cases hc : i < dst ∨ dst + 12 ≤ i
    · exact ho i hc
    · have := hs (i - dst) (by omega)
      rw [show dst + (i - dst) = i by omega] at this
      rw [this]
      have := h1 (i - dst - 8) (by omega)
      rw [show dst + 8 + (i - dst - 8) = i by omega] at this
      rw [this]; congr 1; omega

theorem bcast_intAt {root mem new : Bytes} {src dst : Nat} (hr : src + 12 ≤ root.length) (hm : dst + 12 ≤ mem.length)
    (h : bcastLongInt root src mem dst = .ok new) : intAt new (dst + 8) = intAt root (src + 8) := by
  obtain ⟨new', h', hs, hl, ho⟩ := C78_value_arrives root mem src dst hr hm
  rw [h] at h'
  cases h'
  unfold intAt
  have : (new.drop (dst + 8)).take 4 = (root.drop (src + 8)).take 4 := by
    apply List.ext_getElem?
    intro i
    rw [List.getElem?_take, List.getElem?_take, List.getElem?_drop, List.getElem?_drop]
    by_cases hi : i < 4
    · rw [if_pos hi, if_pos hi, Nat.add_assoc, Nat.add_assoc]; exact hs _ (by omega)
    · rw [if_neg hi, if_neg hi]
  rw [this]

/-- **C78, violated** Whatever `int` a compiler puts behind the variable has rank 0's value afterwards. -/
theorem C78_neighbour_lost (root mem : Bytes) (src dst v w : Nat) (hm : dst + 12 ≤ mem.length)
    (hv : intAt root (src + 8) = some v) (hw : intAt mem (dst + 8) = some w) (hvw : v ≠ w) :
    ∃ new, bcastLongInt root src mem dst = .ok new ∧ intAt new (dst + 8) = some v ∧ ¬ OnlyChanged mem new dst 8 := by
  have hr : src + 12 ≤ root.length := by
    unfold intAt at hv
    split at hv
    · rename_i h
      have := congrArg List.length h
      rw [List.length_take, List.length_drop] at this
      simp only [List.length_cons, List.length_nil] at this
      omega
    · cases hv
  obtain ⟨new, h, _, _⟩ := C78_value_arrives root mem src dst hr hm
  have hi := bcast_intAt hr hm h
  refine ⟨new, h, hi.trans hv, ?_⟩
  rintro ⟨_, h1⟩
  apply hvw
  have : (new.drop (dst + 8)).take 4 = (mem.drop (dst + 8)).take 4 := by
    apply List.ext_getElem?
    intro i
    rw [List.getElem?_take, List.getElem?_take, List.getElem?_drop, List.getElem?_drop]
    by_cases hi : i < 4
    · rw [if_pos hi, if_pos hi]; exact h1 _ (by omega)
    · rw [if_neg hi, if_neg hi]
  have h2 : intAt new (dst + 8) = intAt mem (dst + 8) := by unfold intAt; rw [this]
  rw [hi, hv, hw] at h2
  exact Option.some.inj h2

/-- **C78, violated** If that `int` is the function's own rank number, every rank does the work of rank 0 from
then on: with two ranks or more no bucket but each `n`-th is written by anyone. -/
theorem C78_every_rank_is_rank_0 (root mem : Bytes) (src dst n total : Nat) (hn : 2 ≤ n) (hm : dst + 12 ≤ mem.length)
    (hv : intAt root (src + 8) = some 0) : ∃ mine, bucketsAfterBcast root src mem dst n total = .ok mine ∧
      ∀ k, k ∈ mine ↔ k < total ∧ k % n = 0 := by
  have hr : src + 12 ≤ root.length := by
    unfold intAt at hv
    split at hv
    · rename_i h
      have := congrArg List.length h
      rw [List.length_take, List.length_drop] at this
      simp only [List.length_cons, List.length_nil] at this
      omega
    · cases hv
  obtain ⟨new, h, _, _⟩ := C78_value_arrives root mem src dst hr hm
  refine ⟨rankBuckets n total 0, ?_, ?_⟩
  · unfold bucketsAfterBcast
    rw [h]
    simp only [bcast_intAt hr hm h, hv]
  · intro k
    rw [mem_rankBuckets (by omega)]
    simp

/-- Rank 3 of 4, whose rank number is behind the variable: of the buckets 0 to 9 it then does 0, 4 and 8, as
rank 0 does; without the overwriting it would do 3 and 7. -/
example : bucketsAfterBcast [1, 2, 3, 4, 5, 6, 7, 8, 0, 0, 0, 0] 0 [9, 9, 9, 9, 9, 9, 9, 9, 3, 0, 0, 0] 0 4 10 = .ok [0, 4, 8] ∧
    rankBuckets 4 10 3 = [3, 7] := by
  constructor
  · have h : bcastLongInt [1, 2, 3, 4, 5, 6, 7, 8, 0, 0, 0, 0] 0 [9, 9, 9, 9, 9, 9, 9, 9, 3, 0, 0, 0] 0 =
        .ok [1, 2, 3, 4, 5, 6, 7, 8, 0, 0, 0, 0] := by decide
    unfold bucketsAfterBcast
    rw [h]
    simp [intAt, rankBuckets]
  · simp [rankBuckets]

/-- The hypotheses of C78_neighbour_lost are met. -/
example : ∃ new, bcastLongInt [1, 2, 3, 4, 5, 6, 7, 8, 7, 0, 0, 0] 0 [0, 9, 9, 9, 9, 9, 9, 9, 9, 3, 0, 0, 0, 5] 1 = .ok new ∧
    intAt new 9 = some 7 ∧ ¬ OnlyChanged [0, 9, 9, 9, 9, 9, 9, 9, 9, 3, 0, 0, 0, 5] new 1 8 :=
  C78_neighbour_lost _ _ _ _ 7 3 (by decide) (by decide) (by decide) (by decide)

/-- Both sides of C78_only_the_variable_iff occur. -/
example : SameBytes [0, 0, 0, 0, 0, 0, 0, 0, 3, 0, 0, 0] (0 + 8) [1, 1, 1, 1, 1, 1, 1, 1, 3, 0, 0, 0] (0 + 8) 4 ∧
    ¬ SameBytes [0, 0, 0, 0, 0, 0, 0, 0, 3, 0, 0, 0] (0 + 8) [1, 1, 1, 1, 1, 1, 1, 1, 4, 0, 0, 0] (0 + 8) 4 := by
  unfold SameBytes; decide

end Parfu.Props
