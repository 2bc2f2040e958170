/-
C58: copies of the tool's objects.  C59: queries of an order set.  C60: block rounding in 64 bits.
C61: opening a container file.
-/
import Verif.Objects
import Verif.PlanLemmas
set_option autoImplicit false

namespace Parfu.Props
open Parfu

/-! ### C58 -/

theorem assignElems_eq {α : Type} (xs : List α) : ∀ (v : List α) (i : Nat), i ≤ v.length →
    assignElems v i xs =
      if i + xs.length ≤ v.length then .ok (v.take i ++ xs ++ v.drop (i + xs.length)) else .error .ub := by
  induction xs with
  | nil => intro v i h; simp [assignElems, h]
  | cons x xs ih =>
    intro v i h
    unfold assignElems
    by_cases hi : i < v.length
    · rw [if_pos hi, ih _ _ (by simp; omega)]
      simp only [List.length_set, List.length_cons]
      by_cases h2 : i + 1 + xs.length ≤ v.length
      · rw [if_pos h2, if_pos (by omega)]
        congr 1
        rw [List.drop_set_of_lt (by omega), List.take_set, show i + 1 + xs.length = i + (xs.length + 1) by omega]
        congr 1
        rw [show (v.take (i+1)).set i x = v.take i ++ [x] from ?_]
        · simp
        · apply List.ext_getElem?
          intro k
          rcases Nat.lt_trichotomy k i with hk | hk | hk
          · rw [List.getElem?_set_ne (by omega), List.getElem?_take, if_pos (by omega),
              List.getElem?_append_left (by simp; omega), List.getElem?_take, if_pos hk]
          · subst hk
            rw [List.getElem?_set_self (by simp; omega), List.getElem?_append_right (by simp; omega)]
            simp only [List.length_take, Nat.min_eq_left h, Nat.sub_self, List.getElem?_cons_zero]
          · rw [List.getElem?_eq_none (by simp; omega), List.getElem?_eq_none (by simp; omega)]
      · rw [if_neg h2, if_neg (by omega)]
    · rw [if_neg hi, if_neg (by simp; omega)]

theorem assignElems_copy {α : Type} (xs : List α) :
    assignElems [] 0 xs = if xs = [] then .ok [] else .error .ub := by
  rw [assignElems_eq _ _ _ (Nat.le_refl 0)]
  cases xs <;> simp

theorem assignElems_zero {α : Type} (v xs : List α) :
    assignElems v 0 xs = if xs.length ≤ v.length then .ok (xs ++ v.drop xs.length) else .error .ub := by
  rw [assignElems_eq _ _ _ (Nat.zero_le _)]; simp

/-- C58 (violated): copying a collection of targets, of slices, of container files or a directory
object is undefined behaviour as soon as it holds anything at all. -/
theorem C58_copies_undefined (t : TargetColl) (s : SliceColl) (c : ContainerColl) (d : DirObj) :
    ((t.dirs ≠ [] ∨ t.files ≠ []) → t.copy = .error .ub) ∧
    (s.slices ≠ [] → s.copy = .error .ub) ∧
    (c.containers ≠ [] → c.copy = .error .ub) ∧
    ((d.subdirs ≠ [] ∨ d.subfiles ≠ []) → d.copy = .error .ub) := by
  refine ⟨fun h => ?_, fun h => ?_, fun h => ?_, fun h => ?_⟩
  · unfold TargetColl.copy; simp only [assignElems_copy]
    by_cases h1 : t.dirs = []
    · have h2 : t.files ≠ [] := by rcases h with h | h; exact absurd h1 h; exact h
      simp [h1, h2]
    · simp [h1]
  · unfold SliceColl.copy; simp [assignElems_copy, h]
  · unfold ContainerColl.copy; simp [assignElems_copy, h]
  · unfold DirObj.copy; simp only [assignElems_copy]
    by_cases h1 : d.subdirs = []
    · have h2 : d.subfiles ≠ [] := by rcases h with h | h; exact absurd h1 h; exact h
      simp [h1, h2]
    · simp [h1]

/-- Such an object: a collection with one file. -/
example : TargetColl.copy ⟨[], [⟨5, ⟨[97], .reg, [], 5⟩, 512⟩]⟩ = .error .ub := by decide

/-- C58 (violated): the copy of a directory that has not been read yet is not a directory: its type is
"invalid". -/
theorem C58_copied_directory_has_no_type (base rel : Bytes) :
    ∃ d, (DirObj.new base rel).copy = .ok d ∧ d.kind = none ∧ d ≠ DirObj.new base rel := by
  refine ⟨_, rfl, rfl, ?_⟩
  intro h; exact absurd (congrArg DirObj.kind h) (by simp [DirObj.new])

/-- C58: a copy of a new directory object keeps its path and still counts as not yet read and empty, as
the original. -/
theorem C58_new_directory (base rel : Bytes) :
    ∃ d, (DirObj.new base rel).copy = .ok d ∧
      ∀ x, x = d ∨ x = DirObj.new base rel →
        x.base = base ∧ x.rel = rel ∧ x.spidered = false ∧ x.subdirs = [] ∧ x.subfiles = [] := by
  refine ⟨_, rfl, ?_⟩
  rintro x (rfl | rfl) <;> exact ⟨rfl, rfl, rfl, rfl, rfl⟩

/-- C58 (violated): assigning a directory to another leaves the type of the destination as it was: a
directory assigned to a copy of one (whose type is "invalid") does not become a directory, although all
else is taken over. -/
theorem C58_assigned_keeps_type (dst src : DirObj) (hd : src.subdirs.length = dst.subdirs.length)
    (hf : src.subfiles.length = dst.subfiles.length) :
    dst.assign src = .ok { src with kind := dst.kind } := by
  unfold DirObj.assign
  rw [assignElems_zero, assignElems_zero, if_pos (by omega), if_pos (by omega), hd, hf]
  simp

example : ∃ c, (DirObj.new [97] [98]).copy = .ok c ∧
    c.assign (DirObj.new [99] [100]) = .ok { DirObj.new [99] [100] with kind := none } := by
  exact ⟨_, rfl, rfl⟩

/-- C58, assignment: defined exactly if the destination holds at least as much as the source; it is a
copy exactly if both hold equally much, and otherwise keeps what the destination held behind. -/
theorem C58_assign_partial (dst src : TargetColl) :
    (dst.assign src = .ok src ↔
      src.dirs.length = dst.dirs.length ∧ src.files.length = dst.files.length) ∧
    ((dst.dirs.length < src.dirs.length ∨ dst.files.length < src.files.length) ↔
      dst.assign src = .error .ub) ∧
    (src.dirs.length ≤ dst.dirs.length → src.files.length ≤ dst.files.length →
      dst.assign src = .ok ⟨src.dirs ++ dst.dirs.drop src.dirs.length,
                            src.files ++ dst.files.drop src.files.length⟩) := by
  obtain ⟨dd, df⟩ := dst
  obtain ⟨sd, sf⟩ := src
  unfold TargetColl.assign
  rw [show (TargetColl.mk dd df).dirs = dd from rfl, show (TargetColl.mk dd df).files = df from rfl,
    show (TargetColl.mk sd sf).dirs = sd from rfl, show (TargetColl.mk sd sf).files = sf from rfl,
    assignElems_zero, assignElems_zero]
  by_cases h1 : sd.length ≤ dd.length
  · by_cases h2 : sf.length ≤ df.length
    · rw [if_pos h1, if_pos h2]
      refine ⟨?_, ?_, fun _ _ => rfl⟩
      · constructor
        · intro h
          simp only [Except.ok.injEq, TargetColl.mk.injEq, List.append_right_eq_self,
            List.drop_eq_nil_iff] at h
          omega
        · rintro ⟨h3, h4⟩
          simp only
          rw [List.drop_of_length_le (by omega), List.drop_of_length_le (by omega)]; simp
      · constructor
        · intro h; omega
        · intro h; cases h
    · rw [if_pos h1, if_neg h2]
      exact ⟨⟨fun h => (by cases h), fun h => by omega⟩, ⟨fun _ => rfl, fun _ => by omega⟩,
        fun _ h => by omega⟩
  · rw [if_neg h1]
    exact ⟨⟨fun h => (by cases h), fun h => by omega⟩, ⟨fun _ => rfl, fun _ => by omega⟩,
      fun h _ => by omega⟩

/-- The same for slice and container collections. -/
theorem C58_assign_simple_partial (d s : SliceColl) (d' s' : ContainerColl) :
    (d.assign s = .ok s ↔ s.slices.length = d.slices.length) ∧
    (d.assign s = .error .ub ↔ d.slices.length < s.slices.length) ∧
    (d'.assign s' = .ok s' ↔ s'.containers.length = d'.containers.length) ∧
    (d'.assign s' = .error .ub ↔ d'.containers.length < s'.containers.length) := by
  have key : ∀ (a b : List Nat), (assignElems a 0 b = .ok b ↔ b.length = a.length) ∧
      (assignElems a 0 b = .error .ub ↔ a.length < b.length) := by
    intro a b
    rw [assignElems_zero]
    by_cases h : b.length ≤ a.length
    · rw [if_pos h]
      simp only [Except.ok.injEq, List.append_right_eq_self, List.drop_eq_nil_iff, reduceCtorEq, false_iff]
      omega
    · rw [if_neg h]; simp; omega
  obtain ⟨d⟩ := d; obtain ⟨s⟩ := s; obtain ⟨d'⟩ := d'; obtain ⟨s'⟩ := s'
  have k1 := key d s; have k2 := key d' s'
  unfold SliceColl.assign ContainerColl.assign
  refine ⟨?_, ?_, ?_, ?_⟩
  · rw [← k1.1]; simp only; cases assignElems d 0 s <;> simp
  · rw [← k1.2]; simp only; cases assignElems d 0 s <;> simp
  · rw [← k2.1]; simp only; cases assignElems d' 0 s' <;> simp
  · rw [← k2.2]; simp only; cases assignElems d' 0 s' <;> simp

/-- A stale tail: assigning a one-file collection to a two-file collection leaves two files. -/
example :
    let r (n : UInt8) : Ref := ⟨5, ⟨[n], .reg, [], 5⟩, 512⟩
    TargetColl.assign ⟨[], [r 97, r 98]⟩ ⟨[], [r 99]⟩ = .ok ⟨[], [r 99, r 98]⟩ := by decide

/-- C58, exactly, for copies: a collection is copied exactly if it is empty and otherwise copying it is
undefined; a directory object is copied exactly if it is empty and its type is the "invalid" one - so
never one that the program has made (`DirObj.new`). -/
theorem C58_copy_iff (t : TargetColl) (s : SliceColl) (c : ContainerColl) (d : DirObj) :
    (t.copy = .ok t ↔ t.dirs = [] ∧ t.files = []) ∧ (t.copy = .error .ub ↔ t.dirs ≠ [] ∨ t.files ≠ []) ∧
    (s.copy = .ok s ↔ s.slices = []) ∧ (s.copy = .error .ub ↔ s.slices ≠ []) ∧
    (c.copy = .ok c ↔ c.containers = []) ∧ (c.copy = .error .ub ↔ c.containers ≠ []) ∧
    (d.copy = .ok d ↔ d.subdirs = [] ∧ d.subfiles = [] ∧ d.kind = none) ∧
    (d.copy = .error .ub ↔ d.subdirs ≠ [] ∨ d.subfiles ≠ []) := by
  obtain ⟨td, tf⟩ := t
  obtain ⟨ss⟩ := s
  obtain ⟨cc⟩ := c
  obtain ⟨b, r, k, sp, sd, sf⟩ := d
  unfold TargetColl.copy SliceColl.copy ContainerColl.copy DirObj.copy
  simp only [assignElems_copy]
  refine ⟨?_, ?_, ?_, ?_, ?_, ?_, ?_, ?_⟩
  · by_cases h1 : td = [] <;> by_cases h2 : tf = [] <;> simp [h1, h2]
  · by_cases h1 : td = [] <;> by_cases h2 : tf = [] <;> simp [h1, h2]
  · by_cases h1 : ss = [] <;> simp [h1]
  · by_cases h1 : ss = [] <;> simp [h1]
  · by_cases h1 : cc = [] <;> simp [h1]
  · by_cases h1 : cc = [] <;> simp [h1]
  · by_cases h1 : sd = [] <;> by_cases h2 : sf = [] <;> simp [h1, h2, eq_comm]
  · by_cases h1 : sd = [] <;> by_cases h2 : sf = [] <;> simp [h1, h2]

/-- Both cases occur: nothing to copy, and one entry. -/
example : TargetColl.copy ⟨[], []⟩ = .ok ⟨[], []⟩ ∧ SliceColl.copy ⟨[4]⟩ = .error .ub ∧
    DirObj.copy (DirObj.new [97] []) ≠ .ok (DirObj.new [97] []) := by decide

/-- C58, exactly, for assignment between directory objects: the destination becomes a copy exactly if
both hold equally many entries and have the same type; the assignment is undefined exactly if the
source holds more. -/
theorem C58_assign_dir_iff (dst src : DirObj) :
    (dst.assign src = .ok src ↔ src.subdirs.length = dst.subdirs.length ∧ src.subfiles.length = dst.subfiles.length ∧
      src.kind = dst.kind) ∧
    (dst.assign src = .error .ub ↔ dst.subdirs.length < src.subdirs.length ∨ dst.subfiles.length < src.subfiles.length) := by
  obtain ⟨b, r, k, sp, sd, sf⟩ := src
  obtain ⟨b', r', k', sp', dd, df⟩ := dst
  unfold DirObj.assign
  simp only [assignElems_zero]
  by_cases h1 : sd.length ≤ dd.length
  · by_cases h2 : sf.length ≤ df.length
    · rw [if_pos h1]
      simp only []
      rw [if_pos h2]
      simp only [Except.ok.injEq, DirObj.mk.injEq, true_and, List.append_right_eq_self, List.drop_eq_nil_iff, reduceCtorEq, false_iff]
      constructor
      · constructor
        · rintro ⟨e, h3, h4⟩; exact ⟨by omega, by omega, e.symm⟩
        · rintro ⟨h3, h4, e⟩; exact ⟨e.symm, by omega, by omega⟩
      · omega
    · rw [if_pos h1]
      simp only []
      rw [if_neg h2]
      simp only [reduceCtorEq, false_iff, true_iff]
      constructor
      · rintro ⟨h3, h4, _⟩; omega
      · omega
  · rw [if_neg h1]
    simp only [reduceCtorEq, false_iff, true_iff]
    constructor
    · rintro ⟨h3, h4, _⟩; omega
    · omega

example : DirObj.assign ⟨[97], [], none, true, [1], []⟩ ⟨[97], [], none, true, [2], []⟩ = .ok ⟨[97], [], none, true, [2], []⟩ ∧
    DirObj.assign (DirObj.new [97] []) ⟨[97], [], none, true, [2], []⟩ = .error .ub := by decide

/-- C58, single entries: a copied or assigned file entry agrees with the original in path, type, size,
header size, link target and container; only the "locations are set" mark is not carried over. -/
theorem C58_file_copy (d s : FileObj) :
    (∀ r, r = s.copy ∨ r = d.assign s →
      r.base = s.base ∧ r.rel = s.rel ∧ r.kind = s.kind ∧ r.size = s.size ∧ r.hdr = s.hdr ∧
      r.target = s.target ∧ r.container = s.container) ∧
    (s.copy = s ↔ s.located = false) ∧ (d.assign s = s ↔ d.located = s.located) := by
  refine ⟨?_, ?_, ?_⟩
  · rintro r (rfl | rfl) <;> simp [FileObj.copy, FileObj.assign]
  · cases s; simp [FileObj.copy, eq_comm]
  · cases s; simp [FileObj.assign]

example : (FileObj.copy ⟨[47], [97], some .reg, 3, 512, [], some 7, true⟩) =
    ⟨[47], [97], some .reg, 3, 512, [], some 7, false⟩ := by decide

/-! ### C59 -/

/-- C59: the name of order `i`: inside the set the name, outside an empty string — except for the
index one past the end, which the check lets through and which then throws (violated there). -/
theorem C59_order_name_partial (ws : List WOrder) (i : Int) (hi : -2 ^ 31 ≤ i ∧ i < 2 ^ 31)
    (hn : ws.length < 2 ^ 31) :
    orderNameInt ws i =
      if 0 ≤ i ∧ i.toNat < ws.length then .ok ((ws[i.toNat]?.map WOrder.rel).getD [])
      else if i = ws.length then .error .thrown else .ok [] := by
  unfold orderNameInt orderNFilename u64
  by_cases h0 : 0 ≤ i
  · obtain ⟨n, rfl⟩ := Int.eq_ofNat_of_zero_le h0
    have hm : ((n : Int) % 2 ^ 64).toNat = n := by omega
    rw [hm]
    rcases Nat.lt_trichotomy n ws.length with h | h | h
    · rw [if_neg (by omega), if_pos ⟨h0, by simpa using h⟩]
      simp [List.getElem?_eq_getElem h]
    · rw [if_neg (by omega), if_neg (by simp; omega), if_pos (by omega)]
      rw [List.getElem?_eq_none (by omega)]
    · rw [if_pos h, if_neg (by simp; omega), if_neg (by omega)]
  · have hm : (i % 2 ^ 64).toNat > ws.length := by omega
    rw [if_pos hm, if_neg (by omega), if_neg (by omega)]

/-- C59 (violated): one past the end throws instead of giving the empty string. -/
theorem C59_one_past_the_end (ws : List WOrder) (hn : ws.length < 2 ^ 31) :
    orderNameInt ws (nOrders ws) = .error .thrown := by
  rw [C59_order_name_partial ws _ (by unfold nOrders; omega) hn]
  unfold nOrders
  rw [if_neg (by omega), if_pos rfl]

/-- C59: the size a worker reports for a set of orders before it moves the data is the number of bytes
it then writes, a multiple of the block size. -/
theorem C59_reported_size (env : Env) (fs : FS) (base garbage : Bytes) (ws : List WOrder) (w : WriteReq)
    (h : moveData env fs base garbage ws = .ok w) :
    totalSize ws = .ok w.2.length ∧ w.2.length % 512 = 0 ∧ w.2.length ≤ garbage.length ∧
    ws.head?.map WOrder.pos = some w.1 := by
  have blit_len : ∀ {buf data r : Bytes} {off : Nat}, blit buf off data = .ok r → r.length = buf.length := by
    intro buf data r off hb
    unfold blit at hb
    split at hb
    · cases hb; simp; omega
    · cases hb
  have one_len : ∀ {start : Nat} {buf r : Bytes} {o : WOrder},
      moveOne env fs base start buf o = .ok r → r.length = buf.length := by
    intro start buf r o hm
    have hdr_len : ∀ {b : Bytes}, (if o.hdr ≠ 0 then makeHeaderAt env fs (fullName base o.rel) buf (usub64 o.pos start)
         else .ok buf) = .ok b → b.length = buf.length := by
      intro b hb
      split at hb
      · unfold makeHeaderAt at hb
        cases h1 : tarentryCtor fs.lstat (fullName base o.rel) 0 with
        | error e => rw [h1] at hb; cases hb
        | ok e =>
          rw [h1] at hb
          cases h2 : makeTarHeader env e with
          | error e' => simp only [bind, Except.bind, h2] at hb; cases hb
          | ok hh => simp only [bind, Except.bind, h2] at hb; exact blit_len hb
      · cases hb; rfl
    unfold moveOne at hm
    split at hm
    · cases hm
    · rename_i b hb
      have hl := hdr_len hb
      split at hm
      · unfold readInto at hm
        split at hm
        · cases hm
        · split at hm
          · cases hm
          · rw [blit_len hm, hl]
      · cases hm; exact hl
  have loop_len : ∀ (os : List WOrder) {start : Nat} {buf r : Bytes},
      moveLoop env fs base start os buf = .ok r → r.length = buf.length := by
    intro os
    induction os with
    | nil => intro start buf r hm; cases hm; rfl
    | cons o os ih =>
      intro start buf r hm
      unfold moveLoop at hm
      cases h1 : moveOne env fs base start buf o with
      | error e => rw [h1] at hm; cases hm
      | ok b => rw [h1] at hm; rw [ih hm, one_len h1]
  unfold moveData at h
  unfold totalSize
  split at h
  · rename_i first last h1 h2
    rw [h1]
    try rw [h2]
    split at h
    · cases h
    · rename_i buf hb
      have hbl := loop_len _ hb
      simp only at h
      split at h
      · cases h
      · rename_i buf' hb'
        have hl' : buf'.length = buf.length := by
          split at hb'
          · exact blit_len hb'
          · cases hb'; rfl
        split at h
        · rename_i hle
          cases h
          simp only [List.length_take, Nat.min_eq_left hle, Option.map_some, and_true, true_and]
          refine ⟨?_, by omega⟩
          rw [nextBlock_eq]; exact up512_mod _
        · cases h
  · cases h

/-! ### C60 -/

theorem mask_eq (x : BitVec 64) : x &&& ~~~(511#64) = (x >>> 9) <<< 9 := by
  apply BitVec.eq_of_getLsbD_eq
  intro i hi
  have hm : (511#64).getLsbD i = decide (i < 9) := by
    by_cases h : i < 9
    · have : ∀ j : Fin 9, (511#64).getLsbD j = true := by decide
      simpa [h] using this ⟨i, h⟩
    · rw [BitVec.getLsbD, BitVec.toNat_ofNat]
      have : (511 % 2 ^ 64) < 2 ^ i := Nat.lt_of_lt_of_le (by decide : 511 % 2 ^ 64 < 2 ^ 9)
        (Nat.pow_le_pow_right (by decide) (by omega))
      rw [Nat.testBit_lt_two_pow this]; simp [h]
  rw [BitVec.getLsbD_and, BitVec.getLsbD_not, hm, BitVec.getLsbD_shiftLeft, BitVec.getLsbD_ushiftRight]
  by_cases h : i < 9
  · simp [h]
  · simp [h, hi, show 9 + (i - 9) = i by omega]

theorem mask_toNat (x : BitVec 64) : (x &&& ~~~(511#64)).toNat = x.toNat / 512 * 512 := by
  rw [mask_eq, BitVec.toNat_shiftLeft, BitVec.toNat_ushiftRight, Nat.shiftLeft_eq, Nat.shiftRight_eq_div_pow]
  have := x.isLt
  rw [Nat.mod_eq_of_lt] <;> omega

/-- The rounding of `tarentry` in 64-bit arithmetic is the division of the model, modulo 2^64. -/
theorem roundToBlock64_toNat (sz : BitVec 64) :
    (roundToBlock64 sz).toNat = roundToBlock sz.toNat % 2 ^ 64 := by
  unfold roundToBlock64
  rw [mask_toNat]
  have h1 : (sz + 512#64 - 1#64).toNat = (sz.toNat + 511) % 2 ^ 64 := by
    have := sz.isLt
    simp only [BitVec.toNat_sub, BitVec.toNat_add, BitVec.toNat_ofNat]
    omega
  rw [h1]
  unfold roundToBlock blk
  have := sz.isLt
  omega

/-- The rounding of `parfu_next_block_boundary` likewise. -/
theorem nextBlock64_toNat (n : BitVec 64) : (nextBlock64 n).toNat = nextBlock n.toNat % 2 ^ 64 := by
  unfold nextBlock64 nextBlock blk
  have hn := n.isLt
  have hmod : (n % 512#64 ≠ 0#64) ↔ n.toNat % 512 ≠ 0 := by
    rw [Ne, ← BitVec.toNat_inj]
    simp [BitVec.toNat_umod]
  by_cases h : n.toNat % 512 ≠ 0
  · rw [if_pos (hmod.2 h), if_pos h]
    simp only [BitVec.toNat_mul, BitVec.toNat_add, BitVec.toNat_udiv, BitVec.toNat_ofNat]
    rw [show 512 % 2 ^ 64 = 512 from rfl, show 1 % 2 ^ 64 = 1 from rfl]
    omega
  · rw [if_neg (fun hc => h (hmod.1 hc)), if_neg h]; omega

/-- C60: rounding a size or position up to the tar block size, by either function, gives the least
multiple of 512 that is not smaller — for everything up to 2^64 - 512. -/
theorem C60_least_multiple (x : BitVec 64) (h : x.toNat ≤ 2 ^ 64 - 512) :
    ∀ r, r = roundToBlock64 x ∨ r = nextBlock64 x →
      r.toNat % 512 = 0 ∧ x.toNat ≤ r.toNat ∧ ∀ m, m % 512 = 0 → x.toNat ≤ m → r.toNat ≤ m := by
  have key : ∀ n, n = roundToBlock x.toNat ∨ n = nextBlock x.toNat →
      n % 512 = 0 ∧ x.toNat ≤ n ∧ (∀ m, m % 512 = 0 → x.toNat ≤ m → n ≤ m) ∧ n < 2 ^ 64 := by
    rintro n (rfl | rfl)
    · unfold roundToBlock blk
      refine ⟨by omega, by omega, fun m h1 h2 => by omega, by omega⟩
    · unfold nextBlock blk
      split
      · refine ⟨by omega, by omega, fun m h1 h2 => by omega, by omega⟩
      · refine ⟨by omega, by omega, fun m h1 h2 => by omega, by omega⟩
  rintro r (rfl | rfl)
  · obtain ⟨h1, h2, h3, h4⟩ := key _ (.inl rfl)
    rw [roundToBlock64_toNat, Nat.mod_eq_of_lt h4]; exact ⟨h1, h2, h3⟩
  · obtain ⟨h1, h2, h3, h4⟩ := key _ (.inr rfl)
    rw [nextBlock64_toNat, Nat.mod_eq_of_lt h4]; exact ⟨h1, h2, h3⟩

example : (roundToBlock64 1025#64).toNat = 1536 ∧ (nextBlock64 1025#64).toNat = 1536 := by decide

/-- C60: the two functions of the two source files always agree, and beyond 2^64 - 512 both give 0. -/
theorem C60_same_function (x : BitVec 64) :
    roundToBlock64 x = nextBlock64 x ∧ (2 ^ 64 - 512 < x.toNat → roundToBlock64 x = 0#64) := by
  have hx := x.isLt
  have e : roundToBlock x.toNat = nextBlock x.toNat := by
    unfold roundToBlock nextBlock blk; split <;> omega
  constructor
  · apply BitVec.eq_of_toNat_eq
    rw [roundToBlock64_toNat, nextBlock64_toNat, e]
  · intro h
    apply BitVec.eq_of_toNat_eq
    rw [roundToBlock64_toNat]
    unfold roundToBlock blk
    simp only [BitVec.toNat_ofNat]
    omega

example : roundToBlock64 (BitVec.ofNat 64 (2 ^ 64 - 1)) = 0#64 := by decide

/-! ### C61 -/

/-- The container file objects a program can have: made by the constructor, copied, assigned. -/
inductive Made : ContainerFile → Prop
  | new (p : Bytes) : Made (.new p)
  | copy {f : ContainerFile} : Made f → Made f.copy
  | assign {f g : ContainerFile} : Made f → Made g → Made (f.assign g)
  | opened {f g : ContainerFile} : Made f → f.openNew = .ok g → Made g

/-- C61 (violated): no container file object can ever be opened: the handle is to be stored through a
NULL pointer. -/
theorem C61_open_undefined (f : ContainerFile) (h : Made f) : f.openNew = .error .ub := by
  have hn : f.handle = none := by
    induction h with
    | new p => rfl
    | copy _ ih => exact ih
    | assign _ _ _ ih => exact ih
    | opened _ ho ih => unfold ContainerFile.openNew at ho; rw [ih] at ho; cases ho
  unfold ContainerFile.openNew; rw [hn]

/-- C61: consistently, no container file object ever counts as open. -/
theorem C61_open_state (f : ContainerFile) (h : Made f) : f.isOpen = false := by
  induction h with
  | new p => rfl
  | copy _ ih => exact ih
  | assign _ _ _ ih => exact ih
  | opened hm ho _ => rw [C61_open_undefined _ hm] at ho; cases ho

/-- C61: through a pointer that is not NULL, opening keeps the path and marks the object as open. -/
theorem C61_open_through_pointer (f : ContainerFile) (h : Nat) (hf : f.handle = some h) :
    ∃ g, f.openNew = .ok g ∧ g.path = f.path ∧ g.isOpen = true ∧ g.handle = some h := by
  unfold ContainerFile.openNew; rw [hf]; exact ⟨_, rfl, rfl, rfl, rfl⟩

example : Made ((ContainerFile.new [97]).assign (ContainerFile.new [98]).copy) := .assign (.new _) (.copy (.new _))

end Parfu.Props
