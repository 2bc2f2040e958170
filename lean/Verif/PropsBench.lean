/-
C67, C68: the write benchmark (parfu_write_test.c).
-/
import Verif.WriteBench
import Mathlib.Data.Int.CardIntervalMod
set_option autoImplicit false

namespace Parfu.Props
open Parfu

/-! ### When it runs -/

theorem benchLoop_eq (a : BenchArgs) (n r : Nat) (buf : Bytes)
    (h1 : (r / a.files.toNat) * a.buf.toNat < 2 ^ 31) (h2 : a.data.toNat ≤ buf.length) (is : List Nat) :
    benchLoop a n r buf is = .ok (is.map fun i =>
      (i * (n / a.files.toNat * a.buf.toNat) + (r / a.files.toNat) * a.buf.toNat, buf.take a.data.toNat)) := by
  induction is with
  | nil => rfl
  | cons i is ih =>
    unfold benchLoop benchOffset
    rw [if_neg (by omega)]
    simp only []
    rw [if_neg (by omega), ih]
    rfl

theorem benchLoop_ub (a : BenchArgs) (n r : Nat) (buf : Bytes)
    (h : ¬ ((r / a.files.toNat) * a.buf.toNat < 2 ^ 31 ∧ a.data.toNat ≤ buf.length)) {is : List Nat} (hi : is ≠ []) :
    benchLoop a n r buf is = .error .ub := by
  cases is with
  | nil => exact absurd rfl hi
  | cons i is =>
    unfold benchLoop benchOffset
    by_cases h1 : (r / a.files.toNat) * a.buf.toNat < 2 ^ 31
    · rw [if_neg (by omega)]
      simp only []
      rw [if_pos (by by_contra hc; exact h ⟨h1, by omega⟩)]
    · rw [if_pos (by omega)]

theorem flatten_benchElem (k : Nat) : (((List.range k).map benchElem).flatten).length = 4 * k := by
  induction k with
  | zero => rfl
  | succ k ih => rw [List.range_succ, List.map_append, List.flatten_append, List.length_append, ih]; simp [benchElem]; omega

theorem benchFill_length {a : BenchArgs} {mem buf : Bytes} (h : benchFill a mem = .ok buf) : buf.length = mem.length := by
  unfold benchFill at h
  simp only [] at h
  split at h
  · cases h
  · cases h
    rw [List.length_append, flatten_benchElem, List.length_drop]; omega

/-- Numbers with which a rank of the benchmark gets through. -/
structure BenchOk (a : BenchArgs) (n r : Nat) : Prop where
  files : 1 ≤ a.files ∧ a.files ≤ 10
  ranks : a.files ≤ (n : Int)
  data : 0 ≤ a.data ∧ a.data ≤ a.buf
  /-- The largest number put in the buffer, `22 * (data / 4 - 1) + 7`, is an `int`. -/
  fill : 22 * (a.data / 4 - 1) + 7 < 2 ^ 31
  /-- The rank's place in an iteration is an `int`. -/
  place : (r / a.files.toNat : Nat) * a.buf < 2 ^ 31

/-- **C68** With at least one iteration and data sizes of `int`, a rank gets through exactly when there
are one to ten files, no more than ranks, when the data fits in the buffer, and when the numbers in the
buffer and the rank's place are `int`s: no other error exists, and none of these is checked beforehand.
Whatever `malloc` gives. -/
theorem C68_runs_iff (a : BenchArgs) (n r : Nat) (mem : Bytes) (hm : mem.length = a.buf.toNat)
    (hk : 1 ≤ a.iters) (hd : -2 ^ 31 ≤ a.data ∧ a.data < 2 ^ 31) (hb : a.buf < 2 ^ 31) :
    (∃ o, benchRank a n r mem = .ok o) ↔ BenchOk a n r := by
  have hr : List.range a.iters.toNat ≠ [] := by
    intro h; have := congrArg List.length h; rw [List.length_range, List.length_nil] at this; omega
  constructor
  · rintro ⟨o, ho⟩
    unfold benchRank at ho
    split at ho
    · cases ho
    rename_i h1
    split at ho
    · cases ho
    rename_i h2
    split at ho
    · cases ho
    rename_i h3
    cases hf : benchFill a mem with
    | error e => rw [hf] at ho; cases ho
    | ok buf =>
      rw [hf] at ho
      simp only [] at ho
      rw [if_neg (by omega)] at ho
      by_cases hc : (r / a.files.toNat) * a.buf.toNat < 2 ^ 31 ∧ a.data.toNat ≤ buf.length
      · have hlen := benchFill_length hf
        unfold benchFill at hf
        simp only [] at hf
        split at hf
        · cases hf
        rename_i hg
        have hd0 : 0 ≤ a.data := by
          by_contra hneg
          have : u64 a.data / 4 ≥ 2 ^ 61 := by
            unfold u64; omega
          omega
        have hu : u64 a.data = a.data.toNat := by unfold u64; omega
        rw [hu] at hg
        refine ⟨by omega, by omega, by omega, ?_, ?_⟩
        · push Not at hg
          by_cases h4 : a.data < 4
          · omega
          · have := hg.2 (by omega)
            omega
        · have h5 : ((r / a.files.toNat : Nat) : Int) * (a.buf.toNat : Int) < 2 ^ 31 := by exact_mod_cast hc.1
          rwa [Int.toNat_of_nonneg (by omega)] at h5
      · rw [benchLoop_ub a n r buf hc hr] at ho
        cases ho
  · intro h
    have h1 := h.files; have h2 := h.ranks; have h3 := h.data; have h4 := h.fill; have h5 := h.place
    unfold benchRank
    rw [if_neg (by omega), if_neg (by omega), if_neg (by omega)]
    have hu : u64 a.data = a.data.toNat := by unfold u64; omega
    have hfill : ∃ buf, benchFill a mem = .ok buf := by
      unfold benchFill
      simp only []
      rw [hu, if_neg (by omega)]
      exact ⟨_, rfl⟩
    obtain ⟨buf, hf⟩ := hfill
    have hlen := benchFill_length hf
    rw [hf]
    simp only []
    have h6 : (r / a.files.toNat) * a.buf.toNat < 2 ^ 31 := by
      have : ((r / a.files.toNat : Nat) : Int) * (a.buf.toNat : Int) < 2 ^ 31 := by
        rw [Int.toNat_of_nonneg (by omega)]; exact h5
      exact_mod_cast this
    rw [if_neg (by omega), benchLoop_eq a n r buf h6 (by omega)]
    exact ⟨_, rfl⟩

/-! ### Where it writes -/

/-- The bytes a write covers. -/
def Touches (w : WriteReq) (x : Nat) : Prop := w.1 ≤ x ∧ x < w.1 + w.2.length

theorem inFile_eq {n f i : Nat} (hf : 0 < f) (hi : i < f) (hn : f ≤ n) :
    benchInFile n f i = ((n / f + if i < n % f then 1 else 0 : Nat) : Int) := by
  obtain ⟨q, m, hm, rfl⟩ : ∃ q m, m < f ∧ n = f * q + m := ⟨n / f, n % f, Nat.mod_lt _ hf, (Nat.div_add_mod n f).symm⟩
  have e1 : (f * q + m) / f = q := by rw [Nat.mul_add_div hf, Nat.div_eq_of_lt hm, Nat.add_zero]
  have e2 : (f * q + m) % f = m := by rw [Nat.mul_add_mod, Nat.mod_eq_of_lt hm]
  have e3 : ((f * q + m : Nat) : Int) / (f : Int) = q := by
    rw [← Int.natCast_ediv, e1]
  unfold benchInFile benchRange
  simp only []
  rw [e3, e1, e2]
  have hfi : (0 : Int) < f := by exact_mod_cast hf
  have e4 : ((f * q + m : Nat) : Int) = (q : Int) * f + m := by push_cast; ring
  rw [e4]
  by_cases h : i < m
  · rw [if_pos h, if_neg (by omega)]
    have : (q : Int) * f + i - i = q * f := by ring
    rw [this, Int.mul_ediv_cancel _ (by omega)]
    push_cast; rfl
  · rw [if_neg h, if_pos (by omega)]
    have : (q : Int) * f + i - f - i = (q - 1) * f := by ring
    rw [this, Int.mul_ediv_cancel _ (by omega)]
    push_cast; omega

theorem benchRank_writes {a : BenchArgs} {n r : Nat} {mem : Bytes} {o : BenchRank}
    (h : benchRank a n r mem = .ok o) :
    (1 ≤ a.files ∧ a.files ≤ 10) ∧ a.files.toNat ≤ n ∧ o.file = r % a.files.toNat ∧
    o.size = (n / a.files.toNat + if r % a.files.toNat < n % a.files.toNat then 1 else 0) * a.iters.toNat * a.buf.toNat ∧
    o.writes.length = a.iters.toNat ∧
    ∀ i w, o.writes[i]? = some w →
      i < a.iters.toNat ∧ w.1 = (i * (n / a.files.toNat) + r / a.files.toNat) * a.buf.toNat ∧
      w.2.length = a.data.toNat ∧ a.data.toNat ≤ mem.length := by
  unfold benchRank at h
  split at h
  · cases h
  rename_i h1
  split at h
  · cases h
  rename_i h2
  split at h
  · cases h
  rename_i h3
  cases hf : benchFill a mem with
  | error e => rw [hf] at h; cases h
  | ok buf =>
    rw [hf] at h
    simp only [] at h
    have hlen := benchFill_length hf
    split at h
    · cases h
    rename_i h4
    have hsize : (benchInFile n a.files (r % a.files.toNat : Nat) * a.iters * a.buf).toNat =
        (n / a.files.toNat + if r % a.files.toNat < n % a.files.toNat then 1 else 0) * a.iters.toNat * a.buf.toNat := by
      have e := inFile_eq (n := n) (f := a.files.toNat) (i := r % a.files.toNat) (by omega)
        (Nat.mod_lt _ (by omega)) (by omega)
      have e0 : ((a.files.toNat : Nat) : Int) = a.files := by omega
      rw [e0] at e
      rw [e]
      have e1 : a.iters = (a.iters.toNat : Int) := by omega
      have e2 : a.buf = (a.buf.toNat : Int) := by omega
      conv_lhs => rw [e1, e2]
      exact_mod_cast Int.toNat_natCast _
    by_cases hc : (r / a.files.toNat) * a.buf.toNat < 2 ^ 31 ∧ a.data.toNat ≤ buf.length
    · rw [benchLoop_eq a n r buf hc.1 hc.2] at h
      simp only [Except.ok.injEq] at h
      subst h
      refine ⟨by omega, by omega, rfl, hsize, by simp, ?_⟩
      intro i w hw
      simp only [List.getElem?_map, Option.map_eq_some_iff] at hw
      obtain ⟨j, hj, rfl⟩ := hw
      have hj2 := List.getElem?_eq_some_iff.1 hj
      obtain ⟨hl, hji⟩ := hj2
      rw [List.length_range] at hl
      rw [List.getElem_range] at hji
      subst hji
      refine ⟨hl, ?_, by rw [List.length_take]; omega, by omega⟩
      simp only []
      ring
    · by_cases hi : List.range a.iters.toNat = []
      · rw [hi] at h
        simp only [benchLoop, Except.ok.injEq] at h
        subst h
        have hz : a.iters.toNat = 0 := by have := congrArg List.length hi; rwa [List.length_range, List.length_nil] at this
        refine ⟨by omega, by omega, rfl, hsize, by simp [hz], ?_⟩
        intro i w hw; simp at hw
      · rw [benchLoop_ub a n r buf hc hi] at h
        cases h

/-- **C67** The size a file is given is the room for every iteration of every rank that writes to it. -/
theorem C67_size (a : BenchArgs) (n r : Nat) (mem : Bytes) (o : BenchRank) (h : benchRank a n r mem = .ok o) :
    o.size = ((Finset.range n).filter fun q => q % a.files.toNat = r % a.files.toNat).card * a.iters.toNat * a.buf.toNat := by
  obtain ⟨h1, h2, h3, h4, _⟩ := benchRank_writes h
  have := Nat.count_modEq_card n (r := a.files.toNat) (by omega) r
  rw [Nat.count_eq_card_filter_range] at this
  rw [h4, ← this]
  rfl

/-- **C67** No write reaches over the end of its file, if the data fits in the buffer. -/
theorem C67_inside (a : BenchArgs) (n r : Nat) (mem : Bytes) (o : BenchRank) (hr : r < n)
    (hm : mem.length = a.buf.toNat) (h : benchRank a n r mem = .ok o) (w : WriteReq) (hw : w ∈ o.writes) :
    w.1 + w.2.length ≤ o.size := by
  obtain ⟨h1, h2, h3, h4, h5, h6⟩ := benchRank_writes h
  obtain ⟨i, hi⟩ := List.mem_iff_getElem?.1 hw
  obtain ⟨g1, g2, g3, g4⟩ := h6 i w hi
  rw [h4, g2, g3]
  generalize hf : a.files.toNat = f at *
  generalize a.iters.toNat = k at *
  generalize a.buf.toNat = b at *
  have hfp : 0 < f := by omega
  have hq : r / f < n / f + if r % f < n % f then 1 else 0 := by
    have e1 := Nat.div_add_mod r f
    have e2 := Nat.div_add_mod n f
    have e3 := Nat.mod_lt n hfp
    have e4 := Nat.mod_lt r hfp
    split
    · rename_i hlt
      by_contra hc
      have : f * (n / f + 1) ≤ f * (r / f) := Nat.mul_le_mul_left _ (by omega)
      rw [Nat.mul_add] at this
      omega
    · rename_i hge
      by_contra hc
      have : f * (n / f) ≤ f * (r / f) := Nat.mul_le_mul_left _ (by omega)
      omega
  have hcq : n / f ≤ n / f + if r % f < n % f then 1 else 0 := Nat.le_add_right _ _
  generalize (n / f + if r % f < n % f then 1 else 0) = c at *
  generalize hnq : n / f = q at *
  have hle : i * q + r / f + 1 ≤ c * k := by
    have : (i + 1) * c ≤ k * c := Nat.mul_le_mul_right _ g1
    have h7 : i * q ≤ i * c := Nat.mul_le_mul_left _ hcq
    rw [Nat.mul_comm c k]
    rw [Nat.add_mul] at this
    omega
  calc (i * q + r / f) * b + a.data.toNat ≤ (i * q + r / f) * b + b := by omega
    _ = (i * q + r / f + 1) * b := by ring
    _ ≤ c * k * b := Nat.mul_le_mul_right _ hle

/-- The little-endian `int` at a place. -/
def le32 (b : Bytes) (p : Nat) : Nat :=
  (b.getD p 0).toNat + 256 * (b.getD (p + 1) 0).toNat + 65536 * (b.getD (p + 2) 0).toNat +
    16777216 * (b.getD (p + 3) 0).toNat

theorem le32_elem (A B : Bytes) (j p : Nat) (hA : A.length = p) (hj : j * 22 + 7 < 2 ^ 31) :
    le32 (A ++ (benchElem j ++ B)) p = j * 22 + 7 := by
  have hg : ∀ t, (A ++ (benchElem j ++ B)).getD (p + t) 0 = (benchElem j ++ B).getD t 0 := by
    intro t
    rw [List.getD_eq_getElem?_getD, List.getD_eq_getElem?_getD, List.getElem?_append_right (by omega)]
    congr 2; omega
  have h0 := hg 0
  have h1 := hg 1
  have h2 := hg 2
  have h3 := hg 3
  rw [Nat.add_zero] at h0
  unfold le32
  rw [h0, h1, h2, h3]
  generalize hv : j * 22 + 7 = v at *
  have hb : benchElem j = [UInt8.ofNat (v % 256), UInt8.ofNat (v / 256 % 256), UInt8.ofNat (v / 65536 % 256), UInt8.ofNat (v / 16777216 % 256)] := by
    rw [← hv]; rfl
  rw [hb]
  simp only [List.cons_append, List.nil_append, List.getD_cons_zero, List.getD_cons_succ, UInt8.toNat_ofNat', Nat.reducePow, Nat.mod_mod]
  clear hg h0 h1 h2 h3 hb
  have a1 : v = 256 * (v / 256) + v % 256 := (Nat.div_add_mod _ _).symm
  have a2 : v / 256 = 256 * (v / 65536) + v / 256 % 256 := by
    have := (Nat.div_add_mod (v / 256) 256).symm
    rwa [Nat.div_div_eq_div_mul] at this
  have a3 : v / 65536 = 256 * (v / 16777216) + v / 65536 % 256 := by
    have := (Nat.div_add_mod (v / 65536) 256).symm
    rwa [Nat.div_div_eq_div_mul] at this
  have a4 : v / 16777216 % 256 = v / 16777216 := Nat.mod_eq_of_lt (by omega)
  rw [a4]
  generalize v / 16777216 = d at *
  generalize v / 65536 % 256 = c at *
  generalize v / 65536 = c' at *
  generalize v / 256 % 256 = e at *
  generalize v / 256 = e' at *
  generalize v % 256 = f at *
  omega

/-- **C67** What is written each time: the numbers 7, 29, 51, ... as `int`s, as many as fit whole in the
data (the up to three bytes after them are whatever the buffer held). -/
theorem C67_contents (a : BenchArgs) (n r : Nat) (mem : Bytes) (o : BenchRank) (h : benchRank a n r mem = .ok o)
    (w : WriteReq) (hw : w ∈ o.writes) (hd : 0 ≤ a.data ∧ a.data < 2 ^ 31) (j : Nat) (hj : j < a.data.toNat / 4) :
    le32 w.2 (4 * j) = 22 * j + 7 := by
  unfold benchRank at h
  split at h
  · cases h
  split at h
  · cases h
  split at h
  · cases h
  cases hf : benchFill a mem with
  | error e => rw [hf] at h; cases h
  | ok buf =>
    rw [hf] at h
    simp only [] at h
    have hlen := benchFill_length hf
    split at h
    · cases h
    by_cases hc : (r / a.files.toNat) * a.buf.toNat < 2 ^ 31 ∧ a.data.toNat ≤ buf.length
    · rw [benchLoop_eq a n r buf hc.1 hc.2] at h
      simp only [Except.ok.injEq] at h
      subst h
      simp only [List.mem_map] at hw
      obtain ⟨i, _, rfl⟩ := hw
      simp only []
      unfold benchFill at hf
      have hu : u64 a.data = a.data.toNat := by unfold u64; omega
      simp only [hu] at hf
      split at hf
      · cases hf
      rename_i hg
      cases hf
      have hr : List.range (a.data.toNat / 4) = List.range j ++ (j :: (List.range (a.data.toNat / 4 - (j + 1))).map (j + 1 + ·)) := by
        have e : a.data.toNat / 4 = j + (1 + (a.data.toNat / 4 - (j + 1))) := by omega
        conv_lhs => rw [e, List.range_add, List.range_add]
        simp [Function.comp_def, Nat.add_assoc]
      rw [hr, List.map_append, List.map_cons, List.flatten_append, List.flatten_cons]
      generalize hA : (List.map benchElem (List.range j)).flatten = A
      have hAl : A.length = 4 * j := by rw [← hA, flatten_benchElem]
      generalize ((List.map benchElem ((List.range (a.data.toNat / 4 - (j + 1))).map (j + 1 + ·))).flatten) = B
      have e4 : (benchElem j).length = 4 := rfl
      obtain ⟨C, hC⟩ : ∃ C, (A ++ (benchElem j ++ B) ++ mem.drop (4 * (a.data.toNat / 4))).take a.data.toNat =
          A ++ (benchElem j ++ C) := by
        refine ⟨(B ++ mem.drop (4 * (a.data.toNat / 4))).take (a.data.toNat - 4 * j - 4), ?_⟩
        rw [List.append_assoc, List.take_append, List.take_of_length_le (by omega), List.append_assoc,
          List.take_append, List.take_of_length_le (by omega), hAl, e4]
      rw [hC, le32_elem A C j (4 * j) hAl (by push Not at hg; have := hg.2 (by omega); omega)]
      omega
    · by_cases hi : List.range a.iters.toNat = []
      · rw [hi] at h
        simp only [benchLoop, Except.ok.injEq] at h
        subst h
        simp at hw
      · rw [benchLoop_ub a n r buf hc hi] at h
        cases h

/-- The benchmark as a whole: every rank, with whatever its `malloc` gave, gets through. -/
structure BenchRun (a : BenchArgs) (n : Nat) (mem : Nat → Bytes) (out : Nat → BenchRank) : Prop where
  runs : ∀ r, r < n → benchRank a n r (mem r) = .ok (out r)
  memory : ∀ r, (mem r).length = a.buf.toNat

/-- No two writes - of different ranks or different iterations - to one file meet. -/
def Apart (n : Nat) (out : Nat → BenchRank) : Prop :=
  ∀ (r r' i i' : Nat) (w w' : WriteReq), r < n → r' < n → (out r).file = (out r').file → (r, i) ≠ (r', i') →
    (out r).writes[i]? = some w → (out r').writes[i']? = some w' → ∀ x, ¬ (Touches w x ∧ Touches w' x)

/-- **C67, exactly when it holds** The writes are apart exactly when the ranks divide evenly among the
files, or when there is only one iteration.  Otherwise the next iteration of the first rank of a file
goes over what the file's last rank has written. -/
theorem C67_apart_iff (a : BenchArgs) (n : Nat) (mem : Nat → Bytes) (out : Nat → BenchRank)
    (h : BenchRun a n mem out) (hn : 0 < n) (hd : 0 < a.data) :
    Apart n out ↔ a.files.toNat ∣ n ∨ a.iters ≤ 1 := by
  have hw := fun r hr => benchRank_writes (h.runs r hr)
  obtain ⟨hf, hfn, _⟩ := hw 0 hn
  have hfp : 0 < a.files.toNat := by omega
  constructor
  · intro hap
    by_contra hc
    push Not at hc
    have hk : 2 ≤ a.iters.toNat := by omega
    have hmod : 0 < n % a.files.toNat := Nat.pos_of_ne_zero fun h0 => hc.1 (Nat.dvd_of_mod_eq_zero h0)
    have hdm := Nat.div_add_mod n a.files.toNat
    have hlast : a.files.toNat * (n / a.files.toNat) < n := by omega
    have hq : 1 ≤ n / a.files.toNat := Nat.div_pos hfn hfp
    obtain ⟨_, _, p3, _, p5, p6⟩ := hw _ hlast
    obtain ⟨_, _, q3, _, q5, q6⟩ := hw 0 hn
    obtain ⟨w, hwi⟩ : ∃ w, (out (a.files.toNat * (n / a.files.toNat))).writes[0]? = some w :=
      ⟨_, List.getElem?_eq_getElem (by omega)⟩
    obtain ⟨w', hwi'⟩ : ∃ w, (out 0).writes[1]? = some w := ⟨_, List.getElem?_eq_getElem (by omega)⟩
    obtain ⟨_, a2, a3, a4⟩ := p6 _ _ hwi
    obtain ⟨_, b2, b3, b4⟩ := q6 _ _ hwi'
    have e1 : a.files.toNat * (n / a.files.toNat) / a.files.toNat = n / a.files.toNat := Nat.mul_div_cancel_left _ hfp
    have hsame : w.1 = w'.1 := by
      rw [a2, b2, e1, Nat.zero_div]; ring
    refine hap _ 0 0 1 w w' hlast hn ?_ ?_ hwi hwi' w.1 ⟨⟨Nat.le_refl _, by omega⟩, ⟨by omega, by omega⟩⟩
    · rw [p3, q3, Nat.mul_mod_right, Nat.zero_mod]
    · intro he
      have := congrArg Prod.snd he
      simp at this
  · intro hcase r r' i i' w w' hr hr' hfile hne hwi hwi' x hx
    obtain ⟨_, _, p3, _, _, p6⟩ := hw r hr
    obtain ⟨_, _, q3, _, _, q6⟩ := hw r' hr'
    obtain ⟨a1, a2, a3, a4⟩ := p6 _ _ hwi
    obtain ⟨b1, b2, b3, b4⟩ := q6 _ _ hwi'
    have hm := h.memory r
    rw [p3, q3] at hfile
    obtain ⟨⟨x1, x2⟩, ⟨x3, x4⟩⟩ := hx
    have hslot : i * (n / a.files.toNat) + r / a.files.toNat = i' * (n / a.files.toNat) + r' / a.files.toNat := by
      rw [a2] at x1 x2
      rw [b2] at x3 x4
      generalize i * (n / a.files.toNat) + r / a.files.toNat = s at *
      generalize i' * (n / a.files.toNat) + r' / a.files.toNat = t at *
      generalize a.buf.toNat = b at *
      rcases Nat.lt_trichotomy s t with hlt | heq | hgt
      · have : (s + 1) * b ≤ t * b := Nat.mul_le_mul_right _ hlt
        rw [Nat.add_mul] at this; omega
      · exact heq
      · have : (t + 1) * b ≤ s * b := Nat.mul_le_mul_right _ hgt
        rw [Nat.add_mul] at this; omega
    have key : i = i' ∧ r / a.files.toNat = r' / a.files.toNat := by
      rcases hcase with hdv | hk
      · have hlt : ∀ r, r < n → r / a.files.toNat < n / a.files.toNat := fun r hr =>
          Nat.div_lt_div_of_lt_of_dvd hdv hr
        have l1 := hlt r hr
        have l2 := hlt r' hr'
        generalize n / a.files.toNat = q at *
        have e1 : (i * q + r / a.files.toNat) / q = i := by
          rw [Nat.mul_comm, Nat.mul_add_div (Nat.zero_lt_of_lt l1), Nat.div_eq_of_lt l1, Nat.add_zero]
        have e2 : (i' * q + r' / a.files.toNat) / q = i' := by
          rw [Nat.mul_comm, Nat.mul_add_div (Nat.zero_lt_of_lt l2), Nat.div_eq_of_lt l2, Nat.add_zero]
        rw [hslot, e2] at e1
        subst e1
        exact ⟨rfl, by omega⟩
      · have : i = 0 := by omega
        have : i' = 0 := by omega
        subst i i'
        simpa using hslot
    apply hne
    rw [key.1]
    have : r = r' := by
      rw [← Nat.div_add_mod r a.files.toNat, ← Nat.div_add_mod r' a.files.toNat, key.2, hfile]
    rw [this]

/-- **C67, violated** When the ranks do not divide evenly among the files and there are at least two
iterations, the end of the first file - one buffer for every iteration but one - is never written,
although the file is given that size: the benchmark reports more bytes than it stores. -/
theorem C67_end_never_written (a : BenchArgs) (n : Nat) (mem : Nat → Bytes) (out : Nat → BenchRank)
    (h : BenchRun a n mem out) (hn : 0 < n) (hdiv : ¬ a.files.toNat ∣ n) (r : Nat) (hr : r < n)
    (hfile : (out r).file = 0) (w : WriteReq) (hw : w ∈ (out r).writes) :
    w.1 + w.2.length + (a.iters.toNat - 1) * a.buf.toNat ≤ (out r).size := by
  obtain ⟨hf, hfn, p3, p4, p5, p6⟩ := benchRank_writes (h.runs r hr)
  obtain ⟨i, hi⟩ := List.mem_iff_getElem?.1 hw
  obtain ⟨a1, a2, a3, a4⟩ := p6 i w hi
  have hm := h.memory r
  have hfp : 0 < a.files.toNat := by omega
  have hmod : 0 < n % a.files.toNat := Nat.pos_of_ne_zero fun h0 => hdiv (Nat.dvd_of_mod_eq_zero h0)
  rw [p3] at hfile
  rw [hfile, if_pos hmod] at p4
  rw [p4, a2, a3]
  have hq : r / a.files.toNat ≤ n / a.files.toNat := Nat.div_le_div_right (by omega)
  generalize n / a.files.toNat = q at *
  generalize r / a.files.toNat = t at *
  generalize a.iters.toNat = k at *
  generalize a.buf.toNat = b at *
  obtain ⟨j, rfl⟩ : ∃ j, k = j + 1 := ⟨k - 1, by omega⟩
  have h1 : i * q ≤ j * q := Nat.mul_le_mul_right _ (by omega)
  have h2 : i * q + t + 1 + j ≤ (q + 1) * (j + 1) := by
    have : (q + 1) * (j + 1) = j * q + q + j + 1 := by ring
    omega
  calc (i * q + t) * b + a.data.toNat + (j + 1 - 1) * b ≤ (i * q + t) * b + b + j * b := by
        rw [Nat.add_sub_cancel]; omega
    _ = (i * q + t + 1 + j) * b := by ring
    _ ≤ (q + 1) * (j + 1) * b := Nat.mul_le_mul_right _ h2

/-- **C68** All files must exist for all ranks: with fewer ranks than files nothing runs, with any
numbers at all. -/
theorem C68_too_few_ranks (a : BenchArgs) (n r : Nat) (mem : Bytes) (h : (n : Int) < a.files) :
    ∃ e, benchRank a n r mem = .error e := by
  cases hb : benchRank a n r mem with
  | error e => exact ⟨e, rfl⟩
  | ok o =>
    obtain ⟨h1, h2, _⟩ := benchRank_writes hb
    omega

/-- The buffer can be filled: four bytes for each whole `int` of the data fit, and the numbers are `int`s. -/
def Fillable (a : BenchArgs) : Prop :=
  0 ≤ a.data ∧ a.data / 4 * 4 ≤ a.buf ∧ 22 * (a.data / 4 - 1) + 7 < 2 ^ 31

theorem fill_iff {a : BenchArgs} {mem : Bytes} (hm : mem.length = a.buf.toNat) (hb0 : 0 ≤ a.buf)
    (hd : -2 ^ 31 ≤ a.data ∧ a.data < 2 ^ 31) (hb : a.buf < 2 ^ 31) :
    (Fillable a → ∃ buf, benchFill a mem = .ok buf) ∧ (¬ Fillable a → benchFill a mem = .error .ub) := by
  unfold benchFill Fillable
  simp only []
  by_cases h0 : 0 ≤ a.data
  · have hu : u64 a.data = a.data.toNat := by unfold u64; omega
    rw [hu]
    constructor
    · intro h
      rw [if_neg (by omega)]
      exact ⟨_, rfl⟩
    · intro h
      rw [if_pos (by omega)]
  · have hu : u64 a.data / 4 ≥ 2 ^ 61 := by unfold u64; omega
    constructor
    · intro h; omega
    · intro _
      rw [if_pos (by omega)]

/-- **C68** The three ways a rank of the benchmark stops with a message: with fewer ranks than files (status
1), with a negative buffer size (status 253, which is -3), with a negative number of iterations (status 4).
Each only if what is computed before it is defined: one to ten files, and a buffer that can be filled. -/
theorem C68_stops (a : BenchArgs) (n r : Nat) (mem : Bytes) (hm : mem.length = a.buf.toNat)
    (hd : -2 ^ 31 ≤ a.data ∧ a.data < 2 ^ 31) (hb : a.buf < 2 ^ 31) (s : Nat) :
    benchRank a n r mem = .error (.exit s) ↔ (1 ≤ a.files ∧ a.files ≤ 10) ∧
      (((n : Int) < a.files ∧ s = 1) ∨ (a.files ≤ (n : Int) ∧ a.buf < 0 ∧ s = 253) ∨
        (a.files ≤ (n : Int) ∧ 0 ≤ a.buf ∧ Fillable a ∧ a.iters < 0 ∧ s = 4)) := by
  unfold benchRank
  by_cases h1 : a.files < 1 ∨ 10 < a.files
  · rw [if_pos h1]
    constructor
    · intro h; cases h
    · rintro ⟨h, _⟩; omega
  rw [if_neg h1]
  by_cases h2 : (n : Int) < a.files
  · rw [if_pos h2]
    constructor
    · intro h; cases h; exact ⟨by omega, Or.inl ⟨h2, rfl⟩⟩
    · rintro ⟨_, ⟨_, rfl⟩ | ⟨h, _⟩ | ⟨h, _⟩⟩
      · rfl
      · omega
      · omega
  rw [if_neg h2]
  by_cases h3 : a.buf < 0
  · rw [if_pos h3]
    constructor
    · intro h; cases h; exact ⟨by omega, Or.inr (Or.inl ⟨by omega, h3, rfl⟩)⟩
    · rintro ⟨_, ⟨h, _⟩ | ⟨_, _, rfl⟩ | ⟨_, h, _⟩⟩
      · omega
      · rfl
      · omega
  rw [if_neg h3]
  obtain ⟨hf1, hf2⟩ := fill_iff hm (by omega) hd hb
  by_cases h4 : Fillable a
  · obtain ⟨buf, hbuf⟩ := hf1 h4
    rw [hbuf]
    simp only []
    by_cases h5 : a.iters < 0
    · rw [if_pos h5]
      constructor
      · intro h; cases h; exact ⟨by omega, Or.inr (Or.inr ⟨by omega, by omega, h4, h5, rfl⟩)⟩
      · rintro ⟨_, ⟨h, _⟩ | ⟨_, h, _⟩ | ⟨_, _, _, _, rfl⟩⟩
        · omega
        · omega
        · rfl
    · rw [if_neg h5]
      constructor
      · intro h
        exfalso
        by_cases hc : (r / a.files.toNat) * a.buf.toNat < 2 ^ 31 ∧ a.data.toNat ≤ buf.length
        · rw [benchLoop_eq a n r buf hc.1 hc.2] at h; cases h
        · by_cases hi : List.range a.iters.toNat = []
          · rw [hi] at h; simp only [benchLoop] at h; cases h
          · rw [benchLoop_ub a n r buf hc hi] at h; cases h
      · rintro ⟨_, ⟨h, _⟩ | ⟨_, h, _⟩ | ⟨_, _, _, h, _⟩⟩ <;> omega
  · rw [hf2 h4]
    constructor
    · intro h; cases h
    · rintro ⟨_, ⟨h, _⟩ | ⟨_, h, _⟩ | ⟨_, _, h, _⟩⟩
      · omega
      · omega
      · exact absurd h h4

/-- **C68** With no iterations at all a rank gets through whenever its buffer can be filled, and writes
nothing. -/
theorem C68_no_iterations (a : BenchArgs) (n r : Nat) (mem : Bytes) (hm : mem.length = a.buf.toNat)
    (hd : -2 ^ 31 ≤ a.data ∧ a.data < 2 ^ 31) (hb : a.buf < 2 ^ 31) (h0 : a.iters = 0) :
    benchRank a n r mem = .ok ⟨r % a.files.toNat, 0, []⟩ ↔
      (1 ≤ a.files ∧ a.files ≤ 10) ∧ a.files ≤ (n : Int) ∧ 0 ≤ a.buf ∧ Fillable a := by
  unfold benchRank
  by_cases h1 : a.files < 1 ∨ 10 < a.files
  · rw [if_pos h1]
    constructor
    · intro h; cases h
    · rintro ⟨h, _⟩; omega
  rw [if_neg h1]
  by_cases h2 : (n : Int) < a.files
  · rw [if_pos h2]
    constructor
    · intro h; cases h
    · rintro ⟨_, h, _⟩; omega
  rw [if_neg h2]
  by_cases h3 : a.buf < 0
  · rw [if_pos h3]
    constructor
    · intro h; cases h
    · rintro ⟨_, _, h, _⟩; omega
  rw [if_neg h3]
  obtain ⟨hf1, hf2⟩ := fill_iff hm (by omega) hd hb
  by_cases h4 : Fillable a
  · obtain ⟨buf, hbuf⟩ := hf1 h4
    rw [hbuf]
    simp only []
    rw [if_neg (by omega), h0]
    simp only [Int.toNat_zero, List.range_zero, benchLoop, Int.mul_zero, Int.zero_mul]
    exact ⟨fun _ => ⟨by omega, by omega, by omega, h4⟩, fun _ => by trivial⟩
  · rw [hf2 h4]
    constructor
    · intro h; cases h
    · rintro ⟨_, _, _, h⟩; exact absurd h h4

example : benchRank ⟨4, 8, -1, 2⟩ 3 0 (List.replicate 8 9) = .error (.exit 4) ∧
    benchRank ⟨4, -8, 1, 2⟩ 3 0 [] = .error (.exit 253) ∧ benchRank ⟨4, 8, 1, 2⟩ 1 0 (List.replicate 8 9) = .error (.exit 1) ∧
    benchRank ⟨4, 8, 0, 2⟩ 3 1 (List.replicate 8 9) = .ok ⟨1, 0, []⟩ := by
  refine ⟨?_, ?_, ?_, ?_⟩ <;> decide +kernel

/-- Three ranks, two files, two iterations of 4 bytes in a buffer of 8. -/
def benchDemo : BenchArgs := ⟨4, 8, 2, 2⟩

def benchDemoOut (r : Nat) : BenchRank :=
  ⟨r % 2, if r % 2 = 0 then 32 else 16, [(r / 2 * 8, [7, 0, 0, 0]), (8 + r / 2 * 8, [7, 0, 0, 0])]⟩

theorem benchDemo_run : BenchRun benchDemo 3 (fun _ => List.replicate 8 9) benchDemoOut where
  runs := by
    intro r hr
    have : r = 0 ∨ r = 1 ∨ r = 2 := by omega
    rcases this with rfl | rfl | rfl <;> decide +kernel
  memory := fun _ => by decide

example : BenchOk benchDemo 3 2 ∧ ¬ Apart 3 benchDemoOut ∧ ¬ benchDemo.files.toNat ∣ 3 := by
  refine ⟨(C68_runs_iff benchDemo 3 2 (List.replicate 8 9) (by decide) (by decide) (by decide) (by decide)).1
    ⟨_, benchDemo_run.runs 2 (by decide)⟩, ?_, by decide⟩
  rw [C67_apart_iff _ _ _ _ benchDemo_run (by decide) (by decide)]
  decide

end Parfu.Props
