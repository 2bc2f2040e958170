/-
C17, C18: transfer orders on their way to the worker.
-/
import Verif.MarchLemmas
set_option autoImplicit false

namespace Parfu.Props
open Parfu

/-- Specification: what the worker should hold after receiving an order. -/
def asReceived (o : Order) : WOrder :=
  { idx := o.idx, rel := o.rel,
    type := (match o.kind with | .dir => 68 | .lnk => 76 | .reg => 70 | .other => 88),
    target := o.target, size := o.size, hdr := o.hdr, pos := o.pos, off := o.off }

/-- Specification: every number of the order fits in a (32-bit, signed) `int`. -/
def FitsInt (o : Order) : Prop :=
  o.size < 2 ^ 31 ∧ o.hdr < 2 ^ 31 ∧ o.pos < 2 ^ 31 ∧ o.off < 2 ^ 31

instance (o : Order) : Decidable (FitsInt o) := inferInstanceAs (Decidable (_ ∧ _))

/-- Specification: the path and the link target contain no TAB, and the container number is an
`int`. -/
def NoTab (o : Order) : Prop :=
  (9 : UInt8) ∉ o.rel ∧ (9 : UInt8) ∉ o.target ∧ -(2 ^ 31) ≤ o.idx ∧ o.idx < 2 ^ 31

/-- Specification: no NUL either (POSIX names never have one). -/
def NoNul (o : Order) : Prop := (0 : UInt8) ∉ o.rel ∧ (0 : UInt8) ∉ o.target

instance (o : Order) : Decidable (NoTab o) := inferInstanceAs (Decidable (_ ∧ _))
instance (o : Order) : Decidable (NoNul o) := inferInstanceAs (Decidable (_ ∧ _))

theorem asReceived_eq (o : Order) : asReceived o =
    { idx := o.idx, rel := o.rel, type := typeChar o.kind, target := o.target, size := o.size,
      hdr := o.hdr, pos := o.pos, off := o.off } := by
  unfold asReceived typeChar; cases o.kind <;> rfl

/-- Parsing clean lines one after the other, whatever follows them. -/
theorem parse_prefix (rest : Bytes) : ∀ (os : List Order) (pre : Bytes) (fuel : Nat),
    (∀ o ∈ os, NoTab o) → (∀ o ∈ os, FitsInt o) →
    (pre ++ printBundle os ++ rest).length < npos32 →
    os.length ≤ fuel →
    parseLoop (pre ++ printBundle os ++ rest) fuel pre.length =
      match parseLoop (pre ++ printBundle os ++ rest) (fuel - os.length)
        (pre ++ printBundle os).length with
      | .error e => .error e
      | .ok ws => .ok (os.map asReceived ++ ws) := by
  intro os
  induction os with
  | nil =>
    intro pre fuel _ _ _ _
    simp only [printBundle, List.flatMap_nil, List.append_nil, List.length_nil, Nat.sub_zero,
      List.map_nil, List.nil_append]
    cases parseLoop (pre ++ rest) fuel pre.length <;> rfl
  | cons o os ih =>
    intro pre fuel hn hf hl hfu
    obtain ⟨k, rfl⟩ : ∃ k, fuel = k + 1 := ⟨fuel - 1, by simp at hfu; omega⟩
    have e : pre ++ printBundle (o :: os) ++ rest = pre ++ printOrder o ++ (printBundle os ++ rest) := by
      simp [printBundle]
    have e2 : pre ++ printBundle (o :: os) ++ rest = (pre ++ printOrder o) ++ printBundle os ++ rest := by
      simp [printBundle]
    have e3 : pre ++ printBundle (o :: os) = (pre ++ printOrder o) ++ printBundle os := by
      simp [printBundle]
    have hpos : 0 < (printOrder o).length := List.length_pos_iff.2 (printOrder_ne_nil o)
    rw [parseLoop, if_pos (by rw [e]; simp only [List.length_append]; omega)]
    have hN := hn o (by simp)
    have hp := parseLine_print pre (printBundle os ++ rest) o ⟨hN.1, hN.2.1⟩ hN.2.2.1 hN.2.2.2
      (by rw [← e]; exact hl)
    rw [if_pos (show o.size < 2 ^ 31 ∧ o.hdr < 2 ^ 31 ∧ o.pos < 2 ^ 31 ∧ o.off < 2 ^ 31 from hf o (by simp)), ← e] at hp
    rw [hp]
    simp only []
    have := ih (pre ++ printOrder o) k (fun x hx => hn x (by simp [hx]))
      (fun x hx => hf x (by simp [hx])) (by rw [← e2]; exact hl) (by simp at hfu; omega)
    rw [← e2, ← e3] at this
    rw [this, show k + 1 - (o :: os).length = k - os.length by simp]
    cases parseLoop (pre ++ printBundle (o :: os) ++ rest) (k - os.length)
      (pre ++ printBundle (o :: os)).length with
    | error e => rfl
    | ok ws => simp only [List.map_cons, List.cons_append, asReceived_eq o]

theorem bundle_length_le (os : List Order) : os.length ≤ (printBundle os).length := by
  induction os with
  | nil => simp
  | cons o os ih =>
    have hpos : 0 < (printOrder o).length := List.length_pos_iff.2 (printOrder_ne_nil o)
    simp only [printBundle, List.flatMap_cons, List.length_append, List.length_cons] at *
    omega

theorem recv_send (c : UInt8) (hc : c ≠ 0) (m : Bytes) (h : (0 : UInt8) ∉ m) :
    recvMsg (sendMsg [c] m) = c :: m := by
  unfold recvMsg sendMsg
  rw [takeWhile_append_of_all]
  · rfl
  · intro x hx
    simp only [List.mem_append, List.mem_singleton] at hx
    simp only [ne_eq, decide_not, Bool.not_eq_eq_eq_not, Bool.not_true, decide_eq_false_iff_not]
    rcases hx with hx | hx
    · rw [hx]; exact hc
    · exact fun e => h (e ▸ hx)
  · intro x hx; simp at hx; subst hx; simp

theorem print_no_nul (os : List Order) (h : ∀ o ∈ os, NoNul o) : (0 : UInt8) ∉ printBundle os := by
  intro hm
  unfold printBundle at hm
  obtain ⟨o, ho, hm⟩ := List.mem_flatMap.1 hm
  have hN := h o ho
  unfold printOrder at hm
  simp only [List.mem_append, List.mem_singleton] at hm
  have d := fun n => digits_no 0 (by decide) n
  have i := decInt_no 0 (by decide) (by decide) o.idx
  have t : (0 : UInt8) ≠ typeChar o.kind := by cases o.kind <;> decide
  have n9 : (0 : UInt8) ≠ 9 := by decide
  have n10 : (0 : UInt8) ≠ 10 := by decide
  simp only [i, d, hN.1, hN.2, t, n9, n10, or_self] at hm

/-- **C17** For every bundle of orders with names free of TAB (newlines, blanks and empty names are
fine) and NUL and with every number below 2^31, printed, sent and received as a message of less than
4 GiB, the worker holds exactly the orders that were sent, in the same order.  (`_partial`: the
property has no bound on numbers and no TAB restriction; both are needed, see below.) -/
theorem C17_roundtrip_partial (os : List Order) (hn : ∀ o ∈ os, NoTab o) (h0 : ∀ o ∈ os, NoNul o)
    (hf : ∀ o ∈ os, FitsInt o) (hl : (printBundle os).length < 2 ^ 32 - 1) :
    (recvMsg (sendMsg [67] (printBundle os))).head? = some 67 ∧
    parseOrders ((recvMsg (sendMsg [67] (printBundle os))).drop 1) = .ok (os.map asReceived) := by
  rw [recv_send 67 (by decide) _ (print_no_nul os h0)]
  refine ⟨rfl, ?_⟩
  have := parse_prefix [] os [] (printBundle os).length hn hf (by simpa [npos32] using hl) (bundle_length_le os)
  simp only [List.nil_append, List.append_nil, List.length_nil] at this
  simp only [List.drop_succ_cons, List.drop_zero, parseOrders]
  rw [this]
  have : parseLoop (printBundle os) ((printBundle os).length - os.length) (printBundle os).length = .ok [] := by
    cases (printBundle os).length - os.length <;> simp [parseLoop]
  rw [this]
  simp

/-- **C17** (exact condition) For tab-free names the worker either holds exactly what was sent or
aborts, and it aborts precisely when some number does not fit in a 32-bit `int`. -/
theorem C17_accepts_iff (os : List Order) (hn : ∀ o ∈ os, NoTab o)
    (hl : (printBundle os).length < 2 ^ 32 - 1) :
    parseOrders (printBundle os) =
      if ∀ o ∈ os, FitsInt o then .ok (os.map asReceived) else .error .thrown := by
  by_cases hf : ∀ o ∈ os, FitsInt o
  · rw [if_pos hf]
    have := parse_prefix [] os [] (printBundle os).length hn hf (by simpa [npos32] using hl) (bundle_length_le os)
    simp only [List.nil_append, List.append_nil, List.length_nil] at this
    rw [parseOrders, this]
    have : parseLoop (printBundle os) ((printBundle os).length - os.length) (printBundle os).length = .ok [] := by
      cases (printBundle os).length - os.length <;> simp [parseLoop]
    rw [this]
    simp
  · rw [if_neg hf]
    -- split at the first order that does not fit
    have : ∃ xs o ys, os = xs ++ o :: ys ∧ (∀ x ∈ xs, FitsInt x) ∧ ¬ FitsInt o := by
      clear hl hn
      induction os with
      | nil => exact absurd (by simp) hf
      | cons a as ih =>
        by_cases ha : FitsInt a
        · obtain ⟨xs, o, ys, e, h1, h2⟩ := ih (fun h => hf (by
            intro x hx; rcases List.mem_cons.1 hx with rfl | hx
            · exact ha
            · exact h x hx))
          refine ⟨a :: xs, o, ys, by simp [e], ?_, h2⟩
          intro x hx; rcases List.mem_cons.1 hx with rfl | hx
          · exact ha
          · exact h1 x hx
        · exact ⟨[], a, as, rfl, by simp, ha⟩
    obtain ⟨xs, o, ys, e, h1, h2⟩ := this
    have eb : printBundle os = [] ++ printBundle xs ++ (printOrder o ++ printBundle ys) := by
      rw [e]; simp [printBundle]
    have hlen : xs.length < (printBundle os).length := by
      have := bundle_length_le xs
      have hpos : 0 < (printOrder o).length := List.length_pos_iff.2 (printOrder_ne_nil o)
      rw [eb]; simp only [List.length_append]; omega
    have := parse_prefix (printOrder o ++ printBundle ys) xs [] (printBundle os).length
      (fun x hx => hn x (by rw [e]; simp [hx])) h1 (by rw [← eb]; exact hl) (by omega)
    rw [← eb] at this
    rw [parseOrders]
    simp only [List.length_nil, List.nil_append] at this
    rw [this]
    obtain ⟨k, hk⟩ : ∃ k, (printBundle os).length - xs.length = k + 1 := ⟨(printBundle os).length - xs.length - 1, by omega⟩
    rw [hk, parseLoop]
    have hpos : 0 < (printOrder o).length := List.length_pos_iff.2 (printOrder_ne_nil o)
    rw [if_pos (by rw [eb]; simp only [List.length_append]; simp; omega)]
    have hN := hn o (by rw [e]; simp)
    have eb2 : printBundle os = printBundle xs ++ printOrder o ++ printBundle ys := by
      rw [eb]; simp
    have hp := parseLine_print (printBundle xs) (printBundle ys) o ⟨hN.1, hN.2.1⟩ hN.2.2.1 hN.2.2.2
      (by rw [← eb2]; exact hl)
    rw [if_neg (show ¬(o.size < 2 ^ 31 ∧ o.hdr < 2 ^ 31 ∧ o.pos < 2 ^ 31 ∧ o.off < 2 ^ 31) from h2), ← eb2] at hp
    rw [hp]

/-- **C17, negation** Every plan with an order at or beyond archive offset 2 GiB cannot be carried
out: whatever the bucket size, the worker that gets the bundle with that order throws while parsing
it (`stoi` out of range), so archives of 2 GiB and more cannot be made. -/
theorem C17_over_2GiB_aborts (idx : Int) (b mx : Nat) (c : PColl) (bs : List (List Order))
    (_hp : createOrders idx b mx c = some bs) (os : List Order) (_hb : os ∈ bs)
    (hn : ∀ o ∈ os, NoTab o) (hl : (printBundle os).length < 2 ^ 32 - 1)
    (hbig : ∃ o ∈ os, 2 ^ 31 ≤ o.pos) :
    parseOrders (printBundle os) = .error .thrown := by
  rw [C17_accepts_iff os hn hl, if_neg]
  intro h
  obtain ⟨o, ho, hbig⟩ := hbig
  have := (h o ho).2.2.1
  omega

/-- A plan of two files, the second of which starts beyond 2 GiB. -/
def bigColl : PColl :=
  setOffsets { dirs := [⟨-12, ⟨[], .dir, [], 0⟩, 512⟩],
               files := [⟨2147483648, ⟨[97], .reg, [], 2147483648⟩, 512⟩,
                         ⟨2147483648, ⟨[98], .reg, [], 2147483648⟩, 512⟩] }

/-- With a bucket of 2147484160 bytes the third bundle of `bigColl` is at 2147484672. -/
example : ∃ bs, createOrders 0 2147484160 0 bigColl = some bs ∧
    ∃ os ∈ bs, (∀ o ∈ os, NoTab o) ∧ ∃ o ∈ os, 2 ^ 31 ≤ o.pos := by
  refine ⟨[[⟨0, [], .dir, [], 0, 512, 0, 0⟩], [⟨0, [97], .reg, [], 2147483648, 512, 512, 0⟩],
    [⟨0, [98], .reg, [], 2147483648, 512, 2147484672, 0⟩]], ?_,
    [⟨0, [98], .reg, [], 2147483648, 512, 2147484672, 0⟩], by simp, by decide,
    _, List.mem_singleton.2 rfl, by decide⟩
  simp [createOrders, bigColl, setOffsets, placeFrom, nextBlock, blk, fileStep, dirStep, smallStep,
    planInit, orderOf, orderRaw]

/-- A file whose name contains TABs and a newline. -/
def evilOrder : Order :=
  { idx := 0, rel := [120, 9, 70, 9, 9, 51, 9, 48, 9, 48, 9, 48, 10, 48, 9, 46, 46, 47, 115],
    kind := .reg, target := [], size := 0, hdr := 5, pos := 0, off := 0 }

/-- **C17, negation** A name with a TAB does not survive: one file called
`"x\tF\t\t3\t0\t0\t0\n0\t../s"` is received as two orders, the second for the path `../s`, which
is outside the archived directory. -/
theorem C17_tab_in_name_injects :
    (∀ o ∈ [evilOrder], NoNul o ∧ FitsInt o) ∧
    parseOrders (printBundle [evilOrder]) =
      .ok [ { idx := 0, rel := [120], type := 70, target := [], size := 3, hdr := 0, pos := 0, off := 0 },
            { idx := 0, rel := [46, 46, 47, 115], type := 70, target := [], size := 0, hdr := 5, pos := 0,
              off := 0 } ] := by
  refine ⟨by decide, ?_⟩
  have e : printBundle [evilOrder] = printBundle
      [⟨0, [120], .reg, [], 3, 0, 0, 0⟩, ⟨0, [46, 46, 47, 115], .reg, [], 0, 5, 0, 0⟩] := by
    simp [printBundle, printOrder, evilOrder, decInt, digits_lt, digitChar, typeChar]
  rw [e, C17_accepts_iff _ (by decide) ?_, if_pos (by decide)]
  · rfl
  · rw [← e]
    simp [printBundle, printOrder, evilOrder, decInt, digits_lt, digitChar, typeChar]

/-- A non-trivial bundle meets the hypotheses of C17 (a name with a newline and a blank, a link). -/
def demoBundle : List Order :=
  [⟨0, [], .dir, [], 0, 512, 0, 0⟩, ⟨0, [97, 10, 32], .lnk, [47, 98], 0, 512, 512, 0⟩,
   ⟨0, [98], .reg, [], 700, 512, 1024, 0⟩]

theorem demoBundle_length : (printBundle demoBundle).length < 2 ^ 32 - 1 := by
  have h : ∀ n, n < 10000 → (digits 10 n).length ≤ 4 := fun n hn => digits_length_le (by omega) 4 n (by omega) (by omega)
  have h0 := h 0 (by omega)
  have h5 := h 512 (by omega)
  have h7 := h 700 (by omega)
  have h1 := h 1024 (by omega)
  simp only [printBundle, demoBundle, List.flatMap_cons, List.flatMap_nil, printOrder, decInt,
    List.length_append, List.length_cons, List.length_nil, List.append_nil]
  omega

example : (∀ o ∈ demoBundle, NoTab o) ∧ (∀ o ∈ demoBundle, NoNul o) ∧ (∀ o ∈ demoBundle, FitsInt o) ∧
    (printBundle demoBundle).length < 2 ^ 32 - 1 :=
  ⟨by decide, by decide, by decide, demoBundle_length⟩

/-! ### C18 -/

/-- Specification: the text begins (after blanks) with the decimal number `v`. -/
def StartsWithNumber (s : Bytes) (v : Int) : Prop :=
  ∃ ws sg ds rest : Bytes, s = ws ++ sg ++ ds ++ rest ∧
    (∀ c ∈ ws, c = 32 ∨ (9 ≤ c.toNat ∧ c.toNat ≤ 13)) ∧
    (sg = [] ∨ sg = [43] ∨ sg = [45]) ∧
    ds ≠ [] ∧ (∀ c ∈ ds, 48 ≤ c.toNat ∧ c.toNat ≤ 57) ∧
    (∀ c, rest.head? = some c → ¬ (48 ≤ c.toNat ∧ c.toNat ≤ 57)) ∧
    v = if sg = [45] then -(numVal 10 ds : Int) else (numVal 10 ds : Int)

theorem isDigit10 (c : UInt8) : isDigit 10 c = true ↔ 48 ≤ c.toNat ∧ c.toNat ≤ 57 := by
  unfold isDigit; simp; omega

theorem isSpace_iff (c : UInt8) : isSpace c = true ↔ c = 32 ∨ (9 ≤ c.toNat ∧ c.toNat ≤ 13) := by
  unfold isSpace; simp

theorem mem_takeWhile' {p : UInt8 → Bool} {s : Bytes} {c : UInt8} (h : c ∈ s.takeWhile p) : p c = true := by
  induction s with
  | nil => simp at h
  | cons x xs ih =>
    by_cases hx : p x = true
    · rw [List.takeWhile_cons_of_pos hx] at h
      rcases List.mem_cons.1 h with rfl | h
      · exact hx
      · exact ih h
    · rw [List.takeWhile_cons_of_neg hx] at h; simp at h

theorem head_dropWhile' {p : UInt8 → Bool} {s : Bytes} {c : UInt8} (h : (s.dropWhile p).head? = some c) :
    p c = false := by
  induction s with
  | nil => simp at h
  | cons x xs ih =>
    by_cases hx : p x = true
    · rw [List.dropWhile_cons_of_pos hx] at h; exact ih h
    · rw [List.dropWhile_cons_of_neg hx] at h; simp at h; subst h; simpa using hx

/-- The model of `stoi` does what the C++ standard says. -/
theorem stoi_spec (s : Bytes) (v : Int) :
    stoi s = .ok v ↔ StartsWithNumber s v ∧ -(2 ^ 31) ≤ v ∧ v < 2 ^ 31 := by
  constructor
  · intro h
    unfold stoi at h
    simp only [] at h
    generalize ht : s.dropWhile isSpace = t at h
    have hs : s = s.takeWhile isSpace ++ t := by rw [← ht]; exact (List.takeWhile_append_dropWhile).symm
    generalize hu : (if t.head? = some 45 ∨ t.head? = some 43 then t.drop 1 else t) = u at h
    unfold readNum at h
    by_cases hd : u.takeWhile (isDigit 10) = []
    · rw [if_pos hd] at h; simp at h
    · rw [if_neg hd] at h
      simp only [] at h
      have hw : ∀ c ∈ s.takeWhile isSpace, c = 32 ∨ (9 ≤ c.toNat ∧ c.toNat ≤ 13) :=
        fun c hc => (isSpace_iff c).1 (mem_takeWhile' hc)
      have hds : ∀ c ∈ u.takeWhile (isDigit 10), 48 ≤ c.toNat ∧ c.toNat ≤ 57 :=
        fun c hc => (isDigit10 c).1 (mem_takeWhile' hc)
      have hr : ∀ c, (u.dropWhile (isDigit 10)).head? = some c → ¬ (48 ≤ c.toNat ∧ c.toNat ≤ 57) := by
        intro c hc hh
        rw [← isDigit10, head_dropWhile' hc] at hh; simp at hh
      have hsplit : u = u.takeWhile (isDigit 10) ++ u.dropWhile (isDigit 10) :=
        (List.takeWhile_append_dropWhile).symm
      by_cases h45 : t.head? = some 45
      · have hb : (t.head? == some 45) = true := by simp [h45]
        simp only [hb, if_true] at h
        split at h
        · rename_i hr2
          simp only [Except.ok.injEq] at h
          refine ⟨⟨s.takeWhile isSpace, [45], _, u.dropWhile (isDigit 10), ?_, hw, by simp, hd, hds, hr, by simp [← h]⟩, by omega, by omega⟩
          have : t = [45] ++ u := by
            rw [← hu, if_pos (Or.inl h45)]
            cases t with
            | nil => simp at h45
            | cons x xs => simp at h45; simp [h45]
          rw [this] at hs
          rw [hsplit] at hs
          simpa [List.append_assoc] using hs
        · simp at h
      · have hb : (t.head? == some 45) = false := by simpa using h45
        simp only [hb, Bool.false_eq_true, if_false] at h
        split at h
        · rename_i hr2
          simp only [Except.ok.injEq] at h
          by_cases h43 : t.head? = some 43
          · refine ⟨⟨s.takeWhile isSpace, [43], _, u.dropWhile (isDigit 10), ?_, hw, by simp, hd, hds, hr, by simp [← h]⟩, by omega, by omega⟩
            have : t = [43] ++ u := by
              rw [← hu, if_pos (Or.inr h43)]
              cases t with
              | nil => simp at h43
              | cons x xs => simp at h43; simp [h43]
            rw [this] at hs
            rw [hsplit] at hs
            simpa [List.append_assoc] using hs
          · refine ⟨⟨s.takeWhile isSpace, [], _, u.dropWhile (isDigit 10), ?_, hw, by simp, hd, hds, hr, by simp [← h]⟩, by omega, by omega⟩
            have : t = u := by rw [← hu, if_neg (by simp [h45, h43])]
            rw [this] at hs
            rw [hsplit] at hs
            simpa [List.append_assoc] using hs
        · simp at h
  · rintro ⟨⟨ws, sg, ds, rest, rfl, hw, hsg, hd, hds, hr, rfl⟩, h1, h2⟩
    obtain ⟨d, hd0⟩ : ∃ d, ds.head? = some d := by
      cases ds with
      | nil => exact absurd rfl hd
      | cons d ds => exact ⟨d, rfl⟩
    have hdd : isDigit 10 d = true := (isDigit10 d).2 (hds d (by
      cases ds with
      | nil => simp at hd0
      | cons x xs => simp at hd0; simp [hd0]))
    have hrn : readNum 10 (ds ++ rest) = some (numVal 10 ds, rest) := by
      unfold readNum
      have hall : ∀ c ∈ ds, isDigit 10 c = true := fun c hc => (isDigit10 c).2 (hds c hc)
      have hst : ∀ c, rest.head? = some c → isDigit 10 c = false := by
        intro c hc
        by_contra hh
        exact hr c hc ((isDigit10 c).1 (by simpa using hh))
      rw [takeWhile_append_of_all _ _ hall hst, dropWhile_append_of_all _ _ hall hst, if_neg hd]
    have hdw : (ws ++ sg ++ ds ++ rest).dropWhile isSpace = sg ++ (ds ++ rest) := by
      rw [show ws ++ sg ++ ds ++ rest = ws ++ (sg ++ (ds ++ rest)) by simp]
      apply dropWhile_append_of_all _ _ (fun c hc => (isSpace_iff c).2 (hw c hc))
      intro c hc
      rcases hsg with rfl | rfl | rfl
      · simp [hd0] at hc; subst hc; exact isDigit_not_space hdd
      · simp at hc; subst hc; decide
      · simp at hc; subst hc; decide
    unfold stoi
    simp only [hdw]
    have hns := isDigit_not_sign hdd
    rcases hsg with rfl | rfl | rfl
    · have hh : (ds ++ rest).head? = some d := by simp [hd0]
      simp only [List.nil_append, hh, Option.some.injEq, hns.1, hns.2, or_self, if_false, hrn]
      have hb : (some d == some (45 : UInt8)) = false := by simp [hns.1]
      simp only [hb, Bool.false_eq_true, if_false]
      have h45 : ¬ (([] : Bytes) = [45]) := by simp
      rw [if_neg h45] at h1 h2 ⊢
      rw [if_pos ⟨by omega, by omega⟩]
    · have hb : (some (43 : UInt8) == some 45) = false := by decide
      simp only [List.singleton_append, List.head?_cons, or_true, if_true, List.drop_succ_cons,
        List.drop_zero, hrn, hb, Bool.false_eq_true, if_false]
      have h45 : ¬ (([43] : Bytes) = [45]) := by decide
      rw [if_neg h45] at h1 h2 ⊢
      rw [if_pos ⟨by omega, by omega⟩]
    · simp only [List.singleton_append, List.head?_cons, true_or, if_true, List.drop_succ_cons,
        List.drop_zero, hrn, beq_self_eq_true]
      simp only [if_true] at h1 h2
      rw [if_pos ⟨by omega, by omega⟩]

theorem stoi_fails {s : Bytes} (h : ¬ ∃ v, StartsWithNumber s v ∧ -(2 ^ 31) ≤ v ∧ v < 2 ^ 31) :
    stoi s = .error .thrown := by
  cases hs : stoi s with
  | ok v => exact absurd ⟨v, (stoi_spec s v).1 hs⟩ h
  | error e =>
    unfold stoi at hs
    simp only [] at hs
    split at hs
    · exact hs.symm
    · split at hs <;> split at hs <;> simp at hs <;> rw [hs]

/-- What follows clean lines decides: if the next line throws, the whole parse throws. -/
theorem parse_throws_after (os : List Order) (q : Bytes) (hn : ∀ o ∈ os, NoTab o)
    (hf : ∀ o ∈ os, FitsInt o) (hq : q ≠ []) (hl : (printBundle os ++ q).length < npos32)
    (ht : parseLine (printBundle os ++ q) (printBundle os).length = .error .thrown) :
    parseOrders (printBundle os ++ q) = .error .thrown := by
  have hql : 0 < q.length := List.length_pos_iff.2 hq
  have hb := bundle_length_le os
  have := parse_prefix q os [] (printBundle os ++ q).length hn hf (by simpa using hl)
    (by simp only [List.length_append]; omega)
  simp only [List.nil_append, List.length_nil] at this
  rw [parseOrders, this]
  obtain ⟨k, hk⟩ : ∃ k, (printBundle os ++ q).length - os.length = k + 1 :=
    ⟨(printBundle os ++ q).length - os.length - 1, by simp only [List.length_append]; omega⟩
  rw [hk, parseLoop, if_pos (by simp only [List.length_append]; omega), ht]

/-- **C18** A message cut off inside its last line (any non-empty rest `q` without a newline, e.g. a
proper prefix of a line) is rejected, whatever good lines come before it. -/
theorem C18_cut_line_rejected_partial (os : List Order) (q : Bytes) (hn : ∀ o ∈ os, NoTab o)
    (hf : ∀ o ∈ os, FitsInt o) (hq : q ≠ []) (hq10 : (10 : UInt8) ∉ q)
    (hl : (printBundle os ++ q).length < 2 ^ 32 - 1) :
    parseOrders (printBundle os ++ q) = .error .thrown := by
  apply parse_throws_after os q hn hf hq hl
  unfold parseLine
  rw [find32_missing _ _ _ (by rw [List.drop_left]; exact hq10), if_pos]
  exact hl

/-- In particular for every proper prefix of a printed line with newline-free names. -/
theorem C18_cut_order_rejected (os : List Order) (o : Order) (n : Nat) (hn : ∀ o ∈ os, NoTab o)
    (hf : ∀ o ∈ os, FitsInt o) (hr : (10 : UInt8) ∉ o.rel) (ht : (10 : UInt8) ∉ o.target)
    (h0 : 0 < n) (h1 : n < (printOrder o).length)
    (hl : (printBundle os ++ printOrder o).length < 2 ^ 32 - 1) :
    parseOrders (printBundle os ++ (printOrder o).take n) = .error .thrown := by
  have key : (10 : UInt8) ∉ (printOrder o).dropLast := by
    unfold printOrder
    rw [List.dropLast_concat]
    simp only [List.mem_append, List.mem_singleton, not_or]
    have d := fun n => digits_no 10 (by decide) n
    have i := decInt_no 10 (by decide) (by decide) o.idx
    have t : (10 : UInt8) ≠ typeChar o.kind := by cases o.kind <;> decide
    have n9 : (10 : UInt8) ≠ 9 := by decide
    simp [i, d, hr, ht, t]
  apply C18_cut_line_rejected_partial os _ hn hf
  · intro e
    have := congrArg List.length e
    simp only [List.length_take, List.length_nil] at this; omega
  · intro hm
    have hsub : (printOrder o).take n = (printOrder o).dropLast.take n := by
      rw [List.dropLast_eq_take, List.take_take, Nat.min_eq_left (by omega)]
    rw [hsub] at hm
    exact key (List.mem_of_mem_take hm)
  · simp only [List.length_append, List.length_take] at hl ⊢; omega

/-- A complete line of eight fields. -/
def line8 (f0 f1 f2 f3 f4 f5 f6 f7 : Bytes) : Bytes :=
  f0 ++ [9] ++ f1 ++ [9] ++ f2 ++ [9] ++ f3 ++ [9] ++ f4 ++ [9] ++ f5 ++ [9] ++ f6 ++ [9] ++ f7 ++ [10]

/-- **C18** A line of eight fields one of whose numeric fields does not begin with a number in the
range of `int`, or whose type is empty, is rejected, whatever comes before and after it. -/
theorem C18_bad_number_rejected_partial (os : List Order) (rest f0 f1 f2 f3 f4 f5 f6 f7 : Bytes)
    (hn : ∀ o ∈ os, NoTab o) (hf : ∀ o ∈ os, FitsInt o)
    (hclean : ∀ f ∈ [f0, f1, f2, f3, f4, f5, f6], (9 : UInt8) ∉ f) (h7 : (10 : UInt8) ∉ f7)
    (hl : (printBundle os ++ (line8 f0 f1 f2 f3 f4 f5 f6 f7 ++ rest)).length < 2 ^ 32 - 1)
    (hbad : f2 = [] ∨ ∃ f ∈ [f0, f4, f5, f6, f7],
      ¬ ∃ v, StartsWithNumber f v ∧ -(2 ^ 31) ≤ v ∧ v < 2 ^ 31) :
    parseOrders (printBundle os ++ (line8 f0 f1 f2 f3 f4 f5 f6 f7 ++ rest)) = .error .thrown := by
  have e : printBundle os ++ (line8 f0 f1 f2 f3 f4 f5 f6 f7 ++ rest) =
      printBundle os ++ lineOf f0 f1 f2 f3 f4 f5 f6 f7 ++ rest := by
    simp [line8, lineOf]
  apply parse_throws_after os _ hn hf (by simp [line8]) hl
  rw [e] at hl ⊢
  rw [parseLine_eight _ _ _ _ _ _ _ _ _ _ (hclean f0 (by simp)) (hclean f1 (by simp))
    (hclean f2 (by simp)) (hclean f3 (by simp)) (hclean f4 (by simp)) (hclean f5 (by simp))
    (hclean f6 (by simp)) h7 hl]
  have stoi_err : ∀ s e, stoi s = .error e → e = .thrown := by
    intro s e hs
    unfold stoi at hs
    simp only [] at hs
    split at hs
    · simp at hs; exact hs.symm
    · split at hs <;> split at hs <;> simp at hs <;> rw [hs]
  have : lineVal f0 f1 f2 f3 f4 f5 f6 f7 = .error .thrown := by
    unfold lineVal
    simp only [bind, Except.bind]
    cases s0 : stoi f0 with
    | error e => simp [stoi_err _ _ s0]
    | ok i =>
    cases t : f2.head? with
    | none => rfl
    | some c =>
    cases s4 : stoi f4 with
    | error e => simp [stoi_err _ _ s4]
    | ok i4 =>
    cases s5 : stoi f5 with
    | error e => simp [stoi_err _ _ s5]
    | ok i5 =>
    cases s6 : stoi f6 with
    | error e => simp [stoi_err _ _ s6]
    | ok i6 =>
    cases s7 : stoi f7 with
    | error e => simp [stoi_err _ _ s7]
    | ok i7 =>
      exfalso
      rcases hbad with rfl | ⟨f, hf, hb⟩
      · simp at t
      · have := stoi_fails hb
        simp only [List.mem_cons, List.not_mem_nil, or_false] at hf
        rcases hf with rfl | rfl | rfl | rfl | rfl <;> simp_all
  rw [this]

/-- A bad number in the size field of the second line of a message. -/
example : ∃ f, ¬ ∃ v, StartsWithNumber f v ∧ -(2 ^ 31) ≤ v ∧ v < 2 ^ 31 := by
  refine ⟨[120], ?_⟩
  rintro ⟨v, h⟩
  have := (stoi_spec [120] v).2 h
  revert this
  have : stoi [120] = .error .thrown := by decide
  rw [this]; simp

/-- **C18, negation** A line with too few fields is accepted: the message `"5\n"` gives one order,
invented from the whole buffer. -/
theorem C18_short_line_accepted :
    parseOrders [53, 10] = .ok [{ idx := 5, rel := [53, 10], type := 53, target := [53, 10], size := 5,
                                  hdr := 5, pos := 5, off := 5 }] := by decide

/-- **C18, negation** A short line after a good one makes the worker loop for ever: the good line is
`"0\ta\tL\t7\t0\t0\t0\t0\n"`, then `"5\n"`. -/
theorem C18_short_line_hangs (n : Nat) :
    parseLoop (printBundle [⟨0, [97], .lnk, [55], 0, 0, 0, 0⟩] ++ [53, 10]) n 0 = .error .hang := by
  have e : printBundle [⟨0, [97], .lnk, [55], 0, 0, 0, 0⟩] ++ [53, 10] =
      [48, 9, 97, 9, 76, 9, 55, 9, 48, 9, 48, 9, 48, 9, 48, 10, 53, 10] := by
    simp [printBundle, printOrder, decInt, digits_lt, digitChar, typeChar]
  rw [e]
  apply hang_forever
  set_option maxRecDepth 8000 in decide

/-- **C18, negation** A message cut at a line boundary is silently shorter: the first lines are
accepted and the rest is never missed. -/
theorem C18_boundary_cut_silent (os1 os2 : List Order) (hn : ∀ o ∈ os1 ++ os2, NoTab o)
    (hf : ∀ o ∈ os1 ++ os2, FitsInt o) (hl : (printBundle (os1 ++ os2)).length < 2 ^ 32 - 1) :
    parseOrders (printBundle (os1 ++ os2)) = .ok ((os1 ++ os2).map asReceived) ∧
    parseOrders ((printBundle (os1 ++ os2)).take (printBundle os1).length) = .ok (os1.map asReceived) := by
  have e : (printBundle (os1 ++ os2)).take (printBundle os1).length = printBundle os1 := by
    simp [printBundle]
  rw [e, C17_accepts_iff _ hn hl, if_pos hf, C17_accepts_iff _ (fun o ho => hn o (by simp [ho])) ?_,
    if_pos (fun o ho => hf o (by simp [ho]))]
  · exact ⟨rfl, rfl⟩
  · have : (printBundle os1).length ≤ (printBundle (os1 ++ os2)).length := by
      simp [printBundle]
    omega

/-- The fuel of `parseOrders` is not a restriction: a parse that has not ended after as many
iterations as the message has bytes never ends. -/
theorem parse_hang_forever (buf : Bytes) (h : parseOrders buf = .error .hang) (n : Nat) :
    parseLoop buf n 0 = .error .hang := hang_forever buf 0 h n

end Parfu.Props
