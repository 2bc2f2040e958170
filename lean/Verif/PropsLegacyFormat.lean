/-
Property theorems C30, continued: the text of a legacy catalog, and what the reader accepts.
-/
import Verif.PropsText
import Verif.PropsLegacyCatalog
set_option autoImplicit false

namespace Parfu.Props
open Parfu

/-- `n` in decimal, with zeros in front to make ten characters. -/
def ten (n : Nat) : Bytes := List.replicate (10 - (digits 10 n).length) 48 ++ digits 10 n

/-- One character for each type of object. -/
def typeOf : LKind → Bytes
  | .reg => asc "F"
  | .dir => asc "d"
  | .lnk => asc "L"
  | .invalid => asc "X"

/-- A line: the fields with TABs between them and a newline at the end. -/
def lineOf (fields : List Bytes) : Bytes := [9].intercalate fields ++ asc "\n"

/-- The line of an entry in the archive's own catalog. -/
def arcFields (e : Frag) : List Bytes :=
  [e.arc, typeOf e.kind, e.target, decInt e.size, decInt e.hdr, decInt e.locA]

/-- The line of an entry in the catalog handed to the ranks. -/
def fullFields (nul : Bytes) (e : Frag) : List Bytes :=
  [e.rel, e.arc, typeOf e.kind, e.target, decInt e.size, decInt e.hdr, decInt e.locA, decInt e.locO,
   decInt e.padLoc, e.padName.getD nul, decInt e.padHdr, decInt e.padSize, decInt e.nFrag, decInt e.fp,
   decInt e.bucket]

theorem pad10_ten (n : Nat) : pad10 (n : Int) = ten n := by
  show zpad 10 (digits 10 n) = _
  rfl

/-- **C30** The text of a catalog: total length, version, kind, bucket size and number of entries, each
on a line of its own of ten characters, and a line for each entry. -/
theorem C30_format (nul : Bytes) (arch : Bool) (bucket : Nat) (es : List Frag) (buf : Bytes)
    (hw : listToBuffer nul arch bucket es = .ok (some buf)) :
    buf = ten buf.length ++ asc "\nparfu_v04 \n" ++ asc (if arch then "archive   \n" else "full      \n") ++
      ten bucket ++ asc "\n" ++ ten es.length ++ asc "\n" ++
      (es.map fun e => lineOf (if arch then arcFields e else fullFields nul e)).flatten := by
  obtain ⟨t1, t2, t3⟩ := listToBuffer_text hw
  have hk : ∀ k, typeOf k = [lTypeChar k] := by intro k; cases k <;> rfl
  have hl : es.map (catLine nul arch) = es.map fun e => lineOf (if arch then arcFields e else fullFields nul e) := by
    apply List.map_congr_left
    intro e _
    cases arch
    · simp [catLine, lineFull, lineOf, fullFields, hk, asc, List.intercalate, List.intersperse]
    · simp [catLine, lineArc, lineOf, arcFields, hk, asc, List.intercalate, List.intersperse]
  conv_lhs => rw [t1]
  unfold catText
  rw [hl, pad10_ten, pad10_ten, pad10_ten]
  have e1 : versionText ++ [10] = asc "parfu_v04 \n" := by decide
  have e2 : typeText arch ++ [10] = asc (if arch then "archive   \n" else "full      \n") := by cases arch <;> decide
  have e3 : asc "\nparfu_v04 \n" = [10] ++ asc "parfu_v04 \n" := by decide
  have e4 : asc "\n" = [10] := by decide
  rw [e1, e2, e3, e4]
  simp only [List.append_assoc]

theorem startsWith_true : ∀ (lit s : Bytes), startsWith lit s = .ok true → ∃ r, s = lit ++ r := by
  intro lit
  induction lit with
  | nil => intro s _; exact ⟨s, rfl⟩
  | cons c lit ih =>
    intro s h
    cases s with
    | nil => simp [startsWith] at h
    | cons d s =>
      unfold startsWith at h
      split at h
      · rename_i hcd
        obtain ⟨r, hr⟩ := ih s h
        exact ⟨r, by rw [hr, hcd]; rfl⟩
      · cases h

theorem wrap32_fits (x : Int) : FitsI32 (wrap32 x) := by
  unfold FitsI32 wrap32
  omega

theorem readEntries_all {α : Type} {one : Bytes → Res (Option (α × Bytes))} {P : α → Prop}
    (h1 : ∀ s e r, one s = .ok (some (e, r)) → P e) (len : Nat) (total : Int) : ∀ (n : Nat) (s : Bytes) (es : List α),
    readEntries one len total n s = .ok (some es) → es.length = n ∧ ∀ e ∈ es, P e := by
  intro n
  induction n with
  | zero => intro s es h; unfold readEntries at h; cases h; simp
  | succ n ih =>
    intro s es h
    unfold readEntries at h
    split at h
    · cases h
    obtain ⟨⟨e, r⟩, h2, h3⟩ := bindRO_eq h
    obtain ⟨es', h4, h5⟩ := bindRO_eq h3
    simp only [Except.ok.injEq, Option.some.injEq] at h5
    subst h5
    obtain ⟨i1, i2⟩ := ih _ _ h4
    refine ⟨by simp [i1], ?_⟩
    intro x hx
    rcases List.mem_cons.1 hx with rfl | hx
    · exact h1 _ _ _ h2
    · exact i2 x hx

theorem strtol_inv {s : Bytes} {v : Int} {r : Bytes} (h : strtol s = .ok (some (v, r))) :
    ∃ pre : Bytes, s = pre ++ r ∧ (∃ w : Int, v = max (-(2 ^ 63)) (min w (2 ^ 63 - 1))) ∧
      (∀ c ∈ pre, isSpace c ∨ c = 45 ∨ c = 43 ∨ isDigit 10 c) := by
  unfold strtol at h
  simp only at h
  generalize hu : (if (List.dropWhile isSpace s).head? = some 45 ∨ (List.dropWhile isSpace s).head? = some 43 then
    (List.dropWhile isSpace s).drop 1 else List.dropWhile isSpace s) = u at h
  have hpre : ∃ pre, s = pre ++ u ∧ ∀ c ∈ pre, isSpace c ∨ c = 45 ∨ c = 43 := by
    have hs := (List.takeWhile_append_dropWhile (p := isSpace) (l := s)).symm
    split at hu
    · rename_i hx
      cases ht : List.dropWhile isSpace s with
      | nil => rw [ht] at hx; simp at hx
      | cons c t =>
        rw [ht] at hu hx hs
        refine ⟨s.takeWhile isSpace ++ [c], by rw [← hu]; simpa using hs, ?_⟩
        intro d hd
        rcases List.mem_append.1 hd with hd | hd
        · exact Or.inl (List.all_eq_true.mp List.all_takeWhile d hd)
        · simp only [List.mem_singleton] at hd
          subst hd
          simpa using Or.inr hx
    · refine ⟨s.takeWhile isSpace, by rw [← hu]; exact hs, fun d hd => Or.inl ?_⟩
      exact List.all_eq_true.mp List.all_takeWhile d hd
  obtain ⟨pre, hp1, hp2⟩ := hpre
  by_cases h0 : u = []
  · rw [if_pos h0] at h; cases h
  rw [if_neg h0] at h
  cases hn : readNum 10 u with
  | none => rw [hn] at h; cases h
  | some x =>
    obtain ⟨n, r'⟩ := x
    rw [hn] at h
    simp only at h
    by_cases hr : r' = []
    · rw [if_pos hr] at h; cases h
    rw [if_neg hr] at h
    obtain ⟨h1, h2⟩ := Prod.mk.inj (Option.some.inj (Except.ok.inj h))
    subst h2
    unfold readNum at hn
    split at hn
    · cases hn
    simp only [Option.some.injEq, Prod.mk.injEq] at hn
    have hd := (List.takeWhile_append_dropWhile (p := isDigit 10) (l := u)).symm
    rw [hn.2] at hd
    refine ⟨pre ++ u.takeWhile (isDigit 10), by rw [hp1, List.append_assoc, ← hd], ⟨_, h1.symm⟩, ?_⟩
    intro c hc
    rcases List.mem_append.1 hc with hc | hc
    · rcases hp2 c hc with h | h | h
      · exact Or.inl h
      · exact Or.inr (Or.inl h)
      · exact Or.inr (Or.inr (Or.inl h))
    · exact Or.inr (Or.inr (Or.inr (List.all_eq_true.mp List.all_takeWhile c hc)))

theorem nextNum_long {s : Bytes} {v : Int} {r : Bytes} (h : nextNum s = .ok (some (v, r))) : FitsLong v := by
  unfold nextNum at h
  obtain ⟨⟨v', r'⟩, h1, h2⟩ := bindRO_eq h
  simp only [Except.ok.injEq, Option.some.injEq, Prod.mk.injEq] at h2
  obtain ⟨rfl, _⟩ := h2
  obtain ⟨_, _, ⟨w, e1⟩, _⟩ := strtol_inv h1
  rw [e1]
  unfold FitsLong
  omega

theorem nextName_plain : ∀ (s n r : Bytes), nextName s = .ok (some (n, r)) → s = n ++ 9 :: r ∧ (9 : UInt8) ∉ n ∧ (0 : UInt8) ∉ n := by
  intro s
  induction s with
  | nil => intro n r h; simp [nextName] at h
  | cons c s ih =>
    intro n r h
    unfold nextName at h
    split at h
    · rename_i hc
      simp only [Except.ok.injEq, Option.some.injEq, Prod.mk.injEq] at h
      obtain ⟨rfl, rfl⟩ := h
      exact ⟨by rw [hc]; rfl, by simp, by simp⟩
    · split at h
      · cases h
      · rename_i h9 h0
        obtain ⟨⟨n', r'⟩, h1, h2⟩ := bindRO_eq h
        simp only [Except.ok.injEq, Option.some.injEq, Prod.mk.injEq] at h2
        obtain ⟨rfl, rfl⟩ := h2
        obtain ⟨i1, i2, i3⟩ := ih _ _ h1
        refine ⟨by rw [i1]; rfl, ?_, ?_⟩
        · simp only [List.mem_cons, not_or]; exact ⟨fun h => h9 h.symm, i2⟩
        · simp only [List.mem_cons, not_or]; exact ⟨fun h => h0 h.symm, i3⟩

theorem nextType_valid {s : Bytes} {k : LKind} {r : Bytes} (h : nextType s = .ok (some (k, r))) : k ≠ .invalid := by
  cases s with
  | nil => simp [nextType] at h
  | cons c s =>
    unfold nextType at h
    simp only at h
    by_cases h1 : c = 70
    · rw [if_pos h1] at h; cases h; simp
    rw [if_neg h1] at h
    by_cases h2 : c = 100
    · rw [if_pos h2] at h; cases h; simp
    rw [if_neg h2] at h
    by_cases h3 : c = 76
    · rw [if_pos h3] at h; cases h; simp
    rw [if_neg h3] at h; cases h

theorem readFull_plain {s : Bytes} {e : Frag} {r : Bytes} (h : readFull s = .ok (some (e, r))) : Plain e ∧ e.padName ≠ none := by
  unfold readFull at h
  obtain ⟨⟨rel, s1⟩, a1, h⟩ := bindRO_eq h
  obtain ⟨⟨arc, s2⟩, a2, h⟩ := bindRO_eq h
  obtain ⟨⟨kind, s3⟩, a3, h⟩ := bindRO_eq h
  obtain ⟨⟨target, s4⟩, a4, h⟩ := bindRO_eq h
  obtain ⟨⟨size, s5⟩, a5, h⟩ := bindRO_eq h
  obtain ⟨⟨hdr, s6⟩, a6, h⟩ := bindRO_eq h
  obtain ⟨⟨locA, s7⟩, a7, h⟩ := bindRO_eq h
  obtain ⟨⟨locO, s8⟩, a8, h⟩ := bindRO_eq h
  obtain ⟨⟨padLoc, s9⟩, a9, h⟩ := bindRO_eq h
  obtain ⟨⟨padName, s10⟩, a10, h⟩ := bindRO_eq h
  obtain ⟨⟨padHdr, s11⟩, a11, h⟩ := bindRO_eq h
  obtain ⟨⟨padSize, s12⟩, a12, h⟩ := bindRO_eq h
  obtain ⟨⟨nFrag, s13⟩, a13, h⟩ := bindRO_eq h
  obtain ⟨⟨fp, s14⟩, a14, h⟩ := bindRO_eq h
  obtain ⟨⟨bucket, s15⟩, a15, h⟩ := bindRO_eq h
  simp only [Except.ok.injEq, Option.some.injEq, Prod.mk.injEq] at h
  obtain ⟨rfl, _⟩ := h
  have nm : ∀ {s n r : Bytes}, nextName s = .ok (some (n, r)) → LegTabFree n := fun h =>
    ⟨(nextName_plain _ _ _ h).2.2, (nextName_plain _ _ _ h).2.1⟩
  refine ⟨?_, by simp⟩
  constructor
  · exact nm a1
  · exact nm a2
  · exact nm a4
  · intro p hp
    simp only [Option.mem_def, Option.some.injEq] at hp
    subst hp
    exact nm a10
  · exact nextType_valid a3
  · exact nextNum_long a5
  · exact nextNum_long a6
  · exact nextNum_long a7
  · exact nextNum_long a8
  · exact nextNum_long a9
  · exact nextNum_long a11
  · exact nextNum_long a12
  · exact wrap32_fits _
  · exact wrap32_fits _
  · exact wrap32_fits _

/-- **C30** Only catalogs are accepted: whatever buffer the reader is given, if it returns a list then
the buffer has the version text and the text "full      " behind its first number; the bucket size is
between 100000 and 500000000; there are at least two entries; and every entry is of one of the three
types, has names (also for its padding) without TAB and NUL, and numbers of the right width. -/
theorem C30_accepted (buf : Bytes) (bucket : Int) (es : List Frag)
    (h : readFullCatalog buf = .ok (some (bucket, es))) :
    (∃ number c d rest, buf = number ++ c :: (asc "parfu_v04 " ++ d :: (asc "full      " ++ rest)) ∧
      ∀ x ∈ number, isSpace x ∨ x = 45 ∨ x = 43 ∨ isDigit 10 x) ∧
    100000 ≤ bucket ∧ bucket ≤ 500000000 ∧ 2 ≤ es.length ∧ ∀ e ∈ es, Plain e ∧ e.padName ≠ none := by
  unfold readFullCatalog bufferToList at h
  obtain ⟨⟨total, b, n, s⟩, h1, h⟩ := bindRO_eq h
  obtain ⟨l, h2, h⟩ := bindRO_eq h
  obtain ⟨es', h3, h⟩ := bindRO_eq h
  simp only [Except.ok.injEq, Option.some.injEq, Prod.mk.injEq] at h
  obtain ⟨rfl, rfl⟩ := h
  obtain ⟨hlen, hall⟩ := readEntries_all (P := fun e => Plain e ∧ e.padName ≠ none) (fun _ _ _ h => readFull_plain h) _ _ _ _ _ h3
  have hn : 2 ≤ n := by
    unfold createList at h2
    by_cases q1 : n < 1
    · rw [if_pos q1] at h2; cases h2
    rw [if_neg q1] at h2
    by_cases q2 : n = 1
    · rw [if_pos q2] at h2; cases h2
    omega
  have hes : 2 ≤ es'.length := by rw [hlen]; omega
  unfold readHeader at h1
  obtain ⟨⟨tot, s0⟩, k1, h1⟩ := bindRO_eq h1
  simp only at h1
  unfold nextNum at k1
  obtain ⟨⟨v, r⟩, k0, k2⟩ := bindRO_eq k1
  simp only [Except.ok.injEq, Option.some.injEq, Prod.mk.injEq] at k2
  obtain ⟨_, rfl⟩ := k2
  obtain ⟨pre, p1, _, p3⟩ := strtol_inv k0
  have e1 : versionText = asc "parfu_v04 " := by decide
  have e2 : typeText false = asc "full      " := by decide
  rw [e1, e2] at h1
  cases hv : startsWith (asc "parfu_v04 ") (r.drop 1) with
  | error e => rw [hv] at h1; cases h1
  | ok t =>
    rw [hv] at h1
    cases t with
    | false => cases h1
    | true =>
      simp only at h1
      obtain ⟨r1, hr1⟩ := startsWith_true _ _ hv
      cases ht : startsWith (asc "full      ") ((r.drop 1).drop 11) with
      | error e => rw [ht] at h1; cases h1
      | ok t =>
        rw [ht] at h1
        cases t with
        | false => cases h1
        | true =>
          simp only at h1
          obtain ⟨r2, hr2⟩ := startsWith_true _ _ ht
          obtain ⟨⟨b', s1⟩, k3, h1⟩ := bindRO_eq h1
          simp only at h1
          by_cases q1 : wrap32 b' < 100000
          · rw [if_pos q1] at h1; cases h1
          rw [if_neg q1] at h1
          by_cases q2 : wrap32 b' > 500000000
          · rw [if_pos q2] at h1; cases h1
          rw [if_neg q2] at h1
          obtain ⟨⟨n', s2⟩, k4, h1⟩ := bindRO_eq h1
          simp only at h1
          by_cases q3 : wrap32 n' < 1
          · rw [if_pos q3] at h1; cases h1
          rw [if_neg q3] at h1
          simp only [Except.ok.injEq, Option.some.injEq, Prod.mk.injEq] at h1
          refine ⟨?_, by omega, by omega, hes, hall⟩
          cases r with
          | nil => rw [List.drop_nil] at hr1; cases hr1
          | cons c r0 =>
            simp only [List.drop_succ_cons, List.drop_zero] at hr1 hr2
            have hlit : (asc "parfu_v04 ").length = 10 := by decide
            rw [hr1] at hr2
            cases r1 with
            | nil =>
              rw [List.append_nil, List.drop_of_length_le (by omega)] at hr2
              cases hr2
            | cons d r1 =>
              have : (asc "parfu_v04 " ++ d :: r1).drop 11 = r1 := by
                rw [show asc "parfu_v04 " ++ d :: r1 = (asc "parfu_v04 " ++ [d]) ++ r1 by simp,
                  List.drop_append_of_le_length (by simp [hlit]), List.drop_of_length_le (by simp [hlit])]
                rfl
              rw [this] at hr2
              exact ⟨pre, c, d, r2, by rw [p1, hr1, hr2], p3⟩

/-- **C30** What has been read can be written and read again: the same list comes back. -/
theorem C30_read_write_read (nul buf buf' tail : Bytes) (hnul : LegTabFree nul) (bucket : Int) (es : List Frag)
    (h : readFullCatalog buf = .ok (some (bucket, es)))
    (hw : listToBuffer nul false bucket es = .ok (some buf')) :
    readFullCatalog (buf' ++ tail) = .ok (some (bucket, es)) := by
  obtain ⟨_, h1, h2, h3, h4⟩ := C30_accepted buf bucket es h
  exact C30_same_list_partial nul hnul bucket es buf' hw ⟨h1, h2⟩ h3 (fun e he => (h4 e he).1)
    (fun e he => (h4 e he).2) tail

/-- **C30** Exactly when a catalog comes back as it was written, whatever follows it in memory: if the
bucket size is from 100000 to 500000000, there are at least two entries, each has a padding name, and
names and targets have no TAB and no NUL (`Plain`, which also bounds the numbers by the width they have
in the program). -/
theorem C30_same_list_iff (nul : Bytes) (hnul : LegTabFree nul) (bucket : Int) (es : List Frag) (buf : Bytes)
    (hw : listToBuffer nul false bucket es = .ok (some buf)) (tail : Bytes) :
    readFullCatalog (buf ++ tail) = .ok (some (bucket, es)) ↔
      100000 ≤ bucket ∧ bucket ≤ 500000000 ∧ 2 ≤ es.length ∧ ∀ e ∈ es, Plain e ∧ e.padName ≠ none := by
  constructor
  · intro h
    exact (C30_accepted (buf ++ tail) bucket es h).2
  · rintro ⟨h1, h2, h3, h4⟩
    exact C30_same_list_partial nul hnul bucket es buf hw ⟨h1, h2⟩ h3 (fun e he => (h4 e he).1)
      (fun e he => (h4 e he).2) tail

/-- Two entries as they stand in a layout. -/
def formatDemo : List Frag :=
  [⟨[97], [97], .reg, [], 5, 512, 0, 0, 517, some [112], 0, 507, 1, 0, 0⟩,
   ⟨[108], [108], .lnk, [116], 0, 512, 1024, 0, -1, none, -1, -1, 1, 0, 0⟩]

/-- The second entry has no padding name: the list does not come back as it was. -/
example : ∃ buf, listToBuffer glibcNull false (4194304 : Nat) formatDemo = .ok (some buf) ∧
    readFullCatalog (buf ++ [0]) ≠ .ok (some (4194304, formatDemo)) := by
  obtain ⟨buf, h⟩ := C30_write_succeeds glibcNull false 4194304 (by unfold FitsI32; omega) formatDemo
    (by decide) (by decide) (by decide +kernel)
  refine ⟨buf, h, ?_⟩
  rw [ne_eq, C30_same_list_iff glibcNull (by constructor <;> decide) 4194304 formatDemo buf h [0]]
  rintro ⟨_, _, _, h⟩
  exact (h ⟨[108], [108], .lnk, [116], 0, 512, 1024, 0, -1, none, -1, -1, 1, 0, 0⟩ (by simp [formatDemo])).2 rfl

/-- A catalog can be written, and is accepted. -/
example : ∃ buf es, listToBuffer glibcNull false (4194304 : Nat) formatDemo = .ok (some buf) ∧
    readFullCatalog (buf ++ [0]) = .ok (some (4194304, es)) := by
  obtain ⟨buf, h⟩ := C30_write_succeeds glibcNull false 4194304 (by unfold FitsI32; omega) formatDemo
    (by decide) (by decide) (by decide +kernel)
  refine ⟨buf, _, h, C30_round_trip_partial glibcNull ?_ 4194304 formatDemo buf h (by omega) (by decide) ?_ [0]⟩
  · constructor <;> decide
  · intro e he
    simp only [formatDemo, List.mem_cons, List.not_mem_nil, or_false] at he
    rcases he with rfl | rfl <;> constructor <;> simp [LegTabFree, FitsLong, FitsI32]

end Parfu.Props
