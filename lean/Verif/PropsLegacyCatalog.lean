/-
Property theorems C30 and C31: parfu 0.5.1's catalog.
-/
import Verif.LegacyCatalog
import Verif.Num
import Verif.TarRead
import Verif.TarRecover
import Verif.PropsLegacyList
set_option autoImplicit false

namespace Parfu.Props
open Parfu

/-! ### Specification -/

/-- A number fits a C `long`. -/
def FitsLong (x : Int) : Prop := -(2 ^ 63) ≤ x ∧ x < 2 ^ 63

/-- A number fits a C `int`. -/
def FitsI32 (x : Int) : Prop := -(2 ^ 31) ≤ x ∧ x < 2 ^ 31

/-- A name the catalog can hold: a C string without TAB.  (Newlines are allowed.) -/
def LegTabFree (s : Bytes) : Prop := (0 : UInt8) ∉ s ∧ (9 : UInt8) ∉ s

/-- An entry of a program run: a real type, numbers of the C types, names without TAB. -/
structure Plain (e : Frag) : Prop where
  rel : LegTabFree e.rel
  arc : LegTabFree e.arc
  target : LegTabFree e.target
  pad : ∀ p ∈ e.padName, LegTabFree p
  kind : e.kind ≠ .invalid
  size : FitsLong e.size
  hdr : FitsLong e.hdr
  locA : FitsLong e.locA
  locO : FitsLong e.locO
  padLoc : FitsLong e.padLoc
  padHdr : FitsLong e.padHdr
  padSize : FitsLong e.padSize
  nFrag : FitsI32 e.nFrag
  fp : FitsI32 e.fp
  bucket : FitsI32 e.bucket

/-- An entry without padding name comes back with the text the C library prints for NULL. -/
def named (nul : Bytes) (e : Frag) : Frag := { e with padName := some (e.padName.getD nul) }

/-! ### Lemmas -/

@[simp] theorem bindRO_some {α β : Type} (a : α) (f : α → Res (Option β)) : ((.ok (some a) : Res (Option α)) >>? f) = f a := rfl
@[simp] theorem bindRO_none {α β : Type} (f : α → Res (Option β)) : ((.ok none : Res (Option α)) >>? f) = .ok none := rfl
@[simp] theorem bindRO_err {α β : Type} (e : Err) (f : α → Res (Option β)) : ((.error e : Res (Option α)) >>? f) = .error e := rfl

theorem bindRO_eq {α β : Type} {r : Res (Option α)} {f : α → Res (Option β)} {b : β}
    (h : (r >>? f) = .ok (some b)) : ∃ a, r = .ok (some a) ∧ f a = .ok (some b) := by
  unfold bindRO at h
  split at h
  · cases h
  · cases h
  · exact ⟨_, rfl, h⟩

theorem wrap32_of_fits {x : Int} (h : FitsI32 x) : wrap32 x = x := by
  unfold wrap32 FitsI32 at *; omega

theorem wrap32_le {x : Int} (h : -(2 ^ 31) ≤ x) : wrap32 x ≤ x := by
  unfold wrap32; omega

theorem digit_not_space {c : UInt8} (h : isDigit 10 c = true) : isSpace c = false := by
  unfold isDigit at h; unfold isSpace
  simp at h ⊢
  refine ⟨?_, by omega⟩
  rintro rfl
  simp at h

theorem digit_not_sign {c : UInt8} (h : isDigit 10 c = true) : c ≠ 45 ∧ c ≠ 43 := by
  unfold isDigit at h
  simp at h
  constructor <;> rintro rfl <;> simp at h

theorem nextName_eq {n : Bytes} (h : LegTabFree n) (r : Bytes) : nextName (n ++ 9 :: r) = .ok (some (n, r)) := by
  induction n with
  | nil => simp [nextName]
  | cons c n ih =>
    obtain ⟨h1, h2⟩ := h
    simp only [List.mem_cons, not_or] at h1 h2
    simp only [List.cons_append, nextName]
    rw [if_neg (fun h => h2.1 h.symm), if_neg (fun h => h1.1 h.symm), ih ⟨h1.2, h2.2⟩]
    rfl

/-- Text of a number: its digits, possibly with leading zeros. -/
theorem strtol_digits {ds : Bytes} {n : Nat} (hne : ds ≠ []) (hd : ∀ c ∈ ds, isDigit 10 c = true)
    {t : UInt8} {r : Bytes} (ht : isDigit 10 t = false) (hr : readNum 10 (ds ++ t :: r) = some (n, t :: r))
    (hn : (n : Int) < 2 ^ 63) : strtol (ds ++ t :: r) = .ok (some ((n : Int), t :: r)) := by
  obtain ⟨c, ds', rfl⟩ : ∃ c ds', ds = c :: ds' := by
    cases ds with
    | nil => exact absurd rfl hne
    | cons c ds' => exact ⟨c, ds', rfl⟩
  have hc := hd c (by simp)
  obtain ⟨h45, h43⟩ := digit_not_sign hc
  unfold strtol
  have h1 : (c :: ds' ++ t :: r).dropWhile isSpace = c :: ds' ++ t :: r := by
    simp [digit_not_space hc]
  simp only [h1]
  simp only [List.cons_append, List.head?_cons, Option.some.injEq, h45, h43, or_self, if_false]
  rw [← List.cons_append, hr]
  simp only [List.cons_append, reduceCtorEq, if_false]
  congr 3
  omega

theorem strtol_neg {ds : Bytes} {n : Nat} {t : UInt8} {r : Bytes}
    (hr : readNum 10 (ds ++ t :: r) = some (n, t :: r)) (hn : (n : Int) ≤ 2 ^ 63) :
    strtol (45 :: ds ++ t :: r) = .ok (some (-(n : Int), t :: r)) := by
  unfold strtol
  have h1 : (45 :: ds ++ t :: r).dropWhile isSpace = 45 :: ds ++ t :: r := by
    simp [isSpace]
  simp only [h1]
  simp only [List.cons_append, List.head?_cons, true_or, if_true, List.drop_succ_cons, List.drop_zero]
  rw [hr]
  rw [if_neg (by simp)]
  simp only [reduceCtorEq, if_false]
  congr 3
  omega

theorem nextNum_dec {x : Int} (h : FitsLong x) {t : UInt8} (ht : isDigit 10 t = false) (r : Bytes) :
    nextNum (decInt x ++ t :: r) = .ok (some (x, r)) := by
  unfold nextNum FitsLong at *
  cases x with
  | ofNat n =>
    have hr := readNum_digits (b := 10) (by omega) (by omega) n (t :: r) (by intro c hc; simp at hc; subst hc; exact ht)
    simp only [decInt]
    rw [strtol_digits (digits_ne_nil 10 n) (digits_isDigit (by omega) (by omega) n) ht hr (by simp at h; omega)]
    rfl
  | negSucc n =>
    have hr := readNum_digits (b := 10) (by omega) (by omega) (n + 1) (t :: r) (by intro c hc; simp at hc; subst hc; exact ht)
    simp only [decInt]
    rw [strtol_neg hr (by omega)]
    simp [Int.negSucc_eq]

theorem nextNum_pad10 {x : Int} (h : FitsLong x) {t : UInt8} (ht : isDigit 10 t = false) (r : Bytes) :
    nextNum (pad10 x ++ t :: r) = .ok (some (x, r)) := by
  unfold nextNum FitsLong at *
  cases x with
  | ofNat n =>
    have hr := readNum_zpad (b := 10) (by omega) (by omega) 10 n (t :: r) (by intro c hc; simp at hc; subst hc; exact ht)
    simp only [pad10]
    rw [strtol_digits (by unfold zpad; simp [digits_ne_nil]) (zpad_isDigit (by omega) (by omega) 10 n) ht hr
      (by simp at h; omega)]
    rfl
  | negSucc n =>
    have hr := readNum_zpad (b := 10) (by omega) (by omega) 9 (n + 1) (t :: r) (by intro c hc; simp at hc; subst hc; exact ht)
    simp only [pad10]
    rw [strtol_neg hr (by omega)]
    simp [Int.negSucc_eq]

theorem nextType_eq {k : LKind} (h : k ≠ .invalid) (r : Bytes) :
    nextType (lTypeChar k :: 9 :: r) = .ok (some (k, r)) := by
  cases k <;> simp_all [nextType, lTypeChar]

theorem tab_not_digit : isDigit 10 9 = false := by decide
theorem nl_not_digit : isDigit 10 10 = false := by decide

theorem readFull_line {nul : Bytes} (hnul : LegTabFree nul) {e : Frag} (h : Plain e) (r : Bytes) :
    readFull (lineFull nul e ++ r) = .ok (some (named nul e, r)) := by
  have hp : LegTabFree (e.padName.getD nul) := by
    cases hq : e.padName with
    | none => simpa using hnul
    | some p => simpa using h.pad p (by simp [hq])
  unfold lineFull readFull
  simp only [List.append_assoc, List.cons_append, List.nil_append]
  rw [nextName_eq h.rel, bindRO_some]
  simp only []
  rw [nextName_eq h.arc, bindRO_some]
  simp only []
  rw [nextType_eq h.kind, bindRO_some]
  simp only []
  rw [nextName_eq h.target, bindRO_some]
  simp only []
  rw [nextNum_dec h.size tab_not_digit, bindRO_some]
  simp only []
  rw [nextNum_dec h.hdr tab_not_digit, bindRO_some]
  simp only []
  rw [nextNum_dec h.locA tab_not_digit, bindRO_some]
  simp only []
  rw [nextNum_dec h.locO tab_not_digit, bindRO_some]
  simp only []
  rw [nextNum_dec h.padLoc tab_not_digit, bindRO_some]
  simp only []
  rw [nextName_eq hp, bindRO_some]
  simp only []
  rw [nextNum_dec h.padHdr tab_not_digit, bindRO_some]
  simp only []
  rw [nextNum_dec h.padSize tab_not_digit, bindRO_some]
  simp only []
  have hi : ∀ x, FitsI32 x → FitsLong x := fun x hx => by unfold FitsI32 at hx; unfold FitsLong; omega
  rw [nextNum_dec (hi _ h.nFrag) tab_not_digit, bindRO_some]
  simp only []
  rw [nextNum_dec (hi _ h.fp) tab_not_digit, bindRO_some]
  simp only []
  rw [nextNum_dec (hi _ h.bucket) nl_not_digit, bindRO_some]
  simp only [wrap32_of_fits h.nFrag, wrap32_of_fits h.fp, wrap32_of_fits h.bucket]
  rfl

/-- What an archive catalog should give back of an entry. -/
def arcRec (e : Frag) : ArcRec := ⟨e.arc, e.kind, e.target, e.size, e.hdr, e.locA⟩

theorem readArc_line {e : Frag} (h : Plain e) (r : Bytes) :
    readArc (lineArc e ++ r) = .ok (some (arcRec e, r)) := by
  unfold lineArc readArc
  simp only [List.append_assoc, List.cons_append, List.nil_append]
  rw [nextName_eq h.arc, bindRO_some]
  simp only []
  rw [nextType_eq h.kind, bindRO_some]
  simp only []
  rw [nextName_eq h.target, bindRO_some]
  simp only []
  rw [nextNum_dec h.size tab_not_digit, bindRO_some]
  simp only []
  rw [nextNum_dec h.hdr tab_not_digit, bindRO_some]
  simp only []
  rw [nextNum_dec h.locA nl_not_digit, bindRO_some]
  rfl

/-! ### Writing -/

theorem growLine_ok (size need : Nat) (h : 0 < size) : need + 1 ≤ growLine size need := by
  induction size using growLine.induct (need := need) with
  | case1 s hs ih => rw [growLine, dif_pos hs]; exact ih (by omega)
  | case2 s hs => rw [growLine, dif_neg hs]; omega

theorem growOut_ok {cap used need cap' : Nat} (h : growOut cap used need = some cap') (hu : used ≤ cap) :
    used + need + 1 ≤ cap' ∧ used ≤ cap' := by
  induction cap using growOut.induct (used := used) (need := need) with
  | case1 c h1 h2 => rw [growOut, if_pos h1, if_pos h2] at h; cases h
  | case2 c h1 h2 ih =>
    rw [growOut, if_pos h1, if_neg h2] at h
    exact ih h (by omega)
  | case3 c h1 =>
    rw [growOut, if_neg h1] at h
    simp only [Option.some.injEq] at h
    subst h
    have := wrap32_le (x := ((c : Nat) : Int) - used) (by omega)
    omega

theorem growOut_total {cap used need : Nat} (hu : used ≤ cap) (h0 : 0 < cap) (hb : used + need + 1 ≤ 500000000)
    (hc : cap - used < 2 ^ 31) : ∃ cap', growOut cap used need = some cap' ∧ 0 < cap' ∧
      (cap' - used < 2 ^ 31) := by
  induction cap using growOut.induct (used := used) (need := need) with
  | case1 c h1 h2 =>
    exfalso
    have : wrap32 ((c : Int) - used) = (c : Int) - used := by unfold wrap32; omega
    omega
  | case2 c h1 h2 ih =>
    rw [growOut, if_pos h1, if_neg h2]
    exact ih (by omega) (by omega) (by omega)
  | case3 c h1 => rw [growOut, if_neg h1]; exact ⟨c, rfl, h0, hc⟩

theorem writeLines_eq {ls cap : Nat} {out buf : Bytes} {lines : List Bytes}
    (h : writeLines ls cap out lines = .ok (some buf)) : buf = out ++ lines.flatten := by
  induction lines generalizing ls cap out with
  | nil => simp [writeLines] at h; simp [h]
  | cons l lines ih =>
    simp only [writeLines] at h
    split at h
    · cases h
    split at h
    · cases h
    rw [ih h]; simp

theorem writeLines_no_ub {ls cap : Nat} {out : Bytes} {lines : List Bytes} (hl : 0 < ls) (hc : out.length ≤ cap) :
    ∃ r, writeLines ls cap out lines = .ok r := by
  induction lines generalizing ls cap out with
  | nil => exact ⟨_, rfl⟩
  | cons l lines ih =>
    simp only [writeLines]
    split
    · exact ⟨_, rfl⟩
    rename_i cap' hg
    have h1 := growLine_ok ls l.length hl
    obtain ⟨h2, h3⟩ := growOut_ok hg hc
    rw [if_neg (by omega)]
    exact ih (by omega) (by simp; omega)

theorem writeLines_total {ls cap : Nat} {out : Bytes} {lines : List Bytes} (hl : 0 < ls) (hc : out.length ≤ cap)
    (h0 : 0 < cap) (hcap : cap - out.length < 2 ^ 31)
    (hb : out.length + lines.flatten.length + 1 ≤ 500000000) :
    ∃ r, writeLines ls cap out lines = .ok (some r) := by
  induction lines generalizing ls cap out with
  | nil => exact ⟨_, rfl⟩
  | cons l lines ih =>
    simp only [List.flatten_cons, List.length_append] at hb
    simp only [writeLines]
    obtain ⟨cap', hg, g0, g1⟩ := growOut_total (need := l.length) hc h0 (by omega) hcap
    rw [hg]
    have h1 := growLine_ok ls l.length hl
    obtain ⟨h2, h3⟩ := growOut_ok hg hc
    simp only []
    rw [if_neg (by omega)]
    exact ih (by omega) (by simp; omega) g0 (by simp; omega) (by rw [List.length_append]; omega)

theorem pad10_length {x : Int} (h : -(10 ^ 9) < x ∧ x < 10 ^ 10) : (pad10 x).length = 10 := by
  cases x with
  | ofNat n =>
    simp only [pad10]
    exact zpad_length _ _ (digits_length_le (by omega) 10 n (by omega) (by simp at h; omega))
  | negSucc n =>
    simp only [pad10, List.length_cons]
    rw [zpad_length _ _ (digits_length_le (by omega) 9 (n + 1) (by omega) (by omega))]

theorem pad10_length_inv {n : Nat} (h : (pad10 n).length = 10) : n < 10 ^ 10 := by
  by_contra hc
  have h2 : (pad10 (n : Int)).length = max 10 (digits 10 n).length := by
    show (zpad 10 (digits 10 n)).length = _
    unfold zpad; simp; omega
  have := lt_digits_length (b := 10) (by omega) 10 n (by omega)
  omega

/-- The text of a catalog: header with the real length, then the lines. -/
def catText (nul : Bytes) (arch : Bool) (bucket : Int) (es : List Frag) (len : Nat) : Bytes :=
  (pad10 len ++ [10]) ++ (versionText ++ [10]) ++ (typeText arch ++ [10]) ++ (pad10 bucket ++ [10]) ++
  (pad10 es.length ++ [10]) ++ (es.map (catLine nul arch)).flatten

theorem catText_length (nul : Bytes) (arch : Bool) (bucket : Int) (es : List Frag) {n m : Nat}
    (hn : (pad10 n).length = 10) (hm : (pad10 m).length = 10) :
    (catText nul arch bucket es n).length = (catText nul arch bucket es m).length := by
  simp [catText, hn, hm]

theorem listToBuffer_text {nul : Bytes} {arch : Bool} {bucket : Int} {es : List Frag} {buf : Bytes}
    (h : listToBuffer nul arch bucket es = .ok (some buf)) :
    buf = catText nul arch bucket es buf.length ∧ buf.length < 10 ^ 10 ∧ 200 * es.length < 2 ^ 31 := by
  unfold listToBuffer at h
  split at h
  · cases h
  rename_i h0
  obtain ⟨out, h1, h2⟩ := bindRO_eq h
  split at h2
  · cases h2
  rename_i h3
  simp only [Except.ok.injEq, Option.some.injEq] at h2
  have h3' : (pad10 out.length).length = 10 := by simpa using h3
  have ho := writeLines_eq h1
  have hz : (pad10 0).length = 10 := pad10_length (by omega)
  have hout : out = catText nul arch bucket es 0 := by
    rw [ho]; simp [catText, catHeader]
  have hbuf : buf = catText nul arch bucket es out.length := by
    rw [← h2]
    unfold catText
    simp only [List.append_assoc]
    congr 2
    rw [hout]
    unfold catText
    simp only [List.append_assoc]
    have : ∀ x : Bytes, List.drop 11 (pad10 (0 : Nat) ++ ([10] ++ x)) = x := by
      intro x
      rw [← List.append_assoc, List.drop_append_of_le_length (by simp [hz])]
      rw [List.drop_of_length_le (by simp [hz])]; rfl
    exact this _
  have hl : buf.length = out.length := by
    rw [hbuf, hout]
    exact catText_length _ _ _ _ (by rw [← hout]; exact h3') hz
  refine ⟨by rw [hl]; exact hbuf, ?_, by omega⟩
  rw [hl]; exact pad10_length_inv h3'

/-! ### Reading -/

theorem startsWith_self (lit s : Bytes) : startsWith lit (lit ++ s) = .ok true := by
  induction lit with
  | nil => simp [startsWith]
  | cons c lit ih => simp [startsWith, ih]

theorem readEntries_lines {α : Type} {one : Bytes → Res (Option (α × Bytes))} {line : Frag → Bytes} {back : Frag → α}
    {es : List Frag} (h1 : ∀ e ∈ es, ∀ r, one (line e ++ r) = .ok (some (back e, r))) (len : Nat) (total : Int)
    (tail : Bytes) (hlen : (len : Int) - tail.length ≤ total) :
    readEntries one len total es.length ((es.map line).flatten ++ tail) = .ok (some (es.map back)) := by
  induction es with
  | nil => rfl
  | cons e es ih =>
    simp only [List.length_cons, readEntries, List.map_cons, List.flatten_cons, List.append_assoc]
    rw [if_neg (by simp; omega), h1 e (by simp), bindRO_some]
    simp only []
    rw [ih (fun e' h' => h1 e' (by simp [h'])), bindRO_some]

theorem readHeader_text {nul : Bytes} {arch : Bool} {bucket : Int} {es : List Frag} {len : Nat} (tail : Bytes)
    (hl : len < 10 ^ 10) (hb : 100000 ≤ bucket ∧ bucket ≤ 500000000) (hn : 1 ≤ es.length)
    (hn' : 200 * es.length < 2 ^ 31) :
    readHeader arch (catText nul arch bucket es len ++ tail) =
      .ok (some (len, bucket, es.length, (es.map (catLine nul arch)).flatten ++ tail)) := by
  have hd : ∀ (lit r : Bytes), lit.length = 10 → List.drop 11 (lit ++ 10 :: r) = r := by
    intro lit r h
    rw [show lit ++ 10 :: r = (lit ++ [10]) ++ r by simp, List.drop_append_of_le_length (by simp [h])]
    rw [List.drop_of_length_le (by simp [h])]; rfl
  have ht : (typeText arch).length = 10 := by cases arch <;> rfl
  have w1 : wrap32 bucket = bucket := wrap32_of_fits (by unfold FitsI32; omega)
  have w2 : wrap32 (es.length : Int) = es.length := wrap32_of_fits (by unfold FitsI32; omega)
  unfold readHeader catText
  simp only [List.append_assoc, List.cons_append, List.nil_append]
  rw [nextNum_pad10 (by unfold FitsLong; omega) nl_not_digit, bindRO_some]
  simp only [startsWith_self]
  rw [hd _ _ rfl]
  simp only [startsWith_self]
  rw [hd _ _ ht, nextNum_pad10 (by unfold FitsLong; omega) nl_not_digit, bindRO_some]
  simp only [w1]
  rw [if_neg (by omega), if_neg (by omega), nextNum_pad10 (by unfold FitsLong; omega) nl_not_digit, bindRO_some]
  simp only [w2]
  rw [if_neg (by omega)]

theorem bufferToList_text {α : Type} {one : Bytes → Res (Option (α × Bytes))} {nul : Bytes} {arch : Bool}
    {back : Frag → α} {bucket : Int} {es : List Frag} {buf : Bytes} (tail : Bytes)
    (hw : listToBuffer nul arch bucket es = .ok (some buf))
    (hb : 100000 ≤ bucket ∧ bucket ≤ 500000000) (hn : 2 ≤ es.length)
    (h1 : ∀ e ∈ es, ∀ r, one ((catLine nul arch) e ++ r) = .ok (some (back e, r))) :
    bufferToList one arch (buf ++ tail) = .ok (some (bucket, es.map back)) := by
  obtain ⟨t1, t2, t3⟩ := listToBuffer_text hw
  have t0 := readHeader_text (nul := nul) (arch := arch) (bucket := bucket) (es := es) tail t2 hb (by omega) t3
  unfold bufferToList
  rw [← t1] at t0
  rw [t0, bindRO_some]
  simp only []
  unfold createList
  rw [if_neg (by omega), if_neg (by omega), bindRO_some, Int.toNat_natCast,
    readEntries_lines h1 _ _ _ (by simp), bindRO_some]

/-! ### C30 -/

/-- **C30 (partial)** Reading back a full catalog written from a list of at least two entries, with a
bucket size the reader allows, gives that bucket size and the same entries in the same order - except
that an entry without padding name (NULL) gets the text the C library prints for NULL.  It does not
matter what follows the catalog in memory.
Missing: names with TABs (`C30_tab`), lists of one entry (`C30_one_entry`) and NULL padding names. -/
theorem C30_round_trip_partial (nul : Bytes) (hnul : LegTabFree nul) (bucket : Int) (es : List Frag) (buf : Bytes)
    (hw : listToBuffer nul false bucket es = .ok (some buf))
    (hb : 100000 ≤ bucket ∧ bucket ≤ 500000000) (hn : 2 ≤ es.length) (he : ∀ e ∈ es, Plain e) (tail : Bytes) :
    readFullCatalog (buf ++ tail) = .ok (some (bucket, es.map (named nul))) :=
  bufferToList_text tail hw hb hn (fun e h r => readFull_line hnul (he e h) r)

/-- **C30** If all entries have a padding name, exactly the same list comes back. -/
theorem C30_same_list_partial (nul : Bytes) (hnul : LegTabFree nul) (bucket : Int) (es : List Frag) (buf : Bytes)
    (hw : listToBuffer nul false bucket es = .ok (some buf))
    (hb : 100000 ≤ bucket ∧ bucket ≤ 500000000) (hn : 2 ≤ es.length) (he : ∀ e ∈ es, Plain e)
    (hp : ∀ e ∈ es, e.padName ≠ none) (tail : Bytes) :
    readFullCatalog (buf ++ tail) = .ok (some (bucket, es)) := by
  rw [C30_round_trip_partial nul hnul bucket es buf hw hb hn he tail]
  congr 4
  rw [show es = es.map id by simp]
  rw [List.map_map]
  apply List.map_congr_left
  intro e h
  cases hq : e.padName with
  | none => exact absurd hq (hp e h)
  | some p => cases e; simp_all [named]

/-- **C30** The length written at the front of a catalog is its length, for full and archive
catalogs alike. -/
theorem C30_length (nul : Bytes) (arch : Bool) (bucket : Int) (es : List Frag) (buf : Bytes)
    (hw : listToBuffer nul arch bucket es = .ok (some buf)) :
    ∃ rest, buf = zpad 10 (digits 10 buf.length) ++ [10] ++ rest ∧ (zpad 10 (digits 10 buf.length)).length = 10 := by
  obtain ⟨t1, t2, _⟩ := listToBuffer_text hw
  refine ⟨buf.drop 11, ?_, pad10_length (x := (buf.length : Int)) (by omega)⟩
  have hl : (pad10 (buf.length : Int)).length = 10 := pad10_length (by omega)
  have : buf = pad10 buf.length ++ ([10] ++ ((versionText ++ [10]) ++ (typeText arch ++ [10]) ++ (pad10 bucket ++ [10]) ++
    (pad10 es.length ++ [10]) ++ (es.map (catLine nul arch)).flatten)) := by
    conv_lhs => rw [t1]
    simp [catText]
  show buf = pad10 buf.length ++ [10] ++ buf.drop 11
  generalize (versionText ++ [10]) ++ (typeText arch ++ [10]) ++ (pad10 bucket ++ [10]) ++
    (pad10 es.length ++ [10]) ++ (es.map (catLine nul arch)).flatten = x at this
  have h2 : buf.drop 11 = x := by
    conv_lhs => rw [this]
    rw [← List.append_assoc, List.drop_append_of_le_length (by simp [hl]), List.drop_of_length_le (by simp [hl])]; rfl
  rw [h2, List.append_assoc]; exact this

theorem catHeader_length {arch : Bool} {bucket : Int} (hb : FitsI32 bucket) {n : Nat} (hn : n ≤ 10737418) :
    (catHeader arch bucket n).length ≤ 56 := by
  unfold FitsI32 at hb
  have h1 : (pad10 0).length = 10 := pad10_length (by omega)
  have h2 : (pad10 (n : Int)).length = 10 := pad10_length (by omega)
  have h3 : (pad10 bucket).length ≤ 11 := by
    cases bucket with
    | ofNat m => rw [pad10_length (by simp at hb ⊢; omega)]; omega
    | negSucc m =>
      have := digits_length_le (b := 10) (by omega) 10 (m + 1) (by omega) (by omega)
      simp [pad10, zpad]; omega
  have h4 : (typeText arch).length = 10 := by cases arch <;> rfl
  have h5 : versionText.length = 10 := rfl
  unfold catHeader
  simp only [List.length_append, h1, h2, h4, h5, List.length_singleton]
  omega

/-- **C30** Writing a catalog never writes outside its buffers, for any list of 1 to 10737418 entries
and any (32-bit) bucket size: it gives a catalog or NULL. -/
theorem C30_write_safe (nul : Bytes) (arch : Bool) (bucket : Int) (hb : FitsI32 bucket) (es : List Frag)
    (hn : 1 ≤ es.length) (hn' : es.length ≤ 10737418) :
    ∃ r, listToBuffer nul arch bucket es = .ok r := by
  have hh := catHeader_length (arch := arch) hb hn'
  have hc : catCap arch es.length ≥ 200 := by unfold catCap; split <;> omega
  unfold listToBuffer
  rw [if_neg (by omega)]
  obtain ⟨r, hr⟩ := writeLines_no_ub (ls := 1000) (cap := catCap arch es.length)
    (out := catHeader arch bucket es.length) (lines := es.map (catLine nul arch)) (by omega) (by omega)
  rw [hr]
  cases r with
  | none => exact ⟨_, rfl⟩
  | some out =>
    simp only [bindRO_some]
    split <;> exact ⟨_, rfl⟩

/-- **C30** Writing gives a catalog (not NULL) whenever its length (header 56 bytes) is below 500000000 bytes (at most
ten million entries). -/
theorem C30_write_succeeds (nul : Bytes) (arch : Bool) (bucket : Int) (hb : FitsI32 bucket) (es : List Frag)
    (hn : 1 ≤ es.length) (hn' : es.length ≤ 10000000)
    (hl : 56 + (es.map (fun e => (catLine nul arch e).length)).sum < 500000000) :
    ∃ buf, listToBuffer nul arch bucket es = .ok (some buf) := by
  have hh := catHeader_length (arch := arch) hb (n := es.length) (by omega)
  have hc : catCap arch es.length ≥ 200 ∧ catCap arch es.length ≤ 2000000512 := by unfold catCap; split <;> omega
  have hfl : ((es.map (catLine nul arch)).flatten).length = (es.map (fun e => (catLine nul arch e).length)).sum := by
    rw [List.length_flatten, List.map_map]; rfl
  unfold listToBuffer
  rw [if_neg (by omega)]
  obtain ⟨r, hr⟩ := writeLines_total (ls := 1000) (cap := catCap arch es.length)
    (out := catHeader arch bucket es.length) (lines := es.map (catLine nul arch)) (by omega) (by omega) (by omega)
    (by omega) (by rw [hfl]; omega)
  rw [hr]
  have hlen : r.length < 500000000 := by
    rw [writeLines_eq hr, List.length_append, hfl]; omega
  simp only [bindRO_some]
  rw [if_neg (by simp; exact pad10_length (by omega))]
  exact ⟨_, rfl⟩

/-- **C30, violated** A catalog of one entry can be written, but reading it is undefined. -/
theorem C30_one_entry (nul : Bytes) (bucket : Int) (e : Frag) (buf : Bytes)
    (hw : listToBuffer nul false bucket [e] = .ok (some buf))
    (hb : 100000 ≤ bucket ∧ bucket ≤ 500000000) (tail : Bytes) :
    readFullCatalog (buf ++ tail) = .error .ub := by
  obtain ⟨t1, t2, t3⟩ := listToBuffer_text hw
  have t0 := readHeader_text (nul := nul) (arch := false) (bucket := bucket) (es := [e]) tail t2 hb (by simp) t3
  unfold readFullCatalog bufferToList
  rw [← t1] at t0
  rw [t0]
  rfl

theorem readHeader_refused {nul : Bytes} {arch : Bool} {bucket : Int} {es : List Frag} {len : Nat} (tail : Bytes)
    (hl : len < 10 ^ 10) (hf : FitsI32 bucket) (hb : es = [] ∨ bucket < 100000 ∨ 500000000 < bucket) (hn' : 200 * es.length < 2 ^ 31) :
    readHeader arch (catText nul arch bucket es len ++ tail) = .ok none := by
  have hd : ∀ (lit r : Bytes), lit.length = 10 → List.drop 11 (lit ++ 10 :: r) = r := by
    intro lit r h
    rw [show lit ++ 10 :: r = (lit ++ [10]) ++ r by simp, List.drop_append_of_le_length (by simp [h])]
    rw [List.drop_of_length_le (by simp [h])]; rfl
  have ht : (typeText arch).length = 10 := by cases arch <;> rfl
  have w1 : wrap32 bucket = bucket := wrap32_of_fits hf
  have w2 : wrap32 (es.length : Int) = es.length := wrap32_of_fits (by unfold FitsI32; omega)
  unfold readHeader catText
  simp only [List.append_assoc, List.cons_append, List.nil_append]
  rw [nextNum_pad10 (by unfold FitsLong; omega) nl_not_digit, bindRO_some]
  simp only [startsWith_self]
  rw [hd _ _ rfl]
  simp only [startsWith_self]
  unfold FitsI32 at hf
  rw [hd _ _ ht, nextNum_pad10 (by unfold FitsLong; omega) nl_not_digit, bindRO_some]
  simp only [w1]
  by_cases h1 : bucket < 100000
  · rw [if_pos h1]
  rw [if_neg h1]
  by_cases h2 : 500000000 < bucket
  · rw [if_pos h2]
  rw [if_neg h2, nextNum_pad10 (by unfold FitsLong; omega) nl_not_digit, bindRO_some]
  simp only [w2]
  rcases hb with rfl | hb | hb
  rotate_left
  · exact absurd hb h1
  · exact absurd hb h2
  rw [if_pos (by simp)]

/-- **C30** What the reader does not accept: a catalog of no entries, or one with a bucket size below
100000 or above 500000000, is refused, although it can be written. -/
theorem C30_refused (nul : Bytes) (bucket : Int) (es : List Frag) (buf : Bytes)
    (hw : listToBuffer nul false bucket es = .ok (some buf)) (hf : FitsI32 bucket)
    (hb : es = [] ∨ bucket < 100000 ∨ 500000000 < bucket) (tail : Bytes) :
    readFullCatalog (buf ++ tail) = .ok none := by
  obtain ⟨t1, t2, t3⟩ := listToBuffer_text hw
  have t0 := readHeader_refused (nul := nul) (arch := false) (bucket := bucket) (es := es) tail t2 hf hb t3
  unfold readFullCatalog bufferToList
  rw [← t1] at t0
  rw [t0]
  rfl

/-- An entry whose name is "a<TAB>b" (like those of the scan). -/
def tabFrag : Frag := ⟨[97, 9, 98], [97, 9, 98], .reg, [], 5, 512, -1, -1, -1, none, -1, -1, -1, -1, -1⟩

/-- "(null)", what glibc prints. -/
def glibcNull : Bytes := [40, 110, 117, 108, 108, 41]

example : ∃ buf, listToBuffer glibcNull false 99999 [tabFrag] = .ok (some buf) ∧ readFullCatalog (buf ++ [0]) = .ok none := by
  obtain ⟨buf, h⟩ := C30_write_succeeds glibcNull false 99999 (by unfold FitsI32; omega) [tabFrag] (by decide) (by decide) (by decide +kernel)
  exact ⟨buf, h, C30_refused glibcNull 99999 [tabFrag] buf h (by unfold FitsI32; omega) (Or.inr (Or.inl (by decide))) [0]⟩

/-- **C30, violated** A catalog with a TAB in a file name can be written and not read back. -/
theorem C30_tab : ∃ es buf, listToBuffer glibcNull false 4194304 es = .ok (some buf) ∧
    readFullCatalog (buf ++ [0]) = .ok none := by
  have : ∃ buf, listToBuffer glibcNull false 4194304 [tabFrag, tabFrag] = .ok (some buf) ∧
      readFullCatalog (buf ++ [0]) = .ok none := by
    obtain ⟨buf, h⟩ := C30_write_succeeds glibcNull false 4194304 (by unfold FitsI32; omega) [tabFrag, tabFrag]
      (by decide) (by decide) (by decide +kernel)
    refine ⟨buf, h, ?_⟩
    obtain ⟨t1, t2, t3⟩ := listToBuffer_text h
    have t0 := readHeader_text (nul := glibcNull) (arch := false) (bucket := 4194304) (es := [tabFrag, tabFrag]) [0] t2 (by omega) (by simp) t3
    unfold readFullCatalog bufferToList
    rw [← t1] at t0
    rw [t0]
    simp only [bindRO_some]
    have hr : readFull ((List.map (catLine glibcNull false) [tabFrag, tabFrag]).flatten ++ [0]) = .ok none := by decide +kernel
    show ((createList 2 >>? fun _ => readEntries readFull _ _ 2 _ >>? _) : Res (Option (Int × List Frag))) = _
    simp only [createList, readEntries, hr, bindRO_none]
    rw [if_neg (by omega), if_neg (by omega), bindRO_some]
    split <;> rfl
  obtain ⟨buf, h⟩ := this
  exact ⟨_, buf, h⟩

/-- Entries that meet the hypotheses of the theorems above: a name with a newline, negative and large
numbers. -/
example : Plain ⟨[97, 10, 98], [98], .lnk, [99], -2, 1536, 2 ^ 40, 0, -1, some [46], -1, 0, 1, -1, 7⟩ := by
  constructor <;> first | decide | (unfold LegTabFree; decide) | (unfold FitsLong; decide) | (unfold FitsI32; decide) | (intro p hp; simp at hp; subst hp; unfold LegTabFree; decide)

example : ∃ buf, listToBuffer glibcNull false 4194304 [exFrag 97 5, exFrag 98 7] = .ok (some buf) ∧
    (∀ e ∈ [exFrag 97 5, exFrag 98 7], Plain e) ∧ LegTabFree glibcNull := by
  obtain ⟨buf, h⟩ := C30_write_succeeds glibcNull false 4194304 (by unfold FitsI32; omega) [exFrag 97 5, exFrag 98 7]
      (by decide) (by decide) (by decide +kernel)
  refine ⟨buf, h, ?_, by unfold LegTabFree; decide⟩
  intro e he
  simp at he
  rcases he with rfl | rfl <;>
  constructor <;> first | decide | (unfold LegTabFree; decide) | (unfold FitsLong; decide) | (unfold FitsI32; decide) | (intro p hp; simp [exFrag] at hp)

/-! ### C31 -/

theorem nextNum_dot (s : Bytes) : nextNum (46 :: s) = .ok none := by
  simp [nextNum, strtol, isSpace, readNum, isDigit]

theorem legacyHeader_dot (name : Bytes) (size : Int) (mtime : Nat) (h : name.head? = some 46) :
    ∃ s, legacyHeader name size mtime = 46 :: s := by
  cases name with
  | nil => simp at h
  | cons c n => simp at h; subst h; exact ⟨_, rfl⟩

/-- **C31, violated** The catalog of no archive can be read back: whatever follows the tar header with
which the archive begins (the catalog, then the data), and whether or not the header is to be skipped,
no list is returned.  -/
theorem C31_never_read (skip : Bool) (size : Int) (mtime : Nat) (rest : Bytes) :
    ∀ x, fromFile skip (legacyHeader catalogName size mtime ++ rest) ≠ .ok (some x) := by
  intro x h
  obtain ⟨s, hs⟩ := legacyHeader_dot catalogName size mtime rfl
  rw [hs] at h
  unfold fromFile at h
  split at h
  · cases h
  obtain ⟨⟨v, r⟩, h1, h2⟩ := bindRO_eq h
  simp only [] at h2
  split at h2
  · cases h2
  obtain ⟨⟨b, es⟩, h3, _⟩ := bindRO_eq h2
  unfold readArcCatalog bufferToList readHeader at h3
  cases hn : (wrap32 (v + 512)).toNat with
  | zero => rw [hn] at h3; simp [nextNum, strtol] at h3
  | succ n =>
    rw [hn] at h3
    simp only [List.cons_append, List.take_succ_cons] at h3
    rw [nextNum_dot] at h3
    simp at h3

/-- The stat buffer that would give the same header. -/
def rootStat (size : Int) (mtime : Nat) : Stat := { kind := .reg, perm := 0o600, uid := 0, gid := 0, size := size, mtime := mtime }

/-- A password file with root. -/
def rootEnv : Env := { pwName := fun _ => some [114, 111, 111, 116], grName := fun _ => some [114, 111, 111, 116] }

theorem legacyHeader_ustar (name : Bytes) {size : Int} {mtime : Nat} (h : size < 8589934591) (hm : mtime < 2 ^ 64) :
    ustarBlock rootEnv 0 (rootStat size mtime) name [] = .ok (legacyHeader name size mtime) := by
  have hf : ∀ chk, ustarFields 0 (rootStat size mtime) name [] [114, 111, 111, 116] [114, 111, 111, 116] chk =
      legacyFields name size mtime chk := by
    intro chk
    have h1 : size < maxFileSize := by unfold maxFileSize; omega
    have h2 : u64 (mtime : Int) = mtime := by rw [u64_of_nonneg (by omega) (by omega)]; simp
    have h3 : fieldOct 8 384 = [48, 48, 48, 48, 54, 48, 48, 0] := by decide +kernel
    have h4 : fieldOct 8 0 = [48, 48, 48, 48, 48, 48, 48, 0] := by decide +kernel
    have h5 : fieldStr 100 [] = zeros 100 := rfl
    simp [ustarFields, legacyFields, rootStat, h1, h2, h3, h4, h5, typeFlag, REGTYPE, fieldSnprintf]
  unfold ustarBlock legacyHeader
  simp only [rootEnv]
  rw [if_neg (by simp [rootStat])]
  simp only [hf]

theorem legacyHeader_length (name : Bytes) {size : Int} {mtime : Nat} (h : size < 8589934591) (hm : mtime < 2 ^ 64) :
    (legacyHeader name size mtime).length = 512 := ustarBlock_length (legacyHeader_ustar name h hm)

theorem strtol_take11 {nul : Bytes} {arch : Bool} {bucket : Int} {es : List Frag} {cat : Bytes} (rest : Bytes)
    (hw : listToBuffer nul arch bucket es = .ok (some cat)) :
    11 ≤ cat.length ∧ strtol ((cat ++ rest).take 11) = .ok (some ((cat.length : Int), [10])) := by
  obtain ⟨r, h1, h2⟩ := C30_length nul arch bucket es cat hw
  obtain ⟨_, t2, _⟩ := listToBuffer_text hw
  generalize hz : zpad 10 (digits 10 cat.length) = z at h1 h2
  have hlen : 11 ≤ cat.length := by rw [h1]; simp; omega
  refine ⟨hlen, ?_⟩
  have : (cat ++ rest).take 11 = z ++ [10] := by
    rw [List.take_append_of_le_length hlen, h1]
    rw [List.take_append_of_le_length (by simp [h2]), List.take_of_length_le (by simp [h2])]
  rw [this, ← hz]
  have hr := readNum_zpad (b := 10) (by omega) (by omega) 10 cat.length [10] (by intro c hc; simp at hc; subst hc; decide)
  exact strtol_digits (by unfold zpad; simp [digits_ne_nil]) (zpad_isDigit (by omega) (by omega) 10 _) nl_not_digit hr (by omega)

/-- **C31, violated** For the archive of any list NULL is returned, in either mode. -/
theorem C31_null (skip : Bool) (nul : Bytes) (bucket : Int) (es : List Frag) (cat rest : Bytes) (mtime : Nat)
    (hm : mtime < 2 ^ 64) (hl : cat.length < 2 ^ 31 - 512)
    (hw : listToBuffer nul true bucket es = .ok (some cat)) :
    fromFile skip (legacyHeader catalogName cat.length mtime ++ cat ++ rest) = .ok none := by
  have hlen := legacyHeader_length catalogName (size := cat.length) (mtime := mtime) (by omega) hm
  obtain ⟨h11, hst⟩ := strtol_take11 rest hw
  obtain ⟨s, hs⟩ := legacyHeader_dot catalogName cat.length mtime rfl
  unfold fromFile
  cases skip with
  | false =>
    rw [if_neg (by simp [lengthAt, hlen]; omega)]
    simp only [lengthAt, Bool.false_eq_true, if_false]
    rw [hs]
    simp [strtol, isSpace, readNum, isDigit]
  | true =>
    have hd : lengthAt true (legacyHeader catalogName cat.length mtime ++ cat ++ rest) = cat ++ rest := by
      simp only [lengthAt, if_true]
      rw [List.append_assoc, List.drop_append_of_le_length (by omega), List.drop_of_length_le (by omega)]; rfl
    rw [hd, if_neg (by simp; omega), hst, bindRO_some]
    simp only []
    have hw32 : wrap32 ((cat.length : Int) + 512) = cat.length + 512 := wrap32_of_fits (by unfold FitsI32; omega)
    rw [hw32, if_neg (by simp [hlen]; omega)]
    rw [show ((cat.length : Int) + 512).toNat = (cat.length + 511) + 1 by omega, hs]
    simp only [List.cons_append, List.take_succ_cons]
    unfold readArcCatalog bufferToList readHeader
    rw [nextNum_dot]
    rfl

/-- **C31 (partial)** An archive catalog without the tar header, followed by at least 512 bytes, can be
read back; what comes back is the entry's archive name, type, target, sizes and location.
Missing: a catalog as it is in an archive, after its tar header. -/
theorem C31_bare_catalog_partial (nul : Bytes) (bucket : Int) (es : List Frag) (cat rest : Bytes)
    (hw : listToBuffer nul true bucket es = .ok (some cat)) (hl : cat.length < 2 ^ 31 - 512)
    (hb : 100000 ≤ bucket ∧ bucket ≤ 500000000) (hn : 2 ≤ es.length) (he : ∀ e ∈ es, Plain e)
    (hr : 512 ≤ rest.length) :
    fromFile false (cat ++ rest) = .ok (some (bucket, es.map arcRec, cat.length + 512)) := by
  obtain ⟨h11, hst⟩ := strtol_take11 rest hw
  have hd : lengthAt false (cat ++ rest) = cat ++ rest := rfl
  unfold fromFile
  rw [hd, if_neg (by simp; omega), hst, bindRO_some]
  simp only []
  have hw32 : wrap32 ((cat.length : Int) + 512) = cat.length + 512 := wrap32_of_fits (by unfold FitsI32; omega)
  rw [hw32, if_neg (by simp; omega)]
  rw [show ((cat.length : Int) + 512).toNat = cat.length + 512 by omega]
  rw [show (cat ++ rest).take (cat.length + 512) = cat ++ rest.take 512 by
    rw [List.take_append, List.take_of_length_le (by omega)]; simp]
  unfold readArcCatalog
  rw [bufferToList_text (back := arcRec) (rest.take 512) hw hb hn (fun e h r => readArc_line (he e h) r)]
  rfl

/-- **C31** Such a catalog is read back exactly if 512 bytes follow it: a file that holds only the catalog,
or that was cut, is refused. -/
theorem C31_bare_catalog_iff (nul : Bytes) (bucket : Int) (es : List Frag) (cat rest : Bytes)
    (hw : listToBuffer nul true bucket es = .ok (some cat)) (hl : cat.length < 2 ^ 31 - 512)
    (hb : 100000 ≤ bucket ∧ bucket ≤ 500000000) (hn : 2 ≤ es.length) (he : ∀ e ∈ es, Plain e) :
    fromFile false (cat ++ rest) =
      if 512 ≤ rest.length then .ok (some (bucket, es.map arcRec, cat.length + 512)) else .ok none := by
  by_cases hr : 512 ≤ rest.length
  · rw [if_pos hr]; exact C31_bare_catalog_partial nul bucket es cat rest hw hl hb hn he hr
  · rw [if_neg hr]
    obtain ⟨h11, hst⟩ := strtol_take11 rest hw
    have hd : lengthAt false (cat ++ rest) = cat ++ rest := rfl
    unfold fromFile
    rw [hd, if_neg (by simp; omega), hst, bindRO_some]
    simp only []
    have hw32 : wrap32 ((cat.length : Int) + 512) = cat.length + 512 := wrap32_of_fits (by unfold FitsI32; omega)
    rw [hw32, if_pos (by simp; omega)]

/-- **C31** A file of fewer than 11 bytes (523 after a tar header) is refused. -/
theorem C31_short_file (skip : Bool) (file : Bytes) (h : file.length < if skip then 523 else 11) :
    fromFile skip file = .ok none := by
  unfold fromFile
  rw [if_pos]
  cases skip with
  | false => simpa [lengthAt] using h
  | true => simp at h; simp [lengthAt]; omega

example : fromFile false [48, 49] = .ok none := C31_short_file false _ (by decide)

example : ∃ cat, listToBuffer glibcNull true 4194304 [exFrag 97 5, exFrag 98 7] = .ok (some cat) ∧
    cat.length < 2 ^ 31 - 512 := by
  obtain ⟨buf, h⟩ := C30_write_succeeds glibcNull true 4194304 (by unfold FitsI32; omega) [exFrag 97 5, exFrag 98 7]
      (by decide) (by decide) (by decide +kernel)
  refine ⟨buf, h, ?_⟩
  obtain ⟨t1, t2, t3⟩ := listToBuffer_text h
  rw [t1, catText_length _ _ _ _ (m := 0) (pad10_length (by omega)) (pad10_length (by omega))]
  decide +kernel

end Parfu.Props
